import Verif.ModelDouble
import Mathlib.Algebra.Order.Field.Power
import Mathlib.Tactic.Linarith
import Mathlib.Tactic.NormNum
import Mathlib.Tactic.Positivity
import Mathlib.Tactic.FieldSimp
import Mathlib.Tactic.Ring
import Mathlib.Algebra.Order.BigOperators.Group.List

/-!
# Facts about rounding
-/

namespace Verif

theorem nearEven_near (x : ℝ) : |(nearEven x : ℝ) - x| ≤ 1 / 2 := by
  have h0 := Int.floor_le x
  have h1 := Int.lt_floor_add_one x
  unfold nearEven
  split_ifs with a b c
  · rw [abs_le]; constructor <;> linarith
  · push_cast; rw [abs_le]; constructor <;> linarith
  · rw [abs_le]; constructor <;> linarith
  · push_cast; rw [abs_le]; constructor <;> linarith

theorem nearEven_int (m : ℤ) : nearEven (m : ℝ) = m := by
  unfold nearEven
  rw [Int.floor_intCast, if_pos (by norm_num)]

theorem nearEven_neg_iff (x : ℝ) (h : x ≤ -1) : nearEven x < 0 := by
  have := (abs_le.1 (nearEven_near x)).2
  have : (nearEven x : ℝ) < 0 := by linarith
  exact_mod_cast this

theorem spacing_pos (x : ℝ) : 0 < spacing x := by unfold spacing; positivity

theorem spacing_le {x : ℝ} (hx : x ≠ 0) : spacing x ≤ 2 ^ (-52 : ℤ) * |x| := by
  unfold spacing
  have h := Int.zpow_log_le_self (b := 2) (r := |x|) (by norm_num) (abs_pos.2 hx)
  rw [sub_eq_add_neg, zpow_add₀ (by norm_num), mul_comm]
  exact mul_le_mul_of_nonneg_left (by exact_mod_cast h) (by positivity)

/-- The relative error of one rounding is at most 2^-53. -/
theorem rnd_err (x : ℝ) : |rnd x - x| ≤ 2 ^ (-53 : ℤ) * |x| := by
  unfold rnd
  split_ifs with h
  · subst h; simp
  · have hs := spacing_pos x
    have e : (nearEven (x / spacing x) : ℝ) * spacing x - x = ((nearEven (x / spacing x) : ℝ) - x / spacing x) * spacing x := by
      field_simp
    rw [e, abs_mul, abs_of_pos hs]
    calc _ ≤ 1 / 2 * spacing x := mul_le_mul_of_nonneg_right (nearEven_near _) hs.le
      _ ≤ 1 / 2 * (2 ^ (-52 : ℤ) * |x|) := mul_le_mul_of_nonneg_left (spacing_le h) (by norm_num)
      _ = _ := by rw [← mul_assoc]; norm_num

theorem rnd_zero : rnd 0 = 0 := by simp [rnd]

/-- A multiple of `2 ^ k` below `2 ^ (k + 53)` is a `double`: rounding leaves it alone. -/
theorem rnd_exact {x : ℝ} {k m : ℤ} (hx : x = m * 2 ^ k) (hm : |x| < 2 ^ (k + 53)) : rnd x = x := by
  unfold rnd
  split_ifs with h
  · exact h.symm
  · have hpos := abs_pos.2 h
    have hlog : Int.log 2 |x| < k + 53 := (Int.lt_zpow_iff_log_lt (by norm_num) hpos).1 (by exact_mod_cast hm)
    have hs := spacing_pos x
    obtain ⟨j, hj⟩ := Int.eq_ofNat_of_zero_le (show 0 ≤ k - (Int.log 2 |x| - 52) by omega)
    have e : x / spacing x = ((m * 2 ^ j : ℤ) : ℝ) := by
      rw [div_eq_iff hs.ne']
      push_cast
      unfold spacing
      rw [mul_assoc, ← zpow_natCast (2 : ℝ) j, ← zpow_add₀ (by norm_num), ← hj, sub_add_cancel]
      exact hx
    rw [e, nearEven_int, ← e]
    field_simp

/-- Integers below 2^53 are `double`s. -/
theorem rnd_nat {n : ℕ} (h : n < 2 ^ 53) : rnd (n : ℝ) = n := by
  refine rnd_exact (k := 0) (m := n) (by simp) ?_
  rw [abs_of_nonneg (by positivity)]
  exact_mod_cast h

theorem rnd_int {z : ℤ} (h : |z| < 2 ^ 53) : rnd (z : ℝ) = z := by
  refine rnd_exact (k := 0) (m := z) (by simp) ?_
  exact_mod_cast h

theorem rnd_nonneg {x : ℝ} (h : 0 ≤ x) : 0 ≤ rnd x := by
  have := (abs_le.1 (rnd_err x)).1
  rw [abs_of_nonneg h] at this
  have : (2 : ℝ) ^ (-53 : ℤ) * x ≤ 1 * x := mul_le_mul_of_nonneg_right (by norm_num) h
  linarith

theorem rnd_pos {x : ℝ} (h : 0 < x) : 0 < rnd x := by
  have := (abs_le.1 (rnd_err x)).1
  rw [abs_of_pos h] at this
  have : (2 : ℝ) ^ (-53 : ℤ) * x < 1 * x := mul_lt_mul_of_pos_right (by norm_num) h
  linarith

theorem rnd_neg {x : ℝ} (h : x < 0) : rnd x < 0 := by
  have := (abs_le.1 (rnd_err x)).2
  rw [abs_of_neg h] at this
  have : (2 : ℝ) ^ (-53 : ℤ) * -x < 1 * -x := mul_lt_mul_of_pos_right (by norm_num) (by linarith)
  linarith

/-- A rounded number is a multiple of `2 ^ k` if its size is at least `2 ^ (k + 52)`. -/
theorem rnd_grid {x : ℝ} {k : ℤ} (h : 2 ^ (k + 52) ≤ |x|) : ∃ m : ℤ, rnd x = m * 2 ^ k := by
  have hx : x ≠ 0 := by
    intro e; rw [e, abs_zero] at h
    exact absurd h (not_le.2 (by positivity))
  have hlog : k + 52 ≤ Int.log 2 |x| := (Int.zpow_le_iff_le_log (by norm_num) (abs_pos.2 hx)).1 (by exact_mod_cast h)
  obtain ⟨j, hj⟩ := Int.eq_ofNat_of_zero_le (show 0 ≤ Int.log 2 |x| - 52 - k by omega)
  refine ⟨nearEven (x / spacing x) * 2 ^ j, ?_⟩
  unfold rnd
  rw [if_neg hx]
  push_cast
  rw [mul_assoc, ← zpow_natCast (2 : ℝ) j, ← zpow_add₀ (by norm_num), ← hj]
  congr 1
  unfold spacing
  congr 1
  ring

theorem rnd_grid' {x : ℝ} {k : ℤ} (h : x = 0 ∨ 2 ^ (k + 52) ≤ |x|) : ∃ m : ℤ, rnd x = m * 2 ^ k := by
  rcases h with rfl | h
  · exact ⟨0, by rw [rnd_zero]; simp⟩
  · exact rnd_grid h

/-- A multiple of `2 ^ k` is 0 or at least `2 ^ k`. -/
theorem grid_ge {k m : ℤ} {x : ℝ} (h : x = m * 2 ^ k) : x = 0 ∨ 2 ^ k ≤ |x| := by
  rcases eq_or_ne m 0 with rfl | hm
  · left; simpa using h
  · right
    rw [h, abs_mul, abs_of_pos (by positivity : (0 : ℝ) < 2 ^ k)]
    have : (1 : ℝ) ≤ |(m : ℝ)| := by exact_mod_cast Int.one_le_abs hm
    nlinarith [show (0 : ℝ) < 2 ^ k by positivity]

/-! ## The error of `ex2 - (ex * ex)` -/

/-- The difference before the last rounding; `q` is `ex * ex`, rounded or not. -/
theorem diff_near {u M m ex ex2 q : ℝ} (hu0 : 0 ≤ u) (hu : u ≤ 1 / 1000) (hm : 0 ≤ m) (hM : m ^ 2 ≤ M) (h1 : |ex - m| ≤ u * m)
    (h2 : |ex2 - M| ≤ u * M) (h3 : |q - ex * ex| ≤ u * (ex * ex)) : |ex2 - q - (M - m ^ 2)| ≤ 5 * u * M := by
  have hA : 0 ≤ m ^ 2 := sq_nonneg m
  obtain ⟨a1, a2⟩ := abs_le.1 h1
  obtain ⟨b1, b2⟩ := abs_le.1 h2
  obtain ⟨c1, c2⟩ := abs_le.1 h3
  have hum : u * m ≤ m := by nlinarith
  have hex : 0 ≤ ex := by linarith
  have hum2 : 0 ≤ u * m ^ 2 := by positivity
  have huu : u * (u * m ^ 2) ≤ 1 / 1000 * (u * m ^ 2) := mul_le_mul_of_nonneg_right hu hum2
  have hup : ex * ex ≤ m ^ 2 + 21 / 10 * (u * m ^ 2) := by
    have : ex * ex ≤ (m + u * m) * (m + u * m) := mul_le_mul (by linarith) (by linarith) hex (by linarith [mul_nonneg hu0 hm])
    nlinarith
  have hlo : m ^ 2 - 21 / 10 * (u * m ^ 2) ≤ ex * ex := by
    have : (m - u * m) * (m - u * m) ≤ ex * ex := mul_le_mul (by linarith) (by linarith) (by linarith) hex
    nlinarith
  have hq : u * (ex * ex) ≤ 11 / 10 * (u * m ^ 2) := by
    have : u * (ex * ex) ≤ u * (m ^ 2 + 21 / 10 * (u * m ^ 2)) := mul_le_mul_of_nonneg_left hup hu0
    nlinarith
  have hmM : u * m ^ 2 ≤ u * M := mul_le_mul_of_nonneg_left hM hu0
  rw [abs_le]
  constructor <;> nlinarith

theorem last_near {u M V w a : ℝ} (hu0 : 0 ≤ u) (hu : u ≤ 1 / 1000) (hV0 : 0 ≤ V) (hV : V ≤ M) (hw : |w - V| ≤ 5 * u * M) (ha : |a - w| ≤ u * |w|) :
    |a - V| ≤ 8 * u * M := by
  have hM : 0 ≤ M := hV0.trans hV
  have huM : 0 ≤ u * M := mul_nonneg hu0 hM
  obtain ⟨b1, b2⟩ := abs_le.1 hw
  have hab : |w| ≤ 2 * M := by
    rw [abs_le]; constructor <;> nlinarith
  have : u * |w| ≤ u * (2 * M) := mul_le_mul_of_nonneg_left hab hu0
  obtain ⟨c1, c2⟩ := abs_le.1 (ha.trans this)
  rw [abs_le]
  constructor <;> nlinarith

theorem root_near {u M V a s : ℝ} (hu0 : 0 ≤ u) (hu : u ≤ 1 / 1000) (hV0 : 0 ≤ V) (hV : V ≤ M) (ha0 : 0 ≤ a) (ha : |a - V| ≤ 8 * u * M)
    (hs : |s - Real.sqrt a| ≤ u * Real.sqrt a) : |s ^ 2 - V| ≤ 16 * u * M := by
  have hM : 0 ≤ M := hV0.trans hV
  have huM : 0 ≤ u * M := mul_nonneg hu0 hM
  set r := Real.sqrt a with hr
  have hr0 : 0 ≤ r := Real.sqrt_nonneg a
  have hra : r ^ 2 = a := Real.sq_sqrt ha0
  obtain ⟨b1, b2⟩ := abs_le.1 ha
  obtain ⟨c1, c2⟩ := abs_le.1 hs
  have haM : a ≤ 2 * M := by nlinarith
  have hua : 0 ≤ u * a := mul_nonneg hu0 ha0
  have huu : u * (u * a) ≤ 1 / 1000 * (u * a) := mul_le_mul_of_nonneg_right hu hua
  have hur : u * r ≤ r := by nlinarith
  have hs0 : 0 ≤ s := by linarith
  have h1 : s ^ 2 ≤ a + 3 * (u * a) := by
    have : s * s ≤ (r + u * r) * (r + u * r) := mul_le_mul (by linarith) (by linarith) hs0 (by linarith [mul_nonneg hu0 hr0])
    nlinarith
  have h2 : a - 3 * (u * a) ≤ s ^ 2 := by
    have : (r - u * r) * (r - u * r) ≤ s * s := mul_le_mul (by linarith) (by linarith) (by linarith) hs0
    nlinarith
  have hm : u * a ≤ u * (2 * M) := mul_le_mul_of_nonneg_left haM hu0
  rw [abs_le]
  constructor <;> nlinarith

/-! ## Sums of integers -/

/-- `n` times the sum of squares exceeds the square of the sum by at least `n - 1`, unless all numbers are equal. -/
theorem spread_ge {l : List ℤ} (hne : ∃ u ∈ l, ∃ v ∈ l, u ≠ v) :
    (l.length : ℤ) - 1 ≤ l.length * (l.map fun v => v ^ 2).sum - l.sum ^ 2 := by
  obtain ⟨x, hx, y, hy, hxy⟩ := hne
  have hn : (0 : ℤ) < l.length := by exact_mod_cast List.length_pos_of_mem hx
  set n := (l.length : ℤ) with hnd
  set a := l.sum / n with ha
  set r := l.sum % n with hr
  have hS : l.sum = n * a + r := (Int.mul_ediv_add_emod _ _).symm
  have hr0 : 0 ≤ r := Int.emod_nonneg _ hn.ne'
  have hr1 : r < n := Int.emod_lt_of_pos _ hn
  -- the sums of the differences from `a`
  have key : ∀ l : List ℤ, (l.map fun v => (v - a) ^ 2).sum = (l.map fun v => v ^ 2).sum - 2 * a * l.sum + l.length * a ^ 2 := by
    intro l
    induction l with
    | nil => simp
    | cons v l ih =>
      rw [List.map_cons, List.sum_cons, ih, List.map_cons, List.sum_cons, List.sum_cons, List.length_cons]
      push_cast; ring
  have hge : ∀ l : List ℤ, l.sum - l.length * a ≤ (l.map fun v => (v - a) ^ 2).sum := by
    intro l
    induction l with
    | nil => simp
    | cons v l ih =>
      rw [List.map_cons, List.sum_cons, List.sum_cons, List.length_cons]
      have : v - a ≤ (v - a) ^ 2 := by
        rcases le_or_gt (v - a) 0 with h | h <;> nlinarith
      push_cast; linarith
  have e : n * (l.map fun v => v ^ 2).sum - l.sum ^ 2 = n * (l.map fun v => (v - a) ^ 2).sum - r ^ 2 := by
    rw [key, hS]; ring
  rw [e]
  have h1 := hge l
  rw [hS] at h1
  have h1 : r ≤ (l.map fun v => (v - a) ^ 2).sum := by linarith
  rcases hr0.eq_or_lt with h0 | h0
  · have h2 : 1 ≤ (l.map fun v => (v - a) ^ 2).sum := by
      have hz : ∃ z ∈ l, z ≠ a := by
        by_cases hxa : x = a
        · exact ⟨y, hy, fun h => hxy (hxa.trans h.symm)⟩
        · exact ⟨x, hx, hxa⟩
      obtain ⟨z, hz, hza⟩ := hz
      have hle : (z - a) ^ 2 ≤ (l.map fun v => (v - a) ^ 2).sum :=
        List.single_le_sum (fun t ht => by obtain ⟨v, -, rfl⟩ := List.mem_map.1 ht; positivity) _ (List.mem_map.2 ⟨z, hz, rfl⟩)
      have : 0 < (z - a) ^ 2 := by have : z - a ≠ 0 := sub_ne_zero.2 hza; positivity
      omega
    rw [← h0]
    nlinarith
  · nlinarith

end Verif
