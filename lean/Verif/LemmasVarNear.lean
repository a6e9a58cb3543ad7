import Verif.LemmasDouble
import Verif.SpecVariance
import Verif.ModelVar

/-!
# The computed variance is near the true one
-/

namespace Verif

theorem sum_le_sum_sq (l : List ℕ) : l.sum ≤ (l.map fun v => v ^ 2).sum := by
  induction l with
  | nil => simp
  | cons v l ih =>
    rw [List.sum_cons, List.map_cons, List.sum_cons]
    have : v ≤ v ^ 2 := by nlinarith [Nat.zero_le v, Nat.le_mul_self v]
    omega

theorem listVar_formula {l : List ℕ} (h : l ≠ []) :
    listVar l = ((l.map fun v => v ^ 2).sum : ℕ) / (l.length : ℝ) - ((l.sum : ℕ) / (l.length : ℝ)) * ((l.sum : ℕ) / (l.length : ℝ)) := by
  have hn : (l.length : ℝ) ≠ 0 := by
    have := List.length_pos_iff.2 h
    positivity
  have key : ∀ (l : List ℕ) (m : ℝ), (l.map fun v : ℕ => ((v : ℝ) - m) ^ 2).sum = ((l.map fun v => v ^ 2).sum : ℕ) - 2 * m * (l.sum : ℕ) + l.length * m ^ 2 := by
    intro l m
    induction l with
    | nil => simp
    | cons v l ih =>
      rw [List.map_cons, List.sum_cons, ih, List.map_cons, List.sum_cons, List.sum_cons, List.length_cons]
      push_cast; ring
  unfold listVar
  rw [key]
  field_simp
  ring

theorem meanSq_formula (l : List ℕ) : meanSq l = ((l.map fun v => v ^ 2).sum : ℕ) / (l.length : ℝ) := by
  unfold meanSq
  congr 1
  rw [Nat.cast_list_sum, List.map_map]
  congr 1
  exact List.map_congr_left fun v _ => by simp

theorem listVar_nonneg (l : List ℕ) : 0 ≤ listVar l := by
  unfold listVar
  refine div_nonneg (List.sum_nonneg fun x hx => ?_) (by positivity)
  obtain ⟨v, -, rfl⟩ := List.mem_map.1 hx
  positivity

/-- The values of the list are not all equal: the variance is at least half the inverse of their number. -/
theorem listVar_ge {l : List ℕ} (h : ¬ ∀ u ∈ l, ∀ v ∈ l, u = v) : 1 / (2 * (l.length : ℝ)) ≤ listVar l := by
  push Not at h
  obtain ⟨u, hu, v, hv, huv⟩ := h
  have hne : l ≠ [] := List.ne_nil_of_mem hu
  have h2 : 2 ≤ l.length := by
    match l, hu, hv with
    | [], hu, _ => simp at hu
    | [a], hu, hv =>
      rw [List.mem_singleton] at hu hv
      exact absurd (hu.trans hv.symm) huv
    | _ :: _ :: _, _, _ => simp
  have hs := spread_ge (l := l.map fun v : ℕ => (v : ℤ)) ⟨u, List.mem_map.2 ⟨u, hu, rfl⟩, v, List.mem_map.2 ⟨v, hv, rfl⟩, by exact_mod_cast huv⟩
  rw [List.length_map, List.map_map] at hs
  have e1 : (l.map fun v : ℕ => (v : ℤ)).sum = ((l.sum : ℕ) : ℤ) := by rw [Nat.cast_list_sum]
  have e2 : (l.map ((fun v : ℤ => v ^ 2) ∘ fun v : ℕ => (v : ℤ))).sum = (((l.map fun v => v ^ 2).sum : ℕ) : ℤ) := by
    rw [Nat.cast_list_sum, List.map_map]
    simp [Function.comp_def]
  rw [e1, e2] at hs
  have hs : (l.length : ℝ) - 1 ≤ l.length * ((l.map fun v => v ^ 2).sum : ℕ) - ((l.sum : ℕ) : ℝ) ^ 2 := by exact_mod_cast hs
  rw [listVar_formula hne]
  have hn : (2 : ℝ) ≤ l.length := by exact_mod_cast h2
  generalize (l.length : ℝ) = n at *
  generalize (((l.map fun v => v ^ 2).sum : ℕ) : ℝ) = q at *
  generalize ((l.sum : ℕ) : ℝ) = s at *
  have hn0 : 0 < n := by linarith
  have : q / n - s / n * (s / n) = (n * q - s ^ 2) / n ^ 2 := by field_simp
  rw [this, div_le_div_iff₀ (by positivity) (by positivity)]
  nlinarith

theorem same_sums {l : List ℕ} {v : ℕ} (h : ∀ u ∈ l, u = v) : l.sum = l.length * v ∧ (l.map fun v => v ^ 2).sum = l.length * v ^ 2 := by
  have : l = List.replicate l.length v := List.eq_replicate_of_mem h
  rw [this]
  simp

/-- The two computations of `subSquare` differ in the number used for the square. -/
theorem subSquare_eq (fma : Bool) (ex2 ex : ℝ) : ∃ q, |q - ex * ex| ≤ 2 ^ (-53 : ℤ) * (ex * ex) ∧ subSquare fma ex2 ex = rnd (ex2 - q) ∧
    (rnd (ex * ex) = ex * ex → q = ex * ex) := by
  cases fma
  · refine ⟨rnd (ex * ex), ?_, rfl, id⟩
    have := rnd_err (ex * ex)
    rwa [abs_of_nonneg (mul_self_nonneg ex)] at this
  · exact ⟨ex * ex, by rw [sub_self, abs_zero]; have := mul_self_nonneg ex; positivity, rfl, fun _ => rfl⟩

/-- VAR in `double`, for any list of integers whose squares add up to less than 2^48. -/
theorem var_near (fma : Bool) {l : List ℕ} (hne : l ≠ []) (hl : l.length < 2 ^ 53) (hq : (l.map fun v => v ^ 2).sum < 2 ^ 48) :
    let v := subSquare fma (rnd (rnd ((l.map fun v => v ^ 2).sum : ℕ) / rnd l.length)) (rnd (rnd (l.sum : ℕ) / rnd l.length))
    0 ≤ v ∧ (v = 0 ↔ ∀ u ∈ l, ∀ v ∈ l, u = v) ∧ |v - listVar l| ≤ 8 * 2 ^ (-53 : ℤ) * meanSq l := by
  have hs := sum_le_sum_sq l
  have hV := listVar_formula hne
  have hV0 := listVar_nonneg l
  have hlen : 0 < l.length := List.length_pos_iff.2 hne
  rw [rnd_nat hl, rnd_nat (show l.sum < 2 ^ 53 by omega), rnd_nat (show (l.map fun v => v ^ 2).sum < 2 ^ 53 by omega), meanSq_formula]
  set n := (l.length : ℝ) with hn
  set M := ((l.map fun v => v ^ 2).sum : ℕ) / n with hM
  set m := (l.sum : ℕ) / n with hm
  have hn0 : 0 < n := by rw [hn]; exact_mod_cast hlen
  have hm0 : 0 ≤ m := by positivity
  have hM0 : 0 ≤ M := by positivity
  set ex := rnd m with hex
  set ex2 := rnd M with hex2
  obtain ⟨q, hq1, hq2, hq3⟩ := subSquare_eq fma ex2 ex
  have h1 := rnd_err m
  have h2 := rnd_err M
  rw [abs_of_nonneg hm0] at h1
  rw [abs_of_nonneg hM0] at h2
  have hu0 : (0 : ℝ) ≤ 2 ^ (-53 : ℤ) := by positivity
  have hu : (2 : ℝ) ^ (-53 : ℤ) ≤ 1 / 1000 := by norm_num
  have hmM : m ^ 2 ≤ M := by rw [hV] at hV0; nlinarith
  have hV' : listVar l = M - m ^ 2 := by rw [hV]; ring
  have hw := diff_near hu0 hu hm0 hmM h1 h2 hq1
  rw [← hV'] at hw
  have ha := rnd_err (ex2 - q)
  have hVM : listVar l ≤ M := by rw [hV']; linarith [sq_nonneg m]
  have hnear := last_near hu0 hu hV0 hVM hw ha
  intro v
  have hv : v = rnd (ex2 - q) := hq2
  rw [hv]
  refine ⟨?_, ?_, hnear⟩
  all_goals by_cases hsame : ∀ u ∈ l, ∀ v ∈ l, u = v
  pick_goal 2
  pick_goal 4
  -- not all equal: the difference is positive
  any_goals
    have hge := listVar_ge hsame
    have hpos : 0 < ex2 - q := by
      have hMb : M < 2 ^ 48 / n := by
        rw [hM]
        exact div_lt_div_of_pos_right (by exact_mod_cast hq) hn0
      have h5 : 5 * (2 : ℝ) ^ (-53 : ℤ) * M < 1 / (2 * n) := by
        have e : 1 / (2 * n) = (1 / 2) * (1 / n) := by field_simp
        have e' : 2 ^ 48 / n = 2 ^ 48 * (1 / n) := by field_simp
        rw [e'] at hMb
        have hn1 : 0 < 1 / n := by positivity
        rw [e]
        norm_num at hMb ⊢
        nlinarith
      have := (abs_le.1 hw).1
      rw [← hex2] at this
      rw [← hn] at hge
      clear_value M n ex2
      generalize 5 * (2 : ℝ) ^ (-53 : ℤ) * M = X at h5 this
      generalize 1 / (2 * n) = Y at h5 hge
      linarith only [hge, this, h5]
    have := rnd_pos hpos
  · exact ⟨fun h => absurd h this.ne', fun h => absurd h hsame⟩
  · exact this.le
  -- all equal: every step is exact
  all_goals
    obtain ⟨v0, hv0⟩ := List.exists_mem_of_ne_nil l hne
    obtain ⟨e1, e2⟩ := same_sums (v := v0) fun u hu => hsame u hu v0 hv0
    have hv24 : v0 ^ 2 < 2 ^ 48 := by nlinarith
    have hvl : v0 ≤ v0 ^ 2 := by nlinarith [Nat.le_mul_self v0]
    have em : m = (v0 : ℝ) := by
      rw [hm, e1, hn]; push_cast; field_simp
    have eM : M = ((v0 ^ 2 : ℕ) : ℝ) := by
      rw [hM, e2, hn]; push_cast; field_simp
    have eex : ex = (v0 : ℝ) := by rw [hex, em, rnd_nat (by omega)]
    have eex2 : ex2 = ((v0 ^ 2 : ℕ) : ℝ) := by rw [hex2, eM, rnd_nat (by omega)]
    have esq : ex * ex = ((v0 ^ 2 : ℕ) : ℝ) := by rw [eex]; push_cast; ring
    have eq : q = ((v0 ^ 2 : ℕ) : ℝ) := by
      rw [← esq]; exact hq3 (by rw [esq, rnd_nat (by omega)])
    rw [eex2, eq, sub_self, rnd_zero]
  · exact ⟨fun _ => hsame, fun _ => rfl⟩

/-- The answer of the server is a good computed variance or standard deviation. -/
theorem varAnswer_near (fma std : Bool) {l : List ℕ} (hne : l ≠ []) (hl : l.length < 2 ^ 53) (hq : (l.map fun v => v ^ 2).sum < 2 ^ 48) :
    ∃ a, varAnswer fma std (l.sum : ℕ) ((l.map fun v => v ^ 2).sum : ℕ) l.length = some a ∧
      NearVar std (listVar l) (meanSq l) (∀ u ∈ l, ∀ v ∈ l, u = v) a := by
  obtain ⟨h0, hz, hn⟩ := var_near fma hne hl hq
  have hlen : l.length ≠ 0 := (List.length_pos_iff.2 hne).ne'
  have hM0 : 0 ≤ meanSq l := by rw [meanSq_formula]; positivity
  have hVM : listVar l ≤ meanSq l := by
    rw [meanSq_formula, listVar_formula hne]
    linarith [mul_self_nonneg (((l.sum : ℕ) : ℝ) / l.length)]
  have hu0 : (0 : ℝ) ≤ 2 ^ (-53 : ℤ) := by positivity
  have hu : (2 : ℝ) ^ (-53 : ℤ) ≤ 1 / 1000 := by norm_num
  unfold varAnswer NearVar
  rw [if_neg hlen]
  simp only [Int.cast_natCast]
  generalize subSquare fma _ _ = v at h0 hz hn
  cases std
  · refine ⟨v, by simp, h0, hz, ?_⟩
    simp only [Bool.false_eq_true, if_false]
    refine hn.trans (mul_le_mul_of_nonneg_right (by norm_num) hM0)
  · refine ⟨rnd (Real.sqrt v), by simp [not_lt.2 h0], rnd_nonneg (Real.sqrt_nonneg v), ?_, ?_⟩
    · rw [← hz]
      constructor
      · intro h
        by_contra hv
        have : 0 < v := lt_of_le_of_ne h0 (Ne.symm hv)
        exact absurd h (rnd_pos (Real.sqrt_pos.2 this)).ne'
      · rintro rfl
        rw [Real.sqrt_zero, rnd_zero]
    · have hs := rnd_err (Real.sqrt v)
      rw [abs_of_nonneg (Real.sqrt_nonneg v)] at hs
      have := root_near hu0 hu (listVar_nonneg l) hVM h0 hn hs
      simp only [if_true]
      refine this.trans (mul_le_mul_of_nonneg_right (by norm_num) hM0)

end Verif
