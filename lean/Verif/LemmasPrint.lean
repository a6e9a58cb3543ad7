import Verif.ModelPrint
import Verif.LemmasDouble
import Mathlib.Tactic.IntervalCases

/-!
# Reading what was printed
-/

namespace Verif

/-! ## A reader of decimal numbers -/

/-- The value of a list of digits. -/
def decVal (l : List ℕ) : ℕ := l.foldl (fun a d => 10 * a + d) 0

/-- A digit. -/
def readDigit (c : Char) : Option ℕ := if '0' ≤ c ∧ c ≤ '9' then some (c.toNat - '0'.toNat) else none

/-- A non-empty sequence of digits. -/
def readNat (t : Text) : Option ℕ := if t = [] then none else (t.mapM readDigit).map decVal

/-- Nothing, or a point and digits: the fraction. -/
def readFrac : Text → Option ℚ
  | [] => some 0
  | '.' :: t => (readNat t).map fun n : ℕ => (n : ℚ) / 10 ^ t.length
  | _ => none

/-- Nothing, or `e`, a sign and digits: the exponent. -/
def readExp : Text → Option ℤ
  | [] => some 0
  | 'e' :: '+' :: t => (readNat t).map fun n : ℕ => (n : ℤ)
  | 'e' :: '-' :: t => (readNat t).map fun n : ℕ => -(n : ℤ)
  | _ => none

/-- Digits, fraction, exponent. -/
def readMag (t : Text) : Option ℚ :=
  let m := t.takeWhile fun c => c != 'e'
  (readNat (m.takeWhile fun c => c != '.')).bind fun a => (readFrac (m.dropWhile fun c => c != '.')).bind fun b =>
    (readExp (t.dropWhile fun c => c != 'e')).map fun z => (a + b) * 10 ^ z

/-- A decimal number with an optional minus sign. -/
def readNum : Text → Option ℚ
  | '-' :: t => (readMag t).map fun v => -v
  | t => readMag t

/-! ## Digits -/

theorem foldl_dec (l : List ℕ) (a : ℕ) : l.foldl (fun a d => 10 * a + d) a = a * 10 ^ l.length + decVal l := by
  induction l generalizing a with
  | nil => simp [decVal]
  | cons d l ih =>
    have h : decVal (d :: l) = (10 * 0 + d) * 10 ^ l.length + decVal l := ih _
    rw [List.foldl_cons, ih, h, List.length_cons]
    ring

theorem decVal_append (l m : List ℕ) : decVal (l ++ m) = decVal l * 10 ^ m.length + decVal m := by
  rw [decVal, List.foldl_append, foldl_dec]; rfl

theorem decVal_zeros (k : ℕ) : decVal (List.replicate k 0) = 0 := by
  induction k with
  | zero => rfl
  | succ k ih => rw [List.replicate_succ', decVal_append, ih]; rfl

@[simp] theorem digitsOf_length (k n : ℕ) : (digitsOf k n).length = k := by simp [digitsOf]

theorem digitsOf_lt {k n d : ℕ} (h : d ∈ digitsOf k n) : d < 10 := by
  obtain ⟨i, -, rfl⟩ := List.mem_map.1 h
  exact Nat.mod_lt _ (by norm_num)

theorem digitsOf_succ (k n : ℕ) : digitsOf (k + 1) n = digitsOf k (n / 10) ++ [n % 10] := by
  unfold digitsOf
  rw [List.range_succ, List.map_append]
  congr 1
  · refine List.map_congr_left fun i hi => ?_
    have := List.mem_range.1 hi
    rw [show k + 1 - 1 - i = k - 1 - i + 1 by omega, pow_succ', Nat.div_div_eq_div_mul]
  · simp

theorem decVal_digits (k n : ℕ) (h : n < 10 ^ k) : decVal (digitsOf k n) = n := by
  induction k generalizing n with
  | zero => simp at h; subst h; rfl
  | succ k ih =>
    rw [digitsOf_succ, decVal_append, ih _ (by rw [pow_succ] at h; omega)]
    simp [decVal]
    omega

theorem dropZeros_split (l : List ℕ) : ∃ k, l = dropZeros l ++ List.replicate k 0 := by
  have key : ∀ m : List ℕ, ∃ k, m = List.replicate k 0 ++ m.dropWhile fun d => d = 0 := by
    intro m
    induction m with
    | nil => exact ⟨0, rfl⟩
    | cons d m ih =>
      by_cases h : d = 0
      · obtain ⟨k, hk⟩ := ih
        refine ⟨k + 1, ?_⟩
        rw [List.dropWhile_cons_of_pos (by simpa using h), List.replicate_succ, List.cons_append, ← hk, h]
      · exact ⟨0, by rw [List.dropWhile_cons_of_neg (by simpa using h)]; rfl⟩
  obtain ⟨k, hk⟩ := key l.reverse
  refine ⟨k, ?_⟩
  have := congrArg List.reverse hk
  rwa [List.reverse_append, List.reverse_reverse, List.reverse_replicate] at this

theorem frac_dropZeros (l : List ℕ) : (decVal (dropZeros l) : ℚ) / 10 ^ (dropZeros l).length = decVal l / 10 ^ l.length := by
  obtain ⟨k, h⟩ := dropZeros_split l
  generalize dropZeros l = m at h
  subst h
  rw [decVal_append, decVal_zeros, List.length_append, List.length_replicate, add_zero, pow_add]
  push_cast
  field_simp

theorem readDigit_char {d : ℕ} (h : d < 10) : readDigit (digitChar d) = some d ∧ digitChar d ≠ 'e' ∧ digitChar d ≠ '.' ∧ digitChar d ≠ '-' := by
  interval_cases d <;> decide

theorem readNat_digits {l : List ℕ} (h0 : l ≠ []) (h : ∀ d ∈ l, d < 10) : readNat (l.map digitChar) = some (decVal l) := by
  have : (l.map digitChar).mapM readDigit = some l := by
    clear h0
    induction l with
    | nil => rfl
    | cons d l ih =>
      rw [List.map_cons, List.mapM_cons, ih fun d hd => h d (List.mem_cons_of_mem _ hd), (readDigit_char (h d List.mem_cons_self)).1]
      rfl
  rw [readNat, if_neg (by simpa using h0), this]; rfl

theorem point_parts {i f : List ℕ} (hi : i ≠ []) (h9 : ∀ d ∈ i ++ f, d < 10) {E : Text} {z : ℤ} (hE : readExp E = some z)
    (hE' : E = [] ∨ ∃ t, E = 'e' :: t) :
    readMag (showPoint i f ++ E) = some ((decVal (i ++ f) : ℚ) / 10 ^ f.length * 10 ^ z) := by
  have hi9 : ∀ d ∈ i, d < 10 := fun d hd => h9 d (List.mem_append_left _ hd)
  obtain ⟨k, hk⟩ := dropZeros_split f
  have hf9 : ∀ d ∈ dropZeros f, d < 10 := fun d hd => h9 d (List.mem_append_right _ (by rw [hk]; exact List.mem_append_left _ hd))
  have hne : ∀ c ∈ showPoint i f, (c != 'e') = true := by
    intro c hc
    rw [showPoint, List.mem_append] at hc
    rcases hc with hc | hc
    · obtain ⟨d, hd, rfl⟩ := List.mem_map.1 hc
      simpa using (readDigit_char (hi9 d hd)).2.1
    · split at hc
      · cases hc
      · rcases List.mem_cons.1 hc with rfl | hc
        · decide
        · obtain ⟨d, hd, rfl⟩ := List.mem_map.1 hc
          simpa using (readDigit_char (hf9 d hd)).2.1
  have hnp : ∀ c ∈ i.map digitChar, (c != '.') = true := by
    intro c hc
    obtain ⟨d, hd, rfl⟩ := List.mem_map.1 hc
    simpa using (readDigit_char (hi9 d hd)).2.2.1
  have e1 : (showPoint i f ++ E).takeWhile (fun c => c != 'e') = showPoint i f := by
    rw [List.takeWhile_append_of_pos hne]
    rcases hE' with rfl | ⟨t, rfl⟩ <;> simp
  have e2 : (showPoint i f ++ E).dropWhile (fun c => c != 'e') = E := by
    rw [List.dropWhile_append_of_pos hne]
    rcases hE' with rfl | ⟨t, rfl⟩ <;> simp
  have e3 : (showPoint i f).takeWhile (fun c => c != '.') = i.map digitChar := by
    rw [showPoint, List.takeWhile_append_of_pos hnp]
    split <;> simp
  have e4 : (showPoint i f).dropWhile (fun c => c != '.') = if dropZeros f = [] then [] else '.' :: (dropZeros f).map digitChar := by
    rw [showPoint, List.dropWhile_append_of_pos hnp]
    split <;> simp
  have e5 : readFrac (if dropZeros f = [] then [] else '.' :: (dropZeros f).map digitChar) = some ((decVal f : ℚ) / 10 ^ f.length) := by
    rw [← frac_dropZeros]
    split
    · next h => rw [h]; simp [readFrac, decVal]
    · next h => simp [readFrac, readNat_digits h hf9]
  simp only [readMag, e1, e2, e3, e4, e5, readNat_digits hi hi9, hE, Option.bind_some, Option.map_some]
  congr 2
  rw [decVal_append]
  push_cast
  field_simp

theorem readExp_plus (t : Text) : readExp ('e' :: '+' :: t) = (readNat t).map fun n : ℕ => (n : ℤ) := by simp [readExp]

theorem readExp_minus (t : Text) : readExp ('e' :: '-' :: t) = (readNat t).map fun n : ℕ => -(n : ℤ) := by simp [readExp]

theorem readExp_show (e : ℤ) : readExp (showExp e) = some e := by
  have hl : e.natAbs < 10 ^ (max 2 (Nat.log 10 e.natAbs + 1)) :=
    lt_of_lt_of_le (Nat.lt_pow_succ_log_self (by norm_num) _) (Nat.pow_le_pow_right (by norm_num) (le_max_right _ _))
  have hr := readNat_digits (l := digitsOf (max 2 (Nat.log 10 e.natAbs + 1)) e.natAbs)
    (fun h => by have := congrArg List.length h; simp at this) (fun d => digitsOf_lt)
  rw [decVal_digits _ _ hl] at hr
  unfold showExp
  by_cases h : e < 0
  · rw [if_pos h]
    rw [readExp_minus, hr, Option.map_some, show -(e.natAbs : ℤ) = e by omega]
  · rw [if_neg h]
    rw [readExp_plus, hr, Option.map_some, show (e.natAbs : ℤ) = e by omega]

theorem zpow_shift (d : ℚ) (a : ℕ) (e : ℤ) (h : e = 5 - a) : d / 10 ^ a = d * 10 ^ (e - 5) := by
  subst h
  rw [show (5 - (a : ℤ) - 5) = -(a : ℤ) by ring, zpow_neg, zpow_natCast, div_eq_mul_inv]

theorem showSig_read {d : ℕ} (hd : d < 10 ^ 6) (e : ℤ) : readMag (showSig d e) = some ((d : ℚ) * 10 ^ (e - 5)) ∧
    ∃ c t, showSig d e = c :: t ∧ c ≠ '-' := by
  have hl : (digitsOf 6 d).length = 6 := digitsOf_length _ _
  have hv : decVal (digitsOf 6 d) = d := decVal_digits _ _ hd
  have h9 : ∀ x ∈ digitsOf 6 d, x < 10 := fun x => digitsOf_lt
  have head : ∀ {i f : List ℕ} (E : Text), i ≠ [] → (∀ d ∈ i, d < 10) → ∃ c t, showPoint i f ++ E = c :: t ∧ c ≠ '-' := by
    intro i f E hi h
    obtain ⟨x, i, rfl⟩ := List.exists_cons_of_ne_nil hi
    exact ⟨digitChar x, _, rfl, (readDigit_char (h x List.mem_cons_self)).2.2.2⟩
  generalize hL : digitsOf 6 d = l at hl hv h9
  unfold showSig
  rw [hL]
  simp only []
  have hne : ∀ k, l.take (k + 1) ≠ [] := fun k h => by have := congrArg List.length h; simp [hl] at this
  by_cases c1 : 0 ≤ e ∧ e < 6
  · rw [if_pos c1]
    have := point_parts (i := l.take (e.toNat + 1)) (f := l.drop (e.toNat + 1)) (hne _) (by rw [List.take_append_drop]; exact h9) (E := []) rfl (Or.inl rfl)
    rw [List.append_nil, List.take_append_drop, hv, zpow_zero, mul_one, List.length_drop, hl, zpow_shift _ _ e (by omega)] at this
    refine ⟨this, ?_⟩
    have := head (i := l.take (e.toNat + 1)) (f := l.drop (e.toNat + 1)) [] (hne _) fun d hd => h9 d (List.mem_of_mem_take hd)
    rwa [List.append_nil] at this
  · rw [if_neg c1]
    by_cases c2 : -4 ≤ e ∧ e < 0
    · rw [if_pos c2]
      have := point_parts (i := [0]) (f := List.replicate ((-e).toNat - 1) 0 ++ l) (by simp) (by
        intro x hx
        simp only [List.mem_append, List.mem_cons, List.not_mem_nil, or_false, List.mem_replicate] at hx
        rcases hx with rfl | ⟨-, rfl⟩ | hx
        · norm_num
        · norm_num
        · exact h9 x hx) (E := []) rfl (Or.inl rfl)
      rw [List.append_nil, zpow_zero, mul_one, List.length_append, List.length_replicate, hl, ← List.append_assoc, decVal_append,
        ← List.replicate_one, List.replicate_append_replicate, decVal_zeros, hv, zero_mul, zero_add, zpow_shift _ _ e (by omega)] at this
      rw [List.replicate_one] at this
      refine ⟨this, ?_⟩
      have := head (i := [0]) (f := List.replicate ((-e).toNat - 1) 0 ++ l) [] (by simp) (by simp)
      rwa [List.append_nil] at this
    · rw [if_neg c2]
      have := point_parts (i := l.take 1) (f := l.drop 1) (hne 0) (by rw [List.take_append_drop]; exact h9) (readExp_show e) (Or.inr ⟨_, rfl⟩)
      rw [List.take_append_drop, hv, List.length_drop, hl] at this
      refine ⟨?_, head _ (hne 0) fun d hd => h9 d (List.mem_of_mem_take hd)⟩
      rw [this, sub_eq_add_neg, zpow_add₀ (by norm_num)]
      congr 1
      rw [show (10 : ℚ) ^ (-5 : ℤ) = (10 ^ (6 - 1))⁻¹ by norm_num [zpow_neg]]
      ring

/-! ## Rounding to six digits -/

theorem sixDigits_spec {x : ℝ} (hx : 0 < x) :
    10 ^ 5 ≤ (sixDigits x).1 ∧ (sixDigits x).1 < 10 ^ 6 ∧ |((sixDigits x).1 : ℝ) * 10 ^ ((sixDigits x).2 - 5) - x| ≤ 5 / 10 ^ 6 * x ∧
      ∀ k j : ℤ, k < 10 ^ 6 → x = k * 10 ^ j → ((sixDigits x).1 : ℝ) * 10 ^ ((sixDigits x).2 - 5) = x := by
  have h1 := Int.zpow_log_le_self (b := 10) (r := x) (by norm_num) hx
  have h2 := Int.lt_zpow_succ_log_self (b := 10) (by norm_num) x
  push_cast at h1 h2
  set e := Int.log 10 x with he
  set y := x / 10 ^ (e - 5) with hy
  have hp : (0 : ℝ) < 10 ^ (e - 5) := by positivity
  have hxy : x = y * 10 ^ (e - 5) := by rw [hy]; field_simp
  have e5 : (10 : ℝ) ^ e = 10 ^ 5 * 10 ^ (e - 5) := by
    rw [← zpow_natCast, ← zpow_add₀ (by norm_num)]; congr 1; push_cast; ring
  have e6 : (10 : ℝ) ^ (e + 1) = 10 ^ 6 * 10 ^ (e - 5) := by
    rw [← zpow_natCast, ← zpow_add₀ (by norm_num)]; congr 1; push_cast; ring
  have y1 : 10 ^ 5 ≤ y := by rw [hy, le_div_iff₀ hp, ← e5]; exact h1
  have y2 : y < 10 ^ 6 := by rw [hy, div_lt_iff₀ hp, ← e6]; exact h2
  have hn := abs_le.1 (nearEven_near y)
  have n1 : 10 ^ 5 ≤ nearEven y := by
    have : ((10 ^ 5 : ℤ) : ℝ) - 1 < nearEven y := by push_cast; linarith [hn.1]
    have : ((10 ^ 5 - 1 : ℤ) : ℝ) < nearEven y := by push_cast at this ⊢; linarith
    have := Int.cast_lt.1 this
    omega
  have n2 : nearEven y ≤ 10 ^ 6 := by
    have : (nearEven y : ℝ) < ((10 ^ 6 + 1 : ℤ) : ℝ) := by push_cast; linarith [hn.2]
    have := Int.cast_lt.1 this
    omega
  have hcast : ((nearEven y).toNat : ℝ) = nearEven y := by
    have : ((nearEven y).toNat : ℤ) = nearEven y := Int.toNat_of_nonneg (by omega)
    exact_mod_cast congrArg (Int.cast (R := ℝ)) this
  have hval : ((sixDigits x).1 : ℝ) * 10 ^ ((sixDigits x).2 - 5) = nearEven y * 10 ^ (e - 5) := by
    unfold sixDigits
    simp only [← he, ← hy]
    split
    · next h =>
      rw [← hcast, h]
      push_cast
      rw [show e + 1 - 5 = (e - 5) + 1 by ring, zpow_add₀ (by norm_num), zpow_one]
      ring
    · rw [hcast]
  have hrange : 10 ^ 5 ≤ (sixDigits x).1 ∧ (sixDigits x).1 < 10 ^ 6 := by
    unfold sixDigits
    simp only [← he, ← hy]
    split
    · norm_num
    · next h => constructor <;> simp only [] <;> omega
  refine ⟨hrange.1, hrange.2, ?_, ?_⟩
  · rw [hval]
    nth_rw 1 [hxy]
    rw [← sub_mul, abs_mul, abs_of_pos hp]
    calc |(nearEven y : ℝ) - y| * 10 ^ (e - 5) ≤ 1 / 2 * 10 ^ (e - 5) := mul_le_mul_of_nonneg_right (nearEven_near y) hp.le
      _ = 5 / 10 ^ 6 * 10 ^ e := by rw [e5]; ring
      _ ≤ _ := mul_le_mul_of_nonneg_left h1 (by positivity)
  · intro k j hk hkj
    rw [hval]
    have hj : e - 5 ≤ j := by
      by_contra hc
      have hj1 : j ≤ e - 6 := by omega
      have hk0 : (0 : ℝ) < 10 ^ j := by positivity
      have hkr : (k : ℝ) < 10 ^ 6 := by exact_mod_cast hk
      have a1 : x < 10 ^ 6 * 10 ^ j := by rw [hkj]; exact mul_lt_mul_of_pos_right hkr hk0
      have a2 : (10 : ℝ) ^ 6 * 10 ^ j ≤ 10 ^ e := by
        rw [← zpow_natCast, ← zpow_add₀ (by norm_num)]
        exact zpow_le_zpow_right₀ (by norm_num) (by push_cast; omega)
      linarith
    obtain ⟨a, ha⟩ := Int.eq_ofNat_of_zero_le (show 0 ≤ j - (e - 5) by omega)
    have hyk : y = ((k * 10 ^ a : ℤ) : ℝ) := by
      rw [hy, hkj, div_eq_iff hp.ne']
      push_cast
      rw [mul_assoc, ← zpow_natCast, ← zpow_add₀ (by norm_num)]
      congr 2
      omega
    rw [hyk, nearEven_int, ← hyk, ← hxy]

end Verif
