import Verif.LemmasPrint
import Verif.PropsDouble

/-!
# C86: the answer that server 0 and the client print

The texts are read back with `readNum` (LemmasPrint), a reader of decimal numbers that is independent of the printing. Both programs print with the
same functions, so equal answers (C59, C84) are printed as equal texts.
-/

namespace Verif

/-! ## Integers -/

theorem showNat_chars {n : ℕ} {c : Char} (h : c ∈ showNat n) : ∃ d < 10, c = digitChar d := by
  obtain ⟨d, hd, rfl⟩ := List.mem_map.1 h
  exact ⟨d, digitsOf_lt hd, rfl⟩

theorem readNum_mag {c : Char} {t : Text} (h : c ≠ '-') : readNum (c :: t) = readMag (c :: t) := by
  unfold readNum
  split
  · next e => cases e; exact absurd rfl h
  · rfl

theorem showNat_mag (n : ℕ) : readMag (showNat n) = some (n : ℚ) ∧ ∃ c t, showNat n = c :: t ∧ c ≠ '-' := by
  have hne : digitsOf (Nat.log 10 n + 1) n ≠ [] := fun h => by have := congrArg List.length h; simp at this
  have hp : showNat n = showPoint (digitsOf (Nat.log 10 n + 1) n) [] ++ [] := by simp [showNat, showPoint, dropZeros]
  constructor
  · rw [hp, point_parts hne (fun d hd => digitsOf_lt (by simpa using hd)) (E := []) rfl (Or.inl rfl), List.append_nil,
      decVal_digits _ _ (Nat.lt_pow_succ_log_self (by norm_num) _)]
    simp
  · obtain ⟨x, l, hx⟩ := List.exists_cons_of_ne_nil hne
    refine ⟨digitChar x, l.map digitChar, by rw [showNat, hx]; rfl, ?_⟩
    exact (readDigit_char (digitsOf_lt (k := Nat.log 10 n + 1) (n := n) (by rw [hx]; exact List.mem_cons_self))).2.2.2

/-- C86 for BIT_SUM, INT_SUM, MAX and MIN: every answer can be read off the text. -/
theorem C86_nat (n : ℕ) : readNum (showNat n) = some (n : ℚ) := by
  obtain ⟨h, c, t, e, hc⟩ := showNat_mag n
  rw [e, readNum_mag hc, ← e, h]

/-- Different answers are printed differently. -/
theorem C86_nat_injective {n m : ℕ} (h : showNat n = showNat m) : n = m := by
  have := C86_nat n
  rw [h, C86_nat] at this
  exact_mod_cast (Option.some.inj this).symm

example : showNat 0 = "0".toList ∧ showNat 18446744073709551615 = "18446744073709551615".toList := by decide

theorem C86_int (z : ℤ) : readNum (showInt z) = some (z : ℚ) := by
  unfold showInt
  split
  · next h =>
    show (readMag _).map (fun v => -v) = _
    rw [(showNat_mag _).1, Option.map_some]
    congr 1
    have : ((z.natAbs : ℤ) : ℚ) = ((-z : ℤ) : ℚ) := congrArg _ (by omega)
    rw [Int.cast_natCast] at this
    rw [this]; push_cast; ring
  · next h =>
    rw [C86_nat]
    congr 1
    have : ((z.natAbs : ℤ) : ℚ) = ((z : ℤ) : ℚ) := congrArg _ (by omega)
    rw [Int.cast_natCast] at this
    rw [this]

/-- C86 for AND and OR. -/
theorem C86_flag : showFlag true = "true".toList ∧ showFlag false = "false".toList ∧ Function.Injective showFlag :=
  ⟨rfl, rfl, fun a b => by cases a <;> cases b <;> decide⟩

/-! ## FREQ -/

/-- The pieces of a text between the separators. -/
def piecesOf (sep : Char) : Text → List Text
  | [] => []
  | c :: t => if c = sep then [] :: piecesOf sep t else match piecesOf sep t with
    | [] => [[c]]
    | l :: ls => (c :: l) :: ls

/-- The lines of a text. -/
abbrev linesOf (t : Text) : List Text := piecesOf '\n' t

/-- What follows the last blank. -/
def lastWord (t : Text) : Text := (t.reverse.takeWhile fun c => c != ' ').reverse

theorem pieces_append {sep : Char} {l : Text} (h : sep ∉ l) (t : Text) : piecesOf sep (l ++ sep :: t) = l :: piecesOf sep t := by
  induction l with
  | nil => simp [piecesOf]
  | cons c l ih =>
    have hc : c ≠ sep := fun e => h (by rw [e]; exact List.mem_cons_self)
    rw [List.cons_append, piecesOf, if_neg hc, ih fun hm => h (List.mem_cons_of_mem _ hm)]

theorem lines_append {l : Text} (h : '\n' ∉ l) (t : Text) : linesOf (l ++ '\n' :: t) = l :: linesOf t := pieces_append h t

theorem pieces_last {sep : Char} {l : Text} (h : sep ∉ l) (h0 : l ≠ []) : piecesOf sep l = [l] := by
  induction l with
  | nil => exact absurd rfl h0
  | cons c l ih =>
    have hc : c ≠ sep := fun e => h (by rw [e]; exact List.mem_cons_self)
    rw [piecesOf, if_neg hc]
    by_cases hl : l = []
    · rw [hl]; rfl
    · rw [ih (fun hm => h (List.mem_cons_of_mem _ hm)) hl]

theorem lastWord_append {l w : Text} (h : ' ' ∉ w) : lastWord (l ++ ' ' :: w) = w := by
  unfold lastWord
  rw [List.reverse_append, List.reverse_cons, List.append_assoc, List.takeWhile_append_of_pos]
  · simp
  · intro c hc
    simp only [bne_iff_ne, ne_eq]
    rintro rfl
    exact h (List.mem_reverse.1 hc)

theorem digit_plain {d : ℕ} (h : d < 10) : digitChar d ≠ ' ' ∧ digitChar d ≠ '\n' := by
  interval_cases d <;> decide

theorem showInt_plain (z : ℤ) : ' ' ∉ showInt z ∧ '\n' ∉ showInt z := by
  have h : ∀ n : ℕ, ' ' ∉ showNat n ∧ '\n' ∉ showNat n := fun n =>
    ⟨fun hm => by obtain ⟨d, hd, e⟩ := showNat_chars hm; exact (digit_plain hd).1 e.symm,
      fun hm => by obtain ⟨d, hd, e⟩ := showNat_chars hm; exact (digit_plain hd).2 e.symm⟩
  unfold showInt
  split
  · exact ⟨fun hm => by rcases List.mem_cons.1 hm with e | hm; · exact absurd e (by decide)
                        exact (h _).1 hm,
      fun hm => by rcases List.mem_cons.1 hm with e | hm; · exact absurd e (by decide)
                   exact (h _).2 hm⟩
  · exact h _

/-- C86 for FREQ: one line per value, in order, and the counts can be read off the ends of the lines. -/
theorem C86_freq (l : List ℤ) : (linesOf (freqLines l)).map (fun t => readNum (lastWord t)) = l.map fun z : ℤ => some (z : ℚ) := by
  unfold freqLines
  generalize 0 = k
  have key : ∀ (l : List ℤ) (k : ℕ), (linesOf ((l.zipIdx k).map fun e => " Freq(".toList ++ showNat e.2 ++ ") = ".toList ++ showInt e.1 ++ ['\n']).flatten).map
      (fun t => readNum (lastWord t)) = l.map fun z : ℤ => some (z : ℚ) := by
    intro l
    induction l with
    | nil => intro k; rfl
    | cons z l ih =>
      intro k
      rw [List.zipIdx_cons, List.map_cons, List.flatten_cons, List.append_assoc, List.singleton_append, lines_append, List.map_cons, ih, List.map_cons]
      · congr 1
        have : " Freq(".toList ++ showNat k ++ ") = ".toList ++ showInt z = (" Freq(".toList ++ showNat k ++ ") =".toList) ++ ' ' :: showInt z := by
          simp
        rw [this, lastWord_append (showInt_plain z).1, C86_int]
      · intro hm
        simp only [List.mem_append] at hm
        rcases hm with ((hm | hm) | hm) | hm
        · revert hm; decide
        · obtain ⟨d, hd, e⟩ := showNat_chars hm
          exact (digit_plain hd).2 e.symm
        · revert hm; decide
        · exact (showInt_plain z).2 hm
  exact key l k

example : freqLines [3, 0] = " Freq(0) = 3\n Freq(1) = 0\n".toList := by decide

/-! ## VAR, STDDEV and LINREG -/

/-- C86 for `double`s: the text is a number that is off by at most five millionths of the answer, has its sign, and is zero only for zero; it is the
answer itself if that has at most six decimal digits. -/
theorem C86_double (x : ℝ) : ∃ v : ℚ, readNum (showDouble x) = some v ∧ |(v : ℝ) - x| ≤ 5 / 10 ^ 6 * |x| ∧ (0 < v ↔ 0 < x) ∧ (v < 0 ↔ x < 0) ∧
    ∀ k j : ℤ, |k| < 10 ^ 6 → x = k * 10 ^ j → (v : ℝ) = x := by
  have pos : ∀ y : ℝ, 0 < y → ∃ v : ℚ, readMag (showSig (sixDigits y).1 (sixDigits y).2) = some v ∧ 0 < v ∧ |(v : ℝ) - y| ≤ 5 / 10 ^ 6 * y ∧
      (∀ k j : ℤ, k < 10 ^ 6 → y = k * 10 ^ j → (v : ℝ) = y) ∧ ∃ c t, showSig (sixDigits y).1 (sixDigits y).2 = c :: t ∧ c ≠ '-' := by
    intro y hy
    obtain ⟨h1, h2, h3, h4⟩ := sixDigits_spec hy
    obtain ⟨h5, h6⟩ := showSig_read h2 (sixDigits y).2
    refine ⟨_, h5, ?_, by push_cast; exact h3, fun k j hk he => by push_cast; exact h4 k j hk he, h6⟩
    have : (0 : ℚ) < ((sixDigits y).1 : ℚ) := by exact_mod_cast lt_of_lt_of_le (by norm_num) h1
    positivity
  unfold showDouble
  rcases lt_trichotomy x 0 with hx | rfl | hx
  · rw [if_neg hx.ne, if_pos hx]
    obtain ⟨v, h1, h2, h3, h4, -⟩ := pos (-x) (by linarith)
    refine ⟨-v, ?_, ?_, ?_, ?_, ?_⟩
    · show (readMag _).map (fun v => -v) = _
      rw [h1]; rfl
    · rw [abs_of_neg hx]
      push_cast
      rwa [show -(v : ℝ) - x = -((v : ℝ) - -x) by ring, abs_neg]
    · constructor <;> intro h <;> linarith
    · constructor <;> intro h <;> linarith
    · intro k j hk he
      have := h4 (-k) j (lt_of_le_of_lt (neg_le_abs k) hk) (by rw [he]; push_cast; ring)
      push_cast
      rw [this, neg_neg]
  · refine ⟨0, ?_, by simp, by simp, by simp, by simp⟩
    rw [if_pos rfl]
    have := C86_nat 0
    rw [show showNat 0 = ['0'] by decide] at this
    simpa using this
  · rw [if_neg hx.ne', if_neg (by linarith)]
    obtain ⟨v, h1, h2, h3, h4, c, t, h5, h6⟩ := pos x hx
    refine ⟨v, by rw [h5, readNum_mag h6, ← h5, h1], by rwa [abs_of_pos hx], ?_, ?_, fun k j hk he => h4 k j (lt_of_le_of_lt (le_abs_self k) hk) he⟩
    · exact ⟨fun _ => hx, fun _ => h2⟩
    · constructor <;> intro h <;> linarith

/-- C86 for VAR and STDDEV: the printed number for any values whose squares add up to less than 2^48 (`C66_near`). Its square (STDDEV) or itself (VAR) is
the variance up to 11 (5) millionths and 2^-48 of the mean square; it is zero exactly if all values are equal. -/
theorem C86_var (fma std : Bool) {l : List ℕ} (hne : l ≠ []) (hl : l.length < 2 ^ 53) (hq : (l.map fun v => v ^ 2).sum < 2 ^ 48) :
    ∃ (a : ℝ) (v : ℚ), varAnswer fma std (l.sum : ℕ) ((l.map fun v => v ^ 2).sum : ℕ) l.length = some a ∧ readNum (showDouble a) = some v ∧ 0 ≤ v ∧
      (v = 0 ↔ ∀ u ∈ l, ∀ w ∈ l, u = w) ∧
      |(if std then (v : ℝ) ^ 2 else v) - listVar l| ≤ (if std then 11 else 5) / 10 ^ 6 * listVar l + 2 ^ (-48 : ℤ) * meanSq l := by
  obtain ⟨a, ha, h0, hz, hn⟩ := C66_near fma std hne hl hq
  obtain ⟨v, hv, he, hp, hng, -⟩ := C86_double a
  have hv0 : 0 ≤ v := by
    by_contra h
    have := hng.1 (not_le.1 h)
    linarith
  refine ⟨a, v, ha, hv, hv0, ?_, ?_⟩
  · rw [← hz]
    constructor
    · intro h
      by_contra hc
      have := hp.2 (lt_of_le_of_ne h0 (Ne.symm hc))
      rw [h] at this
      exact lt_irrefl _ this
    · intro h
      by_contra hc
      have := hp.1 (lt_of_le_of_ne hv0 (Ne.symm hc))
      rw [h] at this
      exact lt_irrefl _ this
  · rw [abs_of_nonneg h0] at he
    have hV := listVar_nonneg l
    have hM : 0 ≤ meanSq l := by
      unfold meanSq
      refine div_nonneg (List.sum_nonneg fun x hx => ?_) (by positivity)
      obtain ⟨w, -, rfl⟩ := List.mem_map.1 hx
      positivity
    have h48 : (2 : ℝ) ^ (-48 : ℤ) = 2 * 2 ^ (-49 : ℤ) := by norm_num
    have h49 : (0 : ℝ) < 2 ^ (-49 : ℤ) := by positivity
    rw [h48]
    generalize (2 : ℝ) ^ (-49 : ℤ) = ε at *
    generalize meanSq l = M at *
    generalize listVar l = V at *
    have hεM : 0 ≤ ε * M := by positivity
    obtain ⟨e1, e2⟩ := abs_le.1 he
    obtain ⟨n1, n2⟩ := abs_le.1 hn
    have hv0' : (0 : ℝ) ≤ v := by exact_mod_cast hv0
    cases std
    · simp only [Bool.false_eq_true, if_false] at n1 n2 ⊢
      rw [abs_le]
      constructor <;> nlinarith
    · simp only [if_true] at n1 n2 ⊢
      have s1 : (v : ℝ) ^ 2 ≤ (1 + 11 / 10 ^ 6) * a ^ 2 := by
        have : (v : ℝ) ≤ (1 + 5 / 10 ^ 6) * a := by linarith
        calc (v : ℝ) ^ 2 ≤ ((1 + 5 / 10 ^ 6) * a) ^ 2 := pow_le_pow_left₀ hv0' this 2
          _ = (1 + 5 / 10 ^ 6) ^ 2 * a ^ 2 := by ring
          _ ≤ _ := mul_le_mul_of_nonneg_right (by norm_num) (sq_nonneg a)
      have s2 : (1 - 11 / 10 ^ 6) * a ^ 2 ≤ (v : ℝ) ^ 2 := by
        have : (1 - 5 / 10 ^ 6) * a ≤ v := by linarith
        calc (1 - 11 / 10 ^ 6) * a ^ 2 ≤ (1 - 5 / 10 ^ 6) ^ 2 * a ^ 2 := mul_le_mul_of_nonneg_right (by norm_num) (sq_nonneg a)
          _ = ((1 - 5 / 10 ^ 6) * a) ^ 2 := by ring
          _ ≤ _ := pow_le_pow_left₀ (mul_nonneg (by norm_num) h0) this 2
      rw [abs_le]
      constructor <;> nlinarith

/-- C86 for LINREG: `fmpq_get_d` turns the exact coefficient `q` into a neighbouring `double` (off by at most 2^-52 of it, whichever way it rounds); the
printed number is off by at most 5.1 millionths. -/
theorem C86_lin (q : ℚ) {c : ℝ} (hc : |c - q| ≤ 2 ^ (-52 : ℤ) * |(q : ℝ)|) :
    ∃ v : ℚ, readNum (showDouble c) = some v ∧ |(v : ℝ) - q| ≤ 51 / 10 ^ 7 * |(q : ℝ)| := by
  obtain ⟨v, hv, he, -⟩ := C86_double c
  refine ⟨v, hv, ?_⟩
  have h1 : |c| ≤ |c - q| + |(q : ℝ)| := by
    have := abs_add_le (c - q) (q : ℝ)
    rwa [sub_add_cancel] at this
  have h2 : |(v : ℝ) - q| ≤ |(v : ℝ) - c| + |c - q| := by
    have := abs_add_le ((v : ℝ) - c) (c - q)
    rwa [sub_add_sub_cancel] at this
  have h3 : (2 : ℝ) ^ (-52 : ℤ) ≤ 1 / 10 ^ 10 := by norm_num
  have h4 : |c - q| ≤ 1 / 10 ^ 10 * |(q : ℝ)| := hc.trans (mul_le_mul_of_nonneg_right h3 (abs_nonneg _))
  nlinarith [abs_nonneg (q : ℝ), abs_nonneg (c - q)]

example : |(1 / 3 : ℝ) - ((1 / 3 : ℚ) : ℝ)| ≤ 2 ^ (-52 : ℤ) * |((1 / 3 : ℚ) : ℝ)| := by norm_num

theorem point_plain {i f : List ℕ} (h9 : ∀ d ∈ i ++ f, d < 10) {c : Char} (hc : c ∈ showPoint i f) : c ≠ ' ' ∧ c ≠ '\n' := by
  obtain ⟨k, hk⟩ := dropZeros_split f
  rw [showPoint, List.mem_append] at hc
  rcases hc with hc | hc
  · obtain ⟨d, hd, rfl⟩ := List.mem_map.1 hc
    exact digit_plain (h9 d (List.mem_append_left _ hd))
  · split at hc
    · cases hc
    · rcases List.mem_cons.1 hc with rfl | hc
      · decide
      · obtain ⟨d, hd, rfl⟩ := List.mem_map.1 hc
        exact digit_plain (h9 d (List.mem_append_right _ (by rw [hk]; exact List.mem_append_left _ hd)))

theorem sig_plain (d : ℕ) (e : ℤ) {c : Char} (hc : c ∈ showSig d e) : c ≠ ' ' ∧ c ≠ '\n' := by
  have h9 : ∀ x ∈ digitsOf 6 d, x < 10 := fun x => digitsOf_lt
  unfold showSig at hc
  simp only [] at hc
  split at hc
  · exact point_plain (by rw [List.take_append_drop]; exact h9) hc
  · split at hc
    · refine point_plain (fun x hx => ?_) hc
      simp only [List.mem_append, List.mem_cons, List.not_mem_nil, or_false, List.mem_replicate] at hx
      rcases hx with rfl | ⟨-, rfl⟩ | hx
      · norm_num
      · norm_num
      · exact h9 x hx
    · rcases List.mem_append.1 hc with hc | hc
      · exact point_plain (by rw [List.take_append_drop]; exact h9) hc
      · unfold showExp at hc
        rcases List.mem_cons.1 hc with rfl | hc
        · decide
        rcases List.mem_cons.1 hc with rfl | hc
        · split <;> decide
        obtain ⟨d, hd, rfl⟩ := List.mem_map.1 hc
        exact digit_plain (digitsOf_lt hd)

theorem double_plain (x : ℝ) : ' ' ∉ showDouble x ∧ '\n' ∉ showDouble x := by
  have h : ∀ c ∈ showDouble x, c ≠ ' ' ∧ c ≠ '\n' := by
    intro c hc
    unfold showDouble at hc
    split at hc
    · rw [List.mem_singleton.1 hc]; decide
    split at hc
    · rcases List.mem_cons.1 hc with rfl | hc
      · decide
      · exact sig_plain _ _ hc
    · exact sig_plain _ _ hc
  exact ⟨fun hm => (h _ hm).1 rfl, fun hm => (h _ hm).2 rfl⟩

/-- The coefficients and the names of the variables among the words that follow the first coefficient: groups of `+`, coefficient, `*`, name. -/
def laterTerms : List Text → List (Text × Text)
  | _ :: c :: _ :: x :: r => (c, x) :: laterTerms r
  | _ => []

/-- The constant and the other terms of a line `Estimate: y = ..`: the words from the fourth on. -/
def estimateOf (line : Text) : Option (Text × List (Text × Text)) :=
  match (piecesOf ' ' line).drop 3 with
  | c :: r => some (c, laterTerms r)
  | [] => none

theorem terms_pieces : ∀ (cs : List ℝ) (i : ℕ) (w : Text), ' ' ∉ w → w ≠ [] →
    ∃ r, piecesOf ' ' (w ++ linTerms (i + 1) cs) = w :: r ∧ laterTerms r = cs.zipIdx.map fun e => (showDouble e.1, "x_".toList ++ showNat (i + e.2))
  | [], i, w, hw, h0 => ⟨[], by rw [linTerms, List.append_nil]; exact pieces_last hw h0, rfl⟩
  | c :: cs, i, w, hw, h0 => by
    have hx : ' ' ∉ "x_".toList ++ showNat i := by
      intro hm
      rcases List.mem_append.1 hm with hm | hm
      · revert hm; decide
      · obtain ⟨d, hd, e⟩ := showNat_chars hm
        exact (digit_plain hd).1 e.symm
    obtain ⟨r, h1, h2⟩ := terms_pieces cs (i + 1) ("x_".toList ++ showNat i) hx (by simp)
    refine ⟨['+'] :: showDouble c :: ['*'] :: ("x_".toList ++ showNat i) :: r, ?_, ?_⟩
    · have e : w ++ linTerms (i + 1) (c :: cs) =
          w ++ ' ' :: (['+'] ++ ' ' :: (showDouble c ++ ' ' :: (['*'] ++ ' ' :: (("x_".toList ++ showNat i) ++ linTerms (i + 1 + 1) cs)))) := by
        simp [linTerms]
      rw [e, pieces_append hw, pieces_append (by decide), pieces_append (double_plain c).1, pieces_append (by decide), h1]
    · rw [laterTerms, h2, List.zipIdx_cons, List.map_cons, Nat.add_zero]
      congr 1
      rw [List.zipIdx_succ, List.map_map]
      refine List.map_congr_left fun e _ => ?_
      simp only [Function.comp_apply]
      rw [show i + 1 + e.2 = i + (e.2 + 1) by omega]

theorem terms_one_line (cs : List ℝ) (i : ℕ) : '\n' ∉ linTerms i cs := by
  induction cs generalizing i with
  | nil => simp [linTerms]
  | cons c cs ih =>
    intro hm
    have hn : '\n' ∉ showNat (i - 1) := fun hm => by
      obtain ⟨d, hd, e⟩ := showNat_chars hm
      exact (digit_plain hd).2 e.symm
    unfold linTerms at hm
    simp only [List.mem_append] at hm
    rcases hm with ((hm | hm) | hm) | hm
    · split at hm
      · revert hm; decide
      · cases hm
    · exact (double_plain c).2 hm
    · split at hm
      · rcases List.mem_append.1 hm with hm | hm
        · revert hm; decide
        · exact hn hm
      · cases hm
    · exact ih _ hm

/-- C86 for LINREG: one line, from which the texts of all coefficients can be read, each with its variable. -/
theorem C86_lin_line (c : ℝ) (cs : List ℝ) : ∃ line, linesOf (linLine (c :: cs)) = [line] ∧
    estimateOf line = some (showDouble c, cs.zipIdx.map fun e => (showDouble e.1, "x_".toList ++ showNat e.2)) := by
  refine ⟨"Estimate: y = ".toList ++ linTerms 0 (c :: cs), ?_, ?_⟩
  · unfold linLine
    rw [lines_append]
    · rfl
    · intro hm
      rcases List.mem_append.1 hm with hm | hm
      · revert hm; decide
      · exact terms_one_line _ _ hm
  · have h0 : showDouble c ≠ [] := by
      obtain ⟨v, hv, -⟩ := C86_double c
      intro h
      rw [h] at hv
      revert hv
      simp [readNum, readMag, readNat]
    obtain ⟨r, h1, h2⟩ := terms_pieces cs 0 (showDouble c) (double_plain c).1 h0
    have e : "Estimate: y = ".toList ++ linTerms 0 (c :: cs) =
        "Estimate:".toList ++ ' ' :: (['y'] ++ ' ' :: (['='] ++ ' ' :: (showDouble c ++ linTerms (0 + 1) cs))) := by
      simp [linTerms]
    unfold estimateOf
    rw [e, pieces_append (by decide), pieces_append (by decide), pieces_append (by decide), h1]
    simp only [List.drop_succ_cons, List.drop_zero, h2]
    simp

/-! ## More than six digits -/

theorem sixDigits_witness : sixDigits 1234321 = (123432, 6) := by
  have hlog : Int.log 10 (1234321 : ℝ) = 6 := by
    have := Int.log_natCast (R := ℝ) 10 1234321
    rw [show Nat.log 10 1234321 = 6 from (Nat.log_eq_iff (by norm_num)).2 (by norm_num)] at this
    exact_mod_cast this
  have hnear : nearEven ((1234321 : ℝ) / 10 ^ ((6 : ℤ) - 5)) = 123432 := by
    have hf : ⌊(1234321 : ℝ) / 10 ^ ((6 : ℤ) - 5)⌋ = 123432 := by
      rw [Int.floor_eq_iff]; norm_num
    unfold nearEven
    rw [hf, if_pos (by norm_num)]
  unfold sixDigits
  simp only [hlog, hnear]
  rw [if_neg (by decide)]
  rfl

/-- The full claim, that the printed number is the answer, is false of VAR: the values 0 and 2222 have the variance 1234321, the answer is computed
exactly, and `1.23432e+06` is printed. -/
theorem C86_false_var (fma : Bool) : listVar [0, 2222] = 1234321 ∧
    varAnswer fma false (([0, 2222] : List ℕ).sum : ℕ) ((([0, 2222] : List ℕ).map fun v => v ^ 2).sum : ℕ) 2 = some 1234321 ∧
    showDouble 1234321 = "1.23432e+06".toList ∧ readNum (showDouble 1234321) = some 1234320 := by
  have hs' : showDouble 1234321 = showSig 123432 6 := by
    unfold showDouble
    rw [if_neg (by norm_num), if_neg (by norm_num), sixDigits_witness]
  have hs : showDouble 1234321 = "1.23432e+06".toList := by rw [hs']; decide
  refine ⟨by unfold listVar; norm_num, ?_, hs, ?_⟩
  · have r1 : rnd (2222 : ℝ) = 2222 := by exact_mod_cast rnd_nat (n := 2222) (by norm_num)
    have r2 : rnd (2 : ℝ) = 2 := by exact_mod_cast rnd_nat (n := 2) (by norm_num)
    have r3 : rnd (4937284 : ℝ) = 4937284 := by exact_mod_cast rnd_nat (n := 4937284) (by norm_num)
    have r4 : rnd (1111 : ℝ) = 1111 := by exact_mod_cast rnd_nat (n := 1111) (by norm_num)
    have r5 : rnd (2468642 : ℝ) = 2468642 := by exact_mod_cast rnd_nat (n := 2468642) (by norm_num)
    have r6 : rnd (1234321 : ℝ) = 1234321 := by exact_mod_cast rnd_nat (n := 1234321) (by norm_num)
    unfold varAnswer subSquare
    norm_num [r1, r2, r3, r4, r5, r6]
  · obtain ⟨h, c, t, e, hc⟩ := showSig_read (d := 123432) (by norm_num) 6
    rw [hs', e, readNum_mag hc, ← e, h]
    norm_num

end Verif
