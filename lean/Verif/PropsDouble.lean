import Verif.PropsVar

/-!
# C66: the floating-point answers of VAR and STDDEV

`C66_near` is about any list of counted values; `C40_honest` and `C59_var` show that the servers' answer is the number meant here.
-/

namespace Verif

/-- C66. The answer computed in `double` from the sums of any integers whose squares add up to less than 2^48 (so below `p`): a number, not
negative, zero exactly if all values are equal, and the variance (the square of the deviation) off by at most 2^-49 of the mean square.
For both ways of compiling `ex2 - (ex * ex)`. -/
theorem C66_near (fma std : Bool) {l : List ℕ} (hne : l ≠ []) (hl : l.length < 2 ^ 53) (hq : (l.map fun v => v ^ 2).sum < 2 ^ 48) :
    ∃ a, varAnswer fma std (l.sum : ℕ) ((l.map fun v => v ^ 2).sum : ℕ) l.length = some a ∧
      NearVar std (listVar l) (meanSq l) (∀ u ∈ l, ∀ v ∈ l, u = v) a :=
  varAnswer_near fma std hne hl hq

/-- Non-vacuity: the values 1, 3 and 8. -/
example : ([1, 3, 8] : List ℕ) ≠ [] ∧ [1, 3, 8].length < 2 ^ 53 ∧ ([1, 3, 8].map fun v => v ^ 2).sum < 2 ^ 48 ∧ listVar [1, 3, 8] = 26 / 3 := by
  refine ⟨by simp, by simp, by decide, ?_⟩
  unfold listVar; norm_num

/-- C66. The error in relation to the variance: at most 2^-48 times the sum of squares. With squares adding up to 2^40 that is less than
half a percent; the bound is of no use above 2^48. -/
theorem C66_relative (fma std : Bool) {l : List ℕ} (hl : l.length < 2 ^ 53) (hq : (l.map fun v => v ^ 2).sum < 2 ^ 48)
    (hd : ¬ ∀ u ∈ l, ∀ v ∈ l, u = v) :
    ∃ a, varAnswer fma std (l.sum : ℕ) ((l.map fun v => v ^ 2).sum : ℕ) l.length = some a ∧ 0 < a ∧
      |(if std then a ^ 2 else a) - listVar l| ≤ 2 ^ (-48 : ℤ) * ((l.map fun v => v ^ 2).sum : ℕ) * listVar l := by
  have hne : l ≠ [] := by rintro rfl; simp at hd
  obtain ⟨a, ha, h0, hz, hn⟩ := varAnswer_near fma std hne hl hq
  refine ⟨a, ha, lt_of_le_of_ne h0 fun h => hd (hz.1 h.symm), hn.trans ?_⟩
  have hge := listVar_ge hd
  have hlen : (0 : ℝ) < l.length := by exact_mod_cast List.length_pos_iff.2 hne
  rw [meanSq_formula]
  have hQ : (0 : ℝ) ≤ ((l.map fun v => v ^ 2).sum : ℕ) := by positivity
  generalize (((l.map fun v => v ^ 2).sum : ℕ) : ℝ) = Q at hQ
  generalize (l.length : ℝ) = n at hlen hge
  calc (2 : ℝ) ^ (-49 : ℤ) * (Q / n) = 2 ^ (-48 : ℤ) * Q * (1 / (2 * n)) := by
        rw [show (2 : ℝ) ^ (-48 : ℤ) = 2 * 2 ^ (-49 : ℤ) by norm_num]; field_simp
    _ ≤ _ := mul_le_mul_of_nonneg_left hge (by positivity)

/-- Non-vacuity: two different values. -/
example : ¬ ∀ u ∈ ([1, 2] : List ℕ), ∀ v ∈ [1, 2], u = v := by decide

/-! ## The exponents -/

/-- A result in the range of normal `double`s, or zero. -/
def InRange (x : ℝ) : Prop := x = 0 ∨ 2 ^ (-1022 : ℤ) ≤ |x| ∧ |x| < 2 ^ (1023 : ℤ)

theorem inRange_of {x : ℝ} {k m : ℤ} (hk : -1022 ≤ k) (h : x = m * 2 ^ k) (hb : |x| < 2 ^ (1023 : ℤ)) : InRange x := by
  rcases grid_ge h with h | h
  · exact Or.inl h
  · exact Or.inr ⟨(zpow_le_zpow_right₀ (by norm_num) hk).trans h, hb⟩

/-- The bound and the grid of a quotient of an integer below 2^48 by a count below 2^32, after rounding. -/
theorem quot_grid {s n : ℕ} (hs : s < 2 ^ 48) (hn : 0 < n) (hn' : n < 2 ^ 32) :
    InRange ((s : ℝ) / n) ∧ 0 ≤ rnd ((s : ℝ) / n) ∧ rnd ((s : ℝ) / n) < 2 ^ 49 ∧ ∃ m : ℤ, rnd ((s : ℝ) / n) = m * 2 ^ (-84 : ℤ) := by
  have hn0 : (0 : ℝ) < n := by exact_mod_cast hn
  have h1 : (1 : ℝ) ≤ n := by exact_mod_cast hn
  have hx0 : (0 : ℝ) ≤ s / n := by positivity
  have hb : (s : ℝ) / n < 2 ^ 48 := by
    calc (s : ℝ) / n ≤ s := div_le_self (by positivity) h1
      _ < 2 ^ 48 := by exact_mod_cast hs
  have hlow : (s : ℝ) / n = 0 ∨ 2 ^ (-32 : ℤ) ≤ |(s : ℝ) / n| := by
    rcases Nat.eq_zero_or_pos s with rfl | h
    · left; simp
    · right
      rw [abs_of_nonneg hx0, le_div_iff₀ hn0]
      have a : (n : ℝ) < 4294967296 := by exact_mod_cast hn'
      have b : (1 : ℝ) ≤ s := by exact_mod_cast h
      norm_num
      linarith
  have he := abs_le.1 (rnd_err ((s : ℝ) / n))
  rw [abs_of_nonneg hx0] at he
  refine ⟨?_, rnd_nonneg hx0, ?_, rnd_grid' (by simpa using hlow)⟩
  · rcases hlow with h | h
    · exact Or.inl h
    · refine Or.inr ⟨(zpow_le_zpow_right₀ (by norm_num) (by norm_num)).trans h, ?_⟩
      rw [abs_of_nonneg hx0]
      refine hb.trans_le ?_
      rw [← zpow_natCast]
      exact zpow_le_zpow_right₀ (by norm_num) (by norm_num)
  · norm_num at hb he ⊢
    linarith

/-- C66. No operation leaves the range of normal numbers, so the unlimited exponents of the model make no difference: for sums below 2^48
and fewer than 2^32 submissions the exact result of each operation of server.cpp:884-890 is zero or between 2^-1022 and 2^1023. -/
theorem C66_range (fma : Bool) {s q n : ℕ} (hs : s < 2 ^ 48) (hq : q < 2 ^ 48) (hn : 0 < n) (hn' : n < 2 ^ 32) :
    let ex := rnd ((s : ℝ) / n)
    let ex2 := rnd ((q : ℝ) / n)
    InRange ((s : ℝ) / n) ∧ InRange ((q : ℝ) / n) ∧ InRange (ex * ex) ∧ InRange (ex2 - rnd (ex * ex)) ∧ InRange (ex2 - ex * ex) ∧
      InRange (Real.sqrt (subSquare fma ex2 ex)) := by
  obtain ⟨a1, a2, a3, m, a4⟩ := quot_grid hs hn hn'
  obtain ⟨b1, b2, b3, m2, b4⟩ := quot_grid hq hn hn'
  intro ex ex2
  have g1 : ex * ex = ((m * m : ℤ) : ℝ) * 2 ^ (-168 : ℤ) := by
    show rnd _ * rnd _ = _
    rw [a4]; push_cast
    rw [show (2 : ℝ) ^ (-168 : ℤ) = 2 ^ (-84 : ℤ) * 2 ^ (-84 : ℤ) by rw [← zpow_add₀ (by norm_num)]; norm_num]
    ring
  have hsq0 : 0 ≤ ex * ex := mul_self_nonneg _
  have hsq : ex * ex < 2 ^ 98 := by
    have : ex * ex < 2 ^ 49 * 2 ^ 49 := mul_lt_mul'' a3 a3 a2 a2
    norm_num at this ⊢
    exact this
  have big : (2 : ℝ) ^ 100 < 2 ^ (1023 : ℤ) := by
    rw [← zpow_natCast]
    exact zpow_lt_zpow_right₀ (by norm_num) (by norm_num)
  -- the rounded square lies on a grid as well
  obtain ⟨m3, g3⟩ : ∃ m3 : ℤ, rnd (ex * ex) = m3 * 2 ^ (-220 : ℤ) := rnd_grid' (by simpa using grid_ge g1)
  have he := abs_le.1 (rnd_err (ex * ex))
  rw [abs_of_nonneg hsq0] at he
  have hr : rnd (ex * ex) < 2 ^ 99 := by norm_num at he hsq ⊢; linarith
  have hr0 : 0 ≤ rnd (ex * ex) := rnd_nonneg hsq0
  have e2 : ex2 = ((m2 * 2 ^ 136 : ℤ) : ℝ) * 2 ^ (-220 : ℤ) := by
    show rnd _ = _
    rw [b4]; push_cast
    norm_num
    ring
  have e2' : ex2 = ((m2 * 2 ^ 84 : ℤ) : ℝ) * 2 ^ (-168 : ℤ) := by
    show rnd _ = _
    rw [b4]; push_cast
    norm_num
    ring
  have h49 : (2 : ℝ) ^ 49 < 2 ^ 98 := by norm_num
  have d1 : ex2 - rnd (ex * ex) = ((m2 * 2 ^ 136 - m3 : ℤ) : ℝ) * 2 ^ (-220 : ℤ) := by
    rw [g3]; conv_lhs => rw [e2]
    push_cast; ring
  have d2 : ex2 - ex * ex = ((m2 * 2 ^ 84 - m * m : ℤ) : ℝ) * 2 ^ (-168 : ℤ) := by
    rw [g1]; conv_lhs => rw [e2']
    push_cast; ring
  have c1 : |ex2 - rnd (ex * ex)| < 2 ^ 99 := by
    have b2 : 0 ≤ ex2 := b2
    have b3 : ex2 < 2 ^ 49 := b3
    rw [abs_lt]; constructor <;> linarith
  have c2 : |ex2 - ex * ex| < 2 ^ 99 := by
    have b2 : 0 ≤ ex2 := b2
    have b3 : ex2 < 2 ^ 49 := b3
    have : (2 : ℝ) ^ 98 < 2 ^ 99 := by norm_num
    rw [abs_lt]; constructor <;> linarith
  have h99 : (2 : ℝ) ^ 99 < 2 ^ 100 := by norm_num
  have h98 : (2 : ℝ) ^ 98 < 2 ^ 100 := by norm_num
  refine ⟨a1, b1, inRange_of (by norm_num) g1 (by rw [abs_of_nonneg hsq0]; exact (hsq.trans h98).trans big),
    inRange_of (by norm_num) d1 ((c1.trans h99).trans big), inRange_of (by norm_num) d2 ((c2.trans h99).trans big), ?_⟩
  -- the root
  obtain ⟨w, hw, k, hk, hgrid⟩ : ∃ w, subSquare fma ex2 ex = rnd w ∧ ∃ k : ℤ, -220 ≤ k ∧ ((∃ z : ℤ, w = z * 2 ^ k) ∧ |w| < 2 ^ 99) := by
    cases fma
    · exact ⟨_, rfl, -220, le_rfl, ⟨_, d1⟩, c1⟩
    · exact ⟨_, rfl, -168, by norm_num, ⟨_, d2⟩, c2⟩
  obtain ⟨⟨z, hz⟩, hwb⟩ := hgrid
  rw [hw]
  rcases le_or_gt (rnd w) 0 with h0 | h0
  · left; exact Real.sqrt_eq_zero_of_nonpos h0
  · right
    have hwe := abs_le.1 (rnd_err w)
    have hwne : w ≠ 0 := by rintro rfl; rw [rnd_zero] at h0; exact lt_irrefl _ h0
    have hwl : (2 : ℝ) ^ k ≤ |w| := (grid_ge hz).resolve_left hwne
    have hwpos : 0 < w := by
      by_contra hc
      have : w < 0 := lt_of_le_of_ne (not_lt.1 hc) hwne
      exact absurd (rnd_neg this) (not_lt.2 h0.le)
    rw [abs_of_pos hwpos] at hwl hwe hwb
    have hw220 : (2 : ℝ) ^ (-220 : ℤ) ≤ w := (zpow_le_zpow_right₀ (by norm_num) hk).trans hwl
    have hlo : (2 : ℝ) ^ (-222 : ℤ) ≤ rnd w := by
      have e : (2 : ℝ) ^ (-222 : ℤ) = 1 / 4 * 2 ^ (-220 : ℤ) := by
        rw [show (-222 : ℤ) = -2 + -220 by norm_num, zpow_add₀ (by norm_num)]; norm_num
      rw [e]
      generalize (2 : ℝ) ^ (-220 : ℤ) = T at hw220
      norm_num at hwe
      linarith
    have hhi : rnd w < 2 ^ 100 := by norm_num at hwe hwb ⊢; linarith
    rw [abs_of_nonneg (Real.sqrt_nonneg _)]
    constructor
    · refine Real.le_sqrt_of_sq_le ?_
      rw [← zpow_natCast, ← zpow_mul]
      exact (zpow_le_zpow_right₀ (by norm_num) (by norm_num)).trans hlo
    · rw [Real.sqrt_lt' (by positivity)]
      refine hhi.trans ?_
      refine big.trans_le ?_
      rw [← zpow_natCast ((2 : ℝ) ^ (1023 : ℤ)), ← zpow_mul]
      exact zpow_le_zpow_right₀ (by norm_num) (by norm_num)

/-- Non-vacuity: sums 12 and 74 of three values. -/
example : (12 : ℕ) < 2 ^ 48 ∧ (74 : ℕ) < 2 ^ 48 ∧ 0 < 3 ∧ 3 < 2 ^ 32 := by norm_num

/-! ## Sums of squares from `p` on -/

/-- The largest value of 23 bits, three times. -/
theorem wrap_answer (fma : Bool) : varAnswer fma true ((25165821 : ℕ) % intModulus : ℕ) ((211106182201347 : ℕ) % intModulus : ℕ) 3 = none ∧
    ∃ a, varAnswer fma false ((25165821 : ℕ) % intModulus : ℕ) ((211106182201347 : ℕ) % intModulus : ℕ) 3 = some a ∧ a < 0 := by
  have e1 : (25165821 : ℕ) % intModulus = 25165821 := by decide
  have e2 : (211106182201347 : ℕ) % intModulus = 70368584269826 := by decide
  rw [e1, e2]
  have r1 := rnd_nat (n := 25165821) (by norm_num)
  have r2 := rnd_nat (n := 70368584269826) (by norm_num)
  have r3 := rnd_nat (n := 3) (by norm_num)
  have r4 := rnd_nat (n := 8388607) (by norm_num)
  have r5 := rnd_nat (n := 70368727400449) (by norm_num)
  push_cast at r1 r2 r3 r4 r5
  have hneg : subSquare fma (rnd (70368584269826 / 3)) 8388607 < 0 := by
    obtain ⟨q, -, hq, hq'⟩ := subSquare_eq fma (rnd (70368584269826 / 3)) 8388607
    rw [hq, hq' (by norm_num; exact r5)]
    refine rnd_neg ?_
    have := (abs_le.1 (rnd_err (70368584269826 / 3))).2
    rw [abs_of_pos (by norm_num)] at this
    norm_num at this ⊢
    linarith
  have hex : rnd (25165821 / 3) = 8388607 := by rw [show (25165821 / 3 : ℝ) = 8388607 by norm_num, r4]
  constructor
  · simp only [varAnswer]
    push_cast
    rw [r1, r2, r3, hex, if_pos hneg]
  · refine ⟨subSquare fma (rnd (70368584269826 / 3)) 8388607, ?_, hneg⟩
    simp only [varAnswer]
    push_cast
    rw [r1, r2, r3, hex]

/-- C66, where the bound on the sum of squares is needed: three honest clients with the value 8388607 (23 bits, admitted by both programs) make
the servers answer a STDDEV query with "not a number" and a VAR query with a negative variance, in all orders of iteration and scheduling. -/
theorem C66_false_wrap (fma : Bool) {t : RootTables} {cs : List VarClient} {subs0 subs1 : List (Bytes × SnipRow)}
    (hh : HonestVar 23 t cs subs0 subs1) (hv : cs.map (·.value 23) = [8388607, 8388607, 8388607]) :
    ∃ bs0 bs1 a, encVarShares subs0 = some bs0 ∧ encVarShares subs1 = some bs1 ∧ a < 0 ∧
    ∀ (rest0 rest1 : Bytes) {x : ℤ} {uses pos : ℕ} {st0 st1 : SnipState} (_ : SnipOk x uses pos st0) (_ : SnipOk x uses pos st1)
      (coef : ℕ → ℤ) (raw0 raw1 : ℕ → ℕ → ℕ → U64) (ord : Map SnipRow → Map SnipRow) (_ : IsOrder ord),
    (∃ st0' st1', Always (varOp0 fma true 23 3 (bs0 ++ rest0) coef raw0 st0) (varOp1 23 3 (bs1 ++ rest1) coef raw1 st1 ord)
      (.ans none, st0') (.noAns, st1')) ∧
    (∃ st0' st1', Always (varOp0 fma false 23 3 (bs0 ++ rest0) coef raw0 st0) (varOp1 23 3 (bs1 ++ rest1) coef raw1 st1 ord)
      (.ans (some a), st0') (.noAns, st1')) := by
  have hl : cs.length = 3 := by have := congrArg List.length hv; simpa using this
  have hne : cs ≠ [] := by rintro rfl; simp at hl
  obtain ⟨w1, a, w2, ha⟩ := wrap_answer fma
  have e1 : (cs.map (·.value 23)).sum = 25165821 := by rw [hv]; rfl
  have e2 : ((cs.map (·.value 23)).map fun v => v ^ 2).sum = 211106182201347 := by rw [hv]; rfl
  have e3 : (cs.map (·.value 23)).length = 3 := by rw [hv]; rfl
  obtain ⟨bs0, bs1, b0, b1, h⟩ := var_honest_run fma true (by norm_num) hne (by omega) hh (o := none) (by rw [e1, e2, e3]; exact w1)
  obtain ⟨bs0', bs1', b0', b1', h'⟩ := var_honest_run fma false (by norm_num) hne (by omega) hh (o := some a) (by rw [e1, e2, e3]; exact w2)
  rw [b0] at b0'; cases b0'
  rw [b1] at b1'; cases b1'
  rw [hl] at h h'
  exact ⟨bs0, bs1, a, b0, b1, ha, fun rest0 rest1 {_ _ _ _ _} hs0 hs1 coef raw0 raw1 ord ho =>
    ⟨h rest0 rest1 hs0 hs1 coef raw0 raw1 ord ho, h' rest0 rest1 hs0 hs1 coef raw0 raw1 ord ho⟩⟩

/-- Non-vacuity: three such clients. -/
example : ∃ t cs subs0 subs1, HonestVar 23 t cs subs0 subs1 ∧ cs.map (·.value 23) = [8388607, 8388607, 8388607] := by
  obtain ⟨t, ht⟩ := C30_sizes (c := varCircuit) (by decide) [] _ .start
  let c : Byte → VarClient := fun b => ⟨List.replicate 32 b, 8388607#64, 6#64, 100#64, ⟨1, 2, [3, 4], 5, 6, 7, [8], 9, 10, 11, 12, 13⟩⟩
  have hr : ∀ b, ValidRand intModulus varCircuit (c b).rand := by
    intro b
    refine ⟨rfl, rfl, ?_, ?_, ?_, ?_⟩ <;> simp only [IsDraw, c] <;> decide
  have ho : ∀ b, ∃ o, (c b).out 23 t = some o := fun b => by
    obtain ⟨real, r0, r1, w, e, -⟩ := clientVar_spec (nbits := 23) (by norm_num) ht (c b) (hr b)
    exact ⟨_, e⟩
  choose o ho using ho
  refine ⟨t, [c 1, c 2, c 3], [1, 2, 3].map fun b => ((c b).pk, (o b).2.1), [1, 2, 3].map fun b => ((c b).pk, (o b).2.2),
    ⟨⟨_, ht⟩, by decide +kernel, by simp [c, pkLength], by simpa using ⟨hr 1, hr 2, hr 3⟩, ?_, ?_⟩, by decide +kernel⟩
  · simp [ho]
  · simp [ho]

end Verif
