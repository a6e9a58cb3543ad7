import Verif.PropsViewLin

/-! # C64: server 1 learns memory of server 0 in LINREG -/

namespace Verif

open Polynomial

/-! ### The polynomial through the points of an unmatched row -/

/-- A polynomial through `0, a, a, 0` at the fourth roots of unity vanishes at three points only. -/
theorem leak_poly {F : Type*} [Field F] {w : F} (hw : IsPrimitiveRoot w 4) (h4 : (4 : F) ≠ 0) {W r : ℕ → F} (hW : ∀ i < 4, W i = w ^ i) {a : F}
    (hr : r 0 = 0 ∧ r 1 = a ∧ r 2 = a ∧ r 3 = 0) (x : F) :
    4 * (Lagrange.interpolate (Finset.range 4) W r).eval x = a * ((x - 1) * ((w - 1) * (x + w) * (x + 1 - w))) := by
  have w2 : w ^ 2 = -1 := by
    have h : w ^ 2 * w ^ 2 = 1 := by rw [← pow_add]; exact hw.pow_eq_one
    rcases mul_self_eq_one_iff.1 h with h | h
    · exact absurd h (hw.pow_ne_one_of_pos_of_lt (by norm_num) (by norm_num))
    · exact h
  have key : Lagrange.interpolate (Finset.range 4) W r = C (a / 4) * ((X - 1) * (C (w - 1) * (X + C w) * (X + C (1 - w)))) := by
    symm
    refine Lagrange.eq_interpolate_of_eval_eq _ (fun i hi j hj h => ?_) ?_ fun i hi => ?_
    · simp only [Finset.coe_range, Set.mem_Iio] at hi hj
      rw [hW i hi, hW j hj] at h
      exact hw.pow_inj hi hj h
    · rw [Finset.card_range]
      refine lt_of_le_of_lt (?_ : _ ≤ ((3 : ℕ) : WithBot ℕ)) (by norm_num)
      have e : ∀ q : F, (X + C q : F[X]).natDegree ≤ 1 := fun q => (natDegree_X_add_C q).le
      rw [← Polynomial.natDegree_le_iff_degree_le]
      compute_degree
    · have h1 := Finset.mem_range.1 hi
      obtain ⟨r0, r1, r2, r3⟩ := hr
      rw [hW i h1]
      simp only [eval_mul, eval_C, eval_sub, eval_X, eval_one, eval_add]
      have w3 : w ^ 3 = -w := by rw [pow_succ, w2]; ring
      interval_cases i
      · rw [r0]; ring
      · rw [r1, div_mul_eq_mul_div, div_eq_iff h4, pow_one]
        linear_combination (a * 2 * (w - 2)) * w2
      · rw [r2, w2, div_mul_eq_mul_div, div_eq_iff h4]
        linear_combination (a * 2 * (w - 2)) * w2
      · rw [r3, w3]; ring
  rw [key]
  simp only [eval_mul, eval_C, eval_sub, eval_X, eval_one, eval_add]
  field_simp
  ring

/-! ### Reading a view -/

theorem seen_split {a a' : List U64} {b b' : Bytes} (h : seenWords a ++ seenBytes b = seenWords a' ++ seenBytes b') : a = a' ∧ b = b' := by
  have bb : ∀ {b b' : Bytes}, seenBytes b = seenBytes b' → b = b' := fun h => List.map_injective_iff.2 (fun _ _ h => Seen.byte.inj h) h
  induction a generalizing a' with
  | nil =>
    cases a' with
    | nil => exact ⟨rfl, bb h⟩
    | cons w a' => cases b <;> cases h
  | cons w a ih =>
    cases a' with
    | nil => cases b' <;> cases h
    | cons w' a' =>
      simp only [seenWords, List.map_cons, List.cons_append, List.cons.injEq, Seen.word.injEq] at h
      obtain ⟨rfl, e⟩ := ih h.2
      exact ⟨by rw [h.1], e⟩

theorem fmpzs_inj {xs ys : List ℤ} (hl : xs.length = ys.length) (hx : ∀ x ∈ xs, Fits x) (hy : ∀ y ∈ ys, Fits y)
    (h : xs.flatMap fmpzBytes = ys.flatMap fmpzBytes) : xs = ys := by
  have a := (reads_fmpzs xs hx).run_eq
  have b := (reads_fmpzs ys hy).run_eq
  rw [hl, h, b] at a
  exact (congrArg Prod.fst (Option.some.inj a)).symm

theorem corShares_inj {n : ℕ} {K K' : ℕ → CorShare} (h : ∀ i < n, Canon (K i).D intModulus ∧ Canon (K i).E intModulus)
    (h' : ∀ i < n, Canon (K' i).D intModulus ∧ Canon (K' i).E intModulus) {a a' : Bytes}
    (e : (encCorShares ((List.range n).map K)).getD [] ++ a = (encCorShares ((List.range n).map K')).getD [] ++ a') :
    ∀ i < n, (K i).E = (K' i).E := by
  have enc : ∀ {K : ℕ → CorShare}, (∀ i < n, Canon (K i).D intModulus ∧ Canon (K i).E intModulus) → (encCorShares ((List.range n).map K)).getD [] =
      ((List.range n).map fun i => (K i).D).flatMap fmpzBytes ++ ((List.range n).map fun i => (K i).E).flatMap fmpzBytes := by
    intro K h
    simp only [encCorShares, List.map_map, Function.comp_def]
    rw [encFmpzs_of_fits, encFmpzs_of_fits]
    · rfl
    · intro x hx; obtain ⟨i, hi, rfl⟩ := List.mem_map.1 hx; exact fits_canon (h i (List.mem_range.1 hi)).2
    · intro x hx; obtain ⟨i, hi, rfl⟩ := List.mem_map.1 hx; exact fits_canon (h i (List.mem_range.1 hi)).1
  rw [enc h, enc h', List.append_assoc, List.append_assoc] at e
  have e := (List.append_inj e (by simp only [flatMap_fmpz_length, List.length_map])).2
  have e := (List.append_inj e (by simp only [flatMap_fmpz_length, List.length_map])).1
  have e := fmpzs_inj (by simp) (by
    intro x hx; obtain ⟨i, hi, rfl⟩ := List.mem_map.1 hx; exact fits_canon (h i (List.mem_range.1 hi)).2) (by
    intro x hx; obtain ⟨i, hi, rfl⟩ := List.mem_map.1 hx; exact fits_canon (h' i (List.mem_range.1 hi)).2) e
  intro i hi
  exact List.map_inj_left.1 e i (List.mem_range.2 hi)

/-! ### The share of an unmatched row -/

/-- The circuit for one feature. -/
def linCircuit2 : Circuit := ⟨[.input, .input, .input, .input, .mul 0 0, mulByNegOne intModulus 2, .add 4 5, .mul 1 0, mulByNegOne intModulus 3, .add 7 8],
  [6, 9], [4, 7]⟩

theorem checkLinReg_two : checkLinReg intModulus 2 = some linCircuit2 := by decide +kernel

theorem corShare_canon (k : Checker) : Canon (k.corShare intModulus).D intModulus ∧ Canon (k.corShare intModulus).E intModulus :=
  ⟨fmod_canon _, fmod_canon _⟩

theorem linCircuit2_ok : CircOk linCircuit2 := by
  obtain ⟨c, e, h, -⟩ := linCircuit (d := 2) (by norm_num) (by decide)
  rw [checkLinReg_two] at e; cases e
  exact h

/-- What server 0 sends for an unmatched row is its share of the feature times a number known to both servers. -/
theorem leak_share {t : RootTables} {l : List ℕ} (hrc : RootCalls (4 :: l) t) {x : ℤ} (hx : Canon x intModulus) {pre : CheckerPre}
    (hpre : checkerPre intModulus t 4 x = some pre) (hX : ((x : ZMod intModulus) * (x - 1) * (x ^ 2 + 1) * (x ^ 2 + 2 * x + 2)) ≠ 0) :
    ∃ m : ZMod intModulus, m ≠ 0 ∧ ∀ (is : List ℤ) (k : Checker),
      checkerInit intModulus false linCircuit2 (zeroPacket 2) pre is = some k → ((k.corShare intModulus).E : ZMod intModulus) = at0 is 0 * m := by
  have ht := (C02_tables_after_any_history _ _ hrc).1 _ _ rfl
  obtain ⟨pre', e, hp⟩ := checkerPre_ok (by norm_num) ht hx
  rw [hpre] at e; cases e
  obtain ⟨w, -, hw, -, hW, -, -⟩ := ht.prim
  have h4 : (4 : ZMod intModulus) ≠ 0 := by
    intro h
    have := (ZMod.natCast_eq_zero_iff 4 intModulus).1 (by exact_mod_cast h)
    exact absurd (Nat.le_of_dvd (by norm_num) this) (by decide)
  have w2 : w ^ 2 = -1 := by
    have h : w ^ 2 * w ^ 2 = 1 := by rw [← pow_add]; exact hw.pow_eq_one
    rcases mul_self_eq_one_iff.1 h with h | h
    · exact absurd h (hw.pow_ne_one_of_pos_of_lt (by norm_num) (by norm_num))
    · exact h
  have hw1 : w - 1 ≠ 0 := fun h => hw.ne_one (by norm_num) (sub_eq_zero.1 h)
  simp only [mul_ne_zero_iff] at hX
  obtain ⟨⟨⟨x0, x1⟩, x2⟩, x3⟩ := hX
  have hxw : (x : ZMod intModulus) + w ≠ 0 := fun h => x2 (by linear_combination ((x : ZMod intModulus) - w) * h + w2)
  have hxw' : (x : ZMod intModulus) + 1 - w ≠ 0 := fun h => x3 (by linear_combination ((x : ZMod intModulus) + 1 + w) * h + w2)
  refine ⟨((x - 1) * ((w - 1) * (x + w) * (x + 1 - w))) * x / 4, div_ne_zero (mul_ne_zero (mul_ne_zero x1 (mul_ne_zero (mul_ne_zero hw1 hxw) hxw')) x0) h4, ?_⟩
  intro is k hk
  have hk' := hk
  unfold checkerInit at hk'
  obtain ⟨ws, hws, -⟩ := Option.bind_eq_some_iff.1 hk'
  obtain ⟨k', e, -, htr, -, -, hg, -⟩ := checker_spec (c := linCircuit2) linCircuit2_ok.wf hp hws (by decide)
  rw [hk] at e; cases e
  have ha : wireF intModulus ws 0 = at0 is 0 := by
    have h := (importGates_all hws).2 0 (by decide)
    simp only [ImportRel, linCircuit2, List.getElem?_cons_zero, List.take_zero, nIn, List.countP_nil] at h
    rw [wireF, at0, at0, ← at0, ← at0]
    have := congrArg (fun o => o.getD 0) h
    simp only [Option.getD_some] at this
    rw [← this, at0, List.getD_eq_getElem?_getD]
  have hl : 4 * (polyFG linCircuit2.mulGates.length (npow2 linCircuit2.mulGates.length) (nodeF intModulus t.roots) (((zeroPacket 2).g0 : ℤ) : ZMod intModulus)
      fun i => wireF intModulus ws (linCircuit2.parR (linCircuit2.mg i))).eval (x : ZMod intModulus) =
      at0 is 0 * ((x - 1) * ((w - 1) * (x + w) * (x + 1 - w))) := by
    have e : npow2 linCircuit2.mulGates.length = 4 := by decide
    rw [polyFG, e]
    exact leak_poly hw h4 (fun i hi => by
      rw [← hW i hi, nodeF, List.getD_eq_getElem?_getD, List.getElem?_eq_getElem (by rw [ht.len]; exact hi), Option.getD_some])
      ⟨by simp [fPts, zeroPacket], ha, ha, rfl⟩ (x : ZMod intModulus)
  rw [Checker.corShare, htr]
  simp only [fmod_cast, Int.cast_sub, hg]
  have e : (((zeroPacket 2).triple.B : ℤ) : ZMod intModulus) = 0 := by simp [zeroPacket]
  rw [e, sub_zero, mul_div_assoc', eq_div_iff h4]
  linear_combination (x : ZMod intModulus) * hl

theorem linOp_view {nbits : ℕ} (hb : nbits ≤ 24) {n0 n1 : ℕ} {subs0 subs1 : List (Bytes × LinRow)} {s0 s1 : Bytes}
    (h0 : LinStream 2 n0 s0 subs0) (h1 : LinStream 2 n1 s1 subs1) (hlen : n1 < 2 ^ 32) {x : ℤ} {uses pos : ℕ} {st0 st1 : SnipState}
    (hs0 : SnipOk x uses pos st0) (hs1 : SnipOk x uses pos st1) (coef : ℕ → ℤ) (raw0 raw1 : ℕ → ℕ → ℕ → U64) (u : ℕ → ℕ → U64)
    (ord : Map LinRow → Map LinRow) (ho : IsOrder ord) {i : ℕ} {k : Bytes} (hk : (ord (admit (linFits nbits) subs1 [])).keys[i]? = some k)
    (hu : firstOf (linFits nbits) subs0 k = none) :
    ∃ t l pre, RootCalls (4 :: l) t ∧ checkerPre intModulus t 4 x = some pre ∧ ∃ (is : List ℤ) (words : List U64) (K : ℕ → Checker) (rest : Bytes),
      Sees1 (linOp0 nbits n0 s0 coef raw0 u st0) (linOp1 nbits n1 s1 coef raw1 st1 ord) (seenWords words ++
        seenBytes ((encCorShares ((List.range (ord (admit (linFits nbits) subs1 [])).length).map fun i => (K i).corShare intModulus)).getD [] ++ rest)) ∧
      checkerInit intModulus false linCircuit2 (zeroPacket 2) pre is = some (K i) ∧
      (at0 is 0 + at0 (conv1 (linWidths 2 nbits) (ord (admit (linFits nbits) subs1 [])).length words) (i * 4) : ZMod intModulus) =
        (((u i 0 ^^^ ((flatRows (ord (admit (linFits nbits) subs1 []))).getD i ([], ⟨[], zeroPacket 0⟩)).2.vals.getD 0 0#64).toNat % 2 ^ nbits : ℕ) :
          ZMod intModulus) := by
  have hm : linCircuit2.mulGates.length = linMul 2 := by decide
  obtain ⟨l0, k0, r0⟩ := h0.spec hm
  obtain ⟨l1, k1, r1⟩ := h1.spec hm
  set m1 := ord (admit (linFits nbits) subs1 []) with hm1
  have hrow : ∀ {subs : List (Bytes × LinRow)}, (∀ e ∈ subs, LinRowOk linCircuit2 2 e.2) →
      ∀ e ∈ subs.map (fun e => (e.1, e.2.flat)), SnipRowOk linCircuit2 (linWidths 2 nbits).length e.2 := by
    intro subs h e he
    obtain ⟨e, hm, rfl⟩ := List.mem_map.1 he
    exact ⟨by rw [linWidths_length]; exact flat_length (by norm_num) (h e hm), (h e hm).pk⟩
  have hkey : ∀ {subs : List (Bytes × LinRow)}, Keyed subs → Keyed (subs.map fun e => (e.1, e.2.flat)) := by
    intro subs h e he
    obtain ⟨e, hm, rfl⟩ := List.mem_map.1 he
    exact h e hm
  have hkf : ∀ m : Map LinRow, (flatRows m).keys = m.keys := fun m => by simp [flatRows, Map.keys, Function.comp_def]
  have hadm : ∀ {subs : List (Bytes × LinRow)}, (∀ e ∈ subs, LinRowOk linCircuit2 2 e.2) → flatRows (admit (linFits nbits) subs []) =
      admit (fun s => linFits nbits (unflat 2 s)) (subs.map fun e => (e.1, e.2.flat)) [] :=
    fun {subs} h => admit_map LinRow.flat subs [] (keys_lin (by norm_num) h)
  have hi : i < (flatRows m1).length := by
    have := (List.getElem?_eq_some_iff.1 hk).1
    simpa [flatRows, Map.keys] using this
  have hfl : (flatRows m1).length = m1.length := by simp [flatRows]
  have hperm : (flatRows m1).Perm (admit (fun s => linFits nbits (unflat 2 s)) (subs1.map fun e => (e.1, e.2.flat)) []) := by
    rw [← hadm r1]; exact (ho _).map _
  have hjl : ∀ i, (linJunk 2 u i).length = (linWidths 2 nbits).length := by intro i; rw [linWidths_length]; simp [linJunk]
  obtain ⟨pre, t, l, hrc, hpre, K0, K1, O0, O1, st0', st1', hP, hrun⟩ := snipOp_view linCircuit2_ok hs0 hs1 coef (ws := linWidths 2 nbits)
    (by rw [linWidths_length]; decide) (linWidths_le hb) raw0 raw1 (linJunk 2 u) hjl
    (fun s => linFits nbits (unflat 2 s)) (subs0.map fun e => (e.1, e.2.flat)) (subs1.map fun e => (e.1, e.2.flat)) (hkey k1) (hrow r0) (hrow r1)
    (by simpa [l1] using hlen) (flatRows m1) hperm (by omega) _ rfl
  obtain ⟨q0, q1, e0, e1, hr⟩ := hrun i hi
  have hki : (flatRows m1).keys[i]? = some k := by rw [hkf]; exact hk
  have hnone : firstOf (fun s => linFits nbits (unflat 2 s)) (subs0.map fun e => (e.1, e.2.flat)) k = none := by
    rw [firstOf_map LinRow.flat subs0 (keys_lin (nbits := nbits) (by norm_num) r0), hu]; rfl
  rw [rows0_at hki, hnone] at e0
  obtain rfl : (⟨linJunk 2 u i, zeroPacket 2⟩ : SnipRow) = q0 := Option.some.inj e0
  set R0 := rows0 linCircuit2.mulGates.length (admit (fun s => linFits nbits (unflat 2 s)) (subs0.map fun e => (e.1, e.2.flat)) []) (linJunk 2 u)
    (flatRows m1).keys with hR0
  have hkl : (flatRows m1).keys.length = (flatRows m1).length := by simp [Map.keys]
  obtain ⟨-, s0l, s1l, s0c, s1c, hsum⟩ := convert_view (linWidths_le hb) raw0 raw1 (n := (flatRows m1).length) (R0 := R0) (R1 := (flatRows m1).map (·.2))
    (by rw [hR0]; simp [rows0, hkl]) (by simp) (rows0_ok hjl (hrow r0) _) (rows1_ok (hrow r1) hperm)
  refine ⟨t, l, pre, hrc, hpre, _, convWords (linWidths 2 nbits) raw0 R0 ((flatRows m1).map (·.2)), K0,
    ((List.range (flatRows m1).length).map O0).flatMap fmpzBytes ++ encBools (combined (admit (fun s => linFits nbits (unflat 2 s))
      (subs0.map fun e => (e.1, e.2.flat)) []) (flatRows m1).keys (flatRows m1).length O0 O1), ?_, hr.init0, ?_⟩
  · obtain ⟨t0, rest0, d0, h0⟩ := h0
    obtain ⟨t1, rest1, d1, h1⟩ := h1
    unfold linOp0 linOp1
    simp only [d0, d1, Proc.ofOption, Proc.bind, lin_degree (d := 2) (by decide), checkLinReg_two, hm, lin_intake (by omega : nbits ≤ 31) h0,
      lin_intake (by omega : nbits ≤ 31) h1, hadm r0, hadm r1]
    obtain ⟨B1, B2, -⟩ := accumulate_spec (pieces (linWidths 2 nbits).length (flatRows m1).length (conv1 (linWidths 2 nbits) (flatRows m1).length
      (convWords (linWidths 2 nbits) raw0 R0 ((flatRows m1).map (·.2))))) (combined (admit (fun s => linFits nbits (unflat 2 s))
      (subs0.map fun e => (e.1, e.2.flat)) []) (flatRows m1).keys (flatRows m1).length O0 O1)
      (by rw [pieces_length]; simp [combined, matched_length, hkl, verdicts]) (pieces_mem _ _ _ s1l)
    have e : ∀ (a : List U64) (b c d : Bytes), seenWords a ++ seenBytes (b ++ (c ++ d)) = seenWords a ++ (seenBytes b ++ seenBytes c) ++ seenBytes d ++ [] :=
      fun a b c d => by simp [seenBytes]
    rw [← hm1, ← hfl, e]
    obtain ⟨o, hq⟩ := lin_tail (by norm_num : 1 ≤ 2) (B1.trans (linWidths_length _ _)) B2 n0 (accumulate (linWidths 2 nbits).length
      (pieces (linWidths 2 nbits).length (flatRows m1).length (conv0 (linWidths 2 nbits) raw0 R0)) (combined (admit (fun s => linFits nbits (unflat 2 s))
      (subs0.map fun e => (e.1, e.2.flat)) []) (flatRows m1).keys (flatRows m1).length O0 O1), numTrue (combined (admit (fun s => linFits nbits (unflat 2 s))
      (subs0.map fun e => (e.1, e.2.flat)) []) (flatRows m1).keys (flatRows m1).length O0 O1), st0') st1'
    exact (hP.bind hq).sees1
  · have h := hsum i hi 0 (by rw [linWidths_length]; decide)
    rw [Nat.add_zero] at h
    have e4 : (linWidths 2 nbits).length = 4 := linWidths_length _ _
    have ea : at0 ((pieces (linWidths 2 nbits).length (flatRows m1).length (conv0 (linWidths 2 nbits) raw0 R0)).getD i []) 0 =
        at0 (conv0 (linWidths 2 nbits) raw0 R0) (i * (linWidths 2 nbits).length) :=
      getD_pieces _ _ _ i 0 hi (by rw [e4]; norm_num) 0
    rw [ea, ← hfl, ← e4, h]
    have g0 : R0.getD i ⟨[], zeroPacket 0⟩ = ⟨linJunk 2 u i, zeroPacket 2⟩ := by
      rw [List.getD_eq_getElem?_getD, hR0, rows0_at hki, hnone]; rfl
    have gJ : (linJunk 2 u i).getD 0 0#64 = u i 0 := rfl
    have gW : (linWidths 2 nbits).getD 0 0 = nbits := by simp [linWidths, numFields]
    have gV : ((flatRows m1).map (·.2)).getD i ⟨[], zeroPacket 0⟩ = ((flatRows m1).getD i ([], ⟨[], zeroPacket 0⟩)).2 := by
      simp only [List.getD_eq_getElem?_getD, List.getElem?_map]
      cases (flatRows m1)[i]? <;> rfl
    rw [recVal, g0, gV, gW]
    simp only [gJ]

/-- C64 fails for the memory of server 0 in LINREG, shown for one feature. For a key that server 0 has not accepted, `linreg_op` puts arrays that were never
written to through the share conversion and the check (server.cpp:1081-1092), with a packet of zeros, so nothing hides what server 0 sends for it. If server 1
sees the same in two runs, with whatever masks, submissions to server 0 and memories, then the low `nbits` bits of the first word of the array `x` of
server 0 are the same in both: server 1 learns them. The check point `x` may be any but six values. -/
theorem C64_lin_memory_leak {nbits : ℕ} (hb : nbits ≤ 24) {n0 n0' n1 : ℕ} {subs0 subs0' subs1 : List (Bytes × LinRow)} {s0 s0' s1 : Bytes}
    (h0 : LinStream 2 n0 s0 subs0) (h0' : LinStream 2 n0' s0' subs0') (h1 : LinStream 2 n1 s1 subs1) (hlen : n1 < 2 ^ 32) {x : ℤ} {uses pos : ℕ}
    {st0 st0' st1 : SnipState} (hs0 : SnipOk x uses pos st0) (hs0' : SnipOk x uses pos st0') (hs1 : SnipOk x uses pos st1)
    (hX : ((x : ZMod intModulus) * (x - 1) * (x ^ 2 + 1) * (x ^ 2 + 2 * x + 2)) ≠ 0) (coef : ℕ → ℤ) (raw0 raw0' raw1 : ℕ → ℕ → ℕ → U64)
    (u u' : ℕ → ℕ → U64) (ord : Map LinRow → Map LinRow) (ho : IsOrder ord) {i : ℕ} {k : Bytes}
    (hk : (ord (admit (linFits nbits) subs1 [])).keys[i]? = some k) (hu : firstOf (linFits nbits) subs0 k = none)
    (hu' : firstOf (linFits nbits) subs0' k = none) {v : List Seen}
    (hv : Sees1 (linOp0 nbits n0 s0 coef raw0 u st0) (linOp1 nbits n1 s1 coef raw1 st1 ord) v)
    (hv' : Sees1 (linOp0 nbits n0' s0' coef raw0' u' st0') (linOp1 nbits n1 s1 coef raw1 st1 ord) v) :
    (u i 0).toNat % 2 ^ nbits = (u' i 0).toNat % 2 ^ nbits := by
  obtain ⟨t, l, pre, hrc, hpre, is, words, K, rest, hS, hK, hsum⟩ := linOp_view hb h0 h1 hlen hs0 hs1 coef raw0 raw1 u ord ho hk hu
  obtain ⟨t', l', pre', hrc', hpre', is', words', K', rest', hS', hK', hsum'⟩ := linOp_view hb h0' h1 hlen hs0' hs1 coef raw0' raw1 u' ord ho hk hu'
  obtain rfl := rootCalls_eq hrc hrc'
  rw [hpre] at hpre'; cases hpre'
  have e := hv.unique hS
  obtain rfl := hv'.unique hS'
  obtain ⟨rfl, e2⟩ := seen_split e
  have hi : i < (ord (admit (linFits nbits) subs1 [])).length := by
    have := (List.getElem?_eq_some_iff.1 hk).1
    simpa [Map.keys] using this
  have hE := corShares_inj (fun i _ => corShare_canon (K' i)) (fun i _ => corShare_canon (K i)) e2 i hi
  obtain ⟨m, hm, hl⟩ := leak_share hrc hs0.canon hpre hX
  have q := hl _ _ hK
  rw [← hE, hl _ _ hK'] at q
  have q := mul_right_cancel₀ hm q
  rw [q, hsum] at hsum'
  have lt : ∀ z : ℕ, z % 2 ^ nbits < intModulus := fun z =>
    lt_of_lt_of_le (Nat.mod_lt _ (by positivity)) ((Nat.pow_le_pow_right (by norm_num) hb).trans (by decide))
  have hz := (ZMod.natCast_eq_natCast_iff' _ _ _).1 hsum'
  rw [Nat.mod_eq_of_lt (lt _), Nat.mod_eq_of_lt (lt _)] at hz
  generalize ((flatRows (ord (admit (linFits nbits) subs1 []))).getD i ([], ⟨[], zeroPacket 0⟩)).2.vals.getD 0 0#64 = y at hz
  rw [BitVec.toNat_xor, BitVec.toNat_xor, Nat.xor_mod_two_pow, Nat.xor_mod_two_pow] at hz
  exact Nat.xor_left_injective hz

/-! ### Non-vacuity -/

/-- Non-vacuity: one submission, to server 1 only. Whatever the masks, server 1 can tell a memory of zeros from one of ones. -/
example : ∃ (s0 s1 : Bytes) (k : Bytes) (r : LinRow) (st : SnipState), LinStream 2 0 s0 [] ∧ LinStream 2 1 s1 [(k, r)] ∧ SnipOk 5 0 0 st ∧
    ∀ raw0 raw0' : ℕ → ℕ → ℕ → U64, ∃ v v',
      Sees1 (linOp0 4 0 s0 (fun _ => 1) raw0 (fun _ _ => 0#64) st) (linOp1 4 1 s1 (fun _ => 1) raw0 st id) v ∧
      Sees1 (linOp0 4 0 s0 (fun _ => 1) raw0' (fun _ _ => 1#64) st) (linOp1 4 1 s1 (fun _ => 1) raw0 st id) v' ∧ v ≠ v' := by
  obtain ⟨t0, h0⟩ := (⟨_, RootCalls.start⟩ : ∃ t, RootCalls [] t)
  have hm : linCircuit2.mulGates.length = linMul 2 := by decide
  obtain ⟨b0, -, g0⟩ := lin_stream (d := 2) (by norm_num) hm (subs := []) (by simp)
  obtain ⟨b1, -, g1⟩ := lin_stream (d := 2) (by norm_num) hm (subs := [(List.replicate 32 7#8, ⟨[3#64], 5#64, [9#64], [15#64], zeroPacket 2⟩)]) (by
    intro e he
    simp only [List.mem_singleton] at he
    subst he
    refine ⟨by simp [pkLength], ⟨rfl, by decide, rfl, zeroPacket_ok linCircuit2⟩, ?_⟩
    intro y hy
    have : y = 0 := by
      revert y; decide
    subst this; exact ⟨by norm_num, by norm_num⟩)
  have hs := fresh_ok h0
  have hid : IsOrder (id : Map LinRow → Map LinRow) := fun m => List.Perm.refl _
  refine ⟨_, _, _, _, _, g0 [], g1 [], hs, fun raw0 raw0' => ?_⟩
  obtain ⟨_, _, _, _, _, _, _, _, _, v, _⟩ := linOp_view (nbits := 4) (by norm_num) (g0 []) (g1 []) (by norm_num) hs hs (fun _ => 1) raw0 raw0 (fun _ _ => 0#64)
    id hid (i := 0) rfl rfl
  obtain ⟨_, _, _, _, _, _, _, _, _, v', _⟩ := linOp_view (nbits := 4) (by norm_num) (g0 []) (g1 []) (by norm_num) hs hs (fun _ => 1) raw0' raw0 (fun _ _ => 1#64)
    id hid (i := 0) rfl rfl
  refine ⟨_, _, v, v', fun e => ?_⟩
  rw [e] at v
  have := C64_lin_memory_leak (nbits := 4) (by norm_num) (g0 []) (g0 []) (g1 []) (by norm_num) hs hs hs (by decide +kernel) _ _ _ _ _ _ _ hid (i := 0) rfl rfl rfl v v'
  exact absurd this (by decide)

end Verif
