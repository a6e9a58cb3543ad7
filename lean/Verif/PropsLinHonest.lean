import Verif.PropsLinReg

/-!
# C42 for LINREG, continued: verdicts, cheating clients, exactness, honest clients end to end; C33, C48, C56
-/

namespace Verif

/-! ## C33, C48 -/

/-- C33 for LINREG: both servers accumulate with the same validity vector, which marks exactly the counted keys, and server 0
counts its true entries. -/
theorem C33_linreg {d : ℕ} (hd : 1 ≤ d) (hsm : linMul d < 2 ^ 18) {nbits : ℕ} (hb : nbits ≤ 24) {total0 total1 : ℕ}
    (ht : total1 < 2 ^ 32) {s0 s1 : Bytes} {subs0 subs1 : List (Bytes × LinRow)} (h0 : LinStream d total0 s0 subs0)
    (h1 : LinStream d total1 s1 subs1) (hne : ∃ e ∈ subs1, linFits nbits e.2 = true) {x : ℤ} {uses pos : ℕ} {st0 st1 : SnipState}
    (hs0 : SnipOk x uses pos st0) (hs1 : SnipOk x uses pos st1) (coef : ℕ → ℤ) (raw0 raw1 : ℕ → ℕ → ℕ → U64) (u : ℕ → ℕ → U64)
    (ord : Map LinRow → Map LinRow) (ho : IsOrder ord) {c : Circuit} (hc : checkLinReg intModulus d = some c) :
    ∃ (V : List Bool) (sh0 sh1 : List ℤ) (n : ℕ) (st0' st1' : SnipState), let o := ord (admit (linFits nbits) subs1 [])
      V.length = o.length ∧
      Always (snipOp0 c coef (linWidths d nbits) raw0 (linJunk d u) st0 (flatRows (admit (linFits nbits) subs0 [])))
        (snipOp1 c coef (linWidths d nbits) raw1 st1 (flatRows (admit (linFits nbits) subs1 [])) (flatRows o))
        (accumulate (numFields d) (pieces (numFields d) o.length sh0) V, n, st0')
        (accumulate (numFields d) (pieces (numFields d) o.length sh1) V, st1') ∧
      n = (linCounted c x coef pos nbits subs0 subs1 o.keys).card ∧
      ∀ i (hi : i < o.length), (V.getD i false = true ↔ o[i].1 ∈ linCounted c x coef pos nbits subs0 subs1 o.keys) := by
  obtain ⟨c', e', hcok, hmul, hzero, hin, -⟩ := linCircuit hd hsm
  rw [hc] at e'; cases e'
  obtain ⟨l0, k0, r0⟩ := h0.spec hmul
  obtain ⟨l1, k1, r1⟩ := h1.spec hmul
  have hp := ho (admit (linFits nbits) subs1 [])
  generalize ord (admit (linFits nbits) subs1 []) = o at hp
  have hpos : 0 < o.length := by rw [hp.length_eq]; exact admit_pos hne
  have hwl : (linWidths d nbits).length = numFields d := by simp [linWidths]
  have hw : ∀ w ∈ linWidths d nbits, w ≤ 48 := by
    intro w hw
    obtain ⟨i, -, rfl⟩ := List.mem_map.1 hw
    split_ifs <;> omega
  have a0 : flatRows (admit (linFits nbits) subs0 []) = admit (fun s => linFits nbits (unflat d s)) (subs0.map fun e => (e.1, e.2.flat)) [] :=
    admit_map LinRow.flat subs0 [] (keys_lin hd r0)
  have a1 : flatRows (admit (linFits nbits) subs1 []) = admit (fun s => linFits nbits (unflat d s)) (subs1.map fun e => (e.1, e.2.flat)) [] :=
    admit_map LinRow.flat subs1 [] (keys_lin hd r1)
  have hkf : (flatRows o).keys = o.keys := by simp [flatRows, Map.keys, Function.comp_def]
  have hfl : (flatRows o).length = o.length := by simp [flatRows]
  have hrow : ∀ {subs : List (Bytes × LinRow)}, (∀ e ∈ subs, LinRowOk c d e.2) →
      ∀ e ∈ subs.map (fun e => (e.1, e.2.flat)), SnipRowOk c (linWidths d nbits).length e.2 := by
    intro subs h e he
    obtain ⟨e, hm, rfl⟩ := List.mem_map.1 he
    exact ⟨by rw [hwl]; exact flat_length hd (h e hm), (h e hm).pk⟩
  obtain ⟨V, q0, q1, n, st0', st1', b1, b2, b3, b4⟩ := C33_same_accumulation hcok hs0 hs1 coef
    (ws := linWidths d nbits) (by rw [hin, hwl]) hw raw0 raw1 (linJunk d u) (by intro i; rw [hwl]; simp [linJunk])
    (fun s => linFits nbits (unflat d s)) (subs0.map fun e => (e.1, e.2.flat)) (subs1.map fun e => (e.1, e.2.flat))
    (by intro e he; obtain ⟨e, hm, rfl⟩ := List.mem_map.1 he; exact k1 e hm) (hrow r0) (hrow r1)
    (by rw [List.length_map, l1]; exact ht) (flatRows o) (by rw [← a1]; exact hp.map _) (by rw [hfl]; exact hpos)
  rw [hfl] at b1 b2
  rw [hkf, passing_lin hd r0 r1] at b3
  rw [hwl] at b2
  refine ⟨V, q0, q1, n, st0', st1', b1, by rw [a0, a1]; exact b2, b3, fun i hi => ?_⟩
  have := b4 i (by rw [hfl]; exact hi)
  rw [hkf, passing_lin hd r0 r1] at this
  rw [this]
  simp [flatRows]

/-- C48 for LINREG: an invalid batch is reported iff twice the number of counted keys is below the announced number. -/
theorem C48_linreg {d : ℕ} (hd : 1 ≤ d) (hsm : linMul d < 2 ^ 18) {nbits : ℕ} (hb : nbits ≤ 24) {total0 total1 : ℕ} (ht0 : total0 < 2 ^ 64)
    (ht : total1 < 2 ^ 32) {s0 s1 : Bytes}
    {subs0 subs1 : List (Bytes × LinRow)} (h0 : LinStream d total0 s0 subs0) (h1 : LinStream d total1 s1 subs1)
    (hne : ∃ e ∈ subs1, linFits nbits e.2 = true) {x : ℤ} {uses pos : ℕ} {st0 st1 : SnipState} (hs0 : SnipOk x uses pos st0)
    (hs1 : SnipOk x uses pos st1) (coef : ℕ → ℤ) (raw0 raw1 : ℕ → ℕ → ℕ → U64) (u : ℕ → ℕ → U64) (ord : Map LinRow → Map LinRow)
    (ho : IsOrder ord) {c : Circuit} (hc : checkLinReg intModulus d = some c) :
    ∃ r st0' st1', Always (linOp0 nbits total0 s0 coef raw0 u st0) (linOp1 nbits total1 s1 coef raw1 st1 ord) (r, st0') (.noAns, st1') ∧
      (r = .invalid ↔ 2 * (linCounted c x coef pos nbits subs0 subs1 (ord (admit (linFits nbits) subs1 [])).keys).card < total0) := by
  obtain ⟨st0', st1', xa, ya, r, h, -⟩ := C42_linreg_op hd hsm hb ht0 ht h0 h1 hne hs0 hs1 coef raw0 raw1 u ord ho hc
  refine ⟨_, st0', st1', h, ?_⟩
  unfold verdict
  split_ifs with hv <;> simp [hv]

/-! ## C56 -/

/-- C56 is false of LINREG: if server 1 admits no submission, both servers read the first circuit of an empty array, in every
schedule. -/
theorem C56_false_linreg_empty {d : ℕ} (hd : 1 ≤ d) (hsm : linMul d < 2 ^ 18) {nbits : ℕ} (hb : nbits < 64) {total0 total1 : ℕ} {s0 s1 : Bytes}
    {subs0 subs1 : List (Bytes × LinRow)} (h0 : LinStream d total0 s0 subs0) (h1 : LinStream d total1 s1 subs1)
    (hne : ∀ e ∈ subs1, linOk (1#64 <<< nbits) e.2 = false) (st0 st1 : SnipState) (coef : ℕ → ℤ) (raw0 raw1 : ℕ → ℕ → ℕ → U64)
    (u : ℕ → ℕ → U64) (ord : Map LinRow → Map LinRow) (ho : IsOrder ord) :
    Crashes0 (linOp0 nbits total0 s0 coef raw0 u st0) (linOp1 nbits total1 s1 coef raw1 st1 ord) := by
  apply Crashes0.ofLeads'
  obtain ⟨c, hc, -, hmul, -⟩ := linCircuit hd hsm
  obtain ⟨t0, rest0, d0, h0⟩ := h0
  obtain ⟨t1, rest1, d1, h1⟩ := h1
  have hdn : (BitVec.ofNat 64 d).toNat = d := by
    rw [BitVec.toNat_ofNat, Nat.mod_eq_of_lt]
    have : d - 1 ≤ linMul d := by unfold linMul; omega
    omega
  have i0 : linIntake d (linMul d) nbits total0 t0 = some (admit (linOk (1#64 <<< nbits)) subs0 []) := by
    unfold linIntake maxVal
    rw [if_pos hb, Option.bind_some, h0, Option.map_some]
  have i1 : linIntake d (linMul d) nbits total1 t1 = some [] := by
    unfold linIntake maxVal
    rw [if_pos hb, Option.bind_some, h1, Option.map_some, admit_none hne]
  have ho : ord [] = [] := List.perm_nil.1 (ho [])
  have hf : flatRows [] = [] := rfl
  unfold linOp0 linOp1
  simp only [d0, d1, Proc.ofOption, Proc.bind, hdn, hc, hmul, i0, i1, ho, hf]
  exact (snipOp_empty _ _ _ _ _ _ _ _ _).bindFault _ _

/-- From 32 to 63 bits the range test refuses everything of degree at least 2, so every such run ends this way. -/
theorem C56_false_linreg_wide {d : ℕ} (hd : 2 ≤ d) (hsm : linMul d < 2 ^ 18) {nbits : ℕ} (hb : 32 ≤ nbits) (hb' : nbits < 64)
    {total0 total1 : ℕ} {s0 s1 : Bytes}
    {subs0 subs1 : List (Bytes × LinRow)} (h0 : LinStream d total0 s0 subs0) (h1 : LinStream d total1 s1 subs1) (st0 st1 : SnipState)
    (coef : ℕ → ℤ) (raw0 raw1 : ℕ → ℕ → ℕ → U64) (u : ℕ → ℕ → U64) (ord : Map LinRow → Map LinRow) (ho : IsOrder ord) :
    Crashes0 (linOp0 nbits total0 s0 coef raw0 u st0) (linOp1 nbits total1 s1 coef raw1 st1 ord) := by
  obtain ⟨c, -, -, hmul, -⟩ := linCircuit (d := d) (by omega) hsm
  refine C56_false_linreg_empty (by omega) hsm hb' h0 h1 (fun e he => C49_lin_wrap hb hb' ?_) st0 st1 coef raw0 raw1 u ord ho
  intro h
  have := ((h1.spec hmul).2.2 e he).xy
  rw [h] at this
  simp at this; omega

/-- Concrete witness: degree 2 is announced and no submission follows. -/
example : LinStream 2 0 (encSize 2#64) [] :=
  ⟨[], [], by have := reads_size 2#64 []; simpa using this, rfl⟩

/-! ## Cheating clients -/

/-- C42, cheating clients: if the products are wrong modulo `p`, then whatever the packets there are few bad check points, and at
any other the submission passes for exactly one in `p` of the choices of coefficients. -/
theorem C42_cheater {d : ℕ} (hd : 1 ≤ d) (hsm : linMul d < 2 ^ 18) {nbits : ℕ} {c : Circuit} (hc : checkLinReg intModulus d = some c)
    {subs0 subs1 : List (Bytes × LinRow)} {k : Bytes} {r0 r1 : LinRow}
    (e0 : firstOf (linFits nbits) subs0 k = some r0) (e1 : firstOf (linFits nbits) subs1 k = some r1)
    (hr0 : LinRowOk c d r0) (hr1 : LinRowOk c d r1)
    (hbad : ¬ ∃ xs y, xs.length = d - 1 ∧ (linAt nbits subs0 subs1 k).all.map (fun v : ℕ => (v : ZMod intModulus)) = regressionRow xs y) :
    ∃ bad : Finset (ZMod intModulus), bad.card ≤ 2 * npow2 (linMul d) ∧ ∀ x, Canon x intModulus → (x : ZMod intModulus) ∉ bad →
      {cs : List ℤ | cs.length = linMul d + 1 ∧ (∀ y ∈ cs, IsDraw y intModulus) ∧ LinPasses c x nbits subs0 subs1 cs k}.ncard =
        intModulus ^ linMul d := by
  obtain ⟨c', e', hcok, hmul, hzero, hin, hevl⟩ := linCircuit hd hsm
  rw [hc] at e'; cases e'
  have hat : linAt nbits subs0 subs1 k = linRec r0 r1 := by unfold linAt; rw [e0, e1]
  rw [hat] at hbad
  set inps := (linRec r0 r1).all.map fun v : ℕ => fmod (v : ℤ) intModulus with hin'
  have hres : residues intModulus inps = (linRec r0 r1).all.map fun v : ℕ => (v : ZMod intModulus) := by
    rw [hin', residues, List.map_map]
    exact List.map_congr_left fun v _ => by simp
  obtain ⟨w, b, hev, hb⟩ := hevl inps (by rw [hin', List.length_map]; exact all_length hd hr0 hr1)
  rw [hres] at hb
  have hbf : b = false := by
    rw [← Bool.not_eq_true, hb]; exact hbad
  subst hbf
  obtain ⟨bad, h1, h2⟩ := accepts_count hcok hev (by
    intro v hv
    obtain ⟨a, -, rfl⟩ := List.mem_map.1 hv
    exact fmod_canon _) hr0.pk hr1.pk
  rw [hmul] at h1
  refine ⟨bad, h1, fun x hx hxb => ?_⟩
  have := h2 x hx hxb
  rw [hzero] at this
  refine Eq.trans ?_ this
  congr 1
  ext cs
  simp only [Set.mem_ofPred_eq]
  refine and_congr_right fun _ => and_congr_right fun _ => ?_
  constructor
  · rintro ⟨a0, a1, f0, f1, h⟩
    rw [e0] at f0; cases f0
    rw [e1] at f1; cases f1
    exact h
  · exact fun h => ⟨r0, r1, e0, e1, h⟩

/-! ## Exactness -/

theorem pairProducts_map {F K : Type*} [Mul F] [Mul K] (f : F → K) : ∀ {l : List F}, (∀ a ∈ l, ∀ b ∈ l, f (a * b) = f a * f b) →
    pairProducts (l.map f) = (pairProducts l).map f
  | [], _ => rfl
  | a :: l, h => by
    have ih := pairProducts_map f (l := l) fun x hx y hy => h x (List.mem_cons_of_mem _ hx) y (List.mem_cons_of_mem _ hy)
    rw [List.map_cons, pairProducts, ih, pairProducts, List.map_append]
    congr 1
    rw [← List.map_cons, List.map_map, List.map_map]
    exact List.map_congr_left fun y hy => (h a (List.mem_cons_self ..) y hy).symm

theorem mem_pairProducts {F : Type*} [Mul F] : ∀ {l : List F} {z : F}, z ∈ pairProducts l → ∃ a ∈ l, ∃ b ∈ l, z = a * b
  | [], z, h => by simp [pairProducts] at h
  | a :: l, z, h => by
    rw [pairProducts, List.mem_append] at h
    rcases h with h | h
    · obtain ⟨b, hb, rfl⟩ := List.mem_map.1 h
      exact ⟨a, List.mem_cons_self .., b, hb, rfl⟩
    · obtain ⟨x, hx, y, hy, e⟩ := mem_pairProducts h
      exact ⟨x, List.mem_cons_of_mem _ hx, y, List.mem_cons_of_mem _ hy, e⟩

/-- The submitted values respect their bounds. -/
theorem C49_lin_vals (nbits : ℕ) (subs0 subs1 : List (Bytes × LinRow)) (k : Bytes) :
    (∀ v ∈ (linAt nbits subs0 subs1 k).x, v < 2 ^ nbits) ∧ (linAt nbits subs0 subs1 k).y < 2 ^ nbits ∧
    (∀ v ∈ (linAt nbits subs0 subs1 k).x2, v < 2 ^ (2 * nbits)) ∧ ∀ v ∈ (linAt nbits subs0 subs1 k).xy, v < 2 ^ (2 * nbits) := by
  have hx : ∀ (n : ℕ) (l l' : List U64), (∀ v ∈ l, v.toNat < 2 ^ n) → (∀ v ∈ l', v.toNat < 2 ^ n) → ∀ v ∈ xors l l', v < 2 ^ n := by
    intro n l l' h h' v hv
    unfold xors at hv
    rw [List.mem_iff_getElem] at hv
    obtain ⟨i, hi, rfl⟩ := hv
    rw [List.getElem_zipWith, BitVec.toNat_xor]
    exact Nat.xor_lt_two_pow (h _ (List.getElem_mem _)) (h' _ (List.getElem_mem _))
  unfold linAt
  rcases h0 : firstOf (linFits nbits) subs0 k with _ | r0 <;> rcases h1 : firstOf (linFits nbits) subs1 k with _ | r1 <;> simp only
  any_goals exact ⟨by simp, pow_pos (by norm_num) _, by simp, by simp⟩
  have a0 := firstOf_ok h0
  have a1 := firstOf_ok h1
  simp only [linFits, Bool.and_eq_true, List.all_eq_true, decide_eq_true_eq] at a0 a1
  refine ⟨hx _ _ _ a0.1.1.1 a1.1.1.1, ?_, hx _ _ _ a0.1.2 a1.1.2, hx _ _ _ a0.2 a1.2⟩
  simp only [linRec, BitVec.toNat_xor]
  exact Nat.xor_lt_two_pow a0.1.1.2 a1.1.1.2

theorem map_natCast_inj {l l' : List ℕ} (h : ∀ v ∈ l, v < intModulus) (h' : ∀ v ∈ l', v < intModulus)
    (e : l.map (fun v : ℕ => (v : ZMod intModulus)) = l'.map fun v : ℕ => (v : ZMod intModulus)) : l = l' := by
  have hl : l.length = l'.length := by simpa using congrArg List.length e
  apply List.ext_getElem hl
  intro i a b
  have := congrArg (fun m : List (ZMod intModulus) => m[i]?) e
  simp only [List.getElem?_map, List.getElem?_eq_getElem a, List.getElem?_eq_getElem b, Option.map_some, Option.some.injEq] at this
  rw [ZMod.natCast_eq_natCast_iff] at this
  exact Nat.ModEq.eq_of_lt_of_lt this (h _ (List.getElem_mem _)) (h' _ (List.getElem_mem _))

/-- Up to 23 bits, a submission that satisfies the circuit modulo `p` satisfies it over the integers. -/
theorem C42_exact {d nbits : ℕ} (hb : nbits ≤ 23) (subs0 subs1 : List (Bytes × LinRow)) (k : Bytes)
    (hx : (linAt nbits subs0 subs1 k).x.length = d - 1) (hx2 : (linAt nbits subs0 subs1 k).x2.length = numQuad d)
    (h : ∃ xs y, xs.length = d - 1 ∧ (linAt nbits subs0 subs1 k).all.map (fun v : ℕ => (v : ZMod intModulus)) = regressionRow xs y) :
    (linAt nbits subs0 subs1 k).x2 = pairProducts (linAt nbits subs0 subs1 k).x ∧
      (linAt nbits subs0 subs1 k).xy = (linAt nbits subs0 subs1 k).x.map fun x => (linAt nbits subs0 subs1 k).y * x := by
  obtain ⟨b1, b2, b3, b4⟩ := C49_lin_vals nbits subs0 subs1 k
  generalize linAt nbits subs0 subs1 k = v at *
  obtain ⟨x, y, x2, xy⟩ := v
  simp only at *
  obtain ⟨xs, y', hl, h⟩ := h
  have h46 : (2 : ℕ) ^ (2 * nbits) ≤ 2 ^ 46 := Nat.pow_le_pow_right (by norm_num) (by omega)
  have hp46 : (2 : ℕ) ^ 46 < intModulus := by decide
  have hprod : ∀ a b, a < 2 ^ nbits → b < 2 ^ nbits → a * b < intModulus := by
    intro a b ha hb
    have : a * b < 2 ^ nbits * 2 ^ nbits := Nat.mul_lt_mul'' ha hb
    rw [← pow_add, ← two_mul] at this
    omega
  simp only [LinVal.all, regressionRow, List.map_append, List.map_cons, List.map_nil] at h
  have hq : (pairProducts xs).length = numQuad d := by rw [pairProducts_length, hl]; rfl
  obtain ⟨h, h4⟩ := List.append_inj h (by simp [hx, hx2, hl, hq])
  obtain ⟨h, h3⟩ := List.append_inj h (by simp [hx, hl])
  obtain ⟨h1, h2⟩ := List.append_inj h (by simp [hx, hl])
  have h2 : (y : ZMod intModulus) = y' := by simpa using h2
  constructor
  · refine map_natCast_inj (fun v hv => lt_of_lt_of_le (b3 v hv) (by omega)) ?_ ?_
    · intro z hz
      obtain ⟨a, ha, b, hb, rfl⟩ := mem_pairProducts hz
      exact hprod a b (b1 a ha) (b1 b hb)
    · rw [h3, ← h1]
      exact pairProducts_map _ fun a _ b _ => by push_cast; rfl
  · refine map_natCast_inj (fun v hv => lt_of_lt_of_le (b4 v hv) (by omega)) ?_ ?_
    · intro z hz
      obtain ⟨a, ha, rfl⟩ := List.mem_map.1 hz
      exact hprod y a b2 (b1 a ha)
    · rw [h4, ← h1, ← h2, List.map_map, List.map_map]
      exact List.map_congr_left fun a _ => by simp

/-- C42. If the products of the counted submissions are right and no sum reaches `p`, the accumulators are those of the normal
equations of the counted data set; so `SolveLinReg` solves the least-squares problem of that data set (C43). -/
theorem C42_normal_equations {d : ℕ} {ks : List Bytes} (hn : ks.Nodup) {v : Bytes → LinVal}
    (hx2 : ∀ k ∈ ks, (v k).x2 = pairProducts (v k).x) (hl : ∀ k ∈ ks, (v k).x.length = d - 1)
    (hxy : ∀ k ∈ ks, (v k).xy = (v k).x.map fun x => (v k).y * x)
    (hlt : ∀ n ∈ xSums d (ks.map fun k => ((v k).x, (v k).y)) ++ ySums d (ks.map fun k => ((v k).x, (v k).y)), n < intModulus) :
    xAcc d ks.toFinset v = xSums d (ks.map fun k => ((v k).x, (v k).y)) ∧ yAcc d ks.toFinset v = ySums d (ks.map fun k => ((v k).x, (v k).y)) := by
  have hsum : ∀ F : Bytes → ℕ, ∑ k ∈ ks.toFinset, F k = (ks.map F).sum := fun F => List.sum_toFinset _ hn
  simp only [List.mem_append] at hlt
  constructor
  · unfold xAcc
    have hlt' := fun n hn => hlt n (Or.inl hn)
    unfold xSums at hlt' ⊢
    rw [List.toFinset_card_of_nodup hn, List.length_map]
    congr 1
    · congr 1
      refine List.map_congr_left fun i hi => ?_
      rw [hsum, List.map_map]
      refine Nat.mod_eq_of_lt (hlt' _ ?_)
      rw [List.cons_append, List.mem_cons, List.mem_append]
      refine Or.inr (Or.inl (List.mem_map.2 ⟨i, hi, ?_⟩))
      rw [List.map_map]; rfl
    · refine List.map_congr_left fun i hi => ?_
      rw [hsum, List.map_map]
      have e : (ks.map fun k => (v k).x2.getD i 0) = ks.map ((fun r : List ℕ × ℕ => (pairProducts r.1).getD i 0) ∘ fun k => ((v k).x, (v k).y)) :=
        List.map_congr_left fun k hk => by rw [hx2 k hk]; rfl
      rw [e]
      refine Nat.mod_eq_of_lt (hlt' _ ?_)
      rw [List.cons_append, List.mem_cons, List.mem_append]
      refine Or.inr (Or.inr (List.mem_map.2 ⟨i, hi, ?_⟩))
      rw [List.map_map]
  · unfold yAcc
    have hlt' := fun n hn => hlt n (Or.inr hn)
    unfold ySums at hlt' ⊢
    congr 1
    · rw [hsum, List.map_map]
      refine Nat.mod_eq_of_lt (hlt' _ ?_)
      rw [List.mem_cons]; left; rw [List.map_map]; rfl
    · refine List.map_congr_left fun i hi => ?_
      rw [hsum, List.map_map]
      have e : (ks.map fun k => (v k).xy.getD i 0) = ks.map ((fun r : List ℕ × ℕ => r.2 * r.1.getD i 0) ∘ fun k => ((v k).x, (v k).y)) := by
        refine List.map_congr_left fun k hk => ?_
        have hi' : i < (v k).x.length := by rw [hl k hk]; exact List.mem_range.1 hi
        rw [hxy k hk]
        simp [List.getD_eq_getElem?_getD, List.getElem?_eq_getElem hi']
      rw [e]
      refine Nat.mod_eq_of_lt (hlt' _ ?_)
      rw [List.mem_cons]
      refine Or.inr (List.mem_map.2 ⟨i, hi, ?_⟩)
      rw [List.map_map]

/-! ## Honest clients -/

/-- An honest client of LINREG: key and draws (client.cpp:1047-1119). -/
structure LinClient where
  pk : Bytes
  draws : LinDraws
  rand : SnipRand

/-- The features and the label of a client. -/
def LinClient.data (nbits : ℕ) (c : LinClient) : List ℕ × ℕ := (c.draws.xReal.map fun v => v.toNat % 2 ^ nbits, c.draws.yReal.toNat % 2 ^ nbits)

/-- The draws of a client have the sizes of its arrays. -/
structure LinClient.Sized (d : ℕ) (c : LinClient) : Prop where
  key : c.pk.length = pkLength
  x : c.draws.xReal.length = d - 1
  x0 : c.draws.xShare.length = d - 1
  x20 : c.draws.x2Share.length = numQuad d
  xy0 : c.draws.xyShare.length = d - 1

theorem prs_flatMap : ∀ n i, prs n i = (List.range' i n).flatMap fun j => (List.range' j (i + n - j)).map fun k => (j, k)
  | 0, _ => rfl
  | n + 1, i => by
    rw [prs, prs_flatMap n (i + 1), List.range'_succ, List.flatMap_cons, Nat.add_sub_cancel_left]
    congr 1
    rw [List.flatMap_congr]
    intro j _
    rw [show i + 1 + n - j = i + (n + 1) - j by omega]

theorem clientQuad_eq (x : List U64) : clientQuad x = pairProducts x := by
  have hx : x = (List.range' 0 x.length).map fun j => x.getD j 0#64 := by
    apply List.ext_getElem
    · simp
    · intro i h1 h2; simp [List.getD_eq_getElem?_getD, List.getElem?_eq_getElem h1]
  conv_rhs => rw [hx]
  rw [pairProducts_prs, prs_flatMap, List.map_flatMap, clientQuad, List.range_eq_range']
  refine List.flatMap_congr fun j _ => ?_
  rw [List.map_map, Nat.zero_add]; rfl

theorem xors_self_xor {l l' : List U64} (h : l.length = l'.length) : xors l (List.zipWith (· ^^^ ·) l l') = l'.map (·.toNat) := by
  unfold xors
  apply List.ext_getElem
  · simp [h]
  · intro i h1 h2
    simp only [List.getElem_zipWith, List.getElem_map]
    rw [← BitVec.xor_assoc, BitVec.xor_self, BitVec.zero_xor]

theorem zipWith_xor_lt {n : ℕ} {l l' : List U64} (h : ∀ v ∈ l, v.toNat < 2 ^ n) (h' : ∀ v ∈ l', v.toNat < 2 ^ n) :
    ∀ v ∈ List.zipWith (· ^^^ ·) l l', v.toNat < 2 ^ n := by
  intro v hv
  rw [List.mem_iff_getElem] at hv
  obtain ⟨i, hi, rfl⟩ := hv
  rw [List.getElem_zipWith, BitVec.toNat_xor]
  exact Nat.xor_lt_two_pow (h _ (List.getElem_mem _)) (h' _ (List.getElem_mem _))

/-- The row that `clientLin` makes for server 0 with packet `pk`. -/
def linRow0 (nbits : ℕ) (D : LinDraws) (pk : Packet) : LinRow :=
  ⟨D.xShare.map (· % (1#64 <<< nbits)), D.yShare % (1#64 <<< nbits), D.x2Share.map (· % ((1#64 <<< nbits) * (1#64 <<< nbits))),
    D.xyShare.map (· % ((1#64 <<< nbits) * (1#64 <<< nbits))), pk⟩

/-- The row that `clientLin` makes for server 1 with packet `pk`. -/
def linRow1 (nbits : ℕ) (D : LinDraws) (pk : Packet) : LinRow :=
  let x := D.xReal.map (· % (1#64 <<< nbits))
  let y := D.yReal % (1#64 <<< nbits)
  let r0 := linRow0 nbits D pk
  ⟨List.zipWith (· ^^^ ·) r0.x x, r0.y ^^^ y, List.zipWith (· ^^^ ·) r0.x2 (clientQuad x), List.zipWith (· ^^^ ·) r0.xy (x.map (· * y)), pk⟩

theorem clientLin_full {d : ℕ} (hd : 1 ≤ d) (hsm : linMul d < 2 ^ 18) {nbits : ℕ} (hb : nbits ≤ 31) {c : Circuit}
    (hc : checkLinReg intModulus d = some c) {t : RootTables} {l : List ℕ}
    (hrc : RootCalls (npow2 (linMul d) :: l) t) {cl : LinClient} (hs : cl.Sized d) (hr : ValidRand intModulus c cl.rand) :
    ∃ r0 r1 w, clientLin d nbits cl.draws t cl.rand = some (r0, r1) ∧ linFits nbits r0 = true ∧ linFits nbits r1 = true ∧
      (r0.x.length = d - 1 ∧ r0.x2.length = numQuad d ∧ r0.xy.length = d - 1) ∧ (r1.x.length = d - 1 ∧ r1.x2.length = numQuad d ∧ r1.xy.length = d - 1) ∧
      linRec r0 r1 = ⟨(cl.data nbits).1, (cl.data nbits).2, pairProducts (cl.data nbits).1, (cl.data nbits).1.map fun x => (cl.data nbits).2 * x⟩ ∧
      c.eval intModulus ((linRec r0 r1).all.map fun v : ℕ => (v : ℤ)) = some (w, true) ∧
      sharePolynomials intModulus c w t cl.rand = some (r0.packet, r1.packet) ∧
      ∀ D : LinDraws, D.xReal = cl.draws.xReal → D.yReal = cl.draws.yReal → ∀ t r, clientLin d nbits D t r =
        (sharePolynomials intModulus c w t r).map fun pk => (linRow0 nbits D pk.1, linRow1 nbits D pk.2) := by
  obtain ⟨c', e', hcok, hmul, hzero, hin, hevl⟩ := linCircuit hd hsm
  rw [hc] at e'; cases e'
  obtain ⟨pk, dr, rnd⟩ := cl
  obtain ⟨xReal, xShare, x2Share, xyShare, yReal, yShare⟩ := dr
  obtain ⟨-, s1, s2, s3, s4⟩ := hs
  simp only at s1 s2 s3 s4 hr
  set mx : U64 := 1#64 <<< nbits with hmx
  have hm : mx.toNat = 2 ^ nbits := shl_toNat (by omega)
  have hmm : (mx * mx).toNat = 2 ^ (2 * nbits) := by
    rw [BitVec.toNat_mul, hm, ← pow_add, ← two_mul, Nat.mod_eq_of_lt]
    exact Nat.pow_lt_pow_right (by omega) (by omega)
  have h31 : (2 : ℕ) ^ nbits ≤ 2 ^ 31 := Nat.pow_le_pow_right (by norm_num) hb
  have h62 : (2 : ℕ) ^ (2 * nbits) ≤ 2 ^ 62 := Nat.pow_le_pow_right (by norm_num) (by omega)
  have h62' : (2 : ℕ) ^ nbits * 2 ^ nbits = 2 ^ (2 * nbits) := by rw [← pow_add, ← two_mul]
  set x := xReal.map (· % mx) with hx
  set y := yReal % mx with hy
  set X : List ℕ := xReal.map fun v => v.toNat % 2 ^ nbits with hX
  set Y : ℕ := yReal.toNat % 2 ^ nbits with hY
  have hxn : x.map (·.toNat) = X := by
    rw [hx, hX, List.map_map]
    exact List.map_congr_left fun v _ => by simp [mod_shl (by omega : nbits < 64), hmx]
  have hyn : y.toNat = Y := mod_shl (by omega) _
  have hxlt : ∀ v ∈ x, v.toNat < 2 ^ nbits := by
    intro v hv
    obtain ⟨a, -, rfl⟩ := List.mem_map.1 hv
    rw [BitVec.toNat_umod, hm]; exact Nat.mod_lt _ (pow_pos (by norm_num) _)
  have hylt : y.toNat < 2 ^ nbits := by rw [hyn]; exact Nat.mod_lt _ (pow_pos (by norm_num) _)
  clear_value x y X Y
  have hmulN : ∀ a b : U64, a.toNat < 2 ^ nbits → b.toNat < 2 ^ nbits → (a * b).toNat = a.toNat * b.toNat ∧ a.toNat * b.toNat < 2 ^ (2 * nbits) := by
    intro a b ha hb
    have : a.toNat * b.toNat < 2 ^ nbits * 2 ^ nbits := Nat.mul_lt_mul'' ha hb
    rw [h62'] at this
    exact ⟨by rw [BitVec.toNat_mul, Nat.mod_eq_of_lt (by omega)], this⟩
  set x2 := clientQuad x with hx2
  have hx2n : x2.map (·.toNat) = pairProducts X := by
    rw [hx2, clientQuad_eq, ← hxn]
    exact (pairProducts_map _ fun a ha b hb => (hmulN a b (hxlt a ha) (hxlt b hb)).1).symm
  have hx2lt : ∀ v ∈ x2, v.toNat < 2 ^ (2 * nbits) := by
    intro v hv
    rw [hx2, clientQuad_eq] at hv
    obtain ⟨a, ha, b, hb, rfl⟩ := mem_pairProducts hv
    obtain ⟨p1, p2⟩ := hmulN a b (hxlt a ha) (hxlt b hb)
    rw [p1]; exact p2
  set xy := x.map (· * y) with hxy
  have hxyn : xy.map (·.toNat) = X.map fun v => Y * v := by
    rw [hxy, ← hxn, List.map_map, List.map_map]
    refine List.map_congr_left fun a ha => ?_
    show (a * y).toNat = Y * a.toNat
    rw [(hmulN a y (hxlt a ha) hylt).1, hyn, mul_comm]
  have hxylt : ∀ v ∈ xy, v.toNat < 2 ^ (2 * nbits) := by
    intro v hv
    obtain ⟨a, ha, rfl⟩ := List.mem_map.1 hv
    obtain ⟨p1, p2⟩ := hmulN a y (hxlt a ha) hylt
    rw [p1]; exact p2
  have lx : x.length = d - 1 := by rw [hx, List.length_map, s1]
  have lx2 : x2.length = numQuad d := by rw [hx2, clientQuad_eq, pairProducts_length, lx]; rfl
  have lxy : xy.length = d - 1 := by rw [hxy, List.length_map, lx]
  -- the inputs of the circuit
  set V : LinVal := ⟨X, Y, pairProducts X, X.map fun v => Y * v⟩ with hV
  have hall : V.all = (x ++ [y] ++ x2 ++ xy).map (·.toNat) := by
    simp only [hV, LinVal.all, List.map_append, List.map_cons, List.map_nil, hxn, hyn, hx2n, hxyn]
  have hpn : (2 : ℕ) ^ nbits ≤ 2 ^ (2 * nbits) := Nat.pow_le_pow_right (by norm_num) (by omega)
  have hint : (x ++ [y] ++ x2 ++ xy).map (·.toInt) = V.all.map fun v : ℕ => (v : ℤ) := by
    rw [hall, List.map_map]
    refine List.map_congr_left fun v hv => ?_
    have : v.toNat < 2 ^ 62 := by
      simp only [List.mem_append, List.mem_singleton] at hv
      rcases hv with ((hv | rfl) | hv) | hv
      · have := hxlt v hv; omega
      · omega
      · have := hx2lt v hv; omega
      · have := hxylt v hv; omega
    rw [BitVec.toInt_eq_toNat_of_lt (by omega)]; rfl
  have hlenall : (V.all.map fun v : ℕ => (v : ℤ)).length = numFields d := by
    rw [hall, numFields_eq hd]; simp [lx, lx2, lxy]; omega
  obtain ⟨w, b, hev, hbv⟩ := hevl _ hlenall
  have : b = true := by
    rw [hbv]
    refine ⟨X.map fun v : ℕ => (v : ZMod intModulus), (Y : ZMod intModulus), by rw [List.length_map, hX, List.length_map, s1], ?_⟩
    have e2 : residues intModulus (V.all.map fun v : ℕ => (v : ℤ)) = V.all.map fun v : ℕ => (v : ZMod intModulus) := by
      rw [residues, List.map_map]
      exact List.map_congr_left fun v _ => by simp
    have ep : pairProducts (X.map fun v : ℕ => (v : ZMod intModulus)) = (pairProducts X).map fun v : ℕ => (v : ZMod intModulus) :=
      pairProducts_map _ fun a _ b _ => by push_cast; rfl
    have ey : (X.map fun v : ℕ => (v : ZMod intModulus)).map (fun x => (Y : ZMod intModulus) * x) =
        (X.map fun v => Y * v).map fun v : ℕ => (v : ZMod intModulus) := by
      rw [List.map_map, List.map_map]
      exact List.map_congr_left fun v _ => by simp
    rw [e2, regressionRow, ep, ey]
    simp only [hV, LinVal.all, List.map_append, List.map_cons, List.map_nil]
  subst this
  obtain ⟨pk0, pk1, -, -, -, -, -, hpk, -⟩ := C30_accept hcok.wf hev (i0 := V.all.map fun v : ℕ => (v : ℤ))
    (i1 := List.replicate (V.all.map fun v : ℕ => (v : ℤ)).length 0) rfl (by simp) (by
      intro k hk
      have : at0 (List.replicate (V.all.map fun v : ℕ => (v : ℤ)).length 0) k = 0 := by
        simp only [at0, List.getD_eq_getElem?_getD, List.getElem?_replicate]
        split_ifs; rfl
      rw [this]; simp) (by rw [hmul]; exact hrc) (by rw [hmul]; exact hrc) hr.lh hr.lm (x := 0) (by simp only [Canon]; decide)
      (cs := List.replicate (c.resultZero.length + 1) 0) (by simp)
  have hex : ∀ D : LinDraws, D.xReal = xReal → D.yReal = yReal → ∀ t r, clientLin d nbits D t r =
      (sharePolynomials intModulus c w t r).map fun pk => (linRow0 nbits D pk.1, linRow1 nbits D pk.2) := by
    intro D e1 e2 t r
    simp only [clientLin, e1, e2, hc, Option.bind_some, ← hmx, ← hx, ← hy, ← hx2, ← hxy, hint, hev, linRow0, linRow1]
  have q0 : ∀ v ∈ xShare.map (· % mx), v.toNat < 2 ^ nbits := by
    intro v hv
    obtain ⟨a, -, rfl⟩ := List.mem_map.1 hv
    rw [BitVec.toNat_umod, hm]; exact Nat.mod_lt _ (pow_pos (by norm_num) _)
  have q1 : (yShare % mx).toNat < 2 ^ nbits := by
    rw [BitVec.toNat_umod, hm]; exact Nat.mod_lt _ (pow_pos (by norm_num) _)
  have q2 : ∀ (L : List U64), ∀ v ∈ L.map (· % (mx * mx)), v.toNat < 2 ^ (2 * nbits) := by
    intro L v hv
    obtain ⟨a, -, rfl⟩ := List.mem_map.1 hv
    rw [BitVec.toNat_umod, hmm]; exact Nat.mod_lt _ (pow_pos (by norm_num) _)
  refine ⟨⟨xShare.map (· % mx), yShare % mx, x2Share.map (· % (mx * mx)), xyShare.map (· % (mx * mx)), pk0⟩,
    ⟨List.zipWith (· ^^^ ·) (xShare.map (· % mx)) x, (yShare % mx) ^^^ y, List.zipWith (· ^^^ ·) (x2Share.map (· % (mx * mx))) x2,
      List.zipWith (· ^^^ ·) (xyShare.map (· % (mx * mx))) xy, pk1⟩, w, ?_, ?_, ?_, ?_, ?_, ?_, ?_, hpk, hex⟩
  · simp only [clientLin, hc, Option.bind_some, ← hmx, ← hx, ← hy, ← hx2, ← hxy, hint, hev, hpk, Option.map_some]
  · simp only [linFits, Bool.and_eq_true, List.all_eq_true, decide_eq_true_eq]
    exact ⟨⟨⟨q0, q1⟩, q2 _⟩, q2 _⟩
  · simp only [linFits, Bool.and_eq_true, List.all_eq_true, decide_eq_true_eq]
    refine ⟨⟨⟨zipWith_xor_lt q0 hxlt, ?_⟩, zipWith_xor_lt (q2 _) hx2lt⟩, zipWith_xor_lt (q2 _) hxylt⟩
    rw [BitVec.toNat_xor]; exact Nat.xor_lt_two_pow q1 hylt
  · simp [s2, s3, s4]
  · simp [s2, s3, s4, lx, lx2, lxy]
  all_goals
    have hrec : linRec ⟨xShare.map (· % mx), yShare % mx, x2Share.map (· % (mx * mx)), xyShare.map (· % (mx * mx)), pk0⟩
        ⟨List.zipWith (· ^^^ ·) (xShare.map (· % mx)) x, (yShare % mx) ^^^ y, List.zipWith (· ^^^ ·) (x2Share.map (· % (mx * mx))) x2,
          List.zipWith (· ^^^ ·) (xyShare.map (· % (mx * mx))) xy, pk1⟩ = V := by
      simp only [linRec, hV, LinVal.mk.injEq]
      refine ⟨?_, ?_, ?_, ?_⟩
      · rw [xors_self_xor (by simp [s2, lx]), hxn]
      · rw [← BitVec.xor_assoc, BitVec.xor_self, BitVec.zero_xor, hyn]
      · rw [xors_self_xor (by simp [s3, lx2]), hx2n]
      · rw [xors_self_xor (by simp [s4, lxy]), hxyn]
    rw [hrec]
  · rw [hV, hX, hY]; rfl
  · exact hev

/-- An honest client always gets its shares done; both rows are in range and of the right sizes, they reconstruct to the data and
its products, and the packets come from an accepting evaluation. -/
theorem clientLin_spec {d : ℕ} (hd : 1 ≤ d) (hsm : linMul d < 2 ^ 18) {nbits : ℕ} (hb : nbits ≤ 31) {c : Circuit}
    (hc : checkLinReg intModulus d = some c) {t : RootTables} {l : List ℕ}
    (hrc : RootCalls (npow2 (linMul d) :: l) t) {cl : LinClient} (hs : cl.Sized d) (hr : ValidRand intModulus c cl.rand) :
    ∃ r0 r1 w, clientLin d nbits cl.draws t cl.rand = some (r0, r1) ∧ linFits nbits r0 = true ∧ linFits nbits r1 = true ∧
      (r0.x.length = d - 1 ∧ r0.x2.length = numQuad d ∧ r0.xy.length = d - 1) ∧ (r1.x.length = d - 1 ∧ r1.x2.length = numQuad d ∧ r1.xy.length = d - 1) ∧
      linRec r0 r1 = ⟨(cl.data nbits).1, (cl.data nbits).2, pairProducts (cl.data nbits).1, (cl.data nbits).1.map fun x => (cl.data nbits).2 * x⟩ ∧
      c.eval intModulus ((linRec r0 r1).all.map fun v : ℕ => (v : ℤ)) = some (w, true) ∧
      sharePolynomials intModulus c w t cl.rand = some (r0.packet, r1.packet) := by
  obtain ⟨r0, r1, w, h1, h2, h3, h4, h5, h6, h7, h8, -⟩ := clientLin_full hd hsm hb hc hrc hs hr
  exact ⟨r0, r1, w, h1, h2, h3, h4, h5, h6, h7, h8⟩

/-- An honest batch of degree `d`: distinct keys, and each server's submissions are those of the clients, in any order. -/
structure HonestLin (d nbits : ℕ) (c : Circuit) (t : RootTables) (cs : List LinClient) (subs0 subs1 : List (Bytes × LinRow)) : Prop where
  circ : checkLinReg intModulus d = some c
  tabs : ∃ l, RootCalls (npow2 (linMul d) :: l) t
  distinct : (cs.map (·.pk)).Nodup
  sized : ∀ cl ∈ cs, cl.Sized d
  draws : ∀ cl ∈ cs, ValidRand intModulus c cl.rand
  subs0 : (subs0.map some).Perm (cs.map fun cl => (clientLin d nbits cl.draws t cl.rand).map fun o => (cl.pk, o.1))
  subs1 : (subs1.map some).Perm (cs.map fun cl => (clientLin d nbits cl.draws t cl.rand).map fun o => (cl.pk, o.2))

theorem lin_stream {d : ℕ} (hd : d < 2 ^ 32) {c : Circuit} (hc : c.mulGates.length = linMul d) {subs : List (Bytes × LinRow)}
    (h : ∀ e ∈ subs, e.1.length = pkLength ∧ LinRowOk c d e.2 ∧ ∀ y ∈ e.2.packet.all, Fits y) :
    ∃ bs, encLinShares d subs = some bs ∧ ∀ rest, LinStream d subs.length (bs ++ rest) subs := by
  have he : ∀ e ∈ subs, encLinShare e = some (e.1 ++ encWords e.2.x ++ encU64 e.2.y ++ encWords e.2.x2 ++ encWords e.2.xy ++
      (encPacket e.2.packet).getD []) ∧ Reads (rdLinShare d (linMul d)) (e.1 ++ encWords e.2.x ++ encU64 e.2.y ++ encWords e.2.x2 ++
        encWords e.2.xy ++ (encPacket e.2.packet).getD []) e := by
    intro e hm
    obtain ⟨a1, a2, a3⟩ := h e hm
    have hm1 : e.2.packet.mulShares.length = linMul d := by rw [a2.pk.m, hc]
    obtain ⟨bs, hbs, -, hrd⟩ := C14_packet_roundtrip e.2.packet a3 (by rw [hm1, a2.pk.h, hc])
    rw [hm1] at hrd
    rw [encLinShare, hbs]
    refine ⟨rfl, ?_⟩
    unfold rdLinShare
    simp only [List.append_assoc, Option.getD_some]
    refine Reads.bind' (r := .get pkLength .ret)
      (f := fun pk => (rdWords (d - 1)).bind fun x => rdU64.bind fun y => (rdWords (numQuad d)).bind fun x2 => (rdWords (d - 1)).bind fun xy =>
        (rdPacket (linMul d)).bind fun k => .ret (pk, (⟨x, y, x2, xy, k⟩ : LinRow))) (Reads.getRet (k := id) a1) ?_ rfl
    have w1 := reads_words e.2.x
    have w2 := reads_words e.2.x2
    have w3 := reads_words e.2.xy
    rw [a2.x] at w1
    rw [a2.x2] at w2
    rw [a2.xy] at w3
    exact w1.bind ((reads_u64 e.2.y).bind (w2.bind (w3.bind (Reads.bindRet
      (f := fun k => (e.1, (⟨e.2.x, e.2.y, e.2.x2, e.2.xy, k⟩ : LinRow))) hrd))))
  refine ⟨_, by rw [encLinShares, optAll_map fun e hm => (he e hm).1]; rfl, fun rest => ?_⟩
  have hrd : Reads ((rdLinShare d (linMul d)).rep subs.length) (subs.map fun e => e.1 ++ encWords e.2.x ++ encU64 e.2.y ++ encWords e.2.x2 ++
      encWords e.2.xy ++ (encPacket e.2.packet).getD []).flatten subs := by
    clear h
    induction subs with
    | nil => exact Reads.ret _
    | cons e subs ih =>
      rw [List.length_cons, Rd.rep, List.map_cons, List.flatten_cons]
      exact (he e (List.mem_cons_self ..)).2.bind (Reads.bindRet (f := fun as => e :: as)
        (ih fun e hm => he e (List.mem_cons_of_mem _ hm)))
  refine ⟨_, rest, ?_, hrd rest⟩
  rw [List.append_assoc]
  have := reads_size (BitVec.ofNat 64 d) ((subs.map fun e => e.1 ++ encWords e.2.x ++ encU64 e.2.y ++ encWords e.2.x2 ++
      encWords e.2.xy ++ (encPacket e.2.packet).getD []).flatten ++ rest)
  rw [this, BitVec.toNat_ofNat, Nat.mod_eq_of_lt (by omega : d < 2 ^ 64), Nat.mod_eq_of_lt hd]

/-- C42 with C43 end to end: honest clients, distinct keys, no sum reaching `p`. In all orders of arrival, iteration and scheduling
LINREG answers with the least-squares coefficients of the clients' data if they are unique, and leaves them unspecified otherwise. -/
theorem C42_honest {d : ℕ} (hd : 1 ≤ d) (hsm : linMul d < 2 ^ 18) {nbits : ℕ} (hb : nbits ≤ 24) {c : Circuit} {t : RootTables} {cs : List LinClient}
    (hne : cs ≠ []) (hlen : cs.length < 2 ^ 32) {subs0 subs1 : List (Bytes × LinRow)} (hh : HonestLin d nbits c t cs subs0 subs1)
    (hp : ∀ n ∈ xSums d (cs.map (·.data nbits)) ++ ySums d (cs.map (·.data nbits)), n < intModulus) :
    ∃ bs0 bs1, encLinShares d subs0 = some bs0 ∧ encLinShares d subs1 = some bs1 ∧
    ∀ (rest0 rest1 : Bytes) {x : ℤ} {uses pos : ℕ} {st0 st1 : SnipState} (_ : SnipOk x uses pos st0) (_ : SnipOk x uses pos st1)
      (coef : ℕ → ℤ) (raw0 raw1 : ℕ → ℕ → ℕ → U64) (u : ℕ → ℕ → U64) (ord : Map LinRow → Map LinRow) (_ : IsOrder ord),
    ∃ r st0' st1', Always (linOp0 nbits cs.length (bs0 ++ rest0) coef raw0 u st0) (linOp1 nbits cs.length (bs1 ++ rest1) coef raw1 st1 ord)
        (.ans r, st0') (.noAns, st1') ∧
      ((normalMatrix d (cs.map (·.data nbits))).det = 0 → r = none) ∧
      ((normalMatrix d (cs.map (·.data nbits))).det ≠ 0 → ∃ co : List ℚ, r = some co ∧ co.length = d ∧
        ∀ b : ℕ → ℝ, rss d (cs.map (·.data nbits)) (fun i => (co.getD i 0 : ℚ)) ≤ rss d (cs.map (·.data nbits)) b ∧
          (rss d (cs.map (·.data nbits)) b = rss d (cs.map (·.data nbits)) (fun i => (co.getD i 0 : ℚ)) → ∀ i < d, b i = (co.getD i 0 : ℚ))) := by
  obtain ⟨l, hrc⟩ := hh.tabs
  obtain ⟨c', e', hcok, hmul, hzero, hin, hevl⟩ := linCircuit hd hsm
  rw [hh.circ] at e'; cases e'
  have hspec := fun cl hc => clientLin_spec hd hsm (by omega : nbits ≤ 31) hh.circ hrc (hh.sized cl hc) (hh.draws cl hc)
  set f0 : LinClient → LinRow := fun cl => ((clientLin d nbits cl.draws t cl.rand).map (·.1)).getD ⟨[], 0, [], [], zeroPacket 0⟩ with hf0
  set f1 : LinClient → LinRow := fun cl => ((clientLin d nbits cl.draws t cl.rand).map (·.2)).getD ⟨[], 0, [], [], zeroPacket 0⟩ with hf1
  have p0 : subs0.Perm (cs.map fun cl => (cl.pk, f0 cl)) := by
    apply perm_of_some
    refine hh.subs0.trans (List.Perm.of_eq ?_)
    rw [List.map_map]
    refine List.map_congr_left fun cl hc => ?_
    obtain ⟨r0, r1, w, e, -⟩ := hspec cl hc
    simp [hf0, e]
  have p1 : subs1.Perm (cs.map fun cl => (cl.pk, f1 cl)) := by
    apply perm_of_some
    refine hh.subs1.trans (List.Perm.of_eq ?_)
    rw [List.map_map]
    refine List.map_congr_left fun cl hc => ?_
    obtain ⟨r0, r1, w, e, -⟩ := hspec cl hc
    simp [hf1, e]
  have hrow : ∀ cl ∈ cs, ∃ w, linFits nbits (f0 cl) = true ∧ linFits nbits (f1 cl) = true ∧ LinRowOk c d (f0 cl) ∧ LinRowOk c d (f1 cl) ∧
      (∀ y ∈ (f0 cl).packet.all, Fits y) ∧ (∀ y ∈ (f1 cl).packet.all, Fits y) ∧
      linRec (f0 cl) (f1 cl) = ⟨(cl.data nbits).1, (cl.data nbits).2, pairProducts (cl.data nbits).1, (cl.data nbits).1.map fun x => (cl.data nbits).2 * x⟩ ∧
      c.eval intModulus ((linRec (f0 cl) (f1 cl)).all.map fun v : ℕ => (v : ℤ)) = some (w, true) ∧
      sharePolynomials intModulus c w t cl.rand = some ((f0 cl).packet, (f1 cl).packet) := by
    intro cl hc
    obtain ⟨r0, r1, w, e, a1, a2, ⟨a3, a4, a5⟩, ⟨a6, a7, a8⟩, a9, a10, hpk⟩ := hspec cl hc
    obtain ⟨s0, s1⟩ := share_sizes (hh.draws cl hc) hpk
    have e0 : f0 cl = r0 := by simp [hf0, e]
    have e1 : f1 cl = r1 := by simp [hf1, e]
    rw [e0, e1]
    exact ⟨w, a1, a2, ⟨a3, a4, a5, s0.1⟩, ⟨a6, a7, a8, s1.1⟩, s0.2, s1.2, a9, a10, hpk⟩
  have hd32 : d < 2 ^ 32 := by
    have : d - 1 ≤ linMul d := by unfold linMul; omega
    omega
  have l0 : subs0.length = cs.length := by rw [p0.length_eq, List.length_map]
  have l1 : subs1.length = cs.length := by rw [p1.length_eq, List.length_map]
  obtain ⟨bs0, e0, rd0⟩ := lin_stream hd32 hmul (subs := subs0) (by
    intro e he
    obtain ⟨cl, hc, rfl⟩ := List.mem_map.1 (p0.mem_iff.1 he)
    obtain ⟨w, -, -, q, -, q', -⟩ := hrow cl hc
    exact ⟨(hh.sized cl hc).key, q, q'⟩)
  obtain ⟨bs1, e1, rd1⟩ := lin_stream hd32 hmul (subs := subs1) (by
    intro e he
    obtain ⟨cl, hc, rfl⟩ := List.mem_map.1 (p1.mem_iff.1 he)
    obtain ⟨w, -, -, -, q, -, q', -⟩ := hrow cl hc
    exact ⟨(hh.sized cl hc).key, q, q'⟩)
  refine ⟨bs0, bs1, e0, e1, ?_⟩
  intro rest0 rest1 x uses pos st0 st1 hs0 hs1 coef raw0 raw1 u ord ho
  have v0 := rd0 rest0
  have v1 := rd1 rest1
  rw [l0] at v0
  rw [l1] at v1
  obtain ⟨hfo, hbk⟩ := bothKeys_honest_ok (ok := linFits nbits) cs (·.pk) f0 f1 hh.distinct
    (fun c hc => (hrow c hc).choose_spec.1) (fun c hc => (hrow c hc).choose_spec.2.1) subs0 subs1 p0 p1
  obtain ⟨st0', st1', xa, ya, r, hA, hr, hxa, hya, -⟩ := C42_linreg_op hd hsm hb (by omega) hlen v0 v1 (by
    obtain ⟨c, hc⟩ := List.exists_mem_of_ne_nil _ hne
    exact ⟨(c.pk, f1 c), p1.mem_iff.2 (List.mem_map.2 ⟨c, hc, rfl⟩), (hrow c hc).choose_spec.2.1⟩) hs0 hs1 coef raw0 raw1 u ord ho hh.circ
  have hval : ∀ cl ∈ cs, linAt nbits subs0 subs1 cl.pk = linRec (f0 cl) (f1 cl) := by
    intro cl hc
    unfold linAt
    rw [(hfo cl hc).1, (hfo cl hc).2]
  have hG : linCounted c x coef pos nbits subs0 subs1 (ord (admit (linFits nbits) subs1 [])).keys = (cs.map (·.pk)).toFinset := by
    classical
    unfold linCounted
    rw [hbk, Finset.filter_eq_self]
    intro k hk
    rw [List.mem_toFinset] at hk
    obtain ⟨cl, hc, rfl⟩ := List.mem_map.1 hk
    obtain ⟨w, -, -, -, -, -, -, -, hev, hpk⟩ := hrow cl hc
    refine ⟨f0 cl, f1 cl, (hfo cl hc).1, (hfo cl hc).2, ?_⟩
    refine accepts_honest (inps := (linRec (f0 cl) (f1 cl)).all.map fun v : ℕ => fmod (v : ℤ) intModulus) hcok.wf hev (by simp) ?_
      (by rw [hmul]; exact hrc) (hh.draws cl hc).lh (hh.draws cl hc).lm hpk hs0.canon (by rw [coefs_length])
    intro j hj
    have hj' : j < (linRec (f0 cl) (f1 cl)).all.length := by simpa using hj
    simp [at0, List.getD_eq_getElem?_getD, List.getElem?_eq_getElem hj']
  rw [hG] at hA hxa hya
  have hcard : (cs.map (·.pk)).toFinset.card = cs.length := by rw [List.toFinset_card_of_nodup hh.distinct, List.length_map]
  rw [hcard, verdict_full] at hA
  have hdata : ((cs.map (·.pk)).map fun k => ((linAt nbits subs0 subs1 k).x, (linAt nbits subs0 subs1 k).y)) = cs.map (·.data nbits) := by
    rw [List.map_map]
    refine List.map_congr_left fun cl hc => ?_
    obtain ⟨w, -, -, -, -, -, -, q, -⟩ := hrow cl hc
    simp only [Function.comp_apply, hval cl hc, q]
  have hk : ∀ k ∈ cs.map (·.pk), ∃ cl ∈ cs, linAt nbits subs0 subs1 k = ⟨(cl.data nbits).1, (cl.data nbits).2, pairProducts (cl.data nbits).1,
      (cl.data nbits).1.map fun x => (cl.data nbits).2 * x⟩ := by
    intro k hk
    obtain ⟨cl, hc, rfl⟩ := List.mem_map.1 hk
    obtain ⟨w, -, -, -, -, -, -, q, -⟩ := hrow cl hc
    exact ⟨cl, hc, by rw [hval cl hc, q]⟩
  have hlenx : ∀ cl ∈ cs, (cl.data nbits).1.length = d - 1 := by
    intro cl hc; simp [LinClient.data, (hh.sized cl hc).x]
  obtain ⟨n1, n2⟩ := C42_normal_equations (d := d) (v := linAt nbits subs0 subs1) hh.distinct
    (by intro k h; obtain ⟨cl, -, e⟩ := hk k h; rw [e])
    (by intro k h; obtain ⟨cl, hc, e⟩ := hk k h; rw [e]; exact hlenx cl hc)
    (by intro k h; obtain ⟨cl, -, e⟩ := hk k h; rw [e]) (by rw [hdata]; exact hp)
  rw [n1, hdata] at hxa
  rw [n2, hdata] at hya
  have hrows : ∀ q ∈ cs.map (·.data nbits), q.1.length = d - 1 := by
    intro q hq
    obtain ⟨cl, hc, rfl⟩ := List.mem_map.1 hq
    exact hlenx cl hc
  refine ⟨r, st0', st1', hA, fun hdet => ?_, fun hdet => ?_⟩
  · have := (C43_singular hd hrows hxa hya hdet).1
    rw [hr] at this; cases this; rfl
  · obtain ⟨co, h1, h2, -, h4⟩ := C43_least_squares hd hrows hxa hya hdet
    rw [hr] at h1; cases h1
    exact ⟨co, rfl, h2, h4⟩

/-- A concrete honest batch of degree 2 with three clients, whose normal equations have a unique solution. -/
example : ∃ c t cs subs0 subs1, HonestLin 2 4 c t cs subs0 subs1 ∧ cs.map (·.data 4) = [([0], 1), ([1], 3), ([2], 5)] ∧
    (∀ n ∈ xSums 2 (cs.map (·.data 4)) ++ ySums 2 (cs.map (·.data 4)), n < intModulus) ∧ (normalMatrix 2 (cs.map (·.data 4))).det ≠ 0 := by
  obtain ⟨c, hc, hcok, hmul, -⟩ := linCircuit (d := 2) (by norm_num) (by decide)
  have hm2 : linMul 2 = 2 := by decide
  obtain ⟨t, ht⟩ := C30_sizes (c := c) hcok.small [] _ .start
  rw [hmul] at ht
  let rnd : SnipRand := ⟨1, 2, [3, 4, 5, 6], 5, 6, 7, [8, 9], 9, 10, 11, 12, 13⟩
  let mk : Byte → U64 → U64 → LinClient := fun k x y => ⟨List.replicate 32 k, ⟨[x], [6#64], [100#64], [77#64], y, 9#64⟩, rnd⟩
  have hs : ∀ k x y, (mk k x y).Sized 2 := fun k x y => ⟨by simp [mk, pkLength], rfl, rfl, rfl, rfl⟩
  have hr : ∀ k x y, ValidRand intModulus c (mk k x y).rand := by
    intro k x y
    refine ⟨by rw [hmul, hm2]; rfl, by rw [hmul, hm2]; rfl, ?_, ?_, ?_, ?_⟩ <;> simp only [IsDraw, mk, rnd] <;> decide
  obtain ⟨a0, a1, -, ea, -⟩ := clientLin_spec (nbits := 4) (by norm_num) (by decide) (by norm_num) hc ht (hs 1#8 16#64 1#64) (hr 1#8 16#64 1#64)
  obtain ⟨b0, b1, -, eb, -⟩ := clientLin_spec (nbits := 4) (by norm_num) (by decide) (by norm_num) hc ht (hs 2#8 1#64 3#64) (hr 2#8 1#64 3#64)
  obtain ⟨c0, c1, -, ec, -⟩ := clientLin_spec (nbits := 4) (by norm_num) (by decide) (by norm_num) hc ht (hs 3#8 2#64 21#64) (hr 3#8 2#64 21#64)
  have hdata : [mk 1#8 16#64 1#64, mk 2#8 1#64 3#64, mk 3#8 2#64 21#64].map (·.data 4) = [([0], 1), ([1], 3), ([2], 5)] := by
    simp [LinClient.data, mk]
  refine ⟨c, t, [mk 1#8 16#64 1#64, mk 2#8 1#64 3#64, mk 3#8 2#64 21#64], [((mk 1#8 16#64 1#64).pk, a0), ((mk 2#8 1#64 3#64).pk, b0), ((mk 3#8 2#64 21#64).pk, c0)],
    [((mk 1#8 16#64 1#64).pk, a1), ((mk 2#8 1#64 3#64).pk, b1), ((mk 3#8 2#64 21#64).pk, c1)], ⟨hc, ⟨_, ht⟩, ?_, ?_, ?_, ?_, ?_⟩, hdata, ?_, ?_⟩
  · simp only [List.map_cons, List.map_nil, mk]; decide
  · simp [hs]
  · simp [hr]
  · simp [ea, eb, ec]
  · simp [ea, eb, ec]
  · rw [hdata]; decide
  · rw [hdata, Matrix.det_fin_two]
    norm_num [normalMatrix, feat]

end Verif
