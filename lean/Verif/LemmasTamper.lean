import Verif.PropsForge

/-! # Lemmas: what the check accepts, for arbitrary packets -/

namespace Verif

open Polynomial

/-- All but few check points refuse: at most `2N` points are bad, and at any other point exactly one in `p` of the lists of coefficients lets the
submission through. -/
def Refused (c : Circuit) (inps : List ℤ) (pk0 pk1 : Packet) : Prop :=
  ∃ bad : Finset (ZMod intModulus), bad.card ≤ 2 * npow2 c.mulGates.length ∧
    ∀ x, Canon x intModulus → (x : ZMod intModulus) ∉ bad →
      {cs : List ℤ | cs.length = c.resultZero.length + 1 ∧ (∀ y ∈ cs, IsDraw y intModulus) ∧ Accepts c x cs inps pk0 pk1}.ncard =
        intModulus ^ c.resultZero.length

/-- Two pairs of packets that add up to the same, field by field. -/
structure SameSums (pk0 pk1 q0 q1 : Packet) : Prop where
  mul : ∀ i, nodeF intModulus pk0.mulShares i + nodeF intModulus pk1.mulShares i = nodeF intModulus q0.mulShares i + nodeF intModulus q1.mulShares i
  f0 : (pk0.f0 + pk1.f0 : ZMod intModulus) = q0.f0 + q1.f0
  g0 : (pk0.g0 + pk1.g0 : ZMod intModulus) = q0.g0 + q1.g0
  h0 : (pk0.h0 + pk1.h0 : ZMod intModulus) = q0.h0 + q1.h0
  hs : ∀ j, nodeF intModulus pk0.hPoints j + nodeF intModulus pk1.hPoints j = nodeF intModulus q0.hPoints j + nodeF intModulus q1.hPoints j
  A : (pk0.triple.A + pk1.triple.A : ZMod intModulus) = q0.triple.A + q1.triple.A
  B : (pk0.triple.B + pk1.triple.B : ZMod intModulus) = q0.triple.B + q1.triple.B
  C : (pk0.triple.C + pk1.triple.C : ZMod intModulus) = q0.triple.C + q1.triple.C

/-- The polynomial whose value at the check point the servers compare with zero; `s` are the sums of the wires. -/
noncomputable def checkPoly (c : Circuit) (t : RootTables) (pk0 pk1 : Packet) (s : ℕ → ZMod intModulus) : (ZMod intModulus)[X] :=
  X * (polyFG c.mulGates.length (npow2 c.mulGates.length) (nodeF intModulus t.roots)
        (pk0.f0 + pk1.f0 : ZMod intModulus) (fun i => s (c.parL (c.mg i))) *
      polyFG c.mulGates.length (npow2 c.mulGates.length) (nodeF intModulus t.roots) (pk0.g0 + pk1.g0 : ZMod intModulus)
        (fun i => s (c.parR (c.mg i))) -
      polyH c.mulGates.length (npow2 c.mulGates.length) (nodeF intModulus t.roots2) (pk0.h0 + pk1.h0 : ZMod intModulus)
        (fun i => s (c.mg i)) (fun j => nodeF intModulus pk0.hPoints j + nodeF intModulus pk1.hPoints j)) +
    C ((pk0.triple.C + pk1.triple.C : ZMod intModulus) - (pk0.triple.A + pk1.triple.A) * (pk0.triple.B + pk1.triple.B))

theorem at0_zeros (n i : ℕ) : at0 (List.replicate n 0) i = 0 := by
  simp only [at0, List.getD_eq_getElem?_getD, List.getElem?_replicate]
  split_ifs <;> rfl

theorem mg_lt {c : Circuit} (wf : c.WF) {i : ℕ} (hi : i < c.mulGates.length) : c.mg i < c.gates.length ∧ c.parL (c.mg i) < c.gates.length ∧
    c.parR (c.mg i) < c.gates.length := by
  have hmem : c.mg i ∈ c.mulGates := by
    unfold Circuit.mg
    rw [List.getD_eq_getElem?_getD, List.getElem?_eq_getElem hi, Option.getD_some]
    exact List.getElem_mem hi
  obtain ⟨l, r, hg, hl, hr, hlt⟩ := wf.mul_getElem hmem
  simp only [Circuit.parL, Circuit.parR, hg]
  omega

/-- The verdict in terms of sums. -/
theorem accepts_eq {c : Circuit} (hc : CircOk c) {inps : List ℤ} {pk0 pk1 : Packet} (h0 : PacketOk c pk0) (h1 : PacketOk c pk1)
    {t : RootTables} {l : List ℕ} (hrc : RootCalls (npow2 c.mulGates.length :: l) t) {x : ℤ} (hx : Canon x intModulus) {w0 w1 : List ℤ}
    (e0 : c.importWires intModulus false inps pk0.mulShares = some w0)
    (e1 : c.importWires intModulus true (List.replicate inps.length 0) pk1.mulShares = some w1) {cs : List ℤ}
    (hcs : c.resultZero.length + 1 ≤ cs.length) :
    Accepts c x cs inps pk0 pk1 ↔
      nodeF intModulus cs 0 * (checkPoly c t pk0 pk1 fun i => wireF intModulus w0 i + wireF intModulus w1 i).eval (x : ZMod intModulus) +
        ∑ i ∈ Finset.range c.resultZero.length, nodeF intModulus cs (i + 1) *
          (wireF intModulus w0 (c.resultZero.getD i 0) + wireF intModulus w1 (c.resultZero.getD i 0)) = 0 := by
  have ht := (C02_tables_after_any_history _ _ hrc).1 _ _ rfl
  have hNpos : 0 < npow2 c.mulGates.length := Nat.lt_of_le_of_lt (Nat.zero_le _) (npow2_gt _)
  obtain ⟨pre, hpre, hp⟩ := checkerPre_ok hNpos ht hx
  obtain ⟨k0, k1, a0, a1, hk⟩ := check_sum hc.wf hp e0 e1 h0.h h1.h
  obtain ⟨o0, o1, q0, q1, -, -, hs⟩ := hk cs hcs
  have hz : addToZero intModulus o0 o1 = true ↔ (o0 + o1 : ZMod intModulus) = 0 := by
    rw [addToZero, decide_eq_true_eq, fmod_eq_zero_iff, Int.cast_add]
  rw [hs] at hz
  refine Iff.trans ⟨?_, fun h => ⟨t, l, pre, k0, k1, o0, o1, hrc, hpre, a0, a1, q0, q1, h⟩⟩ hz
  rintro ⟨t', l', pre', k0', k1', o0', o1', f1, f2, f3, f4, f5, f6, f7⟩
  have htt := rootCalls_eq f1 hrc
  subst htt
  rw [hpre] at f2; cases f2
  rw [a0] at f3; cases f3
  rw [a1] at f4; cases f4
  rw [q0] at f5; cases f5
  rw [q1] at f6; cases f6
  exact f7

theorem checkPoly_congr {c : Circuit} (wf : c.WF) (t : RootTables) {pk0 pk1 q0 q1 : Packet} (h : SameSums pk0 pk1 q0 q1) {s s' : ℕ → ZMod intModulus}
    (hs : ∀ k < c.gates.length, s k = s' k) : checkPoly c t pk0 pk1 s = checkPoly c t q0 q1 s' := by
  unfold checkPoly
  rw [h.f0, h.g0, h.h0, h.A, h.B, h.C, polyFG_congr fun i hi => hs _ (mg_lt wf hi).2.1, polyFG_congr fun i hi => hs _ (mg_lt wf hi).2.2,
    polyH_congr fun i hi => hs _ (mg_lt wf hi).1, funext h.hs]

/-- The verdict depends only on what the packets add up to. -/
theorem accepts_sums {c : Circuit} (hc : CircOk c) {inps : List ℤ} (hin : nIn c.gates ≤ inps.length) {pk0 pk1 q0 q1 : Packet} (h0 : PacketOk c pk0)
    (h1 : PacketOk c pk1) (g0 : PacketOk c q0) (g1 : PacketOk c q1) (h : SameSums pk0 pk1 q0 q1) {x : ℤ} (hx : Canon x intModulus) {cs : List ℤ}
    (hcs : c.resultZero.length + 1 ≤ cs.length) : Accepts c x cs inps pk0 pk1 ↔ Accepts c x cs inps q0 q1 := by
  obtain ⟨t, hrc⟩ := C30_sizes hc.small [] _ .start
  obtain ⟨w0, a0⟩ := import_total hc.wf false hin h0.m
  obtain ⟨w1, a1⟩ := import_total hc.wf true (inps := List.replicate inps.length 0) (by simpa using hin) h1.m
  obtain ⟨v0, b0⟩ := import_total hc.wf false hin g0.m
  obtain ⟨v1, b1⟩ := import_total hc.wf true (inps := List.replicate inps.length 0) (by simpa using hin) g1.m
  rw [accepts_eq hc h0 h1 hrc hx a0 a1 hcs, accepts_eq hc g0 g1 hrc hx b0 b1 hcs]
  have hw : ∀ k < c.gates.length, wireF intModulus w0 k + wireF intModulus w1 k = wireF intModulus v0 k + wireF intModulus v1 k := by
    obtain ⟨-, r0⟩ := importGates_all a0
    obtain ⟨-, r1⟩ := importGates_all a1
    obtain ⟨-, s0⟩ := importGates_all b0
    obtain ⟨-, s1⟩ := importGates_all b1
    refine lin_unique hc.wf.parents (fun i _ => rfl) (fun k hk => (import_lin (r0 k hk) (r1 k hk)).1)
      (fun k hk => (import_lin (s0 k hk) (s1 k hk)).1) ?_
    intro k l r hg _
    have hk := (List.getElem?_eq_some_iff.mp hg).1
    obtain ⟨x0, x1⟩ := (import_lin (r0 k hk) (r1 k hk)).2 l r hg
    obtain ⟨y0, y1⟩ := (import_lin (s0 k hk) (s1 k hk)).2 l r hg
    simp only [wireF, x0, x1, y0, y1]
    exact h.mul _
  rw [checkPoly_congr hc.wf t h hw]
  have hz : ∀ i ∈ Finset.range c.resultZero.length, nodeF intModulus cs (i + 1) *
      (wireF intModulus w0 (c.resultZero.getD i 0) + wireF intModulus w1 (c.resultZero.getD i 0)) = nodeF intModulus cs (i + 1) *
      (wireF intModulus v0 (c.resultZero.getD i 0) + wireF intModulus v1 (c.resultZero.getD i 0)) := by
    intro i hi
    rw [hw _ (hc.wf.zeros _ (by
      rw [List.getD_eq_getElem?_getD, List.getElem?_eq_getElem (Finset.mem_range.1 hi)]; exact List.getElem_mem _))]
  rw [Finset.sum_congr rfl hz]

/-- Refusal follows if some sum that should be zero is not, at all but the bad points. -/
theorem refused_of {c : Circuit} (hc : CircOk c) {inps : List ℤ} {pk0 pk1 : Packet} (h0 : PacketOk c pk0)
    (h1 : PacketOk c pk1) {t : RootTables} {l : List ℕ} (hrc : RootCalls (npow2 c.mulGates.length :: l) t) {w0 w1 : List ℤ}
    (e0 : c.importWires intModulus false inps pk0.mulShares = some w0)
    (e1 : c.importWires intModulus true (List.replicate inps.length 0) pk1.mulShares = some w1)
    (hP : checkPoly c t pk0 pk1 (fun i => wireF intModulus w0 i + wireF intModulus w1 i) ≠ 0) : Refused c inps pk0 pk1 := by
  have ht := (C02_tables_after_any_history _ _ hrc).1 _ _ rfl
  have hn := npow2_gt c.mulGates.length
  have hNpos : 0 < npow2 c.mulGates.length := by omega
  obtain ⟨-, -, nodes⟩ := tables_nodes hNpos ht
  set s : ℕ → ZMod intModulus := fun i => wireF intModulus w0 i + wireF intModulus w1 i with hs
  set P := checkPoly c t pk0 pk1 s with hPdef
  have hdeg : P.natDegree ≤ 2 * npow2 c.mulGates.length := by
    rw [hPdef, checkPoly, natDegree_add_C]
    refine le_trans (natDegree_mul_le) ?_
    rw [natDegree_X]
    have hd1 := degree_mul_lt_two (polyFG_degree (n := c.mulGates.length) nodes.injW (pk0.f0 + pk1.f0 : ZMod intModulus)
      (fun i => s (c.parL (c.mg i)))) (polyFG_degree (n := c.mulGates.length) nodes.injW (pk0.g0 + pk1.g0 : ZMod intModulus)
      (fun i => s (c.parR (c.mg i))))
    have hd2 := polyH_degree (n := c.mulGates.length) nodes.injV (pk0.h0 + pk1.h0 : ZMod intModulus)
        (fun i => s (c.mg i)) (fun j => nodeF intModulus pk0.hPoints j + nodeF intModulus pk1.hPoints j)
    have := natDegree_lt_of_pos (by omega : 0 < 2 * npow2 c.mulGates.length) (lt_of_le_of_lt (degree_sub_le _ _) (max_lt hd1 hd2))
    omega
  refine ⟨P.roots.toFinset, le_trans (Multiset.toFinset_card_le _) (le_trans (card_roots' P) hdeg), fun x hx hbad => ?_⟩
  set a : ℕ → ZMod intModulus := fun i => if i = 0 then P.eval (x : ZMod intModulus) else s (c.resultZero.getD (i - 1) 0) with ha
  have hane : ∃ i < c.resultZero.length + 1, a i ≠ 0 := by
    refine ⟨0, by omega, ?_⟩
    rw [Multiset.mem_toFinset, mem_roots hP, IsRoot.def] at hbad
    simpa [ha] using hbad
  rw [← count_hyperplane c.resultZero.length a hane]
  congr 1
  ext cs
  refine and_congr_right fun hcs => and_congr_right fun _ => ?_
  rw [accepts_eq hc h0 h1 hrc hx e0 e1 hcs.ge, Finset.sum_range_succ', add_comm]
  rfl

/-- A polynomial check that is identically zero: the packets satisfy all that honest ones satisfy. -/
theorem honest_of_zero {c : Circuit} (hc : CircOk c) {inps w : List ℤ} {b : Bool} (hev : c.eval intModulus inps = some (w, b)) {pk0 pk1 : Packet}
    (h0 : PacketOk c pk0) (h1 : PacketOk c pk1) {t : RootTables} {l : List ℕ} (hrc : RootCalls (npow2 c.mulGates.length :: l) t) {w0 w1 : List ℤ}
    (e0 : c.importWires intModulus false inps pk0.mulShares = some w0)
    (e1 : c.importWires intModulus true (List.replicate inps.length 0) pk1.mulShares = some w1)
    (hP : checkPoly c t pk0 pk1 (fun i => wireF intModulus w0 i + wireF intModulus w1 i) = 0) {r : SnipRand}
    (hf : (r.f0 : ZMod intModulus) = pk0.f0 + pk1.f0) (hg : (r.g0 : ZMod intModulus) = pk0.g0 + pk1.g0) :
    HonestPackets intModulus c w (nodeF intModulus t.roots) (nodeF intModulus t.roots2) r pk0 pk1 := by
  have ht := (C02_tables_after_any_history _ _ hrc).1 _ _ rfl
  have hn := npow2_gt c.mulGates.length
  obtain ⟨-, -, nodes⟩ := tables_nodes (by omega) ht
  have wf := hc.wf
  set s : ℕ → ZMod intModulus := fun i => wireF intModulus w0 i + wireF intModulus w1 i with hs
  rw [Circuit.eval, Option.bind_eq_some_iff] at hev
  obtain ⟨w', hw, hz⟩ := hev
  rw [Option.map_eq_some_iff] at hz
  obtain ⟨zs, -, hz2⟩ := hz
  obtain ⟨rfl, -⟩ : w' = w ∧ (zs.all fun x => decide (x = 0)) = b := by simpa using hz2
  obtain ⟨hwl, hrel⟩ := evalGates_all hw
  obtain ⟨l0, r0⟩ := importGates_all e0
  obtain ⟨l1, r1⟩ := importGates_all e1
  -- `fg = h` and `c = ab`
  unfold checkPoly at hP
  set FG := polyFG c.mulGates.length (npow2 c.mulGates.length) (nodeF intModulus t.roots)
        (pk0.f0 + pk1.f0 : ZMod intModulus) (fun i => s (c.parL (c.mg i))) *
      polyFG c.mulGates.length (npow2 c.mulGates.length) (nodeF intModulus t.roots) (pk0.g0 + pk1.g0 : ZMod intModulus)
        (fun i => s (c.parR (c.mg i))) with hFG
  set H := polyH c.mulGates.length (npow2 c.mulGates.length) (nodeF intModulus t.roots2) (pk0.h0 + pk1.h0 : ZMod intModulus)
        (fun i => s (c.mg i)) (fun j => nodeF intModulus pk0.hPoints j + nodeF intModulus pk1.hPoints j) with hH
  have htr : (pk0.triple.C + pk1.triple.C : ZMod intModulus) - (pk0.triple.A + pk1.triple.A) * (pk0.triple.B + pk1.triple.B) = 0 := by
    have := congrArg (eval 0) hP
    simpa using this
  rw [htr, C_0, add_zero] at hP
  have hHeq : H = FG := by
    have := (mul_eq_zero.1 hP).resolve_left X_ne_zero
    exact (sub_eq_zero.1 this).symm
  obtain ⟨hh0, hmul, hhs⟩ := (polyH_eq_iff nodes hn _ _ _ _ _ _ _).mp hHeq
  have hwire : ∀ k < c.gates.length, s k = wireF intModulus w' k := by
    refine lin_unique wf.parents (inp := fun i => wireF intModulus inps i + wireF intModulus (List.replicate inps.length 0) i)
      (inp' := wireF intModulus inps) (fun i _ => by simp [wireF, at0_zeros]) (fun k hk => (import_lin (r0 k hk) (r1 k hk)).1)
      (fun k hk => (eval_lin (hrel k hk)).1) ?_
    intro k l' r' hg hprev
    have hidx := wf.mul_idx hg
    obtain ⟨hlt, hge⟩ := List.getElem?_eq_some_iff.mp hidx
    have hmg : c.mg (nMul (c.gates.take k)) = k := by simp [Circuit.mg, List.getD_eq_getElem?_getD, hidx]
    have hk := (List.getElem?_eq_some_iff.mp hg).1
    have hpar := wf.parents k _ hg
    have := hmul _ hlt
    simp only [hmg, Circuit.parL, Circuit.parR, hg] at this
    rw [this, (eval_lin (hrel k hk)).2 l' r' hg, hprev _ hpar.1, hprev _ hpar.2]
  refine ⟨h0.m, h1.m, h0.h, h1.h, fun i hi => ?_, hf.symm, hg.symm, by rw [hh0, hf, hg], fun j hj => ?_, sub_eq_zero.1 htr⟩
  · rw [← hwire _ (mg_lt wf hi).1]
    have hmem : c.mg i ∈ c.mulGates := by
      unfold Circuit.mg
      rw [List.getD_eq_getElem?_getD, List.getElem?_eq_getElem hi, Option.getD_some]
      exact List.getElem_mem hi
    obtain ⟨a, b', hgt, -, -, hlt⟩ := wf.mul_getElem hmem
    obtain ⟨x0, x1⟩ := (import_lin (r0 _ hlt) (r1 _ hlt)).2 a b' hgt
    have hidx := wf.mul_idx hgt
    obtain ⟨hlt', hge⟩ := List.getElem?_eq_some_iff.mp hidx
    have hii : nMul (c.gates.take (c.mg i)) = i := by
      have hnd : c.mulGates.Nodup := by rw [wf.muls]; exact List.nodup_range.filter _
      refine (List.Nodup.getElem_inj_iff hnd (hi := hlt') (hj := hi)).1 ?_
      rw [hge]
      simp [Circuit.mg, List.getD_eq_getElem?_getD, List.getElem?_eq_getElem hi]
    rw [hii] at x0 x1
    simp only [hs, wireF, x0, x1]
    rfl
  · rw [hhs j hj, hf, hg, polyFG_congr fun i hi => hwire _ (mg_lt wf hi).2.1, polyFG_congr fun i hi => hwire _ (mg_lt wf hi).2.2]

end Verif
