import Verif.ModelVar
import Verif.PropsSnip
import Verif.PropsConvert
import Verif.PropsServer
import Verif.LemmasView

/-! # Lemmas about `validate_snips`, `accumulate` and the operations that use them -/

namespace Verif

open Polynomial

/-! ### Acceptance -/

/-- The circuit is within the supported sizes (C30). -/
structure CircOk (c : Circuit) : Prop where
  wf : c.WF
  small : c.mulGates.length < 2 ^ 18

/-- A packet of the sizes with which it is read. -/
structure PacketOk (c : Circuit) (pk : Packet) : Prop where
  m : pk.mulShares.length = c.mulGates.length
  h : pk.hPoints.length = npow2 c.mulGates.length

theorem npow2_pow (n : ℕ) : npow2 n = 2 ^ n.size := rfl

/-- The submission with reconstructed values `inps` and packets `pk0`, `pk1` passes the check at the point `x` with the
combination coefficients `cs`. The values are given entirely to server 0; `verdict_indep` shows that the way in which they are
shared does not matter. -/
def Accepts (c : Circuit) (x : ℤ) (cs inps : List ℤ) (pk0 pk1 : Packet) : Prop :=
  ∃ t l pre k0 k1 o0 o1, RootCalls (npow2 c.mulGates.length :: l) t ∧
    checkerPre intModulus t (npow2 c.mulGates.length) x = some pre ∧
    checkerInit intModulus false c pk0 pre inps = some k0 ∧
    checkerInit intModulus true c pk1 pre (List.replicate inps.length 0) = some k1 ∧
    k0.outShare intModulus (Cor.ofShares intModulus (k0.corShare intModulus) (k1.corShare intModulus)) cs = some o0 ∧
    k1.outShare intModulus (Cor.ofShares intModulus (k1.corShare intModulus) (k0.corShare intModulus)) cs = some o1 ∧
    addToZero intModulus o0 o1 = true

theorem import_total {c : Circuit} (wf : c.WF) (sv : Bool) {inps ms : List ℤ} (hi : nIn c.gates ≤ inps.length)
    (hm : ms.length = c.mulGates.length) : ∃ w, c.importWires intModulus sv inps ms = some w := by
  have hnm := wf.nMul_eq
  exact importGates_total intModulus sv c.gates [] inps ms [] rfl (by simpa using wf.parents) (by omega) (by omega)

theorem wire_sums {c : Circuit} (wf : c.WF) {i0 i1 j0 j1 m0 m1 w0 w1 v0 v1 : List ℤ}
    (hi : ∀ i < nIn c.gates, (wireF intModulus i0 i + wireF intModulus i1 i) = wireF intModulus j0 i + wireF intModulus j1 i)
    (a0 : c.importWires intModulus false i0 m0 = some w0) (a1 : c.importWires intModulus true i1 m1 = some w1)
    (b0 : c.importWires intModulus false j0 m0 = some v0) (b1 : c.importWires intModulus true j1 m1 = some v1) :
    ∀ k < c.gates.length, wireF intModulus w0 k + wireF intModulus w1 k = wireF intModulus v0 k + wireF intModulus v1 k := by
  obtain ⟨-, r0⟩ := importGates_all a0
  obtain ⟨-, r1⟩ := importGates_all a1
  obtain ⟨-, s0⟩ := importGates_all b0
  obtain ⟨-, s1⟩ := importGates_all b1
  refine lin_unique wf.parents hi (fun k hk => (import_lin (r0 k hk) (r1 k hk)).1)
    (fun k hk => (import_lin (s0 k hk) (s1 k hk)).1) ?_
  intro k l r hg _
  have hk := (List.getElem?_eq_some_iff.mp hg).1
  obtain ⟨x0, x1⟩ := (import_lin (r0 k hk) (r1 k hk)).2 l r hg
  obtain ⟨y0, y1⟩ := (import_lin (s0 k hk) (s1 k hk)).2 l r hg
  simp only [wireF, x0, x1, y0, y1]

theorem polyFG_congr {F : Type*} [Field F] {n N : ℕ} {W : ℕ → F} {a : F} {u v : ℕ → F} (h : ∀ i < n, u i = v i) :
    polyFG n N W a u = polyFG n N W a v := by
  unfold polyFG
  refine interpolate_congr fun i _ => ?_
  unfold fPts
  split_ifs with h0 h1
  · rfl
  · exact h _ (by omega)
  · rfl

theorem polyH_congr {F : Type*} [Field F] {n N : ℕ} {V : ℕ → F} {a : F} {u v h : ℕ → F} (hu : ∀ i < n, u i = v i) :
    polyH n N V a u h = polyH n N V a v h := by
  unfold polyH
  refine interpolate_congr fun i _ => ?_
  unfold hPts
  split_ifs with h0 h1 h2
  · rfl
  · exact hu _ h2
  · rfl
  · rfl
  · rfl

/-- Both checkers run for every sharing of the inputs, and the verdict depends only on the values that are shared. -/
theorem verdict_indep {c : Circuit} (wf : c.WF) {x : ℤ} (hx : Canon x intModulus) {t : RootTables} {l : List ℕ} {pre : CheckerPre}
    (hrc : RootCalls (npow2 c.mulGates.length :: l) t) (hpre : checkerPre intModulus t (npow2 c.mulGates.length) x = some pre)
    {pk0 pk1 : Packet} (h0 : PacketOk c pk0) (h1 : PacketOk c pk1) {i0 i1 inps : List ℤ} (hn : nIn c.gates ≤ inps.length)
    (hl0 : i0.length = inps.length) (hl1 : i1.length = inps.length)
    (hi : ∀ k < inps.length, (at0 i0 k + at0 i1 k : ZMod intModulus) = at0 inps k) :
    ∃ k0 k1, checkerInit intModulus false c pk0 pre i0 = some k0 ∧ checkerInit intModulus true c pk1 pre i1 = some k1 ∧
      ∀ cs : List ℤ, c.resultZero.length + 1 ≤ cs.length → ∃ o0 o1,
        k0.outShare intModulus (Cor.ofShares intModulus (k0.corShare intModulus) (k1.corShare intModulus)) cs = some o0 ∧
        k1.outShare intModulus (Cor.ofShares intModulus (k1.corShare intModulus) (k0.corShare intModulus)) cs = some o1 ∧
        Canon o0 intModulus ∧ Canon o1 intModulus ∧
        (addToZero intModulus o0 o1 = true ↔ Accepts c x cs inps pk0 pk1) := by
  have ht := (C02_tables_after_any_history _ _ hrc).1 _ _ rfl
  have hn' := npow2_gt c.mulGates.length
  have hNpos : 0 < npow2 c.mulGates.length := by omega
  obtain ⟨pre', hpre', hok⟩ := checkerPre_ok hNpos ht hx
  rw [hpre] at hpre'; cases hpre'
  set z : List ℤ := List.replicate inps.length 0 with hz
  have hzl : z.length = inps.length := by simp [hz]
  have hzat : ∀ i, at0 z i = 0 := by
    intro i
    simp only [at0, hz, List.getD_eq_getElem?_getD, List.getElem?_replicate]
    split_ifs <;> rfl
  obtain ⟨w0, a0⟩ := import_total wf false (inps := i0) (by omega) h0.m
  obtain ⟨w1, a1⟩ := import_total wf true (inps := i1) (by omega) h1.m
  obtain ⟨v0, b0⟩ := import_total wf false (inps := inps) hn h0.m
  obtain ⟨v1, b1⟩ := import_total wf true (inps := z) (by omega) h1.m
  have hs := wire_sums wf (j0 := inps) (j1 := z) (fun i hi' => by
    have := hi i (by omega)
    simp only [wireF, hzat, Int.cast_zero, add_zero]; exact this) a0 a1 b0 b1
  obtain ⟨k0, k1, e0, e1, hk⟩ := check_sum wf hok a0 a1 h0.h h1.h
  obtain ⟨m0, m1, f0, f1, hm⟩ := check_sum wf hok b0 b1 h0.h h1.h
  refine ⟨k0, k1, e0, e1, fun cs hcs => ?_⟩
  obtain ⟨o0, o1, q0, q1, c0, c1, hsum⟩ := hk cs hcs
  obtain ⟨n0, n1, r0, r1, d0, d1, hsum'⟩ := hm cs hcs
  refine ⟨o0, o1, q0, q1, c0, c1, ?_⟩
  have hmg : ∀ i < c.mulGates.length, c.mg i < c.gates.length ∧ c.parL (c.mg i) < c.gates.length ∧
      c.parR (c.mg i) < c.gates.length := by
    intro i hi'
    have hmem : c.mg i ∈ c.mulGates := by
      unfold Circuit.mg
      rw [List.getD_eq_getElem?_getD, List.getElem?_eq_getElem hi', Option.getD_some]
      exact List.getElem_mem hi'
    obtain ⟨l, r, hg, hl, hr, hlt⟩ := wf.mul_getElem hmem
    simp only [Circuit.parL, Circuit.parR, hg]
    omega
  have heq : (o0 + o1 : ZMod intModulus) = (n0 + n1 : ZMod intModulus) := by
    rw [hsum, hsum']
    rw [polyFG_congr (fun i hi' => hs _ (hmg i hi').2.1), polyFG_congr (fun i hi' => hs _ (hmg i hi').2.2),
      polyH_congr (fun i hi' => hs _ (hmg i hi').1)]
    congr 1
    refine Finset.sum_congr rfl fun i hi' => ?_
    rw [hs]
    have := Finset.mem_range.mp hi'
    refine wf.zeros _ ?_
    rw [List.getD_eq_getElem?_getD, List.getElem?_eq_getElem this, Option.getD_some]
    exact List.getElem_mem this
  have key : addToZero intModulus o0 o1 = addToZero intModulus n0 n1 := by
    unfold addToZero
    refine decide_eq_decide.2 ?_
    rw [fmod_eq_zero_iff, fmod_eq_zero_iff, Int.cast_add, Int.cast_add, heq]
  rw [key]
  constructor
  · intro h
    exact ⟨t, l, pre, m0, m1, n0, n1, hrc, hpre, f0, f1, r0, r1, h⟩
  · rintro ⟨t', l', pre', m0', m1', n0', n1', hrc', hpre', f0', f1', r0', r1', h⟩
    have := rootCalls_eq hrc hrc'
    subst this
    rw [hpre] at hpre'; cases hpre'
    rw [f0] at f0'; cases f0'
    rw [f1] at f1'; cases f1'
    rw [r0] at r0'; cases r0'
    rw [r1] at r1'; cases r1'
    exact h

/-! ### The state -/

/-- The state of a server: a check point `x`, tables after some history of calls, every cached precomputation right for its
size and for `x`. -/
structure SnipOk (x : ℤ) (uses pos : ℕ) (st : SnipState) : Prop where
  hx : st.x = x
  canon : Canon x intModulus
  huses : st.uses = uses
  hpos : st.pos = pos
  tabs : ∃ l, RootCalls l st.tables
  store : ∀ e ∈ st.store, ∃ t l, RootCalls (e.1 :: l) t ∧ checkerPre intModulus t e.1 x = some e.2

theorem mem_of_lookup_nat {β : Type} {l : List (ℕ × β)} {n : ℕ} {b : β} (h : l.lookup n = some b) : (n, b) ∈ l := by
  induction l with
  | nil => cases h
  | cons e l ih =>
    obtain ⟨m, c⟩ := e
    rw [List.lookup_cons] at h
    split at h
    · rename_i hb
      rw [beq_iff_eq] at hb
      cases h; subst hb; exact List.mem_cons_self
    · exact List.mem_cons_of_mem _ (ih h)

theorem prepare_ok {x : ℤ} {uses pos : ℕ} {st : SnipState} (h : SnipOk x uses pos st) {k : ℕ} (hk : k ≤ 18) (n : ℕ) :
    ∃ pre st', prepare st (2 ^ k) n = some (pre, st') ∧ SnipOk x (uses + n) pos st' ∧
      ∃ t l, RootCalls (2 ^ k :: l) t ∧ checkerPre intModulus t (2 ^ k) x = some pre := by
  obtain ⟨l, hl⟩ := h.tabs
  obtain ⟨t, ht⟩ := (C02_tables_after_any_history _ _ hl).2 _ hk
  have hrc : RootCalls (2 ^ k :: l) t := RootCalls.call hl hk ht
  rw [prepare, ht, Option.bind_some, getPrecomp]
  rcases hlk : st.store.lookup (2 ^ k) with _ | pre
  · have hok := (C02_tables_after_any_history _ _ hrc).1 _ _ rfl
    obtain ⟨pre, hpre, -⟩ := checkerPre_ok (pow_pos (by norm_num) k) hok h.canon
    refine ⟨pre, ⟨t, (2 ^ k, pre) :: st.store, st.x, st.uses + n, st.pos⟩, ?_, ?_, t, l, hrc, hpre⟩
    · simp only [h.hx, hpre, Option.map_some]
    · refine ⟨h.hx, h.canon, by simp [h.huses], h.hpos, ⟨_, hrc⟩, ?_⟩
      intro e he
      rcases List.mem_cons.1 he with rfl | he
      · exact ⟨t, l, hrc, hpre⟩
      · exact h.store e he
  · refine ⟨pre, ⟨t, st.store, st.x, st.uses + n, st.pos⟩, by simp only [Option.map_some], ?_, h.store _ (mem_of_lookup_nat hlk)⟩
    exact ⟨h.hx, h.canon, by simp [h.huses], h.hpos, ⟨_, hrc⟩, h.store⟩

/-! ### `validate_snips` -/

theorem optAll_spec {α : Type} (l : List (Option α)) (f : ℕ → α) (h : ∀ i < l.length, l[i]? = some (some (f i))) :
    optAll l = some ((List.range l.length).map f) := by
  induction l generalizing f with
  | nil => rfl
  | cons a l ih =>
    have h0 := h 0 (by simp)
    simp only [List.getElem?_cons_zero, Option.some.injEq] at h0
    subst h0
    have := ih (fun i => f (i + 1)) fun i hi => by
      have := h (i + 1) (by simpa using hi)
      simpa using this
    rw [optAll, this, Option.map_some, List.length_cons, List.range_succ_eq_map, List.map_cons, List.map_map]
    rfl

theorem coefs_length (coef : ℕ → ℤ) (pos k i : ℕ) : (coefs coef pos k i).length = k := by simp [coefs]

theorem fits_canon {x : ℤ} (h : Canon x intModulus) : Fits x := fits_of_canon h

/-- One row of a batch at both servers: the checkers and the final shares. -/
structure RowRun (c : Circuit) (pre : CheckerPre) (cs : List ℤ) (pk0 pk1 : Packet) (i0 i1 : List ℤ) (k0 k1 : Checker) (o0 o1 : ℤ) :
    Prop where
  init0 : checkerInit intModulus false c pk0 pre i0 = some k0
  init1 : checkerInit intModulus true c pk1 pre i1 = some k1
  out0 : k0.outShare intModulus (Cor.ofShares intModulus (k0.corShare intModulus) (k1.corShare intModulus)) cs = some o0
  out1 : k1.outShare intModulus (Cor.ofShares intModulus (k1.corShare intModulus) (k0.corShare intModulus)) cs = some o1
  canon0 : Canon o0 intModulus
  canon1 : Canon o1 intModulus

/-- What a server sees of the other's checkers and final shares. -/
noncomputable def checkSeen (n : ℕ) (K : ℕ → CorShare) (O : ℕ → ℤ) : List Seen :=
  seenBytes ((encCorShares ((List.range n).map K)).getD []) ++ seenBytes (((List.range n).map O).flatMap fmpzBytes)

/-- The verdicts of `validate_snips`. -/
def verdicts (n : ℕ) (O0 O1 : ℕ → ℤ) : List Bool := (List.range n).map fun i => addToZero intModulus (O0 i) (O1 i)

/-- The outcome of `validate_snips` at both servers, row by row, and what the servers see. -/
theorem validate_view {c : Circuit} (hc : CircOk c) {x : ℤ} {uses pos : ℕ} {st0 st1 : SnipState} (h0 : SnipOk x uses pos st0)
    (h1 : SnipOk x uses pos st1) (coef : ℕ → ℤ) {ni : ℕ} (hni : nIn c.gates ≤ ni) {pks0 pks1 : List Packet} {n : ℕ} (hn : 0 < n)
    (hl0 : pks0.length = n) (hl1 : pks1.length = n) (hp0 : ∀ k ∈ pks0, PacketOk c k) (hp1 : ∀ k ∈ pks1, PacketOk c k)
    {sh0 sh1 : List ℤ} (hs0 : sh0.length = n * ni) (hs1 : sh1.length = n * ni) :
    ∃ pre t l, RootCalls (npow2 c.mulGates.length :: l) t ∧ checkerPre intModulus t (npow2 c.mulGates.length) x = some pre ∧
    ∃ (K0 K1 : ℕ → Checker) (O0 O1 : ℕ → ℤ) (st0' st1' : SnipState),
      PairW (validateSnips false c coef st0 ni pks0 sh0) (validateSnips true c coef st1 ni pks1 sh1) (verdicts n O0 O1, st0')
        (verdicts n O0 O1, st1') (checkSeen n (fun i => (K1 i).corShare intModulus) O1) (checkSeen n (fun i => (K0 i).corShare intModulus) O0) ∧
      SnipOk x (uses + n) (pos + n * (c.resultZero.length + 1)) st0' ∧
      SnipOk x (uses + n) (pos + n * (c.resultZero.length + 1)) st1' ∧
      ∀ i < n, ∃ a0 a1, pks0[i]? = some a0 ∧ pks1[i]? = some a1 ∧
        RowRun c pre (coefs coef pos (c.resultZero.length + 1) i) a0 a1 ((pieces ni n sh0).getD i []) ((pieces ni n sh1).getD i [])
          (K0 i) (K1 i) (O0 i) (O1 i) ∧
        ∀ inps : List ℤ, inps.length = ni →
          (∀ j < ni, (at0 sh0 (i * ni + j) + at0 sh1 (i * ni + j) : ZMod intModulus) = at0 inps j) →
          (addToZero intModulus (O0 i) (O1 i) = true ↔ Accepts c x (coefs coef pos (c.resultZero.length + 1) i) inps a0 a1) := by
  have hk : c.mulGates.length.size ≤ 18 := Nat.size_le.mpr hc.small
  obtain ⟨pre, st0', q0, s0, t, l, hrc, hpre⟩ := prepare_ok h0 hk n
  obtain ⟨pre', st1', q1, s1, t', l', hrc', hpre'⟩ := prepare_ok h1 hk n
  have htt := rootCalls_eq hrc hrc'
  subst htt
  rw [hpre] at hpre'; cases hpre'
  rw [← npow2_pow] at q0 q1 hrc hpre
  -- row by row
  have hrow : ∀ i, ∃ (k0 k1 : Checker) (o0 o1 : ℤ), i < n → ∃ a0 a1, pks0[i]? = some a0 ∧ pks1[i]? = some a1 ∧
      checkerInit intModulus false c a0 pre ((pieces ni n sh0).getD i []) = some k0 ∧
      checkerInit intModulus true c a1 pre ((pieces ni n sh1).getD i []) = some k1 ∧
      k0.outShare intModulus (Cor.ofShares intModulus (k0.corShare intModulus) (k1.corShare intModulus))
        (coefs coef pos (c.resultZero.length + 1) i) = some o0 ∧
      k1.outShare intModulus (Cor.ofShares intModulus (k1.corShare intModulus) (k0.corShare intModulus))
        (coefs coef pos (c.resultZero.length + 1) i) = some o1 ∧ Canon o0 intModulus ∧ Canon o1 intModulus ∧
      ∀ inps : List ℤ, inps.length = ni →
        (∀ j < ni, (at0 sh0 (i * ni + j) + at0 sh1 (i * ni + j) : ZMod intModulus) = at0 inps j) →
        (addToZero intModulus o0 o1 = true ↔ Accepts c x (coefs coef pos (c.resultZero.length + 1) i) inps a0 a1) := by
    intro i
    by_cases hi : i < n
    swap
    · exact ⟨⟨false, 0, 0, 0, [], ⟨0, 0, 0⟩⟩, ⟨false, 0, 0, 0, [], ⟨0, 0, 0⟩⟩, 0, 0, fun h => absurd h hi⟩
    have g0 : pks0[i]? = some (pks0[i]'(by omega)) := List.getElem?_eq_getElem _
    have g1 : pks1[i]? = some (pks1[i]'(by omega)) := List.getElem?_eq_getElem _
    have P0 := hp0 _ (List.getElem_mem (l := pks0) (by omega : i < pks0.length))
    have P1 := hp1 _ (List.getElem_mem (l := pks1) (by omega : i < pks1.length))
    have len : ∀ sh : List ℤ, sh.length = n * ni → ((pieces ni n sh).getD i []).length = ni := by
      intro sh hsh
      have hpl := pieces_length ni n sh
      rw [List.getD_eq_getElem?_getD, List.getElem?_eq_getElem (by omega), Option.getD_some]
      exact pieces_mem ni n sh hsh _ (List.getElem_mem _)
    have ent : ∀ sh : List ℤ, ∀ j < ni, at0 ((pieces ni n sh).getD i []) j = at0 sh (i * ni + j) := by
      intro sh j hj
      exact getD_pieces ni n sh i j hi hj 0
    set i0 := (pieces ni n sh0).getD i [] with hi0
    set i1 := (pieces ni n sh1).getD i [] with hi1
    have l0 := len sh0 hs0
    have l1 := len sh1 hs1
    set base : List ℤ := (List.range ni).map fun j => at0 sh0 (i * ni + j) + at0 sh1 (i * ni + j) with hbase
    have hbl : base.length = ni := by simp [hbase]
    have hbat : ∀ j < ni, at0 base j = at0 sh0 (i * ni + j) + at0 sh1 (i * ni + j) := by
      intro j hj
      simp [at0, hbase, List.getD_eq_getElem?_getD, hj]
    obtain ⟨k0, k1, e0, e1, -⟩ := verdict_indep hc.wf h0.canon hrc hpre P0 P1 (inps := base) (i0 := i0) (i1 := i1)
      (by omega) (by rw [l0, hbl]) (by rw [l1, hbl]) (fun j hj => by
        rw [hbl] at hj
        rw [hbat j hj, ent sh0 j hj, ent sh1 j hj]; push_cast; rfl)
    have hall : ∀ inps : List ℤ, inps.length = ni →
        (∀ j < ni, (at0 sh0 (i * ni + j) + at0 sh1 (i * ni + j) : ZMod intModulus) = at0 inps j) →
        ∃ o0 o1,
        k0.outShare intModulus (Cor.ofShares intModulus (k0.corShare intModulus) (k1.corShare intModulus))
          (coefs coef pos (c.resultZero.length + 1) i) = some o0 ∧
        k1.outShare intModulus (Cor.ofShares intModulus (k1.corShare intModulus) (k0.corShare intModulus))
          (coefs coef pos (c.resultZero.length + 1) i) = some o1 ∧ Canon o0 intModulus ∧ Canon o1 intModulus ∧
        (addToZero intModulus o0 o1 = true ↔ Accepts c x (coefs coef pos (c.resultZero.length + 1) i) inps
          (pks0[i]'(by omega)) (pks1[i]'(by omega))) := by
      intro inps hil hii
      obtain ⟨k0', k1', e0', e1', hv⟩ := verdict_indep hc.wf h0.canon hrc hpre P0 P1 (inps := inps) (i0 := i0) (i1 := i1)
        (by omega) (by rw [l0, hil]) (by rw [l1, hil]) (fun j hj => by
          rw [hil] at hj
          rw [← hii j hj, ent sh0 j hj, ent sh1 j hj])
      rw [e0] at e0'; cases e0'
      rw [e1] at e1'; cases e1'
      exact hv _ (by rw [coefs_length])
    obtain ⟨o0, o1, r0, r1, c0, c1, -⟩ := hall base hbl (fun j hj => by rw [hbat j hj]; push_cast; rfl)
    refine ⟨k0, k1, o0, o1, fun _ => ⟨_, _, g0, g1, e0, e1, r0, r1, c0, c1, ?_⟩⟩
    intro inps hil hii
    obtain ⟨o0', o1', r0', r1', -, -, hv⟩ := hall inps hil hii
    rw [r0] at r0'; cases r0'
    rw [r1] at r1'; cases r1'
    exact hv
  choose K0 K1 O0 O1 hrow using hrow
  have hch : ∀ (sv : Bool) (pks : List Packet) (sh : List ℤ) (K : ℕ → Checker), pks.length = n →
      (∀ i < n, ∃ a, pks[i]? = some a ∧ checkerInit intModulus sv c a pre ((pieces ni n sh).getD i []) = some (K i)) →
      checkers sv c pre ni pks sh = some ((List.range n).map K) := by
    intro sv pks sh K hpl hK
    unfold checkers
    have hll : (List.zipWith (fun pk inps => checkerInit intModulus sv c pk pre inps) pks (pieces ni pks.length sh)).length = n := by
      simp [pieces_length, hpl]
    have := optAll_spec (List.zipWith (fun pk inps => checkerInit intModulus sv c pk pre inps) pks (pieces ni pks.length sh)) K ?_
    · rw [this, hll]
    · intro i hi
      rw [hll] at hi
      obtain ⟨a, ha, hk⟩ := hK i hi
      have hpl' := pieces_length ni n sh
      rw [List.getD_eq_getElem?_getD, List.getElem?_eq_getElem (by omega), Option.getD_some] at hk
      rw [List.getElem?_zipWith, ha, hpl, List.getElem?_eq_getElem (by omega)]
      simp only [hk]
  have hc0 := hch false pks0 sh0 K0 hl0 fun i hi => by
    obtain ⟨a0, a1, g0, g1, e0, e1, -⟩ := hrow i hi; exact ⟨a0, g0, e0⟩
  have hc1 := hch true pks1 sh1 K1 hl1 fun i hi => by
    obtain ⟨a0, a1, g0, g1, e0, e1, -⟩ := hrow i hi; exact ⟨a1, g1, e1⟩
  have hcor : ∀ K : ℕ → Checker, ∃ bs, encCorShares (((List.range n).map K).map (·.corShare intModulus)) = some bs ∧
      Reads (rdCorShares n) bs (((List.range n).map K).map (·.corShare intModulus)) := by
    intro K
    obtain ⟨bs, hb, -, hr⟩ := C14_corshares_roundtrip (((List.range n).map K).map (·.corShare intModulus)) (by
      intro d hd
      obtain ⟨k, -, rfl⟩ := List.mem_map.1 hd
      exact ⟨fits_canon (fmod_canon _), fits_canon (fmod_canon _)⟩)
    refine ⟨bs, hb, ?_⟩
    simpa using hr
  obtain ⟨b0, eb0, rb0⟩ := hcor K0
  obtain ⟨b1, eb1, rb1⟩ := hcor K1
  have hout : ∀ (K K' : ℕ → Checker) (O : ℕ → ℤ), (∀ i < n, (K i).outShare intModulus (Cor.ofShares intModulus
      ((K i).corShare intModulus) ((K' i).corShare intModulus)) (coefs coef pos (c.resultZero.length + 1) i) = some (O i)) →
      outShares c coef pos ((List.range n).map K) (((List.range n).map K').map (·.corShare intModulus)) = some ((List.range n).map O) := by
    intro K K' O hO
    unfold outShares
    have := optAll_spec ((List.zip ((List.range n).map K) (((List.range n).map K').map (·.corShare intModulus))).mapIdx fun i e =>
      e.1.outShare intModulus (Cor.ofShares intModulus (e.1.corShare intModulus) e.2) (coefs coef pos (c.resultZero.length + 1) i)) O ?_
    · rw [this]; simp
    · intro i hi
      have hi : i < n := by simpa using hi
      simp [List.zip, hi, hO i hi]
  have ho0 := hout K0 K1 O0 fun i hi => by
    obtain ⟨a0, a1, g0, g1, e0, e1, r0, r1, -⟩ := hrow i hi; exact r0
  have ho1 := hout K1 K0 O1 fun i hi => by
    obtain ⟨a0, a1, g0, g1, e0, e1, r0, r1, -⟩ := hrow i hi; exact r1
  have hfm : ∀ O : ℕ → ℤ, (∀ i < n, Canon (O i) intModulus) → encFmpzs ((List.range n).map O) = some (((List.range n).map O).flatMap fmpzBytes) ∧
      Reads (rdFmpzs n) (((List.range n).map O).flatMap fmpzBytes) ((List.range n).map O) := by
    intro O hO
    have hf : ∀ y ∈ (List.range n).map O, Fits y := by
      intro y hy
      obtain ⟨i, hi, rfl⟩ := List.mem_map.1 hy
      exact fits_canon (hO i (List.mem_range.1 hi))
    refine ⟨encFmpzs_of_fits _ hf, ?_⟩
    simpa using reads_fmpzs _ hf
  obtain ⟨ef0, rf0⟩ := hfm O0 fun i hi => by
    obtain ⟨a0, a1, g0, g1, e0, e1, r0, r1, c0, c1, -⟩ := hrow i hi; exact c0
  obtain ⟨ef1, rf1⟩ := hfm O1 fun i hi => by
    obtain ⟨a0, a1, g0, g1, e0, e1, r0, r1, c0, c1, -⟩ := hrow i hi; exact c1
  refine ⟨pre, t, l, hrc, hpre, K0, K1, O0, O1, { st0' with pos := st0'.pos + n * (c.resultZero.length + 1) },
    { st1' with pos := st1'.pos + n * (c.resultZero.length + 1) }, ?_, ?_, ?_, ?_⟩
  · unfold validateSnips
    rw [if_neg (by omega), if_neg (by omega), hl0, hl1, q0, q1]
    simp only [Proc.ofOption, Proc.bind, hc0, hc1, eb0, eb1, exchOpt, Proc.putOpt, h0.hpos, h1.hpos]
    refine ((PairW.exch (bs0 := b0) (bs1 := b1) rb1 rb0).bind (c := (verdicts n O0 O1, _)) (d := (verdicts n O0 O1, _))
      (w0 := seenBytes (((List.range n).map O1).flatMap fmpzBytes)) (w1 := seenBytes (((List.range n).map O0).flatMap fmpzBytes)) ?_).cast rfl rfl ?_ ?_
    · simp only [ho0, ho1, Proc.bind, ef0, ef1]
      refine ((PairW.exch rf1 rf0).bind (w0 := []) (w1 := []) ?_).cast rfl rfl (List.append_nil _) (List.append_nil _)
      have hz : List.zipWith (addToZero intModulus) ((List.range n).map O0) ((List.range n).map O1) = verdicts n O0 O1 := by
        unfold verdicts
        rw [List.zipWith_map]; simp [List.zipWith_self]
      have hz' : List.zipWith (addToZero intModulus) ((List.range n).map O1) ((List.range n).map O0) = verdicts n O0 O1 := by
        unfold verdicts
        rw [List.zipWith_map]
        simp only [addToZero, add_comm (O1 _)]
        simp [List.zipWith_self]
      rw [hz, hz']
      exact PairW.ret _ _
    · rw [List.map_map] at eb1
      rw [checkSeen, ← Function.comp_def (fun k : Checker => k.corShare intModulus), eb1]; rfl
    · rw [List.map_map] at eb0
      rw [checkSeen, ← Function.comp_def (fun k : Checker => k.corShare intModulus), eb0]; rfl
  · exact ⟨s0.hx, s0.canon, s0.huses, by simp [s0.hpos], s0.tabs, s0.store⟩
  · exact ⟨s1.hx, s1.canon, s1.huses, by simp [s1.hpos], s1.tabs, s1.store⟩
  · intro i hi
    obtain ⟨a0, a1, g0, g1, e0, e1, r0, r1, c0, c1, hv⟩ := hrow i hi
    exact ⟨a0, a1, g0, g1, ⟨e0, e1, r0, r1, c0, c1⟩, hv⟩

/-- The outcome of `validate_snips` at both servers: the same verdicts, each that of the reconstructed values. -/
theorem validate_pair {c : Circuit} (hc : CircOk c) {x : ℤ} {uses pos : ℕ} {st0 st1 : SnipState} (h0 : SnipOk x uses pos st0)
    (h1 : SnipOk x uses pos st1) (coef : ℕ → ℤ) {ni : ℕ} (hni : nIn c.gates ≤ ni) {pks0 pks1 : List Packet} {n : ℕ} (hn : 0 < n)
    (hl0 : pks0.length = n) (hl1 : pks1.length = n) (hp0 : ∀ k ∈ pks0, PacketOk c k) (hp1 : ∀ k ∈ pks1, PacketOk c k)
    {sh0 sh1 : List ℤ} (hs0 : sh0.length = n * ni) (hs1 : sh1.length = n * ni) :
    ∃ vs st0' st1', Pair (validateSnips false c coef st0 ni pks0 sh0) (validateSnips true c coef st1 ni pks1 sh1) (vs, st0') (vs, st1') ∧
      SnipOk x (uses + n) (pos + n * (c.resultZero.length + 1)) st0' ∧
      SnipOk x (uses + n) (pos + n * (c.resultZero.length + 1)) st1' ∧ vs.length = n ∧
      ∀ i (_ : i < n) (k0 k1 : Packet), pks0[i]? = some k0 → pks1[i]? = some k1 → ∀ inps : List ℤ, inps.length = ni →
        (∀ j < ni, (at0 sh0 (i * ni + j) + at0 sh1 (i * ni + j) : ZMod intModulus) = at0 inps j) →
        (vs.getD i false = true ↔ Accepts c x (coefs coef pos (c.resultZero.length + 1) i) inps k0 k1) := by
  obtain ⟨pre, t, l, -, -, K0, K1, O0, O1, st0', st1', h, q0, q1, hrow⟩ := validate_view hc h0 h1 coef hni hn hl0 hl1 hp0 hp1 hs0 hs1
  refine ⟨verdicts n O0 O1, st0', st1', h.toPair, q0, q1, by simp [verdicts], ?_⟩
  intro i hi k0 k1 hk0 hk1 inps hil hii
  obtain ⟨a0, a1, g0, g1, -, hv⟩ := hrow i hi
  rw [hk0] at g0; cases g0
  rw [hk1] at g1; cases g1
  rw [← hv inps hil hii]
  simp [verdicts, List.getD_eq_getElem?_getD, hi]

end Verif
