import Verif.PropsSnip

/-! # C32: what a server sees of an honest validation -/

namespace Verif

/-! ## Specification -/

/-- Lengths and ranges of the client's draws. -/
structure ValidRand (p : ℕ) (c : Circuit) (r : SnipRand) : Prop where
  lh : r.h.length = npow2 c.mulGates.length
  lm : r.mul.length = c.mulGates.length
  h : ∀ x ∈ r.h, IsDraw x p
  m : ∀ x ∈ r.mul, IsDraw x p
  s : IsDraw r.f0s p ∧ IsDraw r.g0s p ∧ IsDraw r.h0s p
  t : IsDraw r.A p ∧ IsDraw r.B p ∧ IsDraw r.As p ∧ IsDraw r.Bs p ∧ IsDraw r.Cs p

/-- Lengths and ranges of a packet and of the message of the other server. -/
structure ValidView (p : ℕ) (c : Circuit) (pk : Packet) (msg : CorShare) : Prop where
  lh : pk.hPoints.length = npow2 c.mulGates.length
  lm : pk.mulShares.length = c.mulGates.length
  h : ∀ x ∈ pk.hPoints, Canon x p
  m : ∀ x ∈ pk.mulShares, Canon x p
  s : Canon pk.f0 p ∧ Canon pk.g0 p ∧ Canon pk.h0 p
  t : Canon pk.triple.A p ∧ Canon pk.triple.B p ∧ Canon pk.triple.C p
  c : Canon msg.D p ∧ Canon msg.E p

/-- What server 0 receives: its packet and the `CorShare` of server 1, which holds the input share `i1`. -/
def view0 (p : ℕ) (c : Circuit) (w : List ℤ) (t : RootTables) (pre : CheckerPre) (i1 : List ℤ) (r : SnipRand) :
    Option (Packet × CorShare) :=
  (sharePolynomials p c w t r).bind fun pks => (checkerInit p true c pks.2 pre i1).map fun k => (pks.1, k.corShare p)

/-- What server 1 receives. -/
def view1 (p : ℕ) (c : Circuit) (w : List ℤ) (t : RootTables) (pre : CheckerPre) (i0 : List ℤ) (r : SnipRand) :
    Option (Packet × CorShare) :=
  (sharePolynomials p c w t r).bind fun pks => (checkerInit p false c pks.1 pre i0).map fun k => (pks.2, k.corShare p)

/-! ### Lemmas -/

theorem checkerInit_triple (p : ℕ) (sv : Bool) (c : Circuit) (pk : Packet) (pre : CheckerPre) (i : List ℤ) (T : Triple) :
    checkerInit p sv c pk pre i =
      (checkerInit p sv c { pk with triple := T } pre i).map fun k => { k with triple := pk.triple } := by
  unfold checkerInit
  dsimp only
  cases c.importWires p sv i pk.mulShares with
  | none => rfl
  | some w =>
    dsimp only [Option.bind_some]
    cases mulTriples c.gates w c.mulGates with
    | none => rfl
    | some tr =>
      dsimp only [Option.bind_some]
      split
      · rfl
      · cases preXEval p pre.xN (pk.f0 :: tr.map (fun x => x.1) ++ List.replicate (npow2 c.mulGates.length - c.mulGates.length) 0) with
        | none => rfl
        | some f =>
          dsimp only [Option.bind_some]
          cases preXEval p pre.xN (pk.g0 :: tr.map (fun x => x.2.1) ++ List.replicate (npow2 c.mulGates.length - c.mulGates.length) 0) with
          | none => rfl
          | some g =>
            dsimp only [Option.bind_some]
            cases preXEval p pre.x2N (pointsH c.mulGates.length (npow2 c.mulGates.length) pk.h0 (tr.map fun x => x.2.2) pk.hPoints) with
            | none => rfl
            | some h =>
              dsimp only [Option.bind_some]
              cases wiresAt w c.resultZero <;> rfl

theorem fmod_sub_inv {p : ℕ} [NeZero p] {v r t : ℤ} (hr : Canon r p) (ht : Canon t p) : fmod (v - r) p = t ↔ r = fmod (v - t) p := by
  constructor
  · rintro rfl
    apply canon_eq_of_cast hr (fmod_canon _)
    simp
  · rintro rfl
    apply canon_eq_of_cast (fmod_canon _) ht
    simp

/-- The map `r ↦ v - r` on lists of residues. -/
def subAll (p : ℕ) (rs vs : List ℤ) : List ℤ := List.zipWith (fun r v => fmod (v - r) p) rs vs

theorem subAll_inv {p : ℕ} [NeZero p] : ∀ (rs ts vs : List ℤ), rs.length = vs.length → ts.length = vs.length →
    (∀ x ∈ rs, Canon x p) → (∀ x ∈ ts, Canon x p) → (subAll p rs vs = ts ↔ rs = subAll p ts vs)
  | [], [], [], _, _, _, _ => by simp [subAll]
  | r :: rs, t :: ts, v :: vs, h1, h2, h3, h4 => by
    simp only [subAll, List.zipWith_cons_cons, List.cons.injEq]
    rw [fmod_sub_inv (h3 r (by simp)) (h4 t (by simp))]
    have := subAll_inv rs ts vs (by simpa using h1) (by simpa using h2) (fun x hx => h3 x (by simp [hx])) fun x hx => h4 x (by simp [hx])
    simp only [subAll] at this
    rw [this]
  | [], _ :: _, [], _, h, _, _ => by simp at h
  | _ :: _, _, [], h, _, _, _ => by simp at h
  | [], _, _ :: _, h, _, _, _ => by simp at h
  | _ :: _, [], _ :: _, _, h, _, _ => by simp at h

theorem subAll_canon {p : ℕ} [NeZero p] (rs vs : List ℤ) : ∀ x ∈ subAll p rs vs, Canon x p := by
  intro x hx
  obtain ⟨i, hi, rfl⟩ := List.getElem_of_mem hx
  simp only [subAll, List.getElem_zipWith]
  exact fmod_canon _

theorem subAll_length (p : ℕ) {rs vs : List ℤ} (h : rs.length = vs.length) : (subAll p rs vs).length = vs.length := by
  simp [subAll, h]

theorem splitAll_eq {p : ℕ} {rs vs : List ℤ} (h : rs.length = vs.length) : splitAll p rs vs = (rs, subAll p rs vs) :=
  Prod.ext (splitAll_spec rs vs h).1 rfl

/-- A checker exists for every packet of the right size. -/
theorem checker_exists {p : ℕ} [Fact p.Prime] {c : Circuit} (wf : c.WF) {W V : ℕ → ZMod p} {x : ℤ} {pre : CheckerPre}
    (hp : PreOk p (npow2 c.mulGates.length) W V x pre) (sv : Bool) {pk : Packet} {i : List ℤ} (hi : nIn c.gates ≤ i.length)
    (hm : pk.mulShares.length = c.mulGates.length) (hh : pk.hPoints.length = npow2 c.mulGates.length) :
    ∃ k, checkerInit p sv c pk pre i = some k := by
  have := wf.nMul_eq
  obtain ⟨w, hw⟩ := importGates_total p sv c.gates [] i pk.mulShares [] rfl (by simpa using wf.parents) hi (by omega)
  obtain ⟨k, hk, -⟩ := checker_spec wf hp (sv := sv) hw hh.ge
  exact ⟨k, hk⟩

/-! ## C32 -/

/-- Server 0's view. For every circuit, evaluated wires, share of the other server, check point and fixed `f(0)`, `g(0)`: the map
from the client's other draws to the packet of server 0 together with the message of server 1 is a bijection onto all packets and
messages of the right sizes. Hence the view is uniformly distributed whatever the input. -/
theorem C32_view0 {c : Circuit} (wf : c.WF) {inps w i1 : List ℤ} {b : Bool} (hev : c.eval intModulus inps = some (w, b))
    (hl1 : i1.length = inps.length) {t : RootTables} {l : List ℕ} (hrc : RootCalls (npow2 c.mulGates.length :: l) t)
    {x : ℤ} (hx : Canon x intModulus) {pre : CheckerPre} (hpre : checkerPre intModulus t (npow2 c.mulGates.length) x = some pre)
    (f0 g0 : ℤ) {pk : Packet} {m : CorShare} (hv : ValidView intModulus c pk m) :
    ∃! r : SnipRand, r.f0 = f0 ∧ r.g0 = g0 ∧ ValidRand intModulus c r ∧ view0 intModulus c w t pre i1 r = some (pk, m) := by
  have ht := (C02_tables_after_any_history _ _ hrc).1 _ _ rfl
  have hNpos : 0 < npow2 c.mulGates.length := lt_of_le_of_lt (Nat.zero_le _) (npow2_gt _)
  obtain ⟨pre', hpre', hpok⟩ := checkerPre_ok hNpos ht hx
  rw [hpre] at hpre'; cases hpre'
  rw [Circuit.eval, Option.bind_eq_some_iff] at hev
  obtain ⟨w', hw, hz⟩ := hev
  rw [Option.map_eq_some_iff] at hz
  obtain ⟨zs, -, hz2⟩ := hz
  cases hz2
  have hin := nIn_le_of_eval hw
  obtain ⟨hvl, hlen, hform, -⟩ := client_form intModulus_two_ne wf (evalGates_all hw).1 ht f0 g0
  -- the packet of server 1 up to its triple
  let base : List ℤ → List ℤ → ℤ → ℤ → ℤ → Packet := fun mul h f g h0 =>
    ⟨subAll intModulus mul (c.mulGates.map (at0 w)), fmod (f0 - f) intModulus, fmod (g0 - g) intModulus,
      fmod (fmod (f0 * g0) intModulus - h0) intModulus, subAll intModulus h hvl, ⟨0, 0, 0⟩⟩
  have hview : ∀ r : SnipRand, r.f0 = f0 → r.g0 = g0 → ValidRand intModulus c r → view0 intModulus c w t pre i1 r =
      (checkerInit intModulus true c (base r.mul r.h r.f0s r.g0s r.h0s) pre i1).map fun k =>
        (⟨r.mul, r.f0s, r.g0s, r.h0s, r.h, ⟨r.As, r.Bs, r.Cs⟩⟩,
          ⟨fmod (k.evalF - fmod (r.A - r.As) intModulus) intModulus, fmod (k.evalG - fmod (r.B - r.Bs) intModulus) intModulus⟩) := by
    intro r h1 h2 h3
    rw [view0, hform r h1 h2, Option.bind_some, splitAll_eq (by rw [h3.lm, List.length_map]), splitAll_eq (by rw [h3.lh, hlen]),
      checkerInit_triple _ _ _ _ _ _ ⟨0, 0, 0⟩, Option.map_map]
    rfl
  obtain ⟨k, hk⟩ := checker_exists wf hpok true (pk := base pk.mulShares pk.hPoints pk.f0 pk.g0 pk.h0) (i := i1) (by omega)
    (by show (subAll _ _ _).length = _; rw [subAll_length _ (by rw [hv.lm, List.length_map]), List.length_map])
    (by show (subAll _ _ _).length = _; rw [subAll_length _ (by rw [hv.lh, hlen]), hlen])
  have solve : ∀ {e a s d : ℤ}, Canon a intModulus → Canon d intModulus →
      (fmod (e - fmod (a - s) intModulus) intModulus = d ↔ a = fmod (e - d + s) intModulus) := by
    intro e a s d ha hd
    constructor
    · rintro rfl
      apply canon_eq_of_cast ha (fmod_canon _)
      simp
    · rintro rfl
      apply canon_eq_of_cast (fmod_canon _) hd
      simp
  have hvalid : ValidRand intModulus c ⟨f0, g0, pk.hPoints, pk.f0, pk.g0, pk.h0, pk.mulShares,
      fmod (k.evalF - m.D + pk.triple.A) intModulus, fmod (k.evalG - m.E + pk.triple.B) intModulus, pk.triple.A, pk.triple.B,
      pk.triple.C⟩ :=
    ⟨hv.lh, hv.lm, hv.h, hv.m, hv.s, fmod_canon _, fmod_canon _, hv.t.1, hv.t.2.1, hv.t.2.2⟩
  refine ⟨⟨f0, g0, pk.hPoints, pk.f0, pk.g0, pk.h0, pk.mulShares, fmod (k.evalF - m.D + pk.triple.A) intModulus,
    fmod (k.evalG - m.E + pk.triple.B) intModulus, pk.triple.A, pk.triple.B, pk.triple.C⟩, ⟨rfl, rfl, hvalid, ?_⟩, ?_⟩
  · rw [hview _ rfl rfl hvalid]
    dsimp only
    rw [hk, Option.map_some, (solve (fmod_canon _) hv.c.1).mpr rfl, (solve (fmod_canon _) hv.c.2).mpr rfl]
  · rintro ⟨rf0, rg0, rh, rf0s, rg0s, rh0s, rmul, rA, rB, rAs, rBs, rCs⟩ ⟨h1, h2, h3, h4⟩
    dsimp only at h1 h2
    subst h1 h2
    rw [hview _ rfl rfl h3, Option.map_eq_some_iff] at h4
    obtain ⟨k', hk', he⟩ := h4
    obtain ⟨pm, pf, pg, ph0, ph, pA, pB, pC⟩ := pk
    obtain ⟨D, E⟩ := m
    simp only [Prod.mk.injEq, Packet.mk.injEq, Triple.mk.injEq, CorShare.mk.injEq] at he
    obtain ⟨⟨rfl, rfl, rfl, rfl, rfl, rfl, rfl, rfl⟩, hD, hE⟩ := he
    dsimp only at hk hk'
    rw [hk] at hk'; cases hk'
    rw [solve h3.t.1 hv.c.1] at hD
    rw [solve h3.t.2.1 hv.c.2] at hE
    dsimp only at hD hE
    simp only [hD, hE]

/-- Server 1's view, likewise. -/
theorem C32_view1 {c : Circuit} (wf : c.WF) {inps w i0 : List ℤ} {b : Bool} (hev : c.eval intModulus inps = some (w, b))
    (hl0 : i0.length = inps.length) {t : RootTables} {l : List ℕ} (hrc : RootCalls (npow2 c.mulGates.length :: l) t)
    {x : ℤ} (hx : Canon x intModulus) {pre : CheckerPre} (hpre : checkerPre intModulus t (npow2 c.mulGates.length) x = some pre)
    (f0 g0 : ℤ) {pk : Packet} {m : CorShare} (hv : ValidView intModulus c pk m) :
    ∃! r : SnipRand, r.f0 = f0 ∧ r.g0 = g0 ∧ ValidRand intModulus c r ∧ view1 intModulus c w t pre i0 r = some (pk, m) := by
  have ht := (C02_tables_after_any_history _ _ hrc).1 _ _ rfl
  have hNpos : 0 < npow2 c.mulGates.length := lt_of_le_of_lt (Nat.zero_le _) (npow2_gt _)
  obtain ⟨pre', hpre', hpok⟩ := checkerPre_ok hNpos ht hx
  rw [hpre] at hpre'; cases hpre'
  rw [Circuit.eval, Option.bind_eq_some_iff] at hev
  obtain ⟨w', hw, hz⟩ := hev
  rw [Option.map_eq_some_iff] at hz
  obtain ⟨zs, -, hz2⟩ := hz
  cases hz2
  have hin := nIn_le_of_eval hw
  obtain ⟨hvl, hlen, hform, -⟩ := client_form intModulus_two_ne wf (evalGates_all hw).1 ht f0 g0
  set ws := c.mulGates.map (at0 w) with hws
  have hwsl : ws.length = c.mulGates.length := by rw [hws, List.length_map]
  let base : List ℤ → List ℤ → ℤ → ℤ → ℤ → Packet := fun mul h f g h0 => ⟨mul, f, g, h0, h, ⟨0, 0, 0⟩⟩
  have hview : ∀ r : SnipRand, r.f0 = f0 → r.g0 = g0 → ValidRand intModulus c r → view1 intModulus c w t pre i0 r =
      (checkerInit intModulus false c (base r.mul r.h r.f0s r.g0s r.h0s) pre i0).map fun k =>
        (⟨subAll intModulus r.mul ws, fmod (f0 - r.f0s) intModulus, fmod (g0 - r.g0s) intModulus,
          fmod (fmod (f0 * g0) intModulus - r.h0s) intModulus, subAll intModulus r.h hvl,
          ⟨fmod (r.A - r.As) intModulus, fmod (r.B - r.Bs) intModulus, fmod (fmod (r.A * r.B) intModulus - r.Cs) intModulus⟩⟩,
          ⟨fmod (k.evalF - r.As) intModulus, fmod (k.evalG - r.Bs) intModulus⟩) := by
    intro r h1 h2 h3
    rw [view1, hform r h1 h2, Option.bind_some, splitAll_eq (by rw [h3.lm, hwsl]), splitAll_eq (by rw [h3.lh, hlen]),
      checkerInit_triple _ _ _ _ _ _ ⟨0, 0, 0⟩, Option.map_map]
    rfl
  -- the draws recovered from the view
  set mul := subAll intModulus pk.mulShares ws with hmul
  set hs := subAll intModulus pk.hPoints hvl with hhs
  have lmul : mul.length = c.mulGates.length := by rw [hmul, subAll_length _ (by rw [hv.lm, hwsl]), hwsl]
  have lhs : hs.length = npow2 c.mulGates.length := by rw [hhs, subAll_length _ (by rw [hv.lh, hlen]), hlen]
  obtain ⟨k, hk⟩ := checker_exists wf hpok false (pk := base mul hs (fmod (f0 - pk.f0) intModulus) (fmod (g0 - pk.g0) intModulus)
    (fmod (fmod (f0 * g0) intModulus - pk.h0) intModulus)) (i := i0) (by omega) lmul lhs
  have addInv : ∀ {a s d : ℤ}, Canon a intModulus → Canon d intModulus → (fmod (a - s) intModulus = d ↔ a = fmod (d + s) intModulus) := by
    intro a s d ha hd
    constructor
    · rintro rfl
      apply canon_eq_of_cast ha (fmod_canon _)
      simp
    · rintro rfl
      apply canon_eq_of_cast (fmod_canon _) hd
      simp
  set As := fmod (k.evalF - m.D) intModulus with hAs
  set Bs := fmod (k.evalG - m.E) intModulus with hBs
  set A := fmod (pk.triple.A + As) intModulus with hA
  set B := fmod (pk.triple.B + Bs) intModulus with hB
  set Cs := fmod (fmod (A * B) intModulus - pk.triple.C) intModulus with hCs
  have hvalid : ValidRand intModulus c ⟨f0, g0, hs, fmod (f0 - pk.f0) intModulus, fmod (g0 - pk.g0) intModulus,
      fmod (fmod (f0 * g0) intModulus - pk.h0) intModulus, mul, A, B, As, Bs, Cs⟩ :=
    ⟨lhs, lmul, subAll_canon _ _, subAll_canon _ _, ⟨fmod_canon _, fmod_canon _, fmod_canon _⟩, fmod_canon _, fmod_canon _,
      fmod_canon _, fmod_canon _, fmod_canon _⟩
  refine ⟨_, ⟨rfl, rfl, hvalid, ?_⟩, ?_⟩
  · rw [hview _ rfl rfl hvalid]
    dsimp only
    rw [hk, Option.map_some]
    rw [(subAll_inv mul pk.mulShares ws (by omega) (by rw [hv.lm, hwsl]) (subAll_canon _ _) hv.m).mpr rfl,
      (subAll_inv hs pk.hPoints hvl (by omega) (by rw [hv.lh, hlen]) (subAll_canon _ _) hv.h).mpr rfl,
      (fmod_sub_inv (fmod_canon _) hv.s.1).mpr rfl, (fmod_sub_inv (fmod_canon _) hv.s.2.1).mpr rfl,
      (fmod_sub_inv (fmod_canon _) hv.s.2.2).mpr rfl, (addInv (fmod_canon _) hv.t.1).mpr hA, (addInv (fmod_canon _) hv.t.2.1).mpr hB,
      (fmod_sub_inv (fmod_canon _) hv.t.2.2).mpr hCs, (fmod_sub_inv (fmod_canon _) hv.c.1).mpr hAs,
      (fmod_sub_inv (fmod_canon _) hv.c.2).mpr hBs]
  · rintro ⟨rf0, rg0, rh, rf0s, rg0s, rh0s, rmul, rA, rB, rAs, rBs, rCs⟩ ⟨h1, h2, h3, h4⟩
    dsimp only at h1 h2
    subst h1 h2
    rw [hview _ rfl rfl h3, Option.map_eq_some_iff] at h4
    obtain ⟨k', hk', he⟩ := h4
    obtain ⟨lh, lm, vh, vm, ⟨s1, s2, s3⟩, t1, t2, t3, t4, t5⟩ := h3
    dsimp only at lh lm vh vm s1 s2 s3 t1 t2 t3 t4 t5 he hk'
    rw [Prod.mk.injEq] at he
    obtain ⟨hp, hm⟩ := he
    have q1 := (subAll_inv rmul pk.mulShares ws (by omega) (by rw [hv.lm, hwsl]) vm hv.m).mp (congrArg Packet.mulShares hp)
    have q2 := (fmod_sub_inv s1 hv.s.1).mp (congrArg Packet.f0 hp)
    have q3 := (fmod_sub_inv s2 hv.s.2.1).mp (congrArg Packet.g0 hp)
    have q4 := (fmod_sub_inv s3 hv.s.2.2).mp (congrArg Packet.h0 hp)
    have q5 := (subAll_inv rh pk.hPoints hvl (by omega) (by rw [hv.lh, hlen]) vh hv.h).mp (congrArg Packet.hPoints hp)
    rw [← hmul] at q1
    rw [← hhs] at q5
    rw [q1, q2, q3, q4, q5, hk] at hk'
    cases hk'
    have a1 := (fmod_sub_inv t3 hv.c.1).mp (congrArg CorShare.D hm)
    have a2 := (fmod_sub_inv t4 hv.c.2).mp (congrArg CorShare.E hm)
    rw [← hAs] at a1
    rw [← hBs] at a2
    have a3 := (addInv t1 hv.t.1).mp (congrArg (fun q => q.triple.A) hp)
    have a4 := (addInv t2 hv.t.2.1).mp (congrArg (fun q => q.triple.B) hp)
    rw [a1, ← hA] at a3
    rw [a2, ← hB] at a4
    have a5 := (fmod_sub_inv t5 hv.t.2.2).mp (congrArg (fun q => q.triple.C) hp)
    rw [a3, a4, ← hCs] at a5
    rw [q1, q2, q3, q4, q5, a1, a2, a3, a4, a5]

/-- One accepted honest validation, up to and including the final shares. -/
structure HonestRun (c : Circuit) (t : RootTables) (x : ℤ) (cs : List ℤ) (inps i0 i1 : List ℤ) (r : SnipRand) (pk0 pk1 : Packet)
    (k0 k1 : Checker) (o0 o1 : ℤ) : Prop where
  eval : ∃ w pre, c.eval intModulus inps = some (w, true) ∧ sharePolynomials intModulus c w t r = some (pk0, pk1) ∧
    checkerPre intModulus t (npow2 c.mulGates.length) x = some pre ∧
    checkerInit intModulus false c pk0 pre i0 = some k0 ∧ checkerInit intModulus true c pk1 pre i1 = some k1
  len : i0.length = inps.length ∧ i1.length = inps.length
  sum : ∀ k < inps.length, (at0 i0 k + at0 i1 k : ZMod intModulus) = at0 inps k
  rand : ValidRand intModulus c r
  out0 : k0.outShare intModulus (Cor.ofShares intModulus (k0.corShare intModulus) (k1.corShare intModulus)) cs = some o0
  out1 : k1.outShare intModulus (Cor.ofShares intModulus (k1.corShare intModulus) (k0.corShare intModulus)) cs = some o1

theorem HonestRun.opposite {c : Circuit} (wf : c.WF) {t : RootTables} {l : List ℕ} (hrc : RootCalls (npow2 c.mulGates.length :: l) t)
    {x : ℤ} (hx : Canon x intModulus) {cs : List ℤ} (hcs : c.resultZero.length + 1 ≤ cs.length) {inps i0 i1 : List ℤ} {r : SnipRand}
    {pk0 pk1 : Packet} {k0 k1 : Checker} {o0 o1 : ℤ} (h : HonestRun c t x cs inps i0 i1 r pk0 pk1 k0 k1 o0 o1) :
    o1 = fmod (-o0) intModulus ∧ o0 = fmod (-o1) intModulus := by
  obtain ⟨⟨w, pre, e1, e2, e3, e4, e5⟩, hl, hs, hr, q0, q1⟩ := h
  obtain ⟨a, b, pre', k0', k1', o0', o1', f1, f2, f3, f4, f5, f6, f7, -⟩ := C30_accept wf e1 hl.1 hl.2 hs hrc hrc hr.lh hr.lm hx hcs
  rw [e2] at f1; cases f1
  rw [e3] at f2; cases f2
  rw [e4] at f3; cases f3
  rw [e5] at f4; cases f4
  rw [q0] at f5; cases f5
  rw [q1] at f6; cases f6
  have canon : ∀ {k : Checker} {cor o}, k.outShare intModulus cor cs = some o → Canon o intModulus := by
    intro k cor o h
    rw [Checker.outShare, Option.map_eq_some_iff] at h
    obtain ⟨_, _, rfl⟩ := h
    exact fmod_canon _
  rw [addToZero, decide_eq_true_eq, fmod_eq_zero_iff, Int.cast_add] at f7
  constructor
  · refine canon_eq_of_cast (canon q1) (fmod_canon _) ?_
    rw [fmod_cast, Int.cast_neg]; exact eq_neg_of_add_eq_zero_right f7
  · refine canon_eq_of_cast (canon q0) (fmod_canon _) ?_
    rw [fmod_cast, Int.cast_neg]; exact eq_neg_of_add_eq_zero_left f7

/-- The last message adds nothing: in two accepted honest validations, of any inputs, in which server 0 holds the same input
share and sees the same packet and the same `CorShare`, the final share it receives is the same. -/
theorem C32_final0 {c : Circuit} (wf : c.WF) {t : RootTables} {l : List ℕ} (hrc : RootCalls (npow2 c.mulGates.length :: l) t)
    {x : ℤ} (hx : Canon x intModulus) {cs : List ℤ} (hcs : c.resultZero.length + 1 ≤ cs.length) {inps inps' i0 i1 i1' : List ℤ}
    {r r' : SnipRand} {pk0 pk1 pk1' : Packet} {k0 k0' k1 k1' : Checker} {o0 o0' o1 o1' : ℤ}
    (h : HonestRun c t x cs inps i0 i1 r pk0 pk1 k0 k1 o0 o1) (h' : HonestRun c t x cs inps' i0 i1' r' pk0 pk1' k0' k1' o0' o1')
    (hc : k1.corShare intModulus = k1'.corShare intModulus) : o1 = o1' := by
  have a := (h.opposite wf hrc hx hcs).1
  have b := (h'.opposite wf hrc hx hcs).1
  obtain ⟨⟨w, pre, e1, e2, e3, e4, e5⟩, hl, hs, hr, q0, q1⟩ := h
  obtain ⟨⟨w', pre', f1, f2, f3, f4, f5⟩, hl', hs', hr', p0, p1⟩ := h'
  rw [e3] at f3; cases f3
  rw [e4] at f4; cases f4
  rw [hc, p0] at q0; cases q0
  rw [a, b]

/-- The same for server 1. -/
theorem C32_final1 {c : Circuit} (wf : c.WF) {t : RootTables} {l : List ℕ} (hrc : RootCalls (npow2 c.mulGates.length :: l) t)
    {x : ℤ} (hx : Canon x intModulus) {cs : List ℤ} (hcs : c.resultZero.length + 1 ≤ cs.length) {inps inps' i0 i0' i1 : List ℤ}
    {r r' : SnipRand} {pk0 pk0' pk1 : Packet} {k0 k0' k1 k1' : Checker} {o0 o0' o1 o1' : ℤ}
    (h : HonestRun c t x cs inps i0 i1 r pk0 pk1 k0 k1 o0 o1) (h' : HonestRun c t x cs inps' i0' i1 r' pk0' pk1 k0' k1' o0' o1')
    (hc : k0.corShare intModulus = k0'.corShare intModulus) : o0 = o0' := by
  have a := (h.opposite wf hrc hx hcs).2
  have b := (h'.opposite wf hrc hx hcs).2
  obtain ⟨⟨w, pre, e1, e2, e3, e4, e5⟩, hl, hs, hr, q0, q1⟩ := h
  obtain ⟨⟨w', pre', f1, f2, f3, f4, f5⟩, hl', hs', hr', p0, p1⟩ := h'
  rw [e3] at f3; cases f3
  rw [e5] at f5; cases f5
  rw [hc, p1] at q1; cases q1
  rw [a, b]

/-- A view of the right sizes for the variance circuit. -/
example : ∃ c, checkVar intModulus = some c ∧ ValidView intModulus c ⟨[7], 1, 2, 3, [4, 5], ⟨6, 7, 8⟩⟩ ⟨9, 10⟩ ∧
    ValidRand intModulus c ⟨1, 2, [3, 4], 5, 6, 7, [8], 9, 10, 11, 12, 13⟩ := by
  refine ⟨_, rfl, ⟨rfl, rfl, ?_, ?_, ?_, ?_, ?_⟩, ⟨rfl, rfl, ?_, ?_, ?_, ?_⟩⟩ <;>
    simp only [List.mem_cons, List.not_mem_nil, or_false, forall_eq_or_imp, forall_eq, Canon, IsDraw] <;> decide

end Verif
