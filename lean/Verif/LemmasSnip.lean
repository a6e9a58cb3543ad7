import Verif.ModelSnip
import Verif.PropsCircuit
import Verif.PropsFft
import Verif.PropsPoly

/-! Lemmas for the validation protocol (C30–C32). -/

namespace Verif

open Polynomial

/-! ### Multiplication gates -/

/-- Position of the `i`-th multiplication gate. -/
def Circuit.mg (c : Circuit) (i : ℕ) : ℕ := c.mulGates.getD i 0
/-- Left parent of gate `k`, if it is a multiplication. -/
def Circuit.parL (c : Circuit) (k : ℕ) : ℕ := match c.gates[k]? with | some (.mul l _) => l | _ => 0
/-- Right parent. -/
def Circuit.parR (c : Circuit) (k : ℕ) : ℕ := match c.gates[k]? with | some (.mul _ r) => r | _ => 0

theorem mulTriples_spec {c : Circuit} (wf : c.WF) {w : List ℤ} (hl : w.length = c.gates.length) :
    mulTriples c.gates w c.mulGates = some (c.mulGates.map fun k => (at0 w (c.parL k), at0 w (c.parR k), at0 w k)) := by
  have : ∀ is : List ℕ, (∀ i ∈ is, i ∈ c.mulGates) →
      mulTriples c.gates w is = some (is.map fun k => (at0 w (c.parL k), at0 w (c.parR k), at0 w k)) := by
    intro is
    induction is with
    | nil => intro _; rfl
    | cons k is ih =>
      intro h
      obtain ⟨l, r, hg, h1, h2, h3⟩ := wf.mul_getElem (h k (by simp))
      rw [mulTriples, hg]
      simp only [at0_get (show l < w.length by omega), at0_get (show r < w.length by omega), at0_get (show k < w.length by omega),
        Option.bind_some, ih fun i hi => h i (by simp [hi]), Option.map_some, List.map_cons, Circuit.parL, Circuit.parR, hg]
  exact this _ fun _ h => h

/-! ### Point lists -/

/-- Points of `f` and `g`. -/
def fPts {F : Type*} [Zero F] (n : ℕ) (f0 : F) (u : ℕ → F) (i : ℕ) : F := if i = 0 then f0 else if i - 1 < n then u (i - 1) else 0

/-- Points of `h`. -/
def hPts {F : Type*} [Zero F] (n N : ℕ) (h0 : F) (o hs : ℕ → F) (i : ℕ) : F :=
  if i = 0 then h0 else if i % 2 = 0 then (if i / 2 - 1 < n then o (i / 2 - 1) else 0) else if i / 2 < N then hs (i / 2) else 0

theorem fPts_list (p n m : ℕ) (f0 : ℤ) (us : List ℤ) (hl : us.length = n) (i : ℕ) :
    nodeF p (f0 :: us ++ List.replicate m 0) i = fPts n (f0 : ZMod p) (nodeF p us) i := by
  unfold nodeF fPts
  cases i with
  | zero => simp
  | succ i =>
    simp only [List.cons_append, List.getD_cons_succ, Nat.add_one_ne_zero, if_false, Nat.add_sub_cancel]
    split
    · rename_i h
      rw [List.getD_append _ _ _ _ (by omega)]
    · rename_i h
      rw [List.getD_append_right _ _ _ _ (by omega)]
      rcases Nat.lt_or_ge (i - us.length) m with h2 | h2
      · rw [List.getD_replicate _ h2, Int.cast_zero]
      · rw [List.getD_eq_default _ _ (by simpa using h2), Int.cast_zero]

theorem hPts_list (p n N : ℕ) (h0 : ℤ) (os hs : List ℤ) (i : ℕ) (hi : i < 2 * (N + 1)) :
    nodeF p (pointsH n N h0 os hs) i = hPts n N (h0 : ZMod p) (nodeF p os) (nodeF p hs) i := by
  unfold nodeF hPts pointsH
  rw [List.getD_eq_getElem?_getD, List.getElem?_map, List.getElem?_range hi]
  simp only [Option.map_some, Option.getD_some]
  split_ifs <;> first | rfl | simp

theorem npow2_gt (n : ℕ) : n < npow2 n := Nat.lt_size_self n

/-! ### Precomputation -/

/-- What the precomputed point delivers. -/
structure PreOk (p N : ℕ) [Fact p.Prime] (W V : ℕ → ZMod p) (x : ℤ) (pre : CheckerPre) : Prop where
  hx : pre.x = x
  evN : ∀ ys : List ℤ, N ≤ ys.length → ∃ out, preXEval p pre.xN ys = some out ∧
    (out : ZMod p) = (Lagrange.interpolate (Finset.range N) W (nodeF p ys)).eval (x : ZMod p)
  ev2N : ∀ ys : List ℤ, 2 * N ≤ ys.length → ∃ out, preXEval p pre.x2N ys = some out ∧
    (out : ZMod p) = (Lagrange.interpolate (Finset.range (2 * N)) V (nodeF p ys)).eval (x : ZMod p)

/-- Nodes with the structure of roots of unity. -/
structure NodesOk (p N : ℕ) (W V : ℕ → ZMod p) : Prop where
  injW : Set.InjOn W (Finset.range N)
  injV : Set.InjOn V (Finset.range (2 * N))
  even : ∀ i < N, V (2 * i) = W i

theorem tables_nodes {p N : ℕ} (hN : 0 < N) {t : RootTables} (h : TablesOK p N t) :
    GoodNodes p t.roots ∧ GoodNodes p t.roots2 ∧ NodesOk p N (nodeF p t.roots) (nodeF p t.roots2) := by
  have g1 : GoodNodes p t.roots := ⟨by rw [← List.length_pos_iff, h.len]; exact hN, h.nodup, fun x hx => h.canon x (by simp [hx])⟩
  have g2 : GoodNodes p t.roots2 := ⟨by rw [← List.length_pos_iff, h.len2]; omega, h.nodup2, fun x hx => h.canon x (by simp [hx])⟩
  refine ⟨g1, g2, ⟨by have := g1.inj; rwa [h.len] at this, by have := g2.inj; rwa [h.len2] at this, fun i hi => ?_⟩⟩
  have := h.even i hi
  unfold nodeF
  rw [List.getD_eq_getElem?_getD, List.getElem?_eq_getElem (by rw [h.len2]; omega), List.getD_eq_getElem?_getD,
    List.getElem?_eq_getElem (by rw [h.len]; omega), Option.getD_some, Option.getD_some, this]

theorem checkerPre_ok {p N : ℕ} [Fact p.Prime] (hN : 0 < N) {t : RootTables} (h : TablesOK p N t) {x : ℤ} (hx : Canon x p) :
    ∃ pre, checkerPre p t N x = some pre ∧ PreOk p N (nodeF p t.roots) (nodeF p t.roots2) x pre := by
  obtain ⟨g1, g2, -⟩ := tables_nodes hN h
  obtain ⟨b1, x1, e1, i1, s1⟩ := preX_spec g1 hx
  obtain ⟨b2, x2, e2, i2, s2⟩ := preX_spec g2 hx
  rw [h.len] at s1
  rw [h.len2] at s2
  refine ⟨⟨x, b1, b2, x1, x2⟩, ?_, rfl, s1, s2⟩
  rw [checkerPre, List.take_of_length_le h.len.le, List.take_of_length_le h.len2.le, e1, e2]
  simp only [Option.bind_some, setCheckerPrecomp, i1, i2, Option.map_some]

theorem interpolate_congr {F : Type*} [Field F] {n : ℕ} {W r r' : ℕ → F} (h : ∀ i < n, r i = r' i) :
    Lagrange.interpolate (Finset.range n) W r = Lagrange.interpolate (Finset.range n) W r' := by
  rw [Lagrange.interpolate_apply, Lagrange.interpolate_apply]
  exact Finset.sum_congr rfl fun i hi => by rw [h i (Finset.mem_range.mp hi)]

theorem interpolate_add {F : Type*} [Field F] {n : ℕ} {W r r' r'' : ℕ → F} (h : ∀ i < n, r i + r' i = r'' i) :
    Lagrange.interpolate (Finset.range n) W r + Lagrange.interpolate (Finset.range n) W r' =
      Lagrange.interpolate (Finset.range n) W r'' := by
  rw [← map_add]
  exact interpolate_congr h

/-! ### One checker -/

/-- Polynomial through the points of `f`. -/
noncomputable def polyFG {F : Type*} [Field F] (n N : ℕ) (W : ℕ → F) (f0 : F) (u : ℕ → F) : F[X] :=
  Lagrange.interpolate (Finset.range N) W (fPts n f0 u)
/-- Polynomial through the points of `h`. -/
noncomputable def polyH {F : Type*} [Field F] (n N : ℕ) (V : ℕ → F) (h0 : F) (o hs : ℕ → F) : F[X] :=
  Lagrange.interpolate (Finset.range (2 * N)) V (hPts n N h0 o hs)

theorem checker_spec {p : ℕ} [Fact p.Prime] {c : Circuit} (wf : c.WF) {W V : ℕ → ZMod p} {x : ℤ} {pre : CheckerPre}
    (hp : PreOk p (npow2 c.mulGates.length) W V x pre) {sv : Bool} {pk : Packet} {inps w : List ℤ}
    (hw : c.importWires p sv inps pk.mulShares = some w) (hh : npow2 c.mulGates.length ≤ pk.hPoints.length) :
    ∃ k, checkerInit p sv c pk pre inps = some k ∧ k.sv = sv ∧ k.triple = pk.triple ∧ k.zeros = c.resultZero.map (at0 w) ∧
      (k.evalF : ZMod p) = (polyFG c.mulGates.length (npow2 c.mulGates.length) W pk.f0
        fun i => wireF p w (c.parL (c.mg i))).eval (x : ZMod p) ∧
      (k.evalG : ZMod p) = (polyFG c.mulGates.length (npow2 c.mulGates.length) W pk.g0
        fun i => wireF p w (c.parR (c.mg i))).eval (x : ZMod p) * x ∧
      (k.evalH : ZMod p) = (polyH c.mulGates.length (npow2 c.mulGates.length) V pk.h0
        (fun i => wireF p w (c.mg i)) (nodeF p pk.hPoints)).eval (x : ZMod p) * x := by
  have hl : w.length = c.gates.length := (importGates_all hw).1
  have hn := npow2_gt c.mulGates.length
  set n := c.mulGates.length with hnd
  set N := npow2 n with hNd
  have hget : ∀ (f : ℕ → ℤ) (i : ℕ), i < n → nodeF p (c.mulGates.map f) i = (f (c.mg i) : ZMod p) := by
    intro f i hi
    simp only [nodeF, Circuit.mg, List.getD_eq_getElem?_getD, List.getElem?_map, List.getElem?_eq_getElem hi,
      Option.map_some, Option.getD_some]
  have hpts : ∀ (f0 : ℤ) (f : ℕ → ℤ), ∀ i < N, nodeF p (f0 :: c.mulGates.map f ++ List.replicate (N - n) 0) i =
      fPts n (f0 : ZMod p) (fun i => (f (c.mg i) : ZMod p)) i := by
    intro f0 f i _
    rw [fPts_list p n _ _ _ (by simp [hnd])]
    unfold fPts
    split_ifs with h1 h2
    · rfl
    · exact hget f _ h2
    · rfl
  have htr := mulTriples_spec wf hl
  obtain ⟨ef, hf1, hf2⟩ := hp.evN (pk.f0 :: c.mulGates.map (fun k => at0 w (c.parL k)) ++ List.replicate (N - n) 0) (by
    simp [← hnd]; omega)
  obtain ⟨eg, hg1, hg2⟩ := hp.evN (pk.g0 :: c.mulGates.map (fun k => at0 w (c.parR k)) ++ List.replicate (N - n) 0) (by
    simp [← hnd]; omega)
  obtain ⟨eh, hh1, hh2⟩ := hp.ev2N (pointsH n N pk.h0 (c.mulGates.map (at0 w)) pk.hPoints) (by
    simp [pointsH])
  rw [interpolate_congr (hpts pk.f0 fun k => at0 w (c.parL k))] at hf2
  rw [interpolate_congr (hpts pk.g0 fun k => at0 w (c.parR k))] at hg2
  have hhp : ∀ i < 2 * N, nodeF p (pointsH n N pk.h0 (c.mulGates.map (at0 w)) pk.hPoints) i =
      hPts n N (pk.h0 : ZMod p) (fun i => wireF p w (c.mg i)) (nodeF p pk.hPoints) i := by
    intro i hi
    rw [hPts_list p n N _ _ _ i (by omega)]
    unfold hPts
    split_ifs with h1 h2 h3 h4
    · rfl
    · exact hget (at0 w) _ h3
    · rfl
    · rfl
    · rfl
  rw [interpolate_congr hhp] at hh2
  refine ⟨⟨sv, ef, fmod (eg * pre.x) p, fmod (eh * pre.x) p, c.resultZero.map (at0 w), pk.triple⟩, ?_, rfl, rfl, rfl, hf2, ?_, ?_⟩
  · simp only [checkerInit, hw, Option.bind_some, htr]
    rw [if_neg (by rw [← hnd]; omega)]
    simp only [List.map_map]
    have e1 : List.map ((fun x : ℤ × ℤ × ℤ => x.1) ∘ fun k => (at0 w (c.parL k), at0 w (c.parR k), at0 w k)) c.mulGates =
      c.mulGates.map fun k => at0 w (c.parL k) := rfl
    have e2 : List.map ((fun x : ℤ × ℤ × ℤ => x.2.1) ∘ fun k => (at0 w (c.parL k), at0 w (c.parR k), at0 w k)) c.mulGates =
      c.mulGates.map fun k => at0 w (c.parR k) := rfl
    have e3 : List.map ((fun x : ℤ × ℤ × ℤ => x.2.2) ∘ fun k => (at0 w (c.parL k), at0 w (c.parR k), at0 w k)) c.mulGates =
      c.mulGates.map (at0 w) := rfl
    rw [e1, e2, e3]
    rw [← hnd, ← hNd, hf1, Option.bind_some, hg1, Option.bind_some, hh1, Option.bind_some,
      wiresAt_spec fun i hi => by rw [hl]; exact wf.zeros i hi]
    rfl
  · show ((fmod (eg * pre.x) p : ℤ) : ZMod p) = _
    rw [fmod_cast, Int.cast_mul, hg2, hp.hx]; rfl
  · show ((fmod (eh * pre.x) p : ℤ) : ZMod p) = _
    rw [fmod_cast, Int.cast_mul, hh2, hp.hx]; rfl

/-! ### The combined check -/

theorem randSumLoop_spec {p : ℕ} : ∀ (arr cs : List ℤ) (out : ℤ), arr.length ≤ cs.length →
    ∃ r, randSumLoop p out arr cs = some r ∧ (r : ZMod p) = out + ∑ i ∈ Finset.range arr.length, nodeF p cs i * nodeF p arr i
  | [], cs, out, _ => ⟨out, by simp [randSumLoop], by simp⟩
  | a :: arr, [], out, h => by simp at h
  | a :: arr, c :: cs, out, h => by
    obtain ⟨r, e, hr⟩ := randSumLoop_spec arr cs (out + fmod (c * a) p) (by simpa using h)
    refine ⟨r, by rw [randSumLoop, e], ?_⟩
    rw [hr, List.length_cons, Finset.sum_range_succ']
    simp only [nodeF, List.getD_cons_succ, List.getD_cons_zero]
    push_cast [fmod_cast]; ring

theorem ofShares_comm (p : ℕ) (a b : CorShare) : Cor.ofShares p a b = Cor.ofShares p b a := by
  simp only [Cor.ofShares, add_comm]

theorem mulCheck_cast {p : ℕ} (k : Checker) (cor : Cor) : (k.mulCheck p cor : ZMod p) =
    (if k.sv then 0 else (cor.D : ZMod p) * cor.E) + cor.D * k.triple.B + cor.E * k.triple.A + k.triple.C - k.evalH := by
  unfold Checker.mulCheck
  cases k.sv <;> simp

/-- The two final shares exist and add up to the random combination of the product check and the zero wires. -/
theorem outSum {p : ℕ} [NeZero p] {k0 k1 : Checker} (h0 : k0.sv = false) (h1 : k1.sv = true) {m : ℕ} (hz0 : k0.zeros.length = m)
    (hz1 : k1.zeros.length = m) {cs : List ℤ} (hc : m + 1 ≤ cs.length) :
    ∃ o0 o1, k0.outShare p (Cor.ofShares p (k0.corShare p) (k1.corShare p)) cs = some o0 ∧
      k1.outShare p (Cor.ofShares p (k1.corShare p) (k0.corShare p)) cs = some o1 ∧ Canon o0 p ∧ Canon o1 p ∧
      (o0 + o1 : ZMod p) = nodeF p cs 0 * ((k0.evalF + k1.evalF) * (k0.evalG + k1.evalG) - (k0.evalH + k1.evalH) +
          ((k0.triple.C + k1.triple.C) - (k0.triple.A + k1.triple.A) * (k0.triple.B + k1.triple.B))) +
        ∑ i ∈ Finset.range m, nodeF p cs (i + 1) * (nodeF p k0.zeros i + nodeF p k1.zeros i) := by
  rw [ofShares_comm p (k1.corShare p)]
  set cor := Cor.ofShares p (k0.corShare p) (k1.corShare p) with hcor
  obtain ⟨r0, e0, s0⟩ := randSumLoop_spec (p := p) (k0.mulCheck p cor :: k0.zeros) cs 0 (by simp; omega)
  obtain ⟨r1, e1, s1⟩ := randSumLoop_spec (p := p) (k1.mulCheck p cor :: k1.zeros) cs 0 (by simp; omega)
  refine ⟨fmod r0 p, fmod r1 p, by rw [Checker.outShare, e0]; rfl, by rw [Checker.outShare, e1]; rfl, fmod_canon _, fmod_canon _, ?_⟩
  rw [fmod_cast, fmod_cast, s0, s1]
  rw [List.length_cons, List.length_cons, hz0, hz1, Finset.sum_range_succ', Finset.sum_range_succ']
  have c0 : ∀ (a : ℤ) (l : List ℤ) i, nodeF p (a :: l) (i + 1) = nodeF p l i := fun _ _ _ => rfl
  have c1 : ∀ (a : ℤ) (l : List ℤ), nodeF p (a :: l) 0 = (a : ZMod p) := fun _ _ => rfl
  simp only [c0, c1]
  rw [mulCheck_cast, mulCheck_cast, h0, h1]
  have hD : (cor.D : ZMod p) = (k0.evalF - k0.triple.A) + (k1.evalF - k1.triple.A) := by
    simp [hcor, Cor.ofShares, Checker.corShare]
  have hE : (cor.E : ZMod p) = (k0.evalG - k0.triple.B) + (k1.evalG - k1.triple.B) := by
    simp [hcor, Cor.ofShares, Checker.corShare]
  rw [hD, hE]
  have hs : ∑ i ∈ Finset.range m, nodeF p cs (i + 1) * (nodeF p k0.zeros i + nodeF p k1.zeros i) =
      ∑ i ∈ Finset.range m, nodeF p cs (i + 1) * nodeF p k0.zeros i + ∑ i ∈ Finset.range m, nodeF p cs (i + 1) * nodeF p k1.zeros i := by
    rw [← Finset.sum_add_distrib]; exact Finset.sum_congr rfl fun i _ => by ring
  rw [hs]
  simp only [if_true, Bool.false_eq_true, if_false, Int.cast_zero]
  ring

/-! ### Polynomials -/

theorem polyFG_degree {F : Type*} [Field F] {n N : ℕ} {W : ℕ → F} (h : Set.InjOn W (Finset.range N)) (f0 : F) (u : ℕ → F) :
    (polyFG n N W f0 u).degree < N := by
  have := Lagrange.degree_interpolate_lt (s := Finset.range N) (v := W) (fPts n f0 u) h
  rwa [Finset.card_range] at this

theorem polyH_degree {F : Type*} [Field F] {n N : ℕ} {V : ℕ → F} (h : Set.InjOn V (Finset.range (2 * N))) (h0 : F) (o hs : ℕ → F) :
    (polyH n N V h0 o hs).degree < (2 * N : ℕ) := by
  have := Lagrange.degree_interpolate_lt (s := Finset.range (2 * N)) (v := V) (hPts n N h0 o hs) h
  rwa [Finset.card_range] at this

theorem degree_mul_lt_two {F : Type*} [Field F] {f g : F[X]} {N : ℕ} (hf : f.degree < N) (hg : g.degree < N) :
    (f * g).degree < (2 * N : ℕ) := by
  rcases eq_or_ne f 0 with rfl | hf0
  · simp only [zero_mul, degree_zero]; exact WithBot.bot_lt_coe _
  rcases eq_or_ne g 0 with rfl | hg0
  · simp only [mul_zero, degree_zero]; exact WithBot.bot_lt_coe _
  rw [degree_mul, degree_eq_natDegree hf0, degree_eq_natDegree hg0] at *
  have h1 : f.natDegree < N := by exact_mod_cast hf
  have h2 : g.natDegree < N := by exact_mod_cast hg
  have : f.natDegree + g.natDegree < 2 * N := by omega
  exact_mod_cast this

/-- `h = f·g` as polynomials iff the points match. -/
theorem polyH_eq_iff {p N n : ℕ} [Fact p.Prime] {W V : ℕ → ZMod p} (hn : NodesOk p N W V) (hnN : n < N) (f0 g0 h0 : ZMod p)
    (u v o hs : ℕ → ZMod p) :
    polyH n N V h0 o hs = polyFG n N W f0 u * polyFG n N W g0 v ↔
      h0 = f0 * g0 ∧ (∀ i < n, o i = u i * v i) ∧
        ∀ j < N, hs j = (polyFG n N W f0 u).eval (V (2 * j + 1)) * (polyFG n N W g0 v).eval (V (2 * j + 1)) := by
  have evF : ∀ (a : ZMod p) (z : ℕ → ZMod p), ∀ i < N, (polyFG n N W a z).eval (V (2 * i)) = fPts n a z i := by
    intro a z i hi
    rw [hn.even i hi]
    exact Lagrange.eval_interpolate_at_node _ hn.injW (Finset.mem_range.mpr hi)
  have evH : ∀ i < 2 * N, (polyH n N V h0 o hs).eval (V i) = hPts n N h0 o hs i := fun i hi =>
    Lagrange.eval_interpolate_at_node _ hn.injV (Finset.mem_range.mpr hi)
  constructor
  · intro h
    have key : ∀ i < 2 * N, hPts n N h0 o hs i = (polyFG n N W f0 u).eval (V i) * (polyFG n N W g0 v).eval (V i) := by
      intro i hi; rw [← evH i hi, h, eval_mul]
    refine ⟨?_, ?_, ?_⟩
    · have := key 0 (by omega)
      rw [show (0 : ℕ) = 2 * 0 from rfl, evF _ _ 0 (by omega), evF _ _ 0 (by omega)] at this
      simpa [hPts, fPts] using this
    · intro i hi
      have := key (2 * (i + 1)) (by omega)
      rw [evF _ _ _ (by omega), evF _ _ _ (by omega)] at this
      simp only [hPts, fPts] at this
      rw [if_neg (by omega), if_pos (by omega), show 2 * (i + 1) / 2 - 1 = i by omega, if_pos hi, if_neg (by omega),
        show i + 1 - 1 = i by omega, if_pos hi, if_neg (by omega), if_pos hi] at this
      exact this
    · intro j hj
      have := key (2 * j + 1) (by omega)
      simp only [hPts] at this
      rw [if_neg (by omega), if_neg (by omega), show (2 * j + 1) / 2 = j by omega, if_pos hj] at this
      exact this
  · rintro ⟨h1, h2, h3⟩
    refine (Lagrange.eq_interpolate_of_eval_eq (s := Finset.range (2 * N)) (v := V) (r := hPts n N h0 o hs) hn.injV ?_ ?_).symm
    · rw [Finset.card_range]
      exact degree_mul_lt_two (polyFG_degree hn.injW _ _) (polyFG_degree hn.injW _ _)
    · intro i hi
      have hi := Finset.mem_range.mp hi
      rw [eval_mul]
      rcases Nat.even_or_odd' i with ⟨j, rfl | rfl⟩
      · rw [evF _ _ _ (by omega), evF _ _ _ (by omega)]
        simp only [hPts, fPts]
        by_cases hj : j = 0
        · subst hj; simp [h1]
        · simp only [hj, if_false, show 2 * j / 2 = j by omega, show ¬ 2 * j = 0 by omega, show 2 * j % 2 = 0 by omega, if_true]
          split_ifs with h4
          · exact (h2 _ h4).symm
          · ring
      · simp only [hPts]
        rw [if_neg (by omega), if_neg (by omega), show (2 * j + 1) / 2 = j by omega, if_pos (by omega)]
        exact (h3 j (by omega)).symm

end Verif
