import Verif.LemmasSnip
import Verif.PropsConstants
import Mathlib.LinearAlgebra.Dimension.Finrank
import Mathlib.LinearAlgebra.FiniteDimensional.Lemmas
import Mathlib.FieldTheory.Finiteness
import Mathlib.Data.Set.Card

/-! # C30, C31: completeness and soundness of the validation -/

namespace Verif

open Polynomial

/-! ### The client's packets -/

theorem polyOf_append_zeros (p : ℕ) (l : List ℤ) (m : ℕ) : polyOf p (l ++ List.replicate m 0) = polyOf p l := by
  have hz : ∀ m, polyOf p (List.replicate m 0) = 0 := by
    intro m
    induction m with
    | zero => rfl
    | succ m ih => rw [List.replicate_succ, polyOf, ih]; simp
  induction l with
  | nil => simpa [polyOf] using hz m
  | cons a l ih => rw [List.cons_append, polyOf, polyOf, ih]

/-- What the two packets of an honest client reconstruct to. -/
structure HonestPackets (p : ℕ) [Fact p.Prime] (c : Circuit) (w : List ℤ) (W V : ℕ → ZMod p) (r : SnipRand) (pk0 pk1 : Packet) : Prop where
  m0 : pk0.mulShares.length = c.mulGates.length
  m1 : pk1.mulShares.length = c.mulGates.length
  h0 : pk0.hPoints.length = npow2 c.mulGates.length
  h1 : pk1.hPoints.length = npow2 c.mulGates.length
  mul : ∀ i < c.mulGates.length, nodeF p pk0.mulShares i + nodeF p pk1.mulShares i = wireF p w (c.mg i)
  f0 : (pk0.f0 + pk1.f0 : ZMod p) = r.f0
  g0 : (pk0.g0 + pk1.g0 : ZMod p) = r.g0
  hc : (pk0.h0 + pk1.h0 : ZMod p) = r.f0 * r.g0
  hs : ∀ j < npow2 c.mulGates.length, nodeF p pk0.hPoints j + nodeF p pk1.hPoints j =
    (polyFG c.mulGates.length (npow2 c.mulGates.length) W r.f0 fun i => wireF p w (c.parL (c.mg i))).eval (V (2 * j + 1)) *
    (polyFG c.mulGates.length (npow2 c.mulGates.length) W r.g0 fun i => wireF p w (c.parR (c.mg i))).eval (V (2 * j + 1))
  tr : (pk0.triple.C + pk1.triple.C : ZMod p) = (pk0.triple.A + pk1.triple.A) * (pk0.triple.B + pk1.triple.B)

theorem splitAll_spec {p : ℕ} (rs vs : List ℤ) (h : rs.length = vs.length) :
    (splitAll p rs vs).1 = rs ∧ (splitAll p rs vs).2.length = vs.length ∧
    ∀ i < vs.length, nodeF p (splitAll p rs vs).2 i = nodeF p vs i - nodeF p rs i := by
  refine ⟨?_, by simp [splitAll, h], fun i hi => ?_⟩
  · simp only [splitAll, splitShare]
    apply List.ext_getElem
    · simp [h]
    · intro i _ _; simp
  · have hi' : i < rs.length := by omega
    simp [nodeF, splitAll, splitShare, List.getD_eq_getElem?_getD, List.getElem?_zipWith, List.getElem?_eq_getElem hi,
      List.getElem?_eq_getElem hi']

/-- Closed form of `share_polynomials`. -/
theorem client_form {p : ℕ} [Fact p.Prime] (hodd : (2 : ZMod p) ≠ 0) {c : Circuit} (wf : c.WF) {w : List ℤ}
    (hl : w.length = c.gates.length) {t : RootTables} (ht : TablesOK p (npow2 c.mulGates.length) t) (f0 g0 : ℤ) :
    ∃ hv : List ℤ, hv.length = npow2 c.mulGates.length ∧
      (∀ r : SnipRand, r.f0 = f0 → r.g0 = g0 → sharePolynomials p c w t r =
        some (⟨(splitAll p r.mul (c.mulGates.map (at0 w))).1, r.f0s, r.g0s, r.h0s, (splitAll p r.h hv).1, ⟨r.As, r.Bs, r.Cs⟩⟩,
          ⟨(splitAll p r.mul (c.mulGates.map (at0 w))).2, fmod (f0 - r.f0s) p, fmod (g0 - r.g0s) p,
            fmod (fmod (f0 * g0) p - r.h0s) p, (splitAll p r.h hv).2,
            ⟨fmod (r.A - r.As) p, fmod (r.B - r.Bs) p, fmod (fmod (r.A * r.B) p - r.Cs) p⟩⟩)) ∧
      ∀ j < npow2 c.mulGates.length, nodeF p hv j =
        (polyFG c.mulGates.length (npow2 c.mulGates.length) (nodeF p t.roots) f0
          fun i => wireF p w (c.parL (c.mg i))).eval (nodeF p t.roots2 (2 * j + 1)) *
        (polyFG c.mulGates.length (npow2 c.mulGates.length) (nodeF p t.roots) g0
          fun i => wireF p w (c.parR (c.mg i))).eval (nodeF p t.roots2 (2 * j + 1)) := by
  have hn := npow2_gt c.mulGates.length
  have hNpow : npow2 c.mulGates.length = 2 ^ c.mulGates.length.size := rfl
  obtain ⟨-, -, nodes⟩ := tables_nodes (by omega) ht
  obtain ⟨z, v, hz, hv, t1, t2, t3⟩ := ht.prim
  have len1 := ht.len
  have len2 := ht.lenInv
  have len3 := ht.len2
  set n := c.mulGates.length with hnd
  set N := npow2 n with hNd
  have roots : ∀ i < N, nodeF p t.roots i = z ^ i := by
    intro i hi
    have := t1 i hi
    unfold nodeF
    rwa [List.getD_eq_getElem?_getD, List.getElem?_eq_getElem (by omega), Option.getD_some]
  have iroots : ∀ i < N, ((t.invroots.getD i 0 : ℤ) : ZMod p) * z ^ i = 1 := by
    intro i hi
    have := t2 i hi
    rw [t1 i hi] at this
    rwa [List.getD_eq_getElem?_getD, List.getElem?_eq_getElem (by omega), Option.getD_some]
  have roots2 : ∀ i < 2 * N, ((t.roots2.getD i 0 : ℤ) : ZMod p) = v ^ i := by
    intro i hi
    have := t3 i hi
    rwa [List.getD_eq_getElem?_getD, List.getElem?_eq_getElem (by omega), Option.getD_some]
  have h2N : 2 * N = 2 ^ (n.size + 1) := by rw [hNpow, pow_succ]; ring
  -- one polynomial
  have one : ∀ (a : ℤ) (par : ℕ → ℕ), ∃ co ev : List ℤ,
      fftInterpolate p N t.invroots (a :: c.mulGates.map (fun k => at0 w (par k)) ++ List.replicate (N - 1 - n) 0) true = some co ∧
      fftInterpolate p (2 * N) t.roots2 (co ++ List.replicate N 0) false = some ev ∧
      ∀ j < 2 * N, ((ev.getD j 0 : ℤ) : ZMod p) =
        (polyFG n N (nodeF p t.roots) a fun i => wireF p w (par (c.mg i))).eval (nodeF p t.roots2 j) := by
    intro a par
    set pts := a :: c.mulGates.map (fun k => at0 w (par k)) ++ List.replicate (N - 1 - n) 0 with hpts
    have hpl : pts.length = 2 ^ n.size := by rw [← hNpow, hpts]; simp [← hnd]; omega
    rw [hNpow] at hz iroots len2
    obtain ⟨co, e1, l1, -, v1⟩ := fft_interpolate_aux hodd hz len2 iroots hpl
    have hcl : (co ++ List.replicate N 0).length = 2 ^ (n.size + 1) := by rw [List.length_append, l1, ← h2N, ← hNpow]; simp; omega
    rw [h2N] at hv roots2 len3
    obtain ⟨ev, e2, l2, v2⟩ := fft_evaluate_aux hv len3 roots2 hcl
    have hpoly : polyOf p co = polyFG n N (nodeF p t.roots) a fun i => wireF p w (par (c.mg i)) := by
      refine Lagrange.eq_interpolate_of_eval_eq (s := Finset.range N) (v := nodeF p t.roots) _ nodes.injW ?_ ?_
      · rw [Finset.card_range, hNpow, ← l1]; exact polyOf_degree p co
      · intro i hi
        have hi := Finset.mem_range.mp hi
        rw [roots i hi, v1 i (by omega)]
        have := fPts_list p n (N - 1 - n) a (c.mulGates.map fun k => at0 w (par k)) (by simp [hnd]) i
        rw [← hpts] at this
        unfold nodeF at this
        rw [this]
        unfold fPts
        split_ifs with h1 h2
        · rfl
        · simp only [Circuit.mg, wireF, List.getD_eq_getElem?_getD, List.getElem?_map, List.getElem?_eq_getElem h2,
            Option.map_some, Option.getD_some]
        · rfl
    refine ⟨co, ev, by rw [hNpow]; exact e1, by rw [h2N]; exact e2, fun j hj => ?_⟩
    rw [h2N] at hj
    rw [v2 j hj, polyOf_append_zeros, hpoly, nodeF, roots2 j hj]
  obtain ⟨cF, eF, f1, f2, f3⟩ := one f0 c.parL
  obtain ⟨cG, eG, g1, g2, g3⟩ := one g0 c.parR
  refine ⟨oddProducts p N eF eG, by simp [oddProducts], ?_, ?_⟩
  · intro r hrf hrg
    have hms : c.getMulShares p w r.mul = some (splitAll p r.mul (c.mulGates.map (at0 w))) := by
      rw [Circuit.getMulShares, wiresAt_spec fun i hi => by
        obtain ⟨_, _, _, _, _, h⟩ := wf.mul_getElem hi; omega]
      rfl
    have e1 : List.map ((fun x : ℤ × ℤ × ℤ => x.1) ∘ fun k => (at0 w (c.parL k), at0 w (c.parR k), at0 w k)) c.mulGates =
      c.mulGates.map fun k => at0 w (c.parL k) := rfl
    have e2 : List.map ((fun x : ℤ × ℤ × ℤ => x.2.1) ∘ fun k => (at0 w (c.parL k), at0 w (c.parR k), at0 w k)) c.mulGates =
      c.mulGates.map fun k => at0 w (c.parR k) := rfl
    simp only [sharePolynomials, mulTriples_spec wf hl, Option.bind_some, List.map_map]
    rw [e1, e2, hrf, hrg, ← hnd, ← hNd, f1, Option.bind_some, g1, Option.bind_some, f2, Option.bind_some, g2, Option.bind_some,
      hms, Option.bind_some]
    rfl
  · intro j hj
    rw [nodeF, oddProducts, List.getD_eq_getElem?_getD, List.getElem?_map, List.getElem?_range hj]
    simp only [Option.map_some, Option.getD_some]
    rw [fmod_cast, Int.cast_mul, f3 _ (by omega), g3 _ (by omega)]

theorem client_spec {p : ℕ} [Fact p.Prime] (hodd : (2 : ZMod p) ≠ 0) {c : Circuit} (wf : c.WF) {w : List ℤ}
    (hl : w.length = c.gates.length) {t : RootTables} (ht : TablesOK p (npow2 c.mulGates.length) t) {r : SnipRand}
    (hrh : r.h.length = npow2 c.mulGates.length) (hrm : r.mul.length = c.mulGates.length) :
    ∃ pk0 pk1, sharePolynomials p c w t r = some (pk0, pk1) ∧
      HonestPackets p c w (nodeF p t.roots) (nodeF p t.roots2) r pk0 pk1 := by
  obtain ⟨hv, hvl, hform, hval⟩ := client_form hodd wf hl ht r.f0 r.g0
  obtain ⟨a1, a2, a3⟩ := splitAll_spec (p := p) r.mul (c.mulGates.map (at0 w)) (by simpa using hrm)
  obtain ⟨b1, b2, b3⟩ := splitAll_spec (p := p) r.h hv (by omega)
  refine ⟨_, _, hform r rfl rfl, ⟨by rw [a1]; exact hrm, by simpa using a2, by rw [b1]; exact hrh, by rw [b2, hvl],
    fun i hi => ?_, by simp, by simp, by simp, fun j hj => ?_, by simp⟩⟩
  · simp only
    rw [a1, a3 i (by simpa using hi), add_sub_cancel]
    simp [nodeF, Circuit.mg, wireF, List.getD_eq_getElem?_getD, List.getElem?_eq_getElem hi]
  · simp only
    rw [b1, b3 j (by omega), add_sub_cancel, hval j hj]

/-! ### The sum of the two checkers -/

/-- Both checkers run, and the two final shares add up to a combination of `x(fg - h)(x) + (c - ab)` and of the zero wires, all
computed from the sums of the shares. -/
theorem check_sum {p : ℕ} [Fact p.Prime] {c : Circuit} (wf : c.WF) {W V : ℕ → ZMod p} {x : ℤ} {pre : CheckerPre}
    (hp : PreOk p (npow2 c.mulGates.length) W V x pre) {pk0 pk1 : Packet} {i0 i1 w0 w1 : List ℤ}
    (hw0 : c.importWires p false i0 pk0.mulShares = some w0) (hw1 : c.importWires p true i1 pk1.mulShares = some w1)
    (hh0 : pk0.hPoints.length = npow2 c.mulGates.length) (hh1 : pk1.hPoints.length = npow2 c.mulGates.length) :
    ∃ k0 k1, checkerInit p false c pk0 pre i0 = some k0 ∧ checkerInit p true c pk1 pre i1 = some k1 ∧
      ∀ cs : List ℤ, c.resultZero.length + 1 ≤ cs.length →
      ∃ o0 o1, k0.outShare p (Cor.ofShares p (k0.corShare p) (k1.corShare p)) cs = some o0 ∧
        k1.outShare p (Cor.ofShares p (k1.corShare p) (k0.corShare p)) cs = some o1 ∧ Canon o0 p ∧ Canon o1 p ∧
        (o0 + o1 : ZMod p) = nodeF p cs 0 *
          ((X * (polyFG c.mulGates.length (npow2 c.mulGates.length) W (pk0.f0 + pk1.f0 : ZMod p)
                (fun i => wireF p w0 (c.parL (c.mg i)) + wireF p w1 (c.parL (c.mg i))) *
              polyFG c.mulGates.length (npow2 c.mulGates.length) W (pk0.g0 + pk1.g0 : ZMod p)
                (fun i => wireF p w0 (c.parR (c.mg i)) + wireF p w1 (c.parR (c.mg i))) -
              polyH c.mulGates.length (npow2 c.mulGates.length) V (pk0.h0 + pk1.h0 : ZMod p)
                (fun i => wireF p w0 (c.mg i) + wireF p w1 (c.mg i)) (fun j => nodeF p pk0.hPoints j + nodeF p pk1.hPoints j)) +
            C ((pk0.triple.C + pk1.triple.C : ZMod p) -
              (pk0.triple.A + pk1.triple.A) * (pk0.triple.B + pk1.triple.B))).eval (x : ZMod p)) +
          ∑ i ∈ Finset.range c.resultZero.length, nodeF p cs (i + 1) *
            (wireF p w0 (c.resultZero.getD i 0) + wireF p w1 (c.resultZero.getD i 0)) := by
  have hne : NeZero p := ⟨(Fact.out : p.Prime).ne_zero⟩
  obtain ⟨k0, e0, s0, t0, z0, f0, g0, h0⟩ := checker_spec wf hp hw0 hh0.ge
  obtain ⟨k1, e1, s1, t1, z1, f1, g1, h1⟩ := checker_spec wf hp hw1 hh1.ge
  refine ⟨k0, k1, e0, e1, fun cs hcs => ?_⟩
  obtain ⟨o0, o1, q0, q1, c0, c1, hs⟩ := outSum (p := p) s0 s1 (m := c.resultZero.length) (by rw [z0]; simp) (by rw [z1]; simp) hcs
  refine ⟨o0, o1, q0, q1, c0, c1, ?_⟩
  rw [hs, t0, t1, f0, f1, g0, g1, h0, h1]
  congr 1
  · congr 1
    have addFG : ∀ (a b : ZMod p) (u v : ℕ → ZMod p), polyFG c.mulGates.length (npow2 c.mulGates.length) W a u +
        polyFG c.mulGates.length (npow2 c.mulGates.length) W b v =
        polyFG c.mulGates.length (npow2 c.mulGates.length) W (a + b) fun i => u i + v i := by
      intro a b u v
      refine interpolate_add fun i _ => ?_
      unfold fPts; split_ifs <;> simp
    have addH : ∀ (a b : ZMod p) (o o' h h' : ℕ → ZMod p), polyH c.mulGates.length (npow2 c.mulGates.length) V a o h +
        polyH c.mulGates.length (npow2 c.mulGates.length) V b o' h' =
        polyH c.mulGates.length (npow2 c.mulGates.length) V (a + b) (fun i => o i + o' i) fun i => h i + h' i := by
      intro a b o o' h h'
      refine interpolate_add fun i _ => ?_
      unfold hPts; split_ifs <;> simp
    rw [← addFG, ← addFG, ← addH]
    simp only [eval_add, eval_mul, eval_sub, eval_X, eval_C]
    ring
  · apply Finset.sum_congr rfl
    intro i hi
    have hi := Finset.mem_range.mp hi
    congr 1
    rw [z0, z1]
    simp only [nodeF, wireF, List.getD_eq_getElem?_getD, List.getElem?_map, List.getElem?_eq_getElem hi, Option.map_some,
      Option.getD_some]

/-! ## C30 -/

/-- The tables after a sequence of calls depend only on the last size. -/
theorem rootCalls_eq {N : ℕ} {l l' : List ℕ} {t t' : RootTables} (h : RootCalls (N :: l) t) (h' : RootCalls (N :: l') t') : t = t' := by
  have key : ∀ (l : List ℕ) (t : RootTables), RootCalls l t →
      t = RootTables.start ∨ initRoots intModulus intGen twoOrder RootTables.start t.num = some t := by
    intro l t h
    induction h with
    | start => exact Or.inl rfl
    | @call l st k t h hk hc ih =>
      right
      by_cases hn : st.num = 2 ^ k
      · rw [initRoots, if_pos hn] at hc
        cases hc
        rcases ih with rfl | ih
        · exact absurd hn.symm (by simp [RootTables.start])
        · exact ih
      · have hk0 : RootTables.start.num ≠ 2 ^ k := by
          rw [show RootTables.start.num = 0 from rfl]; exact (pow_pos (by norm_num) k).ne
        obtain ⟨t', ht', hok⟩ := initRoots_ok st k hk hn
        rw [hc] at ht'; cases ht'
        rw [hok.num]
        rw [initRoots, if_neg hn] at hc
        rw [initRoots, if_neg hk0]
        exact hc
  have n1 := ((C02_tables_after_any_history _ _ h).1 _ _ rfl).num
  have n2 := ((C02_tables_after_any_history _ _ h').1 _ _ rfl).num
  have hN : N ≠ 0 := by cases h with | call => exact (pow_pos (by norm_num) _).ne'
  rcases key _ _ h with rfl | k1
  · exact absurd n1.symm (by simpa [RootTables.start] using hN)
  rcases key _ _ h' with rfl | k2
  · exact absurd n2.symm (by simpa [RootTables.start] using hN)
  rw [n1] at k1; rw [n2, k1] at k2; cases k2; rfl

/-- An honest submission is accepted: for every well-formed circuit, every input on which `Eval` returns true, all input
shares, all draws of the client, every canonical check point and all combination coefficients, the packets are built, both
checkers run and both servers' `AddToZero` is true. `t`, `t'` are the root tables of the client and of the servers, each after
its own history of `init_roots` calls ending with the size of this circuit. -/
theorem C30_accept {c : Circuit} (wf : c.WF) {inps w i0 i1 : List ℤ} (hev : c.eval intModulus inps = some (w, true))
    (hl0 : i0.length = inps.length) (hl1 : i1.length = inps.length)
    (hi : ∀ k < inps.length, (at0 i0 k + at0 i1 k : ZMod intModulus) = at0 inps k)
    {t t' : RootTables} {l l' : List ℕ} (hrc : RootCalls (npow2 c.mulGates.length :: l) t)
    (hrc' : RootCalls (npow2 c.mulGates.length :: l') t')
    {r : SnipRand} (hrh : r.h.length = npow2 c.mulGates.length) (hrm : r.mul.length = c.mulGates.length)
    {x : ℤ} (hx : Canon x intModulus) {cs : List ℤ} (hcs : c.resultZero.length + 1 ≤ cs.length) :
    ∃ pk0 pk1 pre k0 k1 o0 o1, sharePolynomials intModulus c w t r = some (pk0, pk1) ∧
      checkerPre intModulus t' (npow2 c.mulGates.length) x = some pre ∧
      checkerInit intModulus false c pk0 pre i0 = some k0 ∧ checkerInit intModulus true c pk1 pre i1 = some k1 ∧
      k0.outShare intModulus (Cor.ofShares intModulus (k0.corShare intModulus) (k1.corShare intModulus)) cs = some o0 ∧
      k1.outShare intModulus (Cor.ofShares intModulus (k1.corShare intModulus) (k0.corShare intModulus)) cs = some o1 ∧
      addToZero intModulus o0 o1 = true ∧ addToZero intModulus o1 o0 = true := by
  have htt : t = t' := rootCalls_eq hrc hrc'
  subst htt
  have ht := (C02_tables_after_any_history _ _ hrc).1 _ _ rfl
  have hNpos : 0 < npow2 c.mulGates.length := lt_of_le_of_lt (Nat.zero_le _) (npow2_gt _)
  -- evaluation
  have hev' := hev
  rw [Circuit.eval, Option.bind_eq_some_iff] at hev'
  obtain ⟨w', hw, hz⟩ := hev'
  rw [Option.map_eq_some_iff] at hz
  obtain ⟨zs, hz1, hz2⟩ := hz
  obtain ⟨hww, hzall⟩ : w' = w ∧ (zs.all fun x => decide (x = 0)) = true := by simpa using hz2
  subst hww
  obtain ⟨hwl, hrel⟩ := evalGates_all hw
  have hzs : zs = c.resultZero.map (at0 w') := by
    have := wiresAt_spec (w := w') (is := c.resultZero) fun i hi => by rw [hwl]; exact wf.zeros i hi
    rw [this] at hz1; cases hz1; rfl
  obtain ⟨pk0, pk1, hpk, hon⟩ := client_spec intModulus_two_ne wf hwl ht hrh hrm
  obtain ⟨pre, hpre, hpok⟩ := checkerPre_ok hNpos ht hx
  obtain ⟨-, -, nodes⟩ := tables_nodes hNpos ht
  -- wires
  have hmv : wiresAt w' c.mulGates = some (c.mulGates.map (at0 w')) := wiresAt_spec fun i hi => by
    obtain ⟨_, _, _, _, _, h⟩ := wf.mul_getElem hi; omega
  obtain ⟨w0, w1, hw0, hw1, l0, l1, hsum⟩ := C27_wires wf hw hl0 hl1 hi hmv (by simpa using hon.m0) (by simpa using hon.m1) (by
    intro k hk
    have hk' : k < c.mulGates.length := by simpa using hk
    have := hon.mul k hk'
    unfold nodeF at this
    unfold at0
    rw [this]
    simp [wireF, Circuit.mg, at0, List.getD_eq_getElem?_getD, List.getElem?_eq_getElem hk'])
  obtain ⟨k0, k1, e0, e1, hk⟩ := check_sum wf hpok hw0 hw1 hon.h0 hon.h1
  obtain ⟨o0, o1, q0, q1, -, -, hs⟩ := hk cs hcs
  have hzero : (o0 + o1 : ZMod intModulus) = 0 := by
    rw [hs]
    have hwire : ∀ k < c.gates.length, wireF intModulus w0 k + wireF intModulus w1 k = wireF intModulus w' k := fun k hk =>
      hsum k (by omega)
    have hpar : ∀ i < c.mulGates.length, c.parL (c.mg i) < c.gates.length ∧ c.parR (c.mg i) < c.gates.length ∧
        c.mg i < c.gates.length ∧
        wireF intModulus w' (c.mg i) = wireF intModulus w' (c.parL (c.mg i)) * wireF intModulus w' (c.parR (c.mg i)) := by
      intro i hi
      have hm : c.mg i ∈ c.mulGates := by
        unfold Circuit.mg
        rw [List.getD_eq_getElem?_getD, List.getElem?_eq_getElem hi]; exact List.getElem_mem hi
      obtain ⟨l, rr, hg, h1, h2, h3⟩ := wf.mul_getElem hm
      have hmr := (eval_lin (hrel _ h3)).2 l rr hg
      simp only [Circuit.parL, Circuit.parR, hg]
      exact ⟨by omega, by omega, h3, hmr⟩
    have hpoly : polyH c.mulGates.length (npow2 c.mulGates.length) (nodeF intModulus t.roots2) (pk0.h0 + pk1.h0 : ZMod intModulus)
        (fun i => wireF intModulus w0 (c.mg i) + wireF intModulus w1 (c.mg i))
        (fun j => nodeF intModulus pk0.hPoints j + nodeF intModulus pk1.hPoints j) =
        polyFG c.mulGates.length (npow2 c.mulGates.length) (nodeF intModulus t.roots) (pk0.f0 + pk1.f0 : ZMod intModulus)
          (fun i => wireF intModulus w0 (c.parL (c.mg i)) + wireF intModulus w1 (c.parL (c.mg i))) *
        polyFG c.mulGates.length (npow2 c.mulGates.length) (nodeF intModulus t.roots) (pk0.g0 + pk1.g0 : ZMod intModulus)
          (fun i => wireF intModulus w0 (c.parR (c.mg i)) + wireF intModulus w1 (c.parR (c.mg i))) := by
      have congrFG : ∀ (a : ZMod intModulus) (u v : ℕ → ZMod intModulus), (∀ i < c.mulGates.length, u i = v i) →
          polyFG c.mulGates.length (npow2 c.mulGates.length) (nodeF intModulus t.roots) a u =
          polyFG c.mulGates.length (npow2 c.mulGates.length) (nodeF intModulus t.roots) a v := by
        intro a u v h
        refine interpolate_congr fun i _ => ?_
        unfold fPts; split_ifs with h1 h2
        · rfl
        · exact h _ h2
        · rfl
      rw [polyH_eq_iff nodes (npow2_gt _)]
      refine ⟨by rw [hon.hc, hon.f0, hon.g0], fun i hi => ?_, fun j hj => ?_⟩
      · obtain ⟨a1, a2, a3, a4⟩ := hpar i hi
        rw [hwire _ a1, hwire _ a2, hwire _ a3, a4]
      · rw [hon.hs j hj, hon.f0, hon.g0]
        rw [congrFG _ _ _ fun i hi => (hwire _ (hpar i hi).1).symm, congrFG _ _ _ fun i hi => (hwire _ (hpar i hi).2.1).symm]
    rw [hpoly, hon.tr]
    have hzw : ∀ i ∈ Finset.range c.resultZero.length, nodeF intModulus cs (i + 1) *
        (wireF intModulus w0 (c.resultZero.getD i 0) + wireF intModulus w1 (c.resultZero.getD i 0)) = 0 := by
      intro i hi
      have hi := Finset.mem_range.mp hi
      have hm : c.resultZero.getD i 0 ∈ c.resultZero := by
        rw [List.getD_eq_getElem?_getD, List.getElem?_eq_getElem hi]; exact List.getElem_mem hi
      rw [hwire _ (wf.zeros _ hm)]
      have : at0 w' (c.resultZero.getD i 0) = 0 := by
        have := List.all_eq_true.mp hzall (at0 w' (c.resultZero.getD i 0)) (by rw [hzs]; exact List.mem_map_of_mem hm)
        simpa using this
      rw [wireF, this, Int.cast_zero, mul_zero]
    rw [Finset.sum_eq_zero hzw]
    simp
  refine ⟨pk0, pk1, pre, k0, k1, o0, o1, hpk, hpre, e0, e1, q0, q1, ?_, ?_⟩
  · rw [addToZero, decide_eq_true_eq, fmod_eq_zero_iff, Int.cast_add]; exact hzero
  · rw [addToZero, decide_eq_true_eq, fmod_eq_zero_iff, Int.cast_add, add_comm]; exact hzero

/-- Circuits with fewer than `2^18` multiplication gates are within the supported sizes. -/
theorem C30_sizes {c : Circuit} (h : c.mulGates.length < 2 ^ 18) (l : List ℕ) (st : RootTables) (hs : RootCalls l st) :
    ∃ t, RootCalls (npow2 c.mulGates.length :: l) t := by
  have hk : c.mulGates.length.size ≤ 18 := Nat.size_le.mpr h
  obtain ⟨t, ht⟩ := (C02_tables_after_any_history _ _ hs).2 _ hk
  exact ⟨t, RootCalls.call hs hk ht⟩

/-- The hypotheses on a concrete case: the variance circuit accepts `(3, 9)`. -/
example : ∃ c t w, checkVar intModulus = some c ∧ c.WF ∧ c.eval intModulus [3, 9] = some (w, true) ∧ RootCalls [npow2 c.mulGates.length] t := by
  obtain ⟨t, ht⟩ := C30_sizes (c := ⟨[.input, .input, .mul 0 0, mulByNegOne intModulus 1, .add 2 3], [4], [2]⟩) (by decide) [] _ .start
  refine ⟨_, t, [3, 9, 9, intModulus - 9, 0], rfl, ?_, by decide +kernel, ht⟩
  obtain ⟨c, h1, h2⟩ := (C27_wf (d := 1) le_rfl (by decide)).1
  cases h1; exact h2

/-! ## C31 -/

/-- The lists of `k + 1` canonical coefficients orthogonal to a vector that is not zero are `p ^ k` in number. -/
theorem count_hyperplane {p : ℕ} [Fact p.Prime] (k : ℕ) (a : ℕ → ZMod p) (ha : ∃ i < k + 1, a i ≠ 0) :
    {cs : List ℤ | cs.length = k + 1 ∧ (∀ x ∈ cs, IsDraw x p) ∧ ∑ i ∈ Finset.range (k + 1), nodeF p cs i * a i = 0}.ncard = p ^ k := by
  have hne : NeZero p := ⟨(Fact.out : p.Prime).ne_zero⟩
  let φ : (Fin (k + 1) → ZMod p) →ₗ[ZMod p] ZMod p := Fintype.linearCombination (ZMod p) (fun i : Fin (k + 1) => a i)
  have hφ : ∀ f, φ f = ∑ i : Fin (k + 1), f i * a i := fun f => by simp [φ, Fintype.linearCombination_apply]
  have hsurj : LinearMap.range φ = ⊤ := by
    rw [LinearMap.range_eq_top]
    intro y
    obtain ⟨i, hi, hai⟩ := ha
    refine ⟨Pi.single ⟨i, hi⟩ (y * (a i)⁻¹), ?_⟩
    rw [hφ, Finset.sum_eq_single ⟨i, hi⟩]
    · simp [mul_assoc, inv_mul_cancel₀ hai]
    · intro b _ hb; simp [Pi.single_eq_of_ne hb]
    · simp
  have hker : Nat.card (LinearMap.ker φ) = p ^ k := by
    rw [Module.natCard_eq_pow_finrank (K := ZMod p) (V := LinearMap.ker φ), Nat.card_zmod]
    have := LinearMap.finrank_range_add_finrank_ker φ
    rw [hsurj, finrank_top, Module.finrank_self, Module.finrank_fin_fun] at this
    congr 1; omega
  let g : (Fin (k + 1) → ZMod p) → List ℤ := fun f => List.ofFn fun i => ((f i).val : ℤ)
  have hg : Function.Injective g := by
    intro f f' h
    have := List.ofFn_injective h
    funext i
    have hi := congrFun this i
    exact ZMod.val_injective p (by exact_mod_cast hi)
  have hsum : ∀ cs : List ℤ, ∑ i ∈ Finset.range (k + 1), nodeF p cs i * a i = ∑ i : Fin (k + 1), nodeF p cs i * a i := fun cs =>
    Finset.sum_range _
  have himg : {cs : List ℤ | cs.length = k + 1 ∧ (∀ x ∈ cs, IsDraw x p) ∧ ∑ i ∈ Finset.range (k + 1), nodeF p cs i * a i = 0} =
      g '' (LinearMap.ker φ : Set (Fin (k + 1) → ZMod p)) := by
    ext cs
    constructor
    · rintro ⟨h1, h2, h3⟩
      refine ⟨fun i => nodeF p cs i, ?_, ?_⟩
      · rw [SetLike.mem_coe, LinearMap.mem_ker, hφ, ← hsum, h3]
      · apply List.ext_getElem
        · simp [g, h1]
        · intro i _ h5
          have hc := h2 cs[i] (List.getElem_mem h5)
          simp only [g, List.getElem_ofFn, nodeF, List.getD_eq_getElem?_getD, List.getElem?_eq_getElem h5, Option.getD_some]
          exact val_of_canon hc
    · rintro ⟨f, h1, rfl⟩
      rw [SetLike.mem_coe, LinearMap.mem_ker, hφ] at h1
      refine ⟨by simp [g], ?_, ?_⟩
      · intro x hx
        obtain ⟨i, rfl⟩ := (List.mem_ofFn' _ _).mp hx
        exact canon_val _
      · rw [hsum, ← h1]
        refine Finset.sum_congr rfl fun i _ => ?_
        congr 1
        rw [nodeF, List.getD_eq_getElem?_getD, List.getElem?_eq_getElem (by simp only [g, List.length_ofFn]; exact i.2), Option.getD_some]
        simp only [g, List.getElem_ofFn, Fin.eta, Int.cast_natCast]
        exact ZMod.natCast_zmod_val _
  rw [himg, Set.ncard_image_of_injective _ hg, ← hker, ← Nat.card_coe_set_eq]
  rfl

/-- Servers' inputs and packets of the sizes they are read with, with no further assumption. -/
structure AnyPackets (c : Circuit) (i0 i1 : List ℤ) (pk0 pk1 : Packet) : Prop where
  li : i0.length = i1.length
  m0 : pk0.mulShares.length = c.mulGates.length
  m1 : pk1.mulShares.length = c.mulGates.length
  h0 : pk0.hPoints.length = npow2 c.mulGates.length
  h1 : pk1.hPoints.length = npow2 c.mulGates.length

/-- Wires are canonical if the inputs are. -/
theorem eval_canon {p : ℕ} [NeZero p] {gs : List Gate} {inps w : List ℤ} {k : ℕ} (hi : ∀ x ∈ inps, Canon x p)
    (h : EvalRel p gs inps w k) (hk : k < gs.length) : Canon (at0 w k) p := by
  unfold EvalRel at h
  rw [List.getElem?_eq_getElem hk] at h
  generalize gs[k] = g at h
  cases g with
  | input => exact hi _ (List.mem_of_getElem? h)
  | add l r => rw [h.2.2]; exact fmod_canon _
  | mul l r => rw [h.2.2]; exact fmod_canon _
  | addConst l r => rw [h.2]; exact fmod_canon _
  | mulConst l r => rw [h.2]; exact fmod_canon _

theorem natDegree_lt_of_pos {F : Type*} [Field F] {f : F[X]} {m : ℕ} (hm : 0 < m) (h : f.degree < m) : f.natDegree < m := by
  rcases eq_or_ne f 0 with rfl | hf
  · simpa using hm
  · exact (natDegree_lt_iff_degree_lt hf).mpr h

/-- Rejection. The packets and the input shares are arbitrary; `inps` is what the shares reconstruct to (canonical residues) and `Eval` is false on it.
There are at most `2N` bad check points. At every other check point both checkers run on every list of coefficients, and among
the lists of `k + 1` draws (`k` the number of zero wires) exactly `p ^ k` make the servers accept. -/
theorem C31_soundness {c : Circuit} (wf : c.WF) {inps w i0 i1 : List ℤ} (hev : c.eval intModulus inps = some (w, false))
    (hcan : ∀ v ∈ inps, Canon v intModulus) {pk0 pk1 : Packet} (hpk : AnyPackets c i0 i1 pk0 pk1) (hl0 : i0.length = inps.length)
    (hi : ∀ k < inps.length, (at0 i0 k + at0 i1 k : ZMod intModulus) = at0 inps k)
    {t : RootTables} {l : List ℕ} (hrc : RootCalls (npow2 c.mulGates.length :: l) t) :
    ∃ bad : Finset (ZMod intModulus), bad.card ≤ 2 * npow2 c.mulGates.length ∧
      ∀ x, Canon x intModulus → (x : ZMod intModulus) ∉ bad → ∃ pre k0 k1,
        checkerPre intModulus t (npow2 c.mulGates.length) x = some pre ∧
        checkerInit intModulus false c pk0 pre i0 = some k0 ∧ checkerInit intModulus true c pk1 pre i1 = some k1 ∧
        (∀ cs : List ℤ, cs.length = c.resultZero.length + 1 → ∃ o0 o1,
          k0.outShare intModulus (Cor.ofShares intModulus (k0.corShare intModulus) (k1.corShare intModulus)) cs = some o0 ∧
          k1.outShare intModulus (Cor.ofShares intModulus (k1.corShare intModulus) (k0.corShare intModulus)) cs = some o1) ∧
        {cs : List ℤ | cs.length = c.resultZero.length + 1 ∧ (∀ y ∈ cs, IsDraw y intModulus) ∧ ∃ o0 o1,
          k0.outShare intModulus (Cor.ofShares intModulus (k0.corShare intModulus) (k1.corShare intModulus)) cs = some o0 ∧
          k1.outShare intModulus (Cor.ofShares intModulus (k1.corShare intModulus) (k0.corShare intModulus)) cs = some o1 ∧
          addToZero intModulus o0 o1 = true}.ncard = intModulus ^ c.resultZero.length := by
  have ht := (C02_tables_after_any_history _ _ hrc).1 _ _ rfl
  have hn := npow2_gt c.mulGates.length
  have hNpos : 0 < npow2 c.mulGates.length := by omega
  obtain ⟨-, -, nodes⟩ := tables_nodes hNpos ht
  -- evaluation
  have hev' := hev
  rw [Circuit.eval, Option.bind_eq_some_iff] at hev'
  obtain ⟨w', hw, hz⟩ := hev'
  rw [Option.map_eq_some_iff] at hz
  obtain ⟨zs, hz1, hz2⟩ := hz
  obtain ⟨hww, hzall⟩ : w' = w ∧ (zs.all fun x => decide (x = 0)) = false := by simpa using hz2
  subst hww
  obtain ⟨hwl, hrel⟩ := evalGates_all hw
  have hzs : zs = c.resultZero.map (at0 w') := by
    have := wiresAt_spec (w := w') (is := c.resultZero) fun i hi => by rw [hwl]; exact wf.zeros i hi
    rw [this] at hz1; cases hz1; rfl
  have hin : nIn c.gates ≤ inps.length := nIn_le_of_eval hw
  have hnm := wf.nMul_eq
  have hli := hpk.li
  have hm0 := hpk.m0
  have hm1 := hpk.m1
  obtain ⟨w0, h0⟩ := importGates_total intModulus false c.gates [] i0 pk0.mulShares [] rfl (by simpa using wf.parents) (by omega) (by omega)
  obtain ⟨w1, h1⟩ := importGates_total intModulus true c.gates [] i1 pk1.mulShares [] rfl (by simpa using wf.parents) (by omega) (by omega)
  obtain ⟨l0, r0⟩ := importGates_all h0
  obtain ⟨l1, r1⟩ := importGates_all h1
  set s : ℕ → ZMod intModulus := fun i => wireF intModulus w0 i + wireF intModulus w1 i with hs
  set P : (ZMod intModulus)[X] := X * (polyFG c.mulGates.length (npow2 c.mulGates.length) (nodeF intModulus t.roots)
        (pk0.f0 + pk1.f0 : ZMod intModulus) (fun i => s (c.parL (c.mg i))) *
      polyFG c.mulGates.length (npow2 c.mulGates.length) (nodeF intModulus t.roots) (pk0.g0 + pk1.g0 : ZMod intModulus)
        (fun i => s (c.parR (c.mg i))) -
      polyH c.mulGates.length (npow2 c.mulGates.length) (nodeF intModulus t.roots2) (pk0.h0 + pk1.h0 : ZMod intModulus)
        (fun i => s (c.mg i)) (fun j => nodeF intModulus pk0.hPoints j + nodeF intModulus pk1.hPoints j)) +
    C ((pk0.triple.C + pk1.triple.C : ZMod intModulus) - (pk0.triple.A + pk1.triple.A) * (pk0.triple.B + pk1.triple.B)) with hP
  -- a wrong wire, unless the polynomial is not zero
  have hwrong : (∃ x0, P = C x0) → ∃ i < c.resultZero.length, s (c.resultZero.getD i 0) ≠ 0 := by
    rintro ⟨x0, hPc⟩
    have hHeq : polyH c.mulGates.length (npow2 c.mulGates.length) (nodeF intModulus t.roots2) (pk0.h0 + pk1.h0 : ZMod intModulus)
        (fun i => s (c.mg i)) (fun j => nodeF intModulus pk0.hPoints j + nodeF intModulus pk1.hPoints j) =
        polyFG c.mulGates.length (npow2 c.mulGates.length) (nodeF intModulus t.roots)
        (pk0.f0 + pk1.f0 : ZMod intModulus) (fun i => s (c.parL (c.mg i))) *
      polyFG c.mulGates.length (npow2 c.mulGates.length) (nodeF intModulus t.roots) (pk0.g0 + pk1.g0 : ZMod intModulus)
        (fun i => s (c.parR (c.mg i))) := by
      have : X * (polyFG c.mulGates.length (npow2 c.mulGates.length) (nodeF intModulus t.roots)
          (pk0.f0 + pk1.f0 : ZMod intModulus) (fun i => s (c.parL (c.mg i))) *
        polyFG c.mulGates.length (npow2 c.mulGates.length) (nodeF intModulus t.roots) (pk0.g0 + pk1.g0 : ZMod intModulus)
          (fun i => s (c.parR (c.mg i))) -
        polyH c.mulGates.length (npow2 c.mulGates.length) (nodeF intModulus t.roots2) (pk0.h0 + pk1.h0 : ZMod intModulus)
          (fun i => s (c.mg i)) (fun j => nodeF intModulus pk0.hPoints j + nodeF intModulus pk1.hPoints j)) =
          C (x0 - ((pk0.triple.C + pk1.triple.C : ZMod intModulus) - (pk0.triple.A + pk1.triple.A) * (pk0.triple.B + pk1.triple.B))) := by
        rw [C_sub, ← hPc, hP]; ring
      by_contra hne
      have hd := congrArg natDegree this
      rw [natDegree_C, natDegree_X_mul (sub_ne_zero.mpr (Ne.symm hne))] at hd
      omega
    obtain ⟨-, hmul, -⟩ := (polyH_eq_iff nodes hn _ _ _ _ _ _ _).mp hHeq
    have hwire : ∀ k < c.gates.length, s k = wireF intModulus w' k := by
      refine lin_unique wf.parents (inp := fun i => wireF intModulus i0 i + wireF intModulus i1 i) (inp' := wireF intModulus inps)
        (fun i hi' => hi i (by omega)) (fun k hk => (import_lin (r0 k hk) (r1 k hk)).1) (fun k hk => (eval_lin (hrel k hk)).1) ?_
      intro k l' r' hg hprev
      have hidx := wf.mul_idx hg
      obtain ⟨hlt, hge⟩ := List.getElem?_eq_some_iff.mp hidx
      have hmg : c.mg (nMul (c.gates.take k)) = k := by simp [Circuit.mg, List.getD_eq_getElem?_getD, hidx]
      have hk := (List.getElem?_eq_some_iff.mp hg).1
      have hpar := wf.parents k _ hg
      have := hmul _ hlt
      simp only [hmg, Circuit.parL, Circuit.parR, hg] at this
      rw [this, (eval_lin (hrel k hk)).2 l' r' hg, hprev _ hpar.1, hprev _ hpar.2]
    by_contra hcon
    push Not at hcon
    have : (zs.all fun x => decide (x = 0)) = true := by
      rw [List.all_eq_true]
      intro z hz
      rw [hzs, List.mem_map] at hz
      obtain ⟨g, hg, rfl⟩ := hz
      obtain ⟨i, hi', rfl⟩ := List.getElem_of_mem hg
      have h2 := hcon i hi'
      rw [List.getD_eq_getElem?_getD, List.getElem?_eq_getElem hi', Option.getD_some,
        hwire _ (wf.zeros _ (List.getElem_mem hi'))] at h2
      rw [decide_eq_true_eq]
      exact (canon_zero_iff (eval_canon hcan (hrel _ (wf.zeros _ (List.getElem_mem hi'))) (wf.zeros _ (List.getElem_mem hi')))).mpr h2
    rw [this] at hzall; cases hzall
  have hdeg : P.natDegree ≤ 2 * npow2 c.mulGates.length := by
    rw [hP, natDegree_add_C]
    refine le_trans (natDegree_mul_le) ?_
    rw [natDegree_X]
    have hd1 := degree_mul_lt_two (polyFG_degree (n := c.mulGates.length) nodes.injW (pk0.f0 + pk1.f0 : ZMod intModulus)
      (fun i => s (c.parL (c.mg i)))) (polyFG_degree (n := c.mulGates.length) nodes.injW (pk0.g0 + pk1.g0 : ZMod intModulus)
      (fun i => s (c.parR (c.mg i))))
    have hd2 := polyH_degree (n := c.mulGates.length) nodes.injV (pk0.h0 + pk1.h0 : ZMod intModulus)
        (fun i => s (c.mg i)) (fun j => nodeF intModulus pk0.hPoints j + nodeF intModulus pk1.hPoints j)
    have := natDegree_lt_of_pos (by omega : 0 < 2 * npow2 c.mulGates.length) (lt_of_le_of_lt (degree_sub_le _ _) (max_lt hd1 hd2))
    omega
  refine ⟨P.roots.toFinset, le_trans (Multiset.toFinset_card_le _) (le_trans (card_roots' P) hdeg), fun x hx hbad => ?_⟩
  obtain ⟨pre, hpre, hpok⟩ := checkerPre_ok hNpos ht hx
  obtain ⟨k0, k1, e0, e1, hk⟩ := check_sum wf hpok h0 h1 hpk.h0 hpk.h1
  refine ⟨pre, k0, k1, hpre, e0, e1, fun cs hcs => ?_, ?_⟩
  · obtain ⟨o0, o1, q0, q1, -⟩ := hk cs hcs.ge
    exact ⟨o0, o1, q0, q1⟩
  set a : ℕ → ZMod intModulus := fun i => if i = 0 then P.eval (x : ZMod intModulus) else s (c.resultZero.getD (i - 1) 0) with ha
  have hane : ∃ i < c.resultZero.length + 1, a i ≠ 0 := by
    by_cases hP0 : P = 0
    · obtain ⟨i, hi1, hi2⟩ := hwrong ⟨0, by rw [hP0, C_0]⟩
      exact ⟨i + 1, by omega, by simpa [ha] using hi2⟩
    · refine ⟨0, by omega, ?_⟩
      rw [Multiset.mem_toFinset, mem_roots hP0, IsRoot.def] at hbad
      simpa [ha] using hbad
  rw [← count_hyperplane c.resultZero.length a hane]
  congr 1
  ext cs
  refine and_congr_right fun hcs => and_congr_right fun _ => ?_
  obtain ⟨o0, o1, q0, q1, -, -, hsum⟩ := hk cs hcs.ge
  have hsum' : (o0 + o1 : ZMod intModulus) = ∑ i ∈ Finset.range (c.resultZero.length + 1), nodeF intModulus cs i * a i := by
    rw [hsum, Finset.sum_range_succ', add_comm]
    rfl
  rw [← hsum', ← Int.cast_add, ← fmod_eq_zero_iff]
  constructor
  · rintro ⟨o0', o1', q0', q1', hz⟩
    rw [q0] at q0'; rw [q1] at q1'; cases q0'; cases q1'
    simpa [addToZero] using hz
  · intro hz
    exact ⟨o0, o1, q0, q1, by simpa [addToZero] using hz⟩

/-- The hypotheses on a concrete case: `(3, 10)` is rejected by the variance circuit, with made-up packets. -/
example : ∃ c w t, checkVar intModulus = some c ∧ c.WF ∧ c.eval intModulus [3, 10] = some (w, false) ∧
    AnyPackets c [1, 4] [2, 6] ⟨[7], 1, 2, 3, [4, 5], ⟨1, 1, 1⟩⟩ ⟨[2], 1, 2, 3, [4, 5], ⟨1, 1, 1⟩⟩ ∧
    RootCalls [npow2 c.mulGates.length] t := by
  obtain ⟨t, ht⟩ := C30_sizes (c := ⟨[.input, .input, .mul 0 0, mulByNegOne intModulus 1, .add 2 3], [4], [2]⟩) (by decide) [] _ .start
  refine ⟨_, [3, 10, 9, intModulus - 10, intModulus - 1], t, rfl, ?_, by decide +kernel, ⟨rfl, rfl, rfl, rfl, rfl⟩, ht⟩
  obtain ⟨c, h1, h2⟩ := (C27_wf (d := 1) le_rfl (by decide)).1
  cases h1; exact h2

end Verif
