import Verif.ModelPoly
import Verif.LemmasFmpz
import Verif.LemmasPrime
import Mathlib.LinearAlgebra.Lagrange
import Mathlib.Tactic.Ring

/-! # C29: evaluation at one point by precomputed Lagrange coefficients -/

namespace Verif

open Polynomial

/-- Nodes as field elements. -/
def nodeF (p : ℕ) (xs : List ℤ) (i : ℕ) : ZMod p := ((xs.getD i 0 : ℤ) : ZMod p)

/-- `∏ (X - x)` over a list. -/
noncomputable def listNodal (p : ℕ) (xs : List ℤ) : (ZMod p)[X] := (xs.map fun x : ℤ => (X - C (x : ZMod p) : (ZMod p)[X])).prod

theorem listNodal_monic (p : ℕ) (xs : List ℤ) : (listNodal p xs).Monic := by
  unfold listNodal
  induction xs with
  | nil => simp
  | cons a xs ih => simp only [List.map_cons, List.prod_cons]; exact (monic_X_sub_C _).mul ih

theorem listNodal_natDegree (p : ℕ) [Fact p.Prime] (xs : List ℤ) : (listNodal p xs).natDegree = xs.length := by
  induction xs with
  | nil => simp [listNodal]
  | cons a xs ih =>
    have : listNodal p (a :: xs) = (X - C (a : ZMod p)) * listNodal p xs := by simp [listNodal]
    rw [this, (monic_X_sub_C _).natDegree_mul (listNodal_monic p xs), ih, natDegree_X_sub_C]
    simp [add_comm]

theorem listNodal_root (p : ℕ) {xs : List ℤ} {x : ℤ} (h : x ∈ xs) : (listNodal p xs).eval (x : ZMod p) = 0 := by
  unfold listNodal
  induction xs with
  | nil => simp at h
  | cons a xs ih =>
    simp only [List.map_cons, List.prod_cons, eval_mul]
    rcases List.mem_cons.mp h with rfl | h
    · simp
    · rw [ih h, mul_zero]

theorem listNodal_eq_nodal (p : ℕ) (xs : List ℤ) : listNodal p xs = Lagrange.nodal (Finset.range xs.length) (nodeF p xs) := by
  unfold Lagrange.nodal listNodal
  induction xs with
  | nil => simp
  | cons a xs ih =>
    rw [List.map_cons, List.prod_cons, ih, List.length_cons, Finset.prod_range_succ', mul_comm]
    rfl

/-! ### The tree -/

theorem treeInit_poly (p : ℕ) : ∀ (n : ℕ) (xs : List ℤ), xs.length = n → xs ≠ [] →
    ∃ t, treeInit p xs = some t ∧ t.poly = listNodal p xs := by
  intro n
  induction n using Nat.strong_induction_on with
  | _ n ih =>
    intro xs hl hne
    rw [treeInit]
    by_cases h1 : xs.length = 1
    · rw [dif_pos h1]
      refine ⟨_, rfl, ?_⟩
      obtain ⟨a, rfl⟩ := List.length_eq_one_iff.mp h1
      simp [PTree.poly, listNodal, sub_eq_add_neg]
    · have h0 : xs.length ≠ 0 := by simpa using hne
      rw [dif_neg h1, dif_neg h0]
      obtain ⟨l, el, pl⟩ := ih (xs.take (xs.length / 2)).length (by simp; omega) _ rfl (by
        rw [← List.length_pos_iff]; simp; omega)
      obtain ⟨r, er, pr⟩ := ih (xs.drop (xs.length / 2)).length (by simp; omega) _ rfl (by
        rw [← List.length_pos_iff]; simp; omega)
      simp only [el, er, Option.bind_some]
      refine ⟨_, rfl, ?_⟩
      rw [PTree.poly, pl, pr]
      unfold listNodal
      rw [← List.prod_append, ← List.map_append, List.take_append_drop]

theorem degree_mod_lt {p : ℕ} [Fact p.Prime] (f : (ZMod p)[X]) (xs : List ℤ) :
    (f %ₘ listNodal p xs).degree < xs.length := by
  refine lt_of_lt_of_le (degree_modByMonic_lt f (listNodal_monic p xs)) ?_
  rw [degree_eq_natDegree (listNodal_monic p xs).ne_zero, listNodal_natDegree]

theorem eval_mod {p : ℕ} (f : (ZMod p)[X]) {xs : List ℤ} {x : ℤ} (h : x ∈ xs) :
    (f %ₘ listNodal p xs).eval (x : ZMod p) = f.eval (x : ZMod p) := by
  conv_rhs => rw [← modByMonic_add_div f (listNodal p xs)]
  rw [eval_add, eval_mul, listNodal_root p h, zero_mul, add_zero]

/-- `fast_evaluate` on the tree of the nodes evaluates at the nodes. -/
theorem fastEvaluate_spec {p : ℕ} [Fact p.Prime] : ∀ (n : ℕ) (xs : List ℤ) (t : PTree p) (f : (ZMod p)[X]), xs.length = n → xs ≠ [] →
    treeInit p xs = some t → f.degree < n → fastEvaluate f t n = some (xs.map fun x : ℤ => ((f.eval (x : ZMod p)).val : ℤ)) := by
  intro n
  induction n using Nat.strong_induction_on with
  | _ n ih =>
    intro xs t f hl hne ht hd
    rw [treeInit] at ht
    by_cases h1 : xs.length = 1
    · obtain ⟨a, rfl⟩ := List.length_eq_one_iff.mp h1
      have hn : n = 1 := by rw [← hl]; rfl
      subst hn
      have hc : f = C (f.coeff 0) := eq_C_of_degree_le_zero (Nat.WithBot.lt_one_iff_le_zero.mp (by exact_mod_cast hd))
      have he : ∀ z, f.eval z = f.coeff 0 := fun z => by conv_lhs => rw [hc, eval_C]
      cases t <;> simp [fastEvaluate, he]
    · have h0 : xs.length ≠ 0 := by simpa using hne
      rw [dif_neg h1, dif_neg h0] at ht
      simp only [Option.bind_eq_some_iff, Option.some.injEq] at ht
      obtain ⟨l, el, r, er, rfl⟩ := ht
      obtain ⟨m, rfl⟩ : ∃ m, n = m + 2 := ⟨n - 2, by omega⟩
      have hne1 : xs.take (xs.length / 2) ≠ [] := by rw [← List.length_pos_iff]; simp; omega
      have hne2 : xs.drop (xs.length / 2) ≠ [] := by rw [← List.length_pos_iff]; simp; omega
      have pl : l.poly = listNodal p (xs.take (xs.length / 2)) := by
        obtain ⟨t, e, h⟩ := treeInit_poly p _ _ rfl hne1
        rw [el] at e; cases e; exact h
      have pr : r.poly = listNodal p (xs.drop (xs.length / 2)) := by
        obtain ⟨t, e, h⟩ := treeInit_poly p _ _ rfl hne2
        rw [er] at e; cases e; exact h
      have l1 : (xs.take (xs.length / 2)).length = (m + 2) / 2 := by simp; omega
      have l2 : (xs.drop (xs.length / 2)).length = m + 2 - (m + 2) / 2 := by simp; omega
      simp only [fastEvaluate]
      rw [ih _ (by omega) (xs.take (xs.length / 2)) l _ l1 hne1 el (by rw [pl, ← l1]; exact degree_mod_lt _ _),
        Option.bind_some,
        ih _ (by omega) (xs.drop (xs.length / 2)) r _ l2 hne2 er (by rw [pr, ← l2]; exact degree_mod_lt _ _),
        Option.bind_some, pl, pr]
      congr 1
      conv_rhs => rw [← List.take_append_drop (xs.length / 2) xs, List.map_append]
      congr 1
      · apply List.map_congr_left
        intro x hx; rw [eval_mod f hx]
      · apply List.map_congr_left
        intro x hx; rw [eval_mod f hx]

theorem invAll_spec {p : ℕ} [Fact p.Prime] : ∀ l : List ℤ, (∀ a ∈ l, (a : ZMod p) ≠ 0) →
    ∃ m, invAll p l = some m ∧ m.length = l.length ∧ ∀ i < l.length, nodeF p m i = (nodeF p l i)⁻¹
  | [], _ => ⟨[], rfl, rfl, by simp⟩
  | a :: l, h => by
    have : NeZero p := ⟨(Fact.out : p.Prime).ne_zero⟩
    obtain ⟨b, hb⟩ := invmod_isSome (h a (by simp))
    obtain ⟨m, e, hl, hm⟩ := invAll_spec l fun x hx => h x (by simp [hx])
    refine ⟨b :: m, by rw [invAll, hb, Option.bind_some, e]; rfl, by simp [hl], fun i hi => ?_⟩
    cases i with
    | zero => exact (eq_inv_of_mul_eq_one_right (invmod_some hb))
    | succ i => exact hm i (by simpa using hi)

/-- Distinct nodes as the code sees them: canonical and different. -/
def GoodNodes (p : ℕ) (xs : List ℤ) : Prop := xs ≠ [] ∧ xs.Nodup ∧ ∀ x ∈ xs, Canon x p

theorem GoodNodes.inj {p : ℕ} {xs : List ℤ} (h : GoodNodes p xs) : Set.InjOn (nodeF p xs) (Finset.range xs.length) := by
  intro i hi j hj hij
  have hi' : i < xs.length := by simpa using hi
  have hj' : j < xs.length := by simpa using hj
  unfold nodeF at hij
  rw [List.getD_eq_getElem?_getD, List.getD_eq_getElem?_getD, List.getElem?_eq_getElem hi', List.getElem?_eq_getElem hj'] at hij
  have := canon_eq_of_cast (h.2.2 _ (List.getElem_mem hi')) (h.2.2 _ (List.getElem_mem hj')) hij
  exact (h.2.1.getElem_inj_iff).mp this

/-- Precomputation for nodes succeeds and gives the barycentric weights. -/
theorem batchPre_spec {p : ℕ} [Fact p.Prime] {xs : List ℤ} (h : GoodNodes p xs) : ∃ pre, batchPre p xs = some pre ∧ pre.xs = xs ∧
    pre.ss.length = xs.length ∧
    ∀ i < xs.length, nodeF p pre.ss i = Lagrange.nodalWeight (Finset.range xs.length) (nodeF p xs) i := by
  have : NeZero p := ⟨(Fact.out : p.Prime).ne_zero⟩
  obtain ⟨t, ht, hp⟩ := treeInit_poly p _ xs rfl h.1
  have hdeg : (derivative t.poly).degree < (xs.length : WithBot ℕ) := by
    rw [hp]
    refine lt_of_lt_of_le (degree_derivative_lt (listNodal_monic p xs).ne_zero) ?_
    rw [degree_eq_natDegree (listNodal_monic p xs).ne_zero, listNodal_natDegree]
  have he := fastEvaluate_spec _ xs t (derivative t.poly) rfl h.1 ht hdeg
  have hval : ∀ i < xs.length, nodeF p (xs.map fun x : ℤ => (((derivative t.poly).eval (x : ZMod p)).val : ℤ)) i =
      (derivative (Lagrange.nodal (Finset.range xs.length) (nodeF p xs))).eval (nodeF p xs i) := by
    intro i hi
    rw [← listNodal_eq_nodal, ← hp]
    simp only [nodeF, List.getD_eq_getElem?_getD, List.getElem?_map, List.getElem?_eq_getElem hi, Option.map_some,
      Option.getD_some, Int.cast_natCast]
    exact ZMod.natCast_zmod_val _
  have hw : ∀ i < xs.length, (nodeF p (xs.map fun x : ℤ => (((derivative t.poly).eval (x : ZMod p)).val : ℤ)) i)⁻¹ =
      Lagrange.nodalWeight (Finset.range xs.length) (nodeF p xs) i := by
    intro i hi
    rw [hval i hi, Lagrange.nodalWeight_eq_eval_derivative_nodal (Finset.mem_range.mpr hi)]
  obtain ⟨ss, es, hl, hs⟩ := invAll_spec (p := p) (xs.map fun x : ℤ => (((derivative t.poly).eval (x : ZMod p)).val : ℤ)) (by
    intro a ha
    obtain ⟨i, hi, rfl⟩ := List.getElem_of_mem ha
    have hi' : i < xs.length := by simpa using hi
    have h1 := hw i hi'
    have h2 := Lagrange.nodalWeight_ne_zero h.inj (Finset.mem_range.mpr hi')
    intro h0
    apply h2
    rw [← h1]
    unfold nodeF
    rw [List.getD_eq_getElem?_getD, List.getElem?_eq_getElem hi, Option.getD_some, h0, inv_zero])
  refine ⟨⟨xs, ss⟩, ?_, rfl, by simpa using hl, fun i hi => ?_⟩
  · rw [batchPre, ht, Option.bind_some, he, Option.bind_some, es]; rfl
  · rw [hs i (by simpa using hi), hw i hi]

theorem diffProd_aux (p : ℕ) (x : ℤ) : ∀ (xs : List ℤ) (a : ℤ),
    ((xs.foldl (fun prod xi => fmod (prod * (x - xi)) p) a : ℤ) : ZMod p) = a * (listNodal p xs).eval (x : ZMod p)
  | [], a => by simp [listNodal]
  | y :: xs, a => by
    rw [List.foldl_cons, diffProd_aux p x xs]
    simp only [listNodal, List.map_cons, List.prod_cons, eval_mul, eval_sub, eval_X, eval_C]
    push_cast [fmod_cast]; ring

theorem preXCoeffs_spec {p : ℕ} [Fact p.Prime] (x prod : ℤ) : ∀ (xs ss : List ℤ), xs.length ≤ ss.length →
    (∀ y ∈ xs, (x : ZMod p) ≠ y) → ∃ c, preXCoeffs p x prod xs ss = some c ∧ c.length = xs.length ∧
      ∀ i < xs.length, nodeF p c i = ((x : ZMod p) - nodeF p xs i)⁻¹ * prod * nodeF p ss i
  | [], _, _, _ => ⟨[], by simp [preXCoeffs], rfl, by simp⟩
  | y :: xs, [], h, _ => by simp at h
  | y :: xs, s :: ss, h, hx => by
    have : NeZero p := ⟨(Fact.out : p.Prime).ne_zero⟩
    have hne : ((fmod (x - y) p : ℤ) : ZMod p) ≠ 0 := by
      rw [fmod_cast, Int.cast_sub, sub_ne_zero]; exact hx y (by simp)
    obtain ⟨t, ht⟩ := invmod_isSome hne
    obtain ⟨c, e, hl, hc⟩ := preXCoeffs_spec x prod xs ss (by simpa using h) fun z hz => hx z (by simp [hz])
    refine ⟨fmod (t * prod * s) p :: c, by rw [preXCoeffs, ht, Option.bind_some, e]; rfl, by simp [hl], fun i hi => ?_⟩
    cases i with
    | zero =>
      have h1 := eq_inv_of_mul_eq_one_right (invmod_some ht)
      rw [fmod_cast, Int.cast_sub] at h1
      simp only [nodeF, List.getD_cons_zero]
      rw [fmod_cast, Int.cast_mul, Int.cast_mul, h1]
    | succ i => exact hc i (by simpa using hi)

theorem preXSum_spec {p : ℕ} : ∀ (cs ys : List ℤ) (out : ℤ), cs.length ≤ ys.length →
    ∃ r, preXSum p out cs ys = some r ∧ (r : ZMod p) = out + ∑ i ∈ Finset.range cs.length, nodeF p ys i * nodeF p cs i
  | [], ys, out, _ => ⟨out, by simp [preXSum], by simp⟩
  | c :: cs, [], out, h => by simp at h
  | c :: cs, y :: ys, out, h => by
    obtain ⟨r, e, hr⟩ := preXSum_spec cs ys (fmod (out + fmod (y * c) p) p) (by simpa using h)
    refine ⟨r, by rw [preXSum, e], ?_⟩
    rw [hr, List.length_cons, Finset.sum_range_succ']
    simp only [nodeF, List.getD_cons_succ, List.getD_cons_zero]
    push_cast [fmod_cast]; ring

/-- The whole chain for good nodes, an arbitrary canonical point and values: no fault, and the result is the value of the
interpolation polynomial. -/
theorem preX_spec {p : ℕ} [Fact p.Prime] {xs : List ℤ} (h : GoodNodes p xs) {x : ℤ} (hx : Canon x p) :
    ∃ pre px, batchPre p xs = some pre ∧ preXInit p pre x = some px ∧ ∀ ys : List ℤ, xs.length ≤ ys.length →
      ∃ out, preXEval p px ys = some out ∧
        (out : ZMod p) = (Lagrange.interpolate (Finset.range xs.length) (nodeF p xs) (nodeF p ys)).eval (x : ZMod p) := by
  obtain ⟨pre, hpre, hxs, hsl, hss⟩ := batchPre_spec h
  cases hf : pre.xs.findIdx? (fun xi => x = xi) with
  | some i =>
    refine ⟨pre, .short i, hpre, by rw [preXInit, hf], fun ys hl => ?_⟩
    rw [hxs] at hf
    obtain ⟨hi, hxi⟩ := List.findIdx?_eq_some_iff_getElem.mp hf
    have hxi := of_decide_eq_true hxi.1
    refine ⟨ys[i]'(by omega), by simp only [preXEval]; rw [List.getElem?_eq_getElem], ?_⟩
    have hn : (x : ZMod p) = nodeF p xs i := by
      simp only [nodeF, List.getD_eq_getElem?_getD, List.getElem?_eq_getElem hi, Option.getD_some, hxi]
    rw [hn, Lagrange.eval_interpolate_at_node _ h.inj (Finset.mem_range.mpr hi)]
    simp only [nodeF, List.getD_eq_getElem?_getD, List.getElem?_eq_getElem (show i < ys.length by omega), Option.getD_some]
  | none =>
    have hne : ∀ y ∈ xs, (x : ZMod p) ≠ y := by
      intro y hy e
      have := canon_eq_of_cast hx (h.2.2 y hy) e
      rw [List.findIdx?_eq_none_iff, hxs] at hf
      have := hf y hy
      simp_all
    obtain ⟨c, ec, hcl, hc⟩ := preXCoeffs_spec (p := p) x (diffProd p x xs) xs pre.ss hsl.ge hne
    refine ⟨pre, .coeffs c, hpre, by rw [preXInit, hf]; simp only [hxs, ec, Option.map_some], fun ys hl => ?_⟩
    obtain ⟨r, er, hr⟩ := preXSum_spec (p := p) c ys 0 (by omega)
    refine ⟨r, er, ?_⟩
    rw [hr, Lagrange.eval_interpolate_not_at_node _ (fun i hi => by
      have hi' := Finset.mem_range.mp hi
      unfold nodeF
      rw [List.getD_eq_getElem?_getD, List.getElem?_eq_getElem hi', Option.getD_some]
      exact hne _ (List.getElem_mem hi')), ← listNodal_eq_nodal, Finset.mul_sum, Int.cast_zero, zero_add, hcl]
    apply Finset.sum_congr rfl
    intro i hi
    have hi' := Finset.mem_range.mp hi
    have hd : ((diffProd p x xs : ℤ) : ZMod p) = (listNodal p xs).eval (x : ZMod p) := by
      rw [diffProd, diffProd_aux]; simp
    rw [hc i hi', hss i hi', hd]
    ring

/-! ## C29 -/

/-- For pairwise different canonical nodes and any canonical point `x` (a node or not), the precomputation succeeds and
`precomp_x_eval` on any values returns, modulo `p`, `q(x)` for every polynomial `q` of degree less than the number of nodes
through these values; such a `q` exists. -/
theorem C29_eval {xs : List ℤ} (h : GoodNodes intModulus xs) {x : ℤ} (hx : Canon x intModulus) :
    ∃ pre px, batchPre intModulus xs = some pre ∧ preXInit intModulus pre x = some px ∧
      ∀ ys : List ℤ, xs.length ≤ ys.length → ∃ out, preXEval intModulus px ys = some out ∧
        (∀ q : (ZMod intModulus)[X], q.degree < xs.length →
          (∀ i < xs.length, q.eval ((xs.getD i 0 : ℤ) : ZMod intModulus) = ((ys.getD i 0 : ℤ) : ZMod intModulus)) →
          (out : ZMod intModulus) = q.eval (x : ZMod intModulus)) ∧
        ∃ q : (ZMod intModulus)[X], q.degree < xs.length ∧
          ∀ i < xs.length, q.eval ((xs.getD i 0 : ℤ) : ZMod intModulus) = ((ys.getD i 0 : ℤ) : ZMod intModulus) := by
  obtain ⟨pre, px, h1, h2, h3⟩ := preX_spec h hx
  refine ⟨pre, px, h1, h2, fun ys hl => ?_⟩
  obtain ⟨out, e, ho⟩ := h3 ys hl
  refine ⟨out, e, fun q hq hq' => ?_, ?_⟩
  · rw [ho, ← Lagrange.eq_interpolate_of_eval_eq (s := Finset.range xs.length) (v := nodeF intModulus xs) (r := nodeF intModulus ys)
      h.inj (by simpa using hq) fun i hi => hq' i (Finset.mem_range.mp hi)]
  · refine ⟨Lagrange.interpolate (Finset.range xs.length) (nodeF intModulus xs) (nodeF intModulus ys), ?_, fun i hi => ?_⟩
    · simpa using Lagrange.degree_interpolate_lt (s := Finset.range xs.length) (v := nodeF intModulus xs)
        (nodeF intModulus ys) h.inj
    · exact Lagrange.eval_interpolate_at_node _ h.inj (Finset.mem_range.mpr hi)

example : GoodNodes intModulus [1, 7, 5] ∧ Canon 7 intModulus ∧ Canon 11 intModulus := by
  refine ⟨⟨by simp, by decide, ?_⟩, by constructor <;> decide, by constructor <;> decide⟩
  intro x hx
  simp only [List.mem_cons, List.not_mem_nil, or_false] at hx
  rcases hx with rfl | rfl | rfl <;> constructor <;> decide

end Verif
