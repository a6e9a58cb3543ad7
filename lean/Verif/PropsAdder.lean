import Verif.PropsConvert

/-!
# C24: multiplication and addition of shared bits
-/

namespace Verif

/-- Entrywise XOR: the value two bit vectors stand for. -/
def xorL (a b : List Bool) : List Bool := List.zipWith (· != ·) a b

/-- Number written in binary, lowest bit first. -/
def natOfBits : List Bool → ℕ
  | [] => 0
  | b :: bs => (if b then 1 else 0) + 2 * natOfBits bs

@[simp] theorem xorL_length (a b : List Bool) (h : a.length = b.length) : (xorL a b).length = a.length := by
  simp [xorL, h]

theorem xorL_cons (a b : Bool) (as bs : List Bool) : xorL (a :: as) (b :: bs) = (a != b) :: xorL as bs := rfl

theorem combine_ok {A B : List BTriple} (h : List.Forall₂ TripleOk A B) (x0 x1 y0 y1 : List Bool)
    (hx0 : x0.length = A.length) (hx1 : x1.length = A.length) (hy0 : y0.length = A.length) (hy1 : y1.length = A.length) :
    let d0 := maskBits x0 (A.map (·.a))
    let d1 := maskBits x1 (B.map (·.a))
    let e0 := maskBits y0 (A.map (·.b))
    let e1 := maskBits y1 (B.map (·.b))
    let z0 := combineBits false x0 y0 A (maskBits d0 d1) (maskBits e0 e1)
    let z1 := combineBits true x1 y1 B (maskBits d1 d0) (maskBits e1 e0)
    z0.length = x0.length ∧ z1.length = x0.length ∧ xorL z0 z1 = List.zipWith (· && ·) (xorL x0 x1) (xorL y0 y1) := by
  induction h generalizing x0 x1 y0 y1 with
  | nil => cases x0 <;> cases x1 <;> cases y0 <;> cases y1 <;> simp_all [combineBits, xorL]
  | @cons a b A B hab _ ih =>
    cases x0 with
    | nil => simp at hx0
    | cons p0 x0 =>
    cases x1 with
    | nil => simp at hx1
    | cons p1 x1 =>
    cases y0 with
    | nil => simp at hy0
    | cons q0 y0 =>
    cases y1 with
    | nil => simp at hy1
    | cons q1 y1 =>
      obtain ⟨h1, h2, h3⟩ := ih x0 x1 y0 y1 (by simpa using hx0) (by simpa using hx1) (by simpa using hy0) (by simpa using hy1)
      simp only [maskBits, List.map_cons, List.zipWith_cons_cons, combineBits, xorL_cons, List.length_cons] at h1 h2 h3 ⊢
      refine ⟨by rw [h1], by rw [h2], ?_⟩
      rw [h3]
      congr 1
      unfold TripleOk at hab
      obtain ⟨a1, a2, a3⟩ := a
      obtain ⟨b1, b2, b3⟩ := b
      revert hab
      cases a1 <;> cases a2 <;> cases a3 <;> cases b1 <;> cases b2 <;> cases b3 <;> cases p0 <;> cases p1 <;> cases q0 <;>
        cases q1 <;> decide

/-- Outcome of an operation on the triple queue: `k` triples are taken from the front of each queue, after appending
equally many new ones on both sides. -/
structure TrStep (p : ℕ) (s0 s1 s0' s1' : Store) (k : ℕ) : Prop where
  ok : StoresOk p s0' s1'
  new : ∃ d0 d1, s0'.triples = (s0.triples ++ d0).drop k ∧ s1'.triples = (s1.triples ++ d1).drop k ∧
    d0.length = d1.length ∧ k ≤ (s0.triples ++ d0).length
  da : s0'.dabits = s0.dabits ∧ s1'.dabits = s1.dabits

/-- Two operations in sequence. -/
theorem TrStep.trans {p : ℕ} {s0 s1 t0 t1 u0 u1 : Store} {k l : ℕ} (hs : StoresOk p s0 s1) (h : TrStep p s0 s1 t0 t1 k)
    (h' : TrStep p t0 t1 u0 u1 l) : TrStep p s0 s1 u0 u1 (k + l) := by
  obtain ⟨d0, d1, e0, e1, hd, hk⟩ := h.new
  obtain ⟨f0, f1, e0', e1', hf, hl⟩ := h'.new
  have hk1 : k ≤ (s1.triples ++ d1).length := by
    rw [List.length_append, ← hd, ← hs.lenT, ← List.length_append]; exact hk
  refine ⟨h'.ok, ⟨d0 ++ f0, d1 ++ f1, ?_, ?_, by simp [hd, hf], ?_⟩, h'.da.1.trans h.da.1, h'.da.2.trans h.da.2⟩
  · rw [e0', e0, ← List.drop_append_of_le_length hk, List.drop_drop, List.append_assoc]
  · rw [e1', e1, ← List.drop_append_of_le_length hk1, List.drop_drop, List.append_assoc]
  · rw [e0] at hl
    simp only [List.length_append, List.length_drop] at hl hk ⊢
    omega

theorem multiply_pair {p : ℕ} (c : StoreCfg) (g0 g1 : StoreRng) (x0 x1 y0 y1 : List Bool) (hx : x0.length = x1.length)
    (hy0 : y0.length = x0.length) (hy1 : y1.length = x0.length) (s0 s1 : Store) (h : StoresOk p s0 s1) :
    ∃ z0 z1 s0' s1', Pair (multiplyBoolShares c g0 false x0 y0 s0) (multiplyBoolShares c g1 true x1 y1 s1) (z0, s0') (z1, s1') ∧
      z0.length = x0.length ∧ z1.length = x0.length ∧ xorL z0 z1 = List.zipWith (· && ·) (xorL x0 x1) (xorL y0 y1) ∧
      TrStep p s0 s1 s0' s1' x0.length := by
  obtain ⟨t0, t1, hP, hok, hlen, ⟨d0, d1, e0, e1, hd⟩, hda0, hda1, _⟩ := checkBoolTriples_pair (p := p) c g0 g1 x0.length s0 s1 h
  have hG := getBoolTriples_pair (p := p) c g0 g1 x0.length t0 t1 hok hlen
  have hA : (t0.triples.take x0.length).length = x0.length := by simp; exact hlen
  have hB : (t1.triples.take x0.length).length = x0.length := by simp [← hok.lenT]; exact hlen
  have hAB : List.Forall₂ TripleOk (t0.triples.take x0.length) (t1.triples.take x0.length) := List.forall₂_take _ hok.tr
  obtain ⟨k1, k2, k3⟩ := combine_ok hAB x0 x1 y0 y1 hA.symm (by rw [hA, hx]) (by rw [hA, hy0]) (by rw [hA, hy1])
  refine ⟨_, _, ⟨t0.dabits, t0.triples.drop x0.length, t0.calls⟩, ⟨t1.dabits, t1.triples.drop x0.length, t1.calls⟩, ?_,
    k1, k2, k3, ?_⟩
  · unfold multiplyBoolShares
    rw [if_neg (by simp [hy0]), if_neg (by simp [hy1, hx]), ← hx]
    refine hP.bind (hG.bind ((Pair.exch (a := (_, _)) (b := (_, _)) ?_ ?_).bind (Pair.ret _ _)))
    · have m1 := reads_bools (maskBits x1 ((t1.triples.take x0.length).map (·.a)))
      have m2 := reads_bools (maskBits y1 ((t1.triples.take x0.length).map (·.b)))
      rw [maskBits_length _ _ (by rw [List.length_map, hB, hx]), ← hx] at m1
      rw [maskBits_length _ _ (by rw [List.length_map, hB, hy1]), hy1] at m2
      exact m1.bind m2.bindRet
    · have m1 := reads_bools (maskBits x0 ((t0.triples.take x0.length).map (·.a)))
      have m2 := reads_bools (maskBits y0 ((t0.triples.take x0.length).map (·.b)))
      rw [maskBits_length _ _ (by rw [List.length_map, hA])] at m1
      rw [maskBits_length _ _ (by rw [List.length_map, hA, hy0]), hy0] at m2
      exact m1.bind m2.bindRet
  · refine ⟨⟨hok.da, List.forall₂_drop _ hok.tr⟩, ⟨d0, d1, by simp [e0], by simp [e1], hd, ?_⟩, hda0, hda1⟩
    rw [← e0]; exact hlen

/-- C24, multiplication. For every schedule, all inputs and draws: entrywise AND of the values the shares stand for; one
triple per entry is used on each side. -/
theorem C24_multiply (c : StoreCfg) (g0 g1 : StoreRng) (x0 x1 y0 y1 : List Bool) (hx : x0.length = x1.length)
    (hy0 : y0.length = x0.length) (hy1 : y1.length = x0.length) (s0 s1 : Store) (h : StoresOk intModulus s0 s1) :
    ∃ z0 z1 s0' s1', Always (multiplyBoolShares c g0 false x0 y0 s0) (multiplyBoolShares c g1 true x1 y1 s1)
        (z0, s0') (z1, s1') ∧
      z0.length = x0.length ∧ z1.length = x0.length ∧ xorL z0 z1 = List.zipWith (· && ·) (xorL x0 x1) (xorL y0 y1) ∧
      TrStep intModulus s0 s1 s0' s1' x0.length :=
  let ⟨z0, z1, s0', s1', hP, h⟩ := multiply_pair c g0 g1 x0 x1 y0 y1 hx hy0 hy1 s0 s1 h
  ⟨z0, z1, s0', s1', hP.always, h⟩

example : StoresOk intModulus ⟨[], [⟨true, true, true⟩], 3⟩ ⟨[], [⟨false, true, true⟩], 3⟩ :=
  ⟨.nil, .cons rfl .nil⟩

/-! ## The adder -/

theorem natOfBits_append (a b : List Bool) : natOfBits (a ++ b) = natOfBits a + 2 ^ a.length * natOfBits b := by
  induction a with
  | nil => simp [natOfBits]
  | cons x a ih => simp only [List.cons_append, natOfBits, ih, List.length_cons, pow_succ]; ring

/-- The state of one row on both servers after `j` positions. -/
structure RowInv (j : ℕ) (r0 r1 : AddRow) : Prop where
  lx : r1.x.length = r0.x.length
  ly0 : r0.y.length = r0.x.length
  ly1 : r1.y.length = r0.x.length
  lz0 : r0.z.length = min j r0.x.length
  lz1 : r1.z.length = min j r0.x.length
  val : natOfBits (xorL r0.z r1.z) + 2 ^ (min j r0.x.length) * (if r0.carry != r1.carry then 1 else 0) =
    natOfBits ((xorL r0.x r1.x).take j) + natOfBits ((xorL r0.y r1.y).take j)

theorem xorL_getD (a b : List Bool) (h : a.length = b.length) (j : ℕ) :
    (xorL a b).getD j false = (a.getD j false != b.getD j false) := by
  unfold xorL
  simp only [List.getD, List.getElem?_zipWith]
  by_cases hj : j < a.length
  · simp [hj, h ▸ hj]
  · have e1 : a[j]? = none := by simp; omega
    have e2 : b[j]? = none := by simp; omega
    simp [e1, e2]

theorem take_succ_getD (l : List Bool) (j : ℕ) (h : j < l.length) : l.take (j + 1) = l.take j ++ [l.getD j false] := by
  rw [List.take_add_one]
  simp [h]

theorem RowInv.step {j : ℕ} {r0 r1 : AddRow} (h : RowInv j r0 r1) (hj : j < r0.x.length) (n0 n1 : Bool)
    (hn : (n0 != n1) = (((r0.carry ^^ r0.x.getD j false) != (r1.carry ^^ r1.x.getD j false)) &&
      ((r0.carry ^^ r0.y.getD j false) != (r1.carry ^^ r1.y.getD j false)))) :
    RowInv (j + 1) ⟨r0.x, r0.y, r0.z ++ [(r0.carry ^^ r0.x.getD j false) ^^ r0.y.getD j false], r0.carry ^^ n0⟩
      ⟨r1.x, r1.y, r1.z ++ [(r1.carry ^^ r1.x.getD j false) ^^ r1.y.getD j false], r1.carry ^^ n1⟩ := by
  have m1 : min j r0.x.length = j := by omega
  have m2 : min (j + 1) r0.x.length = j + 1 := by omega
  refine ⟨h.lx, h.ly0, h.ly1, by simp [h.lz0]; omega, by simp [h.lz1]; omega, ?_⟩
  have hv := h.val
  have z0 := h.lz0
  have z1 := h.lz1
  rw [m1] at z0 z1 hv
  simp only [m2]
  have e : xorL (r0.z ++ [(r0.carry ^^ r0.x.getD j false) ^^ r0.y.getD j false])
      (r1.z ++ [(r1.carry ^^ r1.x.getD j false) ^^ r1.y.getD j false]) =
      xorL r0.z r1.z ++ [((r0.carry ^^ r0.x.getD j false) ^^ r0.y.getD j false) !=
        ((r1.carry ^^ r1.x.getD j false) ^^ r1.y.getD j false)] := by
    unfold xorL; rw [List.zipWith_append (by rw [z0, z1])]; rfl
  rw [e, take_succ_getD _ _ (by rw [xorL_length _ _ h.lx.symm]; exact hj),
    take_succ_getD _ _ (by rw [xorL_length _ _ (by rw [h.ly0, h.ly1]), h.ly0]; exact hj), natOfBits_append, natOfBits_append,
    natOfBits_append, xorL_getD _ _ h.lx.symm, xorL_getD _ _ (by rw [h.ly0, h.ly1])]
  have l1 : (xorL r0.z r1.z).length = j := by rw [xorL_length _ _ (by rw [z0, z1]), z0]
  have l2 : ((xorL r0.x r1.x).take j).length = j := by
    rw [List.length_take, xorL_length _ _ h.lx.symm]; omega
  have l3 : ((xorL r0.y r1.y).take j).length = j := by
    rw [List.length_take, xorL_length _ _ (by rw [h.ly0, h.ly1]), h.ly0]; omega
  rw [l1, l2, l3]
  generalize r0.x.getD j false = a0 at *
  generalize r1.x.getD j false = a1 at *
  generalize r0.y.getD j false = b0 at *
  generalize r1.y.getD j false = b1 at *
  generalize r0.carry = c0 at *
  generalize r1.carry = c1 at *
  have key : natOfBits [((c0 ^^ a0) ^^ b0) != ((c1 ^^ a1) ^^ b1)] + 2 * (if (c0 ^^ n0) != (c1 ^^ n1) then 1 else 0) =
      (if c0 != c1 then 1 else 0) + natOfBits [a0 != a1] + natOfBits [b0 != b1] := by
    revert hn
    clear * -
    cases a0 <;> cases a1 <;> cases b0 <;> cases b1 <;> cases c0 <;> cases c1 <;> cases n0 <;> cases n1 <;> decide
  have := congrArg (fun t => 2 ^ j * t) key
  rw [pow_succ]
  linarith

theorem RowInv.skip {j : ℕ} {r0 r1 : AddRow} (h : RowInv j r0 r1) (hj : ¬ j < r0.x.length) : RowInv (j + 1) r0 r1 := by
  have m1 : min j r0.x.length = r0.x.length := by omega
  have m2 : min (j + 1) r0.x.length = r0.x.length := by omega
  refine ⟨h.lx, h.ly0, h.ly1, by rw [h.lz0, m1, m2], by rw [h.lz1, m1, m2], ?_⟩
  have lx : (xorL r0.x r1.x).length = r0.x.length := xorL_length _ _ h.lx.symm
  have ly : (xorL r0.y r1.y).length = r0.x.length := by rw [xorL_length _ _ (by rw [h.ly0, h.ly1]), h.ly0]
  have hv := h.val
  rw [m1, List.take_of_length_le (by omega), List.take_of_length_le (by omega)] at hv
  rw [m2, List.take_of_length_le (by omega), List.take_of_length_le (by omega)]
  exact hv

theorem scatter_ok {j : ℕ} {rs0 rs1 : List AddRow} (h : List.Forall₂ (RowInv j) rs0 rs1) (n0 n1 : List Bool)
    (hl0 : n0.length = (rs0.filter fun r => j < r.x.length).length)
    (hl1 : n1.length = (rs0.filter fun r => j < r.x.length).length)
    (hn : xorL n0 n1 = List.zipWith (· && ·)
      (xorL ((rs0.filter fun r => j < r.x.length).map fun r => r.carry ^^ r.x.getD j false)
        ((rs1.filter fun r => j < r.x.length).map fun r => r.carry ^^ r.x.getD j false))
      (xorL ((rs0.filter fun r => j < r.x.length).map fun r => r.carry ^^ r.y.getD j false)
        ((rs1.filter fun r => j < r.x.length).map fun r => r.carry ^^ r.y.getD j false))) :
    List.Forall₂ (RowInv (j + 1)) (addScatter j rs0 n0) (addScatter j rs1 n1) := by
  induction h generalizing n0 n1 with
  | nil => exact .nil
  | @cons r0 r1 rs0 rs1 hr _ ih =>
    have hlx := hr.lx
    by_cases hj : j < r0.x.length
    · have hj1 : j < r1.x.length := by omega
      simp only [List.filter_cons, hj, hj1, decide_true, if_true, List.length_cons, List.map_cons] at hl0 hl1 hn
      cases n0 with
      | nil => simp at hl0
      | cons m0 n0 =>
      cases n1 with
      | nil => simp at hl1
      | cons m1 n1 =>
        simp only [xorL_cons, List.zipWith_cons_cons, List.cons.injEq] at hn
        simp only [addScatter, hj, hj1, if_true]
        exact .cons (hr.step hj m0 m1 hn.1) (ih n0 n1 (by simpa using hl0) (by simpa using hl1) hn.2)
    · have hj1 : ¬ j < r1.x.length := by omega
      simp only [List.filter_cons, hj, hj1, decide_false, Bool.false_eq_true, if_false] at hl0 hl1 hn
      simp only [addScatter, hj, hj1, if_false]
      exact .cons (hr.skip hj) (ih n0 n1 hl0 hl1 hn)

theorem filter_len {j : ℕ} {rs0 rs1 : List AddRow} (h : List.Forall₂ (RowInv j) rs0 rs1) :
    (rs0.filter fun r => j < r.x.length).length = (rs1.filter fun r => j < r.x.length).length := by
  induction h with
  | nil => rfl
  | @cons r0 r1 rs0 rs1 hr _ ih =>
    have hlx := hr.lx
    by_cases hj : j < r0.x.length
    · have hj1 : j < r1.x.length := by omega
      simp [hj, hj1, ih]
    · have hj1 : ¬ j < r1.x.length := by omega
      simp [hj, hj1, ih]

theorem le_foldl_max (l : List ℕ) (a : ℕ) : a ≤ l.foldl max a ∧ ∀ x ∈ l, x ≤ l.foldl max a := by
  induction l generalizing a with
  | nil => simp
  | cons y l ih =>
    have h := ih (max a y)
    refine ⟨le_trans (le_max_left ..) h.1, ?_⟩
    intro x hx
    rcases List.mem_cons.1 hx with rfl | hx
    · exact le_trans (le_max_right ..) h.1
    · exact h.2 x hx

/-- One row of the specification of addition: the result bits and the carry stand for the sum of the two numbers. -/
def SumRow (a b : List Bool × List Bool) (z0 z1 : List Bool × Bool) : Prop :=
  z0.1.length = a.1.length ∧ z1.1.length = a.1.length ∧
  natOfBits (xorL z0.1 z1.1) + 2 ^ a.1.length * (if z0.2 != z1.2 then 1 else 0) =
    natOfBits (xorL a.1 b.1) + natOfBits (xorL a.2 b.2)

/-- Rows of the same shape on both servers. -/
def SameShape (a b : List Bool × List Bool) : Prop :=
  a.2.length = a.1.length ∧ b.1.length = a.1.length ∧ b.2.length = a.1.length

theorem init_rows {A B : List (List Bool × List Bool)} (h : List.Forall₂ SameShape A B) :
    List.Forall₂ (RowInv 0) (A.map fun r => ⟨r.1, r.2, [], false⟩) (B.map fun r => ⟨r.1, r.2, [], false⟩) := by
  induction h with
  | nil => exact .nil
  | cons h _ ih => exact .cons ⟨h.2.1, h.1, h.2.2, by simp, by simp, by simp [natOfBits, xorL]⟩ ih

theorem addScatter_xy (j : ℕ) (rs : List AddRow) (ns : List Bool) :
    (addScatter j rs ns).map (fun r => (r.x, r.y)) = rs.map fun r => (r.x, r.y) := by
  induction rs generalizing ns with
  | nil => rfl
  | cons r rs ih =>
    rw [addScatter.eq_def]
    dsimp only
    split
    · cases ns with
      | nil => simp [ih]
      | cons n ns => simp [ih]
    · simp [ih]

theorem shape_widths {A B : List (List Bool × List Bool)} (h : List.Forall₂ SameShape A B) :
    B.map (·.1.length) = A.map (·.1.length) := by
  induction h with
  | nil => rfl
  | cons h _ ih => simp [ih, h.2.1]

theorem shape_all {A B : List (List Bool × List Bool)} (h : List.Forall₂ SameShape A B) :
    (A.all fun r => r.1.length = r.2.length) = true ∧ (B.all fun r => r.1.length = r.2.length) = true := by
  induction h with
  | nil => exact ⟨rfl, rfl⟩
  | cons h _ ih =>
    obtain ⟨h1, h2, h3⟩ := h
    simp only [List.all_cons, ih.1, ih.2, Bool.and_true, decide_eq_true_eq]
    omega

/-- Number of AND gates of the adder from position `j` on. -/
def addGates (ws : List ℕ) : ℕ → ℕ → ℕ
  | 0, _ => 0
  | fuel + 1, j => (ws.filter fun w => j < w).length + addGates ws fuel (j + 1)

theorem addGates_eq (ws : List ℕ) (fuel j : ℕ) : addGates ws fuel j = (ws.map fun w => min (w - j) fuel).sum := by
  induction fuel generalizing j with
  | zero => simp [addGates]
  | succ fuel ih =>
    rw [addGates, ih]
    clear ih
    induction ws with
    | nil => rfl
    | cons w ws ih =>
      simp only [List.filter_cons, List.map_cons, List.sum_cons]
      by_cases h : j < w
      · simp only [h, decide_true, if_true, List.length_cons]; omega
      · simp only [h, decide_false, Bool.false_eq_true, if_false]; omega

theorem filter_widths (rs : List AddRow) (A : List (List Bool × List Bool)) (h : rs.map (fun r => (r.x, r.y)) = A) (j : ℕ) :
    (rs.filter fun r => j < r.x.length).length = ((A.map (·.1.length)).filter fun w => j < w).length := by
  subst h
  simp only [List.map_map, List.filter_map, List.length_map]
  rfl

/-- The loop: the invariant holds at the end, the addends of the rows are unchanged, one triple per gate is used. -/
theorem addLoop_pair {p : ℕ} (c : StoreCfg) (g0 g1 : StoreRng) (fuel j : ℕ) (A B : List (List Bool × List Bool))
    (rs0 rs1 : List AddRow) (hA : rs0.map (fun r => (r.x, r.y)) = A) (hB : rs1.map (fun r => (r.x, r.y)) = B)
    (hr : List.Forall₂ (RowInv j) rs0 rs1) (s0 s1 : Store) (h : StoresOk p s0 s1) :
    ∃ rs0' rs1' s0' s1', Pair (addLoop c g0 false fuel j rs0 s0) (addLoop c g1 true fuel j rs1 s1) (rs0', s0') (rs1', s1') ∧
      List.Forall₂ (RowInv (j + fuel)) rs0' rs1' ∧ TrStep p s0 s1 s0' s1' (addGates (A.map (·.1.length)) fuel j) ∧
      rs0'.map (fun r => (r.x, r.y)) = A ∧ rs1'.map (fun r => (r.x, r.y)) = B := by
  induction fuel generalizing j rs0 rs1 s0 s1 with
  | zero =>
    exact ⟨rs0, rs1, s0, s1, Pair.ret _ _, hr, ⟨h, ⟨[], [], by simp [addGates], by simp [addGates], rfl, by simp [addGates]⟩, rfl, rfl⟩,
      hA, hB⟩
  | succ fuel ih =>
    have hl := filter_len hr
    obtain ⟨z0, z1, t0, t1, hP, k0, k1, kz, st⟩ := multiply_pair (p := p) c g0 g1
      ((rs0.filter fun r => j < r.x.length).map fun r => r.carry ^^ r.x.getD j false)
      ((rs1.filter fun r => j < r.x.length).map fun r => r.carry ^^ r.x.getD j false)
      ((rs0.filter fun r => j < r.x.length).map fun r => r.carry ^^ r.y.getD j false)
      ((rs1.filter fun r => j < r.x.length).map fun r => r.carry ^^ r.y.getD j false)
      (by simpa using hl) (by simp) (by simpa using hl.symm) s0 s1 h
    have hs := scatter_ok hr z0 z1 (by rw [k0, List.length_map]) (by rw [k1, List.length_map]) kz
    obtain ⟨rs0', rs1', s0', s1', hQ, hR, hS, e2, e3⟩ := ih (j + 1) _ _ (by rw [addScatter_xy]; exact hA)
      (by rw [addScatter_xy]; exact hB) hs t0 t1 st.ok
    rw [List.length_map, filter_widths _ _ hA] at st
    refine ⟨rs0', rs1', s0', s1', hP.bind hQ, ?_, TrStep.trans h st hS, e2, e3⟩
    rw [show j + (fuel + 1) = j + 1 + fuel by omega]; exact hR

theorem final_rows {A B : List (List Bool × List Bool)} {rs0 rs1 : List AddRow} {n : ℕ}
    (h : List.Forall₂ (RowInv n) rs0 rs1) (e0 : rs0.map (fun r => (r.x, r.y)) = A) (e1 : rs1.map (fun r => (r.x, r.y)) = B)
    (hn : ∀ a ∈ A, a.1.length ≤ n) :
    List.Forall₂ (fun (q : (List Bool × List Bool) × (List Bool × List Bool)) (z : (List Bool × Bool) × (List Bool × Bool)) =>
      SumRow q.1 q.2 z.1 z.2) (A.zip B) ((rs0.map fun r => (r.z, r.carry)).zip (rs1.map fun r => (r.z, r.carry))) := by
  induction h generalizing A B with
  | nil => subst e0; exact .nil
  | @cons r0 r1 rs0 rs1 hr _ ih =>
    subst e0 e1
    refine .cons ?_ (ih rfl rfl fun a ha => hn a (List.mem_cons_of_mem _ ha))
    have hlen := hn (r0.x, r0.y) (List.mem_cons_self ..)
    simp only at hlen
    have m : min n r0.x.length = r0.x.length := by omega
    have hv := hr.val
    rw [m, List.take_of_length_le (by rw [xorL_length _ _ hr.lx.symm]; exact hlen),
      List.take_of_length_le (by rw [xorL_length _ _ (by rw [hr.ly0, hr.ly1]), hr.ly0]; exact hlen)] at hv
    exact ⟨by rw [hr.lz0, m], by rw [hr.lz1, m], hv⟩

/-- C24, addition, in compositional form. -/
theorem add_pair {p : ℕ} (c : StoreCfg) (g0 g1 : StoreRng) (A B : List (List Bool × List Bool))
    (hs : List.Forall₂ SameShape A B) (s0 s1 : Store) (h : StoresOk p s0 s1) :
    ∃ Z0 Z1 s0' s1', Pair (addBinaryShares c g0 false A s0) (addBinaryShares c g1 true B s1) (Z0, s0') (Z1, s1') ∧
      Z0.length = A.length ∧ Z1.length = A.length ∧
      List.Forall₂ (fun (q : (List Bool × List Bool) × (List Bool × List Bool)) (z : (List Bool × Bool) × (List Bool × Bool)) =>
        SumRow q.1 q.2 z.1 z.2) (A.zip B) (Z0.zip Z1) ∧
      TrStep p s0 s1 s0' s1' (A.map (·.1.length)).sum := by
  obtain ⟨t0, t1, hP, hok, _, ⟨d0, d1, k0, k1, hd⟩, hda0, hda1, _⟩ :=
    checkBoolTriples_pair (p := p) c g0 g1 (A.map (·.1.length)).sum s0 s1 h
  have e2 : (A.map fun r => (⟨r.1, r.2, [], false⟩ : AddRow)).map (fun r => (r.x, r.y)) = A := by
    rw [List.map_map]; exact List.map_id _
  have e3 : (B.map fun r => (⟨r.1, r.2, [], false⟩ : AddRow)).map (fun r => (r.x, r.y)) = B := by
    rw [List.map_map]; exact List.map_id _
  have hmax := le_foldl_max (A.map (·.1.length)) 0
  obtain ⟨rs0', rs1', s0', s1', hQ, hR, hS, e2', e3'⟩ := addLoop_pair (p := p) c g0 g1
    ((A.map (·.1.length)).foldl max 0) 0 A B _ _ e2 e3 (init_rows hs) t0 t1 hok
  refine ⟨_, _, s0', s1', ?_, ?_, ?_, final_rows hR e2' e3' ?_, ?_⟩
  · unfold addBinaryShares
    rw [if_pos (shape_all hs).1, if_pos (shape_all hs).2, shape_widths hs]
    exact hP.bind (hQ.bind (Pair.ret _ _))
  · have := congrArg List.length e2'; simpa using this
  · have := congrArg List.length e3'; rw [hs.length_eq]; simpa using this
  · intro a ha
    have := hmax.2 a.1.length (List.mem_map.2 ⟨a, ha, rfl⟩)
    omega
  · have hg : addGates (A.map (·.1.length)) ((A.map (·.1.length)).foldl max 0) 0 = (A.map (·.1.length)).sum := by
      rw [addGates_eq]
      congr 1
      conv_rhs => rw [← List.map_id (A.map (·.1.length))]
      apply List.map_congr_left
      intro w hw
      have := hmax.2 w hw
      simp only [id]; omega
    rw [hg] at hS
    have hc : TrStep p s0 s1 t0 t1 0 := ⟨hok, ⟨d0, d1, by simp [k0], by simp [k1], hd, by omega⟩, hda0, hda1⟩
    simpa using TrStep.trans h hc hS

/-- C24, addition. Rows of any, also different, widths: for every schedule, all inputs and draws, row by row the sum bits
together with the carry stand for the exact sum of the two numbers; one triple per bit is used on each side. -/
theorem C24_add (c : StoreCfg) (g0 g1 : StoreRng) (A B : List (List Bool × List Bool)) (hs : List.Forall₂ SameShape A B)
    (s0 s1 : Store) (h : StoresOk intModulus s0 s1) :
    ∃ Z0 Z1 s0' s1', Always (addBinaryShares c g0 false A s0) (addBinaryShares c g1 true B s1) (Z0, s0') (Z1, s1') ∧
      Z0.length = A.length ∧ Z1.length = A.length ∧
      List.Forall₂ (fun (q : (List Bool × List Bool) × (List Bool × List Bool)) (z : (List Bool × Bool) × (List Bool × Bool)) =>
        SumRow q.1 q.2 z.1 z.2) (A.zip B) (Z0.zip Z1) ∧
      TrStep intModulus s0 s1 s0' s1' (A.map (·.1.length)).sum :=
  let ⟨Z0, Z1, s0', s1', hP, h⟩ := add_pair c g0 g1 A B hs s0 s1 h
  ⟨Z0, Z1, s0', s1', hP.always, h⟩

/-- Rows of widths 3 and 1 meet the hypothesis. -/
example : List.Forall₂ SameShape [([true, false, true], [true, true, false]), ([true], [true])]
    [([false, false, true], [true, true, true]), ([false], [false])] :=
  .cons ⟨rfl, rfl, rfl⟩ (.cons ⟨rfl, rfl, rfl⟩ .nil)

end Verif
