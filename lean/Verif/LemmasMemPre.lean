import Verif.ModelMemPre
import Verif.LemmasMemSnip
import Verif.LemmasRoots

/-! # Memory of the tables kept for checking packets: lemmas -/

namespace Verif

variable {S : ℕ} {R R' R₀ : Multiset Block}

/-! ## Trees -/

/-- The blocks of a tree. -/
def TreeMem.owned : TreeMem → Multiset Block
  | .leaf poly => {poly}
  | .node poly left right l r => {left} + (l.owned + ({right} + (r.owned + {poly})))

/-- All blocks come from `malloc`. -/
def TreeMem.Raw : TreeMem → Prop
  | .leaf poly => poly.way = .raw
  | .node poly left right l r => poly.way = .raw ∧ left.way = .raw ∧ right.way = .raw ∧ l.Raw ∧ r.Raw

/-- The bytes of a tree with `n` leaves. -/
def treeBytes (n : ℕ) : ℕ :=
  if n ≤ 1 then 16 else 80 + treeBytes (n / 2) + treeBytes (n - n / 2) + 8 * (n + 1)
termination_by n
decreasing_by all_goals omega

theorem tri_treeInit (n : ℕ) (hn : 0 < n) :
    Tri S R (treeInitMem n) fun t R' => t.Raw ∧ bytesOf t.owned = treeBytes n ∧ R' = t.owned + R := by
  induction n using Nat.strong_induction_on generalizing R with
  | _ n ih =>
    rw [treeInitMem, treeBytes, if_neg hn.ne']
    by_cases h1 : n = 1
    · subst h1
      rw [if_pos rfl, if_pos le_rfl]
      refine Tri.bind (Tri.alloc _ _) ?_
      rintro b _ ⟨h1, h2, rfl⟩
      exact Tri.pure ⟨h1, by rw [TreeMem.owned, bytesOf_single, h2], rfl⟩
    · rw [if_neg h1, if_neg (by omega)]
      refine Tri.bind (Tri.alloc _ _) ?_
      rintro lb _ ⟨h1, h1', rfl⟩
      refine Tri.bind (Tri.alloc _ _) ?_
      rintro rb _ ⟨h2, h2', rfl⟩
      refine Tri.bind (ih (n / 2) (by omega) (by omega)) ?_
      rintro l _ ⟨h3, h3', rfl⟩
      refine Tri.bind (ih (n - n / 2) (by omega) (by omega)) ?_
      rintro r _ ⟨h4, h4', rfl⟩
      refine Tri.bind (Tri.touch (by simp)) ?_
      rintro _ _ rfl
      refine Tri.bind (Tri.touch (by simp)) ?_
      rintro _ _ rfl
      refine Tri.bind (Tri.alloc _ _) ?_
      rintro p _ ⟨h5, h5', rfl⟩
      refine Tri.pure ⟨⟨h5, h1, h2, h3, h4⟩, ?_, by rw [TreeMem.owned]; abel⟩
      simp only [TreeMem.owned, bytesOf_add, bytesOf_single, h1', h2', h3', h4', h5']
      ring

theorem bad_treeInit : Bad S R (treeInitMem 0) := by
  rw [treeInitMem, if_pos rfl]
  exact Bad.fault

theorem tri_treeClear {t : TreeMem} (ht : t.Raw) (hs : Splits t.owned R R₀) : Tri S R (treeClearMem t) fun _ R' => R' = R₀ := by
  subst hs
  induction t generalizing R₀ with
  | leaf poly => exact Tri.release (.inl ht) Splits.here
  | node poly left right l r ihl ihr =>
    obtain ⟨h1, h2, h3, h4, h5⟩ := ht
    simp only [TreeMem.owned]
    refine Tri.bind (Tri.touch (by simp)) ?_
    rintro _ _ rfl
    refine Tri.pre (R' := l.owned + ({left} + ({right} + (r.owned + ({poly} + R₀))))) (by abel) (Tri.bind (ihl h4) ?_)
    rintro _ _ rfl
    rel
    refine Tri.bind (Tri.touch (by simp)) ?_
    rintro _ _ rfl
    refine Tri.pre (R' := r.owned + ({right} + ({poly} + R₀))) (by abel) (Tri.bind (ihr h5) ?_)
    rintro _ _ rfl
    rel
    exact Tri.release (.inl h1) (by takes)

theorem tri_fastEval {t : TreeMem} (n : ℕ) (hs : t.owned ≤ R) : Tri S R (fastEvalMem n t) fun _ R' => R' = R := by
  induction t generalizing R n with
  | leaf poly => exact Tri.pure rfl
  | node poly left right l r ihl ihr =>
    simp only [TreeMem.owned] at hs
    have hl : left ∈ R := Multiset.mem_of_le hs (by simp)
    have hr : right ∈ R := Multiset.mem_of_le hs (by simp)
    have ol : l.owned ≤ R := le_trans ((Multiset.le_add_right _ _).trans (Multiset.le_add_left _ _)) hs
    have or : r.owned ≤ R := le_trans (((Multiset.le_add_right _ _).trans (Multiset.le_add_left _ _)).trans
      ((Multiset.le_add_left _ _).trans (Multiset.le_add_left _ _))) hs
    rw [fastEvalMem]
    refine Tri.bind (Tri.touch hl) ?_
    rintro _ _ rfl
    refine Tri.bind (Tri.alloc _ _) ?_
    rintro r0 _ ⟨h1, -, rfl⟩
    refine Tri.bind (Tri.touch (by simp [hr])) ?_
    rintro _ _ rfl
    refine Tri.bind (Tri.alloc _ _) ?_
    rintro r1 _ ⟨h2, -, rfl⟩
    refine Tri.bind (ihl _ (ol.trans ((Multiset.le_add_left _ _).trans (Multiset.le_add_left _ _)))) ?_
    rintro _ _ rfl
    refine Tri.bind (ihr _ (or.trans ((Multiset.le_add_left _ _).trans (Multiset.le_add_left _ _)))) ?_
    rintro _ _ rfl
    rel
    exact Tri.release (.inl h2) (by takes)

/-- `2 ^ k` leaves: `2 ^ (k + 1) - 2` nodes apart from the root, and on each of the `k + 1` levels polynomials of degrees adding up to `2 ^ k`. -/
theorem treeBytes_pow (k : ℕ) : treeBytes (2 ^ k) = 80 * (2 ^ k - 1) + 8 * ((k + 1) * 2 ^ k + (2 * 2 ^ k - 1)) := by
  induction k with
  | zero => rw [treeBytes]; norm_num
  | succ k ih =>
    have hp : 0 < 2 ^ k := Nat.two_pow_pos k
    have e : 2 ^ (k + 1) = 2 * 2 ^ k := by rw [pow_succ]; ring
    rw [treeBytes, if_neg (by omega), show 2 ^ (k + 1) / 2 = 2 ^ k by omega, show 2 ^ (k + 1) - 2 ^ k = 2 ^ k by omega, ih, e]
    obtain ⟨m, hm⟩ : ∃ m, 2 ^ k = m + 1 := ⟨2 ^ k - 1, by omega⟩
    rw [hm]
    have : 2 * (m + 1) - 1 = 2 * m + 1 := by omega
    have h4 : 2 * (2 * (m + 1)) - 1 = 4 * m + 3 := by omega
    simp only [Nat.add_sub_cancel, this, h4]
    ring

/-! ## Node tables -/

/-- The blocks of a `BatchPre`. -/
def BatchMem.owned (b : BatchMem) : Multiset Block := {b.ss} + ({b.xs} + (b.tree.owned + ({b.deriv} + {b.obj})))

/-- Its blocks have the right ways. -/
structure BatchMem.Ok (b : BatchMem) : Prop where
  ss : b.ss.way = .raw
  xs : b.xs.way = .raw
  deriv : b.deriv.way = .raw
  obj : b.obj.way = .obj
  tree : b.tree.Raw

/-- The bytes of a `BatchPre` for `n` points. -/
def batchBytes (n : ℕ) : ℕ := 200 + 24 * n + treeBytes n

theorem tri_batchPre {points : List ℤ} (hn : 0 < points.length) (hS : 8 * points.length ≤ S) :
    Tri S R (batchPreMem points) fun b R' => b.Ok ∧ b.points = points ∧ bytesOf b.owned = batchBytes points.length ∧ R' = b.owned + R := by
  unfold batchPreMem
  refine Tri.bind (Tri.alloc _ _) ?_
  rintro obj _ ⟨h1, h1', rfl⟩
  refine Tri.bind (Tri.onStack hS) ?_
  rintro _ _ rfl
  refine Tri.bind (Tri.alloc _ _) ?_
  rintro xs _ ⟨h2, h2', rfl⟩
  refine Tri.bind (Tri.alloc _ _) ?_
  rintro ss _ ⟨h3, h3', rfl⟩
  refine Tri.bind (tri_treeInit _ hn) ?_
  rintro t _ ⟨h4, h4', rfl⟩
  refine Tri.bind (Tri.alloc _ _) ?_
  rintro dv _ ⟨h5, h5', rfl⟩
  refine Tri.bind (tri_fastEval _ ((Multiset.le_add_right _ _).trans (Multiset.le_add_left _ _))) ?_
  rintro _ _ rfl
  refine Tri.pure ⟨⟨h3, h2, h5, h1, h4⟩, rfl, ?_, by rw [BatchMem.owned]; abel⟩
  simp only [BatchMem.owned, bytesOf_add, bytesOf_single, h1', h2', h3', h4', h5', batchBytes]
  ring

theorem bad_batchPre : Bad S R (batchPreMem []) := by
  unfold batchPreMem
  refine Bad.bind (Tri.alloc _ _) ?_
  rintro obj _ ⟨-, -, rfl⟩
  refine Bad.bind (Tri.onStack (Nat.zero_le _)) ?_
  rintro _ _ rfl
  refine Bad.bind (Tri.alloc _ _) ?_
  rintro xs _ ⟨-, -, rfl⟩
  refine Bad.bind (Tri.alloc _ _) ?_
  rintro ss _ ⟨-, -, rfl⟩
  exact Bad.first bad_treeInit

theorem tri_deleteBatch {b : BatchMem} (hb : b.Ok) (hs : Splits b.owned R R₀) : Tri S R (deleteBatchMem b) fun _ R' => R' = R₀ := by
  subst hs
  obtain ⟨h1, h2, h3, h4, h5⟩ := hb
  unfold deleteBatchMem
  refine Tri.bind (Tri.touch (by simp [BatchMem.owned])) ?_
  rintro _ _ rfl
  refine Tri.bind (Tri.touch (by simp [BatchMem.owned])) ?_
  rintro _ _ rfl
  refine Tri.pre (R' := {b.ss} + ({b.xs} + (b.tree.owned + ({b.deriv} + ({b.obj} + R₀))))) (by rw [BatchMem.owned]; abel) ?_
  rel
  rel
  refine Tri.bind (tri_treeClear h5 Splits.here) ?_
  rintro _ _ rfl
  rel
  exact Tri.release (.inl h4) (by takes)

/-! ## Evaluation points -/

/-- The blocks of a `PreX`. -/
def PreXMem.owned (a : PreXMem) : Multiset Block := {a.coeffs} + {a.obj}

/-- The blocks that `precomp_x_clear` forgets. -/
def PreXMem.lost (a : PreXMem) : Multiset Block := if a.short then {a.coeffs} else 0

structure PreXMem.Ok (a : PreXMem) (points : List ℤ) (x : ℤ) : Prop where
  coeffs : a.coeffs.way = .raw
  obj : a.obj.way = .obj
  size : a.coeffs.bytes = 16 * points.length
  short : a.short = points.contains x

theorem tri_preX {b : BatchMem} {x : ℤ} (hb : b.owned ≤ R) :
    Tri S R (preXMem b x) fun a R' => a.Ok b.points x ∧ bytesOf a.owned = 32 + 16 * b.points.length ∧ R' = a.owned + R := by
  have m1 : b.obj ∈ R := Multiset.mem_of_le hb (by simp [BatchMem.owned])
  have m2 : b.xs ∈ R := Multiset.mem_of_le hb (by simp [BatchMem.owned])
  have m3 : b.ss ∈ R := Multiset.mem_of_le hb (by simp [BatchMem.owned])
  unfold preXMem
  refine Tri.bind (Tri.alloc _ _) ?_
  rintro obj _ ⟨h1, h1', rfl⟩
  refine Tri.bind (Tri.touch (by simp [m1])) ?_
  rintro _ _ rfl
  refine Tri.bind (Tri.touch (by simp [m2])) ?_
  rintro _ _ rfl
  refine Tri.bind (Tri.alloc _ _) ?_
  rintro co _ ⟨h2, h2', rfl⟩
  refine Tri.bind (Tri.touch (by simp [m3])) ?_
  rintro _ _ rfl
  refine Tri.pure ⟨⟨h2, h1, h2', rfl⟩, ?_, by rw [PreXMem.owned]; abel⟩
  simp only [PreXMem.owned, bytesOf_add, bytesOf_single, h1', h2']
  ring

theorem tri_deletePreX {a : PreXMem} {points : List ℤ} {x : ℤ} (ha : a.Ok points x) (hs : Splits a.owned R R₀) :
    Tri S R (deletePreXMem a) fun _ R' => R' = a.lost + R₀ := by
  subst hs
  obtain ⟨h1, h2, -, -⟩ := ha
  unfold deletePreXMem PreXMem.lost
  refine Tri.bind (Tri.touch (by simp [PreXMem.owned])) ?_
  rintro _ _ rfl
  simp only [PreXMem.owned]
  cases hsh : a.short with
  | true =>
    simp only [if_true]
    exact Tri.pre (R' := {a.coeffs} + ({a.obj} + R₀)) (by abel) (Tri.release (.inl h2) (by takes))
  | false =>
    simp only [Bool.false_eq_true, if_false]
    refine Tri.bind (Tri.touch (by simp)) ?_
    rintro _ _ rfl
    refine Tri.pre (R' := {a.coeffs} + ({a.obj} + R₀)) (by abel) (Tri.bind (Tri.release (.inl h1) (by takes)) ?_)
    rintro _ _ rfl
    exact (Tri.release (.inl h2) (by takes)).conseq fun _ _ h => by rw [h, zero_add]

theorem tri_evalPreX {a : PreXMem} (ha : a.owned ≤ R) : Tri S R (evalPreXMem a) fun _ R' => R' = R := by
  have m1 : a.obj ∈ R := Multiset.mem_of_le ha (by simp [PreXMem.owned])
  have m2 : a.coeffs ∈ R := Multiset.mem_of_le ha (by simp [PreXMem.owned])
  unfold evalPreXMem
  refine Tri.bind (Tri.touch m1) ?_
  rintro _ _ rfl
  split
  · exact Tri.pure rfl
  · exact Tri.touch m2

end Verif
