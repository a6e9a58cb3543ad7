import Verif.LemmasMemPre
import Mathlib.Algebra.BigOperators.Group.Finset.Basic
import Mathlib.Data.Finset.Dedup

/-! # Memory of the tables kept for checking packets: checkers and sessions -/

namespace Verif

variable {S : ℕ} {R R' R₀ : Multiset Block}

/-- A list of all `n`-th roots of unity. -/
structure NodesFor (n : ℕ) (points : List ℤ) : Prop where
  len : points.length = n
  mem : ∀ x, Canon x intModulus → (x ∈ points ↔ ((x : ℤ) : ZMod intModulus) ^ n = 1)

theorem nodes_of_powers {n : ℕ} (hn : 0 < n) {l : List ℤ} (hl : l.length = n) (hc : ∀ x ∈ l, Canon x intModulus) {w : ZMod intModulus}
    (hw : IsPrimitiveRoot w n) (h : ∀ i (hi : i < n), ((l[i]'(by omega) : ℤ) : ZMod intModulus) = w ^ i) : NodesFor n l := by
  have : Fact intModulus.Prime := ⟨intModulus_prime⟩
  have : NeZero n := ⟨hn.ne'⟩
  refine ⟨hl, fun x hx => ⟨fun hm => ?_, fun he => ?_⟩⟩
  · obtain ⟨i, hi, rfl⟩ := List.mem_iff_getElem.1 hm
    rw [h i (by omega), ← pow_mul, mul_comm, pow_mul, hw.pow_eq_one, one_pow]
  · obtain ⟨i, hi, e⟩ := hw.eq_pow_of_pow_eq_one he
    have := canon_eq_of_cast hx (hc _ (List.getElem_mem (by omega : i < l.length))) (by rw [h i hi, e])
    rw [this]
    exact List.getElem_mem _

theorem tables_roots {n : ℕ} (hn : 0 < n) {t : RootTables} (h : TablesOK intModulus n t) : NodesFor n t.roots ∧ NodesFor (2 * n) t.roots2 := by
  obtain ⟨w, v, hw, hv, h1, -, h2⟩ := h.prim
  exact ⟨nodes_of_powers hn h.len (fun x hx => h.canon x (by simp [hx])) hw h1,
    nodes_of_powers (by omega) h.len2 (fun x hx => h.canon x (by simp [hx])) hv h2⟩

/-! ## Checkers -/

/-- The blocks of the two `PreX`. -/
def pairOwned : Option (PreXMem × PreXMem) → Multiset Block
  | none => 0
  | some (a, b) => a.owned + b.owned

/-- The blocks of a `CheckerPreComp`. -/
def CheckerMem.owned (c : CheckerMem) : Multiset Block := {c.obj} + (c.degN.owned + (c.deg2N.owned + pairOwned c.pair))

/-- A `CheckerPreComp(N)` after its constructor. -/
structure CheckerMem.Made (c : CheckerMem) (N : ℕ) : Prop where
  pos : 0 < N
  obj : c.obj.way = .obj
  degN : c.degN.Ok
  deg2N : c.deg2N.Ok
  nodesN : NodesFor N c.degN.points
  nodes2N : NodesFor (2 * N) c.deg2N.points
  bytes : bytesOf ({c.obj} + (c.degN.owned + c.deg2N.owned)) = 40 + batchBytes N + batchBytes (2 * N)

/-- A `CheckerPreComp(N)` for check point `x`. -/
structure CheckerMem.Set (c : CheckerMem) (N : ℕ) (x : ℤ) : Prop where
  made : c.Made N
  pair : ∃ a b, c.pair = some (a, b) ∧ a.Ok c.degN.points x ∧ b.Ok c.deg2N.points x ∧ bytesOf a.owned = 32 + 16 * N ∧ bytesOf b.owned = 32 + 16 * (2 * N)

/-- The bytes that renewing a check point `x` of a checker for size `N` loses. -/
def lostAt (N : ℕ) (x : ℤ) : ℕ :=
  (if ((x : ℤ) : ZMod intModulus) ^ N = 1 then 16 * N else 0) + if ((x : ℤ) : ZMod intModulus) ^ (2 * N) = 1 then 32 * N else 0

theorem preX_lost {a : PreXMem} {n : ℕ} {points : List ℤ} {x : ℤ} (hx : Canon x intModulus) (hn : NodesFor n points) (ha : a.Ok points x) :
    bytesOf a.lost = if ((x : ℤ) : ZMod intModulus) ^ n = 1 then 16 * n else 0 := by
  have : a.short = true ↔ ((x : ℤ) : ZMod intModulus) ^ n = 1 := by
    rw [ha.short, ← hn.mem x hx]
    simp
  unfold PreXMem.lost
  by_cases h : a.short = true
  · rw [if_pos h, if_pos (this.1 h), bytesOf_single, ha.size, hn.len]
  · rw [if_neg h, if_neg (fun e => h (this.2 e)), bytesOf_zero]

theorem CheckerMem.Made.set_pair {c : CheckerMem} {N : ℕ} (h : c.Made N) (q : Option (PreXMem × PreXMem)) : ({ c with pair := q } : CheckerMem).Made N :=
  ⟨h.pos, h.obj, h.degN, h.deg2N, h.nodesN, h.nodes2N, h.bytes⟩

theorem tri_newChecker {t : RootTables} {tabs : List Block} {N : ℕ} (hN : 0 < N) (ht : TablesOK intModulus N t) (htab : (↑tabs : Multiset Block) ≤ R)
    (hS : 16 * N ≤ S) : Tri S R (newCheckerMem t tabs N) fun c R' => c.Made N ∧ c.pair = none ∧ R' = c.owned + R := by
  obtain ⟨n1, n2⟩ := tables_roots hN ht
  unfold newCheckerMem
  rw [if_neg (by rw [ht.len, ht.len2]; omega), List.take_of_length_le ht.len.le, List.take_of_length_le ht.len2.le]
  refine Tri.bind (Tri.alloc _ _) ?_
  rintro obj _ ⟨h1, h1', rfl⟩
  refine Tri.bind (Tri.each_keep fun b hb => Tri.touch (Multiset.mem_add.2 (.inr (Multiset.mem_of_le htab hb)))) ?_
  rintro _ _ rfl
  refine Tri.bind (tri_batchPre (by rw [ht.len]; exact hN) (by rw [ht.len]; omega)) ?_
  rintro b1 _ ⟨h2, h2', h2'', rfl⟩
  refine Tri.bind (tri_batchPre (by rw [ht.len2]; omega) (by rw [ht.len2]; omega)) ?_
  rintro b2 _ ⟨h3, h3', h3'', rfl⟩
  refine Tri.pure ⟨⟨hN, h1, h2, h3, by rw [h2']; exact n1, by rw [h3']; exact n2, ?_⟩, rfl, by simp only [CheckerMem.owned, pairOwned]; abel⟩
  simp only [bytesOf_add, bytesOf_single, h1', h2'', h3'', ht.len, ht.len2]
  ring

/-- The blocks lost by `clear_preX`. -/
def lostPair : Option (PreXMem × PreXMem) → Multiset Block
  | none => 0
  | some (a, b) => a.lost + b.lost

theorem CheckerMem.Set.lost {c : CheckerMem} {N : ℕ} {x : ℤ} (hx : Canon x intModulus) (hc : c.Set N x) : bytesOf (lostPair c.pair) = lostAt N x := by
  obtain ⟨a, b, e, ha, hb, -⟩ := hc.pair
  rw [e, lostPair, bytesOf_add, preX_lost hx hc.made.nodesN ha, preX_lost hx hc.made.nodes2N hb, lostAt, ← mul_assoc, show 16 * 2 = 32 from rfl]

theorem CheckerMem.Set.lost_pos {c : CheckerMem} {N : ℕ} {x : ℤ} (hc : c.Set N x) : ∀ b ∈ lostPair c.pair, 0 < b.bytes := by
  obtain ⟨a, b, e, ha, hb, -⟩ := hc.pair
  have hN := hc.made.pos
  have key : ∀ {a : PreXMem} {points : List ℤ}, a.Ok points x → 0 < points.length → ∀ b ∈ a.lost, 0 < b.bytes := by
    intro a points ha hp b hb
    unfold PreXMem.lost at hb
    split at hb
    · rw [Multiset.mem_singleton.1 hb, ha.size]
      omega
    · simp at hb
  rw [e, lostPair]
  intro d hd
  rcases Multiset.mem_add.1 hd with hd | hd
  · exact key ha (by rw [hc.made.nodesN.len]; exact hN) d hd
  · exact key hb (by rw [hc.made.nodes2N.len]; omega) d hd

theorem tri_clearPreX {c : CheckerMem} {N : ℕ} {x : ℤ} (hc : c.pair = none ∨ c.Set N x) :
    Tri S (c.owned + R) (clearPreXMem c) fun c' R' => c' = { c with pair := none } ∧ R' = c'.owned + (lostPair c.pair + R) := by
  unfold clearPreXMem
  rcases hc with hc | hc
  · rw [hc]
    refine Tri.pure ⟨rfl, ?_⟩
    simp only [CheckerMem.owned, hc, pairOwned, lostPair]
    abel
  · obtain ⟨a, b, e, ha, hb, -⟩ := hc.pair
    rw [e]
    dsimp only
    refine Tri.pre (R' := a.owned + (b.owned + (({c.obj} + (c.degN.owned + c.deg2N.owned)) + R))) ?_ (Tri.bind (tri_deletePreX ha Splits.here) ?_)
    · simp only [CheckerMem.owned, e, pairOwned]
      abel
    rintro _ _ rfl
    refine Tri.bind (tri_deletePreX hb (Splits.next Splits.here)) ?_
    rintro _ _ rfl
    refine Tri.pure ⟨rfl, ?_⟩
    simp only [CheckerMem.owned, pairOwned, lostPair]
    abel

theorem tri_setPoint {c : CheckerMem} {N : ℕ} {x y : ℤ} (hc : c.pair = none ∨ c.Set N x) (hm : c.Made N) :
    Tri S (c.owned + R) (setPointMem y c) fun c' R' => c'.Set N y ∧ R' = c'.owned + (lostPair c.pair + R) := by
  unfold setPointMem
  refine Tri.bind (Tri.touch (by simp [CheckerMem.owned])) ?_
  rintro _ _ rfl
  refine Tri.bind (tri_clearPreX hc) ?_
  rintro _ _ ⟨rfl, rfl⟩
  generalize lostPair c.pair = L
  have o1 : c.degN.owned ≤ ({ c with pair := none } : CheckerMem).owned + (L + R) := by
    refine (Multiset.le_add_right c.degN.owned ({c.obj} + (c.deg2N.owned + (L + R)))).trans (le_of_eq ?_)
    simp only [CheckerMem.owned, pairOwned]
    abel
  have o2 : c.deg2N.owned ≤ ({ c with pair := none } : CheckerMem).owned + (L + R) := by
    refine (Multiset.le_add_right c.deg2N.owned ({c.obj} + (c.degN.owned + (L + R)))).trans (le_of_eq ?_)
    simp only [CheckerMem.owned, pairOwned]
    abel
  refine Tri.bind (tri_preX (b := c.degN) o1) ?_
  rintro a _ ⟨ha, ha', rfl⟩
  refine Tri.bind (tri_preX (b := c.deg2N) (o2.trans (Multiset.le_add_left _ _))) ?_
  rintro b _ ⟨hb, hb', rfl⟩
  refine Tri.pure ⟨⟨(hm.set_pair none).set_pair _, a, b, rfl, ha, hb, by rw [ha', hm.nodesN.len], by rw [hb', hm.nodes2N.len]⟩, ?_⟩
  simp only [CheckerMem.owned, pairOwned]
  abel

theorem tri_deleteChecker {c : CheckerMem} {N : ℕ} {x : ℤ} (hc : c.Set N x) :
    Tri S (c.owned + R) (deleteCheckerMem c) fun _ R' => R' = lostPair c.pair + R := by
  unfold deleteCheckerMem
  refine Tri.bind (Tri.touch (by simp [CheckerMem.owned])) ?_
  rintro _ _ rfl
  refine Tri.bind (tri_clearPreX (.inr hc)) ?_
  rintro _ _ ⟨rfl, rfl⟩
  generalize lostPair c.pair = L
  refine Tri.pre (R' := c.degN.owned + (c.deg2N.owned + ({c.obj} + (L + R)))) (by simp only [CheckerMem.owned, pairOwned]; abel)
    (Tri.bind (tri_deleteBatch hc.made.degN Splits.here) ?_)
  rintro _ _ rfl
  refine Tri.bind (tri_deleteBatch hc.made.deg2N Splits.here) ?_
  rintro _ _ rfl
  exact Tri.release (.inl hc.made.obj) Splits.here

theorem tri_useChecker {c : CheckerMem} {N : ℕ} {x : ℤ} (hc : c.Set N x) (ho : c.owned ≤ R) : Tri S R (useCheckerMem c) fun _ R' => R' = R := by
  obtain ⟨a, b, e, -⟩ := hc.pair
  have oa : a.owned ≤ R := by
    refine le_trans ?_ ho
    refine (Multiset.le_add_right a.owned ({c.obj} + (c.degN.owned + (c.deg2N.owned + b.owned)))).trans (le_of_eq ?_)
    simp only [CheckerMem.owned, e, pairOwned]
    abel
  have ob : b.owned ≤ R := by
    refine le_trans ?_ ho
    refine (Multiset.le_add_right b.owned ({c.obj} + (c.degN.owned + (c.deg2N.owned + a.owned)))).trans (le_of_eq ?_)
    simp only [CheckerMem.owned, e, pairOwned]
    abel
  unfold useCheckerMem
  rw [e]
  dsimp only
  refine Tri.bind (tri_evalPreX oa) ?_
  rintro _ _ rfl
  refine Tri.bind (tri_evalPreX oa) ?_
  rintro _ _ rfl
  exact tri_evalPreX ob

/-! ## The globals -/

/-- The blocks of the stored checkers. -/
def storeOwned (l : List (ℕ × CheckerMem)) : Multiset Block := (l.map fun e => e.2.owned).sum

/-- The blocks of the globals. -/
def PreKeep.owned (k : PreKeep) : Multiset Block := ↑k.tabs + storeOwned k.store

/-- The globals in a state the loop can reach; `Ns` are the sizes of stored checkers. -/
structure PreKeep.Ok (k : PreKeep) (Ns : Finset ℕ) : Prop where
  canon : Canon k.x intModulus
  keys : (k.store.map Prod.fst).Nodup
  sizes : (k.store.map Prod.fst).toFinset = Ns
  store : ∀ e ∈ k.store, e.2.Set e.1 k.x
  tables : k.tables.num = 0 ∨ ∃ j, j ≤ 18 ∧ TablesOK intModulus (2 ^ j) k.tables
  tabBytes : bytesOf ↑k.tabs = 32 * k.tables.num

theorem tri_loadRoots {k : PreKeep} {Ns : Finset ℕ} (hk : k.Ok Ns) {j : ℕ} (hj : j ≤ 18) :
    Tri S (k.owned + R) (loadRootsMem (2 ^ j) k) fun k' R' => k'.Ok Ns ∧ k'.x = k.x ∧ TablesOK intModulus (2 ^ j) k'.tables ∧ R' = k'.owned + R := by
  unfold loadRootsMem
  by_cases h : k.tables.num = 2 ^ j
  · rw [if_pos h]
    refine Tri.pure ⟨hk, rfl, ?_, rfl⟩
    rcases hk.tables with h0 | ⟨i, -, hi⟩
    · have := Nat.two_pow_pos j
      omega
    · rw [← h, hi.num]
      exact hi
  · rw [if_neg h]
    obtain ⟨t, e, ht⟩ := initRoots_ok k.tables j hj h
    refine Tri.bind (Tri.deleteObj (R₀ := storeOwned k.store + R) (by simp only [Splits, PreKeep.owned]; abel)) ?_
    rintro _ _ rfl
    refine Tri.bind (Tri.newObj _) ?_
    rintro o _ ⟨ho, rfl⟩
    rw [e]
    refine Tri.pure ⟨⟨hk.canon, hk.keys, hk.sizes, hk.store, .inr ⟨j, hj, ht⟩, ?_⟩, rfl, ht, by simp only [PreKeep.owned]; abel⟩
    dsimp only
    obtain ⟨b1, o1, rfl, hb1, h1⟩ := List.map_eq_cons_iff.1 ho
    obtain ⟨b2, o2, rfl, hb2, h2⟩ := List.map_eq_cons_iff.1 h1
    obtain ⟨b3, o3, rfl, hb3, h3⟩ := List.map_eq_cons_iff.1 h2
    obtain rfl := List.map_eq_nil_iff.1 h3
    simp only [Prod.mk.injEq] at hb1 hb2 hb3
    rw [ht.num]
    simp only [← Multiset.cons_coe, ← Multiset.singleton_add, bytesOf_add, bytesOf_single, Multiset.coe_nil, bytesOf_zero, hb1.2, hb2.2, hb3.2]
    ring

theorem lookup_mem {α : Type} {l : List (ℕ × α)} {N : ℕ} {c : α} (h : l.lookup N = some c) : (N, c) ∈ l := by
  induction l with
  | nil => simp at h
  | cons e l ih =>
    rw [List.lookup_cons] at h
    split at h
    · rename_i he
      simp only [beq_iff_eq] at he
      obtain rfl := Option.some.inj h
      rw [he]
      exact List.mem_cons_self
    · exact List.mem_cons_of_mem _ (ih h)

theorem lookup_none {α : Type} {l : List (ℕ × α)} {N : ℕ} (h : l.lookup N = none) : N ∉ l.map Prod.fst := by
  induction l with
  | nil => simp
  | cons e l ih =>
    rw [List.lookup_cons] at h
    split at h
    · simp at h
    · rename_i he
      simp only [beq_eq_false_iff_ne, ne_eq] at he
      simp only [List.map_cons, List.mem_cons, not_or]
      exact ⟨he, ih h⟩

theorem storeOwned_mem {l : List (ℕ × CheckerMem)} {e : ℕ × CheckerMem} (h : e ∈ l) : e.2.owned ≤ storeOwned l := by
  induction l with
  | nil => cases h
  | cons a l ih =>
    simp only [storeOwned, List.map_cons, List.sum_cons]
    rcases List.mem_cons.1 h with rfl | h
    · exact Multiset.le_add_right _ _
    · exact (ih h).trans (Multiset.le_add_left _ _)

theorem tri_checkStep {k : PreKeep} {Ns : Finset ℕ} (hk : k.Ok Ns) {j n : ℕ} (hj : j ≤ 18) (hS : 16 * 2 ^ j ≤ S) :
    Tri S (k.owned + R) (checkStepMem (2 ^ j) n k) fun k' R' => k'.Ok (insert (2 ^ j) Ns) ∧ k'.x = k.x ∧ k'.tables.num = 2 ^ j ∧ R' = k'.owned + R := by
  unfold checkStepMem
  refine Tri.bind (tri_loadRoots hk hj) ?_
  rintro k1 _ ⟨h1, h1x, h1t, rfl⟩
  refine Tri.bind (P := fun r R' => r.2.Ok (insert (2 ^ j) Ns) ∧ r.2.x = k.x ∧ r.2.tables.num = 2 ^ j ∧ r.1.Set (2 ^ j) k.x ∧ r.1.owned ≤ R' ∧ R' = r.2.owned + R) ?_ ?_
  · unfold getCheckerMem
    cases hl : k1.store.lookup (2 ^ j) with
    | some c =>
      have hm := lookup_mem hl
      have hmem : 2 ^ j ∈ Ns := by
        rw [← h1.sizes]
        exact List.mem_toFinset.2 (List.mem_map.2 ⟨_, hm, rfl⟩)
      refine Tri.pure ⟨by rw [Finset.insert_eq_of_mem hmem]; exact h1, h1x, h1t.num, by rw [← h1x]; exact h1.store _ hm, ?_, rfl⟩
      exact (storeOwned_mem hm).trans ((Multiset.le_add_left _ _).trans (Multiset.le_add_right _ _))
    | none =>
      have hne := lookup_none hl
      dsimp only
      refine Tri.bind (tri_newChecker (Nat.two_pow_pos j) h1t ((Multiset.le_add_right _ _).trans (Multiset.le_add_right _ _)) hS) ?_
      rintro c _ ⟨hc, hcp, rfl⟩
      refine Tri.bind (tri_setPoint (x := k1.x) (.inl hcp) hc) ?_
      rintro c' _ ⟨hc', rfl⟩
      refine Tri.pure ⟨⟨h1.canon, ?_, ?_, ?_, h1.tables, h1.tabBytes⟩, h1x, h1t.num, by rw [← h1x]; exact hc', Multiset.le_add_right _ _, ?_⟩
      · simp only [List.map_cons, List.nodup_cons]
        exact ⟨hne, h1.keys⟩
      · simp only [List.map_cons, List.toFinset_cons, h1.sizes]
      · intro e he
        rcases List.mem_cons.1 he with rfl | he
        · exact hc'
        · exact h1.store e he
      · simp only [hcp, lostPair, PreKeep.owned, storeOwned, List.map_cons, List.sum_cons]
        abel
  · rintro ⟨c, k2⟩ _ ⟨g1, g2, g3, g4, g5, rfl⟩
    refine Tri.bind (Tri.times_keep (tri_useChecker g4 g5)) ?_
    rintro _ _ rfl
    exact Tri.pure ⟨g1, g2, g3, rfl⟩

/-- The bytes lost by renewing check point `x` with checkers for the sizes `Ns`. -/
def lostAll (Ns : Finset ℕ) (x : ℤ) : ℕ := ∑ N ∈ Ns, lostAt N x

theorem sum_sizes {l : List (ℕ × CheckerMem)} (h : (l.map Prod.fst).Nodup) (f : ℕ → ℕ) : (l.map fun e => f e.1).sum = ∑ N ∈ (l.map Prod.fst).toFinset, f N := by
  rw [List.sum_toFinset _ h, List.map_map]
  rfl

theorem bytesOf_sum {α : Type} (l : List α) (f : α → Multiset Block) : bytesOf (l.map f).sum = (l.map fun a => bytesOf (f a)).sum := by
  induction l with
  | nil => simp [bytesOf_zero]
  | cons a l ih => simp only [List.map_cons, List.sum_cons, bytesOf_add, ih]

theorem lost_store {k : PreKeep} {Ns : Finset ℕ} (hk : k.Ok Ns) : bytesOf ((k.store.map fun e => lostPair e.2.pair).sum) = lostAll Ns k.x := by
  rw [bytesOf_sum, lostAll, ← hk.sizes, ← sum_sizes hk.keys fun N => lostAt N k.x]
  congr 1
  exact List.map_congr_left fun e he => (hk.store e he).lost hk.canon

theorem lost_store_pos {k : PreKeep} {Ns : Finset ℕ} (hk : k.Ok Ns) : ∀ b ∈ (k.store.map fun e => lostPair e.2.pair).sum, 0 < b.bytes := by
  have : ∀ l : List (ℕ × CheckerMem), (∀ e ∈ l, e.2.Set e.1 k.x) → ∀ b ∈ (l.map fun e => lostPair e.2.pair).sum, 0 < b.bytes := by
    intro l
    induction l with
    | nil => simp
    | cons e l ih =>
      intro hl b hb
      rw [List.map_cons, List.sum_cons, Multiset.mem_add] at hb
      rcases hb with hb | hb
      · exact (hl e (by simp)).lost_pos b hb
      · exact ih (fun e he => hl e (by simp [he])) b hb
  exact this _ hk.store

theorem owned_checkers {k : PreKeep} {Ns : Finset ℕ} (hk : k.Ok Ns) :
    bytesOf k.owned = 32 * k.tables.num + ∑ N ∈ Ns, (104 + 48 * N + batchBytes N + batchBytes (2 * N)) := by
  rw [PreKeep.owned, bytesOf_add, hk.tabBytes, storeOwned, bytesOf_sum, ← hk.sizes, ← sum_sizes hk.keys fun N => 104 + 48 * N + batchBytes N + batchBytes (2 * N)]
  congr 2
  refine List.map_congr_left fun e he => ?_
  obtain ⟨a, b, h, -, -, h1, h2⟩ := (hk.store e he).pair
  have := (hk.store e he).made.bytes
  rw [bytesOf_add, bytesOf_add] at this
  rw [CheckerMem.owned, bytesOf_add, bytesOf_add, bytesOf_add, h, pairOwned, bytesOf_add, h1, h2]
  omega

theorem tri_freshStep {k : PreKeep} {Ns : Finset ℕ} (hk : k.Ok Ns) {x : ℤ} (hx : Canon x intModulus) :
    Tri S (k.owned + R) (freshStepMem x k) fun k' R' => k'.Ok Ns ∧ k'.x = x ∧ k'.tables = k.tables ∧ ∃ L, bytesOf L = lostAll Ns k.x ∧ (∀ b ∈ L, 0 < b.bytes) ∧ R' = k'.owned + (L + R) := by
  unfold freshStepMem
  have key : ∀ (l : List (ℕ × CheckerMem)) (R : Multiset Block), (∀ e ∈ l, e.2.Set e.1 k.x) →
      Tri S (storeOwned l + R) (each l fun e => do
        let c ← setPointMem x e.2
        pure (e.1, c)) fun l' R' => l'.map Prod.fst = l.map Prod.fst ∧ (∀ e ∈ l', e.2.Set e.1 x) ∧
          R' = storeOwned l' + ((l.map fun e => lostPair e.2.pair).sum + R) := by
    intro l
    induction l with
    | nil => exact fun R _ => Tri.pure ⟨rfl, by simp, by simp [storeOwned]⟩
    | cons e l ih =>
      intro R hl
      simp only [each]
      refine Tri.pre (R' := e.2.owned + (storeOwned l + R)) (by simp only [storeOwned, List.map_cons, List.sum_cons]; abel) ?_
      have he := hl e (by simp)
      refine Tri.bind (P := fun e' R' => e'.1 = e.1 ∧ e'.2.Set e.1 x ∧ R' = e'.2.owned + (lostPair e.2.pair + (storeOwned l + R))) (Tri.bind (tri_setPoint (.inr he) he.made) ?_) ?_
      · rintro c _ ⟨h1, rfl⟩
        exact Tri.pure ⟨rfl, h1, rfl⟩
      rintro e' _ ⟨h1, h2, rfl⟩
      refine Tri.pre (R' := storeOwned l + (e'.2.owned + (lostPair e.2.pair + R))) (by abel) (Tri.bind (ih _ fun e he => hl e (by simp [he])) ?_)
      rintro l' _ ⟨h3, h4, rfl⟩
      refine Tri.pure ⟨by simp only [List.map_cons, h1, h3], ?_, by simp only [storeOwned, List.map_cons, List.sum_cons]; abel⟩
      intro a ha
      rcases List.mem_cons.1 ha with rfl | ha
      · rw [h1]
        exact h2
      · exact h4 a ha
  refine Tri.pre (R' := storeOwned k.store + (↑k.tabs + R)) (by rw [PreKeep.owned]; abel) (Tri.bind (key _ _ hk.store) ?_)
  rintro l' _ ⟨h1, h2, rfl⟩
  refine Tri.pure ⟨⟨hx, by rw [h1]; exact hk.keys, by rw [h1]; exact hk.sizes, h2, hk.tables, hk.tabBytes⟩, rfl, rfl, _, lost_store hk, lost_store_pos hk, ?_⟩
  simp only [PreKeep.owned]
  abel

theorem tri_end {k : PreKeep} {Ns : Finset ℕ} (hk : k.Ok Ns) :
    Tri S (k.owned + R) (endMem k) fun _ R' => ∃ L, bytesOf L = lostAll Ns k.x ∧ (∀ b ∈ L, 0 < b.bytes) ∧ R' = ↑k.tabs + (L + R) := by
  unfold endMem
  have key : ∀ (l : List (ℕ × CheckerMem)) (R : Multiset Block), (∀ e ∈ l, e.2.Set e.1 k.x) →
      Tri S (storeOwned l + R) (each l fun e => deleteCheckerMem e.2) fun _ R' => R' = (l.map fun e => lostPair e.2.pair).sum + R := by
    intro l
    induction l with
    | nil => exact fun R _ => Tri.pure (by simp [storeOwned])
    | cons e l ih =>
      intro R hl
      simp only [each]
      refine Tri.pre (R' := e.2.owned + (storeOwned l + R)) (by simp only [storeOwned, List.map_cons, List.sum_cons]; abel) ?_
      refine Tri.bind (tri_deleteChecker (hl e (by simp))) ?_
      rintro _ _ rfl
      refine Tri.pre (R' := storeOwned l + (lostPair e.2.pair + R)) (by abel) (Tri.bind (ih _ fun e he => hl e (by simp [he])) ?_)
      rintro _ _ rfl
      exact Tri.pure (by simp only [List.map_cons, List.sum_cons]; abel)
  refine Tri.pre (R' := storeOwned k.store + (↑k.tabs + R)) (by rw [PreKeep.owned]; abel) (Tri.bind (key _ _ hk.store) ?_)
  rintro _ _ rfl
  exact Tri.pure ⟨_, lost_store hk, lost_store_pos hk, by abel⟩

end Verif
