import Verif.LemmasMemStore
import Verif.LemmasServer
import Mathlib.Data.List.Dedup
import Mathlib.Data.List.Perm.Basic

/-! # Memory of the checked operations -/

namespace Verif

variable {S : ℕ} {R R' R₀ : Multiset Block} {α : Type}

/-! ## Conversion -/

theorem bytesOf_rows {n v : ℕ} {l : List Block} (hl : l.length = n) (h : ∀ b ∈ l, b.bytes = v) : bytesOf ↑l = n * v := by
  subst hl
  induction l with
  | nil => simp [bytesOf]
  | cons b l ih =>
    rw [← Multiset.cons_coe, ← Multiset.singleton_add, bytesOf_add, bytesOf_single, ih fun b hb => h b (by simp [hb]), h b (by simp), List.length_cons]
    ring

theorem tri_b2aOt (sv : Bool) (n v bits : ℕ) :
    Tri S R (b2aOtMem sv n v bits) fun a R' => a.way = .raw ∧ ∃ L, bytesOf L = 8 * n + n * (8 * v) ∧ R' = {a} + (L + R) := by
  unfold b2aOtMem
  new x2 h1
  new va h2
  refine Tri.bind (Tri.allocs _ _ _) ?_
  rintro rows _ ⟨h3, h4, rfl⟩
  refine Tri.bind (P := fun r R' => RowsOf n v r ∧ R' = {r.1} + (↑r.2 + (↑rows + ({va} + ({x2} + R))))) ?_ ?_
  · cases sv with
    | true => exact tri_intsumReceiver _ _ _
    | false => exact tri_intsumSender _ _ _
  rintro r _ ⟨⟨h5, h6, h7, h8⟩, rfl⟩
  new an h9
  refine Tri.bind (Tri.each_keep fun b hb => Tri.touch (by simp [hb])) ?_
  rintro _ _ rfl
  refine Tri.bind (Tri.releases (fun b hb => (h4 b hb).1) (by takes)) ?_
  rintro _ _ rfl
  rel
  rel
  exact Tri.pure ⟨h9, {r.1} + ↑r.2, by rw [bytesOf_add, bytesOf_single, h6, bytesOf_rows h7 fun b hb => (h8 b hb).2], by abel⟩

theorem tri_shareConvert (sv : Bool) (n v bits : ℕ) :
    Tri S R (shareConvertMem sv n v bits) fun a R' => a.way = .raw ∧ ∃ L, bytesOf L = 8 * n + n * (8 * v) ∧ R' = {a} + (L + R) := by
  unfold shareConvertMem
  new f h1
  refine Tri.bind (tri_b2aOt sv n v bits) ?_
  rintro p _ ⟨h2, L, h3, rfl⟩
  rel
  exact Tri.pure ⟨h2, L, h3, rfl⟩

/-! ## Checking -/

theorem tri_initRoots (N : ℕ) (k : Keep) :
    Tri S (k.owned + R) (initRootsMem N k) fun k' R' => k'.store = k.store ∧ R' = k'.owned + R := by
  obtain ⟨ro, pr, st⟩ := k
  unfold initRootsMem
  rcases ro with _ | ⟨M, o⟩
  · dsimp only
    refine Tri.bind (Tri.newObj _) ?_
    rintro o' _ ⟨-, rfl⟩
    exact Tri.pure ⟨rfl, by simp only [Keep.owned]; abel⟩
  · dsimp only
    split
    · exact Tri.pure ⟨rfl, rfl⟩
    · refine Tri.bind (Tri.deleteObj (R₀ := (⟨none, pr, st⟩ : Keep).owned + R) ?_) ?_
      · simp only [Splits, Keep.owned]
        abel
      rintro _ _ rfl
      refine Tri.bind (Tri.newObj _) ?_
      rintro o' _ ⟨-, rfl⟩
      exact Tri.pure ⟨rfl, by simp only [Keep.owned]; abel⟩

theorem tri_getPrecomp (shape : ℕ → List (Way × ℕ)) (N : ℕ) (k : Keep) :
    Tri S (k.owned + R) (getPrecompMem shape N k) fun k' R' => k'.store = k.store ∧ R' = k'.owned + R := by
  unfold getPrecompMem
  split
  · exact Tri.pure ⟨rfl, rfl⟩
  · refine Tri.bind (Tri.newObj _) ?_
    rintro o' _ ⟨-, rfl⟩
    exact Tri.pure ⟨rfl, by simp only [Keep.owned, List.map_cons, owns_cons]; abel⟩

theorem clean_outShare (z : ℕ) : Clean (outShareMem z) := by
  intro S R
  unfold outShareMem
  refine Tri.bind (Tri.newObj _) ?_
  rintro co _ ⟨-, rfl⟩
  new ar h1
  rel
  exact Tri.deleteObj (by takes)

theorem length_of_forall₂ {β : Type} {P : α → β → Prop} {l : List α} {l' : List β} (h : List.Forall₂ P l l') : l'.length = l.length := h.length_eq.symm

theorem tri_validateSnips (shape : ℕ → List (Way × ℕ)) (N z : ℕ) {packets circuits : List (List Block)} (k : Keep) (hne : packets ≠ [])
    (hl : circuits.length = packets.length) (hp : ∀ o ∈ packets, ∀ b ∈ o, b ∈ R) (hc : ∀ o ∈ circuits, ∀ b ∈ o, b ∈ R) :
    Tri S (k.owned + R) (validateSnipsMem shape N z packets circuits k) fun r R' =>
      r.1.way = .arr ∧ r.2.store = k.store ∧ R' = {r.1} + (r.2.owned + R) := by
  unfold validateSnipsMem
  have hn : packets.length ≠ 0 := by simpa using hne
  dsimp only
  new an h1
  rw [if_neg hn]
  refine Tri.pre (R' := k.owned + ({an} + R)) (by abel) (Tri.bind (tri_initRoots N k) ?_)
  rintro k1 _ ⟨h2, rfl⟩
  new ch h3
  refine Tri.pre (R' := k1.owned + ({ch} + ({an} + R))) (by abel) (Tri.bind (tri_getPrecomp shape N k1) ?_)
  rintro k2 _ ⟨h4, rfl⟩
  refine Tri.pre (R' := ((packets.zip circuits).map fun _ => (0 : Multiset Block)).sum + (k2.owned + ({ch} + ({an} + R)))) (by simp)
    (Tri.bind (Tri.each (out := fun o : List Block => (↑o : Multiset Block)) (P := fun _ _ => True) ?_) ?_)
  · rintro ⟨p, q⟩ hpq R1 hR1
    have hp' := hp p (List.of_mem_zip hpq).1
    have hc' := hc q (List.of_mem_zip hpq).2
    have hin : ∀ b, b ∈ R → b ∈ R1 := fun b hb => Multiset.mem_of_le hR1 (by simp [hb])
    rw [zero_add]
    refine Tri.bind (Tri.newObj _) ?_
    rintro o _ ⟨-, rfl⟩
    refine Tri.bind (Tri.each_keep fun b hb => Tri.touch (by simp [hin b (hp' b hb)])) ?_
    rintro _ _ rfl
    refine Tri.bind (Tri.each_keep fun b hb => Tri.touch (by simp [hin b (hc' b hb)])) ?_
    rintro _ _ rfl
    exact Tri.pure ⟨trivial, rfl⟩
  rintro checkers _ ⟨h5, rfl⟩
  have hcl : checkers.length = packets.length := by
    rw [length_of_forall₂ h5, List.length_zip, hl, Nat.min_self]
  new cs h6
  refine Tri.bind (Tri.newObjs _ _) ?_
  rintro cors _ ⟨h7, -, rfl⟩
  refine (clean_cors _).run fun _ => ?_
  new co h8
  refine Tri.bind (Tri.newObjs _ _) ?_
  rintro corsO _ ⟨h9, -, rfl⟩
  refine (clean_cors _).run fun _ => ?_
  new vs h10
  refine Tri.bind (Tri.times_keep (clean_outShare z _ _)) ?_
  rintro _ _ rfl
  new vo h11
  rel
  rel
  refine Tri.pre (R' := ((cors.zip (corsO.zip checkers)).map fun e : List Block × List Block × List Block =>
    (↑e.1 : Multiset Block) + ((fun e : List Block × List Block => (↑e.1 : Multiset Block) + (↑e.2 : Multiset Block)) e.2)).sum +
      ({co} + ({cs} + (k2.owned + ({ch} + ({an} + R)))))) ?_ (Tri.bind (Tri.each (out := fun _ => 0) (P := fun _ _ => True) ?_) ?_)
  · rw [sum_zip (by rw [List.length_zip, h7, h9, hcl, Nat.min_self]) (fun o : List Block => (↑o : Multiset Block))
      (fun e : List Block × List Block => (↑e.1 : Multiset Block) + (↑e.2 : Multiset Block)),
      sum_zip (by rw [h9, hcl]) (fun o : List Block => (↑o : Multiset Block)) (fun o : List Block => (↑o : Multiset Block))]
    simp only [owns]
    abel
  · rintro ⟨a, b, d⟩ _ R1 _
    dsimp only
    rw [add_assoc, add_assoc]
    refine Tri.bind (Tri.deleteObj (by takes)) ?_
    rintro _ _ rfl
    refine Tri.bind (Tri.deleteObj (by takes)) ?_
    rintro _ _ rfl
    refine (Tri.deleteObj (by takes)).conseq ?_
    rintro _ _ rfl
    exact ⟨trivial, by simp⟩
  rintro _ _ ⟨-, rfl⟩
  refine Tri.pre (R' := {co} + ({cs} + (k2.owned + ({ch} + ({an} + R))))) (by simp) ?_
  rel
  rel
  rel
  exact Tri.pure ⟨h1, by rw [h4, h2], by abel⟩

/-- Deleting circuits and packets. -/
theorem tri_deletePairs {l l' : List (List Block)} (hl : l.length = l'.length) (ht : R = owns l + (owns l' + R₀)) :
    Tri S R (Verif.each (l.zip l') fun e => do
      Verif.deleteObj e.1
      Verif.deleteObj e.2) fun _ R' => R' = R₀ := by
  subst ht
  refine Tri.pre (R' := ((l.zip l').map fun e : List Block × List Block => (↑e.1 : Multiset Block) + (↑e.2 : Multiset Block)).sum + R₀) ?_ ?_
  · rw [sum_zip hl (fun o : List Block => (↑o : Multiset Block)) (fun o : List Block => (↑o : Multiset Block))]
    simp only [owns]
    abel
  refine (Tri.each (out := fun _ => 0) (P := fun _ _ => True) ?_).conseq ?_
  · rintro ⟨a, b⟩ _ R' -
    dsimp only
    rw [add_assoc]
    refine Tri.bind (Tri.deleteObj (by takes)) ?_
    rintro _ _ rfl
    refine (Tri.deleteObj (by takes)).conseq ?_
    rintro _ _ rfl
    exact ⟨trivial, by simp⟩
  · rintro _ _ ⟨_, rfl⟩
    simp

/-! ## Maps of owners -/

/-- The blocks of the entries of a map. -/
def ownsMap (own : α → Multiset Block) (m : Map α) : Multiset Block := (m.map fun e => own e.2).sum

/-- The entries whose keys are not in the list. -/
def Map.without (m : Map α) (ks : List Bytes) : Map α := m.filter fun e => e.1 ∉ ks

theorem without_nil (m : Map α) : m.without [] = m := by simp [Map.without]

theorem without_none {m : Map α} {k : Bytes} {ks : List Bytes} (h : m.lookup k = none) : m.without (k :: ks) = m.without ks := by
  unfold Map.without
  refine List.filter_congr fun e he => ?_
  have : e.1 ≠ k := by
    rintro rfl
    rw [List.lookup_eq_none_iff] at h
    simpa using h e he
  simp [this]

theorem without_some {own : α → Multiset Block} {m : Map α} {k : Bytes} {ks : List Bytes} {a : α} (hnd : m.keys.Nodup) (h : m.lookup k = some a) (hk : k ∉ ks) :
    ownsMap own (m.without ks) = own a + ownsMap own (m.without (k :: ks)) := by
  induction m with
  | nil => simp at h
  | cons e m ih =>
    obtain ⟨k', a'⟩ := e
    have hnd' : k' ∉ Map.keys m ∧ (Map.keys m).Nodup := by simpa [Map.keys] using hnd
    by_cases hkk : k' = k
    · subst hkk
      have ha : a' = a := by simpa [List.lookup] using h
      subst ha
      have hn : m.lookup k' = none := by
        rw [List.lookup_eq_none_iff]
        intro e he
        have : e.1 ∈ Map.keys m := List.mem_map_of_mem he
        simp only [ne_eq, bne_iff_ne]
        rintro rfl
        exact hnd'.1 this
      have h1 : Map.without ((k', a') :: m) ks = (k', a') :: Map.without m ks := by simp [Map.without, hk]
      have h2 : Map.without ((k', a') :: m) (k' :: ks) = Map.without m (k' :: ks) := by simp [Map.without]
      rw [h1, h2, without_none hn]
      simp [ownsMap]
    · have h' : m.lookup k = some a := by
        rw [List.lookup_cons] at h
        have : (k == k') = false := by simpa using fun e : k = k' => hkk e.symm
        simpa [this] using h
      have := ih hnd'.2 h'
      by_cases hks : k' ∈ ks
      · have h1 : Map.without ((k', a') :: m) ks = Map.without m ks := by simp [Map.without, hks]
        have h2 : Map.without ((k', a') :: m) (k :: ks) = Map.without m (k :: ks) := by simp [Map.without, hks]
        rw [h1, h2, this]
      · have h1 : Map.without ((k', a') :: m) ks = (k', a') :: Map.without m ks := by simp [Map.without, hks]
        have h2 : Map.without ((k', a') :: m) (k :: ks) = (k', a') :: Map.without m (k :: ks) := by simp [Map.without, hks, hkk]
        rw [h1, h2]
        have h3 : ∀ l : Map α, ownsMap own ((k', a') :: l) = own a' + ownsMap own l := fun l => by simp [ownsMap]
        rw [h3, h3, this]
        abel

theorem bytesOf_ownsMap {own : α → Multiset Block} {m : Map α} {v : ℕ} (h : ∀ e ∈ m, bytesOf (own e.2) = v) : bytesOf (ownsMap own m) = m.length * v := by
  induction m with
  | nil => simp [ownsMap, bytesOf]
  | cons e m ih =>
    have h3 : ownsMap own (e :: m) = own e.2 + ownsMap own m := by simp [ownsMap]
    rw [h3, bytesOf_add, ih fun e he => h e (by simp [he]), h e (by simp), List.length_cons]
    ring

theorem ownsMap_perm {own : α → Multiset Block} {m m' : Map α} (h : m.Perm m') : ownsMap own m = ownsMap own m' := (h.map _).sum_eq

/-- The keys of the submissions that can be used, each once. -/
def usable (subs : List (Bytes × Bool)) : List Bytes := ((subs.filter (·.2)).map (·.1)).dedup

theorem bytesOf_shape {shape : List (Way × ℕ)} {o : List Block} (h : o.map (fun b => (b.way, b.bytes)) = shape) : bytesOf ↑o = (shape.map (·.2)).sum := by
  subst h
  simp [bytesOf, Function.comp_def]

end Verif
