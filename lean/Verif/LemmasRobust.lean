import Verif.PropsViewLin

/-! # Honest submissions among arbitrary others -/

namespace Verif

variable {α : Type} {n : ℕ} {key : Fin n → Bytes}

/-- The submissions that do not come from the honest clients. -/
def others (A : List (Fin n ⊕ Bytes × α)) : List (Bytes × α) := A.filterMap Sum.getRight?

theorem mem_others {A : List (Fin n ⊕ Bytes × α)} {e : Bytes × α} : e ∈ others A ↔ Sum.inr e ∈ A := by
  unfold others
  rw [List.mem_filterMap]
  constructor
  · rintro ⟨a, ha, h⟩
    rcases a with i | e'
    · cases h
    · cases h; exact ha
  · exact fun h => ⟨_, h, rfl⟩

theorem firstOf_others {ok : α → Bool} (A : List (Fin n ⊕ Bytes × α)) (f : Fin n → α) {k : Bytes} (hk : ∀ i, key i ≠ k) :
    firstOf ok (fill key A f) k = firstOf ok (others A) k := by
  induction A with
  | nil => rfl
  | cons a A ih =>
    rw [fill, List.map_cons, firstOf_cons]
    rcases a with j | e
    · rw [if_neg fun h => hk j h.1]
      exact ih
    · have : others (Sum.inr e :: A) = e :: others A := rfl
      rw [this, firstOf_cons]
      exact congrArg (fun z => if e.1 = k ∧ ok e.2 = true then some e.2 else z) ih

theorem others_none {ok : α → Bool} {A : List (Fin n ⊕ Bytes × α)} (h : Arrives key A) (i : Fin n) : firstOf ok (others A) (key i) = none := by
  rcases hf : firstOf ok (others A) (key i) with _ | v
  · rfl
  · exact absurd rfl (h.others _ (mem_others.1 (firstOf_mem hf)) i)

theorem mem_both {ok : α → Bool} {subs0 subs1 : List (Bytes × α)} {k : Bytes} :
    k ∈ bothKeys ok subs0 subs1 ↔ (firstOf ok subs0 k).isSome ∧ (firstOf ok subs1 k).isSome := by
  unfold bothKeys
  rw [Finset.mem_filter, List.mem_toFinset]
  refine ⟨fun h => h.2, fun h => ⟨?_, h⟩⟩
  obtain ⟨v, hv⟩ := Option.isSome_iff_exists.1 h.1
  exact List.mem_map.2 ⟨_, firstOf_mem hv, rfl⟩

/-- The keys held by both servers: those of the honest clients and those that the others' submissions alone would give. -/
theorem both_split {ok : α → Bool} {A0 A1 : List (Fin n ⊕ Bytes × α)} (h0 : Arrives key A0) (h1 : Arrives key A1) {f0 f1 : Fin n → α}
    (g0 : ∀ i, ok (f0 i) = true) (g1 : ∀ i, ok (f1 i) = true) :
    bothKeys ok (fill key A0 f0) (fill key A1 f1) = Finset.univ.image key ∪ bothKeys ok (others A0) (others A1) ∧
      Disjoint (Finset.univ.image key) (bothKeys ok (others A0) (others A1)) := by
  constructor
  · ext k
    rw [Finset.mem_union, mem_both, mem_both, Finset.mem_image]
    by_cases hk : ∃ i, key i = k
    · obtain ⟨i, rfl⟩ := hk
      rw [firstOf_honest h0 i (g0 i), firstOf_honest h1 i (g1 i)]
      exact ⟨fun _ => .inl ⟨i, Finset.mem_univ _, rfl⟩, fun _ => ⟨rfl, rfl⟩⟩
    · push Not at hk
      rw [firstOf_others A0 f0 hk, firstOf_others A1 f1 hk]
      exact ⟨.inr, fun h => h.elim (fun ⟨i, _, h⟩ => absurd h (hk i)) id⟩
  · rw [Finset.disjoint_left]
    intro k hk hk'
    obtain ⟨i, -, rfl⟩ := Finset.mem_image.1 hk
    rw [mem_both, others_none h0] at hk'
    cases hk'.1

theorem both_card {ok : α → Bool} {A0 A1 : List (Fin n ⊕ Bytes × α)} (h0 : Arrives key A0) (h1 : Arrives key A1) {f0 f1 : Fin n → α}
    (g0 : ∀ i, ok (f0 i) = true) (g1 : ∀ i, ok (f1 i) = true) :
    (bothKeys ok (fill key A0 f0) (fill key A1 f1)).card = n + (bothKeys ok (others A0) (others A1)).card := by
  obtain ⟨e, d⟩ := both_split h0 h1 g0 g1
  rw [e, Finset.card_union_of_disjoint d, Finset.card_image_of_injective _ h0.inj, Finset.card_univ, Fintype.card_fin]

theorem both_sum {ok : α → Bool} {A0 A1 : List (Fin n ⊕ Bytes × α)} (h0 : Arrives key A0) (h1 : Arrives key A1) {f0 f1 : Fin n → α}
    (g0 : ∀ i, ok (f0 i) = true) (g1 : ∀ i, ok (f1 i) = true) {M : Type} [AddCommMonoid M] (F : Bytes → M) :
    ∑ k ∈ bothKeys ok (fill key A0 f0) (fill key A1 f1), F k =
      ∑ i, F (key i) + ∑ k ∈ bothKeys ok (others A0) (others A1), F k := by
  obtain ⟨e, d⟩ := both_split h0 h1 g0 g1
  rw [e, Finset.sum_union d, Finset.sum_image fun i _ j _ h => h0.inj h]

/-- Every key of the others that both servers hold costs them a submission at each server. -/
theorem both_others_le {ok : α → Bool} (A0 A1 : List (Fin n ⊕ Bytes × α)) :
    (bothKeys ok (others A0) (others A1)).card ≤ (others A0).length ∧ (bothKeys ok (others A0) (others A1)).card ≤ (others A1).length := by
  have key : ∀ (S : Finset Bytes) (l : List (Bytes × α)), (∀ k ∈ S, ∃ v, (k, v) ∈ l) → S.card ≤ l.length := by
    intro S l h
    have : S ⊆ (l.map (·.1)).toFinset := by
      intro k hk
      obtain ⟨v, hv⟩ := h k hk
      exact List.mem_toFinset.2 (List.mem_map.2 ⟨_, hv, rfl⟩)
    exact (Finset.card_le_card this).trans ((List.toFinset_card_le _).trans (by rw [List.length_map]))
  constructor
  · refine key _ _ fun k hk => ?_
    obtain ⟨v, hv⟩ := Option.isSome_iff_exists.1 (mem_both.1 hk).1
    exact ⟨v, firstOf_mem hv⟩
  · refine key _ _ fun k hk => ?_
    obtain ⟨v, hv⟩ := Option.isSome_iff_exists.1 (mem_both.1 hk).2
    exact ⟨v, firstOf_mem hv⟩

theorem keyed_fill {A : List (Fin n ⊕ Bytes × α)} (f : Fin n → α) (hk : ∀ i, (key i).length = pkLength) (ho : Keyed (others A)) :
    Keyed (fill key A f) := by
  intro e he
  obtain ⟨a, ha, rfl⟩ := List.mem_map.1 he
  rcases a with i | e
  · exact hk i
  · exact ho e (mem_others.2 ha)

theorem fill_length (A : List (Fin n ⊕ Bytes × α)) (f : Fin n → α) : (fill key A f).length = A.length := by simp [fill]

theorem not_key_of_both {ok : α → Bool} {A0 A1 : List (Fin n ⊕ Bytes × α)} (h0 : Arrives key A0) {k : Bytes}
    (hk : k ∈ bothKeys ok (others A0) (others A1)) (i : Fin n) : key i ≠ k := by
  rintro rfl
  rw [mem_both, others_none h0] at hk
  cases hk.1

theorem xorOver_union {S T : Finset Bytes} (h : Disjoint S T) (f : Bytes → U64) : xorOver (S ∪ T) f = xorOver S f ^^^ xorOver T f := by
  have := Finset.fold_union_inter (op := (· ^^^ · : U64 → U64 → U64)) (f := f) (s₁ := S) (s₂ := T) (b₁ := 0#64) (b₂ := 0#64)
  rw [Finset.disjoint_iff_inter_eq_empty.1 h, Finset.fold_empty] at this
  unfold xorOver
  rw [← this, BitVec.xor_zero]

/-- The XOR of one word per honest client. -/
def xorFin (f : Fin n → U64) : U64 := Finset.univ.fold (· ^^^ ·) 0#64 f

theorem xorOver_image (hi : Function.Injective key) (f : Bytes → U64) : xorOver (Finset.univ.image key) f = xorFin fun i => f (key i) := by
  unfold xorOver xorFin
  rw [Finset.fold_image fun x _ y _ h => hi h]
  rfl

/-- The XOR of the others. -/
theorem xorFin_update (f : Fin n → U64) (i : Fin n) (w : U64) :
    xorFin (Function.update f i w) = w ^^^ Finset.fold (fun x y : U64 => x ^^^ y) 0#64 f (Finset.univ.erase i) := by
  unfold xorFin
  rw [← Finset.insert_erase (Finset.mem_univ i), Finset.fold_insert (Finset.notMem_erase i _), Function.update_self,
    Finset.insert_erase (Finset.mem_univ i)]
  congr 1
  refine Finset.fold_congr fun j hj => ?_
  rw [Function.update_of_ne (Finset.ne_of_mem_erase hj)]

end Verif
