import Verif.ModelInvalid
import Verif.PropsEnd

/-!
# What the servers make of the keys of a debugging run
-/

namespace Verif

/-- What is found in place of the key of the client before (if the run gets there): 32 bytes, either the key of an earlier client that counts, or
neither a key of the batch nor the misspelled one; and the two finds are not the same, except for a key that counts. -/
def Harmless (stale : Stale) (s : Spoil) (key : ℕ → Bytes) (n : ℕ) (good : ℕ → Bool) : Prop :=
  (∀ i, (i = s.dup0 ∨ i = s.dup1) → i < n → ∃ a, stale i = some a ∧ a.length = pkLength ∧
    ((∃ j < i, good j = true ∧ a = key j) ∨ ((∀ j < n, a ≠ key j) ∧ a ≠ misspell (key s.mis)))) ∧
  (s.dup0 < n → s.dup1 < n → stale s.dup0 = stale s.dup1 → ∃ j < n, good j = true ∧ stale s.dup0 = some (key j))

theorem optAll_range {β : Type} {n : ℕ} {f : ℕ → Option β} {f' : ℕ → β} (h : ∀ i < n, f i = some (f' i)) :
    optAll ((List.range n).map f) = some ((List.range n).map f') := by
  have : ∀ l : List ℕ, (∀ i ∈ l, f i = some (f' i)) → optAll (l.map f) = some (l.map f') := by
    intro l
    induction l with
    | nil => intro _; rfl
    | cons i l ih =>
      intro hl
      rw [List.map_cons, hl i List.mem_cons_self]
      simp [optAll, ih fun j hj => hl j (List.mem_cons_of_mem _ hj)]
  exact this _ fun i hi => h i (List.mem_range.1 hi)

theorem firstOf_range {α : Type} {ok : α → Bool} {n : ℕ} {k : ℕ → Bytes} {sh : ℕ → α} {i : ℕ} (hi : i < n) (ho : ok (sh i) = true)
    (hb : ∀ j < i, k j ≠ k i) : firstOf ok ((List.range n).map fun j => (k j, sh j)) (k i) = some (sh i) := by
  unfold firstOf
  rw [List.find?_map]
  have : (List.range n).find? ((fun s : Bytes × α => s.1 == k i && ok s.2) ∘ fun j => (k j, sh j)) = some i := by
    rw [List.find?_range_eq_some]
    refine ⟨by simp [ho], List.mem_range.2 hi, fun j hj => ?_⟩
    simp [hb j hj]
  rw [this]; rfl

theorem firstOf_range_some {α : Type} {ok : α → Bool} {n : ℕ} {k : ℕ → Bytes} {sh : ℕ → α} {x : Bytes}
    (h : (firstOf ok ((List.range n).map fun j => (k j, sh j)) x).isSome = true) : ∃ j < n, k j = x ∧ ok (sh j) = true := by
  unfold firstOf at h
  rw [Option.isSome_map, List.find?_isSome] at h
  obtain ⟨e, he, h⟩ := h
  obtain ⟨j, hj, rfl⟩ := List.mem_map.1 he
  simp only [Bool.and_eq_true, beq_iff_eq] at h
  exact ⟨j, List.mem_range.1 hj, h.1, h.2⟩

/-- The clients that count are exactly those whose keys are left alone and whose shares are admissible; each server has their shares. -/
theorem spoiled_keys {α : Type} {ok : α → Bool} {n : ℕ} {key : ℕ → Bytes} {s : Spoil} {stale : Stale} {good : ℕ → Bool} {sh0 sh1 : ℕ → α}
    (hlen : ∀ i, (key i).length = pkLength)
    (hinj : ∀ i < n, ∀ j < n, key i = key j → i = j) (hq : ∀ i, misspell (key s.mis) ≠ key i) (hs : Harmless stale s key n good)
    (hd0 : s.mis ≠ s.dup0)
    (hgood : ∀ i < n, good i = true ↔ i ≠ s.mis ∧ i ≠ s.dup0 ∧ i ≠ s.dup1 ∧ ok (sh0 i) = true ∧ ok (sh1 i) = true) :
    ∃ a b, badSubs (s.key0 stale key) sh0 n = some a ∧ badSubs (s.key1 stale key) sh1 n = some b ∧ a.length = n ∧ b.length = n ∧ Keyed a ∧ Keyed b ∧
      a.map (·.2) = (List.range n).map sh0 ∧ b.map (·.2) = (List.range n).map sh1 ∧
      (((List.range n).filter good).map key).Nodup ∧
      (∀ i ∈ (List.range n).filter good, firstOf ok a (key i) = some (sh0 i) ∧ firstOf ok b (key i) = some (sh1 i)) ∧
      bothKeys ok a b = (((List.range n).filter good).map key).toFinset := by
  obtain ⟨hf, hne⟩ := hs
  set k0 : ℕ → Bytes := fun i => (s.key0 stale key i).getD [] with hk0
  set k1 : ℕ → Bytes := fun i => (s.key1 stale key i).getD [] with hk1
  have e0 : ∀ i < n, s.key0 stale key i = some (k0 i) := by
    intro i hi
    simp only [hk0, Spoil.key0]
    split
    · next h =>
      obtain ⟨a, ha, -⟩ := hf i (.inl h) hi
      rw [ha]; rfl
    · rfl
  have e1 : ∀ i < n, s.key1 stale key i = some (k1 i) := by
    intro i hi
    simp only [hk1, Spoil.key1]
    split
    · next h =>
      obtain ⟨a, ha, -⟩ := hf i (.inr h) hi
      rw [ha]; rfl
    · rfl
  have l0 : ∀ i < n, (k0 i).length = pkLength := by
    intro i hi
    simp only [hk0, Spoil.key0]
    split
    · next h =>
      obtain ⟨a, ha, hl, -⟩ := hf i (.inl h) hi
      rw [ha]; exact hl
    · rw [Option.getD_some]
      split
      · have := hlen i
        rw [misspell, List.length_cons, List.length_drop, this]; rfl
      · exact hlen i
  have l1 : ∀ i < n, (k1 i).length = pkLength := by
    intro i hi
    simp only [hk1, Spoil.key1]
    split
    · next h =>
      obtain ⟨a, ha, hl, -⟩ := hf i (.inr h) hi
      rw [ha]; exact hl
    · exact hlen i
  have n0 : ∀ i, i ≠ s.dup0 → i ≠ s.mis → k0 i = key i := by
    intro i h1 h2
    simp only [hk0, Spoil.key0, if_neg h1, if_neg h2, Option.getD_some]
  have n1 : ∀ i, i ≠ s.dup1 → k1 i = key i := by
    intro i h1
    simp only [hk1, Spoil.key1, if_neg h1, Option.getD_some]
  have m0 : k0 s.mis = misspell (key s.mis) := by simp only [hk0, Spoil.key0, if_neg hd0, if_pos, Option.getD_some]
  have d0 : ∀ j < n, s.dup0 < n → k0 s.dup0 = key j → j < s.dup0 ∧ good j = true := by
    intro j hj hn he
    obtain ⟨a, ha, -, h⟩ := hf _ (.inl rfl) hn
    have : k0 s.dup0 = a := by simp only [hk0, Spoil.key0, if_pos, ha, Option.getD_some]
    rw [this] at he
    rcases h with ⟨i, hi, hg, h⟩ | ⟨h, -⟩
    · have := hinj i (by omega) j hj (by rw [← h, he])
      subst this
      exact ⟨hi, hg⟩
    · exact absurd he (h j hj)
  have d1 : ∀ j < n, s.dup1 < n → k1 s.dup1 = key j → j < s.dup1 ∧ good j = true := by
    intro j hj hn he
    obtain ⟨a, ha, -, h⟩ := hf _ (.inr rfl) hn
    have : k1 s.dup1 = a := by simp only [hk1, Spoil.key1, if_pos, ha, Option.getD_some]
    rw [this] at he
    rcases h with ⟨i, hi, hg, h⟩ | ⟨h, -⟩
    · have := hinj i (by omega) j hj (by rw [← h, he])
      subst this
      exact ⟨hi, hg⟩
    · exact absurd he (h j hj)
  have hfirst : ∀ i ∈ (List.range n).filter good,
      firstOf ok ((List.range n).map fun j => (k0 j, sh0 j)) (key i) = some (sh0 i) ∧
      firstOf ok ((List.range n).map fun j => (k1 j, sh1 j)) (key i) = some (sh1 i) := by
    intro i hi
    obtain ⟨hi, hg⟩ := List.mem_filter.1 hi
    have hi := List.mem_range.1 hi
    obtain ⟨g1, g2, g3, g4, g5⟩ := (hgood i hi).1 hg
    constructor
    · rw [← n0 i g2 g1]
      refine firstOf_range hi g4 fun j hj => ?_
      rw [n0 i g2 g1]
      intro he
      by_cases hj0 : j = s.dup0
      · subst hj0
        have := d0 i hi (by omega) he
        omega
      · by_cases hjm : j = s.mis
        · subst hjm
          rw [m0] at he
          exact hq i he
        · rw [n0 j hj0 hjm] at he
          have := hinj j (by omega) i hi he
          omega
    · rw [← n1 i g3]
      refine firstOf_range hi g5 fun j hj => ?_
      rw [n1 i g3]
      intro he
      by_cases hj0 : j = s.dup1
      · subst hj0
        have := d1 i hi (by omega) he
        omega
      · rw [n1 j hj0] at he
        have := hinj j (by omega) i hi he
        omega
  refine ⟨(List.range n).map fun j => (k0 j, sh0 j), (List.range n).map fun j => (k1 j, sh1 j), ?_, ?_, by simp, by simp, ?_, ?_, ?_, ?_, ?_, hfirst, ?_⟩
  · exact optAll_range fun i hi => by rw [e0 i hi]; rfl
  · exact optAll_range fun i hi => by rw [e1 i hi]; rfl
  · intro e he
    obtain ⟨j, hj, rfl⟩ := List.mem_map.1 he
    exact l0 j (List.mem_range.1 hj)
  · intro e he
    obtain ⟨j, hj, rfl⟩ := List.mem_map.1 he
    exact l1 j (List.mem_range.1 hj)
  · rw [List.map_map]; rfl
  · rw [List.map_map]; rfl
  · refine List.Nodup.map_on (fun i hi j hj he => ?_) (List.nodup_range.filter _)
    exact hinj i (List.mem_range.1 (List.mem_filter.1 hi).1) j (List.mem_range.1 (List.mem_filter.1 hj).1) he
  · ext x
    simp only [bothKeys, Finset.mem_filter, List.mem_toFinset]
    constructor
    · rintro ⟨-, h0, h1⟩
      obtain ⟨i, hi, ki, oi⟩ := firstOf_range_some h0
      obtain ⟨j, hj, kj, oj⟩ := firstOf_range_some h1
      have done : ∀ l < n, good l = true → key l = x → x ∈ List.map key (List.filter good (List.range n)) := fun l hl hg hx =>
        List.mem_map.2 ⟨l, List.mem_filter.2 ⟨List.mem_range.2 hl, hg⟩, hx⟩
      by_cases hj1 : j = s.dup1
      · subst hj1
        by_cases hi0 : i = s.dup0
        · subst hi0
          have he : stale s.dup0 = stale s.dup1 := by
            have a0 := e0 _ hi
            have a1 := e1 _ hj
            simp only [Spoil.key0, if_pos] at a0
            simp only [Spoil.key1, if_pos] at a1
            rw [a0, a1, ki, kj]
          obtain ⟨l, hl, hg, hx⟩ := hne hi hj he
          refine done l hl hg ?_
          have a0 := e0 _ hi
          simp only [Spoil.key0, if_pos] at a0
          rw [a0, ki] at hx
          exact (Option.some.inj hx).symm
        · by_cases him : i = s.mis
          · subst him
            rw [m0] at ki
            obtain ⟨a, ha, -, h⟩ := hf _ (.inr rfl) hj
            have : k1 s.dup1 = a := by simp only [hk1, Spoil.key1, if_pos, ha, Option.getD_some]
            rw [kj] at this
            rcases h with ⟨l, -, -, h⟩ | ⟨-, h⟩
            · exact absurd (by rw [ki, this, h]) (hq l)
            · exact absurd (by rw [← this, ki]) h
          · rw [n0 i hi0 him] at ki
            exact done i hi (d1 i hi hj (by rw [kj, ki])).2 ki
      · rw [n1 j hj1] at kj
        by_cases hi0 : i = s.dup0
        · subst hi0
          exact done j hj (d0 j hj hi (by rw [ki, kj])).2 kj
        · by_cases him : i = s.mis
          · subst him
            rw [m0] at ki
            exact absurd (by rw [ki, kj]) (hq j)
          · rw [n0 i hi0 him] at ki
            have := hinj i hi j hj (by rw [ki, kj])
            subst this
            exact done i hi ((hgood i hi).2 ⟨him, hi0, hj1, oi, oj⟩) ki
    · intro hx
      obtain ⟨i, hi, rfl⟩ := List.mem_map.1 hx
      have hfi := hfirst i hi
      obtain ⟨hir, hg⟩ := List.mem_filter.1 hi
      obtain ⟨g1, g2, -⟩ := (hgood i (List.mem_range.1 hir)).1 hg
      refine ⟨?_, by rw [hfi.1]; rfl, by rw [hfi.2]; rfl⟩
      rw [List.map_map]
      exact List.mem_map.2 ⟨i, hir, n0 i g2 g1⟩

end Verif
