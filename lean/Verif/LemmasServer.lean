import Verif.ModelServer
import Verif.PropsOt
import Mathlib.Algebra.BigOperators.Group.Finset.Basic
import Mathlib.Algebra.BigOperators.Ring.Finset
import Mathlib.Data.List.Perm.Basic

/-! # Lemmas about maps, submissions and the exchange of keys -/

namespace Verif

variable {α : Type}

/-- The keys of a map. -/
abbrev Map.keys (m : Map α) : List Bytes := List.map (·.1) m

theorem lookup_append_new (m : Map α) (k k' : Bytes) (v : α) :
    List.lookup k' (m ++ [(k, v)]) = (List.lookup k' m).or (if k' = k then some v else none) := by
  induction m with
  | nil =>
    by_cases h : k' = k
    · subst h; simp
    · have : (k' == k) = false := by simpa using h
      simp [List.lookup, h, this]
  | cons e m ih =>
    obtain ⟨a, b⟩ := e
    by_cases h : k' = a
    · subst h; simp [List.lookup]
    · have : (k' == a) = false := by simpa using h
      simp [List.lookup, this, ih]

theorem lookup_isSome_iff (m : Map α) (k : Bytes) : (List.lookup k m).isSome = true ↔ k ∈ m.keys := by
  induction m with
  | nil => simp
  | cons e m ih =>
    obtain ⟨a, b⟩ := e
    by_cases h : k = a
    · subst h; simp [List.lookup]
    · have : (k == a) = false := by simpa using h
      simp [List.lookup, this, h, ih]

theorem lookup_of_mem {m : Map α} (hn : m.keys.Nodup) {k : Bytes} {v : α} (h : (k, v) ∈ m) :
    List.lookup k m = some v := by
  induction m with
  | nil => simp at h
  | cons e m ih =>
    obtain ⟨a, b⟩ := e
    rw [Map.keys, List.map_cons, List.nodup_cons] at hn
    rcases List.mem_cons.1 h with h' | h'
    · cases h'; simp [List.lookup]
    · have hne : k ≠ a := by
        rintro rfl
        exact hn.1 (List.mem_map.2 ⟨_, h', rfl⟩)
      have : (k == a) = false := by simpa using hne
      simpa [List.lookup, this] using ih hn.2 h'

theorem mem_of_lookup {m : Map α} {k : Bytes} {v : α} (h : List.lookup k m = some v) : (k, v) ∈ m := by
  induction m with
  | nil => simp at h
  | cons e m ih =>
    obtain ⟨a, b⟩ := e
    by_cases hk : k = a
    · subst hk; simp [List.lookup] at h; simp [h]
    · have : (k == a) = false := by simpa using hk
      rw [List.lookup, this] at h
      exact List.mem_cons_of_mem _ (ih h)

/-! ## Building the map -/

theorem admit_nodup (ok : α → Bool) (subs : List (Bytes × α)) (m : Map α) (hn : m.keys.Nodup) :
    (admit ok subs m).keys.Nodup := by
  induction subs generalizing m with
  | nil => exact hn
  | cons e subs ih =>
    obtain ⟨k, v⟩ := e
    rw [admit]
    split
    · exact ih m hn
    · rename_i h
      refine ih _ ?_
      simp only [Bool.or_eq_true, not_or] at h
      have : k ∉ m.keys := by rw [← lookup_isSome_iff]; exact h.1
      rw [Map.keys, List.map_append]
      exact List.nodup_append.2 ⟨hn, by simp, by
        intro a ha b hb
        simp at hb; subst hb; rintro rfl; exact this ha⟩

theorem admit_lookup (ok : α → Bool) (subs : List (Bytes × α)) (m : Map α) (k : Bytes) :
    List.lookup k (admit ok subs m) =
      (List.lookup k m).or ((subs.find? fun s => s.1 == k && ok s.2).map (·.2)) := by
  induction subs generalizing m with
  | nil => simp [admit]
  | cons e subs ih =>
    obtain ⟨k', v⟩ := e
    rw [admit]
    by_cases hk : k' = k
    · subst hk
      split
      · rename_i h
        rw [ih]
        rcases hl : List.lookup k' m with _ | w
        · simp only [hl, Option.isSome_none, Bool.false_or, Bool.not_eq_true'] at h
          simp [h]
        · simp
      · rename_i h
        simp only [Bool.or_eq_true, not_or, Bool.not_eq_true, Bool.not_eq_false', Option.isSome_eq_false_iff,
          Option.isNone_iff_eq_none] at h
        rw [ih, lookup_append_new, h.1]
        simp [h.2]
    · have hk' : (k' == k) = false := by simpa using hk
      have hk2 : k ≠ k' := fun h => hk h.symm
      split
      · rw [ih]; simp [hk']
      · rw [ih, lookup_append_new]; simp [hk', hk2]

theorem admit_ok (ok : α → Bool) (subs : List (Bytes × α)) (m : Map α) (P : Bytes → α → Prop)
    (hm : ∀ e ∈ m, P e.1 e.2) (hs : ∀ e ∈ subs, ok e.2 = true → P e.1 e.2) : ∀ e ∈ admit ok subs m, P e.1 e.2 := by
  induction subs generalizing m with
  | nil => exact hm
  | cons e subs ih =>
    obtain ⟨k, v⟩ := e
    rw [admit]
    have hs' : ∀ e ∈ subs, ok e.2 = true → P e.1 e.2 := fun e he => hs e (List.mem_cons_of_mem _ he)
    split
    · exact ih m hm hs'
    · rename_i h
      refine ih _ ?_ hs'
      intro e he
      rcases List.mem_append.1 he with he | he
      · exact hm e he
      · simp only [List.mem_singleton] at he; subst he
        simp only [Bool.or_eq_true, not_or, Bool.not_eq_true, Bool.not_eq_false'] at h
        exact hs _ (List.mem_cons_self ..) h.2

theorem admit_length (ok : α → Bool) (subs : List (Bytes × α)) (m : Map α) :
    (admit ok subs m).length ≤ m.length + subs.length := by
  induction subs generalizing m with
  | nil => simp [admit]
  | cons e subs ih =>
    obtain ⟨k, v⟩ := e
    rw [admit]
    split
    · have := ih m; simp; omega
    · have := ih (m ++ [(k, v)]); simp at this ⊢; omega

/-! ## Records on the wire -/

theorem recordLoop_full (n : ℕ) (rs : List Bytes) (h : ∀ r ∈ rs, r.length = n) (buf : Option Bytes) (rest : Bytes) :
    recordLoop n rs.length buf (rs.flatten ++ rest) = some rs := by
  induction rs generalizing buf with
  | nil => simp [recordLoop]
  | cons r rs ih =>
    have hr : r.length = n := h r (List.mem_cons_self ..)
    have e : (r :: rs).flatten ++ rest = r ++ (rs.flatten ++ rest) := by simp
    rw [List.length_cons, recordLoop, e, fillBuf, if_pos (by simp; omega)]
    dsimp only
    rw [List.take_left' hr, List.drop_left' hr, ih fun r hr => h r (List.mem_cons_of_mem _ hr)]
    rfl

/-! ## The exchange of keys -/

theorem keys_pair (ks : List Bytes) (h : ∀ k ∈ ks, k.length = pkLength) :
    Pair (recvKeys ks.length) (sendKeys ks) ks () := by
  induction ks with
  | nil => exact Pair.ret _ _
  | cons k ks ih =>
    rw [List.length_cons, recvKeys, sendKeys]
    refine (Pair.send10 (Reads.getRet (k := id) (h k (List.mem_cons_self ..)))).bind ?_
    have h' := ih fun k hk => h k (List.mem_cons_of_mem _ hk)
    exact Pair.bindL (f := fun ks => k :: ks) h'

theorem listen_pair (ks : List Bytes) (h : ∀ k ∈ ks, k.length = pkLength) (hl : ks.length < 2 ^ 32) :
    Pair listen (announce ks) ks () := by
  unfold listen announce
  refine (Pair.send10 (reads_size _)).bind ?_
  have e : (BitVec.ofNat 64 ((BitVec.ofNat 64 ks.length : U64).toNat % 2 ^ 32) : U64).toNat = ks.length := by
    rw [BitVec.toNat_ofNat, BitVec.toNat_ofNat]
    omega
  rw [e]
  exact keys_pair ks h

/-! ## Sums over the announced keys -/

theorem matched_length (m : Map α) (ks : List Bytes) : (matched m ks).length = ks.length := by simp [matched]

theorem numTrue_matched (m : Map α) (ks : List Bytes) (hn : ks.Nodup) :
    numTrue (matched m ks) = (ks.toFinset.filter fun k => (List.lookup k m).isSome).card := by
  have e : numTrue (matched m ks) = (ks.filter fun k => (List.lookup k m).isSome).length := by
    simp [numTrue, matched, List.filter_map]
  rw [e, ← List.toFinset_card_of_nodup (hn.filter _)]
  congr 1
  ext k; simp

/-- A sum over a list of distinct keys of the terms that are matched. -/
theorem sum_matched {M : Type} [AddCommMonoid M] (ks : List Bytes) (hn : ks.Nodup) (p : Bytes → Bool) (f : Bytes → M) :
    (ks.map fun k => if p k then f k else 0).sum = ∑ k ∈ ks.toFinset.filter (fun k => p k), f k := by
  rw [Finset.sum_filter, ← List.sum_toFinset _ hn]

end Verif
