import Verif.LemmasMem
import Mathlib.Tactic.Ring

/-! # Memory of the daBit store, of FREQ and of sessions -/

namespace Verif

/-- The blocks that belong to the tables, the precomputations and the store. -/
def Keep.owned (k : Keep) : Multiset Block :=
  (match k.roots with
    | some (_, o) => (↑o : Multiset Block)
    | none => 0) + (owns (k.pre.map (·.2)) + owns k.store)

/-- Their size in bytes. -/
def bytesOf (L : Multiset Block) : ℕ := (L.map Block.bytes).sum

theorem bytesOf_add (L L' : Multiset Block) : bytesOf (L + L') = bytesOf L + bytesOf L' := by simp [bytesOf]

theorem bytesOf_single (b : Block) : bytesOf {b} = b.bytes := by simp [bytesOf]

theorem bytesOf_zero : bytesOf 0 = 0 := rfl

variable {S : ℕ} {R R' R₀ : Multiset Block}

theorem owns_append (l l' : List (List Block)) : owns (l ++ l') = owns l + owns l' := by simp [owns]

theorem owns_cons (o : List Block) (l : List (List Block)) : owns (o :: l) = ↑o + owns l := by simp [owns]

theorem owned_store (k : Keep) (bits : List (List Block)) : ({ k with store := k.store ++ bits } : Keep).owned = owns bits + k.owned := by
  simp only [Keep.owned, owns_append]
  abel

/-- The size of the array `other_dabit` that a refill for `n` daBits leaves behind. -/
def refillLoss (c : StoreCfg) (sv : Bool) (n : ℕ) : ℕ := if c.lazy && !sv then 8 * max n c.batch else 0

theorem num_eq (n b : ℕ) : (if n > b then n else b) = max n b := by
  split <;> omega

theorem tri_addDaBits (c : StoreCfg) (sv : Bool) (n : ℕ) (k : Keep) :
    Tri S (k.owned + R) (addDaBitsMem c sv n k) fun k' R' => k'.store.length = k.store.length + max n c.batch ∧
      ∃ L, bytesOf L = refillLoss c sv n ∧ R' = k'.owned + (L + R) := by
  unfold addDaBitsMem refillLoss
  simp only [num_eq]
  cases hl : c.lazy with
  | true =>
    simp only [if_true]
    new da h1
    refine Tri.bind (Tri.newObjs _ _) ?_
    rintro bits _ ⟨h2, -, rfl⟩
    cases sv with
    | true =>
      simp only [if_true]
      refine (clean_daBits _).run fun _ => ?_
      rel
      exact Tri.pure ⟨by simp [h2], 0, by simp [bytesOf_zero], by rw [owned_store]; abel⟩
    | false =>
      simp only [Bool.false_eq_true, if_false]
      refine Tri.bind (Tri.alloc _ _) ?_
      rintro od _ ⟨h3, h4, rfl⟩
      refine Tri.bind (Tri.newObjs _ _) ?_
      rintro others _ ⟨h5, -, rfl⟩
      refine (clean_daBits _).run fun _ => ?_
      refine Tri.bind (Tri.deleteObjs (by takes)) ?_
      rintro _ _ rfl
      rel
      exact Tri.pure ⟨by simp [h2], {od}, by simp [bytesOf_single, h4], by rw [owned_store]; abel⟩
  | false =>
    simp only [Bool.false_eq_true, if_false]
    new da h1
    new b h2
    new x h3
    refine Tri.bind (Tri.newObjs _ _) ?_
    rintro bits _ ⟨h4, -, rfl⟩
    cases sv with
    | true =>
      simp only [if_true]
      refine (clean_otRecv _).run fun _ => ?_
      rel
      rel
      rel
      exact Tri.pure ⟨by simp [h4], 0, by simp [bytesOf_zero], by rw [owned_store]; abel⟩
    | false =>
      simp only [Bool.false_eq_true, if_false]
      new b0 h5
      new b1 h6
      refine (clean_otSend _).run fun _ => ?_
      rel
      rel
      rel
      rel
      rel
      exact Tri.pure ⟨by simp [h4], 0, by simp [bytesOf_zero], by rw [owned_store]; abel⟩

/-- Number of daBits after `checkDaBits(n)` with `s` in the store, and the loss. -/
def checkLevel (c : StoreCfg) (n s : ℕ) : ℕ := if s < n then s + max (n - s) c.batch else s
def checkLoss (c : StoreCfg) (sv : Bool) (n s : ℕ) : ℕ := if s < n then refillLoss c sv (n - s) else 0

theorem tri_checkDaBits (c : StoreCfg) (sv : Bool) (n : ℕ) (k : Keep) :
    Tri S (k.owned + R) (checkDaBitsMem c sv n k) fun k' R' => k'.store.length = checkLevel c n k.store.length ∧
      ∃ L, bytesOf L = checkLoss c sv n k.store.length ∧ R' = k'.owned + (L + R) := by
  unfold checkDaBitsMem checkLevel checkLoss
  split
  · exact tri_addDaBits c sv _ k
  · exact Tri.pure ⟨rfl, 0, rfl, by simp⟩

/-- The same for `maybeUpdate()`. -/
def Low (c : StoreCfg) (s : ℕ) : Prop := s < c.batch * c.nbits / 2

instance (c : StoreCfg) (s : ℕ) : Decidable (Low c s) := inferInstanceAs (Decidable (_ < _))

def updateLevel (c : StoreCfg) (s : ℕ) : ℕ := if Low c s then s + max (2 * c.nbits * c.batch) c.batch else s
def updateLoss (c : StoreCfg) (sv : Bool) (s : ℕ) : ℕ := if Low c s then refillLoss c sv (2 * c.nbits * c.batch) else 0

theorem tri_maybeUpdate (c : StoreCfg) (sv : Bool) (k : Keep) :
    Tri S (k.owned + R) (maybeUpdateMem c sv k) fun k' R' => k'.store.length = updateLevel c k.store.length ∧
      ∃ L, bytesOf L = updateLoss c sv k.store.length ∧ R' = k'.owned + (L + R) := by
  unfold maybeUpdateMem updateLevel updateLoss
  by_cases hl : Low c k.store.length
  · have hl' : k.store.length < c.batch * c.nbits / 2 := hl
    have h2 : k.store.length < 2 * 1 * c.nbits * c.batch := by
      have : c.batch * c.nbits = c.nbits * c.batch := Nat.mul_comm _ _
      have h3 : 2 * 1 * c.nbits * c.batch = 2 * (c.nbits * c.batch) := by ring
      rw [h3]
      omega
    simp only [hl, hl', if_true, h2]
    exact tri_addDaBits c sv _ k
  · have hl' : ¬ k.store.length < c.batch * c.nbits / 2 := hl
    simp only [hl, hl', if_false, Nat.mul_zero, Nat.zero_mul, Nat.not_lt_zero]
    exact Tri.pure ⟨rfl, 0, rfl, by simp⟩

/-- Taking daBits that are there. -/
theorem tri_useDaBits (c : StoreCfg) (sv : Bool) : ∀ (n : ℕ) (k : Keep), n ≤ k.store.length →
    Tri S (k.owned + R) (useDaBitsMem c sv n k) fun k' R' => k'.store.length = k.store.length - n ∧ R' = k'.owned + R
  | 0, k, _ => Tri.pure ⟨rfl, rfl⟩
  | n + 1, k, h => by
    obtain ⟨ro, pr, st⟩ := k
    cases st with
    | nil => simp at h
    | cons d ds =>
      unfold useDaBitsMem checkDaBitsMem
      have h1 : ¬ (d :: ds).length < 1 := by simp
      simp only [h1, if_false]
      refine Tri.bind (Tri.pure (Q := fun k' R' => k' = ⟨ro, pr, d :: ds⟩ ∧ R' = (⟨ro, pr, d :: ds⟩ : Keep).owned + R) ⟨rfl, rfl⟩) ?_
      rintro _ _ ⟨rfl, rfl⟩
      refine Tri.bind (Tri.deleteObj (R₀ := (⟨ro, pr, ds⟩ : Keep).owned + R) ?_) ?_
      · simp only [Splits, Keep.owned, owns_cons]
        abel
      · rintro _ _ rfl
        refine (tri_useDaBits c sv n ⟨ro, pr, ds⟩ (by simpa using h)).conseq ?_
        rintro k' _ ⟨e, rfl⟩
        exact ⟨by simp [e], rfl⟩

theorem checkLevel_ge (c : StoreCfg) (n s : ℕ) : n ≤ checkLevel c n s := by
  unfold checkLevel
  split <;> omega

theorem tri_b2aSingle (c : StoreCfg) (sv : Bool) (n : ℕ) (k : Keep) :
    Tri S (k.owned + R) (b2aSingleMem c sv n k) fun r R' => r.1.way = .raw ∧ r.2.store.length = checkLevel c n k.store.length - n ∧
      ∃ L, bytesOf L = checkLoss c sv n k.store.length ∧ R' = {r.1} + (r.2.owned + (L + R)) := by
  unfold b2aSingleMem
  new xp h1
  refine Tri.pre (R' := k.owned + ({xp} + R)) (by abel) (Tri.bind (tri_checkDaBits c sv n k) ?_)
  rintro k1 _ ⟨h2, L, h3, rfl⟩
  new vt h4
  refine Tri.pre (R' := k1.owned + ({vt} + (L + ({xp} + R)))) (by abel) (Tri.bind (tri_useDaBits c sv n k1 (h2 ▸ checkLevel_ge c n _)) ?_)
  rintro k2 _ ⟨h5, rfl⟩
  refine (clean_bools _).run fun _ => ?_
  new vo h6
  refine (clean_bools _).run fun _ => ?_
  rel
  rel
  exact Tri.pure ⟨h1, by rw [h5, h2], L, h3, by abel⟩

theorem tri_freq1 (c : StoreCfg) {M total n : ℕ} (single : Bool) (k : Keep) (hS : 8 * M ≤ S) :
    Tri S (k.owned + R) (freq1Mem c M total n single k) fun k' R' => k'.store.length = checkLevel c (n * M) k.store.length - n * M ∧
      ∃ L, bytesOf L = total * M + checkLoss c true (n * M) k.store.length ∧ R' = k'.owned + (L + R) := by
  unfold freq1Mem
  refine Tri.bind (Tri.onStack hS) ?_
  rintro _ _ rfl
  refine Tri.bind (Tri.alloc _ _) ?_
  rintro ou _ ⟨h1, h2, rfl⟩
  new pk h3
  new ac h4
  new sh h5
  use_ptr
  refine Tri.pre (R' := k.owned + ({sh} + ({ac} + ({pk} + ({ou} + R))))) (by abel) (Tri.bind (tri_b2aSingle c true _ k) ?_)
  rintro ⟨sp, k'⟩ _ ⟨h6, h7, L, h8, rfl⟩
  dsimp only at *
  new va h9
  new su h10
  have fin : Tri S ({su} + ({va} + ({sp} + (k'.owned + (L + ({sh} + ({ac} + ({pk} + ({ou} + R)))))))))
      (do
        release .raw su
        release .arr va
        release .arr sh
        release .arr pk
        release .raw sp
        release .raw ac
        pure k' : Mem Keep)
      fun k' R' => k'.store.length = checkLevel c (n * M) k.store.length - n * M ∧
        ∃ L, bytesOf L = total * M + checkLoss c true (n * M) k.store.length ∧ R' = k'.owned + (L + R) := by
    rel
    rel
    rel
    rel
    rel
    rel
    exact Tri.pure ⟨h7, L + {ou}, by rw [bytesOf_add, bytesOf_single, h2, h8]; omega, by abel⟩
  cases single with
  | true =>
    simp only [if_true]
    refine (clean_bools _).run fun _ => ?_
    refine (clean_bools _).run fun _ => ?_
    exact fin
  | false =>
    simp only [Bool.false_eq_true, if_false]
    exact fin

theorem tri_freq0 (c : StoreCfg) {M total n : ℕ} (single refused : Bool) (k : Keep) (hS : 8 * M ≤ S) (hn : n ≤ total) :
    Tri S (k.owned + R) (freq0Mem c M total n single refused k) fun k' R' => k'.store.length = checkLevel c (n * M) k.store.length - n * M ∧
      ∃ L, bytesOf L = total * M + checkLoss c false (n * M) k.store.length + (if refused then 16 * M else 0) ∧ R' = k'.owned + (L + R) := by
  unfold freq0Mem
  refine Tri.bind (Tri.onStack hS) ?_
  rintro _ _ rfl
  refine Tri.bind (Tri.alloc _ _) ?_
  rintro ou _ ⟨h1, h2, rfl⟩
  new pk h3
  refine Tri.bind (Tri.alloc _ _) ?_
  rintro ac _ ⟨h4, h4', rfl⟩
  new sh h5
  new va h9
  rw [if_neg (by omega)]
  use_ptr
  refine Tri.pre (R' := k.owned + ({va} + ({sh} + ({ac} + ({pk} + ({ou} + R)))))) (by abel) (Tri.bind (tri_b2aSingle c false _ k) ?_)
  rintro ⟨sp, k'⟩ _ ⟨h6, h7, L, h8, rfl⟩
  dsimp only at *
  new pa h10
  new su h11
  have fin : Tri S ({su} + ({pa} + ({sp} + (k'.owned + (L + ({va} + ({sh} + ({ac} + ({pk} + ({ou} + R))))))))))
      (do
        release .raw su
        release .arr pa
        boolsMem n
        release .arr va
        release .arr sh
        release .arr pk
        release .raw sp
        let accumOther ← Verif.alloc .raw (8 * M)
        if refused = true then pure k' else
          release .raw accumOther
          release .raw ac
          pure k' : Mem Keep)
      fun k' R' => k'.store.length = checkLevel c (n * M) k.store.length - n * M ∧
        ∃ L, bytesOf L = total * M + checkLoss c false (n * M) k.store.length + (if refused then 16 * M else 0) ∧ R' = k'.owned + (L + R) := by
    rel
    rel
    refine (clean_bools _).run fun _ => ?_
    rel
    rel
    rel
    rel
    refine Tri.bind (Tri.alloc _ _) ?_
    rintro ao _ ⟨h12, h12', rfl⟩
    cases refused with
    | true =>
      exact Tri.pure ⟨h7, L + {ou} + {ac} + {ao}, by simp only [bytesOf_add, bytesOf_single, h2, h8, h4', h12']; simp only [if_true]; omega, by abel⟩
    | false =>
      simp only [Bool.false_eq_true, if_false]
      rel
      rel
      exact Tri.pure ⟨h7, L + {ou}, by rw [bytesOf_add, bytesOf_single, h2, h8]; omega, by abel⟩
  cases single with
  | true =>
    simp only [if_true]
    new po h13
    new so h14
    refine (clean_bools _).run fun _ => ?_
    rel
    rel
    exact fin
  | false =>
    simp only [Bool.false_eq_true, if_false]
    exact fin

end Verif
