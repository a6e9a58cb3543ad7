import Verif.ModelSeed
import Mathlib.Tactic.Common

/-!
# C82: a server draws from its generator only while that is set up

It does not: the destructor of `Checker` clears the generator of the process, once per packet, and nothing sets it up again.
-/

namespace Verif

/-! ## Specification -/

/-- A generator is in use before position `i` of a list of calls: it was set up, and not cleared since. -/
def UpAt (l : List SeedOp) (i : ℕ) : Prop := ∃ j < i, l[j]? = some .set ∧ ∀ m, j < m → m < i → l[m]? ≠ some .clear

/-- All draws and all clearings find the generator set up. -/
def SeedOk (l : List SeedOp) : Prop := ∀ i, l[i]? = some .draw ∨ l[i]? = some .clear → UpAt l i

/-- A step that takes random numbers from `seed`. -/
def FromSeed (c : StoreCfg) (sv : Bool) : SeedStep → Prop
  | .check _ => False
  | .fresh => sv = true
  | .refill n => c.lazy = true ∧ sv = false ∧ (0 < n ∨ 0 < c.batch)

/-- The packets checked in a session. -/
def packetsIn : List SeedStep → ℕ
  | [] => 0
  | .check n :: l => n + packetsIn l
  | _ :: l => packetsIn l

/-! ## Proofs -/

/-- The same with a state. -/
def seedFine : Bool → List SeedOp → Prop
  | _, [] => True
  | _, .set :: l => seedFine true l
  | up, .draw :: l => up = true ∧ seedFine up l
  | up, .clear :: l => up = true ∧ seedFine false l

theorem seedFine_append (up : Bool) (a b : List SeedOp) (ha : ∀ o ∈ a, o = .draw) : seedFine up (a ++ b) ↔ (a = [] ∨ up = true) ∧ seedFine up b := by
  induction a with
  | nil => simp
  | cons o a ih =>
    obtain rfl := ha o (by simp)
    rw [List.cons_append, seedFine, ih fun o ho => ha o (by simp [ho])]
    simp only [reduceCtorEq, false_or]
    tauto

/-- The calls after a first part, with the state that part leaves. -/
theorem seedOk_iff (l : List SeedOp) : SeedOk l ↔ seedFine false l := by
  have key : ∀ (l pre : List SeedOp) (up : Bool), (up = true ↔ UpAt (pre ++ l) pre.length) →
      (seedFine up l ↔ ∀ i, pre.length ≤ i → ((pre ++ l)[i]? = some .draw ∨ (pre ++ l)[i]? = some .clear) → UpAt (pre ++ l) i) := by
    intro l
    induction l with
    | nil =>
      intro pre up _
      simp only [seedFine, true_iff]
      intro i hi h
      rw [List.append_nil, List.getElem?_eq_none hi] at h
      simp at h
    | cons o l ih =>
      intro pre up hup
      have hat : (pre ++ o :: l)[pre.length]? = some o := by simp
      have happ : pre ++ o :: l = (pre ++ [o]) ++ l := by simp
      have hlen : (pre ++ [o]).length = pre.length + 1 := by simp
      have split : ∀ P : ℕ → Prop, (∀ i, pre.length ≤ i → P i) ↔ P pre.length ∧ ∀ i, (pre ++ [o]).length ≤ i → P i := by
        intro P
        rw [hlen]
        refine ⟨fun h => ⟨h _ le_rfl, fun i hi => h i (by omega)⟩, fun h i hi => ?_⟩
        rcases Nat.eq_or_lt_of_le hi with rfl | hi
        · exact h.1
        · exact h.2 i hi
      have next : ∀ up', (up' = true ↔ UpAt (pre ++ o :: l) (pre.length + 1)) →
          (seedFine up' l ↔ ∀ i, (pre ++ [o]).length ≤ i → ((pre ++ o :: l)[i]? = some .draw ∨ (pre ++ o :: l)[i]? = some .clear) → UpAt (pre ++ o :: l) i) := by
        intro up' h
        have := ih (pre ++ [o]) up' (by rw [hlen, ← happ]; exact h)
        rw [← happ] at this
        exact this
      rw [split]
      cases o with
      | set =>
        rw [seedFine, next true]
        · simp
        · refine ⟨fun _ => ⟨pre.length, by omega, hat, fun m h1 h2 => by omega⟩, fun _ => rfl⟩
      | draw =>
        rw [seedFine, next up]
        · simp only [hat, true_or, true_implies, ← hup]
        · rw [hup]
          constructor
          · rintro ⟨j, hj, h1, h2⟩
            refine ⟨j, by omega, h1, fun m h3 h4 => ?_⟩
            rcases Nat.eq_or_lt_of_le (Nat.le_of_lt_succ h4) with rfl | h4
            · simp
            · exact h2 m h3 h4
          · rintro ⟨j, hj, h1, h2⟩
            refine ⟨j, ?_, h1, fun m h3 h4 => h2 m h3 (by omega)⟩
            rcases Nat.eq_or_lt_of_le (Nat.le_of_lt_succ hj) with rfl | hj
            · simp at h1
            · exact hj
      | clear =>
        rw [seedFine, next false]
        · simp only [hat, or_true, true_implies, ← hup]
        · simp only [Bool.false_eq_true, false_iff]
          rintro ⟨j, hj, h1, h2⟩
          rcases Nat.eq_or_lt_of_le (Nat.le_of_lt_succ hj) with rfl | hj
          · simp at h1
          · exact h2 _ hj (by omega) hat
  have h0 := key l [] false (by simp [UpAt])
  rw [h0]
  simp [SeedOk]

/-- The rest of a session, once the generator is cleared. -/
theorem seedFine_down (c : StoreCfg) (sv : Bool) (l : List SeedStep) :
    seedFine false (l.flatMap (seedStep c sv)) ↔ packetsIn l = 0 ∧ ∀ s ∈ l, ¬ FromSeed c sv s := by
  induction l with
  | nil => simp [seedFine, packetsIn]
  | cons s l ih =>
    rw [List.flatMap_cons]
    cases s with
    | check n =>
      cases n with
      | zero => simp [seedStep, ih, packetsIn, FromSeed]
      | succ n => simp [seedStep, List.replicate_succ, seedFine, packetsIn]
    | fresh =>
      rw [seedFine_append _ _ _ (by intro o ho; simp only [seedStep] at ho; split at ho <;> simp_all), ih]
      cases sv <;> simp [seedStep, packetsIn, FromSeed]
    | refill n =>
      rw [seedFine_append _ _ _ (by
        intro o ho
        simp only [seedStep] at ho
        split at ho
        · obtain ⟨a, ha, hb⟩ := List.mem_flatten.1 ho
          rw [List.eq_of_mem_replicate ha] at hb
          simpa using hb
        · simp at ho), ih]
      simp only [seedStep, packetsIn, List.mem_cons, forall_eq_or_imp, FromSeed, Bool.false_eq_true, or_false]
      have : (if c.lazy = true ∧ sv = false then (List.replicate (if n > c.batch then n else c.batch) [SeedOp.draw, .draw]).flatten else []) = [] ↔
          ¬ (c.lazy = true ∧ sv = false ∧ (0 < n ∨ 0 < c.batch)) := by
        by_cases h : c.lazy = true ∧ sv = false
        · rw [if_pos h]
          generalize hm : (if n > c.batch then n else c.batch) = m
          have hm0 : m = 0 ↔ ¬ (0 < n ∨ 0 < c.batch) := by
            split at hm <;> omega
          cases m with
          | zero => simpa [h.1, h.2] using hm0.1 rfl
          | succ m =>
            have : ¬ ¬ (0 < n ∨ 0 < c.batch) := fun hn => absurd (hm0.2 hn) (by omega)
            simp only [List.replicate_succ, List.flatten_cons, List.cons_append, reduceCtorEq, false_iff, h.1, h.2, true_and]
            exact this
        · rw [if_neg h]
          simp only [true_iff]
          tauto
      rw [this]
      tauto

/-- The part of a session up to the first checked packet. -/
theorem seedFine_up (c : StoreCfg) (sv : Bool) (l : List SeedStep) (h : packetsIn l = 0) (r : List SeedOp) :
    seedFine true (l.flatMap (seedStep c sv) ++ r) ↔ seedFine true r := by
  induction l with
  | nil => simp
  | cons s l ih =>
    rw [List.flatMap_cons, List.append_assoc]
    cases s with
    | check n =>
      obtain ⟨rfl, hl⟩ : n = 0 ∧ packetsIn l = 0 := by simpa [packetsIn] using h
      simpa [seedStep] using ih hl
    | fresh =>
      rw [seedFine_append _ _ _ (by intro o ho; simp only [seedStep] at ho; split at ho <;> simp_all), ih (by simpa [packetsIn] using h)]
      simp
    | refill n =>
      rw [seedFine_append _ _ _ (by
        intro o ho
        simp only [seedStep] at ho
        split at ho
        · obtain ⟨a, ha, hb⟩ := List.mem_flatten.1 ho
          rw [List.eq_of_mem_replicate ha] at hb
          simpa using hb
        · simp at ho), ih (by simpa [packetsIn] using h)]
      simp

theorem seedFine_start (c : StoreCfg) (sv : Bool) (l : List SeedStep) : SeedOk (seedSession c sv l) ↔ seedFine true (l.flatMap (seedStep c sv)) := by
  rw [seedOk_iff, seedSession, seedStart]
  cases sv <;> simp [seedFine]

/-- Until a packet is checked, the generator is used properly. -/
theorem C82_before_partial (c : StoreCfg) (sv : Bool) (l : List SeedStep) (h : packetsIn l = 0) : SeedOk (seedSession c sv l) := by
  rw [seedFine_start]
  have := (seedFine_up c sv l h []).2 trivial
  rwa [List.append_nil] at this

/-- Checking a batch of two packets clears the generator twice, at either server, whatever the rest of the session. -/
theorem C82_false_twice (c : StoreCfg) (sv : Bool) (a b : List SeedStep) (n : ℕ) (hn : 2 ≤ n) (ha : packetsIn a = 0) :
    ¬ SeedOk (seedSession c sv (a ++ .check n :: b)) := by
  obtain ⟨m, rfl⟩ : ∃ m, n = m + 2 := ⟨n - 2, by omega⟩
  rw [seedFine_start, List.flatMap_append, seedFine_up c sv a ha]
  simp [seedStep, List.replicate_succ, seedFine]

/-- After a batch of any size, each draw is from a cleared generator: the next check point at server 1, the next refill at server 0. -/
theorem C82_false_draw (c : StoreCfg) (sv : Bool) (a b : List SeedStep) (n : ℕ) (hn : 0 < n) (s : SeedStep) (hs : s ∈ b) (hd : FromSeed c sv s) :
    ¬ SeedOk (seedSession c sv (a ++ .check n :: b)) := by
  rw [seedFine_start]
  intro h
  have tail : ∀ (a : List SeedStep) (up : Bool), seedFine up ((a ++ .check n :: b).flatMap (seedStep c sv)) → False := by
    intro a
    induction a with
    | nil =>
      intro up h
      rw [List.nil_append, List.flatMap_cons, seedStep] at h
      have : ∀ (n : ℕ) (up : Bool), 0 < n → seedFine up (List.replicate n .clear ++ b.flatMap (seedStep c sv)) → seedFine false (b.flatMap (seedStep c sv)) := by
        intro n
        induction n with
        | zero => exact fun _ h => absurd h (lt_irrefl 0)
        | succ n ih =>
          intro up _ h
          rw [List.replicate_succ, List.cons_append, seedFine] at h
          cases n with
          | zero => exact h.2
          | succ n => exact ih false (by omega) h.2
      exact ((seedFine_down c sv b).1 (this n up hn h)).2 s hs hd
    | cons t a ih =>
      intro up h
      rw [List.cons_append, List.flatMap_cons] at h
      have : ∀ (x y : List SeedOp) (up : Bool), seedFine up (x ++ y) → ∃ up', seedFine up' y := by
        intro x y
        induction x with
        | nil => exact fun up h => ⟨up, h⟩
        | cons o x ih =>
          intro up h
          cases o with
          | set => exact ih _ h
          | draw => exact ih _ h.2
          | clear => exact ih _ h.2
      obtain ⟨up', h'⟩ := this _ _ _ h
      exact ih up' h'
  exact tail a true h

/-- Which sessions use the generator properly: those that check no packet, or one, and draw nothing after it. -/
theorem C82_exact (c : StoreCfg) (sv : Bool) (l : List SeedStep) : SeedOk (seedSession c sv l) ↔
    packetsIn l = 0 ∨ ∃ a b, l = a ++ .check 1 :: b ∧ packetsIn a = 0 ∧ packetsIn b = 0 ∧ ∀ s ∈ b, ¬ FromSeed c sv s := by
  constructor
  · intro h
    by_cases h0 : packetsIn l = 0
    · exact .inl h0
    · have first : ∀ l : List SeedStep, packetsIn l ≠ 0 → ∃ a n b, l = a ++ .check n :: b ∧ packetsIn a = 0 ∧ 0 < n := by
        intro l
        induction l with
        | nil => simp [packetsIn]
        | cons s l ih =>
          intro hl
          have later : packetsIn [s] = 0 → packetsIn l ≠ 0 → ∃ a n b, s :: l = a ++ .check n :: b ∧ packetsIn a = 0 ∧ 0 < n := by
            intro hs hl
            obtain ⟨a, n, b, rfl, h1, h2⟩ := ih hl
            refine ⟨s :: a, n, b, rfl, ?_, h2⟩
            cases s <;> simp_all [packetsIn]
          cases s with
          | check n =>
            rcases Nat.eq_zero_or_pos n with rfl | hn
            · exact later rfl (by simpa [packetsIn] using hl)
            · exact ⟨[], n, l, rfl, rfl, hn⟩
          | fresh => exact later rfl (by simpa [packetsIn] using hl)
          | refill n => exact later rfl (by simpa [packetsIn] using hl)
      obtain ⟨a, n, b, rfl, h1, h2⟩ := first l h0
      obtain rfl : n = 1 := by
        by_contra hn
        exact C82_false_twice c sv a b n (by omega) h1 h
      rw [seedFine_start, List.flatMap_append, seedFine_up c sv a h1] at h
      have h3 : seedFine false (b.flatMap (seedStep c sv)) := h.2
      rw [seedFine_down] at h3
      exact .inr ⟨a, b, rfl, h1, h3.1, h3.2⟩
  · rintro (h | ⟨a, b, rfl, h1, h2, h3⟩)
    · exact C82_before_partial c sv l h
    · rw [seedFine_start, List.flatMap_append, seedFine_up c sv a h1]
      exact ⟨rfl, (seedFine_down c sv b).2 ⟨h2, h3⟩⟩

/-- A session before its first packet that draws at each server. -/
example : packetsIn [.fresh, .refill 3, .check 0, .fresh] = 0 ∧ SeedOp.draw ∈ seedSession ⟨4, 2, true⟩ true [.fresh, .refill 3, .check 0, .fresh] ∧
    FromSeed ⟨4, 2, true⟩ true .fresh ∧ FromSeed ⟨4, 2, true⟩ false (.refill 3) := by
  refine ⟨rfl, by decide, rfl, rfl, rfl, .inl (by decide)⟩

end Verif
