import Verif.LemmasProc

/-!
# C52: the result of two server programs does not depend on the schedule
-/

namespace Verif

variable {α β : Type}

/-- Two different steps from the same state can be completed to the same state. -/
theorem diamond {s t u : Sys α β} (h : Step s t) (h' : Step s u) : t = u ∨ ∃ v, Step t v ∧ Step u v := by
  cases h with
  | send0 bs k p1 a b =>
    cases h' with
    | send0 => exact .inl rfl
    | send1 bs' _ k' _ _ => exact .inr ⟨_, .send1 .., .send0 ..⟩
    | recv1 n _ k' _ _ hn =>
      refine .inr ⟨⟨k, k' (a.take n), a.drop n ++ bs, b⟩, ?_, .send0 ..⟩
      have := Step.recv1 (α := α) n k k' (a ++ bs) b (by simp; omega)
      rwa [List.take_append_of_le_length hn, List.drop_append_of_le_length hn] at this
  | send1 bs p0 k a b =>
    cases h' with
    | send1 => exact .inl rfl
    | send0 bs' k' _ _ _ => exact .inr ⟨_, .send0 .., .send1 ..⟩
    | recv0 n k' _ _ _ hn =>
      refine .inr ⟨⟨k' (b.take n), k, a, b.drop n ++ bs⟩, ?_, .send1 ..⟩
      have := Step.recv0 (β := β) n k' k a (b ++ bs) (by simp; omega)
      rwa [List.take_append_of_le_length hn, List.drop_append_of_le_length hn] at this
  | recv0 n k p1 a b hn =>
    cases h' with
    | recv0 => exact .inl rfl
    | recv1 m _ k' _ _ hm => exact .inr ⟨_, .recv1 _ _ _ _ _ hm, .recv0 _ _ _ _ _ hn⟩
    | send1 bs' _ k' _ _ =>
      refine .inr ⟨⟨k (b.take n), k', a, b.drop n ++ bs'⟩, .send1 .., ?_⟩
      have := Step.recv0 (β := β) n k k' a (b ++ bs') (by simp; omega)
      rwa [List.take_append_of_le_length hn, List.drop_append_of_le_length hn] at this
  | recv1 n p0 k a b hn =>
    cases h' with
    | recv1 => exact .inl rfl
    | recv0 m k' _ _ _ hm => exact .inr ⟨_, .recv0 _ _ _ _ _ hm, .recv1 _ _ _ _ _ hn⟩
    | send0 bs' k' _ _ _ =>
      refine .inr ⟨⟨k', k (a.take n), a.drop n ++ bs', b⟩, .send0 .., ?_⟩
      have := Step.recv1 (α := α) n k' k (a ++ bs') b (by simp; omega)
      rwa [List.take_append_of_le_length hn, List.drop_append_of_le_length hn] at this
  | ot01 => cases h'; exact .inl rfl
  | ot10 => cases h'; exact .inl rfl

/-- From a state that can reach a stuck state in `n` steps, any step leads to a state that can reach it in `n - 1`. -/
theorem strip {n : ℕ} {s t u : Sys α β} (h : StepsN n s t) (ht : Stuck t) (hs : Step s u) :
    ∃ m, n = m + 1 ∧ StepsN m u t := by
  induction h generalizing u with
  | refl s => exact absurd hs (ht u)
  | @head n s v t hsv hvt ih =>
    refine ⟨n, rfl, ?_⟩
    rcases diamond hsv hs with rfl | ⟨w, hvw, huw⟩
    · exact hvt
    · obtain ⟨m, rfl, hm⟩ := ih ht hvw
      exact .head huw hm

/-- C52. If some schedule brings the two servers to a state where neither can move (both finished, blocked or
faulted), after `n` steps, then every schedule: whatever has been executed so far, at most `n` steps were made, the same
final state is still reachable in exactly the remaining number of steps, and if no further step is possible then the
final state is this very state (same results, same bytes left in both directions). -/
theorem C52_schedule_independent {n m : ℕ} {s t u : Sys α β} (h : StepsN n s t) (ht : Stuck t) (hu : StepsN m s u) :
    m ≤ n ∧ StepsN (n - m) u t ∧ (Stuck u → u = t) := by
  have key : m ≤ n ∧ StepsN (n - m) u t := by
    clear * - h ht hu
    induction hu generalizing n with
    | refl s => exact ⟨Nat.zero_le _, by simpa using h⟩
    | @head m s v u hsv hvu ih =>
      obtain ⟨n', rfl, h'⟩ := strip h ht hsv
      obtain ⟨hle, h''⟩ := ih h'
      exact ⟨by omega, by rw [show n' + 1 - (m + 1) = n' - m by omega]; exact h''⟩
  refine ⟨key.1, key.2, fun hst => ?_⟩
  generalize hd : n - m = d at key
  cases key.2 with
  | refl => rfl
  | head hs _ => exact absurd hs (hst _)

/-- C52, infinite runs: if one schedule terminates then there is no infinite one. -/
theorem C52_no_infinite_schedule {s t : Sys α β} (h : Steps s t) (ht : Stuck t) :
    ¬ ∃ f : ℕ → Sys α β, f 0 = s ∧ ∀ i, Step (f i) (f (i + 1)) := by
  rintro ⟨f, h0, hf⟩
  obtain ⟨n, h⟩ := h
  have : ∀ m, StepsN m (f 0) (f m) := by
    intro m
    induction m with
    | zero => exact .refl _
    | succ m ih => exact ih.trans (.head (hf m) (.refl _))
  have := (C52_schedule_independent h ht (h0 ▸ this (n + 1))).1
  omega

/-- The state in which both servers have finished. -/
def Done (a : α) (b : β) (q01 q10 : Bytes) : Sys α β := ⟨.ret a, .ret b, q01, q10⟩

theorem stuck_done (a : α) (b : β) (q01 q10 : Bytes) : Stuck (Done a b q01 q10) := by
  intro t h; unfold Done at h; cases h

/-- Every schedule of the two programs, started with nothing under way, ends with these results, nothing under way;
it never faults or blocks on the way, and there is no infinite schedule. -/
def Always (P0 : Proc α) (P1 : Proc β) (a : α) (b : β) : Prop :=
  (∀ u, Steps ⟨P0, P1, [], []⟩ u → Steps u (Done a b [] []) ∧ (Stuck u → u = Done a b [] [])) ∧
  ¬ ∃ f : ℕ → Sys α β, f 0 = ⟨P0, P1, [], []⟩ ∧ ∀ i, Step (f i) (f (i + 1))

/-- The compositional rule `Pair` gives the statement over all schedules. -/
theorem Pair.always {P0 : Proc α} {P1 : Proc β} {a : α} {b : β} (h : Pair P0 P1 a b) : Always P0 P1 a b := by
  obtain ⟨n, hn⟩ := h.final
  refine ⟨fun u ⟨m, hu⟩ => ?_, C52_no_infinite_schedule ⟨n, hn⟩ (stuck_done a b [] [])⟩
  obtain ⟨_, h1, h2⟩ := C52_schedule_independent hn (stuck_done a b [] []) hu
  exact ⟨⟨_, h1⟩, h2⟩

/-- The results are unique. -/
theorem Always.unique {P0 : Proc α} {P1 : Proc β} {a a' : α} {b b' : β} (h : Always P0 P1 a b) (h' : Always P0 P1 a' b') :
    a = a' ∧ b = b' := by
  have h1 := (h.1 _ (.refl _)).1
  have h2 := (h'.1 _ h1).2 (stuck_done a b [] [])
  unfold Done at h2
  injection h2 with e0 e1
  injection e0 with e0; injection e1 with e1
  exact ⟨e0, e1⟩

/-- Every schedule brings server 0 to undefined behaviour: whatever has been executed, one and the same state in which
server 0 has faulted is still reachable, and it is the only one in which the execution can stop; there is no infinite
schedule. -/
def Crashes0 (P0 : Proc α) (P1 : Proc β) : Prop :=
  ∃ t : Sys α β, t.p0 = .fault ∧
    (∀ u, Steps ⟨P0, P1, [], []⟩ u → Steps u t ∧ (Stuck u → u = t)) ∧
    ¬ ∃ f : ℕ → Sys α β, f 0 = ⟨P0, P1, [], []⟩ ∧ ∀ i, Step (f i) (f (i + 1))

theorem Crashes0.ofLeads {P0 : Proc α} {P1 : Proc β} {b : β} (h : Leads P0 P1 .fault (.ret b)) : Crashes0 P0 P1 := by
  have hst : Stuck (⟨.fault, .ret b, [], []⟩ : Sys α β) := by intro t h; cases h
  obtain ⟨n, hn⟩ := h.final
  refine ⟨⟨.fault, .ret b, [], []⟩, rfl, fun u ⟨m, hu⟩ => ?_, C52_no_infinite_schedule ⟨n, hn⟩ hst⟩
  obtain ⟨_, h1, h2⟩ := C52_schedule_independent hn hst hu
  exact ⟨⟨_, h1⟩, h2⟩

theorem Crashes0.ofLeads' {P0 : Proc α} {P1 : Proc β} (h : Leads P0 P1 .fault .fault) : Crashes0 P0 P1 := by
  have hst : Stuck (⟨.fault, .fault, [], []⟩ : Sys α β) := by intro t h; cases h
  obtain ⟨n, hn⟩ := h.final
  refine ⟨⟨.fault, .fault, [], []⟩, rfl, fun u ⟨m, hu⟩ => ?_, C52_no_infinite_schedule ⟨n, hn⟩ hst⟩
  obtain ⟨_, h1, h2⟩ := C52_schedule_independent hn hst hu
  exact ⟨⟨_, h1⟩, h2⟩

/-- A crash excludes any result. -/
theorem Crashes0.not_always {P0 : Proc α} {P1 : Proc β} {a : α} {b : β} (h : Crashes0 P0 P1) : ¬ Always P0 P1 a b := by
  intro h'
  obtain ⟨t, ht, h1, _⟩ := h
  have h2 := (h1 _ (h'.1 _ (.refl _)).1).2 (stuck_done a b [] [])
  rw [← h2] at ht
  cases ht

/-- Non-vacuity: both servers send one byte and read one; there are several schedules and all give the same. -/
example : Always (exch [7#8] (.get 1 .ret)) (exch [9#8] (.get 1 .ret)) [9#8] [7#8] :=
  (Pair.exch (Reads.getRet (k := id) (bs := [9#8]) rfl) (Reads.getRet (k := id) (bs := [7#8]) rfl)).always

/-- The premise matters: two receivers never finish. -/
example : Stuck (⟨.recv 1 .ret, .recv 1 .ret, [], []⟩ : Sys Bytes Bytes) := by
  intro t h; cases h <;> simp at *

end Verif
