import Verif.ModelProc
import Verif.LemmasNet

/-!
# Composition of two-server protocols
-/

namespace Verif

namespace Proc

theorem bind_ret {α : Type} (p : Proc α) : p.bind ret = p := by
  induction p with
  | ret a => rfl
  | fault => rfl
  | send bs k ih => simp [bind, ih]
  | recv n k ih => simp [bind, ih]
  | otSend ch ps k ih => simp [bind, ih]
  | otRecv ch cs k ih => simp [bind, ih]

theorem bind_assoc {α β γ : Type} (p : Proc α) (f : α → Proc β) (g : β → Proc γ) :
    (p.bind f).bind g = p.bind fun a => (f a).bind g := by
  induction p with
  | ret a => rfl
  | fault => rfl
  | send bs k ih => simp [bind, ih]
  | recv n k ih => simp [bind, ih]
  | otSend ch ps k ih => simp [bind, ih]
  | otRecv ch cs k ih => simp [bind, ih]

@[simp] theorem bind_eq {α β : Type} (p : Proc α) (f : α → Proc β) : (p >>= f) = p.bind f := rfl
@[simp] theorem pure_eq {α : Type} (a : α) : (pure a : Proc α) = ret a := rfl

end Proc

theorem Rd.toProc_bind {α β : Type} (r : Rd α) (f : α → Rd β) :
    (r.bind f).toProc = r.toProc.bind fun a => (f a).toProc := by
  induction r with
  | ret a => rfl
  | bad => rfl
  | get n k ih => simp [Rd.bind, Rd.toProc, Proc.bind, ih]

variable {α β : Type}

theorem StepsN.trans {m n : ℕ} {s t u : Sys α β} (h : StepsN m s t) (h' : StepsN n t u) : StepsN (m + n) s u := by
  induction h with
  | refl s => simpa using h'
  | @head k _ _ _ hs _ ih => rw [show k + 1 + n = (k + n) + 1 by omega]; exact .head hs (ih h')

theorem Steps.refl (s : Sys α β) : Steps s s := ⟨0, .refl s⟩
theorem Steps.trans {s t u : Sys α β} (h : Steps s t) (h' : Steps t u) : Steps s u :=
  let ⟨_, a⟩ := h; let ⟨_, b⟩ := h'; ⟨_, a.trans b⟩
theorem Steps.one {s t : Sys α β} (h : Step s t) : Steps s t := ⟨1, .head h (.refl _)⟩
theorem Steps.head {s t u : Sys α β} (h : Step s t) (h' : Steps t u) : Steps s u := (Steps.one h).trans h'

/-- Exchange the roles of the two servers. -/
def Sys.swap (s : Sys α β) : Sys β α := ⟨s.p1, s.p0, s.q10, s.q01⟩

theorem Step.swap {s t : Sys α β} (h : Step s t) : Step s.swap t.swap := by
  cases h with
  | send0 bs k p1 a b => exact .send1 ..
  | send1 bs p0 k a b => exact .send0 ..
  | recv0 n k p1 a b h => exact .recv1 _ _ _ _ _ h
  | recv1 n p0 k a b h => exact .recv0 _ _ _ _ _ h
  | ot01 ch ps cs k0 k1 a b h => exact .ot10 _ _ _ _ _ _ _ h
  | ot10 ch ps cs k0 k1 a b h => exact .ot01 _ _ _ _ _ _ _ h

theorem Steps.swap {s t : Sys α β} (h : Steps s t) : Steps s.swap t.swap := by
  obtain ⟨n, h⟩ := h
  induction h with
  | refl s => exact .refl _
  | head hs _ ih => exact .head hs.swap ih

/-- `Pair P0 P1 a b`: started with empty queues, the two programs reach results `a` and `b` with empty queues,
whatever follows them. -/
def Pair {α β : Type} (P0 : Proc α) (P1 : Proc β) (a : α) (b : β) : Prop :=
  ∀ (γ δ : Type) (k0 : α → Proc γ) (k1 : β → Proc δ),
    Steps ⟨P0.bind k0, P1.bind k1, [], []⟩ ⟨k0 a, k1 b, [], []⟩

namespace Pair

theorem ret (a : α) (b : β) : Pair (.ret a) (.ret b) a b := fun _ _ _ _ => .refl _

theorem bind {α' β' : Type} {P0 : Proc α} {P1 : Proc β} {a : α} {b : β} {Q0 : α → Proc α'} {Q1 : β → Proc β'}
    {c : α'} {d : β'} (h : Pair P0 P1 a b) (h' : Pair (Q0 a) (Q1 b) c d) : Pair (P0.bind Q0) (P1.bind Q1) c d := by
  intro γ δ k0 k1
  rw [Proc.bind_assoc, Proc.bind_assoc]
  exact (h _ _ _ _).trans (h' _ _ _ _)

theorem swap {P0 : Proc α} {P1 : Proc β} {a : α} {b : β} (h : Pair P0 P1 a b) : Pair P1 P0 b a :=
  fun γ δ k0 k1 => (h δ γ k1 k0).swap

/-- Local computation on server 0. -/
theorem bindL {α' : Type} {P0 : Proc α} {P1 : Proc β} {a : α} {b : β} {f : α → α'} (h : Pair P0 P1 a b) :
    Pair (P0.bind fun x => .ret (f x)) P1 (f a) b := by
  intro γ δ k0 k1
  rw [Proc.bind_assoc]
  exact h _ _ (fun x => k0 (f x)) k1

/-- Local computation on server 1. -/
theorem bindR {β' : Type} {P0 : Proc α} {P1 : Proc β} {a : α} {b : β} {f : β → β'} (h : Pair P0 P1 a b) :
    Pair P0 (P1.bind fun x => .ret (f x)) a (f b) := h.swap.bindL.swap

/-- Prefix on one side that has ended already. -/
theorem final {P0 : Proc α} {P1 : Proc β} {a : α} {b : β} (h : Pair P0 P1 a b) :
    Steps ⟨P0, P1, [], []⟩ ⟨.ret a, .ret b, [], []⟩ := by
  have := h _ _ .ret .ret
  rwa [Proc.bind_ret, Proc.bind_ret] at this

end Pair

/-- `Leads P0 P1 Q0 Q1`: started with empty queues, the two programs reach the programs `Q0`, `Q1` with empty queues,
whatever follows them. -/
def Leads {α β : Type} (P0 : Proc α) (P1 : Proc β) (Q0 : Proc α) (Q1 : Proc β) : Prop :=
  ∀ (γ δ : Type) (k0 : α → Proc γ) (k1 : β → Proc δ),
    Steps ⟨P0.bind k0, P1.bind k1, [], []⟩ ⟨Q0.bind k0, Q1.bind k1, [], []⟩

namespace Leads

theorem refl (P0 : Proc α) (P1 : Proc β) : Leads P0 P1 P0 P1 := fun _ _ _ _ => .refl _

theorem trans {P0 Q0 R0 : Proc α} {P1 Q1 R1 : Proc β} (h : Leads P0 P1 Q0 Q1) (h' : Leads Q0 Q1 R0 R1) :
    Leads P0 P1 R0 R1 := fun γ δ k0 k1 => (h γ δ k0 k1).trans (h' γ δ k0 k1)

theorem ofPair {α' β' : Type} {P0 : Proc α'} {P1 : Proc β'} {a : α'} {b : β'} (h : Pair P0 P1 a b) (f : α' → Proc α)
    (g : β' → Proc β) : Leads (P0.bind f) (P1.bind g) (f a) (g b) := by
  intro γ δ k0 k1
  rw [Proc.bind_assoc, Proc.bind_assoc]
  exact h _ _ _ _

theorem pair {P0 : Proc α} {P1 : Proc β} {a : α} {b : β} (h : Leads P0 P1 (.ret a) (.ret b)) : Pair P0 P1 a b :=
  fun γ δ k0 k1 => h γ δ k0 k1

theorem final {P0 Q0 : Proc α} {P1 Q1 : Proc β} (h : Leads P0 P1 Q0 Q1) : Steps ⟨P0, P1, [], []⟩ ⟨Q0, Q1, [], []⟩ := by
  have := h _ _ .ret .ret
  rwa [Proc.bind_ret, Proc.bind_ret, Proc.bind_ret, Proc.bind_ret] at this

end Leads

/-- A reader takes its message from the queue. -/
theorem steps_read0 {γ δ : Type} (r : Rd α) (q rest : Bytes) (a : α) (h : r.run q = some (a, rest)) (k0 : α → Proc γ)
    (p1 : Proc δ) (q01 : Bytes) : Steps ⟨r.toProc.bind k0, p1, q01, q⟩ ⟨k0 a, p1, q01, rest⟩ := by
  induction r generalizing q with
  | ret b =>
    simp only [Rd.run, Option.some.injEq, Prod.mk.injEq] at h
    obtain ⟨rfl, rfl⟩ := h
    exact .refl _
  | bad => simp [Rd.run] at h
  | get n k ih =>
    rw [Rd.run] at h
    split at h
    · cases h
    · exact .head (.recv0 _ _ _ _ _ (by omega)) (ih _ _ h)

theorem steps_read1 {γ δ : Type} (r : Rd α) (q rest : Bytes) (a : α) (h : r.run q = some (a, rest)) (k1 : α → Proc δ)
    (p0 : Proc γ) (q10 : Bytes) : Steps ⟨p0, r.toProc.bind k1, q, q10⟩ ⟨p0, k1 a, rest, q10⟩ :=
  (steps_read0 r q rest a h k1 p0 q10).swap

theorem Reads.run_eq {r : Rd α} {bs : Bytes} {a : α} (h : Reads r bs a) : r.run bs = some (a, []) := by
  have := h []; rwa [List.append_nil] at this

/-- Server 0 sends, server 1 reads. -/
theorem Pair.send01 {r : Rd β} {bs : Bytes} {b : β} (h : Reads r bs b) : Pair (Proc.put bs) r.toProc () b := by
  intro γ δ k0 k1
  exact .head (.send0 _ _ _ _ _) (steps_read1 r _ [] b (by simpa using h.run_eq) k1 _ _)

/-- Server 1 sends, server 0 reads. -/
theorem Pair.send10 {r : Rd α} {bs : Bytes} {a : α} (h : Reads r bs a) : Pair r.toProc (Proc.put bs) a () :=
  (Pair.send01 h).swap

theorem Pair.exch {r0 : Rd α} {r1 : Rd β} {bs0 bs1 : Bytes} {a : α} {b : β} (h0 : Reads r0 bs1 a) (h1 : Reads r1 bs0 b) :
    Pair (exch bs0 r0) (exch bs1 r1) a b := by
  intro γ δ k0 k1
  refine .head (.send0 _ _ _ _ _) (.head (.send1 _ _ _ _ _) ?_)
  refine .trans (steps_read0 r0 _ [] a (by simpa using h0.run_eq) k0 _ _) ?_
  exact steps_read1 r1 _ [] b (by simpa using h1.run_eq) k1 _ _

/-- One OT, server 0 sending. -/
theorem Pair.ot01 (ch : Bool) (ps : List (U64 × U64)) (cs : List Bool) (h : ps.length = cs.length) :
    Pair (Proc.otPut ch ps) (Proc.otGet ch cs) () (otChoose ps cs) :=
  fun _ _ _ _ => .one (.ot01 _ _ _ _ _ _ _ h)

/-- One OT, server 1 sending. -/
theorem Pair.ot10 (ch : Bool) (ps : List (U64 × U64)) (cs : List Bool) (h : ps.length = cs.length) :
    Pair (Proc.otGet ch cs) (Proc.otPut ch ps) (otChoose ps cs) () := (Pair.ot01 ch ps cs h).swap

end Verif
