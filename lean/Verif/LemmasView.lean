import Verif.ModelView
import Verif.LemmasServer

/-! # Composition of programs with a record of what they see -/

namespace Verif

variable {α β : Type}

/-- Forgetting the record gives the program back. -/
theorem Proc.watch_erase (p : Proc α) : (p.watch.bind fun r => .ret r.1) = p := by
  induction p with
  | ret a => rfl
  | fault => rfl
  | send bs k ih => simp [watch, bind, ih]
  | recv n k ih => simp [watch, bind, Proc.bind_assoc, ih]
  | otSend ch ps k ih => simp [watch, bind, ih]
  | otRecv ch cs k ih => simp [watch, bind, Proc.bind_assoc, ih]

theorem Proc.watch_bind (p : Proc α) (f : α → Proc β) :
    (p.bind f).watch = p.watch.bind fun r => (f r.1).watch.bind fun s => .ret (s.1, r.2 ++ s.2) := by
  induction p with
  | ret a =>
    show (f a).watch = (f a).watch.bind fun s => .ret (s.1, [] ++ s.2)
    simp [Proc.bind_ret]
  | fault => rfl
  | send bs k ih => simp [watch, bind, ih]
  | recv n k ih => simp [watch, bind, Proc.bind_assoc, ih]
  | otSend ch ps k ih => simp [watch, bind, ih]
  | otRecv ch cs k ih => simp [watch, bind, Proc.bind_assoc, ih]

/-- Both programs end with empty queues and the given records. -/
def PairW (P0 : Proc α) (P1 : Proc β) (a : α) (b : β) (v0 v1 : List Seen) : Prop := Pair P0.watch P1.watch (a, v0) (b, v1)

namespace PairW

theorem ret (a : α) (b : β) : PairW (.ret a) (.ret b) a b [] [] := Pair.ret _ _

theorem bind {α' β' : Type} {P0 : Proc α} {P1 : Proc β} {a : α} {b : β} {v0 v1 w0 w1 : List Seen} {Q0 : α → Proc α'} {Q1 : β → Proc β'}
    {c : α'} {d : β'} (h : PairW P0 P1 a b v0 v1) (h' : PairW (Q0 a) (Q1 b) c d w0 w1) :
    PairW (P0.bind Q0) (P1.bind Q1) c d (v0 ++ w0) (v1 ++ w1) := by
  unfold PairW
  rw [Proc.watch_bind, Proc.watch_bind]
  exact Pair.bind h (Pair.bind h' (Pair.ret _ _))

theorem bindL {α' : Type} {P0 : Proc α} {P1 : Proc β} {a : α} {b : β} {v0 v1 : List Seen} {f : α → α'} (h : PairW P0 P1 a b v0 v1) :
    PairW (P0.bind fun x => .ret (f x)) P1 (f a) b v0 v1 := by
  have := h.bind (Q0 := fun x => .ret (f x)) (Q1 := fun y => .ret y) (PairW.ret _ _)
  rwa [Proc.bind_ret, List.append_nil, List.append_nil] at this

theorem swap {P0 : Proc α} {P1 : Proc β} {a : α} {b : β} {v0 v1 : List Seen} (h : PairW P0 P1 a b v0 v1) : PairW P1 P0 b a v1 v0 :=
  Pair.swap h

theorem cast {P0 : Proc α} {P1 : Proc β} {a a' : α} {b b' : β} {v0 v1 w0 w1 : List Seen} (h : PairW P0 P1 a b v0 v1) (ea : a = a') (eb : b = b')
    (e0 : v0 = w0) (e1 : v1 = w1) : PairW P0 P1 a' b' w0 w1 := by subst ea eb e0 e1; exact h

end PairW

theorem steps_watch {γ δ : Type} (r : Rd α) (q rest : Bytes) (a : α) (h : r.run q = some (a, rest)) (k0 : α × List Seen → Proc γ) (p1 : Proc δ)
    (q01 : Bytes) : ∃ used, q = used ++ rest ∧ Steps ⟨r.toProc.watch.bind k0, p1, q01, q⟩ ⟨k0 (a, seenBytes used), p1, q01, rest⟩ := by
  induction r generalizing q k0 with
  | ret b =>
    simp only [Rd.run, Option.some.injEq, Prod.mk.injEq] at h
    obtain ⟨rfl, rfl⟩ := h
    exact ⟨[], rfl, .refl _⟩
  | bad => simp [Rd.run] at h
  | get n k ih =>
    rw [Rd.run] at h
    split at h
    · cases h
    · rename_i hn
      obtain ⟨used, e, hs⟩ := ih (q.take n) (q.drop n) h fun r => k0 (r.1, seenBytes (q.take n) ++ r.2)
      refine ⟨q.take n ++ used, by rw [List.append_assoc, ← e, List.take_append_drop], ?_⟩
      refine .head (.recv0 _ _ _ _ _ (by omega)) ?_
      rw [Proc.bind_assoc]
      simp only [seenBytes, List.map_append] at hs ⊢
      exact hs

/-- Server 1 sends, server 0 reads and sees what was sent. -/
theorem PairW.send10 {r : Rd α} {bs : Bytes} {a : α} (h : Reads r bs a) : PairW r.toProc (Proc.put bs) a () (seenBytes bs) [] := by
  intro γ δ k0 k1
  obtain ⟨used, e, hs⟩ := steps_watch r bs [] a h.run_eq k0 ((Proc.ret ((), [])).bind k1) []
  rw [List.append_nil] at e
  subst e
  exact .head (.send1 _ _ _ _ _) hs

/-- Server 0 sends, server 1 reads and sees what was sent. -/
theorem PairW.send01 {r : Rd β} {bs : Bytes} {b : β} (h : Reads r bs b) : PairW (Proc.put bs) r.toProc () b [] (seenBytes bs) :=
  (PairW.send10 h).swap

/-- One OT, server 0 sending: server 1 sees the chosen messages. -/
theorem PairW.ot01 (ch : Bool) (ps : List (U64 × U64)) (cs : List Bool) (h : ps.length = cs.length) :
    PairW (Proc.otPut ch ps) (Proc.otGet ch cs) () (otChoose ps cs) [] (seenWords (otChoose ps cs)) := by
  intro γ δ k0 k1
  refine .trans (.one (.ot01 _ _ _ _ _ _ _ h)) ?_
  simp only [Proc.watch, Proc.bind, List.append_nil]
  exact .refl _

/-- Both send, then both read. -/
theorem PairW.exch {r0 : Rd α} {r1 : Rd β} {bs0 bs1 : Bytes} {a : α} {b : β} (h0 : Reads r0 bs1 a) (h1 : Reads r1 bs0 b) :
    PairW (exch bs0 r0) (exch bs1 r1) a b (seenBytes bs1) (seenBytes bs0) := by
  intro γ δ k0 k1
  refine .head (.send0 _ _ _ _ _) (.head (.send1 _ _ _ _ _) ?_)
  obtain ⟨used, e, hs⟩ := steps_watch r0 bs1 [] a h0.run_eq k0 (r1.toProc.watch.bind k1) bs0
  rw [List.append_nil] at e
  subst e
  refine .trans hs ?_
  obtain ⟨used, e, hs⟩ := steps_watch r1 bs0 [] b h1.run_eq k1 (k0 (a, seenBytes bs1)) []
  rw [List.append_nil] at e
  subst e
  exact hs.swap

/-- Forgetting the records. -/
theorem PairW.toPair {P0 : Proc α} {P1 : Proc β} {a : α} {b : β} {v0 v1 : List Seen} (h : PairW P0 P1 a b v0 v1) : Pair P0 P1 a b := by
  have := Pair.bind h (Q0 := fun r => .ret r.1) (Q1 := fun r => .ret r.1) (Pair.ret _ _)
  rwa [Proc.watch_erase, Proc.watch_erase] at this

theorem intsum_pairW (m : U64) (ch : Bool) (rows : List IntRow) (ys : List (List U64)) (ws : List ℕ) (hn : rows.length = ys.length)
    (hx : ∀ r ∈ rows, r.vals.length = ws.length) (hy : ∀ y ∈ ys, y.length = ws.length) (hw : ∀ w ∈ ws, w ≤ 64) :
    PairW (intsumSender ch m ws rows) (intsumReceiver ch m ws ys) (rows.map fun r => (senderRow m ws r).2)
      (recvRows m ws ys.length (otChoose (rows.flatMap fun r => (senderRow m ws r).1) (ys.flatMap fun y => rowBits y ws))) []
      (seenWords (otChoose (rows.flatMap fun r => (senderRow m ws r).1) (ys.flatMap fun y => rowBits y ws))) := by
  unfold intsumSender intsumReceiver
  rw [if_pos, if_pos]
  · refine (PairW.bind (Q0 := fun _ => .ret (rows.map fun r => (senderRow m ws r).2)) (Q1 := fun r => .ret (recvRows m ws ys.length r))
      (PairW.ot01 _ _ _ ?_) (PairW.ret _ _)).cast rfl rfl rfl (List.append_nil _)
    clear hw
    induction rows generalizing ys with
    | nil => cases ys <;> simp_all
    | cons r rows ih =>
      cases ys with
      | nil => simp at hn
      | cons y ys =>
        rw [List.flatMap_cons, List.flatMap_cons, List.length_append, List.length_append,
          senderRow_length _ _ _ (fun _ => hx r (List.mem_cons_self ..)), rowBits_length _ _ (hy y (List.mem_cons_self ..)),
          ih ys (by simpa using hn) (fun r hr => hx r (List.mem_cons_of_mem _ hr))
            fun y h => hy y (List.mem_cons_of_mem _ h)]
  · simpa using hy
  · simp only [List.all_eq_true, Bool.or_eq_true, Bool.not_eq_true', Bool.and_eq_true, decide_eq_true_eq]
    exact fun r hr => .inr ⟨hx r hr, hw⟩

/-- What server 0 sees of the announced keys. -/
def seenKeys (ks : List Bytes) : List Seen := ks.flatMap seenBytes

theorem keys_pairW (ks : List Bytes) (h : ∀ k ∈ ks, k.length = pkLength) : PairW (recvKeys ks.length) (sendKeys ks) ks () (seenKeys ks) [] := by
  induction ks with
  | nil => exact PairW.ret _ _
  | cons k ks ih =>
    rw [List.length_cons, recvKeys, sendKeys]
    refine ((PairW.send10 (Reads.getRet (k := id) (h k (List.mem_cons_self ..)))).bind
      (PairW.bindL (f := fun ks => k :: ks) (ih fun k hk => h k (List.mem_cons_of_mem _ hk)))).cast rfl rfl ?_ rfl
    unfold seenKeys; rw [List.flatMap_cons]

theorem listen_pairW (ks : List Bytes) (h : ∀ k ∈ ks, k.length = pkLength) (hl : ks.length < 2 ^ 32) :
    PairW listen (announce ks) ks () (seenBytes (encSize (BitVec.ofNat 64 ks.length)) ++ seenKeys ks) [] := by
  unfold listen announce
  refine (PairW.send10 (reads_size _)).bind (w1 := []) ?_
  have e : (BitVec.ofNat 64 ((BitVec.ofNat 64 ks.length : U64).toNat % 2 ^ 32) : U64).toNat = ks.length := by
    rw [BitVec.toNat_ofNat, BitVec.toNat_ofNat]
    omega
  rw [e]
  exact keys_pairW ks h

end Verif
