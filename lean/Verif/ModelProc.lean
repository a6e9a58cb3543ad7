import Verif.ModelBytes

/-!
# Two server processes connected by a socket and two oblivious-transfer channels

The servers run the same sources with `server_num` 0 and 1 (server.cpp main). They are joined by one stream socket
(`serverfd`) and by two OT objects `ot0`, `ot1`, each with its own connection (server.cpp:35-36).

A server is a program in the language `Proc`. Simplifications: a `send` never blocks (bounded socket buffers are
treated separately, C51); an OT is one rendezvous in which the receiver learns the chosen word of each pair and nothing
else happens (emp-ot's IKNP is taken as ideal); an OT whose two sides disagree on the length or on the channel never
completes.
-/

namespace Verif

/-- A server program that ends with a result in `α`. `fault`: undefined behaviour has been reached. -/
inductive Proc (α : Type) : Type where
  | ret (a : α) : Proc α
  | fault : Proc α
  /-- write bytes to the peer -/
  | send (bs : Bytes) (k : Proc α) : Proc α
  /-- block until `n` bytes from the peer are available and take them (`recv_in`) -/
  | recv (n : ℕ) (k : Bytes → Proc α) : Proc α
  /-- `OT_Wrapper::send` (ot.cpp:19-36) on channel `ot0` (`false`) or `ot1` (`true`) -/
  | otSend (ch : Bool) (ps : List (U64 × U64)) (k : Proc α) : Proc α
  /-- `OT_Wrapper::recv` (ot.cpp:38-50) -/
  | otRecv (ch : Bool) (cs : List Bool) (k : List U64 → Proc α) : Proc α

namespace Proc

/-- Sequencing. -/
def bind {α β : Type} : Proc α → (α → Proc β) → Proc β
  | ret a, f => f a
  | fault, _ => fault
  | send bs k, f => send bs (bind k f)
  | recv n k, f => recv n fun bs => bind (k bs) f
  | otSend ch ps k, f => otSend ch ps (bind k f)
  | otRecv ch cs k, f => otRecv ch cs fun ws => bind (k ws) f

instance : Monad Proc where
  pure := ret
  bind := bind

/-- A single send. -/
def put (bs : Bytes) : Proc Unit := send bs (ret ())

/-- A send of something that may not be encodable (undefined behaviour then). -/
def putOpt : Option Bytes → Proc Unit
  | some bs => put bs
  | none => fault

/-- A single OT as sender. -/
def otPut (ch : Bool) (ps : List (U64 × U64)) : Proc Unit := otSend ch ps (ret ())

/-- A single OT as receiver. -/
def otGet (ch : Bool) (cs : List Bool) : Proc (List U64) := otRecv ch cs ret

/-- A partial computation: `none` is undefined behaviour. -/
def ofOption {α : Type} : Option α → Proc α
  | some a => ret a
  | none => fault

end Proc

/-- A reader used by a server on the inter-server socket. -/
def Rd.toProc {α : Type} : Rd α → Proc α
  | .ret a => .ret a
  | .bad => .fault
  | .get n k => .recv n fun bs => (k bs).toProc

/-- Send own message while reading the other's: a forked child sends, the parent receives and then waits for the child
(correlated.cpp:137-150, 165; server.cpp:226-234, 242). With sends that never block this is a send followed by a
receive. -/
def exch {α : Type} (bs : Bytes) (r : Rd α) : Proc α := (Proc.put bs).bind fun _ => r.toProc

/-- The same for a message that may not be encodable. -/
def exchOpt {α : Type} (bs : Option Bytes) (r : Rd α) : Proc α := (Proc.putOpt bs).bind fun _ => r.toProc

/-- What the OT receiver gets: the word its choice bit selects. -/
def otChoose (ps : List (U64 × U64)) (cs : List Bool) : List U64 :=
  List.zipWith (fun p c => if c then p.2 else p.1) ps cs

/-- Both servers and the bytes under way in the two directions. -/
structure Sys (α β : Type) where
  p0 : Proc α
  p1 : Proc β
  q01 : Bytes
  q10 : Bytes

/-- One step of either server; any enabled step may be taken. -/
inductive Step {α β : Type} : Sys α β → Sys α β → Prop
  | send0 (bs : Bytes) (k : Proc α) (p1 : Proc β) (a b : Bytes) : Step ⟨.send bs k, p1, a, b⟩ ⟨k, p1, a ++ bs, b⟩
  | send1 (bs : Bytes) (p0 : Proc α) (k : Proc β) (a b : Bytes) : Step ⟨p0, .send bs k, a, b⟩ ⟨p0, k, a, b ++ bs⟩
  | recv0 (n : ℕ) (k : Bytes → Proc α) (p1 : Proc β) (a b : Bytes) (h : n ≤ b.length) :
      Step ⟨.recv n k, p1, a, b⟩ ⟨k (b.take n), p1, a, b.drop n⟩
  | recv1 (n : ℕ) (p0 : Proc α) (k : Bytes → Proc β) (a b : Bytes) (h : n ≤ a.length) :
      Step ⟨p0, .recv n k, a, b⟩ ⟨p0, k (a.take n), a.drop n, b⟩
  | ot01 (ch : Bool) (ps : List (U64 × U64)) (cs : List Bool) (k0 : Proc α) (k1 : List U64 → Proc β) (a b : Bytes)
      (h : ps.length = cs.length) :
      Step ⟨.otSend ch ps k0, .otRecv ch cs k1, a, b⟩ ⟨k0, k1 (otChoose ps cs), a, b⟩
  | ot10 (ch : Bool) (ps : List (U64 × U64)) (cs : List Bool) (k0 : List U64 → Proc α) (k1 : Proc β) (a b : Bytes)
      (h : ps.length = cs.length) :
      Step ⟨.otRecv ch cs k0, .otSend ch ps k1, a, b⟩ ⟨k0 (otChoose ps cs), k1, a, b⟩

/-- `n` steps. -/
inductive StepsN {α β : Type} : ℕ → Sys α β → Sys α β → Prop
  | refl (s : Sys α β) : StepsN 0 s s
  | head {n : ℕ} {s t u : Sys α β} : Step s t → StepsN n t u → StepsN (n + 1) s u

/-- Any number of steps. -/
def Steps {α β : Type} (s t : Sys α β) : Prop := ∃ n, StepsN n s t

/-- No server can move. -/
def Stuck {α β : Type} (s : Sys α β) : Prop := ∀ t, ¬ Step s t

end Verif
