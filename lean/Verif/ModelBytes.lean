import Verif.ModelXor
import Verif.ModelShare

/-!
# Bytes and readers

The byte representation of C++ objects on the wire, for a little-endian 64-bit machine, and a small language of
readers: programs whose only effect is to take the next `n` bytes of a stream (`recv_in`, net_share.cpp:21-29, in the
absence of errors and end of stream; those are modelled in `ModelRecv`).
-/

namespace Verif

/-- One byte on the wire. -/
abbrev Byte := BitVec 8
/-- A byte string. -/
abbrev Bytes := List Byte

/-- The `n` low bytes of a number, least significant first: how a little-endian machine stores it. -/
def leBytes : ℕ → ℕ → Bytes
  | 0, _ => []
  | n + 1, x => BitVec.ofNat 8 x :: leBytes n (x / 256)

/-- The number stored in a little-endian byte string. -/
def leVal : Bytes → ℕ
  | [] => 0
  | b :: bs => b.toNat + 256 * leVal bs

/-- A program that reads a stream. `bad`: undefined behaviour (a `bool` object holding a byte other than 0 or 1). -/
inductive Rd (α : Type) : Type where
  | ret (a : α) : Rd α
  | bad : Rd α
  | get (n : ℕ) (k : Bytes → Rd α) : Rd α

namespace Rd

/-- Sequencing. -/
def bind {α β : Type} : Rd α → (α → Rd β) → Rd β
  | ret a, f => f a
  | bad, _ => bad
  | get n k, f => get n (fun bs => bind (k bs) f)

instance : Monad Rd where
  pure := ret
  bind := bind

/-- Run a reader on a stream: the result and the rest of the stream. `none`: blocked for lack of bytes, or
undefined behaviour. -/
def run {α : Type} : Rd α → Bytes → Option (α × Bytes)
  | ret a, s => some (a, s)
  | bad, _ => none
  | get n k, s => if s.length < n then none else run (k (s.take n)) (s.drop n)

/-- Repeat a reader `n` times (the `for` loops around `recv_X`). -/
def rep {α : Type} (r : Rd α) : ℕ → Rd (List α)
  | 0 => ret []
  | n + 1 => r.bind fun a => (rep r n).bind fun as => ret (a :: as)

end Rd

end Verif
