import Verif.ModelProc

/-!
# What a server sees

A server program is extended by a record of everything that reaches it from the other server: the bytes it reads from the socket and the
words it gets from the OT library. Own inputs and draws are arguments of the program and not recorded. No behaviour is changed
(`Proc.watch_erase`).
-/

namespace Verif

/-- One item of what a server receives from the other server: a byte read by `recv_in` (net_share.cpp:14-30) or a word delivered by
`OT_Wrapper::recv` (ot.cpp:38-50). -/
inductive Seen where
  | byte (b : Byte)
  | word (w : U64)
  deriving DecidableEq, Repr

/-- What is recorded for received bytes (net_share.cpp:14-30). -/
def seenBytes (bs : Bytes) : List Seen := bs.map .byte

/-- What is recorded for received words (ot.cpp:38-50). -/
def seenWords (ws : List U64) : List Seen := ws.map .word

/-- The program with its record, oldest item first. Instrumentation of the model, no code of /repo; the two receiving operations are those of
net_share.cpp:14-30 and ot.cpp:38-50. -/
def Proc.watch {α : Type} : Proc α → Proc (α × List Seen)
  | .ret a => .ret (a, [])
  | .fault => .fault
  | .send bs k => .send bs k.watch
  | .recv n k => .recv n fun bs => (k bs).watch.bind fun r => .ret (r.1, seenBytes bs ++ r.2)
  | .otSend ch ps k => .otSend ch ps k.watch
  | .otRecv ch cs k => .otRecv ch cs fun ws => (k ws).watch.bind fun r => .ret (r.1, seenWords ws ++ r.2)

end Verif
