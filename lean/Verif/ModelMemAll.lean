import Verif.ModelMem

/-!
# Memory of sessions with every operation

Source: server.cpp:1495-1620. `turnMem` of `ModelMem` leaves VAR, STDDEV and LINREG out; here they are among the turns.
-/

namespace Verif

/-- What one connection makes a server do: an operation of `Job`, or VAR/STDDEV (server.cpp:1570-1588), or LINREG (server.cpp:1589-1606). For both, the submissions (key, and whether it
is well formed), the iteration order of server 1's map, the keys announced to server 0; for LINREG besides the degree, `N = NextPowerOfTwo(NMul)`, and whether the answer is refused. -/
inductive AnyJob
  | plain (j : Job)
  | var (subs : List (Bytes × Bool)) (ord : Map (List Block) → Map (List Block)) (ks : List Bytes)
  | lin (degree N : ℕ) (subs : List (Bytes × Bool)) (ord : Map LinEntry → Map LinEntry) (ks : List Bytes) (refused : Bool)

/-- One turn of the main loop (server.cpp:1495-1620): `maybeUpdate` and the operation. Left out: the refresh of `randomX`, which replaces every `PreX` by another of the same
size (server.h:110-124). -/
def anyTurnMem (strict : Bool) (shape : ℕ → List (Way × ℕ)) (c : StoreCfg) (sv : Bool) (j : AnyJob) (k : Keep) : Mem Keep :=
  match j with
  | .plain j => turnMem c sv j k
  | .var subs ord ks => do
    let k ← maybeUpdateMem c sv k
    if sv then var1Mem shape c.nbits subs ord k else var0Mem shape c.nbits subs ks k
  | .lin degree N subs ord ks refused => do
    let k ← maybeUpdateMem c sv k
    if sv then lin1Mem strict shape c.nbits degree N subs ord k else lin0Mem strict shape c.nbits degree N subs ks refused k

/-- The main loop (server.cpp:1495-1620). -/
def anyTurnsMem (strict : Bool) (shape : ℕ → List (Way × ℕ)) (c : StoreCfg) (sv : Bool) : List AnyJob → Keep → Mem Keep
  | [], k => pure k
  | j :: js, k => do
    let k ← anyTurnMem strict shape c sv j k
    anyTurnsMem strict shape c sv js k

end Verif
