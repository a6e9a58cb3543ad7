import Verif.ModelFreq
import Verif.ModelLinReg

/-!
# server.cpp: `main`

Connecting the sockets, starting the OT library and printing are left out. `accept` is modelled as handing over the whole byte
stream of the next client connection (`Env.stream`); that the loop never ends is modelled by theorems for lists of connections of any
length.
-/

namespace Verif

/-- `initMsg` (types.h:57-61): three 32-bit words; `messageType` (types.h:43-55) is an `int`. -/
structure InitMsg where
  type : BitVec 32
  num : BitVec 32
  maxInp : BitVec 32
  deriving DecidableEq, Repr

/-- The bytes of an `initMsg` (client.cpp:135-136, server.cpp:1516), little-endian. -/
def encInit (m : InitMsg) : Bytes := leBytes 4 m.type.toNat ++ (leBytes 4 m.num.toNat ++ leBytes 4 m.maxInp.toNat)

/-- `recv_in(newsockfd, &msg, sizeof(initMsg))` (server.cpp:1515-1516). On a shorter stream part of `msg` stays indeterminate
(no result). -/
def rdInit : Rd InitMsg :=
  .get 4 fun a => .get 4 fun b => .get 4 fun c => .ret ⟨BitVec.ofNat 32 (leVal a), BitVec.ofNat 32 (leVal b), BitVec.ofNat 32 (leVal c)⟩

/-- `RANDOMX_THRESHOLD` (server.cpp:29). -/
def randomXThreshold : ℕ := 1000000

/-- The global state of a server. -/
structure Srv where
  snip : SnipState
  cor : Store

/-- Everything one iteration takes from outside: the bytes of the client connection, the value drawn by `fmpz_randm` in
`sync_randomX`, uninitialised memory, draws of the OT masks, the iteration order of hash maps and how the compiler treats
`ex2 - (ex * ex)` (`subSquare`). -/
structure Env where
  stream : Bytes
  draw : ℤ
  junkBit : ℕ → Bool
  junkWord : ℕ → U64
  junkLin : ℕ → ℕ → U64
  rawBit : ℕ → U64
  raw : ℕ → ℕ → ℕ → U64
  ord : {α : Type} → Map α → Map α
  fma : Bool

/-- What an operation hands to `main`, which prints it. -/
inductive Answer where
  | idle
  | word (r : Ret U64)
  | flag (r : Ret Bool)
  | nat (r : Ret ℕ)
  | real (r : Ret (Option ℝ))
  | lin (r : Ret (Option (List ℚ)))
  | hist (r : Ret (List ℤ))

/-- `sync_randomX` (server.cpp:120-129): server 1 draws and sends. -/
def syncRandomX (sv : Bool) (draw : ℤ) : Proc ℤ :=
  if sv then (Proc.putOpt (encFmpz draw)).bind fun _ => .ret draw else rdFmpz.toProc

/-- The loop updating the cached precomputations (server.cpp:1501-1502). -/
def refreshStore (x : ℤ) : List (ℕ × CheckerPre) → Option (List (ℕ × CheckerPre))
  | [] => some []
  | e :: l => (setCheckerPrecomp intModulus e.2.degN e.2.deg2N x).bind fun pre => (refreshStore x l).map fun l' => (e.1, pre) :: l'

/-- The refresh at the head of the loop (server.cpp:1497-1503). -/
def maybeRefresh (sv : Bool) (draw : ℤ) (st : SnipState) : Proc SnipState :=
  if randomXThreshold < st.uses then
    (syncRandomX sv draw).bind fun x => (Proc.ofOption (refreshStore x st.store)).bind fun s =>
      .ret { st with x := x, uses := 0, store := s }
  else .ret st

/-- The dispatch on the message type (server.cpp:1514-1617) at server 0. `nbits` is the global `num_bits`, `coef` the sequence drawn
from `snips_seed`. -/
noncomputable def dispatch0 (c : StoreCfg) (g : StoreRng) (nbits : ℕ) (coef : ℕ → ℤ) (e : Env) (s : Srv) : Proc (Answer × Srv) :=
  (Proc.ofOption (rdInit.run e.stream)).bind fun m =>
  let n := m.1.num.toNat
  let B := m.1.maxInp.toNat
  let t := m.1.type
  if t = 1#32 then (bitSumOp0 n m.2 e.junkBit e.rawBit).bind fun r => .ret (.word r, s)
  else if t = 2#32 then (intSumOp0 nbits n m.2 e.junkWord e.raw).bind fun r => .ret (.word r, s)
  else if t = 3#32 then (xorOpOp0 true n m.2).bind fun r => .ret (.flag r, s)
  else if t = 4#32 then (xorOpOp0 false n m.2).bind fun r => .ret (.flag r, s)
  else if t = 5#32 then (maxOpOp0 true B n m.2).bind fun r => .ret (.nat r, s)
  else if t = 6#32 then (maxOpOp0 false B n m.2).bind fun r => .ret (.nat r, s)
  else if t = 7#32 then (varOp0 e.fma false nbits n m.2 coef e.raw s.snip).bind fun r => .ret (.real r.1, { s with snip := r.2 })
  else if t = 8#32 then (varOp0 e.fma true nbits n m.2 coef e.raw s.snip).bind fun r => .ret (.real r.1, { s with snip := r.2 })
  else if t = 9#32 then (linOp0 nbits n m.2 coef e.raw e.junkLin s.snip).bind fun r => .ret (.lin r.1, { s with snip := r.2 })
  else if t = 10#32 then (freqOp0 c g nbits n m.2 s.cor).bind fun r => .ret (.hist r.1, { s with cor := r.2 })
  else .ret (.idle, s)

/-- The dispatch at server 1. -/
noncomputable def dispatch1 (c : StoreCfg) (g : StoreRng) (nbits : ℕ) (coef : ℕ → ℤ) (e : Env) (s : Srv) : Proc (Answer × Srv) :=
  (Proc.ofOption (rdInit.run e.stream)).bind fun m =>
  let n := m.1.num.toNat
  let B := m.1.maxInp.toNat
  let t := m.1.type
  if t = 1#32 then (bitSumOp1 n m.2 e.ord).bind fun r => .ret (.word r, s)
  else if t = 2#32 then (intSumOp1 nbits n m.2 e.ord).bind fun r => .ret (.word r, s)
  else if t = 3#32 then (xorOpOp1 n m.2 e.ord).bind fun r => .ret (.flag r, s)
  else if t = 4#32 then (xorOpOp1 n m.2 e.ord).bind fun r => .ret (.flag r, s)
  else if t = 5#32 then (maxOpOp1 B n m.2 e.ord).bind fun r => .ret (.nat r, s)
  else if t = 6#32 then (maxOpOp1 B n m.2 e.ord).bind fun r => .ret (.nat r, s)
  else if t = 7#32 then (varOp1 nbits n m.2 coef e.raw s.snip e.ord).bind fun r => .ret (.real r.1, { s with snip := r.2 })
  else if t = 8#32 then (varOp1 nbits n m.2 coef e.raw s.snip e.ord).bind fun r => .ret (.real r.1, { s with snip := r.2 })
  else if t = 9#32 then (linOp1 nbits n m.2 coef e.raw s.snip e.ord).bind fun r => .ret (.lin r.1, { s with snip := r.2 })
  else if t = 10#32 then (freqOp1 c g nbits n m.2 e.ord s.cor).bind fun r => .ret (.hist r.1, { s with cor := r.2 })
  else .ret (.idle, s)

/-- One iteration of the loop (server.cpp:1495-1619); `sv`: this is server 1. -/
noncomputable def iteration (sv : Bool) (c : StoreCfg) (g : StoreRng) (nbits : ℕ) (coef : ℕ → ℤ) (e : Env) (s : Srv) : Proc (Answer × Srv) :=
  (maybeRefresh sv e.draw s.snip).bind fun sn => (maybeUpdate intModulus c g sv s.cor).bind fun co =>
    if sv then dispatch1 c g nbits coef e ⟨sn, co⟩ else dispatch0 c g nbits coef e ⟨sn, co⟩

/-- The loop for a list of connections (server.cpp:1495-1620). -/
noncomputable def session (sv : Bool) (c : StoreCfg) (g : StoreRng) (nbits : ℕ) (coef : ℕ → ℤ) : List Env → Srv → Proc (List Answer × Srv)
  | [], s => .ret ([], s)
  | e :: es, s => (iteration sv c g nbits coef e s).bind fun r => (session sv c g nbits coef es r.2).bind fun q => .ret (r.1 :: q.1, q.2)

/-- `syncSnipSeeds` (server.h:138-150) with `send_seed`/`recv_seed` (net_share.cpp:269-279): the memory of server 0's generator,
`len` bytes, becomes that of server 1. The generator has just been initialised and holds no pointers. -/
def syncSnipSeeds (sv : Bool) (len : ℕ) (mine : Bytes) : Proc Bytes :=
  if sv then (Rd.get len .ret).toProc else (Proc.put mine).bind fun _ => .ret mine

/-- `main` (server.cpp:1446-1623) from `init_constants` (line 1467) on; `draw` the first value of `fmpz_randm`; `gen` the sequence of draws from a generator with the given memory. The
store starts empty (correlated.h:67-79). -/
noncomputable def serverMain (sv : Bool) (c : StoreCfg) (g : StoreRng) (nbits : ℕ) (draw : ℤ) (len : ℕ) (mine : Bytes)
    (gen : Bytes → ℕ → ℤ) (es : List Env) : Proc (List Answer × Srv) :=
  (syncRandomX sv draw).bind fun x => (syncSnipSeeds sv len mine).bind fun seed =>
    session sv c g nbits (gen seed) es ⟨⟨RootTables.start, [], x, 0, 0⟩, ⟨[], [], 0⟩⟩

end Verif
