import Verif.ModelServer
import Verif.ModelCorrelated

/-!
# Memory of the server operations

The heap use of the operations, function by function: every `new`, `new[]`, `malloc`, `delete`, `delete[]` and `free` of the code, in its order, and the
uses of stored pointers. Contents are left out; what decides the course of a function (keys, admissibility, verdicts) is an argument.

Simplified: memory owned by `std::` containers and by FLINT inside an `fmpz` is released by the library and not counted. Sends
and receives succeed (C74 is about failing ones). `fork` copies the heap and the child exits, so it has no effect on the parent's heap. Automatic arrays
of the operations are checked against a stack limit; those inside `send_fmpz_batch` and the like are not counted.
-/

namespace Verif

/-- How a block was allocated: `new T`, `new T[n]`, `malloc` (`new_fmpz_array`, fmpz_utils.cpp:7-12). -/
inductive Way
  | obj
  | arr
  | raw
  deriving DecidableEq, Repr

/-- A block of the heap: its address, how it was allocated, and its size in bytes. -/
structure Block where
  ptr : ℕ
  way : Way
  bytes : ℕ
  deriving DecidableEq, Repr

/-- The heap: the next free address (addresses are not used again), the blocks in use, and the size of the stack. -/
structure Heap where
  next : ℕ
  live : List Block
  stack : ℕ

/-- A piece of a program, as far as memory is concerned. `none` is undefined behaviour. -/
abbrev Mem (α : Type) := StateT Heap Option α

/-- Undefined behaviour. -/
def Mem.fault {α : Type} : Mem α := fun _ => none

/-- `new T`, `new T[n]`, `malloc`. -/
def alloc (w : Way) (n : ℕ) : Mem Block := fun h => some (⟨h.next, w, n⟩, { h with next := h.next + 1, live := ⟨h.next, w, n⟩ :: h.live })

/-- `delete`, `delete[]`, `free` of a pointer, which is undefined unless it points to a block in use that was allocated the same way. With `strict = false`
the way does not matter, as with allocators that treat all ways alike. -/
def release (w : Way) (b : Block) (strict : Bool := true) : Mem Unit := fun h =>
  match h.live.find? fun c => c.ptr == b.ptr with
  | none => none
  | some c => if c.way = w ∨ strict = false then some ((), { h with live := h.live.erase c }) else none

/-- An access through a pointer to (the inside of) a block. -/
def touch (b : Block) : Mem Unit := fun h => if h.live.any fun c => c.ptr == b.ptr then some ((), h) else none

/-- Automatic arrays of `n` bytes. -/
def onStack (n : ℕ) : Mem Unit := fun h => if n ≤ h.stack then some ((), h) else none

/-- `n` times the same. -/
def times {α : Type} : ℕ → Mem α → Mem (List α)
  | 0, _ => pure []
  | n + 1, m => do
    let a ← m
    let l ← times n m
    pure (a :: l)

/-- A loop over a list. -/
def each {α β : Type} : List α → (α → Mem β) → Mem (List β)
  | [], _ => pure []
  | a :: l, f => do
    let b ← f a
    let bs ← each l f
    pure (b :: bs)

/-- Constructor and destructor of an object that owns several blocks. -/
def newObj (shape : List (Way × ℕ)) : Mem (List Block) := each shape fun s => alloc s.1 s.2
def deleteObj (o : List Block) : Mem Unit := do
  let _ ← each o fun b => release b.way b
  pure ()

/-! ## Sizes -/

/-- `ClientPacket(NMul)` (share.h:105-134), for `N = NextPowerOfTwo(NMul)`: the object, `MulShares`, `h_points`, `triple_share`. -/
def packetShape (nmul N : ℕ) : List (Way × ℕ) := [(.obj, 64), (.raw, 8 * nmul), (.raw, 8 * N), (.obj, 24)]

/-- A `Circuit` with `k` gates (circuit.h:56-81): the object (three vectors) and its gates. -/
def circuitShape (k : ℕ) : List (Way × ℕ) := (.obj, 72) :: List.replicate k (.obj, 40)

/-- A `Checker` (server.h:176-207): the object, `pointsF`, `pointsG`, `pointsH`. -/
def checkerShape (N : ℕ) : List (Way × ℕ) := [(.obj, 96), (.raw, 8 * (N + 1)), (.raw, 8 * (N + 1)), (.raw, 8 * (2 * (N + 1)))]

/-- `CorShare`, `Cor`, `DaBit` (share.h:12-46, 163-173). -/
def pairShape : List (Way × ℕ) := [(.obj, 16)]

/-! ## Messages and oblivious transfer -/

/-- `send_bool_batch`, `recv_bool_batch` (net_share.cpp:39-68). -/
def boolsMem (n : ℕ) : Mem Unit := do
  let buf ← alloc .arr ((n + 7) / 8)
  release .arr buf

/-- `send_CorShare_batch`, `recv_CorShare_batch` (net_share.cpp:316-350). -/
def corsMem (n : ℕ) : Mem Unit := do
  let buf ← alloc .raw (8 * n)
  release .raw buf

/-- `send_DaBit_batch`, `recv_DaBit_batch` (net_share.cpp:484-541). Simplified: one batch instead of several of 320000. -/
def daBitsMem (n : ℕ) : Mem Unit := do
  let bp ← alloc .raw (8 * n)
  let b2 ← alloc .arr n
  boolsMem n
  release .raw bp
  release .arr b2

/-- `OT_Wrapper::send` (ot.cpp:19-36). -/
def otSendMem (n : ℕ) : Mem Unit := do
  let block0 ← alloc .arr (16 * n)
  let block1 ← alloc .arr (16 * n)
  release .arr block0
  release .arr block1

/-- `OT_Wrapper::recv` (ot.cpp:38-50). -/
def otRecvMem (n : ℕ) : Mem Unit := do
  let block ← alloc .arr (16 * n)
  release .arr block

/-- `bitsum_ot_sender` (ot.cpp:56-86). -/
def bitsumSenderMem (n : ℕ) : Mem Unit := do
  let b0 ← alloc .arr (8 * n)
  let b1 ← alloc .arr (8 * n)
  otSendMem n
  release .arr b1
  release .arr b0

/-- `bitsum_ot_receiver` (ot.cpp:88-102). -/
def bitsumReceiverMem (n : ℕ) : Mem Unit := do
  let r ← alloc .arr (8 * n)
  otRecvMem n
  release .arr r

/-- `intsum_ot_sender` (ot.cpp:104-170) for `n` shares of `v` values with `bits` bits together. The result `ret` and its rows belong to the caller. -/
def intsumSenderMem (n v bits : ℕ) : Mem (Block × List Block) := do
  let ret ← alloc .arr (8 * n)
  let b0 ← alloc .arr (8 * (n * bits))
  let b1 ← alloc .arr (8 * (n * bits))
  let rows ← times n (alloc .arr (8 * v))
  otSendMem (n * bits)
  release .arr b0
  release .arr b1
  pure (ret, rows)

/-- `intsum_ot_receiver` (ot.cpp:172-215). -/
def intsumReceiverMem (n v bits : ℕ) : Mem (Block × List Block) := do
  let r ← alloc .arr (8 * (n * bits))
  let boolShares ← alloc .arr (n * bits)
  let ret ← alloc .arr (8 * n)
  otRecvMem (n * bits)
  release .arr boolShares
  let rows ← times n (alloc .arr (8 * v))
  release .arr r
  pure (ret, rows)

/-- The part of server 1 (`sv`) or 0 in a transfer of numbers (correlated.cpp:319-323). -/
def intsumMem (sv : Bool) (n v bits : ℕ) : Mem (Block × List Block) := if sv then intsumReceiverMem n v bits else intsumSenderMem n v bits

/-! ## The operations without a check -/

/-- `bit_sum` at server 1 for `n` admitted keys (server.cpp:320-340). -/
def bitSum1Mem (n : ℕ) : Mem Unit := do
  let shares ← alloc .arr n
  touch shares
  bitsumReceiverMem n
  release .arr shares

/-- `bit_sum` at server 0 for `n` announced keys (server.cpp:341-377). -/
def bitSum0Mem (n : ℕ) : Mem Unit := do
  let shares ← alloc .arr n
  let valid ← alloc .arr n
  touch shares
  bitsumSenderMem n
  release .arr shares
  release .arr valid

/-- `int_sum` at server 1 (server.cpp:410-437). -/
def intSum1Mem (nbits n : ℕ) : Mem Unit := do
  let shares ← alloc .arr (8 * n)
  let rows ← times n (alloc .arr 8)
  let r ← intsumReceiverMem n 1 nbits
  let _ ← each (rows.zip r.2) fun e => do
    touch e.2
    release .arr e.1
    release .arr e.2
  release .arr shares
  release .arr r.1

/-- `int_sum` at server 0 (server.cpp:438-481). -/
def intSum0Mem (nbits n : ℕ) : Mem Unit := do
  let shares ← alloc .arr (8 * n)
  let valid ← alloc .arr n
  let rows ← times n (alloc .arr 8)
  let r ← intsumSenderMem n 1 nbits
  release .arr valid
  let _ ← each (rows.zip r.2) fun e => do
    touch e.2
    release .arr e.1
    release .arr e.2
  release .arr shares
  release .arr r.1

/-- `xor_op` at server 1 (server.cpp:510-538). -/
def xorOp1Mem (n : ℕ) : Mem Unit := do
  let pkList ← alloc .arr (32 * n)
  let otherValid ← alloc .arr n
  boolsMem n
  release .arr otherValid
  release .arr pkList

/-- `xor_op` at server 0 (server.cpp:539-581). -/
def xorOp0Mem (n : ℕ) : Mem Unit := do
  let valid ← alloc .arr n
  boolsMem n
  release .arr valid

/-- `max_op` at server 1 for `total` submissions, `n` of them admitted (server.cpp:593, 616-645). The map holds pointers into `shares`. -/
def maxOp1Mem (total B n : ℕ) : Mem Unit := do
  let shares ← alloc .arr (8 * (total * (B + 1)))
  onStack (8 * (B + 1))
  let pkList ← alloc .arr (32 * n)
  let otherValid ← alloc .arr n
  boolsMem n
  touch shares
  release .arr otherValid
  release .arr shares
  release .arr pkList

/-- `max_op` at server 0 (server.cpp:593, 646-696). -/
def maxOp0Mem (total B n : ℕ) : Mem Unit := do
  let shares ← alloc .arr (8 * (total * (B + 1)))
  onStack (8 * (B + 1) + 8 * (B + 1))
  let valid ← alloc .arr n
  touch shares
  boolsMem n
  release .arr shares
  release .arr valid

/-! ## What outlives an operation -/

/-- The tables of roots (constants.cpp:31-47), the precomputations by number of points (server.cpp:139-149), and the daBits in the store (correlated.h:43). -/
structure Keep where
  roots : Option (ℕ × List Block)
  pre : List (ℕ × List Block)
  store : List (List Block)

/-- `init_roots(N)` (constants.cpp:32-46). -/
def initRootsMem (N : ℕ) (k : Keep) : Mem Keep :=
  match k.roots with
  | some (M, o) =>
    if M = N then pure k else do
      deleteObj o
      let o' ← newObj [(.raw, 8 * N), (.raw, 8 * N), (.raw, 8 * (2 * N))]
      pure { k with roots := some (N, o') }
  | none => do
    let o' ← newObj [(.raw, 8 * N), (.raw, 8 * N), (.raw, 8 * (2 * N))]
    pure { k with roots := some (N, o') }

/-- `getPrecomp(N)` (server.cpp:139-149). `shape N` lists the blocks of a `CheckerPreComp(N)` (server.h:96-140). -/
def getPrecompMem (shape : ℕ → List (Way × ℕ)) (N : ℕ) (k : Keep) : Mem Keep :=
  match k.pre.lookup N with
  | some _ => pure k
  | none => do
    let o ← newObj (shape N)
    pure { k with pre := (N, o) :: k.pre }

/-- `addDaBits(n)` (correlated.cpp:24-58) and `generateDaBit` (correlated.cpp:345-385); `sv` is `server_num == 1`. The array `other_dabit` is not released. -/
def addDaBitsMem (c : StoreCfg) (sv : Bool) (n : ℕ) (k : Keep) : Mem Keep := do
  let num := if n > c.batch then n else c.batch
  if c.lazy then
    let dabit ← alloc .arr (8 * num)
    let bits ← times num (newObj pairShape)
    if sv then
      daBitsMem num
      release .arr dabit
      pure { k with store := k.store ++ bits }
    else
      let _otherDabit ← alloc .arr (8 * num)
      let others ← times num (newObj pairShape)
      daBitsMem num
      let _ ← each others deleteObj
      release .arr dabit
      pure { k with store := k.store ++ bits }
  else
    let dabit ← alloc .arr (8 * num)
    let b ← alloc .arr num
    let x ← alloc .arr (8 * num)
    let bits ← times num (newObj pairShape)
    if sv then
      otRecvMem num
    else
      let b0 ← alloc .arr (8 * num)
      let b1 ← alloc .arr (8 * num)
      otSendMem num
      release .arr b0
      release .arr b1
    release .arr b
    release .arr x
    release .arr dabit
    pure { k with store := k.store ++ bits }

/-- `checkDaBits(n)` (correlated.cpp:64-66). -/
def checkDaBitsMem (c : StoreCfg) (sv : Bool) (n : ℕ) (k : Keep) : Mem Keep :=
  if k.store.length < n then addDaBitsMem c sv (n - k.store.length) k else pure k

/-- `maybeUpdate()` (correlated.cpp:89-107). -/
def maybeUpdateMem (c : StoreCfg) (sv : Bool) (k : Keep) : Mem Keep :=
  let makeDa := k.store.length < c.batch * c.nbits / 2
  let target := 2 * (if makeDa then 1 else 0) * c.nbits
  if k.store.length < target * c.batch then addDaBitsMem c sv (target * c.batch) k else pure k

/-- `getDaBit()` and `delete dabit`, `n` times (correlated.cpp:75-80, 227-234). -/
def useDaBitsMem (c : StoreCfg) (sv : Bool) : ℕ → Keep → Mem Keep
  | 0, k => pure k
  | n + 1, k => do
    let k ← checkDaBitsMem c sv 1 k
    match k.store with
    | [] => Mem.fault
    | d :: ds => do
      deleteObj d
      useDaBitsMem c sv n { k with store := ds }

/-- `b2a_daBit_single(n, x)` (correlated.cpp:221-266). The result belongs to the caller. -/
def b2aSingleMem (c : StoreCfg) (sv : Bool) (n : ℕ) (k : Keep) : Mem (Block × Keep) := do
  let xp ← alloc .raw (8 * n)
  let k ← checkDaBitsMem c sv n k
  let vThis ← alloc .arr n
  let k ← useDaBitsMem c sv n k
  boolsMem n
  let vOther ← alloc .arr n
  boolsMem n
  release .arr vThis
  release .arr vOther
  pure (xp, k)

/-! ## Checked operations -/

/-- `b2a_ot` (correlated.cpp:305-340) with `n` shares of `v` values. The result `xp` of the transfer and its rows are not released. -/
def b2aOtMem (sv : Bool) (n v bits : ℕ) : Mem Block := do
  let x2 ← alloc .arr (8 * n)
  let valid ← alloc .arr n
  let rows ← times n (alloc .arr (8 * v))
  let xp ← intsumMem sv n v bits
  let ans ← alloc .raw (8 * (n * v))
  let _ ← each xp.2 touch
  let _ ← each rows (release .arr)
  release .arr x2
  release .arr valid
  pure ans

/-- `share_convert` (server.cpp:153-193) with `USE_OT_B2A`. -/
def shareConvertMem (sv : Bool) (n v bits : ℕ) : Mem Block := do
  let f ← alloc .raw (8 * (n * v))
  let p ← b2aOtMem sv n v bits
  release .raw f
  pure p

/-- `Cor` and `OutShare` (server.cpp:237-241; server.h:248-297) with `z` zero gates. -/
def outShareMem (z : ℕ) : Mem Unit := do
  let cor ← newObj pairShape
  let arr ← alloc .raw (8 * (z + 1))
  release .raw arr
  deleteObj cor

/-- `validate_snips` (server.cpp:197-272) for the given packets and circuits with `z` zero gates; `N = NextPowerOfTwo(NumMulGates)`. With no packet
`circuit[0]` is read out of bounds (C56). -/
def validateSnipsMem (shape : ℕ → List (Way × ℕ)) (N z : ℕ) (packets : List (List Block)) (circuits : List (List Block)) (k : Keep) : Mem (Block × Keep) := do
  let n := packets.length
  let ans ← alloc .arr n
  if n = 0 then Mem.fault else
  let k ← initRootsMem N k
  let checker ← alloc .arr (8 * n)
  let k ← getPrecompMem shape N k
  let checkers ← each (packets.zip circuits) fun e => do
    let o ← newObj (checkerShape N)
    let _ ← each e.1 touch
    let _ ← each e.2 touch
    pure o
  let corShare ← alloc .arr (8 * n)
  let cors ← times n (newObj pairShape)
  corsMem n
  let corShareOther ← alloc .arr (8 * n)
  let corsOther ← times n (newObj pairShape)
  corsMem n
  let validShare ← alloc .raw (8 * n)
  let _ ← times n (outShareMem z)
  let validShareOther ← alloc .raw (8 * n)
  release .raw validShare
  release .raw validShareOther
  let _ ← each (cors.zip (corsOther.zip checkers)) fun e => do
    deleteObj e.1
    deleteObj e.2.1
    deleteObj e.2.2
  release .arr corShare
  release .arr corShareOther
  release .arr checker
  pure (ans, k)

/-- The intake of `var_op` (server.cpp:718-739): for every submission its key and whether its values are in range and its packet complete. -/
def varIntakeMem : List (Bytes × Bool) → Map (List Block) → Mem (Map (List Block))
  | [], m => pure m
  | (k, ok) :: subs, m => do
    let packet ← newObj (packetShape 1 2)
    if (m.lookup k).isSome || !ok then
      deleteObj packet
      varIntakeMem subs m
    else varIntakeMem subs (m ++ [(k, packet)])

/-- `CheckVar()` makes five gates (circuit.h:230-236), one of them a multiplication: `NMul = 1`, `N = 2`. -/
def varCheckBlocks : Mem (List Block) := newObj (circuitShape 5)

/-- `var_op` from the packets on, up to the sums (server.cpp:764-791, 826-857): both servers. -/
def varRowsMem (shape : ℕ → List (Way × ℕ)) (sv : Bool) (nbits : ℕ) (packets : List (List Block)) (shares : Block) (k : Keep) :
    Mem (Block × Keep) := do
  let circuits ← each packets fun _ => varCheckBlocks
  touch shares
  let sharesP ← shareConvertMem sv packets.length 2 (nbits + 2 * nbits)
  let (snipValid, k) ← validateSnipsMem shape 2 1 packets circuits k
  let _ ← each (circuits.zip packets) fun e => do
    deleteObj e.1
    deleteObj e.2
  release .arr snipValid
  pure (sharesP, k)

/-- `var_op` at server 1 (server.cpp:702-808). `ord` is the iteration order of the map. -/
def var1Mem (shape : ℕ → List (Way × ℕ)) (nbits : ℕ) (subs : List (Bytes × Bool)) (ord : Map (List Block) → Map (List Block)) (k : Keep) : Mem Keep := do
  let mock ← varCheckBlocks
  deleteObj mock
  let m ← varIntakeMem subs []
  let n := m.length
  let shares ← alloc .arr (8 * (2 * n))
  let packet ← alloc .arr (8 * n)
  let pkList ← alloc .arr (32 * n)
  let circuit ← alloc .arr (8 * n)
  let (sharesP, k) ← varRowsMem shape true nbits ((ord m).map (·.2)) shares k
  let valid ← alloc .arr n
  boolsMem n
  release .arr pkList
  release .arr circuit
  release .arr packet
  release .arr shares
  let b ← alloc .raw (8 * 2)
  release .arr valid
  release .raw b
  release .raw sharesP
  pure k

/-- The packets of the announced keys at server 0 (server.cpp:826-834): that of the map, or a new one. -/
def varPacketsMem (m : Map (List Block)) (ks : List Bytes) : Mem (List (List Block)) := each ks fun k =>
  match m.lookup k with
  | some p => pure p
  | none => newObj (packetShape 1 2)

/-- `var_op` at server 0 (server.cpp:702-748, 809-898) for the announced keys `ks`. -/
def var0Mem (shape : ℕ → List (Way × ℕ)) (nbits : ℕ) (subs : List (Bytes × Bool)) (ks : List Bytes) (k : Keep) : Mem Keep := do
  let mock ← varCheckBlocks
  deleteObj mock
  let m ← varIntakeMem subs []
  let n := ks.length
  let shares ← alloc .arr (8 * (2 * n))
  let packet ← alloc .arr (8 * n)
  let valid ← alloc .arr n
  let pkList ← alloc .arr (32 * n)
  let circuit ← alloc .arr (8 * n)
  let packets ← varPacketsMem m ks
  let (sharesP, k) ← varRowsMem shape false nbits packets shares k
  boolsMem n
  release .arr pkList
  release .arr circuit
  release .arr packet
  release .arr shares
  let a ← alloc .raw (8 * 2)
  release .arr valid
  release .raw sharesP
  release .raw a
  pure k

/-! ## FREQ -/

/-- `freq_op` at server 1 (server.cpp:1196-1314): `total` submissions, `n` of them admitted, `M = 1 << num_bits`; `single` says that the batch check fails. The name `shares` is declared again inside the
branch (server.cpp:1241), so that `delete[] shares` releases the inner array. -/
def freq1Mem (c : StoreCfg) (M total n : ℕ) (single : Bool) (k : Keep) : Mem Keep := do
  onStack (8 * M)
  let outer ← alloc .arr (total * M)
  let pkList ← alloc .arr (32 * total)
  let accum ← alloc .raw (8 * M)
  let shares ← alloc .arr (n * M)
  touch outer
  let (sharesP, k) ← b2aSingleMem c true (n * M) k
  let valid ← alloc .arr n
  let sums ← alloc .raw (8 * n)
  if single then
    boolsMem n
    boolsMem n
  else pure ()
  release .raw sums
  release .arr valid
  release .arr shares
  release .arr pkList
  release .raw sharesP
  release .raw accum
  pure k

/-- `freq_op` at server 0 (server.cpp:1196-1233, 1315-1444) for `n` announced keys; `single` says that the batch check fails, `refused` that too few rows
are valid. With more keys announced than submitted `pk_list` is too short (C60). -/
def freq0Mem (c : StoreCfg) (M total n : ℕ) (single refused : Bool) (k : Keep) : Mem Keep := do
  onStack (8 * M)
  let outer ← alloc .arr (total * M)
  let pkList ← alloc .arr (32 * total)
  let accum ← alloc .raw (8 * M)
  let shares ← alloc .arr (n * M)
  let valid ← alloc .arr n
  if n > total then Mem.fault else
  touch outer
  let (sharesP, k) ← b2aSingleMem c false (n * M) k
  let parity ← alloc .arr n
  let sums ← alloc .raw (8 * n)
  if single then
    let parityOther ← alloc .arr n
    let sumsOther ← alloc .raw (8 * n)
    boolsMem n
    release .raw sumsOther
    release .arr parityOther
  else pure ()
  release .raw sums
  release .arr parity
  boolsMem n
  release .arr valid
  release .arr shares
  release .arr pkList
  release .raw sharesP
  let accumOther ← alloc .raw (8 * M)
  if refused then pure k else
  release .raw accumOther
  release .raw accum
  pure k

/-! ## LINREG -/

/-- The numbers of `linreg_op` for a degree of at least 1 (server.cpp:911-913; circuit.h:244-263): features, quadratic terms, fields, gates. -/
def linXs (degree : ℕ) : ℕ := degree - 1
def linQuad (degree : ℕ) : ℕ := linXs degree * (linXs degree + 1) / 2
def linCols (degree : ℕ) : ℕ := 2 * linXs degree + 1 + linQuad degree
def linMuls (degree : ℕ) : ℕ := linQuad degree + linXs degree

/-- What the map of `linreg_op` holds for a key (server.cpp:920): the three arrays and the packet. -/
structure LinEntry where
  x : Block
  x2 : Block
  xy : Block
  packet : List Block

/-- The three arrays of a submission (server.cpp:940-942, 1088-1090). -/
def linArraysMem (degree : ℕ) : Mem (Block × Block × Block) := do
  let x ← alloc .arr (8 * linXs degree)
  let x2 ← alloc .arr (8 * linQuad degree)
  let xy ← alloc .arr (8 * linXs degree)
  pure (x, x2, xy)

/-- The intake of `linreg_op` (server.cpp:934-975). The arrays of a submission that is left out are not released. -/
def linIntakeMem (degree N : ℕ) : List (Bytes × Bool) → Map LinEntry → Mem (Map LinEntry)
  | [], m => pure m
  | (k, ok) :: subs, m => do
    let (x, x2, xy) ← linArraysMem degree
    let packet ← newObj (packetShape (linMuls degree) N)
    if (m.lookup k).isSome || !ok then
      deleteObj packet
      linIntakeMem degree N subs m
    else linIntakeMem degree N subs (m ++ [(k, ⟨x, x2, xy, packet⟩)])

/-- Copying a row into `shares` and `delete x_vals; delete x2_vals; delete xy_vals;` (server.cpp:1004-1024, 1093-1105): `delete` for `new[]`. -/
def linRowMem (strict : Bool) (degree : ℕ) (shares : Block) (r : LinEntry) : Mem (List Block) := do
  let circuit ← newObj (circuitShape (linCols degree + 3 * linMuls degree))
  touch shares
  touch r.x
  touch r.x2
  touch r.xy
  release .obj r.x strict
  release .obj r.x2 strict
  release .obj r.xy strict
  pure circuit

/-- `linreg_op` at server 1 (server.cpp:901-1060); `N = NextPowerOfTwo(NMul)`. -/
def lin1Mem (strict : Bool) (shape : ℕ → List (Way × ℕ)) (nbits degree N : ℕ) (subs : List (Bytes × Bool)) (ord : Map LinEntry → Map LinEntry) (k : Keep) :
    Mem Keep := do
  onStack (8 * linCols degree)
  let mock ← newObj (circuitShape (linCols degree + 3 * linMuls degree))
  deleteObj mock
  let m ← linIntakeMem degree N subs []
  let n := m.length
  let shares ← alloc .arr (8 * (n * linCols degree))
  let packet ← alloc .arr (8 * n)
  let pkList ← alloc .arr (32 * n)
  let circuit ← alloc .arr (8 * n)
  let rows := (ord m).map (·.2)
  let circuits ← each rows (linRowMem strict degree shares)
  let sharesP ← shareConvertMem true n (linCols degree) (nbits * degree + 2 * nbits * linMuls degree)
  let packets := rows.map (·.packet)
  let (snipValid, k) ← validateSnipsMem shape N (linMuls degree) packets circuits k
  let valid ← alloc .arr n
  boolsMem n
  let _ ← each (circuits.zip packets) fun e => do
    deleteObj e.1
    deleteObj e.2
  release .arr snipValid
  release .arr pkList
  release .arr circuit
  release .arr packet
  release .arr shares
  let b ← alloc .raw (8 * linCols degree)
  release .arr valid
  release .raw b
  release .raw sharesP
  pure k

/-- The rows of the announced keys at server 0 (server.cpp:1079-1105). -/
def linRows0Mem (strict : Bool) (degree N : ℕ) (shares : Block) (m : Map LinEntry) (ks : List Bytes) : Mem (List (List Block × List Block)) := each ks fun k =>
  match m.lookup k with
  | some r => do
    let circuit ← linRowMem strict degree shares r
    pure (circuit, r.packet)
  | none => do
    let (x, x2, xy) ← linArraysMem degree
    let packet ← newObj (packetShape (linMuls degree) N)
    let circuit ← linRowMem strict degree shares ⟨x, x2, xy, packet⟩
    pure (circuit, packet)

/-- `linreg_op` at server 0 (server.cpp:901-981, 1061-1193); `refused` says that too few rows are valid. -/
def lin0Mem (strict : Bool) (shape : ℕ → List (Way × ℕ)) (nbits degree N : ℕ) (subs : List (Bytes × Bool)) (ks : List Bytes) (refused : Bool) (k : Keep) :
    Mem Keep := do
  onStack (8 * linCols degree)
  let mock ← newObj (circuitShape (linCols degree + 3 * linMuls degree))
  deleteObj mock
  let m ← linIntakeMem degree N subs []
  let n := ks.length
  let shares ← alloc .arr (8 * (n * linCols degree))
  let packet ← alloc .arr (8 * n)
  let valid ← alloc .arr n
  let pkList ← alloc .arr (32 * n)
  let circuit ← alloc .arr (8 * n)
  let rows ← linRows0Mem strict degree N shares m ks
  let circuits := rows.map (·.1)
  let packets := rows.map (·.2)
  let sharesP ← shareConvertMem false n (linCols degree) (nbits * degree + 2 * nbits * linMuls degree)
  let (snipValid, k) ← validateSnipsMem shape N (linMuls degree) packets circuits k
  let _ ← each (circuits.zip packets) fun e => do
    deleteObj e.1
    deleteObj e.2
  boolsMem n
  release .arr snipValid
  release .arr pkList
  release .arr circuit
  release .arr packet
  release .arr shares
  let a ← alloc .raw (8 * linCols degree)
  release .arr valid
  release .raw sharesP
  let xAccum ← alloc .arr (8 * (degree + linQuad degree))
  let yAccum ← alloc .arr (8 * degree)
  release .raw a
  if refused then pure k else
  let coef ← alloc .arr (8 * degree)
  release .arr xAccum
  release .arr yAccum
  release .arr coef
  pure k

/-! ## Sessions -/

/-- What one connection makes a server do, as far as memory is concerned: the operation and the arguments of its function above. -/
inductive Job
  | none
  | bitSum (n : ℕ)
  | intSum (n : ℕ)
  | xorOp (n : ℕ)
  | maxOp (total B n : ℕ)
  | freq (total n : ℕ) (single refused : Bool)

/-- One turn of the main loop (server.cpp:1495-1620): `maybeUpdate` and the operation. Left out: VAR, STDDEV and LINREG, which are treated apart, and the refresh of
`randomX`, which replaces every `PreX` by another of the same size (server.h:110-124). -/
def turnMem (c : StoreCfg) (sv : Bool) (j : Job) (k : Keep) : Mem Keep := do
  let k ← maybeUpdateMem c sv k
  match j with
  | .none => pure k
  | .bitSum n => do
    if sv then bitSum1Mem n else bitSum0Mem n
    pure k
  | .intSum n => do
    if sv then intSum1Mem c.nbits n else intSum0Mem c.nbits n
    pure k
  | .xorOp n => do
    if sv then xorOp1Mem n else xorOp0Mem n
    pure k
  | .maxOp total B n => do
    if sv then maxOp1Mem total B n else maxOp0Mem total B n
    pure k
  | .freq total n single refused =>
    if sv then freq1Mem c (2 ^ c.nbits) total n single k else freq0Mem c (2 ^ c.nbits) total n single refused k

/-- The main loop (server.cpp:1495-1620). -/
def turnsMem (c : StoreCfg) (sv : Bool) : List Job → Keep → Mem Keep
  | [], k => pure k
  | j :: js, k => do
    let k ← turnMem c sv j k
    turnsMem c sv js k

end Verif
