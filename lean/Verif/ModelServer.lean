import Verif.ModelOt
import Mathlib.Algebra.Order.Field.Rat

/-!
# The operations of server.cpp that need no circuits: bit_sum, int_sum, xor_op, max_op

A server operation first reads the submissions of its client connection and builds a map from public keys to shares,
then runs a protocol with the other server. `std::unordered_map` is an association list in insertion order; the order
in which server 1 iterates over its map is a parameter. Batches are assumed shorter than 2^31 (the index in
server.cpp:326 and 412 is an `int`). Printing and timing are left out. `msg.type` is one of the two types that main
dispatches to the function (server.cpp:1539-1582), so the `error_exit` branches are not reached.
-/

namespace Verif

/-- `PK_LENGTH` (types.h:4). -/
def pkLength : ℕ := 32

/-- `returnType` and the answer (server.cpp:55-59). -/
inductive Ret (α : Type) where
  | noAns
  | ans (a : α)
  | invalid
  deriving DecidableEq, Repr

/-- `INVALID_THRESHOLD` (server.cpp:26). -/
def invalidThreshold : ℚ := 1 / 2

/-- `num_valid < total_inputs * (1 - INVALID_THRESHOLD)` (server.cpp:370, 474, 568, 676, 873). The comparison is made
in `double`; both sides are multiples of 1/2 below 2^53 and hence exact. -/
def belowThreshold (numValid total : ℕ) : Bool := decide ((numValid : ℚ) < (total : ℚ) * (1 - invalidThreshold))

/-- `std::unordered_map<std::string, ..>`. -/
abbrev Map (α : Type) := List (Bytes × α)

/-- `recv_in(clientfd, &share, sizeof(..))` into a local variable (net_share.cpp:21-29, server.cpp:305, 392, 494).
`buf` is the earlier content, `none` if the variable has never been written. At the end of the stream the missing part
of the variable keeps its earlier content. -/
def fillBuf (n : ℕ) (buf : Option Bytes) (s : Bytes) : Option Bytes × Bytes :=
  if n ≤ s.length then (some (s.take n), s.drop n) else (buf.map fun b => s ++ b.drop s.length, [])

/-- The contents of the variable after each of `k` receptions; `none`: an indeterminate value is used. -/
def recordLoop (n : ℕ) : ℕ → Option Bytes → Bytes → Option (List Bytes)
  | 0, _, _ => some []
  | k + 1, buf, s =>
    match fillBuf n buf s with
    | (none, _) => none
    | (some b, s') => (recordLoop n k (some b) s').map (b :: ·)

/-- The key of a record (types.h:7, 13): its first 32 bytes. -/
def recKey (r : Bytes) : Bytes := r.take pkLength

/-- `IntShare::val` (types.h:14): eight bytes at offset 32. -/
def recWord (r : Bytes) : U64 := BitVec.ofNat 64 (leVal ((r.drop pkLength).take 8))

/-- `BitShare::val` (types.h:8): the byte at offset 32, a valid `bool` only if 0 or 1. -/
def recBool (r : Bytes) : Option Bool :=
  match boolOfByte (r.getD pkLength 0#8) with
  | .ret b => some b
  | _ => none

/-- `sizeof(BitShare)` and `sizeof(IntShare)`. -/
def bitShareSize : ℕ := 33
/-- `sizeof(IntShare)`. -/
def intShareSize : ℕ := 40

/-- The loop of `bit_sum` over the submissions (server.cpp:304-310). The value is read only when the key is new. -/
def bitIntake : List Bytes → Map Bool → Option (Map Bool)
  | [], m => some m
  | r :: rs, m =>
    if (m.lookup (recKey r)).isSome then bitIntake rs m
    else match recBool r with
      | none => none
      | some b => bitIntake rs (m ++ [(recKey r, b)])

/-- The loop over the submissions in the other operations: skip a submission whose key is present or that fails the
checks (server.cpp:391-401, 493-500, 597-606). -/
def admit {α : Type} (ok : α → Bool) : List (Bytes × α) → Map α → Map α
  | [], m => m
  | (k, v) :: rs, m => if (m.lookup k).isSome || !ok v then admit ok rs m else admit ok rs (m ++ [(k, v)])

/-- `send_out(serverfd, &share.first[0], PK_LENGTH)` for every entry (server.cpp:327-331, 413-418, 517-521). -/
def sendKeys : List Bytes → Proc Unit
  | [] => .ret ()
  | k :: ks => (Proc.put k).bind fun _ => sendKeys ks

/-- `get_pk` (server.cpp:132-137), `n` times. -/
def recvKeys : ℕ → Proc (List Bytes)
  | 0 => .ret []
  | n + 1 => (Rd.get pkLength .ret).toProc.bind fun k => (recvKeys n).bind fun ks => .ret (k :: ks)

/-- Server 1 announces its keys (server.cpp:323-331). -/
def announce (ks : List Bytes) : Proc Unit :=
  (Proc.put (encSize (BitVec.ofNat 64 ks.length))).bind fun _ => sendKeys ks

/-- Server 0 reads the announced keys (server.cpp:345-351). -/
def listen : Proc (List Bytes) := rdSize.toProc.bind fun n => recvKeys n.toNat

/-- `valid[i]` and its count (server.cpp:351-356). -/
def matched {α : Type} (m : Map α) (ks : List Bytes) : List Bool := ks.map fun k => (m.lookup k).isSome

/-- `num_valid`. -/
def numTrue (vs : List Bool) : ℕ := (vs.filter id).length

/-- End of an operation at server 0 (server.cpp:370-376). -/
def finish {α : Type} (numValid total : ℕ) (a : α) : Ret α := if belowThreshold numValid total then .invalid else .ans a

/-! ## bit_sum -/

/-- The rows for the OT sender (server.cpp:350-358). `junk i` is the uninitialised `shares[i]` of an unmatched key,
`raw i` the mask drawn by the OT sender. -/
def bitRows (m : Map Bool) (junk : ℕ → Bool) (raw : ℕ → U64) (ks : List Bytes) : List BitRow :=
  ks.mapIdx fun i k => match m.lookup k with
    | some b => ⟨b, true, raw i⟩
    | none => ⟨junk i, false, raw i⟩

/-- `bit_sum` at server 0 after reading the submissions (server.cpp:344-377). -/
def bitSum0 (total : ℕ) (m : Map Bool) (junk : ℕ → Bool) (raw : ℕ → U64) : Proc (Ret U64) :=
  listen.bind fun ks =>
    (bitsumSender false 0#64 (bitRows m junk raw ks)).bind fun a => rdU64.toProc.bind fun b =>
      .ret (finish (numTrue (matched m ks)) total (a + b))

/-- `bit_sum` at server 1 after reading the submissions (server.cpp:322-342); `ord` lists the map in iteration
order. -/
def bitSum1 (ord : Map Bool) : Proc (Ret U64) :=
  (announce (ord.map (·.1))).bind fun _ =>
    (bitsumReceiver false 0#64 (ord.map (·.2))).bind fun b => (Proc.put (encU64 b)).bind fun _ => .ret .noAns

/-- The whole of `bit_sum` (server.cpp:296-378) for server 0. -/
def bitSumOp0 (total : ℕ) (stream : Bytes) (junk : ℕ → Bool) (raw : ℕ → U64) : Proc (Ret U64) :=
  (Proc.ofOption ((recordLoop bitShareSize total none stream).bind fun rs => bitIntake rs [])).bind fun m =>
    bitSum0 total m junk raw

/-- The whole of `bit_sum` for server 1; `ord` gives the iteration order of a map. -/
def bitSumOp1 (total : ℕ) (stream : Bytes) (ord : Map Bool → Map Bool) : Proc (Ret U64) :=
  (Proc.ofOption ((recordLoop bitShareSize total none stream).bind fun rs => bitIntake rs [])).bind fun m =>
    bitSum1 (ord m)

/-! ## int_sum -/

/-- `1ULL << num_bits` (server.cpp:385); undefined for 64 and more. -/
def maxVal (nbits : ℕ) : Option U64 := if nbits < 64 then some (1#64 <<< nbits) else none

/-- The submissions of an operation that uses `IntShare` (server.cpp:391-393, 493-495). -/
def intRecords (total : ℕ) (stream : Bytes) : Option (List (Bytes × U64)) :=
  (recordLoop intShareSize total none stream).map fun rs => rs.map fun r => (recKey r, recWord r)

/-- The rows for the OT sender (server.cpp:441-450). -/
def intRows (m : Map U64) (junk : ℕ → U64) (raw : ℕ → ℕ → ℕ → U64) (ks : List Bytes) : List IntRow :=
  ks.mapIdx fun i k => match m.lookup k with
    | some v => ⟨[v], true, raw i⟩
    | none => ⟨[junk i], false, raw i⟩

/-- `a += a_all[i][0]` (server.cpp:425-427, 457-459). -/
def sumFirst (rows : List (List U64)) : U64 := rows.foldl (fun s r => s + r.headD 0#64) 0#64

/-- `int_sum` at server 0 after reading the submissions (server.cpp:436-481). -/
def intSum0 (nbits total : ℕ) (m : Map U64) (junk : ℕ → U64) (raw : ℕ → ℕ → ℕ → U64) : Proc (Ret U64) :=
  listen.bind fun ks =>
    (intsumSender false 0#64 [nbits] (intRows m junk raw ks)).bind fun a => rdU64.toProc.bind fun b =>
      .ret (finish (numTrue (matched m ks)) total (sumFirst a + b))

/-- `int_sum` at server 1 after reading the submissions (server.cpp:408-435). -/
def intSum1 (nbits : ℕ) (ord : Map U64) : Proc (Ret U64) :=
  (announce (ord.map (·.1))).bind fun _ =>
    (intsumReceiver false 0#64 [nbits] (ord.map fun e => [e.2])).bind fun b =>
      (Proc.put (encU64 (sumFirst b))).bind fun _ => .ret .noAns

/-- The map built by `int_sum` (server.cpp:385-402). -/
def intIntake (nbits total : ℕ) (stream : Bytes) : Option (Map U64) :=
  (maxVal nbits).bind fun mx => (intRecords total stream).map fun rs => admit (fun v => !(mx ≤ v)) rs []

/-- The whole of `int_sum` (server.cpp:380-482) for server 0. -/
def intSumOp0 (nbits total : ℕ) (stream : Bytes) (junk : ℕ → U64) (raw : ℕ → ℕ → ℕ → U64) : Proc (Ret U64) :=
  (Proc.ofOption (intIntake nbits total stream)).bind fun m => intSum0 nbits total m junk raw

/-- The whole of `int_sum` for server 1. -/
def intSumOp1 (nbits total : ℕ) (stream : Bytes) (ord : Map U64 → Map U64) : Proc (Ret U64) :=
  (Proc.ofOption (intIntake nbits total stream)).bind fun m => intSum1 nbits (ord m)

/-! ## xor_op -/

/-- `b ^= share_map[pk_list[i]]` for the valid rows (server.cpp:528-532, 549-557). `operator[]` would insert 0 for
a missing key. -/
def xorFold (m : Map U64) (ks : List Bytes) (valid : List Bool) : U64 :=
  (ks.zip valid).foldl (fun s e => if e.2 then s ^^^ (m.lookup e.1).getD 0#64 else s) 0#64

/-- `xor_op` at server 0 after reading the submissions (server.cpp:543-581). -/
def xorOp0 (isAnd : Bool) (total : ℕ) (m : Map U64) : Proc (Ret Bool) :=
  listen.bind fun ks =>
    (Proc.put (encBools (matched m ks))).bind fun _ => rdU64.toProc.bind fun b =>
      .ret (finish (numTrue (matched m ks)) total
        (if isAnd then decide (xorFold m ks (matched m ks) ^^^ b = 0#64)
          else decide (xorFold m ks (matched m ks) ^^^ b ≠ 0#64)))

/-- `xor_op` at server 1 after reading the submissions (server.cpp:511-542). -/
def xorOp1 (m ord : Map U64) : Proc (Ret Bool) :=
  (announce (ord.map (·.1))).bind fun _ => (rdBools ord.length).toProc.bind fun valid =>
    (Proc.put (encU64 (xorFold m (ord.map (·.1)) valid))).bind fun _ => .ret .noAns

/-- The map built by `xor_op` (server.cpp:493-500): no range check. -/
def xorIntake (total : ℕ) (stream : Bytes) : Option (Map U64) :=
  (intRecords total stream).map fun rs => admit (fun _ => true) rs []

/-- The whole of `xor_op` (server.cpp:485-582) for server 0. -/
def xorOpOp0 (isAnd : Bool) (total : ℕ) (stream : Bytes) : Proc (Ret Bool) :=
  (Proc.ofOption (xorIntake total stream)).bind fun m => xorOp0 isAnd total m

/-- The whole of `xor_op` for server 1. -/
def xorOpOp1 (total : ℕ) (stream : Bytes) (ord : Map U64 → Map U64) : Proc (Ret Bool) :=
  (Proc.ofOption (xorIntake total stream)).bind fun m => xorOp1 m (ord m)

/-! ## max_op -/

/-- One submission of `max_op` (server.cpp:598-601). -/
def rdMaxShare (B : ℕ) : Rd (Bytes × List U64) :=
  .get pkLength fun pk => (rdWords (B + 1)).bind fun ws => .ret (pk, ws)

/-- `a[j] ^= ..` for all columns (server.cpp:631-632, 660-661). -/
def xorCols (a b : List U64) : List U64 := List.zipWith (· ^^^ ·) a b

/-- The accumulated columns (server.cpp:628-633, 652-662). -/
def maxFold (B : ℕ) (m : Map (List U64)) (ks : List Bytes) (valid : List Bool) : List U64 :=
  (ks.zip valid).foldl (fun s e => if e.2 then xorCols s ((m.lookup e.1).getD []) else s) (List.replicate (B + 1) 0#64)

/-- The scan `for (unsigned int j = B; j >= 0; j--) if (a[j] != b[j])` (server.cpp:681-693), from `j` downwards: the
first `j` at which the vectors differ. The loop condition is always true; when the index wraps below 0 it becomes
2^32-1 and the access is out of bounds (`none`). -/
def scanDown (a b : List U64) : ℕ → Option ℕ
  | 0 => if a.getD 0 0#64 ≠ b.getD 0 0#64 then some 0 else none
  | j + 1 => if a.getD (j + 1) 0#64 ≠ b.getD (j + 1) 0#64 then some (j + 1) else scanDown a b j

/-- `max_op` at server 0 after reading the submissions (server.cpp:645-696). -/
def maxOp0 (isMax : Bool) (B total : ℕ) (m : Map (List U64)) : Proc (Ret ℕ) :=
  listen.bind fun ks =>
    (Proc.put (encBools (matched m ks))).bind fun _ => (rdWords (B + 1)).toProc.bind fun b =>
      if belowThreshold (numTrue (matched m ks)) total then .ret .invalid
      else match scanDown (maxFold B m ks (matched m ks)) b B with
        | some j => .ret (.ans (if isMax then j else B - j))
        | none => .fault

/-- `max_op` at server 1 after reading the submissions (server.cpp:614-644). -/
def maxOp1 (B : ℕ) (m ord : Map (List U64)) : Proc (Ret ℕ) :=
  (announce (ord.map (·.1))).bind fun _ => (rdBools ord.length).toProc.bind fun valid =>
    (Proc.put (encWords (maxFold B m (ord.map (·.1)) valid))).bind fun _ => .ret .noAns

/-- Every write `recv_uint64_batch(clientfd, &shares[i*(B+1)], B+1)` stays inside `new uint64_t[total_inputs * (B + 1)]`
(server.cpp:593, 601). The sizes and offsets are computed in 32-bit `unsigned int`. -/
def maxRowsFit (B total : ℕ) : Bool :=
  (List.range total).all fun i =>
    decide (i * (B + 1) % 2 ^ 32 + (B + 1) % 2 ^ 32 ≤ total * (B + 1) % 2 ^ 32)

/-- The map built by `max_op` (server.cpp:594-606). `none`: a row is written outside the array, or `B + 1` wraps to 0
(arrays of size 0 are then indexed), or the stream ends early (`ModelCut`). -/
def maxIntake (B total : ℕ) (stream : Bytes) : Option (Map (List U64)) :=
  if B + 1 < 2 ^ 32 ∧ maxRowsFit B total = true then
    (((rdMaxShare B).rep total).run stream).map fun r => admit (fun _ => true) r.1 []
  else none

/-- The whole of `max_op` (server.cpp:585-700) for server 0. -/
def maxOpOp0 (isMax : Bool) (B total : ℕ) (stream : Bytes) : Proc (Ret ℕ) :=
  (Proc.ofOption (maxIntake B total stream)).bind fun m => maxOp0 isMax B total m

/-- The whole of `max_op` for server 1. -/
def maxOpOp1 (B total : ℕ) (stream : Bytes) (ord : Map (List U64) → Map (List U64)) : Proc (Ret ℕ) :=
  (Proc.ofOption (maxIntake B total stream)).bind fun m => maxOp1 B m (ord m)

end Verif
