import Verif.ModelBytes
import Verif.ModelConstants

/-!
# net_share.h / net_share.cpp

For every `send_X` the bytes put on the wire (`encX`), for every `recv_X` a reader (`rdX`). The `int` results
(byte counts) are modelled only where they change the behaviour: the early return on 0 in the string functions.
All messages are assumed shorter than 2^31 bytes (the counts are `int`).
-/

namespace Verif

/-- `htonl`/`ntohl` on a little-endian machine: reverse the four bytes. Used at net_share.cpp:71, 78, 83, 90, 95,
102 and in the macros of lines 14-15. -/
def bswap32 (x : BitVec 32) : BitVec 32 := BitVec.ofNat 32 (leVal (leBytes 4 x.toNat).reverse)

/-- The macros `htonll`/`ntohll` (net_share.cpp:14-15):
`((uint64_t)htonl(x & 0xFFFFFFFF) << 32) | htonl(x >> 32)`. -/
def htonll (x : U64) : U64 :=
  ((bswap32 ((x &&& 0xFFFFFFFF#64).setWidth 32)).setWidth 64 <<< 32) ||| (bswap32 ((x >>> 32).setWidth 32)).setWidth 64

/-- `send_bool` (net_share.cpp:31-33). -/
def encBool (b : Bool) : Bytes := [if b then 1#8 else 0#8]
/-- A byte read as a `bool` object: only 0 and 1 are valid representations (net_share.cpp:35-37). -/
def boolOfByte (b : Byte) : Rd Bool := if b = 0#8 then .ret false else if b = 1#8 then .ret true else .bad
/-- `recv_bool` (net_share.cpp:35-37). -/
def rdBool : Rd Bool := .get 1 fun bs => boolOfByte (bs.headD 0#8)

/-- The packed byte number `j` of `send_bool_batch` (net_share.cpp:45-47): bit `i % 8` of byte `i / 8` is toggled
for every set `x[i]`. `i` runs over all indices below `n`. -/
def packByte (x : List Bool) (j : ℕ) : Byte :=
  (List.range x.length).foldl
    (fun acc i => if i / 8 = j ∧ x.getD i false = true then acc ^^^ (1#8 <<< (i % 8)) else acc) 0#8
/-- `send_bool_batch` (net_share.cpp:39-54). -/
def encBools (x : List Bool) : Bytes := (List.range ((x.length + 7) / 8)).map (packByte x)
/-- Bit `i` of a packed buffer (net_share.cpp:63). -/
def unpackBit (buf : Bytes) (i : ℕ) : Bool := (buf.getD (i / 8) 0#8 &&& (1#8 <<< (i % 8))) ≠ 0#8
/-- `recv_bool_batch` (net_share.cpp:56-68). -/
def rdBools (n : ℕ) : Rd (List Bool) := .get ((n + 7) / 8) fun buf => .ret ((List.range n).map (unpackBit buf))

/-- `send_int`, `send_uint32` (net_share.cpp:70-74, 94-98). -/
def encU32 (x : BitVec 32) : Bytes := leBytes 4 (bswap32 x).toNat
/-- `recv_int`, `recv_uint32` (net_share.cpp:76-80, 100-104). -/
def rdU32 : Rd (BitVec 32) := .get 4 fun bs => .ret (bswap32 (BitVec.ofNat 32 (leVal bs)))

/-- `send_size` (net_share.cpp:82-86): `htonl` truncates to 32 bits, the result is sent as 8 bytes. -/
def encSize (x : U64) : Bytes := leBytes 8 ((bswap32 (x.setWidth 32)).setWidth 64).toNat
/-- `recv_size` (net_share.cpp:88-92): `ntohl` truncates the 8 bytes to 32 bits. -/
def rdSize : Rd U64 := .get 8 fun bs => .ret ((bswap32 ((BitVec.ofNat 64 (leVal bs)).setWidth 32)).setWidth 64)

/-- `send_uint64`, `send_ulong` (net_share.cpp:106-110, 126-130). -/
def encU64 (x : U64) : Bytes := leBytes 8 (htonll x).toNat
/-- `recv_uint64`, `recv_ulong` (net_share.cpp:112-116, 132-136). -/
def rdU64 : Rd U64 := .get 8 fun bs => .ret (htonll (BitVec.ofNat 64 (leVal bs)))

/-- A word in host byte order. -/
def rawWord (x : U64) : Bytes := leBytes 8 x.toNat
/-- The `n` words in a buffer of `8 n` bytes, host byte order. -/
def wordsOf : ℕ → Bytes → List U64
  | 0, _ => []
  | n + 1, bs => BitVec.ofNat 64 (leVal (bs.take 8)) :: wordsOf n (bs.drop 8)
/-- `send_uint64_batch`, `send_ulong_batch` (net_share.cpp:118-120, 138-140): host byte order. -/
def encWords (xs : List U64) : Bytes := xs.flatMap rawWord
/-- `recv_uint64_batch`, `recv_ulong_batch` (net_share.cpp:122-124, 142-144). -/
def rdWords (n : ℕ) : Rd (List U64) := .get (8 * n) fun bs => .ret (wordsOf n bs)

/-- `send_string` (net_share.cpp:146-154): result (return value, bytes). A `send` of zero bytes returns 0, which
the code treats as failure. -/
def encString (x : Bytes) : ℤ × Bytes :=
  if x.length = 0 then (0, encSize (BitVec.ofNat 64 x.length))
  else (8 + x.length, encSize (BitVec.ofNat 64 x.length) ++ x)
/-- `recv_string` (net_share.cpp:156-167): result (return value, new value of the variable), given its old value. A
`recv_in` of zero bytes returns 0, which the code treats as failure. -/
def rdString (old : Bytes) : Rd (ℤ × Bytes) :=
  rdSize.bind fun len => .get len.toNat fun buf => if len = 0#64 then .ret (0, old) else .ret (8 + len.toNat, buf)

/-- `send_fmpz` (net_share.cpp:169-186). `fmpz_size(Int_Modulus)` is 1 limb, and
`fmpz_get_ui_array` requires the absolute value to fit: outside that the call writes past the buffer (`none`). -/
def encFmpz (x : ℤ) : Option Bytes := if x.natAbs < 2 ^ 64 then some (leBytes 8 x.natAbs) else none
/-- `recv_fmpz` (net_share.cpp:188-210). -/
def rdFmpz : Rd ℤ := .get 8 fun bs => .ret (leVal bs)

/-- Concatenate encodings; `none` if one of them is undefined. -/
def encAll {α : Type} (enc : α → Option Bytes) : List α → Option Bytes
  | [] => some []
  | x :: xs => match enc x, encAll enc xs with
    | some a, some b => some (a ++ b)
    | _, _ => none

/-- `MAX_FMPZ_BATCH` (net_share.h:37). -/
def maxFmpzBatch : ℕ := 1000000
/-- `MAX_DABIT_BATCH` (net_share.h:38). -/
def maxDabitBatch : ℕ := 320000

theorem maxFmpzBatch_pos : 0 < maxFmpzBatch := by decide
theorem maxDabitBatch_pos : 0 < maxDabitBatch := by decide

/-- `send_fmpz_batch` (net_share.cpp:212-238, fixed-size variant): chunks of `MAX_FMPZ_BATCH`. -/
def encFmpzs (xs : List ℤ) : Option Bytes :=
  if _h : maxFmpzBatch < xs.length then
    match encAll encFmpz (xs.take maxFmpzBatch), encFmpzs (xs.drop maxFmpzBatch) with
    | some a, some b => some (a ++ b)
    | _, _ => none
  else encAll encFmpz xs
termination_by xs.length
decreasing_by have := maxFmpzBatch_pos; simp; omega

/-- The `n` field elements in a buffer of `8 n` bytes (net_share.cpp:264-265). -/
def fmpzsOf (n : ℕ) (bs : Bytes) : List ℤ := (wordsOf n bs).map fun w => (w.toNat : ℤ)
/-- `recv_fmpz_batch` (net_share.cpp:240-267): chunks of `MAX_FMPZ_BATCH`. -/
def rdFmpzs (n : ℕ) : Rd (List ℤ) :=
  if _h : maxFmpzBatch < n then
    .get (8 * maxFmpzBatch) fun bs => (rdFmpzs (n - maxFmpzBatch)).bind fun r => .ret (fmpzsOf maxFmpzBatch bs ++ r)
  else .get (8 * n) fun bs => .ret (fmpzsOf n bs)
termination_by n
decreasing_by have := maxFmpzBatch_pos; omega

/-- `send_Cor`, `send_CorShare` (net_share.cpp:280-287, 298-305). -/
def encCorShare (c : CorShare) : Option Bytes := encAll encFmpz [c.D, c.E]
/-- `recv_Cor`, `recv_CorShare` (net_share.cpp:289-296, 307-314). -/
def rdCorShare : Rd CorShare := rdFmpz.bind fun d => rdFmpz.bind fun e => .ret ⟨d, e⟩
/-- `send_CorShare_batch` (net_share.cpp:316-332): all D, then all E. -/
def encCorShares (cs : List CorShare) : Option Bytes :=
  match encFmpzs (cs.map (·.D)), encFmpzs (cs.map (·.E)) with
  | some a, some b => some (a ++ b)
  | _, _ => none
/-- `recv_CorShare_batch` (net_share.cpp:334-350). -/
def rdCorShares (n : ℕ) : Rd (List CorShare) :=
  (rdFmpzs n).bind fun ds => (rdFmpzs n).bind fun es => .ret (List.zipWith CorShare.mk ds es)

/-- `send_BeaverTriple`, `send_BeaverTripleShare` (net_share.cpp:408-417, 430-439). -/
def encTriple (t : Triple) : Option Bytes := encAll encFmpz [t.A, t.B, t.C]
/-- `recv_BeaverTriple`, `recv_BeaverTripleShare` (net_share.cpp:419-428, 441-450). -/
def rdTriple : Rd Triple := rdFmpz.bind fun a => rdFmpz.bind fun b => rdFmpz.bind fun c => .ret ⟨a, b, c⟩

/-- `struct ClientPacket` (share.h:103-152). `N` and `NMul` are the lengths of the two arrays. -/
structure Packet where
  mulShares : List ℤ
  f0 : ℤ
  g0 : ℤ
  h0 : ℤ
  hPoints : List ℤ
  triple : Triple
  deriving DecidableEq, Repr

/-- `send_ClientPacket` (net_share.cpp:352-378). -/
def encPacket (x : Packet) : Option Bytes :=
  encAll encFmpz (x.mulShares ++ [x.f0, x.g0, x.h0] ++ x.hPoints ++ [x.triple.A, x.triple.B, x.triple.C])
/-- `recv_ClientPacket(.., NMul)` (net_share.cpp:380-406). -/
def rdPacket (nMul : ℕ) : Rd Packet :=
  (rdFmpz.rep nMul).bind fun ms => rdFmpz.bind fun f0 => rdFmpz.bind fun g0 => rdFmpz.bind fun h0 =>
    (rdFmpz.rep (npow2 nMul)).bind fun hs => rdTriple.bind fun t => .ret ⟨ms, f0, g0, h0, hs, t⟩

/-- `struct BooleanBeaverTriple` (share.h:81-90). -/
structure BTriple where
  a : Bool
  b : Bool
  c : Bool
  deriving DecidableEq, Repr

/-- `send_BooleanBeaverTriple` (net_share.cpp:452-455). -/
def encBTriple (t : BTriple) : Bytes := encBools [t.a, t.b, t.c]
/-- `recv_BooleanBeaverTriple` (net_share.cpp:457-464). -/
def rdBTriple : Rd BTriple :=
  (rdBools 3).bind fun l => .ret ⟨l.getD 0 false, l.getD 1 false, l.getD 2 false⟩

/-- `send_DaBit` (net_share.cpp:466-473). -/
def encDaBit (d : DaBit) : Option Bytes := (encFmpz d.bp).map (· ++ encBool d.b2)
/-- `recv_DaBit` (net_share.cpp:475-482). -/
def rdDaBit : Rd DaBit := rdFmpz.bind fun x => rdBool.bind fun b => .ret ⟨x, b⟩

/-- `send_DaBit_batch` (net_share.cpp:484-512): chunks of `MAX_DABIT_BATCH`, in each the modular parts and then the
packed boolean parts. -/
def encDaBits (ds : List DaBit) : Option Bytes :=
  if _h : maxDabitBatch < ds.length then
    match (encFmpzs ((ds.take maxDabitBatch).map (·.bp))).map (· ++ encBools ((ds.take maxDabitBatch).map (·.b2))),
      encDaBits (ds.drop maxDabitBatch) with
    | some a, some b => some (a ++ b)
    | _, _ => none
  else (encFmpzs (ds.map (·.bp))).map (· ++ encBools (ds.map (·.b2)))
termination_by ds.length
decreasing_by have := maxDabitBatch_pos; simp; omega
/-- One chunk of `recv_DaBit_batch` (net_share.cpp:524-540). -/
def rdDaBitChunk (n : ℕ) : Rd (List DaBit) :=
  (rdFmpzs n).bind fun xs => (rdBools n).bind fun bs => .ret (List.zipWith DaBit.mk xs bs)
/-- `recv_DaBit_batch` (net_share.cpp:514-541). -/
def rdDaBits (n : ℕ) : Rd (List DaBit) :=
  if _h : maxDabitBatch < n then
    (rdDaBitChunk maxDabitBatch).bind fun a => (rdDaBits (n - maxDabitBatch)).bind fun b => .ret (a ++ b)
  else rdDaBitChunk n
termination_by n
decreasing_by have := maxDabitBatch_pos; omega

/-- `send_EdaBit` (net_share.cpp:543-550), `nbits` = number of stored bits. -/
def encEdaBit (e : EdaBit) : Option Bytes := (encFmpz e.r).map (· ++ encBools e.b)
/-- `recv_EdaBit` (net_share.cpp:552-559). -/
def rdEdaBit (nbits : ℕ) : Rd EdaBit := rdFmpz.bind fun r => (rdBools nbits).bind fun b => .ret ⟨r, b⟩
/-- `send_EdaBit_batch` (net_share.cpp:561-580). -/
def encEdaBits (es : List EdaBit) : Option Bytes :=
  (encFmpzs (es.map (·.r))).map (· ++ encBools (es.flatMap (·.b)))
/-- Cut a list into `n` pieces of length `k` (net_share.cpp:592-595). -/
def pieces {α : Type} (k : ℕ) : ℕ → List α → List (List α)
  | 0, _ => []
  | n + 1, l => l.take k :: pieces k n (l.drop k)
/-- `recv_EdaBit_batch` (net_share.cpp:582-601). -/
def rdEdaBits (nbits n : ℕ) : Rd (List EdaBit) :=
  (rdFmpzs n).bind fun rs => (rdBools (n * nbits)).bind fun bs =>
    .ret (List.zipWith EdaBit.mk rs (pieces nbits n bs))

end Verif
