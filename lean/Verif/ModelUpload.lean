import Verif.ModelClient
import Verif.ModelClientSnip
import Verif.ModelMain
import Mathlib.Data.Nat.Digits.Defs

/-!
# client.cpp as a program: the generator, the public keys, and the two byte streams of a run

`CLIENT_BATCH` is true (client.cpp:40), so each operation calls its helper once for all submissions. Printing, timing, connecting and the
`_invalid` variants (debugging only; `ModelInvalid`) are left out.
-/

namespace Verif

/-! ## emp::PRG -/

/-- `emp::PRG` of emp-tool (an external library; trusted as described here): AES with a fixed key in counter mode. `aes` is the
block cipher under the key of this generator; the counter is 64 bits long. `random_bool` makes bits out of the same stream, in a way that depends on
the alignment of its target; it is left open which bits (`bit`, indexed by position, length and index) and how many blocks are used up
(`next`). -/
structure Prg where
  aes : BitVec 128 → BitVec 128
  bit : ℕ → ℕ → ℕ → Bool
  next : ℕ → ℕ → ℕ
  pos : ℕ

namespace Prg

/-- Block number `i` of the stream. -/
def blk (g : Prg) (i : ℕ) : BitVec 128 := g.aes ((BitVec.ofNat 64 i).setWidth 128)

/-- Word `j` of the blocks from position `p` on: two words per block, the low one first. -/
def wordAt (g : Prg) (p j : ℕ) : U64 := (g.blk (p + j / 2)).extractLsb' (64 * (j % 2)) 64

/-- `random_data` for one `uint64_t`: takes a block and uses its first half. -/
def word (g : Prg) : U64 × Prg := (g.wordAt g.pos 0, { g with pos := g.pos + 1 })

/-- `random_data` for `k` words: whole blocks, and one more for a remainder. -/
def words (g : Prg) (k : ℕ) : List U64 × Prg := ((List.range k).map (g.wordAt g.pos), { g with pos := g.pos + (k + 1) / 2 })

/-- `random_bool` for `n` bits. -/
def bools (g : Prg) (n : ℕ) : List Bool × Prg := ((List.range n).map (g.bit g.pos n), { g with pos := g.next g.pos n })

/-- `random_bool` for one bit. -/
def bool (g : Prg) : Bool × Prg := (g.bit g.pos 1 0, { g with pos := g.next g.pos 1 })

end Prg

/-! ## Keys -/

/-- A lower-case hexadecimal digit as an ASCII character. -/
def hexDigit (d : ℕ) : Byte := if d < 10 then BitVec.ofNat 8 (48 + d) else BitVec.ofNat 8 (87 + d)

/-- `<< std::hex << x`: no leading zeros, `0` for zero. -/
def hexWord (n : ℕ) : Bytes := if n = 0 then [hexDigit 0] else ((Nat.digits 16 n).reverse).map hexDigit

/-- `<< std::setfill('0') << std::setw(16)`: fill on the left up to 16 characters; longer output is not cut. -/
def setw16 (s : Bytes) : Bytes := List.replicate (16 - s.length) (hexDigit 0) ++ s

/-- `pub_key_to_hex` (client.cpp:48-53), called on the two halves of a block, the low one first. -/
def pubKeyToHex (b : BitVec 128) : Bytes :=
  setw16 (hexWord (b.extractLsb' 0 64).toNat) ++ setw16 (hexWord (b.extractLsb' 64 64).toNat)

/-- `make_pk` (client.cpp:55-59). The generator is passed by value: the caller's generator does not move on. -/
def makePk (g : Prg) : Bytes := pubKeyToHex (g.blk g.pos)

/-! ## One submission -/

/-- The local variables of one round of a loop over the submissions that matter afterwards. -/
structure Row (ρ α : Type) where
  pk : Bytes
  real : ρ
  share0 : α
  share1 : α

/-- The loop over the submissions (client.cpp:113-130, 242-258, 378-403, 559-593, 1421-1439): `one` is the part of the body before
`make_pk`. -/
def uploadLoop {ρ α : Type} (one : Prg → (ρ × α × α) × Prg) : ℕ → Prg → List (Row ρ α)
  | 0, _ => []
  | n + 1, g => ⟨makePk (one g).2, (one g).1.1, (one g).1.2.1, (one g).1.2.2⟩ :: uploadLoop one n (one g).2

/-- `bit_sum_helper` (client.cpp:114-116). -/
def bitOne (g : Prg) : (Bool × Bool × Bool) × Prg :=
  let real := g.bool
  let share0 := real.2.bool
  ((real.1, clientBit real.1 share0.1), share0.2)

/-- `int_sum_helper` (client.cpp:243-247). -/
def intOne (nbits : ℕ) (g : Prg) : (U64 × U64 × U64) × Prg :=
  let real := g.word
  let share0 := real.2.word
  (clientInt nbits real.1 share0.1, share0.2)

/-- `xor_op_helper` (client.cpp:379-393): the random word is drawn only if it is used. -/
def xorOne (isAnd : Bool) (g : Prg) : ((Bool × U64) × U64 × U64) × Prg :=
  let value := g.bool
  let rand := if value.1 = isAnd then (0#64, value.2) else value.2.word
  let share0 := rand.2.word
  (((value.1, rand.1), clientXor isAnd value.1 rand.1 share0.1), share0.2)

/-- `max_op_helper` (client.cpp:560-581). `B` is an `unsigned int` and `B + 1` does not wrap (`max_int` is a power of two); the value
is below 2^32. -/
def maxOne (isMax : Bool) (B : ℕ) (g : Prg) : ((ℕ × List U64) × List U64 × List U64) × Prg :=
  let value := g.word
  let v := value.1.toNat % (B + 1)
  let enc := value.2.words (B + 1)
  let share0 := enc.2.words (B + 1)
  (((v, enc.1), clientMax isMax B v (fun j => enc.1.getD j 0#64) (fun j => share0.1.getD j 0#64)), share0.2)

/-- `freq_helper` (client.cpp:1422-1433). -/
def freqOne (nbits : ℕ) (g : Prg) : (U64 × List Bool × List Bool) × Prg :=
  let real := g.word
  let arr := real.2.bools (1#64 <<< nbits : U64).toNat
  ((real.1 % (1#64 <<< nbits), clientFreq nbits real.1 arr.1), arr.2)

/-- `var_op_helper` (client.cpp:767-797) for submission `i`; the polynomials are shared with draws `r i` of the FLINT generator, and
`t` are the root tables of the process. -/
def varOne (nbits : ℕ) (t : RootTables) (r : SnipRand) (g : Prg) : Option (U64 × SnipRow × SnipRow) × Prg :=
  let real := g.word
  let share0 := real.2.word
  let share02 := share0.2.word
  (clientVar nbits real.1 share0.1 share02.1 t r, share02.2)

/-- The draws of one submission of `lin_reg_helper` (client.cpp:1048-1053); `num_x = degree - 1`. -/
def linDraws (degree : ℕ) (g : Prg) : LinDraws × Prg :=
  let x := g.words (degree - 1)
  let x0 := x.2.words (degree - 1)
  let x20 := x0.2.words (numQuad degree)
  let xy0 := x20.2.words (degree - 1)
  let y := xy0.2.word
  let y0 := y.2.word
  (⟨x.1, x0.1, x20.1, xy0.1, y.1, y0.1⟩, y0.2)

/-- The loop of `var_op_helper` (client.cpp:766-799); `rs i` are the FLINT draws of submission `i`. -/
def varLoop (nbits : ℕ) (t : RootTables) : List SnipRand → Prg → Option (List (Row U64 SnipRow))
  | [], _ => some []
  | r :: rs, g => (varOne nbits t r g).1.bind fun o => (varLoop nbits t rs (varOne nbits t r g).2).map fun l =>
      ⟨makePk (varOne nbits t r g).2, o.1, o.2.1, o.2.2⟩ :: l

/-- The loop of `lin_reg_helper` (client.cpp:1047-1119). -/
def linLoop (degree nbits : ℕ) (t : RootTables) : List SnipRand → Prg → Option (List (Row LinDraws LinRow))
  | [], _ => some []
  | r :: rs, g => (clientLin degree nbits (linDraws degree g).1 t r).bind fun o => (linLoop degree nbits t rs (linDraws degree g).2).map fun l =>
      ⟨makePk (linDraws degree g).2, (linDraws degree g).1, o.1, o.2⟩ :: l

/-! ## What a run sends and prints -/

/-- The submissions sent to the two servers. -/
def sent0 {ρ α : Type} (rows : List (Row ρ α)) : List (Bytes × α) := rows.map fun r => (r.pk, r.share0)
/-- The submissions sent to server 1. -/
def sent1 {ρ α : Type} (rows : List (Row ρ α)) : List (Bytes × α) := rows.map fun r => (r.pk, r.share1)

/-- The `initMsg` of a run with `n` submissions (client.cpp:155-157, 283-285, 429-438, 627-638, 838-849, 1188-1190, 1470-1473).
`mx` is `max_inp`: uninitialised memory unless the operation sets it. -/
def initMsg (t : BitVec 32) (n : ℕ) (mx : BitVec 32) : InitMsg := ⟨t, BitVec.ofNat 32 n, mx⟩

/-- The bytes of the `BitShare` structures (types.h:6-9). -/
def bitBytes (subs : List (Bytes × Bool)) : Bytes := (subs.map fun e => e.1 ++ encBool e.2).flatten

/-- The bytes of the `IntShare` structures (types.h:12-15): no padding. -/
def intBytes (subs : List (Bytes × U64)) : Bytes := (subs.map fun e => e.1 ++ rawWord e.2).flatten

/-- `send_maxshare` for all submissions (client.cpp:61-68). -/
def maxBytes (subs : List (Bytes × List U64)) : Bytes := (subs.map fun e => e.1 ++ encWords e.2).flatten

/-- The number printed by `bit_sum` (client.cpp:117, 168): an `unsigned int`. -/
def bitAns (rows : List (Row Bool Bool)) : BitVec 32 := rows.foldl (fun s r => s + if r.real then 1#32 else 0#32) 0#32

/-- The number printed by `int_sum` (client.cpp:248, 296). -/
def intAns (rows : List (Row U64 U64)) : U64 := rows.foldl (fun s r => s + r.real) 0#64

/-- The value printed by `xor_op` (client.cpp:380-391, 431-437). -/
def xorAns (isAnd : Bool) (rows : List (Row (Bool × U64) U64)) : Bool :=
  rows.foldl (fun s r => if isAnd then s && r.real.1 else s || r.real.1) isAnd

/-- The value printed by `max_op` (client.cpp:563-566, 630-636). -/
def maxAns (isMax : Bool) (B : ℕ) (rows : List (Row (ℕ × List U64) (List U64))) : ℕ :=
  rows.foldl (fun s r => if isMax then (if s < r.real.1 then r.real.1 else s) else (if r.real.1 < s then r.real.1 else s)) (if isMax then 0 else B)

/-- The counts printed by `freq_op` (client.cpp:1424, 1484-1485). -/
def freqAns (nbits : ℕ) (rows : List (Row U64 (List Bool))) : List ℕ :=
  rows.foldl (fun s r => s.set r.real.toNat (s.getD r.real.toNat 0 + 1)) (List.replicate (2 ^ nbits) 0)

/-- `bit_sum` (client.cpp:152-170): the two streams and the printed answer. -/
def bitSumClient (n : ℕ) (mx : BitVec 32) (g : Prg) : Bytes × Bytes × BitVec 32 :=
  let rows := uploadLoop bitOne n g
  (encInit (initMsg 1#32 n mx) ++ bitBytes (sent0 rows), encInit (initMsg 1#32 n mx) ++ bitBytes (sent1 rows), bitAns rows)

/-- `int_sum` (client.cpp:280-298). -/
def intSumClient (nbits n : ℕ) (mx : BitVec 32) (g : Prg) : Bytes × Bytes × U64 :=
  let rows := uploadLoop (intOne nbits) n g
  (encInit (initMsg 2#32 n mx) ++ intBytes (sent0 rows), encInit (initMsg 2#32 n mx) ++ intBytes (sent1 rows), intAns rows)

/-- `xor_op` (client.cpp:426-451). -/
def xorClient (isAnd : Bool) (n : ℕ) (mx : BitVec 32) (g : Prg) : Bytes × Bytes × Bool :=
  let rows := uploadLoop (xorOne isAnd) n g
  let m := encInit (initMsg (if isAnd then 3#32 else 4#32) n mx)
  (m ++ intBytes (sent0 rows), m ++ intBytes (sent1 rows), xorAns isAnd rows)

/-- `max_op` (client.cpp:622-651): `B = max_int`, cut to 32 bits for the helper and the message. -/
def maxClient (isMax : Bool) (nbits n : ℕ) (g : Prg) : Bytes × Bytes × ℕ :=
  let B32 := ((1#64 <<< nbits : U64).setWidth 32 : BitVec 32)
  let rows := uploadLoop (maxOne isMax B32.toNat) n g
  let m := encInit (initMsg (if isMax then 5#32 else 6#32) n B32)
  (m ++ maxBytes (sent0 rows), m ++ maxBytes (sent1 rows), maxAns isMax (1#64 <<< nbits : U64).toNat rows)

/-- `freq_op` (client.cpp:1466-1488). -/
def freqClient (nbits n : ℕ) (g : Prg) : Bytes × Bytes × List ℕ :=
  let rows := uploadLoop (freqOne nbits) n g
  let m := encInit (initMsg 10#32 n ((1#64 <<< nbits : U64).setWidth 32))
  (m ++ encFreqShares (sent0 rows), m ++ encFreqShares (sent1 rows), freqAns nbits rows)

/-- The answer printed by `var_op` (client.cpp:775-779, 836, 857-863): sums of `uint64_t`, then `double`s: `1. * sum / numreqs` converts the sum
and the count, multiplies and divides. `none`: not a number (no submissions, or the root of a negative number). -/
noncomputable def varPrinted (fma std : Bool) (vals : List U64) : Option ℝ :=
  if vals.length = 0 then none else
  let ex := rnd (rnd (1 * rnd (vals.foldl (fun s v => s + v) 0#64).toNat) / rnd vals.length)
  let ex2 := rnd (rnd (1 * rnd (vals.foldl (fun s v => s + v * v) 0#64).toNat) / rnd vals.length)
  let v := subSquare fma ex2 ex
  if std then (if v < 0 then none else some (rnd (Real.sqrt v))) else some v

/-- `var_op` (client.cpp:832-870): the two streams and the printed answer; `none`: undefined. More than 31 bits are refused (line 833). -/
noncomputable def varClient (fma std : Bool) (nbits : ℕ) (t : RootTables) (rs : List SnipRand) (mx : BitVec 32) (g : Prg) :
    Option (Bytes × Bytes × Option ℝ) :=
  (varLoop nbits t rs g).bind fun rows =>
  let m := encInit (initMsg (if std then 8#32 else 7#32) rs.length mx)
  (encVarShares (sent0 rows)).bind fun b0 => (encVarShares (sent1 rows)).map fun b1 => (m ++ b0, m ++ b1, varPrinted fma std (rows.map (·.real)))

/-- `x_accum` and `y_accum` of the client (client.cpp:1055-1079, 1122, 1182-1185): `uint64_t` sums of `1, x_j, x_j x_k` and `y, x_j y`. The
count is added once, after the loop. All rows have `degree - 1` features, so `zipWith` cuts nothing off. -/
def linSums (degree nbits : ℕ) (ds : List LinDraws) : List U64 × List U64 :=
  let s := ds.foldl (fun s d =>
      let x := d.xReal.map (· % (1#64 <<< nbits))
      let y := d.yReal % (1#64 <<< nbits)
      (List.zipWith (· + ·) s.1 (0#64 :: (x ++ clientQuad x)), List.zipWith (· + ·) s.2 (y :: x.map (· * y))))
    (List.replicate (degree - 1 + numQuad degree + 1) 0#64, List.replicate (degree - 1 + 1) 0#64)
  (s.1.set 0 (s.1.getD 0 0#64 + BitVec.ofNat 64 ds.length), s.2)

/-- `lin_reg` (client.cpp:1171-1219): the two streams and the printed coefficients (`none` inside: the matrix is singular). -/
noncomputable def linClient (degree nbits : ℕ) (t : RootTables) (rs : List SnipRand) (mx : BitVec 32) (g : Prg) :
    Option (Bytes × Bytes × Option (List ℚ)) :=
  (linLoop degree nbits t rs g).bind fun rows =>
  let m := encInit (initMsg 9#32 rs.length mx)
  (encLinShares degree (sent0 rows)).bind fun b0 => (encLinShares degree (sent1 rows)).bind fun b1 =>
  (solveLinReg degree (linSums degree nbits (rows.map (·.real))).1 (linSums degree nbits (rows.map (·.real))).2).map fun c => (m ++ b0, m ++ b1, c)

end Verif
