import Verif.ModelUpload

/-!
# The debugging clients of client.cpp

With `DEBUG_INVALID` set (client.cpp:37), the client program runs `bit_sum_invalid`, `int_sum_invalid`, `xor_op_invalid`, `max_op_invalid` in place of the
normal uploads: some clients are made invalid on purpose, and the answer printed leaves them out. `var_op_invalid` is in `ModelInvalidVar`; `lin_reg_invalid` in `ModelInvalidLin`.

Simplified: printing and the size of the automatic arrays (`numreqs` entries each) are left out. `unsigned int i` does not wrap: fewer than 2^32
submissions.
-/

namespace Verif

/-- `random_block` of `n` blocks. -/
def Prg.blocks (g : Prg) (n : ℕ) : List (BitVec 128) × Prg := ((List.range n).map fun i => g.blk (g.pos + i), { g with pos := g.pos + n })

/-- Which keys are spoiled: at server 0 the first character of the key of client `mis` is replaced, and client `dup0` gets the key of the client
before; at server 1 client `dup1` does. -/
structure Spoil where
  mis : ℕ
  dup0 : ℕ
  dup1 : ℕ

/-- client.cpp:212-215, 219-220 (BIT_SUM), 523-526, 530-531 (AND, OR), 724-727, 731-732 (MAX, MIN). -/
def spoilA : Spoil := ⟨0, 2, 4⟩

/-- client.cpp:347-350, 354-355 (INT_SUM). -/
def spoilB : Spoil := ⟨2, 4, 6⟩

/-- The first character `'q'` (client.cpp:213, 348, 524, 725). -/
def misspell (pk : Bytes) : Bytes := 0x71#8 :: pk.drop 1

/-- What a read of `PK_LENGTH` bytes through `prev_pk` gives. `prev_pk = pk_str.c_str()` is taken before `pk_str` is assigned
(client.cpp:197-198, 337-338, 517-518, 718-719); the assignment makes the pointer invalid, and the reads (lines 215, 220, 350, 355, 526, 531, 727, 732) come
after it. So in the program as it is, every read is undefined. -/
abbrev Stale := ℕ → Option Bytes

/-- The program as it is. -/
def Stale.real : Stale := fun _ => none

/-- What the author of the comments at client.cpp:172-175, 300-305, 454-457, 653-656 has in mind: the key of the client before. -/
def Stale.meant (key : ℕ → Bytes) : Stale := fun i => some (key (i - 1))

/-- The key of client `i` at server 0. -/
def Spoil.key0 (s : Spoil) (stale : Stale) (key : ℕ → Bytes) (i : ℕ) : Option Bytes :=
  if i = s.dup0 then stale i else some (if i = s.mis then misspell (key i) else key i)

/-- The key of client `i` at server 1. -/
def Spoil.key1 (s : Spoil) (stale : Stale) (key : ℕ → Bytes) (i : ℕ) : Option Bytes := if i = s.dup1 then stale i else some (key i)

/-- The submissions of the loop, for one server. -/
def badSubs {α : Type} (key : ℕ → Option Bytes) (share : ℕ → α) (n : ℕ) : Option (List (Bytes × α)) :=
  optAll ((List.range n).map fun i => (key i).map fun k => (k, share i))

/-- The draws of `bit_sum_invalid` (client.cpp:188-191): keys, bits, shares. -/
def bitDraws (n : ℕ) (g : Prg) : (ℕ → Bytes) × (ℕ → Bool) × (ℕ → Bool) :=
  let b := g.blocks n
  let real := b.2.bools n
  let sh := real.2.bools n
  (fun i => pubKeyToHex (b.1.getD i 0#128), fun i => real.1.getD i false, fun i => sh.1.getD i false)

/-- `bit_sum_invalid` (client.cpp:176-228): the two streams and the answer printed, an `int`. -/
def bitSumInvalid (stale : Stale) (n : ℕ) (mx : BitVec 32) (g : Prg) : Option (Bytes × Bytes × BitVec 32) :=
  let d := bitDraws n g
  (badSubs (spoilA.key0 stale d.1) d.2.2 n).bind fun a => (badSubs (spoilA.key1 stale d.1) (fun i => d.2.1 i ^^ d.2.2 i) n).map fun b =>
    (encInit (initMsg 1#32 n mx) ++ bitBytes a, encInit (initMsg 1#32 n mx) ++ bitBytes b,
      (List.range n).foldl (fun s i => if i = 0 ∨ i = 2 ∨ i = 4 then s else s + if d.2.1 i then 1#32 else 0#32) 0#32)

/-- The draws of `int_sum_invalid` (client.cpp:319-322): keys, values, shares, the latter two not reduced yet. -/
def intDraws (n : ℕ) (g : Prg) : (ℕ → Bytes) × (ℕ → U64) × (ℕ → U64) :=
  let b := g.blocks n
  let real := b.2.words n
  let sh := real.2.words n
  (fun i => pubKeyToHex (b.1.getD i 0#128), fun i => real.1.getD i 0#64, fun i => sh.1.getD i 0#64)

/-- `real_vals[i]` (client.cpp:326-327): not reduced for client 0. -/
def intReal (nbits : ℕ) (r : ℕ → U64) (i : ℕ) : U64 := if i ≠ 0 then r i % (1#64 <<< nbits) else r i

/-- `shares0[i]` (client.cpp:328-329): not reduced for client 1. -/
def intShare0 (nbits : ℕ) (s : ℕ → U64) (i : ℕ) : U64 := if i ≠ 1 then s i % (1#64 <<< nbits) else s i

/-- `int_sum_invalid` (client.cpp:306-364). -/
def intSumInvalid (nbits : ℕ) (stale : Stale) (n : ℕ) (mx : BitVec 32) (g : Prg) : Option (Bytes × Bytes × U64) :=
  let d := intDraws n g
  let real := intReal nbits d.2.1
  let sh := intShare0 nbits d.2.2
  (badSubs (spoilB.key0 stale d.1) sh n).bind fun a => (badSubs (spoilB.key1 stale d.1) (fun i => real i ^^^ sh i) n).map fun b =>
    (encInit (initMsg 2#32 n mx) ++ intBytes a, encInit (initMsg 2#32 n mx) ++ intBytes b,
      (List.range n).foldl (fun s i => if i ≤ 2 ∨ i = 4 ∨ i = 6 then s else s + real i) 0#64)

/-- The draws of `xor_op_invalid` (client.cpp:480-485): keys, values, words, shares. -/
def xorDraws (n : ℕ) (g : Prg) : (ℕ → Bytes) × (ℕ → Bool) × (ℕ → U64) × (ℕ → U64) :=
  let b := g.blocks n
  let v := b.2.bools n
  let w := v.2.words n
  let sh := w.2.words n
  (fun i => pubKeyToHex (b.1.getD i 0#128), fun i => v.1.getD i false, fun i => w.1.getD i 0#64, fun i => sh.1.getD i 0#64)

/-- `encoded_values[i]` (client.cpp:500-508). -/
def xorWord (isAnd : Bool) (v : ℕ → Bool) (w : ℕ → U64) (i : ℕ) : U64 :=
  if isAnd then (if v i then 0#64 else w i) else (if !v i then 0#64 else w i)

/-- `xor_op_invalid` (client.cpp:458-540). -/
def xorInvalid (isAnd : Bool) (stale : Stale) (n : ℕ) (mx : BitVec 32) (g : Prg) : Option (Bytes × Bytes × Bool) :=
  let d := xorDraws n g
  let m := encInit (initMsg (if isAnd then 3#32 else 4#32) n mx)
  (badSubs (spoilA.key0 stale d.1) d.2.2.2 n).bind fun a =>
  (badSubs (spoilA.key1 stale d.1) (fun i => xorWord isAnd d.2.1 d.2.2.1 i ^^^ d.2.2.2 i) n).map fun b =>
    (m ++ intBytes a, m ++ intBytes b,
      (List.range n).foldl (fun s i => if i = 0 ∨ i = 2 ∨ i = 4 then s else if isAnd then s && d.2.1 i else s || d.2.1 i) isAnd)

/-- A client of `max_op_invalid`: value, words drawn, shares. -/
structure MaxRow where
  value : ℕ
  rand : List U64
  share0 : List U64
  share1 : List U64
  deriving Inhabited

/-- The loop of `max_op_invalid` (client.cpp:688-716), without the keys; the values have been drawn before. -/
def maxRows (isMax : Bool) (B : ℕ) : List U64 → Prg → List MaxRow
  | [], _ => []
  | w :: ws, g =>
    let v := w.toNat % (B + 1)
    let enc := g.words (B + 1)
    let sh := enc.2.words (B + 1)
    let s := clientMax isMax B v (fun j => enc.1.getD j 0#64) fun j => sh.1.getD j 0#64
    ⟨v, enc.1, s.1, s.2⟩ :: maxRows isMax B ws sh.2

/-- The draws of `max_op_invalid`: keys (client.cpp:674-675), rows (677-716). -/
def maxDraws (isMax : Bool) (B n : ℕ) (g : Prg) : (ℕ → Bytes) × (ℕ → MaxRow) :=
  let b := g.blocks n
  let v := b.2.words n
  (fun i => pubKeyToHex (b.1.getD i 0#128), fun i => (maxRows isMax B v.1 v.2).getD i default)

/-- `max_op_invalid` (client.cpp:657-742), `B = 250`. -/
def maxInvalid (isMax : Bool) (stale : Stale) (n : ℕ) (g : Prg) : Option (Bytes × Bytes × ℕ) :=
  let d := maxDraws isMax 250 n g
  let m := encInit (initMsg (if isMax then 5#32 else 6#32) n 250#32)
  (badSubs (spoilA.key0 stale d.1) (fun i => (d.2 i).share0) n).bind fun a =>
  (badSubs (spoilA.key1 stale d.1) (fun i => (d.2 i).share1) n).map fun b =>
    (m ++ maxBytes a, m ++ maxBytes b,
      (List.range n).foldl (fun s i => if i = 0 ∨ i = 2 ∨ i = 4 then s else
        if isMax then (if s < (d.2 i).value then (d.2 i).value else s) else (if (d.2 i).value < s then (d.2 i).value else s)) (if isMax then 0 else 250))

end Verif
