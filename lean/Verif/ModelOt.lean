import Verif.ModelProc
import Verif.ModelNet

/-!
# Sums and triples by oblivious transfer (ot.cpp)

Loop counters are `unsigned int` in the code; arrays are assumed shorter than 2^32.
-/

namespace Verif

/-- `x` reduced when a modulus is given; modulus 0 stands for 2^64 (ot.cpp:75, 78, 96, 149, 153, 157, 208). -/
def redMod (m x : U64) : U64 := if m = 0#64 then x else x % m

/-- `max = mod == 0 ? UINT64_MAX : mod - 1` (ot.cpp:58, 111). -/
def otMax (m : U64) : U64 := if m = 0#64 then BitVec.allOnes 64 else m - 1#64

/-- A C++ `bool` used as an integer. -/
def b64 (b : Bool) : U64 := if b then 1#64 else 0#64

/-- One row of `bitsum_ot_sender`: the entries of `shares` and `valid` and the draw of ot.cpp:74. -/
structure BitRow where
  share : Bool
  valid : Bool
  raw : U64
  deriving DecidableEq, Repr

/-- The two OT messages of a row (ot.cpp:68-76). -/
def bitPair (m : U64) (r : BitRow) : U64 × U64 :=
  if r.valid then (redMod m r.raw, redMod m r.raw + 1#64 - 2#64 * b64 r.share) else (0#64, 0#64)

/-- One pass of the sender's loop on `sum` (ot.cpp:67-79). -/
def bitAcc (m sum : U64) (r : BitRow) : U64 :=
  if r.valid then redMod m (sum + ((otMax m - redMod m r.raw + 1#64) + b64 r.share)) else sum

/-- `bitsum_ot_sender(ot, shares, valid, n, mod)` (ot.cpp:56-86). -/
def bitsumSender (ch : Bool) (m : U64) (rows : List BitRow) : Proc U64 :=
  (Proc.otPut ch (rows.map (bitPair m))).bind fun _ => .ret (rows.foldl (bitAcc m) 0#64)

/-- `bitsum_ot_receiver(ot, shares, n, mod)` (ot.cpp:88-102). -/
def bitsumReceiver (ch : Bool) (m : U64) (shares : List Bool) : Proc U64 :=
  (Proc.otGet ch shares).bind fun r => .ret (r.foldl (fun s x => redMod m (s + x)) 0#64)

/-- The innermost loop of `intsum_ot_sender` (ot.cpp:141-160) from bit `k` on, with `rem` bits to go. `raw k` is the
draw of ot.cpp:148 for this bit, `acc` is `ret[i][j]`. Returns the OT message pairs and the final `ret[i][j]`. -/
def senderCol (m : U64) (raw : ℕ → U64) : ℕ → ℕ → U64 → U64 → List (U64 × U64) × U64
  | _, 0, _, acc => ([], acc)
  | k, rem + 1, num, acc =>
    let bit := num % 2#64
    let pow := 1#64 <<< k
    let minusPow := otMax m - pow + 1#64
    let b0 := redMod m (raw k)
    let minusB0 := otMax m - b0 + 1#64
    let b1 := redMod m (b0 + if bit ≠ 0#64 then minusPow else pow)
    let rest := senderCol m raw (k + 1) rem (num >>> 1) (redMod m (acc + (bit * (1#64 <<< k) + minusB0)))
    ((b0, b1) :: rest.1, rest.2)

/-- The messages of an invalid row (ot.cpp:128-137). -/
def zeroCols (widths : List ℕ) : List (U64 × U64) := widths.flatMap fun w => List.replicate w (0#64, 0#64)

/-- One row of `intsum_ot_sender` (ot.cpp:124-162): values, validity flag and draws by column and bit. -/
structure IntRow where
  vals : List U64
  valid : Bool
  raw : ℕ → ℕ → U64

/-- The columns of a row from column `j` on (ot.cpp:139-161). -/
def senderCols (m : U64) (raw : ℕ → ℕ → U64) : ℕ → List U64 → List ℕ → List (U64 × U64) × List U64
  | j, v :: vs, w :: ws =>
    let c := senderCol m (raw j) 0 w v 0#64
    let rest := senderCols m raw (j + 1) vs ws
    (c.1 ++ rest.1, c.2 :: rest.2)
  | _, _, _ => ([], [])

/-- One row (ot.cpp:125-161). -/
def senderRow (m : U64) (widths : List ℕ) (r : IntRow) : List (U64 × U64) × List U64 :=
  if r.valid then senderCols m r.raw 0 r.vals widths else (zeroCols widths, widths.map fun _ => 0#64)

/-- `intsum_ot_sender(ot, shares, valid, num_bits, num_shares, num_values, mod)` (ot.cpp:104-170). Undefined when a row
does not have `num_values` entries (out of bounds) or when a valid row has a column wider than 64 bits (shift by 64 or
more, ot.cpp:144). -/
def intsumSender (ch : Bool) (m : U64) (widths : List ℕ) (rows : List IntRow) : Proc (List (List U64)) :=
  if rows.all fun r => !r.valid || (r.vals.length = widths.length && widths.all (· ≤ 64)) then
    (Proc.otPut ch (rows.flatMap fun r => (senderRow m widths r).1)).bind fun _ =>
      .ret (rows.map fun r => (senderRow m widths r).2)
  else .fault

/-- The low `rem` bits of a value, lowest first (ot.cpp:188-193). -/
def valBits : ℕ → U64 → List Bool
  | 0, _ => []
  | rem + 1, num => (num % 2#64 ≠ 0#64) :: valBits rem (num >>> 1)

/-- The choice bits of one row (ot.cpp:187-194). -/
def rowBits (vals : List U64) (widths : List ℕ) : List Bool := (List.zipWith (fun v w => valBits w v) vals widths).flatten

/-- The receiver's accumulation of one row (ot.cpp:205-211); returns also the words not yet used. -/
def recvRow (m : U64) : List ℕ → List U64 → List U64 × List U64
  | [], r => ([], r)
  | w :: ws, r =>
    let rest := recvRow m ws (r.drop w)
    ((r.take w).foldl (fun s x => redMod m (s + x)) 0#64 :: rest.1, rest.2)

/-- The receiver's accumulation of all rows (ot.cpp:201-212). -/
def recvRows (m : U64) (widths : List ℕ) : ℕ → List U64 → List (List U64)
  | 0, _ => []
  | n + 1, r => let a := recvRow m widths r; a.1 :: recvRows m widths n a.2

/-- `intsum_ot_receiver(ot, shares, num_bits, num_shares, num_values, mod)` (ot.cpp:172-215). -/
def intsumReceiver (ch : Bool) (m : U64) (widths : List ℕ) (rows : List (List U64)) : Proc (List (List U64)) :=
  if rows.all fun r => r.length = widths.length then
    (Proc.otGet ch (rows.flatMap fun r => rowBits r widths)).bind fun r => .ret (recvRows m widths rows.length r)
  else .fault

/-- The draws of one server for one Boolean triple (ot.cpp:225-227). -/
structure TripleDraw where
  x : Bool
  y : Bool
  r : Bool
  deriving DecidableEq, Repr

/-- The OT messages for one triple (ot.cpp:233-236). -/
def triplePair (d : TripleDraw) : U64 × U64 := (b64 d.r, b64 (d.x != d.r))

/-- The triple from the draws and the received word (ot.cpp:249, 254). -/
def tripleOf (d : TripleDraw) (b : U64) : BTriple := ⟨d.x, d.y, decide (b ≠ b64 (d.r != (d.x && d.y)))⟩

/-- `gen_boolean_beaver_triples(0, m, ot0, ot1)` (ot.cpp:218-266, lines 238-241). -/
def genTriples0 (ds : List TripleDraw) : Proc (List BTriple) :=
  (Proc.otPut false (ds.map triplePair)).bind fun _ =>
    (Proc.otGet true (ds.map (·.y))).bind fun b => .ret (List.zipWith tripleOf ds b)

/-- `gen_boolean_beaver_triples(1, m, ot0, ot1)` (ot.cpp:218-266, lines 242-245). -/
def genTriples1 (ds : List TripleDraw) : Proc (List BTriple) :=
  (Proc.otGet false (ds.map (·.y))).bind fun b =>
    (Proc.otPut true (ds.map triplePair)).bind fun _ => .ret (List.zipWith tripleOf ds b)

end Verif
