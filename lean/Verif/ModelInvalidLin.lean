import Verif.ModelInvalidVar

/-!
# The debugging client for LINREG (`lin_reg_invalid`, client.cpp:1220-1408)

The degree is 2: one feature and the label. Simplified as in ModelInvalid: printing and allocation are left out, and `unsigned int i` does not wrap.
-/

namespace Verif

/-- The six words drawn for a client of `lin_reg_invalid`. -/
structure LinSix where
  x : U64
  x0 : U64
  y : U64
  y0 : U64
  x20 : U64
  xy0 : U64
  deriving DecidableEq, Repr

/-- The draws for one client, one call of `random_data` each (client.cpp:1267-1272). -/
def linSix (g : Prg) : LinSix × Prg :=
  let x := g.word
  let x0 := x.2.word
  let y := x0.2.word
  let y0 := y.2.word
  let x20 := y0.2.word
  let xy0 := x20.2.word
  (⟨x.1, x0.1, y.1, y0.1, x20.1, xy0.1⟩, xy0.2)

/-- The generator when the loop comes to client `i` (client.cpp:1266); `make_pk` gets a copy. -/
def sixGen (g : Prg) : ℕ → Prg
  | 0 => g
  | i + 1 => (linSix (sixGen g i)).2

/-- The words of client `i`. -/
def sixAt (g : Prg) (i : ℕ) : LinSix := (linSix (sixGen g i)).1

/-- `make_pk(prg)` for client `i` (client.cpp:1299). -/
def sixKey (g : Prg) (i : ℕ) : Bytes := makePk (linSix (sixGen g i)).2

/-- `x_real` (client.cpp:1274-1276): too large for client 0. -/
def badX (nbits : ℕ) (d : ℕ → LinSix) (i : ℕ) : U64 := (d i).x % (1#64 <<< nbits) + if i = 0 then 1#64 <<< nbits else 0#64

/-- `y_real` (client.cpp:1280). -/
def badY (nbits : ℕ) (d : ℕ → LinSix) (i : ℕ) : U64 := (d i).y % (1#64 <<< nbits)

/-- `x2_real` (client.cpp:1285-1287): wrong for client 3. -/
def badX2 (nbits : ℕ) (d : ℕ → LinSix) (i : ℕ) : U64 :=
  let v := badX nbits d i
  if i = 3 then (v * v + 10#64) % ((1#64 <<< nbits) * (1#64 <<< nbits)) else v * v

/-- `xy_real` (client.cpp:1292-1294): wrong for client 4. -/
def badXY (nbits : ℕ) (d : ℕ → LinSix) (i : ℕ) : U64 :=
  let v := badX nbits d i * badY nbits d i
  if i = 4 then (v + 10#64) % ((1#64 <<< nbits) * (1#64 <<< nbits)) else v

/-- The shares for server 0: `x_share0` (client.cpp:1277), `y_share0` (1281-1282, not reduced for client 1), `x2_share0` (1288-1289, not reduced for
client 2), `xy_share0` (1295); the packet is `pk`. -/
def linBad0 (nbits : ℕ) (d : ℕ → LinSix) (i : ℕ) (pk : Packet) : LinRow :=
  let mx : U64 := 1#64 <<< nbits
  ⟨[(d i).x0 % mx], if i ≠ 1 then (d i).y0 % mx else (d i).y0, [if i ≠ 2 then (d i).x20 % (mx * mx) else (d i).x20], [(d i).xy0 % (mx * mx)], pk⟩

/-- The shares for server 1 (client.cpp:1278, 1283, 1290, 1296). -/
def linBad1 (nbits : ℕ) (d : ℕ → LinSix) (i : ℕ) (pk : Packet) : LinRow :=
  let r := linBad0 nbits d i pk
  ⟨r.x.map (· ^^^ badX nbits d i), r.y ^^^ badY nbits d i, r.x2.map (· ^^^ badX2 nbits d i), r.xy.map (· ^^^ badXY nbits d i), pk⟩

instance : Inhabited LinRow := ⟨[], 0#64, [], [], ⟨[], 0, 0, 0, [], ⟨0, 0, 0⟩⟩⟩

/-- Client `i` (client.cpp:1267-1346), without its key. What is done to the packets (1339-1346) is as in `var_op_invalid`; `NMul` is 2. `inp[3]` is right for
client 4 too (1330-1331). `none`: `share_polynomials` fails. -/
def linBad (nbits : ℕ) (t : RootTables) (rand : ℕ → SnipRand) (d : ℕ → LinSix) (i : ℕ) : Option (LinRow × LinRow) :=
  let inp := [badX nbits d i, badY nbits d i, badX2 nbits d i, if i = 4 then badX nbits d i * badY nbits d i else badXY nbits d i]
  (checkLinReg intModulus 2).bind fun c =>
  (c.eval intModulus (inp.map (·.toInt))).bind fun e =>
  (sharePolynomials intModulus c e.1 t (rand i)).map fun pk =>
    (linBad0 nbits d i (tamper i pk).1, linBad1 nbits d i (tamper i pk).2)

/-- `x_accum`, `y_accum` (client.cpp:1240-1243, 1349-1359). -/
def linTotals (nbits : ℕ) (d : ℕ → LinSix) (n : ℕ) : List U64 × List U64 :=
  (List.range n).foldl (fun s i => if i ≤ 9 ∨ i = 11 ∨ i = 13 then s else
    (List.zipWith (· + ·) s.1 [1#64, badX nbits d i, badX2 nbits d i], List.zipWith (· + ·) s.2 [badY nbits d i, badXY nbits d i]))
    ([0#64, 0#64, 0#64], [0#64, 0#64])

/-- `lin_reg_invalid` (client.cpp:1234-1408): the two streams and the coefficients printed (`some none`: the matrix is singular, `solveLinReg`). `none`:
undefined, among others the division by `max_int * max_int` if that is zero (the test for more than 31 bits at client.cpp:1172 is missing here). -/
noncomputable def linInvalid (nbits : ℕ) (t : RootTables) (rand : ℕ → SnipRand) (stale : Stale) (n : ℕ) (mx : BitVec 32) (g : Prg) :
    Option (Bytes × Bytes × Option (List ℚ)) :=
  if 0 < n ∧ (1#64 <<< nbits : U64) * (1#64 <<< nbits) = 0#64 then none else
  let d := sixAt g
  let m := encInit (initMsg 9#32 n mx)
  (optAll ((List.range n).map (linBad nbits t rand d))).bind fun rows =>
  (badSubs (spoilC.key0 stale (sixKey g)) (fun i => (rows.getD i default).1) n).bind fun a =>
  (badSubs (spoilC.key1 stale (sixKey g)) (fun i => (rows.getD i default).2) n).bind fun b =>
  (encLinShares 2 a).bind fun b0 => (encLinShares 2 b).bind fun b1 =>
  (solveLinReg 2 (linTotals nbits d n).1 (linTotals nbits d n).2).map fun q => (m ++ b0, m ++ b1, q)

end Verif
