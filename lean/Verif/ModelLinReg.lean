import Verif.ModelVar
import Mathlib.LinearAlgebra.Matrix.NonsingularInverse

/-!
# server.cpp: `linreg_op`; circuit.h: `SolveLinReg`; client.cpp: `lin_reg_helper`

The degree arrives on the client connection. The stack array `nbits[num_fields]` (server.cpp:924) is assumed to fit on the
stack. `delete` in place of `delete[]` (server.cpp:1021-1023, 1102-1104) has no effect on values and is not modelled.
-/

namespace Verif

/-- `num_quad` (server.cpp:912). -/
def numQuad (degree : ℕ) : ℕ := (degree - 1) * (degree - 1 + 1) / 2

/-- What a server stores of a submission (server.cpp:919, types.h:36-42). -/
structure LinRow where
  x : List U64
  y : U64
  x2 : List U64
  xy : List U64
  packet : Packet
  deriving DecidableEq, Repr

/-- One submission (server.cpp:937-947, 963): the arrays in host order, `y` in network order. -/
def rdLinShare (degree nMul : ℕ) : Rd (Bytes × LinRow) :=
  .get pkLength fun pk => (rdWords (degree - 1)).bind fun x => rdU64.bind fun y =>
    (rdWords (numQuad degree)).bind fun x2 => (rdWords (degree - 1)).bind fun xy =>
      (rdPacket nMul).bind fun k => .ret (pk, ⟨x, y, x2, xy, k⟩)

/-- `sizes_valid` (server.cpp:935, 949-960); the product is taken modulo 2^64. -/
def linOk (mx : U64) (r : LinRow) : Bool :=
  r.x.all (fun v => !(mx ≤ v)) && r.xy.all (fun v => !(mx * mx ≤ v)) && !(mx ≤ r.y) && r.x2.all fun v => !(mx * mx ≤ v)

/-- The map built by `linreg_op` (server.cpp:922-975). `none` also if the stream ends early (`ModelCut`). -/
def linIntake (degree nMul nbits total : ℕ) (stream : Bytes) : Option (Map LinRow) :=
  (maxVal nbits).bind fun mx => (((rdLinShare degree nMul).rep total).run stream).map fun r => admit (linOk mx) r.1 []

/-- A row of the flat array `shares` (server.cpp:1013-1019, 1094-1100). -/
def LinRow.flat (r : LinRow) : SnipRow := ⟨r.x ++ [r.y] ++ r.x2 ++ r.xy, r.packet⟩

/-- The map with the rows laid out flat. -/
def flatRows (m : Map LinRow) : Map SnipRow := m.map fun e => (e.1, e.2.flat)

/-- `nbits` (server.cpp:924-926). -/
def linWidths (degree nbits : ℕ) : List ℕ := (List.range (numFields degree)).map fun i => nbits * if degree ≤ i then 2 else 1

/-- The row used for an unmatched key at server 0 (server.cpp:1081-1092): uninitialised arrays, `y_val = 0`. -/
def linJunk (degree : ℕ) (u : ℕ → ℕ → U64) (i : ℕ) : List U64 :=
  (List.range (numFields degree)).map fun j => if j = degree - 1 then 0#64 else u i j

/-- The sums of server 1, received one by one (server.cpp:1146-1168). -/
def rdLinSums (degree : ℕ) : Rd (List ℤ × ℤ × List ℤ × List ℤ) :=
  (rdFmpz.rep (degree - 1)).bind fun x => rdFmpz.bind fun y => (rdFmpz.rep (numQuad degree)).bind fun x2 =>
    (rdFmpz.rep (degree - 1)).bind fun xy => .ret (x, y, x2, xy)

/-- `b + a[off + j] mod p` as a 64-bit word, for `j = 0, 1, ..` (server.cpp:1146-1168). -/
def addOwn (a : List ℤ) (off : ℕ) (bs : List ℤ) : List U64 :=
  bs.mapIdx fun j b => BitVec.ofInt 64 (fmod (b + a.getD (off + j) 0) intModulus)

/-! ## SolveLinReg -/

/-- Entry `(i, j)` and, if different, `(j, i)` (circuit.h:289-291, 298-300). -/
def setSym (M : ℕ → ℕ → ℚ) (i j : ℕ) (v : ℚ) : ℕ → ℕ → ℚ := fun a b => if (a = i ∧ b = j) ∨ (a = j ∧ b = i) then v else M a b

/-- First row and column (circuit.h:288-291), from `i` for `n` iterations; `none`: read behind the array. -/
def fillFirst (x : List U64) : ℕ → ℕ → (ℕ → ℕ → ℚ) → Option (ℕ → ℕ → ℚ)
  | 0, _, M => some M
  | n + 1, i, M => (x[i]?).bind fun v => fillFirst x n (i + 1) (setSym M i 0 v.toNat)

/-- The inner loop (circuit.h:297-302) from `j` for `n` iterations. -/
def fillInner (x : List U64) (i : ℕ) : ℕ → ℕ → (ℕ → ℕ → ℚ) × ℕ → Option ((ℕ → ℕ → ℚ) × ℕ)
  | 0, _, st => some st
  | n + 1, j, st => (x[st.2]?).bind fun v => fillInner x i n (j + 1) (setSym st.1 i j v.toNat, st.2 + 1)

/-- The outer loop (circuit.h:296-303) from `i` for `n` iterations. -/
def fillOuter (x : List U64) (degree : ℕ) : ℕ → ℕ → (ℕ → ℕ → ℚ) × ℕ → Option ((ℕ → ℕ → ℚ) × ℕ)
  | 0, _, st => some st
  | n + 1, i, st => (fillInner x i (degree - i) i st).bind fun st => fillOuter x degree n (i + 1) st

/-- `SolveLinReg(degree, x, y)` (circuit.h:265-330), with exact rationals (the code converts to `double` at the end, line 324).
`none`: a read behind an array. `some none`: the matrix is singular; `fmpq_mat_inv` then leaves its output unspecified, a warning is
printed and the result is meaningless. -/
noncomputable def solveLinReg (degree : ℕ) (x y : List U64) : Option (Option (List ℚ)) :=
  (fillFirst x degree 0 fun _ _ => 0).bind fun M => (fillOuter x degree (degree - 1) 1 (M, degree)).bind fun st =>
  if y.length < degree then none else
  let X : Matrix (Fin degree) (Fin degree) ℚ := fun i j => st.1 i j
  let Y : Fin degree → ℚ := fun i => (y.getD i 0#64).toNat
  some (if X.det = 0 then none else some (List.ofFn (X⁻¹.mulVec Y)))

/-! ## linreg_op -/

/-- The whole of `linreg_op` (server.cpp:901-1195) for server 0. `u` is the uninitialised memory. -/
noncomputable def linOp0 (nbits total : ℕ) (stream : Bytes) (coef : ℕ → ℤ) (raw : ℕ → ℕ → ℕ → U64) (u : ℕ → ℕ → U64) (st : SnipState) :
    Proc (Ret (Option (List ℚ)) × SnipState) :=
  (Proc.ofOption (rdSize.run stream)).bind fun dg =>
  let degree := dg.1.toNat
  (Proc.ofOption (checkLinReg intModulus degree)).bind fun c =>
  (Proc.ofOption (linIntake degree c.mulGates.length nbits total dg.2)).bind fun m =>
  (snipOp0 c coef (linWidths degree nbits) raw (linJunk degree u) st (flatRows m)).bind fun a =>
  (rdLinSums degree).toProc.bind fun b =>
  let xAccum := BitVec.ofNat 64 a.2.1 :: addOwn a.1 0 b.1 ++ addOwn a.1 degree b.2.2.1
  let yAccum := addOwn a.1 (degree - 1) [b.2.1] ++ addOwn a.1 (degree + numQuad degree) b.2.2.2
  if belowThreshold a.2.1 total then .ret (.invalid, a.2.2)
  else (Proc.ofOption (solveLinReg degree xAccum yAccum)).bind fun r => .ret (.ans r, a.2.2)

/-- The whole of `linreg_op` for server 1; `ord` gives the iteration order of a map. -/
noncomputable def linOp1 (nbits total : ℕ) (stream : Bytes) (coef : ℕ → ℤ) (raw : ℕ → ℕ → ℕ → U64) (st : SnipState)
    (ord : Map LinRow → Map LinRow) : Proc (Ret (Option (List ℚ)) × SnipState) :=
  (Proc.ofOption (rdSize.run stream)).bind fun dg =>
  let degree := dg.1.toNat
  (Proc.ofOption (checkLinReg intModulus degree)).bind fun c =>
  (Proc.ofOption (linIntake degree c.mulGates.length nbits total dg.2)).bind fun m =>
  (snipOp1 c coef (linWidths degree nbits) raw st (flatRows m) (flatRows (ord m))).bind fun b =>
  (Proc.putOpt (encFmpzs b.1)).bind fun _ => .ret (.noAns, b.2)

/-! ## The client -/

/-- The raw draws of `lin_reg_helper` for one submission, in the order of client.cpp:1048-1053. -/
structure LinDraws where
  xReal : List U64
  xShare : List U64
  x2Share : List U64
  xyShare : List U64
  yReal : U64
  yShare : U64
  deriving DecidableEq, Repr

/-- `x2_real` (client.cpp:1067-1074). -/
def clientQuad (x : List U64) : List U64 :=
  (List.range x.length).flatMap fun j => (List.range' j (x.length - j)).map fun k => x.getD j 0#64 * x.getD k 0#64

/-- `lin_reg_helper` for one submission (client.cpp:1047-1119): values and the two rows. `max_int = 1 << num_bits`; `t` are the
client's root tables after `share_polynomials` has set them up. -/
def clientLin (degree nbits : ℕ) (d : LinDraws) (t : RootTables) (r : SnipRand) : Option (LinRow × LinRow) :=
  let mx : U64 := 1#64 <<< nbits
  let x := d.xReal.map (· % mx)
  let x0 := d.xShare.map (· % mx)
  let x1 := List.zipWith (· ^^^ ·) x0 x
  let y := d.yReal % mx
  let y0 := d.yShare % mx
  let x2 := clientQuad x
  let x20 := d.x2Share.map (· % (mx * mx))
  let xy := x.map (· * y)
  let xy0 := d.xyShare.map (· % (mx * mx))
  (checkLinReg intModulus degree).bind fun c =>
  (c.eval intModulus ((x ++ [y] ++ x2 ++ xy).map (·.toInt))).bind fun e =>
  (sharePolynomials intModulus c e.1 t r).map fun pk =>
    (⟨x0, y0, x20, xy0, pk.1⟩, ⟨x1, y0 ^^^ y, List.zipWith (· ^^^ ·) x20 x2, List.zipWith (· ^^^ ·) xy0 xy, pk.2⟩)

/-- `send_linregshare` and `send_ClientPacket` (client.cpp:77-91, 1143-1147). -/
def encLinShare (e : Bytes × LinRow) : Option Bytes :=
  (encPacket e.2.packet).map fun b => e.1 ++ encWords e.2.x ++ encU64 e.2.y ++ encWords e.2.x2 ++ encWords e.2.xy ++ b

/-- All bytes of a run after the initial message (client.cpp:1139-1147): the degree, then the submissions. -/
def encLinShares (degree : ℕ) (subs : List (Bytes × LinRow)) : Option Bytes :=
  (optAll (subs.map encLinShare)).map fun bs => encSize (BitVec.ofNat 64 degree) ++ bs.flatten

end Verif
