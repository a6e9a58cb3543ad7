import Verif.ModelShare

/-!
# circuit.h: arithmetic circuits

A `Gate*` is the position of the gate in `gates`. All gates are created in the constructor or in `AddCheckMulEqual`, which
push them in the order used here. A reference to a gate without wire value yet (parent at or behind the gate itself, or no
such gate) is the outcome `none`; the code would use a stale value or an invalid pointer.
-/

namespace Verif

/-- `struct Gate` with `enum GateType` (circuit.h:17-45); constants are in `Constant`. -/
inductive Gate where
  | input
  | add (l r : ℕ)
  | addConst (l : ℕ) (c : ℤ)
  | mul (l r : ℕ)
  | mulConst (l : ℕ) (c : ℤ)
  deriving DecidableEq, Repr

/-- `struct Circuit` (circuit.h:56-62): `gates`, `result_zero`, `mul_gates`. -/
structure Circuit where
  gates : List Gate
  resultZero : List ℕ
  mulGates : List ℕ
  deriving DecidableEq, Repr

/-- `addGate` (circuit.h:80-84). -/
def Circuit.addGate (c : Circuit) (g : Gate) : Circuit :=
  match g with
  | .mul _ _ => ⟨c.gates ++ [g], c.resultZero, c.mulGates ++ [c.gates.length]⟩
  | _ => ⟨c.gates ++ [g], c.resultZero, c.mulGates⟩

/-- `addZeroGate` (circuit.h:86-88). -/
def Circuit.addZeroGate (c : Circuit) (i : ℕ) : Circuit := ⟨c.gates, c.resultZero ++ [i], c.mulGates⟩

/-- `Circuit(num_inputs)` (circuit.h:65-72). -/
def Circuit.new : ℕ → Circuit
  | 0 => ⟨[], [], []⟩
  | n + 1 => (Circuit.new n).addGate .input

/-- `MulByNegOne(gate)` (circuit.h:47-54). -/
def mulByNegOne (p : ℕ) (i : ℕ) : Gate := .mulConst i (fmod (-1) p)

/-- `AddCheckMulEqual(i, j, k)` (circuit.h:196-207). `none`: a vector index out of range. -/
def Circuit.addCheckMulEqual (p : ℕ) (c : Circuit) (i j k : ℕ) : Option Circuit :=
  let n := c.gates.length
  if i < n ∧ j < n ∧ k < n then
    some ((((c.addGate (.mul i j)).addGate (mulByNegOne p k)).addGate (.add n (n + 1))).addZeroGate (n + 2))
  else none

/-- `CheckVar()` (circuit.h:230-236). -/
def checkVar (p : ℕ) : Option Circuit := (Circuit.new 2).addCheckMulEqual p 0 0 1

/-- The inner loop over `j` (circuit.h:252-255), from `j` for `n` iterations; the state is the circuit and `idx`. -/
def linRegInner (p : ℕ) (i : ℕ) : ℕ → ℕ → Circuit × ℕ → Option (Circuit × ℕ)
  | 0, _, st => some st
  | n + 1, j, st => (st.1.addCheckMulEqual p i j st.2).bind fun c => linRegInner p i n (j + 1) (c, st.2 + 1)

/-- The outer loop over `i` (circuit.h:251-256), from `i` for `n` iterations. -/
def linRegOuter (p : ℕ) (numX : ℕ) : ℕ → ℕ → Circuit × ℕ → Option (Circuit × ℕ)
  | 0, _, st => some st
  | n + 1, i, st => (linRegInner p i (numX - i) i st).bind fun st => linRegOuter p numX n (i + 1) st

/-- The loop over `y * xi` (circuit.h:259-260), from `i` for `n` iterations. -/
def linRegLast (p : ℕ) (numX idx : ℕ) : ℕ → ℕ → Circuit → Option Circuit
  | 0, _, c => some c
  | n + 1, i, c => (c.addCheckMulEqual p numX i (idx + i)).bind fun c => linRegLast p numX idx n (i + 1) c

/-- Number of input fields (circuit.h:244-245), for `degree ≥ 1`. -/
def numFields (degree : ℕ) : ℕ := 2 * (degree - 1) + 1 + (degree - 1) * (degree - 1 + 1) / 2

/-- `CheckLinReg(degree)` (circuit.h:243-263). For `degree = 0` the code computes `num_x = 2^64 - 1`, and with `2^32` or more
fields the 32-bit counters wrap; both are the outcome `none`. -/
def checkLinReg (p : ℕ) (degree : ℕ) : Option Circuit :=
  if degree = 0 ∨ 2 ^ 32 ≤ numFields degree then none else
  let numX := degree - 1
  (linRegOuter p numX numX 0 (Circuit.new (numFields degree), degree)).bind fun st => linRegLast p numX st.2 numX 0 st.1

/-- The loop of `Eval` (circuit.h:92-138): `inps` is what is left of the input array, `w` the wire values so far. -/
def evalGates (p : ℕ) : List Gate → List ℤ → List ℤ → Option (List ℤ)
  | [], _, w => some w
  | .input :: gs, inps, w =>
    match inps with
    | [] => none
    | x :: inps => evalGates p gs inps (w ++ [x])
  | .add l r :: gs, inps, w =>
    (w[l]?).bind fun a => (w[r]?).bind fun b => evalGates p gs inps (w ++ [fmod (a + b) p])
  | .mul l r :: gs, inps, w =>
    (w[l]?).bind fun a => (w[r]?).bind fun b => evalGates p gs inps (w ++ [fmod (a * b) p])
  | .addConst l c :: gs, inps, w => (w[l]?).bind fun a => evalGates p gs inps (w ++ [fmod (a + c) p])
  | .mulConst l c :: gs, inps, w => (w[l]?).bind fun a => evalGates p gs inps (w ++ [fmod (a * c) p])

/-- The wire values at some positions; `none` if one does not exist. -/
def wiresAt (w : List ℤ) : List ℕ → Option (List ℤ)
  | [] => some []
  | i :: is => (w[i]?).bind fun a => (wiresAt w is).map fun b => a :: b

/-- `Eval(inps)` (circuit.h:91-145): the wire values left behind and the returned flag. -/
def Circuit.eval (p : ℕ) (c : Circuit) (inps : List ℤ) : Option (List ℤ × Bool) :=
  (evalGates p c.gates inps []).bind fun w => (wiresAt w c.resultZero).map fun z => (w, z.all (· = 0))

/-- The loop of `ImportWires` (circuit.h:160-193): `inps` and `muls` are what is left of the input shares and of the
packet's `MulShares`; `sv` is `server_num`. -/
def importGates (p : ℕ) (sv : Bool) : List Gate → List ℤ → List ℤ → List ℤ → Option (List ℤ)
  | [], _, _, w => some w
  | .input :: gs, inps, muls, w =>
    match inps with
    | [] => none
    | x :: inps => importGates p sv gs inps muls (w ++ [x])
  | .add l r :: gs, inps, muls, w =>
    (w[l]?).bind fun a => (w[r]?).bind fun b => importGates p sv gs inps muls (w ++ [fmod (a + b) p])
  | .mul _ _ :: gs, inps, muls, w =>
    match muls with
    | [] => none
    | x :: muls => importGates p sv gs inps muls (w ++ [x])
  | .addConst l c :: gs, inps, muls, w =>
    (w[l]?).bind fun a => importGates p sv gs inps muls (w ++ [fmod (if sv then a else a + c) p])
  | .mulConst l c :: gs, inps, muls, w =>
    (w[l]?).bind fun a => importGates p sv gs inps muls (w ++ [fmod (a * c) p])

/-- `ImportWires(p, server_num, InputShares)` (circuit.h:160-193). -/
def Circuit.importWires (p : ℕ) (sv : Bool) (c : Circuit) (inps muls : List ℤ) : Option (List ℤ) :=
  importGates p sv c.gates inps muls []

/-- `GetMulShares` (circuit.h:151-158) on the wire values `w`, with the draws of `SplitShare` in order. -/
def Circuit.getMulShares (p : ℕ) (c : Circuit) (w : List ℤ) (draws : List ℤ) : Option (List ℤ × List ℤ) :=
  (wiresAt w c.mulGates).map fun vs =>
    (List.zipWith (fun r v => (splitShare p r v).1) draws vs, List.zipWith (fun r v => (splitShare p r v).2) draws vs)

/-- Left input, right input and output wire of each multiplication gate (client.h:35-38, server.h:220-225). -/
def mulTriples (gs : List Gate) (w : List ℤ) : List ℕ → Option (List (ℤ × ℤ × ℤ))
  | [] => some []
  | i :: is =>
    match gs[i]? with
    | some (.mul l r) => (w[l]?).bind fun a => (w[r]?).bind fun b => (w[i]?).bind fun o =>
        (mulTriples gs w is).map fun t => (a, b, o) :: t
    | _ => none

end Verif
