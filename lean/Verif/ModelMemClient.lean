import Verif.ModelMem
import Verif.ModelShare

/-!
# Memory of the client program

Source: client.cpp (the `*_helper` functions and their callers), client.h (`share_polynomials`), poly/fft.c (`fft_interpolate`), constants.cpp. The client as programs on the heap of `ModelMem`: allocations,
releases, accesses and automatic arrays; values are left out. Not modelled: what FLINT allocates inside `fmpz` values and its generator, the strings `pk_s`, the memory of the standard containers.
-/

namespace Verif

/-- The tables of roots (constants.cpp:8-9): their number of points and the arrays `roots`, `invroots`, `roots2`. -/
abbrev Roots := Option (ℕ × List Block)

/-- Writing to or reading from an object in all its parts. -/
def touchObj (o : List Block) : Mem Unit := do
  let _ ← each o touch
  pure ()

/-- `bit_sum_helper` (client.cpp:101-149). -/
def clientBitMem (n : ℕ) : Mem Unit := do
  let s0 ← alloc .arr (33 * n)
  let s1 ← alloc .arr (33 * n)
  let _ ← times n do
    touch s0
    touch s1
  let _ ← times n do
    touch s0
    touch s1
  release .arr s0
  release .arr s1

/-- `int_sum_helper` and `xor_op_helper` (client.cpp:230-278, 368-424). -/
def clientIntMem (n : ℕ) : Mem Unit := do
  let s0 ← alloc .arr (40 * n)
  let s1 ← alloc .arr (40 * n)
  let _ ← times n do
    touch s0
    touch s1
  let _ ← times n do
    touch s0
    touch s1
  release .arr s0
  release .arr s1

/-- `max_op_helper` (client.cpp:543-620). -/
def clientMaxMem (B n : ℕ) : Mem Unit := do
  let enc ← alloc .arr (8 * (B + 1))
  let sh0 ← alloc .arr (8 * (B + 1))
  let sh1 ← alloc .arr (8 * (B + 1))
  let s0 ← alloc .arr (40 * n)
  let s1 ← alloc .arr (40 * n)
  let rows ← times n do
    touchObj [enc, sh0, sh1, s0, s1]
    let a0 ← alloc .arr (8 * (B + 1))
    let a1 ← alloc .arr (8 * (B + 1))
    pure (a0, a1)
  release .arr enc
  release .arr sh0
  release .arr sh1
  let _ ← each rows fun r => do
    touchObj [s0, s1]
    touchObj [r.1, r.2]
    release .arr r.1
    release .arr r.2
  release .arr s0
  release .arr s1

/-- `freq_op` and `freq_helper` (client.cpp:1411-1488) for `max_int = M`. -/
def clientFreqMem (M n : ℕ) : Mem Unit := do
  let count ← alloc .arr (8 * M)
  let s0 ← alloc .arr (40 * n)
  let s1 ← alloc .arr (40 * n)
  let rows ← times n do
    touchObj [count, s0, s1]
    let a0 ← alloc .arr M
    let a1 ← alloc .arr M
    pure (a0, a1)
  let _ ← each rows fun r => do
    touchObj [s0, s1]
    touchObj [r.1, r.2]
    boolsMem M
    boolsMem M
    release .arr r.1
    release .arr r.2
  release .arr s0
  release .arr s1
  touch count
  release .arr count

/-- `fft_interpolate` (poly/fft.c:38-76) for `n` points: the result comes from `malloc`, the three scratch arrays are automatic. -/
def fftMem (n : ℕ) (tables : List Block) (points : Block) : Mem Block := do
  let out ← alloc .raw (8 * n)
  onStack (24 * n)
  touchObj tables
  touch points
  pure out

/-- `if (roots == nullptr) init_roots(N)` (client.h:44-46; constants.cpp:32-46). -/
def tablesMem (N : ℕ) (t : Roots) : Mem (ℕ × List Block) :=
  match t with
  | some t => pure t
  | none => do
    let o ← newObj [(.raw, 8 * N), (.raw, 8 * N), (.raw, 8 * (2 * N))]
    pure (N, o)

/-- `share_polynomials` (client.h:14-97) for a circuit with `nmul` multiplications, `N = NextPowerOfTwo(nmul)`: `points[nmul]` is written, which is out of bounds unless `nmul < N`; the
tables are made if there are none, and read up to `2 N`. -/
def sharePolyMem (nmul N : ℕ) (circuit p0 p1 : List Block) (t : Roots) : Mem Roots := do
  let pointsF ← alloc .raw (8 * N)
  let pointsG ← alloc .raw (8 * N)
  if N ≤ nmul then Mem.fault else
  touchObj circuit
  let (M, tab) ← tablesMem N t
  if M < N then Mem.fault else
  let polyF ← fftMem N tab pointsF
  let polyG ← fftMem N tab pointsG
  let paddedF ← alloc .raw (8 * (2 * N))
  let paddedG ← alloc .raw (8 * (2 * N))
  touchObj [polyF, polyG]
  release .raw polyF
  release .raw polyG
  let evalsF ← fftMem (2 * N) tab paddedF
  let evalsG ← fftMem (2 * N) tab paddedG
  touchObj p0
  touchObj p1
  touchObj circuit
  let triple ← newObj [(.obj, 24)]
  touchObj triple
  deleteObj triple
  release .raw pointsF
  release .raw pointsG
  release .raw paddedF
  release .raw paddedG
  release .raw evalsF
  release .raw evalsG
  pure (some (M, tab))

/-- The packets of one submission (client.cpp:792-798, 1114-1119): a circuit with `g` gates, `nmul` of them multiplications. -/
def packetsMem (g nmul N : ℕ) (t : Roots) : Mem ((List Block × List Block) × Roots) := do
  let circuit ← newObj (circuitShape g)
  touchObj circuit
  let p0 ← newObj (packetShape nmul N)
  let p1 ← newObj (packetShape nmul N)
  let t ← sharePolyMem nmul N circuit p0 p1 t
  deleteObj circuit
  pure ((p0, p1), t)

/-- The first loop of `var_op_helper` (client.cpp:766-799) for `n` submissions. -/
def varMakeMem (arrays : List Block) (N : ℕ) : ℕ → Roots → Mem (List (List Block × List Block) × Roots)
  | 0, t => pure ([], t)
  | n + 1, t => do
    touchObj arrays
    let (p, t) ← packetsMem 5 1 N t
    let (ps, t) ← varMakeMem arrays N n t
    pure (p :: ps, t)

/-- `var_op_helper` (client.cpp:742-830). -/
def clientVarMem (n : ℕ) (t : Roots) : Mem Roots := do
  let v0 ← alloc .arr (48 * n)
  let v1 ← alloc .arr (48 * n)
  let k0 ← alloc .arr (8 * n)
  let k1 ← alloc .arr (8 * n)
  let mock ← newObj (circuitShape 5)
  deleteObj mock
  let (ps, t) ← varMakeMem [v0, v1, k0, k1] (npow2 1) n t
  let _ ← each ps fun p => do
    touchObj [v0, v1, k0, k1]
    touchObj p.1
    touchObj p.2
    deleteObj p.1
    deleteObj p.2
  release .arr v0
  release .arr v1
  release .arr k0
  release .arr k1
  pure t

/-- The six arrays of a LINREG submission (client.cpp:1089-1091, 1098-1100). -/
def linSixMem (degree : ℕ) : Mem (List Block) :=
  newObj [(.arr, 8 * linXs degree), (.arr, 8 * linQuad degree), (.arr, 8 * linXs degree), (.arr, 8 * linXs degree), (.arr, 8 * linQuad degree), (.arr, 8 * linXs degree)]

/-- The first loop of `lin_reg_helper` (client.cpp:1047-1120). -/
def linMakeMem (arrays : List Block) (degree N : ℕ) : ℕ → Roots → Mem (List (List Block × List Block × List Block) × Roots)
  | 0, t => pure ([], t)
  | n + 1, t => do
    touchObj arrays
    let six ← linSixMem degree
    touchObj six
    let (p, t) ← packetsMem (linCols degree + 3 * linMuls degree) (linMuls degree) N t
    let (ps, t) ← linMakeMem arrays degree N n t
    pure ((six, p) :: ps, t)

/-- `lin_reg` and `lin_reg_helper` (client.cpp:1012-1220). `SolveLinReg` (circuit.h:265-334) makes the array of the coefficients. -/
def clientLinMem (degree n : ℕ) (t : Roots) : Mem Roots := do
  let xAccum ← alloc .arr (8 * (linXs degree + linQuad degree + 1))
  let yAccum ← alloc .arr (8 * (linXs degree + 1))
  let nine ← newObj [(.arr, 8 * linXs degree), (.arr, 8 * linXs degree), (.arr, 8 * linXs degree), (.arr, 8 * linQuad degree), (.arr, 8 * linQuad degree), (.arr, 8 * linQuad degree),
    (.arr, 8 * linXs degree), (.arr, 8 * linXs degree), (.arr, 8 * linXs degree)]
  let s0 ← alloc .arr (64 * n)
  let s1 ← alloc .arr (64 * n)
  let k0 ← alloc .arr (8 * n)
  let k1 ← alloc .arr (8 * n)
  let inp ← alloc .raw (8 * linCols degree)
  let mock ← newObj (circuitShape (linCols degree + 3 * linMuls degree))
  deleteObj mock
  let (ps, t) ← linMakeMem (xAccum :: yAccum :: s0 :: s1 :: k0 :: k1 :: inp :: nine) degree (npow2 (linMuls degree)) n t
  touch xAccum
  deleteObj nine
  let _ ← each ps fun p => do
    touchObj [s0, s1, k0, k1]
    touchObj p.1
    touchObj p.2.1
    touchObj p.2.2
    deleteObj p.1
    deleteObj p.2.1
    deleteObj p.2.2
  release .arr s0
  release .arr s1
  release .arr k0
  release .arr k1
  release .raw inp
  let c ← alloc .arr (8 * degree)
  touchObj [xAccum, yAccum]
  release .arr xAccum
  release .arr yAccum
  touch c
  release .arr c
  pure t

/-- What the client program is asked for (client.cpp:1553-1650). -/
inductive ClientJob
  | none
  | bitSum
  | intSum
  | xorOp
  | maxOp
  | var
  | lin (degree : ℕ)
  | freq
  deriving DecidableEq

/-- The client program from `init_constants` to its end (client.cpp:1549-1661) for `n` submissions of `b` bits; `B` is an `unsigned int` (client.cpp:544). The tables of roots start as null pointers (constants.cpp:8) and are not released by
`clear_constants` (constants.cpp:26-30). -/
def clientMem (j : ClientJob) (b n : ℕ) : Mem Roots :=
  match j with
  | .none => pure Option.none
  | .bitSum => do
    clientBitMem n
    pure Option.none
  | .intSum | .xorOp => do
    clientIntMem n
    pure Option.none
  | .maxOp => do
    clientMaxMem (2 ^ b % 2 ^ 32) n
    pure Option.none
  | .var => clientVarMem n Option.none
  | .lin degree => clientLinMem degree n Option.none
  | .freq => do
    clientFreqMem (2 ^ b) n
    pure Option.none

end Verif
