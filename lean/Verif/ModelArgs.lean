import Verif.ModelUpload

/-!
# `main` of the client (client.cpp:1490-1662) from its command line on

Connecting to the servers and the other lines of output are left out; the ports are parsed (`atoi` may be undefined) but not used further. An
allocation fails only if its size in bytes exceeds `PTRDIFF_MAX`; running out of memory is not modelled.
-/

namespace Verif

/-- `isspace` in the C locale. -/
def isSpaceC (c : Char) : Bool := c.val = 32 || (9 ≤ c.val && c.val ≤ 13)

/-- `isdigit`. -/
def isDigitC (c : Char) : Bool := 48 ≤ c.val && c.val ≤ 57

/-- The number written by the leading digits. -/
def leadingNat (s : List Char) : ℕ := (s.takeWhile isDigitC).foldl (fun v c => 10 * v + (c.val.toNat - 48)) 0

/-- The number after white space, with its sign. -/
def signedInt : List Char → ℤ
  | '-' :: r => -(leadingNat r : ℤ)
  | '+' :: r => leadingNat r
  | r => leadingNat r

/-- `atoi` of the C library: white space, a sign, digits; anything after them is ignored, and without digits it is 0. `none`: the value is not
an `int`, which is undefined. -/
def atoi (s : String) : Option (BitVec 32) :=
  let v : ℤ := signedInt (s.toList.dropWhile isSpaceC)
  if -2 ^ 31 ≤ v ∧ v < 2 ^ 31 then some (BitVec.ofInt 32 v) else none

/-- What the program prints last before the totals. -/
inductive Shown where
  | nothing
  | count (a : BitVec 32)
  | word (a : U64)
  | flag (a : Bool)
  | nat (a : ℕ)
  | real (a : Option ℝ)
  | coeffs (a : Option (List ℚ))
  | hist (a : List ℕ)

/-- How a run of the client ends. -/
inductive ClientEnd where
  /-- the line `Usage: ...` and exit status 1 (client.cpp:1492) -/
  | usage
  /-- undefined behaviour -/
  | undefined
  /-- `error_exit` -/
  | failed
  /-- an exception nobody catches, from `new[]` with a size that no object can have -/
  | aborted
  /-- the bytes sent to the two servers, and the answer printed -/
  | sent (b0 b1 : Bytes) (shown : Shown)

/-- What a run takes from outside: the generator of emp, uninitialised memory (`max_inp` and, for `NONE_OP`, the count), the root tables after
their set-up, the draws of FLINT's generator for each submission, and whether the compiler fuses `ex2 - ex * ex`. -/
structure ClientEnv where
  prg : Prg
  junk : BitVec 32
  junkNum : BitVec 32
  tables : RootTables
  rand : ℕ → SnipRand
  fma : Bool

/-- The draws for `n` submissions. -/
def ClientEnv.rands (e : ClientEnv) (n : ℕ) : List SnipRand := (List.range n).map e.rand

/-- The end of an operation whose model may be undefined. -/
def ended {α : Type} (shown : α → Shown) : Option (Bytes × Bytes × α) → ClientEnd
  | none => .undefined
  | some r => .sent r.1 r.2.1 (shown r.2.2)

/-- `int_sum`, `var_op`, `lin_reg`, `freq_op` divide by `max_int` for every submission (client.cpp:245, 770, 1056, 1423). -/
def divides (width n : ℕ) (k : ClientEnd) : ClientEnd := if (1#64 <<< width : U64) = 0#64 ∧ 0 < n then .undefined else k

/-- `new T[numreqs]` in every helper (client.cpp:110, 239, 375, 557, 752, 1036, 1417): `numreqs` is an `int` made into a `size_t`. Nothing has been
sent yet. -/
def allocates (numreqs : BitVec 32) (k : ℕ → ClientEnd) : ClientEnd := if numreqs.toInt < 0 then .aborted else k numreqs.toNat

/-- The operations of `main` (client.cpp:1553-1654); `DEBUG_INVALID` is false (client.cpp:38). `numBits` is the global `num_bits`; `max_int` is
`1 << width` in 64 bits, where `width = 64` stands for `max_int = 0`. -/
noncomputable def clientOp (e : ClientEnv) (protocol : String) (numreqs : BitVec 32) (numBits width degree : ℕ) : ClientEnd :=
  if protocol = "BITSUM" then allocates numreqs fun n => ended .count (some (bitSumClient n e.junk e.prg))
  else if protocol = "INTSUM" then allocates numreqs fun n => divides width n (ended .word (some (intSumClient width n e.junk e.prg)))
  else if protocol = "ANDOP" then allocates numreqs fun n => ended .flag (some (xorClient true n e.junk e.prg))
  else if protocol = "OROP" then allocates numreqs fun n => ended .flag (some (xorClient false n e.junk e.prg))
  else if protocol = "MAXOP" then allocates numreqs fun n => ended .nat (some (maxClient true width n e.prg))
  else if protocol = "MINOP" then allocates numreqs fun n => ended .nat (some (maxClient false width n e.prg))
  else if protocol = "VAROP" then
    if 31 < numBits then .failed else allocates numreqs fun n => divides width n (ended .real (varClient e.fma false width e.tables (e.rands n) e.junk e.prg))
  else if protocol = "STDDEVOP" then
    if 31 < numBits then .failed else allocates numreqs fun n => divides width n (ended .real (varClient e.fma true width e.tables (e.rands n) e.junk e.prg))
  else if protocol = "LINREGOP" then
    if 31 < numBits then .failed
    else if 2 ^ 60 ≤ degree - 1 + numQuad degree + 1 then .aborted  -- x_accum (client.cpp:1182)
    else allocates numreqs fun n => divides width n (ended .coeffs (linClient degree width e.tables (e.rands n) e.junk e.prg))
  else if protocol = "FREQOP" then
    if 2 ^ 60 ≤ (1#64 <<< width : U64).toNat then .aborted  -- count (client.cpp:1467)
    else allocates numreqs fun n => divides width n (ended .hist (some (freqClient width n e.prg)))
  else .sent (encInit ⟨0#32, e.junkNum, e.junk⟩) (encInit ⟨0#32, e.junkNum, e.junk⟩) .nothing

/-- `linreg_degree` (client.cpp:44, 1511-1516): 2 unless given. -/
def withDegree (argv : List String) (k : ℕ → ClientEnd) : ClientEnd :=
  match argv[6]? with
  | none => k 2
  | some s => match atoi s with
    | none => .undefined
    | some d => if d.toNat < 2 then .failed else k d.toNat

/-- `num_bits` and `max_int` (client.cpp:42-43, 1502-1509): globals that are 0 unless set here. The shift comes before the check of its argument; a
shift by 64 or more is undefined. -/
def withBits (argv : List String) (k : ℕ → ℕ → ClientEnd) : ClientEnd :=
  match argv[5]? with
  | none => k 0 64
  | some s => match atoi s with
    | none => .undefined
    | some b => if 64 ≤ b.toNat then .undefined else if 63 < b.toNat then .failed else k b.toNat b.toNat

/-- `main` (client.cpp:1490-1662); `argv` holds the name of the program and the arguments, so that `argc` is its length. With three arguments
`argv[4]` is a null pointer, from which `std::string` must not be made (line 1500). -/
noncomputable def clientMain (e : ClientEnv) (argv : List String) : ClientEnd :=
  if argv.length < 4 then .usage
  else match (argv[1]?).bind atoi, (argv[2]?).bind atoi, (argv[3]?).bind atoi with
  | some numreqs, some _, some _ => match argv[4]? with
    | none => .undefined
    | some protocol => withBits argv fun numBits width => withDegree argv fun degree => clientOp e protocol numreqs numBits width degree
  | _, _, _ => .undefined

end Verif
