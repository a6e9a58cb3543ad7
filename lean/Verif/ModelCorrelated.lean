import Verif.ModelOt
import Verif.ModelConstants

/-!
# The store of correlated randomness and the share conversions (correlated.cpp)

Both servers run the same functions; `sv` is `server_num` (`false` = 0, `true` = 1). Sizes are natural numbers
(products of `size_t` values are assumed not to wrap).
-/

namespace Verif

/-! ## generateDaBit (correlated.cpp:345-385) -/

/-- `bp = (b[i] + 2 * (mod - x[i])) % mod` (correlated.cpp:377-378). -/
def daBp (m : U64) (b : Bool) (x : U64) : U64 := (b64 b + 2#64 * (m - x)) % m

/-- The OT messages of server 0 (correlated.cpp:365-367); `d` is the random bit (352) and the raw draw (365). -/
def daPair (m : U64) (d : Bool × U64) : U64 × U64 := (d.2 % m, (d.2 % m + b64 d.1) % m)

/-- `generateDaBit(N)` on server 0 (correlated.cpp:345-385, branch 361-372). -/
def generateDaBit0 (p : ℕ) (ds : List (Bool × U64)) : Proc (List DaBit) :=
  let m := BitVec.ofNat 64 p
  (Proc.otPut false (ds.map (daPair m))).bind fun _ =>
    .ret (ds.map fun d => ⟨((daBp m d.1 (m - d.2 % m)).toNat : ℤ), d.1⟩)

/-- `generateDaBit(N)` on server 1 (correlated.cpp:345-385, branch 373-375). -/
def generateDaBit1 (p : ℕ) (bs : List Bool) : Proc (List DaBit) :=
  let m := BitVec.ofNat 64 p
  (Proc.otGet false bs).bind fun x => .ret (List.zipWith (fun b x => ⟨((daBp m b x).toNat : ℤ), b⟩) bs x)

/-! ## The store -/

/-- Constructor arguments of `CorrelatedStore` (correlated.h:31-41, 67-79). -/
structure StoreCfg where
  batch : ℕ
  nbits : ℕ
  lazy : Bool
  deriving DecidableEq, Repr

/-- All random draws of one server for its store, by number of the generation call and position.
`da`: bit and raw word of `generateDaBit`; `lz`: bit and residue of `makeLocalDaBit`; `tr`: Boolean triples. -/
structure StoreRng where
  da : ℕ → ℕ → Bool × U64
  lz : ℕ → ℕ → ℤ × ℤ
  tr : ℕ → ℕ → TripleDraw

/-- `dabit_store`, `btriple_store` (correlated.h:43-44) and the number of generation calls so far (only to pick the
draws). -/
structure Store where
  dabits : List DaBit
  triples : List BTriple
  calls : ℕ
  deriving DecidableEq, Repr

/-- The first `n` values of a stream. -/
def firstN {α : Type} (f : ℕ → α) (n : ℕ) : List α := (List.range n).map f

/-- `addBoolTriples(n)` (correlated.cpp:12-22); `bool_batch_size = batch_size * nbits` (correlated.h:76). -/
def addBoolTriples (c : StoreCfg) (g : StoreRng) (sv : Bool) (n : ℕ) (s : Store) : Proc Store :=
  let num := if n > c.batch * c.nbits then n else c.batch * c.nbits
  let ds := firstN (g.tr s.calls) num
  (if sv then genTriples1 ds else genTriples0 ds).bind fun new =>
    .ret ⟨s.dabits, s.triples ++ new, s.calls + 1⟩

/-- `addDaBits(n)` (correlated.cpp:24-58). -/
def addDaBits (p : ℕ) (c : StoreCfg) (g : StoreRng) (sv : Bool) (n : ℕ) (s : Store) : Proc Store :=
  let num := if n > c.batch then n else c.batch
  let gen : Proc (List DaBit) :=
    if c.lazy then
      if sv then (rdDaBits num).toProc
      else
        let prs := (firstN (g.lz s.calls) num).map fun d => makeLocalDaBit p d.1 d.2
        (Proc.putOpt (encDaBits (prs.map (·.2)))).bind fun _ => .ret (prs.map (·.1))
    else if sv then generateDaBit1 p ((firstN (g.da s.calls) num).map (·.1))
    else generateDaBit0 p (firstN (g.da s.calls) num)
  gen.bind fun new => .ret ⟨s.dabits ++ new, s.triples, s.calls + 1⟩

/-- `checkBoolTriples(n)` (correlated.cpp:60-62). -/
def checkBoolTriples (c : StoreCfg) (g : StoreRng) (sv : Bool) (n : ℕ) (s : Store) : Proc Store :=
  if s.triples.length < n then addBoolTriples c g sv (n - s.triples.length) s else .ret s

/-- `checkDaBits(n)` (correlated.cpp:64-66). -/
def checkDaBits (p : ℕ) (c : StoreCfg) (g : StoreRng) (sv : Bool) (n : ℕ) (s : Store) : Proc Store :=
  if s.dabits.length < n then addDaBits p c g sv (n - s.dabits.length) s else .ret s

/-- `getBoolTriple()` (correlated.cpp:68-73). Taking from an empty queue is undefined. -/
def getBoolTriple (c : StoreCfg) (g : StoreRng) (sv : Bool) (s : Store) : Proc (BTriple × Store) :=
  (checkBoolTriples c g sv 1 s).bind fun s =>
    match s.triples with
    | [] => .fault
    | t :: ts => .ret (t, ⟨s.dabits, ts, s.calls⟩)

/-- `getDaBit()` (correlated.cpp:75-80). -/
def getDaBit (p : ℕ) (c : StoreCfg) (g : StoreRng) (sv : Bool) (s : Store) : Proc (DaBit × Store) :=
  (checkDaBits p c g sv 1 s).bind fun s =>
    match s.dabits with
    | [] => .fault
    | t :: ts => .ret (t, ⟨ts, s.triples, s.calls⟩)

/-- `n` calls of `getBoolTriple` (loop correlated.cpp:130-136). -/
def getBoolTriples (c : StoreCfg) (g : StoreRng) (sv : Bool) : ℕ → Store → Proc (List BTriple × Store)
  | 0, s => .ret ([], s)
  | n + 1, s => (getBoolTriple c g sv s).bind fun a =>
      (getBoolTriples c g sv n a.2).bind fun b => .ret (a.1 :: b.1, b.2)

/-- `n` calls of `getDaBit` (loop correlated.cpp:227-234). -/
def getDaBits (p : ℕ) (c : StoreCfg) (g : StoreRng) (sv : Bool) : ℕ → Store → Proc (List DaBit × Store)
  | 0, s => .ret ([], s)
  | n + 1, s => (getDaBit p c g sv s).bind fun a =>
      (getDaBits p c g sv n a.2).bind fun b => .ret (a.1 :: b.1, b.2)

/-- `maybeUpdate()` (correlated.cpp:88-106). `btrip_target` is 0, so no triples are made there. -/
def maybeUpdate (p : ℕ) (c : StoreCfg) (g : StoreRng) (sv : Bool) (s : Store) : Proc Store :=
  let makeDa := s.dabits.length < c.batch * c.nbits / 2
  let target := 2 * (if makeDa then 1 else 0) * c.nbits
  if s.dabits.length < target * c.batch then addDaBits p c g sv (target * c.batch) s else .ret s

/-! ## Multiplication and addition of shared bits -/

/-- The messages `d_this`, `e_this` (correlated.cpp:130-136). -/
def maskBits (xs : List Bool) (ts : List Bool) : List Bool := List.zipWith (fun x t => x ^^ t) xs ts

/-- The final combination (correlated.cpp:152-158). -/
def combineBit (sv x y c d e : Bool) : Bool :=
  let z := c ^^ ((x && e) ^^ (y && d))
  if sv then z else z ^^ (d && e)

/-- Apply `combineBit` along the arrays (correlated.cpp:152-158). -/
def combineBits (sv : Bool) : List Bool → List Bool → List BTriple → List Bool → List Bool → List Bool
  | x :: xs, y :: ys, t :: ts, d :: ds, e :: es => combineBit sv x y t.c d e :: combineBits sv xs ys ts ds es
  | _, _, _, _, _ => []

/-- `multiplyBoolShares(N, x, y)` (correlated.cpp:121-167), `N` = length of both arrays. -/
def multiplyBoolShares (c : StoreCfg) (g : StoreRng) (sv : Bool) (x y : List Bool) (s : Store) :
    Proc (List Bool × Store) :=
  if x.length ≠ y.length then .fault else
  (checkBoolTriples c g sv x.length s).bind fun s =>
    (getBoolTriples c g sv x.length s).bind fun a =>
      let dThis := maskBits x (a.1.map (·.a))
      let eThis := maskBits y (a.1.map (·.b))
      (exch (encBools dThis ++ encBools eThis)
        ((rdBools x.length).bind fun d => (rdBools x.length).bind fun e => .ret (d, e))).bind fun o =>
      .ret (combineBits sv x y a.1 (maskBits dThis o.1) (maskBits eThis o.2), a.2)

/-- One row of `addBinaryShares`: the two addends, and the sum bits and carry so far. -/
structure AddRow where
  x : List Bool
  y : List Bool
  z : List Bool
  carry : Bool
  deriving DecidableEq, Repr

/-- Write back the new carries of the rows that have a bit `j` (correlated.cpp:196, 204-210). -/
def addScatter (j : ℕ) : List AddRow → List Bool → List AddRow
  | [], _ => []
  | r :: rs, ns =>
    if j < r.x.length then
      match ns with
      | n :: ns => ⟨r.x, r.y, r.z ++ [(r.carry ^^ r.x.getD j false) ^^ r.y.getD j false], r.carry ^^ n⟩ :: addScatter j rs ns
      | [] => r :: addScatter j rs []
    else r :: addScatter j rs ns

/-- The loop over the bit positions (correlated.cpp:191-213), `fuel` positions from `j` on. -/
def addLoop (c : StoreCfg) (g : StoreRng) (sv : Bool) : ℕ → ℕ → List AddRow → Store → Proc (List AddRow × Store)
  | 0, _, rs, s => .ret (rs, s)
  | fuel + 1, j, rs, s =>
    let act := rs.filter fun r => j < r.x.length
    (multiplyBoolShares c g sv (act.map fun r => r.carry ^^ r.x.getD j false) (act.map fun r => r.carry ^^ r.y.getD j false)
      s).bind fun a => addLoop c g sv fuel (j + 1) (addScatter j rs a.1) a.2

/-- `addBinaryShares(N, num_bits, x, y, z)` (correlated.cpp:172-219): rows of any widths. Returns the rows of `z` and the
carries. Undefined when the two addends of a row differ in length (out of bounds). -/
def addBinaryShares (c : StoreCfg) (g : StoreRng) (sv : Bool) (rows : List (List Bool × List Bool)) (s : Store) :
    Proc (List (List Bool × Bool) × Store) :=
  if rows.all fun r => r.1.length = r.2.length then
    (checkBoolTriples c g sv (rows.map (·.1.length)).sum s).bind fun s =>
      (addLoop c g sv ((rows.map (·.1.length)).foldl max 0) 0 (rows.map fun r => ⟨r.1, r.2, [], false⟩) s).bind fun a =>
        .ret (a.1.map (fun r => (r.z, r.carry)), a.2)
  else .fault

/-! ## Conversion of shared bits -/

/-- The final step of `b2a_daBit_single` for one entry (correlated.cpp:247-258). -/
def convBit (p : ℕ) (sv : Bool) (bp : ℤ) (v : Bool) : ℤ := if v then fmod (-bp + if sv then 1 else 0) p else bp

/-- `b2a_daBit_single(N, x)` (correlated.cpp:221-266). -/
def b2aSingle (p : ℕ) (c : StoreCfg) (g : StoreRng) (sv : Bool) (x : List Bool) (s : Store) : Proc (List ℤ × Store) :=
  (checkDaBits p c g sv x.length s).bind fun s =>
    (getDaBits p c g sv x.length s).bind fun a =>
      let vThis := maskBits x (a.1.map (·.b2))
      (exch (encBools vThis) (rdBools x.length)).bind fun vOther =>
      .ret (List.zipWith (convBit p sv) (a.1.map (·.bp)) (maskBits vThis vOther), a.2)

/-- The weight `1 << j` of correlated.cpp:293, computed in 32-bit `int` and converted to `unsigned long`:
`j = 31` gives the most negative `int`; `j ≥ 32` is undefined. -/
def intShift (j : ℕ) : Option ℤ :=
  if j ≤ 30 then some (2 ^ j) else if j = 31 then some (2 ^ 64 - 2 ^ 31) else none

/-- The inner loop of correlated.cpp:292-295 from bit `j` on. -/
def weighBits (p : ℕ) : ℕ → List ℤ → ℤ → Option ℤ
  | _, [], acc => some acc
  | j, t :: ts, acc => (intShift j).bind fun w => weighBits p (j + 1) ts (fmod (acc + t * w) p)

/-- The loop of correlated.cpp:289-297. -/
def weighAll (p : ℕ) : List ℕ → List ℤ → Option (List ℤ)
  | [], _ => some []
  | w :: ws, l => (weighBits p 0 (l.take w) 0).bind fun a => (weighAll p ws (l.drop w)).map fun b => a :: b

/-- `b2a_daBit_multi(N, num_bits, x)` (correlated.cpp:268-303). The inputs are non-negative (all callers store unsigned
words), so `fmpz_tstbit` is `Nat.testBit`. -/
def b2aMulti (p : ℕ) (c : StoreCfg) (g : StoreRng) (sv : Bool) (widths : List ℕ) (x : List ℕ) (s : Store) :
    Proc (List ℤ × Store) :=
  if x.length ≠ widths.length then .fault else
  (checkDaBits p c g sv widths.sum s).bind fun s =>
    (b2aSingle p c g sv (List.zipWith (fun v w => firstN v.testBit w) x widths).flatten s).bind fun a =>
      (Proc.ofOption (weighAll p widths a.1)).bind fun r => .ret (r, a.2)

/-- `b2a_ot(num_shares, num_values, num_bits, x, mod)` (correlated.cpp:306-340) called by `share_convert`
(server.cpp:153-193, `USE_OT_B2A` is true) with `mod` = field modulus. `flat` is the flat array of 64-bit shares, `raw`
the draws of server 0 by row, column and bit. -/
def shareConvert (p : ℕ) (sv : Bool) (raw : ℕ → ℕ → ℕ → U64) (ns nv : ℕ) (widths : List ℕ) (flat : List U64) :
    Proc (List ℤ) :=
  if flat.length ≠ ns * nv ∨ widths.length ≠ nv then .fault else
  let rows := pieces nv ns flat
  (if sv then intsumReceiver false (BitVec.ofNat 64 p) widths rows
   else intsumSender false (BitVec.ofNat 64 p) widths
      (rows.zipIdx.map fun q => ⟨q.1, true, raw q.2⟩)).bind fun r =>
    .ret (r.flatten.map fun w => (w.toNat : ℤ))

end Verif
