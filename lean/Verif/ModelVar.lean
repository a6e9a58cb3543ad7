import Verif.ModelServer
import Verif.ModelCorrelated
import Verif.ModelSnip
import Verif.ModelDouble

/-!
# server.cpp: `getPrecomp`, `validate_snips`, `accumulate`, `var_op`

The operations that check submissions with circuits. `Checker` objects draw their combination coefficients from the
generator `snips_seed`, which both servers seed alike (server.h:131-147); the sequence of draws is the parameter
`coef`, the number of draws already made is part of the state. The forked child that sends while the parent receives
is the order "send, then receive", which queues of unlimited size never block.
-/

namespace Verif

/-- The global state used by `validate_snips`: the root tables, `precomp_store`, `randomX`, `randx_uses` (server.cpp:28-42) and
the number of draws made from `snips_seed`. -/
structure SnipState where
  tables : RootTables
  store : List (ℕ × CheckerPre)
  x : ℤ
  uses : ℕ
  pos : ℕ
  deriving DecidableEq, Repr

/-- `getPrecomp(N)` (server.cpp:139-149). -/
noncomputable def getPrecomp (st : SnipState) (N : ℕ) : Option (CheckerPre × SnipState) :=
  match st.store.lookup N with
  | some pre => some (pre, st)
  | none => (checkerPre intModulus st.tables N st.x).map fun pre => (pre, { st with store := (N, pre) :: st.store })

/-- `init_roots(NumRoots); getPrecomp(NumRoots); randx_uses += N` (server.cpp:213-217). -/
noncomputable def prepare (st : SnipState) (numRoots n : ℕ) : Option (CheckerPre × SnipState) :=
  (initRoots intModulus intGen twoOrder st.tables numRoots).bind fun t =>
    (getPrecomp { st with tables := t } numRoots).map fun r => (r.1, { r.2 with uses := r.2.uses + n })

/-- All results of a loop, or none if one iteration fails. -/
def optAll {α : Type} : List (Option α) → Option (List α)
  | [] => some []
  | none :: _ => none
  | some a :: l => (optAll l).map (a :: ·)

/-- The draws `pos + i*k, .., pos + i*k + k - 1` used by the `i`-th checker of a batch (server.h:300-308). -/
def coefs (coef : ℕ → ℤ) (pos k i : ℕ) : List ℤ := (List.range k).map fun j => coef (pos + i * k + j)

/-- The checkers of a batch (server.cpp:218-220). Each gets its own part of the flat array. -/
def checkers (sv : Bool) (c : Circuit) (pre : CheckerPre) (ni : ℕ) (pks : List Packet) (sh : List ℤ) : Option (List Checker) :=
  optAll (List.zipWith (fun pk inps => checkerInit intModulus sv c pk pre inps) pks (pieces ni pks.length sh))

/-- The output shares of a batch (server.cpp:237-242). -/
def outShares (c : Circuit) (coef : ℕ → ℤ) (pos : ℕ) (ks : List Checker) (other : List CorShare) : Option (List ℤ) :=
  optAll ((List.zip ks other).mapIdx fun i e => e.1.outShare intModulus
    (Cor.ofShares intModulus (e.1.corShare intModulus) e.2) (coefs coef pos (c.resultZero.length + 1) i))

/-- `validate_snips(N, num_inputs, .., circuit, packet, shares_p)` (server.cpp:197-272) with `N` = number of packets. All
circuits are alike. `circuit[0]` (line 209) does not exist if `N = 0`. -/
noncomputable def validateSnips (sv : Bool) (c : Circuit) (coef : ℕ → ℤ) (st : SnipState) (ni : ℕ) (pks : List Packet) (sh : List ℤ) :
    Proc (List Bool × SnipState) :=
  if pks.length = 0 then .fault else
  (Proc.ofOption (prepare st (npow2 c.mulGates.length) pks.length)).bind fun r =>
  (Proc.ofOption (checkers sv c r.1 ni pks sh)).bind fun ks =>
  (exchOpt (encCorShares (ks.map (·.corShare intModulus))) (rdCorShares pks.length)).bind fun other =>
  (Proc.ofOption (outShares c coef st.pos ks other)).bind fun os =>
  (exchOpt (encFmpzs os) (rdFmpzs pks.length)).bind fun os' =>
  .ret (List.zipWith (addToZero intModulus) os os', { r.2 with pos := r.2.pos + pks.length * (c.resultZero.length + 1) })

/-- `accumulate(N, num_inputs, shares_p, valid)` (server.cpp:274-294). -/
def accumulate (ni : ℕ) (rows : List (List ℤ)) (valid : List Bool) : List ℤ :=
  (rows.zip valid).foldl (fun acc e => if e.2 then List.zipWith (fun a s => fmod (a + s) intModulus) acc e.1 else acc)
    (List.replicate ni 0)

/-- What the servers keep of a submission: the shares in the order of the flat array and the packet. -/
structure SnipRow where
  vals : List U64
  packet : Packet
  deriving DecidableEq, Repr

/-- `ClientPacket(NMul)` (share.h:113-121): all numbers zero. -/
def zeroPacket (nMul : ℕ) : Packet := ⟨List.replicate nMul 0, 0, 0, 0, List.replicate (npow2 nMul) 0, ⟨0, 0, 0⟩⟩

/-- The rows at server 0 (server.cpp:824-835, 1065-1091): for an unmatched key the values are `junk` (zeros in `var_op`,
uninitialised memory in `linreg_op`) with an empty packet. -/
def rows0 (nMul : ℕ) (m : Map SnipRow) (junk : ℕ → List U64) (ks : List Bytes) : List SnipRow :=
  ks.mapIdx fun i k => match m.lookup k with
    | some r => r
    | none => ⟨junk i, zeroPacket nMul⟩

/-- The rows at server 1 (server.cpp:765-771, 997-1019), looked up again by key. A missing key would yield a null packet. -/
def rows1 (m : Map SnipRow) (ks : List Bytes) : Option (List SnipRow) := optAll (ks.map fun k => List.lookup k m)

/-- Server 0 of `var_op` and `linreg_op` between reading the submissions and receiving the sums (server.cpp:807-856,
1046-1113): the accumulated shares, the number of valid rows and the new state. -/
noncomputable def snipOp0 (c : Circuit) (coef : ℕ → ℤ) (ws : List ℕ) (raw : ℕ → ℕ → ℕ → U64) (junk : ℕ → List U64) (st : SnipState)
    (m : Map SnipRow) : Proc (List ℤ × ℕ × SnipState) :=
  listen.bind fun ks =>
  let rows := rows0 c.mulGates.length m junk ks
  (shareConvert intModulus false raw ks.length ws.length ws (rows.flatMap (·.vals))).bind fun sh =>
  (validateSnips false c coef st ws.length (rows.map (·.packet)) sh).bind fun r =>
  let valid := List.zipWith (· && ·) (matched m ks) r.1
  (Proc.put (encBools valid)).bind fun _ =>
  .ret (accumulate ws.length (pieces ws.length ks.length sh) valid, numTrue valid, r.2)

/-- Server 1 of `var_op` and `linreg_op` between reading the submissions and sending the sums (server.cpp:745-794,
977-1037). -/
noncomputable def snipOp1 (c : Circuit) (coef : ℕ → ℤ) (ws : List ℕ) (raw : ℕ → ℕ → ℕ → U64) (st : SnipState)
    (m ord : Map SnipRow) : Proc (List ℤ × SnipState) :=
  (announce (ord.map (·.1))).bind fun _ =>
  (Proc.ofOption (rows1 m (ord.map (·.1)))).bind fun rows =>
  (shareConvert intModulus true raw ord.length ws.length ws (rows.flatMap (·.vals))).bind fun sh =>
  (validateSnips true c coef st ws.length (rows.map (·.packet)) sh).bind fun r =>
  (rdBools ord.length).toProc.bind fun valid =>
  .ret (accumulate ws.length (pieces ws.length ord.length sh) (List.zipWith (· && ·) valid r.1), r.2)

/-! ## var_op -/

/-- One submission of `var_op` (server.cpp:721-726, types.h:29-33): key, value and square in host order, packet. The circuit is
needed for the number of multiplication gates. -/
def rdVarShare (nMul : ℕ) : Rd (Bytes × SnipRow) :=
  .get pkLength fun pk => (rdWords 2).bind fun vs => (rdPacket nMul).bind fun k => .ret (pk, ⟨vs, k⟩)

/-- The tests `share.val >= max_val` and `share.val_squared >= max_val * max_val` (server.cpp:731-732); the product is taken
modulo 2^64. `packet_bytes` is positive whenever something was received. -/
def varOk (mx : U64) (r : SnipRow) : Bool := !(mx ≤ r.vals.getD 0 0#64) && !(mx * mx ≤ r.vals.getD 1 0#64)

/-- The map built by `var_op` (server.cpp:708-739). `none` also if the stream ends early (`ModelCut`). -/
def varIntake (nMul nbits total : ℕ) (stream : Bytes) : Option (Map SnipRow) :=
  (maxVal nbits).bind fun mx => (((rdVarShare nMul).rep total).run stream).map fun r => admit (varOk mx) r.1 []

/-- `nbits` (server.cpp:711). -/
def varWidths (nbits : ℕ) : List ℕ := [nbits, nbits * 2]

/-- The answer (server.cpp:884-893), computed in `double`: `fmpz_get_d`, the conversion of `num_valid` (a `size_t`), two divisions,
`ex2 - (ex * ex)`, the root. `none`: not a number (no valid row: 0/0, or infinity minus infinity; or the root of a negative number). -/
noncomputable def varAnswer (fma std : Bool) (b b2 : ℤ) (n : ℕ) : Option ℝ :=
  if n = 0 then none else
  let ex := rnd (rnd b / rnd n)
  let ex2 := rnd (rnd b2 / rnd n)
  let v := subSquare fma ex2 ex
  if std then (if v < 0 then none else some (rnd (Real.sqrt v))) else some v

/-- The whole of `var_op` (server.cpp:702-898) for server 0; `std`: the message type is `STDDEV_OP`; `fma`: see
`subSquare`. Unmatched rows have the
values 0 (line 825). -/
noncomputable def varOp0 (fma std : Bool) (nbits total : ℕ) (stream : Bytes) (coef : ℕ → ℤ) (raw : ℕ → ℕ → ℕ → U64) (st : SnipState) :
    Proc (Ret (Option ℝ) × SnipState) :=
  (Proc.ofOption (checkVar intModulus)).bind fun c =>
  (Proc.ofOption (varIntake c.mulGates.length nbits total stream)).bind fun m =>
  (snipOp0 c coef (varWidths nbits) raw (fun _ => [0#64, 0#64]) st m).bind fun a =>
  rdFmpz.toProc.bind fun b => rdFmpz.toProc.bind fun b2 =>
  .ret (finish a.2.1 total (varAnswer fma std (fmod (b + a.1.getD 0 0) intModulus) (fmod (b2 + a.1.getD 1 0) intModulus) a.2.1), a.2.2)

/-- The whole of `var_op` for server 1. -/
noncomputable def varOp1 (nbits total : ℕ) (stream : Bytes) (coef : ℕ → ℤ) (raw : ℕ → ℕ → ℕ → U64) (st : SnipState)
    (ord : Map SnipRow → Map SnipRow) : Proc (Ret (Option ℝ) × SnipState) :=
  (Proc.ofOption (checkVar intModulus)).bind fun c =>
  (Proc.ofOption (varIntake c.mulGates.length nbits total stream)).bind fun m =>
  (snipOp1 c coef (varWidths nbits) raw st m (ord m)).bind fun b =>
  (Proc.putOpt (encFmpz (b.1.getD 0 0))).bind fun _ => (Proc.putOpt (encFmpz (b.1.getD 1 0))).bind fun _ =>
  .ret (.noAns, b.2)

end Verif
