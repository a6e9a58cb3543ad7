import Verif.ModelFreq
import Verif.ModelLinReg

/-!
# Submissions of `max_op`, `var_op`, `linreg_op` and `freq_op` when the client's connection ends early

The loops ignore the result of `recv_in`, except that `recv_ClientPacket` passes it on. A memory cell is `none` while it is
indeterminate; using such a cell in a computation is undefined (`none`), copying its address is not. The connection is closed in
order (`recv` returns 0); a reset connection is the subject of `ModelRecv`.
-/

namespace Verif

/-- The cells of a variable or array, `none` for an indeterminate byte. -/
abbrev Cells := List (Option Byte)

/-- `recv_in(clientfd, buf, len)` at a peer that has closed after the bytes `s` (net_share.cpp:21-29), `old` being the earlier
content of the buffer: the new content and what is left on the connection. -/
def recvCut (old : Cells) (s : Bytes) : Cells × Bytes :=
  if s.length < old.length then (s.map some ++ old.drop s.length, []) else ((s.take old.length).map some, s.drop old.length)

/-- The content of cells that are read. -/
def known (c : Cells) : Option Bytes := optAll c

/-- A word read from eight cells in host order. -/
def knownWord (c : Cells) : Option U64 := (known c).map fun b => BitVec.ofNat 64 (leVal b)

/-- `n` freshly allocated cells with the content `f`. -/
def freshCells (n : ℕ) (f : ℕ → Option Byte) : Cells := (List.range n).map f

/-- `recv_ClientPacket` (net_share.cpp:380-406): the packet if `packet_bytes > 0`. At the end of the connection the first incomplete
`recv_fmpz` makes it return 0. -/
def packetCut (nMul : ℕ) (s : Bytes) : Option Packet × Bytes :=
  match (rdPacket nMul).run s with
  | some (k, r) => (some k, r)
  | none => (none, [])

/-! ## var_op -/

/-- The loop of `var_op` (server.cpp:718-739) for the remaining submissions; `c` are the 48 cells of the local variable `share` (types.h:29-33).
The four tests are evaluated in order, each only if those before it failed. -/
def varCutLoop (nMul : ℕ) (mx : U64) : ℕ → Cells → Bytes → Map SnipRow → Option (Map SnipRow)
  | 0, _, _, m => some m
  | t + 1, c, s, m =>
    let r := recvCut c s
    (known (r.1.take pkLength)).bind fun pk =>
    let q := packetCut nMul r.2
    if (m.lookup pk).isSome then varCutLoop nMul mx t r.1 q.2 m else
    (knownWord ((r.1.drop pkLength).take 8)).bind fun v =>
    if mx ≤ v then varCutLoop nMul mx t r.1 q.2 m else
    (knownWord (r.1.drop (pkLength + 8))).bind fun v2 =>
    if mx * mx ≤ v2 then varCutLoop nMul mx t r.1 q.2 m else
    match q.1 with
    | none => varCutLoop nMul mx t r.1 q.2 m
    | some k => varCutLoop nMul mx t r.1 q.2 (m ++ [(pk, ⟨[v, v2], k⟩)])

/-- The map built by `var_op` (server.cpp:708-739) from all that arrives on the connection. -/
def varCutIntake (nMul nbits total : ℕ) (s : Bytes) : Option (Map SnipRow) :=
  (maxVal nbits).bind fun mx => varCutLoop nMul mx total (List.replicate (pkLength + 16) none) s []

/-- `var_op` at server 0 after reading the submissions (server.cpp:807-897). -/
noncomputable def varRest0 (fma std : Bool) (nbits total : ℕ) (c : Circuit) (m : Map SnipRow) (coef : ℕ → ℤ) (raw : ℕ → ℕ → ℕ → U64) (st : SnipState) :
    Proc (Ret (Option ℝ) × SnipState) :=
  (snipOp0 c coef (varWidths nbits) raw (fun _ => [0#64, 0#64]) st m).bind fun a =>
  rdFmpz.toProc.bind fun b => rdFmpz.toProc.bind fun b2 =>
  .ret (finish a.2.1 total (varAnswer fma std (fmod (b + a.1.getD 0 0) intModulus) (fmod (b2 + a.1.getD 1 0) intModulus) a.2.1), a.2.2)

/-- `var_op` at server 1 after reading the submissions (server.cpp:748-806). -/
noncomputable def varRest1 (nbits : ℕ) (c : Circuit) (m : Map SnipRow) (coef : ℕ → ℤ) (raw : ℕ → ℕ → ℕ → U64) (st : SnipState)
    (ord : Map SnipRow → Map SnipRow) : Proc (Ret (Option ℝ) × SnipState) :=
  (snipOp1 c coef (varWidths nbits) raw st m (ord m)).bind fun b =>
  (Proc.putOpt (encFmpz (b.1.getD 0 0))).bind fun _ => (Proc.putOpt (encFmpz (b.1.getD 1 0))).bind fun _ =>
  .ret (.noAns, b.2)

/-- The whole of `var_op` (server.cpp:702-898) at server 0 on a connection that ends after `s`. -/
noncomputable def varCut0 (fma std : Bool) (nbits total : ℕ) (s : Bytes) (coef : ℕ → ℤ) (raw : ℕ → ℕ → ℕ → U64) (st : SnipState) :
    Proc (Ret (Option ℝ) × SnipState) :=
  (Proc.ofOption (checkVar intModulus)).bind fun c =>
  (Proc.ofOption (varCutIntake c.mulGates.length nbits total s)).bind fun m => varRest0 fma std nbits total c m coef raw st

/-- The whole of `var_op` (server.cpp:702-898) at server 1 on a connection that ends after `s`. -/
noncomputable def varCut1 (nbits total : ℕ) (s : Bytes) (coef : ℕ → ℤ) (raw : ℕ → ℕ → ℕ → U64) (st : SnipState)
    (ord : Map SnipRow → Map SnipRow) : Proc (Ret (Option ℝ) × SnipState) :=
  (Proc.ofOption (checkVar intModulus)).bind fun c =>
  (Proc.ofOption (varCutIntake c.mulGates.length nbits total s)).bind fun m => varRest1 nbits c m coef raw st ord

/-! ## max_op -/

/-- The loop of `max_op` (server.cpp:596-606): `ck` are the cells of `share.pk`, the row of each submission is part of the new array
`shares`. The map holds addresses: a row that has not been received completely is `none`. -/
def maxCutLoop (B : ℕ) : ℕ → Cells → Bytes → Map (Option (List U64)) → Option (Map (Option (List U64)))
  | 0, _, _, m => some m
  | t + 1, ck, s, m =>
    let r := recvCut ck s
    (known r.1).bind fun pk =>
    let q := recvCut (List.replicate (8 * (B + 1)) none) r.2
    if (m.lookup pk).isSome then maxCutLoop B t r.1 q.2 m
    else maxCutLoop B t r.1 q.2 (m ++ [(pk, (known q.1).map (wordsOf (B + 1)))])

/-- The map built by `max_op` (server.cpp:590-606); see `maxIntake` for the sizes. -/
def maxCutIntake (B total : ℕ) (s : Bytes) : Option (Map (Option (List U64))) :=
  if B + 1 < 2 ^ 32 ∧ maxRowsFit B total = true then maxCutLoop B total (List.replicate pkLength none) s [] else none

/-- The rows of the keys `ks` marked in `valid` can all be read. -/
def rowsKnown (m : Map (Option (List U64))) (ks : List Bytes) (valid : List Bool) : Bool :=
  (ks.zip valid).all fun e => !e.2 || (m.lookup e.1) != some none

/-- The map with the rows that can be read; the others are never used. -/
def readRows (m : Map (Option (List U64))) : Map (List U64) := m.map fun e => (e.1, e.2.getD [])

/-- `max_op` at server 0 (server.cpp:645-696): the rows of matched keys are read while the keys arrive; reading an incomplete one is
undefined (here: after the last key). -/
def maxCut0 (isMax : Bool) (B total : ℕ) (s : Bytes) : Proc (Ret ℕ) :=
  (Proc.ofOption (maxCutIntake B total s)).bind fun m =>
  listen.bind fun ks => if rowsKnown m ks (matched m ks) = false then .fault else
    let m := readRows m
    (Proc.put (encBools (matched m ks))).bind fun _ => (rdWords (B + 1)).toProc.bind fun b =>
      if belowThreshold (numTrue (matched m ks)) total then .ret .invalid
      else match scanDown (maxFold B m ks (matched m ks)) b B with
        | some j => .ret (.ans (if isMax then j else B - j))
        | none => .fault

/-- `max_op` at server 1 (server.cpp:614-644). -/
def maxCut1 (B total : ℕ) (s : Bytes) (ord : Map (Option (List U64)) → Map (Option (List U64))) : Proc (Ret ℕ) :=
  (Proc.ofOption (maxCutIntake B total s)).bind fun m =>
  let ks := (ord m).map (·.1)
  (announce ks).bind fun _ => (rdBools ks.length).toProc.bind fun valid =>
    if rowsKnown m ks valid = false then .fault else
    (Proc.put (encWords (maxFold B (readRows m) ks valid))).bind fun _ => .ret .noAns

/-! ## linreg_op -/

/-- The loop of `linreg_op` (server.cpp:929-975) from submission `i` on: `ck`, `cy` are the cells of `share.pk` and `share.y`, `fresh` the
content of the arrays allocated for each submission (lines 940-942). All elements are read by the tests (lines 949-960), whether the packet arrives or not. -/
def linCutLoop (degree nMul : ℕ) (mx : U64) (fresh : ℕ → ℕ → Option Byte) : ℕ → ℕ → Cells → Cells → Bytes → Map LinRow → Option (Map LinRow)
  | 0, _, _, _, _, m => some m
  | t + 1, i, ck, cy, s, m =>
    let r1 := recvCut ck s
    let r2 := recvCut (freshCells (8 * (degree - 1)) (fresh (3 * i))) r1.2
    let r3 := recvCut cy r2.2
    let r4 := recvCut (freshCells (8 * numQuad degree) (fresh (3 * i + 1))) r3.2
    let r5 := recvCut (freshCells (8 * (degree - 1)) (fresh (3 * i + 2))) r4.2
    let r6 := packetCut nMul r5.2
    (known r1.1).bind fun pk => (known r2.1).bind fun x => (known r3.1).bind fun yb => (known r4.1).bind fun x2 => (known r5.1).bind fun xy =>
    let y := htonll (BitVec.ofNat 64 (leVal yb))
    match r6.1 with
    | none => linCutLoop degree nMul mx fresh t (i + 1) r1.1 ((rawWord y).map some) r6.2 m
    | some k =>
      let row : LinRow := ⟨wordsOf (degree - 1) x, y, wordsOf (numQuad degree) x2, wordsOf (degree - 1) xy, k⟩
      if (m.lookup pk).isSome || !linOk mx row then linCutLoop degree nMul mx fresh t (i + 1) r1.1 ((rawWord y).map some) r6.2 m
      else linCutLoop degree nMul mx fresh t (i + 1) r1.1 ((rawWord y).map some) r6.2 (m ++ [(pk, row)])

/-- The map built by `linreg_op` (server.cpp:922-975). -/
def linCutIntake (degree nMul nbits : ℕ) (fresh : ℕ → ℕ → Option Byte) (total : ℕ) (s : Bytes) : Option (Map LinRow) :=
  (maxVal nbits).bind fun mx => linCutLoop degree nMul mx fresh total 0 (List.replicate pkLength none) (List.replicate 8 none) s []

/-! ## freq_op -/

/-- The loop of `freq_op` (server.cpp:1217-1229) from submission `i` on; `fresh` is the content of the array allocated by
`recv_bool_batch` (net_share.cpp:58), all of whose bytes are read. -/
def freqCutLoop (w : ℕ) (fresh : ℕ → ℕ → Option Byte) : ℕ → ℕ → Cells → Bytes → Map (List Bool) → Option (Map (List Bool))
  | 0, _, _, _, m => some m
  | t + 1, i, ck, s, m =>
    let r := recvCut ck s
    let q := recvCut (freshCells ((w + 7) / 8) (fresh i)) r.2
    (known r.1).bind fun pk => (known q.1).bind fun buf =>
    if (m.lookup pk).isSome then freqCutLoop w fresh t (i + 1) r.1 q.2 m
    else freqCutLoop w fresh t (i + 1) r.1 q.2 (m ++ [(pk, (List.range w).map (unpackBit buf))])

/-- The map built by `freq_op` (server.cpp:1212-1229). -/
def freqCutIntake (w : ℕ) (fresh : ℕ → ℕ → Option Byte) (total : ℕ) (s : Bytes) : Option (Map (List Bool)) :=
  freqCutLoop w fresh total 0 (List.replicate pkLength none) s []

end Verif
