import Verif.ModelInvalid

/-!
# The debugging client for VAR and STDDEV (`var_op_invalid`, client.cpp:866-1008)

Simplified as in ModelInvalid: printing and the size of the automatic arrays are left out, and `unsigned int i` does not wrap.
-/

namespace Verif

/-- client.cpp:955-958, 963-964. -/
def spoilC : Spoil := ⟨9, 11, 13⟩

/-- A client of `var_op_invalid`: the value, what is taken for its square, and the two rows sent. -/
structure BadVar where
  real : U64
  squared : U64
  row0 : SnipRow
  row1 : SnipRow

instance : Inhabited BadVar := ⟨0#64, 0#64, ⟨[], ⟨[], 0, 0, 0, [], ⟨0, 0, 0⟩⟩⟩, ⟨[], ⟨[], 0, 0, 0, [], ⟨0, 0, 0⟩⟩⟩⟩

/-- The draws of `var_op_invalid` (client.cpp:907-911): keys, values, shares of the values, shares of the squares, the latter three not reduced yet. -/
def varDraws (n : ℕ) (g : Prg) : (ℕ → Bytes) × (ℕ → U64) × (ℕ → U64) × (ℕ → U64) :=
  let b := g.blocks n
  let real := b.2.words n
  let sh := real.2.words n
  let sq := sh.2.words n
  (fun i => pubKeyToHex (b.1.getD i 0#128), fun i => real.1.getD i 0#64, fun i => sh.1.getD i 0#64, fun i => sq.1.getD i 0#64)

/-- `real_vals[i]` (client.cpp:922-924): too large for client 0. -/
def varReal (nbits : ℕ) (r : ℕ → U64) (i : ℕ) : U64 := r i % (1#64 <<< nbits) + if i = 0 then 1#64 <<< nbits else 0#64

/-- `shares0[i]` (client.cpp:925-927): too large for client 1. -/
def varShare0 (nbits : ℕ) (s : ℕ → U64) (i : ℕ) : U64 := s i % (1#64 <<< nbits) + if i = 1 then 1#64 <<< nbits else 0#64

/-- `squared` (client.cpp:929-931): wrong for clients 3 and 4. -/
def varSquared (nbits : ℕ) (r : ℕ → U64) (i : ℕ) : U64 :=
  let v := varReal nbits r i
  if i = 3 ∨ i = 4 then (v * v + 10#64) % ((1#64 <<< nbits) * (1#64 <<< nbits)) else v * v

/-- `shares0_squared[i]` (client.cpp:932-933): not reduced for client 2. -/
def varSquare0 (nbits : ℕ) (z : ℕ → U64) (i : ℕ) : U64 := if i ≠ 2 then z i % ((1#64 <<< nbits) * (1#64 <<< nbits)) else z i

/-- `inp[1]` (client.cpp:970-972): the square that goes through the circuit. -/
def varSnipSquare (nbits : ℕ) (r : ℕ → U64) (i : ℕ) : U64 :=
  let v := varReal nbits r i
  if i = 3 then (v * v + 10#64) % (1#64 <<< nbits) else v * v

/-- What is done to the packets (client.cpp:980-987, 1339-1346). The sums are not reduced. Both arrays have an entry 0 (`NMul` is 1 or 2). -/
def tamper (i : ℕ) (pk : Packet × Packet) : Packet × Packet :=
  if i = 5 then ({ pk.1 with hPoints := pk.1.hPoints.modify 0 (· + 1) }, pk.2)
  else if i = 6 then (pk.1, { pk.2 with f0 := pk.2.f0 + 1 })
  else if i = 7 then ({ pk.1 with mulShares := pk.1.mulShares.modify 0 (· + 1) }, pk.2)
  else if i = 8 then (pk.1, { pk.2 with triple := { pk.2.triple with A := pk.2.triple.A + 1 } })
  else pk

/-- Client `i` (client.cpp:922-989), without its key; `fmpz_set_si` takes a signed number. `none`: `share_polynomials` fails. -/
def varBad (nbits : ℕ) (t : RootTables) (rand : ℕ → SnipRand) (r s z : ℕ → U64) (i : ℕ) : Option BadVar :=
  (checkVar intModulus).bind fun c =>
  (c.eval intModulus [(varReal nbits r i).toInt, (varSnipSquare nbits r i).toInt]).bind fun e =>
  (sharePolynomials intModulus c e.1 t (rand i)).map fun pk =>
    ⟨varReal nbits r i, varSquared nbits r i, ⟨[varShare0 nbits s i, varSquare0 nbits z i], (tamper i pk).1⟩,
      ⟨[varReal nbits r i ^^^ varShare0 nbits s i, varSquared nbits r i ^^^ varSquare0 nbits z i], (tamper i pk).2⟩⟩

/-- `sum`, `sumsquared`, `numvalid` (client.cpp:905, 937-944). -/
def varTotals (nbits : ℕ) (r : ℕ → U64) (n : ℕ) : U64 × U64 × U64 :=
  (List.range n).foldl (fun s i => if i ≤ 9 ∨ i = 11 ∨ i = 13 then s else
    (s.1 + varReal nbits r i, s.2.1 + varSquared nbits r i, s.2.2 + 1#64)) (0#64, 0#64, 0#64)

/-- The answer printed (client.cpp:996-1002). `none`: not a number. -/
noncomputable def varTotalsPrinted (fma std : Bool) (s : U64 × U64 × U64) : Option ℝ :=
  if s.2.2 = 0#64 then none else
  let ex := rnd (rnd (1 * rnd s.1.toNat) / rnd s.2.2.toNat)
  let ex2 := rnd (rnd (1 * rnd s.2.1.toNat) / rnd s.2.2.toNat)
  let v := subSquare fma ex2 ex
  if std then (if v < 0 then none else some (rnd (Real.sqrt v))) else some v

/-- `var_op_invalid` (client.cpp:880-1008): the two streams and the answer printed. `none`: undefined, among others the division by
`max_int * max_int` if that is zero (the test for more than 31 bits at client.cpp:833 is missing here). `rand i` are the FLINT draws for client `i`,
`t` are the root tables of the process. -/
noncomputable def varInvalid (fma std : Bool) (nbits : ℕ) (t : RootTables) (rand : ℕ → SnipRand) (stale : Stale) (n : ℕ) (mx : BitVec 32) (g : Prg) :
    Option (Bytes × Bytes × Option ℝ) :=
  if 0 < n ∧ (1#64 <<< nbits : U64) * (1#64 <<< nbits) = 0#64 then none else
  let d := varDraws n g
  let m := encInit (initMsg (if std then 8#32 else 7#32) n mx)
  (optAll ((List.range n).map (varBad nbits t rand d.2.1 d.2.2.1 d.2.2.2))).bind fun rows =>
  (badSubs (spoilC.key0 stale d.1) (fun i => (rows.getD i default).row0) n).bind fun a =>
  (badSubs (spoilC.key1 stale d.1) (fun i => (rows.getD i default).row1) n).bind fun b =>
  (encVarShares a).bind fun b0 => (encVarShares b).map fun b1 => (m ++ b0, m ++ b1, varTotalsPrinted fma std (varTotals nbits d.2.1 n))

end Verif
