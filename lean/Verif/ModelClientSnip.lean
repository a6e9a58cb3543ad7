import Verif.ModelVar

/-!
# What an honest client of VAR and STDDEV sends (client.cpp)
-/

namespace Verif

/-- `var_op_helper` for one submission (client.cpp:772-809): the value, the square and the two rows. `max_int = 1 << num_bits`.
`t` are the client's root tables after `share_polynomials` has set them up. -/
def clientVar (nbits : ℕ) (rawReal rawShare rawShare2 : U64) (t : RootTables) (r : SnipRand) : Option (U64 × SnipRow × SnipRow) :=
  let mx : U64 := 1#64 <<< nbits
  let real := rawReal % mx
  let share0 := rawShare % mx
  let share1 := share0 ^^^ real
  let squared := real * real
  let share02 := rawShare2 % (mx * mx)
  let share12 := share02 ^^^ squared
  (checkVar intModulus).bind fun c =>
  (c.eval intModulus [real.toInt, squared.toInt]).bind fun e =>
  (sharePolynomials intModulus c e.1 t r).map fun pk => (real, ⟨[share0, share02], pk.1⟩, ⟨[share1, share12], pk.2⟩)

/-- One submission on the wire (client.cpp:816-822): the 48 bytes of `VarShare` (key, value, square in host order), then the packet.
`none`: `send_ClientPacket` reads beyond a one-limb number (see `encFmpz`). -/
def encVarShare (e : Bytes × SnipRow) : Option Bytes := (encPacket e.2.packet).map fun b => e.1 ++ encWords e.2.vals ++ b

/-- All submissions of a run, in order (client.cpp:816-825). -/
def encVarShares (subs : List (Bytes × SnipRow)) : Option Bytes := (optAll (subs.map encVarShare)).map List.flatten

end Verif
