import Verif.ModelPrint
import Verif.ModelArgs

/-!
# The answers in the output of the two programs

Only the lines with the answer; both programs print other lines (times, counts, bytes sent, the
intermediate line of VAR and STDDEV at server.cpp:889 and 893). `toD` is `fmpq_get_d` (circuit.h:324), which turns
LINREG's exact coefficients to `double`s.
-/

namespace Verif

/-- The line `Ans : ..` of the client (client.cpp:168, 296, 450, 649). -/
def clientLine (t : Text) : Text := "Ans : ".toList ++ t ++ ['\n']

/-- The line `True Ans: ..` of the client (client.cpp:863). -/
def trueLine (t : Text) : Text := "True Ans: ".toList ++ t ++ ['\n']

/-- The answer as printed by the client (client.cpp:168, 296, 450, 649, 863, 1208-1214, 1484-1485). `none`: the text is not described
(not a number, or the coefficients of a singular system). -/
noncomputable def clientText (toD : ℚ → ℝ) : Shown → Option Text
  | .nothing => some []
  | .count a => some (clientLine (showNat a.toNat))
  | .word a => some (clientLine (showNat a.toNat))
  | .flag a => some (clientLine (showFlag a))
  | .nat a => some (clientLine (showNat a))
  | .real a => a.map fun x => trueLine (showDouble x)
  | .coeffs a => a.map fun l => linLine (l.map toD)
  | .hist a => some (freqLines (a.map fun k : ℕ => (k : ℤ)))

/-- An answer is printed after `RET_ANS` only (server.cpp:1524, 1534, 1544, 1554, 1564, 1574, 1584, 1594; 889-893, 1180, 1428). -/
def textOf {α : Type} (f : α → Option Text) : Ret α → Option Text
  | .ans a => f a
  | _ => some []

/-- The answer as printed by a server (server.cpp:1513-1615, 1181-1187, 1436-1440). `none` as for the client. -/
noncomputable def serverText (toD : ℚ → ℝ) : Answer → Option Text
  | .idle => some []
  | .word r => textOf (fun a => some (ansLine (showNat a.toNat))) r
  | .flag r => textOf (fun a => some (ansLine (showFlag a))) r
  | .nat r => textOf (fun a => some (ansLine (showNat a))) r
  | .real r => textOf (fun a => a.map fun x => ansLine (showDouble x)) r
  | .lin r => textOf (fun a => a.map fun l => linLine (l.map toD)) r
  | .hist r => textOf (fun a => some (freqLines a)) r

end Verif
