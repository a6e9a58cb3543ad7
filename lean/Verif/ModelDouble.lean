import Mathlib.Analysis.Real.Sqrt
import Mathlib.Data.Int.Log
import Mathlib.Algebra.Order.Round

/-!
# The type `double`

IEEE 754 binary64 arithmetic as used by server.cpp:883-893 and client.cpp:857-862: every operation returns the exact result rounded to the
nearest number with 53 significant bits, ties to even. A `double` is modelled by the real number it stands for. The exponent is not limited
here; `C66_range` shows that no operation of these lines gets near the limits of the format. Not a number is a separate outcome (`none`)
of the functions that use this file.
-/

namespace Verif

/-- The nearest integer, the even one of two equally near ones (the default rounding of IEEE 754). -/
noncomputable def nearEven (x : ℝ) : ℤ :=
  if x - ⌊x⌋ < 1 / 2 then ⌊x⌋ else if 1 / 2 < x - ⌊x⌋ then ⌊x⌋ + 1 else if Even ⌊x⌋ then ⌊x⌋ else ⌊x⌋ + 1

/-- The distance of neighbouring `double`s around `x`: 53 significant bits. -/
noncomputable def spacing (x : ℝ) : ℝ := 2 ^ (Int.log 2 |x| - 52)

/-- The rounding of an exact result to a `double`. -/
noncomputable def rnd (x : ℝ) : ℝ := if x = 0 then 0 else nearEven (x / spacing x) * spacing x

/-- `ex2 - (ex * ex)` (server.cpp:886, client.cpp:859). The compiler may contract the two operations to one that rounds once: gcc does by
default for a processor that can (the build takes its flags from emp-tool). `fma` says whether it did. -/
noncomputable def subSquare (fma : Bool) (ex2 ex : ℝ) : ℝ := if fma then rnd (ex2 - ex * ex) else rnd (ex2 - rnd (ex * ex))

end Verif
