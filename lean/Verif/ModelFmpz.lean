import Mathlib.Algebra.Ring.Int.Defs
import Mathlib.Data.Int.GCD

/-!
# FLINT integers

`fmpz_t` is an unbounded signed integer, modelled by `ℤ`.
-/

namespace Verif

/-- `fmpz_mod(f, g, h)` for a positive modulus: the remainder in `[0, h)`.
Library function used throughout, e.g. share.cpp:19. -/
def fmod (x : ℤ) (p : ℕ) : ℤ := x % (p : ℤ)

/-- `fmpz_invmod(f, g, h)` (used at constants.cpp:56, poly/fft.c:58, poly/poly_batch.c:133,
poly/poly_once.c:56). FLINT documents that when the inverse does not exist the output is undefined; this is
the outcome `none`. -/
def invmod (a : ℤ) (p : ℕ) : Option ℤ :=
  if Int.gcd a p = 1 then some (fmod (Int.gcdA a p) p) else none

/-- `fmpz_powm_ui(f, g, e, m)` (constants.cpp:63-65). -/
def powm (a : ℤ) (k : ℕ) (p : ℕ) : ℤ := fmod (a ^ k) p

/-- The range of `fmpz_randm(f, state, m)`: a draw from `[0, m)` (e.g. share.cpp:17). -/
def IsDraw (r : ℤ) (p : ℕ) : Prop := 0 ≤ r ∧ r < p

/-- A canonical residue: what is stored after `fmpz_mod(·, ·, Int_Modulus)`. -/
def Canon (x : ℤ) (p : ℕ) : Prop := 0 ≤ x ∧ x < p

end Verif
