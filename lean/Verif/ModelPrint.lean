import Verif.ModelMain
import Mathlib.Data.Nat.Log

/-!
# What the programs print as answers

`operator<<` of the standard library with the default format: integers in decimal, a `double` like `printf("%g")` with six significant digits
(`std::cout` is never given another precision; the only manipulator is `std::boolalpha`).
-/

namespace Verif

abbrev Text := List Char

/-- The character of a digit. -/
def digitChar (d : ℕ) : Char := Char.ofNat (48 + d)

/-- The last `k` decimal digits of `n`, with leading zeros. -/
def digitsOf (k n : ℕ) : List ℕ := (List.range k).map fun i => n / 10 ^ (k - 1 - i) % 10

/-- `std::cout << ans` for a `uint64_t` (server.cpp:1525, 1535, 1565, 1575; client.cpp:168, 296, 649, 1486), and `fmpz_print` for a number that is not
negative (server.cpp:1438). -/
def showNat (n : ℕ) : Text := (digitsOf (Nat.log 10 n + 1) n).map digitChar

/-- `fmpz_print` (server.cpp:1438). -/
def showInt (z : ℤ) : Text := if z < 0 then '-' :: showNat z.natAbs else showNat z.natAbs

/-- `std::cout << std::boolalpha << ans` (server.cpp:1545, 1555; client.cpp:450). -/
def showFlag (b : Bool) : Text := if b then "true".toList else "false".toList

/-- `%g` removes zeros at the end of the fraction. -/
def dropZeros (l : List ℕ) : List ℕ := (l.reverse.dropWhile fun d => d = 0).reverse

/-- Digits before and after the point; without a fraction there is no point. -/
def showPoint (i f : List ℕ) : Text :=
  i.map digitChar ++ if dropZeros f = [] then [] else '.' :: (dropZeros f).map digitChar

/-- The exponent: sign and at least two digits. -/
def showExp (e : ℤ) : Text :=
  'e' :: (if e < 0 then '-' else '+') :: (digitsOf (max 2 (Nat.log 10 e.natAbs + 1)) e.natAbs).map digitChar

/-- `%g` of the number `d * 10 ^ (e - 5)` for `d` with six digits: with the exponent `e` from -4 to 5 without, otherwise with exponent. -/
def showSig (d : ℕ) (e : ℤ) : Text :=
  let l := digitsOf 6 d
  if 0 ≤ e ∧ e < 6 then showPoint (l.take (e.toNat + 1)) (l.drop (e.toNat + 1))
  else if -4 ≤ e ∧ e < 0 then showPoint [0] (List.replicate ((-e).toNat - 1) 0 ++ l)
  else showPoint (l.take 1) (l.drop 1) ++ showExp e

/-- Six significant digits of a positive number, rounded to nearest (glibc rounds the exact value, ties to even), and the exponent of the first. -/
noncomputable def sixDigits (x : ℝ) : ℕ × ℤ :=
  let e := Int.log 10 x
  let d := (nearEven (x / 10 ^ (e - 5))).toNat
  if d = 10 ^ 6 then (10 ^ 5, e + 1) else (d, e)

/-- `std::cout << ans` for a finite `double` (server.cpp:1585, 1595, 1184; client.cpp:863, 1211). Negative zero, which these lines never print
(the difference of equal numbers is positive zero), is left out. -/
noncomputable def showDouble (x : ℝ) : Text :=
  if x = 0 then ['0'] else if x < 0 then '-' :: showSig (sixDigits (-x)).1 (sixDigits (-x)).2 else showSig (sixDigits x).1 (sixDigits x).2

/-- The line `Ans: ..` (server.cpp:1525, 1535, 1545, 1555, 1565, 1575, 1585, 1595). -/
def ansLine (t : Text) : Text := "Ans: ".toList ++ t ++ ['\n']

/-- The lines of FREQ (server.cpp:1436-1440). -/
def freqLines (l : List ℤ) : Text :=
  (l.zipIdx.map fun e => " Freq(".toList ++ showNat e.2 ++ ") = ".toList ++ showInt e.1 ++ ['\n']).flatten

/-- The terms of the estimate (server.cpp:1182-1186, client.cpp:1209-1213) from coefficient `i` on. -/
noncomputable def linTerms : ℕ → List ℝ → Text
  | _, [] => []
  | i, c :: cs => (if 0 < i then " + ".toList else []) ++ showDouble c ++ (if 0 < i then " * x_".toList ++ showNat (i - 1) else []) ++ linTerms (i + 1) cs

/-- The line of LINREG (server.cpp:1181-1187). -/
noncomputable def linLine (cs : List ℝ) : Text := "Estimate: y = ".toList ++ linTerms 0 cs ++ ['\n']

end Verif
