import Verif.ModelFmpz
import Mathlib.Algebra.Group.Nat.Even
import Mathlib.Data.Int.Bitwise

/-!
# share.h / share.cpp (and the lazy triple dealer of ot.cpp)
-/

namespace Verif

/-- The loop of `NextPowerOfTwo` (share.cpp:11-12) with `fuel` iterations allowed; all arithmetic is 32-bit
unsigned, so `n + 1` and `ans * 2` wrap. `none`: still running. -/
def nextPow2Loop (n : BitVec 32) : ℕ → BitVec 32 → Option (BitVec 32)
  | 0, _ => none
  | fuel + 1, ans => if n + 1#32 > ans then nextPow2Loop n fuel (ans * 2#32) else some ans

/-- `NextPowerOfTwo(n)` (share.cpp:9-14) returns `r`: some number of iterations suffices. -/
def NextPow2Returns (n r : BitVec 32) : Prop := ∃ fuel, nextPow2Loop n fuel 1#32 = some r

/-- `NextPowerOfTwo(n)` (share.cpp:9-14) runs for ever. -/
def NextPow2Diverges (n : BitVec 32) : Prop := ∀ fuel, nextPow2Loop n fuel 1#32 = none

/-- The value of `NextPowerOfTwo(n)` for the sizes used in the rest of the model (`n < 2^31`, where
`C03_returns_least_power` shows that the loop returns this number). -/
def npow2 (n : ℕ) : ℕ := 2 ^ n.size

/-- `SplitShare(val, A, B)` (share.cpp:16-20); `r` is the draw of line 17. -/
def splitShare (p : ℕ) (r val : ℤ) : ℤ × ℤ := (r, fmod (val - r) p)

/-- `struct Cor` (share.h:11-26). -/
structure Cor where
  D : ℤ
  E : ℤ
  deriving DecidableEq, Repr

/-- `struct CorShare` (share.h:29-42). -/
structure CorShare where
  D : ℤ
  E : ℤ
  deriving DecidableEq, Repr

/-- `Cor::Cor(x, y)` (share.cpp:22-28). -/
def Cor.ofShares (p : ℕ) (x y : CorShare) : Cor := ⟨fmod (x.D + y.D) p, fmod (x.E + y.E) p⟩

/-- `struct BeaverTriple` and `struct BeaverTripleShare` (share.h:44-79), same layout. -/
structure Triple where
  A : ℤ
  B : ℤ
  C : ℤ
  deriving DecidableEq, Repr

/-- `NewBeaverTriple()` (share.cpp:45-54); `a`, `b` are the draws of lines 48-49. -/
def newBeaverTriple (p : ℕ) (a b : ℤ) : Triple := ⟨a, b, fmod (a * b) p⟩

/-- `BeaverTripleShares(inp, out0, out1)` (share.cpp:56-62); draws in the order of the code. -/
def beaverTripleShares (p : ℕ) (ra rb rc : ℤ) (t : Triple) : Triple × Triple :=
  let a := splitShare p ra t.A
  let b := splitShare p rb t.B
  let c := splitShare p rc t.C
  (⟨a.1, b.1, c.1⟩, ⟨a.2, b.2, c.2⟩)

/-- The dealer half of `generate_beaver_triple_lazy` (ot.cpp:382-397): server 0's own triple and the triple it
sends; five draws in the order of lines 384-388. -/
def lazyTriple (p : ℕ) (a0 b0 c0 a1 b1 : ℤ) : Triple × Triple :=
  (⟨a0, b0, c0⟩, ⟨a1, b1, fmod ((a0 + a1) * (b0 + b1) - c0) p⟩)

/-- `struct DaBit` (share.h:163-179). -/
structure DaBit where
  bp : ℤ
  b2 : Bool
  deriving DecidableEq, Repr

/-- `fmpz_is_odd`. Used at share.cpp:91. -/
def isOdd (x : ℤ) : Bool := x % 2 = 1

/-- `makeLocalDaBit(bit0, bit1)` (share.cpp:64-98). `bit` is the draw of line 71 (from `[0,2)`), `r` the draw of
line 83 (from `[0, p - (bit+1))`). -/
def makeLocalDaBit (p : ℕ) (bit r : ℤ) : DaBit × DaBit :=
  let adjust := bit + 1
  let bp0 := r + adjust
  let bp1 := fmod (bit - bp0) p
  (⟨bp0, isOdd bp0⟩, ⟨bp1, !isOdd bp1⟩)

/-- The range of the draw of share.cpp:83. -/
def IsDaDraw (p : ℕ) (bit r : ℤ) : Prop := (bit = 0 ∨ bit = 1) ∧ 0 ≤ r ∧ r < p - (bit + 1)

/-- `struct EdaBit` (share.h:182-215). -/
structure EdaBit where
  r : ℤ
  b : List Bool
  deriving DecidableEq, Repr

/-- The loop of `makeLocalEdaBit` (share.cpp:111-124). The list holds the two draws of each iteration; the state
is (r0, r1, pow), and the bits are produced in order. -/
def edaLoop (p : ℕ) : List (ℤ × ℤ) → ℤ → ℤ → ℤ → EdaBit × EdaBit
  | [], r0, r1, _ => (⟨r0, []⟩, ⟨r1, []⟩)
  | (bit, r) :: ds, r0, r1, pow =>
    let d := makeLocalDaBit p bit r
    let r0' := fmod (r0 + pow * d.1.bp) p
    let r1' := fmod (r1 + pow * d.2.bp) p
    let rest := edaLoop p ds r0' r1' (fmod (pow * 2) p)
    (⟨rest.1.r, d.1.b2 :: rest.1.b⟩, ⟨rest.2.r, d.2.b2 :: rest.2.b⟩)

/-- `makeLocalEdaBit(ebit0, ebit1, n)` (share.cpp:101-128), with `n = ds.length`. -/
def makeLocalEdaBit (p : ℕ) (ds : List (ℤ × ℤ)) : EdaBit × EdaBit := edaLoop p ds 0 0 1

end Verif
