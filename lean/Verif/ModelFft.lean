import Verif.ModelConstants

/-!
# poly/fft.c, at the level of its arrays

Pointers are a buffer and an offset; every access is checked against the length of the buffer.
-/

namespace Verif

/-- The arrays in use: the caller's `roots` and `ys`, and the arrays of `fft_interpolate` (poly/fft.c:40-43). -/
inductive FBuf where
  | roots | ys | out | tmp | ySub | rootsSub
  deriving DecidableEq, Repr

/-- Contents of the arrays. -/
abbrev FMem := FBuf → ℕ → ℤ

/-- A pointer into an array. -/
abbrev FPtr := FBuf × ℕ

/-- Pointer arithmetic `&a[i]` (poly/fft.c:18). -/
def FPtr.plus (q : FPtr) (i : ℕ) : FPtr := (q.1, q.2 + i)

/-- Read `q[i]`; `none` out of bounds. `sz` are the array lengths. -/
def frd (sz : FBuf → ℕ) (q : FPtr) (i : ℕ) (m : FMem) : Option ℤ := if q.2 + i < sz q.1 then some (m q.1 (q.2 + i)) else none

/-- Write `q[i] = v`; `none` out of bounds. -/
def fwr (sz : FBuf → ℕ) (q : FPtr) (i : ℕ) (v : ℤ) (m : FMem) : Option FMem :=
  if q.2 + i < sz q.1 then some fun b j => if b = q.1 ∧ j = q.2 + i then v else m b j else none

/-- `for (int i = 0; i < n; i++) body`. -/
def floop (body : ℕ → FMem → Option FMem) : ℕ → FMem → Option FMem
  | 0, m => some m
  | n + 1, m => (floop body n m).bind (body n)

/-- First loop (poly/fft.c:11-16). -/
def fftSplitAdd (p : ℕ) (sz : FBuf → ℕ) (h : ℕ) (roots ys ySub rootsSub : FPtr) (i : ℕ) (m : FMem) : Option FMem :=
  (frd sz ys i m).bind fun a => (frd sz ys (i + h) m).bind fun b => (fwr sz ySub i (fmod (a + b) p) m).bind fun m =>
    (frd sz roots (2 * i) m).bind fun r => fwr sz rootsSub i r m

/-- Third loop (poly/fft.c:24-29). -/
def fftSplitSub (p : ℕ) (sz : FBuf → ℕ) (h : ℕ) (roots ys ySub : FPtr) (i : ℕ) (m : FMem) : Option FMem :=
  (frd sz ys i m).bind fun a => (frd sz ys (i + h) m).bind fun b => (frd sz roots i m).bind fun r =>
    fwr sz ySub i (fmod (fmod (a - b) p * r) p) m

/-- Second and fourth loop (poly/fft.c:19-21, 32-34), `c` being 0 or 1. -/
def fftCopy (sz : FBuf → ℕ) (c : ℕ) (out tmp : FPtr) (i : ℕ) (m : FMem) : Option FMem :=
  (frd sz tmp i m).bind fun t => fwr sz out (2 * i + c) t m

/-- `fft_recurse` (poly/fft.c:4-35). `n = 0` does not terminate in C; outcome `none`. -/
def fftRecurse (p : ℕ) (sz : FBuf → ℕ) (n : ℕ) (out roots ys tmp ySub rootsSub : FPtr) (m : FMem) : Option FMem :=
  if n = 1 then (frd sz ys 0 m).bind fun y => fwr sz out 0 y m
  else if hn : n = 0 then none
  else
    let h := n / 2
    (floop (fftSplitAdd p sz h roots ys ySub rootsSub) h m).bind fun m =>
    (fftRecurse p sz h tmp rootsSub ySub (tmp.plus h) (ySub.plus h) (rootsSub.plus h) m).bind fun m =>
    (floop (fftCopy sz 0 out tmp) h m).bind fun m =>
    (floop (fftSplitSub p sz h roots ys ySub) h m).bind fun m =>
    (fftRecurse p sz h tmp rootsSub ySub (tmp.plus h) (ySub.plus h) (rootsSub.plus h) m).bind fun m =>
    floop (fftCopy sz 1 out tmp) h m
termination_by n
decreasing_by all_goals omega

/-- `fft_interpolate(mod, nPoints, roots, ys, invert)` (poly/fft.c:37-72). All local arrays have `nPoints` entries, zero at
first; the lists are the caller's arrays. `none`: access out of bounds, non-termination, or undefined inverse. -/
def fftInterpolate (p : ℕ) (n : ℕ) (roots ys : List ℤ) (invert : Bool) : Option (List ℤ) :=
  let sz : FBuf → ℕ := fun b => match b with | .roots => roots.length | .ys => ys.length | _ => n
  let m : FMem := fun b i => match b with | .roots => roots.getD i 0 | .ys => ys.getD i 0 | _ => 0
  (fftRecurse p sz n (.out, 0) (.roots, 0) (.ys, 0) (.tmp, 0) (.ySub, 0) (.rootsSub, 0) m).bind fun m =>
  let out := (List.range n).map (m .out)
  if invert then (invmod n p).map fun ni => out.map fun x => fmod (x * ni) p else some out

end Verif
