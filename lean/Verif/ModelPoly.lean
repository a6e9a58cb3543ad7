import Verif.ModelConstants
import Mathlib.Algebra.Polynomial.Derivative
import Mathlib.Algebra.Polynomial.Div
import Mathlib.Data.ZMod.Basic

/-!
# poly/poly_batch.c and poly/poly_once.c

`fmpz_mod_poly_t` is `Polynomial (ZMod p)`; product, derivative, remainder by a monic divisor and coefficient access of FLINT
are the Mathlib operations. FLINT reduces a coefficient that is set (poly/poly_batch.c:95-96) and returns coefficients in
`[0, p)`.
-/

namespace Verif

open Polynomial

/-- `struct tree_s` (poly/poly_batch.h). -/
inductive PTree (p : ℕ) where
  | leaf (poly : (ZMod p)[X])
  | node (poly : (ZMod p)[X]) (left right : PTree p)

/-- `pre->poly`. -/
def PTree.poly {p : ℕ} : PTree p → (ZMod p)[X]
  | .leaf f => f
  | .node f _ _ => f

/-- `tree_init` (poly/poly_batch.c:74-115); the list is `pointsX[0 .. n_points-1]`. Without points the recursion does not
end; outcome `none`. -/
noncomputable def treeInit (p : ℕ) (xs : List ℤ) : Option (PTree p) :=
  if h1 : xs.length = 1 then some (.leaf (X + C (((-(xs[0]'(by omega)) : ℤ)) : ZMod p)))
  else if h0 : xs.length = 0 then none
  else
    let k := xs.length / 2
    (treeInit p (xs.take k)).bind fun l => (treeInit p (xs.drop k)).bind fun r => some (.node (l.poly * r.poly) l r)
termination_by xs.length
decreasing_by
  · simp; omega
  · simp; omega

/-- `fast_evaluate` (poly/poly_batch.c:236-255), the values written to `pointsY[0 .. n_points-1]`. `none`: missing subtree, or no
points. -/
noncomputable def fastEvaluate {p : ℕ} (f : (ZMod p)[X]) : PTree p → ℕ → Option (List ℤ)
  | _, 0 => none
  | _, 1 => some [((f.coeff 0).val : ℤ)]
  | .leaf _, _ + 2 => none
  | .node _ l r, n + 2 =>
    let k := (n + 2) / 2
    (fastEvaluate (f %ₘ l.poly) l k).bind fun a => (fastEvaluate (f %ₘ r.poly) r (n + 2 - k)).bind fun b => some (a ++ b)

/-- Entrywise `fmpz_invmod` (poly/poly_batch.c:131-133); an undefined inverse makes the outcome `none`. -/
def invAll (p : ℕ) : List ℤ → Option (List ℤ)
  | [] => some []
  | a :: l => (invmod a p).bind fun b => (invAll p l).map fun c => b :: c

/-- The fields of `struct precomp_s` used later (poly/poly_batch.h). -/
structure BatchPre where
  xs : List ℤ
  ss : List ℤ
  deriving DecidableEq, Repr

/-- `poly_batch_precomp_init` with `c_precomp_init` (poly/poly_batch.c:117-155). -/
noncomputable def batchPre (p : ℕ) (xs : List ℤ) : Option BatchPre :=
  (treeInit p xs).bind fun t => (fastEvaluate (derivative t.poly) t xs.length).bind fun ds =>
    (invAll p ds).map fun ss => ⟨xs, ss⟩

/-- `struct precomp_x_s` (poly/poly_once.h): `short_x ≥ 0`, in which case the coefficients are never read, or the
coefficients. -/
inductive PreX where
  | short (i : ℕ)
  | coeffs (c : List ℤ)
  deriving DecidableEq, Repr

/-- The product of all `x - x_i` (poly/poly_once.c:43-49). -/
def diffProd (p : ℕ) (x : ℤ) (xs : List ℤ) : ℤ := xs.foldl (fun prod xi => fmod (prod * (x - xi)) p) 1

/-- The coefficient loop (poly/poly_once.c:51-60). -/
def preXCoeffs (p : ℕ) (x prod : ℤ) : List ℤ → List ℤ → Option (List ℤ)
  | xi :: xs, s :: ss => (invmod (fmod (x - xi) p) p).bind fun t =>
      (preXCoeffs p x prod xs ss).map fun c => fmod (t * prod * s) p :: c
  | [], _ => some []
  | _ :: _, [] => none

/-- `precomp_x_init` (poly/poly_once.c:8-64). The comparison with the nodes is one of integers (22). In the short case the
coefficient loop divides by zero; its results are not read. -/
def preXInit (p : ℕ) (pre : BatchPre) (x : ℤ) : Option PreX :=
  match pre.xs.findIdx? (fun xi => x = xi) with
  | some i => some (.short i)
  | none => (preXCoeffs p x (diffProd p x pre.xs) pre.xs pre.ss).map .coeffs

/-- The summation loop of `precomp_x_eval` (poly/poly_once.c:89-96). -/
def preXSum (p : ℕ) : ℤ → List ℤ → List ℤ → Option ℤ
  | out, [], _ => some out
  | _, _ :: _, [] => none
  | out, c :: cs, y :: ys => preXSum p (fmod (out + fmod (y * c) p) p) cs ys

/-- `precomp_x_eval` (poly/poly_once.c:77-98). In the short case the value is copied without reduction. `none`: access behind
the value array. -/
def preXEval (p : ℕ) (pre : PreX) (ys : List ℤ) : Option ℤ :=
  match pre with
  | .short i => ys[i]?
  | .coeffs c => preXSum p 0 c ys

end Verif
