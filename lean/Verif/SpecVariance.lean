import Mathlib.Analysis.Real.Sqrt

/-!
# Specification: variance and what a computed variance has to satisfy

Independent of the model.
-/

namespace Verif

/-- The population variance of a list of values. -/
noncomputable def listVar (l : List ℕ) : ℝ := (l.map fun v : ℕ => ((v : ℝ) - (l.sum : ℝ) / l.length) ^ 2).sum / l.length

/-- The mean of the squares. -/
noncomputable def meanSq (l : List ℕ) : ℝ := (l.map fun v : ℕ => (v : ℝ) ^ 2).sum / l.length

/-- `a` is a good computed variance (`std`: standard deviation) of values with variance `V` and mean square `M`, which are all equal if
`same`: it is not negative, it is zero exactly for equal values, and the computed variance (the square of the computed deviation) is off
by at most 2^-49 of the mean square. -/
def NearVar (std : Bool) (V M : ℝ) (same : Prop) (a : ℝ) : Prop :=
  0 ≤ a ∧ (a = 0 ↔ same) ∧ |(if std then a ^ 2 else a) - V| ≤ 2 ^ (-49 : ℤ) * M

end Verif
