import Verif.Model.VPTree
import Mathlib.Analysis.Real.Sqrt
import Mathlib.Data.List.FinRange

/-!
Model of the distances of `CosinePoint` and `EuclidPoint` (their ordering is in RecordVariants.lean), include/framework/interface/Record.h 147-223.

Coordinates and `double` arithmetic are exact reals: rounding, overflow and NaN are not modelled. Division by a zero norm is
Lean's `x / 0 = 0` (the code would produce NaN); the theorems assume non-zero points where it matters.
-/

namespace DE.Point
variable {D : Nat}

/-- A loop adding up `f i` over the dimensions. -/
def accum (f : Fin D → ℝ) : ℝ := (List.finRange D).foldl (fun s i => s + f i) 0

/-- `CosinePoint::calc_distance`, Record.h 173-186. -/
noncomputable def cosine (a b : Fin D → ℝ) : ℝ :=
  accum (fun i => a i * b i) / Real.sqrt (accum (fun i => a i * a i) * accum (fun i => b i * b i))

/-- `EuclidPoint::calc_distance`, Record.h 214-221. -/
noncomputable def euclid (a b : Fin D → ℝ) : ℝ := Real.sqrt (accum (fun i => (a i - b i) * (a i - b i)))

end DE.Point
