import Verif.Model.Rounding
import Verif.Model.Buffer

/-!
`EuclidPoint::calc_distance` and the sums of `CosinePoint::calc_distance` (include/framework/interface/Record.h 173-186, 214-221) for
coordinates of any C++ integer type, with the arithmetic of the language: operands narrower than `int` are promoted to `int` (32 bits),
unsigned results are taken modulo 2^bits, and a signed result that does not fit is undefined behaviour.

Simplified: the conversion of the integer result to `double` and the floating-point sum round with an arbitrary function, as in
Rounding.lean. Extended integer types (`__int128`) and platforms where `int` has not 32 bits are not covered.
-/

namespace DE

/-- A C++ integer type. -/
structure IntTy where
  bits : Nat
  signed : Bool
deriving DecidableEq, Repr

namespace IntTy

/-- The least and the greatest value of the type. -/
def lo (t : IntTy) : Int := if t.signed then -2 ^ (t.bits - 1) else 0
def hi (t : IntTy) : Int := if t.signed then 2 ^ (t.bits - 1) - 1 else 2 ^ t.bits - 1

/-- The type can store `x`. -/
def Holds (t : IntTy) (x : Int) : Prop := t.lo ≤ x ∧ x ≤ t.hi

instance (t : IntTy) (x : Int) : Decidable (t.Holds x) := inferInstanceAs (Decidable (_ ∧ _))

/-- The type in which `data[i] - other.data[i]` is computed: integral promotion of both operands (Record.h 217). -/
def promote (t : IntTy) : IntTy := if t.bits < 32 then ⟨32, true⟩ else t

/-- The result of an operation of type `t` whose exact value is `x`. -/
def result (t : IntTy) (x : Int) : Res Int :=
  if t.signed then (if t.Holds x then .ok x else .error .ub) else .ok (x % 2 ^ t.bits)

/-- `(data[i] - other.data[i]) * (data[i] - other.data[i])`, Record.h 217. -/
def sqDiff (t : IntTy) (a b : Int) : Res Int := do
  let d ← t.promote.result (a - b)
  let e ← t.promote.result (a - b)
  t.promote.result (d * e)

/-- `data[i] * other.data[i]`, Record.h 180-182. -/
def prod (t : IntTy) (a b : Int) : Res Int := t.promote.result (a * b)

end IntTy

/-- The loop `dist += f(i)` over the dimensions, Record.h 179-183, 216-218: the integer is converted to `double` and added. -/
noncomputable def sumInts (rd : ℝ → ℝ) {D : Nat} (f : Fin D → Res Int) : Res (Fl rd) :=
  (List.finRange D).foldlM (fun s i => do
    let x ← f i
    return s + ⟨rd x⟩) (0 : Fl rd)

/-- `EuclidPoint<V, D>::calc_distance` with an integer type `V`, Record.h 214-221. -/
noncomputable def euclidI (rd : ℝ → ℝ) (t : IntTy) {D : Nat} (a b : Fin D → Int) : Res (Fl rd) := do
  let s ← sumInts rd (fun i => t.sqDiff (a i) (b i))
  return Fl.sqrt s

/-- The three sums of `CosinePoint<V, D>::calc_distance` with an integer type `V`, Record.h 175-183. -/
noncomputable def cosineSums (rd : ℝ → ℝ) (t : IntTy) {D : Nat} (a b : Fin D → Int) : Res (Fl rd × Fl rd × Fl rd) := do
  let p ← sumInts rd (fun i => t.prod (a i) (b i))
  let x ← sumInts rd (fun i => t.prod (a i) (a i))
  let y ← sumInts rd (fun i => t.prod (b i) (b i))
  return (p, x, y)

end DE
