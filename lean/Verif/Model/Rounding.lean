import Verif.Model.Points

/-!
`EuclidPoint::calc_distance` (Record.h 214-221) with the arithmetic the code performs: floating-point operations that round, and for
integer coordinates 64-bit unsigned subtraction and multiplication that wrap. The k-NN search of `VPTree.lean` is generic in the type
of distances and its `+` and `-`, so it is the same model that runs here with rounded arithmetic.

Rounding is a parameter: an arbitrary function from the reals to the reals applied after every operation. Overflow to infinity and NaN
are not modelled.
-/

namespace DE

/-- Floating-point numbers with rounding function `rd`: reals, every operation rounds its exact result. -/
structure Fl (rd : ℝ → ℝ) where
  val : ℝ

namespace Fl
variable {rd : ℝ → ℝ}

theorem val_inj : Function.Injective (Fl.val (rd := rd)) := fun ⟨_⟩ ⟨_⟩ h => congrArg Fl.mk h

noncomputable instance : LinearOrder (Fl rd) := LinearOrder.lift' Fl.val val_inj
noncomputable instance : DecidableEq (Fl rd) := inferInstance
instance : Zero (Fl rd) := ⟨⟨0⟩⟩
instance : Inhabited (Fl rd) := ⟨⟨0⟩⟩
noncomputable instance : Add (Fl rd) := ⟨fun a b => ⟨rd (a.val + b.val)⟩⟩
noncomputable instance : Sub (Fl rd) := ⟨fun a b => ⟨rd (a.val - b.val)⟩⟩
noncomputable instance : Mul (Fl rd) := ⟨fun a b => ⟨rd (a.val * b.val)⟩⟩

/-- `std::sqrt`. -/
noncomputable def sqrt (x : Fl rd) : Fl rd := ⟨rd (Real.sqrt x.val)⟩

/-- The conversion of a 64-bit unsigned integer to `double`. -/
noncomputable def ofU64 (x : BitVec 64) : Fl rd := ⟨rd x.toNat⟩

end Fl

/-- `EuclidPoint::calc_distance`, Record.h 214-221, with coordinates of the type of the distances (`V = double`). -/
def euclidF {F : Type} [Zero F] [Add F] [Sub F] [Mul F] (sqrt : F → F) {D : Nat} (a b : Fin D → F) : F :=
  sqrt ((List.finRange D).foldl (fun s i => s + (a i - b i) * (a i - b i)) 0)

/-- The same with `V = uint64_t`: difference and product are taken modulo 2^64, the product is converted and added to the `double`. -/
noncomputable def euclidU (rd : ℝ → ℝ) {D : Nat} (a b : Fin D → BitVec 64) : Fl rd :=
  Fl.sqrt ((List.finRange D).foldl (fun s i => s + Fl.ofU64 ((a i - b i) * (a i - b i))) 0)

/-! ### A concrete rounding: 53-bit significands -/

/-- `n / d` rounded to an integer, ties to even. -/
def nearestEven (n d : Nat) : Nat :=
  let q := n / d
  let r := n % d
  if 2 * r < d then q else if 2 * r > d then q + 1 else if q % 2 = 0 then q else q + 1

/-- The natural number `n` rounded to 53 significant bits, to nearest, ties to even (binary64 without bounds on the exponent). -/
def rd53 (n : Nat) : Nat :=
  let s := n.log2 - 52
  nearestEven n (2 ^ s) * 2 ^ s

/-- Integers as `double`s: the operations round to 53 bits. Enough to run the search on points with integer coordinates; the results
of the operations on such points are again integers. -/
structure I53 where
  val : Int
deriving DecidableEq, Repr

namespace I53

theorem val_inj : Function.Injective I53.val := fun ⟨_⟩ ⟨_⟩ h => congrArg I53.mk h

instance : LinearOrder I53 := LinearOrder.lift' I53.val val_inj

/-- Round an integer. -/
def round (x : Int) : I53 := ⟨if x < 0 then -(rd53 x.natAbs) else rd53 x.natAbs⟩

instance : Zero I53 := ⟨⟨0⟩⟩
instance : Add I53 := ⟨fun a b => round (a.val + b.val)⟩
instance : Sub I53 := ⟨fun a b => round (a.val - b.val)⟩
instance : Mul I53 := ⟨fun a b => round (a.val * b.val)⟩

/-- The integer square root, bit by bit from `2 ^ (b - 1)` down. -/
def isqrt (n : Nat) : Nat → Nat → Nat
  | 0, r => r
  | b+1, r => if (r + 2 ^ b) * (r + 2 ^ b) ≤ n then isqrt n b (r + 2 ^ b) else isqrt n b r

/-- `std::sqrt` rounded to 53 bits: with `q * 2 ^ s` the root truncated to 53 bits, it is that or the next number, whichever is
closer. Correctly rounded if the root has more than 53 bits or is an integer; other roots are not integers and do not occur in
the runs below. -/
def sqrt (x : I53) : I53 :=
  let n := x.val.toNat
  let r := isqrt n 64 0
  let s := r.log2 - 52
  let q := r / 2 ^ s
  ⟨if (2 * q + 1) * (2 * q + 1) * 4 ^ s < 4 * n then ((q + 1) * 2 ^ s : Nat) else (q * 2 ^ s : Nat)⟩

end I53

end DE
