import Verif.Model.RecordVariants

/-!
Point records with `double` coordinates: the comparisons of Record.h on IEEE 754 binary64 values, the hash of a record (the bytes of
the object), and the hash map of a VPTree with `HMAP` (VPTree.h 130-138, 222-238). `VPTree.lean` and `RecordVariants.lean` treat the
coordinates as a linear order whose equality is equality of the values; here equal values can have different bytes (the two zeros)
and a value need not be equal to itself (NaN).
-/

namespace DE

/-- A `double` as its 64 bits. -/
abbrev Dbl := BitVec 64

namespace Dbl

/-- Exponent and fraction: the bits without the sign. -/
def mag (x : Dbl) : Nat := x.toNat % 2 ^ 63
/-- The sign bit. -/
def neg (x : Dbl) : Bool := x.getLsbD 63
/-- All exponent bits set and a fraction that is not 0. -/
def nan (x : Dbl) : Bool := decide (0x7FF0000000000000 < x.mag)
/-- Position in the order of the numbers (infinities included); the two zeros have the same. -/
def ord (x : Dbl) : Int := if x.neg then -(x.mag : Int) else x.mag

/-- `<` on doubles: false if one is NaN. -/
def lt (x y : Dbl) : Bool := !x.nan && !y.nan && decide (x.ord < y.ord)
/-- `==` on doubles: false if one is NaN. -/
def eq (x y : Dbl) : Bool := !x.nan && !y.nan && decide (x.ord = y.ord)

/-- +0.0, -0.0, 1.0, 2.0 and a quiet NaN. -/
def zero : Dbl := 0x0000000000000000#64
def negZero : Dbl := 0x8000000000000000#64
def one : Dbl := 0x3FF0000000000000#64
def two : Dbl := 0x4000000000000000#64
def qnan : Dbl := 0x7FF8000000000000#64

end Dbl

/-- `CosinePoint::operator<` / `EuclidPoint::operator<` with `V = double`, Record.h 160-172, 199-211. -/
def dblLt : List Dbl → List Dbl → Bool
  | a :: as, b :: bs => if a.lt b then true else if b.lt a then false else dblLt as bs
  | _, _ => false

/-- `operator==` of the points with `V = double`, Record.h 150-158, 189-197. -/
def dblEq : List Dbl → List Dbl → Bool
  | a :: as, b :: bs => if !(a.eq b) then false else dblEq as bs
  | _, _ => true

/-- The map from records to positions, `std::unordered_map<R, size_t, RecordHash<R>>` (VPTree.h 200), as its elements with their hash
codes. The map is external: an element is compared by `operator==` only if it has the same hash code (Record.h 225-229: a function of
the bytes of the record; the points have no padding). -/
abbrev HMap := List (Nat × List Dbl × Nat)

/-- `find`. -/
def HMap.find (h : List Dbl → Nat) (m : HMap) (p : List Dbl) : Option Nat :=
  match List.find? (fun x => decide (x.1 = h p) && dblEq x.2.1 p) m with
  | some x => some x.2.2
  | none => none

/-- `insert({p, i})`: nothing happens if the key is found. -/
def HMap.insert (h : List Dbl → Nat) (m : HMap) (p : List Dbl) (i : Nat) : HMap :=
  match m.find h p with
  | some _ => m
  | none => m ++ [(h p, p, i)]

/-- `build_map`, VPTree.h 222-238, from position `i` on. -/
def HMap.buildFrom (h : List Dbl → Nat) : HMap → Nat → List (List Dbl) → HMap
  | m, _, [] => m
  | m, i, p :: ps => HMap.buildFrom h (m.insert h p i) (i + 1) ps

/-- `point_lookup` with `HMAP`, VPTree.h 130-138: the position of the record found. `data` are the records of the shard in order. -/
def hmapLookup (h : List Dbl → Nat) (data : List (List Dbl)) (p : List Dbl) : Option Nat :=
  HMap.find h (HMap.buildFrom h [] 0 data) p

end DE
