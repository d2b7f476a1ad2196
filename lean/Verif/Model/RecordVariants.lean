import Verif.Model.Record

/-!
The other record types of `include/framework/interface/Record.h`.
-/

namespace DE

/-- `strncmp(a, b, n)` on NUL-terminated byte arrays: compare at most `n` bytes, stop at a NUL or at
the first difference; the result is the sign of the difference. A missing byte (read past the array)
is treated as NUL; the theorems only use it on arrays with their terminator. -/
def strncmp : List Nat → List Nat → Nat → Int
  | _, _, 0 => 0
  | [], [], _+1 => 0
  | [], b :: _, _+1 => if b = 0 then 0 else -1
  | a :: _, [], _+1 => if a = 0 then 0 else 1
  | a :: as, b :: bs, n+1 =>
    if a < b then -1 else if b < a then 1 else if a = 0 then 0 else strncmp as bs n

/-- `Record<const char*, V>`, Record.h 117-121. `mem` is what `key` points to, with the terminator. -/
structure StrRecord (V : Type) where
  mem : List Nat
  value : V
  len : Nat

/-- `operator<`, Record.h 122-125 -/
def StrRecord.cppLt {V : Type} (a b : StrRecord V) : Bool :=
  decide (strncmp a.mem b.mem (min a.len b.len + 1) < 0)
/-- `operator==`, Record.h 127-130 -/
def StrRecord.cppEq {V : Type} (a b : StrRecord V) : Bool :=
  decide (strncmp a.mem b.mem (min a.len b.len + 1) = 0)

/-- `WeightedRecord`, Record.h 133-145: the weight takes no part in comparisons. -/
structure WeightedRecord (K V W : Type) where
  key : K
  value : V
  weight : W

/-- `operator==`, Record.h 138-140 -/
def WeightedRecord.cppEq {K V W : Type} [DecidableEq K] [DecidableEq V] (a b : WeightedRecord K V W) : Bool :=
  decide (a.key = b.key ∧ a.value = b.value)
/-- `operator<`, Record.h 142-144 -/
def WeightedRecord.cppLt {K V W : Type} [LinearOrder K] [LinearOrder V] (a b : WeightedRecord K V W) : Bool :=
  decide (a.key < b.key ∨ (a.key = b.key ∧ a.value < b.value))

/-- `CosinePoint::operator<` / `EuclidPoint::operator<`, Record.h 160-172, 199-211, on the coordinates
(both operands have `D` of them). -/
def pointLt {V : Type} [LinearOrder V] : List V → List V → Bool
  | a :: as, b :: bs => if a < b then true else if b < a then false else pointLt as bs
  | _, _ => false

/-- `operator==` of the points, Record.h 150-158, 189-197. -/
def pointEq {V : Type} [DecidableEq V] : List V → List V → Bool
  | a :: as, b :: bs => if a ≠ b then false else pointEq as bs
  | _, _ => true

end DE
