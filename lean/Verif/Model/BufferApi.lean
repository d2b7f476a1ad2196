import Verif.Model.Buffer

/-!
The parts of `MutableBuffer` and `BufferView` that the framework itself does not call, but that are public and have unit
tests (tests/mutable_buffer_tests.cpp): `check_tombstone`, `truncate`, `is_full`, `get_available_capacity`.
Here the tombstone filter is part of the state and the `size_t` subtractions wrap.

Simplified: single-threaded use, so the head reference counts are 0 whenever they are tested; the tail is a natural number
(the `int32_t` copy of it in `append` is treated in `Tail32.lean`).
-/

namespace DE

/-- `psudb::BloomFilter` (external, psu-util): the operations used by `MutableBuffer`. -/
structure BFilter (R F : Type) where
  empty : F
  insert : F → R → F
  lookup : F → R → Bool

/-- Contract of the filter: no false negatives. False positives are allowed. -/
def BFilter.NoFalseNeg {R F : Type} (B : BFilter R F) : Prop :=
  ∀ (l : List R) (r : R), r ∈ l → B.lookup (l.foldl B.insert B.empty) r = true

/-- `a - b` on `size_t`. -/
def sub64 (a b : Nat) : Nat := (a + (2 ^ 64 - b % 2 ^ 64)) % 2 ^ 64

/-- `MutableBuffer` with its filter, MutableBuffer.h 281-295. -/
structure FBuf (R F : Type) where
  b : Buffer R
  filt : F

namespace FBuf
variable {R F : Type}

/-- Constructor, MutableBuffer.h 43-54. -/
def new [Inhabited R] (B : BFilter R F) (lwm hwm : Nat) : Res (FBuf R F) := do
  let b ← Buffer.new lwm hwm
  .ok ⟨b, B.empty⟩

/-- `get_record_count`, MutableBuffer.h 100. -/
def count (x : FBuf R F) : Nat := sub64 x.b.tail x.b.head
/-- `is_full`, MutableBuffer.h 104. -/
def isFull (x : FBuf R F) : Bool := decide (x.count ≥ x.b.hwm)
/-- `get_available_capacity`, MutableBuffer.h 222-229, with no references to the old head. -/
def available (x : FBuf R F) : Nat := sub64 x.b.cap (sub64 x.b.tail x.b.head)

/-- `append`, MutableBuffer.h 61-89, with `try_advance_tail` 232-250. -/
def append (B : BFilter R F) (x : FBuf R F) (r : R) (ts : Bool) : FBuf R F × Bool :=
  if sub64 x.b.tail x.b.head ≥ x.b.hwm then (x, false)
  else
    let pos := x.b.tail % x.b.cap
    ({ b := { x.b with tail := x.b.tail + 1
                       data := Buffer.write x.b.data pos (Buffer.entryAt r ts pos)
                       tscnt := if ts then x.b.tscnt + 1 else x.b.tscnt }
       filt := if ts then B.insert x.filt r else x.filt }, true)

/-- `truncate`, MutableBuffer.h 91-98: the head is not reset. -/
def truncate (B : BFilter R F) (x : FBuf R F) : FBuf R F :=
  { b := { x.b with tscnt := 0, tail := 0 }, filt := B.empty }

/-- `advance_head`, MutableBuffer.h 145-171: the filter keeps the consumed tombstones. -/
def advance (x : FBuf R F) (n : Nat) : Res (FBuf R F) := do
  let b ← x.b.advanceHead (x.b.head + n)
  .ok { x with b := b }

/-- The loop of `check_tombstone`, BufferView.h 68-72. -/
def checkFrom [DecidableEq R] (v : View R) (r : R) : Nat → Nat → Res Bool
  | _, 0 => .ok false
  | i, n+1 => do
    let w ← v.get i
    if w.record = r && w.isTombstone then .ok true else checkFrom v r (i+1) n

/-- `check_tombstone`, MutableBuffer.h 114-116 and BufferView.h 64-75. -/
def checkTombstone [DecidableEq R] (B : BFilter R F) (x : FBuf R F) (r : R) : Res Bool :=
  if B.lookup x.filt r then checkFrom x.b.view r 0 x.count else .ok false

end FBuf
end DE
