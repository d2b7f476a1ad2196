import Verif.Model.Record

/-!
Sequential model of `include/framework/structure/MutableBuffer.h` and `BufferView.h`.
The head reference counts and the CAS protocol are modelled separately in
`Verif/Model/Conc.lean`; in serial operation every view is released before the next
operation starts, so the counts are 0 whenever they are tested.
The Bloom filter is omitted (it is only read by `check_tombstone`).
-/

namespace DE

/-- `BufferView`, BufferView.h 139-149 and constructor 50-56: a window `[head, tail)` on the ring. -/
structure View (R : Type) where
  data : Nat → Wrapped R
  cap : Nat
  head : Nat
  tail : Nat
  tscnt : Nat

namespace View
variable {R : Type}

/-- `m_start(m_head % cap)`, BufferView.h 54 -/
def start (v : View R) : Nat := v.head % v.cap
/-- `m_stop(m_tail % cap)`, BufferView.h 54 -/
def stop (v : View R) : Nat := v.tail % v.cap
/-- `get_record_count`, BufferView.h 104 -/
def count (v : View R) : Nat := v.tail - v.head

/-- `to_idx`, BufferView.h 151-155 (the result is asserted to be `< m_cap`, see `get`). -/
def toIdx (v : View R) (i : Nat) : Nat :=
  if v.start + i ≥ v.cap then i - (v.cap - v.start) else v.start + i

/-- `get`, BufferView.h 115 with the assert of `to_idx`. -/
def get (v : View R) (i : Nat) : Res (Wrapped R) :=
  if v.toIdx i < v.cap then .ok (v.data (v.toIdx i)) else .error .abort

/-- The records of a view in `get` order: what `for i < get_record_count(): get(i)` sees. -/
def gets (v : View R) : Res (List (Wrapped R)) := (List.range v.count).mapM v.get

/-- A contiguous copy of `n` slots starting at `lo`. -/
def slice (data : Nat → Wrapped R) (lo n : Nat) : List (Wrapped R) :=
  (List.range n).map (fun i => data (lo + i))

/-- `copy_to_buffer`, BufferView.h 119-133. Reading past the ring is UB. -/
def copyOut (v : View R) : Res (List (Wrapped R)) :=
  if v.start > v.stop then
    .ok (slice v.data v.start (v.cap - v.start) ++ slice v.data 0 v.stop)
  else if v.start + v.count ≤ v.cap then
    .ok (slice v.data v.start v.count)
  else .error .ub

/-- First slot in `[lo, lo+n)` whose record equals `r`. -/
def findSlot [DecidableEq R] (data : Nat → Wrapped R) (r : R) : Nat → Nat → Option Nat
  | _, 0 => none
  | lo, n+1 => if (data lo).record = r then some lo else findSlot data r (lo+1) n

/-- The slot `delete_record` tags, BufferView.h 77-102. When `start >= stop` (in particular for an
empty view) it scans `[start, cap)` and then `[0, stop)`. -/
def deleteSlot [DecidableEq R] (v : View R) (r : R) : Option Nat :=
  if v.start < v.stop then findSlot v.data r v.start (v.stop - v.start)
  else
    match findSlot v.data r v.start (v.cap - v.start) with
    | some i => some i
    | none => findSlot v.data r 0 v.stop

end View

/-- `MutableBuffer`, MutableBuffer.h 281-295. -/
structure Buffer (R : Type) where
  lwm : Nat
  hwm : Nat
  cap : Nat
  tail : Nat
  head : Nat
  data : Nat → Wrapped R
  tscnt : Nat

namespace Buffer
variable {R : Type}

/-- Constructor, MutableBuffer.h 43-54 (default capacity `2 * hwm`), with its two asserts. -/
def new [Inhabited R] (lwm hwm : Nat) : Res (Buffer R) := do
  assertC (decide (2 * hwm > hwm))
  assertC (decide (hwm ≥ lwm))
  .ok { lwm, hwm, cap := 2 * hwm, tail := 0, head := 0, data := fun _ => default, tscnt := 0 }

/-- `get_record_count`, MutableBuffer.h 100 -/
def count (b : Buffer R) : Nat := b.tail - b.head
/-- `is_at_low_watermark`, MutableBuffer.h 106 -/
def atLwm (b : Buffer R) : Bool := decide (b.count ≥ b.lwm)

/-- Write slot `pos`. -/
def write (data : Nat → Wrapped R) (pos : Nat) (w : Wrapped R) : Nat → Wrapped R :=
  fun i => if i = pos then w else data i

/-- The wrapped record `append` leaves in slot `pos`, MutableBuffer.h 67-86:
header 0, tombstone flag, timestamp = `pos`, then the visible flag. -/
def entryAt (r : R) (ts : Bool) (pos : Nat) : Wrapped R :=
  let w : Wrapped R := ⟨0#32, r⟩
  let w := if ts then w.setTombstone else w
  (w.setTimestamp pos).setVisible

/-- `append`, MutableBuffer.h 61-89 with the uncontended `try_advance_tail` 232-250.
The `int32_t` truncation of the tail (line 62) is not in this function; see `Tail32.lean` (C47). -/
def append (b : Buffer R) (r : R) (ts : Bool) : Buffer R × Bool :=
  if b.tail - b.head ≥ b.hwm then (b, false)
  else
    let pos := b.tail % b.cap
    ({ b with tail := b.tail + 1
              data := write b.data pos (entryAt r ts pos)
              tscnt := if ts then b.tscnt + 1 else b.tscnt }, true)

/-- `get_buffer_view`, MutableBuffer.h 124-138 (the view's head is the current head). -/
def view (b : Buffer R) : View R :=
  { data := b.data, cap := b.cap, head := b.head, tail := b.tail, tscnt := b.tscnt }

/-- `BufferView::delete_record` on the live ring, BufferView.h 77-102. -/
def deleteRecord [DecidableEq R] (b : Buffer R) (r : R) : Buffer R × Bool :=
  match b.view.deleteSlot r with
  | some i => ({ b with data := write b.data i (b.data i).setDelete }, true)
  | none => (b, false)

/-- `advance_head`, MutableBuffer.h 145-171 (no outstanding references). `m_tscnt` is *not* changed. -/
def advanceHead (b : Buffer R) (newHead : Nat) : Res (Buffer R) := do
  assertC (decide (newHead > b.head))
  assertC (decide (newHead ≤ b.tail))
  .ok { b with head := newHead }

end Buffer
end DE
