import Verif.Model.Buffer
/-!
`MutableBuffer` with the reference counts of its two heads, and `BufferView` objects that can be created, moved and destroyed in any
order: what one thread can do with the two classes directly (they are public and have unit tests, tests/mutable_buffer_tests.cpp).
The interleavings of several threads are in `Conc.lean`; there every view is created and destroyed by the same thread.
The tombstone filter and `truncate` are in `BufferApi.lean`. A default-constructed view (BufferView.h 27) has an indeterminate
`m_active`; nothing constructs one, and it is not modelled. A loop that cannot end (the code spins until another thread does
something) is the outcome `none`.
-/
namespace DE
variable {R : Type}

/-- A `BufferView` object, BufferView.h 139-149; `active` is `m_active`. The rest (`m_data`, `m_start`, `m_stop`, `m_cap`) follows
from the buffer. -/
structure VObj where
  head : Nat
  tail : Nat
  active : Bool
deriving DecidableEq, Repr

/-- A buffer with the counts of `m_head` and `m_old_head` (MutableBuffer.h 36-39), and the view objects made so far; `none` is a
destroyed one. -/
structure VBuf (R : Type) where
  b : Buffer R
  headRef : Nat
  oldIdx : Nat
  oldRef : Nat
  objs : List (Option VObj)

namespace VBuf

/-- What an object gives access to: the window on the live ring; nothing after it has been moved from (BufferView.h 36-46). -/
def window (b : Buffer R) (o : VObj) : View R :=
  { data := b.data, cap := if o.active then b.cap else 0, head := o.head, tail := o.tail, tscnt := b.tscnt }

/-- Constructor, MutableBuffer.h 43-54, with the optional capacity. -/
def new [Inhabited R] (lwm hwm capacity : Nat) : Res (VBuf R) := do
  let cap := if capacity = 0 then 2 * hwm else capacity
  assertC (decide (cap > hwm))
  assertC (decide (hwm ≥ lwm))
  .ok { b := { lwm, hwm, cap, tail := 0, head := 0, data := fun _ => default, tscnt := 0 }
        headRef := 0, oldIdx := hwm, oldRef := 0, objs := [] }

/-- `get_head(target_head)`, MutableBuffer.h 177-196: take a reference; `none` if neither head matches. -/
def getHead (x : VBuf R) (g : Nat) : Option (VBuf R) :=
  if x.oldIdx = g then some { x with oldRef := x.oldRef + 1 }
  else if x.b.head = g then some { x with headRef := x.headRef + 1 }
  else none

/-- `release_head_reference`, MutableBuffer.h 254-279; `none` if the count is 0. -/
def release (x : VBuf R) (h : Nat) : Option (VBuf R) :=
  if x.oldIdx = h then if x.oldRef = 0 then none else some { x with oldRef := x.oldRef - 1 }
  else if x.headRef = 0 then none else some { x with headRef := x.headRef - 1 }

/-- `get_buffer_view(target_head)`, MutableBuffer.h 124-130; a new object. -/
def getView (x : VBuf R) (g : Nat) : Option (VBuf R) :=
  match x.getHead g with
  | none => none
  | some y => some { y with objs := y.objs ++ [some ⟨g, y.b.tail, true⟩] }

/-- `BufferView(BufferView &&)`, BufferView.h 36-46. -/
def move (x : VBuf R) (i : Nat) (o : VObj) : VBuf R :=
  { x with objs := x.objs.set i (some ⟨0, 0, false⟩) ++ [some o] }

/-- `~BufferView`, BufferView.h 58-62. -/
def destroy (x : VBuf R) (i : Nat) (o : VObj) : Option (VBuf R) :=
  let y := { x with objs := x.objs.set i none }
  if o.active then y.release o.head else some y

/-- `advance_head`, MutableBuffer.h 145-171: refused while the old head has references. -/
def advance (x : VBuf R) (n : Nat) : Res (VBuf R × Bool) := do
  let b ← x.b.advanceHead n
  if x.oldRef > 0 then .ok (x, false)
  else .ok ({ x with b := b, headRef := 0, oldIdx := x.b.head, oldRef := x.headRef }, true)

/-- `get_available_capacity`, MutableBuffer.h 222-229. -/
def available (x : VBuf R) : Nat :=
  if x.oldRef = 0 then x.b.cap - (x.b.tail - x.b.head) else x.b.cap - (x.b.tail - x.oldIdx)

/-- The calls. `i` is the number of a view object, in the order of construction. -/
inductive Op (R : Type) where
  | append (r : R) (ts : Bool)
  /-- `get_buffer_view()` -/
  | view
  /-- `get_buffer_view(target_head)` -/
  | viewAt (g : Nat)
  | move (i : Nat)
  | destroy (i : Nat)
  /-- `delete_record` on a view -/
  | tag (i : Nat) (r : R)
  | advance (n : Nat)
  | setLow (n : Nat)
  | setHigh (n : Nat)

/-- The object with number `i`; using a destroyed one is UB. -/
def obj (x : VBuf R) (i : Nat) : Res VObj :=
  match x.objs[i]? with
  | some (some o) => .ok o
  | _ => .error .ub

/-- One call and the value it returns (`true` for calls without a result). `set_low_watermark`, `set_high_watermark`: MutableBuffer.h
198-211; `delete_record`: BufferView.h 77-102; `get_buffer_view()`: MutableBuffer.h 132-138. -/
def step [DecidableEq R] (x : VBuf R) : Op R → Res (Option (VBuf R × Bool))
  | .append r ts => .ok (some ({ x with b := (x.b.append r ts).1 }, (x.b.append r ts).2))
  | .view => .ok ((x.getView x.b.head).map (·, true))
  | .viewAt g => .ok ((x.getView g).map (·, true))
  | .move i => do
    let o ← x.obj i
    .ok (some (x.move i o, true))
  | .destroy i => do
    let o ← x.obj i
    .ok ((x.destroy i o).map (·, true))
  | .tag i r => do
    let o ← x.obj i
    match (window x.b o).deleteSlot r with
    | some j => .ok (some ({ x with b := { x.b with data := Buffer.write x.b.data j (x.b.data j).setDelete } }, true))
    | none => .ok (some (x, false))
  | .advance n => do
    let y ← x.advance n
    .ok (some y)
  | .setLow n => do
    assertC (decide (n < x.b.hwm))
    .ok (some ({ x with b := { x.b with lwm := n } }, true))
  | .setHigh n => do
    assertC (decide (n > x.b.lwm))
    assertC (decide (n < x.b.cap))
    .ok (some ({ x with b := { x.b with hwm := n } }, true))

/-- A sequence of calls. -/
def run [DecidableEq R] (x : VBuf R) : List (Op R) → Res (Option (VBuf R × List Bool))
  | [] => .ok (some (x, []))
  | o :: os => do
    match ← x.step o with
    | none => .ok none
    | some (y, b) =>
      match ← y.run os with
      | none => .ok none
      | some (z, bs) => .ok (some (z, b :: bs))

end VBuf
end DE
