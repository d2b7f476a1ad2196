import Verif.Model.Views
import Verif.Model.BufferApi

/-!
The programs of the project's own sequential tests of the buffer and its views, tests/mutable_buffer_tests.cpp. Watermarks and records are parameters.
A test is a list of calls and observations; what is observed is compared with what the test asserts in `Properties/OwnViewTests.lean`.
-/

namespace DE.Own
open VBuf
variable {R : Type} [DecidableEq R] [Inhabited R]

/-- One line of a test: a call (its return value is observed), or an observation. -/
inductive Cmd (R : Type) where
  | op (o : Op R)
  /-- `buffer->get_available_capacity()` -/
  | avail
  /-- `buffer->get_record_count()`, MutableBuffer.h 100 -/
  | count
  /-- `view.get_record_count()`, BufferView.h 104 -/
  | viewCount (i : Nat)
  /-- `view.get(i)->rec` for all `i` -/
  | scan (i : Nat)
  /-- the records in the array filled by `view.copy_to_buffer` -/
  | copy (i : Nat)

/-- What a line observes. -/
inductive Obs (R : Type) where
  | flag (b : Bool)
  | num (n : Nat)
  | recs (l : List R)
deriving DecidableEq

/-- One line. `none` if the call never returns. -/
def line (x : VBuf R) : Cmd R → Res (Option (VBuf R × Obs R))
  | .op o => do
    match ← x.step o with
    | none => .ok none
    | some (y, b) => .ok (some (y, .flag b))
  | .avail => .ok (some (x, .num x.available))
  | .count => .ok (some (x, .num (x.b.tail - x.b.head)))
  | .viewCount i => do
    let o ← x.obj i
    .ok (some (x, .num (window x.b o).count))
  | .scan i => do
    let o ← x.obj i
    let l ← (window x.b o).gets
    .ok (some (x, .recs (l.map Wrapped.record)))
  | .copy i => do
    let o ← x.obj i
    let l ← (window x.b o).copyOut
    .ok (some (x, .recs (l.map Wrapped.record)))

/-- The lines of a test in order. -/
def script (x : VBuf R) : List (Cmd R) → Res (Option (List (Obs R)))
  | [] => .ok (some [])
  | c :: cs => do
    match ← line x c with
    | none => .ok none
    | some (y, o) =>
      match ← script y cs with
      | none => .ok none
      | some os => .ok (some (o :: os))

/-- The first loop of the tests, tests/mutable_buffer_tests.cpp 112-122, 249-259, 326-335: append the records, and note the tail when
`is_at_low_watermark` (MutableBuffer.h 106) first holds. The return values of the appends, and `new_head`. -/
def fillLow (x : VBuf R) (newHead : Nat) : List R → VBuf R × List Bool × Nat
  | [] => (x, [], newHead)
  | r :: rs =>
    let (b, ok) := x.b.append r false
    let newHead := if b.tail - b.head ≥ b.lwm ∧ newHead = 0 then b.tail else newHead
    let (y, oks, h) := fillLow { x with b := b } newHead rs
    (y, ok :: oks, h)

/-- `t_advance_head`, tests/mutable_buffer_tests.cpp 104-154: the return values of the appends and the further observations. The
temporary view of line 136 is object 1. -/
def advanceHeadTest (lwm hwm : Nat) (xs : List R) : Res (Option (List Bool × List (Obs R))) := do
  let x ← VBuf.new lwm hwm 0
  let (x, oks, newHead) := fillLow x 0 xs
  match ← script x [.avail, .op .view, .viewCount 0, .copy 0, .op (.advance newHead), .count, .op .view, .viewCount 1, .op (.destroy 1),
      .viewCount 0, .avail, .op (.advance (x.b.tail - 1)), .op (.destroy 0), .avail, .op (.advance x.b.tail), .count] with
  | none => .ok none
  | some os => .ok (some (oks, os))

/-- `t_bview_get`, tests/mutable_buffer_tests.cpp 241-314, with the records `ys` in the second loop of appends. -/
def bviewGetTest (lwm hwm : Nat) (xs ys : List R) : Res (Option (List Bool × List (Obs R))) := do
  let x ← VBuf.new lwm hwm 0
  let (x, oks, newHead) := fillLow x 0 xs
  match ← script x ([.avail, .op .view, .scan 0, .op (.advance newHead), .scan 0, .op (.destroy 0), .op .view, .scan 1, .op (.destroy 1)] ++
      ys.map (fun r => .op (.append r false)) ++ [.op .view, .scan 2, .op (.destroy 2)]) with
  | none => .ok none
  | some os => .ok (some (oks, os))

/-- What one round of the append loops of `t_insert` and `t_truncate` observes. -/
structure Round where
  lowBefore : Bool
  fullBefore : Bool
  accepted : Bool
  tombstone : Bool
  count : Nat
  tail : Nat
  tombstones : Nat
deriving DecidableEq

/-- The append loops of `t_insert` (tests/mutable_buffer_tests.cpp 59-91) and `t_truncate` (209-224). -/
def rounds {F : Type} (B : BFilter R F) (x : FBuf R F) : List (R × Bool) → Res (FBuf R F × List Round)
  | [] => .ok (x, [])
  | (r, ts) :: ps => do
    let (y, ok) := x.append B r ts
    let c ← y.checkTombstone B r
    let (z, os) ← rounds B y ps
    .ok (z, ⟨x.b.atLwm, x.isFull, ok, c, y.count, y.b.tail, y.b.tscnt⟩ :: os)

/-- What the end of `t_truncate` observes: `is_full`, a further `append`, then after `truncate`: `is_full`, `get_record_count`,
`get_tombstone_count`, and an `append`. -/
structure AtEnd where
  full : Bool
  refused : Bool
  fullAfter : Bool
  countAfter : Nat
  tombstonesAfter : Nat
  accepted : Bool
deriving DecidableEq

/-- `t_truncate`, tests/mutable_buffer_tests.cpp 202-239, with `t_insert` (51-101) as its first part. -/
def truncateTest {F : Type} (B : BFilter R F) (lwm hwm : Nat) (ps : List (R × Bool)) (r : R) : Res (List Round × AtEnd) := do
  let x ← FBuf.new B lwm hwm
  let (x, os) ← rounds B x ps
  let (y, ok) := x.append B r false
  let z := y.truncate B
  .ok (os, ⟨x.isFull, !ok, z.isFull, z.count, z.b.tscnt, (z.append B r false).2⟩)

end DE.Own
