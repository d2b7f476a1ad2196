import Verif.Model.Structure

/-!
Serial model of `include/framework/DynamicExtension.h` (SerialScheduler: a scheduled job runs
immediately, SerialScheduler.h 31-38). The epoch indirection collapses: the new epoch is created,
reconstructed, flushed and made current within one call, and the current epoch's buffer head is the
buffer's head (DynamicExtension.h 463-492, Epoch.h 109-112).
That this is what the concurrent program does when one thread uses it is proved, see `Model/SerialSched.lean` and C91.
-/

namespace DE
variable {R : Type}

/-- `DynamicExtension` with its policies. `tagging` = `DeletePolicy::TAGGING`. -/
structure Index (R : Type) where
  L : Layout
  tagging : Bool
  impl : ShardImpl R
  buf : Buffer R
  str : Struct R

namespace Index

/-- Constructor, DynamicExtension.h 81-97. -/
def new [Inhabited R] (L : Layout) (tagging : Bool) (impl : ShardImpl R) (lwm hwm sf : Nat) :
    Res (Index R) := do
  let buf ← Buffer.new lwm hwm
  if L = .bsm then assertC (decide (sf = 2))
  .ok { L, tagging, impl, buf, str := { bufSize := hwm, sf, levels := [], state := [] } }

/-- `schedule_reconstruction` (682-696), `create_new_epoch` (498-514), the `reconstruction` job
(557-607) and `advance_epoch` (463-492), run serially. -/
def flush (d : Index R) : Res (Index R) := do
  let str := d.str.copy
  let tasks ← Struct.getReconstructionTasks d.L str d.buf.hwm
  let str ← Struct.runTasks d.L d.impl str tasks
  let v := d.buf.view
  let newHead := v.tail
  let str ← Struct.flushBuffer d.L d.impl str v
  let buf ← d.buf.advanceHead newHead
  .ok { d with buf, str }

/-- `internal_append`, DynamicExtension.h 711-722. -/
def internalAppend (d : Index R) (r : R) (ts : Bool) : Res (Index R × Bool) := do
  let d ← if d.buf.atLwm then d.flush else .ok d
  let (buf, ok) := d.buf.append r ts
  .ok ({ d with buf }, ok)

/-- `insert`, DynamicExtension.h 133. -/
def insert (d : Index R) (r : R) : Res (Index R × Bool) := d.internalAppend r false

/-- `erase`, DynamicExtension.h 159-194. -/
def erase [DecidableEq R] (d : Index R) (r : R) : Res (Index R × Bool) := do
  if d.tagging then
    match ← Struct.taggedDeleteIn d.impl r d.str.levels with
    | some ls => .ok ({ d with str := { d.str with levels := ls } }, true)
    | none =>
      let (buf, ok) := d.buf.deleteRecord r
      .ok ({ d with buf }, ok)
  else d.internalAppend r true

/-- `get_record_count`, DynamicExtension.h 217-224. -/
def recordCount (d : Index R) : Nat := d.buf.view.count + d.str.recordCount
/-- `get_tombstone_count`, DynamicExtension.h 233-240. -/
def tombstoneCount (d : Index R) : Nat := d.buf.view.tscnt + d.str.tombstoneCount
/-- `get_height`, DynamicExtension.h 250-256. -/
def height (d : Index R) : Nat := d.str.height
/-- `validate_tombstone_proportion`, DynamicExtension.h 367-372. -/
def validate (d : Index R) : Bool := d.str.validate

/-- `create_static_structure`, DynamicExtension.h 306-346: combined shards of the non-empty levels
from the bottom up, then the buffer. -/
def staticStructure (d : Index R) : Res (Shard R) := do
  let fromLevels ← (d.str.levels.reverse.filter (fun l => decide (l.recordCount > 0))).mapM
    (fun l => l.combined d.impl)
  let fromBuf ← if d.buf.view.count > 0 then do
      let s ← d.impl.build d.buf.view
      (.ok [some s] : Res _)
    else .ok []
  d.impl.merge (fromLevels ++ fromBuf)

/-- One client operation. -/
inductive Op (R : Type) where
  | ins (r : R)
  | del (r : R)
deriving DecidableEq, Repr

/-- Execute one operation; the Boolean is the C++ return value (1 / 0). -/
def step [DecidableEq R] (d : Index R) : Op R → Res (Index R × Bool)
  | .ins r => d.insert r
  | .del r => d.erase r

/-- Execute a history, collecting return values. -/
def run [DecidableEq R] (d : Index R) : List (Op R) → Res (Index R × List Bool)
  | [] => .ok (d, [])
  | o :: os => do
    let (d, b) ← d.step o
    let (d, bs) ← d.run os
    .ok (d, b :: bs)

end Index
end DE
