import Verif.Model.Dynamic
import Verif.Model.Rounding

/-!
`calc_level_record_capacity` (ExtensionStructure.h 647-649) as the code computes it: `m_buffer_size * pow(m_scale_factor, idx + 1)`
is a product of `double`s that is converted back to `size_t`. `Structure.lean` uses the exact product. Here are the functions that
call it, copied from there with the capacity computed by a function that may fail; everything else is shared.
-/

namespace DE
variable {R : Type}

/-- `calc_level_record_capacity`, ExtensionStructure.h 647-649: both arguments of `pow` and the buffer size are converted to
`double` (53 bits), `pow` is a parameter, the product rounds, and the conversion to `size_t` is undefined unless the value fits.
(Exponents are not bounded; a value that is infinite in binary64 does not fit either.) -/
def capDouble (pw : Nat → Nat → Nat) (bufSize sf idx : Nat) : Res Nat :=
  let x := rd53 (rd53 bufSize * pw (rd53 sf) (idx + 1))
  if x < 2 ^ 64 then .ok x else .error .ub

/-- A `pow` that returns its exact value rounded. -/
def powStd (b e : Nat) : Nat := rd53 (b ^ e)

/-- What is asked of `pow`: exact values that can be represented are returned exactly. -/
def PowOk (pw : Nat → Nat → Nat) : Prop := ∀ b e, rd53 (b ^ e) = b ^ e → pw b e = b ^ e

namespace CapD
open Struct

variable (cp : Nat → Nat → Nat → Res Nat)

/-- `grow`, ExtensionStructure.h 559-566. -/
def grow (L : Layout) (st : Struct R) (scratch : List LState) : Res (List LState × Nat) := do
  let idx := st.levels.length
  let c ← cp st.bufSize st.sf idx
  .ok (scratch ++ [{ reccnt := 0, reccap := c, shardcnt := 0, shardcap := shardCap L st.sf }], idx)

/-- `get_reconstruction_tasks_from_level`, ExtensionStructure.h 339-418. -/
def tasksFromLevel (L : Layout) (st : Struct R) (source : Nat) (scratch : List LState) :
    Res (List Task × List LState) := do
  let tgt ← findReconstructionTarget L source scratch
  let (scratch, base) ← match tgt with
    | some b => .ok (scratch, b)
    | none => grow cp L st scratch
  match L with
  | .bsm =>
    if base = 0 then .ok ([], scratch)
    else
      let (srcs, n, scratch) ← bsmLoop source base scratch [] 0
      let s ← getR scratch base
      .ok ([{ sources := srcs, target := base, reccnt := n }],
           scratch.set base { s with reccnt := n, shardcnt := 1 })
  | _ => tasksLoop L source base scratch []

/-- `get_reconstruction_tasks`, ExtensionStructure.h 282-334. -/
def getReconstructionTasks (L : Layout) (st : Struct R) (bufCnt : Nat) : Res (List Task) := do
  let (tasks, scratch) ←
    if canReconstructWith L 0 bufCnt st.state then (.ok ([], st.state) : Res _)
    else tasksFromLevel cp L st 0 st.state
  let _ ← getR scratch 0
  .ok tasks

/-- `reconstruction(ReconstructionTask)` for BSM, ExtensionStructure.h 420-452. -/
def reconstructBSM (I : ShardImpl R) (st : Struct R) (t : Task) : Res (Struct R) := do
  let srcs ← t.sources.mapM (getR st.levels)
  let nl ← Level.reconstructMany I srcs t.target
  let c ← cp st.bufSize st.sf t.target
  let ns : LState := { reccnt := nl.recordCount, reccap := c, shardcnt := 1, shardcap := 1 }
  let st := if t.target ≥ st.levels.length then
      { st with state := st.state ++ [ns], levels := st.levels ++ [nl] }
    else { st with state := st.state.set t.target ns, levels := st.levels.set t.target nl }
  .ok (t.sources.foldl (fun st s =>
      { st with levels := st.levels.set s (Level.new s 1)
                state := st.state.set s { reccnt := 0, reccap := c, shardcnt := 0, shardcap := 1 } }) st)

/-- `reconstruction(base_level, incoming_level)` for leveling and tiering, ExtensionStructure.h 460-507. -/
def reconstruct (L : Layout) (I : ShardImpl R) (st : Struct R) (base incoming : Nat) : Res (Struct R) := do
  let cap := shardCap L st.sf
  let st ← if base ≥ st.levels.length then do
      let c ← cp st.bufSize st.sf base
      (.ok { st with levels := st.levels ++ [Level.new base cap]
                     state := st.state ++ [{ reccnt := 0, reccap := c, shardcnt := 0, shardcap := cap }] } : Res (Struct R))
    else .ok st
  let lb ← getR st.levels base
  let li ← getR st.levels incoming
  let nb ← newBase L I lb li
  let cb ← cp st.bufSize st.sf base
  let ci ← cp st.bufSize st.sf incoming
  .ok { st with
    levels := (st.levels.set base nb).set incoming (Level.new incoming cap)
    state := (st.state.set base { reccnt := nb.recordCount, reccap := cb, shardcnt := nb.cnt, shardcap := cap }).set incoming
        { reccnt := 0, reccap := ci, shardcnt := 0, shardcap := cap } }

/-- `flush_buffer_into_l0`, ExtensionStructure.h 597-630. -/
def flushIntoL0 (L : Layout) (I : ShardImpl R) (st : Struct R) (v : View R) : Res (Struct R) := do
  let cap := shardCap L st.sf
  let st ← if st.levels.length = 0 then do
      let c ← cp st.bufSize st.sf 0
      (.ok { st with levels := st.levels ++ [Level.new 0 cap]
                     state := st.state ++ [{ reccnt := 0, reccap := c, shardcnt := 0, shardcap := cap }] } : Res (Struct R))
    else .ok st
  let old ← getR st.levels 0
  let nl ← newL0 L I old v
  let s0 ← getR st.state 0
  .ok { st with levels := st.levels.set 0 nl
                state := st.state.set 0 { s0 with reccnt := nl.recordCount, shardcnt := nl.cnt } }

/-- `flush_buffer`, ExtensionStructure.h 108-119, including the assert. -/
def flushBuffer (L : Layout) (I : ShardImpl R) (st : Struct R) (v : View R) : Res (Struct R) := do
  let tmp ← if st.state.length = 0 then do
      let g ← grow cp L st st.state
      (.ok g.1 : Res (List LState))
    else .ok st.state
  assertC (canReconstructWith L 0 v.count tmp)
  flushIntoL0 cp L I st v

/-- The reconstruction part of the job, DynamicExtension.h 563-572. -/
def runTasks (L : Layout) (I : ShardImpl R) (st : Struct R) (tasks : List Task) : Res (Struct R) :=
  match L with
  | .bsm =>
    match tasks with
    | [] => .ok st
    | t :: _ => reconstructBSM cp I st t
  | _ => tasks.foldlM (fun st t => do
      let src ← getR t.sources 0
      reconstruct cp L I st t.target src) st

/-- The flush of `Dynamic.lean`, DynamicExtension.h 463-607. -/
def flush (d : Index R) : Res (Index R) := do
  let str := d.str.copy
  let tasks ← getReconstructionTasks cp d.L str d.buf.hwm
  let str ← runTasks cp d.L d.impl str tasks
  let v := d.buf.view
  let newHead := v.tail
  let str ← flushBuffer cp d.L d.impl str v
  let buf ← d.buf.advanceHead newHead
  .ok { d with buf, str }

/-- `internal_append`, DynamicExtension.h 711-722. -/
def internalAppend (d : Index R) (r : R) (ts : Bool) : Res (Index R × Bool) := do
  let d ← if d.buf.atLwm then flush cp d else .ok d
  let (buf, ok) := d.buf.append r ts
  .ok ({ d with buf }, ok)

/-- `insert` and `erase`, DynamicExtension.h 133, 159-194. Tagging erases do not compute capacities. -/
def step [DecidableEq R] (d : Index R) : Index.Op R → Res (Index R × Bool)
  | .ins r => internalAppend cp d r false
  | .del r => if d.tagging then d.erase r else internalAppend cp d r true

/-- Execute a history, collecting return values. -/
def run [DecidableEq R] (d : Index R) : List (Index.Op R) → Res (Index R × List Bool)
  | [] => .ok (d, [])
  | o :: os => do
    let (d, b) ← step cp d o
    let (d, bs) ← run d os
    .ok (d, b :: bs)

/-- `validate_tombstone_proportion`, ExtensionStructure.h 192-206. -/
def validateFrom (st : Struct R) : Nat → List (Level R) → Res Bool
  | _, [] => .ok true
  | i, l :: ls => do
    let c ← cp st.bufSize st.sf i
    if l.tombstoneCount ≤ c then validateFrom st (i+1) ls else .ok false

end CapD
end DE
