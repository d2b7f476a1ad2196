import Verif.Model.Dynamic

/-!
Tombstone compaction: `get_compaction_tasks` (ExtensionStructure.h) and `enforce_delete_invariant` (DynamicExtension.h). Nothing in
the repository calls the latter.
-/

namespace DE
variable {R : Type}
namespace Struct

/-- The search for the first level over its tombstone capacity, ExtensionStructure.h 239-246, with
`validate_tombstone_proportion(level)`, ExtensionStructure.h 208-212. -/
def firstViolation (st : Struct R) : Nat → List (Level R) → Option Nat
  | _, [] => none
  | i, l :: ls => if l.tombstoneCount ≤ levelCap st.bufSize st.sf i then firstViolation st (i+1) ls else some i

/-- The loop of `get_compaction_tasks`, ExtensionStructure.h 256-275, counting `i` down to 1. The levels are those of the
structure, the capacities those of the scratch state, which may have one level more. The source of every task is `i - i`. -/
def compactionLoop (L : Layout) (st : Struct R) (sc : List LState) : Nat → Res (List Task)
  | 0 => .ok []
  | i+1 => do
    let l ← getR st.levels i
    let cnt := l.recordCount
    let cnt ← if L = .leveling ∧ canReconstructWith L (i+1) cnt sc = true then do
        let t ← getR st.levels (i+1)
        (.ok (cnt + t.recordCount) : Res Nat)
      else .ok cnt
    let rest ← compactionLoop L st sc i
    .ok ({ sources := [(i+1) - (i+1)], target := i+1, reccnt := cnt } :: rest)

/-- `get_compaction_tasks`, ExtensionStructure.h 227-278, with the assert. -/
def getCompactionTasks (L : Layout) (st : Struct R) : Res (List Task) := do
  if st.validate then .ok []
  else
    match firstViolation st 0 st.levels with
    | none => .error .abort
    | some v =>
      let tgt ← findReconstructionTarget L v st.state
      let (sc, base) := match tgt with
        | some b => (st.state, b)
        | none => grow L st st.state
      compactionLoop L st sc base

/-- `enforce_delete_invariant`, DynamicExtension.h 403-431: as long as there are tasks, run them in a job that does not flush the
buffer (DynamicExtension.h 556-607 with `compaction` set). `none`: more than `n` rounds. The level vector is the one of the
epoch passed in, which the job changes in place. -/
def enforce (L : Layout) (I : ShardImpl R) : Nat → Struct R → Res (Option (Struct R))
  | 0, _ => .ok none
  | n+1, st => do
    let ts ← getCompactionTasks L st
    if ts.length > 0 then do
      let st' ← runTasks L I st ts
      enforce L I n st'
    else .ok (some st)

end Struct

/-- `enforce_delete_invariant` on the structure of the index, at most `n` rounds. -/
def Index.enforce (d : Index R) (n : Nat) : Res (Option (Index R)) := do
  match ← Struct.enforce d.L d.impl n d.str with
  | none => .ok none
  | some str => .ok (some { d with str })

end DE
