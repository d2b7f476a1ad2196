import Verif.Model.Structure

/-!
Two utilities of the library as classes of their own: the list of reconstruction tasks (`ReconstructionVector`, include/util/types.h 92-141)
and cursors over arrays (`Cursor`, include/util/Cursor.h).

Simplified: counts are unbounded in the tasks but the total is a 64-bit word; a cursor is a position in a list and not an address, null
cursors are marked.
-/

namespace DE

/-- `ReconstructionVector`, util/types.h 92-141: the tasks and `total_reccnt`. -/
structure TaskVec where
  tasks : List Task
  total : BitVec 64
deriving DecidableEq, Repr

namespace TaskVec

/-- The constructor, util/types.h 94. -/
def new : TaskVec := ⟨[], 0⟩

/-- `operator[]`, util/types.h 98. -/
def get (v : TaskVec) (i : Nat) : Res Task := getR v.tasks i

/-- `add_reconstruction(source, target, reccnt)`, util/types.h 100-104. -/
def add (v : TaskVec) (source target reccnt : Nat) : TaskVec :=
  ⟨v.tasks ++ [⟨[source], target, reccnt⟩], v.total + BitVec.ofNat 64 reccnt⟩

/-- `add_reconstruction(task)`, util/types.h 106. -/
def addTask (v : TaskVec) (t : Task) : TaskVec := ⟨v.tasks ++ [t], v.total⟩

/-- `remove_reconstruction`, util/types.h 108-116. -/
def remove (v : TaskVec) (i : Nat) : Res (Task × TaskVec) := do
  assertC (decide (i < v.tasks.length))
  let t ← getR v.tasks i
  .ok (t, ⟨v.tasks.eraseIdx i, v.total - BitVec.ofNat 64 t.reccnt⟩)

/-- The loop of `remove_smallest_reconstruction`, util/types.h 121-126: the tasks from number `i` on. -/
def smallestLoop : List Task → Nat → Nat → Nat → Nat
  | [], _, _, idx => idx
  | t :: ts, i, min, idx => if t.reccnt < min then smallestLoop ts (i + 1) t.reccnt i else smallestLoop ts (i + 1) min idx

/-- `remove_smallest_reconstruction`, util/types.h 118-133. -/
def removeSmallest (v : TaskVec) : Res (Task × TaskVec) := do
  let t0 ← getR v.tasks 0
  let idx := smallestLoop v.tasks.tail 1 t0.reccnt 0
  let t ← getR v.tasks idx
  .ok (t, ⟨v.tasks.eraseIdx idx, v.total - BitVec.ofNat 64 t.reccnt⟩)

/-- `get_total_reccnt`, util/types.h 135. -/
def totalReccnt (v : TaskVec) : Nat := v.total.toNat

/-- `size`, util/types.h 137. -/
def size (v : TaskVec) : Nat := v.tasks.length

end TaskVec

/-- `ReconstructionTask::add_source`, util/types.h 85-88. -/
def Task.addSource (t : Task) (source cnt : Nat) : Task :=
  { t with sources := t.sources ++ [source], reccnt := t.reccnt + cnt }

/-- `Cursor`, Cursor.h 24-33: `ptr` and `end` are positions in the array `arr`. `null`: both are null pointers (`(Cursor<R>){0}`). -/
structure Cur (R : Type) where
  arr : List R
  ptr : Nat
  stop : Nat
  idx : Nat
  cnt : Nat
  null : Bool
deriving DecidableEq, Repr

variable {R : Type}

/-- `advance_cursor`, Cursor.h 45-56. Moving a pointer beyond the position behind its array is undefined. -/
def Cur.advance (c : Cur R) : Res (Cur R × Bool) :=
  if c.null || decide (c.arr.length < c.ptr + 1) then .error .ub
  else
    let c' := { c with ptr := c.ptr + 1, idx := c.idx + 1 }
    if c'.idx ≥ c'.cnt then .ok (c', false)
    else if c'.ptr ≥ c'.stop then .ok (c', false)
    else .ok (c', true)

/-- The record of a cursor that `get_next` looks at, Cursor.h 73-79; `skip`: it is the cursor passed as `current`. -/
def Cur.peek (c : Cur R) (skip : Bool) : Res (Option R) :=
  if c.null then .ok none
  else
    let rec' := if skip then c.ptr + 1 else c.ptr
    if c.arr.length < rec' then .error .ub
    else if rec' ≥ c.stop then .ok none
    else do
      let r ← getR c.arr rec'
      .ok (some r)

/-- The loop of `get_next`, Cursor.h 72-90: the cursors from number `i` on, `min_rec` and the number of `result`. -/
def getNextLoop [LT R] [DecidableLT R] (current : Option Nat) : Nat → List (Cur R) → Option (R × Nat) → Res (Option (R × Nat))
  | _, [], best => .ok best
  | i, c :: cs, best => do
    match ← c.peek (decide (current = some i)) with
    | none => getNextLoop current (i + 1) cs best
    | some r =>
      match best with
      | none => getNextLoop current (i + 1) cs (some (r, i))
      | some (m, j) => if r < m then getNextLoop current (i + 1) cs (some (r, i)) else getNextLoop current (i + 1) cs (some (m, j))

/-- `get_next`, Cursor.h 65-93: the number of the cursor, `none` for `nullptr`. -/
def getNext [LT R] [DecidableLT R] (cs : List (Cur R)) (current : Option Nat) : Res (Option Nat) := do
  let best ← getNextLoop current 0 cs none
  .ok (best.map Prod.snd)

/-- The way the two are used together: take the cursor `get_next` returns, read its record, advance it, until there is none. (Such a loop
is not in the library any more, the merges use a priority queue.) At most `n` rounds. -/
def drainCursors [LT R] [DecidableLT R] : Nat → List (Cur R) → Res (List R)
  | 0, _ => .ok []
  | n + 1, cs => do
    match ← getNext cs none with
    | none => .ok []
    | some i =>
      let c ← getR cs i
      let r ← getR c.arr c.ptr
      let (c', _) ← c.advance
      let rest ← drainCursors n (cs.set i c')
      .ok (r :: rest)

end DE
