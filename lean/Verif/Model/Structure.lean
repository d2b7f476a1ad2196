import Verif.Model.Merge

/-!
Model of `include/framework/structure/InternalLevel.h` and `ExtensionStructure.h`.
`shared_ptr` sharing between versions is irrelevant for the values (shards are immutable apart from
tagging, which acts on the one current version in serial operation) and is modelled separately in
`Verif/Model/Snapshot.lean`.
-/

namespace DE
variable {R : Type}

/-- `LayoutPolicy`, util/types.h -/
inductive Layout where
  | leveling
  | tiering
  | bsm
deriving DecidableEq, Repr

/-- The operations of a shard class the framework uses: the two constructors (`Shard(BufferView)`,
`Shard(vector<Shard*>)`) and `point_lookup`, returned as the index of the record found. -/
structure ShardImpl (R : Type) where
  build : View R → Res (Shard R)
  merge : List (Option (Shard R)) → Res (Shard R)
  lookup : Shard R → R → Res (Option Nat)

/-- Vector access; out of range is UB. -/
def getR {α : Type} (l : List α) (i : Nat) : Res α :=
  match l[i]? with
  | some a => .ok a
  | none => .error .ub

/-! ### InternalLevel.h -/

/-- `InternalLevel`, InternalLevel.h 285-292: `shards` is `m_shards` (null = `none`). -/
structure Level (R : Type) where
  no : Nat
  cnt : Nat
  shards : List (Option (Shard R))
  pending : Option (Shard R)
deriving DecidableEq, Repr

namespace Level

/-- Constructor, InternalLevel.h 37-39. -/
def new (no cap : Nat) : Level R := { no, cnt := 0, shards := List.replicate cap none, pending := none }

/-- The non-null shards in index order. -/
def present (l : Level R) : List (Shard R) := l.shards.filterMap id

/-- `reconstruction(base_level, new_level)`, InternalLevel.h 50-61. -/
def reconstruct2 (I : ShardImpl R) (base new' : Level R) : Res (Level R) := do
  assertC (decide (base.no > new'.no ∨ (base.no = 0 ∧ new'.no = 0)))
  let s0 ← getR base.shards 0
  let s1 ← getR new'.shards 0
  let m ← I.merge [s0, s1]
  .ok { no := base.no, cnt := 1, shards := [some m], pending := none }

/-- `reconstruction(levels, level_idx)`, InternalLevel.h 63-78. -/
def reconstructMany (I : ShardImpl R) (levels : List (Level R)) (idx : Nat) : Res (Level R) := do
  let m ← I.merge ((levels.flatMap present).map some)
  .ok { no := idx, cnt := 1, shards := [some m], pending := none }

/-- `append_level`, InternalLevel.h 88-111. -/
def appendLevel (I : ShardImpl R) (self level : Level R) : Res (Level R) := do
  if level.cnt = 0 then .ok self
  else
    let m ← I.merge (level.present.map some)
    if self.cnt = self.shards.length then .ok { self with pending := some m }
    else .ok { self with shards := self.shards.set self.cnt (some m), cnt := self.cnt + 1 }

/-- `append_buffer`, InternalLevel.h 119-128. -/
def appendBuffer (I : ShardImpl R) (self : Level R) (v : View R) : Res (Level R) := do
  if self.cnt = self.shards.length then
    assertC self.pending.isNone
    let s ← I.build v
    .ok { self with pending := some s }
  else
    let s ← I.build v
    .ok { self with shards := self.shards.set self.cnt (some s), cnt := self.cnt + 1 }

/-- `finalize`, InternalLevel.h 130-140. -/
def finalize (self : Level R) : Res (Level R) :=
  match self.pending with
  | none => .ok self
  | some p =>
    if self.shards.length = 0 then .error .ub
    else .ok { self with shards := (List.replicate self.shards.length none).set 0 (some p)
                         cnt := 1, pending := none }

/-- `get_combined_shard`, InternalLevel.h 148-160. -/
def combined (I : ShardImpl R) (self : Level R) : Res (Option (Shard R)) :=
  if self.cnt = 0 then .ok none
  else (I.merge (self.present.map some)).map some

/-- The shards visited by `get_local_queries`, InternalLevel.h 162-174. -/
def visible (self : Level R) : List (Shard R) := (self.shards.take self.cnt).filterMap id

/-- `delete_record`, InternalLevel.h 191-206: tag the first match in shard order. -/
def deleteIn (I : ShardImpl R) (r : R) : List (Option (Shard R)) → Res (Option (List (Option (Shard R))))
  | [] => .ok none
  | none :: ss => do
    match ← deleteIn I r ss with
    | none => .ok none
    | some ss' => .ok (some (none :: ss'))
  | some s :: ss => do
    match ← I.lookup s r with
    | some i => .ok (some (some { s with data := s.data.modify i Wrapped.setDelete } :: ss))
    | none =>
      match ← deleteIn I r ss with
      | none => .ok none
      | some ss' => .ok (some (some s :: ss'))

/-- `delete_record`, InternalLevel.h 191-206. -/
def deleteRecord (I : ShardImpl R) (self : Level R) (r : R) : Res (Option (Level R)) := do
  if self.cnt = 0 then .ok none
  else
    match ← deleteIn I r self.shards with
    | none => .ok none
    | some ss => .ok (some { self with shards := ss })

/-- `get_record_count`, InternalLevel.h 218-227. -/
def recordCount (self : Level R) : Nat := (self.visible.map (·.data.length)).sum
/-- `get_tombstone_count`, InternalLevel.h 229-237. -/
def tombstoneCount (self : Level R) : Nat := (self.visible.map (·.tscnt)).sum

/-- `clone`, InternalLevel.h 274-283: copies the first `m_shard_cnt` shard pointers, drops the
pending shard. -/
def clone (self : Level R) : Level R :=
  { no := self.no, cnt := self.cnt
    shards := self.shards.take self.cnt ++ List.replicate (self.shards.length - self.cnt) none
    pending := none }

end Level

/-! ### ExtensionStructure.h -/

/-- `level_state`, ExtensionStructure.h 31-37. -/
structure LState where
  reccnt : Nat
  reccap : Nat
  shardcnt : Nat
  shardcap : Nat
deriving DecidableEq, Repr

/-- `ReconstructionTask`, util/types.h 80-94. -/
structure Task where
  sources : List Nat
  target : Nat
  reccnt : Nat
deriving DecidableEq, Repr

/-- `ExtensionStructure`, ExtensionStructure.h 535-550 (`m_max_delete_prop` is always 1). -/
structure Struct (R : Type) where
  bufSize : Nat
  sf : Nat
  levels : List (Level R)
  state : List LState
deriving DecidableEq, Repr

namespace Struct

/-- `calc_level_record_capacity`, ExtensionStructure.h 647-649 (exact power). -/
def levelCap (bufSize sf idx : Nat) : Nat := bufSize * sf ^ (idx + 1)

/-- `(L == LEVELING) ? 1 : m_scale_factor`, e.g. ExtensionStructure.h 462. -/
def shardCap (L : Layout) (sf : Nat) : Nat :=
  match L with
  | .leveling => 1
  | _ => sf

/-- `can_reconstruct_with`, ExtensionStructure.h 662-678. -/
def canReconstructWith (L : Layout) (idx n : Nat) (state : List LState) : Bool :=
  match state[idx]? with
  | none => false
  | some s =>
    match L with
    | .leveling => decide (s.reccnt + n ≤ s.reccap)
    | .bsm => decide (s.reccnt = 0)
    | .tiering => decide (s.shardcnt < s.shardcap)

/-- `grow`, ExtensionStructure.h 559-566. -/
def grow (L : Layout) (st : Struct R) (scratch : List LState) : List LState × Nat :=
  let idx := st.levels.length
  (scratch ++ [{ reccnt := 0, reccap := levelCap st.bufSize st.sf idx, shardcnt := 0
                 shardcap := shardCap L st.sf }], idx)

/-- The loop of `find_reconstruction_target`, ExtensionStructure.h 585-593: `n` levels are still to
be tried, starting with level `i`. -/
def findTarget (L : Layout) (incoming : Nat) (state : List LState) : Nat → Nat → Option Nat
  | _, 0 => none
  | i, n+1 =>
    if canReconstructWith L i incoming state then some i else findTarget L incoming state (i+1) n

/-- `find_reconstruction_target`, ExtensionStructure.h 575-595 (`-1` is `none`). -/
def findReconstructionTarget (L : Layout) (idx : Nat) (state : List LState) : Res (Option Nat) := do
  if idx = 0 ∧ state.length = 0 then .ok none
  else
    let s ← getR state idx
    .ok (findTarget L s.reccnt state (idx+1) (state.length - (idx+1)))

/-- The loop of `get_reconstruction_tasks_from_level` for leveling and tiering,
ExtensionStructure.h 384-415, counting `i` down to `source+1`. -/
def tasksLoop (L : Layout) (source : Nat) : Nat → List LState → List Task → Res (List Task × List LState)
  | 0, sc, acc => .ok (acc, sc)
  | i+1, sc, acc =>
    if i + 1 > source then do
      let sPrev ← getR sc i
      let sCur ← getR sc (i+1)
      let baseCnt := sPrev.reccnt
      let reccnt :=
        if L = .leveling ∧ canReconstructWith L (i+1) baseCnt sc then baseCnt + sCur.reccnt
        else baseCnt
      let sc := sc.set i { sPrev with reccnt := 0, shardcnt := 0 }
      let shardcnt := if L = .tiering ∨ sCur.shardcnt = 0 then sCur.shardcnt + 1 else sCur.shardcnt
      let sc := sc.set (i+1) { sCur with reccnt := sCur.reccnt + baseCnt, shardcnt := shardcnt }
      tasksLoop L source i sc (acc ++ [{ sources := [i], target := i+1, reccnt := reccnt }])
    else .ok (acc, sc)

/-- The loop collecting the sources of the single BSM task, ExtensionStructure.h 361-367. The code adds the counts to two numbers:
`base_reccnt`, which starts at 0, and `task.reccnt` (`add_source`, util/types.h 85-88), which the declaration `ReconstructionTask
task;` in line 360 leaves uninitialised. Reading it is undefined by the letter of the standard; its value is never used
(`C22_reccnt_unused`), and the model lets it start at 0 as well. -/
def bsmLoop (source : Nat) : Nat → List LState → List Nat → Nat → Res (List Nat × Nat × List LState)
  | 0, sc, acc, n => .ok (acc, n, sc)
  | i+1, sc, acc, n =>
    if i + 1 > source then do
      let s ← getR sc i
      bsmLoop source i (sc.set i { s with reccnt := 0, shardcnt := 0 }) (acc ++ [i]) (n + s.reccnt)
    else .ok (acc, n, sc)

/-- `get_reconstruction_tasks_from_level`, ExtensionStructure.h 339-418. -/
def tasksFromLevel (L : Layout) (st : Struct R) (source : Nat) (scratch : List LState) :
    Res (List Task × List LState) := do
  let tgt ← findReconstructionTarget L source scratch
  let (scratch, base) := match tgt with
    | some b => (scratch, b)
    | none => grow L st scratch
  match L with
  | .bsm =>
    if base = 0 then .ok ([], scratch)
    else
      let (srcs, n, scratch) ← bsmLoop source base scratch [] 0
      let s ← getR scratch base
      .ok ([{ sources := srcs, target := base, reccnt := n }],
           scratch.set base { s with reccnt := n, shardcnt := 1 })
  | _ => tasksLoop L source base scratch []

/-- `get_reconstruction_tasks`, ExtensionStructure.h 282-334 (`LOOKAHEAD` is the constant 1; the
scratch state is discarded on return). The final `scratch_state[0]` update is an access that must be
in range. -/
def getReconstructionTasks (L : Layout) (st : Struct R) (bufCnt : Nat) : Res (List Task) := do
  let (tasks, scratch) ←
    if canReconstructWith L 0 bufCnt st.state then (.ok ([], st.state) : Res _)
    else tasksFromLevel L st 0 st.state
  let _ ← getR scratch 0
  .ok tasks

/-- `reconstruction(ReconstructionTask)` for BSM, ExtensionStructure.h 420-452. -/
def reconstructBSM (I : ShardImpl R) (st : Struct R) (t : Task) : Res (Struct R) := do
  let srcs ← t.sources.mapM (getR st.levels)
  let nl ← Level.reconstructMany I srcs t.target
  let ns : LState := { reccnt := nl.recordCount, reccap := levelCap st.bufSize st.sf t.target
                       shardcnt := 1, shardcap := 1 }
  let st := if t.target ≥ st.levels.length then
      { st with state := st.state ++ [ns], levels := st.levels ++ [nl] }
    else { st with state := st.state.set t.target ns, levels := st.levels.set t.target nl }
  .ok (t.sources.foldl (fun st s =>
      { st with levels := st.levels.set s (Level.new s 1)
                state := st.state.set s { reccnt := 0, reccap := levelCap st.bufSize st.sf t.target
                                          shardcnt := 0, shardcap := 1 } }) st)

/-- The new target level, ExtensionStructure.h 482-493: leveling merges the two single shards or moves
the incoming level; tiering appends the merged incoming level. -/
def newBase (L : Layout) (I : ShardImpl R) (lb li : Level R) : Res (Level R) :=
  match L with
  | .leveling => if lb.cnt > 0 then Level.reconstruct2 I lb li else .ok li
  | _ => do
    let l ← Level.appendLevel I lb li
    Level.finalize l

/-- `reconstruction(base_level, incoming_level)` for leveling and tiering,
ExtensionStructure.h 460-507. -/
def reconstruct (L : Layout) (I : ShardImpl R) (st : Struct R) (base incoming : Nat) :
    Res (Struct R) := do
  let cap := shardCap L st.sf
  let st := if base ≥ st.levels.length then
      { st with levels := st.levels ++ [Level.new base cap]
                state := st.state ++ [{ reccnt := 0, reccap := levelCap st.bufSize st.sf base
                                        shardcnt := 0, shardcap := cap }] }
    else st
  let lb ← getR st.levels base
  let li ← getR st.levels incoming
  let nb ← newBase L I lb li
  .ok { st with
    levels := (st.levels.set base nb).set incoming (Level.new incoming cap)
    state := (st.state.set base
        { reccnt := nb.recordCount, reccap := levelCap st.bufSize st.sf base
          shardcnt := nb.cnt, shardcap := cap }).set incoming
        { reccnt := 0, reccap := levelCap st.bufSize st.sf incoming, shardcnt := 0, shardcap := cap } }

/-- The new level 0, ExtensionStructure.h 609-623. -/
def newL0 (L : Layout) (I : ShardImpl R) (old : Level R) (v : View R) : Res (Level R) :=
  match L with
  | .leveling => do
    let tmp ← Level.appendBuffer I (Level.new 0 1) v
    if old.cnt > 0 then Level.reconstruct2 I old tmp else .ok tmp
  | _ => Level.appendBuffer I old v

/-- `flush_buffer_into_l0`, ExtensionStructure.h 597-630. -/
def flushIntoL0 (L : Layout) (I : ShardImpl R) (st : Struct R) (v : View R) : Res (Struct R) := do
  let cap := shardCap L st.sf
  let st := if st.levels.length = 0 then
      { st with levels := st.levels ++ [Level.new 0 cap]
                state := st.state ++ [{ reccnt := 0, reccap := levelCap st.bufSize st.sf 0
                                        shardcnt := 0, shardcap := cap }] }
    else st
  let old ← getR st.levels 0
  let nl ← newL0 L I old v
  let s0 ← getR st.state 0
  .ok { st with levels := st.levels.set 0 nl
                state := st.state.set 0 { s0 with reccnt := nl.recordCount, shardcnt := nl.cnt } }

/-- `flush_buffer`, ExtensionStructure.h 108-119, including the assert. -/
def flushBuffer (L : Layout) (I : ShardImpl R) (st : Struct R) (v : View R) : Res (Struct R) := do
  let tmp := if st.state.length = 0 then (grow L st st.state).1 else st.state
  assertC (canReconstructWith L 0 v.count tmp)
  flushIntoL0 L I st v

/-- The reconstruction part of the job, DynamicExtension.h 563-572. -/
def runTasks (L : Layout) (I : ShardImpl R) (st : Struct R) (tasks : List Task) : Res (Struct R) :=
  match L with
  | .bsm =>
    match tasks with
    | [] => .ok st
    | t :: _ => reconstructBSM I st t
  | _ => tasks.foldlM (fun st t => do
      let src ← getR t.sources 0
      reconstruct L I st t.target src) st

/-- `copy`, ExtensionStructure.h 64-75. -/
def copy (st : Struct R) : Struct R := { st with levels := st.levels.map Level.clone }

/-- `tagged_delete`, ExtensionStructure.h 86-99: the first level with a match. -/
def taggedDeleteIn (I : ShardImpl R) (r : R) : List (Level R) → Res (Option (List (Level R)))
  | [] => .ok none
  | l :: ls => do
    match ← l.deleteRecord I r with
    | some l' => .ok (some (l' :: ls))
    | none =>
      match ← taggedDeleteIn I r ls with
      | some ls' => .ok (some (l :: ls'))
      | none => .ok none

/-- `get_record_count`, ExtensionStructure.h 125-134. -/
def recordCount (st : Struct R) : Nat := (st.levels.map Level.recordCount).sum
/-- `get_tombstone_count`, ExtensionStructure.h 140-149. -/
def tombstoneCount (st : Struct R) : Nat := (st.levels.map Level.tombstoneCount).sum
/-- `get_height`, ExtensionStructure.h 155. -/
def height (st : Struct R) : Nat := st.levels.length

/-- `validate_tombstone_proportion`, ExtensionStructure.h 192-206 with `m_max_delete_prop = 1`:
`tombstones / capacity > 1` is `tombstones > capacity` (capacities are positive when the watermark
and scale factor are; with capacity 0 the quotient is NaN or infinity, not modelled). -/
def validateFrom (st : Struct R) : Nat → List (Level R) → Bool
  | _, [] => true
  | i, l :: ls =>
    decide (l.tombstoneCount ≤ levelCap st.bufSize st.sf i) && validateFrom st (i+1) ls

/-- `validate_tombstone_proportion`, ExtensionStructure.h 192-206. -/
def validate (st : Struct R) : Bool := validateFrom st 0 st.levels

/-- The shards in `get_local_queries` order, ExtensionStructure.h 522-533. -/
def visible (st : Struct R) : List (Shard R) := st.levels.flatMap Level.visible

end Struct
end DE
