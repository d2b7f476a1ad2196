import Verif.Model.Snapshot
import Verif.Model.Dynamic

/-!
Ownership of shards and levels. `Verif/Model/Snapshot.lean` has the pointers between versions, levels and shards but never frees
anything; here the same functions count references as `shared_ptr` does, free an object when its last reference goes, and any use of a
freed object, any second free, is undefined behaviour.

Simplifications: a raw pointer that owns its object (`m_pending_shard`, `temp_level`, the shards of `create_static_structure`) counts as
one reference, and `delete` gives it up. The copies of shared pointers made by the range-based `for` loops (e.g. InternalLevel.h 97) are
released in the same iteration and not counted. Contents of a freed object stay in the model's heap but may not be used.
-/

namespace DE.Rc
variable {R : Type}
open Snap

/-- The heap of `Snapshot` with the number of references to each shard and level; 0 means not allocated or freed. -/
structure RHeap (R : Type) where
  h : Heap R
  src : Nat → Nat
  lrc : Nat → Nat

/-- Assignment to one counter. -/
def put (f : Nat → Nat) (a n : Nat) : Nat → Nat := fun b => if b = a then n else f b

/-- `new ShardType(...)`, `make_shared<ShardType>(...)`: one reference, held by the caller. -/
def newShard (x : RHeap R) (s : Shard R) : RHeap R × Nat :=
  ({ h := (x.h.newShard s).1, src := put x.src x.h.sh.length 1, lrc := x.lrc }, (x.h.newShard s).2)

/-- `new InternalLevel(...)`: one reference, held by the caller; the shard pointers of `l` are moved into it. -/
def newLevel (x : RHeap R) (l : HLevel) : RHeap R × Nat :=
  ({ h := (x.h.newLevel l).1, src := x.src, lrc := put x.lrc x.h.lv.length 1 }, (x.h.newLevel l).2)

/-- Assignment to the members of a level. -/
def setLevel (x : RHeap R) (a : Nat) (l : HLevel) : RHeap R := { x with h := x.h.setLevel a l }

/-- Dereferencing a pointer to a shard. -/
def useS (x : RHeap R) (a : Nat) : Res Unit := if x.src a = 0 then .error .ub else .ok ()

/-- Dereferencing the non-null pointers of a list. -/
def useSs (x : RHeap R) : List (Option Nat) → Res Unit
  | [] => .ok ()
  | none :: as => useSs x as
  | some a :: as => do useS x a; useSs x as

/-- Dereferencing a pointer to a level. -/
def useL (x : RHeap R) (a : Nat) : Res HLevel := if x.lrc a = 0 then .error .ub else getR x.h.lv a

/-- Copying a `shared_ptr` to a shard. -/
def incS (x : RHeap R) (a : Nat) : Res (RHeap R) :=
  if x.src a = 0 then .error .ub else .ok { x with src := put x.src a (x.src a + 1) }

/-- Copying the shared pointers of a list. -/
def incSs (x : RHeap R) : List (Option Nat) → Res (RHeap R)
  | [] => .ok x
  | none :: as => incSs x as
  | some a :: as => do
    let x ← incS x a
    incSs x as

/-- Dropping a reference to a shard (destroying or overwriting a `shared_ptr`, or `delete`); the last one frees it. -/
def decS (x : RHeap R) (a : Nat) : Res (RHeap R) :=
  if x.src a = 0 then .error .ub else .ok { x with src := put x.src a (x.src a - 1) }

/-- Dropping the references of a list. -/
def decSs (x : RHeap R) : List (Option Nat) → Res (RHeap R)
  | [] => .ok x
  | none :: as => decSs x as
  | some a :: as => do
    let x ← decS x a
    decSs x as

/-- Copying a `shared_ptr` to a level. -/
def incL (x : RHeap R) (a : Nat) : Res (RHeap R) :=
  if x.lrc a = 0 then .error .ub else .ok { x with lrc := put x.lrc a (x.lrc a + 1) }

/-- Dropping a reference to a level; the last one runs `~InternalLevel` (InternalLevel.h 40: deletes the pending shard; then the
vector of shard pointers is destroyed) and frees it. -/
def decL (x : RHeap R) (a : Nat) : Res (RHeap R) := do
  let l ← useL x a
  let y : RHeap R := { x with lrc := put x.lrc a (x.lrc a - 1) }
  if x.lrc a = 1 then decSs y (l.pending :: l.shards) else .ok y

/-- Dropping the references of a list of levels. -/
def decLs (x : RHeap R) : List Nat → Res (RHeap R)
  | [] => .ok x
  | a :: as => do
    let x ← decL x a
    decLs x as

/-- `reconstruction(base_level, new_level)`, InternalLevel.h 50-61. -/
def reconstruct2 (I : ShardImpl R) (x : RHeap R) (base new' : HLevel) : Res (RHeap R × Nat) := do
  assertC (decide (base.no > new'.no ∨ (base.no = 0 ∧ new'.no = 0)))
  let s0 ← getR base.shards 0
  let s1 ← getR new'.shards 0
  useSs x [s0, s1]
  let m ← I.merge [x.h.shard s0, x.h.shard s1]
  let (x, a) := newShard x m
  .ok (newLevel x { no := base.no, cnt := 1, shards := [some a], pending := none })

/-- `reconstruction(levels, level_idx)`, InternalLevel.h 63-78. -/
def reconstructMany (I : ShardImpl R) (x : RHeap R) (levels : List HLevel) (idx : Nat) : Res (RHeap R × Nat) := do
  useSs x (levels.flatMap HLevel.shards)
  let m ← I.merge (levels.flatMap (present x.h))
  let (x, a) := newShard x m
  .ok (newLevel x { no := idx, cnt := 1, shards := [some a], pending := none })

/-- `append_level`, InternalLevel.h 88-111. The raw pointer `m_pending_shard` is overwritten without a `delete`. -/
def appendLevel (I : ShardImpl R) (x : RHeap R) (self : Nat) (level : HLevel) : Res (RHeap R) := do
  if level.cnt = 0 then .ok x
  else
    useSs x level.shards
    let m ← I.merge (present x.h level)
    let l ← useL x self
    let (x, a) := newShard x m
    if l.cnt = l.shards.length then .ok (setLevel x self { l with pending := some a })
    else do
      let x ← decSs x [(l.shards[l.cnt]?).join]
      .ok (setLevel x self { l with shards := l.shards.set l.cnt (some a), cnt := l.cnt + 1 })

/-- `append_buffer`, InternalLevel.h 119-128. -/
def appendBuffer (I : ShardImpl R) (x : RHeap R) (self : Nat) (v : View R) : Res (RHeap R) := do
  let l ← useL x self
  if l.cnt = l.shards.length then
    assertC l.pending.isNone
    let s ← I.build v
    let (x, a) := newShard x s
    .ok (setLevel x self { l with pending := some a })
  else
    let s ← I.build v
    let (x, a) := newShard x s
    let x ← decSs x [(l.shards[l.cnt]?).join]
    .ok (setLevel x self { l with shards := l.shards.set l.cnt (some a), cnt := l.cnt + 1 })

/-- `finalize`, InternalLevel.h 130-140: the old shard pointers are reset, the pending shard moves to slot 0. -/
def finalize (x : RHeap R) (self : Nat) : Res (RHeap R) := do
  let l ← useL x self
  match l.pending with
  | none => .ok x
  | some p =>
    if l.shards.length = 0 then .error .ub
    else do
      let x ← decSs x l.shards
      .ok (setLevel x self { l with shards := (List.replicate l.shards.length none).set 0 (some p), cnt := 1, pending := none })

/-- The loop of `copy`, ExtensionStructure.h 67-69, with `clone`, InternalLevel.h 274-283. -/
def cloneAll (x : RHeap R) : List Nat → Res (RHeap R × List Nat)
  | [] => .ok (x, [])
  | a :: as => do
    let l ← useL x a
    let x ← incSs x (l.shards.take l.cnt)
    let (x, b) := newLevel x (clone l)
    let (x, bs) ← cloneAll x as
    .ok (x, b :: bs)

/-- `copy`, ExtensionStructure.h 64-75. -/
def copy (x : RHeap R) (st : HStruct) : Res (RHeap R × HStruct) := do
  let (x, ls) ← cloneAll x st.levels
  .ok (x, { st with levels := ls })

/-- The loop replacing the source levels, ExtensionStructure.h 442-449. -/
def emptySources (target : Nat) (x : RHeap R) (st : HStruct) : List Nat → Res (RHeap R × HStruct)
  | [] => .ok (x, st)
  | s :: ss => do
    let (x, a) := newLevel x (HLevel.new s 1)
    let old ← getR st.levels s
    let x ← decL x old
    emptySources target x
      { st with levels := st.levels.set s a
                state := st.state.set s { reccnt := 0, reccap := Struct.levelCap st.bufSize st.sf target
                                          shardcnt := 0, shardcap := 1 } } ss

/-- Dereferencing a list of level pointers. -/
def useLs (x : RHeap R) : List Nat → Res (List HLevel)
  | [] => .ok []
  | a :: as => do
    let l ← useL x a
    let ls ← useLs x as
    .ok (l :: ls)

/-- `reconstruction(ReconstructionTask)`, ExtensionStructure.h 420-452. -/
def reconstructBSM (I : ShardImpl R) (x : RHeap R) (st : HStruct) (t : Task) : Res (RHeap R × HStruct) := do
  let addrs ← t.sources.mapM (getR st.levels)
  let levels ← useLs x addrs
  let (x, a) ← reconstructMany I x levels t.target
  let ns : LState := { reccnt := (readAt x.h a).recordCount, reccap := Struct.levelCap st.bufSize st.sf t.target
                       shardcnt := 1, shardcap := 1 }
  if t.target ≥ st.levels.length then
    emptySources t.target x { st with state := st.state ++ [ns], levels := st.levels ++ [a] } t.sources
  else do
    let old ← getR st.levels t.target
    let x ← decL x old
    emptySources t.target x { st with state := st.state.set t.target ns, levels := st.levels.set t.target a } t.sources

/-- The target level, ExtensionStructure.h 482-493. -/
def newBase (L : Layout) (I : ShardImpl R) (x : RHeap R) (ab ai : Nat) : Res (RHeap R × Nat) := do
  let lb ← useL x ab
  let li ← useL x ai
  match L with
  | .leveling =>
    if lb.cnt > 0 then do
      let (x, nb) ← reconstruct2 I x lb li
      let x ← decL x ab
      .ok (x, nb)
    else do
      let x ← incL x ai
      let x ← decL x ab
      .ok (x, ai)
  | _ => do
    let x ← appendLevel I x ab li
    let x ← finalize x ab
    .ok (x, ab)

/-- `reconstruction(base_level, incoming_level)`, ExtensionStructure.h 460-507. -/
def reconstruct (L : Layout) (I : ShardImpl R) (x : RHeap R) (st : HStruct) (base incoming : Nat) :
    Res (RHeap R × HStruct) := do
  let cap := Struct.shardCap L st.sf
  let (x, st) := if base ≥ st.levels.length then
      let (x, a) := newLevel x (HLevel.new base cap)
      (x, { st with levels := st.levels ++ [a]
                    state := st.state ++ [{ reccnt := 0, reccap := Struct.levelCap st.bufSize st.sf base
                                            shardcnt := 0, shardcap := cap }] })
    else (x, st)
  let ab ← getR st.levels base
  let ai ← getR st.levels incoming
  let (x, nb) ← newBase L I x ab ai
  let (x, ni) := newLevel x (HLevel.new incoming cap)
  let old ← getR (st.levels.set base nb) incoming
  let x ← decL x old
  .ok (x, { st with
    levels := (st.levels.set base nb).set incoming ni
    state := (st.state.set base
        { reccnt := (readAt x.h nb).recordCount, reccap := Struct.levelCap st.bufSize st.sf base
          shardcnt := (readAt x.h nb).cnt, shardcap := cap }).set incoming
        { reccnt := 0, reccap := Struct.levelCap st.bufSize st.sf incoming, shardcnt := 0, shardcap := cap } })

/-- The new level 0, ExtensionStructure.h 609-623. -/
def newL0 (L : Layout) (I : ShardImpl R) (x : RHeap R) (a0 : Nat) (v : View R) : Res (RHeap R × Nat) := do
  let old ← useL x a0
  match L with
  | .leveling => do
    let (x, tmp) := newLevel x (HLevel.new 0 1)
    let x ← appendBuffer I x tmp v
    let lt ← useL x tmp
    if old.cnt > 0 then do
      let (x, nl) ← reconstruct2 I x old lt
      let x ← decL x a0
      let x ← decL x tmp
      .ok (x, nl)
    else do
      let x ← decL x a0
      .ok (x, tmp)
  | _ => do
    let x ← appendBuffer I x a0 v
    .ok (x, a0)

/-- `flush_buffer_into_l0`, ExtensionStructure.h 597-630. -/
def flushIntoL0 (L : Layout) (I : ShardImpl R) (x : RHeap R) (st : HStruct) (v : View R) : Res (RHeap R × HStruct) := do
  let cap := Struct.shardCap L st.sf
  let (x, st) := if st.levels.length = 0 then
      let (x, a) := newLevel x (HLevel.new 0 cap)
      (x, { st with levels := st.levels ++ [a]
                    state := st.state ++ [{ reccnt := 0, reccap := Struct.levelCap st.bufSize st.sf 0
                                            shardcnt := 0, shardcap := cap }] })
    else (x, st)
  let a0 ← getR st.levels 0
  let (x, nl) ← newL0 L I x a0 v
  let s0 ← getR st.state 0
  .ok (x, { st with levels := st.levels.set 0 nl
                    state := st.state.set 0 { s0 with reccnt := (readAt x.h nl).recordCount, shardcnt := (readAt x.h nl).cnt } })

/-- `flush_buffer`, ExtensionStructure.h 108-119. -/
def flushBuffer (L : Layout) (I : ShardImpl R) (x : RHeap R) (st : HStruct) (v : View R) : Res (RHeap R × HStruct) := do
  let tmp := if st.state.length = 0 then (Struct.grow L (read x.h st) st.state).1 else st.state
  assertC (Struct.canReconstructWith L 0 v.count tmp)
  flushIntoL0 L I x st v

/-- The reconstruction part of the job, DynamicExtension.h 563-572. -/
def runTasks (L : Layout) (I : ShardImpl R) (x : RHeap R) (st : HStruct) (tasks : List Task) : Res (RHeap R × HStruct) :=
  match L with
  | .bsm =>
    match tasks with
    | [] => .ok (x, st)
    | t :: _ => reconstructBSM I x st t
  | _ => tasks.foldlM (fun (y : RHeap R × HStruct) t => do
      let src ← getR t.sources 0
      reconstruct L I y.1 y.2 t.target src) (x, st)

/-- The next version made from `st` and the buffer, as `Snap.next`. -/
def next (L : Layout) (I : ShardImpl R) (x : RHeap R) (st : HStruct) (hwm : Nat) (v : View R) : Res (RHeap R × HStruct) := do
  let (x, st) ← copy x st
  let tasks ← Struct.getReconstructionTasks L (read x.h st) hwm
  let (x, st) ← runTasks L I x st tasks
  flushBuffer L I x st v

/-- `~ExtensionStructure`, ExtensionStructure.h 48 (run by `~Epoch`, Epoch.h 42-44): the vector of level pointers is destroyed. -/
def destroy (x : RHeap R) (st : HStruct) : Res (RHeap R) := decLs x st.levels

/-- The pointers collected by `get_local_queries`, ExtensionStructure.h 521-533 and InternalLevel.h 162-174, each of which is
dereferenced by `local_preproc` and again by `local_query` (DynamicExtension.h 638-639). -/
def visit (x : RHeap R) : List Nat → Res (List Nat)
  | [] => .ok []
  | a :: as => do
    let l ← useL x a
    useSs x (l.shards.take l.cnt)
    let rest ← visit x as
    .ok ((l.shards.take l.cnt).filterMap id ++ rest)

/-- The loop of `create_static_structure` over the levels, DynamicExtension.h 314-321, levels given last to first, with
`get_combined_shard` (InternalLevel.h 148-160). -/
def combineLevels (I : ShardImpl R) (x : RHeap R) : List Nat → Res (RHeap R × List Nat)
  | [] => .ok (x, [])
  | a :: as => do
    let l ← useL x a
    useSs x (l.shards.take l.cnt)
    if (readLevel x.h l).recordCount > 0 then do
      useSs x l.shards
      let m ← I.merge (present x.h l)
      let (x, s) := newShard x m
      let (x, ss) ← combineLevels I x as
      .ok (x, s :: ss)
    else combineLevels I x as

/-- `create_static_structure`, DynamicExtension.h 305-344, on a version and a view of the buffer: the address of the shard handed to the
caller. -/
def createStatic (I : ShardImpl R) (x : RHeap R) (st : HStruct) (v : View R) : Res (RHeap R × Nat) := do
  let (x, ss) ← combineLevels I x st.levels.reverse
  let (x, ss) ← (if v.count > 0 then do
      let s ← I.build v
      let (x, a) := newShard x s
      .ok (x, ss ++ [a])
    else .ok (x, ss) : Res (RHeap R × List Nat))
  useSs x (ss.map some)
  let m ← I.merge (ss.map (fun a => x.h.shard (some a)))
  let (x, f) := newShard x m
  let x ← decSs x (ss.map some)
  .ok (x, f)

end DE.Rc
