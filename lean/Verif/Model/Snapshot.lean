import Verif.Model.Structure

/-!
Model of the sharing between versions: the levels of a version are heap objects reached through `shared_ptr<InternalLevel>`, the
shards of a level are heap objects reached through `shared_ptr<Shard>`. Every function of `InternalLevel.h` and
`ExtensionStructure.h` that allocates, assigns or mutates through these pointers is modelled with explicit addresses. Objects are
never freed in the model (`shared_ptr` frees an object only when nothing refers to it any more).
-/

namespace DE.Snap
variable {R : Type}

/-- An `InternalLevel` object, InternalLevel.h 285-292; `shards` are the `shared_ptr`s, `pending` the raw pointer. -/
structure HLevel where
  no : Nat
  cnt : Nat
  shards : List (Option Nat)
  pending : Option Nat
deriving DecidableEq, Repr

/-- The heap: shard objects and level objects; addresses are indices. -/
structure Heap (R : Type) where
  sh : List (Shard R)
  lv : List HLevel
deriving DecidableEq, Repr

/-- An `ExtensionStructure` object, ExtensionStructure.h 535-550: `levels` are the `shared_ptr`s. -/
structure HStruct where
  bufSize : Nat
  sf : Nat
  levels : List Nat
  state : List LState
deriving DecidableEq, Repr

namespace Heap

/-- `new ShardType(...)`, `make_shared<ShardType>(...)`. -/
def newShard (h : Heap R) (s : Shard R) : Heap R × Nat := ({ h with sh := h.sh ++ [s] }, h.sh.length)

/-- `new InternalLevel(...)`, `make_shared<InternalLevel>(...)`. -/
def newLevel (h : Heap R) (l : HLevel) : Heap R × Nat := ({ h with lv := h.lv ++ [l] }, h.lv.length)

/-- Assignment to the members of the level at address `a`. -/
def setLevel (h : Heap R) (a : Nat) (l : HLevel) : Heap R := { h with lv := h.lv.set a l }

/-- A shard pointer as the value it points to. -/
def shard (h : Heap R) (o : Option Nat) : Option (Shard R) := o.bind (fun a => h.sh[a]?)

end Heap

/-- `InternalLevel(level_no, shard_cap)`, InternalLevel.h 37-39. -/
def HLevel.new (no cap : Nat) : HLevel := { no, cnt := 0, shards := List.replicate cap none, pending := none }

/-- The shards passed to the merging constructor, e.g. InternalLevel.h 97-101: the non-null pointers in index order. -/
def present (h : Heap R) (l : HLevel) : List (Option (Shard R)) := (l.shards.filter Option.isSome).map h.shard

/-- `clone`, InternalLevel.h 274-283. -/
def clone (l : HLevel) : HLevel :=
  { no := l.no, cnt := l.cnt
    shards := l.shards.take l.cnt ++ List.replicate (l.shards.length - l.cnt) none
    pending := none }

/-- `reconstruction(base_level, new_level)`, InternalLevel.h 50-61. -/
def reconstruct2 (I : ShardImpl R) (h : Heap R) (base new' : HLevel) : Res (Heap R × Nat) := do
  assertC (decide (base.no > new'.no ∨ (base.no = 0 ∧ new'.no = 0)))
  let s0 ← getR base.shards 0
  let s1 ← getR new'.shards 0
  let m ← I.merge [h.shard s0, h.shard s1]
  let (h, a) := h.newShard m
  .ok (h.newLevel { no := base.no, cnt := 1, shards := [some a], pending := none })

/-- `reconstruction(levels, level_idx)`, InternalLevel.h 63-78. -/
def reconstructMany (I : ShardImpl R) (h : Heap R) (levels : List HLevel) (idx : Nat) : Res (Heap R × Nat) := do
  let m ← I.merge (levels.flatMap (present h))
  let (h, a) := h.newShard m
  .ok (h.newLevel { no := idx, cnt := 1, shards := [some a], pending := none })

/-- `append_level`, InternalLevel.h 88-111: mutates the level at address `self`. -/
def appendLevel (I : ShardImpl R) (h : Heap R) (self : Nat) (level : HLevel) : Res (Heap R) := do
  if level.cnt = 0 then .ok h
  else
    let m ← I.merge (present h level)
    let l ← getR h.lv self
    let (h, a) := h.newShard m
    if l.cnt = l.shards.length then .ok (h.setLevel self { l with pending := some a })
    else .ok (h.setLevel self { l with shards := l.shards.set l.cnt (some a), cnt := l.cnt + 1 })

/-- `append_buffer`, InternalLevel.h 119-128: mutates the level at address `self`. -/
def appendBuffer (I : ShardImpl R) (h : Heap R) (self : Nat) (v : View R) : Res (Heap R) := do
  let l ← getR h.lv self
  if l.cnt = l.shards.length then
    assertC l.pending.isNone
    let s ← I.build v
    let (h, a) := h.newShard s
    .ok (h.setLevel self { l with pending := some a })
  else
    let s ← I.build v
    let (h, a) := h.newShard s
    .ok (h.setLevel self { l with shards := l.shards.set l.cnt (some a), cnt := l.cnt + 1 })

/-- `finalize`, InternalLevel.h 130-140: mutates the level at address `self`. -/
def finalize (h : Heap R) (self : Nat) : Res (Heap R) := do
  let l ← getR h.lv self
  match l.pending with
  | none => .ok h
  | some p =>
    if l.shards.length = 0 then .error .ub
    else .ok (h.setLevel self { l with shards := (List.replicate l.shards.length none).set 0 (some p), cnt := 1, pending := none })

/-- The value of a level. -/
def readLevel (h : Heap R) (l : HLevel) : Level R :=
  { no := l.no, cnt := l.cnt, shards := l.shards.map h.shard, pending := h.shard l.pending }

/-- The value of the level at an address. -/
def readAt (h : Heap R) (a : Nat) : Level R :=
  match h.lv[a]? with
  | some l => readLevel h l
  | none => Level.new 0 0

/-- The value of a version: what a reader holding it sees. -/
def read (h : Heap R) (st : HStruct) : Struct R :=
  { bufSize := st.bufSize, sf := st.sf, levels := st.levels.map (readAt h), state := st.state }

/-- The loop of `copy`, ExtensionStructure.h 67-69. -/
def cloneAll (h : Heap R) : List Nat → Res (Heap R × List Nat)
  | [] => .ok (h, [])
  | a :: as => do
    let l ← getR h.lv a
    let (h, b) := h.newLevel (clone l)
    let (h, bs) ← cloneAll h as
    .ok (h, b :: bs)

/-- `copy`, ExtensionStructure.h 64-75. -/
def copy (h : Heap R) (st : HStruct) : Res (Heap R × HStruct) := do
  let (h, ls) ← cloneAll h st.levels
  .ok (h, { st with levels := ls })

/-- The loop replacing the source levels, ExtensionStructure.h 442-449. -/
def emptySources (target : Nat) (h : Heap R) (st : HStruct) : List Nat → Heap R × HStruct
  | [] => (h, st)
  | s :: ss =>
    let (h, a) := h.newLevel (HLevel.new s 1)
    emptySources target h
      { st with levels := st.levels.set s a
                state := st.state.set s { reccnt := 0, reccap := Struct.levelCap st.bufSize st.sf target
                                          shardcnt := 0, shardcap := 1 } } ss

/-- `reconstruction(ReconstructionTask)`, ExtensionStructure.h 420-452. -/
def reconstructBSM (I : ShardImpl R) (h : Heap R) (st : HStruct) (t : Task) : Res (Heap R × HStruct) := do
  let addrs ← t.sources.mapM (getR st.levels)
  let levels ← addrs.mapM (getR h.lv)
  let (h, a) ← reconstructMany I h levels t.target
  let ns : LState := { reccnt := (readAt h a).recordCount, reccap := Struct.levelCap st.bufSize st.sf t.target
                       shardcnt := 1, shardcap := 1 }
  let st := if t.target ≥ st.levels.length then
      { st with state := st.state ++ [ns], levels := st.levels ++ [a] }
    else { st with state := st.state.set t.target ns, levels := st.levels.set t.target a }
  .ok (emptySources t.target h st t.sources)

/-- The target level, ExtensionStructure.h 482-493: the new contents of `m_levels[base_level]`, which under leveling is
reassigned, possibly to the same object as `m_levels[incoming_level]`, and under tiering is mutated in place. -/
def newBase (L : Layout) (I : ShardImpl R) (h : Heap R) (ab ai : Nat) : Res (Heap R × Nat) := do
  let lb ← getR h.lv ab
  let li ← getR h.lv ai
  match L with
  | .leveling => if lb.cnt > 0 then reconstruct2 I h lb li else .ok (h, ai)
  | _ => do
    let h ← appendLevel I h ab li
    let h ← finalize h ab
    .ok (h, ab)

/-- `reconstruction(base_level, incoming_level)`, ExtensionStructure.h 460-507. -/
def reconstruct (L : Layout) (I : ShardImpl R) (h : Heap R) (st : HStruct) (base incoming : Nat) :
    Res (Heap R × HStruct) := do
  let cap := Struct.shardCap L st.sf
  let (h, st) := if base ≥ st.levels.length then
      let (h, a) := h.newLevel (HLevel.new base cap)
      (h, { st with levels := st.levels ++ [a]
                    state := st.state ++ [{ reccnt := 0, reccap := Struct.levelCap st.bufSize st.sf base
                                            shardcnt := 0, shardcap := cap }] })
    else (h, st)
  let ab ← getR st.levels base
  let ai ← getR st.levels incoming
  let (h, nb) ← newBase L I h ab ai
  let (h, ni) := h.newLevel (HLevel.new incoming cap)
  .ok (h, { st with
    levels := (st.levels.set base nb).set incoming ni
    state := (st.state.set base
        { reccnt := (readAt h nb).recordCount, reccap := Struct.levelCap st.bufSize st.sf base
          shardcnt := (readAt h nb).cnt, shardcap := cap }).set incoming
        { reccnt := 0, reccap := Struct.levelCap st.bufSize st.sf incoming, shardcnt := 0, shardcap := cap } })

/-- The new level 0, ExtensionStructure.h 609-623: reassigned under leveling, otherwise mutated in place. -/
def newL0 (L : Layout) (I : ShardImpl R) (h : Heap R) (a0 : Nat) (v : View R) : Res (Heap R × Nat) := do
  let old ← getR h.lv a0
  match L with
  | .leveling => do
    let (h, tmp) := h.newLevel (HLevel.new 0 1)
    let h ← appendBuffer I h tmp v
    let lt ← getR h.lv tmp
    if old.cnt > 0 then reconstruct2 I h old lt else .ok (h, tmp)
  | _ => do
    let h ← appendBuffer I h a0 v
    .ok (h, a0)

/-- `flush_buffer_into_l0`, ExtensionStructure.h 597-630. -/
def flushIntoL0 (L : Layout) (I : ShardImpl R) (h : Heap R) (st : HStruct) (v : View R) : Res (Heap R × HStruct) := do
  let cap := Struct.shardCap L st.sf
  let (h, st) := if st.levels.length = 0 then
      let (h, a) := h.newLevel (HLevel.new 0 cap)
      (h, { st with levels := st.levels ++ [a]
                    state := st.state ++ [{ reccnt := 0, reccap := Struct.levelCap st.bufSize st.sf 0
                                            shardcnt := 0, shardcap := cap }] })
    else (h, st)
  let a0 ← getR st.levels 0
  let (h, nl) ← newL0 L I h a0 v
  let s0 ← getR st.state 0
  .ok (h, { st with levels := st.levels.set 0 nl
                    state := st.state.set 0 { s0 with reccnt := (readAt h nl).recordCount, shardcnt := (readAt h nl).cnt } })

/-- `flush_buffer`, ExtensionStructure.h 108-119. -/
def flushBuffer (L : Layout) (I : ShardImpl R) (h : Heap R) (st : HStruct) (v : View R) : Res (Heap R × HStruct) := do
  let tmp := if st.state.length = 0 then (Struct.grow L (read h st) st.state).1 else st.state
  assertC (Struct.canReconstructWith L 0 v.count tmp)
  flushIntoL0 L I h st v

/-- The reconstruction part of the job, DynamicExtension.h 563-572. -/
def runTasks (L : Layout) (I : ShardImpl R) (h : Heap R) (st : HStruct) (tasks : List Task) : Res (Heap R × HStruct) :=
  match L with
  | .bsm =>
    match tasks with
    | [] => .ok (h, st)
    | t :: _ => reconstructBSM I h st t
  | _ => tasks.foldlM (fun (x : Heap R × HStruct) t => do
      let src ← getR t.sources 0
      reconstruct L I x.1 x.2 t.target src) (h, st)

/-- The next version made from `st` and the buffer: `create_new_epoch` (DynamicExtension.h 498-514), planning
(`schedule_reconstruction`, 682-696) and the reconstruction job (557-607). -/
def next (L : Layout) (I : ShardImpl R) (h : Heap R) (st : HStruct) (hwm : Nat) (v : View R) : Res (Heap R × HStruct) := do
  let (h, st) ← copy h st
  let tasks ← Struct.getReconstructionTasks L (read h st) hwm
  let (h, st) ← runTasks L I h st tasks
  flushBuffer L I h st v

/-- The same on values (as in `Index.flush`). -/
def nextVal (L : Layout) (I : ShardImpl R) (st : Struct R) (hwm : Nat) (v : View R) : Res (Struct R) := do
  let str := st.copy
  let tasks ← Struct.getReconstructionTasks L str hwm
  let str ← Struct.runTasks L I str tasks
  Struct.flushBuffer L I str v

/-! ### Tagged deletes -/

/-- `delete_record`, InternalLevel.h 195-203, on the shard pointers of a level: the address of the shard and the index of the
record that is tagged. -/
def findIn (I : ShardImpl R) (h : Heap R) (r : R) : List (Option Nat) → Res (Option (Nat × Nat))
  | [] => .ok none
  | none :: ss => findIn I h r ss
  | some a :: ss => do
    let s ← getR h.sh a
    match ← I.lookup s r with
    | some i => .ok (some (a, i))
    | none => findIn I h r ss

/-- `tagged_delete`, ExtensionStructure.h 86-99, up to the tag: the record to be tagged. -/
def findTag (I : ShardImpl R) (h : Heap R) (r : R) : List Nat → Res (Option (Nat × Nat))
  | [] => .ok none
  | a :: as => do
    let l ← getR h.lv a
    match ← (if l.cnt = 0 then .ok none else findIn I h r l.shards : Res _) with
    | some x => .ok (some x)
    | none => findTag I h r as

/-- `tagged_delete`, ExtensionStructure.h 86-99. -/
def taggedDelete (I : ShardImpl R) (h : Heap R) (st : HStruct) (r : R) : Res (Heap R × Bool) := do
  match ← findTag I h r st.levels with
  | none => .ok (h, false)
  | some (a, i) => .ok ({ h with sh := h.sh.modify a (fun s => { s with data := s.data.modify i Wrapped.setDelete }) }, true)

end DE.Snap
