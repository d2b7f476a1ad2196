import Verif.Model.FSTrie
import Verif.Model.VPTree

/-!
The memory inside shards and buffers: what the constructors allocate and what the destructors release. A pointer that was never
assigned is `uninit`; releasing it, releasing a block twice, or releasing it with a function that does not belong to the one that
allocated it is undefined.

Simplifications. An allocation always succeeds (`sf_aligned_alloc`, whose source is not in the repository, aborts otherwise) and gives a
block that is not in use; what standard containers and the external index classes allocate for themselves is not modelled. What an object
contains is described by `Spec`: which constructor was called, how many records were kept, and for `VPTree` the tree that was built.
-/

namespace DE.SM

/-- How a block was allocated: `malloc`-like (`sf_aligned_alloc`, `sf_aligned_calloc`), `new`, `new[]`. -/
inductive Kind where
  | malloc
  | new
  | newArr
deriving DecidableEq, Repr

/-- The value of a pointer member. -/
inductive Ptr where
  | uninit
  | null
  | blk (a : Nat)
deriving DecidableEq, Repr

/-- The allocated blocks; addresses from `next` on have not been used yet. -/
structure Mem where
  next : Nat
  live : Nat → Option Kind

/-- Allocate. -/
def alloc (m : Mem) (k : Kind) : Mem × Nat := (⟨m.next + 1, fun a => if a = m.next then some k else m.live a⟩, m.next)

/-- `free`, `delete`, `delete[]` (according to `k`): nothing for null, undefined for anything but a block allocated the same way. -/
def release (m : Mem) (k : Kind) : Ptr → Res Mem
  | .uninit => .error .ub
  | .null => .ok m
  | .blk a => if m.live a = some k then .ok { m with live := fun b => if b = a then none else m.live b } else .error .ub

/-- `p->...`: the object must exist. -/
def deref (m : Mem) : Ptr → Res Unit
  | .blk a => if (m.live a).isSome then .ok () else .error .ub
  | _ => .error .ub

/-- The nodes of a `VPTree` in memory: address and children. -/
inductive Tree where
  | null
  | node (a : Nat) (inside outside : Tree)
deriving DecidableEq, Repr

/-- `build_subtree`, VPTree.h 240-296: `new vpnode()` (251, 282) comes before the children are built (290-291). -/
def allocTree {𝔽 : Type} (m : Mem) : VP.Node 𝔽 → Mem × Tree
  | .null => (m, .null)
  | .leaf _ _ => let (m, a) := alloc m .new; (m, .node a .null .null)
  | .node _ _ i o =>
    let (m, a) := alloc m .new
    let (m, i) := allocTree m i
    let (m, o) := allocTree m o
    (m, .node a i o)

/-- `delete` of a node runs `~vpnode`, VPTree.h 45-48, and releases it. -/
def deleteTree (m : Mem) : Tree → Res Mem
  | .null => .ok m
  | .node a i o =>
    if m.live a = some .new then do
      let m ← deleteTree m i
      let m ← deleteTree m o
      release m .new (.blk a)
    else .error .ub

/-- What is constructed: the class, whether from a buffer view, and the number of records that were kept. -/
inductive Spec (𝔽 : Type) where
  | alias (buf : Bool) (n : Nat)
  | isam (buf : Bool) (n : Nat)
  | pgm (buf : Bool) (n : Nat)
  | ts (buf : Bool) (n : Nat)
  | fst (buf : Bool) (n : Nat)
  | louds (buf : Bool) (n : Nat)
  /-- the tree that `build_vptree` builds -/
  | vp (root : VP.Node 𝔽)
  /-- `MutableBuffer` -/
  | buffer

/-- The pointer members of an object. -/
inductive Obj where
  | alias (data al bf : Ptr)
  | isam (data nodes bf : Ptr)
  | pgm (data bf : Ptr)
  | ts (data bf : Ptr)
  | fst (data t : Ptr)
  | louds (data l : Ptr)
  | vp (data ptrs : Ptr) (root : Tree)
  | buffer (data filter : Ptr)
deriving DecidableEq, Repr

/-- The temporary array of the constructors from a view, released at their end with `free`: SortedMerge.h 98-99 and 139, PGM.h 61-63 and
104, TrieSpline.h 59-61 and 117; with `delete[]`: FSTrie.h 56 and 82, LoudsPatricia.h 56 and 82. -/
def temp (m : Mem) (buf : Bool) (k : Kind) : Res Mem :=
  if buf then
    let (m, a) := alloc m k
    release m k (.blk a)
  else .ok m

/-- A block that is allocated if there are records. -/
def ifAny (m : Mem) (n : Nat) (k : Kind) (otherwise : Ptr) : Mem × Ptr :=
  if n > 0 then let (m, a) := alloc m k; (m, .blk a) else (m, otherwise)

/-- Constructors. -/
def ctor {𝔽 : Type} (m : Mem) : Spec 𝔽 → Res (Mem × Obj)
  /- Alias.h 43-71, 73-104: the Bloom filter first (50, 86), the array (53, 87), the alias structure if there are records (62-70, 95-103,
  194), null otherwise (45, 75). -/
  | .alias buf n => do
    let (m, b) := alloc m .new
    let (m, d) := alloc m .malloc
    let m ← temp m buf .malloc
    let (m, al) := ifAny m n .new .null
    .ok (m, .alias (.blk d) al (.blk b))
  /- ISAMTree.h 51-66, 68-88: `m_bf` and `m_isam_nodes` are null (52, 69), the array (55, 78), the internal nodes if there are records
  (63, 85, 190). -/
  | .isam buf n => do
    let (m, d) := alloc m .malloc
    let m ← temp m buf .malloc
    let (m, nd) := ifAny m n .malloc .null
    .ok (m, .isam (.blk d) nd .null)
  /- PGM.h 43-112, 114-186 -/
  | .pgm buf _ => do
    let (m, d) := alloc m .malloc
    let m ← temp m buf .malloc
    .ok (m, .pgm (.blk d) .null)
  /- TrieSpline.h 40-125, 127-225 -/
  | .ts buf _ => do
    let (m, d) := alloc m .malloc
    let m ← temp m buf .malloc
    .ok (m, .ts (.blk d) .null)
  /- FSTrie.h 38-83, 85-142: the array (43, 94); the trie if there are records (78-80, 139-141); `m_fst` is in no initialiser list
  (39-41, 86-88), so without records it keeps an indeterminate value. -/
  | .fst buf n => do
    let (m, d) := alloc m .newArr
    let (m, t) ←
      if buf then do
        let (m, a) := alloc m .newArr
        let (m, t) := ifAny m n .new .uninit
        let m ← release m .newArr (.blk a)
        .ok (m, t)
      else .ok (ifAny m n .new .uninit)
    .ok (m, .fst (.blk d) t)
  /- LoudsPatricia.h 36-83, 85-140: the trie object is always allocated (44, 97). -/
  | .louds buf _ => do
    let (m, d) := alloc m .newArr
    let (m, l) := alloc m .new
    let m ← temp m buf .newArr
    .ok (m, .louds (.blk d) (.blk l))
  /- VPTree.h 54-87, 89-122; the generator of `build_vptree` is released at once (216-218). -/
  | .vp root =>
    let (m, d) := alloc m .malloc
    let (m, p) := alloc m .newArr
    let (m, t) := allocTree m root
    .ok (m, .vp (.blk d) (.blk p) t)
  /- MutableBuffer.h 43-54 -/
  | .buffer =>
    let (m, d) := alloc m .newArr
    let (m, f) := alloc m .new
    .ok (m, .buffer (.blk d) (.blk f))

/-- Destructors: Alias.h 106-110, ISAMTree.h 90-94, PGM.h 188-191, TrieSpline.h 227-230, FSTrie.h 144-147, LoudsPatricia.h 142-145,
VPTree.h 124-128, MutableBuffer.h 56-59. -/
def dtor (m : Mem) : Obj → Res Mem
  | .alias d al b => do
    let m ← release m .malloc d
    let m ← release m .new al
    release m .new b
  | .isam d nd b => do
    let m ← release m .malloc d
    let m ← release m .malloc nd
    release m .new b
  | .pgm d b => do
    let m ← release m .malloc d
    release m .new b
  | .ts d b => do
    let m ← release m .malloc d
    release m .new b
  | .fst d t => do
    let m ← release m .newArr d
    release m .new t
  | .louds d l => do
    let m ← release m .newArr d
    release m .new l
  | .vp d p t => do
    let m ← release m .malloc d
    let m ← deleteTree m t
    release m .newArr p
  | .buffer d f => do
    let m ← release m .newArr d
    release m .new f

/-- `get_memory_usage`, called by `DynamicExtension::get_memory_usage` on every shard: FSTrie.h 184-186 and LoudsPatricia.h 181-183 ask
the trie, the other classes only use numbers. -/
def usage (m : Mem) : Obj → Res Unit
  | .fst _ t => deref m t
  | .louds _ l => deref m l
  | _ => .ok ()

variable {𝔽 : Type}

/-- The memory and the objects that exist. -/
structure World where
  m : Mem
  objs : List Obj

/-- Nothing is allocated. -/
def World.empty : World := ⟨⟨0, fun _ => none⟩, []⟩

/-- Construct an object, or destroy the `i`-th one. -/
inductive Op (𝔽 : Type) where
  | build (sp : Spec 𝔽)
  | destroy (i : Nat)

def World.step (w : World) : Op 𝔽 → Res World
  | .build sp => do
    let (m, o) ← ctor w.m sp
    .ok ⟨m, o :: w.objs⟩
  | .destroy i =>
    match w.objs[i]? with
    | none => .ok w
    | some o => do
      let m ← dtor w.m o
      .ok ⟨m, w.objs.eraseIdx i⟩

def World.run (w : World) : List (Op 𝔽) → Res World
  | [] => .ok w
  | op :: ops => do
    let w ← w.step op
    w.run ops

end DE.SM
