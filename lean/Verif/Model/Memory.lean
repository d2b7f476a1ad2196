import Verif.Model.Dynamic
import Verif.Model.ISAM
import Verif.Model.VPTree

/-!
Memory accounting: `get_memory_usage` of the index and of the shard classes whose index is built in the repository. Sizes in bytes
(`szW` = `sizeof(Wrapped<R>)`, `szNode`, `szPtr`) are parameters. PGM, TrieSpline and FSTrie ask an external library.
-/

namespace DE
variable {R : Type}

/-- `InternalLevel::get_memory_usage`, InternalLevel.h 250-259; `f` is the shard's own. -/
def Level.memoryUsage (f : Shard R → Nat) (l : Level R) : Nat := (l.visible.map f).sum

/-- `ExtensionStructure::get_memory_usage`, ExtensionStructure.h 161-169. -/
def Struct.memoryUsage (f : Shard R → Nat) (st : Struct R) : Nat := (st.levels.map (Level.memoryUsage f)).sum

/-- `MutableBuffer::get_memory_usage`, MutableBuffer.h 118. -/
def Buffer.memoryUsage (szW : Nat) (b : Buffer R) : Nat := b.cap * szW

/-- `get_memory_usage`, DynamicExtension.h 268-275. -/
def Index.memoryUsage (szW : Nat) (f : Shard R → Nat) (d : Index R) : Nat := d.buf.memoryUsage szW + d.str.memoryUsage f

/-- `Alias::get_memory_usage`, Alias.h 149-151. -/
def aliasMemory : Shard R → Nat := fun _ => 0

/-- `m_internal_node_cnt`: 0 in the initialisers (ISAMTree.h 53, 70), else set by `build_internal_levels` (182-192), which runs if there
are records. -/
def Isam.nodeCnt (F LF n : Nat) : Nat := if n = 0 then 0 else Isam.allocNodes F (n + 1) (Isam.leafCount LF n)

/-- `ISAMTree::get_memory_usage`, ISAMTree.h 122. -/
def isamMemory (F LF szNode : Nat) : Shard R → Nat := fun s => Isam.nodeCnt F LF s.data.length * szNode

/-- What `build_subtree` adds to `m_node_cnt`, VPTree.h 240-296 (256 and 293). The recursion is cut at `fuel` as in `VP.build`. -/
def VP.nodeCnt (leafSz : Nat) : Nat → Nat → Nat → Nat
  | 0, _, _ => 0
  | fuel+1, start, stop =>
    if start > stop then 0
    else if stop - start ≤ leafSz then 1
    else
      let mid := (start + 1 + stop) / 2
      VP.nodeCnt leafSz fuel (start + 1) (mid - 1) + VP.nodeCnt leafSz fuel mid stop + 1

/-- `VPTree::get_memory_usage`, VPTree.h 177-179, with `build_vptree` (208-220). -/
def vpMemory (leafSz szNode szPtr : Nat) : Shard R → Nat := fun s =>
  (if s.data.length = 0 then 0 else VP.nodeCnt leafSz (s.data.length + 1) 0 (s.data.length - 1)) * szNode + s.data.length * szPtr

end DE
