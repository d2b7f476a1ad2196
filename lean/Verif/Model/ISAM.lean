import Verif.Model.SortedShard

/-!
Model of the index part of `include/shard/ISAMTree.h`: `build_internal_levels` (178-239), `get_lower_bound` (127-147)
and `get_upper_bound` (149-169). Pointers are modelled as indices: a child pointer is either a record position in
`m_data` or a node position in `m_isam_nodes`. `F` is `INTERNAL_FANOUT` and `LF` is `LEAF_FANOUT` (35-49).
-/

namespace DE.Isam

/-- A `byte *` stored in a node: into `m_data` or into `m_isam_nodes`. -/
inductive Ptr where
  | leaf (pos : Nat)
  | node (idx : Nat)
deriving DecidableEq, Repr

/-- `InternalNode`, ISAMTree.h 39-42. Only the slots written by the builder are listed; the node array is allocated with
`calloc` (192), so the other slots are all-zero keys and null children. -/
structure Node (K : Type) where
  keys : List K
  child : List Ptr
deriving DecidableEq, Repr

variable {R K : Type}

/-- `keys[i]`; `z` is the key with all-zero bytes. -/
def Node.keyAt (z : K) (n : Node K) (i : Nat) : K := (n.keys[i]?).getD z
/-- `child[i]`, null = `none`. -/
def Node.childAt (n : Node K) (i : Nat) : Option Ptr := n.child[i]?

section build
variable [LinearOrder R] [LinearOrder K] [HasKey R K] (F LF : Nat) (z : K)

/-- Number of leaf nodes, ISAMTree.h 179-180. -/
def leafCount (n : Nat) : Nat := n / LF + (if n % LF ≠ 0 then 1 else 0)

/-- The `do … while` computing the size of the node array, ISAMTree.h 182-188. -/
def allocNodes : Nat → Nat → Nat
  | 0, _ => 0
  | fuel+1, c =>
    let c' := c / F + (if c % F ≠ 0 then 1 else 0)
    c' + (if c' > 1 then allocNodes fuel c' else 0)

/-- Key of a record position (positions used are in range). -/
def keyOf (data : List (Wrapped R)) (i : Nat) : K := ((data[i]?).map (fun w => key w.record)).getD z

/-- One node above the leaves, ISAMTree.h 201-211: children at `base + LF * i` as long as these are records. -/
def leafNode (data : List (Wrapped R)) (base : Nat) : Node K :=
  let is := (List.range F).takeWhile (fun i => decide (base + LF * i < data.length))
  { keys := is.map (fun i => keyOf z data (min (base + LF * i + LF - 1) (data.length - 1)))
    child := is.map (fun i => .leaf (base + LF * i)) }

/-- The loop over the leaves, ISAMTree.h 197-214. -/
def leafLevel (data : List (Wrapped R)) : Nat → Nat → List (Node K)
  | 0, _ => []
  | fuel+1, base =>
    if base < data.length then
      let nd := leafNode F LF z data base
      nd :: leafLevel data fuel (base + nd.child.length * LF)
    else []

/-- One node of a higher level, ISAMTree.h 222-232. -/
def upperNode (arena : List (Node K)) (now stop : Nat) : Node K :=
  let is := (List.range F).takeWhile (fun i => decide (now + i < stop))
  { keys := is.map (fun i => ((arena[now + i]?).map (fun nd => nd.keyAt z (F - 1))).getD z)
    child := is.map (fun i => .node (now + i)) }

/-- `child_cnt`, ISAMTree.h 223-231: incremented before the break, so a short node overshoots by one. -/
def childCnt (now stop : Nat) : Nat := if now + F ≤ stop then F else stop - now + 1

/-- The loop building one level from the level at `[now, stop)`, ISAMTree.h 221-234. -/
def upperLevel (stop : Nat) : Nat → Nat → List (Node K) → List (Node K)
  | 0, _, arena => arena
  | fuel+1, now, arena =>
    if now < stop then upperLevel stop fuel (now + childCnt F now stop) (arena ++ [upperNode F z arena now stop])
    else arena

/-- The loop over the levels, ISAMTree.h 216-238; returns the node array and the root position. -/
def levelsLoop : Nat → Nat → Nat → List (Node K) → List (Node K) × Nat
  | 0, start, _, arena => (arena, start)
  | fuel+1, start, stop, arena =>
    if stop - start > 1 then
      let arena' := upperLevel F z stop (stop - start) start arena
      levelsLoop fuel stop arena'.length arena'
    else (arena, start)

/-- `build_internal_levels`, ISAMTree.h 178-239. -/
def buildTree (data : List (Wrapped R)) : List (Node K) × Nat :=
  let l0 := leafLevel F LF z data data.length 0
  levelsLoop F z l0.length 0 l0.length l0

end build

section search
variable (F : Nat) (z : K)

/-- The `for` loop choosing a child, ISAMTree.h 131-136: `go k` is the test `key <= k` (or `key < k`). -/
def pick (go : K → Bool) (nd : Node K) : Nat → Nat → Option Ptr
  | _, 0 => none
  | i, n+1 => if nd.childAt (i+1) = none ∨ go (nd.keyAt z i) then nd.childAt i else pick go nd (i+1) n

/-- The descent, ISAMTree.h 128-141. Following a null or dangling pointer is UB. The first argument bounds the number of
iterations (the path length; running out of it is reported as UB, and proved impossible). -/
def descend (go : K → Bool) (arena : List (Node K)) : Nat → Ptr → Res Nat
  | _, .leaf p => .ok p
  | 0, .node _ => .error .ub
  | fuel+1, .node m => do
    let nd ← getR arena m
    match pick z go nd 0 (F - 1) with
    | some p => descend go arena fuel p
    | none =>
      match nd.childAt (F - 1) with
      | some p => descend go arena fuel p
      | none => .error .ub

end search

section bounds
variable [LinearOrder R] [LinearOrder K] [HasKey R K] (F LF : Nat) (z : K)

/-- The final scan, ISAMTree.h 143-147: number of records skipped. -/
def skipWhile (p : Wrapped R → Bool) : List (Wrapped R) → Nat
  | [] => 0
  | w :: ws => if p w then skipWhile p ws + 1 else 0

/-- A search from the root. An empty shard has a null root (77-79), which the loop dereferences: UB. -/
def search (go : K → Bool) (p : Wrapped R → Bool) (data : List (Wrapped R)) : Res Nat :=
  if data.length = 0 then .error .ub
  else do
    let t := buildTree F LF z data
    let pos ← descend F z go t.1 (t.1.length + 1) (.node t.2)
    .ok (pos + skipWhile p (data.drop pos))

/-- `get_lower_bound`, ISAMTree.h 127-147. -/
def lowerBound : LB R K := fun data k => search F LF z (fun x => decide (k ≤ x)) (fun w => decide (key w.record < k)) data
/-- `get_upper_bound`, ISAMTree.h 149-169. -/
def upperBound : LB R K := fun data k => search F LF z (fun x => decide (k < x)) (fun w => decide (key w.record ≤ k)) data

end bounds
end DE.Isam
