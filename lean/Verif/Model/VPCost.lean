import Verif.Model.VPTree

/-!
The construction, the lookup and the search of `include/shard/VPTree.h` with their work counted: the same functions as in `VPTree.lean`,
returning beside the result what was computed. An instrument for C110, not part of the code; `C110_counting_is_invisible` ties the
results to the plain functions.
-/

namespace DE.VP
variable {R 𝔽 : Type}

/-- Work of a construction. -/
structure Work where
  /-- distances between records computed (VPTree.h 269, 286) -/
  dists : Nat
  /-- distances compared by `partition` (VPTree.h 320) -/
  cmps : Nat
  /-- calls of `quickselect` nested in each other, at most -/
  nest : Nat
deriving DecidableEq, Repr

section
variable [LinearOrder 𝔽]

/-- `quickselect`, VPTree.h 298-308, with the comparisons of the `partition` loops and the nested calls. -/
def quickselectC (g : Rng) (k : Nat) : Nat → Nat → Nat → List (Ptr R 𝔽) → Nat → Res (List (Ptr R 𝔽) × Nat × Nat × Nat)
  | 0, _, _, _, _ => .error .ub
  | fuel+1, start, stop, a, pos =>
    if start = stop then .ok (a, pos, 0, 1)
    else do
      let (a, pivot, pos) ← partition g start stop a pos
      if k < pivot then do
        let (a, pos, c, n) ← quickselectC g k fuel start (pivot - 1) a pos
        .ok (a, pos, c + (stop - start), n + 1)
      else if k > pivot then do
        let (a, pos, c, n) ← quickselectC g k fuel (pivot + 1) stop a pos
        .ok (a, pos, c + (stop - start), n + 1)
      else .ok (a, pos, stop - start, 1)

/-- `build_subtree`, VPTree.h 240-296. -/
def buildC (dist : R → R → 𝔽) (leafSz : Nat) (g : Rng) :
    Nat → Nat → Nat → List (Ptr R 𝔽) → Nat → Res (Node 𝔽 × List (Ptr R 𝔽) × Nat × Work)
  | 0, _, _, _, _ => .error .ub
  | fuel+1, start, stop, a, pos =>
    if start > stop then .ok (.null, a, pos, ⟨0, 0, 0⟩)
    else if stop - start ≤ leafSz then .ok (.leaf start stop, a, pos, ⟨0, 0, 0⟩)
    else do
      let (o, pos) ← g.below (stop - start + 1) pos
      let a ← swapR a start (start + o)
      let v ← getR a start
      let a ← setDists dist v.record (stop - start) (start + 1) a
      let mid := (start + 1 + stop) / 2
      let (a, pos, c, n) ← quickselectC g mid (stop - start) (start + 1) stop a pos
      let m ← getR a mid
      let radius := dist v.record m.record
      let a := a.set start { v with dist := radius }
      let (inside, a, pos, w1) ← buildC dist leafSz g fuel (start + 1) (mid - 1) a pos
      let (outside, a, pos, w2) ← buildC dist leafSz g fuel mid stop a pos
      .ok (.node start radius inside outside, a, pos,
        ⟨(stop - start) + 1 + w1.dists + w2.dists, c + w1.cmps + w2.cmps, max n (max w1.nest w2.nest)⟩)

/-- `build_vptree`, VPTree.h 208-220. -/
def treeC [Zero 𝔽] (dist : R → R → 𝔽) (leafSz : Nat) (g : Rng) (data : List (Wrapped R)) : Res (Tree R 𝔽 × Work) := do
  let a : List (Ptr R 𝔽) := initPtrs data
  if data.length = 0 then .ok (⟨.null, a⟩, ⟨0, 0, 0⟩)
  else do
    let (root, a, _, w) ← buildC dist leafSz g (data.length + 1) 0 (data.length - 1) a 0
    .ok (⟨root, a⟩, w)

/-- The scan at the end of `point_lookup`, VPTree.h 150-154, with the records compared. -/
def scanEqC [DecidableEq R] (r : R) (a : List (Ptr R 𝔽)) : Nat → Nat → Res (Option Nat × Nat)
  | 0, _ => .ok (none, 0)
  | c+1, i => do
    let p ← getR a i
    if p.record = r then .ok (some p.idx, 1)
    else do
      let x ← scanEqC r a c (i+1)
      .ok (x.1, x.2 + 1)

/-- `point_lookup` without hash map, VPTree.h 139-157, with the distances computed and the records compared. -/
def lookupC [DecidableEq R] (dist : R → R → 𝔽) (r : R) (a : List (Ptr R 𝔽)) : Node 𝔽 → Res (Option Nat × Nat × Nat)
  | .null => .error .ub
  | .leaf start stop => do
    let x ← scanEqC r a (stop + 1 - start) start
    .ok (x.1, 0, x.2)
  | .node start radius inside outside => do
    let v ← getR a start
    if v.record = r then do
      let x ← scanEqC r a (0 + 1 - start) start
      .ok (x.1, 0, x.2 + 1)
    else if dist r v.record ≥ radius then do
      let x ← lookupC dist r a outside
      .ok (x.1, x.2.1 + 1, x.2.2 + 1)
    else do
      let x ← lookupC dist r a inside
      .ok (x.1, x.2.1 + 1, x.2.2 + 1)

variable [Add 𝔽] [Sub 𝔽]

/-- `internal_search`, VPTree.h 339-392, with the records met (for each the distance to the point is computed, and that of the
farthest record of the queue if it is put in). -/
def searchC (q : MaxQ R 𝔽) (dist : R → R → 𝔽) (point : R) (k : Nat) (a : List (Ptr R 𝔽)) :
    Node 𝔽 → SState R 𝔽 → Res (SState R 𝔽 × Nat)
  | .null, st => .ok (st, 0)
  | .leaf start stop, st => do
    let st ← visitLeaf q dist point k a (stop + 1 - start) start st
    .ok (st, stop + 1 - start)
  | .node start radius inside outside, st => do
    let v ← getR a start
    let d := dist point v.record
    let st ← visit q dist point k v.record st
    if d < radius then do
      let x ← if reachIn d radius st.2 then searchC q dist point k a inside st else .ok (st, 0)
      let y ← if reachOut d radius x.1.2 then searchC q dist point k a outside x.1 else .ok (x.1, 0)
      .ok (y.1, 1 + x.2 + y.2)
    else do
      let x ← if reachOut d radius st.2 then searchC q dist point k a outside st else .ok (st, 0)
      let y ← if reachIn d radius x.1.2 then searchC q dist point k a inside x.1 else .ok (x.1, 0)
      .ok (y.1, 1 + x.2 + y.2)

end
end DE.VP
