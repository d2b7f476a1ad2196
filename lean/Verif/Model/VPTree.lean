import Verif.Model.Sampling
import Mathlib.Algebra.Order.Group.Defs

/-!
Model of `include/shard/VPTree.h` and of the k-nearest-neighbour query `include/query/knn.h`.

Distances are elements of an ordered group: floating-point rounding is not modelled, and `numeric_limits<double>::max()`
is "no bound". A pointer into `m_data` is modelled as the index together with the (immutable) record.
-/

namespace DE
variable {R 𝔽 : Type}

/-- Swap of two array elements (VPTree.h 333-337); out of range is UB. -/
def swapR {α : Type} (a : List α) (i j : Nat) : Res (List α) := do
  let x ← getR a i
  let y ← getR a j
  .ok ((a.set i y).set j x)

namespace VP

/-- `vp_ptr`, VPTree.h 194-197. -/
structure Ptr (R 𝔽 : Type) where
  idx : Nat
  record : R
  dist : 𝔽
deriving DecidableEq, Repr

/-- `vpnode`, VPTree.h 34-49. `stop` of an internal node is never set and stays 0. -/
inductive Node (𝔽 : Type) where
  | null
  | leaf (start stop : Nat)
  | node (start : Nat) (radius : 𝔽) (inside outside : Node 𝔽)
deriving DecidableEq, Repr

section build
variable [LinearOrder 𝔽]

/-- The loop of `partition`, VPTree.h 318-327: `c` iterations left, at `i`. -/
def partLoop (stop : Nat) : Nat → Nat → Nat → List (Ptr R 𝔽) → Res (List (Ptr R 𝔽) × Nat)
  | 0, _, j, a => .ok (a, j)
  | c+1, i, j, a => do
    let x ← getR a i
    let p ← getR a stop
    if x.dist < p.dist then
      let a ← swapR a j i
      partLoop stop c (i+1) (j+1) a
    else partLoop stop c (i+1) j a

/-- `partition`, VPTree.h 312-331: the array, the position of the pivot, the position on the tape. -/
def partition (g : Rng) (start stop : Nat) (a : List (Ptr R 𝔽)) (pos : Nat) : Res (List (Ptr R 𝔽) × Nat × Nat) := do
  let (o, pos) ← g.below (stop - start) pos
  let a ← swapR a (start + o) stop
  let (a, j) ← partLoop stop (stop - start) start start a
  let a ← swapR a j stop
  .ok (a, j, pos)

/-- `quickselect`, VPTree.h 298-308. The recursion is cut at `fuel`. -/
def quickselect (g : Rng) (k : Nat) : Nat → Nat → Nat → List (Ptr R 𝔽) → Nat → Res (List (Ptr R 𝔽) × Nat)
  | 0, _, _, _, _ => .error .ub
  | fuel+1, start, stop, a, pos =>
    if start = stop then .ok (a, pos)
    else do
      let (a, pivot, pos) ← partition g start stop a pos
      if k < pivot then quickselect g k fuel start (pivot - 1) a pos
      else if k > pivot then quickselect g k fuel (pivot + 1) stop a pos
      else .ok (a, pos)

/-- The loop computing distances to the vantage point `v`, VPTree.h 268-270. -/
def setDists (dist : R → R → 𝔽) (v : R) : Nat → Nat → List (Ptr R 𝔽) → Res (List (Ptr R 𝔽))
  | 0, _, a => .ok a
  | c+1, i, a => do
    let x ← getR a i
    setDists dist v c (i+1) (a.set i { x with dist := dist v x.record })

/-- `build_subtree`, VPTree.h 240-296. The recursion is cut at `fuel`. -/
def build (dist : R → R → 𝔽) (leafSz : Nat) (g : Rng) :
    Nat → Nat → Nat → List (Ptr R 𝔽) → Nat → Res (Node 𝔽 × List (Ptr R 𝔽) × Nat)
  | 0, _, _, _, _ => .error .ub
  | fuel+1, start, stop, a, pos =>
    if start > stop then .ok (.null, a, pos)
    else if stop - start ≤ leafSz then .ok (.leaf start stop, a, pos)
    else do
      let (o, pos) ← g.below (stop - start + 1) pos
      let a ← swapR a start (start + o)
      let v ← getR a start
      let a ← setDists dist v.record (stop - start) (start + 1) a
      let mid := (start + 1 + stop) / 2
      let (a, pos) ← quickselect g mid (stop - start) (start + 1) stop a pos
      let m ← getR a mid
      let radius := dist v.record m.record
      let a := a.set start { v with dist := radius }
      let (inside, a, pos) ← build dist leafSz g fuel (start + 1) (mid - 1) a pos
      let (outside, a, pos) ← build dist leafSz g fuel mid stop a pos
      .ok (.node start radius inside outside, a, pos)

end build

/-- A built tree: `m_root` and `m_ptrs`. -/
structure Tree (R 𝔽 : Type) where
  root : Node 𝔽
  ptrs : List (Ptr R 𝔽)

/-- The pointer array before building, VPTree.h 79, 113. -/
def initPtrs [Zero 𝔽] (data : List (Wrapped R)) : List (Ptr R 𝔽) := data.mapIdx (fun i w => ⟨i, w.record, 0⟩)

/-- `build_vptree`, VPTree.h 208-220, on the data of a shard. -/
def tree [Zero 𝔽] [LinearOrder 𝔽] (dist : R → R → 𝔽) (leafSz : Nat) (g : Rng) (data : List (Wrapped R)) : Res (Tree R 𝔽) := do
  let a : List (Ptr R 𝔽) := initPtrs data
  if data.length = 0 then .ok ⟨.null, a⟩
  else do
    let (root, a, _) ← build dist leafSz g (data.length + 1) 0 (data.length - 1) a 0
    .ok ⟨root, a⟩

/-! ### Lookup -/

/-- The scan at the end of `point_lookup`, VPTree.h 150-154. -/
def scanEq [DecidableEq R] (r : R) (a : List (Ptr R 𝔽)) : Nat → Nat → Res (Option Nat)
  | 0, _ => .ok none
  | c+1, i => do
    let p ← getR a i
    if p.record = r then .ok (some p.idx) else scanEq r a c (i+1)

/-- `point_lookup` without hash map, VPTree.h 139-157: result is the position in `m_data`. A null node is dereferenced. -/
def lookup [DecidableEq R] [LinearOrder 𝔽] (dist : R → R → 𝔽) (r : R) (a : List (Ptr R 𝔽)) : Node 𝔽 → Res (Option Nat)
  | .null => .error .ub
  | .leaf start stop => scanEq r a (stop + 1 - start) start
  | .node start radius inside outside => do
    let v ← getR a start
    if v.record = r then scanEq r a (0 + 1 - start) start
    else if dist r v.record ≥ radius then lookup dist r a outside
    else lookup dist r a inside

/-- `point_lookup` with the hash map (VPTree.h 130-138) built by `build_map` (222-238): `insert` keeps the first position of
each record. -/
def lookupMap [DecidableEq R] (s : Shard R) (r : R) : Res (Option Nat) :=
  .ok (s.data.findIdx? (fun w => decide (w.record = r)))

/-! ### Search -/

end VP

/-- `psudb::PriorityQueue` with `DistCmpMax` (Record.h 231-246; the queue itself is external): `top` gives the element it would
peek/pop and the remaining ones. -/
abbrev MaxQ (R 𝔽 : Type) := (R → 𝔽) → List R → Option (R × List R)

/-- Contract of the queue: `top` is an element with the largest distance. -/
def MaxQ.Ok [LE 𝔽] (q : MaxQ R 𝔽) : Prop := ∀ (f : R → 𝔽) (l : List R), l ≠ [] →
  ∃ x rest, q f l = some (x, rest) ∧ l.Perm (x :: rest) ∧ ∀ y ∈ l, f y ≤ f x

namespace VP
variable [LinearOrder 𝔽] [Add 𝔽] [Sub 𝔽]

/-- State of a search: the queue and `*farthest` (`none` is `numeric_limits<double>::max()`). -/
abbrev SState (R 𝔽 : Type) := List R × Option 𝔽

/-- `pq.pop()` on an empty queue is UB. -/
def popR (q : MaxQ R 𝔽) (f : R → 𝔽) (l : List R) : Res (R × List R) :=
  match q f l with
  | some x => .ok x
  | none => .error .ub

/-- `d < *farthest`. -/
def closer (d : 𝔽) : Option 𝔽 → Bool
  | none => true
  | some f => decide (d < f)

/-- One record met by the search, VPTree.h 346-355 and 361-371. -/
def visit (q : MaxQ R 𝔽) (dist : R → R → 𝔽) (point : R) (k : Nat) (x : R) (st : SState R 𝔽) : Res (SState R 𝔽) :=
  if closer (dist point x) st.2 then do
    let l ← if st.1.length = k then (popR q (fun y => dist y point) st.1).map Prod.snd else .ok st.1
    let l := x :: l
    if l.length = k then do
      let (top, _) ← popR q (fun y => dist y point) l
      .ok (l, some (dist point top))
    else .ok (l, st.2)
  else .ok st

/-- The loop over a leaf, VPTree.h 344-359. -/
def visitLeaf (q : MaxQ R 𝔽) (dist : R → R → 𝔽) (point : R) (k : Nat) (a : List (Ptr R 𝔽)) : Nat → Nat → SState R 𝔽 → Res (SState R 𝔽)
  | 0, _, st => .ok st
  | c+1, i, st => do
    let p ← getR a i
    let st ← visit q dist point k p.record st
    visitLeaf q dist point k a c (i+1) st

/-- `d - *farthest <= radius`; with the initial bound always true. -/
def reachIn (d radius : 𝔽) : Option 𝔽 → Bool
  | none => true
  | some f => decide (d - f ≤ radius)

/-- `d + *farthest >= radius`; with the initial bound always true. -/
def reachOut (d radius : 𝔽) : Option 𝔽 → Bool
  | none => true
  | some f => decide (d + f ≥ radius)

/-- `internal_search`, VPTree.h 339-392. -/
def search (q : MaxQ R 𝔽) (dist : R → R → 𝔽) (point : R) (k : Nat) (a : List (Ptr R 𝔽)) : Node 𝔽 → SState R 𝔽 → Res (SState R 𝔽)
  | .null, st => .ok st
  | .leaf start stop, st => visitLeaf q dist point k a (stop + 1 - start) start st
  | .node start radius inside outside, st => do
    let v ← getR a start
    let d := dist point v.record
    let st ← visit q dist point k v.record st
    if d < radius then do
      let st ← if reachIn d radius st.2 then search q dist point k a inside st else .ok st
      if reachOut d radius st.2 then search q dist point k a outside st else .ok st
    else do
      let st ← if reachOut d radius st.2 then search q dist point k a outside st else .ok st
      if reachIn d radius st.2 then search q dist point k a inside st else .ok st

end VP

/-! ### knn.h -/

/-- Emptying a queue of `c` elements by `peek`/`pop`, knn.h 81-84. -/
def drain (q : MaxQ R 𝔽) (f : R → 𝔽) : Nat → List R → Res (List R)
  | 0, _ => .ok []
  | c+1, l => do
    let (x, rest) ← VP.popR q f l
    let xs ← drain q f c rest
    .ok (x :: xs)

/-- `local_query`, knn.h 69-87. -/
def knnLocal [LinearOrder 𝔽] [Add 𝔽] [Sub 𝔽] (q : MaxQ R 𝔽) (dist : R → R → 𝔽) (t : VP.Tree R 𝔽) (point : R) (k : Nat) : Res (List R) := do
  let st ← VP.search q dist point k t.ptrs t.root ([], none)
  drain q (fun y => dist y point) st.1.length st.1

/-- The loop of `local_query_buffer` and of `combine`, knn.h 101-118 and 133-147: keep the `k` nearest. -/
def keepNearest [LinearOrder 𝔽] (q : MaxQ R 𝔽) (dist : R → R → 𝔽) (point : R) (k : Nat) : List R → List R → Res (List R)
  | l, [] => .ok l
  | l, x :: xs =>
    if l.length < k then keepNearest q dist point k (x :: l) xs
    else do
      let (h, rest) ← VP.popR q (fun y => dist y point) l
      if dist x point < dist h point then keepNearest q dist point k (x :: rest) xs
      else keepNearest q dist point k l xs

/-- `local_query_buffer`, knn.h 89-126: tagged records are skipped. -/
def knnBuffer [LinearOrder 𝔽] (q : MaxQ R 𝔽) (dist : R → R → 𝔽) (buf : List (Wrapped R)) (point : R) (k : Nat) : Res (List R) := do
  let l ← keepNearest q dist point k [] ((buf.filter (fun w => !w.isDeleted)).map Wrapped.record)
  drain q (fun y => dist y point) l.length l

/-- `combine`, knn.h 128-153. -/
def knnCombine [LinearOrder 𝔽] (q : MaxQ R 𝔽) (dist : R → R → 𝔽) (point : R) (k : Nat) (rs : List (List R)) : Res (List R) := do
  let l ← keepNearest q dist point k [] rs.flatten
  drain q (fun y => dist y point) l.length l

/-- The k-NN query on an index; `treeOf` gives the tree of a shard. -/
def Index.knn [LinearOrder 𝔽] [Add 𝔽] [Sub 𝔽] (q : MaxQ R 𝔽) (dist : R → R → 𝔽) (treeOf : Shard R → Res (VP.Tree R 𝔽)) (d : Index R)
    (point : R) (k : Nat) : Res (List R) := do
  let buf ← d.buf.view.gets
  let b ← knnBuffer q dist buf point k
  let ss ← d.str.visible.mapM (fun s => do
    let t ← treeOf s
    knnLocal q dist t point k)
  knnCombine q dist point k (b :: ss)

/-! ### The shard operations seen from the framework -/

/-- The two constructors, VPTree.h 54-87 and 89-122: records not tagged as deleted, in order; tombstones are not treated.
`point_lookup` goes through the tree built with the generator `g`. -/
def vpImpl [DecidableEq R] [LinearOrder 𝔽] [Zero 𝔽] (dist : R → R → 𝔽) (leafSz : Nat) (g : Rng) : ShardImpl R where
  build := fun v => do
    let l ← v.gets
    .ok { data := (l.filter (fun w => !w.isDeleted)).map Wrapped.mask, tscnt := 0 }
  merge := fun ss =>
    if ss.any Option.isNone then .error .ub
    else .ok { data := (ss.filterMap id).flatMap (fun s => s.data.filter (fun w => !w.isDeleted)), tscnt := 0 }
  lookup := fun s r => do
    let t ← VP.tree dist leafSz g s.data
    VP.lookup dist r t.ptrs t.root

end DE
