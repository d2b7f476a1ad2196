import Verif.Model.SortedShard

/-!
The searches of the other sorted-array shards: `include/shard/PGM.h`, `include/shard/TrieSpline.h` and
`include/shard/Alias.h`. The learned indexes themselves (`pgm::PGMIndex`, `ts::TrieSpline`) are external libraries; they
appear as a function giving a search window, with a validity contract.
-/

namespace DE
variable {R K : Type} [LinearOrder R] [LinearOrder K] [HasKey R K]

/-- The loop `while (idx < stop && m_data[idx].rec.key < key) idx++`, PGM.h 246-248 and TrieSpline.h 300-302. The first
argument bounds the iterations (`stop - idx` are enough). -/
def linScan (data : List (Wrapped R)) (k : K) (stop : Nat) : Nat → Nat → Res Nat
  | 0, idx => .ok idx
  | fuel+1, idx =>
    if idx < stop then do
      let w ← getR data idx
      if key w.record < k then linScan data k stop fuel (idx+1) else .ok idx
    else .ok idx

/-- The binary search, PGM.h 254-261, TrieSpline.h 308-315 and Alias.h 169-177. -/
def binSearch (data : List (Wrapped R)) (k : K) : Nat → Nat → Nat → Res Nat
  | 0, lo, _ => .ok lo
  | fuel+1, lo, hi =>
    if lo < hi then do
      let mid := (lo + hi) / 2
      let w ← getR data mid
      if k > key w.record then binSearch data k fuel (mid+1) hi else binSearch data k fuel lo mid
    else .ok lo

/-- A search window, `pgm::ApproxPos` / `ts::SearchBound`. -/
structure Bound where
  lo : Nat
  hi : Nat
deriving DecidableEq, Repr

/-- A learned index built over the keys of a shard, as the function "window for this key". -/
abbrev Learned (K : Type) := List K → K → Bound

/-- The contract of the external index: for a sorted non-empty key array the window contains the lower bound position. -/
def Learned.Valid (ix : Learned K) : Prop :=
  ∀ ks : List K, ks ≠ [] → ks.Pairwise (· ≤ ·) → ∀ k,
    (ix ks k).lo ≤ (ks.filter (· < k)).length ∧ (ks.filter (· < k)).length ≤ (ix ks k).hi ∧ (ix ks k).hi ≤ ks.length

/-- The common part of the two searches: window, scan or binary search; PGM.h 235-263, TrieSpline.h 289-316. `none` is the
early exit. The subtraction `hi - lo` is unsigned, an inverted window takes the binary search (which then does nothing). -/
def windowSearch (data : List (Wrapped R)) (k : K) (b : Bound) : Res (Option Nat) :=
  if b.lo ≥ data.length then .ok none
  else if b.lo ≤ b.hi ∧ b.hi - b.lo < 256 then do
    let i ← linScan data k b.hi (b.hi - b.lo) b.lo
    .ok (some i)
  else do
    let i ← binSearch data k (b.hi - b.lo) b.lo b.hi
    .ok (some i)

/-- The keys given to the index builder: one per stored record, PGM.h 91, 149, TrieSpline.h 98, 181. -/
def keysOf (data : List (Wrapped R)) : List K := data.map (fun w => key w.record)

/-- `get_lower_bound`, PGM.h 234-287. On an empty shard the index was never built (112-114, 180-182): UB. -/
def pgmLB (ix : Learned K) : LB R K := fun data k =>
  if data.length = 0 then .error .ub
  else do
    match ← windowSearch data k (ix (keysOf data) k) with
    | none => .ok data.length
    | some idx =>
      if idx = data.length then .ok idx
      else do
        let w ← getR data idx
        let back ← if key w.record > k ∧ idx > 0 then do
            let p ← getR data (idx-1)
            .ok (decide (key p.record ≤ k))
          else .ok false
        if back then .ok (idx-1)
        else if key w.record ≥ k then .ok idx else .ok data.length

/-- The linear search for small shards, TrieSpline.h 278-287. -/
def smallLB (k : K) : List (Wrapped R) → Nat
  | [] => 0
  | w :: ws => if key w.record ≥ k then 0 else smallLB k ws + 1

/-- `get_lower_bound`, TrieSpline.h 277-327. The index exists only for more than 50 records (122-124, 222-224), but it is
used for 50 or more. -/
def tsLB (ix : Learned K) : LB R K := fun data k =>
  if data.length < 50 then .ok (smallLB k data)
  else if ¬ data.length > 50 then .error .ub
  else do
    match ← windowSearch data k (ix (keysOf data) k) with
    | none => .ok data.length
    | some idx =>
      if idx = data.length then .ok data.length
      else do
        let w ← getR data idx
        let back ← if key w.record > k ∧ idx > 0 then do
            let p ← getR data (idx-1)
            .ok (decide (key p.record ≤ k))
          else .ok false
        if back then .ok (idx-1) else .ok idx

/-- `get_lower_bound`, Alias.h 165-180. On an empty shard `m_reccnt - 1` wraps and the first probe is far outside: UB. -/
def aliasLB : LB R K := fun data k =>
  if data.length = 0 then .error .ub else binSearch data k (data.length - 1) 0 (data.length - 1)

/-- `point_lookup`, Alias.h 112-129 (`filter` false). The loop stops at the last record. -/
def aliasLookup (s : Shard R) (r : R) : Res (Option Nat) := do
  let idx ← aliasLB s.data (key (K := K) r)
  if idx ≥ s.data.length then .ok none
  else
    let idx := idx + skipLess r ((s.data.take (s.data.length - 1)).drop idx)
    let w ← getR s.data idx
    if w.record = r then .ok (some idx) else .ok none

end DE
