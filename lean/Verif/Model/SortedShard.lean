import Verif.Model.Dynamic

/-!
The sorted-array shards (ISAMTree.h, PGM.h, TrieSpline.h) seen from the framework: same
constructors (`sorted_array_from_bufferview` / `sorted_array_merge`, repeated inline in PGM.h 42-183
and TrieSpline.h), same `point_lookup`; they differ in `get_lower_bound`, which is a parameter here
and is modelled per shard in `ISAM.lean` and `Learned.lean`.
-/

namespace DE
variable {R K : Type} [LinearOrder R] [LinearOrder K] [HasKey R K]

/-- `get_lower_bound` of a sorted shard, as a function of its data array. -/
abbrev LB (R K : Type) := List (Wrapped R) → K → Res Nat

/-- The `while (idx < m_reccnt && m_data[idx].rec < rec) ++idx;` loop, ISAMTree.h 106-107:
number of records skipped. -/
def skipLess (r : R) : List (Wrapped R) → Nat
  | [] => 0
  | w :: ws => if w.record < r then skipLess r ws + 1 else 0

/-- `point_lookup`, ISAMTree.h 96-114 = PGM.h 193-206 = TrieSpline.h 232-249 (`filter` is false on
every modelled path). `m_data[idx]` is read even if the loop stopped at `m_reccnt`: UB. -/
def sortedLookup (lb : LB R K) (s : Shard R) (r : R) : Res (Option Nat) := do
  let idx ← lb s.data (key r)
  if idx ≥ s.data.length then .ok none
  else
    let idx := idx + skipLess r (s.data.drop idx)
    let w ← getR s.data idx
    if w.record = r then .ok (some idx) else .ok none

/-- The shard operations of ISAMTree / PGM / TrieSpline. -/
def sortedImpl (pq : PQ R) (lb : LB R K) : ShardImpl R where
  build := sortedFromView
  merge := sortedMerge pq
  lookup := sortedLookup lb

/-- Specification-level lower bound: the number of leading records with key `< k`. -/
def lowerBoundSpec (k : K) : List (Wrapped R) → Nat
  | [] => 0
  | w :: ws => if key w.record < k then lowerBoundSpec k ws + 1 else 0

/-- A `get_lower_bound` that is usable for scans: on a non-empty record-sorted array it is defined, never
past the first record with key `>= k`, and reports "end" when there is no such record. -/
def LB.Sound (lb : LB R K) : Prop :=
  ∀ data : List (Wrapped R), data ≠ [] → data.Pairwise (fun a b => a.record ≤ b.record) →
    ∀ k, ∃ i, lb data k = .ok i ∧ i ≤ lowerBoundSpec k data ∧
      (lowerBoundSpec k data = data.length → i = data.length)

end DE
