import Verif.Model.Buffer

/-!
Model of `include/util/SortedMerge.h` and `include/util/Cursor.h`.
-/

namespace DE
variable {R : Type}

/-- Contract of the external `psudb::PriorityQueue` (source not in the repository).
`arrange t l` lists the elements `l` (record, version) currently in the queue in pop order;
`peek()`/`peek(1)` are its first two elements. The oracle may depend on the time `t`
(number of remaining loop iterations), so ties may be broken differently every time.
The only built-in law is that the queue holds exactly what was pushed. -/
structure PQ (R : Type) where
  arrange : Nat → List (Wrapped R × Nat) → List (Wrapped R × Nat)
  perm : ∀ t l, (arrange t l).Perm l

/-- The queue pops in non-decreasing record order (ties arbitrary). -/
def PQ.ByRec [LinearOrder R] (pq : PQ R) : Prop :=
  ∀ t l, (pq.arrange t l).Pairwise (fun a b => a.1.record ≤ b.1.record)

/-- The queue is a min-heap for `Wrapped::operator<` (ties of equal record *and* header arbitrary). -/
def PQ.ByWrapped [LinearOrder R] (pq : PQ R) : Prop :=
  ∀ t l, (pq.arrange t l).Pairwise (fun a b => ¬ Wrapped.lt b.1 a.1)

/-- Alternative reading of the external queue: records first, then the version (cursor number),
never looking at headers. -/
def PQ.ByVersion [LinearOrder R] (pq : PQ R) : Prop :=
  ∀ t l, (pq.arrange t l).Pairwise
    (fun a b => a.1.record < b.1.record ∨ (a.1.record = b.1.record ∧ a.2 ≤ b.2))

/-- Cursors are the not yet consumed parts of the input arrays (Cursor.h 20-43); `heads` are the
elements in the queue: the front of every unfinished cursor with the cursor's number. -/
def heads : Nat → List (List (Wrapped R)) → List (Wrapped R × Nat)
  | _, [] => []
  | i, [] :: cs => heads (i+1) cs
  | i, (w :: _) :: cs => (w, i) :: heads (i+1) cs

/-- `advance_cursor`, Cursor.h 45-56. -/
def advance (cs : List (List (Wrapped R))) (i : Nat) : List (List (Wrapped R)) :=
  cs.modify i List.tail

/-- The cancellation test used by every merge loop: a live record followed by an equal tombstone. -/
def cancels [DecidableEq R] (now next : Wrapped R) : Bool :=
  !now.isTombstone && decide (now.record = next.record) && next.isTombstone

/-- The merge loop of `sorted_array_merge`, SortedMerge.h 163-207, on non-empty cursors.
`keep` is the emission test: `!is_deleted()` for shard merges (line 187), `!is_tombstone()` for
the range query (rangequery.h). The first argument bounds the number of iterations (the loop
consumes at least one element per iteration; `merge` supplies the total length). -/
def mergeLoop [DecidableEq R] (pq : PQ R) (keep : Wrapped R → Bool) :
    Nat → List (List (Wrapped R)) → List (Wrapped R)
  | 0, _ => []
  | n+1, cs =>
    match pq.arrange n (heads 0 cs) with
    | [] => []
    | [now] =>
      (if keep now.1 then [now.1] else []) ++ mergeLoop pq keep n (advance cs now.2)
    | now :: next :: _ =>
      if cancels now.1 next.1 then
        mergeLoop pq keep n (advance (advance cs now.2) next.2)
      else
        (if keep now.1 then [now.1] else []) ++ mergeLoop pq keep n (advance cs now.2)

/-- Merge non-empty cursors to the end. -/
def mergeAll [DecidableEq R] (pq : PQ R) (keep : Wrapped R → Bool)
    (cs : List (List (Wrapped R))) : List (Wrapped R) :=
  mergeLoop pq keep cs.flatten.length cs

/-- Result array and tombstone count (`merge_info`, SortedMerge.h 31-34; the record count is the
length of the array). Also the state of every shard class: its data array and tombstone count
(e.g. ISAMTree.h 241-251). -/
structure Shard (R : Type) where
  data : List (Wrapped R)
  tscnt : Nat
deriving DecidableEq, Repr

/-- Count tombstones in an output array: `info.tombstone_count++` on each emitted tombstone. -/
def tsCount (l : List (Wrapped R)) : Nat := l.countP Wrapped.isTombstone

/-- `build_cursor_vec` (SortedMerge.h 54-76) and `sorted_array_merge` (152-211). The code pushes
`cursors[i].ptr` for *every* cursor, so a null shard or a shard without records makes the loop read a
record that does not exist: UB. -/
def sortedMerge [DecidableEq R] (pq : PQ R) (shards : List (Option (Shard R))) : Res (Shard R) :=
  if shards.all (fun s => match s with | none => false | some s => !s.data.isEmpty) then
    let out := mergeAll pq (fun w => !w.isDeleted) (shards.filterMap (·.map Shard.data))
    .ok { data := out, tscnt := tsCount out }
  else .error .ub

/-- Insertion of one record for `std::sort` with `Wrapped::operator<`. -/
def insertW [LinearOrder R] (w : Wrapped R) : List (Wrapped R) → List (Wrapped R)
  | [] => [w]
  | x :: xs => if Wrapped.lt x w then x :: insertW w xs else w :: x :: xs

/-- `std::sort(base, stop, std::less<Wrapped<R>>())`, SortedMerge.h 106. The order is total on
(record, header), so the sorted sequence is unique and insertion sort computes it. -/
def sortW [LinearOrder R] : List (Wrapped R) → List (Wrapped R)
  | [] => []
  | w :: ws => insertW w (sortW ws)

/-- The scan of `sorted_array_from_bufferview`, SortedMerge.h 114-136. -/
def scanSorted [DecidableEq R] : List (Wrapped R) → List (Wrapped R)
  | [] => []
  | [b] => if b.isDeleted then [] else [b.mask]
  | b :: c :: rest =>
    if cancels b c then scanSorted rest
    else if b.isDeleted then scanSorted (c :: rest)
    else b.mask :: scanSorted (c :: rest)

/-- `sorted_array_from_bufferview`, SortedMerge.h 89-141. -/
def sortedFromView [LinearOrder R] (v : View R) : Res (Shard R) := do
  let l ← v.copyOut
  let out := scanSorted (sortW l)
  .ok { data := out, tscnt := tsCount out }

end DE
