import Verif.Model.Learned
import Verif.Model.BufferApi

/-!
`InternalLevel::check_tombstone` and the filtered point lookups it calls. Nothing in the framework calls it (the framework
leaves tombstones to merges and queries), but it is public.
-/

namespace DE
variable {R K F : Type} [LinearOrder R] [LinearOrder K] [HasKey R K]

/-- `point_lookup(rec, true)` of a shard class. -/
abbrev FilteredLookup (R : Type) := Shard R → R → Res (Option Nat)

/-- ISAMTree.h 96-99: `m_bf` is null in every ISAMTree (52, 69, 77) and is dereferenced. -/
def isamFiltered : FilteredLookup R := fun _ _ => .error .ub

/-- PGM.h 193-206 ignores the flag, TrieSpline.h 232-249 tests `m_bf` first, which is null (46, 133). -/
def plainFiltered (lb : LB R K) : FilteredLookup R := sortedLookup lb

/-- The filter of an Alias shard: the constructors enter every tombstone they store (Alias.h 50-60, 86-93, SortedMerge.h
129-134, 192-198). -/
def shardFilter (B : BFilter R F) (data : List (Wrapped R)) : F :=
  ((data.filter Wrapped.isTombstone).map (·.record)).foldl B.insert B.empty

/-- Alias.h 112-129. -/
def aliasFiltered (K : Type) [LinearOrder K] [HasKey R K] (B : BFilter R F) : FilteredLookup R := fun s r =>
  if B.lookup (shardFilter B s.data) r then aliasLookup (K := K) s r else .ok none

namespace Level

/-- The loop of `check_tombstone`, InternalLevel.h 180-187, with `i + 1` as the counter. -/
def checkFrom (look : FilteredLookup R) (l : Level R) (stop : Nat) (r : R) : Nat → Res Bool
  | 0 => .ok false
  | i+1 =>
    if i < stop then .ok false
    else do
      match ← getR l.shards i with
      | none => checkFrom look l stop r i
      | some s =>
        match ← look s r with
        | none => checkFrom look l stop r i
        | some j =>
          let w ← getR s.data j
          if w.isTombstone then .ok true else checkFrom look l stop r i

/-- `check_tombstone(shard_stop, rec)`, InternalLevel.h 176-190. -/
def checkTombstone (look : FilteredLookup R) (l : Level R) (stop : Nat) (r : R) : Res Bool :=
  if l.cnt = 0 then .ok false else checkFrom look l stop r l.cnt

end Level
end DE
