import Verif.Model.FSTrie

/-!
Model of `include/shard/LoudsPatricia.h`. `LoudsPatricia` has no `RECORD` member type, which
DynamicExtension.h 40 needs, so it can only be used directly, as its unit tests do. Records with string keys are as in `FSTrie.lean`.
-/

namespace DE
variable {R S : Type} [LinearOrder R] [LinearOrder S] [HasKey R S]

/-- The external `louds::Patricia` (source not in the repository): the keys added so far, and whether `build` was called. -/
structure Louds (S : Type) where
  keys : List S
  built : Bool

/-- `add`, LoudsPatricia.h 73, 128. -/
def Louds.add (x : Louds S) (k : S) : Louds S := { x with keys := x.keys ++ [k] }

/-- The trie of a shard with these records: `new` (44, 97), an `add` for each record as it is stored (73, 128), `build` if there is
one (78-80, 137-139). -/
def loudsOf (data : List (Wrapped R)) : Louds S :=
  let x := data.foldl (fun x w => x.add (key w.record)) ⟨[], false⟩
  if data.length > 0 then { x with built := true } else x

/-- `lookup` of the external trie: `t` for the keys of a built one, `u` for one without `build` (nothing is known about either beyond
the contract `Trie.Exact` on `t`). -/
def Louds.lookup (t : Trie S) (u : S → Res (Option Nat)) (x : Louds S) (k : S) : Res (Option Nat) :=
  if x.built then t x.keys k else u k

/-- Constructor from a buffer view, LoudsPatricia.h 36-83: copy with `get`, sort, drop tagged and invisible records and those whose
key pointer equals the address of the literal `""` (`lit`, 66), clear the timestamp. No insert/tombstone cancellation. -/
def loudsBuild (lit : R → Bool) (v : View R) : Res (Shard R) := do
  let l ← v.gets
  .ok { data := ((sortW l).filter (fun w => !(w.isDeleted || !w.isVisible || lit w.record))).map Wrapped.clearTimestamp
        tscnt := 0 }

/-- Merge constructor, LoudsPatricia.h 85-140. A cursor over no records is read past its end. -/
def loudsMerge (pq : PQ R) (lit : R → Bool) (shards : List (Option (Shard R))) : Res (Shard R) :=
  if shards.all (fun s => match s with | none => false | some s => !s.data.isEmpty) then
    .ok { data := mergeAll pq (fun w => !w.isDeleted && !lit w.record) (shards.filterMap (·.map Shard.data)), tscnt := 0 }
  else .error .ub

/-- `point_lookup`, LoudsPatricia.h 147-162: an index into `m_data`. -/
def loudsLookup (t : Trie S) (u : S → Res (Option Nat)) (s : Shard R) (k : S) : Res (Option Nat) :=
  (loudsOf s.data).lookup t u k

/-- The shard class `LoudsPatricia`. -/
def loudsImpl (pq : PQ R) (t : Trie S) (u : S → Res (Option Nat)) (lit : R → Bool) : ShardImpl R where
  build := loudsBuild lit
  merge := loudsMerge pq lit
  lookup := fun s r => loudsLookup t u s (key r)

end DE
