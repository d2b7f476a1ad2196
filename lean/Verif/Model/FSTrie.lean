import Verif.Model.Instances

/-!
Model of `include/shard/FSTrie.h` and of the point lookup query (`include/query/pointlookup.h`) on records whose key is a
`const char*`.

A record has a *content* (`key r : S`, the string its key points to) and an *address* (a function `addr`, the pointer
itself). `Record<const char*, V>` compares contents (Record.h 117-131), the buffer part of the query compares addresses
(pointlookup.h 81: `rec->rec.key == query->global_parms.search_key` on two `const char*`), the trie compares contents.

Simplifications: `Record<const char*, V>::operator==` ignores the value and the address, the model's equality of records does
not; the theorems only use histories in which two records with the same content are the same record. Contents do not change
while the index holds a pointer to them.
-/

namespace DE
variable {R S P : Type} [LinearOrder R] [LinearOrder S] [HasKey R S]

/-- The external `fst::Trie` (source not in the repository): built from a list of keys, `exactSearch` maps a key to an index
into that list or `kNotFound`. -/
abbrev Trie (S : Type) := List S → S → Res (Option Nat)

/-- Contract of the trie: exact on non-empty strictly increasing key lists. Nothing is promised for other lists. -/
def Trie.Exact (t : Trie S) : Prop :=
  ∀ ks : List S, ks ≠ [] → ks.Pairwise (· < ·) → ∀ k,
    (∃ i, t ks k = .ok (some i) ∧ ks[i]? = some k) ∨ (t ks k = .ok none ∧ k ∉ ks)

/-- The list `keys` handed to the trie, FSTrie.h 72, 123. -/
def trieKeys (data : List (Wrapped R)) : List S := data.map (fun w => key w.record)

/-- Constructor from a buffer view, FSTrie.h 37-83: copy with `get`, sort, drop tagged and invisible records and those whose
key pointer equals the address of the literal `""` (`lit`, line 65; unspecified which pointers these are), clear the
timestamp. No insert/tombstone cancellation; the tombstone count is always 0 (182-184). -/
def fstBuild (lit : R → Bool) (v : View R) : Res (Shard R) := do
  let l ← v.gets
  .ok { data := ((sortW l).filter (fun w => !(w.isDeleted || !w.isVisible || lit w.record))).map Wrapped.clearTimestamp
        tscnt := 0 }

/-- Merge constructor, FSTrie.h 85-141: the loop of `sorted_array_merge`, with the literal test in the emission condition. -/
def fstMerge (pq : PQ R) (lit : R → Bool) (shards : List (Option (Shard R))) : Res (Shard R) :=
  if shards.all (fun s => match s with | none => false | some s => !s.data.isEmpty) then
    .ok { data := mergeAll pq (fun w => !w.isDeleted && !lit w.record) (shards.filterMap (·.map Shard.data)), tscnt := 0 }
  else .error .ub

/-- `point_lookup`, FSTrie.h 148-165. Without records `m_fst` was never initialised (78-80, 134-136): UB. -/
def fstLookup (t : Trie S) (s : Shard R) (k : S) : Res (Option Nat) :=
  if s.data.isEmpty then .error .ub else t (trieKeys s.data) k

/-- The shard class `FSTrie`. -/
def fstImpl (pq : PQ R) (t : Trie S) (lit : R → Bool) : ShardImpl R where
  build := fstBuild lit
  merge := fstMerge pq lit
  lookup := fun s r => fstLookup t s (key r)

/-- `async_query` for `pl::Query` with a search key of address `p` and content `k`: the buffer is searched by address
(pointlookup.h 74-88), the shards by content (62-72). -/
def Index.strLookup [DecidableEq P] (t : Trie S) (addr : R → P) (d : Index R) (p : P) (k : S) : Res (List R) := do
  let l ← d.buf.view.gets
  match l.find? (fun w => decide (addr w.record = p)) with
  | some w => .ok (plCombine [w])
  | none => do
    let r ← plShards (fstLookup t) k d.str.visible
    .ok (plCombine r)

end DE
