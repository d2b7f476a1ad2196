import Verif.Model.Learned

/-!
The constructors of `include/shard/PGM.h` and `include/shard/TrieSpline.h`. Both repeat the loops of SortedMerge.h inline,
collect the keys for the external index builder, and TrieSpline also keeps the range of its keys. `scanWith` and `mergeWith`
are the two loops, generic in what is done with an emitted record (`emit`).
-/

namespace DE
variable {R K α : Type} [LinearOrder R] [LinearOrder K] [HasKey R K]

/-- The loop over the sorted temporary buffer, PGM.h 76-105 and TrieSpline.h 81-115. -/
def scanWith (emit : α → Wrapped R → α) : List (Wrapped R) → α → α
  | [], a => a
  | [b], a => if b.isDeleted then a else emit a b.mask
  | b :: c :: rest, a =>
    if cancels b c then scanWith emit rest a
    else if b.isDeleted then scanWith emit (c :: rest) a
    else scanWith emit (c :: rest) (emit a b.mask)

/-- The merge loop, PGM.h 139-175 and TrieSpline.h 169-217. The first numeric argument bounds the iterations, as in
`mergeLoop`. -/
def mergeWith (pq : PQ R) (emit : α → Wrapped R → α) : Nat → List (List (Wrapped R)) → α → α
  | 0, _, a => a
  | n+1, cs, a =>
    match pq.arrange n (heads 0 cs) with
    | [] => a
    | [now] => mergeWith pq emit n (advance cs now.2) (if now.1.isDeleted then a else emit a now.1)
    | now :: next :: _ =>
      if cancels now.1 next.1 then mergeWith pq emit n (advance (advance cs now.2) next.2) a
      else mergeWith pq emit n (advance cs now.2) (if now.1.isDeleted then a else emit a now.1)

/-- A PGM shard: `m_data`, `m_tombstone_cnt` and the keys the index was built from, PGM.h 290-297. -/
structure PgmShard (R K : Type) where
  data : List (Wrapped R)
  tscnt : Nat
  keys : List K
deriving DecidableEq

/-- PGM.h 93-101 and 149-163: the key is recorded, the record stored, tombstones counted. -/
def PgmShard.emit (s : PgmShard R K) (w : Wrapped R) : PgmShard R K :=
  { data := s.data ++ [w]
    tscnt := if w.isTombstone then s.tscnt + 1 else s.tscnt
    keys := s.keys ++ [key w.record] }

/-- `PGM(BufferView)`, PGM.h 43-115. -/
def pgmFromView (v : View R) : Res (PgmShard R K) := do
  let l ← v.copyOut
  .ok (scanWith PgmShard.emit (sortW l) ⟨[], 0, []⟩)

/-- `PGM(std::vector<PGM *> const &)`, PGM.h 117-186. Null or empty inputs: the queue reads a record that does not exist. -/
def pgmMerge (pq : PQ R) (shards : List (Option (PgmShard R K))) : Res (PgmShard R K) :=
  if shards.all (fun s => match s with | none => false | some s => !s.data.isEmpty) then
    let cs := shards.filterMap (·.map PgmShard.data)
    .ok (mergeWith pq PgmShard.emit cs.flatten.length cs ⟨[], 0, []⟩)
  else .error .ub

/-- A TrieSpline shard, TrieSpline.h 331-338: `m_data`, `m_tombstone_cnt`, `m_min_key`, `m_max_key`, the keys given to
`AddKey` in order, and the range announced to the `ts::Builder` constructor. -/
structure TsShard (R K : Type) where
  data : List (Wrapped R)
  tscnt : Nat
  keys : List K
  minK : K
  maxK : K
  lo : K
  hi : K
deriving DecidableEq

/-- TrieSpline.h 95-112 and 190-211. -/
def TsShard.emit (s : TsShard R K) (w : Wrapped R) : TsShard R K :=
  { s with
    data := s.data ++ [w]
    tscnt := if w.isTombstone then s.tscnt + 1 else s.tscnt
    keys := s.keys ++ [key w.record]
    minK := if key w.record < s.minK then key w.record else s.minK
    maxK := if key w.record > s.maxK then key w.record else s.maxK }

/-- The values of the variables before the loops: the builder gets `(lo, hi)`, `m_min_key` starts at the upper and
`m_max_key` at the lower end (TrieSpline.h 70-75, 163-166). -/
def TsShard.start (lo hi : K) : TsShard R K := ⟨[], 0, [], hi, lo, lo, hi⟩

/-- `TrieSpline(BufferView)`, TrieSpline.h 40-125. `temp_buffer[0]` of an empty buffer does not exist. -/
def tsFromView (v : View R) : Res (TsShard R K) := do
  let l ← v.copyOut
  match (sortW l).head?, (sortW l).getLast? with
  | some a, some b => .ok (scanWith TsShard.emit (sortW l) (TsShard.start (key a.record) (key b.record)))
  | _, _ => .error .ub

/-- The loop over the inputs, TrieSpline.h 153-161: the range of all inputs. -/
def tsRange : List (TsShard R K) → K → K → K × K
  | [], lo, hi => (lo, hi)
  | s :: ss, lo, hi => tsRange ss (if s.minK < lo then s.minK else lo) (if s.maxK > hi then s.maxK else hi)

/-- `TrieSpline(std::vector<TrieSpline *> const &)`, TrieSpline.h 127-225. `shards[0]` must exist; null inputs are
dereferenced, empty ones make the queue read a record that does not exist. -/
def tsMerge (pq : PQ R) (shards : List (Option (TsShard R K))) : Res (TsShard R K) :=
  if shards.all (fun s => match s with | none => false | some s => !s.data.isEmpty) then
    match shards.filterMap id with
    | [] => .error .ub
    | s :: ss =>
      let r := tsRange (s :: ss) s.minK s.maxK
      let cs := (s :: ss).map TsShard.data
      .ok (mergeWith pq TsShard.emit cs.flatten.length cs (TsShard.start r.1 r.2))
  else .error .ub

/-- `set_delete` on one stored record (`InternalLevel::delete_record`, InternalLevel.h 192-206). -/
def tagAt (data : List (Wrapped R)) (i : Nat) : List (Wrapped R) := data.modify i Wrapped.setDelete

/-- The PGM shards that can exist: built from a view, merged from such shards, or tagged. -/
inductive PgmMade (pq : PQ R) : PgmShard R K → Prop
  | view {v s} (h : pgmFromView v = .ok s) : PgmMade pq s
  | merge {ss : List (PgmShard R K)} {s} (hs : ∀ x ∈ ss, PgmMade pq x) (h : pgmMerge pq (ss.map some) = .ok s) : PgmMade pq s
  | tag {s} (i : Nat) (hs : PgmMade pq s) : PgmMade pq { s with data := tagAt s.data i }

/-- The TrieSpline shards that can exist. -/
inductive TsMade (pq : PQ R) : TsShard R K → Prop
  | view {v s} (h : tsFromView v = .ok s) : TsMade pq s
  | merge {ss : List (TsShard R K)} {s} (hs : ∀ x ∈ ss, TsMade pq x) (h : tsMerge pq (ss.map some) = .ok s) : TsMade pq s
  | tag {s} (i : Nat) (hs : TsMade pq s) : TsMade pq { s with data := tagAt s.data i }

/-- Shards made only from buffers without tombstones and tags. -/
inductive TsClean (pq : PQ R) : TsShard R K → Prop
  | view {v l s} (hl : v.copyOut = .ok l) (hc : ∀ w ∈ l, w.isTombstone = false ∧ w.isDeleted = false)
      (h : tsFromView v = .ok s) : TsClean pq s
  | merge {ss : List (TsShard R K)} {s} (hs : ∀ x ∈ ss, TsClean pq x) (h : tsMerge pq (ss.map some) = .ok s) : TsClean pq s

end DE
