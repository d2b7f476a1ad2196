import Verif.Proofs.LearnedBuild
import Verif.Model.Instances

/-! ## C85: the index of a PGM or TrieSpline shard describes the stored records -/

namespace DE
variable {R K : Type} [LinearOrder R] [LinearOrder K] [HasKey R K]

/-- C85 (storage): the constructors of PGM store the same array and tombstone count as the shared routines of
SortedMerge.h, and fail in the same cases. -/
theorem C85_pgm_same (pq : PQ R) (v : View R) (shards : List (Option (PgmShard R K))) :
    (pgmFromView (K := K) v).map (fun s => (⟨s.data, s.tscnt⟩ : Shard R)) = sortedFromView v ∧
    (pgmMerge pq shards).map (fun s => (⟨s.data, s.tscnt⟩ : Shard R)) =
      sortedMerge pq (shards.map (·.map (fun s => ⟨s.data, s.tscnt⟩))) := by
  constructor
  · rw [pgmFromView_eq]; cases sortedFromView v <;> rfl
  · rw [pgmMerge_eq]; cases sortedMerge pq _ <;> rfl

/-- C85 (storage): so do the constructors of TrieSpline, for a non-empty buffer and a non-empty list of shards. -/
theorem C85_triespline_same (pq : PQ R) {v : View R} {l : List (Wrapped R)} (hv : v.copyOut = .ok l) (hl : l ≠ [])
    {shards : List (Option (TsShard R K))} (hne : shards ≠ []) :
    (tsFromView (K := K) v).map (fun s => (⟨s.data, s.tscnt⟩ : Shard R)) = sortedFromView v ∧
    (tsMerge pq shards).map (fun s => (⟨s.data, s.tscnt⟩ : Shard R)) =
      sortedMerge pq (shards.map (·.map (fun s => ⟨s.data, s.tscnt⟩))) :=
  ⟨tsFromView_eq hv hl, tsMerge_eq pq hne⟩

/-- On an empty view the constructor of TrieSpline reads `temp_buffer[0]`, which does not exist. -/
theorem C85_triespline_empty {v : View R} (hv : v.copyOut = .ok []) : tsFromView (K := K) v = .error .ub := by
  unfold tsFromView; rw [hv]; rfl

/-- C85 (index, PGM): however a shard came about (flushes, merges, tags), the index was built from exactly the keys of the
stored records, in order and sorted; the tombstone count is exact. -/
theorem C85_pgm_index {pq : PQ R} (hpq : pq.ByRec) {s : PgmShard R K} (h : PgmMade pq s) :
    s.keys = s.data.map (fun w => key w.record) ∧ s.keys.Pairwise (· ≤ ·) ∧ s.tscnt = s.data.countP Wrapped.isTombstone := by
  have o := h.ok hpq
  refine ⟨o.keys, ?_, o.ts⟩
  rw [o.keys, keysOf, List.pairwise_map]
  exact KeySorted.of_rec o.srt

/-- C85 (index, TrieSpline): the keys given to the builder are those of the stored records, sorted, and all lie in the
announced range; `m_min_key` and `m_max_key` are the least and the greatest stored key; the tombstone count is exact. -/
theorem C85_triespline_index_partial {pq : PQ R} (hpq : pq.ByRec) {s : TsShard R K} (h : TsMade pq s) :
    s.keys = s.data.map (fun w => key w.record) ∧ s.keys.Pairwise (· ≤ ·) ∧ s.tscnt = s.data.countP Wrapped.isTombstone ∧
    (∀ k ∈ s.keys, s.lo ≤ k ∧ k ≤ s.hi) ∧
    (s.data ≠ [] → s.keys.head? = some s.minK ∧ s.keys.getLast? = some s.maxK) := by
  have o := h.ok hpq
  have hp : s.keys.Pairwise (· ≤ ·) := by
    rw [o.keys, keysOf, List.pairwise_map]; exact KeySorted.of_rec o.srt
  refine ⟨o.keys, hp, o.ts, ?_, ?_⟩
  · rw [o.keys]; exact forall_key.mp o.ann
  · intro hne
    obtain ⟨h1, h2, h3⟩ := o.rng hne
    rw [exists_key (P := fun k => k = s.minK), ← o.keys] at h2
    rw [exists_key (P := fun k => k = s.maxK), ← o.keys] at h3
    rw [forall_key (P := fun k => s.minK ≤ k ∧ k ≤ s.maxK), ← o.keys] at h1
    exact ⟨head_of_least hp (fun k hk => (h1 k hk).1) h2, last_of_greatest hp (fun k hk => (h1 k hk).2) h3⟩

/-- C85 (announced range): without deletes the first and the last key given to the builder are the ends of the announced
range. Missing: shards some of whose inputs are cancelled or dropped (`C85_false`). -/
theorem C85_range_partial {pq : PQ R} (hpq : pq.ByRec) {s : TsShard R K} (h : TsClean pq s) :
    s.keys.head? = some s.lo ∧ s.keys.getLast? = some s.hi := by
  obtain ⟨o, -, h2, h3⟩ := clean_ok hpq h
  have hp : s.keys.Pairwise (· ≤ ·) := by
    rw [o.keys, keysOf, List.pairwise_map]; exact KeySorted.of_rec o.srt
  have h1 := o.ann
  rw [exists_key (P := fun k => k = s.lo), ← o.keys] at h2
  rw [exists_key (P := fun k => k = s.hi), ← o.keys] at h3
  rw [forall_key (P := fun k => s.lo ≤ k ∧ k ≤ s.hi), ← o.keys] at h1
  exact ⟨head_of_least hp (fun k hk => (h1 k hk).1) h2, last_of_greatest hp (fun k hk => (h1 k hk).2) h3⟩

/-- A buffer filled with the given operations (`true` for a tombstone). -/
def fillBuf (lwm hwm : Nat) (ops : List (Rec × Bool)) : Res (Buffer Rec) := do
  let b ← Buffer.new lwm hwm
  .ok (ops.foldl (fun b (x : Rec × Bool) => (b.append x.1 x.2).1) b)

/-- 52 inserts with keys 0..51, then an insert and an erase of key 99. -/
def exOps : List (Rec × Bool) := (List.range 52).map (fun i => (⟨i, 0⟩, false)) ++ [(⟨99, 0⟩, false), (⟨99, 0⟩, true)]

set_option maxRecDepth 8192 in
/-- C85 is false: if the record with the greatest key is inserted and erased while in the buffer, the builder is told that
the keys end at 99 and gets 52 keys ending at 51 (enough for the index to be built and used). -/
theorem C85_false : ∃ (b : Buffer Rec) (s : TsShard Rec Nat), fillBuf 54 60 exOps = .ok b ∧ tsFromView b.view = .ok s ∧
    s.data.length > 50 ∧ s.hi = 99 ∧ s.keys.getLast? = some 51 := by
  have h : (fillBuf 54 60 exOps >>= fun b => tsFromView (K := Nat) b.view >>= fun s =>
      .ok (decide (s.data.length > 50), s.hi, s.keys.getLast?)) = .ok (true, 99, some 51) := by decide
  cases hb : fillBuf 54 60 exOps with
  | error e => rw [hb] at h; cases h
  | ok b =>
    rw [hb] at h
    simp only [bind, Except.bind] at h
    cases hs : tsFromView (K := Nat) b.view with
    | error e => rw [hs] at h; cases h
    | ok s =>
      rw [hs] at h
      simp only [Except.ok.injEq, Prod.mk.injEq, decide_eq_true_eq] at h
      exact ⟨b, s, rfl, hs, h.1, h.2.1, h.2.2⟩

/-- The hypotheses are met: two buffers with an erase, flushed and merged, one record tagged in between. -/
example : (do
    let a ← tsFromView (K := Nat) (← fillBuf 4 6 [(⟨5, 0⟩, false), (⟨2, 0⟩, false), (⟨8, 0⟩, false), (⟨5, 0⟩, true)]).view
    let b ← tsFromView (K := Nat) (← fillBuf 4 6 [(⟨3, 0⟩, false), (⟨2, 0⟩, true), (⟨7, 0⟩, false)]).view
    let c ← tsMerge PQ.std [some { a with data := tagAt a.data 1 }, some b]
    .ok [a.keys, b.keys, c.keys, [c.minK, c.maxK], [c.lo, c.hi]]) =
    .ok [[2, 8], [2, 3, 7], [3, 7], [3, 7], [2, 8]] := by decide

end DE
