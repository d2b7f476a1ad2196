import Verif.Proofs.NoAbort
import Verif.Proofs.Stable
import Verif.Proofs.Query

/-!
C20 (the framework's asserts), C22 (undefined behaviour), C23 (the sorted merge law).
-/

namespace DE
variable {R K : Type} [LinearOrder R] [LinearOrder K] [HasKey R K]

/-! ### C20 -/

/-- C20: no assert of the framework fails, in `flush_buffer` or anywhere else, in any history on any layout and delete
policy; `hlb` says that the shard's search itself contains no failing assert. A history that does fail (see `C22_false`)
fails by undefined behaviour. -/
theorem C20_no_abort [Inhabited R] {L : Layout} {tag : Bool} {pq : PQ R} {lb : LB R K} (hlb : ∀ l k, lb l k ≠ .error .abort)
    {lwm hwm sf : Nat} {d0 : Index R} (hnew : Index.new L tag (sortedImpl pq lb) lwm hwm sf = .ok d0) (hlwm : 1 ≤ lwm)
    (hsf : 1 ≤ sf) (ops : List (Index.Op R)) : d0.run ops ≠ .error .abort := by
  intro hr
  obtain ⟨pre, o, post, d, bs, -, h1, h2⟩ := run_error ops hr
  obtain ⟨hd, -⟩ := new_ok hnew
  have hi0 : d0.impl = sortedImpl pq lb := by rw [hd]
  have hL0 : d0.L = L := by rw [hd]
  obtain ⟨hb, hLd, -, hi, -⟩ := run_buf pre (new_buf hnew hlwm) h1
  have hq : d.impl.Quiet := by rw [hi, hi0]; exact sortedImpl_quiet pq hlb
  have hc0 : d0.impl.Conserving := by rw [hi0]; exact sortedImpl_conserving pq lb
  refine step_quiet hq ?_ o h2
  intro hat
  by_cases hL : L = .bsm
  · obtain ⟨⟨hg, -⟩, -⟩ := gb_run (new_buf hnew hlwm) (hL0.trans hL) hc0 (by rw [hd]) (by rw [hd]) (by rw [hd]) h1
    exact bflush_quiet ((hLd.trans hL0).trans hL) hb hq (by rw [hi]; exact hc0) hg hat
  · obtain ⟨-, hinv, -⟩ := run_ind (fun _ _ => True) (new_inv hL hnew hlwm hsf).1 hc0
      (by rw [hi0]; exact sortedImpl_lookupSound pq lb) trivial (fun _ _ _ _ _ _ _ => trivial) pre h1
    exact flush_quiet hinv hq hat

/-- The search used in the witnesses meets the hypothesis. -/
example : ∀ (l : List (Wrapped Rec)) (k : Nat), (LB.scan : LB Rec Nat) l k ≠ .error .abort := by
  intro l k h; cases h
/-- A history with 20 flushes and cancelling records. -/
example : (probe .leveling false 2 2 2 (insSeq 0 12 ++ [.del ⟨3, 3⟩, .del ⟨4, 4⟩, .del ⟨5, 5⟩] ++ insSeq 20 25)
    (fun p => .ok (flushes false 2 (insSeq 0 12 ++ [.del ⟨3, 3⟩, .del ⟨4, 4⟩, .del ⟨5, 5⟩] ++ insSeq 20 25), p.1.height)))
    = .ok (19, 4) := by decide

/-! ### C22 -/

/-- C22, the part that holds: when no record is both inserted and erased (in particular for insert-only histories), every
insert, erase and range query of an index with tombstone deletes is defined and succeeds, on any layout.
Missing: histories in which an insert meets its erase (`C22_false`). -/
theorem C22_partial [Inhabited R] {L : Layout} {pq pq' : PQ R} (hpq : pq.ByRec) {lb : LB R K} (hlb : lb.Sound)
    {lwm hwm sf : Nat} {d0 : Index R} (hnew : Index.new L false (sortedImpl pq lb) lwm hwm sf = .ok d0) (hlwm : 1 ≤ lwm)
    (hsf : 1 ≤ sf) {ops : List (Index.Op R)} (hdis : ∀ r, Index.Op.ins r ∈ ops → Index.Op.del r ∉ ops) (lo hi : K) :
    ∃ d res, d0.run ops = .ok (d, List.replicate ops.length true) ∧ d.rangeQuery pq' lb lo hi = .ok res := by
  obtain ⟨-, -, ht, hi0, -⟩ := new_ginv hnew hlwm hsf
  obtain ⟨hd, -⟩ := new_ok hnew
  obtain ⟨d, h1, h2⟩ := StabInv.run (T := fun r => Index.Op.del r ∈ ops) ops (new_stab hnew hlwm hsf) ht
    (fun r hr => hdis r hr) (fun r hr => hr)
  have hs := (run_sorted hpq (new_buf hnew hlwm) hi0 (by rw [hd]) h1).visible
  obtain ⟨res, hres⟩ := rangeQuery_total (pq := pq') hlb h2.inv.wf (lo := lo) (hi := hi)
    (fun s hsm => ⟨hs s hsm, (h2.shards s hsm).1⟩)
  exact ⟨d, res, h1, hres⟩

example : ∀ r : Rec, Index.Op.ins r ∈ insSeq 0 3 ++ [.del ⟨7, 7⟩, .del ⟨8, 8⟩] → Index.Op.del r ∉ insSeq 0 3 ++ [.del ⟨7, 7⟩, .del ⟨8, 8⟩] := by
  intro r h
  simp [insSeq] at h ⊢
  rcases h with rfl | rfl | rfl <;> decide

/-- The number of records noted in a reconstruction task, which the code leaves uninitialised for BSM (see `Struct.bsmLoop`), has
no effect: two lists of tasks that agree on sources and targets lead to the same structure, or to the same failure. -/
theorem C22_reccnt_unused (L : Layout) (I : ShardImpl R) (st : Struct R) (ts ts' : List Task)
    (h : ts.map (fun t => (t.sources, t.target)) = ts'.map (fun t => (t.sources, t.target))) :
    Struct.runTasks L I st ts = Struct.runTasks L I st ts' := by
  have hb : ∀ (t t' : Task), t.sources = t'.sources → t.target = t'.target → Struct.reconstructBSM I st t = Struct.reconstructBSM I st t' := by
    rintro ⟨a, b, c⟩ ⟨a', b', c'⟩ h1 h2
    cases h1; cases h2; rfl
  have hf : ∀ (st : Struct R) (ts ts' : List Task),
      ts.map (fun t => (t.sources, t.target)) = ts'.map (fun t => (t.sources, t.target)) →
      ts.foldlM (fun st t => do let src ← getR t.sources 0; Struct.reconstruct L I st t.target src) st =
        ts'.foldlM (fun st t => do let src ← getR t.sources 0; Struct.reconstruct L I st t.target src) st := by
    intro st ts
    induction ts generalizing st with
    | nil => intro ts' h; cases ts' with
      | nil => rfl
      | cons => cases h
    | cons t ts ih =>
      intro ts' h
      cases ts' with
      | nil => cases h
      | cons t' ts' =>
        simp only [List.map_cons, List.cons.injEq, Prod.mk.injEq] at h
        obtain ⟨⟨h1, h2⟩, h3⟩ := h
        rw [List.foldlM_cons, List.foldlM_cons, h1, h2]
        congr 1
        funext st'
        exact ih st' ts' h3
  cases L with
  | bsm =>
    cases ts with
    | nil => cases ts' with
      | nil => rfl
      | cons => cases h
    | cons t ts => cases ts' with
      | nil => cases h
      | cons t' ts' =>
        simp only [List.map_cons, List.cons.injEq, Prod.mk.injEq] at h
        exact hb t t' h.1.1 h.1.2
  | leveling => exact hf st ts ts' h
  | tiering => exact hf st ts ts' h

/-- C22 is false with tombstones: a buffer-full that cancels to nothing is flushed into an empty shard; the next merge
reads its first record. -/
theorem C22_false : ∃ d0 : Index Rec, mk .leveling false 2 2 2 = .ok d0 ∧
    d0.run [.ins ⟨1, 1⟩, .del ⟨1, 1⟩, .ins ⟨2, 2⟩, .ins ⟨3, 3⟩, .ins ⟨4, 4⟩] = .error .ub := by
  obtain ⟨d0, h0⟩ : ∃ d0, mk .leveling false 2 2 2 = .ok d0 := ⟨_, rfl⟩
  exact ⟨d0, h0, probe_err h0 (by decide)⟩

/-- C22 is false with tagging: tag every record of two shards; merging them leaves an empty shard, the next merge reads
its first record. -/
theorem C22_false_tagging : ∃ d0 : Index Rec, mk .tiering true 1 1 2 = .ok d0 ∧
    d0.run (insSeq 0 3 ++ [.del ⟨0, 0⟩, .del ⟨1, 1⟩] ++ insSeq 3 5) = .error .ub := by
  obtain ⟨d0, h0⟩ : ∃ d0, mk .tiering true 1 1 2 = .ok d0 := ⟨_, rfl⟩
  exact ⟨d0, h0, probe_err h0 (by decide)⟩

/-- C22 is false with tagging, second way: erasing a record that is larger than every stored record with its key makes
`point_lookup` read one past the end of the shard. -/
theorem C22_false_lookup : ∃ d0 : Index Rec, mk .leveling true 1 1 2 = .ok d0 ∧
    d0.run [.ins ⟨1, 1⟩, .ins ⟨0, 0⟩, .del ⟨1, 2⟩] = .error .ub := by
  obtain ⟨d0, h0⟩ : ∃ d0, mk .leveling true 1 1 2 = .ok d0 := ⟨_, rfl⟩
  exact ⟨d0, h0, probe_err h0 (by decide)⟩

/-! ### C23 -/

/-- C23: merging shards. `ss` are the input shards. The merge is defined exactly when every shard has a record; the result
is sorted, has lost only tagged entries and (live, tombstone) pairs, holds no tagged entry, and its counters are right. -/
theorem C23_merge_law {pq : PQ R} {lb : LB R K} (ss : List (Shard R)) :
    ((∀ x ∈ ss, x.data ≠ []) ↔ ∃ s, (sortedImpl pq lb).merge (ss.map some) = .ok s) ∧
    ∀ s, (sortedImpl pq lb).merge (ss.map some) = .ok s →
      Reduces (fun e => e.del = true) (ss.map (fun x => ents x.data)).sum (ents s.data) ∧
      (∀ w ∈ s.data, w.isDeleted = false) ∧
      s.tscnt = (s.data.filter Wrapped.isTombstone).length ∧
      (pq.ByRec → (∀ x ∈ ss, x.data.Pairwise (fun a b => a.record ≤ b.record)) →
        s.data.Pairwise (fun a b => a.record ≤ b.record)) ∧
      ((∀ x ∈ ss, ∀ w ∈ x.data, w.isDeleted = false ∧ w.isTombstone = false) → s.data.Perm (ss.flatMap Shard.data)) := by
  refine ⟨⟨fun h => sortedMerge_total h, ?_⟩, ?_⟩
  · rintro ⟨s, hs⟩
    obtain ⟨ss', h1, -, -, h2⟩ := sortedMerge_ok' (show sortedMerge pq (ss.map some) = .ok s from hs)
    have : ss = ss' := List.map_injective_iff.mpr (Option.some_injective _) h1
    subst this
    exact h2
  · intro s hs
    obtain ⟨ss', h1, h2, h3, -⟩ := sortedMerge_ok' (show sortedMerge pq (ss.map some) = .ok s from hs)
    have : ss = ss' := List.map_injective_iff.mpr (Option.some_injective _) h1
    subst this
    refine ⟨((sortedImpl_conserving pq lb).merge ss s hs), ?_, ?_, ?_, ?_⟩
    · intro w hw
      rw [h2] at hw
      simpa using mergeLoop_keep pq _ _ _ w hw
    · rw [h3, tsCount, List.countP_eq_length_filter]
    · intro hpq hsort
      rw [h2]
      refine mergeLoop_sorted pq hpq _ _ _ ?_
      intro c hc
      obtain ⟨x, hx, rfl⟩ := List.mem_map.mp hc
      exact hsort x hx
    · intro hcl
      rw [h2]
      have hcl' : ∀ c ∈ ss.map Shard.data, ∀ w ∈ c, w.isDeleted = false ∧ w.isTombstone = false := by
        intro c hc
        obtain ⟨x, hx, rfl⟩ := List.mem_map.mp hc
        exact hcl x hx
      have hp := mergeLoop_perm pq (fun w => !w.isDeleted) _ (ss.map Shard.data) (le_refl _)
        (fun c hc w hw => ⟨by simp [(hcl' c hc w hw).1], (hcl' c hc w hw).2⟩)
      rw [List.flatMap_def]
      exact hp

/-- Cancellation is not exhaustive: four shards `r, t, r, t` (record and tombstone alternating) keep a pair with a
queue that breaks ties by header. -/
example : (sortedMerge PQ.std ([[⟨0#32, ⟨1, 1⟩⟩], [⟨1#32, ⟨1, 1⟩⟩], [⟨0#32, ⟨1, 1⟩⟩], [⟨1#32, ⟨1, 1⟩⟩]].map
    (fun l => some (⟨l, 0⟩ : Shard Rec)))) = .ok ⟨[⟨0#32, ⟨1, 1⟩⟩, ⟨1#32, ⟨1, 1⟩⟩], 1⟩ := by decide

end DE
