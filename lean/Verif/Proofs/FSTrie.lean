import Verif.Model.FSTrie
import Verif.Proofs.PointLookup
import Verif.Proofs.VPIndex

/-! The trie shard inside an index. -/

namespace DE
variable {R S P : Type} [LinearOrder R] [LinearOrder S] [HasKey R S]

omit [LinearOrder R] in
theorem clearTimestamp_entry (w : Wrapped R) : w.clearTimestamp.entry = w.entry := by
  unfold Wrapped.entry
  simp only [Wrapped.isTombstone_bit, Wrapped.isDeleted_bit]
  unfold Wrapped.clearTimestamp
  simp [seven_bit]

omit [LinearOrder R] in
theorem ents_clearTimestamp (l : List (Wrapped R)) : ents (l.map Wrapped.clearTimestamp) = ents l := by
  unfold ents
  rw [List.map_map]
  congr 2
  funext w
  exact clearTimestamp_entry w

/-- No record uses the address of the empty literal. -/
def NoLit (lit : R → Bool) : Prop := ∀ r, lit r = false

theorem fstImpl_conserving (pq : PQ R) (t : Trie S) {lit : R → Bool} (hl : NoLit lit) : (fstImpl pq t lit).Conserving where
  build := by
    intro v l s hv hs
    simp only [fstImpl, fstBuild, bind_ok, hv.2.1] at hs
    obtain ⟨l', e, hs⟩ := hs
    cases e; cases hs
    simp only
    rw [ents_clearTimestamp, ← ents_perm (sortW_perm l)]
    have : (sortW l).filter (fun w => !(w.isDeleted || !w.isVisible || lit w.record)) = (sortW l).filter (fun w => !w.isDeleted) := by
      apply List.filter_congr
      intro w hw
      rw [hv.2.2 w ((sortW_perm l).mem_iff.mp hw), hl]
      simp
    rw [this]
    exact dropDel_reduces _
  merge := by
    intro ss s hs
    simp only [fstImpl, fstMerge] at hs
    split at hs
    · cases hs
      simp only
      have := mergeAll_reduces pq (fun w => !w.isDeleted && !lit w.record) (fun e => e.del = true) (by
        intro w hw
        rw [hl] at hw
        show w.isDeleted = true
        simpa using hw) ((ss.map some).filterMap (·.map Shard.data))
      refine (Reduces.of_eq ?_).trans this
      rw [filterMap_data, ents_flatten_shards]
    · cases hs

theorem fstImpl_cleanOk (pq : PQ R) (t : Trie S) {lit : R → Bool} (hl : NoLit lit) : (fstImpl pq t lit).CleanOk where
  conserving := fstImpl_conserving pq t hl
  merge := by
    intro ss _ h
    refine ⟨_, by
      simp only [fstImpl, fstMerge]
      rw [if_pos]
      rw [List.all_eq_true]
      intro o ho
      obtain ⟨x, hx, rfl⟩ := List.mem_map.mp ho
      simpa using h x hx⟩
  build := fun b hb _ => ⟨_, by simp only [fstImpl, fstBuild, Buffer.view_gets hb, bind, Except.bind]; rfl⟩

omit [LinearOrder S] [HasKey R S] in
theorem recSorted_map {l : List (Wrapped R)} {f : Wrapped R → Wrapped R} (hf : ∀ w, (f w).record = w.record) (h : RecSorted l) :
    RecSorted (l.map f) := by
  unfold RecSorted at *
  rw [List.pairwise_map]
  exact h.imp (fun h => by rw [hf, hf]; exact h)

theorem fstImpl_closed_sorted {pq : PQ R} (hpq : pq.ByRec) (t : Trie S) (lit : R → Bool) {v : View R} :
    Closed (fstImpl pq t lit) v (fun s => RecSorted s.data) where
  merge := by
    intro os s hs hm
    simp only [fstImpl, fstMerge] at hm
    split at hm
    · cases hm
      refine mergeLoop_sorted pq hpq _ _ _ ?_
      intro c hc
      simp only [List.mem_filterMap, Option.map_eq_some_iff] at hc
      obtain ⟨o, ho, x, rfl, rfl⟩ := hc
      exact hs x ho
    · cases hm
  build := by
    intro s hs
    simp only [fstImpl, fstBuild, bind_ok] at hs
    obtain ⟨l, -, hs⟩ := hs
    cases hs
    exact recSorted_map (fun _ => rfl) ((sortW_recSorted l).sublist List.filter_sublist)

/-- A shard sorted by record with pairwise different keys has a strictly increasing key list. -/
theorem keys_strict {l : List (Wrapped R)} (hs : RecSorted l) (hnd : (trieKeys l : List S).Nodup) :
    (trieKeys l : List S).Pairwise (· < ·) := by
  unfold trieKeys at *
  unfold RecSorted at hs
  rw [List.pairwise_map]
  rw [List.Nodup, List.pairwise_map] at hnd
  exact (hs.and hnd).imp (fun {a b} h => by
    rcases lt_trichotomy (key (K := S) a.record) (key b.record) with h1 | h1 | h1
    · exact h1
    · exact absurd h1 h.2
    · exact absurd (HasKey.key_lt _ _ h1) (not_lt.mpr h.1))

omit [LinearOrder S] [HasKey R S] [LinearOrder R] in
/-- The entries of one visible shard are part of the entries of the index. -/
theorem shard_ents_le {d : Index R} {s : Shard R} (h : s ∈ d.str.visible) : ents s.data ≤ d.entries := by
  unfold Index.entries
  refine le_trans ?_ (Multiset.le_add_left _ _)
  generalize d.str.visible = ss at *
  induction ss with
  | nil => simp at h
  | cons x xs ih =>
    rw [List.map_cons, List.sum_cons]
    rcases List.mem_cons.mp h with rfl | h
    · exact Multiset.le_add_right _ _
    · exact (ih h).trans (Multiset.le_add_left _ _)

/-- Keys of a visible shard are distinct if the keys of all stored entries are. -/
theorem shard_keys_nodup {d : Index R} {s : Shard R} (h : s ∈ d.str.visible)
    (hnd : (d.entries.map (fun e => key (K := S) e.record)).Nodup) : (trieKeys s.data : List S).Nodup := by
  have h1 := Multiset.nodup_of_le (Multiset.map_le_map (f := fun e => key (K := S) e.record) (shard_ents_le h)) hnd
  unfold ents at h1
  rw [Multiset.map_coe, Multiset.coe_nodup, List.map_map] at h1
  exact h1

/-- The lookup is exact on a shard with a good key list. -/
theorem fstLookup_exact {t : Trie S} (ht : t.Exact) {s : Shard R} (hne : s.data ≠ [])
    (hs : (trieKeys s.data : List S).Pairwise (· < ·)) (k : S) :
    (∃ i w, fstLookup t s k = .ok (some i) ∧ s.data[i]? = some w ∧ key w.record = k) ∨
    (fstLookup t s k = .ok none ∧ ∀ w ∈ s.data, key w.record ≠ k) := by
  unfold fstLookup
  have h0 : s.data.isEmpty = false := by simpa using hne
  rw [h0]
  simp only [Bool.false_eq_true, if_false]
  rcases ht (trieKeys s.data) (by unfold trieKeys; simpa using hne) hs k with ⟨i, h1, h2⟩ | ⟨h1, h2⟩
  · left
    unfold trieKeys at h2
    rw [List.getElem?_map, Option.map_eq_some_iff] at h2
    obtain ⟨w, h3, h4⟩ := h2
    exact ⟨i, w, h1, h3, h4⟩
  · right
    refine ⟨h1, fun w hw e => h2 ?_⟩
    unfold trieKeys
    exact List.mem_map.mpr ⟨w, hw, e⟩

/-- `plShards_spec` for lookups that are exact on the shards at hand. -/
theorem plShards_on {f : Shard R → S → Res (Option Nat)} (k : S) : ∀ (ss : List (Shard R)),
    (∀ s ∈ ss, (∃ i w, f s k = .ok (some i) ∧ s.data[i]? = some w ∧ key w.record = k) ∨
      (f s k = .ok none ∧ ∀ w ∈ s.data, key w.record ≠ k)) →
    (∃ w, plShards f k ss = .ok [w] ∧ key w.record = k ∧ ∃ s ∈ ss, w ∈ s.data) ∨
    (plShards f k ss = .ok [] ∧ ∀ s ∈ ss, ∀ w ∈ s.data, key w.record ≠ k)
  | [], _ => Or.inr ⟨rfl, by simp⟩
  | s :: ss, hf => by
    rw [plShards]
    rcases hf s (by simp) with ⟨i, w, h1, h2, h3⟩ | ⟨h1, h2⟩
    · left
      refine ⟨w, ?_, h3, s, List.mem_cons_self, mem_of_getElem? h2⟩
      unfold plLocal getR
      simp only [h1, h2, bind, Except.bind]
    · have e : plLocal f s k = .ok [] := by
        unfold plLocal; simp only [h1, bind, Except.bind]
      rw [e]
      simp only [bind, Except.bind]
      rcases plShards_on k ss (fun s hs => hf s (by simp [hs])) with ⟨w, g1, g2, s', g3, g4⟩ | ⟨g1, g2⟩
      · exact Or.inl ⟨w, g1, g2, s', List.mem_cons_of_mem _ g3, g4⟩
      · refine Or.inr ⟨g1, ?_⟩
        intro s' hs'
        rcases List.mem_cons.mp hs' with rfl | hs'
        · exact h2
        · exact g2 s' hs'

/-- Every shard of an index of tries is sorted by record, always. -/
theorem fst_run_sorted {pq : PQ R} (hpq : pq.ByRec) {t : Trie S} {lit : R → Bool} {d0 : Index R}
    (h0 : BufInv d0.buf) (hI : d0.impl = fstImpl pq t lit) (hl : d0.str.levels = [])
    {ops : List (Index.Op R)} {d : Index R} {bs : List Bool} (hr : d0.run ops = .ok (d, bs)) :
    SAll (fun s => RecSorted s.data) d.str := by
  refine (run_prefix_ind ops (fun _ d _ => SAll (fun s => RecSorted s.data) d.str) h0 ?_ ?_ hr).1
  · intro l hl'; rw [hl] at hl'; simp at hl'
  · intro ops o d d' bs b _ _ hP hb hL ht hi hs
    rw [hI] at hi
    refine step_all (hi ▸ fstImpl_closed_sorted hpq t lit) ?_ hP hs
    intro r _ _ s j h _
    exact tag_recSorted h

end DE
