import Verif.Proofs.InsertOnly

/-!
Histories in which no erased record is ever inserted: nothing cancels, no shard becomes empty, nothing fails.
-/

namespace DE
variable {R : Type}

/-- Untagged, and a tombstone exactly if its record is in `T`. -/
def Entry.stab (T : R → Prop) (e : Entry R) : Prop := e.del = false ∧ (e.tomb = true ↔ T e.record)

theorem Reduces.stab {T : R → Prop} {a b : Multiset (Entry R)} (h : Reduces (fun e => e.del = true) a b)
    (hc : ∀ x ∈ a, x.stab T) : a = b := by
  obtain ⟨cl, ct, dr, e, m, h1, h2, h3⟩ := h
  have hdr : dr = 0 := by
    apply Multiset.eq_zero_of_forall_notMem
    intro x hx
    have := (hc x (by rw [e]; simp [hx])).1
    rw [h3 x hx] at this; cases this
  have hct : ct = 0 := by
    apply Multiset.eq_zero_of_forall_notMem
    intro x hx
    have hT := (hc x (by rw [e]; simp [hx])).2.mp (h2 x hx)
    have : x.record ∈ cl.map Entry.record := by rw [m]; exact Multiset.mem_map_of_mem _ hx
    obtain ⟨y, hy, hyx⟩ := Multiset.mem_map.mp this
    have := (hc y (by rw [e]; simp [hy])).2.mpr (by rw [hyx]; exact hT)
    rw [h1 y hy] at this; cases this
  have hcl : cl = 0 := by
    rw [hct] at m
    simpa using m
  rw [e, hdr, hct, hcl]; simp

/-- Non-empty shard in which nothing can cancel. -/
def StabShard (T : R → Prop) (s : Shard R) : Prop := s.data ≠ [] ∧ ∀ e ∈ ents s.data, e.stab T

variable {K : Type} [LinearOrder R] [LinearOrder K] [HasKey R K]

theorem stab_merge {T : R → Prop} (pq : PQ R) (lb : LB R K) (ss : List (Shard R)) (s : Shard R) (hne : ss ≠ [])
    (hs : ∀ x ∈ ss, StabShard T x) (h : (sortedImpl pq lb).merge (ss.map some) = .ok s) : StabShard T s := by
  have h1 := (sortedImpl_conserving pq lb).merge ss s h
  have h2 := h1.stab (fun x hx => by
    obtain ⟨y, hy, hx⟩ := sents_mem.mp hx
    exact (hs y hy).2 x hx)
  refine ⟨?_, ?_⟩
  · intro h0
    rw [h0, show ents ([] : List (Wrapped R)) = 0 from rfl] at h2
    obtain ⟨y, ys, rfl⟩ := List.exists_cons_of_ne_nil hne
    obtain ⟨w, ws, hw⟩ := List.exists_cons_of_ne_nil (hs y (by simp)).1
    have : w.entry ∈ sents (y :: ys) := sents_mem.mpr ⟨y, by simp, mem_ents.mpr ⟨w, by simp [hw], rfl⟩⟩
    rw [h2] at this
    simp at this
  · intro e he
    rw [← h2] at he
    obtain ⟨y, hy, he⟩ := sents_mem.mp he
    exact (hs y hy).2 e he

theorem stab_mergeOk {T : R → Prop} (pq : PQ R) (lb : LB R K) : MergeOk (sortedImpl pq lb) (StabShard T) := by
  intro ss _ h
  exact sortedMerge_total (fun x hx => (h x hx).1)

theorem stab_build {T : R → Prop} (pq : PQ R) (lb : LB R K) {b : Buffer R} (hb : b.WF) (hne : b.contents ≠ [])
    (hc : ∀ e ∈ ents b.contents, e.stab T) :
    ∃ s, (sortedImpl pq lb).build b.view = .ok s ∧ StabShard T s := by
  have hv := Buffer.view_copyOut hb
  refine ⟨_, by simp only [sortedImpl, sortedFromView, hv]; rfl, ?_⟩
  have h := ((sortedImpl_conserving pq lb).build b.view _ _ (Buffer.view_reads hb)
    (show (sortedImpl pq lb).build b.view = _ by simp only [sortedImpl, sortedFromView, hv]; rfl))
  have h2 := h.stab hc
  refine ⟨?_, ?_⟩
  · intro h0
    rw [h0, show ents ([] : List (Wrapped R)) = 0 from rfl] at h2
    exact hne (ents_eq_zero.mp h2)
  · intro e he; rw [← h2] at he; exact hc e he

/-- State of an index in which nothing can cancel. -/
structure StabInv (T : R → Prop) (pq : PQ R) (lb : LB R K) (d : Index R) : Prop where
  inv : d.GInv
  impl : d.impl = sortedImpl pq lb
  buf : ∀ e ∈ ents d.buf.contents, e.stab T
  shards : ∀ s ∈ d.str.visible, StabShard T s

omit [LinearOrder R] [LinearOrder K] [HasKey R K] in
theorem stab_l0 {T : R → Prop} {d : Index R} (hsh : ∀ s ∈ d.str.visible, StabShard T s) : d.L0NonEmpty := by
  intro l hl s hs
  refine (hsh s ?_).1
  unfold Struct.visible
  rw [List.mem_flatMap]
  refine ⟨l, ?_, hs⟩
  cases hd : d.str.levels with
  | nil => rw [hd] at hl; simp at hl
  | cons x xs => rw [hd] at hl; simp at hl; simp [hl]

theorem StabInv.entries {T : R → Prop} {pq : PQ R} {lb : LB R K} {d : Index R} (h : StabInv T pq lb d) : ∀ e ∈ d.entries, e.stab T := by
  intro e he
  unfold Index.entries at he
  rw [Multiset.mem_add] at he
  rcases he with he | he
  · exact h.buf e he
  · obtain ⟨s, hs, he⟩ := sents_mem.mp (show e ∈ sents d.str.visible from he)
    exact (h.shards s hs).2 e he

theorem StabInv.flush {T : R → Prop} {pq : PQ R} {lb : LB R K} {d : Index R} (h : StabInv T pq lb d) (hat : d.buf.atLwm = true) :
    ∃ d', d.flush = .ok d' := by
  obtain ⟨s, hs, hq⟩ := stab_build pq lb h.inv.wf (atLwm_ne h.inv.lwm hat) h.buf
  refine gflush_progress h.inv hat (Q := StabShard T) ?_ ?_ ⟨s, ?_, hq⟩ h.shards
  · rw [h.impl]; exact stab_mergeOk pq lb
  · rw [h.impl]; exact stab_merge pq lb
  · rw [h.impl]; exact hs

theorem StabInv.append {T : R → Prop} {pq : PQ R} {lb : LB R K} {d : Index R} (h : StabInv T pq lb d) {r : R} {ts : Bool}
    (ht : ts = true ↔ T r) :
    ∃ d', d.internalAppend r ts = .ok (d', true) ∧ StabInv T pq lb d' ∧ d'.tagging = d.tagging := by
  have hex : ∃ d' b, d.internalAppend r ts = .ok (d', b) := by
    unfold Index.internalAppend
    by_cases hat : d.buf.atLwm = true
    · obtain ⟨d1, h1⟩ := h.flush hat
      rw [if_pos hat, h1]; exact ⟨_, _, rfl⟩
    · rw [if_neg hat]; exact ⟨_, _, rfl⟩
  obtain ⟨d', b, hs⟩ := hex
  have hI : d.impl.Conserving := by rw [h.impl]; exact sortedImpl_conserving pq lb
  obtain ⟨rfl, h2, h3, h4, h5, ⟨m, h6, h7⟩, h8, h9, -⟩ := gappend_ok h.inv hI hs
  have hsh : ∀ s ∈ d'.str.visible, StabShard T s := by
    intro s hs'
    rcases h8 with ⟨-, e, -⟩ | ⟨hat, -⟩
    · rw [e] at hs'; exact h.shards s hs'
    · obtain ⟨s0, hs0, hq0⟩ := stab_build pq lb h.inv.wf (atLwm_ne h.inv.lwm hat) h.buf
      refine Derived.all (Q := StabShard T) h.shards ?_ ?_ (h9 s hs')
      · rw [h.impl]; exact stab_merge pq lb
      · intro s1 hs1
        rw [h.impl, hs0] at hs1
        cases hs1; exact hq0
  have hbuf : ∀ e ∈ ents d'.buf.contents, e.stab T := by
    intro e he
    have hc : ∀ pos, e ∈ ents [Buffer.entryAt r ts pos] → e.stab T := by
      intro pos he
      simp [ents, entryAt_entry] at he
      rw [he]; exact ⟨rfl, ht⟩
    rcases h8 with ⟨-, -, -, hcn⟩ | ⟨-, -, -, -, -, hcn⟩
    · rw [hcn, ents_append, Multiset.mem_add] at he
      rcases he with he | he
      · exact h.buf e he
      · exact hc _ he
    · rw [hcn] at he; exact hc _ he
  refine ⟨d', hs, ⟨?_, h4.trans h.impl, hbuf, hsh⟩, h3⟩
  rcases h5 with h5 | ⟨-, h5⟩
  · exact h5
  · exact absurd (stab_l0 hsh) h5

theorem StabInv.run {T : R → Prop} {pq : PQ R} {lb : LB R K} : ∀ (ops : List (Index.Op R)) {d : Index R}, StabInv T pq lb d →
    d.tagging = false → (∀ r, Index.Op.ins r ∈ ops → ¬ T r) → (∀ r, Index.Op.del r ∈ ops → T r) →
    ∃ d', d.run ops = .ok (d', List.replicate ops.length true) ∧ StabInv T pq lb d'
  | [], d, h, _, _, _ => ⟨d, rfl, h⟩
  | o :: os, d, h, ht, hi, hd => by
    obtain ⟨d1, h1, h2, h3⟩ : ∃ d1, d.step o = .ok (d1, true) ∧ StabInv T pq lb d1 ∧ d1.tagging = d.tagging := by
      cases o with
      | ins r => exact h.append (by simp [hi r (by simp)])
      | del r =>
        simp only [Index.step, Index.erase, ht, Bool.false_eq_true, if_false]
        rw [← ht]
        exact h.append (by simp [hd r (by simp)])
    obtain ⟨d2, g1, g2⟩ := StabInv.run os h2 (h3.trans ht) (fun r hr => hi r (by simp [hr])) (fun r hr => hd r (by simp [hr]))
    exact ⟨d2, run_cons.mpr ⟨d1, true, _, h1, g1, rfl⟩, g2⟩

theorem new_stab [Inhabited R] {T : R → Prop} {L : Layout} {tag : Bool} {pq : PQ R} {lb : LB R K} {lwm hwm sf : Nat} {d : Index R}
    (h : Index.new L tag (sortedImpl pq lb) lwm hwm sf = .ok d) (hl : 0 < lwm) (hsf : 0 < sf) : StabInv T pq lb d := by
  obtain ⟨h1, -, -, h4, h5, h6⟩ := new_ginv h hl hsf
  refine ⟨h1, h4, ?_, by rw [h6]; simp⟩
  intro e he
  have : e ∈ d.entries := by
    unfold Index.entries; rw [Multiset.mem_add]; exact Or.inl he
  rw [h5] at this
  simp at this

end DE
