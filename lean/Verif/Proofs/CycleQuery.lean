import Verif.Proofs.CycleRun
import Verif.Proofs.Query

/-!
Range queries over a record that went through one insert/erase cycle.
-/

namespace DE
variable {R K : Type} [LinearOrder R] [LinearOrder K] [HasKey R K]

/-- Entries of a slot-by-slot buffer are the entries of the last operations. -/
theorem bufExact_ents {d : Index R} {ops : List (Index.Op R)} (h : BufExact d ops) :
    ∃ n, n = d.buf.tail - d.buf.head ∧ n ≤ ops.length ∧ ents d.buf.contents = opEnts (ops.drop (ops.length - n)) := by
  obtain ⟨q, h1, h2, h3⟩ := h
  refine ⟨_, rfl, by omega, ?_⟩
  have : ops.length - (d.buf.tail - d.buf.head) = d.buf.lwm * q := by omega
  rw [this, h3]
  unfold ents opEnts
  congr 1
  apply List.ext_getElem
  · simp
  · intro i h1 h2
    simp only [List.getElem_map, List.getElem_mapIdx]
    rw [entryAt_entry]
    have hi : i < (ops.drop (d.buf.lwm * q)).length := by simpa using h2
    cases (ops.drop (d.buf.lwm * q))[i]'hi <;> rfl

/-- If the insert of `r` is still in the buffer, so is its later erase. -/
theorem cycle_live_tomb {r : R} {d : Index R} {ops : List (Index.Op R)} (hc : SingleCycle r ops) (h : BufExact d ops)
    (hd : delCount r ops = 1) (hl : 0 < liveCount r (ents d.buf.contents)) : 0 < tombCount r (ents d.buf.contents) := by
  obtain ⟨n, -, hn, e⟩ := bufExact_ents h
  rw [e, opEnts_live] at hl
  rw [e, opEnts_tomb]
  have h1 := hc.2 (ops.take (ops.length - n)) (List.take_prefix _ _)
  have h2 : insCount r ops = insCount r (ops.take (ops.length - n)) + insCount r (ops.drop (ops.length - n)) := by
    unfold insCount; rw [← List.count_append, List.take_append_drop]
  have h3 : delCount r ops = delCount r (ops.take (ops.length - n)) + delCount r (ops.drop (ops.length - n)) := by
    unfold delCount; rw [← List.count_append, List.take_append_drop]
  have := hc.1
  omega

theorem ofRec_zero {r : R} {l : List (Wrapped R)} (h : liveCount r (ents l) = 0) (h' : tombCount r (ents l) = 0) :
    ∀ w ∈ l, w.record ≠ r := by
  intro w hw he
  have h1 := ofRec_counts r l
  have : w ∈ ofRec r l := mem_ofRec.mpr ⟨hw, he⟩
  have := List.length_pos_of_mem this
  omega

theorem liveCount_pos {r : R} {l : List (Wrapped R)} (h : 0 < liveCount r (ents l)) :
    ∃ w ∈ l, w.record = r ∧ w.isTombstone = false := by
  obtain ⟨x, hx, h1, h2⟩ := Multiset.countP_pos.mp h
  obtain ⟨w, hw, rfl⟩ := mem_ents.mp hx
  exact ⟨w, hw, h1, h2⟩

theorem tombCount_pos {r : R} {l : List (Wrapped R)} (h : 0 < tombCount r (ents l)) :
    ∃ w ∈ l, w.record = r ∧ w.isTombstone = true := by
  obtain ⟨x, hx, h1, h2⟩ := Multiset.countP_pos.mp h
  obtain ⟨w, hw, rfl⟩ := mem_ents.mp hx
  exact ⟨w, hw, h1, h2⟩

theorem one_filter {r : R} {l : List (Wrapped R)} (h : One r l) (p : Wrapped R → Bool) : One r (l.filter p) := by
  refine ⟨h.1.sublist List.filter_sublist, le_trans ?_ h.2⟩
  exact (List.filter_sublist.filter _).length_le

omit [LinearOrder R] in
theorem zero_lt_tomb {w : Wrapped R} (h : w.isTombstone = true) : (0#32) < w.header := by
  rw [Wrapped.isTombstone_bit] at h
  rw [BitVec.lt_def]
  rcases Nat.eq_zero_or_pos w.header.toNat with h0 | h0
  · have : w.header = 0#32 := BitVec.eq_of_toNat_eq h0
    rw [this] at h; simp at h
  · simpa using h0

/-- The core of the range-query claim: one live entry and one tombstone of `r` spread over cursors. -/
theorem cycle_query {pq : PQ R} (hpq : pq.ByWrapped) {lb : LB R K} (hlb : lb.Sound) {r : R} {d : Index R}
    {ops : List (Index.Op R)} (hc : SingleCycle r ops) (hd : delCount r ops = 1) (h : CycleInv r d ops) (hb : d.buf.WF)
    (hnet : liveCount r d.entries + delCount r ops = tombCount r d.entries + insCount r ops)
    (hs : ∀ s ∈ d.str.visible, RecSorted s.data) {lo hi : K}
    (hbuf : (∀ w ∈ d.buf.contents, w.record ≠ r) ∨
      (d.buf.contents.filter (inRange lo hi)).Pairwise (fun a b => a.record < b.record))
    {res : List R} (hq : d.rangeQuery pq lb lo hi = .ok res) : r ∉ res := by
  obtain ⟨m, rfl, -, hred, hm⟩ := rangeQuery_spec hlb hb hs hq
  intro hmem
  obtain ⟨w0, hw0, hw0r⟩ := List.mem_map.mp hmem
  have hw0e : w0.entry ∈ d.entries.filter (inRangeE lo hi) := Multiset.mem_of_le hred.le (mem_ents.mpr ⟨w0, hw0, rfl⟩)
  have hin : lo ≤ key r ∧ key r ≤ hi := by
    have := (Multiset.mem_filter.mp hw0e).2
    unfold inRangeE at this
    rw [show w0.entry.record = r from hw0r] at this
    exact this
  have hinr : ∀ w : Wrapped R, w.record = r → inRange lo hi w = true := by
    intro w hw; simp [inRange, hw, hin]
  have hcy := h.cyc
  have hlive := h.live
  have htomb := h.tomb
  have hins := hc.1
  have hdi := hc.2 ops (List.prefix_refl _)
  -- positions
  have hfil : ∀ l : List (Wrapped R), ofRec r (l.filter (inRange lo hi)) = ofRec r l := by
    intro l
    unfold ofRec
    rw [List.filter_filter]
    apply List.filter_congr
    intro x _
    by_cases hx : x.record = r
    · simp [hx, hinr x hx]
    · simp [hx]
  let cs := d.buf.contents.filter (inRange lo hi) :: d.str.visible.map (fun s => s.data.filter (inRange lo hi))
  have hcsf : (ofRec r cs.reverse.flatten).Perm (ofRec r (d.buf.contents ++ (d.str.visible.map Shard.data).flatten)) := by
    refine (ofRec_perm (List.reverse_perm cs).flatten).trans ?_
    apply List.Perm.of_eq
    show ofRec r (_ :: _).flatten = _
    rw [List.flatten_cons]
    unfold ofRec
    rw [List.filter_append, List.filter_append]
    congr 1
    · exact hfil _
    · generalize d.str.visible = vs
      induction vs with
      | nil => rfl
      | cons v vs ih =>
        rw [List.map_cons, List.map_cons, List.flatten_cons, List.flatten_cons, List.filter_append, List.filter_append]
        congr 1
        exact hfil _
  have hall : ents (d.buf.contents ++ (d.str.visible.map Shard.data).flatten) = d.entries := by
    rw [ents_append, ents_flatten_shards, visible_ments, ments_coe]
  -- exactly one pair
  have hl1 : liveCount r d.entries = 1 ∧ tombCount r d.entries = 1 := by
    by_contra hne
    have h0 : liveCount r d.entries = 0 ∧ tombCount r d.entries = 0 := by omega
    have hz := ofRec_zero (r := r) (l := d.buf.contents ++ (d.str.visible.map Shard.data).flatten)
      (by rw [hall]; exact h0.1) (by rw [hall]; exact h0.2)
    have := (Multiset.mem_filter.mp hw0e).1
    rw [← hall] at this
    obtain ⟨w, hw, hwe⟩ := mem_ents.mp this
    exact hz w hw ((congrArg Entry.record hwe).trans hw0r)
  have hbl := visible_ments d
  -- tombstone and live in different places or both in shards
  have hbuf1 : liveCount r (ents d.buf.contents) = 0 := by
    by_contra hne
    have hbl' : 0 < liveCount r (ents d.buf.contents) := Nat.pos_of_ne_zero hne
    have hbt := cycle_live_tomb hc h.buf hd hbl'
    obtain ⟨a, ha, har, hat⟩ := liveCount_pos hbl'
    obtain ⟨b, hb1, hbr, hbt⟩ := tombCount_pos hbt
    rcases hbuf with hno | hst
    · exact hno a ha har
    · have ha' : a ∈ d.buf.contents.filter (inRange lo hi) := List.mem_filter.mpr ⟨ha, hinr a har⟩
      have hb' : b ∈ d.buf.contents.filter (inRange lo hi) := List.mem_filter.mpr ⟨hb1, hinr b hbr⟩
      obtain ⟨i, hi1, hi2⟩ := List.getElem_of_mem ha'
      obtain ⟨j, hj1, hj2⟩ := List.getElem_of_mem hb'
      rw [List.pairwise_iff_getElem] at hst
      rcases Nat.lt_trichotomy i j with hij | hij | hij
      · have := hst i j hi1 hj1 hij
        rw [hi2, hj2, har, hbr] at this; exact lt_irrefl _ this
      · subst hij
        rw [hi2] at hj2; subst hj2
        rw [hat] at hbt; cases hbt
      · have := hst j i hj1 hi1 hij
        rw [hi2, hj2, har, hbr] at this; exact lt_irrefl _ this
  obtain ⟨wl, hwl, hwlr, hwlt⟩ := liveCount_pos (r := r) (l := (d.str.visible.map Shard.data).flatten) (by
    have := hl1.1
    rw [← hall, ents_append, liveCount_add] at this; omega)
  obtain ⟨wt, hwt, hwtr, hwtt⟩ := tombCount_pos (r := r) (l := d.buf.contents ++ (d.str.visible.map Shard.data).flatten) (by
    rw [hall]; omega)
  have hlh : wl.header = 0#32 := by
    obtain ⟨c, hcm, hwc⟩ := List.mem_flatten.mp hwl
    obtain ⟨s, hsm, rfl⟩ := List.mem_map.mp hcm
    have := (hcy.sh s hsm).2 wl hwc hwlr
    rw [hwlt] at this; simpa using this
  have hlt : Wrapped.lt wl wt := Or.inr ⟨hwlr.trans hwtr.symm, by rw [hlh]; exact zero_lt_tomb hwtt⟩
  have hpair : (ofRec r cs.reverse.flatten).Perm [wl, wt] := by
    refine hcsf.trans ?_
    obtain ⟨a, b, hab, hor⟩ := ofRec_two (r := r) (l := d.buf.contents ++ (d.str.visible.map Shard.data).flatten)
      (by rw [hall]; omega) (by rw [hall]; omega) (by rw [ofRec_counts, hall]; omega)
    have m1 : wl ∈ ofRec r (d.buf.contents ++ (d.str.visible.map Shard.data).flatten) :=
      mem_ofRec.mpr ⟨List.mem_append_right _ hwl, hwlr⟩
    have m2 : wt ∈ ofRec r (d.buf.contents ++ (d.str.visible.map Shard.data).flatten) :=
      mem_ofRec.mpr ⟨hwt, hwtr⟩
    rw [hab] at m1 m2 ⊢
    simp only [List.mem_cons, List.not_mem_nil, or_false] at m1 m2
    rcases m1 with rfl | rfl <;> rcases m2 with rfl | rfl
    · rw [hwlt] at hwtt; cases hwtt
    · exact List.Perm.refl _
    · exact List.Perm.swap _ _ _
    · rw [hwlt] at hwtt; cases hwtt
  have hone : ∀ c ∈ cs.reverse, (∃ x ∈ c, x.record = r) → One r c := by
    intro c hcm ⟨x, hx, hxr⟩
    rw [List.mem_reverse] at hcm
    rcases List.mem_cons.mp hcm with rfl | hcm
    · refine ⟨?_, ?_⟩
      · rcases hbuf with hno | hst
        · exact absurd hxr (hno x (List.mem_filter.mp hx).1)
        · exact hst.imp (fun h => le_of_lt h)
      · rw [hfil, ofRec_counts, hbuf1]
        have := hl1.2
        rw [← hall, ents_append, tombCount_add] at this; omega
    · obtain ⟨s, hsm, rfl⟩ := List.mem_map.mp hcm
      exact one_filter (hcy.sh s hsm).1 _
  have := mergeLoop_pair hpq (fun w => !w.isTombstone) hwlt hwtt hlt _ cs.reverse (le_refl _) hpair hone
  rw [hm] at hw0
  exact this w0 hw0 hw0r

end DE
