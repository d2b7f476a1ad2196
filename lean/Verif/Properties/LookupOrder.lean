import Verif.Proofs.LookupOrder
import Verif.Properties.PointLookup
import Verif.Properties.Segments

/-!
C38 with tombstone deletes: the layouts with one shard per level.
-/

namespace DE
variable {R K : Type} [LinearOrder R] [LinearOrder K] [HasKey R K] [Inhabited R]

/-- What a tombstone index can hold: entries of records that were inserted, tombstones of records that were erased. -/
theorem tomb_entries {L : Layout} {pq : PQ R} {lb : LB R K} {lwm hwm sf : Nat} {d0 d : Index R} {ops : List (Index.Op R)}
    {bs : List Bool} (hnew : Index.new L false (sortedImpl pq lb) lwm hwm sf = .ok d0) (hlwm : 1 ≤ lwm) (hsf : 1 ≤ sf)
    (hrun : d0.run ops = .ok (d, bs)) :
    ∀ e ∈ d.entries, e.del = false ∧ (if e.tomb then .del e.record ∈ ops else .ins e.record ∈ ops) := by
  obtain ⟨-, -, h3, h4, -⟩ := new_ginv hnew hlwm hsf
  obtain ⟨hd, -⟩ := new_ok hnew
  exact (run_entries (pq := pq) (lb := lb)
    (fun ops e => e.del = false ∧ (if e.tomb then Index.Op.del e.record ∈ ops else Index.Op.ins e.record ∈ ops)) (new_buf hnew hlwm) h4
    (by rw [hd]; rfl) (by rw [hd]) (fun ops o e h => ⟨h.1, by
      have := h.2
      split at this
      · next ht => rw [if_pos ht]; simp [this]
      · next ht => rw [if_neg ht]; simp [this]⟩) (fun ops r => by simp)
    (fun ops r h => by simp) (fun ops r t dl ht h => by rw [h3] at ht; cases ht) hrun).entries

/-- C38, tombstones, any layout: a record that was inserted and never erased, and that is the only one with its key, is
what the lookup returns. -/
theorem C38_tombstone_live_partial {L : Layout} {pq : PQ R} {lb : LB R K} {f : Shard R → K → Res (Option Nat)}
    (hf : ExactKeyLookup f) {lwm hwm sf : Nat} {d0 d : Index R} {ops : List (Index.Op R)} {bs : List Bool}
    (hnew : Index.new L false (sortedImpl pq lb) lwm hwm sf = .ok d0) (hlwm : 1 ≤ lwm) (hsf : 1 ≤ sf)
    (hblk : L = .bsm → NoVoidBlock lwm ops) (hrun : d0.run ops = .ok (d, bs)) (r : R) (hins : .ins r ∈ ops)
    (hdel : .del r ∉ ops) (huniq : ∀ x, .ins x ∈ ops ∨ .del x ∈ ops → key (K := K) x = key r → x = r) :
    d.pointLookup f (key r) = .ok [r] := by
  obtain ⟨h1, h2, h3, h4, h5, -⟩ := new_ginv hnew hlwm hsf
  obtain ⟨hd, -⟩ := new_ok hnew
  obtain ⟨-, hnet, -, hg, -⟩ := grun_net h1 (h4 ▸ sortedImpl_conserving pq lb) (h4 ▸ sortedImpl_lookupSound pq lb) h3 h5
    (by rw [hd]; rfl) (fun hL => by rw [hd]; exact hblk (h2 ▸ hL)) hrun
  have hE := tomb_entries hnew hlwm hsf hrun
  rcases pointLookup_spec hf hg.wf (key r) with ⟨e, he, hk, hq⟩ | ⟨hno, hq⟩
  · obtain ⟨e1, e2⟩ := hE e he
    have her : e.record = r := by
      refine huniq _ ?_ hk
      split at e2
      · exact Or.inr e2
      · exact Or.inl e2
    have ht : e.tomb = false := by
      cases ht : e.tomb with
      | false => rfl
      | true => rw [ht, if_pos rfl, her] at e2; exact absurd e2 hdel
    rw [hq]
    unfold answer
    rw [e1, ht, her]; rfl
  · have hn := hnet r
    have hi : 0 < insCount r ops := List.count_pos_iff.mpr hins
    have hz : delCount r ops = 0 := List.count_eq_zero.mpr hdel
    have : 0 < liveCount r d.entries := by omega
    obtain ⟨e, hm, hr, -⟩ := Multiset.countP_pos.mp this
    exact absurd (by rw [hr]) (hno e hm)

/-- C38, tombstones, leveling and BSM: a record inserted once, at least `lwm` operations ago, is returned by the lookup
of its key if it was not erased and is not returned if it was. Its key must be used by no other record, the low watermark
must divide the ring capacity and the queue must order by `Wrapped::operator<`. Missing: records inserted and erased
within the buffer (`C38_false_buffer`), tiering (`C38_false_tiering`), shards that are asked for value 0
(`C38_false_value`). -/
theorem C38_single_shard_partial {L : Layout} (hL : L ≠ .tiering) {pq : PQ R} (hpq : pq.ByWrapped) {lb : LB R K}
    {f : Shard R → K → Res (Option Nat)} (hf : ExactKeyLookup f) {lwm hwm sf : Nat} {d0 d : Index R}
    {ops later : List (Index.Op R)} {bs : List Bool}
    (hnew : Index.new L false (sortedImpl pq lb) lwm hwm sf = .ok d0) (hlwm : 1 ≤ lwm) (hsf : 1 ≤ sf)
    (hdvd : lwm ∣ 2 * hwm) (hcap : 2 * hwm ≤ 2 ^ 29) (hblk : L = .bsm → NoVoidBlock lwm (ops ++ later))
    (hrun : d0.run (ops ++ later) = .ok (d, bs)) {r : R} (hc : SingleCycle r (ops ++ later)) (hins : .ins r ∈ ops)
    (hlater : lwm ≤ later.length)
    (huniq : ∀ x, .ins x ∈ ops ++ later ∨ .del x ∈ ops ++ later → key (K := K) x = key r → x = r) :
    d.pointLookup f (key r) = .ok (if .del r ∈ ops ++ later then [] else [r]) := by
  by_cases hdel : .del r ∈ ops ++ later
  swap
  · rw [if_neg hdel]
    exact C38_tombstone_live_partial hf hnew hlwm hsf hblk hrun r (List.mem_append_left _ hins) hdel huniq
  rw [if_pos hdel]
  obtain ⟨h1, h2, h3, h4, h5, -⟩ := new_ginv hnew hlwm hsf
  obtain ⟨hd, -⟩ := new_ok hnew
  have hI : d0.impl.Conserving := h4 ▸ sortedImpl_conserving pq lb
  have hlk : d0.impl.LookupSound := h4 ▸ sortedImpl_lookupSound pq lb
  have hb0 : d0.buf.tail - d0.buf.head = 0 := by rw [hd]; rfl
  have hc0 : chron d0.str.abs = [] := by rw [hd]; rfl
  have hn : d0.L = .bsm → NoVoidBlock d0.buf.lwm (ops ++ later) := fun h => by rw [hd]; exact hblk (h2 ▸ h)
  obtain ⟨-, hnet, -, hg, -⟩ := grun_net h1 hI hlk h3 h5 hb0 hn hrun
  obtain ⟨blks, s1, s2⟩ := segs_run h1 hI hlk h3 h5 hb0 hc0 hn hrun
  have hE := tomb_entries hnew hlwm hsf hrun
  obtain ⟨hcy, hb, hl, -, -⟩ := cycle_run hpq hnew hlwm hsf hdvd hcap hblk hrun hc
  have hLd : d.L ≠ .tiering := by
    have := (run_buf (ops ++ later) (new_buf hnew hlwm) hrun).2.1
    rw [this, h2]; exact hL
  have hvis := visible_chron (GInv_single hg hLd)
  have hrec : ∀ e ∈ d.entries, key (K := K) e.record = key r → e.record = r := by
    intro e he hk
    refine huniq _ ?_ hk
    have := (hE e he).2
    split at this
    · exact Or.inr this
    · exact Or.inl this
  -- the insert has left the buffer
  have hbl : liveCount r (ents d.buf.contents) = 0 := by
    obtain ⟨n, hn1, hn2, e⟩ := bufExact_ents hcy.buf
    have hnl : n ≤ lwm := by rw [hn1, ← hl]; exact hb.cnt
    have hpos : 0 < insCount r ops := List.count_pos_iff.mpr hins
    have hone := hc.1
    rw [insCount_append] at hone
    have hsub : (ops ++ later).drop ((ops ++ later).length - n) = later.drop (later.length - n) := by
      rw [List.length_append, List.drop_append, List.drop_eq_nil_of_le (by omega), List.nil_append]
      congr 1; omega
    have hle1 : insCount r (later.drop (later.length - n)) ≤ insCount r later := (List.drop_sublist _ _).count_le _
    rw [e, opEnts_live, hsub]; omega
  unfold Index.pointLookup plBuffer
  rw [Buffer.view_gets hg.wf]
  simp only [bind, Except.bind]
  cases hfind : d.buf.contents.find? (fun w => decide (key w.record = (key r : K))) with
  | some w =>
    have hk : key (K := K) w.record = key r := by simpa using List.find?_some hfind
    have hm := List.mem_of_find?_eq_some hfind
    have hwr := hrec w.entry (mem_entries.mpr (Or.inl ⟨w, hm, rfl⟩)) hk
    have ht : w.isTombstone = true := by
      by_contra ht
      have : 0 < liveCount r (ents d.buf.contents) :=
        Multiset.countP_pos.mpr ⟨w.entry, mem_ents.mpr ⟨w, hm, rfl⟩, hwr, show w.isTombstone = false by simpa using ht⟩
      omega
    simp [plCombine, ht]
  | none =>
    have h0 : ∀ w ∈ d.buf.contents, w.record ≠ r := by
      intro w hw hwr
      have := List.find?_eq_none.mp hfind w hw
      rw [hwr] at this
      simp at this
    have hbt : tombCount r (ents d.buf.contents) = 0 := by
      by_contra hne
      obtain ⟨w, hw, hwr, -⟩ := tombCount_pos (Nat.pos_of_ne_zero hne)
      exact h0 w hw hwr
    rcases plShards_first hf (key r) d.str.visible with ⟨w, a, s, b, g1, g2, g3, g4, g5⟩ | ⟨g1, g2⟩
    swap
    · simp only [g1]; rfl
    simp only [g2]
    have hsv : s ∈ d.str.visible := by rw [g1]; simp
    have hwr := hrec w.entry (mem_entries.mpr (Or.inr ⟨s, hsv, w, g4, rfl⟩)) g3
    cases ht : w.isTombstone with
    | true => simp [plCombine, ht]
    | false =>
      exfalso
      have hso : One r s.data := (hcy.cyc.sh s (by simpa using hsv)).1
      obtain ⟨c1, c2⟩ := one_live hso g4 hwr
      rw [ht] at c1 c2
      simp only [Bool.false_eq_true, if_false] at c1 c2
      -- there is exactly one live entry and one tombstone
      have hd1 : 0 < delCount r (ops ++ later) := List.count_pos_iff.mpr hdel
      have hd2 := hc.del
      have hi1 := hc.1
      have hi2 := hc.2 _ (List.prefix_refl _)
      have hn1 := hnet r
      have hlpos : 0 < liveCount r d.entries :=
        Multiset.countP_pos.mpr ⟨w.entry, mem_entries.mpr (Or.inr ⟨s, hsv, w, g4, rfl⟩), hwr, ht⟩
      have htpos : 0 < tombCount r d.entries := by omega
      obtain ⟨e, he, her, het⟩ := Multiset.countP_pos.mp htpos
      rcases mem_entries.mp he with ⟨w2, hw2, rfl⟩ | ⟨s2', hs2', w2, hw2, rfl⟩
      · exact h0 w2 hw2 her
      · have ho2 : One r s2'.data := (hcy.cyc.sh s2' (by simpa using hs2')).1
        obtain ⟨f1, f2⟩ := one_live ho2 hw2 her
        rw [show w2.isTombstone = true from het] at f1 f2
        simp only [if_true] at f1 f2
        rw [g1] at hs2'
        have hin : s2' ∈ b := by
          rcases List.mem_append.mp hs2' with h | h
          · exact absurd (by rw [show w2.record = r from her]) (g5 s2' h w2 hw2)
          · rcases List.mem_cons.mp h with rfl | h
            · omega
            · exact h
        have hch : chron d.str.abs = b.reverse ++ s :: a.reverse := by
          have := congrArg List.reverse hvis
          rw [List.reverse_reverse, g1] at this
          rw [← this]; simp
        rw [hch] at s2
        exact cycle_newer hc (t := (ops ++ later).drop ((ops ++ later).length - (d.buf.tail - d.buf.head)))
          (by rw [s1]; exact List.take_append_drop _ _) s2 (by simpa using hin) (by omega) (by omega)

/-- Non-vacuous: on leveling and BSM, record 3 was inserted, pushed down and erased; its tombstone is in another shard;
record 2 is alive. -/
example : probe .leveling false 2 2 2 (insSeq 0 9 ++ [.del ⟨3, 3⟩] ++ insSeq 10 3)
    (fun p => do .ok (← p.1.pointLookup scanKey 3, ← p.1.pointLookup scanKey 2,
      (p.1.str.visible.map (fun s => s.data.filterMap (fun w => if w.record.key = 3 then some w.isTombstone else none))))) =
    .ok ([], [⟨2, 2⟩], [[true], [false]]) := by decide
example : probe .bsm false 2 2 2 (insSeq 0 9 ++ [.del ⟨3, 3⟩] ++ insSeq 10 3)
    (fun p => do .ok (← p.1.pointLookup scanKey 3, ← p.1.pointLookup scanKey 2,
      (p.1.str.visible.map (fun s => s.data.filterMap (fun w => if w.record.key = 3 then some w.isTombstone else none))))) =
    .ok ([], [⟨2, 2⟩], [[], [true], [false]]) := by decide

end DE
