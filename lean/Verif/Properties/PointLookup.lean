import Verif.Proofs.PointLookup
import Verif.Proofs.Instances
import Verif.Properties.TaggingErase
import Verif.Properties.RangeQuery
import Verif.Properties.Search

/-!
C38: the point lookup query.
-/

namespace DE
variable {R K : Type} [LinearOrder R] [LinearOrder K] [HasKey R K] [Inhabited R]

/-- A lookup by key: linear search. Meets the contract of the theorems below. -/
def scanKey (s : Shard R) (k : K) : Res (Option Nat) := .ok (s.data.findIdx? (fun w => decide (key w.record = k)))

omit [Inhabited R] in
theorem scanKey_exact : ExactKeyLookup (scanKey : Shard R → K → Res (Option Nat)) := by
  intro s k
  unfold scanKey
  cases h : s.data.findIdx? (fun w => decide (key w.record = k)) with
  | none =>
    right
    refine ⟨rfl, ?_⟩
    intro w hw
    have := List.findIdx?_eq_none_iff.mp h w hw
    simpa using this
  | some i =>
    left
    obtain ⟨hi, h1, -⟩ := List.findIdx?_eq_some_iff_getElem.mp h
    exact ⟨i, s.data[i], rfl, List.getElem?_eq_getElem hi, by simpa using h1⟩

/-- C38, insert-only histories, any layout and delete policy: with an exact lookup in the shards, the query returns a record
with key `k` iff one was inserted; if keys are unique it is that record. -/
theorem C38_insert_only_partial {L : Layout} {tag : Bool} {pq : PQ R} {lb : LB R K} {f : Shard R → K → Res (Option Nat)}
    (hf : ExactKeyLookup f) {lwm hwm sf : Nat} {d0 : Index R} {ops : List (Index.Op R)}
    (hnew : Index.new L tag (sortedImpl pq lb) lwm hwm sf = .ok d0) (hlwm : 1 ≤ lwm) (hsf : 1 ≤ sf)
    (hio : InsertOnly ops) (k : K) :
    ∃ d res, d0.run ops = .ok (d, List.replicate ops.length true) ∧ d.pointLookup f k = .ok res ∧
      (∀ r ∈ res, .ins r ∈ ops ∧ key r = k) ∧ ((∃ r, .ins r ∈ ops ∧ key r = k) → res.length = 1) ∧
      (((inserted ops).map (key (K := K))).Nodup → res = (inserted ops).filter (fun r => decide (key r = k))) := by
  obtain ⟨d, h1, h2, h3, -⟩ := (new_clean hnew hlwm hsf).run ops hio
  obtain ⟨-, -, -, -, h5, -⟩ := new_ginv hnew hlwm hsf
  rw [h5, zero_add] at h3
  have hmem : ∀ e : Entry R, e ∈ d.entries ↔ .ins e.record ∈ ops ∧ e.del = false ∧ e.tomb = false := by
    intro e
    rw [h3]
    unfold insEntries
    rw [Multiset.mem_coe, List.mem_map]
    constructor
    · rintro ⟨r, hr, rfl⟩
      exact ⟨mem_inserted.mp hr, rfl, rfl⟩
    · rintro ⟨hr, hdl, ht⟩
      refine ⟨e.record, mem_inserted.mpr hr, ?_⟩
      cases e; simp_all
  rcases pointLookup_spec hf h2.inv.wf k with ⟨e, he, hk, hq⟩ | ⟨hno, hq⟩
  · obtain ⟨g1, g2, g3⟩ := (hmem e).mp he
    have ha : answer e = [e.record] := by unfold answer; rw [g2, g3]; rfl
    rw [ha] at hq
    refine ⟨d, [e.record], h1, hq, ?_, fun _ => rfl, ?_⟩
    · intro r hr
      rw [List.mem_singleton] at hr
      rw [hr]; exact ⟨g1, hk⟩
    · intro hnd
      exact (filter_unique hnd (mem_inserted.mpr g1) hk).symm
  · refine ⟨d, [], h1, hq, by simp, ?_, ?_⟩
    · rintro ⟨r, hr, hk⟩
      exact absurd hk (hno ⟨r, false, false⟩ ((hmem _).mpr ⟨hr, rfl, rfl⟩))
    · intro _
      symm
      rw [List.filter_eq_nil_iff]
      intro r hr
      have := hno ⟨r, false, false⟩ ((hmem _).mpr ⟨mem_inserted.mp hr, rfl, rfl⟩)
      simpa using this

/-- C38, tagging (leveling and tiering), unique keys: an inserted record that was never erased is what the lookup returns. -/
theorem C38_tagging_live_partial {L : Layout} (hL : L ≠ .bsm) {pq : PQ R} {lb : LB R K} {f : Shard R → K → Res (Option Nat)}
    (hf : ExactKeyLookup f) {lwm hwm sf : Nat} {d0 d : Index R} {ops : List (Index.Op R)} {bs : List Bool}
    (hnew : Index.new L true (sortedImpl pq lb) lwm hwm sf = .ok d0) (hlwm : 1 ≤ lwm) (hsf : 1 ≤ sf)
    (hrun : d0.run ops = .ok (d, bs)) (r : R) (hins : .ins r ∈ ops) (hdel : .del r ∉ ops)
    (huniq : ∀ x, .ins x ∈ ops → key (K := K) x = key r → x = r) : d.pointLookup f (key r) = .ok [r] := by
  obtain ⟨h1, h2, h3, h4, h5⟩ := new_inv hL hnew hlwm hsf
  obtain ⟨hd, -⟩ := new_ok hnew
  have hb0 := new_buf hnew hlwm
  obtain ⟨g1, g2⟩ := tagging_before_first h1 (h4 ▸ sortedImpl_conserving pq lb) (h4 ▸ sortedImpl_lookupSound pq lb) h3 h5
    hrun r (List.count_eq_zero.mpr hdel)
  have hE := (run_entries (pq := pq) (lb := lb) (fun ops e => .ins e.record ∈ ops) hb0 h4
    (by rw [hd]; rfl) (by rw [hd]) (fun ops o e h => by simp only [List.mem_append]; exact Or.inl h) (fun ops r => by simp)
    (fun ops r h => by rw [h3] at h; cases h) (fun ops r t dl _ h => by simp only [List.mem_append]; exact Or.inl h) hrun).entries
  rcases pointLookup_spec hf (run_buf ops hb0 hrun).1.wf (key r) with ⟨e, he, hk, hq⟩ | ⟨hno, hq⟩
  · have her := huniq _ (hE e he) hk
    obtain ⟨q1, q2⟩ := g1 e he
    rw [hq]
    unfold answer
    rw [q1, q2 her, her]; rfl
  · have : 0 < liveCount r d.entries := by rw [g2]; exact List.count_pos_iff.mpr hins
    obtain ⟨e, hm, hr, -⟩ := Multiset.countP_pos.mp this
    exact absurd (by rw [hr]) (hno e hm)

omit [LinearOrder K] [HasKey R K] [Inhabited R] in
/-- Once no untagged copy of `r` is left, none appears unless `r` is inserted again. -/
theorem untagged_stays {d d' : Index R} (h0 : d.Inv) (hI : d.impl.Conserving) (hl : d.impl.LookupSound)
    (ht : d.tagging = true) {r : R} (hz : ∀ e ∈ d.entries, e.record = r → e.del = true) {ops : List (Index.Op R)} {bs : List Bool}
    (hr : d.run ops = .ok (d', bs)) (hno : .ins r ∉ ops) : ∀ e ∈ d'.entries, e.record = r → e.del = true := by
  refine (run_ind (fun ops a => .ins r ∉ ops → ∀ e ∈ a, e.record = r → e.del = true) h0 hI hl (fun _ => hz) ?_ ops hr).1 hno
  intro ops o b a a' hP hs hno e he her
  have hP := hP (fun h => hno (List.mem_append.mpr (Or.inl h)))
  unfold StepEff at hs
  cases o with
  | ins x =>
    obtain ⟨-, m, ⟨cl, ct, dr, hm, -⟩, rfl⟩ := hs
    rcases Multiset.mem_add.mp he with he | he
    · refine hP e ?_ her
      rw [hm]; simp [he]
    · simp at he
      rw [he] at her
      simp only at her
      rw [her] at hno
      simp at hno
  | del x =>
    simp only [if_pos ht] at hs
    rcases hs with rfl | ⟨rest, t, dl, rfl, rfl⟩
    · exact hP e he her
    · rcases Multiset.mem_add.mp he with he | he
      · exact hP e (Multiset.mem_add.mpr (Or.inl he)) her
      · simp at he; rw [he]

/-- C38, tagging (leveling and tiering): a record that was inserted once and whose erase was acknowledged is not returned by
any later lookup, whatever happens in between, as long as it is not inserted again. -/
theorem C38_tagging_erased_partial {L : Layout} (hL : L ≠ .bsm) {pq : PQ R} (hpq : pq.ByRec) {lb : LB R K} (hlb : lb.Sound)
    {f : Shard R → K → Res (Option Nat)} (hf : ExactKeyLookup f) {lwm hwm sf : Nat} {d0 d d1 d2 : Index R}
    {ops ops' : List (Index.Op R)} {bs bs' : List Bool} {r : R}
    (hnew : Index.new L true (sortedImpl pq lb) lwm hwm sf = .ok d0) (hlwm : 1 ≤ lwm) (hsf : 1 ≤ sf)
    (hrun : d0.run ops = .ok (d, bs)) (hone : insCount r ops = 1) (hfirst : .del r ∉ ops)
    (he : d.erase r = .ok (d1, true)) (hrun' : d1.run ops' = .ok (d2, bs')) (hno : .ins r ∉ ops') (k : K) :
    ∃ res, d2.pointLookup f k = .ok res ∧ r ∉ res := by
  obtain ⟨h1, h2, h3, h4, h5⟩ := new_inv hL hnew hlwm hsf
  have hb0 := new_buf hnew hlwm
  have hins : ∃ x, .ins x ∈ ops := ⟨r, List.count_pos_iff.mp (by unfold insCount at hone; omega)⟩
  obtain ⟨-, i1, i2, i3, i4⟩ := run_ind (fun _ _ => True) h1 (h4 ▸ sortedImpl_conserving pq lb) (h4 ▸ sortedImpl_lookupSound pq lb)
    trivial (fun _ _ _ _ _ _ _ => trivial) ops hrun
  have hI : d.impl = sortedImpl pq lb := i4.trans h4
  obtain ⟨j1, j2, j3, j4, -⟩ := step_inv i1 (hI ▸ sortedImpl_conserving pq lb) (hI ▸ sortedImpl_lookupSound pq lb)
    (o := .del r) (show d.step (.del r) = .ok (d1, true) from he)
  have hI1 : d1.impl = sortedImpl pq lb := j4.trans hI
  obtain ⟨g1, g2⟩ := tagging_before_first h1 (h4 ▸ sortedImpl_conserving pq lb) (h4 ▸ sortedImpl_lookupSound pq lb) h3 h5
    hrun r (List.count_eq_zero.mpr hfirst)
  have hu := (C13_partial hL hpq hlb hnew hlwm hsf hrun hins hfirst he).2 r
  have hle : untagged r d.entries ≤ 1 := by
    rw [← hone, ← g2]
    unfold untagged liveCount
    rw [Multiset.countP_eq_card_filter, Multiset.countP_eq_card_filter]
    refine Multiset.card_le_card (le_of_eq ?_)
    refine Multiset.filter_congr ?_
    intro e hm
    exact ⟨fun h => ⟨h.1, (g1 e hm).1⟩, fun h => ⟨h.1, (g1 e hm).2 h.1⟩⟩
  have hz : untagged r d1.entries = 0 := by simp at hu; omega
  have hz' : ∀ e ∈ d1.entries, e.record = r → e.del = true := by
    intro e hm her
    by_contra hdl
    have : 0 < untagged r d1.entries := Multiset.countP_pos.mpr ⟨e, hm, her, by simpa using hdl⟩
    omega
  have hfin := untagged_stays j1 (hI1 ▸ sortedImpl_conserving pq lb) (hI1 ▸ sortedImpl_lookupSound pq lb)
    (j3.trans (i3.trans h3)) hz' hrun' hno
  obtain ⟨-, k1, -⟩ := run_ind (fun _ _ => True) j1 (hI1 ▸ sortedImpl_conserving pq lb) (hI1 ▸ sortedImpl_lookupSound pq lb)
    trivial (fun _ _ _ _ _ _ _ => trivial) ops' hrun'
  rcases pointLookup_spec hf k1.wf k with ⟨e, hm, hk, hq⟩ | ⟨-, hq⟩
  · refine ⟨_, hq, ?_⟩
    unfold answer
    intro hr
    by_cases hc : (e.del || e.tomb) = true
    · rw [if_pos hc] at hr; simp at hr
    · rw [if_neg hc, List.mem_singleton] at hr
      have := hfin e hm hr.symm
      rw [this] at hc; simp at hc
  · exact ⟨_, hq, by simp⟩

/-- Non-vacuous: lookups answered from a shard, from the buffer, tagged in a shard, and never inserted. -/
example : probe .tiering true 2 2 2 (insSeq 0 7 ++ [.del ⟨2, 2⟩])
    (fun p => do .ok [← p.1.pointLookup scanKey 1, ← p.1.pointLookup scanKey 6, ← p.1.pointLookup scanKey 2,
      ← p.1.pointLookup scanKey 9]) = .ok [[⟨1, 1⟩], [⟨6, 6⟩], [], []] := by decide

/-- C38 is false with tombstones, in the buffer: the record is inserted and erased, and the lookup returns it. -/
theorem C38_false_buffer : ∃ (d0 d : Index Rec) (bs : List Bool), mk .tiering false 4 4 2 = .ok d0 ∧
    d0.run [.ins ⟨1, 0⟩, .del ⟨1, 0⟩] = .ok (d, bs) ∧ d.pointLookup scanKey 1 = .ok [⟨1, 0⟩] := by
  have h : probe .tiering false 4 4 2 [.ins ⟨1, 0⟩, .del ⟨1, 0⟩] (fun p => p.1.pointLookup scanKey 1) = .ok [⟨1, 0⟩] := by decide
  obtain ⟨d0, d, bs, h1, h2, h3⟩ := probe_ok h
  exact ⟨d0, d, bs, h1, h2, h3⟩

/-- C38 is false with tombstones, in the shards of a tiering level: the older shard is asked first. -/
theorem C38_false_tiering : ∃ (d0 d : Index Rec) (bs : List Bool), mk .tiering false 2 2 3 = .ok d0 ∧
    d0.run [.ins ⟨1, 0⟩, .ins ⟨2, 0⟩, .del ⟨1, 0⟩, .ins ⟨3, 0⟩, .ins ⟨4, 0⟩] = .ok (d, bs) ∧
    d.pointLookup scanKey 1 = .ok [⟨1, 0⟩] := by
  have h : probe .tiering false 2 2 3 [.ins ⟨1, 0⟩, .ins ⟨2, 0⟩, .del ⟨1, 0⟩, .ins ⟨3, 0⟩, .ins ⟨4, 0⟩]
    (fun p => p.1.pointLookup scanKey 1) = .ok [⟨1, 0⟩] := by decide
  obtain ⟨d0, d, bs, h1, h2, h3⟩ := probe_ok h
  exact ⟨d0, d, bs, h1, h2, h3⟩

/-- C38 is false with tagging when a key is used again: the tagged older version hides the new record. -/
theorem C38_false_tagging : ∃ (d0 d : Index Rec) (bs : List Bool), mk .tiering true 4 4 2 = .ok d0 ∧
    d0.run [.ins ⟨1, 0⟩, .del ⟨1, 0⟩, .ins ⟨1, 0⟩] = .ok (d, bs) ∧ d.pointLookup scanKey 1 = .ok [] := by
  have h : probe .tiering true 4 4 2 [.ins ⟨1, 0⟩, .del ⟨1, 0⟩, .ins ⟨1, 0⟩] (fun p => p.1.pointLookup scanKey 1) = .ok [] := by decide
  obtain ⟨d0, d, bs, h1, h2, h3⟩ := probe_ok h
  exact ⟨d0, d, bs, h1, h2, h3⟩

/-- C38 is false on the sorted shards, which are asked for the record with value 0: a record with another value is not found
once it is in a shard, although nothing was ever erased. -/
theorem C38_false_value : ∃ (d0 d : Index Rec) (bs : List Bool), mk .tiering false 2 2 2 = .ok d0 ∧
    d0.run [.ins ⟨1, 5⟩, .ins ⟨2, 5⟩, .ins ⟨3, 5⟩] = .ok (d, bs) ∧
    d.pointLookup (fun s k => sortedLookup LB.scan s ⟨k, 0⟩) 1 = .ok [] := by
  have h : probe .tiering false 2 2 2 [.ins ⟨1, 5⟩, .ins ⟨2, 5⟩, .ins ⟨3, 5⟩]
    (fun p => p.1.pointLookup (fun s k => sortedLookup LB.scan s ⟨k, 0⟩) 1) = .ok [] := by decide
  obtain ⟨d0, d, bs, h1, h2, h3⟩ := probe_ok h
  exact ⟨d0, d, bs, h1, h2, h3⟩

end DE
