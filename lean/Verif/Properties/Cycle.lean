import Verif.Proofs.CycleQuery
import Verif.Proofs.Static
import Verif.Proofs.BufferRun
import Verif.Proofs.Instances
import Verif.Properties.RangeQuery

/-!
C06 (a range query does not return erased records), C21 (`create_static_structure`), C24 (insert and erase inside
one buffer).
-/

namespace DE
variable {R K : Type} [LinearOrder R] [LinearOrder K] [HasKey R K] [Inhabited R]

/-! ### C06 -/

/-- C06, the part that holds: tombstone deletes, any layout, other records unrestricted, `r` inserted once and erased
once. A range query does not return `r` provided the buffer either no longer holds an entry of `r` or its in-range
entries happen to be sorted by record (in particular: at most one in-range entry). The queue must order by
`Wrapped::operator<` and the low watermark must divide the ring capacity `2 * hwm`.
Missing: erased records whose tombstone is still buffered next to other in-range records (`C06_false`), ring wrap
inside a buffer, and BSM histories with a void block. -/
theorem C06_partial {L : Layout} {pq pq' : PQ R} (hpq : pq.ByWrapped) (hpq' : pq'.ByWrapped) {lb : LB R K} (hlb : lb.Sound)
    {lwm hwm sf : Nat} {d0 d : Index R} {ops : List (Index.Op R)} {bs : List Bool}
    (hnew : Index.new L false (sortedImpl pq lb) lwm hwm sf = .ok d0) (hlwm : 1 ≤ lwm) (hsf : 1 ≤ sf)
    (hdvd : lwm ∣ 2 * hwm) (hcap : 2 * hwm ≤ 2 ^ 29) (hblk : L = .bsm → NoVoidBlock lwm ops)
    (hrun : d0.run ops = .ok (d, bs)) {r : R} (hc : SingleCycle r ops) (hdel : .del r ∈ ops) {lo hi : K}
    (hbuf : (∀ w ∈ d.buf.contents, w.record ≠ r) ∨
      (d.buf.contents.filter (inRange lo hi)).Pairwise (fun a b => a.record < b.record))
    {res : List R} (hq : d.rangeQuery pq' lb lo hi = .ok res) : r ∉ res := by
  obtain ⟨h1, h2, h3, h4, h5, -⟩ := new_ginv hnew hlwm hsf
  obtain ⟨hd, -⟩ := new_ok hnew
  obtain ⟨-, hnet, -, hg, -⟩ := grun_net h1 (h4 ▸ sortedImpl_conserving pq lb) (h4 ▸ sortedImpl_lookupSound pq lb) h3 h5
    (by rw [hd]; rfl) (fun hL => by rw [hd]; exact hblk (h2 ▸ hL)) hrun
  have hpr : pq.ByRec := fun t l => (hpq t l).imp (fun h => by
    by_contra hc; exact h (Or.inl (lt_of_not_ge hc)))
  have hs := (run_sorted hpr (new_buf hnew hlwm) h4 (by rw [hd]) hrun).visible
  obtain ⟨hcy, -⟩ := cycle_run hpq hnew hlwm hsf hdvd hcap hblk hrun hc
  have hd1 : delCount r ops = 1 := by
    have := hc.del
    have : 0 < delCount r ops := List.count_pos_iff.mpr hdel
    omega
  exact cycle_query hpq' hlb hc hd1 hcy hg.wf (hnet r) hs hbuf hq

/-- C06 for erases that are at least `lwm` operations old: whatever the buffer holds, the record is not returned. -/
theorem C06_old_erase_partial {L : Layout} {pq pq' : PQ R} (hpq : pq.ByWrapped) (hpq' : pq'.ByWrapped) {lb : LB R K}
    (hlb : lb.Sound) {lwm hwm sf : Nat} {d0 d : Index R} {ops later : List (Index.Op R)} {bs : List Bool}
    (hnew : Index.new L false (sortedImpl pq lb) lwm hwm sf = .ok d0) (hlwm : 1 ≤ lwm) (hsf : 1 ≤ sf)
    (hdvd : lwm ∣ 2 * hwm) (hcap : 2 * hwm ≤ 2 ^ 29) (hblk : L = .bsm → NoVoidBlock lwm (ops ++ later))
    (hrun : d0.run (ops ++ later) = .ok (d, bs)) {r : R} (hc : SingleCycle r (ops ++ later)) (hdel : .del r ∈ ops)
    (hlater : lwm ≤ later.length) {lo hi : K} {res : List R} (hq : d.rangeQuery pq' lb lo hi = .ok res) : r ∉ res := by
  obtain ⟨hcy, hb, hl, -⟩ := cycle_run hpq hnew hlwm hsf hdvd hcap hblk hrun hc
  refine C06_partial hpq hpq' hlb hnew hlwm hsf hdvd hcap hblk hrun hc (List.mem_append_left _ hdel) (Or.inl ?_) hq
  obtain ⟨n, hn, hn2, e⟩ := bufExact_ents hcy.buf
  have hnl : n ≤ lwm := by rw [hn, ← hl]; exact hb.cnt
  have hc1 := hc.1
  have hc2 := hc.2 ops (List.prefix_append _ _)
  have hpos : 0 < delCount r ops := List.count_pos_iff.mpr hdel
  have i1 : insCount r (ops ++ later) = insCount r ops + insCount r later := by unfold insCount; simp
  have i2 : delCount r (ops ++ later) = delCount r ops + delCount r later := by unfold delCount; simp
  have hcd := hc.del
  have hsub : (ops ++ later).drop ((ops ++ later).length - n) = later.drop (later.length - n) := by
    rw [List.length_append, List.drop_append, List.drop_eq_nil_of_le (by omega), List.nil_append]
    congr 1; omega
  have hle1 : insCount r (later.drop (later.length - n)) ≤ insCount r later := (List.drop_sublist _ _).count_le _
  have hle2 : delCount r (later.drop (later.length - n)) ≤ delCount r later := (List.drop_sublist _ _).count_le _
  refine ofRec_zero ?_ ?_
  · rw [e, opEnts_live, hsub]; omega
  · rw [e, opEnts_tomb, hsub]; omega

/-- Non-vacuous: record 3 inserted, flushed, merged, erased and pushed out of the buffer. -/
example : probe .tiering false 2 2 2 (insSeq 0 9 ++ [.del ⟨3, 3⟩] ++ insSeq 10 3)
    (fun p => do .ok (p.1.height, ← p.1.rangeQuery PQ.std LB.scan 2 5)) =
    .ok (2, [⟨2, 2⟩, ⟨4, 4⟩, ⟨5, 5⟩]) ∧
    SingleCycle (⟨3, 3⟩ : Rec) (insSeq 0 9 ++ [.del ⟨3, 3⟩] ++ insSeq 10 3) := by
  refine ⟨by decide, by decide, ?_⟩
  intro p hp
  have : p ∈ (insSeq 0 9 ++ [Index.Op.del (⟨3, 3⟩ : Rec)] ++ insSeq 10 3).inits := (List.mem_inits _ _).mpr hp
  clear hp
  revert this p
  decide

/-- C06 is false: an erase that returned 1, a record inserted once and erased once, still returned. -/
theorem C06_false : ∃ (d0 d : Index Rec) (bs : List Bool) (res : List Rec), mk .tiering false 2 2 2 = .ok d0 ∧
    d0.run [.ins ⟨1, 1⟩, .del ⟨1, 1⟩] = .ok (d, bs) ∧ bs.all id = true ∧
    d.rangeQuery PQ.std LB.scan 0 9 = .ok res ∧ ⟨1, 1⟩ ∈ res := by
  have h : probe .tiering false 2 2 2 [.ins ⟨1, 1⟩, .del ⟨1, 1⟩]
      (fun p => do .ok (p.2.all id, decide (⟨1, 1⟩ ∈ (← p.1.rangeQuery PQ.std LB.scan 0 9)))) = .ok (true, true) := by decide
  obtain ⟨d0, d, bs, h1, h2, h3⟩ := probe_ok h
  obtain ⟨res, e1, e2⟩ := bind_ok.mp h3
  have e2 := Except.ok.inj e2
  exact ⟨d0, d, bs, res, h1, h2, congrArg Prod.fst e2, e1, of_decide_eq_true (congrArg Prod.snd e2)⟩

/-! ### C21 -/

/-- C21 for insert-only histories, all layouts and delete policies: the call is defined and returns exactly the
inserted records, sorted. -/
theorem C21_insert_only {L : Layout} {tag : Bool} {pq : PQ R} (hpq : pq.ByRec) {lb : LB R K}
    {lwm hwm sf : Nat} {d0 : Index R} {ops : List (Index.Op R)}
    (hnew : Index.new L tag (sortedImpl pq lb) lwm hwm sf = .ok d0) (hlwm : 1 ≤ lwm) (hsf : 1 ≤ sf)
    (hio : InsertOnly ops) :
    ∃ d m, d0.run ops = .ok (d, List.replicate ops.length true) ∧ d.staticStructure = .ok m ∧
      (m.data.map Wrapped.record).Perm (inserted ops) ∧ (m.data.map Wrapped.record).Pairwise (· ≤ ·) ∧
      ∀ w ∈ m.data, w.isTombstone = false ∧ w.isDeleted = false := by
  obtain ⟨d, h1, h2, h3, -⟩ := (new_clean hnew hlwm hsf).run ops hio
  obtain ⟨-, -, -, h4, h5, -⟩ := new_ginv hnew hlwm hsf
  obtain ⟨hd, -⟩ := new_ok hnew
  obtain ⟨m, hm⟩ := h2.static
  have hs := (run_sorted hpq (new_buf hnew hlwm) h4 (by rw [hd]) h1).visible
  have hsm : RecSorted m.data := static_closed h2.inv (h2.impl ▸ sortedImpl_closed_sorted hpq lb) hs hm
  have hr := (static_reduces h2.inv (h2.impl ▸ sortedImpl_conserving pq lb) hm).clean h2.entries
  refine ⟨d, m, h1, hm, ?_, ?_, ?_⟩
  · rw [← Multiset.coe_eq_coe]
    have h6 : (m.data.map Wrapped.record : Multiset R) = (ents m.data).map Entry.record := by
      simp [ents, Function.comp_def, Wrapped.entry]
    rw [h6, ← hr, h3, h5, zero_add]
    simp [insEntries, Function.comp_def]
  · rw [List.pairwise_map]; exact hsm
  · intro w hw
    have := h2.entries w.entry (by rw [hr]; exact mem_ents.mpr ⟨w, hw, rfl⟩)
    exact this

/-- C21 for every tombstone history: whenever the call is defined, the returned array is sorted, contains no tagged
entry and keeps the net multiplicity (live minus tombstones = inserts minus erases) of every record. For BSM without
void blocks. Missing: the call is undefined when the buffer or a level cancels out completely (`C21_false`). -/
theorem C21_net_partial {L : Layout} {pq : PQ R} (hpq : pq.ByRec) {lb : LB R K}
    {lwm hwm sf : Nat} {d0 d : Index R} {ops : List (Index.Op R)} {bs : List Bool}
    (hnew : Index.new L false (sortedImpl pq lb) lwm hwm sf = .ok d0) (hlwm : 1 ≤ lwm) (hsf : 1 ≤ sf)
    (hblk : L = .bsm → NoVoidBlock lwm ops) (hrun : d0.run ops = .ok (d, bs)) {m : Shard R}
    (hm : d.staticStructure = .ok m) :
    (m.data.map Wrapped.record).Pairwise (· ≤ ·) ∧ (∀ w ∈ m.data, w.isDeleted = false) ∧
    ∀ r, liveCount r (ents m.data) + delCount r ops = tombCount r (ents m.data) + insCount r ops := by
  obtain ⟨h1, h2, h3, h4, h5, -⟩ := new_ginv hnew hlwm hsf
  obtain ⟨hd, -⟩ := new_ok hnew
  obtain ⟨hdl, hnet, -, hg, -⟩ := grun_net h1 (h4 ▸ sortedImpl_conserving pq lb) (h4 ▸ sortedImpl_lookupSound pq lb) h3 h5
    (by rw [hd]; rfl) (fun hL => by rw [hd]; exact hblk (h2 ▸ hL)) hrun
  have hi : d.impl = sortedImpl pq lb := (run_buf ops (new_buf hnew hlwm) hrun).2.2.2.1.trans h4
  have hs := (run_sorted hpq (new_buf hnew hlwm) h4 (by rw [hd]) hrun).visible
  have hsm : RecSorted m.data := static_closed hg (hi ▸ sortedImpl_closed_sorted hpq lb) hs hm
  refine ⟨by rw [List.pairwise_map]; exact hsm, ?_, ?_⟩
  · intro w hw
    exact static_kept hi hm w.entry (mem_ents.mpr ⟨w, hw, rfl⟩)
  · intro r
    have hr := static_reduces hg (hi ▸ sortedImpl_conserving pq lb) hm
    have := hr.net r (fun x hx => by simp [hdl x hx])
    have := hnet r
    omega

/-- C21 for a record inserted and erased at most once (other records unrestricted): whenever the call is defined,
the result holds `r` exactly (inserts - erases) times and no tombstone of it. Low watermark divides the ring capacity,
queue ordered by `Wrapped::operator<`. Missing: see `C21_false`, and ring wrap (`C24_false`). -/
theorem C21_single_cycle_partial {L : Layout} {pq : PQ R} (hpq : pq.ByWrapped) {lb : LB R K}
    {lwm hwm sf : Nat} {d0 d : Index R} {ops : List (Index.Op R)} {bs : List Bool}
    (hnew : Index.new L false (sortedImpl pq lb) lwm hwm sf = .ok d0) (hlwm : 1 ≤ lwm) (hsf : 1 ≤ sf)
    (hdvd : lwm ∣ 2 * hwm) (hcap : 2 * hwm ≤ 2 ^ 29) (hblk : L = .bsm → NoVoidBlock lwm ops)
    (hrun : d0.run ops = .ok (d, bs)) {r : R} (hc : SingleCycle r ops) {m : Shard R} (hm : d.staticStructure = .ok m) :
    liveCount r (ents m.data) = insCount r ops - delCount r ops ∧ tombCount r (ents m.data) = 0 := by
  have hpr : pq.ByRec := fun t l => (hpq t l).imp (fun h => by
    by_contra hc; exact h (Or.inl (lt_of_not_ge hc)))
  obtain ⟨-, -, hnet⟩ := C21_net_partial hpr hnew hlwm hsf hblk hrun hm
  obtain ⟨hcy, hb, hl, hcp, hi⟩ := cycle_run hpq hnew hlwm hsf hdvd hcap hblk hrun hc
  obtain ⟨h1, h2, h3, h4, h5, -⟩ := new_ginv hnew hlwm hsf
  obtain ⟨hd, -⟩ := new_ok hnew
  obtain ⟨-, -, -, hg, -⟩ := grun_net h1 (h4 ▸ sortedImpl_conserving pq lb) (h4 ▸ sortedImpl_lookupSound pq lb) h3 h5
    (by rw [hd]; rfl) (fun hL => by rw [hd]; exact hblk (h2 ▸ hL)) hrun
  have hM : CycM r {m} := by
    rcases static_lin hg hm with ⟨-, hlin⟩ | ⟨s, hs, hlin⟩
    · rw [hi] at hlin; exact hcy.cyc.lin hpq hlin
    · rw [hi] at hlin hs
      exact (cycle_built hc hcy hb (by rw [hl, hcp]; exact hdvd) (by rw [hcp]; exact hcap) hs).lin hpq hlin
  have hone := (hM.sh m (by simp)).1.2
  rw [ofRec_counts] at hone
  have := hnet r
  have := hc.1
  have := hc.2 ops (List.prefix_refl _)
  omega

/-- C21 for tagging (leveling, tiering): whenever the call is defined it returns exactly the stored entries that are
not tagged. -/
theorem C21_tagging_partial {L : Layout} (hL : L ≠ .bsm) {pq : PQ R} {lb : LB R K}
    {lwm hwm sf : Nat} {d0 d : Index R} {ops : List (Index.Op R)} {bs : List Bool}
    (hnew : Index.new L true (sortedImpl pq lb) lwm hwm sf = .ok d0) (hlwm : 1 ≤ lwm) (hsf : 1 ≤ sf)
    (hrun : d0.run ops = .ok (d, bs)) {m : Shard R} (hm : d.staticStructure = .ok m) :
    ents m.data = d.entries.filter (fun e => e.del = false) := by
  obtain ⟨h1, h2, h3, h4, h5⟩ := new_inv hL hnew hlwm hsf
  obtain ⟨-, hinv, -, -, hi⟩ := run_ind (fun _ _ => True) h1 (h4 ▸ sortedImpl_conserving pq lb)
    (h4 ▸ sortedImpl_lookupSound pq lb) trivial (fun _ _ _ _ _ _ _ => trivial) ops hrun
  rw [h4] at hi
  have hr := static_reduces (Or.inl hinv) (hi ▸ sortedImpl_conserving pq lb) hm
  obtain ⟨dr, e, hdr⟩ := hr.no_tomb (tagging_no_tomb hnew hlwm hrun)
  rw [e, Multiset.filter_add, Multiset.filter_eq_self.mpr (static_kept hi hm),
    Multiset.filter_eq_nil.mpr (fun x hx => by simp [hdr x hx]), add_zero]

/-- Non-vacuous: erases over several levels. -/
example : probe .leveling false 2 2 2 (insSeq 0 9 ++ [.del ⟨3, 3⟩] ++ insSeq 10 3 ++ [.del ⟨6, 6⟩])
    (fun p => do .ok (p.1.height, (← p.1.staticStructure).data.map (fun w => w.record.key))) =
    .ok (2, [0, 1, 2, 4, 5, 7, 8, 10, 11, 12]) := by decide

/-- C21 is false: after one insert and its erase the call is undefined (the shard built from the buffer is empty and
the merge reads its first record). -/
theorem C21_false : ∃ (d0 d : Index Rec) (bs : List Bool), mk .tiering false 2 2 2 = .ok d0 ∧
    d0.run [.ins ⟨1, 1⟩, .del ⟨1, 1⟩] = .ok (d, bs) ∧ bs.all id = true ∧ d.staticStructure = .error .ub := by
  have h : probe .tiering false 2 2 2 [.ins ⟨1, 1⟩, .del ⟨1, 1⟩]
      (fun p => .ok (p.2.all id, decide (p.1.staticStructure = .error .ub))) = .ok (true, true) := by decide
  obtain ⟨d0, d, bs, h1, h2, h3⟩ := probe_ok h
  have e2 := Except.ok.inj h3
  exact ⟨d0, d, bs, h1, h2, congrArg Prod.fst e2, of_decide_eq_true (congrArg Prod.snd e2)⟩

/-! ### C24 -/

/-- C24, the part that holds: after any history of appends and head advances, if the entries of `r` in the buffer are
inserts each followed by its erase, and the view does not wrap around the end of the ring, then the shard built from
the buffer is defined and contains neither. Missing: views that wrap (`C24_false`). -/
theorem C24_partial {lwm hwm : Nat} {b0 b : Buffer R} {ops : List (BufOp R)} (hnew : Buffer.new lwm hwm = .ok b0)
    (hcap : 2 * hwm ≤ 2 ^ 29) (hrun : runBuf b0 ops = .ok b) (hwrap : b.head % (2 * hwm) + (b.tail - b.head) ≤ 2 * hwm)
    {r : R} {n : Nat} (hr : (queueSpec hwm [] ops).filter (fun p => p.1 = r) =
      (List.replicate n [(r, false), (r, true)]).flatten) :
    ∃ s, sortedFromView b.view = .ok s ∧ ∀ w ∈ s.data, w.record ≠ r := by
  unfold Buffer.new at hnew
  simp only [bind_ok, assertC_ok, decide_eq_true_eq] at hnew
  obtain ⟨-, h1, -, h2, h3⟩ := hnew
  cases h3
  have hwf0 : (Buffer.mk (R := R) lwm hwm (2 * hwm) 0 0 (fun _ => default) 0).WF :=
    ⟨rfl, by simp only; omega, h2, le_refl _, by simp, by simp [Buffer.contents]⟩
  obtain ⟨hwf, hq⟩ := runBuf_spec (q := []) ops hwf0 rfl hrun
  obtain ⟨hts, hc⟩ := runBuf_ts ops hwf0 hcap (fun i hi => by simp at hi) hrun
  simp only at hc
  have hv := Buffer.view_copyOut hwf
  have hex : ∃ s, sortedFromView b.view = .ok s := by
    unfold sortedFromView; rw [hv]; exact ⟨_, rfl⟩
  obtain ⟨s, hs⟩ := hex
  refine ⟨s, hs, build_alt hv (slotTs_pairwise hwf hts (by rw [hc]; exact hwrap)) ?_ hs⟩
  simp only at hq
  rw [← hq, List.filter_map] at hr
  have hm : (ofRec r b.contents).map (fun w => (w.record, w.isTombstone)) = (List.replicate n [(r, false), (r, true)]).flatten := by
    rw [← hr]; rfl
  clear hr hq
  generalize ofRec r b.contents = l at hm
  induction n generalizing l with
  | zero => simp at hm; subst hm; exact .nil
  | succ n ih =>
    rw [List.replicate_succ, List.flatten_cons] at hm
    match l, hm with
    | [], hm => simp at hm
    | [x], hm => simp at hm
    | x :: y :: l, hm =>
      simp at hm
      exact .cons hm.1.2 hm.2.1.2 (ih l (by simpa using hm.2.2))

/-- Non-vacuous: two insert/erase cycles of record 2 among others, in the second half of the ring. -/
example : (do
    let b : Buffer Nat ← Buffer.new 6 6
    let b ← runBuf b [.app 9 false, .app 9 false, .adv 2, .app 2 false, .app 1 false, .app 2 true, .app 2 false, .app 7 false, .app 2 true]
    let s ← sortedFromView b.view
    .ok (b.head, b.tail, s.data.map Wrapped.record)) = (.ok (2, 8, [1, 7]) : Res _) := by decide

/-- C24 is false when the view wraps around the end of the ring: on a tiering index with watermarks 3 and 4 the buffer
holds the insert of record 20 followed by its erase, and the shard built from it keeps both. -/
theorem C24_false : ∃ (d0 d : Index Rec) (bs : List Bool) (s : Shard Rec), mk .tiering false 3 4 2 = .ok d0 ∧
    d0.run (insSeq 0 7 ++ [.ins ⟨20, 20⟩, .del ⟨20, 20⟩]) = .ok (d, bs) ∧
    d.buf.contents.map (fun w => (w.record.key, w.isTombstone)) = [(6, false), (20, false), (20, true)] ∧
    sortedFromView d.buf.view = .ok s ∧
    s.data.map (fun w => (w.record.key, w.isTombstone)) = [(6, false), (20, true), (20, false)] := by
  have h : probe .tiering false 3 4 2 (insSeq 0 7 ++ [.ins ⟨20, 20⟩, .del ⟨20, 20⟩])
      (fun p => do
        let s ← sortedFromView p.1.buf.view
        .ok (p.1.buf.contents.map (fun w => (w.record.key, w.isTombstone)),
          s.data.map (fun w => (w.record.key, w.isTombstone)))) =
      .ok ([(6, false), (20, false), (20, true)], [(6, false), (20, true), (20, false)]) := by decide
  obtain ⟨d0, d, bs, h1, h2, h3⟩ := probe_ok h
  obtain ⟨s, e1, e2⟩ := bind_ok.mp h3
  have e2 := Except.ok.inj e2
  exact ⟨d0, d, bs, s, h1, h2, congrArg Prod.fst e2, e1, congrArg Prod.snd e2⟩

end DE
