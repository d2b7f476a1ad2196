import Verif.Proofs.Query
import Verif.Proofs.BSMNet
import Verif.Proofs.Instances

/-!
C04, C05, C07, C08: range queries on sorted shards. `pq` is the queue of the shard merges (pops in record order),
`pq'` the queue of the query's combine step (no assumption at all).
-/

namespace DE
variable {R K : Type} [LinearOrder R] [LinearOrder K] [HasKey R K] [Inhabited R]

/-- C04: after any insert-only history on any layout, a range query is defined and returns exactly the inserted
records in range, with multiplicity. -/
theorem C04_insert_only_exact {L : Layout} {tag : Bool} {pq pq' : PQ R} (hpq : pq.ByRec) {lb : LB R K} (hlb : lb.Sound)
    {lwm hwm sf : Nat} {d0 : Index R} {ops : List (Index.Op R)}
    (hnew : Index.new L tag (sortedImpl pq lb) lwm hwm sf = .ok d0) (hlwm : 1 ≤ lwm) (hsf : 1 ≤ sf)
    (hio : InsertOnly ops) (lo hi : K) :
    ∃ d res, d0.run ops = .ok (d, List.replicate ops.length true) ∧ d.rangeQuery pq' lb lo hi = .ok res ∧
      res.Perm ((inserted ops).filter (fun r => decide (lo ≤ key r ∧ key r ≤ hi))) := by
  obtain ⟨d, h1, h2, h3, -⟩ := (new_clean hnew hlwm hsf).run ops hio
  obtain ⟨-, -, -, h4, h5, -⟩ := new_ginv hnew hlwm hsf
  obtain ⟨hd, -⟩ := new_ok hnew
  have hs := (run_sorted hpq (new_buf hnew hlwm) h4 (by rw [hd]) h1).visible
  obtain ⟨res, hres⟩ := rangeQuery_total (pq := pq') hlb h2.inv.wf (lo := lo) (hi := hi)
    (fun s hsm => ⟨hs s hsm, (h2.shards s hsm).1⟩)
  refine ⟨d, res, h1, hres, ?_⟩
  obtain ⟨m, rfl, -, hr, -⟩ := rangeQuery_spec hlb h2.inv.wf hs hres
  have hcl : ∀ x ∈ d.entries.filter (inRangeE lo hi), x.tomb = false :=
    fun x hx => (h2.entries x (Multiset.mem_filter.mp hx).1).1
  obtain ⟨dr, he, hdr⟩ := hr.no_tomb hcl
  have hdr0 : dr = 0 := by
    apply Multiset.eq_zero_of_forall_notMem
    intro x hx
    have := hcl x (by rw [he, Multiset.mem_add]; exact Or.inr hx)
    rw [hdr x hx] at this; cases this
  rw [hdr0, add_zero, h3, h5, zero_add] at he
  rw [← Multiset.coe_eq_coe]
  have h6 : (m.map Wrapped.record : Multiset R) = (ents m).map Entry.record := by
    simp [ents, Function.comp_def, Wrapped.entry]
  rw [h6, ← he]
  clear h1 he h6 hr hcl hres hs h2 h3 hio
  unfold insEntries
  induction inserted ops with
  | nil => rfl
  | cons r rs ih =>
    rw [List.map_cons, ← Multiset.cons_coe]
    by_cases hin : lo ≤ key r ∧ key r ≤ hi
    · have hin' : inRangeE lo hi (⟨r, false, false⟩ : Entry R) := hin
      rw [Multiset.filter_cons_of_pos _ hin', Multiset.map_cons, ih,
        List.filter_cons_of_pos (by simpa using hin), ← Multiset.cons_coe]
    · have hin' : ¬ inRangeE lo hi (⟨r, false, false⟩ : Entry R) := hin
      rw [Multiset.filter_cons_of_neg _ hin', ih, List.filter_cons_of_neg (by simpa using hin)]

/-- Non-vacuous: a tiering index of 3 levels with duplicates. -/
example : probe .tiering false 2 3 2 (insSeq 0 9 ++ insSeq 3 3)
    (fun p => do .ok (p.1.height, ← p.1.rangeQuery PQ.std LB.scan 2 4)) =
    .ok (2, [⟨2, 2⟩, ⟨3, 3⟩, ⟨3, 3⟩, ⟨4, 4⟩, ⟨4, 4⟩]) := by decide

/-- C05: under tombstone deletes a range query returns a record at least (inserts - erases) times. For BSM the history
must not contain a void block (see C03). -/
theorem C05_completeness {L : Layout} {pq pq' : PQ R} (hpq : pq.ByRec) {lb : LB R K} (hlb : lb.Sound)
    {lwm hwm sf : Nat} {d0 d : Index R} {ops : List (Index.Op R)} {bs : List Bool}
    (hnew : Index.new L false (sortedImpl pq lb) lwm hwm sf = .ok d0) (hlwm : 1 ≤ lwm) (hsf : 1 ≤ sf)
    (hblk : L = .bsm → NoVoidBlock lwm ops) (hrun : d0.run ops = .ok (d, bs)) {lo hi : K} {res : List R}
    (hq : d.rangeQuery pq' lb lo hi = .ok res) (r : R) (hr : lo ≤ key r ∧ key r ≤ hi) :
    insCount r ops ≤ res.count r + delCount r ops := by
  obtain ⟨h1, h2, h3, h4, h5, -⟩ := new_ginv hnew hlwm hsf
  obtain ⟨hd, -⟩ := new_ok hnew
  obtain ⟨a, b, -, hg, -⟩ := grun_net h1 (h4 ▸ sortedImpl_conserving pq lb) (h4 ▸ sortedImpl_lookupSound pq lb) h3 h5
    (by rw [hd]; rfl) (fun hL => by rw [hd]; exact hblk (h2 ▸ hL)) hrun
  have hs := (run_sorted hpq (new_buf hnew hlwm) h4 (by rw [hd]) hrun).visible
  obtain ⟨m, rfl, hk, ⟨cl, ct, dr, e, hm, hc1, hc2, hc3⟩, -⟩ := rangeQuery_spec hlb hg.wf hs hq
  have hb := b r
  have hl : liveCount r (d.entries.filter (inRangeE lo hi)) = liveCount r d.entries := by
    unfold liveCount
    rw [Multiset.countP_filter]
    apply Multiset.countP_congr rfl
    intro x _
    simp only [eq_iff_iff]
    constructor
    · rintro ⟨h, -⟩; exact h
    · rintro ⟨rfl, h⟩; exact ⟨⟨rfl, h⟩, hr⟩
  have ht : tombCount r (d.entries.filter (inRangeE lo hi)) ≤ tombCount r d.entries := by
    unfold tombCount
    exact Multiset.countP_le_of_le _ (Multiset.filter_le _ _)
  have hcl : liveCount r cl = (cl.map Entry.record).count r := by
    unfold liveCount
    rw [Multiset.count, Multiset.countP_map, ← Multiset.countP_eq_card_filter]
    apply Multiset.countP_congr rfl
    intro x hx
    simp [hc1 x hx, eq_comm]
  have hct : tombCount r ct = (ct.map Entry.record).count r := by
    unfold tombCount
    rw [Multiset.count, Multiset.countP_map, ← Multiset.countP_eq_card_filter]
    apply Multiset.countP_congr rfl
    intro x hx
    simp [hc2 x hx, eq_comm]
  have hct0 : liveCount r ct = 0 := by
    unfold liveCount
    rw [Multiset.countP_eq_zero]
    intro x hx; simp [hc2 x hx]
  have hdr0 : liveCount r dr = 0 := by
    unfold liveCount
    rw [Multiset.countP_eq_zero]
    intro x hx; simp [hc3 x hx]
  have hres : (m.map Wrapped.record).count r = liveCount r (ents m) := by
    clear hq e
    induction m with
    | nil => rfl
    | cons w m ih =>
      have e : ents (w :: m) = w.entry ::ₘ ents m := rfl
      have ih := ih (fun x hx => hk x (by simp [hx]))
      unfold liveCount at *
      rw [List.map_cons, List.count_cons, ih, e, Multiset.countP_cons]
      simp [Wrapped.entry, hk w (by simp)]
  have e1 : liveCount r d.entries = liveCount r (ents m) + liveCount r cl := by
    rw [← hl, e, liveCount_add, liveCount_add, liveCount_add, hct0, hdr0]; omega
  have e2 : tombCount r ct ≤ tombCount r d.entries := by
    refine le_trans ?_ ht
    rw [e, tombCount_add, tombCount_add, tombCount_add]; omega
  rw [hres]
  rw [hcl, hm, ← hct] at e1
  omega

/-- Non-vacuous: after two inserts and one erase of record 4 over several levels. -/
example : probe .leveling false 2 2 2 (insSeq 0 9 ++ [.ins ⟨4, 4⟩, .del ⟨4, 4⟩] ++ insSeq 10 3)
    (fun p => do .ok (p.1.height, ← p.1.rangeQuery PQ.std LB.scan 3 5)) =
    .ok (2, [⟨3, 3⟩, ⟨4, 4⟩, ⟨5, 5⟩]) := by decide

/-- C07: on any layout, with any delete policy, a range query returns only inserted records with key in range. -/
theorem C07_only_inserted_in_range {L : Layout} {tag : Bool} {pq pq' : PQ R} (hpq : pq.ByRec) {lb : LB R K} (hlb : lb.Sound)
    {lwm hwm sf : Nat} {d0 d : Index R} {ops : List (Index.Op R)} {bs : List Bool}
    (hnew : Index.new L tag (sortedImpl pq lb) lwm hwm sf = .ok d0) (hlwm : 1 ≤ lwm)
    (hrun : d0.run ops = .ok (d, bs)) {lo hi : K} {res : List R}
    (hq : d.rangeQuery pq' lb lo hi = .ok res) : ∀ r ∈ res, .ins r ∈ ops ∧ lo ≤ key r ∧ key r ≤ hi := by
  obtain ⟨hd, -⟩ := new_ok hnew
  have hb := new_buf hnew hlwm
  have hI : d0.impl = sortedImpl pq lb := by rw [hd]
  have hs := (run_sorted hpq hb hI (by rw [hd]) hrun).visible
  have hE := run_entries (pq := pq) (lb := lb) (fun ops e => e.tomb = false → .ins e.record ∈ ops) hb hI
    (by rw [hd]; rfl) (by rw [hd]) (fun ops o e h1 h2 => by simp [h1 h2]) (fun ops r _ => by simp)
    (fun ops r _ h => by cases h) (fun ops r t dl _ h h2 => by simpa using h h2) hrun
  obtain ⟨m, rfl, hk, hr, -⟩ := rangeQuery_spec hlb (run_buf ops hb hrun).1.wf hs hq
  intro r hr'
  obtain ⟨w, hw, rfl⟩ := List.mem_map.mp hr'
  have hin := Multiset.mem_of_le hr.le (mem_ents.mpr ⟨w, hw, rfl⟩)
  rw [Multiset.mem_filter] at hin
  exact ⟨hE.entries _ hin.1 (hk w hw), hin.2⟩

/-- Non-vacuous: a tagging index. -/
example : probe .tiering true 2 2 2 (insSeq 0 9 ++ [.del ⟨4, 4⟩])
    (fun p => do .ok (p.2.all id, ← p.1.rangeQuery PQ.std LB.scan 2 5)) =
    .ok (true, [⟨2, 2⟩, ⟨3, 3⟩, ⟨4, 4⟩, ⟨5, 5⟩]) := by decide

/-- Under tagging nothing stored is a tombstone. -/
theorem tagging_no_tomb {L : Layout} {pq : PQ R} {lb : LB R K} {lwm hwm sf : Nat} {d0 d : Index R}
    {ops : List (Index.Op R)} {bs : List Bool} (hnew : Index.new L true (sortedImpl pq lb) lwm hwm sf = .ok d0)
    (hlwm : 1 ≤ lwm) (hrun : d0.run ops = .ok (d, bs)) : ∀ e ∈ d.entries, e.tomb = false := by
  obtain ⟨hd, -⟩ := new_ok hnew
  have hE := run_entries (pq := pq) (lb := lb) (fun _ e => e.tomb = false) (new_buf hnew hlwm) (by rw [hd])
    (by rw [hd]; rfl) (by rw [hd]) (fun ops o e h => h) (fun ops r => rfl)
    (fun ops r h => by rw [hd] at h; cases h) (fun ops r t dl _ h => h) hrun
  exact hE.entries

/-- C08, the part that holds: with tagging a range query returns exactly the stored in-range entries, whether tagged or
not, so an erased record stops being returned once a reconstruction has dropped its entry. Missing: entries that are
tagged but still stored are returned (`C08_false`). -/
theorem C08_partial {L : Layout} {pq pq' : PQ R} (hpq : pq.ByRec) {lb : LB R K} (hlb : lb.Sound)
    {lwm hwm sf : Nat} {d0 d : Index R} {ops : List (Index.Op R)} {bs : List Bool}
    (hnew : Index.new L true (sortedImpl pq lb) lwm hwm sf = .ok d0) (hlwm : 1 ≤ lwm)
    (hrun : d0.run ops = .ok (d, bs)) {lo hi : K} {res : List R}
    (hq : d.rangeQuery pq' lb lo hi = .ok res) :
    (res : Multiset R) = (d.entries.filter (fun e => lo ≤ key e.record ∧ key e.record ≤ hi)).map Entry.record := by
  obtain ⟨hd, -⟩ := new_ok hnew
  have hb := new_buf hnew hlwm
  have hs := (run_sorted hpq hb (by rw [hd]) (by rw [hd]) hrun).visible
  obtain ⟨m, rfl, hk, hr, -⟩ := rangeQuery_spec hlb (run_buf ops hb hrun).1.wf hs hq
  have hcl : ∀ x ∈ d.entries.filter (inRangeE lo hi), x.tomb = false :=
    fun x hx => tagging_no_tomb hnew hlwm hrun x (Multiset.mem_filter.mp hx).1
  obtain ⟨dr, he, hdr⟩ := hr.no_tomb hcl
  have hdr0 : dr = 0 := by
    apply Multiset.eq_zero_of_forall_notMem
    intro x hx
    have := hcl x (by rw [he, Multiset.mem_add]; exact Or.inr hx)
    rw [hdr x hx] at this; cases this
  rw [hdr0, add_zero] at he
  have h6 : (m.map Wrapped.record : Multiset R) = (ents m).map Entry.record := by
    simp [ents, Function.comp_def, Wrapped.entry]
  rw [h6, ← he]
  rfl

/-- C08 is false: with tagging, `erase` returned 1 and the record is still returned by a range query. -/
theorem C08_false : ∃ (d0 d : Index Rec) (bs : List Bool) (res : List Rec), mk .tiering true 2 2 2 = .ok d0 ∧
    d0.run [.ins ⟨1, 1⟩, .ins ⟨2, 2⟩, .ins ⟨3, 3⟩, .del ⟨1, 1⟩] = .ok (d, bs) ∧ bs.all id = true ∧
    d.rangeQuery PQ.std LB.scan 1 3 = .ok res ∧ ⟨1, 1⟩ ∈ res := by
  have h : probe .tiering true 2 2 2 [.ins ⟨1, 1⟩, .ins ⟨2, 2⟩, .ins ⟨3, 3⟩, .del ⟨1, 1⟩]
      (fun p => do .ok (p.2.all id, decide (⟨1, 1⟩ ∈ (← p.1.rangeQuery PQ.std LB.scan 1 3)))) = .ok (true, true) := by decide
  obtain ⟨d0, d, bs, h1, h2, h3⟩ := probe_ok h
  obtain ⟨res, e1, e2⟩ := bind_ok.mp h3
  have e2 := Except.ok.inj e2
  exact ⟨d0, d, bs, res, h1, h2, congrArg Prod.fst e2, e1, of_decide_eq_true (congrArg Prod.snd e2)⟩

end DE
