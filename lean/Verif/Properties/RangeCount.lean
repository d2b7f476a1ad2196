import Verif.Proofs.Count
import Verif.Proofs.BSMNet
import Verif.Proofs.Instances
import Verif.Properties.RangeQuery

/-!
C09, C10, C11: range counts on sorted shards.
-/

namespace DE
variable {R K : Type} [LinearOrder R] [LinearOrder K] [HasKey R K] [Inhabited R]

/-- C09: with tagging deletes, on any layout, a defined range count is the number of stored, not tagged entries with
key in range. -/
theorem C09_tagging_count {L : Layout} {pq : PQ R} (hpq : pq.ByRec) {lb : LB R K} (hlb : lb.Sound)
    {lwm hwm sf : Nat} {d0 d : Index R} {ops : List (Index.Op R)} {bs : List Bool}
    (hnew : Index.new L true (sortedImpl pq lb) lwm hwm sf = .ok d0) (hlwm : 1 ≤ lwm)
    (hrun : d0.run ops = .ok (d, bs)) {lo hi : K} {n : Nat} (hq : d.rangeCount lb lo hi = .ok n) :
    n = (d.entries.filter (fun e => e.del = false ∧ lo ≤ key e.record ∧ key e.record ≤ hi)).card := by
  obtain ⟨hd, -⟩ := new_ok hnew
  have hb := new_buf hnew hlwm
  have hs := (run_sorted hpq hb (by rw [hd]) (by rw [hd]) hrun).visible
  rw [rangeCount_spec hlb (run_buf ops hb hrun).1.wf hs hq, ← Multiset.countP_eq_card_filter]
  apply Multiset.countP_congr rfl
  intro x hx
  have := tagging_no_tomb hnew hlwm hrun x hx
  simp only [liveInE, inRangeE, this, eq_iff_iff]
  tauto

/-- Non-vacuous: erased in a shard and in the buffer. -/
example : probe .tiering true 2 2 2 (insSeq 0 9 ++ [.del ⟨3, 3⟩, .del ⟨8, 8⟩])
    (fun p => do .ok (p.2.all id, p.1.height, p.1.recordCount, ← p.1.rangeCount LB.scan 0 9, ← p.1.rangeCount LB.scan 1 3)) =
    .ok (true, 2, 9, 7, 2) := by decide

/-- C10, the part that holds for every tombstone history: a defined range count is the number of stored live entries in
range. Missing: stored tombstones are not subtracted (`C10_false`). -/
theorem C10_partial {L : Layout} {pq : PQ R} (hpq : pq.ByRec) {lb : LB R K} (hlb : lb.Sound)
    {lwm hwm sf : Nat} {d0 d : Index R} {ops : List (Index.Op R)} {bs : List Bool}
    (hnew : Index.new L false (sortedImpl pq lb) lwm hwm sf = .ok d0) (hlwm : 1 ≤ lwm)
    (hrun : d0.run ops = .ok (d, bs)) {lo hi : K} {n : Nat} (hq : d.rangeCount lb lo hi = .ok n) :
    n = (d.entries.filter (fun e => e.tomb = false ∧ lo ≤ key e.record ∧ key e.record ≤ hi)).card := by
  obtain ⟨hd, -⟩ := new_ok hnew
  have hb := new_buf hnew hlwm
  have hI : d0.impl = sortedImpl pq lb := by rw [hd]
  have hs := (run_sorted hpq hb hI (by rw [hd]) hrun).visible
  have hE := run_entries (pq := pq) (lb := lb) (fun _ e => e.del = false) hb hI
    (by rw [hd]; rfl) (by rw [hd]) (fun ops o e h => h) (fun ops r => rfl)
    (fun ops r h => rfl) (fun ops r t dl ht => by rw [hd] at ht; cases ht) hrun
  rw [rangeCount_spec hlb (run_buf ops hb hrun).1.wf hs hq, ← Multiset.countP_eq_card_filter]
  apply Multiset.countP_congr rfl
  intro x hx
  have := hE.entries x hx
  simp only [liveInE, inRangeE, this, eq_iff_iff]
  tauto

/-- Number of inserts of records with key in `[lo, hi]`. -/
def insIn (lo hi : K) (ops : List (Index.Op R)) : Nat :=
  ops.countP (fun o => match o with | .ins r => decide (lo ≤ key r ∧ key r ≤ hi) | .del _ => false)
/-- Number of erases of records with key in `[lo, hi]`. -/
def delIn (lo hi : K) (ops : List (Index.Op R)) : Nat :=
  ops.countP (fun o => match o with | .ins _ => false | .del r => decide (lo ≤ key r ∧ key r ≤ hi))

theorem countP_of_count {α : Type} [DecidableEq α] (p : α → Prop) [DecidablePred p] {a b c d : Multiset α}
    (h : ∀ x, a.count x + b.count x = c.count x + d.count x) : a.countP p + b.countP p = c.countP p + d.countP p := by
  have : a + b = c + d := by
    ext x
    rw [Multiset.count_add, Multiset.count_add]; exact h x
  rw [← Multiset.countP_add, this, Multiset.countP_add]

/-- Records asked for by the inserts. -/
def insRecs (ops : List (Index.Op R)) : Multiset R :=
  (ops.filterMap (fun o => match o with | .ins r => some r | .del _ => none) : List R)
/-- Records asked for by the erases. -/
def delRecs (ops : List (Index.Op R)) : Multiset R :=
  (ops.filterMap (fun o => match o with | .ins _ => none | .del r => some r) : List R)

omit [Inhabited R] in
theorem recs_counts (ops : List (Index.Op R)) : (∀ r, (insRecs ops).count r = insCount r ops) ∧
    (∀ r, (delRecs ops).count r = delCount r ops) ∧
    ∀ lo hi : K, (insRecs ops).countP (fun r => lo ≤ key r ∧ key r ≤ hi) = insIn lo hi ops ∧
      (delRecs ops).countP (fun r => lo ≤ key r ∧ key r ≤ hi) = delIn lo hi ops := by
  induction ops with
  | nil => exact ⟨fun _ => rfl, fun _ => rfl, fun _ _ => ⟨rfl, rfl⟩⟩
  | cons o os ih =>
    obtain ⟨h1, h2, h3⟩ := ih
    simp only [insRecs, delRecs, insCount, delCount, insIn, delIn, Multiset.coe_count, Multiset.coe_countP] at *
    cases o with
    | ins x =>
      refine ⟨fun r => ?_, fun r => ?_, fun lo hi => ⟨?_, ?_⟩⟩
      · simp [List.filterMap_cons, List.count_cons, h1 r]
      · simp [List.filterMap_cons, List.count_cons, h2 r]
      · rw [List.filterMap_cons, List.countP_cons, List.countP_cons, (h3 lo hi).1]
      · rw [List.filterMap_cons, List.countP_cons, (h3 lo hi).2]; simp
    | del x =>
      refine ⟨fun r => ?_, fun r => ?_, fun lo hi => ⟨?_, ?_⟩⟩
      · simp [List.filterMap_cons, List.count_cons, h1 r]
      · simp [List.filterMap_cons, List.count_cons, h2 r]
      · rw [List.filterMap_cons, List.countP_cons, (h3 lo hi).1]; simp
      · rw [List.filterMap_cons, List.countP_cons, List.countP_cons, (h3 lo hi).2]

omit [Inhabited R] in
theorem live_countP (lo hi : K) (m : Multiset (Entry R)) :
    ((m.filter (fun e => e.tomb = false)).map Entry.record).countP (fun r => lo ≤ key r ∧ key r ≤ hi) =
      (m.filter (fun e => e.tomb = false ∧ lo ≤ key e.record ∧ key e.record ≤ hi)).card ∧
    ((m.filter (fun e => e.tomb = true)).map Entry.record).countP (fun r => lo ≤ key r ∧ key r ≤ hi) =
      (m.filter (fun e => e.tomb = true ∧ lo ≤ key e.record ∧ key e.record ≤ hi)).card := by
  constructor <;>
  · rw [Multiset.countP_map, ← Multiset.countP_eq_card_filter, Multiset.countP_filter, ← Multiset.countP_eq_card_filter]
    apply Multiset.countP_congr rfl
    intro x _
    simp only [eq_iff_iff]
    tauto

/-- C10 against the history: a defined range count equals (inserts in range) - (erases in range) + (tombstones in range
still stored). So the claim holds exactly when no tombstone is stored in the range. For BSM without void blocks. -/
theorem C10_history_partial {L : Layout} {pq : PQ R} (hpq : pq.ByRec) {lb : LB R K} (hlb : lb.Sound)
    {lwm hwm sf : Nat} {d0 d : Index R} {ops : List (Index.Op R)} {bs : List Bool}
    (hnew : Index.new L false (sortedImpl pq lb) lwm hwm sf = .ok d0) (hlwm : 1 ≤ lwm) (hsf : 1 ≤ sf)
    (hblk : L = .bsm → NoVoidBlock lwm ops) (hrun : d0.run ops = .ok (d, bs)) {lo hi : K} {n : Nat}
    (hq : d.rangeCount lb lo hi = .ok n) :
    n + delIn lo hi ops = insIn lo hi ops +
      (d.entries.filter (fun e => e.tomb = true ∧ lo ≤ key e.record ∧ key e.record ≤ hi)).card := by
  obtain ⟨h1, h2, h3, h4, h5, -⟩ := new_ginv hnew hlwm hsf
  obtain ⟨hd, -⟩ := new_ok hnew
  obtain ⟨-, hnet, -⟩ := grun_net h1 (h4 ▸ sortedImpl_conserving pq lb) (h4 ▸ sortedImpl_lookupSound pq lb) h3 h5
    (by rw [hd]; rfl) (fun hL => by rw [hd]; exact hblk (h2 ▸ hL)) hrun
  rw [C10_partial hpq hlb hnew hlwm hrun hq]
  obtain ⟨g1, g2, g3⟩ := recs_counts (K := K) ops
  rw [← (live_countP lo hi d.entries).1, ← (live_countP lo hi d.entries).2, ← (g3 lo hi).1, ← (g3 lo hi).2]
  apply countP_of_count
  intro r
  have hcount : ∀ (b : Bool), ((d.entries.filter (fun e => e.tomb = b)).map Entry.record).count r =
      d.entries.countP (fun e => e.record = r ∧ e.tomb = b) := by
    intro b
    rw [Multiset.count_map, ← Multiset.countP_eq_card_filter, Multiset.countP_filter]
    apply Multiset.countP_congr rfl
    intro x _
    simp only [eq_iff_iff]
    constructor
    · rintro ⟨h, h'⟩; exact ⟨h.symm, h'⟩
    · rintro ⟨h, h'⟩; exact ⟨h.symm, h'⟩
  rw [hcount, hcount, g1, g2, Nat.add_comm (insCount r ops)]
  exact hnet r

/-- C10 is false: two inserts and one erase in range, counted as 2. -/
theorem C10_false : ∃ (d0 d : Index Rec) (bs : List Bool) (n : Nat), mk .tiering false 2 2 2 = .ok d0 ∧
    d0.run [.ins ⟨1, 1⟩, .ins ⟨2, 2⟩, .del ⟨1, 1⟩] = .ok (d, bs) ∧ bs.all id = true ∧
    d.rangeCount LB.scan 0 2 = .ok n ∧ n = 2 ∧
    (d.entries.filter (fun e => e.tomb = false ∧ 0 ≤ e.record.key ∧ e.record.key ≤ 2)).card = 2 ∧
    (d.entries.filter (fun e => e.tomb = true ∧ 0 ≤ e.record.key ∧ e.record.key ≤ 2)).card = 1 := by
  have h : probe .tiering false 2 2 2 [.ins ⟨1, 1⟩, .ins ⟨2, 2⟩, .del ⟨1, 1⟩]
      (fun p => do .ok (← p.1.rangeCount LB.scan 0 2, p.2.all id,
        (p.1.entries.filter (fun e => e.tomb = false ∧ 0 ≤ e.record.key ∧ e.record.key ≤ 2)).card,
        (p.1.entries.filter (fun e => e.tomb = true ∧ 0 ≤ e.record.key ∧ e.record.key ≤ 2)).card)) = .ok (2, true, 2, 1) := by decide
  obtain ⟨d0, d, bs, h1, h2, h3⟩ := probe_ok h
  obtain ⟨n, e1, e2⟩ := bind_ok.mp h3
  have e2 := Except.ok.inj e2
  exact ⟨d0, d, bs, n, h1, h2, congrArg (fun p => p.2.1) e2, e1, congrArg (fun p => p.1) e2,
    congrArg (fun p => p.2.2.1) e2, congrArg (fun p => p.2.2.2) e2⟩

/-- C11, when it holds: on an index without empty shards a range count is defined if and only if every shard has a
record with key at or above the lower end. Missing: otherwise it is undefined (`C11_false`). -/
theorem C11_partial {L : Layout} {tag : Bool} {pq : PQ R} (hpq : pq.ByRec) {lb : LB R K} (hlb : lb.Sound)
    {lwm hwm sf : Nat} {d0 d : Index R} {ops : List (Index.Op R)} {bs : List Bool}
    (hnew : Index.new L tag (sortedImpl pq lb) lwm hwm sf = .ok d0) (hlwm : 1 ≤ lwm)
    (hrun : d0.run ops = .ok (d, bs)) (hne : ∀ s ∈ d.str.visible, s.data ≠ []) {lo hi : K} :
    (∃ n, d.rangeCount lb lo hi = .ok n) ↔ ∀ s ∈ d.str.visible, ∃ w ∈ s.data, lo ≤ key w.record := by
  obtain ⟨hd, -⟩ := new_ok hnew
  have hb := new_buf hnew hlwm
  have hs := (run_sorted hpq hb (by rw [hd]) (by rw [hd]) hrun).visible
  exact rangeCount_total hlb (run_buf ops hb hrun).1.wf (fun s hsm => ⟨hs s hsm, hne s hsm⟩)

/-- C11 is false: after five inserts, counting from 4 on is undefined behaviour. -/
theorem C11_false : ∃ (d0 d : Index Rec) (bs : List Bool), mk .tiering true 2 2 2 = .ok d0 ∧
    d0.run (insSeq 0 5) = .ok (d, bs) ∧ d.rangeCount LB.scan 4 9 = .error .ub := by
  have h : probe .tiering true 2 2 2 (insSeq 0 5) (fun p => .ok (decide (p.1.rangeCount LB.scan 4 9 = .error .ub))) =
    .ok true := by decide
  obtain ⟨d0, d, bs, h1, h2, h3⟩ := probe_ok h
  have e := Except.ok.inj h3
  exact ⟨d0, d, bs, h1, h2, of_decide_eq_true e⟩

end DE
