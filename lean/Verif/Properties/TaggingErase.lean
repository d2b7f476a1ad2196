import Verif.Proofs.Tagging
import Verif.Proofs.Instances
import Verif.Properties.RangeQuery

/-!
C12, C13: what a tagging erase reports and what it removes.
-/

namespace DE
variable {R K : Type} [LinearOrder R] [LinearOrder K] [HasKey R K] [Inhabited R]

omit [LinearOrder R] [LinearOrder K] [HasKey R K] [Inhabited R] in
theorem countP_single {α : Type} (p : α → Prop) [DecidablePred p] (a : α) :
    Multiset.countP p {a} = if p a then 1 else 0 := by
  rw [← Multiset.cons_zero, Multiset.countP_cons]; simp

omit [LinearOrder K] [HasKey R K] [Inhabited R] in
/-- The buffer is not empty once something was inserted (a flush is always followed by the append that caused it). -/
theorem buf_nonempty {d0 d : Index R} (h0 : BufInv d0.buf) {ops : List (Index.Op R)} {bs : List Bool}
    (hr : d0.run ops = .ok (d, bs)) (hins : ∃ r, .ins r ∈ ops) : d.buf.head < d.buf.tail := by
  refine (run_prefix_ind ops (fun ops d _ => (∃ r, .ins r ∈ ops) → d.buf.head < d.buf.tail) h0 (by simp) ?_ hr).1 hins
  intro ops o d d' bs b _ _ hP hb _ _ _ hs hex
  have happ : ∀ (r : R) (ts : Bool), d.internalAppend r ts = .ok (d', b) → d'.buf.head < d'.buf.tail := by
    intro r ts hs
    have h1 := internalAppend_contents hb hs
    have h2 := Buffer.contents_length d'.buf
    rw [h1] at h2
    simp at h2
    omega
  cases o with
  | ins r => exact happ r false hs
  | del r =>
    simp only [Index.step, Index.erase] at hs
    have hex' : ∃ r, Index.Op.ins r ∈ ops := by
      obtain ⟨x, hx⟩ := hex
      exact ⟨x, by simpa using hx⟩
    split at hs
    · rw [bind_ok] at hs
      obtain ⟨o, h1, h2⟩ := hs
      cases o with
      | some ls => cases h2; exact hP hex'
      | none =>
        simp only at h2
        have hd : d' = { d with buf := (d.buf.deleteRecord r).1 } := (congrArg Prod.fst (Except.ok.inj h2)).symm
        have : (d.buf.deleteRecord r).1.head = d.buf.head ∧ (d.buf.deleteRecord r).1.tail = d.buf.tail := by
          unfold Buffer.deleteRecord; split <;> exact ⟨rfl, rfl⟩
        rw [hd]; simp only; rw [this.1, this.2]; exact hP hex'
    · exact happ r true hs

/-- C12, what holds: on an index that was inserted into at least once, a tagging erase that returns reports 1 exactly
if an entry of the record is stored, erased before or not. Missing: it also reports 1 for a record whose copies were all
erased already, and on a fresh index for records that were never inserted (`C12_false`, `C12_fresh_false`). -/
theorem C12_partial {L : Layout} {pq : PQ R} (hpq : pq.ByRec) {lb : LB R K} (hlb : lb.Sound)
    {lwm hwm sf : Nat} {d0 d d' : Index R} {ops : List (Index.Op R)} {bs : List Bool} {r : R} {b : Bool}
    (hnew : Index.new L true (sortedImpl pq lb) lwm hwm sf = .ok d0) (hlwm : 1 ≤ lwm)
    (hrun : d0.run ops = .ok (d, bs)) (hins : ∃ x, .ins x ∈ ops) (he : d.erase r = .ok (d', b)) :
    b = true ↔ ∃ e ∈ d.entries, e.record = r := by
  obtain ⟨hd, -⟩ := new_ok hnew
  have hb0 := new_buf hnew hlwm
  have hI : d0.impl = sortedImpl pq lb := by rw [hd]
  obtain ⟨g1, -, g3, g4, -⟩ := run_buf ops hb0 hrun
  have hT := erase_tagging hlb g1.wf (run_lok hb0 (by rw [hd]) hrun) (run_sorted hpq hb0 hI (by rw [hd]) hrun).visible
    (g4.trans hI) (by rw [g3, hd]) he
  constructor
  · intro hbt
    by_contra hno
    rw [(hT.2 hno).2 (buf_nonempty hb0 hrun hins)] at hbt
    cases hbt
  · intro hex; exact (hT.1 hex).1

omit [LinearOrder K] [HasKey R K] [Inhabited R] in
/-- Before its first erase every copy of a record is stored and untagged (leveling and tiering). -/
theorem tagging_before_first {d0 d : Index R} (h0 : d0.Inv) (hI : d0.impl.Conserving) (hl : d0.impl.LookupSound)
    (ht : d0.tagging = true) (he0 : d0.entries = 0) {ops : List (Index.Op R)} {bs : List Bool}
    (hr : d0.run ops = .ok (d, bs)) (r : R) (hno : delCount r ops = 0) :
    (∀ e ∈ d.entries, e.tomb = false ∧ (e.record = r → e.del = false)) ∧ liveCount r d.entries = insCount r ops := by
  have H := (run_ind (fun ops a => (∀ e ∈ a, e.tomb = false) ∧ (delCount r ops = 0 →
      (∀ e ∈ a, e.record = r → e.del = false) ∧ liveCount r a = insCount r ops)) h0 hI hl
    (by rw [he0]; simp [liveCount, insCount]) ?_ ops hr).1
  · obtain ⟨a, b⟩ := H.2 hno
    exact ⟨fun e he => ⟨H.1 e he, a e he⟩, b⟩
  · intro ops o b a a' ⟨hP1, hP2⟩ hs
    unfold StepEff at hs
    cases o with
    | ins x =>
      obtain ⟨-, m, hm, rfl⟩ := hs
      obtain ⟨dr, rfl, hdr⟩ := hm.no_tomb hP1
      refine ⟨?_, ?_⟩
      · intro e he
        rcases Multiset.mem_add.mp he with he | he
        · exact hP1 e (Multiset.mem_add.mpr (Or.inl he))
        · simp at he; rw [he]
      · intro hd
        obtain ⟨q1, q2⟩ := hP2 (by simpa [delCount] using hd)
        refine ⟨?_, ?_⟩
        · intro e he her
          rcases Multiset.mem_add.mp he with he | he
          · exact q1 e (Multiset.mem_add.mpr (Or.inl he)) her
          · simp at he; rw [he]
        · have hdr0 : liveCount r dr = 0 := by
            unfold liveCount
            rw [Multiset.countP_eq_zero]
            rintro e he ⟨her, -⟩
            have := q1 e (Multiset.mem_add.mpr (Or.inr he)) her
            rw [hdr e he] at this; cases this
          rw [liveCount_add, hdr0] at q2
          rw [liveCount_add]
          have : insCount r (ops ++ [.ins x]) = insCount r ops + if x = r then 1 else 0 := by
            simp [insCount, List.count_append, List.count_singleton]
          rw [this, ← q2]
          simp only [liveCount]
          by_cases hx : x = r <;> simp [hx, countP_single]
    | del x =>
      simp only [if_pos ht] at hs
      rcases hs with rfl | ⟨rest, t, dl, rfl, rfl⟩
      · refine ⟨hP1, fun hd => ?_⟩
        have hd' : delCount r ops = 0 := by
          simp [delCount, List.count_append] at hd ⊢; exact hd.1
        have : insCount r (ops ++ [.del x]) = insCount r ops := by simp [insCount, List.count_append, List.count_singleton]
        rw [this]; exact hP2 hd'
      · refine ⟨?_, fun hd => ?_⟩
        · intro e he
          rcases Multiset.mem_add.mp he with he | he
          · exact hP1 e (Multiset.mem_add.mpr (Or.inl he))
          · simp at he
            have := hP1 ⟨x, t, dl⟩ (by simp)
            rw [he]; exact this
        · have hd' : delCount r ops = 0 ∧ x ≠ r := by
            simp [delCount, List.count_append, List.count_singleton] at hd ⊢
            exact hd
          obtain ⟨q1, q2⟩ := hP2 hd'.1
          refine ⟨?_, ?_⟩
          · intro e he her
            rcases Multiset.mem_add.mp he with he | he
            · exact q1 e (Multiset.mem_add.mpr (Or.inl he)) her
            · simp at he; rw [he] at her; exact absurd her hd'.2
          · have : insCount r (ops ++ [.del x]) = insCount r ops := by
              simp [insCount, List.count_append, List.count_singleton]
            rw [this, ← q2, liveCount_add, liveCount_add]
            congr 1

/-- C12 for the first erase of a record, leveling and tiering: it reports 1 exactly if the record was inserted. -/
theorem C12_first_erase_partial {L : Layout} (hL : L ≠ .bsm) {pq : PQ R} (hpq : pq.ByRec) {lb : LB R K} (hlb : lb.Sound)
    {lwm hwm sf : Nat} {d0 d d' : Index R} {ops : List (Index.Op R)} {bs : List Bool} {r : R} {b : Bool}
    (hnew : Index.new L true (sortedImpl pq lb) lwm hwm sf = .ok d0) (hlwm : 1 ≤ lwm) (hsf : 1 ≤ sf)
    (hrun : d0.run ops = .ok (d, bs)) (hins : ∃ x, .ins x ∈ ops) (hfirst : .del r ∉ ops)
    (he : d.erase r = .ok (d', b)) : b = true ↔ .ins r ∈ ops := by
  obtain ⟨h1, h2, h3, h4, h5⟩ := new_inv hL hnew hlwm hsf
  have hno : delCount r ops = 0 := List.count_eq_zero.mpr hfirst
  obtain ⟨g1, g2⟩ := tagging_before_first h1 (h4 ▸ sortedImpl_conserving pq lb) (h4 ▸ sortedImpl_lookupSound pq lb) h3 h5
    hrun r hno
  rw [C12_partial hpq hlb hnew hlwm hrun hins he]
  constructor
  · rintro ⟨e, hm, rfl⟩
    have : 0 < liveCount e.record d.entries := Multiset.countP_pos.mpr ⟨e, hm, rfl, (g1 e hm).1⟩
    rw [g2] at this
    exact List.count_pos_iff.mp this
  · intro hm
    have : 0 < liveCount r d.entries := by rw [g2]; exact List.count_pos_iff.mpr hm
    obtain ⟨e, hm, hr, -⟩ := Multiset.countP_pos.mp this
    exact ⟨e, hm, hr⟩

/-- Live copies of a record under tagging. -/
def untagged (r : R) (m : Multiset (Entry R)) : Nat := m.countP (fun e => e.record = r ∧ e.del = false)

/-- C13, what holds: the first erase of a record (leveling and tiering) removes exactly one of its live copies if there
is one, and never touches another record. Missing: with an already erased copy still stored, a further erase can hit
that copy again (`C13_false`). -/
theorem C13_partial {L : Layout} (hL : L ≠ .bsm) {pq : PQ R} (hpq : pq.ByRec) {lb : LB R K} (hlb : lb.Sound)
    {lwm hwm sf : Nat} {d0 d d' : Index R} {ops : List (Index.Op R)} {bs : List Bool} {r : R} {b : Bool}
    (hnew : Index.new L true (sortedImpl pq lb) lwm hwm sf = .ok d0) (hlwm : 1 ≤ lwm) (hsf : 1 ≤ sf)
    (hrun : d0.run ops = .ok (d, bs)) (hins : ∃ x, .ins x ∈ ops) (hfirst : .del r ∉ ops)
    (he : d.erase r = .ok (d', b)) :
    d'.entries.map Entry.record = d.entries.map Entry.record ∧
    ∀ x, untagged x d'.entries + (if x = r ∧ b = true then 1 else 0) = untagged x d.entries := by
  obtain ⟨h1, h2, h3, h4, h5⟩ := new_inv hL hnew hlwm hsf
  obtain ⟨hd, -⟩ := new_ok hnew
  have hb0 := new_buf hnew hlwm
  have hno : delCount r ops = 0 := List.count_eq_zero.mpr hfirst
  obtain ⟨g1, g2⟩ := tagging_before_first h1 (h4 ▸ sortedImpl_conserving pq lb) (h4 ▸ sortedImpl_lookupSound pq lb) h3 h5
    hrun r hno
  obtain ⟨k1, -, k3, k4, -⟩ := run_buf ops hb0 hrun
  have hT := erase_tagging hlb k1.wf (run_lok hb0 (by rw [hd]) hrun) (run_sorted hpq hb0 h4 (by rw [hd]) hrun).visible
    (k4.trans h4) (by rw [k3, hd]) he
  by_cases hex : ∃ e ∈ d.entries, e.record = r
  · obtain ⟨hb, rest, t, dl, e1, e2⟩ := hT.1 hex
    have hdl : dl = false := (g1 ⟨r, t, dl⟩ (by rw [e1]; simp)).2 rfl
    refine ⟨by rw [e1, e2]; simp, fun x => ?_⟩
    rw [e1, e2, hdl]
    unfold untagged
    rw [Multiset.countP_add, Multiset.countP_add]
    by_cases hx : x = r
    · simp [hx, hb, countP_single]
    · have : ¬ r = x := fun h => hx h.symm
      simp [hx, this, countP_single]
  · obtain ⟨e1, e2⟩ := hT.2 hex
    rw [e1]
    refine ⟨rfl, fun x => ?_⟩
    rw [e2 (buf_nonempty hb0 hrun hins)]
    simp

/-- Whatever was done before, on any layout, a tagging erase changes no record and tags at most one copy of its argument. -/
theorem C13_any_partial {L : Layout} {pq : PQ R} (hpq : pq.ByRec) {lb : LB R K} (hlb : lb.Sound)
    {lwm hwm sf : Nat} {d0 d d' : Index R} {ops : List (Index.Op R)} {bs : List Bool} {r : R} {b : Bool}
    (hnew : Index.new L true (sortedImpl pq lb) lwm hwm sf = .ok d0) (hlwm : 1 ≤ lwm)
    (hrun : d0.run ops = .ok (d, bs)) (he : d.erase r = .ok (d', b)) :
    d'.entries.map Entry.record = d.entries.map Entry.record ∧
    (∀ x, x ≠ r → untagged x d'.entries = untagged x d.entries) ∧
    untagged r d.entries ≤ untagged r d'.entries + 1 ∧ untagged r d'.entries ≤ untagged r d.entries := by
  obtain ⟨hd, -⟩ := new_ok hnew
  have hb0 := new_buf hnew hlwm
  have hI : d0.impl = sortedImpl pq lb := by rw [hd]
  obtain ⟨k1, -, k3, k4, -⟩ := run_buf ops hb0 hrun
  have hT := erase_tagging hlb k1.wf (run_lok hb0 (by rw [hd]) hrun) (run_sorted hpq hb0 hI (by rw [hd]) hrun).visible
    (k4.trans hI) (by rw [k3, hd]) he
  by_cases hex : ∃ e ∈ d.entries, e.record = r
  · obtain ⟨hb, rest, t, dl, e1, e2⟩ := hT.1 hex
    rw [e1, e2]
    unfold untagged
    refine ⟨by simp, fun x hx => ?_, ?_, ?_⟩
    · have : ¬ r = x := fun h => hx h.symm
      simp [this, countP_single]
    · cases dl <;> simp [countP_single]
    · cases dl <;> simp [countP_single]
  · rw [(hT.2 hex).1]
    exact ⟨rfl, fun _ _ => rfl, by omega, le_refl _⟩

/-- Non-vacuous: first erases hitting a shard and the buffer, and one missing. -/
example : probe .leveling true 2 2 2 (insSeq 0 7 ++ [.del ⟨2, 2⟩, .del ⟨6, 6⟩, .del ⟨0, 9⟩])
    (fun p => .ok (p.1.height, p.2.drop 7, untagged (⟨2, 2⟩ : Rec) p.1.entries, p.1.recordCount)) =
    .ok (2, [true, true, false], 0, 7) := by decide

/-- C12 is false: a second erase of a record whose only copy is already erased reports 1. -/
theorem C12_false : ∃ (d0 d : Index Rec) (bs : List Bool), mk .tiering true 2 2 2 = .ok d0 ∧
    d0.run [.ins ⟨1, 1⟩, .del ⟨1, 1⟩, .del ⟨1, 1⟩] = .ok (d, bs) ∧ bs = [true, true, true] ∧
    insCount (⟨1, 1⟩ : Rec) [.ins ⟨1, 1⟩, .del ⟨1, 1⟩, .del ⟨1, 1⟩] = 1 := by
  have h : probe .tiering true 2 2 2 [.ins ⟨1, 1⟩, .del ⟨1, 1⟩, .del ⟨1, 1⟩]
      (fun p => .ok p.2) = .ok [true, true, true] := by decide
  obtain ⟨d0, d, bs, h1, h2, h3⟩ := probe_ok h
  exact ⟨d0, d, bs, h1, h2, Except.ok.inj h3, by decide⟩

/-- C12 is false on a fresh index too: erasing the default record reports 1 although nothing was ever inserted. -/
theorem C12_fresh_false : ∃ (d0 d : Index Rec) (bs : List Bool), mk .tiering true 2 2 2 = .ok d0 ∧
    d0.run [.del ⟨0, 0⟩] = .ok (d, bs) ∧ bs = [true] ∧ d.entries = 0 := by
  have h : probe .tiering true 2 2 2 [.del ⟨0, 0⟩]
      (fun p => .ok (p.2, decide (p.1.entries = 0))) = .ok ([true], true) := by decide
  obtain ⟨d0, d, bs, h1, h2, h3⟩ := probe_ok h
  have h3 := Except.ok.inj h3
  exact ⟨d0, d, bs, h1, h2, congrArg Prod.fst h3, of_decide_eq_true (congrArg Prod.snd h3)⟩

/-- C13 is false: two inserts and two acknowledged erases of a record leave a live copy behind. -/
theorem C13_false : ∃ (d0 d : Index Rec) (bs : List Bool), mk .tiering true 2 2 2 = .ok d0 ∧
    d0.run [.ins ⟨1, 1⟩, .del ⟨1, 1⟩, .ins ⟨1, 1⟩, .del ⟨1, 1⟩] = .ok (d, bs) ∧ bs = [true, true, true, true] ∧
    untagged (⟨1, 1⟩ : Rec) d.entries = 1 := by
  have h : probe .tiering true 2 2 2 [.ins ⟨1, 1⟩, .del ⟨1, 1⟩, .ins ⟨1, 1⟩, .del ⟨1, 1⟩]
      (fun p => .ok (p.2, untagged (⟨1, 1⟩ : Rec) p.1.entries)) = .ok ([true, true, true, true], 1) := by decide
  obtain ⟨d0, d, bs, h1, h2, h3⟩ := probe_ok h
  have h3 := Except.ok.inj h3
  exact ⟨d0, d, bs, h1, h2, congrArg Prod.fst h3, congrArg Prod.snd h3⟩

end DE
