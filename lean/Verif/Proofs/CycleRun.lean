import Verif.Proofs.Cycle
import Verif.Proofs.Query

/-!
The cycle invariant along a history, and `create_static_structure` as a linear rewriting.
-/

namespace DE
variable {R : Type}

theorem Lin.reduces {I : ShardImpl R} (hI : I.Conserving) {A B : Multiset (Shard R)} (h : Lin I A B) :
    Reduces (fun e => e.del = true) (ments A) (ments B) := by
  induction h with
  | refl => exact Reduces.refl _
  | @merge ss rest m _ hm ih =>
    refine ih.trans ?_
    rw [ments_add, ments_add, ments_coe, ments_single]
    exact (Reduces.refl _).add (hI.merge ss m hm)
  | @forget s rest _ hd ih =>
    refine ih.trans (Reduces.of_eq ?_)
    rw [ments_add, ments_single, hd]; simp [ents]

theorem Index.GInv.present {d : Index R} (h : d.GInv) : ∀ l ∈ d.str.levels, l.present = l.visible ∧ l.visible.length = l.cnt := by
  intro l hl
  obtain ⟨i, hi, rfl⟩ := List.mem_iff_getElem.mp hl
  rcases h with h | h
  · obtain ⟨s, hs⟩ := getElem?_of_lt (l := d.str.state) (i := i) (by rw [← h.str.len]; exact hi)
    have hl := h.str.lvl i _ s (List.getElem?_eq_getElem hi) hs
    refine ⟨?_, hl.cnt⟩
    unfold Level.present
    rw [hl.shards, filterMap_some_none]
  · obtain ⟨s, hs⟩ := getElem?_of_lt (l := d.str.state) (i := i) (by rw [← h.str.len]; exact hi)
    have hl := h.str.lvl i _ s (List.getElem?_eq_getElem hi) hs
    exact ⟨hl.present, hl.cnt⟩

/-- The combined shards of a list of levels. -/
theorem combined_lin {I : ShardImpl R} : ∀ {ls : List (Level R)} {os : List (Option (Shard R))},
    (∀ l ∈ ls, l.present = l.visible ∧ l.visible.length = l.cnt) → (∀ l ∈ ls, 0 < l.recordCount) →
    ls.mapM (fun l => l.combined I) = .ok os →
    ∃ ss : List (Shard R), os = ss.map some ∧ Lin I ((ls.flatMap Level.visible : List (Shard R)) : Multiset (Shard R)) ss
  | [], os, _, _, h => by
    simp [pure, Except.pure] at h; subst h
    exact ⟨[], rfl, .refl⟩
  | l :: ls, os, hp, hc, h => by
    rw [List.mapM_cons] at h
    simp only [bind_ok] at h
    obtain ⟨o, h1, os', h2, h3⟩ := h
    cases h3
    obtain ⟨ss, rfl, hlin⟩ := combined_lin (fun x hx => hp x (by simp [hx])) (fun x hx => hc x (by simp [hx])) h2
    obtain ⟨p1, p2⟩ := hp l (by simp)
    have hcnt : ¬ l.cnt = 0 := by
      intro h0
      have := hc l (by simp)
      have hv : l.visible = [] := List.eq_nil_of_length_eq_zero (by rw [p2, h0])
      simp [Level.recordCount, hv] at this
    unfold Level.combined at h1
    rw [if_neg hcnt, p1] at h1
    cases hm : I.merge (l.visible.map some) with
    | error e => rw [hm] at h1; cases h1
    | ok m =>
      rw [hm] at h1
      cases h1
      refine ⟨m :: ss, rfl, ?_⟩
      rw [List.flatMap_cons, ← Multiset.coe_add, add_comm]
      have e : ((m :: ss : List (Shard R)) : Multiset (Shard R)) = ss + {m} := by
        rw [← Multiset.cons_coe, ← Multiset.singleton_add, add_comm]
      rw [e]
      exact Lin.merge (hlin.add _) hm

theorem flatMap_filter_lin {I : ShardImpl R} (ls : List (Level R)) :
    Lin I ((ls.flatMap Level.visible : List (Shard R)) : Multiset (Shard R))
      (((ls.filter (fun l => decide (l.recordCount > 0))).flatMap Level.visible : List (Shard R)) : Multiset (Shard R)) := by
  induction ls with
  | nil => exact .refl
  | cons l ls ih =>
    rw [List.flatMap_cons, ← Multiset.coe_add, add_comm]
    by_cases hc : l.recordCount > 0
    · rw [List.filter_cons_of_pos (by simpa using hc), List.flatMap_cons, ← Multiset.coe_add, add_comm (l.visible : Multiset (Shard R))]
      exact ih.add _
    · rw [List.filter_cons_of_neg (by simpa using hc)]
      have h0 : recs l.visible = 0 := by
        have : l.recordCount = recs l.visible := recordCount_eq l
        omega
      exact (ih.add _).trans (lin_forget_all (recs_zero h0) _)

/-- `create_static_structure` merges all stored shards and a shard built from the buffer. -/
theorem static_lin' {d : Index R} (h : ∀ l ∈ d.str.levels, l.present = l.visible ∧ l.visible.length = l.cnt) {m : Shard R} (hm : d.staticStructure = .ok m) :
    (d.buf.contents = [] ∧ Lin d.impl (d.str.visible : Multiset (Shard R)) {m}) ∨
    ∃ s, d.impl.build d.buf.view = .ok s ∧ Lin d.impl ((d.str.visible : Multiset (Shard R)) + {s}) {m} := by
  unfold Index.staticStructure at hm
  rw [bind_ok] at hm
  obtain ⟨os, h1, hm⟩ := hm
  obtain ⟨ss, rfl, hlin⟩ := combined_lin (fun l hl => h l (by simpa using (List.mem_filter.mp hl).1))
    (fun l hl => by simpa using (List.mem_filter.mp hl).2) h1
  have hvis : Lin d.impl (d.str.visible : Multiset (Shard R)) ss := by
    have e : ((d.str.visible : List (Shard R)) : Multiset (Shard R)) =
        ((d.str.levels.reverse.flatMap Level.visible : List (Shard R)) : Multiset (Shard R)) := by
      rw [Multiset.coe_eq_coe]
      unfold Struct.visible
      exact (List.Perm.flatMap_right _ (List.reverse_perm _)).symm
    rw [e]
    exact (flatMap_filter_lin _).trans hlin
  by_cases hc : d.buf.view.count > 0
  · rw [if_pos hc] at hm
    simp only [bind_ok] at hm
    obtain ⟨s, hs, x, hx, hm⟩ := hm
    have hx := (Except.ok.inj hx).symm
    subst hx
    right
    refine ⟨s, hs, ?_⟩
    have e : (ss.map some ++ [some s] : List (Option (Shard R))) = (ss ++ [s]).map some := by simp
    rw [e] at hm
    have := Lin.merge (I := d.impl) (A := (d.str.visible : Multiset (Shard R)) + {s}) (rest := 0) (ss := ss ++ [s]) (m := m) (by
      rw [zero_add, ← Multiset.coe_add]
      exact hvis.add _) hm
    simpa using this
  · rw [if_neg hc] at hm
    left
    refine ⟨List.eq_nil_of_length_eq_zero (by
      rw [Buffer.contents_length]
      simp only [Buffer.view, View.count] at hc; omega), ?_⟩
    rw [bind_ok] at hm
    obtain ⟨x, hx, hm⟩ := hm
    cases hx
    simp only [List.append_nil] at hm
    have := Lin.merge (I := d.impl) (A := (d.str.visible : Multiset (Shard R))) (rest := 0) (ss := ss) (m := m) (by
      rw [zero_add]; exact hvis) hm
    simpa using this

theorem static_lin {d : Index R} (h : d.GInv) {m : Shard R} (hm : d.staticStructure = .ok m) :
    (d.buf.contents = [] ∧ Lin d.impl (d.str.visible : Multiset (Shard R)) {m}) ∨
    ∃ s, d.impl.build d.buf.view = .ok s ∧ Lin d.impl ((d.str.visible : Multiset (Shard R)) + {s}) {m} :=
  static_lin' h.present hm

theorem visible_ments (d : Index R) : d.entries = ents d.buf.contents + ments (d.str.visible : Multiset (Shard R)) := by
  rw [ments_coe]; rfl

/-- Everything `create_static_structure` does to the content. -/
theorem static_reduces' {d : Index R} (h : ∀ l ∈ d.str.levels, l.present = l.visible ∧ l.visible.length = l.cnt)
    (hr : d.buf.view.Reads d.buf.contents) (hI : d.impl.Conserving) {m : Shard R} (hm : d.staticStructure = .ok m) :
    Reduces (fun e => e.del = true) d.entries (ents m.data) := by
  rw [visible_ments]
  rcases static_lin' h hm with ⟨h0, hl⟩ | ⟨s, hs, hl⟩
  · have := hl.reduces hI
    rw [ments_single] at this
    rw [h0]; simpa [ents] using this
  · have h1 := hl.reduces hI
    rw [ments_add, ments_single, ments_single] at h1
    have h2 := hI.build _ _ _ hr hs
    rw [add_comm]
    exact ((Reduces.refl _).add h2).trans h1

theorem static_reduces {d : Index R} (h : d.GInv) (hI : d.impl.Conserving) {m : Shard R} (hm : d.staticStructure = .ok m) :
    Reduces (fun e => e.del = true) d.entries (ents m.data) :=
  static_reduces' h.present (Buffer.view_reads h.wf) hI hm

end DE

namespace DE
variable {R K : Type} [LinearOrder R] [LinearOrder K] [HasKey R K]

/-- What is known about record `r` along a history in which it goes through at most one insert/erase cycle. -/
structure CycleInv (r : R) (d : Index R) (ops : List (Index.Op R)) : Prop where
  buf : BufExact d ops
  live : liveCount r d.entries ≤ insCount r ops
  tomb : tombCount r d.entries ≤ delCount r ops
  cyc : CycM r (d.str.visible : Multiset (Shard R))

/-- In such a history the buffer holds the insert before the erase, in slot and in sort order. -/
theorem cycle_buf_lt {r : R} {d : Index R} {ops : List (Index.Op R)} (hc : SingleCycle r ops) (h : CycleInv r d ops)
    (hb : BufInv d.buf) (hdvd : d.buf.lwm ∣ d.buf.cap) (hcap : d.buf.cap ≤ 2 ^ 29) :
    ∀ a b, ofRec r d.buf.contents = [a, b] → Wrapped.lt a b ∧ a.isTombstone = false ∧ b.isTombstone = true := by
  intro a b hab
  have h1 := (bufExact_ts hb hdvd hcap h.buf).sublist (List.filter_sublist (p := fun w => decide (w.record = r)))
  have h2 := (bufExact_order (cycle_order hc) h.buf).sublist (List.filter_sublist (p := fun w => decide (w.record = r)))
  have hm : ∀ w ∈ ofRec r d.buf.contents, w.record = r := fun w hw => (mem_ofRec.mp hw).2
  change (ofRec r d.buf.contents).Pairwise _ at h1 h2
  have hlv : liveCount r (ents d.buf.contents) ≤ 1 := by
    have := h.live
    rw [visible_ments, liveCount_add] at this
    have := hc.1; omega
  have htb : tombCount r (ents d.buf.contents) ≤ 1 := by
    have := h.tomb
    rw [visible_ments, tombCount_add] at this
    have := hc.del; omega
  obtain ⟨a', b', e, hor⟩ := ofRec_two (r := r) (l := d.buf.contents) hlv htb (by rw [hab]; simp)
  rw [hab] at h1 h2 hm e
  simp at e
  obtain ⟨rfl, rfl⟩ := e
  have ha := hm a (by simp)
  have hbr := hm b (by simp)
  have h1' : a.getTimestamp < b.getTimestamp := by simpa using h1
  have h2' : ¬ (a.record = r ∧ a.isTombstone = true ∧ b.record = r ∧ b.isTombstone = false) := by simpa using h2
  refine ⟨Or.inr ⟨ha.trans hbr.symm, ts_lt h1'⟩, ?_⟩
  rcases hor with h | h
  · exact h
  · exact absurd ⟨ha, h.1, hbr, h.2⟩ h2'

/-- The shard built from the buffer together with the stored ones. -/
theorem cycle_built {r : R} {d : Index R} {ops : List (Index.Op R)} (hc : SingleCycle r ops) (h : CycleInv r d ops)
    (hb : BufInv d.buf) (hdvd : d.buf.lwm ∣ d.buf.cap) (hcap : d.buf.cap ≤ 2 ^ 29) {s : Shard R}
    (hs : sortedFromView d.buf.view = .ok s) : CycM r ((d.str.visible : Multiset (Shard R)) + {s}) := by
  have hl := h.live
  have ht := h.tomb
  rw [visible_ments, liveCount_add] at hl
  rw [visible_ments, tombCount_add] at ht
  have h1 := hc.1
  have h2 := hc.del
  have hsh : ShOk r s := build_shok (Buffer.view_copyOut hb.wf) (by omega) (by omega)
    (fun a b hab => by
      obtain ⟨g1, g2, -⟩ := cycle_buf_lt hc h hb hdvd hcap a b hab
      exact ⟨g1, g2⟩) hs
  obtain ⟨l, e1, e2, -⟩ := sortedFromView_ok hs
  rw [Buffer.view_copyOut hb.wf] at e1; cases e1
  have hred := scanSorted_reduces (sortW d.buf.contents)
  rw [ents_perm (sortW_perm _), ← e2] at hred
  have g1 := hred.liveCount_le r
  have g2 := hred.tombCount_le r
  refine ⟨?_, ?_, ?_⟩
  · intro x hx
    rw [Multiset.mem_add] at hx
    rcases hx with hx | hx
    · exact h.cyc.sh x hx
    · simp at hx; subst hx; exact hsh
  · rw [ments_add, ments_single, liveCount_add]; omega
  · rw [ments_add, ments_single, tombCount_add]; omega

variable [Inhabited R]

/-- The cycle invariant holds along every history. -/
theorem cycle_run {L : Layout} {pq : PQ R} (hpq : pq.ByWrapped) {lb : LB R K} {lwm hwm sf : Nat} {d0 d : Index R}
    {ops : List (Index.Op R)} {bs : List Bool}
    (hnew : Index.new L false (sortedImpl pq lb) lwm hwm sf = .ok d0) (hlwm : 1 ≤ lwm) (hsf : 1 ≤ sf)
    (hdvd : lwm ∣ 2 * hwm) (hcap : 2 * hwm ≤ 2 ^ 29) (hblk : L = .bsm → NoVoidBlock lwm ops)
    (hrun : d0.run ops = .ok (d, bs)) {r : R} (hc : SingleCycle r ops) :
    CycleInv r d ops ∧ BufInv d.buf ∧ d.buf.lwm = lwm ∧ d.buf.cap = 2 * hwm ∧ d.impl = sortedImpl pq lb := by
  obtain ⟨h1, h2, h3, h4, h5, hvis⟩ := new_ginv hnew hlwm hsf
  obtain ⟨hd, -⟩ := new_ok hnew
  have hcons := h4 ▸ sortedImpl_conserving pq lb
  have hfin := run_prefix_ind ops (fun ops d _ => CycleInv r d ops ∧ d.buf.lwm = lwm ∧ d.buf.cap = 2 * hwm)
    (new_buf hnew hlwm) ?_ ?_ hrun
  · obtain ⟨⟨a, b, c⟩, e, -, -, f⟩ := hfin
    exact ⟨a, e, b, c, f.trans h4⟩
  · refine ⟨⟨⟨0, ?_, ?_, ?_⟩, ?_, ?_, ⟨?_, ?_, ?_⟩⟩, ?_, ?_⟩
    · rw [hd]; rfl
    · rw [hd]; rfl
    · rw [hd]; rfl
    · rw [h5]; simp [liveCount]
    · rw [h5]; simp [tombCount]
    · rw [hvis]; simp
    · rw [hvis]; simp [ments, liveCount]
    · rw [hvis]; simp [ments, tombCount]
    · rw [hd]
    · rw [hd]
  · rintro ops' o d d' bs b hpre hr1 ⟨hP, hl, hcp⟩ hb hL ht hi hs
    have hpre' : ops' <+: ops := (List.prefix_append ops' [o]).trans hpre
    have htf : d.tagging = false := ht.trans h3
    have hI : d.impl = sortedImpl pq lb := hi.trans h4
    obtain ⟨-, -, -, hg, -⟩ := grun_net h1 hcons (h4 ▸ sortedImpl_lookupSound pq lb) h3 h5
      (by rw [hd]; rfl) (fun hL => by rw [hd]; exact (hblk (h2 ▸ hL)).prefix hpre') hr1
    have hap := step_append htf hs
    obtain ⟨e1, e2, -⟩ := step_buf_eq hb hap
    obtain ⟨-, -, -, -, -, ⟨m, hm, hent⟩, hcase, -⟩ := gappend_ok hg (hi ▸ hcons) hap
    have hop : ({⟨(opEntry o).record, (opEntry o).tomb, false⟩} : Multiset (Entry R)) = opEnts [o] := by
      cases o <;> simp [opEnts, opEntry]
    refine ⟨⟨bufExact_step hb htf hs hP.buf, ?_, ?_, ?_⟩, e1.trans hl, e2.trans hcp⟩
    · rw [hent, hop, liveCount_add, opEnts_live]
      have := hm.liveCount_le r
      have h6 : insCount r (ops' ++ [o]) = insCount r ops' + insCount r [o] := by unfold insCount; simp
      have := hP.live
      omega
    · rw [hent, hop, tombCount_add, opEnts_tomb]
      have := hm.tombCount_le r
      have h6 : delCount r (ops' ++ [o]) = delCount r ops' + delCount r [o] := by unfold delCount; simp
      have := hP.tomb
      omega
    · rcases hcase with ⟨-, e, -⟩ | ⟨hat, d1, f1, e, -⟩
      · rw [e]; exact hP.cyc
      · rw [e]
        obtain ⟨s, hs1, hlin⟩ := gflush_lin hg hat f1
        rw [hI] at hs1 hlin
        exact (cycle_built (hc.prefix hpre') hP hb (by rw [hl, hcp]; exact hdvd) (by rw [hcp]; exact hcap) hs1).lin hpq hlin

end DE
