import Verif.Proofs.SegTotal
import Verif.Proofs.Instances
import Verif.Proofs.CycleQuery

/-!
C83 (every shard holds the net effect of an interval of the history, deeper levels are older) and the corresponding
strengthening of C22 (the operations are defined as long as no such interval nets out to nothing).
-/

namespace DE
variable {R K : Type} [LinearOrder R] [LinearOrder K] [HasKey R K] [Inhabited R]

/-- The entry an operation leaves in the buffer under tombstone deletes: the record, and whether it is an erase. -/
def Index.Op.asEntry : Index.Op R → R × Bool
  | .ins r => (r, false)
  | .del r => (r, true)

omit [LinearOrder K] [HasKey R K] [Inhabited R] in
theorem bufExact_run : ∀ (ops : List (Index.Op R)) {pre : List (Index.Op R)} {d d' : Index R} {bs : List Bool},
    BufInv d.buf → d.tagging = false → BufExact d pre → d.run ops = .ok (d', bs) → BufExact d' (pre ++ ops)
  | [], _, _, _, _, _, _, h, hr => by cases hr; simpa using h
  | o :: os, pre, _, _, _, hb, ht, h, hr => by
    obtain ⟨d1, b, bs1, e1, e2, rfl⟩ := run_cons.mp hr
    obtain ⟨g1, -, g3, -⟩ := step_buf hb e1
    have := bufExact_run os g1 (g3.trans ht) (bufExact_step hb ht e1 h) e2
    simpa using this

/-- C83: after any history with tombstone deletes (on BSM: without a void block) the history splits into consecutive
intervals followed by the operations still buffered. Listing the shards from the deepest level up, and each level in index
order, the i-th shard holds exactly the net effect of the i-th interval, whose length is a positive multiple of the low
watermark. The buffer holds the remaining operations, at most `lwm`, in order. -/
theorem C83_recency {L : Layout} {pq : PQ R} {lb : LB R K} {lwm hwm sf : Nat} {d0 d : Index R} {ops : List (Index.Op R)}
    {bs : List Bool} (hnew : Index.new L false (sortedImpl pq lb) lwm hwm sf = .ok d0) (hlwm : 1 ≤ lwm) (hsf : 1 ≤ sf)
    (hblk : L = .bsm → NoVoidBlock lwm ops) (hrun : d0.run ops = .ok (d, bs)) :
    ∃ (blks : List (List (Index.Op R))) (rest : List (Index.Op R)) (l : List (Wrapped R)),
      ops = blks.flatten ++ rest ∧
      List.Forall₂ (Holds lwm) (d.str.levels.reverse.flatMap Level.visible) blks ∧
      d.buf.view.copyOut = .ok l ∧ l.map (fun w => (w.record, w.isTombstone)) = rest.map Index.Op.asEntry ∧
      rest.length ≤ lwm := by
  obtain ⟨h1, h2, h3, h4, h5, h6⟩ := new_ginv hnew hlwm hsf
  obtain ⟨hd, -⟩ := new_ok hnew
  have hI : d0.impl.Conserving := h4 ▸ sortedImpl_conserving pq lb
  have hlk : d0.impl.LookupSound := h4 ▸ sortedImpl_lookupSound pq lb
  have hb0 : d0.buf.tail - d0.buf.head = 0 := by rw [hd]; rfl
  have hl0 : d0.buf.lwm = lwm := by rw [hd]
  have hc0 : chron d0.str.abs = [] := by rw [hd]; rfl
  have hn : d0.L = .bsm → NoVoidBlock d0.buf.lwm ops := fun h => by rw [hl0]; exact hblk (h2 ▸ h)
  have n := grun_net h1 hI hlk h3 h5 hb0 hn hrun
  obtain ⟨blks, e1, e2⟩ := segs_run h1 hI hlk h3 h5 hb0 hc0 hn hrun
  have hx0 : BufExact d0 [] := by
    refine ⟨0, by simp [hb0], by rw [hd]; rfl, ?_⟩
    rw [List.drop_nil, List.mapIdx_nil]
    exact List.eq_nil_of_length_eq_zero (by rw [Buffer.contents_length]; exact hb0)
  have hx := bufExact_run ops (new_buf hnew hlwm) h3 hx0 hrun
  rw [List.nil_append] at hx
  obtain ⟨q, x1, -, x3⟩ := hx
  have hq : ops.length - (d.buf.tail - d.buf.head) = d.buf.lwm * q := by omega
  have hlwm' : d.buf.lwm = lwm := n.2.2.2.2.trans hl0
  refine ⟨blks, ops.drop (ops.length - (d.buf.tail - d.buf.head)), d.buf.contents, ?_, ?_, ?_, ?_, ?_⟩
  · rw [e1, List.take_append_drop]
  · rw [← chron_abs, ← hlwm']; exact e2
  · exact Buffer.view_copyOut n.2.2.2.1.wf
  · rw [x3, hq]
    apply List.ext_getElem
    · simp
    · intro i _ _
      simp only [List.getElem_mapIdx, List.getElem_map]
      generalize (ops.drop (d.buf.lwm * q))[i]'_ = o
      have := entryAt_entry (opEntry o).record (opEntry o).tomb ((d.buf.lwm * q + i) % d.buf.cap)
      have a := congrArg Entry.record this
      have b := congrArg Entry.tomb this
      simp only [Wrapped.entry] at a b
      rw [a, b]
      cases o <;> rfl
  · have := n.2.2.2.1.cnt
    rw [List.length_drop]; omega

/-- Non-vacuous: on tiering with watermark 2, after 13 operations the shards listed oldest first are those of the
operations 0-3, 4-7, 8-9 and 10-11. -/
example : probe .tiering false 2 2 2 (insSeq 0 4 ++ [.del ⟨2, 2⟩] ++ insSeq 4 8)
    (fun p => .ok ((p.1.str.levels.reverse.flatMap Level.visible).map (fun s => s.data.map (fun w => (w.record.key, w.isTombstone))))) =
    .ok [[(0, false), (1, false), (2, false), (3, false)], [(2, true), (4, false), (5, false), (6, false)],
      [(7, false), (8, false)], [(9, false), (10, false)]] := by decide

/-! ### C22 -/

/-- C22 for histories in which no run of whole buffer blocks nets out to nothing: every insert, erase and range query is
defined and succeeds, on any layout. Missing: histories with such a run (`C22_false`). -/
theorem C22_blocks_partial {L : Layout} {pq pq' : PQ R} (hpq : pq.ByRec) {lb : LB R K} (hlb : lb.Sound) {lwm hwm sf : Nat}
    {d0 : Index R} (hnew : Index.new L false (sortedImpl pq lb) lwm hwm sf = .ok d0) (hlwm : 1 ≤ lwm) (hsf : 1 ≤ sf)
    {ops : List (Index.Op R)} (hv : NoVoidRange lwm ops) (lo hi : K) :
    ∃ d res, d0.run ops = .ok (d, List.replicate ops.length true) ∧ d.rangeQuery pq' lb lo hi = .ok res := by
  obtain ⟨d, h1, h2, h3, h4, h5⟩ := segs_total hnew hlwm hsf hv
  obtain ⟨-, -, -, hi0, -⟩ := new_ginv hnew hlwm hsf
  obtain ⟨hd, -⟩ := new_ok hnew
  have hs := (run_sorted hpq (new_buf hnew hlwm) hi0 (by rw [hd]) h1).visible
  obtain ⟨bs, e1, e2⟩ := h4
  rw [h5] at e2
  obtain ⟨res, hres⟩ := rangeQuery_total (pq := pq') hlb h2.wf (lo := lo) (hi := hi) (fun s hsm => ⟨hs s hsm, by
    refine segs_ne hv e2 (by rw [e1]; exact List.take_prefix _ _) s (mem_chron.mpr ?_)
    rw [visible_abs] at hsm
    exact List.mem_flatten.mp hsm⟩)
  exact ⟨d, res, h1, hres⟩

/-- Number of inserts in a history. -/
def nInserts (ops : List (Index.Op R)) : Nat := ops.countP (fun o => match o with | .ins _ => true | .del _ => false)
/-- Number of erases in a history. -/
def nErases (ops : List (Index.Op R)) : Nat := ops.countP (fun o => match o with | .ins _ => false | .del _ => true)

omit [LinearOrder K] [HasKey R K] [Inhabited R] in
theorem balanced_length {l : List (Index.Op R)} (h : ∀ r, insCount r l = delCount r l) : nInserts l = nErases l := by
  have key : ∀ l : List (Index.Op R), ∃ a b : List R, a.length = nInserts l ∧ b.length = nErases l ∧
      ∀ r, a.count r = insCount r l ∧ b.count r = delCount r l := by
    intro l
    induction l with
    | nil => exact ⟨[], [], rfl, rfl, fun r => ⟨rfl, rfl⟩⟩
    | cons o l ih =>
      obtain ⟨a, b, h1, h2, h3⟩ := ih
      cases o with
      | ins x =>
        refine ⟨x :: a, b, by simp [nInserts] at h1 ⊢; exact h1, by simp [nErases] at h2 ⊢; exact h2, fun r => ?_⟩
        have := h3 r
        simp only [insCount, delCount, List.count_cons] at this ⊢
        simp [this.1, this.2]
      | del x =>
        refine ⟨a, x :: b, by simp [nInserts] at h1 ⊢; exact h1, by simp [nErases] at h2 ⊢; exact h2, fun r => ?_⟩
        have := h3 r
        simp only [insCount, delCount, List.count_cons] at this ⊢
        simp [this.1, this.2]
  obtain ⟨a, b, h1, h2, h3⟩ := key l
  have : a.Perm b := List.perm_iff_count.mpr (fun r => by rw [(h3 r).1, (h3 r).2, h r])
  rw [← h1, ← h2, this.length_eq]

omit [LinearOrder K] [HasKey R K] [Inhabited R] in
theorem noVoid_more {lwm : Nat} {ops : List (Index.Op R)}
    (h : ∀ j, lwm * (j + 1) ≤ ops.length → nErases ((ops.drop (lwm * j)).take lwm) < nInserts ((ops.drop (lwm * j)).take lwm)) :
    NoVoidRange lwm ops := by
  intro i n hn hl
  by_contra hc
  have hc : ∀ r, insCount r ((ops.drop (lwm * i)).take (lwm * n)) = delCount r ((ops.drop (lwm * i)).take (lwm * n)) := by
    intro r; by_contra h; exact hc ⟨r, h⟩
  have hb := balanced_length hc
  have : ∀ n, 0 < n → lwm * (i + n) ≤ ops.length →
      nErases ((ops.drop (lwm * i)).take (lwm * n)) < nInserts ((ops.drop (lwm * i)).take (lwm * n)) := by
    intro n
    induction n with
    | zero => intro h; omega
    | succ n ih =>
      intro _ hl
      have h1 := h (i + n) hl
      rw [Nat.mul_succ, List.take_add]
      simp only [nInserts, nErases, List.countP_append] at h1 ih ⊢
      rw [List.drop_drop, ← Nat.mul_add]
      rcases Nat.eq_zero_or_pos n with rfl | hpos
      · simpa using h1
      · have := ih hpos (le_trans (Nat.mul_le_mul_left _ (by omega)) hl)
        omega
  have := this n hn hl
  omega

/-- C22 for histories whose every buffer block holds more inserts than erases. -/
theorem C22_more_inserts_partial {L : Layout} {pq pq' : PQ R} (hpq : pq.ByRec) {lb : LB R K} (hlb : lb.Sound)
    {lwm hwm sf : Nat} {d0 : Index R} (hnew : Index.new L false (sortedImpl pq lb) lwm hwm sf = .ok d0) (hlwm : 1 ≤ lwm)
    (hsf : 1 ≤ sf) {ops : List (Index.Op R)}
    (hmore : ∀ j, lwm * (j + 1) ≤ ops.length →
      nErases ((ops.drop (lwm * j)).take lwm) < nInserts ((ops.drop (lwm * j)).take lwm)) (lo hi : K) :
    ∃ d res, d0.run ops = .ok (d, List.replicate ops.length true) ∧ d.rangeQuery pq' lb lo hi = .ok res :=
  C22_blocks_partial hpq hlb hnew hlwm hsf (noVoid_more hmore) lo hi

/-- A history that inserts and erases the same records and meets the hypothesis with watermark 3. -/
example : let ops : List (Index.Op Rec) := insSeq 0 2 ++ [.del ⟨0, 0⟩] ++ insSeq 5 2 ++ [.del ⟨5, 5⟩] ++ insSeq 8 4
    ∀ j, 3 * (j + 1) ≤ ops.length → nErases ((ops.drop (3 * j)).take 3) < nInserts ((ops.drop (3 * j)).take 3) := by
  intro ops j hj
  have : j < 4 := by
    have : ops.length = 10 := rfl
    omega
  match j, this with
  | 0, _ => decide
  | 1, _ => decide
  | 2, _ => decide
  | 3, _ => exact absurd hj (by decide)

end DE
