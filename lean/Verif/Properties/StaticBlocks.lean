import Verif.Properties.Cycle
import Verif.Properties.Segments

/-!
C21 extended: `create_static_structure` is defined whenever no run of whole buffer blocks, and not the operations still
buffered, net out to nothing.
-/

namespace DE
variable {R K : Type} [LinearOrder R] [LinearOrder K] [HasKey R K]

/-- Combining each non-empty level merges neighbours of the oldest-first list of shards. -/
theorem combined_coarse {I : ShardImpl R} (hm : MergeOk I (fun s => s.data ≠ [])) :
    ∀ {ls : List (Level R)}, (∀ l ∈ ls, l.present = l.visible ∧ l.visible.length = l.cnt) →
    (∀ l ∈ ls, ∀ s ∈ l.visible, s.data ≠ []) →
    ∃ ss : List (Shard R), (ls.filter (fun l => decide (l.recordCount > 0))).mapM (fun l => l.combined I) = .ok (ss.map some) ∧
      Coarse I (ls.flatMap Level.visible) ss
  | [], _, _ => ⟨[], rfl, .nil⟩
  | l :: ls, hp, hv => by
    obtain ⟨ss, h1, h2⟩ := combined_coarse hm (ls := ls) (fun x hx => hp x (by simp [hx])) (fun x hx => hv x (by simp [hx]))
    obtain ⟨p1, p2⟩ := hp l (by simp)
    by_cases hne : l.visible = []
    · refine ⟨ss, ?_, ?_⟩
      · rw [List.filter_cons_of_neg (by simp [Level.recordCount, hne])]; exact h1
      · rw [List.flatMap_cons, hne]; exact h2
    · have hcnt : ¬ l.cnt = 0 := by
        intro h0
        exact hne (List.eq_nil_of_length_eq_zero (by rw [p2, h0]))
      have hpos : 0 < l.recordCount := by
        obtain ⟨s, t, e⟩ := List.exists_cons_of_ne_nil hne
        have := List.length_pos_iff.mpr (hv l (by simp) s (by simp [e]))
        simp [Level.recordCount, e]; omega
      obtain ⟨m, e⟩ := hm l.visible hne (hv l (by simp))
      refine ⟨m :: ss, ?_, ?_⟩
      · have e1 : l.combined I = .ok (some m) := by
          unfold Level.combined
          rw [if_neg hcnt, p1, e]; rfl
        rw [List.filter_cons_of_pos (by simpa using hpos), List.mapM_cons, e1, h1]; rfl
      · rw [List.flatMap_cons]
        exact (Coarse.one hne e).append h2

/-- The operations still buffered do not net out to nothing. -/
def NoVoidRest [DecidableEq R] (lwm : Nat) (ops : List (Index.Op R)) : Prop :=
  ∀ q, lwm * q < ops.length → ops.length ≤ lwm * (q + 1) → ∃ r, insCount r (ops.drop (lwm * q)) ≠ delCount r (ops.drop (lwm * q))

/-- C21, definedness with tombstone deletes, any layout: if no run of whole buffer blocks nets out to nothing and
neither do the operations still buffered, every operation succeeds and `create_static_structure` is defined.
Missing: histories with such a run (`C21_false`). -/
theorem C21_blocks_partial [Inhabited R] {L : Layout} {pq : PQ R} {lb : LB R K} {lwm hwm sf : Nat} {d0 : Index R}
    (hnew : Index.new L false (sortedImpl pq lb) lwm hwm sf = .ok d0) (hlwm : 1 ≤ lwm) (hsf : 1 ≤ sf)
    {ops : List (Index.Op R)} (hv : NoVoidRange lwm ops) (hr : NoVoidRest lwm ops) :
    ∃ d m, d0.run ops = .ok (d, List.replicate ops.length true) ∧ d.staticStructure = .ok m := by
  obtain ⟨d, h1, h2, h3, h4, h5⟩ := segs_total hnew hlwm hsf hv
  obtain ⟨-, -, -, hi0, -⟩ := new_ginv hnew hlwm hsf
  have hi : d.impl = sortedImpl pq lb := (run_buf ops (new_buf hnew hlwm) h1).2.2.2.1.trans hi0
  have hI : d.impl.Conserving := hi ▸ sortedImpl_conserving pq lb
  have hm : MergeOk d.impl (fun s => s.data ≠ []) := by
    rw [hi]; intro ss _ h
    exact sortedMerge_total h
  obtain ⟨bs, e1, e2⟩ := h4
  rw [h5] at e2
  have hpre : bs.flatten <+: ops := by rw [e1]; exact List.take_prefix _ _
  have hall := segs_ne hv e2 hpre
  rw [chron_abs] at hall e2
  obtain ⟨ss, f1, f2⟩ := combined_coarse hm (ls := d.str.levels.reverse) (fun l hl => h2.present l (by simpa using hl))
    (fun l hl s hs => hall s (List.mem_flatMap.mpr ⟨l, hl, hs⟩))
  obtain ⟨cs, g1, g2⟩ := coarse_holds hI f2 e2
  have hss := segs_ne hv g2 (by rw [g1]; exact hpre)
  refine ⟨d, ?_⟩
  unfold Index.staticStructure
  rw [f1]
  by_cases hc : d.buf.view.count > 0
  · obtain ⟨s, hs⟩ : ∃ s, d.impl.build d.buf.view = .ok s := by
      rw [hi]
      exact ⟨_, by simp only [sortedImpl, sortedFromView, Buffer.view_copyOut h2.wf]; rfl⟩
    have hcnt : 0 < d.buf.tail - d.buf.head := by simpa [Buffer.view, View.count] using hc
    have hsn : s.data ≠ [] := by
      obtain ⟨q, x1, x2⟩ := h3
      rw [h5] at x1 x2
      have hle := h2.cnt
      rw [h5] at hle
      obtain ⟨r, hr⟩ := hr q (by omega) (by rw [Nat.mul_add, Nat.mul_one]; omega)
      have hred := hI.build _ _ _ (Buffer.view_reads h2.wf) hs
      rw [x2] at hred
      have hnd : ∀ e ∈ opEnts (ops.drop (lwm * q)), e.del = false := by
        intro e he
        simp only [opEnts, Multiset.mem_coe, List.mem_map] at he
        obtain ⟨o, -, rfl⟩ := he
        cases o <;> rfl
      have := hred.net r (fun x hx => by simp [hnd x hx])
      rw [opEnts_live, opEnts_tomb] at this
      intro h0
      rw [h0] at this
      simp [ents, liveCount, tombCount] at this
      omega
    obtain ⟨m, hm⟩ := sortedMerge_total (pq := pq) (ss := ss ++ [s]) (by
      intro x hx
      rcases List.mem_append.mp hx with hx | hx
      · exact hss x hx
      · simp at hx; subst hx; exact hsn)
    refine ⟨m, h1, ?_⟩
    simp only [if_pos hc, hs, bind, Except.bind]
    rw [List.map_append] at hm
    rw [hi]
    exact hm
  · obtain ⟨m, hm⟩ := sortedMerge_total (pq := pq) (ss := ss) hss
    refine ⟨m, h1, ?_⟩
    simp only [if_neg hc, bind, Except.bind, List.append_nil]
    rw [hi]
    exact hm

end DE
