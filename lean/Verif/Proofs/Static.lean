import Verif.Proofs.CycleRun
import Verif.Proofs.InsertOnly

/-!
`create_static_structure`: what its result looks like and when it is defined.
-/

namespace DE
variable {R : Type}

theorem Lin.closed {I : ShardImpl R} {v : View R} {Q : Shard R → Prop} (hcl : Closed I v Q) {A B : Multiset (Shard R)} (h : Lin I A B)
    (hA : ∀ s ∈ A, Q s) : ∀ s ∈ B, Q s := by
  induction h with
  | refl => exact hA
  | @merge ss rest m _ hm ih =>
    intro s hs
    rw [Multiset.mem_add] at hs
    rcases hs with hs | hs
    · exact ih s (by rw [Multiset.mem_add]; exact Or.inl hs)
    · rw [Multiset.mem_singleton] at hs
      subst hs
      refine hcl.merge _ _ ?_ hm
      intro x hx
      refine ih x ?_
      rw [Multiset.mem_add]; right
      simpa using hx
  | @forget s rest _ _ ih => intro x hx; exact ih x (by rw [Multiset.mem_add]; exact Or.inl hx)

theorem static_closed' {d : Index R} (h : ∀ l ∈ d.str.levels, l.present = l.visible ∧ l.visible.length = l.cnt) {Q : Shard R → Prop} (hcl : Closed d.impl d.buf.view Q) (hQ : ∀ s ∈ d.str.visible, Q s)
    {m : Shard R} (hm : d.staticStructure = .ok m) : Q m := by
  rcases static_lin' h hm with ⟨-, hl⟩ | ⟨s, hs, hl⟩
  · exact hl.closed hcl (fun s hs => hQ s hs) m (by simp)
  · refine hl.closed hcl ?_ m (by simp)
    intro x hx
    rw [Multiset.mem_add] at hx
    rcases hx with hx | hx
    · exact hQ x hx
    · rw [Multiset.mem_singleton] at hx
      subst hx
      exact hcl.build _ hs

theorem static_closed {d : Index R} (h : d.GInv) {Q : Shard R → Prop} (hcl : Closed d.impl d.buf.view Q) (hQ : ∀ s ∈ d.str.visible, Q s)
    {m : Shard R} (hm : d.staticStructure = .ok m) : Q m :=
  static_closed' h.present hcl hQ hm

theorem combined_total {I : ShardImpl R} {Q : Shard R → Prop} (hm : MergeOk I Q)
    (hq : ∀ (ss : List (Shard R)) s, ss ≠ [] → (∀ x ∈ ss, Q x) → I.merge (ss.map some) = .ok s → Q s) :
    ∀ {ls : List (Level R)}, (∀ l ∈ ls, l.present = l.visible ∧ l.visible.length = l.cnt) → (∀ l ∈ ls, 0 < l.recordCount) →
    (∀ l ∈ ls, ∀ s ∈ l.visible, Q s) →
    ∃ ss : List (Shard R), ls.mapM (fun l => l.combined I) = .ok (ss.map some) ∧ ∀ s ∈ ss, Q s
  | [], _, _, _ => ⟨[], rfl, by simp⟩
  | l :: ls, hp, hc, hv => by
    obtain ⟨ss, h1, h2⟩ := combined_total hm hq (ls := ls) (fun x hx => hp x (by simp [hx])) (fun x hx => hc x (by simp [hx]))
      (fun x hx => hv x (by simp [hx]))
    obtain ⟨p1, p2⟩ := hp l (by simp)
    have hne : l.visible ≠ [] := by
      intro hv
      have := hc l (by simp)
      simp [Level.recordCount, hv] at this
    have hcnt : ¬ l.cnt = 0 := by
      intro h0
      exact hne (List.eq_nil_of_length_eq_zero (by rw [p2, h0]))
    obtain ⟨m, e⟩ := hm l.visible hne (hv l (by simp))
    refine ⟨m :: ss, ?_, ?_⟩
    · have e1 : l.combined I = .ok (some m) := by
        unfold Level.combined
        rw [if_neg hcnt, p1, e]; rfl
      rw [List.mapM_cons, e1, h1]; rfl
    · intro s hs
      rcases List.mem_cons.mp hs with rfl | hs
      · exact hq _ _ hne (hv l (by simp)) e
      · exact h2 s hs

variable {K : Type} [LinearOrder R] [LinearOrder K] [HasKey R K]

theorem clean_build_reads {pq : PQ R} {lb : LB R K} {v : View R} {l : List (Wrapped R)} (hr : v.Reads l) (hne : l ≠ [])
    (hc : ∀ e ∈ ents l, e.clean) : ∃ s, (sortedImpl pq lb).build v = .ok s ∧ CleanShard s := by
  obtain ⟨s, hs⟩ : ∃ s, (sortedImpl pq lb).build v = .ok s := ⟨_, by simp only [sortedImpl, sortedFromView, hr.1]; rfl⟩
  have h2 := ((sortedImpl_conserving pq lb).build v _ _ hr hs).clean hc
  refine ⟨s, hs, ?_, ?_⟩
  · intro h0
    rw [h0, show ents ([] : List (Wrapped R)) = 0 from rfl] at h2
    exact hne (ents_eq_zero.mp h2)
  · intro e he; rw [← h2] at he; exact hc e he

/-- If the view can be copied, the call succeeds. -/
theorem static_total {pq : PQ R} {lb : LB R K} {d : Index R} (hp : ∀ l ∈ d.str.levels, l.present = l.visible ∧ l.visible.length = l.cnt)
    (himpl : d.impl = sortedImpl pq lb) (hsh : ∀ s ∈ d.str.visible, CleanShard s) (hr : d.buf.view.Reads d.buf.contents)
    (hbuf : ∀ e ∈ ents d.buf.contents, e.clean) : ∃ m, d.staticStructure = .ok m := by
  obtain ⟨ss, h1, h2⟩ := combined_total (I := d.impl) (Q := CleanShard) (by rw [himpl]; exact clean_mergeOk (sortedImpl_cleanOk pq lb))
    (by rw [himpl]; exact clean_merge (sortedImpl_cleanOk pq lb))
    (ls := d.str.levels.reverse.filter (fun l => decide (l.recordCount > 0)))
    (fun l hl => hp l (by simpa using (List.mem_filter.mp hl).1))
    (fun l hl => by simpa using (List.mem_filter.mp hl).2)
    (fun l hl s hs => hsh s (by
      unfold Struct.visible
      rw [List.mem_flatMap]
      exact ⟨l, by simpa using (List.mem_filter.mp hl).1, hs⟩))
  unfold Index.staticStructure
  rw [h1]
  by_cases hc : d.buf.view.count > 0
  · have hne : d.buf.contents ≠ [] := by
      intro h0
      have := Buffer.contents_length d.buf
      rw [h0] at this
      simp only [Buffer.view, View.count] at hc
      simp at this; omega
    obtain ⟨s, hs, hq⟩ := clean_build_reads (pq := pq) (lb := lb) hr hne hbuf
    obtain ⟨m, hm⟩ := sortedMerge_total (pq := pq) (ss := ss ++ [s]) (by
      intro x hx
      rcases List.mem_append.mp hx with hx | hx
      · exact (h2 x hx).1
      · simp at hx; subst hx; exact hq.1)
    refine ⟨m, ?_⟩
    simp only [if_pos hc, himpl, hs, bind, Except.bind]
    rw [List.map_append] at hm
    exact hm
  · obtain ⟨m, hm⟩ := sortedMerge_total (pq := pq) (ss := ss) (fun x hx => (h2 x hx).1)
    refine ⟨m, ?_⟩
    simp only [if_neg hc, himpl, bind, Except.bind, List.append_nil]
    exact hm

theorem CleanInv.static {pq : PQ R} {lb : LB R K} {d : Index R} (h : CleanInv (sortedImpl pq lb) d) : ∃ m, d.staticStructure = .ok m :=
  static_total h.inv.present h.impl h.shards (Buffer.view_reads h.inv.wf) h.buf

theorem static_kept {pq : PQ R} {lb : LB R K} {d : Index R} (hI : d.impl = sortedImpl pq lb) {m : Shard R}
    (hm : d.staticStructure = .ok m) : ∀ e ∈ ents m.data, e.del = false := by
  have : ∃ os, sortedMerge pq os = .ok m := by
    unfold Index.staticStructure at hm
    rw [bind_ok] at hm
    obtain ⟨os, -, hm⟩ := hm
    rw [hI] at hm
    by_cases hc : d.buf.view.count > 0
    · rw [if_pos hc] at hm
      simp only [bind_ok] at hm
      obtain ⟨s, hs, x, hx, hm⟩ := hm
      exact ⟨_, hm⟩
    · rw [if_neg hc] at hm
      rw [bind_ok] at hm
      obtain ⟨x, hx, hm⟩ := hm
      exact ⟨_, hm⟩
  obtain ⟨os, h⟩ := this
  obtain ⟨ss, -, e, -⟩ := sortedMerge_ok' h
  intro x hx
  obtain ⟨w, hw, rfl⟩ := mem_ents.mp hx
  rw [e] at hw
  have := mergeLoop_keep pq _ _ _ w hw
  simpa [Wrapped.entry] using this

end DE
