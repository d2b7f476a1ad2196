import Verif.Proofs.Closure

/-!
Facts about every stored entry, for every layout and history; sortedness of every shard.
-/

namespace DE
variable {R : Type}

theorem internalAppend_contents {d d' : Index R} (h : BufInv d.buf) {r : R} {ts b : Bool}
    (hs : d.internalAppend r ts = .ok (d', b)) :
    d'.buf.contents = (if d.buf.atLwm then [] else d.buf.contents) ++ [Buffer.entryAt r ts (d.buf.tail % d.buf.cap)] := by
  unfold Index.internalAppend at hs
  by_cases hat : d.buf.atLwm = true
  · rw [if_pos hat, bind_ok] at hs
    obtain ⟨d1, f1, f2⟩ := hs
    obtain ⟨g1, -⟩ := flush_buf h hat f1
    have hd : d' = { d1 with buf := (d1.buf.append r ts).1 } := (congrArg Prod.fst (Except.ok.inj f2)).symm
    have hlt : d1.buf.tail - d1.buf.head < d1.buf.hwm := by
      rw [g1]; have := h.wf.hwm; simpa [Buffer.emptied] using this
    have hwf : d1.buf.WF := by rw [g1]; exact Buffer.emptied_wf h.wf
    obtain ⟨-, -, a3⟩ := Buffer.append_ok hwf (r := r) (ts := ts) hlt
    rw [hd, if_pos hat]
    simp only
    rw [a3, g1, Buffer.emptied_contents]; rfl
  · rw [if_neg hat] at hs
    have hlt : d.buf.tail - d.buf.head < d.buf.lwm := by
      simpa [Buffer.atLwm, Buffer.count] using hat
    obtain ⟨-, -, a3⟩ := Buffer.append_ok h.wf (r := r) (ts := ts) (lt_of_lt_of_le hlt h.wf.lwm)
    have hd : d' = { d with buf := (d.buf.append r ts).1 } := (congrArg Prod.fst (Except.ok.inj hs)).symm
    rw [hd, if_neg hat]
    exact a3

theorem bufDelete_contents [DecidableEq R] {b : Buffer R} (h : b.WF) (r : R) :
    ents (b.deleteRecord r).1.contents = ents b.contents ∨ Tags r (ents b.contents) (ents (b.deleteRecord r).1.contents) := by
  unfold Buffer.deleteRecord
  split
  · next i hi =>
    have hr : (b.data i).record = r := by
      unfold View.deleteSlot at hi
      split at hi
      · exact (findSlot_some hi).2.2.1
      · split at hi
        · next h1 => cases hi; exact (findSlot_some h1).2.2.1
        · exact (findSlot_some hi).2.2.1
    rcases write_contents h hr with hc | hc
    · left; simp only; rw [hc]
    · exact Or.inr hc
  · exact Or.inl rfl

/-- Every stored entry (buffer, every referenced shard) satisfies `E`. -/
structure EAll (E : Entry R → Prop) (d : Index R) : Prop where
  buf : ∀ e ∈ ents d.buf.contents, E e
  str : SAll (fun s => ∀ e ∈ ents s.data, E e) d.str

theorem EAll.entries {E : Entry R → Prop} {d : Index R} (h : EAll E d) : ∀ e ∈ d.entries, E e := by
  intro e he
  unfold Index.entries at he
  rw [Multiset.mem_add] at he
  rcases he with he | he
  · exact h.buf e he
  · have : ∀ ss : List (Shard R), (∀ s ∈ ss, ∀ e ∈ ents s.data, E e) → e ∈ (ss.map (fun s => ents s.data)).sum → E e := by
      intro ss
      induction ss with
      | nil => intro _ h; simp at h
      | cons s ss ih =>
        intro h1 h2
        simp only [List.map_cons, List.sum_cons, Multiset.mem_add] at h2
        rcases h2 with h2 | h2
        · exact h1 s (by simp) e h2
        · exact ih (fun x hx => h1 x (by simp [hx])) h2
    exact this _ h.str.visible he

theorem Tags.mem {r : R} {a b : Multiset (Entry R)} (h : Tags r a b) {e : Entry R} (he : e ∈ b) :
    e ∈ a ∨ ∃ t dl, ⟨r, t, dl⟩ ∈ a ∧ e = ⟨r, t, true⟩ := by
  obtain ⟨rest, t, dl, h1, h2⟩ := h
  rw [h2, Multiset.mem_add] at he
  rcases he with he | he
  · left; rw [h1, Multiset.mem_add]; exact Or.inl he
  · right
    refine ⟨t, dl, ?_, by simpa using he⟩
    rw [h1, Multiset.mem_add]; right; simp

variable {K : Type} [LinearOrder R] [LinearOrder K] [HasKey R K]

theorem sortedMerge_ok' {pq : PQ R} {os : List (Option (Shard R))} {s : Shard R} (h : sortedMerge pq os = .ok s) :
    ∃ ss : List (Shard R), os = ss.map some ∧ s.data = mergeAll pq (fun w => !w.isDeleted) (ss.map Shard.data) ∧
      s.tscnt = tsCount s.data ∧ ∀ x ∈ ss, x.data ≠ [] := by
  have hall : ∃ ss : List (Shard R), os = ss.map some := by
    unfold sortedMerge at h
    split at h
    · next ha =>
      clear h
      induction os with
      | nil => exact ⟨[], rfl⟩
      | cons o os ih =>
        rw [List.all_cons, Bool.and_eq_true] at ha
        obtain ⟨ss, rfl⟩ := ih ha.2
        cases o with
        | none => simp at ha
        | some s => exact ⟨s :: ss, rfl⟩
    · cases h
  obtain ⟨ss, rfl⟩ := hall
  exact ⟨ss, rfl, sortedMerge_ok h⟩

theorem sortedFromView_ok {v : View R} {s : Shard R} (h : sortedFromView v = .ok s) :
    ∃ l, v.copyOut = .ok l ∧ s.data = scanSorted (sortW l) ∧ s.tscnt = tsCount s.data := by
  unfold sortedFromView at h
  rw [bind_ok] at h
  obtain ⟨l, h1, h2⟩ := h
  cases h2
  exact ⟨l, h1, rfl, rfl⟩

/-- Merging and building sorted shards create no new entries. -/
theorem sortedImpl_closed_ents (pq : PQ R) (lb : LB R K) {b : Buffer R} (hb : b.WF) {E : Entry R → Prop}
    (hE : ∀ e ∈ ents b.contents, E e) :
    Closed (sortedImpl pq lb) b.view (fun s => ∀ e ∈ ents s.data, E e) where
  merge := by
    intro os s hos hs
    obtain ⟨ss, rfl, h1, -, -⟩ := sortedMerge_ok' (show sortedMerge pq os = .ok s from hs)
    intro e he
    rw [h1] at he
    obtain ⟨w, hw, rfl⟩ := mem_ents.mp he
    have := mergeLoop_mem pq _ _ _ w hw
    obtain ⟨c, hc, hwc⟩ := List.mem_flatten.mp this
    simp only [List.mem_map] at hc
    obtain ⟨x, hx, rfl⟩ := hc
    exact hos x (by simp [hx]) _ (mem_ents.mpr ⟨w, hwc, rfl⟩)
  build := by
    intro s hs
    obtain ⟨l, h1, h2, -⟩ := sortedFromView_ok (show sortedFromView b.view = .ok s from hs)
    rw [Buffer.view_copyOut hb] at h1
    cases h1
    intro e he
    rw [h2] at he
    obtain ⟨w, hw, rfl⟩ := mem_ents.mp he
    obtain ⟨x, hx, rfl, -⟩ := scanSorted_mem _ _ hw
    rw [mask_entry]
    exact hE _ (mem_ents.mpr ⟨x, (sortW_perm _).mem_iff.mp hx, rfl⟩)

theorem sortW_recSorted (l : List (Wrapped R)) : RecSorted (sortW l) :=
  (sortW_sorted l).imp leW_rec

theorem sortedImpl_closed_sorted {pq : PQ R} (hpq : pq.ByRec) (lb : LB R K) {v : View R} :
    Closed (sortedImpl pq lb) v (fun s => RecSorted s.data) where
  merge := by
    intro os s hos hs
    obtain ⟨ss, rfl, h1, -, -⟩ := sortedMerge_ok' (show sortedMerge pq os = .ok s from hs)
    rw [h1]
    refine mergeLoop_sorted pq hpq _ _ _ ?_
    intro c hc
    simp only [List.mem_map] at hc
    obtain ⟨x, hx, rfl⟩ := hc
    exact hos x (by simp [hx])
  build := by
    intro s hs
    obtain ⟨l, h1, h2, -⟩ := sortedFromView_ok (show sortedFromView v = .ok s from hs)
    rw [h2]
    exact scanSorted_sorted _ (sortW_recSorted l)

theorem tag_recSorted {s : Shard R} {j : Nat} (h : RecSorted s.data) : RecSorted (s.tag j).data := by
  have hrec : (s.tag j).data.map Wrapped.record = s.data.map Wrapped.record := by
    unfold Shard.tag
    simp only
    apply List.ext_getElem?
    intro n
    simp only [List.getElem?_map, List.getElem?_modify]
    cases s.data[n]? with
    | none => rfl
    | some w => by_cases hjn : j = n <;> simp [hjn, Wrapped.setDelete]
  unfold RecSorted at *
  have h1 : (s.data.map Wrapped.record).Pairwise (· ≤ ·) := List.pairwise_map.mpr h
  rw [← hrec] at h1
  exact List.pairwise_map.mp h1

/-- Facts about every entry ever stored. -/
theorem run_entries {pq : PQ R} {lb : LB R K} (E : List (Index.Op R) → Entry R → Prop) {d0 : Index R}
    (h0 : BufInv d0.buf) (hI : d0.impl = sortedImpl pq lb) (he : d0.buf.contents = []) (hl : d0.str.levels = [])
    (hmono : ∀ ops o e, E ops e → E (ops ++ [o]) e) (hins : ∀ ops r, E (ops ++ [.ins r]) ⟨r, false, false⟩)
    (hdel : ∀ ops r, d0.tagging = false → E (ops ++ [.del r]) ⟨r, true, false⟩)
    (htag : ∀ ops r t dl, d0.tagging = true → E ops ⟨r, t, dl⟩ → E (ops ++ [.del r]) ⟨r, t, true⟩)
    {ops : List (Index.Op R)} {d : Index R} {bs : List Bool} (hr : d0.run ops = .ok (d, bs)) :
    EAll (E ops) d := by
  refine (run_prefix_ind ops (fun ops d _ => EAll (E ops) d) h0 ⟨by rw [he]; simp [ents], ?_⟩ ?_ hr).1
  · intro l hl'; rw [hl] at hl'; simp at hl'
  · intro ops o d d' bs b _ _ hP hb hL ht hi hs
    rw [hI] at hi
    constructor
    · cases o with
      | ins r =>
        intro e hmem
        rw [internalAppend_contents hb (show d.internalAppend r false = .ok (d', b) from hs), ents_append, Multiset.mem_add] at hmem
        rcases hmem with hmem | hmem
        · split at hmem
          · simp [ents] at hmem
          · exact hmono _ _ _ (hP.buf e hmem)
        · simp [ents, entryAt_entry] at hmem
          rw [hmem]; exact hins _ _
      | del r =>
        simp only [Index.step, Index.erase] at hs
        split at hs
        · next htg =>
          rw [bind_ok] at hs
          obtain ⟨o, h1, h2⟩ := hs
          cases o with
          | some ls => cases h2; exact fun e he => hmono _ _ _ (hP.buf e he)
          | none =>
            cases h2
            intro e he
            rcases bufDelete_contents hb.wf r with hc | hc
            · rw [hc] at he; exact hmono _ _ _ (hP.buf e he)
            · rcases hc.mem he with he | ⟨t, dl, h3, rfl⟩
              · exact hmono _ _ _ (hP.buf e he)
              · exact htag _ _ _ _ (ht ▸ htg) (hP.buf _ h3)
        · next htg =>
          intro e hmem
          rw [internalAppend_contents hb hs, ents_append, Multiset.mem_add] at hmem
          rcases hmem with hmem | hmem
          · split at hmem
            · simp [ents] at hmem
            · exact hmono _ _ _ (hP.buf e hmem)
          · simp [ents, entryAt_entry] at hmem
            rw [hmem]; exact hdel _ _ (by rw [← ht]; simpa using htg)
    · have hcl : Closed d.impl d.buf.view (fun s => ∀ e ∈ ents s.data, E (ops ++ [o]) e) := by
        rw [hi]
        exact sortedImpl_closed_ents pq lb hb.wf (fun e he => hmono _ _ _ (hP.buf e he))
      -- tagging needs the old fact about the record, so carry both
      have hcl2 : Closed d.impl d.buf.view (fun s => ∀ e ∈ ents s.data, E ops e) := by
        rw [hi]
        exact sortedImpl_closed_ents pq lb hb.wf hP.buf
      by_cases htg : d.tagging = true ∧ ∃ r, o = .del r
      · obtain ⟨htg, r, rfl⟩ := htg
        simp only [Index.step, Index.erase, htg, if_true] at hs
        rw [bind_ok] at hs
        obtain ⟨o, h1, h2⟩ := hs
        cases o with
        | none => cases h2; exact hP.str.mono (fun s h e he => hmono _ _ _ (h e he))
        | some ls =>
          cases h2
          obtain ⟨i, l, l', e1, e2, e3, -⟩ := taggedDelete_some h1
          intro x hx
          simp only [e3] at hx
          rcases List.mem_or_eq_of_mem_set hx with hx | rfl
          · exact ⟨fun s hs e he => hmono _ _ _ ((hP.str x hx).1 s hs e he),
              fun s hs e he => hmono _ _ _ ((hP.str x hx).2 s hs e he)⟩
          · have hl := hP.str l (mem_of_getElem? e1)
            unfold Level.deleteRecord at e2
            split at e2
            · cases e2
            · rw [bind_ok] at e2
              obtain ⟨o, g1, g2⟩ := e2
              cases o with
              | none => cases g2
              | some ss' =>
                cases g2
                obtain ⟨pre, s, post, j, f1, f2, f3, f4⟩ := deleteIn_some g1
                refine ⟨?_, fun s hs e he => hmono _ _ _ (hl.2 s hs e he)⟩
                intro y hy
                simp only [f3] at hy
                have hold : ∀ z, some z ∈ l.shards → ∀ e ∈ ents z.data, E (ops ++ [.del r]) e :=
                  fun z hz e he => hmono _ _ _ (hl.1 z hz e he)
                rcases List.mem_append.mp hy with hy | hy
                · exact hold y (by rw [f1]; simp [hy])
                · rcases List.mem_cons.mp hy with hy | hy
                  · cases hy
                    have hls := sortedImpl_lookupSound pq lb
                    rw [← hi] at hls
                    obtain ⟨w, hw, hwr⟩ := hls _ _ _ f2
                    intro e he
                    rcases (tag_tags hw hwr).mem he with he | ⟨t, dl, h3, rfl⟩
                    · exact hold s (by rw [f1]; simp) e he
                    · exact htag _ _ _ _ (ht ▸ htg) (hl.1 s (by rw [f1]; simp) _ h3)
                  · exact hold y (by rw [f1]; simp [hy])
      · refine step_all hcl ?_ (hP.str.mono (fun s h e he => hmono _ _ _ (h e he))) hs
        intro r ho htg' s j
        exact absurd ⟨htg', r, ho⟩ htg

/-- Every shard is sorted by record, always. -/
theorem run_sorted {pq : PQ R} (hpq : pq.ByRec) {lb : LB R K} {d0 : Index R}
    (h0 : BufInv d0.buf) (hI : d0.impl = sortedImpl pq lb) (hl : d0.str.levels = [])
    {ops : List (Index.Op R)} {d : Index R} {bs : List Bool} (hr : d0.run ops = .ok (d, bs)) :
    SAll (fun s => RecSorted s.data) d.str := by
  refine (run_prefix_ind ops (fun _ d _ => SAll (fun s => RecSorted s.data) d.str) h0 ?_ ?_ hr).1
  · intro l hl'; rw [hl] at hl'; simp at hl'
  · intro ops o d d' bs b _ _ hP hb hL ht hi hs
    rw [hI] at hi
    refine step_all (hi ▸ sortedImpl_closed_sorted hpq lb) ?_ hP hs
    intro r _ _ s j h _
    exact tag_recSorted h

end DE
