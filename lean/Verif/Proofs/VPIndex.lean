import Verif.Proofs.Knn
import Verif.Proofs.PointLookup

/-!
The VPTree shard type inside an index.
-/

namespace DE
variable {R 𝔽 : Type} [DecidableEq R] [LinearOrder 𝔽] [Zero 𝔽]

omit [DecidableEq R] in
theorem dropDel_reduces (l : List (Wrapped R)) : Reduces (fun e => e.del = true) (ents l) (ents (l.filter (fun w => !w.isDeleted))) := by
  induction l with
  | nil => exact Reduces.refl _
  | cons x xs ih =>
    rw [ents_cons, List.filter_cons]
    cases hx : x.isDeleted with
    | true =>
      simp only [Bool.not_true, Bool.false_eq_true, if_false]
      exact (Reduces.dropOne hx).trans ih
    | false =>
      simp only [Bool.not_false, if_true]
      rw [ents_cons]
      exact (Reduces.refl _).add ih

omit [DecidableEq R] in
theorem ents_mask (l : List (Wrapped R)) : ents (l.map Wrapped.mask) = ents l := by
  induction l with
  | nil => rfl
  | cons x xs ih => rw [List.map_cons, ents_cons, ents_cons, ih, mask_entry]

omit [DecidableEq R] in
theorem vp_any_some (ss : List (Shard R)) : (ss.map some).any Option.isNone = false := by
  simp

omit [DecidableEq R] in
theorem vp_filterMap (ss : List (Shard R)) : (ss.map some).filterMap id = ss := by
  simp

theorem vpImpl_conserving (dist : R → R → 𝔽) (leafSz : Nat) (g : Rng) : (vpImpl dist leafSz g).Conserving where
  build := by
    intro v l s hv hs
    simp only [vpImpl, bind_ok, hv.2] at hs
    obtain ⟨l', e, hs⟩ := hs
    cases e; cases hs
    simp only
    rw [ents_mask]
    exact dropDel_reduces l
  merge := by
    intro ss s hs
    simp only [vpImpl, vp_any_some, Bool.false_eq_true, if_false, vp_filterMap] at hs
    cases hs
    simp only
    clear * -
    induction ss with
    | nil => exact Reduces.refl _
    | cons x xs ih =>
      rw [List.flatMap_cons, ents_append]
      exact (dropDel_reduces x.data).add ih

theorem vpImpl_lookupSound (dist : R → R → 𝔽) (leafSz : Nat) (g : Rng) : (vpImpl dist leafSz g).LookupSound := by
  intro s r i h
  simp only [vpImpl, bind_ok] at h
  obtain ⟨t, h1, h2⟩ := h
  have hb := (VP.tree_built (safe := s.data.length ≤ g.max) s.data (fun h => h)).elim h1
  obtain ⟨p, hp, rfl, rfl⟩ := VP.lookup_sound h2
  exact hb.points hp

theorem vpImpl_cleanOk (dist : R → R → 𝔽) (leafSz : Nat) (g : Rng) : (vpImpl dist leafSz g).CleanOk where
  conserving := vpImpl_conserving dist leafSz g
  merge := fun ss _ _ => ⟨_, by simp only [vpImpl, vp_any_some, Bool.false_eq_true, if_false]; rfl⟩
  build := fun b hb _ => ⟨_, by simp only [vpImpl, Buffer.view_gets hb, bind, Except.bind]; rfl⟩

/-- Closure property for a record that is in no shard: merging and building from a buffer where it is tagged keep it out. -/
theorem vpImpl_closed {dist : R → R → 𝔽} {leafSz : Nat} {g : Rng} {b : Buffer R} (hb : b.WF) {r : R}
    (h : ∀ w ∈ b.contents, w.record = r → w.isDeleted = true) :
    Closed (vpImpl dist leafSz g) b.view (fun s => ∀ w ∈ s.data, w.record ≠ r) where
  merge := by
    intro os s hs hm
    simp only [vpImpl] at hm
    split at hm
    · cases hm
    · cases hm
      intro w hw
      simp only [List.mem_flatMap, List.mem_filterMap, id] at hw
      obtain ⟨x, ⟨o, ho, rfl⟩, hw⟩ := hw
      exact hs x ho w (List.mem_filter.mp hw).1
  build := by
    intro s hs
    simp only [vpImpl, Buffer.view_gets hb, bind, Except.bind] at hs
    cases hs
    intro w hw
    simp only [List.mem_map, List.mem_filter] at hw
    obtain ⟨x, ⟨hx, hd⟩, rfl⟩ := hw
    intro e
    have := h x hx e
    rw [this] at hd
    cases hd

/-- `r` is in no shard, and every copy in the buffer is tagged. -/
structure Gone (r : R) (d : Index R) : Prop where
  buf : ∀ w ∈ d.buf.contents, w.record = r → w.isDeleted = true
  str : SAll (fun s => ∀ w ∈ s.data, w.record ≠ r) d.str

omit [DecidableEq R] [LinearOrder 𝔽] [Zero 𝔽] in
theorem Gone.knnData {r : R} {d : Index R} (h : Gone r d) : r ∉ d.knnData := by
  unfold Index.knnData
  intro hm
  rcases List.mem_append.mp hm with hm | hm
  · simp only [List.mem_map, List.mem_filter] at hm
    obtain ⟨w, ⟨hw, hd⟩, e⟩ := hm
    rw [h.buf w hw e] at hd
    cases hd
  · simp only [List.mem_flatten, List.mem_map] at hm
    obtain ⟨l, ⟨s, hs, rfl⟩, hm⟩ := hm
    simp only [List.mem_map] at hm
    obtain ⟨w, hw, e⟩ := hm
    exact h.str.visible s hs w hw e

theorem Gone.step {dist : R → R → 𝔽} {leafSz : Nat} {g : Rng} {r : R} {d d' : Index R} (h : Gone r d) (hb : BufInv d.buf)
    (hI : d.impl = vpImpl dist leafSz g) (ht : d.tagging = true) {o : Index.Op R} {b : Bool} (ho : o ≠ .ins r) (hs : d.step o = .ok (d', b)) : Gone r d' := by
  have hcl := vpImpl_closed (dist := dist) (leafSz := leafSz) (g := g) hb.wf h.buf
  refine ⟨?_, step_all (by rw [hI]; exact hcl) ?_ h.str hs⟩
  · cases o with
    | ins x =>
      have hc := internalAppend_contents hb (show d.internalAppend x false = .ok (d', b) from hs)
      intro w hw e
      rw [hc] at hw
      rcases List.mem_append.mp hw with hw | hw
      · split at hw
        · simp at hw
        · exact h.buf w hw e
      · simp only [List.mem_singleton] at hw
        subst hw
        have : x = r := e
        subst this
        exact absurd rfl ho
    | del x =>
      simp only [Index.step, Index.erase, ht, if_true] at hs
      rw [bind_ok] at hs
      obtain ⟨o, h1, h2⟩ := hs
      cases o with
      | some ls => cases h2; exact h.buf
      | none =>
        simp only at h2
        have hd : d'.buf = (d.buf.deleteRecord x).1 := by
          have := congrArg (fun p => p.1.buf) (Except.ok.inj h2)
          exact this.symm
        intro w hw e
        rw [hd] at hw
        have hw' : w.entry ∈ ents (d.buf.deleteRecord x).1.contents := mem_ents.mpr ⟨w, hw, rfl⟩
        rcases bufDelete_contents hb.wf x with hc | hc
        · rw [hc] at hw'
          obtain ⟨w', hw1, hw2⟩ := mem_ents.mp hw'
          have e1 : w'.record = w.record := congrArg Entry.record hw2
          have e2 : w'.isDeleted = w.isDeleted := congrArg Entry.del hw2
          rw [← e2]; exact h.buf w' hw1 (e1.trans e)
        · rcases hc.mem hw' with hw' | ⟨t, dl, -, hw2⟩
          · obtain ⟨w', hw1, hw2⟩ := mem_ents.mp hw'
            have e1 : w'.record = w.record := congrArg Entry.record hw2
            have e2 : w'.isDeleted = w.isDeleted := congrArg Entry.del hw2
            rw [← e2]; exact h.buf w' hw1 (e1.trans e)
          · exact congrArg Entry.del hw2
  · intro x hx htag s j hq hl w hw
    unfold Shard.tag at hw
    simp only at hw
    obtain ⟨i, hi⟩ := List.mem_iff_getElem?.mp hw
    rw [List.getElem?_modify, Option.map_eq_map] at hi
    split at hi
    · rw [Option.map_eq_some_iff] at hi
      obtain ⟨y, hy, rfl⟩ := hi
      exact hq y (List.mem_of_getElem? hy)
    · rw [Option.map_eq_some_iff] at hi
      obtain ⟨y, hy, rfl⟩ := hi
      exact hq y (List.mem_of_getElem? hy)

theorem Gone.run {dist : R → R → 𝔽} {leafSz : Nat} {g : Rng} {r : R} : ∀ (ops : List (Index.Op R)) {d d' : Index R} {bs : List Bool}, Gone r d →
    BufInv d.buf → d.impl = vpImpl dist leafSz g → d.tagging = true → .ins r ∉ ops → d.run ops = .ok (d', bs) → Gone r d' ∧ BufInv d'.buf := by
  intro ops d d' bs h hb hI ht hno hr
  have := run_prefix_ind ops (fun _ d _ => Gone r d) hb h (by
    intro pre o d1 d2 bs b hpre _ hg hb1 _ h2 h3 hs
    refine hg.step hb1 (h3.trans hI) (h2.trans ht) ?_ hs
    intro ho
    subst ho
    exact hno (hpre.subset (by simp))) hr
  exact ⟨this.1, this.2.1⟩

end DE
