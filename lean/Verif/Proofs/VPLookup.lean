import Verif.Proofs.VPIndex

/-!
Which positions `point_lookup` of a VPTree can report, and records erased while they are in the buffer.
-/

namespace DE
namespace VP
variable {R 𝔽 : Type} [DecidableEq R] [LinearOrder 𝔽]

/-- Positions of the vantage points. -/
def Node.inner : Node 𝔽 → List Nat
  | .null => []
  | .leaf _ _ => []
  | .node start _ inside outside => start :: (inside.inner ++ outside.inner)

/-- Positions in leaves. -/
def Node.leaves : Node 𝔽 → List Nat
  | .null => []
  | .leaf start stop => List.range' start (stop + 1 - start)
  | .node _ _ inside outside => inside.leaves ++ outside.leaves

omit [LinearOrder 𝔽] in
theorem Node.indices_split : ∀ t : Node 𝔽, t.indices.Perm (t.inner ++ t.leaves)
  | .null => List.Perm.refl _
  | .leaf _ _ => List.Perm.refl _
  | .node s r i o => by
    simp only [Node.indices, Node.inner, Node.leaves, List.cons_append]
    refine List.Perm.cons _ ?_
    refine ((Node.indices_split i).append (Node.indices_split o)).trans ?_
    rw [List.append_assoc, List.append_assoc]
    refine List.Perm.append_left _ ?_
    rw [← List.append_assoc, ← List.append_assoc]
    exact List.Perm.append_right _ List.perm_append_comm

theorem scanEq_where {r : R} {a : List (Ptr R 𝔽)} : ∀ {c i j : Nat}, scanEq r a c i = .ok (some j) →
    ∃ k, k ∈ List.range' i c ∧ recs a k = some r
  | 0, i, j, h => by unfold scanEq at h; cases h
  | c+1, i, j, h => by
    unfold scanEq at h
    rw [bind_ok] at h
    obtain ⟨p, hp, h⟩ := h
    split at h
    · next e =>
      refine ⟨i, by simp, ?_⟩
      unfold getR at hp
      split at hp
      · next x hx => cases hp; unfold recs; rw [hx]; simp [e]
      · cases hp
    · obtain ⟨k, h1, h2⟩ := scanEq_where h
      exact ⟨k, by rw [List.mem_range'_1] at h1 ⊢; omega, h2⟩

/-- A position is reported only if it is the first one or lies in a leaf. -/
theorem lookup_where {dist : R → R → 𝔽} {r : R} {a : List (Ptr R 𝔽)} : ∀ {t : Node 𝔽} {j : Nat}, lookup dist r a t = .ok (some j) →
    ∃ k, (k = 0 ∨ k ∈ t.leaves) ∧ recs a k = some r
  | .null, j, h => by unfold lookup at h; cases h
  | .leaf _ _, j, h => by
    unfold lookup at h
    obtain ⟨k, h1, h2⟩ := scanEq_where h
    exact ⟨k, Or.inr h1, h2⟩
  | .node s radius i o, j, h => by
    unfold lookup at h
    rw [bind_ok] at h
    obtain ⟨v, hv, h⟩ := h
    split at h
    · obtain ⟨k, h1, h2⟩ := scanEq_where h
      rw [List.mem_range'_1] at h1
      exact ⟨k, Or.inl (by omega), h2⟩
    · split at h
      · obtain ⟨k, h1, h2⟩ := lookup_where h
        exact ⟨k, by simp only [Node.leaves, List.mem_append]; tauto, h2⟩
      · obtain ⟨k, h1, h2⟩ := lookup_where h
        exact ⟨k, by simp only [Node.leaves, List.mem_append]; tauto, h2⟩

omit [LinearOrder 𝔽] in
theorem Node.inner_pos {n : Nat} {t : Node 𝔽} (hl : t.LeafOk n) (h : n + 1 < t.indices.length) : 1 ≤ t.inner.length := by
  cases t with
  | null => simp [Node.indices] at h
  | leaf s e =>
    simp only [Node.indices, List.length_range'] at h
    have := hl.1
    have := hl.2
    omega
  | node s r i o => simp [Node.inner]

omit [LinearOrder 𝔽] in
theorem Node.inner_two {n : Nat} {t : Node 𝔽} (hl : t.LeafOk n) (h : 2 * n + 4 ≤ t.indices.length) : 2 ≤ t.inner.length := by
  cases t with
  | null => simp [Node.indices] at h
  | leaf s e =>
    simp only [Node.indices, List.length_range'] at h
    have := hl.1
    have := hl.2
    omega
  | node s r i o =>
    simp only [Node.indices, List.length_cons, List.length_append] at h
    simp only [Node.inner, List.length_cons, List.length_append]
    by_cases hi : n + 1 < i.indices.length
    · have := Node.inner_pos hl.1 hi; omega
    · have := Node.inner_pos hl.2 (show n + 1 < o.indices.length by omega); omega

/-- In every shard of at least `2 * leafSz + 4` distinct records some stored record is not found. -/
theorem lookup_misses {dist : R → R → 𝔽} {leafSz : Nat} {data : List (Wrapped R)} {t : Tree R 𝔽} (hb : Built dist leafSz data t)
    (hnd : (data.map Wrapped.record).Nodup) (hlen : 2 * leafSz + 4 ≤ data.length) :
    ∃ w ∈ data, ∀ j, lookup dist w.record t.ptrs t.root ≠ .ok (some j) := by
  have hp := Node.indices_split t.root
  have hidx : t.root.indices.length = data.length := by rw [hb.indices.length_eq]; simp
  have hin := Node.inner_two hb.leaf (by omega : 2 * leafSz + 4 ≤ t.root.indices.length)
  have hnodup : (t.root.inner ++ t.root.leaves).Nodup := hp.nodup_iff.mp (hb.indices.nodup_iff.mpr List.nodup_range)
  have h1 : ∃ i ∈ t.root.inner, i ≠ 0 := by
    match hx : t.root.inner, hin with
    | x :: y :: rest, _ =>
      rw [hx] at hnodup
      simp only [List.cons_append, List.nodup_cons, List.mem_cons, not_or] at hnodup
      by_cases h0 : x = 0
      · exact ⟨y, by simp, fun h => hnodup.1.1 (h0.trans h.symm)⟩
      · exact ⟨x, by simp, h0⟩
  obtain ⟨i, hi, hi0⟩ := h1
  have hlt : i < t.ptrs.length := hb.idx_lt i (hp.mem_iff.mpr (List.mem_append.mpr (Or.inl hi)))
  obtain ⟨w, hw, hwr⟩ := hb.points (List.getElem_mem hlt)
  refine ⟨w, List.mem_of_getElem? hw, ?_⟩
  intro j hj
  obtain ⟨k, hk, hkr⟩ := lookup_where hj
  have hrn : (t.ptrs.map Ptr.record).Nodup := by
    rw [← recs_range, hb.len]
    exact (((hb.indices.filterMap _).symm.trans hb.records).nodup_iff).mpr hnd
  have hir : recs t.ptrs i = some w.record := by unfold recs; rw [List.getElem?_eq_getElem hlt, hwr]; rfl
  have hki : k = i := by
    unfold recs at hkr hir
    rw [← List.getElem?_map] at hkr hir
    obtain ⟨a1, a2⟩ := List.getElem?_eq_some_iff.mp hkr
    obtain ⟨b1, b2⟩ := List.getElem?_eq_some_iff.mp hir
    exact (List.Nodup.getElem_inj_iff hrn).mp (a2.trans b2.symm)
  subst hki
  rcases hk with hk | hk
  · exact hi0 hk
  · rw [List.nodup_append] at hnodup
    exact hnodup.2.2 k hi k hk rfl

end VP

variable {R 𝔽 : Type} [DecidableEq R] [LinearOrder 𝔽] [Zero 𝔽]

/-- State of a record inserted once and not erased: still in the buffer and in no shard, or not in the buffer any more. -/
def Fresh (r : R) (d : Index R) : Prop :=
  ((∃ w ∈ d.buf.contents, w.record = r) → d.buf.contents.countP (fun w => decide (w.record = r)) = 1 ∧
    SAll (fun s => ∀ w ∈ s.data, w.record ≠ r) d.str)

omit [LinearOrder 𝔽] [Zero 𝔽] in
theorem entryAt_rec (r : R) (ts : Bool) (pos : Nat) : (Buffer.entryAt r ts pos).record = r :=
  congrArg Entry.record (entryAt_entry r ts pos)

omit [LinearOrder 𝔽] [Zero 𝔽] in
theorem append_noflush {d d' : Index R} {r : R} {ts b : Bool} (hn : d.buf.atLwm = false) (h : d.internalAppend r ts = .ok (d', b)) :
    d'.str = d.str := by
  unfold Index.internalAppend at h
  rw [hn] at h
  simp only [Bool.false_eq_true, if_false, bind, Except.bind] at h
  exact congrArg (fun p => p.1.str) (Except.ok.inj h).symm

omit [LinearOrder 𝔽] [Zero 𝔽] in
theorem countP_zero {l : List (Wrapped R)} {r : R} (h : ∀ w ∈ l, w.record ≠ r) : l.countP (fun w => decide (w.record = r)) = 0 := by
  rw [List.countP_eq_zero]
  intro w hw
  simpa using h w hw

/-- Erasing (by tag) does not change which records the buffer holds. -/
theorem bufDelete_records (b : Buffer R) (x : R) : (b.deleteRecord x).1.contents.map Wrapped.record = b.contents.map Wrapped.record := by
  unfold Buffer.deleteRecord
  split
  · next i _ =>
    unfold Buffer.contents
    simp only [List.map_map]
    apply List.map_congr_left
    intro j _
    simp only [Function.comp_apply, Buffer.write]
    split
    · next h => rw [h]; rfl
    · rfl
  · rfl

theorem step_fresh {dist : R → R → 𝔽} {leafSz : Nat} {g : Rng} {r : R} {d d' : Index R} (hb : BufInv d.buf)
    (hI : d.impl = vpImpl dist leafSz g) (ht : d.tagging = true) (h : Fresh r d) {o : Index.Op R} {b : Bool} (ho : o ≠ .ins r)
    (hs : d.step o = .ok (d', b)) : Fresh r d' := by
  rintro ⟨w, hw, hwr⟩
  cases o with
  | ins x =>
    have hx : x ≠ r := fun e => ho (by rw [e])
    have hs' : d.internalAppend x false = .ok (d', b) := hs
    have hc := internalAppend_contents hb hs'
    by_cases hat : d.buf.atLwm = true
    · rw [hc, if_pos hat] at hw
      simp only [List.nil_append, List.mem_singleton] at hw
      subst hw
      exact absurd hwr hx
    · rw [if_neg hat] at hc
      have hat' : d.buf.atLwm = false := by simpa using hat
      rw [hc] at hw
      have hold : ∃ w ∈ d.buf.contents, w.record = r := by
        rcases List.mem_append.mp hw with hw | hw
        · exact ⟨w, hw, hwr⟩
        · simp only [List.mem_singleton] at hw; subst hw; exact absurd hwr hx
      obtain ⟨h1, h2⟩ := h hold
      refine ⟨?_, by rw [append_noflush hat' hs']; exact h2⟩
      rw [hc, List.countP_append, h1]
      simp only [List.countP_cons, List.countP_nil]
      rw [if_neg]
      rw [entryAt_rec]; simpa using hx
  | del x =>
    have htag : ∀ (s : Shard R) j, (∀ w ∈ s.data, w.record ≠ r) → ∀ w ∈ (s.tag j).data, w.record ≠ r := by
      intro s j hq w hw
      unfold Shard.tag at hw
      simp only at hw
      obtain ⟨i, hi⟩ := List.mem_iff_getElem?.mp hw
      rw [List.getElem?_modify, Option.map_eq_map] at hi
      split at hi <;>
      · rw [Option.map_eq_some_iff] at hi
        obtain ⟨y, hy, rfl⟩ := hi
        exact hq y (List.mem_of_getElem? hy)
    simp only [Index.step, Index.erase] at hs
    rw [if_pos ht, bind_ok] at hs
    obtain ⟨o, h1, h2⟩ := hs
    cases o with
    | some ls =>
      cases h2
      obtain ⟨g1, g2⟩ := h ⟨w, hw, hwr⟩
      exact ⟨g1, taggedDelete_all (fun s j hq _ => htag s j hq) g2 h1⟩
    | none =>
      simp only at h2
      have hd : d' = { d with buf := (d.buf.deleteRecord x).1 } := (congrArg Prod.fst (Except.ok.inj h2)).symm
      subst hd
      have hrec := bufDelete_records d.buf x
      have hm : r ∈ d.buf.contents.map Wrapped.record := by
        rw [← hrec]; exact List.mem_map.mpr ⟨w, hw, hwr⟩
      obtain ⟨w', hw', e'⟩ := List.mem_map.mp hm
      obtain ⟨g1, g2⟩ := h ⟨w', hw', e'⟩
      refine ⟨?_, g2⟩
      have hcp : ∀ l : List (Wrapped R), l.countP (fun w => decide (w.record = r)) = (l.map Wrapped.record).countP (fun x => decide (x = r)) := by
        intro l; rw [List.countP_map]; rfl
      rw [hcp] at g1 ⊢
      rw [hrec]; exact g1

theorem ins_fresh {dist : R → R → 𝔽} {leafSz : Nat} {g : Rng} {r : R} {d d' : Index R} (hb : BufInv d.buf)
    (hI : d.impl = vpImpl dist leafSz g) (h0 : ∀ w ∈ d.buf.contents, w.record ≠ r)
    (h1 : SAll (fun s => ∀ w ∈ s.data, w.record ≠ r) d.str) {b : Bool} (hs : d.step (.ins r) = .ok (d', b)) : Fresh r d' := by
  intro _
  have hs' : d.internalAppend r false = .ok (d', b) := hs
  have hc := internalAppend_contents hb hs'
  refine ⟨?_, internalAppend_all (hI ▸ vpImpl_closed hb.wf (fun w hw e => absurd e (h0 w hw))) h1 hs'⟩
  rw [hc, List.countP_append]
  have : (if d.buf.atLwm = true then [] else d.buf.contents).countP (fun w => decide (w.record = r)) = 0 := by
    apply countP_zero
    intro w hw
    split at hw
    · simp at hw
    · exact h0 w hw
  rw [this]
  simp [entryAt_rec]

theorem mem_insCount {r : R} : ∀ {ops : List (Index.Op R)}, insCount r ops = 0 → .ins r ∉ ops := by
  intro ops h hm
  exact List.count_eq_zero.mp h hm

/-- A record inserted at most once since creation is fresh. -/
theorem run_fresh {dist : R → R → 𝔽} {leafSz : Nat} {g : Rng} {r : R} {d0 d : Index R} (hb : BufInv d0.buf)
    (hI : d0.impl = vpImpl dist leafSz g) (ht : d0.tagging = true) (hl : d0.str.levels = []) (he : d0.buf.contents = [])
    {ops : List (Index.Op R)} {bs : List Bool} (hc : insCount r ops ≤ 1) (hr : d0.run ops = .ok (d, bs)) : Fresh r d := by
  have := (run_prefix_ind ops (fun pre d _ => (insCount r pre = 0 → (∀ w ∈ d.buf.contents, w.record ≠ r) ∧
      SAll (fun s => ∀ w ∈ s.data, w.record ≠ r) d.str) ∧ (insCount r pre ≤ 1 → Fresh r d)) hb ?_ ?_ hr).1
  · exact this.2 hc
  · refine ⟨fun _ => ⟨by rw [he]; simp, by intro l h; rw [hl] at h; simp at h⟩, fun _ => ?_⟩
    rintro ⟨w, hw, -⟩
    rw [he] at hw; simp at hw
  · intro pre o d1 d2 bs b _ _ hP hb1 _ h2 h3 hs
    have hcnt : insCount r (pre ++ [o]) = insCount r pre + (if o = .ins r then 1 else 0) := by
      unfold insCount
      rw [List.count_append, List.count_singleton]
      simp
    by_cases ho : o = .ins r
    · subst ho
      rw [if_pos rfl] at hcnt
      refine ⟨fun h => by omega, fun h => ?_⟩
      obtain ⟨g1, g2⟩ := hP.1 (by omega)
      exact ins_fresh hb1 (h3.trans hI) g1 g2 hs
    · rw [if_neg ho] at hcnt
      refine ⟨fun h => ?_, fun h => step_fresh hb1 (h3.trans hI) (h2.trans ht) (hP.2 (by omega)) ho hs⟩
      obtain ⟨g1, g2⟩ := hP.1 (by omega)
      have hG : Gone r d1 := ⟨fun w hw e => absurd e (g1 w hw), g2⟩
      refine ⟨?_, (hG.step hb1 (h3.trans hI) (h2.trans ht) ho hs).str⟩
      cases o with
      | ins x =>
        have hx : x ≠ r := fun e => ho (by rw [e])
        have hc := internalAppend_contents hb1 (show d1.internalAppend x false = .ok (d2, b) from hs)
        intro w hw
        rw [hc] at hw
        rcases List.mem_append.mp hw with hw | hw
        · split at hw
          · simp at hw
          · exact g1 w hw
        · simp only [List.mem_singleton] at hw; subst hw; exact hx
      | del x =>
        simp only [Index.step, Index.erase] at hs
        rw [if_pos (h2.trans ht), bind_ok] at hs
        obtain ⟨o, e1, e2⟩ := hs
        cases o with
        | some ls => cases e2; exact g1
        | none =>
          simp only at e2
          have hd : d2 = { d1 with buf := (d1.buf.deleteRecord x).1 } := (congrArg Prod.fst (Except.ok.inj e2)).symm
          subst hd
          intro w hw e
          have hm : r ∈ d1.buf.contents.map Wrapped.record := by
            rw [← bufDelete_records d1.buf x]; exact List.mem_map.mpr ⟨w, hw, e⟩
          obtain ⟨w', hw', e'⟩ := List.mem_map.mp hm
          exact g1 w' hw' e'

/-- Erasing a fresh record that is in the buffer. -/
theorem erase_fresh {dist : R → R → 𝔽} {leafSz : Nat} {g : Rng} {r : R} {d d' : Index R} (hb : d.buf.WF) (hok : SOk d.str)
    (hI : d.impl = vpImpl dist leafSz g) (ht : d.tagging = true) (h : Fresh r d) (hm : ∃ w ∈ d.buf.contents, w.record = r) {b : Bool}
    (hs : d.erase r = .ok (d', b)) : b = true ∧ Gone r d' := by
  obtain ⟨h1, h2⟩ := h hm
  simp only [Index.erase] at hs
  rw [if_pos ht, bind_ok] at hs
  obtain ⟨o, e1, e2⟩ := hs
  cases o with
  | some ls =>
    obtain ⟨rest, t, dl, e, -⟩ := taggedDelete_tags (hI ▸ vpImpl_lookupSound dist leafSz g) hok e1
    have : (⟨r, t, dl⟩ : Entry R) ∈ sents d.str.visible := by rw [e]; simp
    obtain ⟨s, hsv, he⟩ := sents_mem.mp this
    obtain ⟨w, hw, hwe⟩ := mem_ents.mp he
    exact absurd (congrArg Entry.record hwe) (h2.visible s hsv w hw)
  | none =>
    simp only at e2
    have hd : d' = { d with buf := (d.buf.deleteRecord r).1 } := (congrArg Prod.fst (Except.ok.inj e2)).symm
    have hbb : b = (d.buf.deleteRecord r).2 := (congrArg Prod.snd (Except.ok.inj e2)).symm
    obtain ⟨i, hi⟩ := deleteSlot_found hb hm
    have hne : d.buf.head < d.buf.tail := by
      obtain ⟨w, hw, -⟩ := hm
      have := List.length_pos_of_mem hw
      rw [Buffer.contents_length] at this
      omega
    obtain ⟨g1, j, g2, g3⟩ := deleteSlot_window hb hne hi
    have hdr : d.buf.deleteRecord r = ({ d.buf with data := Buffer.write d.buf.data i (d.buf.data i).setDelete }, true) := by
      unfold Buffer.deleteRecord; rw [hi]
    subst hd
    refine ⟨by rw [hbb, hdr], ?_, h2⟩
    intro w hw e
    have hT : Tags r (ents d.buf.contents) (ents (d.buf.deleteRecord r).1.contents) := by
      rw [hdr]; exact write_in hb g1 g2 g3
    obtain ⟨rest, t, dl, a1, a2⟩ := hT
    have hw' : w.entry ∈ rest + {⟨r, t, true⟩} := by rw [← a2]; exact mem_ents.mpr ⟨w, hw, rfl⟩
    rw [Multiset.mem_add, Multiset.mem_singleton] at hw'
    rcases hw' with hw' | hw'
    · exfalso
      have hc : (ents d.buf.contents).countP (fun x => x.record = r) = 1 := by
        rw [← h1]
        unfold ents
        rw [Multiset.coe_countP, List.countP_map]
        rfl
      rw [a1, Multiset.countP_add] at hc
      have h3 : 0 < rest.countP (fun x => x.record = r) := Multiset.countP_pos.mpr ⟨_, hw', e⟩
      have h4 : 0 < ({⟨r, t, dl⟩} : Multiset (Entry R)).countP (fun x => x.record = r) := Multiset.countP_pos.mpr ⟨⟨r, t, dl⟩, by simp, rfl⟩
      omega
    · exact congrArg Entry.del hw'

end DE
