import Verif.Proofs.Keeps
import Verif.Properties.VPTree

/-!
C87: k-NN queries when deletes are tombstones.
-/

namespace DE
variable {R 𝔽 : Type} [LinearOrder 𝔽]

section
variable [DecidableEq R] [Zero 𝔽]

omit [DecidableEq R] [LinearOrder 𝔽] [Zero 𝔽] in
theorem dropDel_keeps (l : List (Wrapped R)) : KeepsAll (ents l) (ents (l.filter (fun w => !w.isDeleted))) := by
  intro h
  rw [List.filter_eq_self.mpr]
  intro w hw
  have : w.isDeleted = false := h w.entry (mem_ents.mpr ⟨w, hw, rfl⟩)
  rw [this]; rfl

theorem vpImpl_keepOk (dist : R → R → 𝔽) (leafSz : Nat) (g : Rng) : (vpImpl dist leafSz g).KeepOk where
  clean := vpImpl_cleanOk dist leafSz g
  keeps := {
    build := by
      intro v l s hv hs
      simp only [vpImpl, bind_ok, hv.2] at hs
      obtain ⟨l', e, hs⟩ := hs
      cases e; cases hs
      simp only
      rw [ents_mask]
      exact dropDel_keeps l
    merge := by
      intro ss s hs
      simp only [vpImpl, vp_any_some, Bool.false_eq_true, if_false, vp_filterMap] at hs
      cases hs
      simp only
      clear * -
      induction ss with
      | nil => exact keepsAll_rel.refl _
      | cons x xs ih =>
        rw [List.flatMap_cons, ents_append]
        exact keepsAll_rel.add (dropDel_keeps x.data) ih }

end

/-- Records of untagged contents, live or tombstone. -/
theorem knnData_untagged {d : Index R} (h : ∀ e ∈ d.entries, e.del = false) : (d.knnData : Multiset R) = d.entries.map Entry.record := by
  have hf : d.buf.contents.filter (fun w => !w.isDeleted) = d.buf.contents := by
    rw [List.filter_eq_self]
    intro w hw
    have : w.isDeleted = false := h w.entry (Multiset.mem_add.mpr (Or.inl (mem_ents.mpr ⟨w, hw, rfl⟩)))
    rw [this]; rfl
  have hs : ∀ ss : List (Shard R), ((ss.map (fun s => s.data.map Wrapped.record)).flatten : Multiset R) = (sents ss).map Entry.record := by
    intro ss
    induction ss with
    | nil => rfl
    | cons s ss ih =>
      have : sents (s :: ss) = ents s.data + sents ss := rfl
      rw [this, Multiset.map_add, ← ih, List.map_cons, List.flatten_cons, ← Multiset.coe_add]
      congr 1
      simp only [ents, Multiset.map_coe, List.map_map]
      rfl
  unfold Index.knnData Index.entries
  rw [hf, ← Multiset.coe_add, hs, Multiset.map_add]
  congr 1
  simp only [ents, Multiset.map_coe, List.map_map]
  rfl

/-- The record an operation names. -/
def opRec : Index.Op R → R
  | .ins r => r
  | .del r => r

/-- Partial C87: with tombstone deletes, for any layout, buffer sizes, scale factor and history of inserts and erases, every
operation is accepted and the k-NN query returns the `k` nearest, farthest first, of *all records named by the operations*,
inserted or erased, with multiplicity. Without erases this is the claim. Missing: erases, which add a candidate instead of removing
one (`C87_erased_returned`, `C87_false`). -/
theorem C87_all_named_partial [DecidableEq R] [Inhabited R] [AddCommGroup 𝔽] [IsOrderedAddMonoid 𝔽] {q : MaxQ R 𝔽} (hq : q.Ok)
    {dist : R → R → 𝔽} (hd : Metric dist) {leafSz : Nat} {g0 : Rng} {L : Layout} {lwm hwm sf : Nat} {d0 : Index R}
    (hnew : Index.new L false (vpImpl dist leafSz g0) lwm hwm sf = .ok d0) (hlwm : 1 ≤ lwm) (hsf : 1 ≤ sf) (ops : List (Index.Op R))
    (g : Shard R → Rng) (hg : ∀ s, ops.length ≤ (g s).max) (point : R) {k : Nat} (hk : 1 ≤ k) :
    ∃ d res, d0.run ops = .ok (d, List.replicate ops.length true) ∧
      d.knn q dist (fun s => VP.tree dist leafSz (g s) s.data) point k = .ok res ∧ KAnswer k (fun y => dist y point) (ops.map opRec) res := by
  have ht : d0.tagging = false := by rw [(new_ok hnew).1]
  obtain ⟨d, h1, h2, h3⟩ := (new_untag (vpImpl_keepOk dist leafSz g0) hnew hlwm hsf).run ops ht
  have h0 := (new_ginv hnew hlwm hsf).2.2.2.2.1
  have hp : d.knnData.Perm (ops.map opRec) := by
    rw [← Multiset.coe_eq_coe, knnData_untagged h2.entries, h3, h0]
    simp only [zero_add, Multiset.map_coe, List.map_map]
    congr 1
    refine List.map_congr_left (fun o _ => ?_)
    cases o <;> rfl
  have hsz : ∀ s ∈ d.str.visible, s.data.length ≤ (g s).max := by
    intro s hs
    have h4 : s.data.length ≤ d.knnData.length := by
      unfold Index.knnData
      rw [List.length_append, List.length_flatten]
      have : (s.data.map Wrapped.record).length ∈ (d.str.visible.map (fun s => s.data.map Wrapped.record)).map List.length :=
        List.mem_map_of_mem (List.mem_map_of_mem hs)
      have := le_natSum this
      rw [List.length_map] at this
      omega
    have := hp.length_eq
    have := hg s
    rw [List.length_map] at *
    omega
  obtain ⟨res, h5, h6⟩ := C32_knn_index hq hd leafSz g h2.inv.wf hsz point hk
  exact ⟨d, res, h1, h5, h6.1.perm hp (List.Perm.refl _), h6.2⟩

/-- An erased record is returned: whatever the layout, sizes and history, a query for at least as many neighbours as there were
operations returns every erased record, and one more time for each erase. -/
theorem C87_erased_returned [DecidableEq R] [Inhabited R] [AddCommGroup 𝔽] [IsOrderedAddMonoid 𝔽] {q : MaxQ R 𝔽} (hq : q.Ok)
    {dist : R → R → 𝔽} (hd : Metric dist) {leafSz : Nat} {g0 : Rng} {L : Layout} {lwm hwm sf : Nat} {d0 : Index R}
    (hnew : Index.new L false (vpImpl dist leafSz g0) lwm hwm sf = .ok d0) (hlwm : 1 ≤ lwm) (hsf : 1 ≤ sf) {ops : List (Index.Op R)}
    (g : Shard R → Rng) (hg : ∀ s, ops.length ≤ (g s).max) (point : R) {k : Nat} (hk : 1 ≤ k) (hall : ops.length ≤ k) (r : R) :
    ∃ d res, d0.run ops = .ok (d, List.replicate ops.length true) ∧
      d.knn q dist (fun s => VP.tree dist leafSz (g s) s.data) point k = .ok res ∧
      res.count r = ops.count (.ins r) + ops.count (.del r) := by
  obtain ⟨d, res, h1, h2, ⟨rest, hp, hl, -⟩, -⟩ := C87_all_named_partial hq hd hnew hlwm hsf ops g hg point hk
  refine ⟨d, res, h1, h2, ?_⟩
  have hr : rest = [] := by
    have := hp.length_eq
    rw [List.length_append, hl, List.length_map] at this
    exact List.eq_nil_of_length_eq_zero (by omega)
  rw [hr, List.append_nil] at hp
  rw [← hp.count_eq r]
  clear * -
  induction ops with
  | nil => rfl
  | cons o os ih =>
    rw [List.map_cons, List.count_cons, List.count_cons, List.count_cons, ih]
    cases o with
    | ins x =>
      have h1 : ((Index.Op.ins x : Index.Op R) == .del r) = false := by simp
      have h2 : ((Index.Op.ins x : Index.Op R) == .ins r) = (x == r) := by
        rw [Bool.eq_iff_iff]; simp
      rw [h1, h2]
      by_cases hx : x = r <;> simp [opRec, hx] <;> omega
    | del x =>
      have h1 : ((Index.Op.del x : Index.Op R) == .ins r) = false := by simp
      have h2 : ((Index.Op.del x : Index.Op R) == .del r) = (x == r) := by
        rw [Bool.eq_iff_iff]; simp
      rw [h1, h2]
      by_cases hx : x = r <;> simp [opRec, hx] <;> omega

/-- C87 is false: record 2 is inserted and erased, both acknowledged, with both still in the buffer or already in a shard; the nearest
neighbour of 2 is record 2, and the two nearest are record 2 and its tombstone. A record that was only erased is found too. -/
theorem C87_false : ∃ (d0 d d' : Index Rec) (q : MaxQ Rec Int) (g : Rng), q.Ok ∧ Metric keyDist ∧ vpMk 8 .tiering false 2 2 2 = .ok d0 ∧
    d0.run [.ins ⟨1, 1⟩, .ins ⟨2, 2⟩, .ins ⟨3, 3⟩, .del ⟨2, 2⟩] = .ok (d, [true, true, true, true]) ∧
    d.knn q keyDist (fun s => VP.tree keyDist 8 g s.data) ⟨2, 0⟩ 2 = .ok [⟨2, 2⟩, ⟨2, 2⟩] ∧
    d0.run [.ins ⟨1, 1⟩, .del ⟨7, 7⟩] = .ok (d', [true, true]) ∧
    d'.knn q keyDist (fun s => VP.tree keyDist 8 g s.data) ⟨7, 0⟩ 1 = .ok [⟨7, 7⟩] := by
  have h : vpProbe 8 .tiering false 2 2 2 [.ins ⟨1, 1⟩, .ins ⟨2, 2⟩, .ins ⟨3, 3⟩, .del ⟨2, 2⟩] (fun p =>
      if p.2 = [true, true, true, true] then p.1.knn MaxQ.std keyDist (fun s => VP.tree keyDist 8 (tapeRng (5 * ·)) s.data) ⟨2, 0⟩ 2
      else .error .abort) = .ok [⟨2, 2⟩, ⟨2, 2⟩] := by decide
  have h' : vpProbe 8 .tiering false 2 2 2 [.ins ⟨1, 1⟩, .del ⟨7, 7⟩] (fun p =>
      if p.2 = [true, true] then p.1.knn MaxQ.std keyDist (fun s => VP.tree keyDist 8 (tapeRng (5 * ·)) s.data) ⟨7, 0⟩ 1
      else .error .abort) = .ok [⟨7, 7⟩] := by decide
  obtain ⟨d0, d, bs, h1, h2, h3⟩ := vpProbe_ok h
  obtain ⟨d0', d', bs', h1', h2', h3'⟩ := vpProbe_ok h'
  rw [h1] at h1'
  cases h1'
  by_cases hbs : bs = [true, true, true, true]
  · by_cases hbs' : bs' = [true, true]
    · rw [if_pos hbs] at h3
      rw [if_pos hbs'] at h3'
      subst hbs hbs'
      exact ⟨d0, d, d', MaxQ.std, _, MaxQ.std_ok, keyDist_metric, h1, h2, h3, h2', h3'⟩
    · rw [if_neg hbs'] at h3'; cases h3'
  · rw [if_neg hbs] at h3; cases h3

/-- The hypotheses of `C87_all_named_partial` are met: nine operations over a buffer and shards on two levels; the answer holds
record 2 twice. -/
example : vpProbe 8 .leveling false 2 2 2 (insSeq 1 7 ++ [.del ⟨2, 2⟩, .ins ⟨9, 9⟩]) (fun p => p.1.knn MaxQ.std keyDist
    (fun s => VP.tree keyDist 8 (tapeRng (5 * ·)) s.data) ⟨2, 0⟩ 3) = .ok [⟨3, 3⟩, ⟨2, 2⟩, ⟨2, 2⟩] := by decide
example : ∃ d0, vpMk 8 .leveling false 2 2 2 = .ok d0 ∧
    (insSeq 1 7 ++ [.del ⟨2, 2⟩, .ins ⟨9, 9⟩] : List (Index.Op Rec)).length ≤ (tapeRng (5 * ·)).max := ⟨_, rfl, by decide⟩

end DE
