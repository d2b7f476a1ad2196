import Verif.Proofs.Points
import Verif.Properties.VPTree

/-!
C56 (k-NN over `EuclidPoint`) and C57 (k-NN over `CosinePoint`).
-/

namespace DE

/-- C56: over `EuclidPoint` records in exact arithmetic, after any inserts on any layout, a k-NN query returns the `k` nearest of
everything inserted by Euclidean distance; in particular a stored query point is in the answer. -/
theorem C56_euclid {D : Nat} {q : MaxQ (Fin D → ℝ) ℝ} (hq : q.Ok) {leafSz : Nat} {g0 : Rng} {L : Layout} {tag : Bool}
    {lwm hwm sf : Nat} {d0 : Index (Fin D → ℝ)}
    (hnew : Index.new L tag (vpImpl Point.euclid leafSz g0) lwm hwm sf = .ok d0) (hlwm : 1 ≤ lwm) (hsf : 1 ≤ sf)
    {ops : List (Index.Op (Fin D → ℝ))} (hins : InsertOnly ops) (g : Shard (Fin D → ℝ) → Rng) (hg : ∀ s, ops.length ≤ (g s).max)
    (point : Fin D → ℝ) {k : Nat} (hk : 1 ≤ k) :
    ∃ d res, d0.run ops = .ok (d, List.replicate ops.length true) ∧
      d.knn q Point.euclid (fun s => VP.tree Point.euclid leafSz (g s) s.data) point k = .ok res ∧
      KNearest k (fun y => Real.sqrt (∑ i, (y i - point i) ^ 2)) (inserted ops) res ∧ (.ins point ∈ ops → point ∈ res) := by
  obtain ⟨d, res, h1, h2, h3, -⟩ := C32_inserted hq Point.euclid_metric hnew hlwm hsf hins g hg point hk
  have he : (fun y => Point.euclid y point) = fun y : Fin D → ℝ => Real.sqrt (∑ i, (y i - point i) ^ 2) := by
    funext y
    unfold Point.euclid
    rw [Point.accum_eq]
    congr 1
    exact Finset.sum_congr rfl (fun i _ => (sq _).symm)
  refine ⟨d, res, h1, h2, he ▸ h3, fun hm => ?_⟩
  obtain ⟨rest, h4, h5, h6⟩ := h3
  have hmem : point ∈ inserted ops := mem_inserted.mpr hm
  by_contra hno
  have hrest : point ∈ rest := by
    rcases List.mem_append.mp (h4.mem_iff.mp hmem) with h | h
    · exact absurd h hno
    · exact h
  have hpos := List.length_pos_of_mem hmem
  cases res with
  | nil => simp at h5; omega
  | cons x xs =>
    have := h6 x (by simp) point hrest
    simp only [Point.euclid_self] at this
    by_cases hx : x = point
    · exact hno (by simp [hx])
    · exact absurd (Point.euclid_pos hx) (not_lt.mpr this)

/-- C57 is false: `CosinePoint::calc_distance` is the cosine similarity, largest for the point itself. Whenever the buffer holds
the (non-zero) query point and any point of smaller similarity, the nearest-neighbour query does not return the query point but a
least similar one. -/
theorem C57_false {D : Nat} {q : MaxQ (Fin D → ℝ) ℝ} (hq : q.Ok) {buf : List (Wrapped (Fin D → ℝ))}
    {w w' : Wrapped (Fin D → ℝ)} (hw : w ∈ buf) (hd : w.isDeleted = false) (h0 : w.record ≠ 0) (hw' : w' ∈ buf)
    (hd' : w'.isDeleted = false) (hs : Point.cosine w'.record w.record < 1) :
    ∃ x, knnBuffer q Point.cosine buf w.record 1 = .ok [x] ∧ x ≠ w.record ∧
      ∀ v ∈ buf, v.isDeleted = false → Point.cosine x w.record ≤ Point.cosine v.record w.record := by
  obtain ⟨res, h1, ⟨rest, h2, h3, h4⟩, -⟩ := (knnBuffer_good hq (safe := True) (dist := Point.cosine) (point := w.record)
    (le_refl 1) buf).safe trivial
  have hmem : ∀ v ∈ buf, v.isDeleted = false → v.record ∈ (buf.filter (fun w => !w.isDeleted)).map Wrapped.record := by
    intro v hv hdv
    exact List.mem_map.mpr ⟨v, List.mem_filter.mpr ⟨hv, by rw [hdv]; rfl⟩, rfl⟩
  have hlen := List.length_pos_of_mem (hmem w hw hd)
  have hres : res.length = 1 := by omega
  obtain ⟨x, rfl⟩ := List.length_eq_one_iff.mp hres
  have hall : ∀ v ∈ buf, v.isDeleted = false → Point.cosine x w.record ≤ Point.cosine v.record w.record := by
    intro v hv hdv
    rcases List.mem_append.mp (h2.mem_iff.mp (hmem v hv hdv)) with h | h
    · rw [List.mem_singleton] at h
      rw [h]
    · exact h4 x (by simp) _ h
  refine ⟨x, h1, ?_, hall⟩
  rintro rfl
  have := hall w' hw' hd'
  rw [Point.cosine_self h0] at this
  linarith

/-- `CosinePoint::calc_distance` is no metric, which the pruning of the VPTree search relies on. -/
theorem C57_false_metric {D : Nat} (hD : 1 ≤ D) : ¬ Metric (Point.cosine (D := D)) := by
  intro h
  have hne : (fun _ => 1 : Fin D → ℝ) ≠ 0 := by
    intro e
    have := congrFun e ⟨0, hD⟩
    simp at this
  have hneg : Point.cosine (fun _ => 1 : Fin D → ℝ) (fun _ => -1) = -1 := by
    have h1 := Point.cosine_self hne
    unfold Point.cosine at h1 ⊢
    simp only [Point.accum_eq] at h1 ⊢
    simp only [mul_neg, mul_one, neg_neg, Finset.sum_neg_distrib, neg_div] at h1 ⊢
    rw [h1]
  have h3 := h.tri (fun _ => 1) (fun _ => -1) (fun _ => 1)
  rw [h.symm (fun _ => -1) (fun _ => 1), hneg, Point.cosine_self hne] at h3
  linarith

/-- Partial C57: what the query does return on a buffer: the `k` records of smallest cosine similarity. -/
theorem C57_least_similar_partial {D : Nat} {q : MaxQ (Fin D → ℝ) ℝ} (hq : q.Ok) (buf : List (Wrapped (Fin D → ℝ))) (point : Fin D → ℝ)
    {k : Nat} (hk : 1 ≤ k) : ∃ res, knnBuffer q Point.cosine buf point k = .ok res ∧
      KNearest k (fun y => (∑ i, y i * point i) / Real.sqrt ((∑ i, y i ^ 2) * ∑ i, point i ^ 2))
        ((buf.filter (fun w => !w.isDeleted)).map Wrapped.record) res := by
  obtain ⟨res, h1, h2, -⟩ := (knnBuffer_good hq (safe := True) (dist := Point.cosine) (point := point) hk buf).safe trivial
  refine ⟨res, h1, ?_⟩
  have he : (fun y => Point.cosine y point) =
      fun y : Fin D → ℝ => (∑ i, y i * point i) / Real.sqrt ((∑ i, y i ^ 2) * ∑ i, point i ^ 2) := by
    funext y
    unfold Point.cosine
    simp only [Point.accum_eq, sq]
  exact he ▸ h2

/-! ### Instances -/

/-- Three points of the plane over two shards and the buffer. -/
example (g0 : Rng) : ∃ d0, Index.new (R := Fin 2 → ℝ) .tiering true (vpImpl Point.euclid 100 g0) 1 1 2 = .ok d0 ∧
    InsertOnly ([.ins ![1, 2], .ins ![3, 4], .ins ![0, 1]] : List (Index.Op (Fin 2 → ℝ))) ∧
    Index.Op.ins (![3, 4] : Fin 2 → ℝ) ∈ ([.ins ![1, 2], .ins ![3, 4], .ins ![0, 1]] : List (Index.Op (Fin 2 → ℝ))) := by
  refine ⟨_, rfl, ?_, by simp⟩
  intro o ho
  simp only [List.mem_cons, List.not_mem_nil, or_false] at ho
  rcases ho with rfl | rfl | rfl <;> exact ⟨_, rfl⟩

/-- Perpendicular points have similarity 0: the 1-NN query for (1, 0) returns (0, 1), not (1, 0). -/
example : ∃ x, knnBuffer MaxQ.std Point.cosine [⟨0, ![1, 0]⟩, ⟨0, ![0, 1]⟩] (![1, 0] : Fin 2 → ℝ) 1 = .ok [x] ∧ x ≠ ![1, 0] := by
  have h : Point.cosine (![0, 1] : Fin 2 → ℝ) ![1, 0] < 1 := by
    unfold Point.cosine
    simp [Point.accum_eq]
  obtain ⟨x, h1, h2, -⟩ := C57_false (w := ⟨0, ![1, 0]⟩) (w' := ⟨0, ![0, 1]⟩) MaxQ.std_ok
    (buf := [⟨0, ![1, 0]⟩, ⟨0, ![0, 1]⟩]) (by simp) (by rfl) (by
      intro e
      have := congrFun e 0
      simp at this) (by simp) (by rfl) h
  exact ⟨x, h1, h2⟩

end DE
