import Verif.Proofs.VPAverage
import Verif.Properties.VPCost
import Mathlib.Tactic.IntervalCases

/-!
C110: the cost of building a VPTree, averaged over the random numbers.
-/

namespace DE
variable {R 𝔽 : Type} [LinearOrder 𝔽]

/-- C110, the part that holds on average: if no two points of the shard are equally far from a third, then over all random streams (`N`
independent draws, each uniform on `0..M-1`, with `M` a multiple of all the numbers below `n`) the comparisons of selecting the medians are on
average at most four times `n` per level of the tree. Missing: the same for points with equal distances, where it is false (`C110_false`). -/
theorem C110_average_partial [Zero 𝔽] (dist : R → R → 𝔽) (leafSz : Nat) (data : List (Wrapped R)) {mx : Nat} (hmx : data.length ≤ mx)
    (hgen : ∀ i j k : Fin data.length, i ≠ j → i ≠ k → j ≠ k →
      dist data[i].record data[j].record ≠ dist data[i].record data[k].record)
    {M : Nat} (hM0 : 0 < M) (hM : ∀ d, 0 < d → d < data.length → d ∣ M)
    {N : Nat} (hN : data.length * (vpHeight leafSz data.length - 1) ≤ N) :
    ∃ w : (Fin N → Fin M) → VP.Work,
      (∀ t, ∃ tr, VP.treeC dist leafSz ⟨tapeOf t, mx⟩ data = .ok (tr, w t)) ∧
      ∑ t, (w t).cmps ≤ 4 * data.length * (vpHeight leafSz data.length - 1) * M ^ N := by
  have hex : ∀ t : Fin N → Fin M, ∃ w tr, VP.treeC dist leafSz ⟨tapeOf t, mx⟩ data = .ok (tr, w) := by
    intro t
    obtain ⟨tr, w, h, -⟩ := C110_build_partial dist leafSz ⟨tapeOf t, mx⟩ data hmx
    exact ⟨w, tr, h⟩
  choose w hw using hex
  refine ⟨w, hw, ?_⟩
  by_cases h0 : data.length = 0
  · have : ∀ t, (w t).cmps = 0 := by
      intro t
      obtain ⟨tr, h⟩ := hw t
      unfold VP.treeC at h
      simp only [if_pos h0] at h
      cases h' : w t
      rw [h'] at h
      cases h
      rfl
    simp [this]
  -- the distances computed do not depend on the stream
  have hD : VPA.distsOf leafSz (data.length + 1) 0 (data.length - 1) ≤ data.length * (vpHeight leafSz data.length - 1) := by
    obtain ⟨tr, w', h, -, h2, -⟩ := C110_build_partial dist leafSz ⟨fun _ => 0, mx⟩ data hmx
    unfold VP.treeC at h
    simp only [if_neg h0, bind_ok] at h
    obtain ⟨⟨r, a, p, w''⟩, h3, h4⟩ := h
    cases h4
    have := VPA.distsOf_eq _ _ _ _ _ _ h3
    simp only at this
    rw [← this]; exact h2
  have hlen : (VP.initPtrs (𝔽 := 𝔽) data).length = data.length := by unfold VP.initPtrs; simp
  have hg : VPA.General dist ((VP.initPtrs (𝔽 := 𝔽) data).map VP.core) := by
    rw [VP.initPtrs_core]
    constructor
    · rw [List.nodup_iff_injective_getElem]
      intro i j h
      simp only [List.getElem_mapIdx, Prod.mk.injEq] at h
      exact Fin.ext h.1
    · intro v hv x hx y hy
      obtain ⟨i, hi, rfl⟩ := List.mem_mapIdx.mp hv
      obtain ⟨j, hj, rfl⟩ := List.mem_mapIdx.mp hx
      obtain ⟨k, hk, rfl⟩ := List.mem_mapIdx.mp hy
      intro n1 n2 n3
      refine hgen ⟨i, hi⟩ ⟨j, hj⟩ ⟨k, hk⟩ ?_ ?_ ?_
      · intro e; cases e; exact n1 rfl
      · intro e; cases e; exact n2 rfl
      · intro e; cases e; exact n3 rfl
  have := VPA.build_average (dist := dist) (leafSz := leafSz) (mx := mx) hM0 (data.length + 1) 0 (data.length - 1) (VP.initPtrs data) 0 (fun _ => 0) N 0 0
    (fun _ _ _ => 0) (by omega) (Or.inr (by omega)) (by omega) (fun d d1 d2 => hM d d1 (by omega)) hg
    (fun b f pos N' _ _ => by
      rw [Nat.zero_mul]
      induction N' generalizing f pos with
      | zero => exact le_refl _
      | succ n ih => unfold VPA.total; exact (Finset.sum_nonpos (fun x _ => ih _ _ (Nat.zero_le _))))
    (by omega)
  rw [VPA.total_eq] at this
  have heq : ∀ t : Fin N → Fin M, (w t).cmps = VPA.costB (fun _ _ => 0)
      (VP.buildC dist leafSz ⟨VPA.ext (fun _ => 0) 0 t, mx⟩ (data.length + 1) 0 (data.length - 1) (VP.initPtrs data) 0) := by
    intro t
    have e : VPA.ext (fun _ => 0) 0 t = tapeOf t := by
      funext i
      unfold VPA.ext tapeOf
      simp
    rw [e]
    obtain ⟨tr, h⟩ := hw t
    unfold VP.treeC at h
    simp only [if_neg h0, bind_ok] at h
    obtain ⟨⟨r, a, p, w''⟩, h3, h4⟩ := h
    cases h4
    rw [h3]
    rfl
  simp only [heq]
  refine this.trans ?_
  refine Nat.mul_le_mul_right _ ?_
  rw [Nat.add_zero, Nat.mul_assoc]
  exact Nat.mul_le_mul_left _ hD

/-- Five numbers, none in the middle of two others, in leaves of up to two, and draws below twelve: on average at most forty comparisons. -/
example : ∃ w : (Fin 10 → Fin 12) → VP.Work,
    (∀ t, ∃ tr, VP.treeC (fun a b : Int => |a - b|) 1 ⟨tapeOf t, 1000⟩ ([1, 16, 2, 8, 4].map (fun i => (⟨0#32, (i : Int)⟩ : Wrapped Int))) = .ok (tr, w t)) ∧
    ∑ t, (w t).cmps ≤ 40 * 12 ^ 10 := by
  have h := C110_average_partial (fun a b : Int => |a - b|) 1 ([1, 16, 2, 8, 4].map (fun i => (⟨0#32, (i : Int)⟩ : Wrapped Int))) (mx := 1000) (by decide)
    (by decide) (M := 12) (by decide) (fun d d1 d2 => by
      have : d < 5 := d2
      interval_cases d <;> decide) (N := 10) (by decide +kernel)
  have e : 4 * ([1, 16, 2, 8, 4].map (fun i => (⟨0#32, (i : Int)⟩ : Wrapped Int))).length * (vpHeight 1 ([1, 16, 2, 8, 4].map (fun i => (⟨0#32, (i : Int)⟩ : Wrapped Int))).length - 1) = 40 := by
    decide +kernel
  rw [e] at h
  exact h

end DE
