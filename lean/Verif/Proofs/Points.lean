import Verif.Model.Points
import Verif.SpecVP
import Mathlib.Algebra.Order.BigOperators.Ring.Finset
import Mathlib.Algebra.BigOperators.Fin
import Mathlib.Tactic.Linarith
import Mathlib.Tactic.Ring
import Mathlib.Tactic.FieldSimp

namespace DE.Point
variable {D : Nat}

theorem accum_eq (f : Fin D → ℝ) : accum f = ∑ i, f i := by
  unfold accum
  rw [Fin.sum_univ_def, List.sum_eq_foldl, List.foldl_map]

theorem cauchy (a b : Fin D → ℝ) : (∑ i, a i * b i) ≤ Real.sqrt (∑ i, a i * a i) * Real.sqrt (∑ i, b i * b i) := by
  have h := Finset.sum_mul_sq_le_sq_mul_sq Finset.univ a b
  rw [← Real.sqrt_mul (Finset.sum_nonneg (fun i _ => mul_self_nonneg _))]
  apply Real.le_sqrt_of_sq_le
  simpa [sq] using h

theorem norm_tri (a b : Fin D → ℝ) : Real.sqrt (∑ i, (a i + b i) * (a i + b i)) ≤
    Real.sqrt (∑ i, a i * a i) + Real.sqrt (∑ i, b i * b i) := by
  have ha : 0 ≤ ∑ i, a i * a i := Finset.sum_nonneg (fun i _ => mul_self_nonneg _)
  have hb : 0 ≤ ∑ i, b i * b i := Finset.sum_nonneg (fun i _ => mul_self_nonneg _)
  apply Real.sqrt_le_iff.mpr
  refine ⟨by positivity, ?_⟩
  have e : ∑ i, (a i + b i) * (a i + b i) = (∑ i, a i * a i) + 2 * (∑ i, a i * b i) + ∑ i, b i * b i := by
    rw [Finset.mul_sum, ← Finset.sum_add_distrib, ← Finset.sum_add_distrib]
    exact Finset.sum_congr rfl (fun i _ => by ring)
  rw [e, add_sq, Real.sq_sqrt ha, Real.sq_sqrt hb]
  have := cauchy a b
  nlinarith

theorem euclid_metric : Metric (euclid (D := D)) where
  symm := fun x y => by
    unfold euclid
    rw [accum_eq, accum_eq]
    congr 1
    exact Finset.sum_congr rfl (fun i _ => by ring)
  tri := fun x y z => by
    unfold euclid
    rw [accum_eq, accum_eq, accum_eq]
    have := norm_tri (fun i => x i - y i) (fun i => y i - z i)
    simpa using this

theorem euclid_self (x : Fin D → ℝ) : euclid x x = 0 := by
  unfold euclid; rw [accum_eq]; simp

theorem euclid_pos {x y : Fin D → ℝ} (h : x ≠ y) : 0 < euclid x y := by
  unfold euclid
  rw [accum_eq]
  apply Real.sqrt_pos.mpr
  obtain ⟨i, hi⟩ := Function.ne_iff.mp h
  exact Finset.sum_pos' (fun i _ => mul_self_nonneg _) ⟨i, Finset.mem_univ _, mul_self_pos.mpr (sub_ne_zero.mpr hi)⟩

theorem sq_pos {x : Fin D → ℝ} (h : x ≠ 0) : 0 < ∑ i, x i * x i := by
  obtain ⟨i, hi⟩ := Function.ne_iff.mp h
  exact Finset.sum_pos' (fun i _ => mul_self_nonneg _) ⟨i, Finset.mem_univ _, mul_self_pos.mpr hi⟩

theorem cosine_self {x : Fin D → ℝ} (h : x ≠ 0) : cosine x x = 1 := by
  unfold cosine
  rw [accum_eq]
  have := sq_pos h
  rw [Real.sqrt_mul_self this.le]
  exact div_self this.ne'

theorem cosine_le (x y : Fin D → ℝ) : cosine x y ≤ 1 := by
  unfold cosine
  rw [accum_eq, accum_eq, accum_eq, Real.sqrt_mul (Finset.sum_nonneg (fun i _ => mul_self_nonneg _))]
  exact div_le_one_of_le₀ (cauchy x y) (by positivity)

end DE.Point
