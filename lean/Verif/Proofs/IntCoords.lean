import Verif.Model.IntCoords
import Verif.Proofs.Rounding
import Mathlib.Tactic.Ring
import Mathlib.Tactic.NormNum
import Mathlib.Tactic.Linarith

/-!
When integer distances are defined, and what they are.
-/

namespace DE
namespace IntTy

/-- The types of the language: 8, 16, 32 or 64 bits. -/
def Std (t : IntTy) : Prop := t.bits = 8 ∨ t.bits = 16 ∨ t.bits = 32 ∨ t.bits = 64

theorem promote_bits {t : IntTy} (h : t.Std) : t.promote.bits = 32 ∨ t.promote.bits = 64 := by
  unfold promote
  rcases h with h | h | h | h <;> simp [h]

theorem natAbs_le_sq (x : Int) : -(x * x) ≤ x ∧ x ≤ x * x := by
  have h1 := Int.le_self_sq x
  have h2 := Int.le_self_sq (-x)
  constructor <;> nlinarith

theorem result_ok {t : IntTy} {x : Int} (h : t.Holds x) (hb : t.bits = 32 ∨ t.bits = 64) : t.result x = .ok x := by
  unfold result
  rw [if_pos h]
  split
  · rfl
  next hs =>
    have h1 := h.1
    have h2 := h.2
    simp only [lo, hi, hs] at h1 h2
    congr 1
    exact Int.emod_eq_of_lt (by simpa using h1) (by simp at h2; omega)

/-- The square of a difference: exact if it fits. -/
theorem sqDiff_fits {t : IntTy} (ht : t.Std) {a b : Int} (h : (a - b) * (a - b) ≤ t.promote.hi) :
    t.sqDiff a b = .ok ((a - b) * (a - b)) := by
  have hb := promote_bits ht
  unfold sqDiff
  generalize t.promote = p at *
  have hn := mul_self_nonneg (a - b)
  obtain ⟨h1, h2⟩ := natAbs_le_sq (a - b)
  generalize hd : a - b = d at *
  cases hs : p.signed with
  | true =>
    have hh : p.Holds d ∧ p.Holds (d * d) := by
      simp only [Holds, lo, hi, hs, if_true] at *
      rcases hb with hb | hb <;> simp only [hb] at * <;> norm_num at * <;> omega
    rw [result_ok hh.1 hb]
    exact result_ok hh.2 hb
  | false =>
    have e : ∀ x, p.result x = .ok (x % 2 ^ p.bits) := by intro x; simp [result, hs]
    rw [e]
    show p.result _ = _
    rw [e, ← Int.mul_emod]
    congr 1
    simp only [hi, hs] at h
    exact Int.emod_eq_of_lt hn (by simp at h; omega)

/-- A signed square that does not fit: undefined. -/
theorem sqDiff_ub {t : IntTy} (hs : t.promote.signed = true) {a b : Int} (h : t.promote.hi < (a - b) * (a - b)) :
    t.sqDiff a b = .error .ub := by
  unfold sqDiff
  generalize t.promote = p at *
  have hr : ∀ x, p.result x = if p.Holds x then .ok x else .error .ub := by intro x; simp [result, hs]
  rw [hr]
  split
  · show p.result _ = _
    rw [hr, if_neg]
    intro hh
    exact absurd hh.2 (not_le.mpr h)
  · rfl

/-- An unsigned square wraps. -/
theorem sqDiff_wraps {t : IntTy} (hs : t.promote.signed = false) (a b : Int) :
    t.sqDiff a b = .ok ((a - b) * (a - b) % 2 ^ t.promote.bits) := by
  unfold sqDiff
  have e : ∀ x, t.promote.result x = .ok (x % 2 ^ t.promote.bits) := by intro x; simp [result, hs]
  rw [e]
  show t.promote.result _ = _
  rw [e, ← Int.mul_emod]

theorem sqDiff_symm {t : IntTy} (ht : t.Std) (a b : Int) : t.sqDiff a b = t.sqDiff b a := by
  have e : (a - b) * (a - b) = (b - a) * (b - a) := by ring
  by_cases h : (a - b) * (a - b) ≤ t.promote.hi
  · rw [sqDiff_fits ht h, sqDiff_fits ht (e ▸ h), e]
  · cases hs : t.promote.signed with
    | true => rw [sqDiff_ub hs (not_le.mp h), sqDiff_ub hs (e ▸ not_le.mp h)]
    | false => rw [sqDiff_wraps hs, sqDiff_wraps hs, e]

end IntTy

variable {rd : ℝ → ℝ} {u : ℝ}

theorem sumInts_ok {D : Nat} {f : Fin D → Res Int} {g : Fin D → Int} (h : ∀ i, f i = .ok (g i)) :
    sumInts rd f = .ok ((List.finRange D).foldl (fun s i => s + (⟨rd (g i)⟩ : Fl rd)) 0) := by
  unfold sumInts
  generalize (0 : Fl rd) = s
  generalize List.finRange D = l
  induction l generalizing s with
  | nil => rfl
  | cons i l ih =>
    rw [List.foldlM_cons, h i]
    exact ih _

theorem sumInts_err {D : Nat} {f : Fin D → Res Int} (h : ∀ i e, f i = .error e → e = .ub) {i : Fin D} (hi : f i = .error .ub) :
    sumInts rd f = .error .ub := by
  unfold sumInts
  generalize (0 : Fl rd) = s
  have hm : i ∈ List.finRange D := List.mem_finRange i
  generalize List.finRange D = l at hm
  induction l generalizing s with
  | nil => simp at hm
  | cons j l ih =>
    rw [List.foldlM_cons]
    cases hj : f j with
    | error e => rw [h j e hj]; rfl
    | ok x =>
      rcases List.mem_cons.mp hm with rfl | hm'
      · rw [hi] at hj; simp at hj
      · exact ih _ hm'

theorem euclidI_symm {t : IntTy} (ht : t.Std) {D : Nat} (a b : Fin D → Int) : euclidI rd t a b = euclidI rd t b a := by
  unfold euclidI
  congr 2
  funext i
  exact IntTy.sqDiff_symm ht _ _

/-- The coordinates as numbers. -/
def IntPt.pt {D : Nat} (a : Fin D → Int) : Fin D → ℝ := fun i => a i

/-- Defined and close to the distance if all squares fit. -/
theorem euclidI_within (h : Rounds rd u) {t : IntTy} (ht : t.Std) {D : Nat} {a b : Fin D → Int}
    (hf : ∀ i, (a i - b i) * (a i - b i) ≤ t.promote.hi) :
    ∃ x, euclidI rd t a b = .ok x ∧ Within u (D + 4) (Point.euclid (IntPt.pt a) (IntPt.pt b)) x.val := by
  refine ⟨_, by unfold euclidI; rw [sumInts_ok (fun i => IntTy.sqDiff_fits ht (hf i))]; rfl, ?_⟩
  unfold Point.euclid Point.accum
  have hf := fold_within h (t := fun i => (IntPt.pt a i - IntPt.pt b i) * (IntPt.pt a i - IntPt.pt b i))
    (c := fun i => (⟨rd (((a i - b i) * (a i - b i) : Int) : ℝ)⟩ : Fl rd))
    (List.finRange D) (fun i _ => by
      have : Within u 0 ((IntPt.pt a i - IntPt.pt b i) * (IntPt.pt a i - IntPt.pt b i)) (((a i - b i) * (a i - b i) : Int) : ℝ) := by
        push_cast
        exact ⟨mul_self_nonneg _, by simp [IntPt.pt], by simp [IntPt.pt]⟩
      exact (this.round h).mono h (by omega)) 3 0 0 (le_refl _) ⟨le_refl _, by simp [Fl.zero_val], by simp [Fl.zero_val]⟩
  rw [List.length_finRange, show 3 + D = D + 3 by omega] at hf
  exact (hf.sqrt h).round h

/-- Undefined if a signed square does not fit. -/
theorem euclidI_ub {t : IntTy} (hs : t.promote.signed = true) {D : Nat} {a b : Fin D → Int} {i : Fin D}
    (hi : t.promote.hi < (a i - b i) * (a i - b i)) : euclidI rd t a b = .error .ub := by
  unfold euclidI
  rw [sumInts_err (i := i) _ (IntTy.sqDiff_ub hs hi)]
  · rfl
  intro j e he
  by_cases hl : (a j - b j) * (a j - b j) ≤ t.promote.hi
  · unfold IntTy.sqDiff at he
    have hr : ∀ x e, t.promote.result x = .error e → e = .ub := by
      intro x e hx
      simp only [IntTy.result, hs, if_true] at hx
      split at hx <;> simp_all
    cases h1 : t.promote.result (a j - b j) with
    | error e' => rw [h1] at he; exact (Except.error.inj he) ▸ hr _ _ h1
    | ok d => rw [h1] at he; exact hr _ _ he
  · rw [IntTy.sqDiff_ub hs (not_le.mp hl)] at he
    exact (Except.error.inj he).symm

end DE
