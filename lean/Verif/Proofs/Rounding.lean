import Verif.Model.Rounding
import Verif.Proofs.KnnRound
import Verif.Proofs.Points
import Mathlib.Tactic.Positivity

/-!
Error bounds for rounded Euclidean distances.
-/

namespace DE

/-- The standard model of rounding: relative error at most `u`, and symmetric in the sign. Holds of round-to-nearest of binary64 with
`u = 2^-53` as long as nothing overflows or underflows. -/
structure Rounds (rd : ℝ → ℝ) (u : ℝ) : Prop where
  pos : 0 ≤ u
  small : u ≤ 1
  odd : ∀ x, rd (-x) = -rd x
  err : ∀ x, |rd x - x| ≤ u * |x|

namespace Fl
variable {rd : ℝ → ℝ}
theorem le_def (a b : Fl rd) : a ≤ b ↔ a.val ≤ b.val := Iff.rfl
theorem add_val (a b : Fl rd) : (a + b).val = rd (a.val + b.val) := rfl
theorem sub_val (a b : Fl rd) : (a - b).val = rd (a.val - b.val) := rfl
theorem mul_val (a b : Fl rd) : (a * b).val = rd (a.val * b.val) := rfl
theorem zero_val : (0 : Fl rd).val = 0 := rfl
end Fl

variable {rd : ℝ → ℝ} {u : ℝ}

theorem Rounds.nonneg (h : Rounds rd u) {x : ℝ} (hx : 0 ≤ x) : (1 - u) * x ≤ rd x ∧ rd x ≤ (1 + u) * x := by
  have := abs_le.mp (h.err x)
  rw [abs_of_nonneg hx] at this
  constructor <;> linarith [this.1, this.2]

/-- Between `(1 - u)^n x` and `(1 + u)^n x`. -/
def Within (u : ℝ) (n : Nat) (x y : ℝ) : Prop := 0 ≤ x ∧ (1 - u) ^ n * x ≤ y ∧ y ≤ (1 + u) ^ n * x

theorem Within.mono (h : Rounds rd u) {n m : Nat} (hnm : n ≤ m) {x y : ℝ} (hw : Within u n x y) : Within u m x y := by
  obtain ⟨h0, h1, h2⟩ := hw
  have hu := h.pos
  have hs := h.small
  refine ⟨h0, le_trans (mul_le_mul_of_nonneg_right (pow_le_pow_of_le_one (by linarith) (by linarith) hnm) h0) h1,
    le_trans h2 (mul_le_mul_of_nonneg_right (pow_le_pow_right₀ (by linarith) hnm) h0)⟩

theorem Within.pos (h : Rounds rd u) {n : Nat} {x y : ℝ} (hw : Within u n x y) : 0 ≤ y :=
  le_trans (mul_nonneg (pow_nonneg (by linarith [h.small]) n) hw.1) hw.2.1

theorem Within.round (h : Rounds rd u) {n : Nat} {x y : ℝ} (hw : Within u n x y) : Within u (n + 1) x (rd y) := by
  have hy := hw.pos h
  obtain ⟨h0, h1, h2⟩ := hw
  obtain ⟨r1, r2⟩ := h.nonneg hy
  have hu := h.pos
  have hs := h.small
  refine ⟨h0, ?_, ?_⟩
  · rw [pow_succ']
    calc (1 - u) * (1 - u) ^ n * x = (1 - u) * ((1 - u) ^ n * x) := by ring
      _ ≤ (1 - u) * y := mul_le_mul_of_nonneg_left h1 (by linarith)
      _ ≤ _ := r1
  · rw [pow_succ']
    calc rd y ≤ (1 + u) * y := r2
      _ ≤ (1 + u) * ((1 + u) ^ n * x) := mul_le_mul_of_nonneg_left h2 (by linarith)
      _ = _ := by ring

theorem Within.add {n : Nat} {x y x' y' : ℝ} (hw : Within u n x y) (hw' : Within u n x' y') : Within u n (x + x') (y + y') := by
  obtain ⟨h0, h1, h2⟩ := hw
  obtain ⟨g0, g1, g2⟩ := hw'
  refine ⟨by linarith, ?_, ?_⟩ <;> rw [mul_add] <;> linarith

theorem Within.sq (h : Rounds rd u) (x : ℝ) : Within u 2 (x * x) (rd x * rd x) := by
  have e := h.err x
  have hu := h.pos
  have hs := h.small
  have h1 : |rd x| ≤ (1 + u) * |x| := by
    have := abs_sub_abs_le_abs_sub (rd x) x
    linarith
  have h2 : (1 - u) * |x| ≤ |rd x| := by
    have := abs_sub_abs_le_abs_sub x (rd x)
    rw [abs_sub_comm] at this
    linarith
  have hx := abs_nonneg x
  refine ⟨mul_self_nonneg x, ?_, ?_⟩
  · calc (1 - u) ^ 2 * (x * x) = ((1 - u) * |x|) * ((1 - u) * |x|) := by rw [← abs_mul_abs_self x]; ring
      _ ≤ |rd x| * |rd x| := mul_le_mul h2 h2 (mul_nonneg (by linarith) hx) (abs_nonneg _)
      _ = _ := abs_mul_abs_self _
  · calc rd x * rd x = |rd x| * |rd x| := (abs_mul_abs_self _).symm
      _ ≤ ((1 + u) * |x|) * ((1 + u) * |x|) := mul_le_mul h1 h1 (abs_nonneg _) (mul_nonneg (by linarith) hx)
      _ = _ := by rw [← abs_mul_abs_self x]; ring

theorem Within.sqrt (h : Rounds rd u) {n : Nat} {x y : ℝ} (hw : Within u n x y) : Within u n (Real.sqrt x) (Real.sqrt y) := by
  obtain ⟨h0, h1, h2⟩ := hw
  have hu := h.pos
  have hs := h.small
  have hx := Real.sqrt_nonneg x
  refine ⟨hx, ?_, ?_⟩
  · apply Real.le_sqrt_of_sq_le
    calc ((1 - u) ^ n * Real.sqrt x) ^ 2 = (1 - u) ^ n * ((1 - u) ^ n * (Real.sqrt x) ^ 2) := by ring
      _ = (1 - u) ^ n * ((1 - u) ^ n * x) := by rw [Real.sq_sqrt h0]
      _ ≤ 1 * ((1 - u) ^ n * x) := mul_le_mul_of_nonneg_right (pow_le_one₀ (by linarith) (by linarith))
            (mul_nonneg (pow_nonneg (by linarith) n) h0)
      _ ≤ y := by rw [one_mul]; exact h1
  · apply Real.sqrt_le_iff.mpr
    refine ⟨mul_nonneg (pow_nonneg (by linarith) n) hx, ?_⟩
    calc y ≤ (1 + u) ^ n * x := h2
      _ = 1 * ((1 + u) ^ n * x) := (one_mul _).symm
      _ ≤ (1 + u) ^ n * ((1 + u) ^ n * x) := mul_le_mul_of_nonneg_right (one_le_pow₀ (by linarith))
            (mul_nonneg (pow_nonneg (by linarith) n) h0)
      _ = (1 + u) ^ n * ((1 + u) ^ n * (Real.sqrt x) ^ 2) := by rw [Real.sq_sqrt h0]
      _ = _ := by ring

/-- The relative error after `n` roundings. -/
theorem Within.abs (h : Rounds rd u) {n : Nat} {x y : ℝ} (hw : Within u n x y) : |y - x| ≤ ((1 + u) ^ n - 1) * x := by
  obtain ⟨h0, h1, h2⟩ := hw
  have hu := h.pos
  have hs := h.small
  have b1 := one_add_mul_le_pow (show (-2 : ℝ) ≤ -u by linarith) n
  have b2 := one_add_mul_le_pow (show (-2 : ℝ) ≤ u by linarith) n
  rw [abs_le]
  constructor
  · have : 2 - (1 + u) ^ n ≤ (1 - u) ^ n := by
      have : ∀ n : ℕ, 2 ≤ (1 + u) ^ n + (1 - u) ^ n := by
        intro n
        have c1 := one_add_mul_le_pow (show (-2 : ℝ) ≤ -u by linarith) n
        have c2 := one_add_mul_le_pow (show (-2 : ℝ) ≤ u by linarith) n
        have e : (1 : ℝ) + -u = 1 - u := by ring
        rw [e] at c1
        linarith
      linarith [this n]
    have := mul_le_mul_of_nonneg_right this h0
    linarith
  · linarith

/-- The sum of terms each computed with at most 3 roundings. -/
theorem fold_within (h : Rounds rd u) {ι : Type} {t : ι → ℝ} {c : ι → Fl rd} : ∀ (l : List ι), (∀ i ∈ l, Within u 3 (t i) (c i).val) →
    ∀ (n : Nat) (s : ℝ) (s' : Fl rd), 3 ≤ n → Within u n s s'.val →
    Within u (n + l.length) (l.foldl (fun s i => s + t i) s) (l.foldl (fun s i => s + c i) s').val
  | [], _, n, s, s', _, hw => hw
  | i :: l, ht, n, s, s', hn, hw => by
    simp only [List.foldl_cons, List.length_cons]
    have := fold_within h l (fun j hj => ht j (by simp [hj])) (n + 1) (s + t i) (s' + c i) (by omega)
      ((hw.add ((ht i (by simp)).mono h hn)).round h)
    rw [show n + (l.length + 1) = n + 1 + l.length by omega]
    exact this

/-- The computed distance. -/
theorem euclidF_within (h : Rounds rd u) {D : Nat} (a b : Fin D → Fl rd) :
    Within u (D + 4) (Point.euclid (fun i => (a i).val) (fun i => (b i).val)) (euclidF Fl.sqrt a b).val := by
  unfold Point.euclid euclidF Point.accum
  have hf := fold_within h (t := fun i => ((a i).val - (b i).val) * ((a i).val - (b i).val)) (c := fun i => (a i - b i) * (a i - b i))
    (List.finRange D) (fun i _ => (Within.sq h _).round h) 3 0 0 (le_refl _) ⟨le_refl _, by simp [Fl.zero_val], by simp [Fl.zero_val]⟩
  rw [List.length_finRange, show 3 + D = D + 3 by omega] at hf
  exact (hf.sqrt h).round h

theorem euclidF_symm (h : Rounds rd u) {D : Nat} (a b : Fin D → Fl rd) : euclidF Fl.sqrt a b = euclidF Fl.sqrt b a := by
  unfold euclidF
  congr 2
  funext s i
  congr 1
  apply Fl.val_inj
  have : (a i - b i).val = -(b i - a i).val := by
    rw [Fl.sub_val, Fl.sub_val, ← h.odd]
    congr 1
    ring
  rw [Fl.mul_val, Fl.mul_val, this]
  congr 1
  ring

/-- The coordinates as numbers. -/
def U64.pt {D : Nat} (a : Fin D → BitVec 64) : Fin D → ℝ := fun i => (a i).toNat

theorem u64_sq {a b : BitVec 64} (h1 : a.toNat < b.toNat + 2 ^ 32) (h2 : b.toNat < a.toNat + 2 ^ 32) :
    (((a - b) * (a - b)).toNat : ℝ) = ((a.toNat : ℝ) - b.toNat) * ((a.toNat : ℝ) - b.toNat) := by
  have key : ∀ {a b : BitVec 64}, b.toNat ≤ a.toNat → a.toNat < b.toNat + 2 ^ 32 →
      (((a - b) * (a - b)).toNat : ℝ) = ((a.toNat : ℝ) - b.toNat) * ((a.toNat : ℝ) - b.toNat) := by
    intro a b hle hlt
    have hs : (a - b).toNat = a.toNat - b.toNat := by
      rw [BitVec.toNat_sub]
      have := a.isLt
      have := b.isLt
      omega
    have hm : ((a - b) * (a - b)).toNat = (a.toNat - b.toNat) * (a.toNat - b.toNat) := by
      rw [BitVec.toNat_mul, hs]
      apply Nat.mod_eq_of_lt
      have : a.toNat - b.toNat < 2 ^ 32 := by omega
      calc (a.toNat - b.toNat) * (a.toNat - b.toNat) < 2 ^ 32 * 2 ^ 32 := Nat.mul_lt_mul'' this this
        _ = 2 ^ 64 := by norm_num
    rw [hm, Nat.cast_mul, Nat.cast_sub hle]
  rcases Nat.le_total b.toNat a.toNat with hle | hle
  · exact key hle h1
  · have e : (a - b) * (a - b) = (b - a) * (b - a) := by
      have : a - b = -(b - a) := by rw [BitVec.neg_sub, BitVec.sub_eq_add_neg, BitVec.add_comm]
      rw [this, BitVec.neg_mul_neg]
    rw [e, key hle h2]
    ring

theorem euclidU_within (h : Rounds rd u) {D : Nat} {a b : Fin D → BitVec 64}
    (hn : ∀ i, (a i).toNat < (b i).toNat + 2 ^ 32 ∧ (b i).toNat < (a i).toNat + 2 ^ 32) :
    Within u (D + 4) (Point.euclid (U64.pt a) (U64.pt b)) (euclidU rd a b).val := by
  unfold Point.euclid euclidU Point.accum
  have hf := fold_within h (t := fun i => (U64.pt a i - U64.pt b i) * (U64.pt a i - U64.pt b i)) (c := fun i => Fl.ofU64 ((a i - b i) * (a i - b i)))
    (List.finRange D) (fun i _ => by
      have : Within u 0 ((U64.pt a i - U64.pt b i) * (U64.pt a i - U64.pt b i)) (((a i - b i) * (a i - b i)).toNat : ℝ) := by
        rw [u64_sq (hn i).1 (hn i).2]
        exact ⟨mul_self_nonneg _, by simp [U64.pt], by simp [U64.pt]⟩
      exact (this.round h).mono h (by omega)) 3 0 0 (le_refl _) ⟨le_refl _, by simp [Fl.zero_val], by simp [Fl.zero_val]⟩
  rw [List.length_finRange, show 3 + D = D + 3 by omega] at hf
  exact (hf.sqrt h).round h

theorem euclidU_symm {D : Nat} (a b : Fin D → BitVec 64) : euclidU rd a b = euclidU rd b a := by
  unfold euclidU
  congr 2
  funext s i
  congr 2
  have : a i - b i = -(b i - a i) := by rw [BitVec.neg_sub, BitVec.sub_eq_add_neg, BitVec.add_comm]
  rw [this, BitVec.neg_mul_neg]

end DE
