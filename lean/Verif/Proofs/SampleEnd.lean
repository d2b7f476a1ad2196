import Verif.Proofs.SampleLaw

/-!
How long a range sampling query takes: lemmas for C36.
-/

namespace DE
open Finset

namespace Irs
variable {R K : Type} [LinearOrder R] [LinearOrder K] [HasKey R K] {lo hi : K}

theorem wt_zero {α : Type} (l : List α) : wt (fun _ => (0 : Nat)) l = if l = [] then 1 else 0 := by
  cases l <;> simp [wt]

theorem sum_notIn {α : Type} (p : α → Bool) (l : List α) :
    (l.map (fun x => if p x then (0 : Nat) else 1)).sum + (l.filter p).length = l.length := by
  induction l with
  | nil => rfl
  | cons a l ih =>
    rw [List.map_cons, List.sum_cons, List.filter_cons, List.length_cons]
    by_cases h : p a
    · simp only [h, if_true, List.length_cons]; omega
    · simp only [h]
      simp only [Bool.false_eq_true, if_false]; omega

/-- The rounds of `n` samples in which everything is rejected. -/
theorem round_empty {rej : Bool} {al : AliasFn} (hal : al.Ok) {buf : List (Wrapped R)} {qs : List (Local R)} {mx M : Nat}
    (hM : 0 < M) (hq : ∀ q ∈ qs, q.Exact lo hi) (hs : Safe ⟨fun _ => 0, mx⟩ lo hi buf qs)
    (hw : 0 < (weights rej lo hi buf qs).sum) (hfair : al.FairOn M (weights rej lo hi buf qs))
    (hdvd : ∀ s ∈ sources rej lo hi buf qs, s ≠ [] → s.length ∣ M) (n : Nat)
    (out : (Fin (n + n) → Fin M) → List R) (hout : ∀ t, ∃ p, round rej al ⟨tapeOf t, mx⟩ lo hi buf qs n 0 = .ok (out t, p)) :
    (∑ t, if out t = [] then 1 else 0) * (weights rej lo hi buf qs).sum ^ n =
      (M * M * ((weights rej lo hi buf qs).sum - inCount rej lo hi buf qs)) ^ n := by
  have h := round_gen hal hM hq hs hw hfair hdvd n out hout (fun _ => (0 : Nat))
  simp only [wt_zero, Nat.cast_id] at h
  rw [h]
  have h2 := sum_notIn (inR lo hi) (sources rej lo hi buf qs).flatten
  have h3 : (weights rej lo hi buf qs).sum = (sources rej lo hi buf qs).flatten.length := by
    rw [weights_sources hs.1 hq, List.length_flatten]
  unfold inCount
  rw [h3, ← h2, Nat.add_sub_cancel]

/-- The streams on which a query for `n` samples has not returned after `r + n + 1` rounds: in each of the first `r` rounds all `n`
draws have been rejected. -/
theorem loop_unfinished {rej : Bool} {al : AliasFn} (hal : al.Ok) {buf : List (Wrapped R)} {qs : List (Local R)} {mx M : Nat}
    (hM : 0 < M) (hmx : ∀ q ∈ qs, mx + q.data.length < 2 ^ 64)
    (hq : ∀ q ∈ qs, q.Exact lo hi) (hs : Safe ⟨fun _ => 0, mx⟩ lo hi buf qs)
    (hw : 0 < (weights rej lo hi buf qs).sum) (hfair : al.FairOn M (weights rej lo hi buf qs))
    (hdvd : ∀ s ∈ sources rej lo hi buf qs, s ≠ [] → s.length ∣ M) (n : Nat) (hn : 0 < n) : ∀ (r L : Nat), (n + n) * (r + n + 1) ≤ L →
    (∑ t : Fin L → Fin M, if loop rej al ⟨tapeOf t, mx⟩ lo hi buf qs (r + n + 1) n 0 [] = .ok none then 1 else 0) *
        (weights rej lo hi buf qs).sum ^ (n * r) ≤
      M ^ L * ((weights rej lo hi buf qs).sum - inCount rej lo hi buf qs) ^ (n * r)
  | 0, L, _ => by
    simp only [Nat.mul_zero, pow_zero, Nat.mul_one]
    refine le_trans (Finset.sum_le_sum (g := fun _ => 1) (fun t _ => by split <;> omega)) ?_
    simp
  | r + 1, L, hL => by
    obtain ⟨F, hF⟩ := round_shift (rej := rej) hal hq hs hw n
    obtain ⟨L', rfl⟩ : ∃ L', L = (n + n) + L' := ⟨L - (n + n), by
      have : (n + n) * (r + 1 + n + 1) = (n + n) * (r + n + 1) + (n + n) := by ring
      omega⟩
    have hL' : (n + n) * (r + n + 1) ≤ L' := by
      have : (n + n) * (r + 1 + n + 1) = (n + n) * (r + n + 1) + (n + n) := by ring
      omega
    have hloc : ∀ (x : Fin (n + n) → Fin M) (y : Fin L' → Fin M), F (tapeOf (Fin.append x y)) = F (tapeOf x) := by
      intro x y
      apply round_local hal hq hs hw hF
      intro i hi
      rw [tapeOf_append_left x y hi]
      unfold tapeOf; rw [dif_pos hi]
    have hround : ∀ t : Fin (n + n) → Fin M, round rej al ⟨tapeOf t, mx⟩ lo hi buf qs n 0 = .ok (F (tapeOf t), 0 + n + n) := by
      intro t
      rw [hF]
      simp only [Nat.zero_add]
    have hloop : ∀ (x : Fin (n + n) → Fin M) (y : Fin L' → Fin M),
        (if loop rej al ⟨tapeOf (Fin.append x y), mx⟩ lo hi buf qs (r + 1 + n + 1) n 0 [] = .ok none then 1 else 0) =
        (if F (tapeOf x) = [] then 1 else 0) * (if loop rej al ⟨tapeOf y, mx⟩ lo hi buf qs (r + n + 1) n 0 [] = .ok none then 1 else 0) := by
      intro x y
      rw [show r + 1 + n + 1 = (r + n + 1) + 1 by omega]
      conv_lhs => unfold loop
      rw [hF]
      simp only [bind, Except.bind, Nat.zero_add, List.nil_append]
      rw [show (fun i => tapeOf (Fin.append x y) i) = tapeOf (Fin.append x y) from rfl, hloc x y]
      by_cases hx : F (tapeOf x) = []
      · rw [hx]
        simp only [List.length_nil, hn, if_true, Nat.sub_zero, Nat.one_mul]
        rw [loop_shift (t' := tapeOf y) hal hq hs hw (r + n + 1) n (n + n) 0 _ (fun i => by rw [tapeOf_append_right, Nat.zero_add])]
      · rw [if_neg hx, Nat.zero_mul, if_neg]
        split
        · obtain ⟨res, h⟩ := loop_ends (rej := rej) hal (g := ⟨tapeOf (Fin.append x y), mx⟩) (fun q hqm => ⟨hq q hqm, hmx q hqm⟩) hs
            (r + n + 1) (n - (F (tapeOf x)).length) (n + n) (F (tapeOf x)) hx (by omega)
          rw [h]
          simp
        · simp
    rw [← (Fin.appendEquiv (n + n) L').sum_comp, Fintype.sum_prod_type]
    have e1 : ∀ (x : Fin (n + n) → Fin M), (∑ y : Fin L' → Fin M,
        if loop rej al ⟨tapeOf ((Fin.appendEquiv (n + n) L') (x, y)), mx⟩ lo hi buf qs (r + 1 + n + 1) n 0 [] = .ok none then 1 else 0) =
        (if F (tapeOf x) = [] then 1 else 0) *
          ∑ y : Fin L' → Fin M, if loop rej al ⟨tapeOf y, mx⟩ lo hi buf qs (r + n + 1) n 0 [] = .ok none then 1 else 0 := by
      intro x
      rw [Finset.mul_sum]
      exact Finset.sum_congr rfl (fun y _ => hloop x y)
    rw [Finset.sum_congr rfl (fun x _ => e1 x), ← Finset.sum_mul]
    have h1 := round_empty hal hM hq hs hw hfair hdvd n (fun t => F (tapeOf t)) (fun t => ⟨_, hround t⟩)
    have h2 := loop_unfinished hal hM hmx hq hs hw hfair hdvd n hn r L' hL'
    set W := (weights rej lo hi buf qs).sum
    set a := ∑ x : Fin (n + n) → Fin M, if F (tapeOf x) = [] then 1 else 0
    set b := ∑ y : Fin L' → Fin M, if loop rej al ⟨tapeOf y, mx⟩ lo hi buf qs (r + n + 1) n 0 [] = .ok none then 1 else 0
    calc a * b * W ^ (n * (r + 1)) = (a * W ^ n) * (b * W ^ (n * r)) := by rw [Nat.mul_succ, pow_add]; ring
      _ ≤ (a * W ^ n) * (M ^ L' * (W - inCount rej lo hi buf qs) ^ (n * r)) := Nat.mul_le_mul_left _ h2
      _ = _ := by
        rw [h1, Nat.mul_succ, pow_add _ (n * r) n, mul_pow, mul_pow, pow_add M (n + n) L', pow_add M n n]
        ring

/-- The share of what is rejected grows with the number of records that are out of range. -/
theorem share_mono {c W N T e k : Nat} (hN : N ≤ W) (hW : W ≤ T) (hW0 : 0 < W) (h : c * W ^ k ≤ e * (W - N) ^ k) :
    c * T ^ k ≤ e * (T - N) ^ k := by
  have h1 : (W - N) * T ≤ (T - N) * W := by
    obtain ⟨a, rfl⟩ := Nat.exists_eq_add_of_le hN
    obtain ⟨b, rfl⟩ := Nat.exists_eq_add_of_le hW
    rw [show N + a - N = a by omega, show N + a + b - N = a + b by omega]
    nlinarith
  have h2 : (W - N) ^ k * T ^ k ≤ (T - N) ^ k * W ^ k := by
    rw [← mul_pow, ← mul_pow]
    exact Nat.pow_le_pow_left h1 k
  apply Nat.le_of_mul_le_mul_right (c := W ^ k) _ (Nat.pow_pos hW0)
  calc c * T ^ k * W ^ k = (c * W ^ k) * T ^ k := by ring
    _ ≤ (e * (W - N) ^ k) * T ^ k := Nat.mul_le_mul_right _ h
    _ = e * ((W - N) ^ k * T ^ k) := by ring
    _ ≤ e * ((T - N) ^ k * W ^ k) := Nat.mul_le_mul_left _ h2
    _ = _ := by ring

/-- Bernoulli's inequality. -/
theorem pow_grows (a : Nat) : ∀ j, a ^ j * (a + j + 1) ≤ (a + 1) ^ (j + 1)
  | 0 => by simp
  | j + 1 => by
    have h := pow_grows a j
    calc a ^ (j + 1) * (a + (j + 1) + 1) = a ^ j * (a * (a + j + 2)) := by ring
      _ ≤ a ^ j * ((a + j + 1) * (a + 1)) := Nat.mul_le_mul_left _ (by nlinarith)
      _ = (a ^ j * (a + j + 1)) * (a + 1) := by ring
      _ ≤ (a + 1) ^ (j + 1) * (a + 1) := Nat.mul_le_mul_right _ h
      _ = _ := by ring

/-- A share below one has arbitrarily small powers. -/
theorem share_small {T N : Nat} (hN : 0 < N) (hT : N ≤ T) (k e : Nat) (hk : T * e ≤ k) : e * (T - N) ^ k ≤ T ^ k := by
  rcases Nat.eq_zero_or_pos e with rfl | he
  · simp
  obtain ⟨a, rfl⟩ : ∃ a, T = a + 1 := ⟨T - 1, by omega⟩
  obtain ⟨j, rfl⟩ : ∃ j, k = j + 1 := ⟨k - 1, by
    have : 0 < (a + 1) * e := Nat.mul_pos (Nat.succ_pos a) he
    omega⟩
  calc e * (a + 1 - N) ^ (j + 1) ≤ e * a ^ (j + 1) := Nat.mul_le_mul_left _ (Nat.pow_le_pow_left (by omega) _)
    _ = a ^ j * (a * e) := by ring
    _ ≤ a ^ j * (a + j + 1) := Nat.mul_le_mul_left _ (by nlinarith)
    _ ≤ _ := pow_grows a j

end Irs
end DE
