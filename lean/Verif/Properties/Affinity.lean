import Verif.Model.Affinity

/-!
C107: cores of the reconstructions.
-/

namespace DE

theorem coreCounter_small {k : Nat} (h : k < 2 ^ 31) : ((coreCounter k).signExtend 64).toNat = k := by
  unfold coreCounter
  rw [BitVec.toNat_signExtend, BitVec.toNat_setWidth, BitVec.toNat_ofNat]
  have hm : (BitVec.ofNat 32 k).msb = false := by
    rw [BitVec.msb_eq_decide, BitVec.toNat_ofNat]
    simp; omega
  rw [hm]
  simp; omega

theorem spread {n a b : Nat} (ha : a < n) (hb : b < n)
    (h : (if a % 2 = 0 then a + 0 else (a - 1) + n) = (if b % 2 = 0 then b + 0 else (b - 1) + n)) : a = b := by
  split at h <;> split at h <;> omega

/-- C107: with at least one thread every reconstruction is pinned to a core below twice the thread count, however many there have
been. -/
theorem C107_core_partial {n : Nat} (hn : 1 ≤ n) (k : Nat) : ∃ c, jobCore n k = .ok c ∧ c < 2 * n := by
  unfold jobCore pinnedCore nextCore
  rw [if_neg (by omega)]
  refine ⟨_, rfl, ?_⟩
  have := Nat.mod_lt ((coreCounter k).signExtend 64).toNat (show n > 0 by omega)
  split <;> omega

/-- C107: with at least one thread, and before the counter overflows, as many consecutive reconstructions as there are threads have
different cores, and the reconstruction after those has the core of the first again. Missing: `thread_cnt = 0` and more than 2^31
reconstructions (`C107_false_zero`, `C107_false_wrap`). -/
theorem C107_partial {n : Nat} (hn : 1 ≤ n) :
    (∀ i j, i < j → j < i + n → j < 2 ^ 31 → jobCore n i ≠ jobCore n j) ∧
    (∀ i, i + n < 2 ^ 31 → jobCore n (i + n) = jobCore n i) := by
  have ev : ∀ k, k < 2 ^ 31 → jobCore n k = .ok (if (k % n) % 2 = 0 then k % n + 0 else (k % n - 1) + n) := by
    intro k hk
    unfold jobCore pinnedCore nextCore
    rw [if_neg (by omega), coreCounter_small hk]
    rfl
  refine ⟨?_, ?_⟩
  · intro i j hij hjn hj h
    rw [ev i (by omega), ev j hj] at h
    have h := spread (Nat.mod_lt i (by omega)) (Nat.mod_lt j (by omega)) (Except.ok.inj h)
    obtain ⟨k, rfl⟩ : ∃ k, j = i + k := ⟨j - i, by omega⟩
    have e1 := Nat.div_add_mod i n
    have e2 := Nat.div_add_mod (i + k) n
    have hq : i / n ≤ (i + k) / n := Nat.div_le_div_right (by omega)
    rcases Nat.eq_or_lt_of_le hq with hq | hq
    · rw [hq] at e1; omega
    · have := Nat.mul_le_mul_left n hq
      rw [Nat.mul_succ] at this
      omega
  · intro i hi
    rw [ev i (by omega), ev (i + n) hi, Nat.add_mod_right]

example : (List.range 8).map (jobCore 5) = [.ok 0, .ok 5, .ok 2, .ok 7, .ok 4, .ok 0, .ok 5, .ok 2] := by decide

/-- C107 is false for `thread_cnt = 0`, which the scheduler takes as "use the default number of threads": the first reconstruction
divides by zero. -/
theorem C107_false_zero : ∃ n, ∀ k, jobCore n k = .error .ub := ⟨0, fun _ => rfl⟩

/-- C107 is false when the counter passes -1: two reconstructions in a row have the same core although there are three. -/
theorem C107_false_wrap : ∃ n k, 1 < n ∧ jobCore n k = jobCore n (k + 1) := by
  refine ⟨3, 2 ^ 32 - 1, by decide, ?_⟩
  decide

end DE
