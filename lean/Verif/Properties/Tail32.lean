import Verif.Model.Tail32
import Mathlib.Data.Nat.Basic
import Mathlib.Tactic.Common
import Mathlib.Tactic.NormNum

/-!
C47: appends past 2^31 records.
-/

namespace DE.Tail32
variable {cap t : BitVec 64}

/-- The append of position `t` succeeds and writes where a view will look for it. -/
def Right (cap t : BitVec 64) : Prop := slot cap t = some (lookAt cap t)

instance : Decidable (Right cap t) := by unfold Right; infer_instance

theorem narrow_toNat (t : BitVec 64) : (narrow t).toNat = t.toNat % 2 ^ 32 := BitVec.toNat_setWidth ..

theorem narrow_neg (t : BitVec 64) : narrow t = -1#32 ↔ t.toNat % 2 ^ 32 = 2 ^ 32 - 1 := by
  rw [← BitVec.toNat_inj, narrow_toNat]
  rfl

theorem wide_toNat (t : BitVec 64) : ((narrow t).signExtend 64).toNat =
    if t.toNat % 2 ^ 32 < 2 ^ 31 then t.toNat % 2 ^ 32 else t.toNat % 2 ^ 32 + (2 ^ 64 - 2 ^ 32) := by
  rw [BitVec.toNat_signExtend, BitVec.toNat_setWidth, narrow_toNat]
  have hm : (narrow t).msb = decide (2 ^ 31 ≤ t.toNat % 2 ^ 32) := by
    rw [BitVec.msb_eq_decide, narrow_toNat]
  rw [hm]
  have hlt : t.toNat % 2 ^ 32 < 2 ^ 32 := Nat.mod_lt _ (by norm_num)
  rw [Nat.mod_eq_of_lt (a := t.toNat % 2 ^ 32) (b := 2 ^ 64) (by omega)]
  by_cases h : t.toNat % 2 ^ 32 < 2 ^ 31
  · rw [if_pos h, if_neg (by simpa using h)]; omega
  · rw [if_neg h, if_pos (by simpa using h)]

/-- What `append` does, exactly: it fails for every position congruent to -1 modulo 2^32, and otherwise it is right if and only if
the sign-extended lower half agrees with the position modulo the capacity. -/
theorem C47_exact (_hc : cap.toNat ≠ 0) : Right cap t ↔ t.toNat % 2 ^ 32 ≠ 2 ^ 32 - 1 ∧
    (if t.toNat % 2 ^ 32 < 2 ^ 31 then t.toNat % 2 ^ 32 else t.toNat % 2 ^ 32 + (2 ^ 64 - 2 ^ 32)) % cap.toNat = t.toNat % cap.toNat := by
  unfold Right slot lookAt
  by_cases hn : narrow t = -1#32
  · rw [if_pos hn]
    have := (narrow_neg t).mp hn
    exact ⟨fun h => (by cases h), fun h => absurd this h.1⟩
  · rw [if_neg hn]
    have h1 := mt (narrow_neg t).mpr hn
    rw [Option.some_inj, ← BitVec.toNat_inj, BitVec.toNat_umod, BitVec.toNat_umod, wide_toNat]
    exact ⟨fun h => ⟨h1, h⟩, fun h => h.2⟩

/-- Below 2^31 every append is right. -/
theorem C47_partial (ht : t.toNat < 2 ^ 31) (hc : cap.toNat ≠ 0) : Right cap t := by
  have e : t.toNat % 2 ^ 32 = t.toNat := Nat.mod_eq_of_lt (by omega)
  rw [C47_exact hc, e, if_pos ht]
  exact ⟨by omega, rfl⟩

/-- With a capacity that is a power of two, at most 2^32, every append is right except those congruent to -1 modulo 2^32. -/
theorem C47_pow2_partial {k : Nat} (hk : k ≤ 32) (hc : cap.toNat = 2 ^ k) : Right cap t ↔ t.toNat % 2 ^ 32 ≠ 2 ^ 32 - 1 := by
  have h0 : cap.toNat ≠ 0 := by rw [hc]; exact Nat.two_pow_pos k |>.ne'
  rw [C47_exact h0]
  refine ⟨fun h => h.1, fun h => ⟨h, ?_⟩⟩
  rw [hc]
  have d1 : 2 ^ k ∣ 2 ^ 32 := Nat.pow_dvd_pow 2 hk
  have d2 : 2 ^ k ∣ 2 ^ 64 - 2 ^ 32 := d1.trans ⟨2 ^ 32 - 1, by norm_num⟩
  have e1 : t.toNat % 2 ^ 32 % 2 ^ k = t.toNat % 2 ^ k := Nat.mod_mod_of_dvd _ d1
  split
  · exact e1
  · obtain ⟨c, hc⟩ := d2
    rw [hc, Nat.add_mul_mod_self_left, e1]

/-- False for every capacity: the append of position 2^32 - 1 reports failure, although the tail has been advanced over its slot. -/
theorem C47_false : ∀ cap : BitVec 64, ¬ Right cap 4294967295#64 := by
  intro cap h
  have : slot cap 4294967295#64 = none := by
    unfold slot
    rw [if_pos (by decide)]
  rw [Right, this] at h
  cases h

/-- And with a watermark of 1000 (capacity 2000) the very first append past 2^31 writes to a slot where nobody will look. -/
theorem C47_false_slot : slot 2000#64 2147483648#64 = some 1968#64 ∧ lookAt 2000#64 2147483648#64 = 1648#64 := by decide

/-- In fact every append from 2^31 up to 2^32 is wrong unless the capacity divides 2^64 - 2^32. -/
theorem C47_false_half (h1 : 2 ^ 31 ≤ t.toNat) (h2 : t.toNat < 2 ^ 32) (hc : cap.toNat ≠ 0) (hd : ¬ cap.toNat ∣ 2 ^ 64 - 2 ^ 32) :
    ¬ Right cap t := by
  have e : t.toNat % 2 ^ 32 = t.toNat := Nat.mod_eq_of_lt h2
  rw [C47_exact hc, e, if_neg (by omega)]
  rintro ⟨-, h⟩
  apply hd
  have := (Nat.dvd_iff_mod_eq_zero ..).mpr (Nat.sub_mod_eq_zero_of_mod_eq h)
  rwa [Nat.add_sub_cancel_left] at this

example : Right 2000#64 123456789#64 := C47_partial (by decide) (by decide)
example : Right 4096#64 3000000000#64 := (C47_pow2_partial (k := 12) (by decide) (by decide)).mpr (by decide)
example : ¬ (2000#64).toNat ∣ 2 ^ 64 - 2 ^ 32 := by decide

end DE.Tail32
