import Verif.Model.Record

/-! Header bits. -/

namespace DE

theorem one_bit (i : Nat) (hi : i < 32) : (1#32)[i]'hi = decide (i = 0) := by
  have key : ∀ j : Fin 32, (1#32)[j.1]'j.2 = decide (j.1 = 0) := by decide
  exact key ⟨i, hi⟩
theorem two_bit (i : Nat) (hi : i < 32) : (2#32)[i]'hi = decide (i = 1) := by
  have key : ∀ j : Fin 32, (2#32)[j.1]'j.2 = decide (j.1 = 1) := by decide
  exact key ⟨i, hi⟩
theorem four_bit (i : Nat) (hi : i < 32) : (4#32)[i]'hi = decide (i = 2) := by
  have key : ∀ j : Fin 32, (4#32)[j.1]'j.2 = decide (j.1 = 2) := by decide
  exact key ⟨i, hi⟩
theorem seven_bit (i : Nat) (hi : i < 32) : (7#32)[i]'hi = decide (i < 3) := by
  have key : ∀ j : Fin 32, (7#32)[j.1]'j.2 = decide (j.1 < 3) := by decide
  exact key ⟨i, hi⟩

theorem mask_ne (h m : BitVec 32) (b : Nat) (hb : b < 32) (hm : ∀ i (hi : i < 32), m[i]'hi = decide (i = b)) :
    (h &&& m != 0#32) = h[b]'hb := by
  cases hx : h[b]'hb with
  | false =>
    have : h &&& m = 0#32 := by
      ext i hi
      rw [BitVec.getElem_and, hm]
      by_cases e : i = b
      · subst e; simp [hx]
      · simp [e]
    simp [this]
  | true =>
    have : h &&& m ≠ 0#32 := by
      intro h0
      have : (h &&& m)[b]'hb = false := by rw [h0]; simp
      rw [BitVec.getElem_and, hm, hx] at this
      simp at this
    simpa using this

namespace Wrapped
variable {R : Type} (w : Wrapped R)

theorem isTombstone_bit : w.isTombstone = w.header[0] := mask_ne _ _ 0 (by omega) one_bit
theorem isDeleted_bit : w.isDeleted = w.header[1] := mask_ne _ _ 1 (by omega) two_bit
theorem isVisible_bit : w.isVisible = w.header[2] := mask_ne _ _ 2 (by omega) four_bit

theorem getTimestamp_congr {h g : BitVec 32} (e : ∀ i (hi : i < 32), 3 ≤ i → h[i]'hi = g[i]'hi) :
    (h >>> 3).toNat = (g >>> 3).toNat := by
  congr 1
  ext i hi
  simp only [BitVec.getElem_ushiftRight]
  by_cases h3 : 3 + i < 32
  · rw [BitVec.getLsbD_eq_getElem h3, BitVec.getLsbD_eq_getElem h3]
    exact e _ h3 (by omega)
  · rw [BitVec.getLsbD_of_ge _ _ (by omega), BitVec.getLsbD_of_ge _ _ (by omega)]

theorem setTimestamp_get (ts : Nat) (hts : ts < 2 ^ 29) :
    (w.setTimestamp ts).getTimestamp = w.getTimestamp ||| ts := by
  unfold setTimestamp getTimestamp
  simp only [BitVec.toNat_ushiftRight, BitVec.toNat_or, BitVec.toNat_shiftLeft, BitVec.toNat_ofNat]
  rw [Nat.shiftRight_or_distrib]
  congr 1
  rw [Nat.mod_eq_of_lt (a := ts) (by omega), Nat.shiftLeft_eq, Nat.mod_eq_of_lt (by omega), Nat.shiftRight_eq_div_pow]
  omega

end Wrapped
end DE
