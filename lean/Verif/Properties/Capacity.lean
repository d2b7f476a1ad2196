import Verif.Proofs.Capacity
import Verif.Properties.Shape

/-!
C116: level capacities computed in `double` are those of the layout, and computing them is defined.
-/

namespace DE
variable {R K : Type} [LinearOrder R] [LinearOrder K] [HasKey R K] [Inhabited R]

omit [LinearOrder R] [Inhabited R] in
theorem appends_le (tag : Bool) : ∀ ops : List (Index.Op R), appends tag ops ≤ ops.length
  | [] => by simp [appends]
  | .ins _ :: ops => by have := appends_le tag ops; simp only [appends, List.length_cons]; omega
  | .del _ :: ops => by have := appends_le tag ops; simp only [appends, List.length_cons]; split <;> omega

omit [LinearOrder R] [Inhabited R] in
theorem lwm_flushes_le (tag : Bool) (lwm : Nat) (ops : List (Index.Op R)) : lwm * flushes tag lwm ops ≤ ops.length := by
  have h1 := appends_le tag ops
  have h2 : lwm * flushes tag lwm ops ≤ appends tag ops - 1 := by
    unfold flushes; exact Nat.mul_div_le _ _
  omega

/-- C116 by the height: as long as the capacity of the deepest level is at most 2^53, the program that computes its capacities in
`double` does what the one with exact capacities does, and no conversion is undefined. Any layout, delete policy, shard class.

Missing: large scale factors, `C116_false`. -/
theorem C116_partial {L : Layout} {tag : Bool} {I : ShardImpl R} {lwm hwm sf : Nat} {d0 d : Index R} {ops : List (Index.Op R)} {bs : List Bool}
    {pw : Nat → Nat → Nat} (hpw : PowOk pw) (hnew : Index.new L tag I lwm hwm sf = .ok d0) (hhwm : 1 ≤ hwm) (hsf : 1 ≤ sf)
    (hrun : d0.run ops = .ok (d, bs)) (h : hwm * sf ^ d.height ≤ 2 ^ 53) : CapD.run (capDouble pw) d0 ops = .ok (d, bs) := by
  obtain ⟨hd, -⟩ := new_ok hnew
  apply CapD.run_eq ops hrun
  · intro i hi
    have e1 : d0.str.bufSize = hwm := by rw [hd]
    have e2 : d0.str.sf = sf := by rw [hd]
    rw [e1, e2]
    apply capDouble_exact hpw hsf hhwm
    exact le_trans (Nat.mul_le_mul_left _ (Nat.pow_le_pow_right hsf hi)) h
  · rw [hd]; rfl

/-- C116 for scale factors that are powers of two: the capacities need only fit a `size_t`. Computing one is then exact, and it is undefined
exactly if it does not fit. -/
theorem C116_pow2_partial {L : Layout} {tag : Bool} {I : ShardImpl R} {lwm hwm e : Nat} {d0 d : Index R} {ops : List (Index.Op R)}
    {bs : List Bool} {pw : Nat → Nat → Nat} (hpw : PowOk pw) (hnew : Index.new L tag I lwm hwm (2 ^ e) = .ok d0) (hhwm : hwm < 2 ^ 53) :
    (d0.run ops = .ok (d, bs) → hwm * (2 ^ e) ^ d.height < 2 ^ 64 → CapD.run (capDouble pw) d0 ops = .ok (d, bs)) ∧
    ∀ i, (hwm * (2 ^ e) ^ (i + 1) < 2 ^ 64 → capDouble pw hwm (2 ^ e) i = .ok (hwm * (2 ^ e) ^ (i + 1))) ∧
      (2 ^ 64 ≤ hwm * (2 ^ e) ^ (i + 1) → capDouble pw hwm (2 ^ e) i = .error .ub) := by
  obtain ⟨hd, -⟩ := new_ok hnew
  have hcap : ∀ i, (hwm * (2 ^ e) ^ (i + 1) < 2 ^ 64 → capDouble pw hwm (2 ^ e) i = .ok (hwm * (2 ^ e) ^ (i + 1))) ∧
      (2 ^ 64 ≤ hwm * (2 ^ e) ^ (i + 1) → capDouble pw hwm (2 ^ e) i = .error .ub) := by
    intro i
    rw [capDouble_pow2 hpw hhwm]
    unfold Struct.levelCap
    exact ⟨fun h => if_pos h, fun h => if_neg (Nat.not_lt.mpr h)⟩
  refine ⟨fun hrun h => ?_, hcap⟩
  apply CapD.run_eq ops hrun
  · intro i hi
    have e1 : d0.str.bufSize = hwm := by rw [hd]
    have e2 : d0.str.sf = 2 ^ e := by rw [hd]
    rw [e1, e2]
    apply (hcap i).1
    exact lt_of_le_of_lt (Nat.mul_le_mul_left _ (Nat.pow_le_pow_right (by positivity) hi)) h
  · rw [hd]; rfl

/-- C116 by the number of operations: `hwm * sf^2 * (operations + 1)` up to 2^53 is enough for every layout. -/
theorem C116_ops_partial {L : Layout} {tag : Bool} {pq : PQ R} {lb : LB R K} {lwm hwm sf : Nat} {d0 d : Index R}
    {ops : List (Index.Op R)} {bs : List Bool} {pw : Nat → Nat → Nat} (hpw : PowOk pw)
    (hnew : Index.new L tag (sortedImpl pq lb) lwm hwm sf = .ok d0) (hlwm : 1 ≤ lwm) (hle : lwm ≤ hwm) (hsf : 1 ≤ sf)
    (hrun : d0.run ops = .ok (d, bs)) (h : hwm * sf ^ 2 * (ops.length + 1) ≤ 2 ^ 53) :
    hwm * sf ^ d.height ≤ 2 ^ 53 ∧ CapD.run (capDouble pw) d0 ops = .ok (d, bs) := by
  have hh : 1 ≤ hwm := by omega
  suffices hs : hwm * sf ^ d.height ≤ 2 ^ 53 from ⟨hs, C116_partial hpw hnew hh hsf hrun hs⟩
  refine le_trans ?_ h
  have hfl : flushes tag lwm ops ≤ ops.length := le_trans (Nat.le_mul_of_pos_left _ hlwm) (lwm_flushes_le tag lwm ops)
  have hpos : 0 < sf ^ 2 := Nat.pow_pos hsf
  by_cases h1 : sf = 1
  · subst h1
    rw [Nat.one_pow, Nat.one_pow, Nat.mul_one]
    exact Nat.le_mul_of_pos_right _ (by omega)
  have hsf2 : 2 ≤ sf := by omega
  have hsmall : d.height ≤ 2 → hwm * sf ^ d.height ≤ hwm * sf ^ 2 * (ops.length + 1) := by
    intro h2
    refine le_trans (Nat.mul_le_mul_left _ (Nat.pow_le_pow_right hsf h2)) ?_
    exact Nat.le_mul_of_pos_right _ (by omega)
  cases L with
  | tiering =>
    obtain ⟨k1, -, -⟩ := C16_tiering hnew hlwm hsf hrun
    rcases Nat.eq_zero_or_pos d.height with h0 | h0
    · exact hsmall (by omega)
    · obtain ⟨n, hn⟩ : ∃ n, d.height = n + 1 := ⟨d.height - 1, by omega⟩
      rw [hn] at k1 ⊢
      have k2 := le_trans (pow_le_geom sf n) k1
      calc hwm * sf ^ (n + 1) = hwm * sf * sf ^ n := by ring
        _ ≤ hwm * sf * (ops.length + 1) := Nat.mul_le_mul_left _ (by omega)
        _ ≤ hwm * sf ^ 2 * (ops.length + 1) := by
          apply Nat.mul_le_mul_right
          apply Nat.mul_le_mul_left
          exact Nat.le_self_pow (by omega) sf
  | leveling =>
    obtain ⟨-, -, k1, -⟩ := C16_leveling hnew hlwm hsf2 hrun
    by_cases h3 : 3 ≤ d.height
    · obtain ⟨n, hn⟩ : ∃ n, d.height = n + 1 := ⟨d.height - 1, by omega⟩
      have k2 := k1 h3
      rw [hn, Nat.add_sub_cancel] at k2
      rw [hn]
      have k3 := lwm_flushes_le tag lwm ops
      calc hwm * sf ^ (n + 1) = sf * (hwm * sf ^ n) := by ring
        _ ≤ sf * (ops.length + 1) := Nat.mul_le_mul_left _ (by omega)
        _ ≤ hwm * sf ^ 2 * (ops.length + 1) := by
          apply Nat.mul_le_mul_right
          exact le_trans (Nat.le_self_pow (by omega) sf) (Nat.le_mul_of_pos_left _ hh)
    · exact hsmall (by omega)
  | bsm =>
    have k1 := C16_bsm hnew hlwm hrun
    have hs2 : sf = 2 := by
      unfold Index.new at hnew
      simp only [bind_ok, if_true] at hnew
      obtain ⟨b, -, u, h2, -⟩ := hnew
      unfold assertC at h2
      split at h2
      · next hc => simpa using hc
      · cases h2
    subst hs2
    rcases Nat.eq_zero_or_pos (flushes tag lwm ops) with h0 | h0
    · rw [h0] at k1
      exact hsmall (by simpa using k1)
    · have k2 : 2 ^ Nat.log 2 (flushes tag lwm ops) ≤ flushes tag lwm ops := Nat.pow_log_le_self 2 (by omega)
      calc hwm * 2 ^ d.height ≤ hwm * 2 ^ (Nat.log 2 (flushes tag lwm ops) + 2) :=
            Nat.mul_le_mul_left _ (Nat.pow_le_pow_right (by omega) k1)
        _ = hwm * 2 ^ 2 * 2 ^ Nat.log 2 (flushes tag lwm ops) := by rw [pow_add]; ring
        _ ≤ hwm * 2 ^ 2 * (ops.length + 1) := Nat.mul_le_mul_left _ (by omega)

omit [LinearOrder R] [Inhabited R] in
/-- C116: the check of the tombstone proportion is then the exact one as well. -/
theorem C116_validate_partial {pw : Nat → Nat → Nat} (hpw : PowOk pw) {st : Struct R} (hhwm : 1 ≤ st.bufSize) (hsf : 1 ≤ st.sf)
    (h : st.bufSize * st.sf ^ st.height ≤ 2 ^ 53) : CapD.validateFrom (capDouble pw) st 0 st.levels = .ok st.validate := by
  have hgen : ∀ (ls : List (Level R)) (i : Nat), i + ls.length ≤ st.height →
      CapD.validateFrom (capDouble pw) st i ls = .ok (st.validateFrom i ls) := by
    intro ls
    induction ls with
    | nil => intro i _; rfl
    | cons l ls ih =>
      intro i hi
      rw [List.length_cons] at hi
      unfold CapD.validateFrom Struct.validateFrom
      rw [capDouble_exact hpw hsf hhwm (le_trans (Nat.mul_le_mul_left _ (Nat.pow_le_pow_right hsf (by omega : i + 1 ≤ st.height))) h)]
      simp only [bind, Except.bind]
      by_cases hc : l.tombstoneCount ≤ Struct.levelCap st.bufSize st.sf i
      · rw [if_pos hc, ih (i + 1) (by omega)]
        simp [hc]
      · rw [if_neg hc]
        simp [hc]
  exact hgen st.levels 0 (by simp [Struct.height])

/-- A `pow` that rounds correctly meets the contract. -/
theorem powStd_ok : PowOk powStd := fun _ _ h => h

/-- C116 is false for large scale factors: with buffer size 2 and scale factor 2^63 the capacity of level 0 is 2^64, whose conversion
to `size_t` is undefined, and the third insert computes it. -/
theorem C116_false : ∃ d0 d : Index Rec, mk .leveling false 2 2 (2 ^ 63) = .ok d0 ∧ d0.run (insSeq 1 3) = .ok (d, [true, true, true]) ∧
    CapD.run (capDouble powStd) d0 (insSeq 1 3) = .error .ub ∧ ∀ pw, PowOk pw → capDouble pw 2 (2 ^ 63) 0 = .error .ub :=
  ⟨_, _, rfl, rfl, rfl, fun pw h => by
    have e : pw (rd53 (2 ^ 63)) 1 = 2 ^ 63 := by
      rw [show rd53 (2 ^ 63) = 2 ^ 63 from by decide, h (2 ^ 63) 1 (by decide), pow_one]
    unfold capDouble
    simp only [Nat.zero_add, e]
    decide⟩

/-- Capacities above 2^53 are not exact: the scale factor itself is rounded. -/
theorem C116_false_inexact : capDouble powStd 3 (2 ^ 53 + 1) 0 = .ok (3 * 2 ^ 53) ∧ Struct.levelCap 3 (2 ^ 53 + 1) 0 = 3 * 2 ^ 53 + 3 := by
  decide

/-- A capacity above 2^53 that is exact, and the next one, which is not defined. -/
example : capDouble powStd 12000 (2 ^ 25) 1 = .ok (12000 * (2 ^ 25) ^ 2) ∧ 2 ^ 53 < 12000 * (2 ^ 25) ^ 2 ∧
    capDouble powStd 12000 (2 ^ 25) 2 = .error .ub := by decide

/-- The hypotheses of `C116_ops_partial`: the settings of the benchmarks and a million operations. -/
example : (12000 * 8 ^ 2 * (1000000 + 1) ≤ 2 ^ 53) := by decide

example : probe .leveling false 2 2 2 (insSeq 0 15) (fun p => .ok (p.1.height, p.1.str.validate)) = .ok (3, true) ∧
    (do let d ← mk .leveling false 2 2 2; let p ← CapD.run (capDouble powStd) d (insSeq 0 15); .ok (p.1.height) : Res Nat) = .ok 3 := by
  decide

end DE
