import Verif.Proofs.IntCoords
import Verif.Properties.Rounding

/-!
C112 (distances and k-NN queries over points with coordinates of any integer type).
-/

namespace DE

/-- The greatest difference of two coordinates whose square the computation can hold. Types narrower than `int` compute as `int`. -/
def maxDiff (t : IntTy) : Int :=
  match t.bits, t.signed with
  | 64, false => 4294967295
  | 64, true => 3037000499
  | 32, false => 65535
  | _, _ => 46340

/-- `calc_distance`, where it is defined. -/
noncomputable def distI (rd : ℝ → ℝ) (t : IntTy) {D : Nat} (a b : Fin D → Int) : Fl rd := (euclidI rd t a b).toOption.getD 0

theorem sq_le_sq_iff {d m : Int} (hm : 0 ≤ m) {h : Int} (h1 : m * m ≤ h) (h2 : h < (m + 1) * (m + 1)) :
    d * d ≤ h ↔ -m ≤ d ∧ d ≤ m := by
  constructor
  · intro hd
    constructor <;> by_contra hc <;> nlinarith
  · rintro ⟨h3, h4⟩
    nlinarith

theorem fits_iff {t : IntTy} (ht : t.Std) (d : Int) : d * d ≤ t.promote.hi ↔ -maxDiff t ≤ d ∧ d ≤ maxDiff t := by
  obtain ⟨bits, signed⟩ := t
  rcases ht with h | h | h | h <;> obtain rfl : bits = _ := h <;> cases signed <;>
    exact sq_le_sq_iff (by decide) (by decide) (by decide)

/-- C112: `calc_distance` of points with signed coordinates, or with unsigned ones narrower than `int`, is defined exactly if no two
coordinates differ by more than `maxDiff`. -/
theorem C112_defined_iff {rd : ℝ → ℝ} {t : IntTy} (ht : t.Std) (hs : t.signed = true ∨ t.bits < 32) {D : Nat} (a b : Fin D → Int) :
    (∃ x, euclidI rd t a b = .ok x) ↔ ∀ i, -maxDiff t ≤ a i - b i ∧ a i - b i ≤ maxDiff t := by
  have hp : t.promote.signed = true := by
    unfold IntTy.promote
    split
    · rfl
    · rcases hs with h | h
      · exact h
      · contradiction
  constructor
  · rintro ⟨x, hx⟩ i
    rw [← fits_iff ht]
    by_contra hc
    rw [euclidI_ub hp (not_le.mp hc)] at hx
    simp at hx
  · intro h
    exact ⟨_, by unfold euclidI; rw [sumInts_ok (fun i => IntTy.sqDiff_fits ht ((fits_iff ht _).mpr (h i)))]; rfl⟩

/-- C112, partial: for `EuclidPoint<V, D>` with any integer type `V` and coordinates that differ by at most `maxDiff` in each dimension,
all distances among the records and to the query point are defined and, after any inserts on any layout, a k-NN query returns nearest
records up to the rounding errors of the sum and the root.
Missing: larger differences, which are undefined behaviour (`C112_false`, `C112_defined_iff`) or wrap (`C112_false_wraps`). -/
theorem C112_partial {rd : ℝ → ℝ} {u : ℝ} (hrd : Rounds rd u) {t : IntTy} (ht : t.Std) {D : Nat} {q : MaxQ (Fin D → Int) (Fl rd)} (hq : q.Ok)
    {leafSz : Nat} {g0 : Rng} {L : Layout} {tag : Bool} {lwm hwm sf : Nat} {d0 : Index (Fin D → Int)}
    (hnew : Index.new L tag (vpImpl (distI rd t) leafSz g0) lwm hwm sf = .ok d0) (hlwm : 1 ≤ lwm) (hsf : 1 ≤ sf)
    {ops : List (Index.Op (Fin D → Int))} (hins : InsertOnly ops) (g : Shard (Fin D → Int) → Rng) (hg : ∀ s, ops.length ≤ (g s).max)
    (point : Fin D → Int) {c : Fin D → Int} (hb : ∀ x, .ins x ∈ ops → ∀ i, c i ≤ x i ∧ x i ≤ c i + maxDiff t)
    (hbp : ∀ i, c i ≤ point i ∧ point i ≤ c i + maxDiff t)
    {M : ℝ} (hM0 : 0 ≤ M) (hM : ∀ x y, .ins x ∈ ops → .ins y ∈ ops → Point.euclid (IntPt.pt x) (IntPt.pt y) ≤ M)
    (hMp : ∀ x, .ins x ∈ ops → Point.euclid (IntPt.pt x) (IntPt.pt point) ≤ M) {k : Nat} (hk : 1 ≤ k) :
    (∀ x y, (.ins x ∈ ops ∨ x = point) → (.ins y ∈ ops ∨ y = point) → euclidI rd t x y = .ok (distI rd t x y)) ∧
    ∃ d res, d0.run ops = .ok (d, List.replicate ops.length true) ∧
      d.knn q (distI rd t) (fun s => VP.tree (distI rd t) leafSz (g s) s.data) point k = .ok res ∧
      KApprox k (fun y => Point.euclid (IntPt.pt y) (IntPt.pt point)) (slack u D M) (inserted ops) res := by
  have hδ : Metric (fun x y : Fin D → Int => Point.euclid (IntPt.pt x) (IntPt.pt y)) :=
    ⟨fun x y => Point.euclid_metric.symm _ _, fun x y z => Point.euclid_metric.tri _ _ _⟩
  have hsym : ∀ x y : Fin D → Int, distI rd t x y = distI rd t y x := fun x y => by unfold distI; rw [euclidI_symm ht]
  have hbb : ∀ x, (.ins x ∈ ops ∨ x = point) → ∀ i, c i ≤ x i ∧ x i ≤ c i + maxDiff t := by
    rintro x (h | rfl)
    · exact hb x h
    · exact hbp
  have hw : ∀ x y, (.ins x ∈ ops ∨ x = point) → (.ins y ∈ ops ∨ y = point) → euclidI rd t x y = .ok (distI rd t x y) ∧
      Within u (D + 4) (Point.euclid (IntPt.pt x) (IntPt.pt y)) (distI rd t x y).val := by
    intro x y hx hy
    obtain ⟨z, hz, hzw⟩ := euclidI_within hrd ht (a := x) (b := y) (fun i => (fits_iff ht _).mpr (by
      have := hbb x hx i
      have := hbb y hy i
      omega))
    have e : distI rd t x y = z := by unfold distI; rw [hz]; rfl
    rw [e]
    exact ⟨hz, hzw⟩
  refine ⟨fun x y hx hy => (hw x y hx hy).1, ?_⟩
  have hc := closeTo_of_within hrd (n := D + 4) (dist := distI rd t) (δ := fun x y : Fin D → Int => Point.euclid (IntPt.pt x) (IntPt.pt y))
    (point := point) (P := fun x => .ins x ∈ ops) hsym
    (fun x y hx hy => (hw x y (.inl hx) (.inl hy)).2) (fun x hx => (hw x point (.inl hx) (.inr rfl)).2) hM hMp
  obtain ⟨p1, p2⟩ := hrd.slack_pos hM0 (D + 4)
  exact C98_inserted hq hδ hnew hlwm hsf hins g hg p1 p2 hc hk

/-- C112 for bytes: coordinates of 8 bits, signed or not, can never be too far apart. -/
theorem C112_bytes {rd : ℝ → ℝ} {u : ℝ} (hrd : Rounds rd u) {t : IntTy} (ht : t.bits = 8) {D : Nat} {q : MaxQ (Fin D → Int) (Fl rd)} (hq : q.Ok)
    {leafSz : Nat} {g0 : Rng} {L : Layout} {tag : Bool} {lwm hwm sf : Nat} {d0 : Index (Fin D → Int)}
    (hnew : Index.new L tag (vpImpl (distI rd t) leafSz g0) lwm hwm sf = .ok d0) (hlwm : 1 ≤ lwm) (hsf : 1 ≤ sf)
    {ops : List (Index.Op (Fin D → Int))} (hins : InsertOnly ops) (g : Shard (Fin D → Int) → Rng) (hg : ∀ s, ops.length ≤ (g s).max)
    (point : Fin D → Int) (hb : ∀ x, .ins x ∈ ops → ∀ i, t.Holds (x i)) (hbp : ∀ i, t.Holds (point i))
    {M : ℝ} (hM0 : 0 ≤ M) (hM : ∀ x y, .ins x ∈ ops → .ins y ∈ ops → Point.euclid (IntPt.pt x) (IntPt.pt y) ≤ M)
    (hMp : ∀ x, .ins x ∈ ops → Point.euclid (IntPt.pt x) (IntPt.pt point) ≤ M) {k : Nat} (hk : 1 ≤ k) :
    (∀ x y, (.ins x ∈ ops ∨ x = point) → (.ins y ∈ ops ∨ y = point) → euclidI rd t x y = .ok (distI rd t x y)) ∧
    ∃ d res, d0.run ops = .ok (d, List.replicate ops.length true) ∧
      d.knn q (distI rd t) (fun s => VP.tree (distI rd t) leafSz (g s) s.data) point k = .ok res ∧
      KApprox k (fun y => Point.euclid (IntPt.pt y) (IntPt.pt point)) (slack u D M) (inserted ops) res := by
  have key : ∀ x, t.Holds x → (-128 : Int) ≤ x ∧ x ≤ -128 + maxDiff t := by
    intro x hx
    obtain ⟨bits, signed⟩ := t
    obtain rfl : bits = 8 := ht
    cases signed <;> simp only [IntTy.Holds, IntTy.lo, IntTy.hi, maxDiff] at * <;> norm_num at * <;> omega
  exact C112_partial hrd (.inl ht) hq hnew hlwm hsf hins g hg point (c := fun _ => -128) (fun x hx i => key _ (hb x hx i))
    (fun i => key _ (hbp i)) hM0 hM hMp hk

/-- The point of one coordinate. -/
def intPt (x : Int) : Fin 1 → Int := fun _ => x

/-- C112 is false: for coordinates of type `int` or `int16_t`, and for the unsigned `uint16_t`, the distance between 0 and a number as small
as 46341 overflows, which is undefined behaviour; for `int64_t` the distance between 0 and 3037000500. All the coordinates are values of
their types (for `int16_t` the points are -20000 and 26341). -/
theorem C112_false (rd : ℝ → ℝ) :
    euclidI rd ⟨32, true⟩ (intPt 46341) (intPt 0) = .error .ub ∧ euclidI rd ⟨16, false⟩ (intPt 46341) (intPt 0) = .error .ub ∧
    euclidI rd ⟨16, true⟩ (intPt 26341) (intPt (-20000)) = .error .ub ∧ euclidI rd ⟨64, true⟩ (intPt 3037000500) (intPt 0) = .error .ub ∧
    IntTy.Holds ⟨32, true⟩ 46341 ∧ IntTy.Holds ⟨16, false⟩ 46341 ∧ IntTy.Holds ⟨16, true⟩ 26341 ∧ IntTy.Holds ⟨16, true⟩ (-20000) ∧
    IntTy.Holds ⟨64, true⟩ 3037000500 :=
  ⟨euclidI_ub rfl (i := 0) (by decide), euclidI_ub rfl (i := 0) (by decide), euclidI_ub rfl (i := 0) (by decide),
    euclidI_ub rfl (i := 0) (by decide), by decide, by decide, by decide, by decide, by decide⟩

/-- C112 is false: for coordinates of type `uint32_t` the distance between 0 and 65536 is computed as 0, between 0 and 1 it is not. -/
theorem C112_false_wraps {rd : ℝ → ℝ} {u : ℝ} (hrd : Rounds rd u) (hu : u < 1) :
    (∃ x, euclidI rd ⟨32, false⟩ (intPt 65536) (intPt 0) = .ok x ∧ x.val = 0) ∧
    ∃ y, euclidI rd ⟨32, false⟩ (intPt 1) (intPt 0) = .ok y ∧ 0 < y.val := by
  have z : rd 0 = 0 := by
    have := hrd.err 0
    simpa using this
  constructor
  · refine ⟨_, by unfold euclidI; rw [sumInts_ok (fun i => IntTy.sqDiff_wraps rfl _ _)]; rfl, ?_⟩
    rw [foldl_one]
    have e : ((intPt 65536 0 - intPt 0 0) * (intPt 65536 0 - intPt 0 0) % 2 ^ (IntTy.promote ⟨32, false⟩).bits : Int) = 0 := by decide
    simp [Fl.sqrt, Fl.add_val, Fl.zero_val, z, e]
  · obtain ⟨y, hy, hw⟩ := euclidI_within hrd (t := ⟨32, false⟩) (.inr (.inr (.inl rfl))) (a := intPt 1) (b := intPt 0) (fun i => by
      simp only [intPt]; decide)
    refine ⟨y, hy, lt_of_lt_of_le ?_ hw.2.1⟩
    have e : Point.euclid (IntPt.pt (intPt 1)) (IntPt.pt (intPt 0)) = 1 := by
      simp [Point.euclid, Point.accum, IntPt.pt, intPt, List.finRange_succ]
    rw [e, mul_one]
    exact pow_pos (by linarith) _

/-- C112, cosine: the three sums are defined if the products fit; for bytes they always do. -/
theorem C112_cosine {rd : ℝ → ℝ} {t : IntTy} (ht : t.bits = 8) {D : Nat} {a b : Fin D → Int} (ha : ∀ i, t.Holds (a i)) (hb : ∀ i, t.Holds (b i)) :
    cosineSums rd t a b = .ok ((List.finRange D).foldl (fun s i => s + ⟨rd ((a i * b i : Int) : ℝ)⟩) 0,
      (List.finRange D).foldl (fun s i => s + ⟨rd ((a i * a i : Int) : ℝ)⟩) 0, (List.finRange D).foldl (fun s i => s + ⟨rd ((b i * b i : Int) : ℝ)⟩) 0) := by
  have key : ∀ x y, t.Holds x → t.Holds y → t.prod x y = .ok (x * y) := by
    intro x y hx hy
    unfold IntTy.prod
    obtain ⟨bits, signed⟩ := t
    obtain rfl : bits = 8 := ht
    apply IntTy.result_ok _ (.inl rfl)
    have h1 : (-128 : Int) ≤ x ∧ x ≤ 255 := by
      cases signed <;> simp only [IntTy.Holds, IntTy.lo, IntTy.hi] at hx <;> norm_num at hx <;> omega
    have h2 : (-128 : Int) ≤ y ∧ y ≤ 255 := by
      cases signed <;> simp only [IntTy.Holds, IntTy.lo, IntTy.hi] at hy <;> norm_num at hy <;> omega
    show (-2147483648 : Int) ≤ x * y ∧ x * y ≤ 2147483647
    constructor <;> nlinarith
  unfold cosineSums
  rw [sumInts_ok (fun i => key _ _ (ha i) (hb i)), sumInts_ok (fun i => key _ _ (ha i) (ha i)), sumInts_ok (fun i => key _ _ (hb i) (hb i))]
  rfl

/-- For `uint16_t` even the norm of the point 46341 is undefined. -/
theorem C112_false_cosine (rd : ℝ → ℝ) : cosineSums rd ⟨16, false⟩ (intPt 46341) (intPt 46341) = .error .ub := by
  have e : sumInts rd (fun i : Fin 1 => IntTy.prod ⟨16, false⟩ (intPt 46341 i) (intPt 46341 i)) = .error .ub :=
    sumInts_err (i := 0) (fun i e he => by
      have : IntTy.prod ⟨16, false⟩ (intPt 46341 i) (intPt 46341 i) = .error .ub := by
        simp only [intPt]; decide
      rw [this] at he
      exact (Except.error.inj he).symm) (by simp only [intPt]; decide)
  unfold cosineSums
  rw [e]
  rfl

/-- The hypotheses of `C112_partial` are met by coordinates of type `int` in a cube of side 46340. -/
example : ∀ x, (Index.Op.ins x) ∈ [Index.Op.ins (intPt (-20000)), Index.Op.ins (intPt 26340)] →
    ∀ i, (fun _ => -20000 : Fin 1 → Int) i ≤ x i ∧ x i ≤ (fun _ => -20000 : Fin 1 → Int) i + maxDiff ⟨32, true⟩ := by
  intro x hx i
  simp only [List.mem_cons, List.not_mem_nil, or_false, Index.Op.ins.injEq] at hx
  rcases hx with rfl | rfl <;> simp only [intPt] <;> decide

end DE
