import Verif.Proofs.Rounding
import Verif.Properties.VPTree
import Mathlib.Tactic.NormNum

/-!
C98 (k-NN with rounded distances) and C99 (k-NN over points with unsigned integer coordinates).
-/

namespace DE
variable {R 𝔽 : Type} [LinearOrder 𝔽]

/-- The arithmetic of the search is close to exact on the records of `P` and the query point: `val` reads a computed number, `dist` is
the computed distance, `δ` the true one. -/
structure CloseTo [Add 𝔽] [Sub 𝔽] (val : 𝔽 → ℝ) (dist : R → R → 𝔽) (δ : R → R → ℝ) (point : R) (P : R → Prop) (ε η : ℝ) : Prop where
  mono : ∀ a b, a ≤ b ↔ val a ≤ val b
  symm : ∀ x y, dist x y = dist y x
  err : ∀ x y, P x → P y → |val (dist x y) - δ x y| ≤ ε
  errp : ∀ x, P x → |val (dist x point) - δ x point| ≤ ε
  add : ∀ x y, P x → P y → |val (dist x point + dist y point) - (val (dist x point) + val (dist y point))| ≤ η
  sub : ∀ x y, P x → P y → |val (dist x point - dist y point) - (val (dist x point) - val (dist y point))| ≤ η

variable [Add 𝔽] [Sub 𝔽] {val : 𝔽 → ℝ} {dist : R → R → 𝔽} {δ : R → R → ℝ} {point : R} {P : R → Prop} {ε η : ℝ}

theorem CloseTo.prunes (h : CloseTo val dist δ point P ε η) (hδ : Metric δ) :
    VP.Prunes (fun a b => val a ≤ val b + (η + 3 * ε)) dist point P where
  inside := by
    intro v y m r hv hy hm h1 h2
    rw [h.mono] at h1 h2
    rw [h.symm point v] at h2
    have e1 := abs_le.mp (h.err v y hv hy)
    have e2 := abs_le.mp (h.errp v hv)
    have e3 := abs_le.mp (h.errp y hy)
    have e4 := abs_le.mp (h.sub v m hv hm)
    have t := hδ.tri v y point
    linarith [e1.1, e1.2, e2.1, e2.2, e3.1, e3.2, e4.1, e4.2, not_le.mp h2]
  outside := by
    intro v y m r hv hy hm h1 h2
    rw [ge_iff_le] at h2
    rw [h.mono] at h1 h2
    rw [h.symm point v] at h2
    have e1 := abs_le.mp (h.err v y hv hy)
    have e2 := abs_le.mp (h.errp v hv)
    have e3 := abs_le.mp (h.errp y hy)
    have e4 := abs_le.mp (h.add v m hv hm)
    have t := hδ.tri v point y
    rw [hδ.symm point y] at t
    linarith [e1.1, e1.2, e2.1, e2.2, e3.1, e3.2, e4.1, e4.2, not_le.mp h2]

theorem CloseTo.weak (h : CloseTo val dist δ point P ε η) (hη : 0 ≤ η + 3 * ε) : Weak (fun a b : 𝔽 => val a ≤ val b + (η + 3 * ε)) where
  of_le := fun {a b} hab => by have := (h.mono a b).mp hab; linarith
  left := fun {a b c} hab hbc => by have := (h.mono a b).mp hab; linarith

theorem CloseTo.answer (h : CloseTo val dist δ point P ε η) {k : Nat} {data res : List R} (hd : ∀ x ∈ data, P x)
    (hk : KNear k (fun y => dist y point) (fun a b => val a ≤ val b + (η + 3 * ε)) data res) :
    KApprox k (fun y => δ y point) (η + 5 * ε) data res := by
  obtain ⟨rest, h1, h2, h3⟩ := hk
  refine ⟨rest, h1, h2, fun x hx y hy => ?_⟩
  have e1 := abs_le.mp (h.errp x (hd x (h1.mem_iff.mpr (List.mem_append_left _ hx))))
  have e2 := abs_le.mp (h.errp y (hd y (h1.mem_iff.mpr (List.mem_append_right _ hy))))
  linarith [h3 x hx y hy, e1.1, e1.2, e2.1, e2.2]

/-- C98: whatever the layout, shards and tags, if the computed distances are within `ε` of a metric and the additions and subtractions of
the search within `η` of exact, then the k-NN query returns `k` records, none of which is farther than a record left out by more than
`η + 5 ε`, farthest first by computed distance. The error does not grow with the number of records, the depth of the trees or the number of
shards. -/
theorem C98_knn_index [Zero 𝔽] {q : MaxQ R 𝔽} (hq : q.Ok) (hδ : Metric δ) (leafSz : Nat) (g : Shard R → Rng) {d : Index R} (hb : d.buf.WF)
    (hg : ∀ s ∈ d.str.visible, s.data.length ≤ (g s).max) (hε : 0 ≤ ε) (hη : 0 ≤ η)
    (hc : CloseTo val dist δ point (fun x => x ∈ d.knnData) ε η) {k : Nat} (hk : 1 ≤ k) :
    ∃ res, d.knn q dist (fun s => VP.tree dist leafSz (g s) s.data) point k = .ok res ∧
      KApprox k (fun y => δ y point) (η + 5 * ε) d.knnData res ∧ res.Pairwise (fun a b => dist b point ≤ dist a point) := by
  obtain ⟨res, h1, h2, h3⟩ := (knn_goodW (safe := True) (hc.weak (by linarith)) hq hc.symm (hc.prunes hδ) hk hb (fun x hx => hx)
    (fun _ => hg) (leafSz := leafSz)).safe trivial
  exact ⟨res, h1, hc.answer (fun x hx => hx) h2, h3⟩

/-- C98, insert-only: for any layout, buffer sizes, scale factor and inserted records. -/
theorem C98_inserted [Zero 𝔽] [DecidableEq R] [Inhabited R] {q : MaxQ R 𝔽} (hq : q.Ok) (hδ : Metric δ)
    {leafSz : Nat} {g0 : Rng} {L : Layout} {tag : Bool} {lwm hwm sf : Nat} {d0 : Index R}
    (hnew : Index.new L tag (vpImpl dist leafSz g0) lwm hwm sf = .ok d0) (hlwm : 1 ≤ lwm) (hsf : 1 ≤ sf) {ops : List (Index.Op R)}
    (hins : InsertOnly ops) (g : Shard R → Rng) (hg : ∀ s, ops.length ≤ (g s).max) (hε : 0 ≤ ε) (hη : 0 ≤ η)
    (hc : CloseTo val dist δ point (fun x => .ins x ∈ ops) ε η) {k : Nat} (hk : 1 ≤ k) :
    ∃ d res, d0.run ops = .ok (d, List.replicate ops.length true) ∧
      d.knn q dist (fun s => VP.tree dist leafSz (g s) s.data) point k = .ok res ∧
      KApprox k (fun y => δ y point) (η + 5 * ε) (inserted ops) res := by
  obtain ⟨d, h1, hwf, hp, hsz⟩ := inserted_knnData hnew hlwm hsf hins g hg
  have hm : ∀ x, x ∈ d.knnData → .ins x ∈ ops := fun x hx => mem_inserted.mp (hp.mem_iff.mp hx)
  have hc' : CloseTo val dist δ point (fun x => x ∈ d.knnData) ε η :=
    ⟨hc.mono, hc.symm, fun x y hx hy => hc.err x y (hm x hx) (hm y hy), fun x hx => hc.errp x (hm x hx),
      fun x y hx hy => hc.add x y (hm x hx) (hm y hy), fun x y hx hy => hc.sub x y (hm x hx) (hm y hy)⟩
  obtain ⟨res, h5, ⟨rest, h6, h7, h8⟩, -⟩ := C98_knn_index hq hδ leafSz g hwf hsz hε hη hc' hk
  exact ⟨d, res, h1, h5, rest, hp.symm.trans h6, by rw [← hp.length_eq]; exact h7, h8⟩

/-! ### Points with `double` coordinates -/

/-- The slack for points of dimension `D` within distance `M` of each other, rounding unit `u`. With `u = 2^-53` it is about
`(5 D + 22) 2^-53 M`. -/
noncomputable def slack (u : ℝ) (D : Nat) (M : ℝ) : ℝ := 2 * u * ((1 + u) ^ (D + 4) * M) + 5 * (((1 + u) ^ (D + 4) - 1) * M)

theorem closeTo_of_within {rd : ℝ → ℝ} {u M : ℝ} (h : Rounds rd u) {n : Nat} {R : Type} {dist : R → R → Fl rd} {δ : R → R → ℝ} {point : R}
    {P : R → Prop} (hsym : ∀ x y, dist x y = dist y x) (hw : ∀ x y, P x → P y → Within u n (δ x y) (dist x y).val)
    (hwp : ∀ x, P x → Within u n (δ x point) (dist x point).val) (hM : ∀ x y, P x → P y → δ x y ≤ M) (hMp : ∀ x, P x → δ x point ≤ M) :
    CloseTo Fl.val dist δ point P (((1 + u) ^ n - 1) * M) (2 * u * ((1 + u) ^ n * M)) := by
  have hu := h.pos
  have h1 : (1 : ℝ) ≤ (1 + u) ^ n := one_le_pow₀ (by linarith)
  have bnd : ∀ x, P x → 0 ≤ (dist x point).val ∧ (dist x point).val ≤ (1 + u) ^ n * M := fun x hx =>
    ⟨(hwp x hx).pos h, le_trans (hwp x hx).2.2 (mul_le_mul_of_nonneg_left (hMp x hx) (by linarith))⟩
  refine ⟨fun a b => Iff.rfl, hsym, fun x y hx hy => ?_, fun x hx => ?_, fun x y hx hy => ?_, fun x y hx hy => ?_⟩
  · exact le_trans ((hw x y hx hy).abs h) (mul_le_mul_of_nonneg_left (hM x y hx hy) (by linarith))
  · exact le_trans ((hwp x hx).abs h) (mul_le_mul_of_nonneg_left (hMp x hx) (by linarith))
  · rw [Fl.add_val]
    refine le_trans (h.err _) ?_
    have a1 := bnd x hx
    have a2 := bnd y hy
    have : |(dist x point).val + (dist y point).val| ≤ 2 * ((1 + u) ^ n * M) := by
      rw [abs_le]; constructor <;> linarith
    calc u * _ ≤ u * (2 * ((1 + u) ^ n * M)) := mul_le_mul_of_nonneg_left this hu
      _ = _ := by ring
  · rw [Fl.sub_val]
    refine le_trans (h.err _) ?_
    have a1 := bnd x hx
    have a2 := bnd y hy
    have : |(dist x point).val - (dist y point).val| ≤ 2 * ((1 + u) ^ n * M) := by
      rw [abs_le]; constructor <;> linarith
    calc u * _ ≤ u * (2 * ((1 + u) ^ n * M)) := mul_le_mul_of_nonneg_left this hu
      _ = _ := by ring

theorem Rounds.slack_pos {rd : ℝ → ℝ} {u M : ℝ} (h : Rounds rd u) (hM : 0 ≤ M) (n : Nat) :
    0 ≤ ((1 + u) ^ n - 1) * M ∧ 0 ≤ 2 * u * ((1 + u) ^ n * M) := by
  have hu := h.pos
  have h1 : (1 : ℝ) ≤ (1 + u) ^ n := one_le_pow₀ (by linarith)
  exact ⟨mul_nonneg (by linarith) hM, by positivity⟩

/-- A point with `double` coordinates, as numbers. -/
def Fl.pt {rd : ℝ → ℝ} {D : Nat} (a : Fin D → Fl rd) : Fin D → ℝ := fun i => (a i).val

/-- C98 for `EuclidPoint<double, D>` with every operation of `calc_distance` and of the search rounded: after any inserts on any layout,
the records returned are nearest up to `slack`: a few rounding units of the largest distance. -/
theorem C98_euclid {rd : ℝ → ℝ} {u : ℝ} (hrd : Rounds rd u) {D : Nat} [DecidableEq (Fin D → Fl rd)] {q : MaxQ (Fin D → Fl rd) (Fl rd)} (hq : q.Ok)
    {leafSz : Nat} {g0 : Rng} {L : Layout} {tag : Bool} {lwm hwm sf : Nat} {d0 : Index (Fin D → Fl rd)}
    (hnew : Index.new L tag (vpImpl (euclidF Fl.sqrt) leafSz g0) lwm hwm sf = .ok d0) (hlwm : 1 ≤ lwm) (hsf : 1 ≤ sf)
    {ops : List (Index.Op (Fin D → Fl rd))} (hins : InsertOnly ops) (g : Shard (Fin D → Fl rd) → Rng) (hg : ∀ s, ops.length ≤ (g s).max)
    (point : Fin D → Fl rd) {M : ℝ} (hM0 : 0 ≤ M) (hM : ∀ x y, .ins x ∈ ops → .ins y ∈ ops → Point.euclid (Fl.pt x) (Fl.pt y) ≤ M)
    (hMp : ∀ x, .ins x ∈ ops → Point.euclid (Fl.pt x) (Fl.pt point) ≤ M) {k : Nat} (hk : 1 ≤ k) :
    ∃ d res, d0.run ops = .ok (d, List.replicate ops.length true) ∧
      d.knn q (euclidF Fl.sqrt) (fun s => VP.tree (euclidF Fl.sqrt) leafSz (g s) s.data) point k = .ok res ∧
      KApprox k (fun y => Point.euclid (Fl.pt y) (Fl.pt point)) (slack u D M) (inserted ops) res := by
  have hδ : Metric (fun x y : Fin D → Fl rd => Point.euclid (Fl.pt x) (Fl.pt y)) :=
    ⟨fun x y => Point.euclid_metric.symm _ _, fun x y z => Point.euclid_metric.tri _ _ _⟩
  have hc := closeTo_of_within hrd (n := D + 4) (dist := euclidF Fl.sqrt) (δ := fun x y : Fin D → Fl rd => Point.euclid (Fl.pt x) (Fl.pt y))
    (point := point) (P := fun x => .ins x ∈ ops) (euclidF_symm hrd) (fun x y _ _ => euclidF_within hrd x y) (fun x _ => euclidF_within hrd x point) hM hMp
  obtain ⟨p1, p2⟩ := hrd.slack_pos hM0 (D + 4)
  exact C98_inserted hq hδ hnew hlwm hsf hins g hg p1 p2 hc hk

/-- Rounding functions with an error exist. -/
example : Rounds (fun x => x * (1 + 2 ^ (-53 : ℤ))) (2 ^ (-53 : ℤ)) := by
  refine ⟨by positivity, by norm_num, fun x => by ring, fun x => ?_⟩
  rw [show x * (1 + 2 ^ (-53 : ℤ)) - x = 2 ^ (-53 : ℤ) * x by ring, abs_mul, abs_of_nonneg (by positivity)]

/-- The hypotheses of `C98_euclid` are met: an index of two points at distance 1. -/
example : ∃ d0 : Index (Fin 1 → Fl id), Index.new .tiering true (vpImpl (euclidF Fl.sqrt) 8 ⟨fun _ => 0, 10⟩) 2 2 2 = .ok d0 ∧
    InsertOnly [.ins (fun _ : Fin 1 => (⟨0⟩ : Fl id)), .ins (fun _ => ⟨1⟩)] ∧
    ∀ x y, .ins x ∈ [Index.Op.ins (fun _ : Fin 1 => (⟨0⟩ : Fl id)), .ins (fun _ => ⟨1⟩)] →
      .ins y ∈ [Index.Op.ins (fun _ : Fin 1 => (⟨0⟩ : Fl id)), .ins (fun _ => ⟨1⟩)] → Point.euclid (Fl.pt x) (Fl.pt y) ≤ 1 := by
  refine ⟨_, rfl, by simp [InsertOnly], ?_⟩
  intro x y hx hy
  simp only [List.mem_cons, Index.Op.ins.injEq, List.not_mem_nil, or_false] at hx hy
  rcases hx with rfl | rfl <;> rcases hy with rfl | rfl <;> simp [Point.euclid, Point.accum, List.finRange_succ, Fl.pt]

/-- Without rounding nothing is lost: `u = 0` gives slack 0. -/
example (D : Nat) (M : ℝ) : slack 0 D M = 0 := by simp [slack]

/-! A run with 53-bit arithmetic. -/

/-- One coordinate. -/
def i53 (x : Int) : Fin 1 → I53 := fun _ => ⟨x⟩

/-- The computed distance. -/
def i53Dist : (Fin 1 → I53) → (Fin 1 → I53) → I53 := euclidF I53.sqrt

/-- The points of the run. -/
def i53Data : List (Wrapped (Fin 1 → I53)) := [2 ^ 55, 3, 5, 0].map (fun x => ⟨0, i53 x⟩)

/-- The coordinates of the nearest neighbours found. -/
def i53Run (p : Int) : Option (List Int) :=
  match VP.tree i53Dist 1 ⟨fun _ => 0, 4⟩ i53Data with
  | .ok t =>
    match knnLocal MaxQ.std i53Dist t (i53 p) 1 with
    | .ok r => some (r.map (fun x => (x 0).val))
    | .error _ => none
  | .error _ => none

/-- C98, the slack is needed: in 53-bit arithmetic the nearest neighbour returned need not be the nearest, not even by the computed distances
themselves. Points 2^55, 3, 5 and 0, query 2: 0 (at distance 2) is returned instead of 3 (at distance 1), because both the distance
2^55 - 2 to the vantage point and the difference 2^55 - 2 are rounded up to 2^55. -/
theorem C98_not_exact : ∃ t, VP.tree i53Dist 1 ⟨fun _ => 0, 4⟩ i53Data = .ok t ∧ knnLocal MaxQ.std i53Dist t (i53 2) 1 = .ok [i53 0] ∧
    i53 3 ∈ i53Data.map Wrapped.record ∧ i53Dist (i53 3) (i53 2) < i53Dist (i53 0) (i53 2) := by
  have h : i53Run 2 = some [0] := by decide
  unfold i53Run at h
  split at h
  · next t ht =>
    split at h
    · next r hr =>
      refine ⟨t, ht, ?_, by simp [i53Data], by decide⟩
      rw [hr]
      have h : r.map (fun x => (x 0).val) = [0] := Option.some.inj h
      obtain ⟨x, rfl⟩ : ∃ x, r = [x] := by
        have := congrArg List.length h
        rw [List.length_map] at this
        exact List.length_eq_one_iff.mp this
      have h : (x 0).val = 0 := by simpa using h
      have : x = i53 0 := by
        funext i
        rw [Fin.fin_one_eq_zero i]
        exact I53.val_inj h
      rw [this]
    · cases h
  · cases h

/-! ### Points with unsigned integer coordinates -/

/-- C99, partial: for `EuclidPoint<uint64_t, D>` whose coordinates differ by less than 2^32, the subtraction and multiplication modulo 2^64
are harmless: after any inserts on any layout a k-NN query returns nearest records up to the rounding errors of the sum and the root.
Missing: larger coordinate differences (`C99_false`). -/
theorem C99_partial {rd : ℝ → ℝ} {u : ℝ} (hrd : Rounds rd u) {D : Nat} {q : MaxQ (Fin D → BitVec 64) (Fl rd)} (hq : q.Ok)
    {leafSz : Nat} {g0 : Rng} {L : Layout} {tag : Bool} {lwm hwm sf : Nat} {d0 : Index (Fin D → BitVec 64)}
    (hnew : Index.new L tag (vpImpl (euclidU rd) leafSz g0) lwm hwm sf = .ok d0) (hlwm : 1 ≤ lwm) (hsf : 1 ≤ sf)
    {ops : List (Index.Op (Fin D → BitVec 64))} (hins : InsertOnly ops) (g : Shard (Fin D → BitVec 64) → Rng) (hg : ∀ s, ops.length ≤ (g s).max)
    (point : Fin D → BitVec 64) {c : Fin D → Nat} (hb : ∀ x, .ins x ∈ ops → ∀ i, c i ≤ (x i).toNat ∧ (x i).toNat < c i + 2 ^ 32)
    (hbp : ∀ i, c i ≤ (point i).toNat ∧ (point i).toNat < c i + 2 ^ 32)
    {M : ℝ} (hM0 : 0 ≤ M) (hM : ∀ x y, .ins x ∈ ops → .ins y ∈ ops → Point.euclid (U64.pt x) (U64.pt y) ≤ M)
    (hMp : ∀ x, .ins x ∈ ops → Point.euclid (U64.pt x) (U64.pt point) ≤ M) {k : Nat} (hk : 1 ≤ k) :
    ∃ d res, d0.run ops = .ok (d, List.replicate ops.length true) ∧
      d.knn q (euclidU rd) (fun s => VP.tree (euclidU rd) leafSz (g s) s.data) point k = .ok res ∧
      KApprox k (fun y => Point.euclid (U64.pt y) (U64.pt point)) (slack u D M) (inserted ops) res := by
  have hδ : Metric (fun x y : Fin D → BitVec 64 => Point.euclid (U64.pt x) (U64.pt y)) :=
    ⟨fun x y => Point.euclid_metric.symm _ _, fun x y z => Point.euclid_metric.tri _ _ _⟩
  have hc := closeTo_of_within hrd (n := D + 4) (dist := euclidU rd) (δ := fun x y : Fin D → BitVec 64 => Point.euclid (U64.pt x) (U64.pt y))
    (point := point) (P := fun x => .ins x ∈ ops) euclidU_symm
    (fun x y hx hy => euclidU_within hrd (fun i => by have := hb x hx i; have := hb y hy i; omega))
    (fun x hx => euclidU_within hrd (fun i => by have := hb x hx i; have := hbp i; omega)) hM hMp
  obtain ⟨p1, p2⟩ := hrd.slack_pos hM0 (D + 4)
  exact C98_inserted hq hδ hnew hlwm hsf hins g hg p1 p2 hc hk

/-- One coordinate. -/
def u64pt (x : Nat) : Fin 1 → BitVec 64 := fun _ => BitVec.ofNat 64 x

theorem foldl_one {α : Type} (f : α → Fin 1 → α) (s : α) : (List.finRange 1).foldl f s = f s 0 := by
  simp [List.finRange_succ]

/-- The computed distance of 0 and 2^32 is 0, whatever the rounding. -/
theorem euclidU_wraps {rd : ℝ → ℝ} {u : ℝ} (hrd : Rounds rd u) : euclidU rd (u64pt (2 ^ 32)) (u64pt 0) = 0 := by
  have h0 : rd 0 = 0 := by simpa using hrd.err 0
  apply Fl.val_inj
  unfold euclidU
  rw [foldl_one]
  have e : ((u64pt (2 ^ 32) 0 - u64pt 0 0) * (u64pt (2 ^ 32) 0 - u64pt 0 0) : BitVec 64) = 0#64 := by decide
  have hz : (0 : Fl rd) + Fl.ofU64 0#64 = 0 := by
    apply Fl.val_inj
    rw [Fl.add_val]
    simp [Fl.ofU64, h0, Fl.zero_val]
  rw [e, hz]
  show rd (Real.sqrt 0) = 0
  rw [Real.sqrt_zero, h0]

/-- The computed distance of 0 and 1 is not. -/
theorem euclidU_one {rd : ℝ → ℝ} {u : ℝ} (hrd : Rounds rd u) (hu : u < 1) : 0 < euclidU rd (u64pt 1) (u64pt 0) := by
  have hw := euclidU_within hrd (a := u64pt 1) (b := u64pt 0) (by intro i; constructor <;> simp [u64pt])
  have h1 : Point.euclid (U64.pt (u64pt 1)) (U64.pt (u64pt 0)) = 1 := by
    unfold Point.euclid Point.accum
    rw [foldl_one]
    simp [U64.pt, u64pt]
  rw [h1] at hw
  show (0 : ℝ) < _
  refine lt_of_lt_of_le ?_ hw.2.1
  rw [mul_one]
  exact pow_pos (by linarith) _

/-- C99 is false: of the points 1 and 2^32 (one dimension), the nearest neighbour of 0 found is 2^32: its distance is computed as 0,
because the square of the difference wraps to 0. Whatever the rounding, the queue and the order of the records. -/
theorem C99_false {rd : ℝ → ℝ} {u : ℝ} (hrd : Rounds rd u) (hu : u < 1) {q : MaxQ (Fin 1 → BitVec 64) (Fl rd)} (hq : q.Ok)
    {buf : List (Wrapped (Fin 1 → BitVec 64))} (h1 : buf.map Wrapped.record = [u64pt 1, u64pt (2 ^ 32)]) (hb : ∀ w ∈ buf, w.isDeleted = false) :
    knnBuffer q (euclidU rd) buf (u64pt 0) 1 = .ok [u64pt (2 ^ 32)] := by
  obtain ⟨res, hres, ⟨rest, hp, hl, hn⟩, -⟩ := (knnBuffer_good hq (safe := True) (dist := euclidU rd) (point := u64pt 0) (le_refl 1) buf).safe trivial
  have hf : buf.filter (fun w => !w.isDeleted) = buf := by
    rw [List.filter_eq_self]
    intro w hw
    rw [hb w hw]; rfl
  rw [hf, h1] at hp hl
  obtain ⟨x, rfl⟩ := List.length_eq_one_iff.mp (show res.length = 1 by simpa using hl)
  rw [hres]
  have hx : x = u64pt 1 ∨ x = u64pt (2 ^ 32) := by
    have := hp.mem_iff.mpr (show x ∈ [x] ++ rest by simp)
    simpa using this
  rcases hx with rfl | rfl
  · exfalso
    have hm : u64pt (2 ^ 32) ∈ rest := by
      have := hp.mem_iff.mp (show u64pt (2 ^ 32) ∈ [u64pt 1, u64pt (2 ^ 32)] by simp)
      rcases List.mem_append.mp this with h | h
      · exact absurd (congrFun (List.mem_singleton.mp h) 0) (by decide)
      · exact h
    have := hn (u64pt 1) (by simp) _ hm
    simp only [euclidU_wraps hrd] at this
    exact absurd (euclidU_one hrd hu) (not_lt.mpr this)
  · rfl

/-- And such a buffer exists. -/
example : ([⟨0, u64pt 1⟩, ⟨0, u64pt (2 ^ 32)⟩] : List (Wrapped (Fin 1 → BitVec 64))).map Wrapped.record = [u64pt 1, u64pt (2 ^ 32)] := rfl

end DE
