import Verif.Proofs.VPCost
import Verif.Properties.VPTree
import Mathlib.Data.Nat.Log

/-!
C110: a VPTree is balanced, and what it costs to build and to search.
-/

namespace DE
variable {R 𝔽 : Type} [LinearOrder 𝔽]

/-- C110: the counted functions compute what the plain ones compute. -/
theorem C110_counting_is_invisible [DecidableEq R] [Zero 𝔽] [Add 𝔽] [Sub 𝔽] (dist : R → R → 𝔽) :
    (∀ (leafSz : Nat) (g : Rng) (data : List (Wrapped R)),
      (VP.treeC dist leafSz g data).map Prod.fst = VP.tree dist leafSz g data) ∧
    (∀ (r : R) (a : List (VP.Ptr R 𝔽)) (t : VP.Node 𝔽), (VP.lookupC dist r a t).map Prod.fst = VP.lookup dist r a t) ∧
    (∀ (q : MaxQ R 𝔽) (point : R) (k : Nat) (a : List (VP.Ptr R 𝔽)) (t : VP.Node 𝔽) (st : VP.SState R 𝔽),
      (VP.searchC q dist point k a t st).map Prod.fst = VP.search q dist point k a t st) :=
  ⟨fun _ _ data => VP.treeC_eq data, fun _ _ t => VP.lookupC_eq t, fun _ _ _ _ t st => VP.searchC_eq t st⟩

/-- Nodes on the longest path of the tree of `n` records, when leaves hold up to `leafSz + 1`. -/
def vpHeight (leafSz n : Nat) : Nat := Nat.clog 2 ((n + leafSz) / (leafSz + 1)) + 1

/-- C110, the part that holds: whatever the points (many equal ones included) and the random numbers, the tree has logarithmic depth and
is built with `n` distance computations per level; selecting the medians takes at most `n^2` comparisons and at most `n - 1` nested
calls. Missing: that the selection is quasi-linear; see `C110_false`. -/
theorem C110_build_partial [Zero 𝔽] (dist : R → R → 𝔽) (leafSz : Nat) (g : Rng) (data : List (Wrapped R)) (hg : data.length ≤ g.max) :
    ∃ t w, VP.treeC dist leafSz g data = .ok (t, w) ∧ t.root.depth ≤ vpHeight leafSz data.length ∧
      w.dists ≤ data.length * (vpHeight leafSz data.length - 1) ∧ w.cmps ≤ data.length ^ 2 ∧ w.nest ≤ data.length - 1 := by
  obtain ⟨t0, ht0, -⟩ := C29_vptree dist leafSz g data hg
  rw [← VP.treeC_eq] at ht0
  cases hc : VP.treeC dist leafSz g data with
  | error e => rw [hc] at ht0; cases ht0
  | ok x =>
    refine ⟨x.1, x.2, rfl, ?_⟩
    unfold VP.treeC at hc
    by_cases h0 : data.length = 0
    · simp only [if_pos h0] at hc
      cases hc
      exact ⟨by simp [VP.Node.depth], by simp, by simp, by simp⟩
    · simp only [if_neg h0, bind_ok] at hc
      obtain ⟨⟨r, a, p, w⟩, h1, h2⟩ := hc
      cases h2
      have hl : (VP.initPtrs (𝔽 := 𝔽) data).length = data.length := by unfold VP.initPtrs; simp
      have hd : data.length - 1 + 1 - 0 ≤ 2 ^ (Nat.clog 2 ((data.length + leafSz) / (leafSz + 1))) * (leafSz + 1) := by
        have e1 := Nat.le_pow_clog (b := 2) (by omega) ((data.length + leafSz) / (leafSz + 1))
        have e2 := Nat.mul_le_mul_right (leafSz + 1) e1
        have e3 := Nat.div_add_mod (data.length + leafSz) (leafSz + 1)
        have e4 := Nat.mod_lt (data.length + leafSz) (show 0 < leafSz + 1 by omega)
        rw [Nat.mul_comm] at e3
        omega
      have := VP.buildC_work (data.length + 1) _ 0 (data.length - 1) _ 0 _ (by omega) (by right; omega) hd h1
      rw [show data.length - 1 + 1 - 0 = data.length by omega] at this
      exact this

/-- C110: a point lookup without hash map computes fewer distances than the tree has levels and compares with at most one record per level
and those of one leaf. -/
theorem C110_lookup [DecidableEq R] [Zero 𝔽] (dist : R → R → 𝔽) (leafSz : Nat) (g : Rng) (data : List (Wrapped R)) (hg : data.length ≤ g.max)
    {t : VP.Tree R 𝔽} (ht : VP.tree dist leafSz g data = .ok t) {r : R} {x : Option Nat × Nat × Nat}
    (h : VP.lookupC dist r t.ptrs t.root = .ok x) :
    x.2.1 < vpHeight leafSz data.length ∧ x.2.2 ≤ vpHeight leafSz data.length + (leafSz + 1) := by
  obtain ⟨t1, w, h1, h2, -⟩ := C110_build_partial dist leafSz g data hg
  have e : t1 = t := by
    have := VP.treeC_eq (dist := dist) (leafSz := leafSz) (g := g) data
    rw [h1, ht] at this
    exact Except.ok.inj this
  subst e
  obtain ⟨t2, h3, -, -, -, h4⟩ := C29_vptree dist leafSz g data hg
  rw [ht] at h3
  cases h3
  have := VP.lookupC_work h4 h
  omega

/-- C110: a k-NN search in a tree of `n` records meets at most `n` of them, none twice. -/
theorem C110_search [Zero 𝔽] [Add 𝔽] [Sub 𝔽] (q : MaxQ R 𝔽) (dist : R → R → 𝔽) (leafSz : Nat) (g : Rng) (data : List (Wrapped R))
    (hg : data.length ≤ g.max) {t : VP.Tree R 𝔽} (ht : VP.tree dist leafSz g data = .ok t) {point : R} {k : Nat} {x : VP.SState R 𝔽 × Nat}
    (h : VP.searchC q dist point k t.ptrs t.root ([], none) = .ok x) : x.2 ≤ data.length := by
  obtain ⟨t2, h3, -, h4, -⟩ := C29_vptree dist leafSz g data hg
  rw [ht] at h3
  cases h3
  have := VP.searchC_work h
  rw [h4.length_eq, List.length_range] at this
  exact this

/-- C110 is false: with `n` equal points (or points that are pairwise at the same distance) `partition` puts every record on one side of
the pivot, whatever the random numbers, so that selecting the first median alone takes about `n^2/4` comparisons, and `quickselect`
calls itself `n/2` deep. -/
theorem C110_false [Zero 𝔽] (dist : R → R → 𝔽) (leafSz : Nat) (g : Rng) (data : List (Wrapped R)) (hg : data.length ≤ g.max)
    (hn : leafSz + 1 < data.length) (h2 : 2 < data.length) {δ : 𝔽} (hδ : ∀ x ∈ data, ∀ y ∈ data, dist x.record y.record = δ) :
    ∃ t w, VP.treeC dist leafSz g data = .ok (t, w) ∧ (data.length / 2) * (data.length - 1 - data.length / 2) ≤ w.cmps ∧
      data.length / 2 ≤ w.nest := by
  obtain ⟨t, w, hc, -⟩ := C110_build_partial dist leafSz g data hg
  refine ⟨t, w, hc, ?_⟩
  unfold VP.treeC at hc
  simp only [if_neg (show ¬ data.length = 0 by omega), bind_ok] at hc
  obtain ⟨⟨r, a, p, w'⟩, h1, h3⟩ := hc
  cases h3
  have hl : (VP.initPtrs (𝔽 := 𝔽) data).length = data.length := by unfold VP.initPtrs; simp
  have hmem : ∀ x ∈ (VP.initPtrs (𝔽 := 𝔽) data).map VP.core, ∃ w ∈ data, w.record = x.2 := by
    intro x hx
    rw [VP.initPtrs_core] at hx
    obtain ⟨i, hi, rfl⟩ := List.mem_mapIdx.mp hx
    exact ⟨data[i], List.getElem_mem _, rfl⟩
  unfold VP.buildC at h1
  rw [if_neg (by omega), if_neg (by omega)] at h1
  simp only [bind_ok] at h1
  obtain ⟨⟨o, pos1⟩, hbl, b, hsw, v, hv, c, hcd, ⟨e, pos2, cm, ne⟩, hq, m, hm, ⟨n1, a1, p1, w1⟩, hi, ⟨n2, a2, p2, w2⟩, ho, hr⟩ := h1
  cases hr
  have ho' := ((below_good (safe := False) 0 (by omega) (fun h => h.elim)).elim hbl).1
  simp only at ho'
  have ha1 : 0 < (VP.initPtrs (𝔽 := 𝔽) data).length := by omega
  have ha2 : 0 + o < (VP.initPtrs (𝔽 := 𝔽) data).length := by omega
  rw [swapR_ok ha1 ha2] at hsw
  cases hsw
  have hS := Swaps.one (lo := 0) (hi := data.length) (a := VP.initPtrs (𝔽 := 𝔽) data) ha1 ha2 (by omega) (by omega) (by omega) (by omega)
  have hbl := hS.len
  have hcc := (VP.setDists_good False (dist := dist) (v := v.record) (data.length - 1 - 0) (0 + 1) _ (by omega)).elim hcd
  obtain ⟨c1, -, c3⟩ := hcc
  have hcl : c.length = data.length := by
    have e := congrArg List.length c1
    rw [List.length_map, List.length_map] at e
    omega
  have hperm := (hS.map VP.core).perm
  have hvm : ∃ w ∈ data, w.record = v.record := by
    have hx : VP.core v ∈ (VP.initPtrs (𝔽 := 𝔽) data).map VP.core := by
      refine hperm.mem_iff.mp (List.mem_map.mpr ⟨v, ?_, rfl⟩)
      unfold getR at hv
      split at hv
      · next y hy => cases hv; exact List.mem_of_getElem? hy
      · cases hv
    exact hmem _ hx
  have hseg : InSeg (fun x => x.dist = δ) (0 + 1) (data.length - 1 + 1) c := by
    intro i i1 i2 x hx
    have := c3 i i1 (by omega) x hx
    simp only at this ⊢
    rw [this]
    have hx' : VP.core x ∈ (VP.initPtrs (𝔽 := 𝔽) data).map VP.core := by
      have : VP.core x ∈ c.map VP.core := List.mem_map.mpr ⟨x, List.mem_of_getElem? hx, rfl⟩
      rw [c1] at this
      exact hperm.mem_iff.mp this
    obtain ⟨y, y1, y2⟩ := hmem _ hx'
    obtain ⟨u, u1, u2⟩ := hvm
    rw [← u2, show x.record = y.record from y2.symm]
    exact hδ u u1 y y1
  have hk := (VP.quickselectC_equal (safe := False) (k := (0 + 1 + (data.length - 1)) / 2) (data.length - 1 - 0) (0 + 1) (data.length - 1) c pos1
    (by omega) (by omega) (by omega) (by omega) (fun h => h.elim) hseg).elim hq
  simp only at hk ⊢
  have e1 : (0 + 1 + (data.length - 1)) / 2 = data.length / 2 := by omega
  rw [e1] at hk
  rw [show data.length / 2 + 1 - (0 + 1) = data.length / 2 by omega] at hk
  omega

/-- Forty equal points and leaves of up to three: 946 comparisons, twenty nested calls; forty different points: 244 and seven. The depth
and the distances computed are the same. -/
example : ((VP.treeC (fun a b : Int => |a - b|) 2 ⟨fun i => i, 1000⟩ (List.replicate 40 (⟨0#32, (7 : Int)⟩ : Wrapped Int))).map
      (fun x => (x.1.root.depth, x.2))) = .ok (5, ⟨143, 946, 20⟩) ∧
    ((VP.treeC (fun a b : Int => |a - b|) 2 ⟨fun i => i*7+3, 1000⟩ ((List.range 40).map (fun i => (⟨0#32, (i : Int)⟩ : Wrapped Int)))).map
      (fun x => (x.1.root.depth, x.2))) = .ok (5, ⟨143, 244, 7⟩) ∧ vpHeight 2 40 = 5 := by
  decide +kernel

end DE
