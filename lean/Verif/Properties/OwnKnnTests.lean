import Verif.Proofs.OwnKnnTie

/-!
C125 (the project's own VPTree and k-NN tests, tests/vptree_tests.cpp).
-/

namespace DE
open Own

section
variable {R 𝔽 : Type} [DecidableEq R] [Inhabited R] [LinearOrder 𝔽] [Zero 𝔽]

/-- `t_mbuffer_init` for any points: the shard has one record for each append. -/
theorem C125_mbuffer_init (dist : R → R → 𝔽) (leafSz : Nat) (g : Rng) {xs : List R} (h0 : xs ≠ []) :
    ∃ s, vpShard dist leafSz g xs = .ok s ∧ s.data.length = xs.length ∧ s.tscnt = 0 ∧ s.data.map Wrapped.record = xs := by
  obtain ⟨s, h1, h2, h3, -⟩ := vpShard_spec dist leafSz g h0
  exact ⟨s, h1, by rw [← h2, List.length_map], h3, h2⟩

/-- `t_wss_init` for any points, equal ones included: the merge of three shards has all records and no tombstones. -/
theorem C125_wss_init (dist : R → R → 𝔽) (leafSz : Nat) (g : Rng) {xs ys zs : List R} (hx : xs ≠ []) (hy : ys ≠ []) (hz : zs ≠ []) :
    vpInit dist leafSz g xs ys zs = .ok (xs.length + ys.length + zs.length, 0) := by
  obtain ⟨s1, a1, a2, -, a4⟩ := vpShard_spec dist leafSz g hx
  obtain ⟨s2, b1, b2, -, b4⟩ := vpShard_spec dist leafSz g hy
  obtain ⟨s3, c1, c2, -, c4⟩ := vpShard_spec dist leafSz g hz
  have e : ∀ {s : Shard R}, (∀ w ∈ s.data, w.isDeleted = false) → s.data.filter (fun w => !w.isDeleted) = s.data :=
    fun h => List.filter_eq_self.mpr (fun w hw => by simp [h w hw])
  unfold vpInit
  rw [a1, b1, c1]
  show Except.ok (([s1, s2, s3].flatMap fun s => s.data.filter (fun w => !w.isDeleted)).length, 0) = _
  simp only [List.flatMap_cons, List.flatMap_nil, e a4, e b4, e c4, List.append_nil, List.length_append]
  rw [← a2, ← b2, ← c2, List.length_map, List.length_map, List.length_map, Nat.add_assoc]

/-- `t_point_lookup` for any points that fit one leaf (16 points, leaves of 101, in the test): every stored point is found, and
nothing else. -/
theorem C125_point_lookup (dist : R → R → 𝔽) {leafSz : Nat} (g : Rng) {xs : List R} (h0 : xs ≠ []) (hg : xs.length ≤ g.max)
    (hs : xs.length ≤ leafSz + 1) (r : R) :
    vpLookup dist leafSz g xs r = .ok (if r ∈ xs then some r else none) := by
  obtain ⟨s, h1, h2, -, -⟩ := vpShard_spec dist leafSz g h0
  have hl : s.data.length = xs.length := by rw [← h2, List.length_map]
  obtain ⟨t, ht, -⟩ := C29_vptree dist leafSz g s.data (by omega)
  have hne : s.data ≠ [] := by intro h; rw [h] at h2; exact h0 h2.symm
  obtain ⟨o, ho1, ho2⟩ := C31_small_partial hne (by omega) ht r
  have hmem : r ∈ xs ↔ ∃ w ∈ s.data, w.record = r := by rw [← h2, List.mem_map]
  unfold vpLookup
  rw [h1]
  show ((do let t ← VP.tree dist leafSz g s.data; VP.lookup dist r t.ptrs t.root) >>= _) = _
  rw [ht]
  show (VP.lookup dist r t.ptrs t.root >>= _) = _
  rw [ho1]
  cases o with
  | none =>
    rw [if_neg (fun h => by have := ho2.mpr (hmem.mp h); cases this)]
    rfl
  | some i =>
    obtain ⟨w, hw1, hw2⟩ := C31_sound ht ho1
    rw [if_pos (hmem.mpr (ho2.mp rfl))]
    show (do let w ← getR s.data i; Except.ok (some w.record)) = _
    unfold getR
    rw [hw1]
    show Except.ok (some w.record) = _
    rw [hw2]

/-- `t_point_lookup_miss` for any points, any tree (leaves of at least two records) and random numbers: a point that is not
stored is not found. -/
theorem C125_point_lookup_miss {dist : R → R → 𝔽} (hsym : ∀ x y, dist x y = dist y x) {leafSz : Nat} (hl : 2 ≤ leafSz) (g : Rng) {xs : List R}
    (h0 : xs ≠ []) (hg : xs.length ≤ g.max) {r : R} (hr : r ∉ xs) : vpLookup dist leafSz g xs r = .ok none := by
  obtain ⟨s, h1, h2, -, -⟩ := vpShard_spec dist leafSz g h0
  have hlen : s.data.length = xs.length := by rw [← h2, List.length_map]
  obtain ⟨t, ht, -⟩ := C29_vptree dist leafSz g s.data (by omega)
  have hne : s.data ≠ [] := by intro h; rw [h] at h2; exact h0 h2.symm
  obtain ⟨o, ho1, -⟩ := C31_clear_partial hsym hl hne ht r
  unfold vpLookup
  rw [h1]
  show ((do let t ← VP.tree dist leafSz g s.data; VP.lookup dist r t.ptrs t.root) >>= _) = _
  rw [ht]
  show (VP.lookup dist r t.ptrs t.root >>= _) = _
  rw [ho1]
  cases o with
  | none => rfl
  | some i =>
    exfalso
    obtain ⟨w, hw1, hw2⟩ := C31_sound ht ho1
    exact hr (by rw [← h2, ← hw2]; exact List.mem_map_of_mem (List.mem_of_getElem? hw1))

end

section
open Classical

theorem diagSeq_ne {n : Nat} (h : 0 < n) : diagSeq n ≠ [] := by
  intro h0
  have := congrArg List.length h0
  simp [diagSeq] at this
  omega

/-- `t_buffer_query` for any number of points, any `k` and any point of the diagonal with enough points after it: whatever the
queue does with equal distances, the query returns the points from `p - k/2` on (115 to 124 in the test). -/
theorem C125_buffer_query {q : MaxQ (Fin 2 → ℝ) ℝ} (hq : q.Ok) {n k p : Nat} (hk : 1 ≤ k) (hn : p - k / 2 + k ≤ n) :
    ∃ res, bufferKnn q Point.euclid (diagSeq n) (diag p) k = .ok res ∧ res.Perm ((List.range' (p - k / 2) k).map diag) := by
  obtain ⟨b, h1, h2, h3, h4⟩ := fill_inserts (diagSeq_ne (n := n) (by omega))
  have e : (b.contents.filter (fun w => !w.isDeleted)).map Wrapped.record = (List.range' 0 n).map diag := by
    rw [List.filter_eq_self.mpr (fun w hw => by simp [h4 w hw]), h3, ← List.range_eq_range']
    rfl
  obtain ⟨l, g1, g2⟩ := keepNearest_run hq hk hn n 0 0 [] (by simp) (by omega) (by omega) (fun _ => rfl) (by omega) (by omega)
  obtain ⟨res, r1, r2, -⟩ := (drain_good hq (safe := True) (fun y => Point.euclid y (diag p)) l.length l rfl).safe trivial
  refine ⟨res, ?_, r2.symm.trans g2⟩
  unfold bufferKnn
  rw [h1]
  show (do let l ← b.view.gets; _) = _
  rw [h2]
  show knnBuffer q Point.euclid b.contents (diag p) k = _
  unfold knnBuffer
  rw [e, g1]
  exact r1

/-- What the k-NN query of a shard returns for points of the diagonal. -/
theorem shardKnn_run {q : MaxQ (Fin 2 → ℝ) ℝ} (hq : q.Ok) (leafSz : Nat) {g : Rng} {n k p : Nat} (hk : 1 ≤ k) (hkn : k ≤ n) (hg : n ≤ g.max) :
    ∃ s t res a, vpShard Point.euclid leafSz g (diagSeq n) = .ok s ∧ s.data.map Wrapped.record = diagSeq n ∧
      VP.tree Point.euclid leafSz g s.data = .ok t ∧ knnLocal q Point.euclid t (diag p) k = .ok res ∧
      shardKnn q Point.euclid leafSz g (diagSeq n) (diag p) k = .ok res ∧
      res.Perm ((List.range' a k).map diag) ∧ a + k ≤ n ∧
      ∀ x y, a ≤ x → x < a + k → y < n → (y < a ∨ a + k ≤ y) → far p x ≤ far p y := by
  obtain ⟨s, h1, h2, -, -⟩ := vpShard_spec Point.euclid leafSz g (diagSeq_ne (n := n) (by omega))
  have hlen : s.data.length = n := by
    have := congrArg List.length h2
    simpa [diagSeq] using this
  obtain ⟨t, res, t1, t2, t3, -⟩ := C30_knn_shard hq Point.euclid_metric leafSz g s.data (by omega) (diag p) hk
  rw [h2] at t3
  obtain ⟨a, a1, a2, a3⟩ := diag_nearest hk hkn t3
  refine ⟨s, t, res, a, h1, h2, t1, t2, ?_, a1, a2, a3⟩
  unfold shardKnn
  rw [h1]
  show (do let t ← VP.tree Point.euclid leafSz g s.data; _) = _
  rw [t1]
  exact t2

/-- Partial C125, `t_knn_query` for any number of points, leaf size, random numbers, queue, `k ≥ 1` and point with `k` points
after it (the test draws `p < n - k`): the query returns `k` consecutive points, and their first is where the test expects it,
except that it can be 1 instead of 0 for `k = 2p`. Missing: that exception and `k = 0`, where the test fails
(`C125_false_tie`, `C125_false_zero`). -/
theorem C125_knn_query_partial {q : MaxQ (Fin 2 → ℝ) ℝ} (hq : q.Ok) (leafSz : Nat) {g : Rng} {n k p : Nat} (hk : 1 ≤ k) (hp : p + k < n)
    (hg : n ≤ g.max) :
    ∃ res a, shardKnn q Point.euclid leafSz g (diagSeq n) (diag p) k = .ok res ∧ res.length = k ∧
      res.Perm ((List.range' a k).map diag) ∧
      (p < k / 2 + 1 → a = 0 ∨ (k = 2 * p ∧ a = 1)) ∧
      (k / 2 + 1 ≤ p → a = p - k / 2 - 1 ∨ a = p - k / 2 ∨ a = p - k / 2 + 1) := by
  obtain ⟨s, t, res, a, -, -, -, -, h5, h6, h7, h8⟩ := shardKnn_run hq leafSz (g := g) (p := p) hk (by omega) hg
  have q1 : 0 < a → far p (a + k - 1) ≤ far p (a - 1) := fun h0 => h8 _ _ (by omega) (by omega) (by omega) (Or.inl (by omega))
  have q2 : a + k < n → far p a ≤ far p (a + k) := fun h0 => h8 _ _ (le_refl _) (by omega) h0 (Or.inr (le_refl _))
  unfold far at q1 q2
  refine ⟨res, a, h5, by rw [h6.length_eq]; simp, h6, ?_, ?_⟩
  · intro h
    by_cases h0 : a = 0
    · exact Or.inl h0
    · have := q1 (by omega)
      right; omega
  · intro h
    by_cases hn : a + k < n
    · have := q2 hn
      by_cases h0 : a = 0
      · omega
      · have := q1 (by omega)
        omega
    · have := q1 (by omega)
      omega

/-- `t_knn_query` can fail: with the test's 1000 points and leaves of 100, `k = 2` and `p = 1`, some draw of the root and a
correct queue the result is {1, 2}; the test requires it to start at 0. -/
theorem C125_false_tie : ∃ (q : MaxQ (Fin 2 → ℝ) ℝ) (g : Rng) (res : List (Fin 2 → ℝ)), q.Ok ∧ 1000 ≤ g.max ∧
    shardKnn q Point.euclid 100 g (diagSeq 1000) (diag 1) 2 = .ok res ∧ res.Perm [diag 1, diag 2] := by
  refine ⟨keepLast (diag 2), ⟨fun _ => 2, 1000⟩, ?_⟩
  obtain ⟨s, t, res, a, h1, h2, h3, h4, h5, h6, h7, h8⟩ := shardKnn_run (keepLast_ok (diag 2)) 100 (g := ⟨fun _ => 2, 1000⟩) (n := 1000)
    (p := 1) (k := 2) (by omega) (by omega) (le_refl _)
  refine ⟨res, keepLast_ok _, le_refl _, h5, ?_⟩
  have hlen : s.data.length = 1000 := by
    have := congrArg List.length h2
    simpa [diagSeq] using this
  have hb := (VP.tree_built (safe := True) s.data (fun _ => by rw [hlen])).elim h3
  -- the root
  obtain ⟨r, ti, to', e1, e2⟩ := VP.tree_root (by omega) h3
  have hroot : VP.recs t.ptrs 0 = some (diag 2) := by
    rw [e2]
    have : s.data[2]?.map Wrapped.record = (diagSeq 1000)[2]? := by rw [← h2, List.getElem?_map]
    simp only [hlen]
    rw [show (2 : Nat) % 1000 = 2 from rfl, this]
    unfold diagSeq
    rw [List.getElem?_map, List.getElem?_range (by omega)]
    rfl
  -- the search
  have hk := h4
  unfold knnLocal at hk
  rw [bind_ok] at hk
  obtain ⟨st, hst, hd⟩ := hk
  have hdr := (drain_good (keepLast_ok (diag 2)) (safe := True) _ _ _ rfl).elim hd
  obtain ⟨vs, v1, v2, v3⟩ := VP.search_visits _ hst
  obtain ⟨v, ws, rfl, hv⟩ := v3 _ _ _ _ e1
  rw [hroot] at hv
  cases hv
  have hsub : List.Subperm (diag 2 :: ws) (diagSeq 1000) := v1.trans (by rw [← h2]; exact hb.records.subperm)
  have hndS : (diagSeq 1000).Nodup := List.Nodup.map diag_inj List.nodup_range
  have hnd : (diag 2 :: ws).Nodup := by
    obtain ⟨l, l1, l2⟩ := hsub
    exact l1.nodup_iff.mp (l2.nodup hndS)
  unfold VP.visits at v2
  rw [bind_ok] at v2
  obtain ⟨s1, w1, w2⟩ := v2
  have hs1 : s1 = ([diag 2], none) := by
    simp only [VP.visit, VP.closer, if_true, List.length_nil, show ¬ (0 = 2) by omega, if_false, bind, Except.bind, List.length_cons,
      show ¬ (0 + 1 = 2) by omega] at w1
    cases w1; rfl
  have hF := (VP.visit_good (keepLast_ok (diag 2)) (safe := True) (Point.euclid_metric (D := 2)).symm (k := 2) (by omega) (diag 2)
    (S := []) (st := ([], none)) ⟨KNearest.nil _ _, fun _ => rfl, fun h => by simp at h⟩).elim w1
  have hc := tie_stays ws hF ((List.perm_append_comm (l₁ := ws) (l₂ := [diag 2])).nodup_iff.mpr hnd) (by
    intro v hv
    have : v ∈ diagSeq 1000 := hsub.subset (by
      rcases List.mem_append.mp hv with h | h
      · exact List.mem_cons_of_mem _ h
      · rw [List.mem_singleton] at h; rw [h]; exact List.mem_cons_self)
    obtain ⟨i, -, rfl⟩ := List.mem_map.mp this
    exact ⟨i, rfl⟩) (by rw [hs1]; exact List.mem_singleton.mpr rfl) w2
  have hc2 : diag 2 ∈ (List.range' a 2).map diag := h6.mem_iff.mp (hdr.1.mem_iff.mp hc)
  obtain ⟨i, hi, hi2⟩ := List.mem_map.mp hc2
  have := diag_inj hi2
  subst this
  rw [List.mem_range'_1] at hi
  have q1 : a = 2 → far 1 (a + 2 - 1) ≤ far 1 (a - 1) := fun h0 => h8 _ _ (by omega) (by omega) (by omega) (Or.inl (by omega))
  unfold far at q1
  have ha : a = 1 := by omega
  rw [ha] at h6
  exact h6

/-- `t_knn_query` draws `k = rand() % 150`: for `k = 0`, whatever the points, the tree and the random numbers, the first record
met pops the empty queue. -/
theorem C125_false_zero {R 𝔽 : Type} [DecidableEq R] [Inhabited R] [LinearOrder 𝔽] [Zero 𝔽] [Add 𝔽] [Sub 𝔽] {q : MaxQ R 𝔽}
    (hq : ∀ f, q f [] = none) (dist : R → R → 𝔽) (leafSz : Nat) {g : Rng} {xs : List R} (h0 : xs ≠ []) (hg : xs.length ≤ g.max) (point : R) :
    shardKnn q dist leafSz g xs point 0 = .error .ub := by
  obtain ⟨s, h1, h2, -, -⟩ := vpShard_spec dist leafSz g h0
  have hlen : s.data.length = xs.length := by rw [← h2, List.length_map]
  have hpos := List.length_pos_iff.mpr h0
  obtain ⟨t, ht, hb⟩ := (VP.tree_built (dist := dist) (leafSz := leafSz) (g := g) (safe := True) s.data (fun _ => by omega)).safe trivial
  have hv : ∀ x, VP.visit q dist point 0 x ([], none) = .error .ub := by
    intro x
    simp only [VP.visit, VP.closer, if_true, List.length_nil, VP.popR, hq, Except.map, bind, Except.bind]
  unfold shardKnn
  rw [h1]
  show (do let t ← VP.tree dist leafSz g s.data; _) = _
  rw [ht]
  show knnLocal q dist t point 0 = _
  unfold knnLocal
  have : VP.search q dist point 0 t.ptrs t.root ([], none) = .error .ub := by
    cases hr : t.root with
    | null =>
      have := hb.indices.length_eq
      rw [hr] at this
      simp [VP.Node.indices] at this
      omega
    | leaf a b =>
      have hl := hb.leaf
      rw [hr] at hl
      have hl1 : a ≤ b := hl.1
      have ha : a < t.ptrs.length := hb.idx_lt a (by rw [hr]; simp only [VP.Node.indices, List.mem_range'_1]; omega)
      unfold VP.search
      rw [show b + 1 - a = (b - a) + 1 by omega]
      unfold VP.visitLeaf
      rw [getR_lt ha]
      simp only [bind, Except.bind, hv]
    | node a r ti to' =>
      have ha : a < t.ptrs.length := hb.idx_lt a (by rw [hr]; simp [VP.Node.indices])
      unfold VP.search
      rw [getR_lt ha]
      simp only [bind, Except.bind, hv]
  rw [this]
  rfl

end

/-! ### Instances -/

/-- A queue and a generator as the theorems ask for; the numbers of the two query tests. -/
example : (MaxQ.std : MaxQ (Fin 2 → ℝ) ℝ).Ok ∧ (120 - 10 / 2 + 10 ≤ 10000) ∧ (∀ k p, k < 150 → p < 1000 - k → p + k < 1000) ∧
    (∀ f, (MaxQ.std : MaxQ (Fin 2 → ℝ) ℝ) f [] = none) ∧ 16 ≤ 100 + 1 ∧ (diag 20100 : Fin 2 → ℝ) ∉ diagSeq 10000 := by
  refine ⟨MaxQ.std_ok, by omega, fun k p h1 h2 => by omega, fun f => rfl, by omega, ?_⟩
  intro h
  obtain ⟨i, hi, e⟩ := List.mem_map.mp h
  have := diag_inj e
  rw [List.mem_range] at hi
  omega

/-- The exception needs an even `k`: around 7 and `k = 5` the result is 5 to 9. -/
example {q : MaxQ (Fin 2 → ℝ) ℝ} (hq : q.Ok) : ∃ res, bufferKnn q Point.euclid (diagSeq 20) (diag 7) 5 = .ok res ∧
    res.Perm [diag 5, diag 6, diag 7, diag 8, diag 9] := C125_buffer_query hq (n := 20) (k := 5) (p := 7) (by omega) (by omega)

end DE
