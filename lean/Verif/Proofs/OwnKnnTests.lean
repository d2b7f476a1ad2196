import Verif.Model.OwnKnnTests
import Verif.Proofs.OwnShardTests
import Verif.Proofs.Knn
import Verif.Proofs.Points
import Mathlib.Order.Interval.Finset.Nat

/-!
Points on a diagonal and the project's own k-NN tests.
-/

namespace DE.Own

/-- Distance of two numbers. -/
def far (p i : Nat) : Nat := (i - p) + (p - i)

theorem diag_inj : Function.Injective diag := by
  intro i j h
  have := congrFun h 0
  simpa [diag] using this

theorem euclid_diag (i p : Nat) : Point.euclid (diag i) (diag p) = Real.sqrt 2 * (far p i : ℝ) := by
  unfold Point.euclid
  rw [Point.accum_eq]
  have e : (∑ j : Fin 2, (diag i j - diag p j) * (diag i j - diag p j)) = 2 * (far p i : ℝ) ^ 2 := by
    rw [Fin.sum_univ_two]
    simp only [diag]
    rcases Nat.le_total i p with h | h
    · obtain ⟨c, rfl⟩ := Nat.exists_eq_add_of_le h
      have : far (i + c) i = c := by unfold far; omega
      rw [this]; push_cast; ring
    · obtain ⟨c, rfl⟩ := Nat.exists_eq_add_of_le h
      have : far p (p + c) = c := by unfold far; omega
      rw [this]; push_cast; ring
  rw [e, Real.sqrt_mul (by norm_num), Real.sqrt_sq (by positivity)]

theorem euclid_le {i j p : Nat} : Point.euclid (diag i) (diag p) ≤ Point.euclid (diag j) (diag p) ↔ far p i ≤ far p j := by
  rw [euclid_diag, euclid_diag]
  have : (0 : ℝ) < Real.sqrt 2 := Real.sqrt_pos.mpr (by norm_num)
  rw [mul_le_mul_iff_right₀ this]
  exact Nat.cast_le

theorem euclid_lt {i j p : Nat} : Point.euclid (diag i) (diag p) < Point.euclid (diag j) (diag p) ↔ far p i < far p j := by
  rw [← not_le, ← not_le, euclid_le]

/-- The `k` numbers below `n` nearest to `p` are consecutive. -/
theorem run_of_nearest {n k p : Nat} (hk : 1 ≤ k) {A B : List Nat} (hp : (List.range n).Perm (A ++ B)) (hA : A.length = k)
    (hd : ∀ x ∈ A, ∀ y ∈ B, far p x ≤ far p y) : ∃ a, A.Perm (List.range' a k) ∧ a + k ≤ n ∧
      ∀ x y, a ≤ x → x < a + k → y < n → (y < a ∨ a + k ≤ y) → far p x ≤ far p y := by
  have hnd : (A ++ B).Nodup := hp.nodup_iff.mp List.nodup_range
  have hAn : A.Nodup := (List.nodup_append.mp hnd).1
  have hlt : ∀ x ∈ A, x < n := fun x hx => List.mem_range.mp (hp.mem_iff.mpr (List.mem_append_left _ hx))
  have hor : ∀ y, y < n → y ∉ A → y ∈ B := by
    intro y hy hya
    rcases List.mem_append.mp (hp.mem_iff.mp (List.mem_range.mpr hy)) with h | h
    · exact absurd h hya
    · exact h
  have hconv : ∀ x y z, x ∈ A → z ∈ A → x < y → y < z → y ∈ A := by
    intro x y z hx hz h1 h2
    by_contra hy
    have hyB := hor y (by have := hlt z hz; omega) hy
    have q1 := hd x hx y hyB
    have q2 := hd z hz y hyB
    unfold far at q1 q2
    omega
  have hne : A.toFinset.Nonempty := by
    rw [List.toFinset_nonempty_iff]
    intro h; rw [h] at hA; simp at hA; omega
  set a := A.toFinset.min' hne with ha
  set b := A.toFinset.max' hne with hb
  have haA : a ∈ A := List.mem_toFinset.mp (Finset.min'_mem _ hne)
  have hbA : b ∈ A := List.mem_toFinset.mp (Finset.max'_mem _ hne)
  have hIcc : A.toFinset = Finset.Icc a b := by
    ext x
    rw [List.mem_toFinset, Finset.mem_Icc]
    constructor
    · intro hx
      exact ⟨Finset.min'_le _ _ (List.mem_toFinset.mpr hx), Finset.le_max' _ _ (List.mem_toFinset.mpr hx)⟩
    · rintro ⟨h1, h2⟩
      rcases Nat.lt_or_eq_of_le h1 with h1 | h1
      · rcases Nat.lt_or_eq_of_le h2 with h2 | h2
        · exact hconv a x b haA hbA h1 h2
        · rw [h2]; exact hbA
      · rw [← h1]; exact haA
  have hcard : b + 1 - a = k := by
    have := List.toFinset_card_of_nodup hAn
    rw [hIcc, Nat.card_Icc, hA] at this
    exact this
  have hmem : ∀ x, x ∈ A ↔ a ≤ x ∧ x < a + k := by
    intro x
    rw [← List.mem_toFinset, hIcc, Finset.mem_Icc]
    omega
  refine ⟨a, ?_, ?_, ?_⟩
  · refine (List.perm_ext_iff_of_nodup hAn (List.nodup_range' (step := 1))).mpr (fun x => ?_)
    rw [hmem, List.mem_range'_1]
  · have := hlt b hbA; omega
  · intro x y h1 h2 h3 h4
    exact hd x ((hmem x).mpr ⟨h1, h2⟩) y (hor y h3 (fun h => by have := (hmem y).mp h; omega))

/-- The `k` points of the diagonal nearest to one of them are consecutive. -/
theorem diag_nearest {n k p : Nat} (hk : 1 ≤ k) (hkn : k ≤ n) {res : List (Fin 2 → ℝ)}
    (h : KNearest k (fun y => Point.euclid y (diag p)) (diagSeq n) res) :
    ∃ a, res.Perm ((List.range' a k).map diag) ∧ a + k ≤ n ∧
      ∀ x y, a ≤ x → x < a + k → y < n → (y < a ∨ a + k ≤ y) → far p x ≤ far p y := by
  obtain ⟨rest, h1, h2, h3⟩ := h
  have hinv : ∃ inv : (Fin 2 → ℝ) → Nat, ∀ i, inv (diag i) = i := ⟨Function.invFun diag, Function.leftInverse_invFun diag_inj⟩
  obtain ⟨inv, hinv⟩ := hinv
  have himg : ∀ x ∈ res ++ rest, diag (inv x) = x := by
    intro x hx
    obtain ⟨i, -, rfl⟩ := List.mem_map.mp (h1.mem_iff.mpr hx)
    rw [hinv]
  have e : ∀ l : List (Fin 2 → ℝ), (∀ x ∈ l, diag (inv x) = x) → (l.map inv).map diag = l := by
    intro l hl
    rw [List.map_map]
    conv_rhs => rw [← List.map_id l]
    exact List.map_congr_left hl
  have hp := h1.map inv
  have e1 : (diagSeq n).map inv = List.range n := by
    unfold diagSeq
    rw [List.map_map]
    conv_rhs => rw [← List.map_id (List.range n)]
    exact List.map_congr_left (fun x _ => hinv x)
  rw [e1, List.map_append] at hp
  have hlen : (diagSeq n).length = n := by simp [diagSeq]
  obtain ⟨a, g1, g2, g3⟩ := run_of_nearest hk (p := p) hp (by rw [List.length_map, h2, hlen]; omega) (by
    intro x hx y hy
    obtain ⟨x', hx', rfl⟩ := List.mem_map.mp hx
    obtain ⟨y', hy', rfl⟩ := List.mem_map.mp hy
    have := h3 x' hx' y' hy'
    simp only at this
    rw [← himg x' (List.mem_append_left _ hx'), ← himg y' (List.mem_append_right _ hy')] at this
    simpa [hinv] using euclid_le.mp this)
  refine ⟨a, ?_, g2, g3⟩
  have := g1.map diag
  rwa [e res (fun x hx => himg x (List.mem_append_left _ hx))] at this

/-! ### Buffers and shards -/
section
variable {R 𝔽 : Type} [Inhabited R]

theorem fill_contents {items : List (R × Bool)} (h0 : items ≠ []) :
    ∃ b, fill items = .ok b ∧ b.WF ∧ b.contents.map Wrapped.entry = items.map (fun p => ⟨p.1, p.2, false⟩) := by
  have hpos := List.length_pos_iff.mpr h0
  have hnew : Buffer.new (R := R) (items.length / 2) items.length =
      .ok ⟨items.length / 2, items.length, 2 * items.length, 0, 0, fun _ => default, 0⟩ := by
    unfold Buffer.new
    rw [bind_ok]
    refine ⟨(), assertC_ok.mpr (by simp; omega), ?_⟩
    rw [bind_ok]
    exact ⟨(), assertC_ok.mpr (by simp; omega), rfl⟩
  set b0 : Buffer R := ⟨items.length / 2, items.length, 2 * items.length, 0, 0, fun _ => default, 0⟩ with hb0
  have hwf0 : b0.WF := ⟨rfl, by simp only [hb0]; omega, by simp only [hb0]; omega, le_refl _, by simp [hb0],
    by simp [Buffer.contents, hb0]⟩
  obtain ⟨g1, g2, g3, g4⟩ := foldl_contents items hwf0 (by simp [hb0])
  refine ⟨_, ?_, g1, ?_⟩
  · unfold fill
    rw [bind_ok]
    exact ⟨b0, hnew, rfl⟩
  · rw [g4]; simp [Buffer.contents, hb0]

/-- A buffer filled with inserts: its records, none of them tagged. -/
theorem fill_inserts {xs : List R} (h0 : xs ≠ []) : ∃ b, fill (xs.map (·, false)) = .ok b ∧ b.view.gets = .ok b.contents ∧
    b.contents.map Wrapped.record = xs ∧ ∀ w ∈ b.contents, w.isDeleted = false := by
  obtain ⟨b, h1, h2, h3⟩ := fill_contents (items := xs.map (·, false)) (by simpa using h0)
  refine ⟨b, h1, Buffer.view_gets h2, ?_, ?_⟩
  · have := congrArg (List.map Entry.record) h3
    rw [List.map_map, List.map_map, List.map_map] at this
    exact this.trans (List.map_id xs)
  · intro w hw
    have : w.entry ∈ b.contents.map Wrapped.entry := List.mem_map_of_mem hw
    rw [h3] at this
    obtain ⟨p, -, hp⟩ := List.mem_map.mp this
    exact (congrArg Entry.del hp).symm

variable [DecidableEq R] [LinearOrder 𝔽] [Zero 𝔽]

theorem vpShard_spec (dist : R → R → 𝔽) (leafSz : Nat) (g : Rng) {xs : List R} (h0 : xs ≠ []) :
    ∃ s, vpShard dist leafSz g xs = .ok s ∧ s.data.map Wrapped.record = xs ∧ s.tscnt = 0 ∧ ∀ w ∈ s.data, w.isDeleted = false := by
  obtain ⟨b, h1, h2, h3, h4⟩ := fill_inserts h0
  have e : b.contents.filter (fun w => !w.isDeleted) = b.contents := List.filter_eq_self.mpr (fun w hw => by simp [h4 w hw])
  refine ⟨⟨b.contents.map Wrapped.mask, 0⟩, ?_, ?_, rfl, ?_⟩
  · unfold vpShard
    rw [h1]
    show (do let l ← b.view.gets; _) = _
    rw [h2]
    show Except.ok _ = _
    rw [e]
  · show (b.contents.map Wrapped.mask).map Wrapped.record = xs
    rw [List.map_map, ← h3]
    rfl
  · intro w hw
    obtain ⟨u, hu, rfl⟩ := List.mem_map.mp hw
    exact (congrArg Entry.del (mask_entry u)).trans (h4 u hu)

end

/-! ### The scan over a buffer -/

theorem range'_cons_perm {a m : Nat} : (List.range' a (m + 1)).Perm ((a + m) :: List.range' a m) := by
  rw [List.range'_concat]
  simpa using List.perm_append_comm (l₁ := List.range' a m) (l₂ := [a + m])

/-- Once the queue is full and the next number is not nearer, nothing changes any more. -/
theorem keepNearest_done {q : MaxQ (Fin 2 → ℝ) ℝ} (hq : q.Ok) {p k : Nat} (hk : 1 ≤ k) : ∀ (m x : Nat) (l : List (Fin 2 → ℝ)), l.length = k →
    (∀ v ∈ l, ∃ i, v = diag i ∧ far p i ≤ x - p) → p ≤ x →
    keepNearest q Point.euclid (diag p) k l ((List.range' x m).map diag) = .ok l
  | 0, x, l, _, _, _ => rfl
  | m+1, x, l, hl, h, hp => by
    rw [List.range'_succ, List.map_cons]
    unfold keepNearest
    rw [if_neg (by omega)]
    have hne : l ≠ [] := by intro h0; rw [h0] at hl; simp at hl; omega
    obtain ⟨t, rest, h1, h2, h3⟩ := hq (fun y => Point.euclid y (diag p)) l hne
    have e : VP.popR q (fun y => Point.euclid y (diag p)) l = .ok (t, rest) := by unfold VP.popR; rw [h1]
    rw [e]
    simp only [bind, Except.bind]
    obtain ⟨i, rfl, hi⟩ := h t (h2.mem_iff.mpr List.mem_cons_self)
    rw [if_neg (by rw [euclid_lt]; unfold far at hi ⊢; omega)]
    exact keepNearest_done hq hk m (x+1) l hl (fun v hv => by
      obtain ⟨j, e, hj⟩ := h v hv
      exact ⟨j, e, by omega⟩) (by omega)

theorem keepNearest_run {q : MaxQ (Fin 2 → ℝ) ℝ} (hq : q.Ok) {p k n : Nat} (hk : 1 ≤ k) (hn : p - k / 2 + k ≤ n) : ∀ (m x a : Nat)
    (l : List (Fin 2 → ℝ)), l.Perm ((List.range' a (x - a)).map diag) → a ≤ x → x - a ≤ k → (x - a < k → a = 0) → a ≤ p - k / 2 → x + m = n →
    ∃ l', keepNearest q Point.euclid (diag p) k l ((List.range' x m).map diag) = .ok l' ∧
      l'.Perm ((List.range' (p - k / 2) k).map diag)
  | 0, x, a, l, hl, h1, h2, h3, h4, h5 => by
    refine ⟨l, rfl, ?_⟩
    have e : x - a = k := by
      by_contra hne
      have := h3 (by omega)
      omega
    have e2 : a = p - k / 2 := by omega
    rw [e, e2] at hl
    exact hl
  | m+1, x, a, l, hl, h1, h2, h3, h4, h5 => by
    have hlen : l.length = x - a := by rw [hl.length_eq]; simp
    rw [List.range'_succ, List.map_cons]
    unfold keepNearest
    by_cases hc : l.length < k
    · rw [if_pos hc]
      refine keepNearest_run hq hk hn m (x+1) a _ ?_ (by omega) (by omega) (fun _ => h3 (by omega)) h4 (by omega)
      rw [show x + 1 - a = (x - a) + 1 by omega]
      refine List.Perm.trans ?_ (range'_cons_perm.map diag).symm
      rw [List.map_cons, show a + (x - a) = x by omega]
      exact hl.cons _
    · rw [if_neg hc]
      have hx : x = a + k := by omega
      have hne : l ≠ [] := by intro h0; rw [h0] at hlen; simp at hlen; omega
      obtain ⟨t, rest, g1, g2, g3⟩ := hq (fun y => Point.euclid y (diag p)) l hne
      have e : VP.popR q (fun y => Point.euclid y (diag p)) l = .ok (t, rest) := by unfold VP.popR; rw [g1]
      rw [e]
      simp only [bind, Except.bind]
      have hmem : ∀ i, a ≤ i → i < x → diag i ∈ l := fun i q1 q2 =>
        hl.mem_iff.mpr (List.mem_map_of_mem (List.mem_range'_1.mpr ⟨q1, by omega⟩))
      have hof : ∀ v ∈ l, ∃ i, v = diag i ∧ a ≤ i ∧ i < x := by
        intro v hv
        obtain ⟨i, hi, rfl⟩ := List.mem_map.mp (hl.mem_iff.mp hv)
        rw [List.mem_range'_1] at hi
        exact ⟨i, rfl, hi.1, by omega⟩
      obtain ⟨j, rfl, hj1, hj2⟩ := hof t (g2.mem_iff.mpr List.mem_cons_self)
      have hmax : ∀ i, a ≤ i → i < x → far p i ≤ far p j := fun i q1 q2 => euclid_le.mp (g3 _ (hmem i q1 q2))
      by_cases hlt : far p x < far p j
      · rw [if_pos (euclid_lt.mpr hlt)]
        have hja : j = a := by
          have := hmax a (le_refl _) (by omega)
          unfold far at this hlt
          omega
        subst hja
        refine keepNearest_run hq hk hn m (x+1) (j+1) _ ?_ (by omega) (by omega) (by omega) ?_ (by omega)
        · have hr : rest.Perm ((List.range' (j+1) (k-1)).map diag) := by
            have := g2.symm.trans hl
            rw [show x - j = (k - 1) + 1 by omega, List.range'_succ, List.map_cons] at this
            exact List.Perm.cons_inv this
          rw [show x + 1 - (j + 1) = (k - 1) + 1 by omega]
          refine List.Perm.trans ?_ (range'_cons_perm.map diag).symm
          rw [List.map_cons, show j + 1 + (k - 1) = x by omega]
          exact hr.cons _
        · unfold far at hlt
          omega
      · rw [if_neg (fun h => hlt (euclid_lt.mp h))]
        have hpx : p ≤ x := by
          by_contra hp
          apply hlt
          unfold far
          omega
        refine ⟨l, keepNearest_done hq hk m (x+1) l (by omega) ?_ (by omega), ?_⟩
        · intro v hv
          obtain ⟨i, rfl, q1, q2⟩ := hof v hv
          refine ⟨i, rfl, ?_⟩
          have := hmax i q1 q2
          unfold far at this hlt ⊢
          omega
        · have e2 : a = p - k / 2 := by
            have := hmax a (le_refl _) (by omega)
            unfold far at this hlt
            omega
          rw [show x - a = k by omega, e2] at hl
          exact hl

end DE.Own
