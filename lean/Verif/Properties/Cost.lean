import Verif.Proofs.Cost
import Verif.Properties.Search

/-!
C108: what a search in a shard reads.
-/

namespace DE
variable {R K : Type} [LinearOrder R] [LinearOrder K] [HasKey R K]

/-- The tail of PGM's and TrieSpline's search: at most two more records. -/
theorem lbTail {data : List (Wrapped R)} {k : K} {idx : Nat} (n : Nat) (g : Wrapped R → Nat) :
    ((do
        let w ← getR data idx
        let back ← if key w.record > k ∧ idx > 0 then do
            let p ← getR data (idx-1)
            .ok (decide (key p.record ≤ k), 1)
          else .ok (false, 0)
        if back.1 then .ok (idx-1, n + 1 + back.2) else .ok (g w, n + 1 + back.2)) : Res (Nat × Nat)).fst =
      (do
        let w ← getR data idx
        let back ← if key w.record > k ∧ idx > 0 then do
            let p ← getR data (idx-1)
            .ok (decide (key p.record ≤ k))
          else .ok false
        if back then .ok (idx-1) else .ok (g w)) ∧
    ∀ x, ((do
        let w ← getR data idx
        let back ← if key w.record > k ∧ idx > 0 then do
            let p ← getR data (idx-1)
            .ok (decide (key p.record ≤ k), 1)
          else .ok (false, 0)
        if back.1 then .ok (idx-1, n + 1 + back.2) else .ok (g w, n + 1 + back.2)) : Res (Nat × Nat)) = .ok x → x.2 ≤ n + 2 := by
  cases hg : getR data idx with
  | error e => exact ⟨rfl, fun x h => by cases h⟩
  | ok w =>
    simp only [bind, Except.bind]
    by_cases hc : key w.record > k ∧ idx > 0
    · simp only [if_pos hc]
      cases hp : getR data (idx-1) with
      | error e => exact ⟨rfl, fun x h => by cases h⟩
      | ok p =>
        simp only
        by_cases hk : decide (key (K := K) p.record ≤ k) = true
        · simp only [if_pos hk]
          exact ⟨rfl, fun x h => by obtain rfl := Except.ok.inj h; exact le_refl _⟩
        · simp only [if_neg hk]
          exact ⟨rfl, fun x h => by obtain rfl := Except.ok.inj h; exact le_refl _⟩
    · simp only [if_neg hc]
      exact ⟨rfl, fun x h => by obtain rfl := Except.ok.inj h; exact Nat.le_succ _⟩

theorem pgmLBC_spec (ix : Learned K) (data : List (Wrapped R)) (k : K) :
    (pgmLBC ix data k).fst = pgmLB ix data k ∧
    ∀ x, pgmLBC ix data k = .ok x → x.2 ≤ max 255 (Nat.log 2 ((ix (keysOf data) k).hi - (ix (keysOf data) k).lo) + 1) + 2 := by
  unfold pgmLBC pgmLB
  by_cases h0 : data.length = 0
  · rw [if_pos h0, if_pos h0]; exact ⟨rfl, fun x h => by cases h⟩
  · rw [if_neg h0, if_neg h0, ← windowSearchC_fst]
    cases hw : windowSearchC data k (ix (keysOf data) k) with
    | error e => exact ⟨rfl, fun x h => by cases h⟩
    | ok y =>
      have hle := windowSearchC_le hw
      obtain ⟨o, n⟩ := y
      simp only [bind, Except.bind, Res.fst]
      cases o with
      | none => exact ⟨rfl, fun x h => by obtain rfl := Except.ok.inj h; simp only at hle ⊢; omega⟩
      | some idx =>
        simp only
        by_cases hi : idx = data.length
        · rw [if_pos hi, if_pos hi]
          exact ⟨rfl, fun x h => by obtain rfl := Except.ok.inj h; simp only at hle ⊢; omega⟩
        · rw [if_neg hi, if_neg hi]
          have h := lbTail (data := data) (k := k) (idx := idx) n (fun w => if key w.record ≥ k then idx else data.length)
          simp only [bind, Except.bind] at h
          have e1 : ∀ (w : Wrapped R) (m : Nat), (if key w.record ≥ k then (.ok (idx, m) : Res (Nat × Nat)) else .ok (data.length, m)) =
              .ok (if key w.record ≥ k then idx else data.length, m) := by intro w m; split <;> rfl
          have e2 : ∀ (w : Wrapped R), (if key w.record ≥ k then (.ok idx : Res Nat) else .ok data.length) =
              .ok (if key w.record ≥ k then idx else data.length) := by intro w; split <;> rfl
          simp only [e1, e2]
          refine ⟨h.1, fun x hx => ?_⟩
          have := h.2 x hx
          simp only at hle
          omega

theorem tsLBC_spec (ix : Learned K) (data : List (Wrapped R)) (k : K) :
    (tsLBC ix data k).fst = tsLB ix data k ∧
    ∀ x, tsLBC ix data k = .ok x → x.2 ≤ max 255 (Nat.log 2 ((ix (keysOf data) k).hi - (ix (keysOf data) k).lo) + 1) + 2 := by
  unfold tsLBC tsLB
  by_cases h0 : data.length < 50
  · rw [if_pos h0, if_pos h0]
    refine ⟨by simp only [Res.fst]; rw [smallLBC_fst], fun x h => ?_⟩
    obtain rfl := Except.ok.inj h
    have := smallLBC_le k data
    omega
  · rw [if_neg h0, if_neg h0]
    by_cases h1 : ¬ data.length > 50
    · rw [if_pos h1, if_pos h1]; exact ⟨rfl, fun x h => by cases h⟩
    · rw [if_neg h1, if_neg h1, ← windowSearchC_fst]
      cases hw : windowSearchC data k (ix (keysOf data) k) with
      | error e => exact ⟨rfl, fun x h => by cases h⟩
      | ok y =>
        have hle := windowSearchC_le hw
        obtain ⟨o, n⟩ := y
        simp only [bind, Except.bind, Res.fst]
        cases o with
        | none => exact ⟨rfl, fun x h => by obtain rfl := Except.ok.inj h; simp only at hle ⊢; omega⟩
        | some idx =>
          simp only
          by_cases hi : idx = data.length
          · rw [if_pos hi, if_pos hi]
            exact ⟨rfl, fun x h => by obtain rfl := Except.ok.inj h; simp only at hle ⊢; omega⟩
          · rw [if_neg hi, if_neg hi]
            have h := lbTail (data := data) (k := k) (idx := idx) n (fun _ => idx)
            simp only [bind, Except.bind] at h
            refine ⟨h.1, fun x hx => ?_⟩
            have := h.2 x hx
            simp only at hle
            omega

/-- C108: the counted searches return exactly what the searches of the shards return, undefined behaviour included. -/
theorem C108_counting_is_invisible (F LF : Nat) (z : K) (ix : Learned K) (data : List (Wrapped R)) (k : K) :
    (Isam.lowerBoundC F LF z data k).fst = Isam.lowerBound F LF z data k ∧
    (Isam.upperBoundC F LF z data k).fst = Isam.upperBound F LF z data k ∧
    (pgmLBC ix data k).fst = pgmLB ix data k ∧ (tsLBC ix data k).fst = tsLB ix data k ∧ (aliasLBC data k).fst = aliasLB data k := by
  refine ⟨Isam.searchC_fst _ _ _ _ _ _, Isam.searchC_fst _ _ _ _ _ _, (pgmLBC_spec ix data k).1, (tsLBC_spec ix data k).1, ?_⟩
  unfold aliasLBC aliasLB
  split
  · rfl
  · exact binSearchC_fst _ _ _ _ _

/-- C108 for ISAMTree: a search visits one node per level of the tree, `log_F (n / LF) + 1` at most, compares fewer keys than the fanout
in each, and then reads no more than one leaf, whatever the keys (repeated ones included). -/
theorem C108_isam {F LF : Nat} (hF : 2 ≤ F) (hLF : 1 ≤ LF) (z : K) {data : List (Wrapped R)} (hne : data ≠ []) (k : K) :
    (∃ i c, Isam.lowerBoundC F LF z data k = .ok (i, c) ∧ c.nodes ≤ Nat.log F (data.length / LF) + 1 ∧
      c.keys ≤ c.nodes * (F - 1) ∧ c.recs ≤ LF) ∧
    (∃ i c, Isam.upperBoundC F LF z data k = .ok (i, c) ∧ c.nodes ≤ Nat.log F (data.length / LF) + 1 ∧
      c.keys ≤ c.nodes * (F - 1) ∧ c.recs ≤ LF) := by
  have log : ∀ n, (n = 1 ∨ 1 < n ∧ F ^ (n - 1) * LF < data.length) → n ≤ Nat.log F (data.length / LF) + 1 := by
    rintro n (h | ⟨h1, h2⟩)
    · omega
    · have h3 : F ^ (n - 1) ≤ data.length / LF := (Nat.le_div_iff_mul_le (by omega)).mpr (le_of_lt h2)
      have := Nat.le_log_of_pow_le (show 1 < F by omega) h3
      omega
  constructor
  · obtain ⟨i, c, h1, h2, -, h3, h4⟩ := Isam.searchC_cost (z := z) hF hLF hne (go := fun x => decide (k ≤ x))
      (p := fun w => decide (key w.record < k)) (by intro m _ hg; simpa using hg)
    exact ⟨i, c, h1, log _ h4, h2, h3⟩
  · obtain ⟨i, c, h1, h2, -, h3, h4⟩ := Isam.searchC_cost (z := z) hF hLF hne (go := fun x => decide (k < x))
      (p := fun w => decide (key w.record ≤ k)) (by intro m _ hg; simpa using hg)
    exact ⟨i, c, h1, log _ h4, h2, h3⟩

/-- C108 for Alias: the binary search reads `log_2 (n - 1) + 1` records at most. -/
theorem C108_alias {data : List (Wrapped R)} {k : K} {x : Nat × Nat} (h : aliasLBC data k = .ok x) :
    x.2 ≤ Nat.log 2 (data.length - 1) + 1 := by
  unfold aliasLBC at h
  split at h
  · cases h
  · exact probes_log (by simpa using binSearchC_le _ _ _ _ _ _ h)

/-- C108 for PGM and TrieSpline: with a window of `w` records, at most `max 255 (log_2 w + 1) + 2` records are read; with any valid
index the window is at most the shard. -/
theorem C108_learned {ix : Learned K} {data : List (Wrapped R)} {k : K} :
    (∀ x, pgmLBC ix data k = .ok x ∨ tsLBC ix data k = .ok x →
      x.2 ≤ max 255 (Nat.log 2 ((ix (keysOf data) k).hi - (ix (keysOf data) k).lo) + 1) + 2) ∧
    (ix.Valid → data ≠ [] → data.Pairwise (fun a b => key (K := K) a.record ≤ key b.record) →
      ∀ x, pgmLBC ix data k = .ok x ∨ tsLBC ix data k = .ok x → x.2 ≤ Nat.log 2 data.length + 257) := by
  have h1 : ∀ x, pgmLBC ix data k = .ok x ∨ tsLBC ix data k = .ok x →
      x.2 ≤ max 255 (Nat.log 2 ((ix (keysOf data) k).hi - (ix (keysOf data) k).lo) + 1) + 2 := by
    rintro x (h | h)
    · exact (pgmLBC_spec ix data k).2 x h
    · exact (tsLBC_spec ix data k).2 x h
  refine ⟨h1, fun hv hne hs x hx => ?_⟩
  have h2 := h1 x hx
  have h3 := (hv (keysOf data) (by simpa [keysOf] using hne) (by unfold keysOf; rw [List.pairwise_map]; exact hs) k).2.2
  have h4 : (keysOf (K := K) data).length = data.length := by simp [keysOf]
  have := Nat.log_mono_right (b := 2) (show (ix (keysOf data) k).hi - (ix (keysOf data) k).lo ≤ data.length by omega)
  omega

/-- C108, the rest of a point lookup: after the search it reads the records that have the key, and at most two more. Reading stops at
the first record that is not smaller, so the number read is the number skipped plus one. -/
theorem C108_lookup {data : List (Wrapped R)} (hs : data.Pairwise (fun a b => key (K := K) a.record ≤ key b.record)) (r : R) :
    (∀ F LF z, 2 ≤ F → 1 ≤ LF → ∀ i, Isam.lowerBound F LF z data (key r) = .ok i →
      skipLess r (data.drop i) + 1 ≤ (data.filter (fun w => decide (key (K := K) w.record = key r))).length + 2) ∧
    (∀ ix : Learned K, ix.Valid → ∀ i, pgmLB ix data (key r) = .ok i ∨ tsLB ix data (key r) = .ok i →
      skipLess r (data.drop i) + 1 ≤ (data.filter (fun w => decide (key (K := K) w.record = key r))).length + 2) := by
  have before : lowerBoundSpec (key (K := K) r) data ≤ lbOrBefore (key r) data + 1 := by
    unfold lbOrBefore
    have := lowerBoundSpec_le (key (K := K) r) data
    simp only
    split
    · split <;> omega
    · omega
  refine ⟨fun F LF z hF hLF i hi => ?_, fun ix hv i hi => ?_⟩
  · have hne : data ≠ [] := by rintro rfl; cases hi
    rw [isamLB_spec hF hLF z hne hs] at hi
    obtain rfl := Except.ok.inj hi
    exact Nat.add_le_add_right (skipLess_count hs (by omega)) 1
  · have hi : i = lowerBoundSpec (key r) data ∨ i = lbOrBefore (key r) data := by
      rcases hi with hi | hi
      · have hne : data ≠ [] := by rintro rfl; cases hi
        rw [pgmLB_spec hv hne hs] at hi
        exact Or.inr (Except.ok.inj hi).symm
      · by_cases h50 : data.length = 50
        · unfold tsLB at hi
          rw [if_neg (by omega), if_pos (by omega)] at hi
          cases hi
        · rw [tsLB_spec hv h50 hs] at hi
          have := (Except.ok.inj hi).symm
          split at this
          · exact Or.inl this
          · exact Or.inr this
    refine Nat.add_le_add_right (skipLess_count hs ?_) 1
    rcases hi with rfl | rfl
    · omega
    · exact before

/-- A tree of three levels over 13 records: three nodes, one record of the leaf; past the end the leaf is read to its end. All keys
equal: still one leaf. -/
example : Isam.lowerBoundC 2 2 0 (ramp 3 13) 10 = .ok (4, ⟨3, 3, 1⟩) ∧ Isam.lowerBoundC 2 2 0 (ramp 3 13) 40 = .ok (13, ⟨3, 2, 1⟩) ∧
    Isam.upperBoundC 2 2 0 (ramp 0 13) 0 = .ok (13, ⟨3, 2, 1⟩) ∧ Nat.log 2 (13 / 2) + 1 = 3 := by decide +kernel
example : aliasLBC (ramp 3 13) 10 = .ok (4, 4) ∧ Nat.log 2 12 + 1 = 4 := by decide +kernel
example : pgmLBC (fun ks _ => ⟨0, ks.length⟩) (ramp 3 13) 10 = .ok (3, 7) ∧ tsLBC (fun ks _ => ⟨0, ks.length⟩) (ramp 3 13) 10 = .ok (4, 5) := by
  decide +kernel

end DE
