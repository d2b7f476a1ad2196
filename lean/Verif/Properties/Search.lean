import Verif.Proofs.Learned
import Verif.Model.Instances

/-!
C25 (ISAM tree search), C26 (PGM and TrieSpline search), C27 (Alias search), C28 (point lookup in sorted shards).
-/

namespace DE
variable {R K : Type} [LinearOrder R] [LinearOrder K] [HasKey R K]

/-- Key-sorted test arrays: keys `0, d, 2d, …`. -/
def ramp (d : Nat) (n : Nat) : List (Wrapped Rec) := (List.range n).map (fun i => ⟨0, ⟨d * i, 0⟩⟩)

theorem ramp_sorted (d n : Nat) : (ramp d n).Pairwise (fun a b => a.record ≤ b.record) := by
  unfold ramp
  rw [List.pairwise_map]
  refine List.pairwise_lt_range.imp ?_
  intro a b hab
  have : d * a ≤ d * b := Nat.mul_le_mul_left _ (by omega)
  rcases Nat.lt_or_ge (d * a) (d * b) with h | h
  · exact le_of_lt (show Record.cppLt _ _ from Or.inl h)
  · have : d * a = d * b := by omega
    simp [this]

/-! ### C25 -/

/-- The tree has exactly as many nodes as were allocated for it. -/
theorem isam_nodes {F LF : Nat} (hF : 2 ≤ F) (hLF : 1 ≤ LF) (z : K) {data : List (Wrapped R)} (hne : data ≠ []) {g : Nat}
    (hg : data.length < g) : (Isam.buildTree F LF z data).1.length = Isam.allocNodes F g (Isam.leafCount LF data.length) := by
  obtain ⟨h, -, -, -, -, h4⟩ := Isam.buildTree_cov (z := z) hF hLF hne
  refine h4 g (lt_of_le_of_lt ?_ hg)
  have := Isam.leafLevel_len (F := F) (z := z) (data := data) (by omega) hLF data.length 0 (by omega)
  rw [this]
  have hle : ∀ a b : Nat, 1 ≤ b → Isam.cdiv a b ≤ a := by
    intro a b hb
    unfold Isam.cdiv
    rcases Nat.eq_zero_or_pos a with rfl | ha
    · rw [Nat.div_eq_of_lt (by omega)]
    · apply Nat.le_of_lt_succ
      rw [Nat.div_lt_iff_lt_mul (by omega)]
      have := Nat.mul_le_mul ha hb
      obtain ⟨c, rfl⟩ := Nat.exists_eq_add_of_le hb
      rw [Nat.succ_mul, Nat.mul_add]; omega
  exact le_trans (hle _ F (by omega)) (le_trans (hle _ LF hLF) (by omega))

/-- C25: both searches of the ISAM tree are exact, for every size, every fanout and every key, and the tree has exactly as
many nodes as were allocated for it. `F` and `LF` are the fanouts, `z` the all-zero key found in unused slots. The number of
rounds of the allocation loop is any number not smaller than the number of records. -/
theorem C25_isam {F LF : Nat} (hF : 2 ≤ F) (hLF : 1 ≤ LF) (z : K) {data : List (Wrapped R)} (hne : data ≠ [])
    (hs : data.Pairwise (fun a b => key (K := K) a.record ≤ key b.record)) :
    (∀ k, ∃ i, Isam.lowerBound F LF z data k = .ok i ∧ IsFirst (fun w => k ≤ key w.record) data i) ∧
    (∀ k, ∃ i, Isam.upperBound F LF z data k = .ok i ∧ IsFirst (fun w => k < key w.record) data i) ∧
    (∀ rounds, data.length < rounds → (Isam.buildTree F LF z data).1.length = Isam.allocNodes F rounds (Isam.leafCount LF data.length)) := by
  refine ⟨fun k => ?_, fun k => ?_, ?_⟩
  · obtain ⟨i, h1, h2, h3, h4⟩ := Isam.search_spec (z := z) hF hLF hne (go := fun x => decide (k ≤ x))
      (p := fun w => decide (key w.record < k)) (data := data) (by
        intro m hm hg i hi
        have : key (data[i]'(by omega)).record ≤ key (K := K) data[m].record := KeySorted.get hs hi hm
        simp only [decide_eq_false_iff_not, not_le, decide_eq_true_eq] at *
        exact lt_of_le_of_lt this hg)
    exact ⟨i, h1, isFirst_of h2 (fun j hj hlt => by simpa using h3 j hj hlt) (fun h => by simpa using h4 h)⟩
  · obtain ⟨i, h1, h2, h3, h4⟩ := Isam.search_spec (z := z) hF hLF hne (go := fun x => decide (k < x))
      (p := fun w => decide (key w.record ≤ k)) (data := data) (by
        intro m hm hg i hi
        have : key (data[i]'(by omega)).record ≤ key (K := K) data[m].record := KeySorted.get hs hi hm
        simp only [decide_eq_false_iff_not, not_lt, decide_eq_true_eq] at *
        exact le_trans this hg)
    exact ⟨i, h1, isFirst_of h2 (fun j hj hlt => by simpa using h3 j hj hlt) (fun h => by simpa using h4 h)⟩
  · exact fun g hg => isam_nodes hF hLF z hne hg

/-- A tree of three levels, with a key in the middle and one past the end. -/
example : Isam.lowerBound 2 2 0 (ramp 3 13) 10 = .ok 4 ∧ Isam.upperBound 2 2 0 (ramp 3 13) 12 = .ok 5 ∧
    Isam.lowerBound 2 2 0 (ramp 3 13) 40 = .ok 13 ∧ (Isam.buildTree 2 2 0 (ramp 3 13)).1.length = 7 := by decide
example : ramp 3 13 ≠ [] ∧ (ramp 3 13).Pairwise (fun a b => key (K := Nat) a.record ≤ key b.record) :=
  ⟨by decide, KeySorted.of_rec (ramp_sorted 3 13)⟩

/-- The search is only defined on non-empty shards: the root of an empty one is null. -/
theorem C25_empty_ub (F LF : Nat) (z k : K) : Isam.lowerBound (R := R) F LF z [] k = .error .ub := rfl

/-! ### C26 -/

/-- C26 for PGM: given a valid error bound, `get_lower_bound` is defined, is at or before the first record with key `>= k`
(and is "end" exactly when there is none), and everything skipped has a smaller key. It is exact when `k` is stored. -/
theorem C26_pgm {ix : Learned K} (hv : ix.Valid) {data : List (Wrapped R)} (hne : data ≠ [])
    (hs : data.Pairwise (fun a b => key (K := K) a.record ≤ key b.record)) (k : K) :
    ∃ i, pgmLB ix data k = .ok i ∧ i ≤ data.length ∧ (∀ w ∈ data.take i, key w.record < k) ∧
      (i = data.length ↔ ∀ w ∈ data, key w.record < k) ∧
      ((∃ w ∈ data, key w.record = k) → IsFirst (fun w => k ≤ key w.record) data i) := by
  refine ⟨_, pgmLB_spec hv hne hs k, ?_⟩
  exact lbOrBefore_full hne hs k

/-- C26 for TrieSpline, with the additional hypothesis that the shard does not have exactly 50 records. -/
theorem C26_triespline_partial {ix : Learned K} (hv : ix.Valid) {data : List (Wrapped R)} (h50 : data.length ≠ 50)
    (hs : data.Pairwise (fun a b => key (K := K) a.record ≤ key b.record)) (k : K) :
    ∃ i, tsLB ix data k = .ok i ∧ i ≤ data.length ∧ (∀ w ∈ data.take i, key w.record < k) ∧
      (i = data.length ↔ ∀ w ∈ data, key w.record < k) ∧
      ((∃ w ∈ data, key w.record = k) → IsFirst (fun w => k ≤ key w.record) data i) := by
  refine ⟨_, tsLB_spec hv h50 hs k, ?_⟩
  by_cases h : data.length < 50
  · rw [if_pos h]; exact lbs_full hs k
  · rw [if_neg h]
    exact lbOrBefore_full (by rintro rfl; simp at h) hs k

/-- C26 is false for TrieSpline: a shard with exactly 50 records is searched with an index that was never built, whatever
the index would have answered. -/
theorem C26_false_triespline (ix : Learned Nat) (k : Nat) : ∃ data : List (Wrapped Rec), data ≠ [] ∧
    data.Pairwise (fun a b => a.record ≤ b.record) ∧ tsLB ix data k = .error .ub := by
  have hl : (ramp 1 50).length = 50 := by simp [ramp]
  refine ⟨ramp 1 50, ?_, ramp_sorted 1 50, ?_⟩
  · intro h; rw [h] at hl; simp at hl
  · unfold tsLB
    rw [if_neg (by omega), if_pos (by omega)]

/-- The hypotheses are met by an index that always answers with the whole array. -/
example : Learned.Valid (K := Nat) (fun ks _ => ⟨0, ks.length⟩) := fun ks _ _ k =>
  ⟨Nat.zero_le _, List.length_filter_le _ _, le_refl _⟩
/-- Absent key: one position before; stored key: exact; key past the end. -/
example : pgmLB (fun ks _ => ⟨0, ks.length⟩) (ramp 3 13) 10 = .ok 3 ∧ pgmLB (fun ks _ => ⟨0, ks.length⟩) (ramp 3 13) 9 = .ok 3 ∧
    pgmLB (fun ks _ => ⟨2, ks.length⟩) (ramp 3 13) 40 = .ok 13 ∧ tsLB (fun ks _ => ⟨0, ks.length⟩) (ramp 3 13) 10 = .ok 4 := by decide

/-! ### C27 -/

/-- C27: on a non-empty sorted Alias shard the search and the point lookup are defined (no access outside the array); a
stored record is found, and a missing one is reported as missing. -/
theorem C27_alias {s : Shard R} (hne : s.data ≠ []) (hs : s.data.Pairwise (fun a b => a.record ≤ b.record)) :
    (∀ k : K, ∃ i, aliasLB s.data k = .ok i ∧ i < s.data.length ∧ (∀ w ∈ s.data.take i, key w.record < k) ∧
      ((∃ w ∈ s.data, k ≤ key w.record) → IsFirst (fun w => k ≤ key w.record) s.data i)) ∧
    (∀ r, (∃ w ∈ s.data, w.record = r) →
      ∃ i w, aliasLookup (K := K) s r = .ok (some i) ∧ s.data[i]? = some w ∧ w.record = r) ∧
    (∀ r, (∀ w ∈ s.data, w.record ≠ r) → aliasLookup (K := K) s r = .ok none) := by
  have hlen : 0 < s.data.length := List.length_pos_of_ne_nil hne
  have hk : KeySorted K s.data := KeySorted.of_rec hs
  refine ⟨fun k => ⟨_, aliasLB_spec hne hk k, by omega, ?_, ?_⟩, ?_, ?_⟩
  · intro w hw
    obtain ⟨j, hj, rfl⟩ := List.getElem_of_mem hw
    rw [List.length_take] at hj
    rw [List.getElem_take]
    exact lbs_lt k (by omega) (by omega)
  · rintro ⟨w, hw, hkw⟩
    have hL : lowerBoundSpec k s.data < s.data.length := by
      by_contra h
      obtain ⟨j, hj, rfl⟩ := List.getElem_of_mem hw
      exact absurd (lbs_lt k hj (by omega)) (not_lt.mpr hkw)
    have he : min (lowerBoundSpec k s.data) (s.data.length - 1) = lowerBoundSpec k s.data := by omega
    rw [he]
    exact isFirst_of (by omega) (fun j hj hlt => not_le.mpr (lbs_lt k hj hlt)) (fun h => lbs_at k h)
  · rintro r ⟨w, hw, hr⟩
    obtain ⟨j, hj, h1, h2⟩ := (aliasLookup_spec (K := K) hne hs r).1 w hw hr
    exact ⟨j, _, h1, List.getElem?_eq_getElem hj, h2⟩
  · intro r hno
    exact (aliasLookup_spec (K := K) hne hs r).2 hno

/-- Stored, missing inside, missing past the end. -/
example : aliasLookup (K := Nat) ⟨ramp 3 13, 0⟩ ⟨9, 0⟩ = .ok (some 3) ∧ aliasLookup (K := Nat) ⟨ramp 3 13, 0⟩ ⟨10, 0⟩ = .ok none ∧
    aliasLookup (K := Nat) ⟨ramp 3 13, 0⟩ ⟨36, 7⟩ = .ok none ∧ aliasLookup (K := Nat) ⟨ramp 3 13, 0⟩ ⟨99, 7⟩ = .ok none := by decide

/-! ### C28 -/

/-- What the lookups of the sorted shards do: a stored record is found; a missing one is reported missing, unless it is
greater than every stored record while some stored record has its key, in which case the slot past the end is read. -/
def LookupSpec (K : Type) [LinearOrder K] [HasKey R K] (res : Res (Option Nat)) (data : List (Wrapped R)) (r : R) : Prop :=
  ((∃ w ∈ data, w.record = r) → ∃ i w, res = .ok (some i) ∧ data[i]? = some w ∧ w.record = r) ∧
  ((∀ w ∈ data, w.record ≠ r) → ¬ ((∀ w ∈ data, w.record < r) ∧ ∃ w ∈ data, key (K := K) w.record = key r) → res = .ok none) ∧
  ((∀ w ∈ data, w.record < r) → (∃ w ∈ data, key (K := K) w.record = key r) → res = .error .ub)

theorem lookupSpec_of {lb : LB R K} {s : Shard R} (hs : s.data.Pairwise (fun a b => a.record ≤ b.record)) {r : R} {i : Nat}
    (hi : lb s.data (key r) = .ok i) (hle : i ≤ lowerBoundSpec (key r) s.data)
    (hend : lowerBoundSpec (key r) s.data = s.data.length → i = s.data.length) :
    LookupSpec K (sortedLookup lb s r) s.data r := by
  obtain ⟨h1, h2⟩ := sortedLookup_spec hs hi hle hend
  have hkey : ∀ w : Wrapped R, w.record < r → key (K := K) r ≤ key w.record → key (K := K) w.record = key r := fun w h1 h2 =>
    le_antisymm (key_mono (le_of_lt h1)) h2
  refine ⟨?_, ?_, ?_⟩
  · rintro ⟨w, hw, hr⟩
    obtain ⟨j, hj, q1, q2⟩ := h1 w hw hr
    exact ⟨j, _, q1, List.getElem?_eq_getElem hj, q2⟩
  · intro hno hc
    rw [h2 hno, if_neg]
    rintro ⟨ha, w, hw, hk⟩
    exact hc ⟨ha, w, hw, hkey w (ha w hw) hk⟩
  · rintro ha ⟨w, hw, hk⟩
    rw [h2 (fun w hw => ne_of_lt (ha w hw)), if_pos ⟨ha, w, hw, hk.ge⟩]

/-- C28 for ISAMTree, as far as it is true (the third clause of `LookupSpec` is the failing case). -/
theorem C28_isam_partial {F LF : Nat} (hF : 2 ≤ F) (hLF : 1 ≤ LF) (z : K) {s : Shard R} (hne : s.data ≠ [])
    (hs : s.data.Pairwise (fun a b => a.record ≤ b.record)) (r : R) :
    LookupSpec K (sortedLookup (Isam.lowerBound F LF z) s r) s.data r :=
  lookupSpec_of hs (isamLB_spec hF hLF z hne (KeySorted.of_rec hs) _) (le_refl _) id

/-- C28 for PGM, as far as it is true. -/
theorem C28_pgm_partial {ix : Learned K} (hv : ix.Valid) {s : Shard R} (hne : s.data ≠ [])
    (hs : s.data.Pairwise (fun a b => a.record ≤ b.record)) (r : R) : LookupSpec K (sortedLookup (pgmLB ix) s r) s.data r :=
  lookupSpec_of hs (pgmLB_spec hv hne (KeySorted.of_rec hs) _) (lbOrBefore_sound _ _).1 (lbOrBefore_sound _ _).2

/-- C28 for TrieSpline, as far as it is true. -/
theorem C28_triespline_partial {ix : Learned K} (hv : ix.Valid) {s : Shard R} (h50 : s.data.length ≠ 50)
    (hs : s.data.Pairwise (fun a b => a.record ≤ b.record)) (r : R) : LookupSpec K (sortedLookup (tsLB ix) s r) s.data r := by
  refine lookupSpec_of hs (tsLB_spec hv h50 (KeySorted.of_rec hs) _) ?_ ?_
  · split
    · exact le_refl _
    · exact (lbOrBefore_sound _ _).1
  · split
    · exact id
    · exact (lbOrBefore_sound _ _).2

/-- C28 is false of all three: looking up `(1, 2)` in a shard holding `(1, 1)` reads past the array. -/
theorem C28_false {ix : Learned Nat} (hv : ix.Valid) : ∃ (s : Shard Rec) (r : Rec), s.data ≠ [] ∧
    s.data.Pairwise (fun a b => a.record ≤ b.record) ∧ (∀ w ∈ s.data, w.record ≠ r) ∧
    (∀ F LF z, 2 ≤ F → 1 ≤ LF → sortedLookup (Isam.lowerBound F LF z) s r = .error .ub) ∧
    sortedLookup (pgmLB ix) s r = .error .ub ∧ sortedLookup (tsLB ix) s r = .error .ub := by
  let s : Shard Rec := ⟨[⟨0, ⟨1, 1⟩⟩], 0⟩
  have hs : s.data.Pairwise (fun a b => a.record ≤ b.record) := List.pairwise_singleton _ _
  have hall : ∀ w ∈ s.data, w.record < (⟨1, 2⟩ : Rec) := by decide
  have hex : ∃ w ∈ s.data, key (K := Nat) w.record = key (⟨1, 2⟩ : Rec) := by decide
  have hne : s.data ≠ [] := by decide
  exact ⟨s, ⟨1, 2⟩, hne, hs, fun w hw => ne_of_lt (hall w hw),
    fun F LF z hF hLF => (C28_isam_partial hF hLF z hne hs _).2.2 hall hex,
    (C28_pgm_partial hv hne hs _).2.2 hall hex, (C28_triespline_partial hv (by decide) hs _).2.2 hall hex⟩

/-- The range query theorems (C04 …) apply to the real searches. -/
theorem C26_searches_sound {F LF : Nat} (hF : 2 ≤ F) (hLF : 1 ≤ LF) (z : K) {ix : Learned K} (hv : ix.Valid) :
    (Isam.lowerBound (R := R) F LF z).Sound ∧ (pgmLB (R := R) ix).Sound := ⟨isam_sound hF hLF z, pgm_sound hv⟩

end DE
