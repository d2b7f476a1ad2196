import Verif.Model.Learned
import Verif.Proofs.ISAM
import Verif.Proofs.Query
import Verif.Spec

/-! Searches of PGM, TrieSpline and Alias, and point lookups. -/

namespace DE
variable {R K : Type} [LinearOrder R] [LinearOrder K] [HasKey R K]

def KeySorted (K : Type) [LinearOrder K] [HasKey R K] (l : List (Wrapped R)) : Prop :=
  l.Pairwise (fun a b => key (K := K) a.record ≤ key b.record)

theorem KeySorted.of_rec {l : List (Wrapped R)} (h : l.Pairwise (fun a b => a.record ≤ b.record)) : KeySorted K l :=
  h.imp (fun hab => key_mono hab)

theorem KeySorted.get {l : List (Wrapped R)} (h : KeySorted K l) {i j : Nat} (hij : i ≤ j) (hj : j < l.length) :
    key (K := K) (l[i]'(by omega)).record ≤ key l[j].record := by
  rcases Nat.lt_or_ge i j with hlt | hge
  · exact List.pairwise_iff_getElem.mp h i j (by omega) hj hlt
  · have : i = j := by omega
    subst this; exact le_refl _

theorem lbs_lt (k : K) : ∀ {l : List (Wrapped R)} {i : Nat} (hi : i < l.length), i < lowerBoundSpec k l → key l[i].record < k
  | w :: ws, i, hi, h => by
    rw [lowerBoundSpec] at h
    by_cases hk : key w.record < k
    · rw [if_pos hk] at h
      cases i with
      | zero => simpa using hk
      | succ i => simpa using lbs_lt k (by simpa using hi) (by omega : i < lowerBoundSpec k ws)
    · rw [if_neg hk] at h; omega

theorem lbs_at (k : K) : ∀ {l : List (Wrapped R)} (h : lowerBoundSpec k l < l.length), k ≤ key l[lowerBoundSpec k l].record
  | [], h => by simp at h
  | w :: ws, h => by
    by_cases hk : key w.record < k
    · have e : lowerBoundSpec k (w :: ws) = lowerBoundSpec k ws + 1 := by rw [lowerBoundSpec, if_pos hk]
      have h' : lowerBoundSpec k ws < ws.length := by rw [e] at h; simpa using h
      simpa [e] using lbs_at k h'
    · have e : lowerBoundSpec k (w :: ws) = 0 := by rw [lowerBoundSpec, if_neg hk]
      simpa [e] using hk

theorem lbs_ge (k : K) {l : List (Wrapped R)} (hs : KeySorted K l) {i : Nat} (hi : i < l.length) (h : lowerBoundSpec k l ≤ i) :
    k ≤ key l[i].record :=
  le_trans (lbs_at k (by omega)) (hs.get h hi)

/-- A position with only smaller keys before it and a key `>= k` on it is the lower bound. -/
theorem lbs_unique (k : K) {l : List (Wrapped R)} {i : Nat} (hi : i ≤ l.length)
    (h1 : ∀ (j : Nat) (hj : j < l.length), j < i → key l[j].record < k) (h2 : ∀ h : i < l.length, k ≤ key l[i].record) :
    i = lowerBoundSpec k l := by
  have hle := lowerBoundSpec_le k l
  rcases Nat.lt_trichotomy i (lowerBoundSpec k l) with h | h | h
  · exact absurd (h2 (by omega)) (not_le.mpr (lbs_lt k (by omega) h))
  · exact h
  · exact absurd (lbs_at k (by omega)) (not_le.mpr (h1 _ (by omega) h))

theorem lbs_filter (k : K) : ∀ {l : List (Wrapped R)}, KeySorted K l →
    ((keysOf (K := K) l).filter (· < k)).length = lowerBoundSpec k l
  | [], _ => rfl
  | w :: ws, h => by
    obtain ⟨h1, h2⟩ := List.pairwise_cons.mp h
    rw [lowerBoundSpec]
    unfold keysOf
    rw [List.map_cons, List.filter_cons]
    by_cases hk : key w.record < k
    · rw [if_pos (by simpa using hk), if_pos hk, List.length_cons]
      have := lbs_filter k h2
      unfold keysOf at this
      rw [this]
    · rw [if_neg (by simpa using hk), if_neg hk]
      rw [List.length_eq_zero_iff, List.filter_eq_nil_iff]
      intro a ha
      obtain ⟨x, hx, rfl⟩ := List.mem_map.mp ha
      have := h1 x hx
      simp only [decide_eq_true_eq, not_lt]
      exact le_trans (not_lt.mp hk) this

theorem getR_lt {α : Type} {l : List α} {i : Nat} (h : i < l.length) : getR l i = .ok l[i] := by
  unfold getR; rw [List.getElem?_eq_getElem h]

theorem linScan_spec {data : List (Wrapped R)} {k : K} {stop : Nat} (hst : stop ≤ data.length) :
    ∀ (fuel idx : Nat), stop ≤ idx + fuel → idx ≤ stop → idx ≤ lowerBoundSpec k data →
      linScan data k stop fuel idx = .ok (min (lowerBoundSpec k data) stop)
  | 0, idx, h1, h2, h3 => by
    rw [linScan]; congr 1; omega
  | fuel+1, idx, h1, h2, h3 => by
    rw [linScan]
    by_cases hlt : idx < stop
    · rw [if_pos hlt, getR_lt (by omega)]
      simp only [bind, Except.bind]
      by_cases hL : idx < lowerBoundSpec k data
      · rw [if_pos (lbs_lt k (by omega) hL)]
        exact linScan_spec hst fuel (idx+1) (by omega) (by omega) (by omega)
      · have e : idx = lowerBoundSpec k data := by omega
        have : k ≤ key (data[idx]'(by omega)).record := by
          have := lbs_at k (l := data) (by omega)
          simpa [e] using this
        rw [if_neg (not_lt.mpr this)]
        congr 1; omega
    · rw [if_neg hlt]; congr 1; omega

theorem binSearch_spec {data : List (Wrapped R)} (hs : KeySorted K data) {k : K} :
    ∀ (fuel lo hi : Nat), hi ≤ lo + fuel → lo ≤ hi → hi ≤ data.length → lo ≤ lowerBoundSpec k data →
      binSearch data k fuel lo hi = .ok (min (lowerBoundSpec k data) hi)
  | 0, lo, hi, h1, h2, h3, h4 => by
    rw [binSearch]; congr 1; omega
  | fuel+1, lo, hi, h1, h2, h3, h4 => by
    rw [binSearch]
    by_cases hlt : lo < hi
    · rw [if_pos hlt]
      simp only [getR_lt (show (lo + hi) / 2 < data.length by omega), bind, Except.bind]
      by_cases hL : (lo + hi) / 2 < lowerBoundSpec k data
      · rw [if_pos (lbs_lt k (by omega) hL)]
        exact binSearch_spec hs fuel _ hi (by omega) (by omega) h3 (by omega)
      · rw [if_neg (not_lt.mpr (lbs_ge k hs (by omega) (by omega)))]
        rw [binSearch_spec hs fuel lo _ (by omega) (by omega) (by omega) h4]
        congr 1; omega
    · rw [if_neg hlt]; congr 1; omega

theorem windowSearch_spec {data : List (Wrapped R)} (hs : KeySorted K data) {k : K} {b : Bound}
    (h1 : b.lo ≤ lowerBoundSpec k data) (h2 : lowerBoundSpec k data ≤ b.hi) (h3 : b.hi ≤ data.length) :
    windowSearch data k b = .ok (if b.lo ≥ data.length then none else some (lowerBoundSpec k data)) := by
  unfold windowSearch
  by_cases ha : b.lo ≥ data.length
  · rw [if_pos ha, if_pos ha]
  · rw [if_neg ha, if_neg ha]
    split
    · rw [linScan_spec h3 _ _ (by omega) (by omega) h1]
      simp only [bind, Except.bind]; congr 2; omega
    · rw [binSearch_spec hs _ _ _ (by omega) (by omega) h3 h1]
      simp only [bind, Except.bind]; congr 2; omega

theorem valid_at {ix : Learned K} (hv : ix.Valid) {data : List (Wrapped R)} (hne : data ≠ []) (hs : KeySorted K data) (k : K) :
    (ix (keysOf data) k).lo ≤ lowerBoundSpec k data ∧ lowerBoundSpec k data ≤ (ix (keysOf data) k).hi ∧
      (ix (keysOf data) k).hi ≤ data.length := by
  have := hv (keysOf data) (by simpa [keysOf] using hne) (by unfold keysOf; rw [List.pairwise_map]; exact hs) k
  rw [lbs_filter k hs] at this
  simpa [keysOf] using this

/-- What PGM and TrieSpline return: the lower bound, or the position before it if the key is not stored. -/
def lbOrBefore (k : K) (data : List (Wrapped R)) : Nat :=
  let L := lowerBoundSpec k data
  if h : L < data.length then if key data[L].record = k then L else L - 1 else data.length

theorem after_window {data : List (Wrapped R)} {k : K} (hL : lowerBoundSpec k data < data.length) {other : Res Nat} :
    (do
        let w ← getR data (lowerBoundSpec k data)
        let back ← if key w.record > k ∧ lowerBoundSpec k data > 0 then do
            let p ← getR data (lowerBoundSpec k data - 1)
            .ok (decide (key p.record ≤ k))
          else .ok false
        if back then .ok (lowerBoundSpec k data - 1)
        else if key w.record ≥ k then .ok (lowerBoundSpec k data) else other : Res Nat) = .ok (lbOrBefore k data) := by
  have hat := lbs_at k hL
  rw [getR_lt hL]
  unfold lbOrBefore
  simp only [bind, Except.bind, dif_pos hL]
  by_cases hz : key data[lowerBoundSpec k data].record > k ∧ lowerBoundSpec k data > 0
  · rw [if_pos hz, getR_lt (by omega)]
    have := lbs_lt k (l := data) (i := lowerBoundSpec k data - 1) (by omega) (by omega)
    simp only [decide_eq_true (le_of_lt this), if_true]
    rw [if_neg (ne_of_gt hz.1)]
  · rw [if_neg hz]
    simp only [Bool.false_eq_true, if_false]
    rw [if_pos hat]
    by_cases he : key data[lowerBoundSpec k data].record = k
    · rw [if_pos he]
    · rw [if_neg he]
      have : key data[lowerBoundSpec k data].record > k := lt_of_le_of_ne hat (Ne.symm he)
      have : ¬ lowerBoundSpec k data > 0 := fun h => hz ⟨this, h⟩
      congr 1; omega

theorem pgmLB_spec {ix : Learned K} (hv : ix.Valid) {data : List (Wrapped R)} (hne : data ≠ []) (hs : KeySorted K data) (k : K) :
    pgmLB ix data k = .ok (lbOrBefore k data) := by
  obtain ⟨h1, h2, h3⟩ := valid_at hv hne hs k
  have hlen : data.length ≠ 0 := by simpa using hne
  have hle := lowerBoundSpec_le k data
  unfold pgmLB
  rw [if_neg hlen, windowSearch_spec hs h1 h2 h3]
  simp only [bind, Except.bind]
  by_cases ha : (ix (keysOf data) k).lo ≥ data.length
  · rw [if_pos ha]
    unfold lbOrBefore
    rw [dif_neg (by omega)]
  · rw [if_neg ha]
    simp only
    by_cases hL : lowerBoundSpec k data = data.length
    · rw [if_pos hL]
      unfold lbOrBefore
      rw [dif_neg (by omega), hL]
    · rw [if_neg hL]
      exact after_window (by omega)

theorem smallLB_spec (k : K) : ∀ (data : List (Wrapped R)), smallLB k data = lowerBoundSpec k data
  | [] => rfl
  | w :: ws => by
    rw [smallLB, lowerBoundSpec, smallLB_spec k ws]
    by_cases h : key w.record < k
    · rw [if_neg (not_le.mpr h), if_pos h]
    · rw [if_pos (not_lt.mp h), if_neg h]

theorem tsLB_spec {ix : Learned K} (hv : ix.Valid) {data : List (Wrapped R)} (h50 : data.length ≠ 50) (hs : KeySorted K data) (k : K) :
    tsLB ix data k = .ok (if data.length < 50 then lowerBoundSpec k data else lbOrBefore k data) := by
  unfold tsLB
  by_cases hlt : data.length < 50
  · rw [if_pos hlt, if_pos hlt, smallLB_spec]
  · rw [if_neg hlt, if_neg hlt, if_neg (by omega)]
    have hne : data ≠ [] := by rintro rfl; simp at hlt
    obtain ⟨h1, h2, h3⟩ := valid_at hv hne hs k
    have hle := lowerBoundSpec_le k data
    rw [windowSearch_spec hs h1 h2 h3]
    simp only [bind, Except.bind]
    by_cases ha : (ix (keysOf data) k).lo ≥ data.length
    · rw [if_pos ha]
      unfold lbOrBefore
      rw [dif_neg (by omega)]
    · rw [if_neg ha]
      simp only
      by_cases hL : lowerBoundSpec k data = data.length
      · rw [if_pos hL]
        unfold lbOrBefore
        rw [dif_neg (by omega)]
      · rw [if_neg hL]
        have := after_window (k := k) (data := data) (by omega) (other := .ok (lowerBoundSpec k data))
        simp only [ite_self] at this
        exact this

theorem aliasLB_spec {data : List (Wrapped R)} (hne : data ≠ []) (hs : KeySorted K data) (k : K) :
    aliasLB data k = .ok (min (lowerBoundSpec k data) (data.length - 1)) := by
  have hlen : data.length ≠ 0 := by simpa using hne
  unfold aliasLB
  rw [if_neg hlen, binSearch_spec hs _ _ _ (by omega) (by omega) (by omega) (by omega)]

theorem isamLB_spec {F LF : Nat} (hF : 2 ≤ F) (hLF : 1 ≤ LF) (z : K) {data : List (Wrapped R)} (hne : data ≠ [])
    (hs : KeySorted K data) (k : K) : Isam.lowerBound F LF z data k = .ok (lowerBoundSpec k data) := by
  unfold Isam.lowerBound
  obtain ⟨i, h1, h2, h3, h4⟩ := Isam.search_spec (z := z) hF hLF hne (go := fun x => decide (k ≤ x))
    (p := fun w => decide (key w.record < k)) (data := data) (by
      intro m hm hg i hi
      have : key (data[i]'(by omega)).record ≤ key (K := K) data[m].record := hs.get hi hm
      simp only [decide_eq_false_iff_not, not_le, decide_eq_true_eq] at *
      exact lt_of_le_of_lt this hg)
  rw [h1]; congr 1
  exact lbs_unique k h2 (fun j hj hlt => by simpa using h3 j hj hlt) (fun h => by simpa using h4 h)

theorem lbOrBefore_sound (k : K) (data : List (Wrapped R)) : lbOrBefore k data ≤ lowerBoundSpec k data ∧
    (lowerBoundSpec k data = data.length → lbOrBefore k data = data.length) := by
  have hle := lowerBoundSpec_le k data
  unfold lbOrBefore
  simp only
  split
  · refine ⟨by split <;> omega, fun h => by omega⟩
  · exact ⟨by omega, fun _ => rfl⟩

theorem isam_sound {F LF : Nat} (hF : 2 ≤ F) (hLF : 1 ≤ LF) (z : K) : (Isam.lowerBound (R := R) F LF z).Sound := fun data hne hs k =>
  ⟨_, isamLB_spec hF hLF z hne (KeySorted.of_rec hs) k, le_refl _, id⟩

theorem pgm_sound {ix : Learned K} (hv : ix.Valid) : (pgmLB (R := R) ix).Sound := fun data hne hs k =>
  ⟨_, pgmLB_spec hv hne (KeySorted.of_rec hs) k, lbOrBefore_sound k data⟩

theorem isFirst_of {α : Type} {p : α → Prop} {l : List α} {i : Nat} (h : i ≤ l.length)
    (h1 : ∀ (j : Nat) (hj : j < l.length), j < i → ¬ p l[j]) (h2 : ∀ hi : i < l.length, p l[i]) : IsFirst p l i := by
  refine ⟨h, ?_, ?_⟩
  · intro x hx
    obtain ⟨j, hj, rfl⟩ := List.getElem_of_mem hx
    rw [List.length_take] at hj
    rw [List.getElem_take]
    exact h1 j (by omega) (by omega)
  · intro x hx
    have hi := lt_of_getElem? hx
    rw [List.getElem?_eq_getElem hi] at hx
    rw [← Option.some.inj hx]; exact h2 hi

theorem lbs_full {data : List (Wrapped R)} (hs : KeySorted K data) (k : K) :
    lowerBoundSpec k data ≤ data.length ∧ (∀ w ∈ data.take (lowerBoundSpec k data), key w.record < k) ∧
      (lowerBoundSpec k data = data.length ↔ ∀ w ∈ data, key w.record < k) ∧
      ((∃ w ∈ data, key w.record = k) → IsFirst (fun w => k ≤ key w.record) data (lowerBoundSpec k data)) := by
  have hle := lowerBoundSpec_le k data
  refine ⟨hle, ?_, ⟨?_, ?_⟩, ?_⟩
  · intro w hw
    obtain ⟨j, hj, rfl⟩ := List.getElem_of_mem hw
    rw [List.length_take] at hj
    rw [List.getElem_take]
    exact lbs_lt k (by omega) (by omega)
  · intro he w hw
    obtain ⟨j, hj, rfl⟩ := List.getElem_of_mem hw
    exact lbs_lt k hj (by omega)
  · intro hall
    by_contra hne
    exact absurd (hall _ (List.getElem_mem (by omega))) (not_lt.mpr (lbs_at k (by omega)))
  · intro _
    exact isFirst_of hle (fun j hj hlt => not_le.mpr (lbs_lt k hj hlt)) (fun h => lbs_at k h)

theorem lbOrBefore_full {data : List (Wrapped R)} (hne : data ≠ []) (hs : KeySorted K data) (k : K) :
    lbOrBefore k data ≤ data.length ∧ (∀ w ∈ data.take (lbOrBefore k data), key w.record < k) ∧
      (lbOrBefore k data = data.length ↔ ∀ w ∈ data, key w.record < k) ∧
      ((∃ w ∈ data, key w.record = k) → IsFirst (fun w => k ≤ key w.record) data (lbOrBefore k data)) := by
  obtain ⟨h1, h2, h3, h4⟩ := lbs_full hs k
  obtain ⟨g1, g2⟩ := lbOrBefore_sound k data
  have hlen : 0 < data.length := List.length_pos_of_ne_nil hne
  refine ⟨by omega, ?_, ⟨fun h => h3.mp (by omega), fun h => g2 (h3.mpr h)⟩, ?_⟩
  · intro w hw
    refine h2 w ?_
    have : data.take (lbOrBefore k data) = (data.take (lowerBoundSpec k data)).take (lbOrBefore k data) := by
      rw [List.take_take]; congr 1; omega
    rw [this] at hw
    exact List.mem_of_mem_take hw
  · intro hex
    have hL : lowerBoundSpec k data < data.length := by
      obtain ⟨w, hw, hk⟩ := hex
      by_contra hge
      exact absurd (h3.mp (by omega) w hw) (by rw [hk]; exact lt_irrefl _)
    have he : key data[lowerBoundSpec k data].record = k := by
      obtain ⟨w, hw, hk⟩ := hex
      obtain ⟨j, hj, rfl⟩ := List.getElem_of_mem hw
      refine le_antisymm ?_ (lbs_at k hL)
      refine le_trans (hs.get (j := j) ?_ hj) (le_of_eq hk)
      by_contra hlt
      exact absurd (lbs_lt k hj (by omega)) (by rw [hk]; exact lt_irrefl _)
    have : lbOrBefore k data = lowerBoundSpec k data := by
      unfold lbOrBefore
      simp only
      rw [dif_pos hL, if_pos he]
    rw [this]; exact h4 hex

/-! ### Point lookups -/

theorem skipLess_spec (r : R) : ∀ (l : List (Wrapped R)), skipLess r l ≤ l.length ∧
    (∀ (i : Nat) (hi : i < l.length), i < skipLess r l → l[i].record < r) ∧
    (∀ hi : skipLess r l < l.length, ¬ l[skipLess r l].record < r)
  | [] => by simp [skipLess]
  | w :: ws => by
    obtain ⟨h1, h2, h3⟩ := skipLess_spec r ws
    rw [skipLess]
    by_cases hp : w.record < r
    · rw [if_pos hp]
      refine ⟨by simp; omega, ?_, ?_⟩
      · intro i hi hlt
        cases i with
        | zero => simpa using hp
        | succ i => simpa using h2 i (by simpa using hi) (by omega)
      · intro hi
        simpa using h3 (by simpa using hi)
    · rw [if_neg hp]
      exact ⟨by simp, fun i hi hlt => by omega, fun _ => by simpa using hp⟩

theorem RecSorted.get {l : List (Wrapped R)} (h : l.Pairwise (fun a b => a.record ≤ b.record)) {i j : Nat} (hij : i ≤ j) (hj : j < l.length) :
    (l[i]'(by omega)).record ≤ l[j].record := by
  rcases Nat.lt_or_ge i j with hlt | hge
  · exact List.pairwise_iff_getElem.mp h i j (by omega) hj hlt
  · have : i = j := by omega
    subst this; exact le_refl _

/-- A record smaller in the lower-bound sense is smaller. -/
theorem before_lb {data : List (Wrapped R)} {r : R} {i : Nat} (hi : i < data.length) (h : i < lowerBoundSpec (key (K := K) r) data) :
    data[i].record < r := by
  have := lbs_lt (key (K := K) r) hi h
  by_contra hn
  exact absurd (key_mono (K := K) (not_lt.mp hn)) (not_le.mpr this)

theorem sortedLookup_spec {lb : LB R K} {s : Shard R} (hs : s.data.Pairwise (fun a b => a.record ≤ b.record)) {r : R} {i : Nat}
    (hi : lb s.data (key r) = .ok i) (hle : i ≤ lowerBoundSpec (key r) s.data)
    (hend : lowerBoundSpec (key r) s.data = s.data.length → i = s.data.length) :
    (∀ w ∈ s.data, w.record = r → ∃ (j : Nat) (hj : j < s.data.length), sortedLookup lb s r = .ok (some j) ∧ s.data[j].record = r) ∧
    ((∀ w ∈ s.data, w.record ≠ r) →
      sortedLookup lb s r = if (∀ w ∈ s.data, w.record < r) ∧ (∃ w ∈ s.data, key r ≤ key (K := K) w.record) then .error .ub else .ok none) := by
  have hlb := lowerBoundSpec_le (key r) s.data
  have hunf : sortedLookup lb s r = if i ≥ s.data.length then .ok none else
      (getR s.data (i + skipLess r (s.data.drop i)) >>= fun w =>
        if w.record = r then .ok (some (i + skipLess r (s.data.drop i))) else .ok none) := by
    unfold sortedLookup
    rw [hi]; rfl
  obtain ⟨s1, s2, s3⟩ := skipLess_spec r (s.data.drop i)
  rw [List.length_drop] at s1
  have hbefore : ∀ (j : Nat) (hj : j < s.data.length), j < i + skipLess r (s.data.drop i) → s.data[j].record < r := by
    intro j hj hlt
    by_cases hji : j < i
    · exact before_lb hj (Nat.lt_of_lt_of_le hji hle)
    · have := s2 (j - i) (by simp; omega) (by omega)
      rw [List.getElem_drop] at this
      simpa [show i + (j - i) = j by omega] using this
  constructor
  · intro w hw hr
    obtain ⟨j, hj, rfl⟩ := List.getElem_of_mem hw
    have hjL : lowerBoundSpec (key r) s.data ≤ j := by
      by_contra hlt
      exact absurd hr (ne_of_lt (before_lb (K := K) hj (by omega)))
    have hin : i < s.data.length := by
      by_contra hge
      omega
    have hpos : i + skipLess r (s.data.drop i) ≤ j := by
      by_contra hlt
      exact absurd hr (ne_of_lt (hbefore j hj (by omega)))
    have hp : i + skipLess r (s.data.drop i) < s.data.length := by omega
    have hnl := s3 (by simp; omega)
    rw [List.getElem_drop] at hnl
    have hle2 := RecSorted.get hs hpos hj
    rw [hr] at hle2
    have heq : s.data[i + skipLess r (s.data.drop i)].record = r := le_antisymm hle2 (not_lt.mp hnl)
    refine ⟨i + skipLess r (s.data.drop i), hp, ?_, heq⟩
    rw [hunf, if_neg (by omega), getR_lt hp]
    simp only [bind, Except.bind]
    rw [if_pos heq]
  · intro hno
    rw [hunf]
    by_cases hin : i ≥ s.data.length
    · rw [if_pos hin, if_neg]
      rintro ⟨-, w, hw, hk⟩
      obtain ⟨j, hj, rfl⟩ := List.getElem_of_mem hw
      exact absurd (lbs_lt (key r) hj (by omega)) (not_lt.mpr hk)
    · rw [if_neg hin]
      have hLlt : lowerBoundSpec (key r) s.data < s.data.length := by
        by_contra hge
        exact hin (hend (by omega)).ge
      by_cases hp : i + skipLess r (s.data.drop i) < s.data.length
      · have hnl := s3 (by simp; omega)
        rw [List.getElem_drop] at hnl
        rw [if_neg]
        · rw [getR_lt hp]
          simp only [bind, Except.bind]
          rw [if_neg (hno _ (List.getElem_mem hp))]
        · rintro ⟨hall, -⟩
          exact hnl (hall _ (List.getElem_mem hp))
      · rw [if_pos]
        · unfold getR
          rw [List.getElem?_eq_none (by omega)]
          rfl
        · refine ⟨?_, s.data[lowerBoundSpec (key r) s.data], List.getElem_mem hLlt, lbs_at (key r) hLlt⟩
          intro w hw
          obtain ⟨j, hj, rfl⟩ := List.getElem_of_mem hw
          exact hbefore j hj (by omega)

theorem aliasLookup_spec {s : Shard R} (hne : s.data ≠ []) (hs : s.data.Pairwise (fun a b => a.record ≤ b.record)) (r : R) :
    (∀ w ∈ s.data, w.record = r → ∃ (j : Nat) (hj : j < s.data.length), aliasLookup (K := K) s r = .ok (some j) ∧ s.data[j].record = r) ∧
    ((∀ w ∈ s.data, w.record ≠ r) → aliasLookup (K := K) s r = .ok none) := by
  have hlen : 0 < s.data.length := List.length_pos_of_ne_nil hne
  have hlb := lowerBoundSpec_le (key (K := K) r) s.data
  have hi := aliasLB_spec (K := K) hne (KeySorted.of_rec hs) (key r)
  generalize hii : min (lowerBoundSpec (key (K := K) r) s.data) (s.data.length - 1) = i at hi
  obtain ⟨s1, s2, s3⟩ := skipLess_spec r ((s.data.take (s.data.length - 1)).drop i)
  simp only [List.length_drop, List.length_take] at s1
  generalize hp : i + skipLess r ((s.data.take (s.data.length - 1)).drop i) = p
  have hpl : p < s.data.length := by omega
  have hunf : aliasLookup (K := K) s r = if s.data[p].record = r then .ok (some p) else .ok none := by
    unfold aliasLookup
    rw [hi]
    simp only [bind, Except.bind]
    rw [if_neg (by omega)]
    rw [hp, getR_lt hpl]
  constructor
  · intro w hw hr
    obtain ⟨j, hj, rfl⟩ := List.getElem_of_mem hw
    have hbefore : ∀ (q : Nat) (hq : q < s.data.length), q < p → s.data[q].record < r := by
      intro q hq hlt
      by_cases hqi : q < i
      · exact before_lb (K := K) hq (by omega)
      · have := s2 (q - i) (by simp; omega) (by omega)
        rw [List.getElem_drop, List.getElem_take] at this
        simpa [show i + (q - i) = q by omega] using this
    have hpj : p ≤ j := by
      by_contra hlt
      exact absurd hr (ne_of_lt (hbefore j hj (by omega)))
    have heq : s.data[p].record = r := by
      rcases Nat.lt_or_ge p j with hlt | hge
      · have hle2 := RecSorted.get hs hpj hj
        rw [hr] at hle2
        have hnl := s3 (by simp; omega)
        rw [List.getElem_drop, List.getElem_take] at hnl
        simp only [hp] at hnl
        exact le_antisymm hle2 (not_lt.mp hnl)
      · have : p = j := by omega
        subst this; exact hr
    exact ⟨p, hpl, by rw [hunf, if_pos heq], heq⟩
  · intro hno
    rw [hunf, if_neg (hno _ (List.getElem_mem hpl))]

end DE
