import Verif.Model.LearnedBuild
import Verif.Proofs.Learned
import Verif.Proofs.Merge

/-! Helper lemmas for the constructors of PGM and TrieSpline. -/

namespace DE
variable {R K α : Type} [LinearOrder R] [LinearOrder K] [HasKey R K]

omit [LinearOrder K] [HasKey R K] in
theorem scanWith_eq (emit : α → Wrapped R → α) : ∀ (l : List (Wrapped R)) (a : α),
    scanWith emit l a = (scanSorted l).foldl emit a
  | [], a => rfl
  | [b], a => by rw [scanWith, scanSorted]; split <;> rfl
  | b :: c :: rest, a => by
    rw [scanWith, scanSorted]
    split
    · exact scanWith_eq emit rest a
    · split
      · exact scanWith_eq emit (c :: rest) a
      · rw [scanWith_eq emit (c :: rest)]; rfl

omit [LinearOrder K] [HasKey R K] in
theorem mergeWith_eq (pq : PQ R) (emit : α → Wrapped R → α) : ∀ (n : Nat) (cs : List (List (Wrapped R))) (a : α),
    mergeWith pq emit n cs a = (mergeLoop pq (fun w => !w.isDeleted) n cs).foldl emit a
  | 0, cs, a => rfl
  | n+1, cs, a => by
    rw [mergeWith, mergeLoop]
    match pq.arrange n (heads 0 cs) with
    | [] => rfl
    | [now] =>
      simp only
      rw [mergeWith_eq pq emit n, List.foldl_append]
      cases now.1.isDeleted <;> rfl
    | now :: next :: _ =>
      simp only
      split
      · exact mergeWith_eq pq emit n _ a
      · rw [mergeWith_eq pq emit n, List.foldl_append]
        cases now.1.isDeleted <;> rfl

theorem pgm_fold : ∀ (l : List (Wrapped R)) (s : PgmShard R K),
    l.foldl PgmShard.emit s = ⟨s.data ++ l, s.tscnt + tsCount l, s.keys ++ keysOf l⟩
  | [], s => by simp [tsCount, keysOf]
  | w :: ws, s => by
    rw [List.foldl_cons, pgm_fold ws]
    unfold PgmShard.emit
    simp only [List.append_assoc, List.singleton_append, keysOf, List.map_cons, tsCount, List.countP_cons]
    congr 1
    split <;> omega

/-- The final values of `m_min_key` and `m_max_key`. -/
def minFold (l : List (Wrapped R)) (m : K) : K := l.foldl (fun m w => if key w.record < m then key w.record else m) m
def maxFold (l : List (Wrapped R)) (m : K) : K := l.foldl (fun m w => if key w.record > m then key w.record else m) m

theorem ts_fold : ∀ (l : List (Wrapped R)) (s : TsShard R K),
    l.foldl TsShard.emit s = ⟨s.data ++ l, s.tscnt + tsCount l, s.keys ++ keysOf l, minFold l s.minK, maxFold l s.maxK, s.lo, s.hi⟩
  | [], s => by simp [tsCount, keysOf, minFold, maxFold]
  | w :: ws, s => by
    rw [List.foldl_cons, ts_fold ws]
    unfold TsShard.emit
    simp only [List.append_assoc, List.singleton_append, keysOf, List.map_cons, tsCount, List.countP_cons, minFold, maxFold,
      List.foldl_cons]
    congr 1
    split <;> omega

theorem minFold_spec : ∀ (l : List (Wrapped R)) (m : K),
    minFold l m ≤ m ∧ (∀ w ∈ l, minFold l m ≤ key w.record) ∧ (minFold l m = m ∨ ∃ w ∈ l, key w.record = minFold l m)
  | [], m => by simp [minFold]
  | w :: ws, m => by
    obtain ⟨h1, h2, h3⟩ := minFold_spec ws (if key w.record < m then key w.record else m)
    have e : minFold (w :: ws) m = minFold ws (if key w.record < m then key w.record else m) := rfl
    rw [e]
    have hle : (if key (K := K) w.record < m then key w.record else m) ≤ m ∧
        (if key (K := K) w.record < m then key w.record else m) ≤ key w.record := by
      split
      · next h => exact ⟨le_of_lt h, le_refl _⟩
      · next h => exact ⟨le_refl _, not_lt.mp h⟩
    refine ⟨le_trans h1 hle.1, ?_, ?_⟩
    · intro x hx
      rcases List.mem_cons.mp hx with rfl | hx
      · exact le_trans h1 hle.2
      · exact h2 x hx
    · rcases h3 with h3 | ⟨x, hx, hxe⟩
      · by_cases hw : key w.record < m
        · rw [if_pos hw] at h3 ⊢
          exact Or.inr ⟨w, by simp, h3.symm⟩
        · rw [if_neg hw] at h3 ⊢
          exact Or.inl h3
      · exact Or.inr ⟨x, List.mem_cons_of_mem _ hx, hxe⟩

theorem maxFold_spec : ∀ (l : List (Wrapped R)) (m : K),
    m ≤ maxFold l m ∧ (∀ w ∈ l, key w.record ≤ maxFold l m) ∧ (maxFold l m = m ∨ ∃ w ∈ l, key w.record = maxFold l m)
  | [], m => by simp [maxFold]
  | w :: ws, m => by
    obtain ⟨h1, h2, h3⟩ := maxFold_spec ws (if key w.record > m then key w.record else m)
    have e : maxFold (w :: ws) m = maxFold ws (if key w.record > m then key w.record else m) := rfl
    rw [e]
    have hle : m ≤ (if key (K := K) w.record > m then key w.record else m) ∧
        key w.record ≤ (if key (K := K) w.record > m then key w.record else m) := by
      split
      · next h => exact ⟨le_of_lt h, le_refl _⟩
      · next h => exact ⟨le_refl _, not_lt.mp h⟩
    refine ⟨le_trans hle.1 h1, ?_, ?_⟩
    · intro x hx
      rcases List.mem_cons.mp hx with rfl | hx
      · exact le_trans hle.2 h1
      · exact h2 x hx
    · rcases h3 with h3 | ⟨x, hx, hxe⟩
      · by_cases hw : key w.record > m
        · rw [if_pos hw] at h3 ⊢
          exact Or.inr ⟨w, by simp, h3.symm⟩
        · rw [if_neg hw] at h3 ⊢
          exact Or.inl h3
      · exact Or.inr ⟨x, List.mem_cons_of_mem _ hx, hxe⟩

/-- `a` and `b` are the least and the greatest key of the array. -/
def Range (data : List (Wrapped R)) (a b : K) : Prop :=
  (∀ w ∈ data, a ≤ key w.record ∧ key w.record ≤ b) ∧ (∃ w ∈ data, key w.record = a) ∧ (∃ w ∈ data, key w.record = b)

/-- The invariant of TrieSpline shards. -/
structure TsOk (s : TsShard R K) : Prop where
  keys : s.keys = keysOf s.data
  ts : s.tscnt = tsCount s.data
  srt : RecSorted s.data
  rng : s.data ≠ [] → Range s.data s.minK s.maxK
  ann : ∀ w ∈ s.data, s.lo ≤ key w.record ∧ key w.record ≤ s.hi

/-- What both constructors produce from the emitted records. -/
theorem tsOk_of {l : List (Wrapped R)} {lo hi : K} (hs : RecSorted l) (hl : ∀ w ∈ l, lo ≤ key w.record ∧ key w.record ≤ hi) :
    TsOk (l.foldl TsShard.emit (TsShard.start lo hi)) := by
  rw [ts_fold]
  refine ⟨by simp [TsShard.start], by simp [TsShard.start], by simpa [TsShard.start] using hs, ?_, by simpa [TsShard.start] using hl⟩
  intro hne
  simp only [TsShard.start, List.nil_append] at hne ⊢
  obtain ⟨a1, a2, a3⟩ := minFold_spec l hi
  obtain ⟨b1, b2, b3⟩ := maxFold_spec l lo
  obtain ⟨w, hw⟩ := List.exists_mem_of_ne_nil l hne
  refine ⟨fun x hx => ⟨a2 x hx, b2 x hx⟩, ?_, ?_⟩
  · rcases a3 with e | h
    · exact ⟨w, hw, le_antisymm (by rw [e]; exact (hl w hw).2) (a2 w hw)⟩
    · exact h
  · rcases b3 with e | h
    · exact ⟨w, hw, le_antisymm (b2 w hw) (by rw [e]; exact (hl w hw).1)⟩
    · exact h

omit [LinearOrder R] [HasKey R K] in
theorem tsRange_spec : ∀ (ss : List (TsShard R K)) (lo hi : K),
    (tsRange ss lo hi).1 ≤ lo ∧ hi ≤ (tsRange ss lo hi).2 ∧
    (∀ s ∈ ss, (tsRange ss lo hi).1 ≤ s.minK ∧ s.maxK ≤ (tsRange ss lo hi).2) ∧
    ((tsRange ss lo hi).1 = lo ∨ ∃ s ∈ ss, s.minK = (tsRange ss lo hi).1) ∧
    ((tsRange ss lo hi).2 = hi ∨ ∃ s ∈ ss, s.maxK = (tsRange ss lo hi).2)
  | [], lo, hi => by simp [tsRange]
  | s :: ss, lo, hi => by
    obtain ⟨h1, h2, h3, h4, h5⟩ := tsRange_spec ss (if s.minK < lo then s.minK else lo) (if s.maxK > hi then s.maxK else hi)
    rw [tsRange]
    have hl : (if s.minK < lo then s.minK else lo) ≤ lo ∧ (if s.minK < lo then s.minK else lo) ≤ s.minK := by
      split
      · next h => exact ⟨le_of_lt h, le_refl _⟩
      · next h => exact ⟨le_refl _, not_lt.mp h⟩
    have hh : hi ≤ (if s.maxK > hi then s.maxK else hi) ∧ s.maxK ≤ (if s.maxK > hi then s.maxK else hi) := by
      split
      · next h => exact ⟨le_of_lt h, le_refl _⟩
      · next h => exact ⟨le_refl _, not_lt.mp h⟩
    refine ⟨le_trans h1 hl.1, le_trans hh.1 h2, ?_, ?_, ?_⟩
    · intro x hx
      rcases List.mem_cons.mp hx with rfl | hx
      · exact ⟨le_trans h1 hl.2, le_trans hh.2 h2⟩
      · exact h3 x hx
    · rcases h4 with e | ⟨x, hx, hxe⟩
      · by_cases hc : s.minK < lo
        · rw [if_pos hc] at e ⊢; exact Or.inr ⟨s, by simp, e.symm⟩
        · rw [if_neg hc] at e ⊢; exact Or.inl e
      · exact Or.inr ⟨x, List.mem_cons_of_mem _ hx, hxe⟩
    · rcases h5 with e | ⟨x, hx, hxe⟩
      · by_cases hc : s.maxK > hi
        · rw [if_pos hc] at e ⊢; exact Or.inr ⟨s, by simp, e.symm⟩
        · rw [if_neg hc] at e ⊢; exact Or.inl e
      · exact Or.inr ⟨x, List.mem_cons_of_mem _ hx, hxe⟩

theorem keySorted_head {l : List (Wrapped R)} (h : RecSorted l) {a : Wrapped R} (ha : l.head? = some a) :
    ∀ w ∈ l, key (K := K) a.record ≤ key w.record := by
  cases l with
  | nil => simp at ha
  | cons x xs =>
    simp at ha; subst ha
    intro w hw
    rcases List.mem_cons.mp hw with rfl | hw
    · exact le_refl _
    · exact key_mono ((List.pairwise_cons.mp h).1 w hw)

theorem keySorted_last {l : List (Wrapped R)} (h : RecSorted l) {b : Wrapped R} (hb : l.getLast? = some b) :
    ∀ w ∈ l, key (K := K) w.record ≤ key b.record := by
  obtain ⟨hne, hb⟩ := List.getLast?_eq_some_iff.mp hb
  subst hb
  intro w hw
  rcases List.mem_append.mp hw with hw | hw
  · exact key_mono ((List.pairwise_append.mp h).2.2 w hw b (by simp))
  · simp at hw; rw [hw]

theorem recSorted_sortW (l : List (Wrapped R)) : RecSorted (sortW l) := (sortW_sorted l).imp leW_rec

/-- Constructor from a view. -/
theorem tsFromView_cases {v : View R} {s : TsShard R K} (h : tsFromView v = .ok s) :
    ∃ l a b, v.copyOut = .ok l ∧ (sortW l).head? = some a ∧ (sortW l).getLast? = some b ∧
      s = (scanSorted (sortW l)).foldl TsShard.emit (TsShard.start (key a.record) (key b.record)) := by
  unfold tsFromView at h
  cases hc : v.copyOut with
  | error e => rw [hc] at h; cases h
  | ok l =>
    rw [hc] at h
    simp only [bind, Except.bind] at h
    cases ha : (sortW l).head? with
    | none => rw [ha] at h; cases h
    | some a =>
      cases hb : (sortW l).getLast? with
      | none => rw [ha, hb] at h; cases h
      | some b =>
        rw [ha, hb] at h
        simp only [Except.ok.injEq] at h
        exact ⟨l, a, b, rfl, ha, hb, by rw [← h, scanWith_eq]⟩

theorem tsOk_view {v : View R} {s : TsShard R K} (h : tsFromView v = .ok s) : TsOk s := by
  obtain ⟨l, a, b, -, ha, hb, rfl⟩ := tsFromView_cases h
  have hs := recSorted_sortW l
  refine tsOk_of (scanSorted_sorted _ hs) ?_
  intro w hw
  obtain ⟨x, hx, rfl, -⟩ := scanSorted_mem _ _ hw
  exact ⟨keySorted_head hs ha x hx, keySorted_last hs hb x hx⟩

/-- Constructor from shards. -/
theorem tsMerge_cases {pq : PQ R} {ss : List (TsShard R K)} {s : TsShard R K} (h : tsMerge pq (ss.map some) = .ok s) :
    (∀ x ∈ ss, x.data ≠ []) ∧ ∃ x xs, ss = x :: xs ∧
      s = (mergeLoop pq (fun w => !w.isDeleted) (ss.map TsShard.data).flatten.length (ss.map TsShard.data)).foldl TsShard.emit
        (TsShard.start (tsRange ss x.minK x.maxK).1 (tsRange ss x.minK x.maxK).2) := by
  unfold tsMerge at h
  split at h
  · next hall =>
    have hf : (ss.map some).filterMap id = ss := by simp [List.filterMap_map]
    rw [hf] at h
    cases ss with
    | nil => cases h
    | cons x xs =>
      simp only [Except.ok.injEq] at h
      refine ⟨?_, x, xs, rfl, by rw [← h, mergeWith_eq]⟩
      intro y hy
      have := List.all_eq_true.mp hall (some y) (List.mem_map.mpr ⟨y, hy, rfl⟩)
      simpa using this
  · cases h

theorem tsOk_merge {pq : PQ R} (hpq : pq.ByRec) {ss : List (TsShard R K)} {s : TsShard R K}
    (hss : ∀ x ∈ ss, TsOk x) (h : tsMerge pq (ss.map some) = .ok s) : TsOk s := by
  obtain ⟨hne, x, xs, e, rfl⟩ := tsMerge_cases h
  obtain ⟨-, -, r3, -, -⟩ := tsRange_spec ss x.minK x.maxK
  refine tsOk_of (mergeLoop_sorted pq hpq _ _ _ ?_) ?_
  · intro c hc
    obtain ⟨y, hy, rfl⟩ := List.mem_map.mp hc
    exact (hss y hy).srt
  · intro w hw
    obtain ⟨c, hc, hwc⟩ := List.mem_flatten.mp (mergeLoop_mem pq _ _ _ w hw)
    obtain ⟨y, hy, rfl⟩ := List.mem_map.mp hc
    have := ((hss y hy).rng (hne y hy)).1 w hwc
    exact ⟨le_trans (r3 y hy).1 this.1, le_trans this.2 (r3 y hy).2⟩

/-! Tagging changes neither records nor tombstone bits. -/

omit [LinearOrder R] in
theorem setDelete_ts (w : Wrapped R) : w.setDelete.isTombstone = w.isTombstone := by
  unfold Wrapped.setDelete Wrapped.isTombstone
  have : (w.header ||| 2#32) &&& 1#32 = w.header &&& 1#32 := by
    ext i; simp; rcases i with _ | _ | i <;> simp
  simp [this]

omit [LinearOrder R] [LinearOrder K] [HasKey R K] in
theorem tagAt_records (data : List (Wrapped R)) (i : Nat) : (tagAt data i).map (·.record) = data.map (·.record) := by
  unfold tagAt
  induction data generalizing i with
  | nil => simp
  | cons w ws ih =>
    cases i with
    | zero => simp [Wrapped.setDelete]
    | succ i => simp [ih]

omit [LinearOrder R] [LinearOrder K] [HasKey R K] in
theorem tagAt_ts (data : List (Wrapped R)) (i : Nat) : tsCount (tagAt data i) = tsCount data := by
  unfold tagAt tsCount
  induction data generalizing i with
  | nil => simp
  | cons w ws ih =>
    cases i with
    | zero => simp [List.countP_cons, setDelete_ts]
    | succ i => simp [List.countP_cons, ih]

theorem keysOf_eq (data : List (Wrapped R)) : keysOf (K := K) data = (data.map (·.record)).map key := by
  simp [keysOf]

theorem keysOf_tagAt (data : List (Wrapped R)) (i : Nat) : keysOf (K := K) (tagAt data i) = keysOf data := by
  rw [keysOf_eq, tagAt_records, ← keysOf_eq]

omit [LinearOrder K] [HasKey R K] in
theorem recSorted_iff (data : List (Wrapped R)) : RecSorted data ↔ (data.map (·.record)).Pairwise (· ≤ ·) := by
  unfold RecSorted; rw [List.pairwise_map]

omit [LinearOrder K] [HasKey R K] in
theorem recSorted_tagAt {data : List (Wrapped R)} (h : RecSorted data) (i : Nat) : RecSorted (tagAt data i) := by
  rw [recSorted_iff, tagAt_records, ← recSorted_iff]; exact h

theorem forall_key {data : List (Wrapped R)} {P : K → Prop} : (∀ w ∈ data, P (key w.record)) ↔ ∀ k ∈ keysOf (K := K) data, P k := by
  simp [keysOf]

theorem exists_key {data : List (Wrapped R)} {P : K → Prop} : (∃ w ∈ data, P (key w.record)) ↔ ∃ k ∈ keysOf (K := K) data, P k := by
  simp [keysOf]

theorem Range.of_keys {d d' : List (Wrapped R)} {a b : K} (e : keysOf (K := K) d' = keysOf d) (h : Range d a b) : Range d' a b := by
  obtain ⟨h1, h2, h3⟩ := h
  refine ⟨?_, ?_, ?_⟩
  · rw [forall_key (P := fun k => a ≤ k ∧ k ≤ b), e, ← forall_key]; exact h1
  · rw [exists_key (P := fun k => k = a), e, ← exists_key]; exact h2
  · rw [exists_key (P := fun k => k = b), e, ← exists_key]; exact h3

theorem TsOk.tag {s : TsShard R K} (h : TsOk s) (i : Nat) : TsOk { s with data := tagAt s.data i } := by
  refine ⟨?_, ?_, recSorted_tagAt h.srt i, ?_, ?_⟩
  · simp only [keysOf_tagAt]; exact h.keys
  · simp only [tagAt_ts]; exact h.ts
  · intro hne
    refine (h.rng ?_).of_keys (keysOf_tagAt _ _)
    rintro e
    apply hne
    simp [e, tagAt]
  · show ∀ w ∈ tagAt s.data i, s.lo ≤ key w.record ∧ key w.record ≤ s.hi
    rw [forall_key (P := fun k => s.lo ≤ k ∧ k ≤ s.hi), keysOf_tagAt, ← forall_key]; exact h.ann

theorem TsMade.ok {pq : PQ R} (hpq : pq.ByRec) {s : TsShard R K} (h : TsMade pq s) : TsOk s := by
  induction h with
  | view h => exact tsOk_view h
  | merge _ h ih => exact tsOk_merge hpq ih h
  | tag i _ ih => exact ih.tag i

/-! PGM. -/

structure PgmOk (s : PgmShard R K) : Prop where
  keys : s.keys = keysOf s.data
  ts : s.tscnt = tsCount s.data
  srt : RecSorted s.data

theorem pgmFromView_eq (v : View R) :
    pgmFromView (K := K) v = (sortedFromView v).map (fun s => ⟨s.data, s.tscnt, keysOf s.data⟩) := by
  unfold pgmFromView sortedFromView
  cases v.copyOut with
  | error e => rfl
  | ok l => simp only [bind, Except.bind, Except.map, scanWith_eq, pgm_fold]; simp

theorem pgmMerge_eq (pq : PQ R) (shards : List (Option (PgmShard R K))) :
    pgmMerge pq shards = (sortedMerge pq (shards.map (·.map (fun s => ⟨s.data, s.tscnt⟩)))).map
      (fun s => ⟨s.data, s.tscnt, keysOf s.data⟩) := by
  unfold pgmMerge sortedMerge
  have hfm : (shards.map (·.map (fun s : PgmShard R K => (⟨s.data, s.tscnt⟩ : Shard R)))).filterMap (·.map Shard.data) =
      shards.filterMap (·.map PgmShard.data) := by
    rw [List.filterMap_map]; congr 1; funext s; cases s <;> rfl
  rw [hfm, List.all_map]
  split
  · next h =>
    rw [if_pos (by rw [← h]; congr 1; funext s; cases s <;> rfl)]
    simp only [Except.map, mergeWith_eq, pgm_fold, mergeAll]; simp
  · next h =>
    rw [if_neg (by intro h'; apply h; rw [← h']; congr 1; funext s; cases s <;> rfl)]; rfl

theorem tsFromView_eq {v : View R} {l : List (Wrapped R)} (hc : v.copyOut = .ok l) (hne : l ≠ []) :
    (tsFromView (K := K) v).map (fun s => (⟨s.data, s.tscnt⟩ : Shard R)) = sortedFromView v := by
  unfold tsFromView sortedFromView
  rw [hc]
  have hs : sortW l ≠ [] := fun e => hne (by have := (sortW_perm l).length_eq; rw [e] at this; exact List.eq_nil_of_length_eq_zero this.symm)
  obtain ⟨a, ha⟩ : ∃ a, (sortW l).head? = some a := by
    cases h : sortW l with
    | nil => exact absurd h hs
    | cons x xs => exact ⟨x, rfl⟩
  obtain ⟨b, hb⟩ : ∃ b, (sortW l).getLast? = some b := ⟨_, List.getLast?_eq_getLast_of_ne_nil hs⟩
  simp only [bind, Except.bind, Except.map, ha, hb, scanWith_eq, ts_fold]
  simp [TsShard.start]

theorem tsMerge_eq (pq : PQ R) {shards : List (Option (TsShard R K))} (hne : shards ≠ []) :
    (tsMerge pq shards).map (fun s => (⟨s.data, s.tscnt⟩ : Shard R)) =
      sortedMerge pq (shards.map (·.map (fun s => ⟨s.data, s.tscnt⟩))) := by
  unfold tsMerge sortedMerge
  have hfm : (shards.map (·.map (fun s : TsShard R K => (⟨s.data, s.tscnt⟩ : Shard R)))).filterMap (·.map Shard.data) =
      (shards.filterMap id).map TsShard.data := by
    rw [List.filterMap_map, List.map_filterMap]; congr 1; funext s; cases s <;> rfl
  rw [hfm, List.all_map]
  split
  · next h =>
    rw [if_pos (by rw [← h]; congr 1; funext s; cases s <;> rfl)]
    cases hf : shards.filterMap id with
    | nil =>
      cases shards with
      | nil => exact absurd rfl hne
      | cons o os =>
        cases o with
        | none => simp at h
        | some s => simp at hf
    | cons s ss =>
      simp only [Except.map, mergeWith_eq, ts_fold, mergeAll]; simp [TsShard.start]
  · next h =>
    rw [if_neg (by intro h'; apply h; rw [← h']; congr 1; funext s; cases s <;> rfl)]; rfl

theorem PgmMade.ok {pq : PQ R} (hpq : pq.ByRec) {s : PgmShard R K} (h : PgmMade pq s) : PgmOk s := by
  induction h with
  | @view v s h =>
    unfold pgmFromView at h
    cases hc : v.copyOut with
    | error e => rw [hc] at h; cases h
    | ok l =>
      rw [hc] at h
      simp only [bind, Except.bind, scanWith_eq, pgm_fold, Except.ok.injEq] at h
      subst h
      exact ⟨by simp, by simp, by simpa using scanSorted_sorted _ (recSorted_sortW l)⟩
  | @merge ss s _ h ih =>
    unfold pgmMerge at h
    split at h
    · simp only [mergeWith_eq, pgm_fold, Except.ok.injEq] at h
      subst h
      refine ⟨by simp, by simp, ?_⟩
      simp only [List.nil_append]
      refine mergeLoop_sorted pq hpq _ _ _ ?_
      intro c hc
      simp only [List.filterMap_map, List.mem_filterMap] at hc
      obtain ⟨y, hy, e⟩ := hc
      simp at e; subst e
      exact (ih y hy).srt
    · cases h
  | tag i _ ih => exact ⟨by simp only [keysOf_tagAt]; exact ih.keys, by simp only [tagAt_ts]; exact ih.ts, recSorted_tagAt ih.srt i⟩

/-! Ends of a sorted list of keys. -/

omit [LinearOrder R] [HasKey R K] in
theorem head_of_least {l : List K} (hp : l.Pairwise (· ≤ ·)) {a : K} (h : ∀ k ∈ l, a ≤ k) (ha : ∃ k ∈ l, k = a) :
    l.head? = some a := by
  obtain ⟨k, hk, rfl⟩ := ha
  cases l with
  | nil => simp at hk
  | cons x xs =>
    rcases List.mem_cons.mp hk with rfl | hk
    · rfl
    · have := le_antisymm (h x (by simp)) ((List.pairwise_cons.mp hp).1 k hk)
      simp [this]

omit [LinearOrder R] [HasKey R K] in
theorem last_of_greatest {l : List K} (hp : l.Pairwise (· ≤ ·)) {a : K} (h : ∀ k ∈ l, k ≤ a) (ha : ∃ k ∈ l, k = a) :
    l.getLast? = some a := by
  obtain ⟨k, hk, rfl⟩ := ha
  have hne : l ≠ [] := List.ne_nil_of_mem hk
  rw [List.getLast?_eq_getLast_of_ne_nil hne]
  congr 1
  have hd := List.dropLast_append_getLast hne
  refine le_antisymm (h _ (List.getLast_mem hne)) ?_
  rw [← hd] at hk hp
  rcases List.mem_append.mp hk with hk | hk
  · exact (List.pairwise_append.mp hp).2.2 k hk _ (by simp)
  · simp at hk; exact le_of_eq hk

omit [LinearOrder K] [HasKey R K] in
/-- A buffer without tombstones and tags is stored completely. -/
theorem scanSorted_clean : ∀ l : List (Wrapped R), (∀ w ∈ l, w.isTombstone = false ∧ w.isDeleted = false) →
    scanSorted l = l.map Wrapped.mask
  | [], _ => rfl
  | [b], h => by rw [scanSorted]; simp [(h b (by simp)).2]
  | b :: c :: rest, h => by
    rw [scanSorted, if_neg (by simp [cancels, (h c (by simp)).1]), if_neg (by simp [(h b (by simp)).2]),
      scanSorted_clean (c :: rest) (fun w hw => h w (List.mem_cons_of_mem _ hw))]
    rfl

omit [LinearOrder R] in
theorem mask_flags (w : Wrapped R) : w.mask.isTombstone = w.isTombstone ∧ w.mask.isDeleted = w.isDeleted := by
  have h := mask_entry w
  unfold Wrapped.entry at h
  simp only [Entry.mk.injEq] at h
  exact ⟨h.2.1, h.2.2⟩

theorem TsClean.made {pq : PQ R} {s : TsShard R K} (h : TsClean pq s) : TsMade pq s := by
  induction h with
  | view _ _ h => exact .view h
  | merge _ h ih => exact .merge ih h

theorem clean_ok {pq : PQ R} (hpq : pq.ByRec) {s : TsShard R K} (h : TsClean pq s) :
    TsOk s ∧ (∀ w ∈ s.data, w.isTombstone = false ∧ w.isDeleted = false) ∧
      (∃ w ∈ s.data, key w.record = s.lo) ∧ (∃ w ∈ s.data, key w.record = s.hi) := by
  refine ⟨h.made.ok hpq, ?_⟩
  induction h with
  | @view v l s hl hc h =>
    obtain ⟨l', a, b, hl', ha, hb, rfl⟩ := tsFromView_cases h
    rw [hl] at hl'; cases hl'
    have hc' : ∀ w ∈ sortW l, w.isTombstone = false ∧ w.isDeleted = false := fun w hw => hc w ((sortW_perm l).mem_iff.mp hw)
    rw [ts_fold, scanSorted_clean _ hc']
    simp only [TsShard.start, List.nil_append]
    refine ⟨?_, ⟨a.mask, List.mem_map.mpr ⟨a, List.mem_of_mem_head? ha, rfl⟩, rfl⟩,
      ⟨b.mask, List.mem_map.mpr ⟨b, List.mem_of_mem_getLast? hb, rfl⟩, rfl⟩⟩
    intro w hw
    obtain ⟨x, hx, rfl⟩ := List.mem_map.mp hw
    rw [(mask_flags x).1, (mask_flags x).2]; exact hc' x hx
  | @merge ss s hs h ih =>
    obtain ⟨hne, x, xs, e, rfl⟩ := tsMerge_cases h
    obtain ⟨-, -, -, r4, r5⟩ := tsRange_spec ss x.minK x.maxK
    have hcl : ∀ c ∈ ss.map TsShard.data, ∀ w ∈ c, (!w.isDeleted) = true ∧ w.isTombstone = false := by
      intro c hc w hw
      obtain ⟨y, hy, rfl⟩ := List.mem_map.mp hc
      have := (ih y hy).1 w hw
      simp [this.1, this.2]
    have hp := mergeLoop_perm pq (fun w => !w.isDeleted) _ (ss.map TsShard.data) (le_refl _) hcl
    rw [ts_fold]
    simp only [TsShard.start, List.nil_append]
    have hin : ∀ y ∈ ss, ∀ w ∈ y.data, w ∈ mergeLoop pq (fun w => !w.isDeleted) (ss.map TsShard.data).flatten.length (ss.map TsShard.data) := by
      intro y hy w hw
      exact hp.mem_iff.mpr (List.mem_flatten.mpr ⟨y.data, List.mem_map.mpr ⟨y, hy, rfl⟩, hw⟩)
    have hx : x ∈ ss := by rw [e]; simp
    refine ⟨?_, ?_, ?_⟩
    · intro w hw
      obtain ⟨c, hc, hwc⟩ := List.mem_flatten.mp (hp.mem_iff.mp hw)
      have := hcl c hc w hwc
      exact ⟨this.2, by simpa using this.1⟩
    · obtain ⟨y, hy, hye⟩ : ∃ y ∈ ss, y.minK = (tsRange ss x.minK x.maxK).1 := by
        rcases r4 with r | r
        · exact ⟨x, hx, r.symm⟩
        · exact r
      obtain ⟨w, hw, hwe⟩ := (((hs y hy).made.ok hpq).rng (hne y hy)).2.1
      exact ⟨w, hin y hy w hw, by rw [hwe, hye]⟩
    · obtain ⟨y, hy, hye⟩ : ∃ y ∈ ss, y.maxK = (tsRange ss x.minK x.maxK).2 := by
        rcases r5 with r | r
        · exact ⟨x, hx, r.symm⟩
        · exact r
      obtain ⟨w, hw, hwe⟩ := (((hs y hy).made.ok hpq).rng (hne y hy)).2.2
      exact ⟨w, hin y hy w hw, by rw [hwe, hye]⟩

end DE
