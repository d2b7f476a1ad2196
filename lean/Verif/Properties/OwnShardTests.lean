import Verif.Proofs.OwnShardTests
import Verif.Properties.Search
import Verif.Properties.Safety
import Verif.Proofs.Count

/-!
C124: the project's own shard tests (tests/include/shard_standard.h) and range query tests (tests/include/rangequery.h)
hold for any number of records and any records, not only the ones they generate.
-/

namespace DE.Own
variable {R K : Type} [LinearOrder R] [LinearOrder K] [HasKey R K] [Inhabited R]

omit [LinearOrder K] [HasKey R K] in
/-- `t_mbuffer_init`: inserts of `as`, tombstones of different records that occur once in `as`, and further inserts `bs`,
in one buffer. The shard holds exactly the records of `as` without tombstone and those of `bs`, and no tombstone. -/
theorem C124_mbuffer_init {as ts bs : List R} (hl : (as ++ ts ++ bs).length ≤ 2 ^ 28) (hne : as ++ ts ++ bs ≠ [])
    (ht : ts.Nodup) (ha : ∀ t ∈ ts, as.count t = 1 ∧ t ∉ bs) :
    ∃ s, mbufferInit as ts bs = .ok s ∧ s.data.length + ts.length = as.length + bs.length ∧ s.tscnt = 0 ∧
      (s.data.map Wrapped.record).Perm (as.filter (fun r => decide (r ∉ ts)) ++ bs) := by
  obtain ⟨s, h1, h2, h3⟩ := mbufferInit_spec hl hne ht ha
  refine ⟨s, h1, ?_, h3, h2⟩
  have e : s.data.length = (as.filter (fun r => decide (r ∉ ts)) ++ bs).length := by
    rw [← h2.length_eq, recs, List.length_map]
  have hp : (as.filter (fun r => decide (r ∈ ts))).Perm ts := by
    rw [List.perm_iff_count]
    intro r
    by_cases hr : r ∈ ts
    · rw [List.count_filter (by simpa using hr), (ha r hr).1, List.count_eq_one_of_mem ht hr]
    · rw [List.count_eq_zero_of_not_mem hr, List.count_eq_zero_of_not_mem (by simp [hr])]
  have hsplit : (as.filter (fun r => decide (r ∈ ts))).length + (as.filter (fun r => decide (r ∉ ts))).length = as.length := by
    have := List.length_eq_length_filter_add (l := as) (fun r => decide (r ∈ ts))
    rw [this]
    congr 2
    exact List.filter_congr (fun r _ => by simp)
  rw [hp.length_eq] at hsplit
  rw [e, List.length_append]
  omega

omit [LinearOrder K] [HasKey R K] in
/-- `t_shard_init`: three shards of any records merge to a shard with all of them, no tombstone, and the loop of the test
never reaches its `assert(false)`, also when the random records repeat. -/
theorem C124_shard_init {pq : PQ R} (hpq : pq.ByRec) {xs ys zs : List R} (hx : xs ≠ []) (hy : ys ≠ []) (hz : zs ≠ [])
    (hx' : xs.length ≤ 2 ^ 28) (hy' : ys.length ≤ 2 ^ 28) (hz' : zs.length ≤ 2 ^ 28) :
    shardInit pq xs ys zs = .ok (xs.length + ys.length + zs.length, 0, true) := by
  obtain ⟨s1, a1, b1, c1, d1, -⟩ := shardOf_uniform false hx hx'
  obtain ⟨s2, a2, b2, c2, d2, -⟩ := shardOf_uniform false hy hy'
  obtain ⟨s3, a3, b3, c3, d3, -⟩ := shardOf_uniform false hz hz'
  have hclean : ∀ s : Shard R, s.data = (recs s).map (fun r => ⟨hdr false, r⟩) →
      ∀ w ∈ s.data, w.isDeleted = false ∧ w.isTombstone = false := by
    intro s hs w hw
    rw [hs] at hw
    obtain ⟨r, -, rfl⟩ := List.mem_map.mp hw
    simp [Wrapped.isDeleted, Wrapped.isTombstone, hdr]
  have hne : ∀ (s : Shard R) (l : List R), (recs s).Perm l → l ≠ [] → s.data ≠ [] := by
    intro s l hp hl h
    apply hl
    rw [recs, h, List.map_nil] at hp
    exact hp.nil_eq.symm
  have hall : ∀ x ∈ [s1, s2, s3], x.data ≠ [] := by
    intro x hx0
    simp only [List.mem_cons, List.not_mem_nil, or_false] at hx0
    rcases hx0 with rfl | rfl | rfl
    · exact hne _ _ c1 hx
    · exact hne _ _ c2 hy
    · exact hne _ _ c3 hz
  letI : HasKey R R := ⟨id, fun _ _ h => h⟩
  obtain ⟨hd, hm⟩ := C23_merge_law (pq := pq) (lb := (LB.scan : LB R R)) [s1, s2, s3]
  obtain ⟨s, hs⟩ := hd.mp hall
  obtain ⟨-, -, hts, hsort, hperm⟩ := hm s hs
  have hsort := hsort hpq (by
    intro x hx0
    simp only [List.mem_cons, List.not_mem_nil, or_false] at hx0
    rcases hx0 with rfl | rfl | rfl
    · exact List.pairwise_map.mp d1
    · exact List.pairwise_map.mp d2
    · exact List.pairwise_map.mp d3)
  have hperm := hperm (by
    intro x hx0
    simp only [List.mem_cons, List.not_mem_nil, or_false] at hx0
    rcases hx0 with rfl | rfl | rfl
    · exact hclean _ b1
    · exact hclean _ b2
    · exact hclean _ b3)
  have hrp : (recs s).Perm (recs s1 ++ recs s2 ++ recs s3) := by
    have := hperm.map Wrapped.record
    simpa [recs, List.flatMap_cons] using this
  have hlen : s.data.length = xs.length + ys.length + zs.length := by
    have := hrp.length_eq
    rw [List.length_append, List.length_append, c1.length_eq, c2.length_eq, c3.length_eq, recs, List.length_map] at this
    exact this
  have hz0 : s.tscnt = 0 := by
    rw [hts, List.length_eq_zero_iff, List.filter_eq_nil_iff]
    intro w hw
    have hw := hperm.mem_iff.mp hw
    simp only [List.flatMap_cons, List.flatMap_nil, List.append_nil, List.mem_append] at hw
    rcases hw with h | h | h
    · simp [(hclean _ b1 w h).2]
    · simp [(hclean _ b2 w h).2]
    · simp [(hclean _ b3 w h).2]
  unfold shardInit
  rw [a1, a2, a3]
  show (do let s ← sortedMerge pq [some s1, some s2, some s3]; _) = _
  rw [show sortedMerge pq [some s1, some s2, some s3] = .ok s from hs]
  show Except.ok _ = _
  rw [matchLoop_ok (recs s) _ _ _ (List.pairwise_map.mpr hsort) d1 d2 d3 hrp, hlen, hz0]

omit [LinearOrder K] [HasKey R K] in
/-- `t_full_cancelation`: a shard of `n` inserts and a shard of the `n` tombstones of the same records, in any order and
with any repetitions, have the right counts and merge to the empty shard. The merge queue orders equal records by header
or by cursor. -/
theorem C124_full_cancelation {pq : PQ R} (hpq : pq.ByWrapped ∨ pq.ByVersion) {xs ts : List R} (hx : xs ≠ [])
    (hx' : xs.length ≤ 2 ^ 28) (hp : ts.Perm xs) :
    fullCancelation pq xs ts = .ok ((xs.length, 0), (xs.length, xs.length), (0, 0)) := by
  have hf : LiveFirst pq := hpq.elim liveFirst_wrapped liveFirst_version
  have ht : ts ≠ [] := by intro h; rw [h] at hp; exact hx hp.nil_eq.symm
  obtain ⟨s, a1, b1, c1, d1, e1⟩ := shardOf_uniform false hx hx'
  obtain ⟨t, a2, b2, c2, d2, e2⟩ := shardOf_uniform true ht (by rw [hp.length_eq]; exact hx')
  have heq : recs t = recs s := by
    refine ((c2.trans hp).trans c1.symm).eq_of_pairwise ?_ d2 d1
    intro a b _ _ h1 h2
    exact le_antisymm h1 h2
  have hl1 : s.data.length = xs.length := by rw [← c1.length_eq, recs, List.length_map]
  have hl2 : t.data.length = xs.length := by rw [← hp.length_eq, ← c2.length_eq, recs, List.length_map]
  have hpos := List.length_pos_iff.mpr hx
  have hmerge : sortedMerge pq [some s, some t] = .ok ⟨[], 0⟩ := by
    unfold sortedMerge
    rw [if_pos]
    · simp only [List.filterMap_cons, Option.map_some, List.filterMap_nil]
      have : mergeAll pq (fun w => !w.isDeleted) [s.data, t.data] = [] := by
        unfold mergeAll
        rw [b1, b2, heq]
        exact mergeLoop_cancel hf _ _ _
      rw [this]
      rfl
    · have h1 : s.data ≠ [] := by intro h; rw [h] at hl1; simp at hl1; omega
      have h2 : t.data ≠ [] := by intro h; rw [h] at hl2; simp at hl2; omega
      simp [h1, h2]
  unfold fullCancelation
  rw [a1, a2]
  show (do let m ← sortedMerge pq [some s, some t]; _) = _
  rw [hmerge]
  show Except.ok _ = _
  rw [hl1, hl2, e1, e2, hp.length_eq]
  rfl

/-- `t_point_lookup` and `t_point_lookup_miss`: on a shard built from inserts of any records, each of the three shard types
finds every one of them, and reports every record whose key does not occur as missing. -/
theorem C124_point_lookup {F LF : Nat} (hF : 2 ≤ F) (hLF : 1 ≤ LF) (z : K) {ix : Learned K} (hv : ix.Valid) {xs : List R}
    (hx : xs ≠ []) (hx' : xs.length ≤ 2 ^ 28) :
    ∃ s, shardOf (xs.map (·, false)) = .ok s ∧
      ∀ lb, lb = Isam.lowerBound F LF z ∨ lb = pgmLB ix ∨ (lb = tsLB ix ∧ xs.length ≠ 50) →
        (∀ r ∈ xs, ∃ i w, sortedLookup lb s r = .ok (some i) ∧ s.data[i]? = some w ∧ w.record = r) ∧
        (∀ r, (∀ x ∈ xs, key (K := K) x ≠ key r) → sortedLookup lb s r = .ok none) := by
  obtain ⟨s, a1, b1, c1, d1, e1⟩ := shardOf_uniform false hx hx'
  have hl : s.data.length = xs.length := by rw [← c1.length_eq, recs, List.length_map]
  have hne : s.data ≠ [] := by
    intro h; rw [h] at hl; exact hx (List.length_eq_zero_iff.mp hl.symm)
  have hs := List.pairwise_map.mp d1
  refine ⟨s, a1, ?_⟩
  intro lb hlb
  have hspec : ∀ r, LookupSpec K (sortedLookup lb s r) s.data r := by
    intro r
    rcases hlb with rfl | rfl | ⟨rfl, h50⟩
    · exact C28_isam_partial hF hLF z hne hs r
    · exact C28_pgm_partial hv hne hs r
    · exact C28_triespline_partial hv (by rw [hl]; exact h50) hs r
  refine ⟨?_, ?_⟩
  · intro r hr
    obtain ⟨w, hw, hwr⟩ := List.mem_map.mp (c1.mem_iff.mpr hr)
    exact (hspec r).1 ⟨w, hw, hwr⟩
  · intro r hr
    have hk : ∀ w ∈ s.data, key (K := K) w.record ≠ key r := fun w hw => hr _ (c1.mem_iff.mp (List.mem_map_of_mem hw))
    refine (hspec r).2.1 (fun w hw h => hk w hw (by rw [h])) ?_
    rintro ⟨-, w, hw, h⟩
    exact hk w hw h

omit [LinearOrder K] [HasKey R K] in
theorem fill_records {xs : List R} (hx : xs ≠ []) (hx' : xs.length ≤ 2 ^ 28) :
    ∃ b, fill (xs.map (·, false)) = .ok b ∧ b.WF ∧ b.contents.map Wrapped.record = xs := by
  obtain ⟨b, hf, hb, hc, -⟩ := fill_spec (items := xs.map (·, false)) (by simpa using hx) (by simpa using hx')
  refine ⟨b, hf, hb, ?_⟩
  have := congrArg (List.map Entry.record) hc
  simpa [List.map_map, Function.comp_def, Wrapped.entry] using this

/-- What `t_range_query` and `t_buffer_range_query` look at: a range query on a shard or a buffer of any inserts returns
exactly the inserts with a key in the range. -/
theorem C124_range_query {lb : LB R K} (hlb : lb.Sound) {xs : List R} (hx : xs ≠ []) (hx' : xs.length ≤ 2 ^ 28) (lo hi : K) :
    (∃ l, shardRange lb xs lo hi = .ok l ∧ (l.map Wrapped.record).Perm (xs.filter (fun r => decide (lo ≤ key r ∧ key r ≤ hi))) ∧
      ∀ w ∈ l, w.isTombstone = false) ∧
    (∃ l, bufferRange xs lo hi = .ok l ∧ l.map Wrapped.record = xs.filter (fun r => decide (lo ≤ key r ∧ key r ≤ hi))) := by
  have hmf : ∀ l : List (Wrapped R), (l.filter (inRange lo hi)).map Wrapped.record =
      (l.map Wrapped.record).filter (fun r => decide (lo ≤ key r ∧ key r ≤ hi)) := by
    intro l
    rw [List.filter_map]
    congr 1
    exact List.filter_congr (fun w _ => by simp [inRange])
  refine ⟨?_, ?_⟩
  · obtain ⟨s, a1, b1, c1, d1, e1⟩ := shardOf_uniform false hx hx'
    have hne : s.data ≠ [] := by
      intro h
      rw [recs, h, List.map_nil] at c1
      exact hx c1.nil_eq.symm
    have hq := (rqLocal_spec hlb (s := s) (List.pairwise_map.mp d1) (lo := lo) (hi := hi)).2 hne
    refine ⟨s.data.filter (inRange lo hi), ?_, ?_, ?_⟩
    · unfold shardRange; rw [a1]; exact hq
    · rw [hmf]; exact c1.filter _
    · intro w hw
      have := (List.mem_filter.mp hw).1
      rw [b1] at this
      obtain ⟨r, -, rfl⟩ := List.mem_map.mp this
      simp [Wrapped.isTombstone, hdr]
  · obtain ⟨b, hf, hb, hc⟩ := fill_records hx hx'
    refine ⟨b.contents.filter (inRange lo hi), ?_, ?_⟩
    · unfold bufferRange rqBuffer
      rw [hf]
      show (do let l ← b.view.gets; _) = _
      rw [Buffer.view_gets hb]
      rfl
    · rw [hmf, hc]

/-- What `t_range_query_merge` looks at: the combined result of the query on two shards of any inserts. -/
theorem C124_range_query_merge {pq : PQ R} {lb : LB R K} (hlb : lb.Sound) {xs ys : List R} (hx : xs ≠ []) (hy : ys ≠ [])
    (hx' : xs.length ≤ 2 ^ 28) (hy' : ys.length ≤ 2 ^ 28) (lo hi : K) :
    ∃ l, rangeMerge pq lb xs ys lo hi = .ok l ∧ l.Perm ((xs ++ ys).filter (fun r => decide (lo ≤ key r ∧ key r ≤ hi))) := by
  obtain ⟨⟨l1, a1, b1, c1⟩, -⟩ := C124_range_query hlb hx hx' lo hi
  obtain ⟨⟨l2, a2, b2, c2⟩, -⟩ := C124_range_query hlb hy hy' lo hi
  refine ⟨rqCombine pq [l1, l2], ?_, ?_⟩
  · unfold rangeMerge; rw [a1, a2]; rfl
  · have hp := mergeLoop_perm pq (fun w => !w.isTombstone) _ [l2, l1] (le_refl _) (by
      intro c hc w hw
      simp only [List.mem_cons, List.not_mem_nil, or_false] at hc
      rcases hc with rfl | rfl
      · simp [c2 w hw]
      · simp [c1 w hw])
    refine (hp.map Wrapped.record).trans ?_
    simp only [List.flatten_cons, List.flatten_nil, List.append_nil, List.map_append, List.filter_append]
    exact (b2.append b1).trans List.perm_append_comm

/-! ### The records the tests generate -/

theorem sequential_filter {start stop lo hi : Nat} (h1 : start ≤ lo) (h2 : hi < stop) :
    (sequential start stop).filter (fun r => decide (lo ≤ key r ∧ key r ≤ hi)) = sequential lo (hi + 1) := by
  unfold sequential
  rw [List.filter_map]
  congr 1
  rcases Nat.lt_or_ge hi lo with h | h
  · rw [show hi + 1 - lo = 0 by omega, List.range'_zero, List.filter_eq_nil_iff]
    intro a _
    simp only [Function.comp, decide_eq_true_eq, not_and]
    show lo ≤ a → ¬ a ≤ hi
    omega
  · have e1 : List.range' start (stop - start) = List.range' start (lo - start) ++ List.range' lo (hi + 1 - lo) ++
        List.range' (hi + 1) (stop - (hi + 1)) := by
      have p1 := List.range'_append_1 (s := start) (m := lo - start) (n := hi + 1 - lo)
      have p2 := List.range'_append_1 (s := start) (m := hi + 1 - start) (n := stop - (hi + 1))
      rw [show start + (lo - start) = lo by omega, show lo - start + (hi + 1 - lo) = hi + 1 - start by omega] at p1
      rw [show start + (hi + 1 - start) = hi + 1 by omega,
        show hi + 1 - start + (stop - (hi + 1)) = stop - start by omega] at p2
      rw [p1, p2]
    rw [e1, List.filter_append, List.filter_append]
    rw [(List.filter_eq_nil_iff (l := List.range' start (lo - start))).mpr,
      (List.filter_eq_self (l := List.range' lo (hi + 1 - lo))).mpr,
      (List.filter_eq_nil_iff (l := List.range' (hi + 1) (stop - (hi + 1)))).mpr]
    · simp
    · intro a ha
      rw [List.mem_range'_1] at ha
      simp only [Function.comp, decide_eq_true_eq, not_and]
      show lo ≤ a → ¬ a ≤ hi
      omega
    · intro a ha
      rw [List.mem_range'_1] at ha
      simp only [Function.comp, decide_eq_true_eq]
      show lo ≤ a ∧ a ≤ hi
      omega
    · intro a ha
      rw [List.mem_range'_1] at ha
      simp only [Function.comp, decide_eq_true_eq, not_and]
      show lo ≤ a → ¬ a ≤ hi
      omega

/-- `t_range_query`, `t_buffer_range_query`: sequential keys; the assertions on the size and the keys of the result. -/
theorem C124_range_query_sequential {lb : LB Rec Nat} (hlb : lb.Sound) {start stop lo hi : Nat} (h1 : start ≤ lo) (h2 : lo ≤ hi)
    (h3 : hi < stop) (h4 : stop - start ≤ 2 ^ 28) :
    (∃ l, shardRange lb (sequential start stop) lo hi = .ok l ∧ l.length = hi - lo + 1 ∧
      ∀ w ∈ l, lo ≤ w.record.key ∧ w.record.key ≤ hi) ∧
    (∃ l, bufferRange (sequential start stop) lo hi = .ok l ∧ l.length = hi - lo + 1 ∧
      ∀ w ∈ l, lo ≤ w.record.key ∧ w.record.key ≤ hi) := by
  have hlen : (sequential start stop).length = stop - start := by simp [sequential]
  have hne : sequential start stop ≠ [] := by
    intro h; rw [h] at hlen; simp at hlen; omega
  obtain ⟨⟨l, a1, b1, -⟩, ⟨l', a2, b2⟩⟩ := C124_range_query hlb hne (by omega) lo hi
  rw [sequential_filter h1 h3] at b1 b2
  have hin : ∀ r ∈ sequential lo (hi + 1), lo ≤ r.key ∧ r.key ≤ hi := by
    intro r hr
    unfold sequential at hr
    obtain ⟨a, ha, rfl⟩ := List.mem_map.mp hr
    rw [List.mem_range'_1] at ha
    show lo ≤ a ∧ a ≤ hi
    omega
  have hlen' : (sequential lo (hi + 1)).length = hi - lo + 1 := by simp [sequential]; omega
  refine ⟨⟨l, a1, ?_, ?_⟩, ⟨l', a2, ?_, ?_⟩⟩
  · rw [← hlen', ← b1.length_eq, List.length_map]
  · exact fun w hw => hin _ (b1.mem_iff.mp (List.mem_map_of_mem hw))
  · rw [← hlen', ← b2, List.length_map]
  · intro w hw
    refine hin _ ?_
    rw [← b2]
    exact List.mem_map_of_mem hw

/-- `t_range_query_merge`: two shards with sequential keys and a range that starts in the first and ends in the second.
However `std::sort` arranges the result, its keys run from the lower bound to the end of the first shard and on from the
start of the second one to the upper bound. -/
theorem C124_range_query_merge_sequential {pq : PQ Rec} {lb : LB Rec Nat} (hlb : lb.Sound) {a b c d lo hi : Nat} (h1 : a ≤ lo)
    (h2 : lo < b) (h3 : b ≤ c) (h4 : c ≤ hi) (h5 : hi < d) (h6 : b - a ≤ 2 ^ 28) (h7 : d - c ≤ 2 ^ 28) :
    ∃ l, rangeMerge pq lb (sequential a b) (sequential c d) lo hi = .ok l ∧
      ∀ l' : List Rec, l'.Perm l → l'.Pairwise (· ≤ ·) →
        l'.map Record.key = List.range' lo (b - lo) ++ List.range' c (hi + 1 - c) := by
  have hlen : ∀ x y, (sequential x y).length = y - x := fun x y => by simp [sequential]
  have hne : ∀ x y, x < y → sequential x y ≠ [] := by
    intro x y h e
    have := hlen x y
    rw [e] at this; simp at this; omega
  obtain ⟨l, a1, b1⟩ := C124_range_query_merge (pq := pq) hlb (hne a b (by omega)) (hne c d (by omega))
    (by rw [hlen]; exact h6) (by rw [hlen]; exact h7) lo hi
  refine ⟨l, a1, ?_⟩
  intro l' hp hs
  rw [List.filter_append] at b1
  have e1 : (sequential a b).filter (fun r => decide (lo ≤ key r ∧ key r ≤ hi)) = sequential lo b := by
    have := sequential_filter (start := a) (stop := b) (lo := lo) (hi := b - 1) h1 (by omega)
    rw [show b - 1 + 1 = b by omega] at this
    rw [← this]
    refine List.filter_congr ?_
    intro r hr
    obtain ⟨x, hx, rfl⟩ := List.mem_map.mp hr
    rw [List.mem_range'_1] at hx
    rw [decide_eq_decide]
    show lo ≤ x ∧ x ≤ hi ↔ lo ≤ x ∧ x ≤ b - 1
    omega
  have e2 : (sequential c d).filter (fun r => decide (lo ≤ key r ∧ key r ≤ hi)) = sequential c (hi + 1) := by
    have := sequential_filter (start := c) (stop := d) (lo := c) (hi := hi) (le_refl _) h5
    rw [← this]
    refine List.filter_congr ?_
    intro r hr
    obtain ⟨x, hx, rfl⟩ := List.mem_map.mp hr
    rw [List.mem_range'_1] at hx
    rw [decide_eq_decide]
    show lo ≤ x ∧ x ≤ hi ↔ c ≤ x ∧ x ≤ hi
    omega
  rw [e1, e2] at b1
  have hsorted : (sequential lo b ++ sequential c (hi + 1)).Pairwise (· ≤ ·) := by
    unfold sequential
    rw [← List.map_append, List.pairwise_map]
    have hlt : (List.range' lo (b - lo) ++ List.range' c (hi + 1 - c)).Pairwise (· < ·) := by
      rw [List.pairwise_append]
      refine ⟨List.pairwise_lt_range' , List.pairwise_lt_range', ?_⟩
      intro x hx y hy
      rw [List.mem_range'_1] at hx hy
      omega
    exact hlt.imp (fun h => Or.inl h)
  have := (hp.trans b1).eq_of_pairwise (fun x y _ _ h1 h2 => le_antisymm h1 h2) hs hsorted
  rw [this]
  simp [sequential, Function.comp_def]

/-- `t_lower_bound`, which the suite does not register, is wrong about the ISAM tree: for a key in the gap between the two
shards it expects a record with a smaller key, and gets the first record of the second shard. Outside the gap it gets the
record with the key. -/
theorem C124_lower_bound {pq : PQ Rec} (hpq : pq.ByRec) {F LF : Nat} (hF : 2 ≤ F) (hLF : 1 ≤ LF) (z : Nat) {a b c d k : Nat}
    (h1 : a < b) (h2 : b ≤ c) (h3 : c < d) (h6 : b - a ≤ 2 ^ 28) (h7 : d - c ≤ 2 ^ 28) (hk : a ≤ k) (hk' : k < d) :
    lowerBoundRec pq (Isam.lowerBound F LF z) (sequential a b) (sequential c d) k =
      .ok (if b ≤ k ∧ k < c then ⟨c, c⟩ else ⟨k, k⟩) := by
  have hlen : ∀ x y, (sequential x y).length = y - x := fun x y => by simp [sequential]
  have hne : ∀ x y, x < y → sequential x y ≠ [] := by
    intro x y h e
    have := hlen x y
    rw [e] at this; simp at this; omega
  obtain ⟨s1, a1, b1, c1, d1, -⟩ := shardOf_uniform false (hne a b h1) (by rw [hlen]; exact h6)
  obtain ⟨s2, a2, b2, c2, d2, -⟩ := shardOf_uniform false (hne c d h3) (by rw [hlen]; exact h7)
  have hclean : ∀ s : Shard Rec, s.data = (recs s).map (fun r => ⟨hdr false, r⟩) →
      ∀ w ∈ s.data, w.isDeleted = false ∧ w.isTombstone = false := by
    intro s hs w hw
    rw [hs] at hw
    obtain ⟨r, -, rfl⟩ := List.mem_map.mp hw
    simp [Wrapped.isDeleted, Wrapped.isTombstone, hdr]
  have hnd : ∀ (s : Shard Rec) (l : List Rec), (recs s).Perm l → l ≠ [] → s.data ≠ [] := by
    intro s l hp hl h
    apply hl
    rw [recs, h, List.map_nil] at hp
    exact hp.nil_eq.symm
  obtain ⟨hd, hm⟩ := C23_merge_law (pq := pq) (lb := (LB.scan : LB Rec Nat)) [s1, s2]
  obtain ⟨s, hs⟩ := hd.mp (by
    intro x hx0
    simp only [List.mem_cons, List.not_mem_nil, or_false] at hx0
    rcases hx0 with rfl | rfl
    · exact hnd _ _ c1 (hne a b h1)
    · exact hnd _ _ c2 (hne c d h3))
  obtain ⟨-, -, -, hsort, hperm⟩ := hm s hs
  have hsort := hsort hpq (by
    intro x hx0
    simp only [List.mem_cons, List.not_mem_nil, or_false] at hx0
    rcases hx0 with rfl | rfl
    · exact List.pairwise_map.mp d1
    · exact List.pairwise_map.mp d2)
  have hperm := hperm (by
    intro x hx0
    simp only [List.mem_cons, List.not_mem_nil, or_false] at hx0
    rcases hx0 with rfl | rfl
    · exact hclean _ b1
    · exact hclean _ b2)
  have hrp : (recs s).Perm (sequential a b ++ sequential c d) := by
    have := hperm.map Wrapped.record
    have this : (recs s).Perm (recs s1 ++ recs s2) := by simpa [recs, List.flatMap_cons] using this
    exact this.trans (c1.append c2)
  have hmem : ∀ x y k, (⟨k, k⟩ : Rec) ∈ sequential x y ↔ x ≤ k ∧ k < y := by
    intro x y k
    unfold sequential
    rw [List.mem_map]
    constructor
    · rintro ⟨i, hi, e⟩
      rw [List.mem_range'_1] at hi
      cases e
      omega
    · intro h
      exact ⟨k, by rw [List.mem_range'_1]; omega, rfl⟩
  have hval : ∀ r ∈ recs s, (a ≤ r.key ∧ r.key < b ∨ c ≤ r.key ∧ r.key < d) ∧ r.value = r.key := by
    intro r hr
    rcases List.mem_append.mp (hrp.mem_iff.mp hr) with h | h <;>
    · unfold sequential at h
      obtain ⟨i, hi, rfl⟩ := List.mem_map.mp h
      rw [List.mem_range'_1] at hi
      refine ⟨?_, rfl⟩
      show a ≤ i ∧ i < b ∨ c ≤ i ∧ i < d
      omega
  have hsd : s.data ≠ [] := by
    intro h
    rw [recs, h, List.map_nil] at hrp
    have := hrp.nil_eq
    exact hne a b h1 (List.append_eq_nil_iff.mp this.symm).1
  have hlb := isamLB_spec hF hLF z hsd (KeySorted.of_rec hsort) k
  -- the record expected at the lower bound
  set k' := if b ≤ k ∧ k < c then c else k with hk'def
  have htgt : (⟨k', k'⟩ : Rec) ∈ recs s := by
    rw [hrp.mem_iff, List.mem_append, hmem, hmem, hk'def]
    split <;> omega
  have hge : ∀ r ∈ recs s, k ≤ r.key → k' ≤ r.key := by
    intro r hr h
    have := (hval r hr).1
    rw [hk'def]
    split <;> omega
  have hkk : k ≤ k' := by rw [hk'def]; split <;> omega
  -- the lower bound is inside
  obtain ⟨w, hw, hwr⟩ := List.mem_map.mp htgt
  obtain ⟨j, hj, hjw⟩ := List.mem_iff_getElem.mp hw
  have hle : lowerBoundSpec k s.data ≤ j := by
    by_contra hcon
    have := lbs_lt k hj (show j < lowerBoundSpec k s.data by omega)
    rw [hjw, hwr] at this
    exact absurd this (not_lt.mpr hkk)
  have hlt : lowerBoundSpec k s.data < s.data.length := by omega
  have hk1 := lbs_ge k (KeySorted.of_rec hsort) hlt (le_refl _)
  have hx : s.data[lowerBoundSpec k s.data].record ∈ recs s := List.mem_map_of_mem (List.getElem_mem hlt)
  have hk2 := hge _ hx hk1
  have hk3 : s.data[lowerBoundSpec k s.data].record ≤ (⟨k', k'⟩ : Rec) := by
    rw [← hwr, ← hjw]
    rcases Nat.eq_or_lt_of_le hle with e | e
    · simp only [e]; exact le_refl _
    · exact List.pairwise_iff_getElem.mp hsort _ _ hlt hj e
  have hrec : s.data[lowerBoundSpec k s.data].record = (⟨k', k'⟩ : Rec) := by
    have hv := (hval _ hx).2
    have hkey : s.data[lowerBoundSpec k s.data].record.key = k' := le_antisymm (key_mono (K := Nat) hk3) hk2
    rw [hkey] at hv
    generalize s.data[lowerBoundSpec k s.data].record = q at hkey hv
    cases q
    simp only at hkey hv
    rw [hkey, hv]
  unfold lowerBoundRec
  rw [a1, a2]
  show (do let s ← sortedMerge pq [some s1, some s2]; _) = _
  rw [show sortedMerge pq [some s1, some s2] = .ok s from hs]
  show (do let i ← Isam.lowerBound F LF z s.data k; _) = _
  rw [hlb]
  show (do let w ← getR s.data (lowerBoundSpec k s.data); _) = _
  have hg : getR s.data (lowerBoundSpec k s.data) = .ok s.data[lowerBoundSpec k s.data] := by
    unfold getR; rw [List.getElem?_eq_getElem hlt]
  rw [hg]
  show Except.ok _ = _
  rw [hrec, hk'def]
  split <;> rfl

/-! ### Range counts and levels -/

/-- What `t_range_count` and `t_buffer_range_count` look at: on any inserts with some key not below the lower bound, the
shard yields one pair, whose difference is the number of inserts in range; the buffer always does. -/
theorem C124_range_count {lb : LB R K} (hlb : lb.Sound) {xs : List R} (hx : xs ≠ []) (hx' : xs.length ≤ 2 ^ 28) {lo hi : K}
    (hlo : ∃ r ∈ xs, lo ≤ key r) :
    shardCount lb xs lo hi = .ok [(xs.countP (fun r => decide (lo ≤ key r ∧ key r ≤ hi)), 0)] ∧
    bufferCount xs lo hi = .ok [(xs.countP (fun r => decide (lo ≤ key r ∧ key r ≤ hi)), 0)] := by
  have hpair : ∀ l : List (Wrapped R), (∀ w ∈ l, w.isDeleted = false ∧ w.isTombstone = false) →
      (((l.filter (inRange lo hi)).filter (fun w => !w.isDeleted)).length,
        tsCount ((l.filter (inRange lo hi)).filter (fun w => !w.isDeleted))) =
      ((l.map Wrapped.record).countP (fun r => decide (lo ≤ key r ∧ key r ≤ hi)), 0) := by
    intro l hl
    have e1 : (l.filter (inRange lo hi)).filter (fun w => !w.isDeleted) = l.filter (inRange lo hi) :=
      List.filter_eq_self.mpr (fun w hw => by simp [(hl w (List.mem_filter.mp hw).1).1])
    rw [e1]
    congr 1
    · rw [← List.countP_eq_length_filter, List.countP_map]
      exact List.countP_congr (fun w _ => by simp [inRange])
    · unfold tsCount
      rw [List.countP_eq_zero]
      intro w hw
      simp [(hl w (List.mem_filter.mp hw).1).2]
  refine ⟨?_, ?_⟩
  · obtain ⟨s, a1, b1, c1, d1, e1⟩ := shardOf_uniform false hx hx'
    have hne : s.data ≠ [] := by
      intro h
      rw [recs, h, List.map_nil] at c1
      exact hx c1.nil_eq.symm
    have hcl : ∀ w ∈ s.data, w.isDeleted = false ∧ w.isTombstone = false := by
      intro w hw
      rw [b1] at hw
      obtain ⟨r, -, rfl⟩ := List.mem_map.mp hw
      simp [Wrapped.isDeleted, Wrapped.isTombstone, hdr]
    obtain ⟨h1, h2⟩ := rcLocal_spec hlb (s := s) (List.pairwise_map.mp d1) (lo := lo) (hi := hi)
    obtain ⟨l, h3, h4⟩ := h2 hne
    have h5 : l ≠ [] := by
      rw [Ne, h4]
      intro hall
      obtain ⟨r, hr, hk⟩ := hlo
      obtain ⟨w, hw, rfl⟩ := List.mem_map.mp (c1.mem_iff.mpr hr)
      exact hall w hw hk
    have h6 := (h1 l h3).resolve_left h5
    rw [hpair _ hcl, show s.data.map Wrapped.record = recs s from rfl, c1.countP_eq] at h6
    unfold shardCount
    rw [a1]
    show rcLocal lb s lo hi = _
    rw [h3, h6]
  · obtain ⟨b, hf, hb, hc, -⟩ := fill_spec (items := xs.map (·, false)) (by simpa using hx) (by simpa using hx')
    have hcl : ∀ w ∈ b.contents, w.isDeleted = false ∧ w.isTombstone = false := by
      intro w hw
      have : w.entry ∈ b.contents.map Wrapped.entry := List.mem_map_of_mem hw
      rw [hc, List.map_map] at this
      obtain ⟨x, -, hx⟩ := List.mem_map.mp this
      exact ⟨(congrArg Entry.del hx).symm, (congrArg Entry.tomb hx).symm⟩
    have hrec : b.contents.map Wrapped.record = xs := by
      have := congrArg (List.map Entry.record) hc
      simpa [List.map_map, Function.comp_def, Wrapped.entry] using this
    unfold bufferCount rcBuffer
    rw [hf]
    show (do let l ← b.view.gets; _) = _
    rw [Buffer.view_gets hb]
    show Except.ok [_] = _
    rw [hpair _ hcl, hrec]

/-- What `t_range_count_merge` looks at: the combined count over two shards of any inserts, each with some key not below
the lower bound. -/
theorem C124_range_count_merge {lb : LB R K} (hlb : lb.Sound) {xs ys : List R} (hx : xs ≠ []) (hy : ys ≠ [])
    (hx' : xs.length ≤ 2 ^ 28) (hy' : ys.length ≤ 2 ^ 28) {lo hi : K} (h1 : ∃ r ∈ xs, lo ≤ key r) (h2 : ∃ r ∈ ys, lo ≤ key r) :
    countMerge lb xs ys lo hi = .ok ((xs ++ ys).countP (fun r => decide (lo ≤ key r ∧ key r ≤ hi))) := by
  unfold countMerge
  rw [(C124_range_count hlb hx hx' (hi := hi) h1).1, (C124_range_count hlb hy hy' (hi := hi) h2).1, List.countP_append]
  rfl

/-- `t_range_count`, `t_buffer_range_count` and `t_range_count_merge` with their sequential keys. -/
theorem C124_range_count_sequential {lb : LB Rec Nat} (hlb : lb.Sound) {start stop lo hi : Nat} (h1 : start ≤ lo) (h2 : lo ≤ hi)
    (h3 : hi < stop) (h4 : stop - start ≤ 2 ^ 28) :
    shardCount lb (sequential start stop) lo hi = .ok [(hi - lo + 1, 0)] ∧
    bufferCount (sequential start stop) lo hi = .ok [(hi - lo + 1, 0)] := by
  have hlen : (sequential start stop).length = stop - start := by simp [sequential]
  have hne : sequential start stop ≠ [] := by
    intro h; rw [h] at hlen; simp at hlen; omega
  have hcnt : (sequential start stop).countP (fun r => decide (lo ≤ key r ∧ key r ≤ hi)) = hi - lo + 1 := by
    rw [List.countP_eq_length_filter, sequential_filter h1 h3]
    simp [sequential]; omega
  have hlo : ∃ r ∈ sequential start stop, lo ≤ key (K := Nat) r := by
    refine ⟨⟨hi, hi⟩, List.mem_map.mpr ⟨hi, ?_, rfl⟩, h2⟩
    rw [List.mem_range'_1]; omega
  have := C124_range_count hlb hne (by omega) (hi := hi) hlo
  rwa [hcnt] at this

omit [LinearOrder K] [HasKey R K] in
/-- `t_memlevel_merge`: two levels of one shard each and their reconstruction hold all the records. -/
theorem C124_level_merge {pq : PQ R} {look : Shard R → R → Res (Option Nat)} {xs ys : List R} (hx : xs ≠ []) (hy : ys ≠ [])
    (hx' : xs.length ≤ 2 ^ 28) (hy' : ys.length ≤ 2 ^ 28) :
    levelMerge ⟨sortedFromView, sortedMerge pq, look⟩ xs ys = .ok (xs.length, ys.length, xs.length + ys.length) := by
  obtain ⟨b1, hf1, -, -⟩ := fill_records hx hx'
  obtain ⟨b2, hf2, -, -⟩ := fill_records hy hy'
  obtain ⟨s1, p1, q1, c1, -, -⟩ := shardOf_uniform false hx hx'
  obtain ⟨s2, p2, q2, c2, -, -⟩ := shardOf_uniform false hy hy'
  have g1 : sortedFromView b1.view = .ok s1 := by unfold shardOf at p1; rw [hf1] at p1; exact p1
  have g2 : sortedFromView b2.view = .ok s2 := by unfold shardOf at p2; rw [hf2] at p2; exact p2
  have hclean : ∀ s : Shard R, s.data = (recs s).map (fun r => ⟨hdr false, r⟩) →
      ∀ w ∈ s.data, w.isDeleted = false ∧ w.isTombstone = false := by
    intro s hs w hw
    rw [hs] at hw
    obtain ⟨r, -, rfl⟩ := List.mem_map.mp hw
    simp [Wrapped.isDeleted, Wrapped.isTombstone, hdr]
  have hl1 : s1.data.length = xs.length := by rw [← c1.length_eq, recs, List.length_map]
  have hl2 : s2.data.length = ys.length := by rw [← c2.length_eq, recs, List.length_map]
  letI : HasKey R R := ⟨id, fun _ _ h => h⟩
  obtain ⟨hd, hm⟩ := C23_merge_law (pq := pq) (lb := (LB.scan : LB R R)) [s1, s2]
  obtain ⟨s, hs⟩ := hd.mp (by
    intro x hx0
    simp only [List.mem_cons, List.not_mem_nil, or_false] at hx0
    rcases hx0 with rfl | rfl
    · intro h; rw [h] at hl1; exact hx (List.length_eq_zero_iff.mp hl1.symm)
    · intro h; rw [h] at hl2; exact hy (List.length_eq_zero_iff.mp hl2.symm))
  have hperm := (hm s hs).2.2.2.2 (by
    intro x hx0
    simp only [List.mem_cons, List.not_mem_nil, or_false] at hx0
    rcases hx0 with rfl | rfl
    · exact hclean _ q1
    · exact hclean _ q2)
  have hl : s.data.length = xs.length + ys.length := by
    rw [hperm.length_eq]; simp [List.flatMap_cons, hl1, hl2]
  have hs' : sortedMerge pq [some s1, some s2] = .ok s := hs
  unfold levelMerge
  rw [hf1, hf2]
  show (do
    let base ← Level.appendBuffer ⟨sortedFromView, sortedMerge pq, look⟩ (Level.new 1 1) b1.view
    let merging ← Level.appendBuffer ⟨sortedFromView, sortedMerge pq, look⟩ (Level.new 0 1) b2.view
    let l ← Level.reconstruct2 ⟨sortedFromView, sortedMerge pq, look⟩ base merging
    .ok (base.recordCount, merging.recordCount, l.recordCount) : Res (Nat × Nat × Nat)) = _
  have e1 : Level.appendBuffer ⟨sortedFromView, sortedMerge pq, look⟩ (Level.new 1 1) b1.view = .ok ⟨1, 1, [some s1], none⟩ := by
    unfold Level.appendBuffer
    rw [if_neg (by simp [Level.new])]
    show (do let s ← sortedFromView b1.view; _) = _
    rw [g1]; rfl
  have e2 : Level.appendBuffer ⟨sortedFromView, sortedMerge pq, look⟩ (Level.new 0 1) b2.view = .ok ⟨0, 1, [some s2], none⟩ := by
    unfold Level.appendBuffer
    rw [if_neg (by simp [Level.new])]
    show (do let s ← sortedFromView b2.view; _) = _
    rw [g2]; rfl
  have e3 : Level.reconstruct2 ⟨sortedFromView, sortedMerge pq, look⟩ ⟨1, 1, [some s1], none⟩ ⟨0, 1, [some s2], none⟩ =
      .ok ⟨1, 1, [some s], none⟩ := by
    unfold Level.reconstruct2
    show (do let m ← sortedMerge pq [some s1, some s2]; _) = _
    rw [hs']; rfl
  rw [e1, e2]
  show (do
    let l ← Level.reconstruct2 ⟨sortedFromView, sortedMerge pq, look⟩ ⟨1, 1, [some s1], none⟩ ⟨0, 1, [some s2], none⟩
    .ok ((⟨1, 1, [some s1], none⟩ : Level R).recordCount, (⟨0, 1, [some s2], none⟩ : Level R).recordCount, l.recordCount)
      : Res (Nat × Nat × Nat)) = _
  rw [e3]
  show Except.ok _ = _
  simp [Level.recordCount, Level.visible, hl1, hl2, hl]

/-! ### The tests as they stand -/

/-- `t_mbuffer_init` as it stands: its shard has 512 records. -/
example : ∃ s, mbufferInit ((List.range' 1 512).reverse.map (fun i => (⟨i, i⟩ : Rec))) (sequential 1 257)
    ((List.range' 257 256).map (fun i => ⟨i, i + 1⟩)) = .ok s ∧ s.data.length = 512 := by
  have hnd : ((List.range' 1 512).reverse.map (fun i => (⟨i, i⟩ : Rec))).Nodup :=
    List.Nodup.map (fun a b h => congrArg Record.key h) (List.nodup_reverse.mpr List.nodup_range')
  obtain ⟨s, h1, h2, -⟩ := C124_mbuffer_init (as := (List.range' 1 512).reverse.map (fun i => (⟨i, i⟩ : Rec)))
    (ts := sequential 1 257) (bs := (List.range' 257 256).map (fun i => ⟨i, i + 1⟩)) (by simp [sequential]) (by simp)
    (List.Nodup.map (fun a b h => congrArg Record.key h) List.nodup_range') (by
      intro t ht
      obtain ⟨i, hi, rfl⟩ := List.mem_map.mp ht
      rw [List.mem_range'_1] at hi
      refine ⟨List.count_eq_one_of_mem hnd (List.mem_map.mpr ⟨i, ?_, rfl⟩), ?_⟩
      · rw [List.mem_reverse, List.mem_range'_1]; omega
      · intro h
        obtain ⟨j, hj, e⟩ := List.mem_map.mp h
        have e1 : j = i := congrArg Record.key e
        have e2 : j + 1 = i := congrArg Record.value e
        omega)
  refine ⟨s, h1, ?_⟩
  simp only [sequential, List.length_map, List.length_range', List.length_reverse] at h2
  omega

theorem doubleSeq_length (cnt : Nat) : (doubleSeq cnt).length = cnt / 2 + cnt / 2 := by simp [doubleSeq]

/-- `t_full_cancelation` as it stands. -/
example {pq : PQ Rec} (hpq : pq.ByWrapped ∨ pq.ByVersion) :
    fullCancelation pq (doubleSeq 100) (doubleSeq 100) = .ok ((100, 0), (100, 100), (0, 0)) := by
  have h := doubleSeq_length 100
  have := C124_full_cancelation hpq (xs := doubleSeq 100) (ts := doubleSeq 100)
    (by intro e; rw [e] at h; simp at h) (by rw [h]; decide) (List.Perm.refl _)
  rwa [h] at this

/-- `t_point_lookup` and `t_point_lookup_miss` as they stand, on the ISAM tree. -/
example {F LF : Nat} (hF : 2 ≤ F) (hLF : 1 ≤ LF) {ix : Learned Nat} (hv : ix.Valid) :
    ∃ s, shardOf ((doubleSeq 10000).map (·, false)) = .ok s ∧
      (∀ r ∈ doubleSeq 10000, ∃ i w, sortedLookup (Isam.lowerBound F LF 0) s r = .ok (some i) ∧ s.data[i]? = some w ∧ w.record = r) ∧
      (∀ i, 10100 ≤ i → sortedLookup (Isam.lowerBound F LF 0) s ⟨i, i⟩ = .ok none) := by
  have h := doubleSeq_length 10000
  obtain ⟨s, h1, h2⟩ := C124_point_lookup hF hLF 0 hv (xs := doubleSeq 10000) (by intro e; rw [e] at h; simp at h) (by rw [h]; decide)
  obtain ⟨h3, h4⟩ := h2 _ (.inl rfl)
  refine ⟨s, h1, h3, fun i hi => h4 _ ?_⟩
  intro x hx
  show x.key ≠ i
  unfold doubleSeq at hx
  rcases List.mem_append.mp hx with hx | hx <;>
  · obtain ⟨j, hj, rfl⟩ := List.mem_map.mp hx
    have := List.mem_range.mp hj
    show j ≠ i
    omega

/-- `t_range_query` and `t_buffer_range_query` as they stand. -/
example {lb : LB Rec Nat} (hlb : lb.Sound) : (∃ l, shardRange lb (sequential 100 1000) 300 500 = .ok l ∧ l.length = 201) ∧
    ∃ l, bufferRange (sequential 100 1000) 300 500 = .ok l ∧ l.length = 201 := by
  obtain ⟨⟨l, h1, h2, -⟩, ⟨l', h3, h4, -⟩⟩ := C124_range_query_sequential hlb (start := 100) (stop := 1000) (lo := 300) (hi := 500)
    (by decide) (by decide) (by decide) (by decide)
  exact ⟨⟨l, h1, h2⟩, ⟨l', h3, h4⟩⟩

/-- `t_range_count` and `t_buffer_range_count` as they stand. -/
example {lb : LB Rec Nat} (hlb : lb.Sound) : shardCount lb (sequential 100 1000) 300 500 = .ok [(201, 0)] ∧
    bufferCount (sequential 100 1000) 300 500 = .ok [(201, 0)] :=
  C124_range_count_sequential hlb (by decide) (by decide) (by decide) (by decide)

/-- A level merge with repeated records. -/
example : levelMerge (R := Nat) ⟨sortedFromView, sortedMerge PQ.std, fun _ _ => .ok none⟩ [3, 1, 3] [3, 2] = .ok (3, 2, 5) := by
  decide

/-- `t_lower_bound` would fail: at key 200 the record has key 400. -/
example {pq : PQ Rec} (hpq : pq.ByRec) {F LF : Nat} (hF : 2 ≤ F) (hLF : 1 ≤ LF) :
    lowerBoundRec pq (Isam.lowerBound F LF 0) (sequential 100 200) (sequential 400 1000) 200 = .ok ⟨400, 400⟩ :=
  (C124_lower_bound hpq hF hLF 0 (by decide) (by decide) (by decide) (by decide) (by decide) (by decide) (by decide)).trans
    (by rw [if_pos (by decide)])

/-- A merge of shards with repeated records. -/
example : shardInit (R := Nat) PQ.std [3, 1, 3] [3] [1, 2] = .ok (6, 0, true) := by decide

end DE.Own
