import Verif.Proofs.OwnStringTests
import Verif.Properties.Shards

/-!
C130: the project's own string shard and point lookup tests (tests/include/shard_string.h, tests/include/pointlookup.h) for any records.
-/

namespace DE.Own
variable {R S P : Type} [LinearOrder R] [LinearOrder S] [HasKey R S] [Inhabited R]

/-- The classes the string tests are written for: both constructors are those of `FSTrie`. -/
def StrClass (I : ShardImpl R) (pq : PQ R) (lit : R → Bool) : Prop :=
  (∃ (t : Trie S), I = fstImpl pq t lit) ∨ ∃ (t : Trie S) (u : S → Res (Option Nat)), I = loudsImpl pq t u lit

omit [Inhabited R] in
theorem StrClass.eqs {I : ShardImpl R} {pq : PQ R} {lit : R → Bool} (h : StrClass (S := S) I pq lit) :
    I.build = fstBuild lit ∧ I.merge = fstMerge pq lit := by
  rcases h with ⟨t, rfl⟩ | ⟨t, u, rfl⟩ <;> exact ⟨rfl, rfl⟩

omit [LinearOrder S] [HasKey R S] in
theorem strShardOf_spec {I : ShardImpl R} {lit : R → Bool} (hI : I.build = fstBuild lit) (hlit : NoLit lit) {xs : List R} (hx : xs ≠ [])
    (hx' : xs.length ≤ 2 ^ 28) :
    ∃ s, strShardOf I xs = .ok s ∧ s.tscnt = 0 ∧ (recs s).Perm xs ∧ (recs s).Pairwise (· ≤ ·) ∧ s.data ≠ [] ∧
      ∀ w ∈ s.data, w.isDeleted = false ∧ w.isTombstone = false := by
  obtain ⟨b, hf, hb, hc, -⟩ := fill_spec (items := xs.map (·, false)) (by simpa using hx) (by simpa using hx')
  have hcl : ∀ w ∈ b.contents, w.isDeleted = false ∧ w.isTombstone = false := by
    intro w hw
    have : w.entry ∈ b.contents.map Wrapped.entry := List.mem_map_of_mem hw
    rw [hc, List.map_map] at this
    obtain ⟨x, -, h⟩ := List.mem_map.mp this
    exact ⟨(congrArg Entry.del h).symm, (congrArg Entry.tomb h).symm⟩
  obtain ⟨s, h1, h2, h3, h4, h5⟩ := fstBuild_recs hlit hb
  have hrec : b.contents.map Wrapped.record = xs := by
    have := congrArg (List.map Entry.record) hc
    simpa [List.map_map, Function.comp_def, Wrapped.entry] using this
  rw [List.filter_eq_self.mpr (fun w hw => by simp [(hcl w hw).1]), hrec] at h3
  refine ⟨s, ?_, h2, h3, h4, ?_, ?_⟩
  · unfold strShardOf; rw [hf, hI]; exact h1
  · intro h
    rw [recs, h, List.map_nil] at h3
    exact hx h3.nil_eq.symm
  · intro w hw
    obtain ⟨g1, w', g2, g3⟩ := h5 w hw
    exact ⟨g1, (congrArg Entry.tomb g3).symm.trans (hcl w' g2).2⟩

/-- `t_mbuffer_init`: appends of different records `as`, `delete_record` of some of them, and appends of any `bs`. The shard holds exactly the
records of `as` that were not deleted and those of `bs`; its record count is the one the test expects. -/
theorem C130_mbuffer_init {I : ShardImpl R} {pq : PQ R} {lit : R → Bool} (hI : StrClass (S := S) I pq lit) (hlit : NoLit lit)
    {lwm hwm : Nat} (hl : 0 < lwm) (hlh : lwm ≤ hwm) {as ts bs : List R} (hne : as ≠ []) (hn : as.length + bs.length ≤ hwm)
    (has : as.Nodup) (hts : ts.Nodup) (hsub : ∀ r ∈ ts, r ∈ as) :
    ∃ s, strMbufferInit I lwm hwm as ts bs = .ok s ∧ s.data.length + ts.length = as.length + bs.length ∧
      (s.data.map Wrapped.record).Perm (as.filter (fun r => decide (r ∉ ts)) ++ bs) ∧
      (s.data.map Wrapped.record).Pairwise (· ≤ ·) := by
  have hnew : Buffer.new (R := R) lwm hwm = .ok ⟨lwm, hwm, 2 * hwm, 0, 0, fun _ => default, 0⟩ := by
    unfold Buffer.new
    rw [bind_ok]
    refine ⟨(), assertC_ok.mpr (by simp; omega), ?_⟩
    rw [bind_ok]
    exact ⟨(), assertC_ok.mpr (by simp; omega), rfl⟩
  set b0 : Buffer R := ⟨lwm, hwm, 2 * hwm, 0, 0, fun _ => default, 0⟩ with hb0
  have hwf0 : b0.WF := ⟨rfl, by simp only [hb0]; omega, by simp only [hb0]; omega, le_refl _, by simp [hb0],
    by simp [Buffer.contents, hb0]⟩
  obtain ⟨g1, g2, g3, g4⟩ := foldl_contents (as.map (·, false)) hwf0 (by simp [hb0]; omega)
  set b1 := (as.map (·, false)).foldl (fun b p => (b.append p.1 p.2).1) b0 with hb1
  have e1 : b1.contents.map Wrapped.entry = as.map (fun r => ⟨r, false, false⟩) := by
    rw [g4]; simp [Buffer.contents, hb0]
  have hlen : b1.tail - b1.head = as.length := by
    rw [← Buffer.contents_length, ← List.length_map (f := Wrapped.entry), e1, List.length_map]
  have hpos := List.length_pos_iff.mpr hne
  have hr1 : b1.contents.map Wrapped.record = as := by
    have := congrArg (List.map Entry.record) e1
    simpa [List.map_map, Function.comp_def, Wrapped.entry] using this
  obtain ⟨d1, d2, d3, d4, d5⟩ := deletes_entries ts g1 (by omega) (by rw [hr1]; exact has)
  set b2 := ts.foldl (fun b r => (b.deleteRecord r).1) b1 with hb2
  obtain ⟨f1, -, -, f4⟩ := foldl_contents (bs.map (·, false)) d1 (by
    rw [d2, d3, d4, g3, hlen, List.length_map]; exact hn)
  set b3 := (bs.map (·, false)).foldl (fun b p => (b.append p.1 p.2).1) b2 with hb3
  have e3 : b3.contents.map Wrapped.entry =
      as.map (fun r => ⟨r, false, decide (r ∈ ts)⟩) ++ bs.map (fun r => ⟨r, false, false⟩) := by
    rw [f4, d5, e1, List.map_map, List.map_map]
    congr 1
    apply List.map_congr_left
    intro r _
    by_cases h : r ∈ ts <;> simp [tagRec, h]
  obtain ⟨s, h1, -, h3, h4, -⟩ := fstBuild_recs hlit f1
  have hrec : (b3.contents.filter (fun w => !w.isDeleted)).map Wrapped.record = as.filter (fun r => decide (r ∉ ts)) ++ bs := by
    have e : (b3.contents.filter (fun w => !w.isDeleted)).map Wrapped.record =
        ((b3.contents.map Wrapped.entry).filter (fun e => !e.del)).map Entry.record := by
      rw [List.filter_map, List.map_map]; rfl
    rw [e, e3, List.filter_append, List.map_append, List.filter_map, List.filter_map, List.map_map, List.map_map]
    simp [Function.comp_def]
  rw [hrec] at h3
  refine ⟨s, ?_, ?_, h3, h4⟩
  · unfold strMbufferInit strFill
    rw [hnew, hI.eqs.1]
    exact h1
  · have hp : (as.filter (fun r => decide (r ∈ ts))).Perm ts := by
      rw [List.perm_ext_iff_of_nodup (has.filter _) hts]
      intro r
      simp only [List.mem_filter, decide_eq_true_eq]
      exact ⟨fun h => h.2, fun h => ⟨hsub r h, h⟩⟩
    have hsplit := List.length_eq_length_filter_add (l := as) (fun r => decide (r ∈ ts))
    have e : (as.filter (fun r => !decide (r ∈ ts))) = as.filter (fun r => decide (r ∉ ts)) :=
      List.filter_congr (fun r _ => by simp)
    rw [e, hp.length_eq] at hsplit
    have := h3.length_eq
    rw [recs, List.length_map, List.length_append] at this
    omega

/-- `t_shard_init`: three shards of any records, also of the same ones, merge to a shard with all of them and no tombstone, and the loop of the
test never reaches its `assert(false)`. -/
theorem C130_shard_init {I : ShardImpl R} {pq : PQ R} (hpq : pq.ByRec) {lit : R → Bool} (hI : StrClass (S := S) I pq lit) (hlit : NoLit lit)
    {xs ys zs : List R} (hx : xs ≠ []) (hy : ys ≠ [])
    (hz : zs ≠ []) (hx' : xs.length ≤ 2 ^ 28) (hy' : ys.length ≤ 2 ^ 28) (hz' : zs.length ≤ 2 ^ 28) :
    strShardInit I xs ys zs = .ok (xs.length + ys.length + zs.length, 0, true) := by
  obtain ⟨s1, a1, -, c1, d1, n1, k1⟩ := strShardOf_spec hI.eqs.1 hlit hx hx'
  obtain ⟨s2, a2, -, c2, d2, n2, k2⟩ := strShardOf_spec hI.eqs.1 hlit hy hy'
  obtain ⟨s3, a3, -, c3, d3, n3, k3⟩ := strShardOf_spec hI.eqs.1 hlit hz hz'
  set data := mergeAll pq (fun w => !w.isDeleted && !lit w.record) [s1.data, s2.data, s3.data] with hdata
  have hm : I.merge [some s1, some s2, some s3] = .ok ⟨data, 0⟩ := by
    rw [hI.eqs.2]
    unfold fstMerge
    rw [if_pos (by simp [n1, n2, n3])]
    rfl
  have hperm : data.Perm [s1.data, s2.data, s3.data].flatten := by
    refine mergeLoop_perm pq _ _ _ (le_refl _) ?_
    intro c hc w hw
    simp only [List.mem_cons, List.not_mem_nil, or_false] at hc
    rw [hlit]
    rcases hc with rfl | rfl | rfl
    · simp [k1 w hw]
    · simp [k2 w hw]
    · simp [k3 w hw]
  have hsort : RecSorted data := by
    refine mergeLoop_sorted pq hpq _ _ _ ?_
    intro c hc
    simp only [List.mem_cons, List.not_mem_nil, or_false] at hc
    rcases hc with rfl | rfl | rfl
    · exact List.pairwise_map.mp d1
    · exact List.pairwise_map.mp d2
    · exact List.pairwise_map.mp d3
  have hrp : (data.map Wrapped.record).Perm (recs s1 ++ recs s2 ++ recs s3) := by
    have := hperm.map Wrapped.record
    simpa [recs] using this
  have hlen : data.length = xs.length + ys.length + zs.length := by
    have := hrp.length_eq
    rw [List.length_append, List.length_append, c1.length_eq, c2.length_eq, c3.length_eq, List.length_map] at this
    exact this
  unfold strShardInit
  rw [a1, a2, a3]
  show (do let s ← I.merge [some s1, some s2, some s3]; _) = _
  rw [hm]
  show Except.ok _ = _
  rw [show recs (⟨data, 0⟩ : Shard R) = data.map Wrapped.record from rfl,
    matchLoop_ok _ _ _ _ (List.pairwise_map.mpr hsort) d1 d2 d3 hrp, hlen]

/-- `t_point_lookup`, `t_point_lookup_miss` and `t_point_lookup_query`: on a shard of records with different keys, every one of them is found, the
local query returns it alone, and a key that no record has is reported as missing, for `FSTrie` and for `LoudsPatricia`. -/
theorem C130_point_lookup {I : ShardImpl R} {pq : PQ R} {t : Trie S} (ht : t.Exact) {u : S → Res (Option Nat)} {lit : R → Bool}
    (hlit : NoLit lit) {look : Shard R → S → Res (Option Nat)}
    (hI : (I = fstImpl pq t lit ∧ look = fstLookup t) ∨ (I = loudsImpl pq t u lit ∧ look = loudsLookup t u)) {xs : List R} (hx : xs ≠ [])
    (hx' : xs.length ≤ 2 ^ 28) (hnd : (xs.map (key (K := S))).Nodup) :
    ∃ s, strShardOf I xs = .ok s ∧
      (∀ r ∈ xs, ∃ i w, strLookupTest look s (key r) = .ok (some i, [w]) ∧ w.record = r) ∧
      ∀ k : S, (∀ r ∈ xs, key r ≠ k) → strLookupTest look s k = .ok (none, []) := by
  have hb : I.build = fstBuild lit := by rcases hI with ⟨rfl, -⟩ | ⟨rfl, -⟩ <;> rfl
  obtain ⟨s, a1, -, c1, d1, n1, -⟩ := strShardOf_spec hb hlit hx hx'
  have hmem : ∀ w ∈ s.data, w.record ∈ xs := fun w hw => c1.mem_iff.mp (List.mem_map_of_mem hw)
  have hk : (trieKeys s.data : List S).Pairwise (· < ·) := by
    refine keys_strict (List.pairwise_map.mp d1) ?_
    have := (c1.map (key (K := S))).nodup_iff.mpr hnd
    rw [recs, List.map_map] at this
    exact this
  have hlook : ∀ k, look s k = fstLookup t s k := by
    intro k
    rcases hI with ⟨-, rfl⟩ | ⟨-, rfl⟩
    · rfl
    · exact loudsLookup_eq n1 k
  refine ⟨s, a1, ?_, ?_⟩
  · intro r hr
    rcases fstLookup_exact ht n1 hk (key r) with ⟨i, w, h1, h2, h3⟩ | ⟨-, h2⟩
    · refine ⟨i, w, ?_, List.inj_on_of_nodup_map hnd (hmem w (List.mem_of_getElem? h2)) hr h3⟩
      unfold strLookupTest plLocal
      rw [hlook, h1]
      simp [bind, Except.bind, getR, h2]
    · obtain ⟨w, hw, e⟩ := List.mem_map.mp (c1.mem_iff.mpr hr)
      exact absurd (by rw [e]) (h2 w hw)
  · intro k hk'
    rcases fstLookup_exact ht n1 hk k with ⟨i, w, h1, h2, h3⟩ | ⟨h1, -⟩
    · exact absurd h3 (hk' _ (hmem w (List.mem_of_getElem? h2)))
    · unfold strLookupTest plLocal
      rw [hlook, h1]
      rfl

omit [LinearOrder S] [HasKey R S] in
/-- `t_buffer_point_lookup`: with different addresses, the query with the address of a stored key returns its record alone, and the query with any
other address returns nothing, whatever its content. -/
theorem C130_buffer_lookup [DecidableEq P] {addr : R → P} {xs : List R} (hx : xs ≠ []) (hx' : xs.length ≤ 2 ^ 28)
    (hnd : (xs.map addr).Nodup) :
    (∀ r ∈ xs, ∃ w, strBufferLookup addr xs (addr r) = .ok [w] ∧ w.record = r ∧ w.isTombstone = false) ∧
    ∀ p, (∀ r ∈ xs, addr r ≠ p) → strBufferLookup addr xs p = .ok [] := by
  obtain ⟨b, hf, hb, hc, -⟩ := fill_spec (items := xs.map (·, false)) (by simpa using hx) (by simpa using hx')
  have hrec : b.contents.map Wrapped.record = xs := by
    have := congrArg (List.map Entry.record) hc
    simpa [List.map_map, Function.comp_def, Wrapped.entry] using this
  have hin : ∀ w ∈ b.contents, w.record ∈ xs := fun w hw => hrec ▸ List.mem_map_of_mem hw
  have hcl : ∀ w ∈ b.contents, w.isTombstone = false := by
    intro w hw
    have : w.entry ∈ b.contents.map Wrapped.entry := List.mem_map_of_mem hw
    rw [hc, List.map_map] at this
    obtain ⟨x, -, h⟩ := List.mem_map.mp this
    exact (congrArg Entry.tomb h).symm
  have hs : ∀ p, strBufferLookup addr xs p = match b.contents.find? (fun w => decide (addr w.record = p)) with
      | some w => .ok [w]
      | none => .ok [] := by
    intro p
    unfold strBufferLookup
    rw [hf]
    show (do let l ← b.view.gets; _) = _
    rw [Buffer.view_gets hb]
    rfl
  constructor
  · intro r hr
    rw [hs]
    cases hfd : b.contents.find? (fun w => decide (addr w.record = addr r)) with
    | none =>
      rw [List.find?_eq_none] at hfd
      rw [← hrec] at hr
      obtain ⟨w, hw, rfl⟩ := List.mem_map.mp hr
      exact absurd (decide_eq_true rfl) (hfd w hw)
    | some w =>
      have hw := List.mem_of_find?_eq_some hfd
      have e := List.find?_some hfd
      exact ⟨w, rfl, List.inj_on_of_nodup_map hnd (hin w hw) hr (by simpa using e), hcl w hw⟩
  · intro p hp
    rw [hs, List.find?_eq_none.mpr]
    intro w hw
    simpa using hp _ (hin w hw)

/-! ### Concrete cases -/

/-- Deletions in the middle, and more appends. -/
example : (strMbufferInit (fstImpl PQ.std (Trie.scan (S := Nat)) noLit) 3 6 [⟨5, 0⟩, ⟨1, 0⟩, ⟨3, 0⟩] [⟨1, 0⟩] [⟨4, 0⟩, ⟨2, 0⟩]).map recs =
    .ok [⟨2, 0⟩, ⟨3, 0⟩, ⟨4, 0⟩, ⟨5, 0⟩] := by decide

/-- As in the project's test, three buffers with the same records. -/
example : strShardInit (fstImpl PQ.std (Trie.scan (S := Nat)) noLit) [⟨5, 0⟩, ⟨1, 0⟩] [⟨5, 0⟩, ⟨1, 0⟩] [⟨5, 0⟩, ⟨1, 0⟩] = .ok (6, 0, true) := by decide

/-- A lookup that hits and one that misses, on a trie that meets its contract. -/
example : (do
    let s ← strShardOf (loudsScan noLit) [⟨5, 7⟩, ⟨1, 8⟩, ⟨3, 9⟩]
    let a ← strLookupTest (loudsLookup (Trie.scan (S := Nat)) (fun _ => .error .ub)) s 3
    let b ← strLookupTest (loudsLookup (Trie.scan (S := Nat)) (fun _ => .error .ub)) s 4
    .ok ((a.1, a.2.map Wrapped.record), (b.1, b.2.length))) = Except.ok (ε := Fault) ((some 1, [(⟨3, 9⟩ : Rec)]), (none, 0)) := by decide

/-- The test that the buffer misses a key would also pass if the record were stored: content 3 is found at its own address 30 and not at 31. -/
example : (strBufferLookup Record.value [(⟨5, 50⟩ : Rec), ⟨3, 30⟩] 30).map (·.map Wrapped.record) = .ok [⟨3, 30⟩] ∧
    strBufferLookup Record.value [(⟨5, 50⟩ : Rec), ⟨3, 30⟩] 31 = .ok [] := by decide

end DE.Own
