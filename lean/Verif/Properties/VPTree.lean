import Verif.Proofs.VPLookup
import Verif.Proofs.Instances
import Verif.Properties.Sampling
import Mathlib.Algebra.Order.Group.Int

/-!
C29 (structure of a VPTree), C30 (k-NN on a shard), C31 (VPTree point lookup), C32 (k-NN on an index), C33 (k-NN and erased records).
-/

namespace DE
variable {R 𝔽 : Type} [LinearOrder 𝔽]

/-- C29: for any data, distance function, leaf size and random stream (of a generator large enough for the shard), building
succeeds; the pointer array is a permutation of the shard's records, every position of it is covered exactly once by a vantage
point or a leaf, what is inside a vantage point is within its radius, what is outside is not closer than the radius, and leaves
have between 1 and `leafSz + 1` records. -/
theorem C29_vptree [Zero 𝔽] (dist : R → R → 𝔽) (leafSz : Nat) (g : Rng) (data : List (Wrapped R)) (hg : data.length ≤ g.max) :
    ∃ t, VP.tree dist leafSz g data = .ok t ∧
      (t.ptrs.map (fun p => (p.idx, p.record))).Perm (data.mapIdx (fun i w => (i, w.record))) ∧
      t.root.indices.Perm (List.range data.length) ∧ t.root.Split dist (VP.recs t.ptrs) ∧ t.root.LeafOk leafSz := by
  obtain ⟨t, ht, hb⟩ := (VP.tree_built (dist := dist) (leafSz := leafSz) (g := g) (safe := True) data (fun _ => hg)).safe trivial
  exact ⟨t, ht, hb.ptrs, hb.indices, hb.split, hb.leaf⟩

/-- C30: with a distance that is symmetric and satisfies the triangle inequality, for `k ≥ 1`, the k-NN query on a shard returns
the `k` nearest records of that shard (all if there are fewer), farthest first. -/
theorem C30_knn_shard [AddCommGroup 𝔽] [IsOrderedAddMonoid 𝔽] {q : MaxQ R 𝔽} (hq : q.Ok) {dist : R → R → 𝔽} (hd : Metric dist)
    (leafSz : Nat) (g : Rng) (data : List (Wrapped R)) (hg : data.length ≤ g.max) (point : R) {k : Nat} (hk : 1 ≤ k) :
    ∃ t res, VP.tree dist leafSz g data = .ok t ∧ knnLocal q dist t point k = .ok res ∧
      KAnswer k (fun y => dist y point) (data.map Wrapped.record) res := by
  obtain ⟨t, ht, hb⟩ := (VP.tree_built (dist := dist) (leafSz := leafSz) (g := g) (safe := True) data (fun _ => hg)).safe trivial
  obtain ⟨res, hr, ha⟩ := (knnLocal_good hq (safe := True) hd.symm hd.tri (point := point) hk hb).safe trivial
  exact ⟨t, res, ht, hr, ha⟩

/-! ### Point lookup -/
section
variable [DecidableEq R] [Zero 𝔽]

/-- What VPTree's `point_lookup` reports is a copy of the requested record. -/
theorem C31_sound {dist : R → R → 𝔽} {leafSz : Nat} {g : Rng} {data : List (Wrapped R)} {t : VP.Tree R 𝔽}
    (ht : VP.tree dist leafSz g data = .ok t) {r : R} {i : Nat} (h : VP.lookup dist r t.ptrs t.root = .ok (some i)) :
    ∃ w, data[i]? = some w ∧ w.record = r := by
  have hb := (VP.tree_built (safe := data.length ≤ g.max) data (fun h => h)).elim ht
  obtain ⟨p, hp, rfl, rfl⟩ := VP.lookup_sound h
  exact hb.points hp

/-- Partial C31, completeness: with a leaf size of at least 2 and a non-empty shard, lookup has no undefined behaviour, and a
stored record is found if it is no vantage point and at no vantage point's exact radius. -/
theorem C31_clear_partial {dist : R → R → 𝔽} (hsym : ∀ x y, dist x y = dist y x) {leafSz : Nat} (hl : 2 ≤ leafSz) {g : Rng}
    {data : List (Wrapped R)} (hne : data ≠ []) {t : VP.Tree R 𝔽} (ht : VP.tree dist leafSz g data = .ok t) (r : R) :
    ∃ o, VP.lookup dist r t.ptrs t.root = .ok o ∧
      (t.root.Clear dist (VP.recs t.ptrs) r → (∃ w ∈ data, w.record = r) → ∃ i, o = some i) := by
  have hb := (VP.tree_built (safe := data.length ≤ g.max) data (fun h => h)).elim ht
  obtain ⟨o, h1, h2⟩ := VP.lookup_total (dist := dist) (r := r) hb.idx_lt hb.leaf.weak (hb.full hne hl)
  refine ⟨o, h1, fun hc ⟨w, hw, e⟩ => h2 hsym hb.split hc ?_⟩
  exact hb.records.mem_iff.mpr (List.mem_map.mpr ⟨w, hw, e⟩)

/-- Partial C31: a shard that fits one leaf finds exactly the stored records. -/
theorem C31_small_partial {dist : R → R → 𝔽} {leafSz : Nat} {g : Rng} {data : List (Wrapped R)} (hne : data ≠ [])
    (hs : data.length ≤ leafSz + 1) {t : VP.Tree R 𝔽} (ht : VP.tree dist leafSz g data = .ok t) (r : R) :
    ∃ o, VP.lookup dist r t.ptrs t.root = .ok o ∧ (o.isSome = true ↔ ∃ w ∈ data, w.record = r) := by
  have hb := (VP.tree_built (safe := data.length ≤ g.max) data (fun h => h)).elim ht
  have hroot := hb.small hne hs
  have hlen := List.length_pos_of_ne_nil hne
  have hlk : ∃ o, VP.lookup dist r t.ptrs t.root = .ok o ∧ (r ∈ t.root.indices.filterMap (VP.recs t.ptrs) → ∃ j, o = some j) := by
    rw [hroot]
    unfold VP.lookup
    exact VP.scanEq_total (by rw [hb.len]; omega)
  obtain ⟨o, h1, h2⟩ := hlk
  refine ⟨o, h1, ?_⟩
  constructor
  · intro ho
    obtain ⟨i, rfl⟩ := Option.isSome_iff_exists.mp ho
    obtain ⟨w, hw, e⟩ := C31_sound ht h1
    exact ⟨w, List.mem_of_getElem? hw, e⟩
  · rintro ⟨w, hw, e⟩
    obtain ⟨j, rfl⟩ := h2 (hb.records.mem_iff.mpr (List.mem_map.mpr ⟨w, hw, e⟩))
    rfl

omit [LinearOrder 𝔽] [Zero 𝔽] in
/-- With the hash map, lookup finds exactly the stored records. -/
theorem C31_hmap (s : Shard R) (r : R) : ∃ o, VP.lookupMap s r = .ok o ∧ (o.isSome = true ↔ ∃ w ∈ s.data, w.record = r) ∧
    ∀ i, o = some i → ∃ w, s.data[i]? = some w ∧ w.record = r := by
  refine ⟨_, rfl, ?_, ?_⟩
  · rw [List.findIdx?_isSome]
    simp
  · intro i hi
    rw [List.findIdx?_eq_some_iff_getElem] at hi
    obtain ⟨h1, h2, -⟩ := hi
    exact ⟨s.data[i], List.getElem?_eq_getElem h1, by simpa using h2⟩

/-- C31 is false without the hash map: in *every* shard of at least `2 * leafSz + 4` distinct records, some stored record
(a vantage point other than the root's) is not found, whatever the distance and the random stream. -/
theorem C31_false {dist : R → R → 𝔽} {leafSz : Nat} {g : Rng} {data : List (Wrapped R)} (hnd : (data.map Wrapped.record).Nodup)
    (hlen : 2 * leafSz + 4 ≤ data.length) {t : VP.Tree R 𝔽} (ht : VP.tree dist leafSz g data = .ok t) :
    ∃ w ∈ data, ∀ i, VP.lookup dist w.record t.ptrs t.root ≠ .ok (some i) :=
  VP.lookup_misses ((VP.tree_built (safe := data.length ≤ g.max) data (fun h => h)).elim ht) hnd hlen

end

/-! ### k-NN on an index -/

/-- C32: on any index whose buffer is in a consistent state, whatever its layout, shards and tags, the k-NN query returns the `k`
nearest of the untagged buffer records and the shards' records, farthest first. -/
theorem C32_knn_index [AddCommGroup 𝔽] [IsOrderedAddMonoid 𝔽] {q : MaxQ R 𝔽} (hq : q.Ok) {dist : R → R → 𝔽} (hd : Metric dist)
    (leafSz : Nat) (g : Shard R → Rng) {d : Index R} (hb : d.buf.WF) (hg : ∀ s ∈ d.str.visible, s.data.length ≤ (g s).max)
    (point : R) {k : Nat} (hk : 1 ≤ k) :
    ∃ res, d.knn q dist (fun s => VP.tree dist leafSz (g s) s.data) point k = .ok res ∧
      KAnswer k (fun y => dist y point) d.knnData res :=
  (knn_good hq (safe := True) hd.symm hd.tri hk hb (fun _ => hg)).safe trivial

/-- Records held by clean entries. -/
theorem knnData_clean {d : Index R} (h : ∀ e ∈ d.entries, e.clean) : (d.knnData : Multiset R) = d.entries.map Entry.record := by
  have hf : d.buf.contents.filter (fun w => !w.isDeleted) = d.buf.contents := by
    rw [List.filter_eq_self]
    intro w hw
    have := (h w.entry (Multiset.mem_add.mpr (Or.inl (mem_ents.mpr ⟨w, hw, rfl⟩)))).2
    have : w.isDeleted = false := this
    rw [this]; rfl
  have hs : ∀ ss : List (Shard R), ((ss.map (fun s => s.data.map Wrapped.record)).flatten : Multiset R) = (sents ss).map Entry.record := by
    intro ss
    induction ss with
    | nil => rfl
    | cons s ss ih =>
      have : sents (s :: ss) = ents s.data + sents ss := rfl
      rw [this, Multiset.map_add, ← ih, List.map_cons, List.flatten_cons, ← Multiset.coe_add]
      congr 1
      simp only [ents, Multiset.map_coe, List.map_map]
      rfl
  unfold Index.knnData Index.entries
  rw [hf, ← Multiset.coe_add, hs, Multiset.map_add]
  congr 1
  simp only [ents, Multiset.map_coe, List.map_map]
  rfl

theorem CleanInv.knnData {I : ShardImpl R} {d : Index R} (h : CleanInv I d) : (d.knnData : Multiset R) = d.entries.map Entry.record :=
  knnData_clean h.entries

theorem le_natSum {x : Nat} : ∀ {l : List Nat}, x ∈ l → x ≤ l.sum
  | y :: ys, h => by
    rw [List.sum_cons]
    rcases List.mem_cons.mp h with rfl | h
    · omega
    · have := le_natSum h; omega

/-- What a k-NN query looks at after inserts only. -/
theorem inserted_knnData [DecidableEq R] [Inhabited R] [Zero 𝔽] {dist : R → R → 𝔽} {leafSz : Nat} {g0 : Rng} {L : Layout} {tag : Bool}
    {lwm hwm sf : Nat} {d0 : Index R}
    (hnew : Index.new L tag (vpImpl dist leafSz g0) lwm hwm sf = .ok d0) (hlwm : 1 ≤ lwm) (hsf : 1 ≤ sf) {ops : List (Index.Op R)}
    (hins : InsertOnly ops) (g : Shard R → Rng) (hg : ∀ s, ops.length ≤ (g s).max) :
    ∃ d, d0.run ops = .ok (d, List.replicate ops.length true) ∧ d.buf.WF ∧ d.knnData.Perm (inserted ops) ∧
      ∀ s ∈ d.str.visible, s.data.length ≤ (g s).max := by
  obtain ⟨d, h1, h2, h3, -⟩ := (new_cleanI (vpImpl_cleanOk dist leafSz g0) hnew hlwm hsf).run ops hins
  have h0 := (new_ginv hnew hlwm hsf).2.2.2.2.1
  have hp : d.knnData.Perm (inserted ops) := by
    rw [← Multiset.coe_eq_coe, h2.knnData, h3, h0]
    simp only [insEntries, zero_add, Multiset.map_coe, List.map_map]
    congr 1
    exact List.map_id'' (fun _ => rfl) _
  have hlen : ∀ ops : List (Index.Op R), (inserted ops).length ≤ ops.length := by
    intro ops
    induction ops with
    | nil => simp [inserted]
    | cons o os ih => cases o <;> simp [inserted] <;> omega
  have hsz : ∀ s ∈ d.str.visible, s.data.length ≤ (g s).max := by
    intro s hs
    have h4 : s.data.length ≤ d.knnData.length := by
      unfold Index.knnData
      rw [List.length_append, List.length_flatten]
      have : (s.data.map Wrapped.record).length ∈ (d.str.visible.map (fun s => s.data.map Wrapped.record)).map List.length :=
        List.mem_map_of_mem (List.mem_map_of_mem hs)
      have := le_natSum this
      rw [List.length_map] at this
      omega
    have := hp.length_eq
    have := hlen ops
    have := hg s
    omega
  exact ⟨d, h1, h2.inv.wf, hp, hsz⟩

/-- C32, insert-only: for any layout, buffer sizes, scale factor and inserted records, the k-NN query returns the `k` nearest
of everything inserted. -/
theorem C32_inserted [DecidableEq R] [Inhabited R] [AddCommGroup 𝔽] [IsOrderedAddMonoid 𝔽] {q : MaxQ R 𝔽} (hq : q.Ok) {dist : R → R → 𝔽}
    (hd : Metric dist) {leafSz : Nat} {g0 : Rng} {L : Layout} {tag : Bool} {lwm hwm sf : Nat} {d0 : Index R}
    (hnew : Index.new L tag (vpImpl dist leafSz g0) lwm hwm sf = .ok d0) (hlwm : 1 ≤ lwm) (hsf : 1 ≤ sf) {ops : List (Index.Op R)}
    (hins : InsertOnly ops) (g : Shard R → Rng) (hg : ∀ s, ops.length ≤ (g s).max) (point : R) {k : Nat} (hk : 1 ≤ k) :
    ∃ d res, d0.run ops = .ok (d, List.replicate ops.length true) ∧
      d.knn q dist (fun s => VP.tree dist leafSz (g s) s.data) point k = .ok res ∧ KAnswer k (fun y => dist y point) (inserted ops) res := by
  obtain ⟨d, h1, hwf, hp, hsz⟩ := inserted_knnData hnew hlwm hsf hins g hg
  obtain ⟨res, h5, h6⟩ := C32_knn_index hq hd leafSz g hwf hsz point hk
  exact ⟨d, res, h1, h5, h6.1.perm hp (List.Perm.refl _), h6.2⟩

/-! ### Erased records -/

/-- Partial C33: a record inserted once and erased (by tag) while it is still in the buffer is acknowledged as erased and never
returned by a later k-NN query, unless it is inserted again. Missing: records that have reached a shard (`C33_false`). -/
theorem C33_buffer_partial [DecidableEq R] [Inhabited R] [AddCommGroup 𝔽] [IsOrderedAddMonoid 𝔽] {q : MaxQ R 𝔽} (hq : q.Ok)
    {dist : R → R → 𝔽} (hd : Metric dist) {leafSz : Nat} {g0 : Rng} {L : Layout} {lwm hwm sf : Nat} {d0 d1 d2 d3 : Index R}
    (hnew : Index.new L true (vpImpl dist leafSz g0) lwm hwm sf = .ok d0) (hlwm : 1 ≤ lwm) {ops later : List (Index.Op R)}
    {bs bs' : List Bool} {b : Bool} {r : R} (hrun : d0.run ops = .ok (d1, bs)) (honce : insCount r ops ≤ 1)
    (hbuf : ∃ w ∈ d1.buf.contents, w.record = r) (herase : d1.erase r = .ok (d2, b)) (hlater : d2.run later = .ok (d3, bs'))
    (hno : .ins r ∉ later) (g : Shard R → Rng) (point : R) {k : Nat} (hk : 1 ≤ k) {res : List R}
    (hres : d3.knn q dist (fun s => VP.tree dist leafSz (g s) s.data) point k = .ok res) : b = true ∧ r ∉ res := by
  obtain ⟨hd0, -⟩ := new_ok hnew
  have hb0 := new_buf hnew hlwm
  have hI : d0.impl = vpImpl dist leafSz g0 := by rw [hd0]
  have ht : d0.tagging = true := by rw [hd0]
  have hl : d0.str.levels = [] := by rw [hd0]
  have he : d0.buf.contents = [] := by rw [hd0]; rfl
  obtain ⟨hb1, -, hs2, hs1, -⟩ := run_buf ops hb0 hrun
  obtain ⟨hbt, hG⟩ := erase_fresh hb1.wf (run_lok hb0 hl hrun) (hs1.trans hI) (hs2.trans ht)
    (run_fresh hb0 hI ht hl he honce hrun) hbuf herase
  refine ⟨hbt, ?_⟩
  obtain ⟨hb2, -, ht2, hI2, -⟩ := step_buf hb1 (show d1.step (.del r) = .ok (d2, b) from herase)
  obtain ⟨hG3, hb3⟩ := hG.run later hb2 (hI2.trans (hs1.trans hI)) (ht2.trans (hs2.trans ht)) hno hlater
  obtain ⟨⟨rest, hp, -⟩, -⟩ := (knn_good hq (safe := False) hd.symm hd.tri hk hb3.wf (fun h => h.elim)).elim hres
  intro hr
  exact hG3.knnData (hp.mem_iff.mpr (List.mem_append.mpr (Or.inl hr)))

/-! ### Witnesses -/

/-- A queue: the largest element by linear search. -/
def MaxQ.std : MaxQ R 𝔽
  | _, [] => none
  | f, x :: xs =>
    match MaxQ.std f xs with
    | none => some (x, xs)
    | some (m, rest) => if f m ≤ f x then some (x, xs) else some (m, x :: rest)

theorem MaxQ.std_ok : (MaxQ.std : MaxQ R 𝔽).Ok := by
  intro f l
  induction l with
  | nil => intro h; exact absurd rfl h
  | cons x xs ih =>
    intro _
    unfold MaxQ.std
    by_cases hxs : xs = []
    · subst hxs
      exact ⟨x, [], rfl, List.Perm.refl _, by simp⟩
    · obtain ⟨m, rest, h1, h2, h3⟩ := ih hxs
      rw [h1]
      simp only
      by_cases hc : f m ≤ f x
      · rw [if_pos hc]
        refine ⟨x, xs, rfl, List.Perm.refl _, ?_⟩
        intro y hy
        rcases List.mem_cons.mp hy with rfl | hy
        · exact le_refl _
        · exact (h3 y hy).trans hc
      · rw [if_neg hc]
        refine ⟨m, x :: rest, rfl, (h2.cons x).trans (List.Perm.swap m x rest), ?_⟩
        intro y hy
        rcases List.mem_cons.mp hy with rfl | hy
        · exact le_of_lt (not_le.mp hc)
        · exact h3 y hy

/-- Distance of keys. -/
def keyDist (a b : Rec) : Int := ((a.key : Int) - b.key).natAbs

theorem keyDist_metric : Metric keyDist where
  symm := fun x y => by unfold keyDist; omega
  tri := fun x y z => by unfold keyDist; omega

/-- Wrapped records with the given keys. -/
def keyed (l : List Nat) : List (Wrapped Rec) := l.map (fun k => ⟨0, ⟨k, k⟩⟩)

/-- An index over VPTree shards. -/
def vpMk (leafSz : Nat) (L : Layout) (tagging : Bool) (lwm hwm sf : Nat) : Res (Index Rec) :=
  Index.new L tagging (vpImpl keyDist leafSz (tapeRng (5 * ·))) lwm hwm sf

/-- Run a history on it. -/
def vpProbe {α : Type} (leafSz : Nat) (L : Layout) (tagging : Bool) (lwm hwm sf : Nat) (ops : List (Index.Op Rec))
    (f : Index Rec × List Bool → Res α) : Res α := do
  let d ← vpMk leafSz L tagging lwm hwm sf
  let p ← d.run ops
  f p

theorem vpProbe_ok {α : Type} {leafSz : Nat} {L : Layout} {tagging : Bool} {lwm hwm sf : Nat} {ops : List (Index.Op Rec)}
    {f : Index Rec × List Bool → Res α} {x : α} (h : vpProbe leafSz L tagging lwm hwm sf ops f = .ok x) :
    ∃ d0 d bs, vpMk leafSz L tagging lwm hwm sf = .ok d0 ∧ d0.run ops = .ok (d, bs) ∧ f (d, bs) = .ok x := by
  unfold vpProbe at h
  rw [bind_ok] at h
  obtain ⟨d0, h1, h⟩ := h
  rw [bind_ok] at h
  obtain ⟨⟨d, bs⟩, h2, h⟩ := h
  exact ⟨d0, d, bs, h1, h2, h⟩

/-- Ten records, leaf size 2: two levels of vantage points. -/
example : (keyed [3, 9, 1, 14, 7, 5, 22, 8, 30, 2]).length ≤ (tapeRng (5 * ·)).max ∧ ((keyed [3, 9, 1, 14, 7, 5, 22, 8, 30, 2]).map Wrapped.record).Nodup ∧
    2 * 2 + 4 ≤ (keyed [3, 9, 1, 14, 7, 5, 22, 8, 30, 2]).length ∧
    (VP.tree keyDist 2 (tapeRng (5 * ·)) (keyed [3, 9, 1, 14, 7, 5, 22, 8, 30, 2])).map VP.Tree.root =
      .ok (.node 0 5 (.node 1 3 (.leaf 2 2) (.leaf 3 4)) (.node 5 6 (.leaf 6 6) (.leaf 7 9))) := by decide
/-- Three nearest to 6 among them, farthest first. -/
example : (VP.tree keyDist 2 (tapeRng (5 * ·)) (keyed [3, 9, 1, 14, 7, 5, 22, 8, 30, 2]) >>= fun t =>
    knnLocal MaxQ.std keyDist t ⟨6, 0⟩ 3) = .ok [⟨8, 8⟩, ⟨7, 7⟩, ⟨5, 5⟩] := by decide
/-- A record of a leaf is found through two vantage points (`Clear` holds for it); 5 and 8 are vantage points and are missed. -/
example : (VP.tree keyDist 2 (tapeRng (5 * ·)) (keyed [3, 9, 1, 14, 7, 5, 22, 8, 30, 2]) >>= fun t =>
    [7, 22, 5, 8].mapM (fun k => VP.lookup keyDist (⟨k, k⟩ : Rec) t.ptrs t.root)) = .ok [some 4, some 6, none, none] := by decide
example : (VP.Node.node 0 5 (.node 1 3 (.leaf 2 2) (.leaf 3 4)) (.node 5 6 (.leaf 6 6) (.leaf 7 9)) : VP.Node Int).Clear keyDist
    (fun i => [⟨3, 3⟩, ⟨5, 5⟩, ⟨7, 7⟩, ⟨2, 2⟩, ⟨1, 1⟩, ⟨8, 8⟩][i]?) (⟨7, 7⟩ : Rec) := by
  simp [VP.Node.Clear, keyDist]
/-- A single leaf. -/
example : (VP.tree keyDist 2 (tapeRng (5 * ·)) (keyed [3, 9, 1]) >>= fun t =>
    [1, 3, 4].mapM (fun k => VP.lookup keyDist (⟨k, k⟩ : Rec) t.ptrs t.root)) = .ok [some 2, some 0, none] := by decide

/-- C31 is also false for records that are no vantage point: a record at exactly the radius may lie inside, but is searched
outside. -/
theorem C31_false_tie : ∃ (data : List (Wrapped Rec)) (g : Rng) (t : VP.Tree Rec Int) (w : Wrapped Rec), VP.tree keyDist 2 g data = .ok t ∧
    w ∈ data ∧ VP.lookup keyDist w.record t.ptrs t.root = .ok none := by
  have h : (VP.tree keyDist 2 (tapeRng (0 * ·)) (keyed [5, 3, 7, 9]) >>= fun t =>
    VP.lookup keyDist (⟨3, 3⟩ : Rec) t.ptrs t.root) = .ok none := by decide
  rw [bind_ok] at h
  obtain ⟨t, h1, h2⟩ := h
  exact ⟨_, _, t, ⟨0, ⟨3, 3⟩⟩, h1, by decide, h2⟩

/-- With leaf size 1 (or 0) a lookup can dereference a null child. -/
theorem C31_false_null : ∃ (data : List (Wrapped Rec)) (g : Rng) (t : VP.Tree Rec Int) (r : Rec), data.length ≤ g.max ∧
    VP.tree keyDist 1 g data = .ok t ∧ VP.lookup keyDist r t.ptrs t.root = .error .ub := by
  have h : (VP.tree keyDist 1 (tapeRng (5 * ·)) (keyed [3, 9, 1])).map (fun t => VP.lookup keyDist (⟨2, 9⟩ : Rec) t.ptrs t.root) =
    .ok (.error .ub) := by decide
  cases ht : VP.tree keyDist 1 (tapeRng (5 * ·)) (keyed [3, 9, 1]) with
  | error e => rw [ht] at h; cases h
  | ok t =>
    rw [ht] at h
    exact ⟨_, _, t, ⟨2, 9⟩, by decide, ht, Except.ok.inj h⟩

/-- A lookup in an empty shard dereferences the null root, for every tree parameter and record. -/
theorem C31_false_empty [DecidableEq R] [Zero 𝔽] (dist : R → R → 𝔽) (leafSz : Nat) (g : Rng) (r : R) :
    (VP.tree dist leafSz g [] >>= fun t => VP.lookup dist r t.ptrs t.root) = .error .ub := rfl

/-- Nine records over a buffer and two levels, tagging: the three nearest to 5. -/
example : vpProbe 8 .tiering true 2 2 2 (insSeq 1 9) (fun p => p.1.knn MaxQ.std keyDist
    (fun s => VP.tree keyDist 8 (tapeRng (5 * ·)) s.data) ⟨5, 0⟩ 3) = .ok [⟨4, 4⟩, ⟨6, 6⟩, ⟨5, 5⟩] := by decide
example : ∃ d0, vpMk 8 .tiering true 2 2 2 = .ok d0 ∧ InsertOnly (insSeq 1 9) ∧ (insSeq 1 9).length ≤ (tapeRng (5 * ·)).max :=
  ⟨_, rfl, insSeq_insertOnly _ _, by decide⟩

/-- C33 is false: record 2 has reached a shard; its erase is acknowledged and the next query returns it. -/
theorem C33_false : ∃ (d0 d : Index Rec) (q : MaxQ Rec Int) (g : Rng), q.Ok ∧ Metric keyDist ∧ vpMk 8 .tiering true 2 2 2 = .ok d0 ∧
    d0.run [.ins ⟨1, 1⟩, .ins ⟨2, 2⟩, .ins ⟨3, 3⟩, .del ⟨2, 2⟩] = .ok (d, [true, true, true, true]) ∧
    d.knn q keyDist (fun s => VP.tree keyDist 8 g s.data) ⟨2, 0⟩ 1 = .ok [⟨2, 2⟩] := by
  have h : vpProbe 8 .tiering true 2 2 2 [.ins ⟨1, 1⟩, .ins ⟨2, 2⟩, .ins ⟨3, 3⟩, .del ⟨2, 2⟩] (fun p =>
      if p.2 = [true, true, true, true] then p.1.knn MaxQ.std keyDist (fun s => VP.tree keyDist 8 (tapeRng (5 * ·)) s.data) ⟨2, 0⟩ 1
      else .error .abort) = .ok [⟨2, 2⟩] := by decide
  obtain ⟨d0, d, bs, h1, h2, h3⟩ := vpProbe_ok h
  by_cases hbs : bs = [true, true, true, true]
  · rw [if_pos hbs] at h3
    subst hbs
    exact ⟨d0, d, MaxQ.std, _, MaxQ.std_ok, keyDist_metric, h1, h2, h3⟩
  · rw [if_neg hbs] at h3; cases h3

/-- The hypotheses of `C33_buffer_partial` are met: record 5 is in the buffer when it is erased, three shards follow. -/
example : vpProbe 8 .tiering true 2 2 2 (insSeq 1 5) (fun p => do
    let (d2, b) ← p.1.erase ⟨5, 5⟩
    let (d3, _) ← d2.run (insSeq 6 5)
    let res ← d3.knn MaxQ.std keyDist (fun s => VP.tree keyDist 8 (tapeRng (5 * ·)) s.data) ⟨5, 0⟩ 3
    .ok (p.1.buf.contents.map Wrapped.record, b, res)) = .ok ([⟨5, 5⟩], true, [⟨7, 7⟩, ⟨4, 4⟩, ⟨6, 6⟩]) := by decide

end DE
