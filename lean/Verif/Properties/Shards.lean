import Verif.Model.Louds
import Verif.Properties.FSTrie
import Verif.Proofs.InsertOnly

/-!
C102: shards made and merged directly, without an index, in particular the string tries (FSTrie.h, LoudsPatricia.h).
-/

namespace DE
variable {R S : Type} [LinearOrder R] [LinearOrder S] [HasKey R S]

omit [LinearOrder R] in
/-- Shards made without an index: from views of buffers, and by merging other shards, in any way and any number of times.
`Made I s l`: the shard `s` was made, the records of the views that went into it are `l`. -/
inductive Made (I : ShardImpl R) : Shard R → List (Wrapped R) → Prop
  | build (v : View R) (l : List (Wrapped R)) (s : Shard R) (hv : v.Reads l) (h : I.build v = .ok s) : Made I s l
  | merge (xs : List (Shard R × List (Wrapped R))) (s : Shard R) (h : ∀ x ∈ xs, Made I x.1 x.2)
      (hm : I.merge (xs.map (fun x => some x.1)) = .ok s) : Made I s (xs.flatMap (·.2))

omit [LinearOrder R] in
theorem reduces_sents {drop : Entry R → Prop} : ∀ (xs : List (Shard R × List (Wrapped R))),
    (∀ x ∈ xs, Reduces drop (ents x.2) (ents x.1.data)) → Reduces drop (ents (xs.flatMap (·.2))) (sents (xs.map (·.1)))
  | [], _ => Reduces.of_eq rfl
  | x :: xs, h => by
    have e1 : ents ((x :: xs).flatMap (·.2)) = ents x.2 + ents (xs.flatMap (·.2)) := by
      rw [List.flatMap_cons, ents_append]
    have e2 : sents ((x :: xs).map (·.1)) = ents x.1.data + sents (xs.map (·.1)) := by simp [sents]
    rw [e1, e2]
    exact (h x (by simp)).add (reduces_sents xs (fun y hy => h y (by simp [hy])))

omit [LinearOrder R] in
theorem Made.reduces {I : ShardImpl R} (hI : I.Conserving) {s : Shard R} {l : List (Wrapped R)} (h : Made I s l) :
    Reduces (fun e => e.del = true) (ents l) (ents s.data) := by
  induction h with
  | build v l s hv h => exact hI.build v l s hv h
  | merge xs s h hm ih =>
    refine (reduces_sents xs ih).trans (hI.merge _ s ?_)
    rw [List.map_map]
    exact hm

omit [LinearOrder R] in
theorem Made.closed [Inhabited R] {I : ShardImpl R} {Q : Shard R → Prop} (hI : ∀ v, Closed I v Q) {s : Shard R}
    {l : List (Wrapped R)} (h : Made I s l) : Q s := by
  induction h with
  | build v l s hv h => exact (hI v).build s h
  | merge xs s h hm ih =>
    refine (hI ⟨fun _ => ⟨0, default⟩, 0, 0, 0, 0⟩).merge _ s ?_ hm
    intro x hx
    obtain ⟨y, hy, e⟩ := List.mem_map.mp hx
    cases e
    exact ih y hy

/-- `LoudsPatricia` makes the shards `FSTrie` makes. -/
theorem Made.louds {pq : PQ R} {t : Trie S} {u : S → Res (Option Nat)} {lit : R → Bool} {s : Shard R} {l : List (Wrapped R)}
    (h : Made (loudsImpl pq t u lit) s l) : Made (fstImpl pq t lit) s l := by
  induction h with
  | build v l s hv h => exact .build v l s hv h
  | merge xs s h hm ih => exact .merge xs s ih hm

/-- The list of keys added to the trie. -/
theorem loudsOf_eq (data : List (Wrapped R)) : (loudsOf data : Louds S) = ⟨trieKeys data, !data.isEmpty⟩ := by
  have h : ∀ (data : List (Wrapped R)) (x : Louds S),
      data.foldl (fun x w => x.add (key w.record)) x = ⟨x.keys ++ trieKeys data, x.built⟩ := by
    intro data
    induction data with
    | nil => intro x; simp [trieKeys]
    | cons w l ih => intro x; rw [List.foldl_cons, ih]; simp [Louds.add, trieKeys]
  unfold loudsOf
  simp only [h]
  cases data <;> simp

/-- On a shard with records, `LoudsPatricia` asks its trie what `FSTrie` asks. -/
theorem loudsLookup_eq {t : Trie S} {u : S → Res (Option Nat)} {s : Shard R} (hs : s.data ≠ []) (k : S) :
    loudsLookup t u s k = fstLookup t s k := by
  have : s.data.isEmpty = false := by simpa using hs
  simp [loudsLookup, loudsOf_eq, Louds.lookup, fstLookup, this]

/-- What the user of a trie relies on: the shard has the records that went in, once each and in order of their keys, and
`point_lookup` answers with the position of the record with that key exactly if there is one. -/
def TrieOk (lookup : Shard R → S → Res (Option Nat)) (s : Shard R) (l : List (Wrapped R)) : Prop :=
  ents s.data = ents l ∧ (s.data.map (fun w => key (K := S) w.record)).Pairwise (· < ·) ∧
  ∀ k : S, (∃ i w, lookup s k = .ok (some i) ∧ s.data[i]? = some w ∧ key w.record = k) ∨
    (lookup s k = .ok none ∧ ∀ w ∈ l, key w.record ≠ k)

omit [LinearOrder R] in
theorem clean_ents {l : List (Wrapped R)} (hl : ∀ w ∈ l, w.isTombstone = false ∧ w.isDeleted = false) :
    ∀ e ∈ ents l, e.clean := by
  intro e he
  unfold ents at he
  rw [Multiset.mem_coe, List.mem_map] at he
  obtain ⟨w, hw, rfl⟩ := he
  exact hl w hw

/-- C102 for `FSTrie`: at least one record, no erased records, different keys, none of them the literal `""`. -/
theorem C102_partial [Inhabited R] {pq : PQ R} (hpq : pq.ByRec) {t : Trie S} (ht : t.Exact) {lit : R → Bool} (hlit : NoLit lit)
    {s : Shard R} {l : List (Wrapped R)} (h : Made (fstImpl pq t lit) s l) (hne : l ≠ [])
    (hl : ∀ w ∈ l, w.isTombstone = false ∧ w.isDeleted = false) (hnd : (l.map (fun w => key (K := S) w.record)).Nodup) :
    TrieOk (fstLookup t) s l := by
  have h1 : ents l = ents s.data := (h.reduces (fstImpl_conserving pq t hlit)).clean (clean_ents hl)
  have h2 : RecSorted s.data := h.closed (fun v => fstImpl_closed_sorted hpq t lit)
  have hp : (l.map Wrapped.entry).Perm (s.data.map Wrapped.entry) := by
    unfold ents at h1
    exact Multiset.coe_eq_coe.mp h1
  have h3 : (trieKeys s.data : List S).Nodup := by
    have := hp.map (fun e : Entry R => key (K := S) e.record)
    rw [List.map_map, List.map_map] at this
    exact this.nodup_iff.mp hnd
  have h4 := keys_strict h2 h3
  have h5 : s.data ≠ [] := by
    intro e
    rw [e] at h1
    exact hne (ents_eq_zero.mp h1)
  refine ⟨h1.symm, h4, fun k => ?_⟩
  rcases fstLookup_exact ht h5 h4 k with h6 | ⟨h6, h7⟩
  · exact Or.inl h6
  · refine Or.inr ⟨h6, fun w hw e => ?_⟩
    have := hp.mem_iff.mp (List.mem_map.mpr ⟨w, hw, rfl⟩)
    obtain ⟨w', hw', e'⟩ := List.mem_map.mp this
    have e'' : w'.record = w.record := congrArg Entry.record e'
    exact h7 w' hw' (by rw [e'']; exact e)

/-- C102 for `LoudsPatricia`, whatever its trie does before `build`. -/
theorem C102_louds_partial [Inhabited R] {pq : PQ R} (hpq : pq.ByRec) {t : Trie S} (ht : t.Exact) {u : S → Res (Option Nat)}
    {lit : R → Bool} (hlit : NoLit lit) {s : Shard R} {l : List (Wrapped R)} (h : Made (loudsImpl pq t u lit) s l) (hne : l ≠ [])
    (hl : ∀ w ∈ l, w.isTombstone = false ∧ w.isDeleted = false) (hnd : (l.map (fun w => key (K := S) w.record)).Nodup) :
    TrieOk (loudsLookup t u) s l := by
  obtain ⟨h1, h2, h3⟩ := C102_partial hpq ht hlit h.louds hne hl hnd
  refine ⟨h1, h2, fun k => ?_⟩
  rw [loudsLookup_eq (fun e => ?_)]
  · exact h3 k
  · rw [e] at h1
    exact hne (ents_eq_zero.mp h1.symm)

/-- C102, no operation fails: any non-empty view makes a trie, and so do any shards that were made from records without erases. -/
theorem C102_defined_partial {pq : PQ R} {t : Trie S} {u : S → Res (Option Nat)} {lit : R → Bool} (hlit : NoLit lit) :
    (∀ (v : View R) l, v.Reads l → ∃ s, Made (loudsImpl pq t u lit) s l) ∧
    ∀ xs : List (Shard R × List (Wrapped R)), (∀ x ∈ xs, Made (loudsImpl pq t u lit) x.1 x.2) →
      (∀ x ∈ xs, x.2 ≠ [] ∧ ∀ w ∈ x.2, w.isTombstone = false ∧ w.isDeleted = false) →
      ∃ s, Made (loudsImpl pq t u lit) s (xs.flatMap (·.2)) := by
  constructor
  · intro v l hv
    exact ⟨_, .build v l _ hv (by simp only [loudsImpl, loudsBuild, hv.2.1, bind, Except.bind]; rfl)⟩
  · intro xs h1 h2
    refine ⟨_, .merge xs _ h1 (by
      simp only [loudsImpl, loudsMerge]
      rw [if_pos]
      rw [List.all_eq_true]
      intro o ho
      obtain ⟨x, hx, rfl⟩ := List.mem_map.mp ho
      have h3 := ((h1 x hx).louds.reduces (fstImpl_conserving pq t hlit)).clean (clean_ents (h2 x hx).2)
      have : x.1.data ≠ [] := by
        intro e
        rw [e] at h3
        exact (h2 x hx).1 (ents_eq_zero.mp h3)
      simpa using this)⟩

omit [LinearOrder S] [HasKey R S] in
/-- C102 for any class that keeps records, with erases through tombstones: nothing is in the shard that did not go in, and the
number of live copies of every record less its tombstones is that of what went in. -/
theorem C102_net_partial {I : ShardImpl R} (hI : I.Conserving) {s : Shard R} {l : List (Wrapped R)} (h : Made I s l)
    (hl : ∀ w ∈ l, w.isDeleted = false) (r : R) :
    ents s.data ≤ ents l ∧
    liveCount r (ents l) + tombCount r (ents s.data) = liveCount r (ents s.data) + tombCount r (ents l) := by
  have h1 := h.reduces hI
  refine ⟨h1.le, h1.net r ?_⟩
  intro e he
  unfold ents at he
  rw [Multiset.mem_coe, List.mem_map] at he
  obtain ⟨w, hw, rfl⟩ := he
  show ¬ w.isDeleted = true
  rw [hl w hw]
  exact Bool.false_ne_true

/-! ### Concrete shards -/

/-- The view of a buffer with these appended. -/
def viewOf (l : List (Wrapped Rec)) : View Rec := ⟨fun i => l.getD i ⟨0, ⟨0, 0⟩⟩, l.length + 1, 0, l.length, 0⟩

/-- A stored record as `append` leaves it: a timestamp, the visible bit. -/
def live (r : Rec) : Wrapped Rec := ⟨4, r⟩

/-- The tombstone of a record. -/
def dead (r : Rec) : Wrapped Rec := ⟨5, r⟩

/-- The class with a scanning trie that reports a missing `build`. -/
def loudsScan (lit : Rec → Bool) : ShardImpl Rec := loudsImpl PQ.std (Trie.scan (S := Nat)) (fun _ => .error .ub) lit

/-- Non-vacuous: two shards made from buffers and one from both meet the hypotheses of `C102_louds_partial`. -/
example : ∃ s, Made (loudsScan noLit) s ([live ⟨7, 1⟩, live ⟨2, 2⟩] ++ [live ⟨5, 3⟩]) ∧
    s.data.map (fun w => (w.record.key, w.record.value)) = [(2, 2), (5, 3), (7, 1)] ∧
    loudsLookup (Trie.scan (S := Nat)) (fun _ => .error .ub) s 5 = .ok (some 1) ∧
    ([live ⟨7, 1⟩, live ⟨2, 2⟩] ++ [live ⟨5, 3⟩]).all (fun w => !w.isTombstone && !w.isDeleted) = true := by
  refine ⟨⟨[live ⟨2, 2⟩, live ⟨5, 3⟩, live ⟨7, 1⟩], 0⟩,
    .merge [(⟨[live ⟨2, 2⟩, live ⟨7, 1⟩], 0⟩, [live ⟨7, 1⟩, live ⟨2, 2⟩]), (⟨[live ⟨5, 3⟩], 0⟩, [live ⟨5, 3⟩])] _ ?_ (by decide),
    by decide, by decide, by decide⟩
  intro x hx
  simp only [List.mem_cons, List.not_mem_nil, or_false] at hx
  rcases hx with rfl | rfl
  · exact .build (viewOf [live ⟨7, 1⟩, live ⟨2, 2⟩]) _ _ ⟨by decide, by decide, by decide⟩ (by decide)
  · exact .build (viewOf [live ⟨5, 3⟩]) _ _ ⟨by decide, by decide, by decide⟩ (by decide)

/-- C102 is false for a key that is the literal `""`: the record is not in the shard. -/
theorem C102_false_literal : ∃ s, Made (loudsScan (fun r => decide (r.value = 99))) s [live ⟨0, 99⟩, live ⟨1, 1⟩] ∧
    s.data.map (·.record) = [⟨1, 1⟩] ∧
    loudsLookup (Trie.scan (S := Nat)) (fun _ => .error .ub) s 0 = .ok none :=
  ⟨⟨[live ⟨1, 1⟩], 0⟩, .build (viewOf [live ⟨0, 99⟩, live ⟨1, 1⟩]) _ _ ⟨by decide, by decide, by decide⟩ (by decide),
    by decide, by decide⟩

/-- C102 is false with erases: a record erased within one buffer stays next to its tombstone, and `point_lookup` finds the
erased record with a trie that meets its contract. -/
theorem C102_false_erased : ∃ s, Made (loudsScan noLit) s [live ⟨7, 1⟩, dead ⟨7, 1⟩] ∧
    s.data.map (fun w => w.record.key) = [7, 7] ∧
    loudsLookup (Trie.scan (S := Nat)) (fun _ => .error .ub) s 7 = .ok (some 0) ∧
    s.data[0]?.map (·.isTombstone) = some false :=
  ⟨⟨[live ⟨7, 1⟩, dead ⟨7, 1⟩], 0⟩, .build (viewOf [live ⟨7, 1⟩, dead ⟨7, 1⟩]) _ _ ⟨by decide, by decide, by decide⟩ (by decide),
    by decide, by decide, by decide⟩

/-- C102 is false when everything cancels: the shard is empty, its trie was not built, and merging it reads past its end. -/
theorem C102_false_empty : ∃ s, Made (loudsScan noLit) s ([live ⟨7, 1⟩] ++ [dead ⟨7, 1⟩]) ∧ s.data = [] ∧
    (∀ u : Nat → Res (Option Nat), loudsLookup (Trie.scan (S := Nat)) u s 7 = u 7) ∧
    (loudsScan noLit).merge [some s] = .error .ub := by
  refine ⟨⟨[], 0⟩, .merge [(⟨[live ⟨7, 1⟩], 0⟩, [live ⟨7, 1⟩]), (⟨[dead ⟨7, 1⟩], 0⟩, [dead ⟨7, 1⟩])] _ ?_ (by decide),
    rfl, fun u => rfl, by decide⟩
  intro x hx
  simp only [List.mem_cons, List.not_mem_nil, or_false] at hx
  rcases hx with rfl | rfl
  · exact .build (viewOf [live ⟨7, 1⟩]) _ _ ⟨by decide, by decide, by decide⟩ (by decide)
  · exact .build (viewOf [dead ⟨7, 1⟩]) _ _ ⟨by decide, by decide, by decide⟩ (by decide)

end DE
