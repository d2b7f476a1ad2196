import Verif.Proofs.PointLookup
import Verif.Proofs.CycleQuery
import Verif.Proofs.SegTotal

/-!
Point lookups when every level holds one shard: the shards are asked from the newest to the oldest.
-/

namespace DE
variable {R K : Type} [LinearOrder R] [LinearOrder K] [HasKey R K]

omit [LinearOrder R] in
/-- With at most one shard per level the query order is the reverse of the chronological order. -/
theorem visible_chron {st : Struct R} (h : ∀ ss ∈ st.abs, ss.length ≤ 1) : st.visible = (chron st.abs).reverse := by
  rw [visible_abs]
  unfold chron
  generalize st.abs = A at h
  induction A with
  | nil => rfl
  | cons a A ih =>
    rw [List.flatten_cons, List.reverse_cons, List.flatten_append, List.reverse_append, ih (fun s hs => h s (by simp [hs]))]
    congr 1
    have := h a (by simp)
    match a, this with
    | [], _ => rfl
    | [x], _ => rfl

omit [LinearOrder R] in
theorem GInv_single {d : Index R} (h : d.GInv) (hL : d.L ≠ .tiering) : ∀ ss ∈ d.str.abs, ss.length ≤ 1 := by
  rcases h with h | h
  · refine h.str.single ?_
    have := h.lay
    cases hl : d.L <;> simp_all
  · intro ss hss
    simp only [Struct.abs, List.mem_map] at hss
    obtain ⟨l, hl, rfl⟩ := hss
    obtain ⟨i, hi, rfl⟩ := List.mem_iff_getElem.mp hl
    obtain ⟨s, hs⟩ := getElem?_of_lt (l := d.str.state) (i := i) (by rw [← h.str.len]; exact hi)
    exact (h.str.lvl i _ s (List.getElem?_eq_getElem hi) hs).le

/-- The answer of the shards comes from the first one that holds the key. -/
theorem plShards_first {f : Shard R → K → Res (Option Nat)} (hf : ExactKeyLookup f) (k : K) : ∀ (ss : List (Shard R)),
    (∃ w a s b, ss = a ++ s :: b ∧ plShards f k ss = .ok [w] ∧ key w.record = k ∧ w ∈ s.data ∧
      ∀ s' ∈ a, ∀ w ∈ s'.data, key w.record ≠ k) ∨
    (plShards f k ss = .ok [] ∧ ∀ s ∈ ss, ∀ w ∈ s.data, key w.record ≠ k)
  | [] => Or.inr ⟨rfl, by simp⟩
  | s :: ss => by
    rw [plShards]
    rcases hf s k with ⟨i, w, h1, h2, h3⟩ | ⟨h1, h2⟩
    · left
      refine ⟨w, [], s, ss, rfl, ?_, h3, mem_of_getElem? h2, by simp⟩
      unfold plLocal getR
      simp only [h1, h2, bind, Except.bind]
    · have e : plLocal f s k = .ok [] := by
        unfold plLocal; simp only [h1, bind, Except.bind]
      rw [e]
      simp only [bind, Except.bind]
      rcases plShards_first hf k ss with ⟨w, a, s', b, g1, g2, g3, g4, g5⟩ | ⟨g1, g2⟩
      · refine Or.inl ⟨w, s :: a, s', b, by rw [g1]; rfl, g2, g3, g4, ?_⟩
        intro s'' hs''
        rcases List.mem_cons.mp hs'' with rfl | hs''
        · exact h2
        · exact g5 s'' hs''
      · refine Or.inr ⟨g1, ?_⟩
        intro s' hs'
        rcases List.mem_cons.mp hs' with rfl | hs'
        · exact h2
        · exact g2 s' hs'

/-- A shard with at most one entry of `r` that holds a live one holds no tombstone, and conversely. -/
theorem one_live {r : R} {s : Shard R} (h : One r s.data) {w : Wrapped R} (hw : w ∈ s.data) (hr : w.record = r) :
    liveCount r (ents s.data) = (if w.isTombstone then 0 else 1) ∧ tombCount r (ents s.data) = (if w.isTombstone then 1 else 0) := by
  have h2 := h.2
  rw [ofRec_counts] at h2
  cases ht : w.isTombstone with
  | true =>
    have : 0 < tombCount r (ents s.data) := Multiset.countP_pos.mpr ⟨w.entry, mem_ents.mpr ⟨w, hw, rfl⟩, hr, ht⟩
    simp; omega
  | false =>
    have : 0 < liveCount r (ents s.data) := Multiset.countP_pos.mpr ⟨w.entry, mem_ents.mpr ⟨w, hw, rfl⟩, hr, ht⟩
    simp; omega

/-- A live entry is never in a shard older than the tombstone's, for a record with one insert/erase cycle. -/
theorem cycle_newer {lwm : Nat} {r : R} {ops t : List (Index.Op R)} (hc : SingleCycle r ops) {a b : List (Shard R)} {s s2 : Shard R}
    {bs : List (List (Index.Op R))} (hb : bs.flatten ++ t = ops) (h : List.Forall₂ (Holds lwm) (b ++ s :: a) bs)
    (hs2 : s2 ∈ b) (hl : tombCount r (ents s.data) < liveCount r (ents s.data))
    (ht : liveCount r (ents s2.data) < tombCount r (ents s2.data)) : False := by
  obtain ⟨b1, b2, rfl, g1, g2⟩ := forall₂_split h
  obtain ⟨p, q, rfl⟩ := List.append_of_mem hs2
  obtain ⟨p1, p2, rfl, f1, f2⟩ := forall₂_split g1
  cases g2 with
  | @cons _ blk _ rest e1 _ =>
  cases f2 with
  | @cons _ blk2 _ rest2 e2 _ =>
  have n1 := e1.2.2.2 r
  have n2 := e2.2.2.2 r
  have hpre := hc.2 ((p1 ++ blk2 :: rest2).flatten) ⟨blk ++ rest.flatten ++ t, by rw [← hb]; simp⟩
  have hone := hc.1
  rw [← hb] at hone
  simp only [List.flatten_append, List.flatten_cons, insCount_append, delCount_append] at hone hpre
  omega

end DE
