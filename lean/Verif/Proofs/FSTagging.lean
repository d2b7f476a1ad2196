import Verif.SpecDict
import Verif.Proofs.FSTrie
import Verif.Proofs.SegTotal
import Verif.Proofs.Cycle

/-! Tagging erases on an index of tries. -/

namespace DE
variable {R S P : Type} [LinearOrder R] [LinearOrder S] [HasKey R S]

theorem OneSpelling.pre {ops p : List (Index.Op R)} (h : OneSpelling S ops) (hp : p <+: ops) : OneSpelling S p where
  same := fun r x hr hx => h.same r x (hr.imp (hp.subset ·) (hp.subset ·)) (hx.imp (hp.subset ·) (hp.subset ·))
  once := fun r => le_trans (hp.sublist.count_le _) (h.once r)
  order := fun q r hq => h.order q r (hq.trans hp)

theorem OneSpelling.fresh {ops : List (Index.Op R)} {r : R} (h : OneSpelling S (ops ++ [.ins r])) :
    .ins r ∉ ops ∧ .del r ∉ ops := by
  refine ⟨fun hm => ?_, h.order ops r (List.prefix_refl _)⟩
  have := h.once r
  unfold insCount at this
  rw [List.count_append] at this
  have h1 := List.count_pos_iff.mpr hm
  simp at this
  omega

/-- What is stored after a history. -/
structure TagHist (ops : List (Index.Op R)) (a : Multiset (Entry R)) : Prop where
  ok : ∀ e ∈ a, e.tomb = false ∧ .ins e.record ∈ ops ∧ (e.del = true ↔ .del e.record ∈ ops)
  live : ∀ r, .ins r ∈ ops → .del r ∉ ops → ⟨r, false, false⟩ ∈ a
  nodup : (a.map Entry.record).Nodup

omit [LinearOrder R] in
theorem TagHist.ins {ops : List (Index.Op R)} {a m : Multiset (Entry R)} {r : R} (h : TagHist ops a)
    (hm : Reduces (fun e => e.del = true) a m) (h1 : .ins r ∉ ops) (h2 : .del r ∉ ops) :
    TagHist (ops ++ [.ins r]) (m + {⟨r, false, false⟩}) := by
  obtain ⟨dr, rfl, hdr⟩ := hm.no_tomb (fun e he => (h.ok e he).1)
  refine ⟨?_, ?_, ?_⟩
  · intro e he
    rcases Multiset.mem_add.mp he with he | he
    · obtain ⟨g1, g2, g3⟩ := h.ok e (Multiset.mem_add.mpr (Or.inl he))
      exact ⟨g1, by simp [g2], by rw [g3]; simp⟩
    · rw [Multiset.mem_singleton] at he
      subst he
      exact ⟨rfl, by simp, by simp [h2]⟩
  · intro x hx hd
    by_cases hxr : x = r
    · subst hxr; simp
    · have hx' : .ins x ∈ ops := by simpa [hxr] using hx
      have hd' : .del x ∉ ops := by simpa using hd
      rcases Multiset.mem_add.mp (h.live x hx' hd') with hh | hh
      · exact Multiset.mem_add.mpr (Or.inl hh)
      · have := hdr _ hh
        simp at this
  · rw [Multiset.map_add, Multiset.map_singleton, add_comm, Multiset.singleton_add, Multiset.nodup_cons]
    refine ⟨?_, ?_⟩
    · intro hh
      obtain ⟨e, he, rfl⟩ := Multiset.mem_map.mp hh
      exact h1 (h.ok e (Multiset.mem_add.mpr (Or.inl he))).2.1
    · exact Multiset.nodup_of_le (Multiset.map_le_map (Multiset.le_add_right _ _)) h.nodup

omit [LinearOrder R] in
theorem TagHist.del_none {ops : List (Index.Op R)} {a : Multiset (Entry R)} {r : R} (h : TagHist ops a)
    (hno : ¬ ∃ e ∈ a, e.record = r) : TagHist (ops ++ [.del r]) a := by
  refine ⟨?_, ?_, h.nodup⟩
  · intro e he
    obtain ⟨g1, g2, g3⟩ := h.ok e he
    have : e.record ≠ r := fun hh => hno ⟨e, he, hh⟩
    exact ⟨g1, by simp [g2], by rw [g3]; simp [this]⟩
  · intro x hx hd
    simp at hx hd
    exact h.live x hx hd.1

omit [LinearOrder R] in
theorem TagHist.del_tag {ops : List (Index.Op R)} {a a' : Multiset (Entry R)} {r : R} (h : TagHist ops a)
    (ht : Tags r a a') : TagHist (ops ++ [.del r]) a' := by
  obtain ⟨rest, t, dl, rfl, rfl⟩ := ht
  have hnd := h.nodup
  rw [Multiset.map_add, Multiset.map_singleton, add_comm, Multiset.singleton_add, Multiset.nodup_cons] at hnd
  have hne : ∀ e ∈ rest, e.record ≠ r := fun e he hh => hnd.1 (Multiset.mem_map.mpr ⟨e, he, hh⟩)
  refine ⟨?_, ?_, ?_⟩
  · intro e he
    rcases Multiset.mem_add.mp he with he | he
    · obtain ⟨g1, g2, g3⟩ := h.ok e (Multiset.mem_add.mpr (Or.inl he))
      exact ⟨g1, by simp [g2], by rw [g3]; simp [hne e he]⟩
    · rw [Multiset.mem_singleton] at he
      subst he
      obtain ⟨g1, g2, -⟩ := h.ok ⟨r, t, dl⟩ (by simp)
      exact ⟨g1, by simpa using g2, by simp⟩
  · intro x hx hd
    simp at hx hd
    rcases Multiset.mem_add.mp (h.live x hx hd.1) with hh | hh
    · exact Multiset.mem_add.mpr (Or.inl hh)
    · rw [Multiset.mem_singleton] at hh
      exact absurd (congrArg Entry.record hh) hd.2
  · rw [Multiset.map_add, Multiset.map_singleton, add_comm, Multiset.singleton_add, Multiset.nodup_cons]
    exact hnd

/-- State of a tagging index of tries after a history. -/
structure FT (pq : PQ R) (t : Trie S) (lit : R → Bool) (ops : List (Index.Op R)) (d : Index R) : Prop where
  inv : d.GInv
  impl : d.impl = fstImpl pq t lit
  tag : d.tagging = true
  lok : SOk d.str
  srt : SAll (fun s => RecSorted s.data) d.str
  ent : TagHist ops d.entries

variable {pq : PQ R} {t : Trie S} {lit : R → Bool} {ops : List (Index.Op R)} {d d' : Index R}

theorem FT.strict (h : FT pq t lit ops d) (hh : OneSpelling S ops) {s : Shard R} (hs : s ∈ d.str.visible) :
    (trieKeys s.data : List S).Pairwise (· < ·) := by
  refine keys_strict (h.srt.visible s hs) (shard_keys_nodup hs ?_)
  have : d.entries.map (fun e => key (K := S) e.record) = (d.entries.map Entry.record).map key := by
    rw [Multiset.map_map]; rfl
  rw [this]
  refine Multiset.Nodup.map_on ?_ h.ent.nodup
  intro x hx y hy hk
  obtain ⟨e, he, rfl⟩ := Multiset.mem_map.mp hx
  obtain ⟨e', he', rfl⟩ := Multiset.mem_map.mp hy
  exact hh.same _ _ (Or.inl (h.ent.ok e he).2.1) (Or.inl (h.ent.ok e' he').2.1) hk

/-- The trie of a shard with records finds an inserted or erased record exactly if it is there. -/
theorem FT.exact (h : FT pq t lit ops d) (hh : OneSpelling S ops) (ht : t.Exact) {s : Shard R} (hs : s ∈ d.str.visible)
    (hne : s.data ≠ []) {r : R} (hr : ∀ x, .ins x ∈ ops → key (K := S) x = key r → x = r) :
    (∃ j w, d.impl.lookup s r = .ok (some j) ∧ s.data[j]? = some w ∧ w.record = r) ∨
    (d.impl.lookup s r = .ok none ∧ ∀ w ∈ s.data, w.record ≠ r) := by
  rw [h.impl]
  rcases fstLookup_exact ht hne (h.strict hh hs) (key r) with ⟨i, w, g1, g2, g3⟩ | ⟨g1, g2⟩
  · left
    refine ⟨i, w, g1, g2, hr _ ?_ g3⟩
    exact (h.ent.ok w.entry (mem_entries.mpr (Or.inr ⟨s, hs, w, mem_of_getElem? g2, rfl⟩))).2.1
  · right
    exact ⟨g1, fun w hw hwr => g2 w hw (by rw [hwr])⟩

theorem FT.lookup_empty (h : FT pq t lit ops d) {s : Shard R} (hne : s.data = []) (r : R) :
    d.impl.lookup s r = .error .ub := by
  rw [h.impl]
  show fstLookup t s (key r) = _
  unfold fstLookup
  rw [hne]; rfl

theorem FT.sound (h : FT pq t lit ops d) (hh : OneSpelling S ops) (ht : t.Exact) {r : R}
    (hr : ∀ x, .ins x ∈ ops → key (K := S) x = key r → x = r) : ∀ s ∈ d.str.visible, ∀ j,
    d.impl.lookup s r = .ok (some j) → ∃ w, s.data[j]? = some w ∧ w.record = r := by
  intro s hs j hj
  by_cases hne : s.data = []
  · rw [h.lookup_empty hne] at hj; cases hj
  · rcases h.exact hh ht hs hne hr with ⟨i, w, g1, g2, g3⟩ | ⟨g1, -⟩
    · rw [g1] at hj; cases hj; exact ⟨w, g2, g3⟩
    · rw [g1] at hj; cases hj

theorem FT.complete (h : FT pq t lit ops d) (hh : OneSpelling S ops) (ht : t.Exact) {r : R}
    (hr : ∀ x, .ins x ∈ ops → key (K := S) x = key r → x = r) : ∀ s ∈ d.str.visible,
    d.impl.lookup s r = .ok none → ∀ w ∈ s.data, w.record ≠ r := by
  intro s hs hj
  by_cases hne : s.data = []
  · rw [h.lookup_empty hne] at hj; cases hj
  · rcases h.exact hh ht hs hne hr with ⟨i, w, g1, g2, g3⟩ | ⟨-, g1⟩
    · rw [g1] at hj; cases hj
    · exact g1

theorem OneSpelling.del {r : R} (h : OneSpelling S (ops ++ [.del r])) :
    ∀ x, .ins x ∈ ops → key (K := S) x = key r → x = r :=
  fun x hx hk => h.same x r (Or.inl (by simp [hx])) (Or.inr (by simp)) hk

/-- One operation: the shards it leaves, and its effect on what is stored. -/
theorem FT.facts (h : FT pq t lit ops d) (hlit : NoLit lit) (ht : t.Exact) {o : Index.Op R} {b : Bool}
    (hh : OneSpelling S (ops ++ [o])) (hs : d.step o = .ok (d', b)) : StepFacts d o b d' := by
  refine gstep_on h.inv (by rw [h.impl]; exact fstImpl_conserving pq t hlit) ?_ hs
  rintro r rfl
  exact h.sound (hh.pre (List.prefix_append _ _)) ht hh.del

theorem FT.step (h : FT pq t lit ops d) (hpq : pq.ByRec) (hlit : NoLit lit) (ht : t.Exact) {o : Index.Op R} {b : Bool}
    (hh : OneSpelling S (ops ++ [o])) (hs : d.step o = .ok (d', b)) (hG : d.L ≠ .bsm ∨ d'.L0NonEmpty) :
    FT pq t lit (ops ++ [o]) d' := by
  have F := h.facts hlit ht hh hs
  have hh' : OneSpelling S ops := hh.pre (List.prefix_append _ _)
  refine ⟨?_, F.impl.trans h.impl, F.tagging.trans h.tag, step_lok h.lok hs, ?_, ?_⟩
  · rcases F.inv with h1 | ⟨h1, h2⟩
    · exact h1
    · rcases hG with hG | hG
      · exact absurd h1 hG
      · exact absurd hG h2
  · refine step_all (h.impl ▸ fstImpl_closed_sorted hpq t lit) ?_ h.srt hs
    intro r _ _ s j h _
    exact tag_recSorted h
  · have he := F.eff
    unfold StepEff at he
    cases o with
    | ins r =>
      obtain ⟨-, m, hm, e⟩ := he
      rw [e]
      exact h.ent.ins hm hh.fresh.1 hh.fresh.2
    | del r =>
      have hT := erase_tagging_on h.inv.wf h.lok (h.sound hh' ht hh.del) (h.complete hh' ht hh.del) h.tag hs
      by_cases hex : ∃ e ∈ d.entries, e.record = r
      · exact h.ent.del_tag (hT.1 hex).2
      · rw [(hT.2 hex).1]
        exact h.ent.del_none hex

/-- The first erase of an inserted record returns 1. -/
theorem FT.erase_true (h : FT pq t lit ops d) (ht : t.Exact) {r : R} {b : Bool}
    (hh : OneSpelling S (ops ++ [.del r])) (hi : .ins r ∈ ops) (hd : .del r ∉ ops) (hs : d.erase r = .ok (d', b)) : b = true :=
  have hh' : OneSpelling S ops := hh.pre (List.prefix_append _ _)
  ((erase_tagging_on h.inv.wf h.lok (h.sound hh' ht hh.del) (h.complete hh' ht hh.del) h.tag hs).1
    ⟨_, h.ent.live r hi hd, rfl⟩).1

/-! ### Lookups -/

/-- `plShards_on` for lookups that may also fail. -/
theorem plShards_or {f : Shard R → S → Res (Option Nat)} (k : S) : ∀ (ss : List (Shard R)),
    (∀ s ∈ ss, f s k = .error .ub ∨ (∃ i w, f s k = .ok (some i) ∧ s.data[i]? = some w ∧ key w.record = k) ∨
      (f s k = .ok none ∧ ∀ w ∈ s.data, key w.record ≠ k)) →
    plShards f k ss = .error .ub ∨ (∃ w, plShards f k ss = .ok [w] ∧ key w.record = k ∧ ∃ s ∈ ss, w ∈ s.data) ∨
    (plShards f k ss = .ok [] ∧ ∀ s ∈ ss, ∀ w ∈ s.data, key w.record ≠ k)
  | [], _ => Or.inr (Or.inr ⟨rfl, by simp⟩)
  | s :: ss, hf => by
    rw [plShards]
    rcases hf s (by simp) with h1 | ⟨i, w, h1, h2, h3⟩ | ⟨h1, h2⟩
    · left
      unfold plLocal
      simp only [h1, bind, Except.bind]
    · right; left
      refine ⟨w, ?_, h3, s, List.mem_cons_self, mem_of_getElem? h2⟩
      unfold plLocal getR
      simp only [h1, h2, bind, Except.bind]
    · have e : plLocal f s k = .ok [] := by
        unfold plLocal; simp only [h1, bind, Except.bind]
      rw [e]
      simp only [bind, Except.bind]
      rcases plShards_or k ss (fun s hs => hf s (by simp [hs])) with g | ⟨w, g1, g2, s', g3, g4⟩ | ⟨g1, g2⟩
      · exact Or.inl g
      · exact Or.inr (Or.inl ⟨w, g1, g2, s', List.mem_cons_of_mem _ g3, g4⟩)
      · refine Or.inr (Or.inr ⟨g1, ?_⟩)
        intro s' hs'
        rcases List.mem_cons.mp hs' with rfl | hs'
        · exact h2
        · exact g2 s' hs'

theorem inserted_count (r : R) : ∀ ops : List (Index.Op R), (inserted ops).count r = insCount r ops
  | [] => rfl
  | .ins x :: ops => by
    have := inserted_count r ops
    unfold insCount at *
    simp [inserted, List.count_cons, this]
  | .del x :: ops => by
    have := inserted_count r ops
    unfold insCount at *
    simp [inserted, this]

theorem OneSpelling.nodup (h : OneSpelling S ops) : ((inserted ops).map (key (K := S))).Nodup := by
  have h1 : (inserted ops).Nodup := List.nodup_iff_count_le_one.mpr (fun r => by rw [inserted_count]; exact h.once r)
  refine List.Nodup.map_on ?_ h1
  intro x hx y hy hk
  exact h.same x y (Or.inl (mem_inserted.mp hx)) (Or.inl (mem_inserted.mp hy)) hk

theorem dictAnswer_filter (ops : List (Index.Op R)) (k : S) : dictAnswer ops k =
    ((inserted ops).filter (fun r => decide (key r = k))).filter (fun r => decide (.del r ∉ ops)) := by
  unfold dictAnswer
  rw [List.filter_filter]
  apply List.filter_congr
  intro r _
  by_cases h1 : key r = k <;> by_cases h2 : Index.Op.del r ∈ ops <;> simp [h1, h2]

theorem FT.lookup [DecidableEq P] (h : FT pq t lit ops d) (hh : OneSpelling S ops) (ht : t.Exact) {addr : R → P} {p : P} {k : S}
    (hp : ∀ r, .ins r ∈ ops → (addr r = p ↔ key r = k)) :
    (∀ res, d.strLookup t addr p k = .ok res → res = dictAnswer ops k) ∧
    ((∀ s ∈ d.str.visible, s.data ≠ []) → d.strLookup t addr p k = .ok (dictAnswer ops k)) := by
  have hfound : ∀ w : Wrapped R, w.entry ∈ d.entries → key (K := S) w.record = k → plCombine [w] = dictAnswer ops k := by
    intro w hw hk
    obtain ⟨g1, g2, g3⟩ := h.ent.ok _ hw
    rw [plCombine_answer, dictAnswer_filter, filter_unique hh.nodup (mem_inserted.mpr g2) hk]
    unfold answer
    rw [g1]
    by_cases hd : w.entry.del = true
    · rw [List.filter_cons_of_neg (by simpa using g3.mp hd)]
      simp [hd]
    · rw [List.filter_cons_of_pos (by simpa using fun hh => hd (g3.mpr hh))]
      simp [hd]
  have hnone : (∀ e ∈ d.entries, key (K := S) e.record ≠ k) → [] = dictAnswer ops k := by
    intro hno
    symm
    unfold dictAnswer
    rw [List.filter_eq_nil_iff]
    intro r hr
    simp only [decide_eq_true_eq]
    rintro ⟨hk, hd⟩
    exact hno _ (h.ent.live r (mem_inserted.mp hr) hd) hk
  have hcase : d.strLookup t addr p k = .ok (dictAnswer ops k) ∨
      (d.strLookup t addr p k = .error .ub ∧ ¬ ∀ s ∈ d.str.visible, s.data ≠ []) := by
    unfold Index.strLookup
    rw [Buffer.view_gets h.inv.wf]
    simp only [bind, Except.bind]
    cases hfind : d.buf.contents.find? (fun w => decide (addr w.record = p)) with
    | some w =>
      have hw : w.entry ∈ d.entries := mem_entries.mpr (Or.inl ⟨w, List.mem_of_find?_eq_some hfind, rfl⟩)
      have ha : addr w.record = p := by simpa using List.find?_some hfind
      simp only
      rw [hfound w hw ((hp _ (h.ent.ok _ hw).2.1).mp ha)]
      exact Or.inl rfl
    | none =>
      have h0 : ∀ w ∈ d.buf.contents, key (K := S) w.record ≠ k := by
        intro w hw hk
        have hin := (h.ent.ok w.entry (mem_entries.mpr (Or.inl ⟨w, hw, rfl⟩))).2.1
        have := List.find?_eq_none.mp hfind w hw
        simp only [decide_eq_true_eq] at this
        exact this ((hp _ hin).mpr hk)
      have hcs : ∀ s ∈ d.str.visible, s.data ≠ [] →
          (∃ i w, fstLookup t s k = .ok (some i) ∧ s.data[i]? = some w ∧ key w.record = k) ∨
          (fstLookup t s k = .ok none ∧ ∀ w ∈ s.data, key w.record ≠ k) :=
        fun s hs hne => fstLookup_exact ht hne (h.strict hh hs) k
      have hor : ∀ l, plShards (fstLookup t) k d.str.visible = .ok l →
          ((∃ w, l = [w] ∧ key w.record = k ∧ ∃ s ∈ d.str.visible, w ∈ s.data) ∨
            (l = [] ∧ ∀ s ∈ d.str.visible, ∀ w ∈ s.data, key w.record ≠ k)) → plCombine l = dictAnswer ops k := by
        intro l _ hl
        rcases hl with ⟨w, rfl, g2, s, g3, g4⟩ | ⟨rfl, g2⟩
        · exact hfound w (mem_entries.mpr (Or.inr ⟨s, g3, w, g4, rfl⟩)) g2
        · refine hnone ?_
          intro e he
          rcases mem_entries.mp he with ⟨w, hw, rfl⟩ | ⟨s, hs, w, hw, rfl⟩
          · exact h0 w hw
          · exact g2 s hs w hw
      by_cases hall : ∀ s ∈ d.str.visible, s.data ≠ []
      · left
        rcases plShards_on (f := fstLookup t) k d.str.visible (fun s hs => hcs s hs (hall s hs)) with
          ⟨w, g1, g2⟩ | ⟨g1, g2⟩
        · simp only [g1]; rw [hor _ g1 (Or.inl ⟨w, rfl, g2⟩)]
        · simp only [g1]; rw [hor _ g1 (Or.inr ⟨rfl, g2⟩)]
      · rcases plShards_or (f := fstLookup t) k d.str.visible (fun s hs => by
          by_cases hne : s.data = []
          · left; unfold fstLookup; rw [hne]; rfl
          · exact Or.inr (hcs s hs hne)) with g | ⟨w, g1, g2⟩ | ⟨g1, g2⟩
        · right; simp only [g]; exact ⟨trivial, hall⟩
        · left; simp only [g1]; rw [hor _ g1 (Or.inl ⟨w, rfl, g2⟩)]
        · left; simp only [g1]; rw [hor _ g1 (Or.inr ⟨rfl, g2⟩)]
  refine ⟨fun res hr => ?_, fun hall => ?_⟩
  · rcases hcase with hc | ⟨hc, -⟩
    · rw [hc] at hr; exact (Except.ok.inj hr).symm
    · rw [hc] at hr; cases hr
  · rcases hcase with hc | ⟨-, hc⟩
    · exact hc
    · exact absurd hall hc

/-! ### Histories with fewer erases than a buffer holds records -/

omit [LinearOrder R] in
theorem eraseCount_append : ∀ (a b : List (Index.Op R)), eraseCount (a ++ b) = eraseCount a + eraseCount b
  | [], b => by simp [eraseCount]
  | .ins _ :: a, b => by simpa [eraseCount] using eraseCount_append a b
  | .del _ :: a, b => by
    have := eraseCount_append a b
    simp only [List.cons_append, eraseCount, this]; omega

/-- Untagged entries. -/
def freeEnts (a : Multiset (Entry R)) : Nat := a.countP (fun e => e.del = false)
/-- Tagged entries. -/
def tagEnts (a : Multiset (Entry R)) : Nat := a.countP (fun e => e.del = true)

omit [LinearOrder R] in
theorem freeEnts_add (a b : Multiset (Entry R)) : freeEnts (a + b) = freeEnts a + freeEnts b := Multiset.countP_add _ _ _
omit [LinearOrder R] in
theorem tagEnts_add (a b : Multiset (Entry R)) : tagEnts (a + b) = tagEnts a + tagEnts b := Multiset.countP_add _ _ _
omit [LinearOrder R] in
theorem freeEnts_card (a : Multiset (Entry R)) : freeEnts a + tagEnts a = Multiset.card a := by
  unfold freeEnts tagEnts
  rw [add_comm, Multiset.card_eq_countP_add_countP (fun e : Entry R => e.del = true)]
  congr 1
  exact Multiset.countP_congr rfl (fun e _ => by simp)

omit [LinearOrder R] in
theorem reduces_freeEnts {a b : Multiset (Entry R)} (h : Reduces (fun e => e.del = true) a b) (ht : ∀ e ∈ a, e.tomb = false) :
    freeEnts b = freeEnts a ∧ tagEnts b ≤ tagEnts a ∧ ∀ e ∈ b, e.tomb = false := by
  obtain ⟨dr, rfl, hdr⟩ := h.no_tomb ht
  refine ⟨?_, by rw [tagEnts_add]; omega, fun e he => ht e (Multiset.mem_add.mpr (Or.inl he))⟩
  rw [freeEnts_add]
  have : freeEnts dr = 0 := by
    unfold freeEnts
    rw [Multiset.countP_eq_zero]
    intro e he hf
    rw [hdr e he] at hf; cases hf
  omega

omit [LinearOrder R] in
theorem Tags.freeEnts {r : R} {a b : Multiset (Entry R)} (h : Tags r a b) :
    DE.freeEnts a ≤ DE.freeEnts b + 1 ∧ DE.tagEnts b ≤ DE.tagEnts a + 1 := by
  obtain ⟨rest, t, dl, rfl, rfl⟩ := h
  rw [freeEnts_add, freeEnts_add, tagEnts_add, tagEnts_add]
  have key : ∀ (p : Entry R → Prop) [DecidablePred p] (x : Entry R), Multiset.countP p {x} = if p x then 1 else 0 := by
    intro p _ x
    rw [← Multiset.cons_zero, Multiset.countP_cons]; simp
  cases dl <;> simp [DE.freeEnts, DE.tagEnts, key]

/-- The shard keeps at least `n` untagged records, minus one per erase. -/
def Stocked (n e : Nat) (s : Shard R) : Prop := (∀ x ∈ ents s.data, x.tomb = false) ∧ n ≤ freeEnts (ents s.data) + e

omit [LinearOrder R] in
theorem Stocked.ne {n e : Nat} {s : Shard R} (h : Stocked n e s) (he : e < n) : s.data ≠ [] := by
  intro h0
  have := h.2
  rw [h0] at this
  simp [ents, freeEnts] at this
  omega

omit [LinearOrder R] in
theorem stocked_merge {I : ShardImpl R} (hI : I.Conserving) {n e : Nat} (ss : List (Shard R)) (s : Shard R) (hne : ss ≠ [])
    (hs : ∀ x ∈ ss, Stocked n e x) (h : I.merge (ss.map some) = .ok s) : Stocked n e s := by
  obtain ⟨h1, -, h3⟩ := reduces_freeEnts (hI.merge ss s h) (fun x hx => by
    obtain ⟨y, hy, hx⟩ := sents_mem.mp hx
    exact (hs y hy).1 x hx)
  refine ⟨h3, ?_⟩
  rw [h1]
  obtain ⟨y, ys, rfl⟩ := List.exists_cons_of_ne_nil hne
  have := (hs y (by simp)).2
  have e1 : sents (y :: ys) = ents y.data + sents ys := rfl
  rw [e1, freeEnts_add]
  omega

omit [LinearOrder R] in
theorem stocked_build {I : ShardImpl R} (hI : I.Conserving) {n e : Nat} {b : Buffer R} (hb : b.WF) (hn : n ≤ b.contents.length)
    (ht : ∀ x ∈ ents b.contents, x.tomb = false) (he : tagEnts (ents b.contents) ≤ e) {s : Shard R} (h : I.build b.view = .ok s) :
    Stocked n e s := by
  obtain ⟨h1, -, h3⟩ := reduces_freeEnts (hI.build b.view _ _ (Buffer.view_reads hb) h) ht
  refine ⟨h3, ?_⟩
  rw [h1]
  have := freeEnts_card (ents b.contents)
  rw [show Multiset.card (ents b.contents) = b.contents.length by simp [ents]] at this
  omega

/-- Every shard is stocked, and no more entries are tagged than there were erases. -/
structure Room (n e : Nat) (d : Index R) : Prop where
  lw : d.buf.lwm = n
  vis : ∀ s ∈ d.str.visible, Stocked n e s
  cnt : tagEnts d.entries ≤ e

omit [LinearOrder R] in
theorem l0_of_ne {d : Index R} (hsh : ∀ s ∈ d.str.visible, s.data ≠ []) : d.L0NonEmpty := by
  intro l hl s hs
  refine hsh s ?_
  unfold Struct.visible
  rw [List.mem_flatMap]
  refine ⟨l, ?_, hs⟩
  cases hd : d.str.levels with
  | nil => rw [hd] at hl; simp at hl
  | cons x xs => rw [hd] at hl; simp at hl; simp [hl]

omit [LinearOrder R] in
theorem buf_entries_le {d : Index R} : ents d.buf.contents ≤ d.entries := Multiset.le_add_right _ _

omit [LinearOrder R] in
theorem atLwm_len {b : Buffer R} (h : b.atLwm = true) : b.lwm ≤ b.contents.length := by
  rw [Buffer.contents_length]
  simpa [Buffer.atLwm, Buffer.count] using h

omit [LinearOrder R] [LinearOrder S] [HasKey R S] in
theorem deleteIn_total {I : ShardImpl R} {r : R} : ∀ (ss : List (Option (Shard R))),
    (∀ s, some s ∈ ss → ∃ o, I.lookup s r = .ok o) → ∃ o, Level.deleteIn I r ss = .ok o
  | [], _ => ⟨_, rfl⟩
  | none :: ss, h => by
    obtain ⟨o, ho⟩ := deleteIn_total ss (fun s hs => h s (by simp [hs]))
    rw [Level.deleteIn]
    cases o <;> simp [ho, bind, Except.bind]
  | some s :: ss, h => by
    obtain ⟨o, ho⟩ := deleteIn_total ss (fun s hs => h s (by simp [hs]))
    obtain ⟨o', ho'⟩ := h s (by simp)
    rw [Level.deleteIn]
    cases o' <;> cases o <;> simp [ho, ho', bind, Except.bind]

omit [LinearOrder R] [LinearOrder S] [HasKey R S] in
theorem taggedDelete_total {I : ShardImpl R} {r : R} : ∀ (ls : List (Level R)), (∀ l ∈ ls, LOk l) →
    (∀ l ∈ ls, ∀ s ∈ l.visible, ∃ o, I.lookup s r = .ok o) → ∃ o, Struct.taggedDeleteIn I r ls = .ok o
  | [], _, _ => ⟨_, rfl⟩
  | l :: ls, hok, h => by
    obtain ⟨o, ho⟩ := taggedDelete_total ls (fun x hx => hok x (by simp [hx])) (fun x hx => h x (by simp [hx]))
    have hl : ∃ o, l.deleteRecord I r = .ok o := by
      unfold Level.deleteRecord
      split
      · exact ⟨_, rfl⟩
      · obtain ⟨o, ho⟩ := deleteIn_total (I := I) (r := r) l.shards (fun s hs => h l (by simp) s ((hok l (by simp)).vis.mpr hs))
        cases o <;> simp [ho, bind, Except.bind]
    obtain ⟨o', ho'⟩ := hl
    rw [Struct.taggedDeleteIn]
    cases o' <;> cases o <;> simp [ho, ho', bind, Except.bind]

/-- With room left, every operation succeeds. -/
theorem FT.progress (h : FT pq t lit ops d) (hlit : NoLit lit) (ht : t.Exact) {n e : Nat} (hR : Room n e d) (he : e < n)
    {o : Index.Op R} (hh : OneSpelling S (ops ++ [o])) : ∃ d' b, d.step o = .ok (d', b) := by
  have hC : d.impl.Conserving := by rw [h.impl]; exact fstImpl_conserving pq t hlit
  cases o with
  | ins r =>
    show ∃ d' b, d.internalAppend r false = .ok (d', b)
    unfold Index.internalAppend
    by_cases hat : d.buf.atLwm = true
    · have hne : d.buf.contents ≠ [] := atLwm_ne h.inv.lwm hat
      obtain ⟨s, hs⟩ := (fstImpl_cleanOk pq t hlit).build d.buf h.inv.wf hne
      rw [← h.impl] at hs
      have hq : Stocked n e s := stocked_build hC h.inv.wf (by rw [← hR.lw]; exact atLwm_len hat)
        (fun x hx => (h.ent.ok x (Multiset.mem_of_le buf_entries_le hx)).1)
        (le_trans (Multiset.countP_le_of_le _ buf_entries_le) hR.cnt) hs
      obtain ⟨d1, h1⟩ := gflush_progress h.inv hat (Q := Stocked n e)
        (fun ss hne hss => by
          rw [h.impl]
          exact (fstImpl_cleanOk pq t hlit).merge ss hne (fun x hx => (hss x hx).ne he))
        (fun ss s hne hss hm => stocked_merge hC ss s hne hss hm) ⟨s, hs, hq⟩ hR.vis
      rw [if_pos hat, h1]; exact ⟨_, _, rfl⟩
    · rw [if_neg hat]; exact ⟨_, _, rfl⟩
  | del r =>
    simp only [Index.step, Index.erase]
    rw [if_pos h.tag]
    have hh' : OneSpelling S ops := hh.pre (List.prefix_append _ _)
    obtain ⟨o, ho⟩ := taggedDelete_total (I := d.impl) (r := r) d.str.levels h.lok (fun l hl s hs => by
      have hv : s ∈ d.str.visible := List.mem_flatMap.mpr ⟨l, hl, hs⟩
      rcases h.exact hh' ht hv ((hR.vis s hv).ne he) hh.del with ⟨j, w, g, -⟩ | ⟨g, -⟩
      · exact ⟨_, g⟩
      · exact ⟨_, g⟩)
    cases o <;> simp [ho, bind, Except.bind]

/-- An operation keeps room, up to its erases. -/
theorem FT.room (h : FT pq t lit ops d) (hlit : NoLit lit) (ht : t.Exact) {n e : Nat} (hR : Room n e d)
    {o : Index.Op R} {b : Bool} (hh : OneSpelling S (ops ++ [o])) (hs : d.step o = .ok (d', b)) :
    Room n (e + eraseCount [o]) d' := by
  have hC : d.impl.Conserving := by rw [h.impl]; exact fstImpl_conserving pq t hlit
  have F := h.facts hlit ht hh hs
  have htomb : ∀ x ∈ d.entries, x.tomb = false := fun x hx => (h.ent.ok x hx).1
  have hst : ∀ s ∈ d'.str.visible, Derived d.impl d.buf.view (· ∈ d.str.visible) s → d.buf.atLwm = true → Stocked n e s := by
    intro s _ hD hat
    refine Derived.all (Q := Stocked n e) hR.vis (fun ss s hne hss hm => stocked_merge hC ss s hne hss hm) ?_ hD
    intro s hs
    exact stocked_build hC h.inv.wf (by rw [← hR.lw]; exact atLwm_len hat)
      (fun x hx => htomb x (Multiset.mem_of_le buf_entries_le hx))
      (le_trans (Multiset.countP_le_of_le _ buf_entries_le) hR.cnt) hs
  cases o with
  | ins r =>
    have hB : BufInv d.buf := ⟨h.inv.wf, h.inv.lwm, h.inv.cnt⟩
    obtain ⟨-, -, -, -, -, ⟨m, h6, h7⟩, h8, h9, -⟩ := gappend_ok h.inv hC hs
    refine ⟨(step_buf_eq hB hs).1.trans hR.lw, ?_, ?_⟩
    · intro s hs'
      show Stocked n e s
      rcases h8 with ⟨-, e1, -⟩ | ⟨hat, -⟩
      · rw [e1] at hs'; exact hR.vis s hs'
      · exact hst s hs' (h9 s hs') hat
    · rw [h7, tagEnts_add]
      have := (reduces_freeEnts h6 htomb).2.1
      have h0 : tagEnts ({⟨r, false, false⟩} : Multiset (Entry R)) = 0 := by
        unfold tagEnts
        rw [Multiset.countP_eq_zero]
        intro x hx
        rw [Multiset.mem_singleton] at hx
        subst hx; simp
      have := hR.cnt
      show _ ≤ e
      omega
  | del r =>
    have hE := F.eff
    simp only [StepEff, if_pos h.tag] at hE
    show Room n (e + 1) d'
    refine ⟨?_, ?_, ?_⟩
    · have hs' := hs
      simp only [Index.step, Index.erase] at hs'
      rw [if_pos h.tag, bind_ok] at hs'
      obtain ⟨o, h1, h2⟩ := hs'
      cases o with
      | some ls => cases h2; exact hR.lw
      | none =>
        simp only at h2
        obtain rfl := (congrArg Prod.fst (Except.ok.inj h2)).symm
        unfold Buffer.deleteRecord
        split
        · exact hR.lw
        · exact hR.lw
    · have hs' := hs
      simp only [Index.step, Index.erase] at hs'
      rw [if_pos h.tag, bind_ok] at hs'
      obtain ⟨o, h1, h2⟩ := hs'
      have hh' : OneSpelling S ops := hh.pre (List.prefix_append _ _)
      cases o with
      | some ls =>
        cases h2
        obtain ⟨-, -, p, s, q, j, g3, g4, g5⟩ := gtag_on h.inv (h.sound hh' ht hh.del) h1
        intro x hx
        simp only at hx
        rw [g5] at hx
        have old : ∀ x, x ∈ d.str.visible → Stocked n (e + 1) x := by
          intro x hx
          obtain ⟨k1, k2⟩ := hR.vis x hx
          exact ⟨k1, by omega⟩
        rcases List.mem_append.mp hx with hx | hx
        · exact old x (by rw [g3]; simp [hx])
        · rcases List.mem_cons.mp hx with rfl | hx
          · obtain ⟨w, k1, k2⟩ := h.sound hh' ht hh.del s (by rw [g3]; simp) j g4
            have hT := tag_tags k1 k2
            obtain ⟨k3, k4⟩ := hR.vis s (by rw [g3]; simp)
            refine ⟨fun y hy => ?_, by have := hT.freeEnts.1; omega⟩
            obtain ⟨rest, tt, dl, q1, q2⟩ := hT
            rw [q2] at hy
            rcases Multiset.mem_add.mp hy with hy | hy
            · exact k3 y (by rw [q1]; exact Multiset.mem_add.mpr (Or.inl hy))
            · rw [Multiset.mem_singleton] at hy
              subst hy
              exact k3 ⟨r, tt, dl⟩ (by rw [q1]; simp)
          · exact old x (by rw [g3]; simp [hx])
      | none =>
        simp only at h2
        obtain rfl := (congrArg Prod.fst (Except.ok.inj h2)).symm
        intro x hx
        obtain ⟨k1, k2⟩ := hR.vis x hx
        exact ⟨k1, by omega⟩
    · have := hR.cnt
      rcases hE with hE | hE
      · rw [hE]; omega
      · have := hE.freeEnts.2; omega

/-- A history with fewer erases than the low watermark runs through. -/
theorem ft_total (hpq : pq.ByRec) (hlit : NoLit lit) (ht : t.Exact) {d0 : Index R} {n : Nat} (h0 : FT pq t lit [] d0)
    (hR0 : Room n 0 d0) : ∀ (k : Nat) (ops : List (Index.Op R)), ops.length = k → OneSpelling S ops → eraseCount ops < n →
    ∃ d bs, d0.run ops = .ok (d, bs) ∧ FT pq t lit ops d ∧ Room n (eraseCount ops) d
  | 0, ops, hl, _, _ => by
    obtain rfl := List.length_eq_zero_iff.mp hl
    exact ⟨d0, [], rfl, h0, hR0⟩
  | k+1, ops, hl, hh, he => by
    have hne : ops ≠ [] := by intro h; rw [h] at hl; simp at hl
    obtain ⟨pre, o, rfl⟩ : ∃ pre o, ops = pre ++ [o] := ⟨ops.dropLast, ops.getLast hne, (List.dropLast_append_getLast hne).symm⟩
    rw [eraseCount_append] at he
    obtain ⟨d, bs, h1, h2, h3⟩ := ft_total hpq hlit ht h0 hR0 k pre (by simpa using hl) (hh.pre (List.prefix_append _ _)) (by omega)
    obtain ⟨d', b, h4⟩ := h2.progress hlit ht h3 (by omega) hh
    have h5 := h2.room hlit ht h3 hh h4
    refine ⟨d', bs ++ [b], run_snoc' pre h1 h4, ?_, by rw [eraseCount_append]; exact h5⟩
    exact h2.step hpq hlit ht hh h4 (Or.inr (l0_of_ne (fun s hs => (h5.vis s hs).ne he)))

theorem new_ft [Inhabited R] {L : Layout} {lwm hwm sf : Nat} {d0 : Index R}
    (hnew : Index.new L true (fstImpl pq t lit) lwm hwm sf = .ok d0) (hlwm : 1 ≤ lwm) (hsf : 1 ≤ sf) :
    FT pq t lit [] d0 ∧ Room lwm 0 d0 ∧ d0.L = L := by
  obtain ⟨h1, h2, h3, h4, h5, h6⟩ := new_ginv hnew hlwm hsf
  obtain ⟨hd, -⟩ := new_ok hnew
  refine ⟨⟨h1, h4, h3, ?_, ?_, ?_⟩, ⟨by rw [hd], by rw [h6]; simp, by rw [h5]; simp [tagEnts]⟩, h2⟩
  · intro l hl; rw [hd] at hl; simp at hl
  · intro l hl; rw [hd] at hl; simp at hl
  · rw [h5]; exact ⟨by simp, by simp, by simp⟩

/-- Leveling and tiering: every history that returns. -/
theorem ft_run (hpq : pq.ByRec) (hlit : NoLit lit) (ht : t.Exact) {d0 : Index R} (h0 : FT pq t lit [] d0) (hL : d0.L ≠ .bsm)
    (hh : OneSpelling S ops) {bs : List Bool} (hr : d0.run ops = .ok (d, bs)) : FT pq t lit ops d := by
  refine (run_prefix_ind ops (fun ops d _ => FT pq t lit ops d) ⟨h0.inv.wf, h0.inv.lwm, h0.inv.cnt⟩ h0 ?_ hr).1
  intro ops' o d d' bs b hp _ hP _ hL' _ _ hs
  exact hP.step hpq hlit ht (hh.pre hp) hs (Or.inl (by rw [hL']; exact hL))

end DE
