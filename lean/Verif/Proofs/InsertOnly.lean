import Verif.Proofs.Serial
import Verif.Proofs.Safety

/-!
Insert-only histories never fail, on any layout.
-/

namespace DE
variable {R : Type}

theorem Derived.all {I : ShardImpl R} {v : View R} {S Q : Shard R → Prop} (hS : ∀ s, S s → Q s)
    (hm : ∀ (ss : List (Shard R)) s, ss ≠ [] → (∀ x ∈ ss, Q x) → I.merge (ss.map some) = .ok s → Q s)
    (hb : ∀ s, I.build v = .ok s → Q s) {s : Shard R} (h : Derived I v S s) : Q s := by
  induction h with
  | old h => exact hS _ h
  | build h => exact hb _ h
  | merge ss h1 _ h3 ih => exact hm ss _ h1 ih h3

/-- An entry that is neither a tombstone nor tagged. -/
def Entry.clean (e : Entry R) : Prop := e.tomb = false ∧ e.del = false

theorem Reduces.clean {a b : Multiset (Entry R)} (h : Reduces (fun e => e.del = true) a b) (hc : ∀ x ∈ a, x.clean) :
    a = b := by
  obtain ⟨dr, e, h1⟩ := h.no_tomb (fun x hx => (hc x hx).1)
  have : dr = 0 := by
    apply Multiset.eq_zero_of_forall_notMem
    intro x hx
    have h2 := h1 x hx
    rw [(hc x (by rw [e, Multiset.mem_add]; exact Or.inr hx)).2] at h2
    cases h2
  rw [e, this, add_zero]

theorem ents_eq_zero {l : List (Wrapped R)} : ents l = 0 ↔ l = [] := by
  simp [ents]

/-- Non-empty shard with clean entries. -/
def CleanShard (s : Shard R) : Prop := s.data ≠ [] ∧ ∀ e ∈ ents s.data, e.clean

theorem sents_mem {ss : List (Shard R)} {e : Entry R} : e ∈ sents ss ↔ ∃ s ∈ ss, e ∈ ents s.data := by
  induction ss with
  | nil => simp [sents]
  | cons s ss ih =>
    have : sents (s :: ss) = ents s.data + sents ss := rfl
    rw [this, Multiset.mem_add, ih]; simp

/-- What insert-only histories need of a shard type: records are conserved, and non-empty shards of clean records can be
built and merged. -/
structure ShardImpl.CleanOk (I : ShardImpl R) : Prop where
  conserving : I.Conserving
  merge : ∀ ss : List (Shard R), ss ≠ [] → (∀ x ∈ ss, x.data ≠ []) → ∃ s, I.merge (ss.map some) = .ok s
  build : ∀ b : Buffer R, b.WF → b.contents ≠ [] → ∃ s, I.build b.view = .ok s

theorem sortedImpl_cleanOk {K : Type} [LinearOrder R] [LinearOrder K] [HasKey R K] (pq : PQ R) (lb : LB R K) : (sortedImpl pq lb).CleanOk where
  conserving := sortedImpl_conserving pq lb
  merge := fun _ _ h => sortedMerge_total h
  build := fun b hb _ => ⟨_, by simp only [sortedImpl, sortedFromView, Buffer.view_copyOut hb]; rfl⟩

theorem clean_merge {I : ShardImpl R} (hI : I.CleanOk) (ss : List (Shard R)) (s : Shard R) (hne : ss ≠ [])
    (hs : ∀ x ∈ ss, CleanShard x) (h : I.merge (ss.map some) = .ok s) : CleanShard s := by
  have h1 := hI.conserving.merge ss s h
  have h2 := h1.clean (fun x hx => by
    obtain ⟨y, hy, hx⟩ := sents_mem.mp hx
    exact (hs y hy).2 x hx)
  refine ⟨?_, ?_⟩
  · intro h0
    rw [h0, show ents ([] : List (Wrapped R)) = 0 from rfl] at h2
    obtain ⟨y, ys, rfl⟩ := List.exists_cons_of_ne_nil hne
    obtain ⟨w, ws, hw⟩ := List.exists_cons_of_ne_nil (hs y (by simp)).1
    have : w.entry ∈ sents (y :: ys) := sents_mem.mpr ⟨y, by simp, mem_ents.mpr ⟨w, by simp [hw], rfl⟩⟩
    rw [h2] at this
    simp at this
  · intro e he
    rw [← h2] at he
    obtain ⟨y, hy, he⟩ := sents_mem.mp he
    exact (hs y hy).2 e he

theorem clean_mergeOk {I : ShardImpl R} (hI : I.CleanOk) : MergeOk I CleanShard :=
  fun ss hne h => hI.merge ss hne (fun x hx => (h x hx).1)

theorem clean_build {I : ShardImpl R} (hI : I.CleanOk) {b : Buffer R} (hb : b.WF) (hne : b.contents ≠ [])
    (hc : ∀ e ∈ ents b.contents, e.clean) : ∃ s, I.build b.view = .ok s ∧ CleanShard s := by
  obtain ⟨s, hs⟩ := hI.build b hb hne
  have h2 := (hI.conserving.build b.view _ _ (Buffer.view_reads hb) hs).clean hc
  refine ⟨s, hs, ?_, ?_⟩
  · intro h0
    rw [h0, show ents ([] : List (Wrapped R)) = 0 from rfl] at h2
    exact hne (ents_eq_zero.mp h2)
  · intro e he; rw [← h2] at he; exact hc e he

/-- State of an insert-only index. -/
structure CleanInv (I : ShardImpl R) (d : Index R) : Prop where
  ok : I.CleanOk
  inv : d.GInv
  impl : d.impl = I
  buf : ∀ e ∈ ents d.buf.contents, e.clean
  shards : ∀ s ∈ d.str.visible, CleanShard s

theorem clean_l0 {d : Index R} (hsh : ∀ s ∈ d.str.visible, CleanShard s) : d.L0NonEmpty := by
  intro l hl s hs
  refine (hsh s ?_).1
  unfold Struct.visible
  rw [List.mem_flatMap]
  refine ⟨l, ?_, hs⟩
  cases hd : d.str.levels with
  | nil => rw [hd] at hl; simp at hl
  | cons x xs => rw [hd] at hl; simp at hl; simp [hl]

theorem atLwm_ne {b : Buffer R} (hl : 0 < b.lwm) (h : b.atLwm = true) : b.contents ≠ [] := by
  intro h0
  have := Buffer.contents_length b
  rw [h0] at this
  simp [Buffer.atLwm, Buffer.count] at h
  simp at this
  omega

theorem CleanInv.entries {I : ShardImpl R} {d : Index R} (h : CleanInv I d) : ∀ e ∈ d.entries, e.clean := by
  intro e he
  unfold Index.entries at he
  rw [Multiset.mem_add] at he
  rcases he with he | he
  · exact h.buf e he
  · obtain ⟨s, hs, he⟩ := sents_mem.mp (show e ∈ sents d.str.visible from he)
    exact (h.shards s hs).2 e he

theorem CleanInv.flush {I : ShardImpl R} {d : Index R} (h : CleanInv I d) (hat : d.buf.atLwm = true) :
    ∃ d', d.flush = .ok d' := by
  obtain ⟨s, hs, hq⟩ := clean_build h.ok h.inv.wf (atLwm_ne h.inv.lwm hat) h.buf
  refine gflush_progress h.inv hat (Q := CleanShard) ?_ ?_ ⟨s, ?_, hq⟩ h.shards
  · rw [h.impl]; exact clean_mergeOk h.ok
  · rw [h.impl]; exact clean_merge h.ok
  · rw [h.impl]; exact hs

theorem CleanInv.insert {I : ShardImpl R} {d : Index R} (h : CleanInv I d) (r : R) :
    ∃ d', d.insert r = .ok (d', true) ∧ CleanInv I d' ∧ d'.entries = d.entries + {⟨r, false, false⟩} ∧
      d'.L = d.L ∧ d'.tagging = d.tagging := by
  have hex : ∃ d' b, d.internalAppend r false = .ok (d', b) := by
    unfold Index.internalAppend
    by_cases hat : d.buf.atLwm = true
    · obtain ⟨d1, h1⟩ := h.flush hat
      rw [if_pos hat, h1]; exact ⟨_, _, rfl⟩
    · rw [if_neg hat]; exact ⟨_, _, rfl⟩
  obtain ⟨d', b, hs⟩ := hex
  have hI : d.impl.Conserving := by rw [h.impl]; exact h.ok.conserving
  obtain ⟨rfl, h2, h3, h4, h5, ⟨m, h6, h7⟩, h8, h9, -⟩ := gappend_ok h.inv hI hs
  have hm := h6.clean h.entries
  have hsh : ∀ s ∈ d'.str.visible, CleanShard s := by
    intro s hs'
    rcases h8 with ⟨-, e, -⟩ | ⟨hat, -⟩
    · rw [e] at hs'; exact h.shards s hs'
    · obtain ⟨s0, hs0, hq0⟩ := clean_build h.ok h.inv.wf (atLwm_ne h.inv.lwm hat) h.buf
      refine Derived.all (Q := CleanShard) h.shards ?_ ?_ (h9 s hs')
      · rw [h.impl]; exact clean_merge h.ok
      · intro s1 hs1
        rw [h.impl, hs0] at hs1
        cases hs1; exact hq0
  have hbuf : ∀ e ∈ ents d'.buf.contents, e.clean := by
    intro e he
    have hc : ∀ pos, e ∈ ents [Buffer.entryAt r false pos] → e.clean := by
      intro pos he
      simp [ents, entryAt_entry] at he
      rw [he]; exact ⟨rfl, rfl⟩
    rcases h8 with ⟨-, -, -, hcn⟩ | ⟨-, -, -, -, -, hcn⟩
    · rw [hcn, ents_append, Multiset.mem_add] at he
      rcases he with he | he
      · exact h.buf e he
      · exact hc _ he
    · rw [hcn] at he; exact hc _ he
  refine ⟨d', hs, ⟨h.ok, ?_, h4.trans h.impl, hbuf, hsh⟩, by rw [h7, ← hm], h2, h3⟩
  rcases h5 with h5 | ⟨-, h5⟩
  · exact h5
  · exact absurd (clean_l0 hsh) h5

/-- The stored entries asked for by a list of inserts. -/
def insEntries (rs : List R) : Multiset (Entry R) := ((rs.map (fun r => (⟨r, false, false⟩ : Entry R)) : List (Entry R)))

theorem CleanInv.run [DecidableEq R] {I : ShardImpl R} : ∀ (ops : List (Index.Op R)) {d : Index R}, CleanInv I d → InsertOnly ops →
    ∃ d', d.run ops = .ok (d', List.replicate ops.length true) ∧ CleanInv I d' ∧
      d'.entries = d.entries + insEntries (inserted ops) ∧ d'.L = d.L
  | [], d, h, _ => ⟨d, rfl, h, by simp [inserted, insEntries], rfl⟩
  | o :: os, d, h, hio => by
    obtain ⟨r, rfl⟩ := hio o (by simp)
    obtain ⟨d1, h1, h2, h3, h4, -⟩ := h.insert r
    obtain ⟨d2, g1, g2, g3, g4⟩ := CleanInv.run os h2 (fun o ho => hio o (by simp [ho]))
    refine ⟨d2, run_cons.mpr ⟨d1, true, _, h1, g1, rfl⟩, g2, ?_, g4.trans h4⟩
    rw [g3, h3]
    simp only [inserted, insEntries, List.map_cons, ← Multiset.cons_coe, ← Multiset.singleton_add]
    abel

theorem new_cleanI [Inhabited R] {L : Layout} {tag : Bool} {I : ShardImpl R} (hI : I.CleanOk) {lwm hwm sf : Nat} {d : Index R}
    (h : Index.new L tag I lwm hwm sf = .ok d) (hl : 0 < lwm) (hsf : 0 < sf) : CleanInv I d := by
  obtain ⟨h1, -, -, h4, h5, h6⟩ := new_ginv h hl hsf
  refine ⟨hI, h1, h4, ?_, by rw [h6]; simp⟩
  intro e he
  have : e ∈ d.entries := by
    unfold Index.entries; rw [Multiset.mem_add]; exact Or.inl he
  rw [h5] at this
  simp at this

theorem new_clean {K : Type} [LinearOrder R] [LinearOrder K] [HasKey R K] [Inhabited R] {L : Layout} {tag : Bool} {pq : PQ R} {lb : LB R K} {lwm hwm sf : Nat} {d : Index R}
    (h : Index.new L tag (sortedImpl pq lb) lwm hwm sf = .ok d) (hl : 0 < lwm) (hsf : 0 < sf) : CleanInv (sortedImpl pq lb) d :=
  new_cleanI (sortedImpl_cleanOk pq lb) h hl hsf

end DE
