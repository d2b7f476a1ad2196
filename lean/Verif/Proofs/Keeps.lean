import Verif.Proofs.InsertOnly

/-!
Conservation for an arbitrary relation between what is stored before and after a constructor runs. `Proofs/Conserve.lean` is the
instance in which pairs of a record and its tombstone may cancel; shard types that never cancel get exact conservation here.
-/

namespace DE
variable {R : Type}

/-- A relation on stored contents that can be chained and applied side by side. -/
structure EntRel (Rel : Multiset (Entry R) → Multiset (Entry R) → Prop) : Prop where
  refl : ∀ a, Rel a a
  trans : ∀ {a b c}, Rel a b → Rel b c → Rel a c
  add : ∀ {a b a' b'}, Rel a b → Rel a' b' → Rel (a + a') (b + b')

/-- The constructors of a shard class respect the relation. -/
structure ShardImpl.Respects (I : ShardImpl R) (Rel : Multiset (Entry R) → Multiset (Entry R) → Prop) : Prop where
  build : ∀ v l s, v.Reads l → I.build v = .ok s → Rel (ents l) (ents s.data)
  merge : ∀ (ss : List (Shard R)) s, I.merge (ss.map some) = .ok s → Rel (sents ss) (ents s.data)

variable {Rel : Multiset (Entry R) → Multiset (Entry R) → Prop}

theorem absComb_rel (hR : EntRel Rel) {L : Layout} (hL : L ≠ .bsm) {I : ShardImpl R} (hI : I.Respects Rel) {dst src nd : List (Shard R)}
    (h : absComb L I dst src = .ok nd) (h1 : L = .leveling → dst.length ≤ 1 ∧ src.length ≤ 1) (hs : src ≠ []) :
    Rel (sents dst + sents src) (sents nd) := by
  rcases absComb_cases hL h h1 hs with ⟨-, rfl, rfl⟩ | ⟨-, m, hm, rfl, -⟩ | ⟨-, m, hm, rfl⟩
  · rw [sents_nil, zero_add]; exact hR.refl _
  · have := (hI.merge _ _ hm)
    rw [sents_append] at this; rw [sents_single]; exact this
  · rw [sents_append, sents_single]
    exact hR.add (hR.refl _) (hI.merge _ _ hm)

theorem absNew0_rel (hR : EntRel Rel) {L : Layout} (hL : L ≠ .bsm) {I : ShardImpl R} (hI : I.Respects Rel) {old n : List (Shard R)}
    {v : View R} {l : List (Wrapped R)} (hv : v.Reads l)
    (h : absNew0 L I old v = .ok n) (h1 : L = .leveling → old.length ≤ 1) :
    Rel (sents old + ents l) (sents n) := by
  obtain ⟨s, hs, hc⟩ := absNew0_cases hL h h1
  have hb := hI.build v l s hv hs
  rcases hc with ⟨-, rfl, rfl⟩ | ⟨-, m, hm, rfl, -⟩ | ⟨-, rfl⟩
  · rw [sents_nil, sents_single, zero_add]; exact hb
  · have := (hI.merge _ _ hm)
    rw [sents_append, sents_single] at this; rw [sents_single]
    exact hR.trans (hR.add (hR.refl _) hb) this
  · rw [sents_append, sents_single]; exact hR.add (hR.refl _) hb

theorem absRun_rel (hR : EntRel Rel) {L : Layout} (hL : L ≠ .bsm) {I : ShardImpl R} (hI : I.Respects Rel) {sf : Nat} :
    ∀ (base : Nat) {A A' : List (List (Shard R))}, RunPre L sf A base → Single L A →
      absRun L I base A = .ok A' → Rel (aents A) (aents A') ∧ Single L A'
  | 0, A, A', _, h1, h => by cases h; exact ⟨hR.refl _, h1⟩
  | k+1, A, A', hp, h1, h => by
    rw [absRun, bind_ok] at h
    obtain ⟨A1, e1, e2⟩ := h
    obtain ⟨dst, src, nd, hs, hne, hn, hor, hdl, -, -, -, hsum⟩ := absStep_facts hp.step e1 h1
    obtain ⟨rest, s1, s2⟩ := hsum sents sents_nil
    obtain ⟨r1, r2⟩ := absRun_rel hR hL hI k (hp.next e1) (h1.step hL hp.step e1) e2
    refine ⟨hR.trans ?_ r1, r2⟩
    unfold aents
    rw [s1, s2, add_assoc]
    exact hR.add (hR.refl _) (absComb_rel hR hL hI hn hdl hne)

theorem absL0_rel (hR : EntRel Rel) {L : Layout} (hL : L ≠ .bsm) {I : ShardImpl R} (hI : I.Respects Rel) {A A' : List (List (Shard R))}
    {v : View R} {l : List (Wrapped R)} (hv : v.Reads l) (h1 : Single L A) (h : absL0 L I A v = .ok A') :
    Rel (aents A + ents l) (aents A') := by
  obtain ⟨old, n, ho, hn, rfl, hor⟩ := absL0_ok h
  have hol : L = .leveling → old.length ≤ 1 := by
    intro hlv
    rcases hor with ⟨rfl, -⟩ | hor
    · simp
    · exact h1 hlv _ (mem_of_getElem? hor)
  obtain ⟨rest, s1, s2⟩ := sum_set sents ho
  unfold aents
  rw [← withL0_sum sents sents_nil, s1, s2, add_assoc]
  exact hR.add (hR.refl _) (absNew0_rel hR hL hI hv hn hol)

theorem absB_rel (hR : EntRel Rel) {I : ShardImpl R} (hI : I.Respects Rel) {A A' : List (List (Shard R))} {base : Nat} {v : View R}
    {l : List (Wrapped R)} (hv : v.Reads l) (hb : A ≠ [] → BaseSpec A base) (h : absB I A base v = .ok A') :
    Rel (aents A + ents l) (aents A') := by
  obtain ⟨s, hs, hor⟩ := absB_ok h
  have hbr := (hI.build v l s hv hs)
  rcases hor with ⟨rfl, rfl⟩ | ⟨hne, m, hm, rfl⟩
  · rw [aents_cons, sents_single]
    simp only [aents, List.map_nil, List.sum_nil, zero_add, add_zero]
    exact hbr
  · have hspec := hb hne
    have h1 := (hI.merge _ _ hm)
    rw [sents_flatten, aents_reverse] at h1
    obtain ⟨b, rfl⟩ : ∃ b, base = b + 1 := ⟨base - 1, by have := hspec.pos; omega⟩
    have e1 : aents ((bsmMid A (b+1) m).set 0 [s]) = ents m.data + aents (A.drop (b+1)) + ents s.data := by
      unfold bsmMid
      rw [List.replicate_succ, List.cons_append, List.set_cons_zero, aents_cons, aents_append, aents_cons,
        aents_zero (by simp), sents_single, sents_single, absZero_aents hspec.free]
      abel
    have e2 : aents A = aents (A.take (b+1)) + aents (A.drop (b+1)) := by
      rw [← aents_append, List.take_append_drop]
    rw [e1, e2]
    exact hR.add (hR.add h1 (hR.refl _)) hbr

/-- One flush, any layout. -/
theorem gflush_rel (hR : EntRel Rel) {d d' : Index R} (h : d.GInv) (hI : d.impl.Respects Rel) (hat : d.buf.atLwm = true)
    (hf : d.flush = .ok d') : Rel d.entries d'.entries := by
  have hv := Buffer.view_reads h.wf
  rcases h with h | h
  · obtain ⟨base, hspec, hor⟩ := flush_abs h hat
    rcases hor with ⟨e, h1, -⟩ | ⟨st', h1, h2, -⟩
    · rw [h1] at hf; cases hf
    · rw [h1] at hf
      have hd : d' = { d with buf := d.buf.emptied, str := st' } := (Except.ok.inj hf).symm
      rw [bind_ok] at h2
      obtain ⟨A1, e1, e2⟩ := h2
      obtain ⟨r1, s1⟩ := absRun_rel hR h.lay hI base hspec.pre h.str.single e1
      have r2 := absL0_rel hR h.lay hI hv s1 e2
      subst hd
      rw [Index.entries_eq, Index.entries_eq]
      simp only [Buffer.emptied_contents, ents_nil, zero_add]
      rw [add_comm]
      exact hR.trans (hR.add r1 (hR.refl _)) r2
  · obtain ⟨base, hspec, hor⟩ := bflush_abs h hat
    rcases hor with ⟨e, h1, -⟩ | ⟨st', h1, h2, -⟩
    · rw [h1] at hf; cases hf
    · rw [h1] at hf
      have hd : d' = { d with buf := d.buf.emptied, str := st' } := (Except.ok.inj hf).symm
      subst hd
      rw [Index.entries_eq, Index.entries_eq]
      simp only [Buffer.emptied_contents, ents_nil, zero_add]
      rw [add_comm]
      exact absB_rel hR hI hv hspec h2

/-- An append, any layout. -/
theorem gappend_rel (hR : EntRel Rel) {d d' : Index R} (h : d.GInv) (hI : d.impl.Respects Rel) (hC : d.impl.Conserving) {r : R}
    {ts b : Bool} (hs : d.internalAppend r ts = .ok (d', b)) :
    ∃ m, Rel d.entries m ∧ d'.entries = m + {⟨r, ts, false⟩} := by
  unfold Index.internalAppend at hs
  by_cases hat : d.buf.atLwm = true
  · rw [if_pos hat, bind_ok] at hs
    obtain ⟨d1, f1, f2⟩ := hs
    obtain ⟨-, g2, -⟩ := gflush_ok h hC hat f1
    have hlt : d1.buf.tail - d1.buf.head < d1.buf.lwm := by
      rw [g2]; simp [Buffer.emptied]; exact h.lwm
    have hwf : d1.buf.WF := by rw [g2]; exact Buffer.emptied_wf h.wf
    obtain ⟨-, a2, -⟩ := append_entries hwf hlt r ts
    have f4 : d' = { d1 with buf := (d1.buf.append r ts).1 } := (congrArg Prod.fst (Except.ok.inj f2)).symm
    exact ⟨_, gflush_rel hR h hI hat f1, by rw [f4]; exact a2⟩
  · rw [if_neg hat, bind_ok] at hs
    obtain ⟨d1, f1, f2⟩ := hs
    cases f1
    have hlt : d.buf.tail - d.buf.head < d.buf.lwm := by
      simpa [Buffer.atLwm, Buffer.count] using hat
    obtain ⟨-, a2, -⟩ := append_entries h.wf hlt r ts
    have f4 : d' = { d with buf := (d.buf.append r ts).1 } := (congrArg Prod.fst (Except.ok.inj f2)).symm
    exact ⟨_, hR.refl _, by rw [f4]; exact a2⟩

/-! ### Shard types that never cancel -/

/-- Nothing is lost unless something was tagged. -/
def KeepsAll (a b : Multiset (Entry R)) : Prop := (∀ x ∈ a, x.del = false) → b = a

theorem keepsAll_rel : EntRel (KeepsAll (R := R)) where
  refl := fun _ _ => rfl
  trans := fun h g hd => by
    have e := h hd
    rw [e] at g
    exact g hd
  add := fun h g hd => by
    rw [h (fun x hx => hd x (Multiset.mem_add.mpr (Or.inl hx))), g (fun x hx => hd x (Multiset.mem_add.mpr (Or.inr hx)))]

/-- What the tombstone histories below need of a shard type. -/
structure ShardImpl.KeepOk (I : ShardImpl R) : Prop where
  clean : I.CleanOk
  keeps : I.Respects KeepsAll

/-- A non-empty shard without tags. -/
def UntagShard (s : Shard R) : Prop := s.data ≠ [] ∧ ∀ e ∈ ents s.data, e.del = false

theorem untag_merge {I : ShardImpl R} (hI : I.KeepOk) (ss : List (Shard R)) (s : Shard R) (hne : ss ≠ [])
    (hs : ∀ x ∈ ss, UntagShard x) (h : I.merge (ss.map some) = .ok s) : UntagShard s := by
  have h2 := hI.keeps.merge ss s h (fun x hx => by
    obtain ⟨y, hy, hx⟩ := sents_mem.mp hx
    exact (hs y hy).2 x hx)
  refine ⟨?_, ?_⟩
  · intro h0
    rw [h0, show ents ([] : List (Wrapped R)) = 0 from rfl] at h2
    obtain ⟨y, ys, rfl⟩ := List.exists_cons_of_ne_nil hne
    obtain ⟨w, ws, hw⟩ := List.exists_cons_of_ne_nil (hs y (by simp)).1
    have : w.entry ∈ sents (y :: ys) := sents_mem.mpr ⟨y, by simp, mem_ents.mpr ⟨w, by simp [hw], rfl⟩⟩
    rw [← h2] at this
    simp at this
  · intro e he
    rw [h2] at he
    obtain ⟨y, hy, he⟩ := sents_mem.mp he
    exact (hs y hy).2 e he

theorem untag_build {I : ShardImpl R} (hI : I.KeepOk) {b : Buffer R} (hb : b.WF) (hne : b.contents ≠ [])
    (hc : ∀ e ∈ ents b.contents, e.del = false) : ∃ s, I.build b.view = .ok s ∧ UntagShard s := by
  obtain ⟨s, hs⟩ := hI.clean.build b hb hne
  have h2 := (hI.keeps.build b.view _ _ (Buffer.view_reads hb) hs) hc
  refine ⟨s, hs, ?_, ?_⟩
  · intro h0
    rw [h0, show ents ([] : List (Wrapped R)) = 0 from rfl] at h2
    exact hne (ents_eq_zero.mp h2.symm)
  · intro e he; rw [h2] at he; exact hc e he

/-- State of an index with tombstone deletes over such shards. -/
structure UntagInv (I : ShardImpl R) (d : Index R) : Prop where
  ok : I.KeepOk
  inv : d.GInv
  impl : d.impl = I
  buf : ∀ e ∈ ents d.buf.contents, e.del = false
  shards : ∀ s ∈ d.str.visible, UntagShard s

theorem UntagInv.entries {I : ShardImpl R} {d : Index R} (h : UntagInv I d) : ∀ e ∈ d.entries, e.del = false := by
  intro e he
  unfold Index.entries at he
  rw [Multiset.mem_add] at he
  rcases he with he | he
  · exact h.buf e he
  · obtain ⟨s, hs, he⟩ := sents_mem.mp (show e ∈ sents d.str.visible from he)
    exact (h.shards s hs).2 e he

theorem UntagInv.l0 {d : Index R} (hsh : ∀ s ∈ d.str.visible, UntagShard s) : d.L0NonEmpty := by
  intro l hl s hs
  refine (hsh s ?_).1
  unfold Struct.visible
  rw [List.mem_flatMap]
  refine ⟨l, ?_, hs⟩
  cases hd : d.str.levels with
  | nil => rw [hd] at hl; simp at hl
  | cons x xs => rw [hd] at hl; simp at hl; simp [hl]

theorem UntagInv.append {I : ShardImpl R} {d : Index R} (h : UntagInv I d) (r : R) (ts : Bool) :
    ∃ d', d.internalAppend r ts = .ok (d', true) ∧ UntagInv I d' ∧ d'.entries = d.entries + {⟨r, ts, false⟩} ∧
      d'.tagging = d.tagging := by
  have hex : ∃ d' b, d.internalAppend r ts = .ok (d', b) := by
    unfold Index.internalAppend
    by_cases hat : d.buf.atLwm = true
    · have hfl : ∃ d', d.flush = .ok d' := by
        obtain ⟨s, hs, hq⟩ := untag_build h.ok h.inv.wf (atLwm_ne h.inv.lwm hat) h.buf
        refine gflush_progress h.inv hat (Q := UntagShard) ?_ ?_ ⟨s, ?_, hq⟩ h.shards
        · rw [h.impl]; exact fun ss hne hx => h.ok.clean.merge ss hne (fun x hx' => (hx x hx').1)
        · rw [h.impl]; exact untag_merge h.ok
        · rw [h.impl]; exact hs
      obtain ⟨d1, h1⟩ := hfl
      rw [if_pos hat, h1]; exact ⟨_, _, rfl⟩
    · rw [if_neg hat]; exact ⟨_, _, rfl⟩
  obtain ⟨d', b, hs⟩ := hex
  have hI : d.impl.Conserving := by rw [h.impl]; exact h.ok.clean.conserving
  obtain ⟨rfl, -, h3, h4, h5, -, h8, h9, -⟩ := gappend_ok h.inv hI hs
  obtain ⟨m, h6, h7⟩ := gappend_rel keepsAll_rel h.inv (by rw [h.impl]; exact h.ok.keeps) hI hs
  have hm := h6 h.entries
  have hsh : ∀ s ∈ d'.str.visible, UntagShard s := by
    intro s hs'
    rcases h8 with ⟨-, e, -⟩ | ⟨hat, -⟩
    · rw [e] at hs'; exact h.shards s hs'
    · obtain ⟨s0, hs0, hq0⟩ := untag_build h.ok h.inv.wf (atLwm_ne h.inv.lwm hat) h.buf
      refine Derived.all (Q := UntagShard) h.shards ?_ ?_ (h9 s hs')
      · rw [h.impl]; exact untag_merge h.ok
      · intro s1 hs1
        rw [h.impl, hs0] at hs1
        cases hs1; exact hq0
  have hbuf : ∀ e ∈ ents d'.buf.contents, e.del = false := by
    intro e he
    have hc : ∀ pos, e ∈ ents [Buffer.entryAt r ts pos] → e.del = false := by
      intro pos he
      simp [ents, entryAt_entry] at he
      rw [he]
    rcases h8 with ⟨-, -, -, hcn⟩ | ⟨-, -, -, -, -, hcn⟩
    · rw [hcn, ents_append, Multiset.mem_add] at he
      rcases he with he | he
      · exact h.buf e he
      · exact hc _ he
    · rw [hcn] at he; exact hc _ he
  refine ⟨d', hs, ⟨h.ok, ?_, h4.trans h.impl, hbuf, hsh⟩, by rw [h7, hm], h3⟩
  rcases h5 with h5 | ⟨-, h5⟩
  · exact h5
  · exact absurd (UntagInv.l0 hsh) h5

/-- The entry an operation stores when deletes are tombstones. -/
def storedAs : Index.Op R → Entry R
  | .ins r => ⟨r, false, false⟩
  | .del r => ⟨r, true, false⟩

theorem UntagInv.run [DecidableEq R] {I : ShardImpl R} : ∀ (ops : List (Index.Op R)) {d : Index R}, UntagInv I d → d.tagging = false →
    ∃ d', d.run ops = .ok (d', List.replicate ops.length true) ∧ UntagInv I d' ∧
      d'.entries = d.entries + ((ops.map storedAs : List (Entry R)) : Multiset (Entry R))
  | [], d, h, _ => ⟨d, rfl, h, by simp⟩
  | o :: os, d, h, ht => by
    have : ∃ d1, d.step o = .ok (d1, true) ∧ UntagInv I d1 ∧ d1.entries = d.entries + {storedAs o} ∧ d1.tagging = d.tagging := by
      cases o with
      | ins r => exact h.append r false
      | del r =>
        obtain ⟨d1, h1, h2⟩ := h.append r true
        exact ⟨d1, by simp only [Index.step, Index.erase, ht, Bool.false_eq_true, if_false]; exact h1, h2⟩
    obtain ⟨d1, h1, h2, h3, h4⟩ := this
    obtain ⟨d2, g1, g2, g3⟩ := UntagInv.run os h2 (h4.trans ht)
    refine ⟨d2, run_cons.mpr ⟨d1, true, _, h1, g1, rfl⟩, g2, ?_⟩
    rw [g3, h3]
    simp only [List.map_cons, ← Multiset.cons_coe, ← Multiset.singleton_add]
    abel

theorem new_untag [Inhabited R] {L : Layout} {tag : Bool} {I : ShardImpl R} (hI : I.KeepOk) {lwm hwm sf : Nat} {d : Index R}
    (h : Index.new L tag I lwm hwm sf = .ok d) (hl : 0 < lwm) (hsf : 0 < sf) : UntagInv I d := by
  obtain ⟨h1, -, -, h4, h5, h6⟩ := new_ginv h hl hsf
  refine ⟨hI, h1, h4, ?_, by rw [h6]; simp⟩
  intro e he
  have : e ∈ d.entries := by
    unfold Index.entries; rw [Multiset.mem_add]; exact Or.inl he
  rw [h5] at this
  simp at this

end DE
