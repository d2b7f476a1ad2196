import Verif.Proofs.Run

/-!
Safety for every layout and every history: a predicate on shards that merges, builds and tagging
preserve holds of every shard the structure ever holds. No structural invariant is needed.
-/

namespace DE
variable {R : Type}

/-- Every shard a level refers to satisfies `Q`. -/
def LAll (Q : Shard R → Prop) (l : Level R) : Prop := (∀ s, some s ∈ l.shards → Q s) ∧ ∀ s, l.pending = some s → Q s
/-- Every shard of the structure satisfies `Q`. -/
def SAll (Q : Shard R → Prop) (st : Struct R) : Prop := ∀ l ∈ st.levels, LAll Q l

/-- `Q` is preserved by merging and holds of the shard built from `v`. -/
structure Closed (I : ShardImpl R) (v : View R) (Q : Shard R → Prop) : Prop where
  merge : ∀ (os : List (Option (Shard R))) s, (∀ x, some x ∈ os → Q x) → I.merge os = .ok s → Q s
  build : ∀ s, I.build v = .ok s → Q s

variable {Q : Shard R → Prop} {I : ShardImpl R} {v : View R}

theorem lall_new {no cap : Nat} : LAll Q (Level.new no cap) := by
  refine ⟨?_, ?_⟩
  · intro s hs; simp [Level.new] at hs
  · intro s hs; simp [Level.new] at hs

theorem LAll.present {l : Level R} (h : LAll Q l) : ∀ s ∈ l.present, Q s := by
  intro s hs
  simp only [Level.present, List.mem_filterMap, id] at hs
  obtain ⟨o, ho, rfl⟩ := hs
  exact h.1 s ho

theorem LAll.visible {l : Level R} (h : LAll Q l) : ∀ s ∈ l.visible, Q s := by
  intro s hs
  simp only [Level.visible, List.mem_filterMap, id] at hs
  obtain ⟨o, ho, rfl⟩ := hs
  exact h.1 s (List.mem_of_mem_take ho)

theorem getR_ok {α : Type} {l : List α} {i : Nat} {a : α} (h : getR l i = .ok a) : l[i]? = some a := by
  unfold getR at h
  split at h
  · next e => cases h; exact e
  · cases h

theorem getR_mem {α : Type} {l : List α} {i : Nat} {a : α} (h : getR l i = .ok a) : a ∈ l :=
  mem_of_getElem? (getR_ok h)

theorem lall_one {no cnt : Nat} {m : Shard R} (h : Q m) :
    LAll Q ({ no := no, cnt := cnt, shards := [some m], pending := none } : Level R) := by
  refine ⟨?_, ?_⟩
  · intro s hs; simp at hs; rw [hs]; exact h
  · intro s hs; cases hs

theorem lall_set {l : Level R} {i c : Nat} {m : Shard R} (h : LAll Q l) (hm : Q m) :
    LAll Q ({ no := l.no, cnt := c, shards := l.shards.set i (some m), pending := l.pending } : Level R) := by
  refine ⟨?_, h.2⟩
  intro s hs
  rcases List.mem_or_eq_of_mem_set hs with hs | hs
  · exact h.1 s hs
  · cases hs; exact hm

theorem reconstruct2_all (hQ : Closed I v Q) {a b l : Level R} (ha : LAll Q a) (hb : LAll Q b)
    (h : Level.reconstruct2 I a b = .ok l) : LAll Q l := by
  unfold Level.reconstruct2 at h
  simp only [bind_ok] at h
  obtain ⟨-, -, s0, h0, s1, h1, m, hm, he⟩ := h
  cases he
  refine lall_one (hQ.merge _ _ ?_ hm)
  intro x hx
  simp at hx
  rcases hx with hx | hx
  · exact ha.1 x (hx ▸ getR_mem h0)
  · exact hb.1 x (hx ▸ getR_mem h1)

theorem reconstructMany_all (hQ : Closed I v Q) {ls : List (Level R)} {i : Nat} {l : Level R} (ha : ∀ a ∈ ls, LAll Q a)
    (h : Level.reconstructMany I ls i = .ok l) : LAll Q l := by
  unfold Level.reconstructMany at h
  simp only [bind_ok] at h
  obtain ⟨m, hm, he⟩ := h
  cases he
  refine lall_one (hQ.merge _ _ ?_ hm)
  intro x hx
  simp only [List.mem_map, Option.some.injEq, exists_eq_right, List.mem_flatMap] at hx
  obtain ⟨a, h1, h2⟩ := hx
  exact (ha a h1).present x h2

theorem map_some_all {ss : List (Shard R)} (h : ∀ s ∈ ss, Q s) : ∀ x, some x ∈ ss.map some → Q x := by
  intro x hx
  simp only [List.mem_map, Option.some.injEq, exists_eq_right] at hx
  exact h x hx

theorem appendLevel_all (hQ : Closed I v Q) {a b l : Level R} (ha : LAll Q a) (hb : LAll Q b)
    (h : Level.appendLevel I a b = .ok l) : LAll Q l := by
  unfold Level.appendLevel at h
  split at h
  · cases h; exact ha
  · rw [bind_ok] at h
    obtain ⟨m, hm, he⟩ := h
    have hmQ := hQ.merge _ _ (map_some_all hb.present) hm
    split at he
    · cases he
      refine ⟨ha.1, ?_⟩
      intro s hs; cases hs; exact hmQ
    · cases he
      exact lall_set ha hmQ

theorem appendBuffer_all (hQ : Closed I v Q) {a l : Level R} (ha : LAll Q a)
    (h : Level.appendBuffer I a v = .ok l) : LAll Q l := by
  unfold Level.appendBuffer at h
  split at h
  · simp only [bind_ok] at h
    obtain ⟨-, -, m, hm, he⟩ := h
    cases he
    refine ⟨ha.1, ?_⟩
    intro s hs; cases hs; exact hQ.build _ hm
  · simp only [bind_ok] at h
    obtain ⟨m, hm, he⟩ := h
    cases he
    exact lall_set ha (hQ.build _ hm)

theorem finalize_all {a l : Level R} (ha : LAll Q a) (h : a.finalize = .ok l) : LAll Q l := by
  unfold Level.finalize at h
  split at h
  · cases h; exact ha
  · next p hp =>
    split at h
    · cases h
    · cases h
      refine ⟨?_, ?_⟩
      · intro s hs
        rcases List.mem_or_eq_of_mem_set hs with hs | hs
        · simp at hs
        · cases hs; exact ha.2 _ hp
      · intro s hs; cases hs

theorem newBase_all (hQ : Closed I v Q) {L : Layout} {a b l : Level R} (ha : LAll Q a) (hb : LAll Q b)
    (h : Struct.newBase L I a b = .ok l) : LAll Q l := by
  have hgen : (Level.appendLevel I a b >>= fun l => l.finalize) = .ok l → LAll Q l := by
    intro h
    rw [bind_ok] at h
    obtain ⟨m, h1, h2⟩ := h
    exact finalize_all (appendLevel_all hQ ha hb h1) h2
  cases L with
  | leveling =>
    simp only [Struct.newBase] at h
    split at h
    · exact reconstruct2_all hQ ha hb h
    · cases h; exact hb
  | tiering => exact hgen h
  | bsm => exact hgen h

theorem SAll.getR {st : Struct R} (h : SAll Q st) {i : Nat} {l : Level R} (hl : DE.getR st.levels i = .ok l) : LAll Q l :=
  h l (getR_mem hl)

theorem mem_set2 {α : Type} {l : List α} {i j : Nat} {a b x : α} (h : x ∈ (l.set i a).set j b) : x ∈ l ∨ x = a ∨ x = b := by
  rcases List.mem_or_eq_of_mem_set h with h | h
  · rcases List.mem_or_eq_of_mem_set h with h | h
    · exact Or.inl h
    · exact Or.inr (Or.inl h)
  · exact Or.inr (Or.inr h)

theorem reconstruct_all (hQ : Closed I v Q) {L : Layout} {st st' : Struct R} {b i : Nat} (ha : SAll Q st)
    (h : Struct.reconstruct L I st b i = .ok st') : SAll Q st' := by
  unfold Struct.reconstruct at h
  have hgen : ∀ st1 : Struct R, SAll Q st1 → (do
      let lb ← DE.getR st1.levels b
      let li ← DE.getR st1.levels i
      let nb ← Struct.newBase L I lb li
      (.ok { st1 with
        levels := (st1.levels.set b nb).set i (Level.new i (Struct.shardCap L st.sf))
        state := (st1.state.set b
            { reccnt := nb.recordCount, reccap := Struct.levelCap st1.bufSize st1.sf b
              shardcnt := nb.cnt, shardcap := Struct.shardCap L st.sf }).set i
            { reccnt := 0, reccap := Struct.levelCap st1.bufSize st1.sf i, shardcnt := 0
              shardcap := Struct.shardCap L st.sf } } : Res (Struct R))) = .ok st' → SAll Q st' := by
    intro st1 h1 h
    simp only [bind_ok] at h
    obtain ⟨lb, e1, li, e2, nb, e3, e4⟩ := h
    cases e4
    intro l hl
    rcases mem_set2 hl with hl | rfl | rfl
    · exact h1 l hl
    · exact newBase_all hQ (h1.getR e1) (h1.getR e2) e3
    · exact lall_new
  refine hgen _ ?_ h
  split
  · intro l hl
    rcases List.mem_append.mp hl with hl | hl
    · exact ha l hl
    · simp at hl; subst hl; exact lall_new
  · exact ha

theorem mapM_getR_all {st : Struct R} (ha : SAll Q st) : ∀ {is : List Nat} {ls : List (Level R)},
    is.mapM (DE.getR st.levels) = .ok ls → ∀ l ∈ ls, LAll Q l
  | [], ls, h => by
    simp [pure, Except.pure] at h; subst h; simp
  | i :: is, ls, h => by
    rw [List.mapM_cons] at h
    simp only [bind_ok] at h
    obtain ⟨a, h1, as, h2, h3⟩ := h
    cases h3
    intro l hl
    rcases List.mem_cons.mp hl with rfl | hl
    · exact ha.getR h1
    · exact mapM_getR_all ha h2 l hl

theorem reconstructBSM_all (hQ : Closed I v Q) {st st' : Struct R} {t : Task} (ha : SAll Q st)
    (h : Struct.reconstructBSM I st t = .ok st') : SAll Q st' := by
  unfold Struct.reconstructBSM at h
  simp only [bind_ok] at h
  obtain ⟨srcs, e1, nl, e2, e3⟩ := h
  have hnl := reconstructMany_all hQ (mapM_getR_all ha e1) e2
  have hfold : ∀ (ss : List Nat) (st0 : Struct R), SAll Q st0 → SAll Q (ss.foldl (fun st s =>
      { st with levels := st.levels.set s (Level.new s 1)
                state := st.state.set s { reccnt := 0, reccap := Struct.levelCap st.bufSize st.sf t.target
                                          shardcnt := 0, shardcap := 1 } }) st0) := by
    intro ss
    induction ss with
    | nil => intro st0 h0; exact h0
    | cons s ss ih =>
      intro st0 h0
      apply ih
      intro l hl
      rcases List.mem_or_eq_of_mem_set hl with hl | rfl
      · exact h0 l hl
      · exact lall_new
  cases e3
  apply hfold
  split
  · intro l hl
    rcases List.mem_append.mp hl with hl | hl
    · exact ha l hl
    · simp at hl; subst hl; exact hnl
  · intro l hl
    rcases List.mem_or_eq_of_mem_set hl with hl | rfl
    · exact ha l hl
    · exact hnl

theorem runTasks_all (hQ : Closed I v Q) {L : Layout} : ∀ {ts : List Task} {st st' : Struct R}, SAll Q st →
    Struct.runTasks L I st ts = .ok st' → SAll Q st' := by
  have hgen : ∀ (ts : List Task) (st st' : Struct R), SAll Q st → ts.foldlM (fun st t => do
      let src ← DE.getR t.sources 0
      Struct.reconstruct L I st t.target src) st = .ok st' → SAll Q st' := by
    intro ts
    induction ts with
    | nil => intro st st' ha h; cases h; exact ha
    | cons t ts ih =>
      intro st st' ha h
      rw [List.foldlM_cons] at h
      simp only [bind_ok] at h
      obtain ⟨st1, ⟨src, -, e1⟩, e2⟩ := h
      exact ih _ _ (reconstruct_all hQ ha e1) e2
  intro ts st st' ha h
  cases L with
  | leveling => exact hgen ts st st' ha h
  | tiering => exact hgen ts st st' ha h
  | bsm =>
    cases ts with
    | nil => cases h; exact ha
    | cons t ts => exact reconstructBSM_all hQ ha h

theorem newL0_all (hQ : Closed I v Q) {L : Layout} {a l : Level R} (ha : LAll Q a)
    (h : Struct.newL0 L I a v = .ok l) : LAll Q l := by
  cases L with
  | leveling =>
    simp only [Struct.newL0, bind_ok] at h
    obtain ⟨tmp, h1, h2⟩ := h
    have ht := appendBuffer_all hQ lall_new h1
    split at h2
    · exact reconstruct2_all hQ ha ht h2
    · cases h2; exact ht
  | tiering => exact appendBuffer_all hQ ha h
  | bsm => exact appendBuffer_all hQ ha h

theorem flushIntoL0_all (hQ : Closed I v Q) {L : Layout} {st st' : Struct R} (ha : SAll Q st)
    (h : Struct.flushIntoL0 L I st v = .ok st') : SAll Q st' := by
  unfold Struct.flushIntoL0 at h
  have hgen : ∀ st1 : Struct R, SAll Q st1 → (do
      let old ← DE.getR st1.levels 0
      let nl ← Struct.newL0 L I old v
      let s0 ← DE.getR st1.state 0
      (.ok { st1 with levels := st1.levels.set 0 nl
                      state := st1.state.set 0 { s0 with reccnt := nl.recordCount, shardcnt := nl.cnt } } : Res (Struct R)))
        = .ok st' → SAll Q st' := by
    intro st1 h1 h
    simp only [bind_ok] at h
    obtain ⟨old, e1, nl, e2, s0, -, e4⟩ := h
    cases e4
    intro l hl
    rcases List.mem_or_eq_of_mem_set hl with hl | rfl
    · exact h1 l hl
    · exact newL0_all hQ (h1.getR e1) e2
  refine hgen _ ?_ h
  split
  · intro l hl
    rcases List.mem_append.mp hl with hl | hl
    · exact ha l hl
    · simp at hl; subst hl; exact lall_new
  · exact ha

theorem copy_all {st : Struct R} (ha : SAll Q st) : SAll Q st.copy := by
  intro l hl
  simp only [Struct.copy, List.mem_map] at hl
  obtain ⟨l0, h0, rfl⟩ := hl
  refine ⟨?_, ?_⟩
  · intro s hs
    simp only [Level.clone, List.mem_append, List.mem_replicate] at hs
    rcases hs with hs | ⟨-, hs⟩
    · exact (ha l0 h0).1 s (List.mem_of_mem_take hs)
    · cases hs
  · intro s hs; cases hs

theorem flush_all {d d' : Index R} (hQ : Closed d.impl d.buf.view Q) (ha : SAll Q d.str) (h : d.flush = .ok d') :
    SAll Q d'.str := by
  unfold Index.flush at h
  simp only [bind_ok] at h
  obtain ⟨ts, -, s1, h1, s2, h2, b, -, he⟩ := h
  cases he
  unfold Struct.flushBuffer at h2
  simp only [bind_ok] at h2
  obtain ⟨-, -, h2⟩ := h2
  exact flushIntoL0_all hQ (runTasks_all hQ (copy_all ha) h1) h2

theorem internalAppend_all {d d' : Index R} (hQ : Closed d.impl d.buf.view Q) (ha : SAll Q d.str) {r : R} {ts b : Bool}
    (h : d.internalAppend r ts = .ok (d', b)) : SAll Q d'.str := by
  unfold Index.internalAppend at h
  have key : ∀ d1 : Index R, SAll Q d1.str →
      (Except.ok ({ d1 with buf := (d1.buf.append r ts).1 }, (d1.buf.append r ts).2) : Res (Index R × Bool)) = .ok (d', b) →
      SAll Q d'.str := by
    intro d1 h1 h2
    have hd : d' = { d1 with buf := (d1.buf.append r ts).1 } := (congrArg Prod.fst (Except.ok.inj h2)).symm
    rw [hd]; exact h1
  split at h
  · rw [bind_ok] at h
    obtain ⟨d1, h1, h2⟩ := h
    exact key d1 (flush_all hQ ha h1) h2
  · exact key d ha h

theorem deleteIn_all {r : R} (ht : ∀ (s : Shard R) j, Q s → I.lookup s r = .ok (some j) → Q (s.tag j)) :
    ∀ {ss ss' : List (Option (Shard R))}, (∀ s, some s ∈ ss → Q s) → Level.deleteIn I r ss = .ok (some ss') →
    ∀ s, some s ∈ ss' → Q s := by
  intro ss ss' ha h
  obtain ⟨pre, s, post, j, e1, e2, e3, e4⟩ := deleteIn_some h
  subst e1; subst e3
  intro x hx
  rcases List.mem_append.mp hx with hx | hx
  · exact ha x (by simp [hx])
  · rcases List.mem_cons.mp hx with hx | hx
    · cases hx; exact ht s j (ha s (by simp)) e2
    · exact ha x (by simp [hx])

theorem taggedDelete_all {r : R} (ht : ∀ (s : Shard R) j, Q s → I.lookup s r = .ok (some j) → Q (s.tag j)) :
    ∀ {ls ls' : List (Level R)}, (∀ l ∈ ls, LAll Q l) → Struct.taggedDeleteIn I r ls = .ok (some ls') →
    ∀ l ∈ ls', LAll Q l := by
  intro ls ls' ha h
  obtain ⟨i, l, l', e1, e2, e3, -⟩ := taggedDelete_some h
  subst e3
  intro x hx
  rcases List.mem_or_eq_of_mem_set hx with hx | rfl
  · exact ha x hx
  · have hl := ha l (mem_of_getElem? e1)
    unfold Level.deleteRecord at e2
    split at e2
    · cases e2
    · rw [bind_ok] at e2
      obtain ⟨o, h1, h2⟩ := e2
      cases o with
      | none => cases h2
      | some ss' =>
        cases h2
        exact ⟨deleteIn_all ht hl.1 h1, hl.2⟩

/-- One operation. -/
theorem step_all [DecidableEq R] {d d' : Index R} (hQ : Closed d.impl d.buf.view Q) {o : Index.Op R} {b : Bool}
    (ht : ∀ r, o = .del r → d.tagging = true → ∀ (s : Shard R) j, Q s → d.impl.lookup s r = .ok (some j) → Q (s.tag j))
    (ha : SAll Q d.str) (h : d.step o = .ok (d', b)) : SAll Q d'.str := by
  cases o with
  | ins r => exact internalAppend_all hQ ha h
  | del r =>
    simp only [Index.step, Index.erase] at h
    split at h
    · next htag =>
      rw [bind_ok] at h
      obtain ⟨o, h1, h2⟩ := h
      cases o with
      | some ls =>
        cases h2
        exact taggedDelete_all (ht r rfl htag) ha h1
      | none => cases h2; exact ha
    · exact internalAppend_all hQ ha h

theorem SAll.visible {st : Struct R} (h : SAll Q st) : ∀ s ∈ st.visible, Q s := by
  intro s hs
  simp only [Struct.visible, List.mem_flatMap] at hs
  obtain ⟨l, h1, h2⟩ := hs
  exact (h l h1).visible s h2

theorem SAll.mono {Q' : Shard R → Prop} {st : Struct R} (h : SAll Q st) (hQ : ∀ s, Q s → Q' s) : SAll Q' st :=
  fun l hl => ⟨fun s hs => hQ s ((h l hl).1 s hs), fun s hs => hQ s ((h l hl).2 s hs)⟩

/-- Induction over prefixes of a history, no invariant other than the buffer's. -/
theorem run_prefix_ind [DecidableEq R] (all : List (Index.Op R)) (P : List (Index.Op R) → Index R → List Bool → Prop)
    {d0 : Index R} (h0 : BufInv d0.buf) (hP0 : P [] d0 [])
    (hstep : ∀ (ops : List (Index.Op R)) (o : Index.Op R) (d d' : Index R) (bs : List Bool) (b : Bool),
      (ops ++ [o]) <+: all → d0.run ops = .ok (d, bs) → P ops d bs → BufInv d.buf →
      d.L = d0.L → d.tagging = d0.tagging → d.impl = d0.impl → d.step o = .ok (d', b) →
      P (ops ++ [o]) d' (bs ++ [b])) :
    ∀ {d : Index R} {bs : List Bool}, d0.run all = .ok (d, bs) →
      P all d bs ∧ BufInv d.buf ∧ d.L = d0.L ∧ d.tagging = d0.tagging ∧ d.impl = d0.impl := by
  have run_snoc : ∀ (pre : List (Index.Op R)) (o : Index.Op R) (d0 d1 d2 : Index R) (bs : List Bool) (b : Bool),
      d0.run pre = .ok (d1, bs) → d1.step o = .ok (d2, b) → d0.run (pre ++ [o]) = .ok (d2, bs ++ [b]) := by
    intro pre
    induction pre with
    | nil =>
      intro o d0 d1 d2 bs b h1 h2
      cases h1
      exact run_cons.mpr ⟨d2, b, [], h2, rfl, rfl⟩
    | cons p pre ih =>
      intro o d0 d1 d2 bs b h1 h2
      obtain ⟨d3, b3, bs3, e1, e2, rfl⟩ := run_cons.mp h1
      exact run_cons.mpr ⟨d3, b3, bs3 ++ [b], e1, ih o d3 d1 d2 bs3 b e2 h2, rfl⟩
  suffices H : ∀ (ops pre : List (Index.Op R)) (d1 d : Index R) (bs1 bs : List Bool), pre ++ ops = all →
      d0.run pre = .ok (d1, bs1) → BufInv d1.buf → d1.L = d0.L →
      d1.tagging = d0.tagging → d1.impl = d0.impl → P pre d1 bs1 → d1.run ops = .ok (d, bs) →
      P (pre ++ ops) d (bs1 ++ bs) ∧ BufInv d.buf ∧ d.L = d0.L ∧ d.tagging = d0.tagging ∧ d.impl = d0.impl by
    intro d bs hr
    exact H all [] d0 d [] bs rfl rfl h0 rfl rfl rfl hP0 hr
  intro ops
  induction ops with
  | nil =>
    intro pre d1 d bs1 bs hall hr1 i1 i2 i3 i4 hp hr
    cases hr
    simpa using ⟨hp, i1, i2, i3, i4⟩
  | cons o os ih =>
    intro pre d1 d bs1 bs hall hr1 i1 i2 i3 i4 hp hr
    obtain ⟨d2, b, bs2, e1, e2, rfl⟩ := run_cons.mp hr
    obtain ⟨g1, g2, g3, g4, -⟩ := step_buf i1 e1
    have hpre : (pre ++ [o]) <+: all := ⟨os, by rw [← hall]; simp⟩
    have := ih (pre ++ [o]) d2 d (bs1 ++ [b]) bs2 (by rw [← hall]; simp) (run_snoc pre o d0 d1 d2 bs1 b hr1 e1) g1
      (g2.trans i2) (g3.trans i3) (g4.trans i4)
      (hstep pre o d1 d2 bs1 b hpre hr1 hp i1 i2 i3 i4 e1) e2
    simpa using this

end DE
