import Verif.Model.Work
import Verif.Proofs.Shape

/-!
The framework does not look at tombstone counts: an index and the same index without them do the same.
-/

namespace DE
variable {R : Type}

/-- A shard class whose constructor and lookup do not read the tombstone counts of the shards. -/
structure ShardImpl.Blind (I : ShardImpl R) : Prop where
  merge : ∀ ss : List (Option (Shard R)), (I.merge (ss.map (Option.map Shard.bare))).map Shard.bare = (I.merge ss).map Shard.bare
  lookup : ∀ s r, I.lookup s.bare r = I.lookup s r

theorem map_map_res {α β γ : Type} (x : Res α) (f : α → β) (g : β → γ) : (x.map f).map g = x.map (g ∘ f) := by
  cases x <;> rfl

theorem counted_bare (I : ShardImpl R) : I.counted.bare = I.bare := by
  unfold ShardImpl.bare ShardImpl.counted
  congr 1 <;> funext x <;> simp only [map_map_res] <;> rfl

theorem ShardImpl.Blind.counted {I : ShardImpl R} (h : I.Blind) : I.counted.Blind where
  merge ss := by
    have e : ∀ ss, (I.counted.merge ss).map Shard.bare = (I.merge ss).map Shard.bare := by
      intro ss; unfold ShardImpl.counted; simp only [map_map_res]; rfl
    rw [e, e, h.merge]
  lookup := h.lookup

theorem sortedImpl_blind {K : Type} [LinearOrder R] [LinearOrder K] [HasKey R K] (pq : PQ R) (lb : LB R K) : (sortedImpl pq lb).Blind where
  merge ss := by
    have h1 : (ss.map (Option.map Shard.bare)).all (fun s => match s with | none => false | some s => !s.data.isEmpty) =
        ss.all (fun s => match s with | none => false | some s => !s.data.isEmpty) := by
      rw [List.all_map]; congr 1; funext s; cases s <;> rfl
    have h2 : (ss.map (Option.map Shard.bare)).filterMap (·.map Shard.data) = ss.filterMap (·.map Shard.data) := by
      rw [List.filterMap_map]; congr 1; funext s; cases s <;> rfl
    simp only [sortedImpl, sortedMerge, h2]
    exact congrArg (Except.map Shard.bare) (if_congr (iff_of_eq (congrArg (· = true) h1)) rfl rfl)
  lookup _ _ := rfl

/-! ### Levels -/

section
variable {I : ShardImpl R}

theorem bare_data (s : Shard R) : s.bare.data = s.data := rfl

theorem filterMap_bare (ss : List (Option (Shard R))) : (ss.map (Option.map Shard.bare)).filterMap id = (ss.filterMap id).map Shard.bare := by
  induction ss with
  | nil => rfl
  | cons s ss ih =>
    cases s with
    | none => exact ih
    | some s => exact congrArg (s.bare :: ·) ih

theorem present_bare (l : Level R) : l.bare.present = l.present.map Shard.bare := filterMap_bare _

theorem visible_bare (l : Level R) : l.bare.visible = l.visible.map Shard.bare := by
  unfold Level.visible Level.bare
  simp only
  rw [← List.map_take, filterMap_bare]

theorem recordCount_bare (l : Level R) : l.bare.recordCount = l.recordCount := by
  unfold Level.recordCount
  rw [visible_bare, List.map_map]; rfl

theorem new_bare (no cap : Nat) : (Level.new no cap : Level R).bare = Level.new no cap := by
  simp [Level.bare, Level.new]

theorem clone_bare (l : Level R) : l.bare.clone = l.clone.bare := by
  simp [Level.clone, Level.bare, List.map_take]

theorem getR_map {α β : Type} (f : α → β) (l : List α) (i : Nat) : getR (l.map f) i = (getR l i).map f := by
  unfold getR
  rw [List.getElem?_map]
  cases l[i]? <;> rfl

theorem merge_bare (h : I.Blind) (ss : List (Option (Shard R))) :
    I.bare.merge (ss.map (Option.map Shard.bare)) = (I.merge ss).map Shard.bare := h.merge ss

theorem merge_bare' (h : I.Blind) (ss : List (Shard R)) :
    I.bare.merge ((ss.map Shard.bare).map some) = (I.merge (ss.map some)).map Shard.bare := by
  rw [← merge_bare h, List.map_map, List.map_map]; rfl

theorem reconstruct2_bare (h : I.Blind) (a b : Level R) :
    Level.reconstruct2 I.bare a.bare b.bare = (Level.reconstruct2 I a b).map Level.bare := by
  unfold Level.reconstruct2
  have e : ∀ l : Level R, getR l.bare.shards 0 = (getR l.shards 0).map (Option.map Shard.bare) := fun l => getR_map _ _ _
  rw [e, e, show a.bare.no = a.no from rfl, show b.bare.no = b.no from rfl]
  cases assertC (decide (a.no > b.no ∨ a.no = 0 ∧ b.no = 0)) with
  | error e => rfl
  | ok _ =>
    cases getR a.shards 0 with
    | error e => rfl
    | ok s0 =>
      cases getR b.shards 0 with
      | error e => rfl
      | ok s1 =>
        have := merge_bare h [s0, s1]
        simp only [List.map_cons, List.map_nil] at this
        simp only [bind, Except.bind, Except.map, this]
        cases I.merge [s0, s1] <;> rfl

theorem reconstructMany_bare (h : I.Blind) (ls : List (Level R)) (idx : Nat) :
    Level.reconstructMany I.bare (ls.map Level.bare) idx = (Level.reconstructMany I ls idx).map Level.bare := by
  unfold Level.reconstructMany
  have e : (ls.map Level.bare).flatMap Level.present = (ls.flatMap Level.present).map Shard.bare := by
    rw [List.flatMap_map, List.map_flatMap]
    congr 1; funext l; exact present_bare l
  rw [e, merge_bare' h]
  cases I.merge ((ls.flatMap Level.present).map some) <;> rfl

theorem appendLevel_bare (h : I.Blind) (a b : Level R) :
    Level.appendLevel I.bare a.bare b.bare = (Level.appendLevel I a b).map Level.bare := by
  unfold Level.appendLevel
  rw [show b.bare.cnt = b.cnt from rfl, present_bare, merge_bare' h, show a.bare.cnt = a.cnt from rfl,
    show a.bare.shards.length = a.shards.length by simp [Level.bare]]
  split
  · rfl
  · cases I.merge (b.present.map some) with
    | error e => rfl
    | ok m =>
      simp only [Except.map, bind, Except.bind]
      split
      · rfl
      · simp [Level.bare, List.map_set]

theorem appendBuffer_bare (a : Level R) (v : View R) :
    Level.appendBuffer I.bare a.bare v = (Level.appendBuffer I a v).map Level.bare := by
  unfold Level.appendBuffer
  rw [show a.bare.cnt = a.cnt from rfl, show a.bare.shards.length = a.shards.length by simp [Level.bare],
    show a.bare.pending.isNone = a.pending.isNone by simp [Level.bare]]
  have e : I.bare.build v = (I.build v).map Shard.bare := rfl
  rw [e]
  split
  · cases assertC a.pending.isNone with
    | error e => rfl
    | ok _ => cases I.build v <;> rfl
  · cases I.build v with
    | error e => rfl
    | ok s => simp [Except.map, bind, Except.bind, Level.bare, List.map_set]

theorem finalize_bare (a : Level R) : a.bare.finalize = a.finalize.map Level.bare := by
  unfold Level.finalize
  cases hp : a.pending with
  | none => simp [Level.bare, hp, Except.map]
  | some p =>
    rw [show a.bare.pending = some p.bare by simp [Level.bare, hp]]
    simp only
    rw [show a.bare.shards.length = a.shards.length by simp [Level.bare]]
    split
    · rfl
    · simp [Except.map, Level.bare, List.map_set]

theorem deleteIn_bare (h : I.Blind) (r : R) : ∀ ss : List (Option (Shard R)),
    Level.deleteIn I.bare r (ss.map (Option.map Shard.bare)) =
      (Level.deleteIn I r ss).map (Option.map (List.map (Option.map Shard.bare)))
  | [] => rfl
  | none :: ss => by
    simp only [List.map_cons, Option.map_none, Level.deleteIn]
    rw [deleteIn_bare h r ss]
    cases Level.deleteIn I r ss with
    | error e => rfl
    | ok o => cases o <;> rfl
  | some s :: ss => by
    simp only [List.map_cons, Option.map_some, Level.deleteIn]
    rw [show I.bare.lookup s.bare r = I.lookup s r from h.lookup s r, deleteIn_bare h r ss]
    cases I.lookup s r with
    | error e => rfl
    | ok o =>
      cases o with
      | some i => rfl
      | none =>
        simp only [bind, Except.bind]
        cases Level.deleteIn I r ss with
        | error e => rfl
        | ok o => cases o <;> rfl

theorem deleteRecord_bare (h : I.Blind) (l : Level R) (r : R) :
    l.bare.deleteRecord I.bare r = (l.deleteRecord I r).map (Option.map Level.bare) := by
  unfold Level.deleteRecord
  rw [show l.bare.cnt = l.cnt from rfl, show l.bare.shards = l.shards.map (Option.map Shard.bare) from rfl, deleteIn_bare h]
  split
  · rfl
  · cases Level.deleteIn I r l.shards with
    | error e => rfl
    | ok o => cases o <;> rfl

/-! ### Structure -/

theorem taggedDelete_bare (h : I.Blind) (r : R) : ∀ ls : List (Level R),
    Struct.taggedDeleteIn I.bare r (ls.map Level.bare) = (Struct.taggedDeleteIn I r ls).map (Option.map (List.map Level.bare))
  | [] => rfl
  | l :: ls => by
    simp only [List.map_cons, Struct.taggedDeleteIn]
    rw [deleteRecord_bare h, taggedDelete_bare h r ls]
    cases l.deleteRecord I r with
    | error e => rfl
    | ok o =>
      cases o with
      | some l' => rfl
      | none =>
        simp only [bind, Except.bind, Except.map, Option.map_none]
        cases Struct.taggedDeleteIn I r ls with
        | error e => rfl
        | ok o => cases o <;> rfl

theorem copy_bare (st : Struct R) : st.bare.copy = st.copy.bare := by
  unfold Struct.copy Struct.bare
  simp only [List.map_map]
  congr 1
  apply List.map_congr_left
  intro l _
  exact clone_bare l

theorem newBase_bare (h : I.Blind) (L : Layout) (a b : Level R) :
    Struct.newBase L I.bare a.bare b.bare = (Struct.newBase L I a b).map Level.bare := by
  unfold Struct.newBase
  have ht : (do let l ← Level.appendLevel I.bare a.bare b.bare; Level.finalize l) =
      (do let l ← Level.appendLevel I a b; Level.finalize l : Res (Level R)).map Level.bare := by
    rw [appendLevel_bare h]
    cases Level.appendLevel I a b with
    | error e => rfl
    | ok l => exact finalize_bare l
  cases L with
  | leveling =>
    simp only
    rw [show a.bare.cnt = a.cnt from rfl]
    split
    · exact reconstruct2_bare h a b
    · rfl
  | tiering => exact ht
  | bsm => exact ht

theorem reconstruct_bare (h : I.Blind) (L : Layout) (st : Struct R) (base inc : Nat) :
    Struct.reconstruct L I.bare st.bare base inc = (Struct.reconstruct L I st base inc).map Struct.bare := by
  unfold Struct.reconstruct
  simp only
  rw [show st.bare.levels.length = st.levels.length by simp [Struct.bare]]
  have e : (if base ≥ st.levels.length then
        { st.bare with levels := st.bare.levels ++ [Level.new base (Struct.shardCap L st.bare.sf)]
                       state := st.bare.state ++ [{ reccnt := 0, reccap := Struct.levelCap st.bare.bufSize st.bare.sf base
                                                    shardcnt := 0, shardcap := Struct.shardCap L st.bare.sf }] }
      else st.bare) = (if base ≥ st.levels.length then
        { st with levels := st.levels ++ [Level.new base (Struct.shardCap L st.sf)]
                  state := st.state ++ [{ reccnt := 0, reccap := Struct.levelCap st.bufSize st.sf base
                                          shardcnt := 0, shardcap := Struct.shardCap L st.sf }] }
      else st).bare := by
    split
    · simp [Struct.bare, new_bare]
    · rfl
  rw [e]
  generalize (if base ≥ st.levels.length then
        { st with levels := st.levels ++ [Level.new base (Struct.shardCap L st.sf)]
                  state := st.state ++ [{ reccnt := 0, reccap := Struct.levelCap st.bufSize st.sf base
                                          shardcnt := 0, shardcap := Struct.shardCap L st.sf }] }
      else st) = st1
  rw [show st1.bare.levels = st1.levels.map Level.bare from rfl, getR_map, getR_map]
  cases getR st1.levels base with
  | error e => rfl
  | ok lb =>
    cases getR st1.levels inc with
    | error e => rfl
    | ok li =>
      simp only [Except.map, bind, Except.bind]
      rw [newBase_bare h]
      cases Struct.newBase L I lb li with
      | error e => rfl
      | ok nb =>
        simp only [Except.map]
        rw [recordCount_bare]
        simp only [Struct.bare, List.map_set, new_bare, Except.ok.injEq, Struct.mk.injEq, true_and]
        rfl

theorem mapM_getR_bare (ls : List (Level R)) : ∀ is : List Nat,
    is.mapM (getR (ls.map Level.bare)) = (is.mapM (getR ls)).map (List.map Level.bare)
  | [] => rfl
  | i :: is => by
    simp only [List.mapM_cons]
    rw [getR_map, mapM_getR_bare ls is]
    cases getR ls i with
    | error e => rfl
    | ok l => cases is.mapM (getR ls) <;> rfl

theorem reconstructBSM_bare (h : I.Blind) (st : Struct R) (t : Task) :
    Struct.reconstructBSM I.bare st.bare t = (Struct.reconstructBSM I st t).map Struct.bare := by
  unfold Struct.reconstructBSM
  rw [show st.bare.levels = st.levels.map Level.bare from rfl, mapM_getR_bare]
  cases t.sources.mapM (getR st.levels) with
  | error e => rfl
  | ok srcs =>
    simp only [Except.map, bind, Except.bind]
    rw [reconstructMany_bare h]
    cases Level.reconstructMany I srcs t.target with
    | error e => rfl
    | ok nl =>
      simp only [Except.map, Except.ok.injEq]
      have hf : ∀ (ss : List Nat) (st : Struct R), ss.foldl (fun st s =>
          { st with levels := st.levels.set s (Level.new s 1)
                    state := st.state.set s { reccnt := 0, reccap := Struct.levelCap st.bufSize st.sf t.target
                                              shardcnt := 0, shardcap := 1 } }) st.bare =
          (ss.foldl (fun st s =>
          { st with levels := st.levels.set s (Level.new s 1)
                    state := st.state.set s { reccnt := 0, reccap := Struct.levelCap st.bufSize st.sf t.target
                                              shardcnt := 0, shardcap := 1 } }) st).bare := by
        intro ss
        induction ss with
        | nil => intro st; rfl
        | cons s ss ih =>
          intro st
          rw [List.foldl_cons, List.foldl_cons, ← ih]
          congr 1
          simp [Struct.bare, List.map_set, new_bare]
      rw [← hf]
      congr 1
      rw [recordCount_bare, List.length_map]
      split
      · simp [Struct.bare]
      · simp [Struct.bare, List.map_set]

theorem runTasks_bare (h : I.Blind) (L : Layout) (ts : List Task) (st : Struct R) :
    Struct.runTasks L I.bare st.bare ts = (Struct.runTasks L I st ts).map Struct.bare := by
  have hf : ∀ (ts : List Task) (st : Struct R), ts.foldlM (fun st (t : Task) => do
      let src ← getR t.sources 0
      Struct.reconstruct L I.bare st t.target src) st.bare = (ts.foldlM (fun st (t : Task) => do
      let src ← getR t.sources 0
      Struct.reconstruct L I st t.target src) st).map Struct.bare := by
    intro ts
    induction ts with
    | nil => intro st; rfl
    | cons t ts ih =>
      intro st
      rw [List.foldlM_cons, List.foldlM_cons]
      cases getR t.sources 0 with
      | error e => rfl
      | ok src =>
        simp only [bind, Except.bind]
        rw [reconstruct_bare h]
        cases Struct.reconstruct L I st t.target src with
        | error e => rfl
        | ok st1 => exact ih st1
  unfold Struct.runTasks
  cases L with
  | bsm =>
    cases ts with
    | nil => rfl
    | cons t ts => exact reconstructBSM_bare h st t
  | leveling => exact hf ts st
  | tiering => exact hf ts st

theorem newL0_bare (h : I.Blind) (L : Layout) (a : Level R) (v : View R) :
    Struct.newL0 L I.bare a.bare v = (Struct.newL0 L I a v).map Level.bare := by
  unfold Struct.newL0
  cases L with
  | leveling =>
    simp only
    have e := appendBuffer_bare (I := I) (Level.new 0 1) v
    rw [new_bare] at e
    rw [e]
    cases Level.appendBuffer I (Level.new 0 1) v with
    | error e => rfl
    | ok tmp =>
      simp only [Except.map, bind, Except.bind]
      rw [show a.bare.cnt = a.cnt from rfl]
      split
      · exact reconstruct2_bare h a tmp
      · rfl
  | tiering => exact appendBuffer_bare a v
  | bsm => exact appendBuffer_bare a v

theorem flushBuffer_bare (h : I.Blind) (L : Layout) (st : Struct R) (v : View R) :
    Struct.flushBuffer L I.bare st.bare v = (Struct.flushBuffer L I st v).map Struct.bare := by
  unfold Struct.flushBuffer
  have e0 : (Struct.grow L st.bare st.bare.state).1 = (Struct.grow L st st.state).1 := by simp [Struct.grow, Struct.bare]
  rw [e0, show st.bare.state = st.state from rfl]
  simp only
  cases assertC (Struct.canReconstructWith L 0 v.count (if st.state.length = 0 then (Struct.grow L st st.state).1 else st.state)) with
  | error e => rfl
  | ok _ =>
    simp only [bind, Except.bind]
    unfold Struct.flushIntoL0
    simp only
    have e : (if st.bare.levels.length = 0 then
          { st.bare with levels := st.bare.levels ++ [Level.new 0 (Struct.shardCap L st.bare.sf)]
                         state := st.bare.state ++ [{ reccnt := 0, reccap := Struct.levelCap st.bare.bufSize st.bare.sf 0
                                                      shardcnt := 0, shardcap := Struct.shardCap L st.bare.sf }] }
        else st.bare) = (if st.levels.length = 0 then
          { st with levels := st.levels ++ [Level.new 0 (Struct.shardCap L st.sf)]
                    state := st.state ++ [{ reccnt := 0, reccap := Struct.levelCap st.bufSize st.sf 0
                                            shardcnt := 0, shardcap := Struct.shardCap L st.sf }] }
        else st).bare := by
      rw [show st.bare.levels.length = st.levels.length by simp [Struct.bare]]
      split
      · simp [Struct.bare, new_bare]
      · rfl
    rw [e]
    generalize (if st.levels.length = 0 then
          { st with levels := st.levels ++ [Level.new 0 (Struct.shardCap L st.sf)]
                    state := st.state ++ [{ reccnt := 0, reccap := Struct.levelCap st.bufSize st.sf 0
                                            shardcnt := 0, shardcap := Struct.shardCap L st.sf }] }
        else st) = st1
    rw [show st1.bare.levels = st1.levels.map Level.bare from rfl, getR_map, show st1.bare.state = st1.state from rfl]
    cases getR st1.levels 0 with
    | error e => rfl
    | ok old =>
      simp only [Except.map, bind, Except.bind]
      rw [newL0_bare h]
      cases Struct.newL0 L I old v with
      | error e => rfl
      | ok nl =>
        simp only [Except.map]
        cases getR st1.state 0 with
        | error e => rfl
        | ok s0 =>
          simp only [Except.ok.injEq]
          rw [recordCount_bare]
          simp only [Struct.bare, List.map_set]
          rfl

theorem tasks_bare (L : Layout) (st : Struct R) (n : Nat) :
    Struct.getReconstructionTasks L st.bare n = Struct.getReconstructionTasks L st n := by
  have e0 : ∀ sc, Struct.grow L st.bare sc = Struct.grow L st sc := fun sc => by simp [Struct.grow, Struct.bare]
  unfold Struct.getReconstructionTasks Struct.tasksFromLevel
  rw [show st.bare.state = st.state from rfl]
  simp only [e0]

end

/-! ### The index -/

theorem flush_bare {d : Index R} (h : d.impl.Blind) : d.bare.flush = d.flush.map Index.bare := by
  unfold Index.flush
  rw [show d.bare.str = d.str.bare from rfl, show d.bare.L = d.L from rfl, show d.bare.impl = d.impl.bare from rfl,
    show d.bare.buf = d.buf from rfl, copy_bare]
  simp only
  rw [tasks_bare]
  cases Struct.getReconstructionTasks d.L d.str.copy d.buf.hwm with
  | error e => rfl
  | ok ts =>
    simp only [bind, Except.bind]
    rw [runTasks_bare h]
    cases Struct.runTasks d.L d.impl d.str.copy ts with
    | error e => rfl
    | ok st =>
      simp only [Except.map]
      rw [flushBuffer_bare h]
      cases Struct.flushBuffer d.L d.impl st d.buf.view with
      | error e => rfl
      | ok st' =>
        simp only [Except.map]
        cases d.buf.advanceHead d.buf.view.tail <;> rfl

theorem append_bare {d : Index R} (h : d.impl.Blind) (r : R) (ts : Bool) :
    d.bare.internalAppend r ts = (d.internalAppend r ts).map (Prod.map Index.bare id) := by
  unfold Index.internalAppend
  rw [show d.bare.buf = d.buf from rfl, flush_bare h]
  split
  · cases d.flush <;> rfl
  · rfl

theorem step_bare [DecidableEq R] {d : Index R} (h : d.impl.Blind) (o : Index.Op R) :
    d.bare.step o = (d.step o).map (Prod.map Index.bare id) := by
  cases o with
  | ins r => exact append_bare h r false
  | del r =>
    simp only [Index.step, Index.erase]
    rw [show d.bare.tagging = d.tagging from rfl]
    split
    · rw [show d.bare.impl = d.impl.bare from rfl, show d.bare.str.levels = d.str.levels.map Level.bare from rfl, taggedDelete_bare h]
      cases Struct.taggedDeleteIn d.impl r d.str.levels with
      | error e => rfl
      | ok o => cases o <;> rfl
    · exact append_bare h r true

theorem step_impl [DecidableEq R] {d d' : Index R} {o : Index.Op R} {b : Bool} (h : d.step o = .ok (d', b)) : d'.impl = d.impl := by
  have hf : ∀ {d d' : Index R}, d.flush = .ok d' → d'.impl = d.impl := by
    intro d d' h
    unfold Index.flush at h
    simp only [bind_ok] at h
    obtain ⟨_, _, _, _, _, _, _, _, h⟩ := h
    cases h; rfl
  have ha : ∀ {r ts}, d.internalAppend r ts = .ok (d', b) → d'.impl = d.impl := by
    intro r ts h
    unfold Index.internalAppend at h
    obtain ⟨d1, e, h2⟩ : ∃ d1 : Index R, d1.impl = d.impl ∧ (.ok ({ d1 with buf := (d1.buf.append r ts).1 }, (d1.buf.append r ts).2) : Res _) = .ok (d', b) := by
      split at h
      · rw [bind_ok] at h
        obtain ⟨d1, h1, h2⟩ := h
        exact ⟨d1, hf h1, h2⟩
      · exact ⟨d, rfl, h⟩
    rw [← e]
    obtain rfl : d' = { d1 with buf := (d1.buf.append r ts).1 } := (congrArg Prod.fst (Except.ok.inj h2)).symm
    rfl
  cases o with
  | ins r => exact ha h
  | del r =>
    simp only [Index.step, Index.erase] at h
    split at h
    · rw [bind_ok] at h
      obtain ⟨o, h1, h2⟩ := h
      cases o <;> cases h2 <;> rfl
    · exact ha h

/-- An index and the same index without tombstone counts return the same and stay the same. -/
theorem run_bare [DecidableEq R] : ∀ (ops : List (Index.Op R)) {d : Index R}, d.impl.Blind →
    d.bare.run ops = (d.run ops).map (Prod.map Index.bare id)
  | [], d, _ => rfl
  | o :: ops, d, h => by
    simp only [Index.run]
    rw [step_bare h]
    cases hs : d.step o with
    | error e => rfl
    | ok p =>
      obtain ⟨d1, b⟩ := p
      have e := step_impl hs
      simp only [Except.map, bind, Except.bind, Prod.map, id]
      rw [run_bare ops (d := d1) (by rw [e]; exact h)]
      cases d1.run ops <;> rfl

theorem new_counted [Inhabited R] {L : Layout} {tag : Bool} {I : ShardImpl R} {lwm hwm sf : Nat} :
    (Index.new L tag I.counted lwm hwm sf).map Index.bare = (Index.new L tag I lwm hwm sf).map Index.bare := by
  unfold Index.new
  cases Buffer.new (R := R) lwm hwm with
  | error e => rfl
  | ok b =>
    simp only [bind, Except.bind]
    split
    · cases assertC (decide (sf = 2)) with
      | error e => rfl
      | ok _ => simp only [Except.map, Index.bare, counted_bare]
    · simp only [Except.map, Index.bare, counted_bare]

end DE
