import Verif.Proofs.Run

/-!
The BSM layout: one flush seen abstractly.
-/

namespace DE
variable {R : Type}

/-- One BSM level. -/
structure BLInv (l : Level R) (s : LState) : Prop where
  shards : ∃ k, l.shards = l.visible.map some ++ List.replicate k none
  cnt : l.visible.length = l.cnt
  le : l.visible.length ≤ 1
  pending : l.pending = none
  state : s.reccnt = l.recordCount

/-- BSM structure, without any promise on level 0. -/
structure BWInv (st : Struct R) : Prop where
  len : st.levels.length = st.state.length
  lvl : ∀ (i : Nat) (l : Level R) (s : LState), st.levels[i]? = some l → st.state[i]? = some s → BLInv l s

/-- BSM structure between operations: level 0 holds one shard with records. -/
structure BSInv (st : Struct R) : Prop extends BWInv st where
  l0 : ∀ ss : List (Shard R), st.abs[0]? = some ss → ∃ s, ss = [s] ∧ s.data ≠ []

theorem BLInv.present {l : Level R} {s : LState} (h : BLInv l s) : l.present = l.visible := by
  obtain ⟨k, hk⟩ := h.shards
  unfold Level.present
  rw [hk, filterMap_some_none]

theorem BLInv.clone_eq {l : Level R} {s : LState} (h : BLInv l s) : l.clone = l := by
  obtain ⟨k, hk⟩ := h.shards
  unfold Level.clone
  have h1 : l.shards.take l.cnt ++ List.replicate (l.shards.length - l.cnt) none = l.shards := by
    have hl : l.shards.length - l.cnt = k := by
      rw [hk]; simp [h.cnt]
    rw [hl]
    conv_rhs => rw [hk]
    rw [hk, List.take_append_of_le_length (by simp [h.cnt]), List.take_of_length_le (by simp [h.cnt])]
  rw [h1]
  have hp := h.pending
  clear h h1
  cases l; simp at hp; simp [hp]

theorem BWInv.copy_eq {st : Struct R} (h : BWInv st) : st.copy = st := by
  unfold Struct.copy
  have : st.levels.map Level.clone = st.levels := by
    conv_rhs => rw [← List.map_id st.levels]
    apply List.map_congr_left
    intro l hl
    obtain ⟨i, hi, rfl⟩ := List.mem_iff_getElem.mp hl
    obtain ⟨s, hs⟩ := getElem?_of_lt (l := st.state) (i := i) (by rw [← h.len]; exact hi)
    exact (h.lvl i _ s (List.getElem?_eq_getElem hi) hs).clone_eq
  rw [this]

/-- level `i` has no records -/
def absZero (A : List (List (Shard R))) (i : Nat) : Bool :=
  match A[i]? with
  | none => false
  | some ss => decide (recs ss = 0)

theorem BWInv.can {st : Struct R} (h : BWInv st) (idx n : Nat) :
    Struct.canReconstructWith .bsm idx n st.state = absZero st.abs idx := by
  unfold Struct.canReconstructWith absZero Struct.abs
  rw [List.getElem?_map]
  cases hl : st.levels[idx]? with
  | none =>
    have : st.state[idx]? = none := by
      rw [List.getElem?_eq_none_iff] at *; rw [← h.len]; exact hl
    simp [this]
  | some l =>
    obtain ⟨s, hs⟩ := getElem?_of_lt (l := st.state) (i := idx) (by rw [← h.len]; exact lt_of_getElem? hl)
    rw [hs]
    simp [(h.lvl idx l s hl hs).state, recordCount_eq]

/-- The BSM target level: the first level from 1 on without records, or a new one. -/
structure BaseSpec (A : List (List (Shard R))) (base : Nat) : Prop where
  pos : 0 < base
  le : base ≤ A.length
  full : ∀ j, 1 ≤ j → j < base → absZero A j = false
  free : base < A.length → absZero A base = true

theorem bsmLoop_ok : ∀ (base : Nat) (sc : List LState) (acc : List Nat) (n : Nat), base ≤ sc.length →
    ∃ n' sc', Struct.bsmLoop 0 base sc acc n = .ok (acc ++ downTo base, n', sc') ∧ sc'.length = sc.length
  | 0, sc, acc, n, _ => ⟨n, sc, by simp [Struct.bsmLoop, downTo], rfl⟩
  | i+1, sc, acc, n, h => by
    obtain ⟨sp, hsp⟩ := getElem?_of_lt (l := sc) (i := i) (by omega)
    rw [Struct.bsmLoop, if_pos (by omega)]
    simp only [getR, hsp]
    obtain ⟨n', sc', h1, h2⟩ := bsmLoop_ok i (sc.set i { sp with reccnt := 0, shardcnt := 0 }) (acc ++ [i])
      (n + sp.reccnt) (by simp; omega)
    refine ⟨n', sc', ?_, by rw [h2]; simp⟩
    simp only [bind, Except.bind]
    rw [h1, List.append_assoc]; rfl

theorem bplan_empty {st : Struct R} (h : BWInv st) (h0 : st.levels = []) (n : Nat) :
    Struct.getReconstructionTasks .bsm st n = .ok [] := by
  have hs : st.state = [] := List.eq_nil_of_length_eq_zero (by rw [← h.len, h0]; rfl)
  unfold Struct.getReconstructionTasks Struct.tasksFromLevel Struct.findReconstructionTarget Struct.grow
  rw [hs, h0]
  simp [Struct.canReconstructWith, bind, Except.bind, getR]

theorem bplan_spec {st : Struct R} (h : BSInv st) (h0 : st.levels ≠ []) (n : Nat) :
    ∃ base k, Struct.getReconstructionTasks .bsm st n = .ok [{ sources := downTo base, target := base, reccnt := k }] ∧
      BaseSpec st.abs base := by
  have habs : st.abs.length = st.levels.length := by simp [Struct.abs]
  have hlen : 0 < st.levels.length := List.length_pos_iff.mpr h0
  obtain ⟨s0, hs0⟩ := getElem?_of_lt (l := st.state) (i := 0) (by rw [← h.len]; exact hlen)
  have hc : Struct.canReconstructWith .bsm 0 n st.state = false := by
    rw [h.can]
    obtain ⟨ss, hss⟩ := getElem?_of_lt (l := st.abs) (i := 0) (by rw [habs]; exact hlen)
    obtain ⟨s, rfl, hne⟩ := h.l0 ss hss
    unfold absZero
    rw [hss]
    have : s.data.length ≠ 0 := fun e => hne (List.eq_nil_of_length_eq_zero e)
    simpa [recs] using this
  have key : ∃ sc base, (∃ tgt, Struct.findReconstructionTarget .bsm 0 st.state = .ok tgt ∧
      (match tgt with
        | some b => (st.state, b)
        | none => Struct.grow .bsm st st.state) = (sc, base)) ∧ base < sc.length ∧ BaseSpec st.abs base := by
    unfold Struct.findReconstructionTarget
    rw [if_neg (by rw [← h.len]; omega)]
    simp only [getR, hs0, bind, Except.bind]
    cases ht : Struct.findTarget .bsm s0.reccnt st.state (0+1) (st.state.length - (0+1)) with
    | some b =>
      obtain ⟨h1, h2, h3, h4⟩ := findTarget_some ht
      have hlb : b < st.state.length := by have := h.len; omega
      refine ⟨st.state, b, ⟨some b, rfl, rfl⟩, hlb, ⟨by omega, by rw [habs, h.len]; omega, ?_, ?_⟩⟩
      · intro j hj1 hj2; rw [← h.can j s0.reccnt]; exact h4 j (by omega) hj2
      · intro _; rw [← h.can b s0.reccnt]; exact h3
    | none =>
      have h4 := findTarget_none ht
      refine ⟨_, _, ⟨none, rfl, rfl⟩, by simp [Struct.grow, h.len], ?_⟩
      refine ⟨by simpa [Struct.grow] using hlen, by simp [Struct.grow, habs], ?_, ?_⟩
      · intro j hj1 hj2
        rw [← h.can j s0.reccnt]
        have hj2' : j < st.levels.length := hj2
        exact h4 j (by omega) (by have := h.len; omega)
      · intro hb; simp [Struct.grow, habs] at hb
  obtain ⟨sc, base, ⟨tgt, e1, e2⟩, hb, hspec⟩ := key
  obtain ⟨k, sc', l1, l2⟩ := bsmLoop_ok base sc [] 0 (by omega)
  obtain ⟨sb, hsb⟩ := getElem?_of_lt (l := sc') (i := base) (by omega)
  obtain ⟨s00, hs00⟩ := getElem?_of_lt (l := sc'.set base { sb with reccnt := k, shardcnt := 1 }) (i := 0) (by
    simp; omega)
  refine ⟨base, k, ?_, hspec⟩
  have hgen : ∀ x : List LState × Nat, x = (sc, base) →
      ((if x.2 = 0 then (.ok ([], x.1) : Res (List Task × List LState))
        else do
          let (srcs, n, scratch) ← Struct.bsmLoop 0 x.2 x.1 [] 0
          let s ← getR scratch x.2
          .ok ([{ sources := srcs, target := x.2, reccnt := n }],
             scratch.set x.2 { s with reccnt := n, shardcnt := 1 })) =
       .ok ([{ sources := downTo base, target := base, reccnt := k }], sc'.set base { sb with reccnt := k, shardcnt := 1 })) := by
    rintro _ rfl
    simp only
    rw [if_neg (by have := hspec.pos; omega), l1]
    simp [getR, hsb, bind, Except.bind]
  have ht : Struct.tasksFromLevel .bsm st 0 st.state =
      .ok ([{ sources := downTo base, target := base, reccnt := k }], sc'.set base { sb with reccnt := k, shardcnt := 1 }) := by
    unfold Struct.tasksFromLevel
    rw [e1]
    exact hgen _ e2
  unfold Struct.getReconstructionTasks
  rw [hc, ht]
  simp [bind, Except.bind, getR, hs00]

/-! ### Executing the BSM task -/

theorem foldl_sources {bs sf tgt : Nat} : ∀ (ss : List Nat) (st : Struct R), st.bufSize = bs → st.sf = sf →
    let st' := ss.foldl (fun st s =>
      { st with levels := st.levels.set s (Level.new s 1)
                state := st.state.set s { reccnt := 0, reccap := Struct.levelCap st.bufSize st.sf tgt
                                          shardcnt := 0, shardcap := 1 } }) st
    st'.bufSize = bs ∧ st'.sf = sf ∧ st'.levels.length = st.levels.length ∧ st'.state.length = st.state.length ∧
    (∀ i : Nat, st'.levels[i]? = if i ∈ ss then (st.levels[i]?).map (fun _ => Level.new i 1) else st.levels[i]?) ∧
    (∀ i : Nat, st'.state[i]? = if i ∈ ss then (st.state[i]?).map (fun _ =>
        ({ reccnt := 0, reccap := Struct.levelCap bs sf tgt, shardcnt := 0, shardcap := 1 } : LState)) else st.state[i]?)
  | [], st, h1, h2 => ⟨h1, h2, rfl, rfl, by simp, by simp⟩
  | s :: ss, st, h1, h2 => by
    intro st'
    obtain ⟨g1, g2, g5, g6, g3, g4⟩ := foldl_sources (bs := bs) (sf := sf) (tgt := tgt) ss
      { st with levels := st.levels.set s (Level.new s 1)
                state := st.state.set s { reccnt := 0, reccap := Struct.levelCap st.bufSize st.sf tgt
                                          shardcnt := 0, shardcap := 1 } } h1 h2
    refine ⟨g1, g2, by simpa [st'] using g5, by simpa [st'] using g6, ?_, ?_⟩
    · intro i
      have := g3 i
      simp only [List.foldl_cons, st'] at this ⊢
      rw [this]
      simp only [List.getElem?_set, List.mem_cons]
      by_cases e : s = i
      · subst e
        by_cases hl : s < st.levels.length
        · simp [hl]
        · simp [hl]
      · have e' : i ≠ s := fun x => e x.symm
        simp [e, e']
    · intro i
      have := g4 i
      simp only [List.foldl_cons, st'] at this ⊢
      rw [this, h1, h2]
      simp only [List.getElem?_set, List.mem_cons]
      by_cases e : s = i
      · subst e
        by_cases hl : s < st.state.length
        · simp [hl]
        · simp [hl]
      · have e' : i ≠ s := fun x => e x.symm
        simp [e, e']

theorem mem_downTo {i k : Nat} : i ∈ downTo k ↔ i < k := by
  induction k with
  | zero => simp [downTo]
  | succ k ih => simp only [downTo, List.mem_cons, ih]; omega

theorem sources_ok {st : Struct R} (h : BWInv st) : ∀ (base : Nat), base ≤ st.levels.length →
    ∃ srcs, (downTo base).mapM (getR st.levels) = (.ok srcs : Res _) ∧
      srcs.flatMap Level.present = (st.abs.take base).reverse.flatten
  | 0, _ => ⟨[], rfl, by simp⟩
  | k+1, hk => by
    obtain ⟨srcs, h1, h2⟩ := sources_ok h k (by omega)
    obtain ⟨l, hl⟩ := getElem?_of_lt (l := st.levels) (i := k) (by omega)
    obtain ⟨s, hs⟩ := getElem?_of_lt (l := st.state) (i := k) (by rw [← h.len]; omega)
    refine ⟨l :: srcs, ?_, ?_⟩
    · rw [downTo, List.mapM_cons]
      rw [h1]
      simp only [getR, hl]
      rfl
    · rw [List.flatMap_cons, h2, (h.lvl k l s hl hs).present]
      have ha : st.abs[k]? = some l.visible := by simp [Struct.abs, hl]
      rw [List.take_add_one, ha]
      simp

theorem linv_new_bsm (no : Nat) (s : LState) (h : s.reccnt = 0) : BLInv (Level.new no 1 : Level R) s where
  shards := ⟨1, by rw [visible_new]; rfl⟩
  cnt := by rw [visible_new]; rfl
  le := by rw [visible_new]; simp
  pending := rfl
  state := by rw [h, recordCount_eq, visible_new]; rfl

theorem single_visible (no : Nat) (m : Shard R) (k : Nat) :
    ({ no := no, cnt := 1, shards := some m :: List.replicate k none, pending := none } : Level R).visible = [m] :=
  visible_of (vis := [m]) (k := k)

theorem linv_single_bsm (no k : Nat) (m : Shard R) (s : LState) (h : s.reccnt = m.data.length) :
    BLInv ({ no := no, cnt := 1, shards := some m :: List.replicate k none, pending := none } : Level R) s where
  shards := ⟨k, by rw [single_visible]; rfl⟩
  cnt := by rw [single_visible]; rfl
  le := by rw [single_visible]; simp
  pending := rfl
  state := by rw [h, recordCount_eq, single_visible]; simp [recs]

/-- levels after the reconstruction -/
def bsmMid (A : List (List (Shard R))) (base : Nat) (m : Shard R) : List (List (Shard R)) :=
  List.replicate base [] ++ [m] :: A.drop (base+1)

theorem bsmMid_get {A : List (List (Shard R))} {base : Nat} {m : Shard R} (i : Nat) :
    (bsmMid A base m)[i]? = if i < base then some [] else if i = base then some [m] else A[i]? := by
  unfold bsmMid
  by_cases h1 : i < base
  · rw [List.getElem?_append_left (by simpa using h1)]
    simp [h1]
  · rw [List.getElem?_append_right (by simpa using h1)]
    simp only [List.length_replicate, h1, if_false]
    by_cases h2 : i = base
    · subst h2; simp
    · rw [if_neg h2, show i - base = (i - base - 1) + 1 by omega, List.getElem?_cons_succ, List.getElem?_drop]
      congr 1; omega

theorem reconstructBSM_abs (I : ShardImpl R) {st : Struct R} (h : BWInv st) {base k : Nat} (hpos : 0 < base)
    (hle : base ≤ st.levels.length) :
    (∃ e, Struct.reconstructBSM I st { sources := downTo base, target := base, reccnt := k } = .error e ∧
      I.merge ((st.abs.take base).reverse.flatten.map some) = .error e) ∨
    (∃ st' m, Struct.reconstructBSM I st { sources := downTo base, target := base, reccnt := k } = .ok st' ∧
      I.merge ((st.abs.take base).reverse.flatten.map some) = .ok m ∧ st'.abs = bsmMid st.abs base m ∧
      BWInv st' ∧ st'.bufSize = st.bufSize ∧ st'.sf = st.sf ∧ st'.levels[0]? = some (Level.new 0 1)) := by
  obtain ⟨srcs, h1, h2⟩ := sources_ok h base hle
  unfold Struct.reconstructBSM Level.reconstructMany
  simp only [h1]
  rw [show ∀ f : List (Level R) → Res (Struct R), ((Except.ok srcs : Res _) >>= f) = f srcs from fun f => rfl]
  rw [h2]
  cases hm : I.merge ((st.abs.take base).reverse.flatten.map some) with
  | error e => left; exact ⟨e, rfl, rfl⟩
  | ok m =>
    right
    simp only [bind, Except.bind]
    have hnl : ({ no := base, cnt := 1, shards := [some m], pending := none } : Level R).recordCount = m.data.length := by
      rw [recordCount_eq]
      rw [show ({ no := base, cnt := 1, shards := [some m], pending := none } : Level R).visible = [m] from
        single_visible base m 0]
      simp [recs]
    rw [hnl]
    -- the structure with the new level written
    obtain ⟨st1, hst1, b1, b2, b3, hl1, hs1⟩ : ∃ st1 : Struct R,
        (if base ≥ st.levels.length then
          { st with state := st.state ++ [{ reccnt := m.data.length, reccap := Struct.levelCap st.bufSize st.sf base
                                            shardcnt := 1, shardcap := 1 }]
                    levels := st.levels ++ [{ no := base, cnt := 1, shards := [some m], pending := none }] }
        else { st with state := st.state.set base { reccnt := m.data.length, reccap := Struct.levelCap st.bufSize st.sf base
                                                    shardcnt := 1, shardcap := 1 }
                       levels := st.levels.set base { no := base, cnt := 1, shards := [some m], pending := none } }) = st1 ∧
        st1.bufSize = st.bufSize ∧ st1.sf = st.sf ∧ st1.levels.length = st1.state.length ∧
        (∀ i : Nat, st1.levels[i]? = if i = base then some { no := base, cnt := 1, shards := [some m], pending := none }
          else st.levels[i]?) ∧
        (∀ i : Nat, st1.state[i]? = if i = base then some { reccnt := m.data.length, reccap := Struct.levelCap st.bufSize st.sf base, shardcnt := 1, shardcap := 1 }
          else st.state[i]?) := by
      refine ⟨_, rfl, ?_, ?_, ?_, ?_, ?_⟩
      · split <;> rfl
      · split <;> rfl
      · split <;> simp [h.len]
      · intro i
        split
        · next hge =>
          have hb : base = st.levels.length := by omega
          simp only
          by_cases hi : i = base
          · rw [if_pos hi, hi, hb]; simp
          · rw [if_neg hi]
            rcases Nat.lt_or_ge i st.levels.length with hlt | hge'
            · rw [List.getElem?_append_left hlt]
            · rw [List.getElem?_eq_none (by simp; omega), List.getElem?_eq_none hge']
        · next hlt =>
          simp only
          by_cases hi : i = base
          · rw [if_pos hi, hi, List.getElem?_set_self (by omega)]
          · rw [if_neg hi, List.getElem?_set_ne (fun e => hi e.symm)]
      · intro i
        have hlen := h.len
        split
        · next hge =>
          have hb : base = st.state.length := by omega
          simp only
          by_cases hi : i = base
          · rw [if_pos hi, hi, hb]; simp
          · rw [if_neg hi]
            rcases Nat.lt_or_ge i st.state.length with hlt | hge'
            · rw [List.getElem?_append_left hlt]
            · rw [List.getElem?_eq_none (by simp; omega), List.getElem?_eq_none hge']
        · next hlt =>
          simp only
          by_cases hi : i = base
          · rw [if_pos hi, hi, List.getElem?_set_self (by omega)]
          · rw [if_neg hi, List.getElem?_set_ne (fun e => hi e.symm)]
    rw [hst1]
    obtain ⟨g1, g2, g5, g6, g3, g4⟩ := foldl_sources (bs := st.bufSize) (sf := st.sf) (tgt := base) (downTo base) st1 b1 b2
    refine ⟨_, m, rfl, rfl, ?_, ?_, g1, g2, ?_⟩
    · apply List.ext_getElem?
      intro i
      rw [bsmMid_get]
      unfold Struct.abs
      rw [List.getElem?_map, List.getElem?_map, g3, hl1]
      simp only [mem_downTo]
      by_cases hi : i < base
      · have hne : i ≠ base := by omega
        obtain ⟨l, hl⟩ := getElem?_of_lt (l := st.levels) (i := i) (by omega)
        simp [hi, hne, hl, visible_new]
      · by_cases hi2 : i = base
        · subst hi2
          simp only [lt_irrefl, if_false, if_true, Option.map_some]
          exact congrArg some (single_visible i m 0)
        · simp [hi, hi2]
    · have hlen := h.len
      refine ⟨by rw [g5, g6, b3], ?_⟩
      · intro i l s hl hs
        rw [g3, hl1] at hl
        rw [g4, hs1] at hs
        simp only [mem_downTo] at hl hs
        by_cases hi : i < base
        · rw [if_pos hi] at hl hs
          have hne : i ≠ base := by omega
          rw [if_neg hne] at hl hs
          obtain ⟨l0, hl0⟩ := getElem?_of_lt (l := st.levels) (i := i) (by omega)
          obtain ⟨s0, hs0⟩ := getElem?_of_lt (l := st.state) (i := i) (by omega)
          rw [hl0] at hl; rw [hs0] at hs
          simp at hl hs
          subst hl hs
          exact linv_new_bsm _ _ rfl
        · rw [if_neg hi] at hl hs
          by_cases hi2 : i = base
          · rw [if_pos hi2] at hl hs
            cases hl; cases hs
            exact linv_single_bsm base 0 m _ rfl
          · rw [if_neg hi2] at hl hs
            exact h.lvl i l s hl hs
    · rw [g3, hl1]
      simp only [mem_downTo]
      have hne : (0 : Nat) ≠ base := by omega
      obtain ⟨l, hl⟩ := getElem?_of_lt (l := st.levels) (i := 0) (by omega)
      simp [hpos, hne, hl]

end DE

namespace DE
variable {R : Type}

theorem flushL0_bsm (I : ShardImpl R) {st : Struct R} (h : BWInv st) {c : Nat} (hc : 0 < c)
    (h0 : st.levels[0]? = some (Level.new 0 c)) (v : View R) :
    (∃ e, Struct.flushBuffer .bsm I st v = .error e ∧ I.build v = .error e) ∨
    (∃ st' s, Struct.flushBuffer .bsm I st v = .ok st' ∧ I.build v = .ok s ∧ st'.abs = st.abs.set 0 [s] ∧
      BWInv st' ∧ st'.bufSize = st.bufSize ∧ st'.sf = st.sf) := by
  have hlen : 0 < st.levels.length := lt_of_getElem? h0
  obtain ⟨s0, hs0⟩ := getElem?_of_lt (l := st.state) (i := 0) (by rw [← h.len]; exact hlen)
  have hz : s0.reccnt = 0 := by
    rw [(h.lvl 0 _ s0 h0 hs0).state, recordCount_eq, visible_new]; rfl
  unfold Struct.flushBuffer Struct.flushIntoL0
  simp only
  rw [if_neg (by rw [← h.len]; omega)]
  have hcan : Struct.canReconstructWith .bsm 0 v.count st.state = true := by
    simp [Struct.canReconstructWith, hs0, hz]
  rw [hcan, if_neg (by omega)]
  simp only [getR, h0, hs0, assertC, if_true, bind, Except.bind]
  have hn : Struct.newL0 .bsm I (Level.new 0 c) v = (do
      let s ← I.build v
      .ok { no := 0, cnt := 1, shards := some s :: List.replicate (c-1) none, pending := none }) := by
    simp only [Struct.newL0, Level.appendBuffer]
    rw [if_neg (by simp [Level.new]; omega)]
    obtain ⟨c, rfl⟩ : ∃ k, c = k+1 := ⟨c-1, by omega⟩
    simp [Level.new, List.replicate_succ]
  rw [hn]
  cases hb : I.build v with
  | error e => left; exact ⟨e, rfl, rfl⟩
  | ok s =>
    right
    refine ⟨_, s, rfl, rfl, ?_, ?_, rfl, rfl⟩
    · simp only [Struct.abs, List.map_set, single_visible]
    · refine ⟨by simp [h.len], ?_⟩
      intro i l t hl ht
      simp only [List.getElem?_set] at hl ht
      by_cases hi : 0 = i
      · subst hi
        have hlen' : 0 < st.state.length := by rw [← h.len]; exact hlen
        simp [hlen, hlen'] at hl ht
        subst hl ht
        refine linv_single_bsm 0 (c-1) s _ ?_
        simp only [recordCount_eq, single_visible]
        simp [recs]
      · rw [if_neg hi] at hl ht
        exact h.lvl i l t hl ht

/-- Abstract reconstruction part of a BSM flush. -/
def absBMid (I : ShardImpl R) (A : List (List (Shard R))) (base : Nat) : Res (List (List (Shard R))) :=
  match A with
  | [] => .ok [[]]
  | a :: A => do
    let m ← I.merge (((a :: A).take base).reverse.flatten.map some)
    .ok (bsmMid (a :: A) base m)

/-- Abstract BSM flush. -/
def absB (I : ShardImpl R) (A : List (List (Shard R))) (base : Nat) (v : View R) : Res (List (List (Shard R))) := do
  let A1 ← absBMid I A base
  let s ← I.build v
  .ok (A1.set 0 [s])

/-- Invariant of the serial index under BSM. -/
structure Index.BInv (d : Index R) : Prop where
  lay : d.L = .bsm
  wf : d.buf.WF
  lwm : 0 < d.buf.lwm
  cnt : d.buf.tail - d.buf.head ≤ d.buf.lwm
  sf : 0 < d.str.sf
  str : BSInv d.str

theorem bflush_abs {d : Index R} (h : d.BInv) (hat : d.buf.atLwm = true) :
    ∃ base, (d.str.abs ≠ [] → BaseSpec d.str.abs base) ∧
      ((∃ e, d.flush = .error e ∧ absB d.impl d.str.abs base d.buf.view = .error e) ∨
       (∃ st', d.flush = .ok { d with buf := d.buf.emptied, str := st' } ∧
          absB d.impl d.str.abs base d.buf.view = .ok st'.abs ∧ BWInv st' ∧ st'.sf = d.str.sf)) := by
  have hcnt : d.buf.lwm ≤ d.buf.tail - d.buf.head := by simpa [Buffer.atLwm, Buffer.count] using hat
  have hadv : d.buf.advanceHead d.buf.view.tail = .ok d.buf.emptied :=
    Buffer.advanceHead_tail (by have := h.lwm; omega)
  have hw : BWInv d.str := h.str.toBWInv
  by_cases h0 : d.str.levels = []
  · have hA : d.str.abs = [] := by simp [Struct.abs, h0]
    refine ⟨0, fun hne => absurd hA hne, ?_⟩
    have hs0 : d.str.state = [] := List.eq_nil_of_length_eq_zero (by rw [← hw.len, h0]; rfl)
    have hpush : Struct.flushBuffer .bsm d.impl d.str d.buf.view = Struct.flushBuffer .bsm d.impl
        { d.str with levels := [Level.new 0 d.str.sf]
                     state := [{ reccnt := 0, reccap := Struct.levelCap d.str.bufSize d.str.sf 0
                                 shardcnt := 0, shardcap := d.str.sf }] } d.buf.view := by
      unfold Struct.flushBuffer Struct.flushIntoL0 Struct.grow
      simp [h0, hs0, Struct.shardCap]
    have hw1 : BWInv ({ d.str with levels := [Level.new 0 d.str.sf]
                                   state := [{ reccnt := 0, reccap := Struct.levelCap d.str.bufSize d.str.sf 0
                                               shardcnt := 0, shardcap := d.str.sf }] } : Struct R) := by
      refine ⟨rfl, ?_⟩
      intro i l s hl hs
      cases i with
      | succ i => simp at hl
      | zero =>
        simp at hl hs
        subst hl hs
        exact ⟨⟨d.str.sf, by rw [visible_new]; simp [Level.new]⟩, by rw [visible_new]; rfl, by rw [visible_new]; simp, rfl,
          by rw [recordCount_eq, visible_new]; rfl⟩
    have hfl : d.flush = (do
        let str ← Struct.flushBuffer .bsm d.impl d.str d.buf.view
        .ok { d with buf := d.buf.emptied, str := str }) := by
      unfold Index.flush
      rw [hw.copy_eq, h.lay]
      simp only [bplan_empty hw h0, Struct.runTasks, bind, Except.bind]
      cases Struct.flushBuffer .bsm d.impl d.str d.buf.view with
      | error e => rfl
      | ok st2 => simp only; rw [hadv]
    rw [hfl, hpush]
    rcases flushL0_bsm d.impl hw1 (c := d.str.sf) h.sf rfl d.buf.view with ⟨e, f1, f2⟩ | ⟨st', s, f1, f2, f3, f4, -, f6⟩
    · left; exact ⟨e, by rw [f1]; rfl, by rw [hA]; simp [absB, absBMid, f2, bind, Except.bind]⟩
    · right
      refine ⟨st', by rw [f1]; rfl, ?_, f4, f6⟩
      rw [hA]
      simp only [absB, absBMid, f2, bind, Except.bind, f3]
      simp [Struct.abs, visible_new]
  · have hA : d.str.abs ≠ [] := by simpa [Struct.abs] using h0
    obtain ⟨base, k, p1, p2⟩ := bplan_spec h.str h0 d.buf.hwm
    refine ⟨base, fun _ => p2, ?_⟩
    have habs : d.str.abs.length = d.str.levels.length := by simp [Struct.abs]
    have hfl : d.flush = (do
        let str ← Struct.reconstructBSM d.impl d.str { sources := downTo base, target := base, reccnt := k }
        let str ← Struct.flushBuffer .bsm d.impl str d.buf.view
        .ok { d with buf := d.buf.emptied, str := str }) := by
      unfold Index.flush
      rw [hw.copy_eq, h.lay]
      simp only [p1, Struct.runTasks, bind, Except.bind]
      cases Struct.reconstructBSM d.impl d.str { sources := downTo base, target := base, reccnt := k } with
      | error e => rfl
      | ok st1 =>
        simp only
        cases Struct.flushBuffer .bsm d.impl st1 d.buf.view with
        | error e => rfl
        | ok st2 => simp only; rw [hadv]
    have hmid : absBMid d.impl d.str.abs base = (do
        let m ← d.impl.merge ((d.str.abs.take base).reverse.flatten.map some)
        .ok (bsmMid d.str.abs base m)) := by
      generalize d.str.abs = A at hA
      cases A with
      | nil => exact absurd rfl hA
      | cons a A => rfl
    rw [hfl]
    unfold absB
    rw [hmid]
    rcases reconstructBSM_abs d.impl hw p2.pos (by rw [← habs]; exact p2.le) (k := k) with
      ⟨e, f1, f2⟩ | ⟨st1, m, f1, f2, f3, f4, f5, f6, f7⟩
    · left; exact ⟨e, by rw [f1]; rfl, by rw [f2]; rfl⟩
    · rw [f1, f2]
      rcases flushL0_bsm d.impl f4 (by omega) f7 d.buf.view with ⟨e, g1, g2⟩ | ⟨st', s, g1, g2, g3, g4, -, g6⟩
      · left
        refine ⟨e, ?_, ?_⟩
        · simp only [bind, Except.bind, g1]
        · simp only [bind, Except.bind, g2]
      · right
        refine ⟨st', ?_, ?_, g4, g6.trans f6⟩
        · simp only [bind, Except.bind, g1]
        · simp only [bind, Except.bind, g2, g3, f3]

end DE
