import Verif.Proofs.Plan
import Verif.Proofs.Merge

/-!
One flush of the whole index (leveling and tiering), seen abstractly.
-/

namespace DE
variable {R : Type}

/-! ### Copying the structure -/

theorem LInv.clone_eq {L : Layout} {bs sf i : Nat} {l : Level R} {s : LState} (h : LInv L bs sf i l s) :
    l.clone = l := by
  unfold Level.clone
  have h1 : l.shards.take l.cnt ++ List.replicate (l.shards.length - l.cnt) none = l.shards := by
    have hl : l.shards.length = Struct.shardCap L sf := by
      rw [h.shards]; simp [h.cnt]; have := h.le; omega
    rw [hl]
    conv_rhs => rw [h.shards]
    rw [h.shards, List.take_append_of_le_length (by simp [h.cnt]), List.take_of_length_le (by simp [h.cnt])]
  rw [h1]
  have := h.pending
  cases l; simp_all

theorem SInv.copy_eq {L : Layout} {st : Struct R} (h : SInv L st) : st.copy = st := by
  unfold Struct.copy
  have : st.levels.map Level.clone = st.levels := by
    conv_rhs => rw [← List.map_id st.levels]
    apply List.map_congr_left
    intro l hl
    obtain ⟨i, hi, rfl⟩ := List.mem_iff_getElem.mp hl
    obtain ⟨s, hs⟩ := getElem?_of_lt (l := st.state) (i := i) (by rw [← h.len]; exact hi)
    exact (h.lvl i _ s (List.getElem?_eq_getElem hi) hs).clone_eq
  rw [this]

/-! ### Flushing the buffer into level 0 -/

/-- Abstract form of the new level 0. -/
def absNew0 (L : Layout) (I : ShardImpl R) (old : List (Shard R)) (v : View R) : Res (List (Shard R)) := do
  let s ← I.build v
  match L with
  | .leveling =>
    match old with
    | d :: _ => do
      let m ← I.merge [some d, some s]
      .ok [m]
    | [] => .ok [s]
  | _ => .ok (old ++ [s])

/-- At least one level. -/
def withL0 (A : List (List (Shard R))) : List (List (Shard R)) := if A.length = 0 then A ++ [[]] else A

/-- Abstract form of `flush_buffer_into_l0`. -/
def absL0 (L : Layout) (I : ShardImpl R) (A : List (List (Shard R))) (v : View R) :
    Res (List (List (Shard R))) := do
  let old ← getR (withL0 A) 0
  let n ← absNew0 L I old v
  .ok ((withL0 A).set 0 n)

theorem flushBuffer_abs {L : Layout} (hL : L ≠ .bsm) (I : ShardImpl R) {st : Struct R} (h : SInv L st) {v : View R}
    (hc : absCan L st.bufSize st.sf (withL0 st.abs) 0 v.count = true) :
    (∃ e, Struct.flushBuffer L I st v = .error e ∧ absL0 L I st.abs v = .error e) ∨
    (∃ st', Struct.flushBuffer L I st v = .ok st' ∧ absL0 L I st.abs v = .ok st'.abs ∧
      SInv L st' ∧ st'.bufSize = st.bufSize ∧ st'.sf = st.sf) := by
  have habs : st.abs.length = st.levels.length := by simp [Struct.abs]
  obtain ⟨st1, hst1, hinv1, habs1, hbs1, hsf1, hlen1, hstate⟩ : ∃ st1 : Struct R,
      (if st.levels.length = 0 then
        { st with levels := st.levels ++ [Level.new 0 (Struct.shardCap L st.sf)]
                  state := st.state ++ [{ reccnt := 0, reccap := Struct.levelCap st.bufSize st.sf 0
                                          shardcnt := 0, shardcap := Struct.shardCap L st.sf }] }
       else st) = st1 ∧ SInv L st1 ∧
      st1.abs = withL0 st.abs ∧
      st1.bufSize = st.bufSize ∧ st1.sf = st.sf ∧ 0 < st1.levels.length ∧
      (if st.state.length = 0 then (Struct.grow L st st.state).1 else st.state) = st1.state := by
    by_cases hg : st.levels.length = 0
    · refine ⟨_, rfl, ?_, ?_, ?_, ?_, ?_, ?_⟩
      · rw [if_pos hg]
        have := h.push
        rw [hg] at this; exact this
      · rw [if_pos hg, withL0, if_pos (by rw [habs]; exact hg)]
        simp [Struct.abs, visible_new]
      · rw [if_pos hg]
      · rw [if_pos hg]
      · rw [if_pos hg]; simp
      · rw [if_pos hg, if_pos (by rw [← h.len]; exact hg)]; simp [Struct.grow, hg]
    · refine ⟨st, by rw [if_neg hg], h, ?_, rfl, rfl, by omega, ?_⟩
      · rw [withL0, if_neg (by rw [habs]; exact hg)]
      · rw [if_neg (by rw [← h.len]; exact hg)]
  obtain ⟨l0, hl0⟩ := getElem?_of_lt hlen1
  obtain ⟨s0, hs0⟩ := getElem?_of_lt (l := st1.state) (i := 0) (by rw [← hinv1.len]; exact hlen1)
  have i0 := hinv1.lvl _ _ _ hl0 hs0
  have hA0 : st1.abs[0]? = some l0.visible := by simp [Struct.abs, hl0]
  have hcan : Struct.canReconstructWith L 0 v.count st1.state = true := by
    rw [hinv1.can, habs1, hbs1, hsf1]; exact hc
  have hf : Struct.flushBuffer L I st v = (do
      let nl ← Struct.newL0 L I l0 v
      .ok { st1 with levels := st1.levels.set 0 nl
                     state := st1.state.set 0 { s0 with reccnt := nl.recordCount, shardcnt := nl.cnt } }) := by
    unfold Struct.flushBuffer Struct.flushIntoL0
    simp only
    rw [hstate, hcan, hst1]
    simp only [getR, hl0, hs0, assertC]
    rfl
  have ha : absL0 L I st.abs v = (do
      let n ← absNew0 L I l0.visible v
      .ok (st1.abs.set 0 n)) := by
    unfold absL0
    rw [← habs1]
    simp only [getR, hA0]
    rfl
  rw [hf, ha]
  suffices hs : (∃ e, Struct.newL0 L I l0 v = .error e ∧ absNew0 L I l0.visible v = .error e) ∨
      (∃ nl, Struct.newL0 L I l0 v = .ok nl ∧ absNew0 L I l0.visible v = .ok nl.visible ∧
        LInv L st.bufSize st.sf 0 nl
          { reccnt := nl.recordCount, reccap := Struct.levelCap st.bufSize st.sf 0
            shardcnt := nl.cnt, shardcap := Struct.shardCap L st.sf }) by
    rcases hs with ⟨e, h1, h2⟩ | ⟨nl, h1, h2, h3⟩
    · left; exact ⟨e, by rw [h1]; rfl, by rw [h2]; rfl⟩
    · right
      have hst : { s0 with reccnt := nl.recordCount, shardcnt := nl.cnt } =
          ({ reccnt := nl.recordCount, reccap := Struct.levelCap st.bufSize st.sf 0
             shardcnt := nl.cnt, shardcap := Struct.shardCap L st.sf } : LState) := by
        have := i0.state
        rw [this, hbs1, hsf1]
      refine ⟨{ st1 with levels := st1.levels.set 0 nl
                         state := st1.state.set 0 { s0 with reccnt := nl.recordCount, shardcnt := nl.cnt } },
        by rw [h1]; rfl, ?_, ?_, hbs1, hsf1⟩
      · rw [h2]; simp [Struct.abs, List.map_set, bind, Except.bind]
      · rw [hst]
        exact hinv1.set (by rw [hbs1, hsf1]; exact h3)
  rw [hbs1, hsf1] at i0
  cases L with
  | bsm => exact absurd rfl hL
  | leveling =>
    simp only [Struct.newL0, absNew0]
    have happ : Level.appendBuffer I (Level.new 0 1) v = (do
        let s ← I.build v
        .ok { no := 0, cnt := 1, shards := [some s], pending := none }) := rfl
    rw [happ]
    cases hb : I.build v with
    | error e => left; exact ⟨e, rfl, rfl⟩
    | ok s =>
      by_cases hb0 : l0.visible = []
      · have hc0 : l0.cnt = 0 := by rw [← i0.cnt, hb0]; rfl
        right
        refine ⟨{ no := 0, cnt := 1, shards := [some s], pending := none }, ?_, ?_, ?_⟩
        · simp [bind, Except.bind, hc0]
        · rw [hb0]; rfl
        · exact (linv_single s).2
      · obtain ⟨d0, hbv, hbcnt, hbsh, hbno⟩ := i0.leveling_nonempty hb0
        unfold Level.reconstruct2
        rw [hbv, hbsh, hbno, hbcnt]
        simp only [getR, assertC, bind, Except.bind]
        cases hm : I.merge [some d0, some s] with
        | error e => left; exact ⟨e, by simp [hm], by simp⟩
        | ok m =>
          right
          have hf := linv_single (R := R) (bs := st.bufSize) (sf := st.sf) (i := 0) m
          refine ⟨{ no := 0, cnt := 1, shards := [some m], pending := none }, by simp [hm], ?_, hf.2⟩
          rw [hf.1]
  | tiering =>
    simp only [Struct.newL0, absNew0]
    have hroom : l0.cnt < st.sf := by
      rw [← habs1] at hc
      rw [← i0.cnt]
      simpa [absCan, hA0] using hc
    have hbl : l0.shards.length = st.sf := by
      rw [i0.shards]; simp [Struct.shardCap, i0.cnt]; omega
    unfold Level.appendBuffer
    rw [if_neg (by omega)]
    cases hb : I.build v with
    | error e => left; exact ⟨e, rfl, rfl⟩
    | ok s =>
      right
      have hf := linv_append i0 hroom (by simp) s
      refine ⟨_, rfl, ?_, hf.2⟩
      rw [hf.1]; rfl

/-! ### The whole flush -/

/-- Invariant of the serial index (leveling and tiering). -/
structure Index.Inv (d : Index R) : Prop where
  lay : d.L ≠ .bsm
  wf : d.buf.WF
  lwm : 0 < d.buf.lwm
  cnt : d.buf.tail - d.buf.head ≤ d.buf.lwm
  sf : 0 < d.str.sf
  bs : d.str.bufSize = d.buf.hwm
  str : SInv d.L d.str
  lev0 : d.L = .leveling → ∀ s0, d.str.abs[0]? = some s0 → recs s0 ≤ Struct.levelCap d.str.bufSize d.str.sf 0

/-- Abstract flush: the chain of moves chosen by the planner, then the new level 0. -/
structure FlushSpec (d : Index R) (base : Nat) : Prop where
  plan : PlanSpec d.L d.str.bufSize d.str.sf d.str.abs d.str.bufSize base
  pre : RunPre d.L d.str.sf d.str.abs base

/-- the buffer after a flush -/
def Buffer.emptied (b : Buffer R) : Buffer R := { b with head := b.tail }

theorem absCan_empty {L : Layout} (hL : L ≠ .bsm) {bs sf n : Nat} {A : List (List (Shard R))}
    (hA : A[0]? = some []) (hsf : 0 < sf) (hn : n ≤ bs) : absCan L bs sf A 0 n = true := by
  unfold absCan
  rw [hA]
  cases L with
  | bsm => exact absurd rfl hL
  | leveling =>
    simp [recs, Struct.levelCap]
    exact le_trans hn (Nat.le_mul_of_pos_right _ hsf)
  | tiering => simpa using hsf

theorem absCan_mono {L : Layout} {bs sf n m idx : Nat} {A : List (List (Shard R))}
    (h : absCan L bs sf A idx m = true) (hn : n ≤ m) : absCan L bs sf A idx n = true := by
  unfold absCan at *
  cases hA : A[idx]? with
  | none => simp [hA] at h
  | some ss =>
    rw [hA] at h
    cases L with
    | bsm => exact h
    | leveling => simp at h ⊢; omega
    | tiering => exact h

theorem withL0_getElem {A : List (List (Shard R))} {s : List (Shard R)} (h : A[0]? = some s) : withL0 A = A := by
  rw [withL0, if_neg]
  have := lt_of_getElem? h; omega

/-- After the chain of moves level 0 has room for a whole buffer. -/
theorem FlushSpec.can {d : Index R} (h : d.Inv) {base : Nat} (hf : FlushSpec d base) {A1 : List (List (Shard R))}
    (g2 : absRun d.L d.impl base d.str.abs = .ok A1) {n : Nat} (hvc : n ≤ d.str.bufSize) :
    absCan d.L d.str.bufSize d.str.sf (withL0 A1) 0 n = true := by
  obtain ⟨h3, hpre⟩ := hf
  rcases h3 with ⟨hb, hor⟩ | ⟨hpos, _⟩
  · subst hb
    rw [absRun] at g2
    have g2' : d.str.abs = A1 := Except.ok.inj g2
    rcases hor with h0 | h0
    · rw [← g2', h0]
      exact absCan_empty h.lay (by simp [withL0]) h.sf hvc
    · have : ∃ s, d.str.abs[0]? = some s := by
        cases hs : d.str.abs[0]? with
        | none => simp [absCan, hs] at h0
        | some s => exact ⟨s, rfl⟩
      obtain ⟨s, hs⟩ := this
      rw [← g2', withL0_getElem hs]
      exact absCan_mono h0 hvc
  · have h0 := absRun_zero base hpre hpos g2
    rw [withL0_getElem h0]
    exact absCan_empty h.lay h0 h.sf hvc

theorem flush_abs {d : Index R} (h : d.Inv) (hat : d.buf.atLwm = true) :
    ∃ base, FlushSpec d base ∧
      ((∃ e, d.flush = .error e ∧ (absRun d.L d.impl base d.str.abs >>= fun A1 => absL0 d.L d.impl A1 d.buf.view) = .error e) ∨
       (∃ st', d.flush = .ok { d with buf := d.buf.emptied, str := st' } ∧
          (absRun d.L d.impl base d.str.abs >>= fun A1 => absL0 d.L d.impl A1 d.buf.view) = .ok st'.abs ∧
          SInv d.L st' ∧ st'.bufSize = d.str.bufSize ∧ st'.sf = d.str.sf)) := by
  have hcnt : d.buf.lwm ≤ d.buf.tail - d.buf.head := by simpa [Buffer.atLwm, Buffer.count] using hat
  obtain ⟨ts, base, h1, h2, h3⟩ := plan_spec h.lay h.str d.buf.hwm
  rw [← h.bs] at h3
  have hvc : d.buf.view.count ≤ d.str.bufSize := by
    have := h.wf.cnt
    rw [h.bs]; exact this
  have hpre : RunPre d.L d.str.sf d.str.abs base := by
    refine h3.runPre h.lay h.sf h.lev0 ?_
    intro hT s0 hs0 hb
    rcases h3 with ⟨_, hor⟩ | ⟨hpos, _⟩
    · rcases hor with h0 | h0
      · rw [h0] at hs0; simp at hs0
      · rw [hT] at h0; simpa [absCan, hs0] using h0
    · omega
  refine ⟨base, ⟨h3, hpre⟩, ?_⟩
  have hfl : d.flush = (do
      let str ← runDown d.L d.impl base d.str
      let str ← Struct.flushBuffer d.L d.impl str d.buf.view
      .ok { d with buf := d.buf.emptied, str := str }) := by
    unfold Index.flush
    rw [h.str.copy_eq]
    simp only [h1, bind, Except.bind]
    rw [runTasks_shape h.lay d.impl base ts d.str h2]
    cases runDown d.L d.impl base d.str with
    | error e => rfl
    | ok st =>
      simp only
      cases Struct.flushBuffer d.L d.impl st d.buf.view with
      | error e => rfl
      | ok st2 =>
        simp only
        rw [show d.buf.view.tail = d.buf.tail from rfl, Buffer.advanceHead_tail (by have := h.lwm; omega)]
        rfl
  rw [hfl]
  rcases runDown_abs h.lay d.impl base h.str hpre with ⟨e, g1, g2⟩ | ⟨st1, g1, g2, g3, g4, g5⟩
  · left; exact ⟨e, by rw [g1]; rfl, by rw [g2]; rfl⟩
  · have hcan : absCan d.L st1.bufSize st1.sf (withL0 st1.abs) 0 d.buf.view.count = true := by
      rw [g4, g5]
      exact FlushSpec.can h ⟨h3, hpre⟩ g2 hvc
    rw [g1, g2]
    rcases flushBuffer_abs h.lay d.impl g3 hcan with ⟨e, f1, f2⟩ | ⟨st2, f1, f2, f3, f4, f5⟩
    · left; exact ⟨e, by show (Struct.flushBuffer _ _ _ _ >>= _) = _; rw [f1]; rfl, f2⟩
    · right
      exact ⟨st2, by show (Struct.flushBuffer _ _ _ _ >>= _) = _; rw [f1]; rfl, f2, f3, f4.trans g4, f5.trans g5⟩

end DE
