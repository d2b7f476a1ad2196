import Verif.Model.Capacity
import Verif.Proofs.BSMShape

/-!
A run with capacities computed by a fallible function is the exact run as long as the function is exact for the levels there are.
-/

namespace DE
variable {R : Type}

/-- `cp` is exact for the levels below `B`. -/
def Agree (cp : Nat → Nat → Nat → Res Nat) (bs sf B : Nat) : Prop := ∀ i, i < B → cp bs sf i = .ok (Struct.levelCap bs sf i)

theorem Agree.mono {cp : Nat → Nat → Nat → Res Nat} {bs sf B B' : Nat} (h : Agree cp bs sf B) (hle : B' ≤ B) : Agree cp bs sf B' :=
  fun i hi => h i (by omega)

namespace CapD
variable {cp : Nat → Nat → Nat → Res Nat}

theorem reconstruct_eq {L : Layout} {I : ShardImpl R} {st st' : Struct R} {b i : Nat}
    (h : Struct.reconstruct L I st b i = .ok st') (ha : Agree cp st.bufSize st.sf st'.levels.length) :
    CapD.reconstruct cp L I st b i = .ok st' ∧ st'.bufSize = st.bufSize ∧ st'.sf = st.sf ∧ b < st'.levels.length ∧
      (st.state.length = st.levels.length → st'.state.length = st'.levels.length) := by
  unfold Struct.reconstruct at h
  simp only [bind_ok] at h
  obtain ⟨lb, h1, li, h2, nb, h3, e⟩ := h
  cases e
  simp only [List.length_set] at ha ⊢
  have hb := (List.getElem?_eq_some_iff.mp (getR_ok h1)).1
  have hi := (List.getElem?_eq_some_iff.mp (getR_ok h2)).1
  unfold CapD.reconstruct
  by_cases hc : b ≥ st.levels.length
  · simp only [hc, if_true] at ha hb hi h1 h2 h3 ⊢
    simp only [ha b hb, bind, Except.bind]
    rw [h1]
    simp only
    rw [h2]
    simp only
    rw [h3]
    simp only [ha i hi]
    exact ⟨trivial, trivial, trivial, hb, fun h => by simp [h]⟩
  · simp only [hc, if_false] at ha hb hi h1 h2 h3 ⊢
    simp only [bind, Except.bind]
    rw [h1]
    simp only
    rw [h2]
    simp only
    rw [h3]
    simp only [ha b hb, ha i hi]
    exact ⟨trivial, trivial, trivial, hb, fun h => h⟩

theorem runLoop_len {L : Layout} {I : ShardImpl R} : ∀ (ts : List Task) (st st' : Struct R), ts.foldlM (fun st t => do
    let src ← DE.getR t.sources 0
    Struct.reconstruct L I st t.target src) st = .ok st' → st.levels.length ≤ st'.levels.length := by
  intro ts
  induction ts with
  | nil => intro st st' h; cases h; exact le_refl _
  | cons t ts ih =>
    intro st st' h
    rw [List.foldlM_cons, bind_ok] at h
    obtain ⟨st1, h1, h2⟩ := h
    rw [bind_ok] at h1
    obtain ⟨src, h0, h1⟩ := h1
    exact le_trans (reconstruct_height h1) (ih _ _ h2)

theorem runLoop_eq {L : Layout} {I : ShardImpl R} : ∀ (ts : List Task) (st st' : Struct R), ts.foldlM (fun st t => do
      let src ← DE.getR t.sources 0
      Struct.reconstruct L I st t.target src) st = .ok st' → Agree cp st.bufSize st.sf st'.levels.length →
    ts.foldlM (fun st t => do
      let src ← DE.getR t.sources 0
      CapD.reconstruct cp L I st t.target src) st = .ok st' ∧ st'.bufSize = st.bufSize ∧ st'.sf = st.sf ∧
      (∀ t ∈ ts, t.target < st'.levels.length) ∧ (st.state.length = st.levels.length → st'.state.length = st'.levels.length) := by
  intro ts
  induction ts with
  | nil => intro st st' h _; cases h; exact ⟨rfl, rfl, rfl, by simp, fun h => h⟩
  | cons t ts ih =>
    intro st st' h ha
    rw [List.foldlM_cons, bind_ok] at h
    obtain ⟨st1, h1, h2⟩ := h
    rw [bind_ok] at h1
    obtain ⟨src, h0, h1⟩ := h1
    have hle : st1.levels.length ≤ st'.levels.length := runLoop_len ts st1 st' h2
    obtain ⟨k1, k2, k3, k4, k5⟩ := reconstruct_eq h1 (ha.mono hle)
    obtain ⟨j1, j2, j3, j4, j5⟩ := ih st1 st' h2 (by rw [k2, k3]; exact ha)
    refine ⟨?_, by rw [j2, k2], by rw [j3, k3], ?_, fun h => j5 (k5 h)⟩
    · rw [List.foldlM_cons, bind_ok]
      refine ⟨st1, ?_, j1⟩
      rw [bind_ok]
      exact ⟨src, h0, k1⟩
    · intro u hu
      rcases List.mem_cons.mp hu with rfl | hu
      · omega
      · exact j4 u hu

/-- One step of the last loop of `reconstruction`. -/
def clearOne (c : Nat) (st : Struct R) (s : Nat) : Struct R :=
  { st with levels := st.levels.set s (Level.new s 1), state := st.state.set s ⟨0, c, 0, 1⟩ }

theorem fold_bsm (tgt : Nat) : ∀ (ss : List Nat) (st : Struct R),
    ss.foldl (clearOne (Struct.levelCap st.bufSize st.sf tgt)) st =
      ss.foldl (fun st s => clearOne (Struct.levelCap st.bufSize st.sf tgt) st s) st ∧
    (ss.foldl (fun st s => clearOne (Struct.levelCap st.bufSize st.sf tgt) st s) st).bufSize = st.bufSize ∧
    (ss.foldl (fun st s => clearOne (Struct.levelCap st.bufSize st.sf tgt) st s) st).sf = st.sf ∧
    (ss.foldl (fun st s => clearOne (Struct.levelCap st.bufSize st.sf tgt) st s) st).levels.length = st.levels.length ∧
    (ss.foldl (fun st s => clearOne (Struct.levelCap st.bufSize st.sf tgt) st s) st).state.length = st.state.length := by
  intro ss
  induction ss with
  | nil => intro st; exact ⟨rfl, rfl, rfl, rfl, rfl⟩
  | cons s ss ih =>
    intro st
    obtain ⟨a1, a2, a3, a4, a5⟩ := ih (clearOne (Struct.levelCap st.bufSize st.sf tgt) st s)
    rw [List.foldl_cons, List.foldl_cons]
    exact ⟨a1, a2, a3, by rw [a4]; simp [clearOne], by rw [a5]; simp [clearOne]⟩

theorem reconstructBSM_eq {I : ShardImpl R} {st st' : Struct R} {t : Task} (h : Struct.reconstructBSM I st t = .ok st')
    (ha : Agree cp st.bufSize st.sf st'.levels.length) (ht : t.target ≤ st.levels.length) :
    CapD.reconstructBSM cp I st t = .ok st' ∧ st'.bufSize = st.bufSize ∧ st'.sf = st.sf ∧ t.target < st'.levels.length ∧
      (st.state.length = st.levels.length → st'.state.length = st'.levels.length) := by
  unfold Struct.reconstructBSM at h
  simp only [bind_ok] at h
  obtain ⟨srcs, h1, nl, h2, e3⟩ := h
  have e3 := Except.ok.inj e3
  generalize hst1 : (if t.target ≥ st.levels.length then
      { st with state := st.state ++ [(⟨nl.recordCount, Struct.levelCap st.bufSize st.sf t.target, 1, 1⟩ : LState)], levels := st.levels ++ [nl] }
    else { st with state := st.state.set t.target ⟨nl.recordCount, Struct.levelCap st.bufSize st.sf t.target, 1, 1⟩,
                   levels := st.levels.set t.target nl }) = st1 at e3
  have hb : st1.bufSize = st.bufSize := by rw [← hst1]; split <;> rfl
  have hs : st1.sf = st.sf := by rw [← hst1]; split <;> rfl
  have hl : t.target < st1.levels.length := by
    rw [← hst1]; split
    · simp only [List.length_append, List.length_singleton]; omega
    · simp only [List.length_set]; omega
  obtain ⟨a1, a2, a3, a4, a5⟩ := fold_bsm t.target t.sources st1
  have e4 : t.sources.foldl (fun st s => clearOne (Struct.levelCap st.bufSize st.sf t.target) st s) st1 = st' := e3
  rw [e4] at a1 a2 a3 a4 a5
  refine ⟨?_, by rw [a2, hb], by rw [a3, hs], by rw [a4]; exact hl, ?_⟩
  · unfold CapD.reconstructBSM
    simp only [bind_ok]
    refine ⟨srcs, h1, nl, h2, _, ha t.target (by rw [a4]; exact hl), ?_⟩
    rw [hb, hs] at a1
    rw [← a1, ← hst1]
    rfl
  · intro h
    rw [a4, a5, ← hst1]
    split <;> simp [h]

theorem flushIntoL0_eq {L : Layout} {I : ShardImpl R} {st st' : Struct R} {v : View R} (h : Struct.flushIntoL0 L I st v = .ok st')
    (ha : Agree cp st.bufSize st.sf st'.levels.length) :
    CapD.flushIntoL0 cp L I st v = .ok st' ∧ 0 < st'.levels.length ∧ st.levels.length ≤ st'.levels.length ∧
      st'.bufSize = st.bufSize ∧ st'.sf = st.sf ∧ (st.state.length = st.levels.length → st'.state.length = st'.levels.length) := by
  unfold Struct.flushIntoL0 at h
  simp only [bind_ok] at h
  obtain ⟨old, h1, nl, h2, s0, h3, e⟩ := h
  cases e
  simp only [List.length_set] at ha ⊢
  have h0 := (List.getElem?_eq_some_iff.mp (getR_ok h1)).1
  unfold CapD.flushIntoL0
  by_cases hc : st.levels.length = 0
  · simp only [hc, if_true] at ha h0 h1 h2 h3 ⊢
    simp only [ha 0 h0, bind, Except.bind]
    rw [h1]
    simp only
    rw [h2]
    simp only
    rw [h3]
    exact ⟨rfl, h0, by simp, trivial, trivial, fun h => by simp [h, hc]⟩
  · simp only [hc, if_false] at ha h0 h1 h2 h3 ⊢
    simp only [bind, Except.bind]
    rw [h1]
    simp only
    rw [h2]
    simp only
    rw [h3]
    exact ⟨rfl, h0, le_refl _, trivial, trivial, fun h => by simp [h]⟩

theorem grow_eq {L : Layout} {st : Struct R} {sc : List LState} {B : Nat} (ha : Agree cp st.bufSize st.sf B) (hB : st.levels.length < B) :
    CapD.grow cp L st sc = .ok (Struct.grow L st sc) := by
  unfold CapD.grow Struct.grow
  simp only [ha _ hB, bind, Except.bind]

theorem flushBuffer_eq {L : Layout} {I : ShardImpl R} {st st' : Struct R} {v : View R} (h : Struct.flushBuffer L I st v = .ok st')
    (ha : Agree cp st.bufSize st.sf st'.levels.length) (hlen : st.state.length = st.levels.length) :
    CapD.flushBuffer cp L I st v = .ok st' ∧ 0 < st'.levels.length ∧ st.levels.length ≤ st'.levels.length ∧
      st'.bufSize = st.bufSize ∧ st'.sf = st.sf ∧ st'.state.length = st'.levels.length := by
  unfold Struct.flushBuffer at h
  simp only [bind_ok] at h
  obtain ⟨u, h1, h2⟩ := h
  obtain ⟨k1, k2, k3, k4, k5, k6⟩ := flushIntoL0_eq h2 ha
  refine ⟨?_, k2, k3, k4, k5, k6 hlen⟩
  unfold CapD.flushBuffer
  by_cases hc : st.state.length = 0
  · rw [if_pos hc] at h1 ⊢
    rw [grow_eq ha (by omega)]
    simp only [bind, Except.bind]
    rw [h1]
    exact k1
  · rw [if_neg hc] at h1 ⊢
    simp only [bind, Except.bind]
    rw [h1]
    exact k1

theorem tasksLoop_mem {L : Layout} {source : Nat} : ∀ (i : Nat) (sc : List LState) (acc ts : List Task) (sc' : List LState),
    Struct.tasksLoop L source i sc acc = .ok (ts, sc') → ∀ t ∈ acc, t ∈ ts
  | 0, sc, acc, ts, sc', h => by cases h; exact fun t ht => ht
  | i + 1, sc, acc, ts, sc', h => by
    unfold Struct.tasksLoop at h
    split at h
    · simp only [bind_ok] at h
      obtain ⟨a, -, b, -, h⟩ := h
      intro t ht
      exact tasksLoop_mem i _ _ _ _ h t (by simp [ht])
    · cases h; exact fun t ht => ht

/-- When the levels are all full, the tasks begin with one that fills the new level. -/
theorem tasksFromLevel_new {L : Layout} {st : Struct R} {sc sc' : List LState} {ts : List Task}
    (h : Struct.tasksFromLevel L st 0 sc = .ok (ts, sc')) (hn : Struct.findReconstructionTarget L 0 sc = .ok none) (h0 : st.levels.length ≠ 0) :
    (L = .bsm → ∃ t, ts = [t] ∧ t.target = st.levels.length) ∧ ∃ t ∈ ts, t.target = st.levels.length := by
  unfold Struct.tasksFromLevel at h
  rw [hn] at h
  simp only [bind, Except.bind, Struct.grow] at h
  have hgen : Struct.tasksLoop L 0 st.levels.length (sc ++ [⟨0, Struct.levelCap st.bufSize st.sf st.levels.length, 0, Struct.shardCap L st.sf⟩]) [] =
      .ok (ts, sc') → ∃ t ∈ ts, t.target = st.levels.length := by
    intro h
    obtain ⟨n, hn⟩ : ∃ n, st.levels.length = n + 1 := ⟨st.levels.length - 1, by omega⟩
    rw [hn] at h ⊢
    unfold Struct.tasksLoop at h
    rw [if_pos (by omega)] at h
    simp only [bind_ok] at h
    obtain ⟨a, -, b, -, h⟩ := h
    exact ⟨_, tasksLoop_mem _ _ _ _ _ h _ (List.mem_append_right _ (List.mem_singleton.mpr rfl)), rfl⟩
  cases L with
  | leveling => exact ⟨by simp, hgen h⟩
  | tiering => exact ⟨by simp, hgen h⟩
  | bsm =>
    simp only [h0, if_false] at h
    split at h
    · cases h
    · split at h
      · cases h
      · cases h
        exact ⟨fun _ => ⟨_, rfl, rfl⟩, _, List.mem_singleton.mpr rfl, rfl⟩

theorem tasksFromLevel_eq {L : Layout} {st : Struct R} {sc : List LState}
    (h : Struct.findReconstructionTarget L 0 sc = .ok none → CapD.grow cp L st sc = .ok (Struct.grow L st sc)) :
    CapD.tasksFromLevel cp L st 0 sc = Struct.tasksFromLevel L st 0 sc := by
  unfold CapD.tasksFromLevel Struct.tasksFromLevel
  match hf : Struct.findReconstructionTarget L 0 sc with
  | .error e => rfl
  | .ok (some b) => rfl
  | .ok none =>
    simp only [bind, Except.bind]
    rw [h hf]
    cases L <;> rfl

theorem findTarget_lt {L : Layout} {n : Nat} {state : List LState} : ∀ (k i b : Nat), Struct.findTarget L n state i k = some b → b < state.length
  | 0, _, _, h => by simp [Struct.findTarget] at h
  | k + 1, i, b, h => by
    unfold Struct.findTarget at h
    split at h
    · next hc =>
      cases h
      unfold Struct.canReconstructWith at hc
      cases hs : state[i]? with
      | none => rw [hs] at hc; simp at hc
      | some s => exact (List.getElem?_eq_some_iff.mp hs).1
    · exact findTarget_lt k (i + 1) b h

theorem target_lt {L : Layout} {state : List LState} {b : Nat} (h : Struct.findReconstructionTarget L 0 state = .ok (some b)) : b < state.length := by
  unfold Struct.findReconstructionTarget at h
  split at h
  · cases h
  · rw [bind_ok] at h
    obtain ⟨s, -, h⟩ := h
    exact findTarget_lt _ _ _ (Except.ok.inj h)

theorem tasks_ok {L : Layout} {st : Struct R} {n : Nat} {ts : List Task} : Struct.getReconstructionTasks L st n = .ok ts ↔
    ∃ sc u, (if Struct.canReconstructWith L 0 n st.state then (.ok ([], st.state) : Res _) else Struct.tasksFromLevel L st 0 st.state) = .ok (ts, sc) ∧
      getR sc 0 = .ok u := by
  unfold Struct.getReconstructionTasks
  by_cases hc : Struct.canReconstructWith L 0 n st.state = true
  · simp only [hc, if_true, bind_ok]
    constructor
    · rintro ⟨⟨a, b⟩, h1, u, h2, h3⟩
      cases h3
      exact ⟨b, u, h1, h2⟩
    · rintro ⟨b, u, h1, h2⟩
      exact ⟨(ts, b), h1, u, h2, rfl⟩
  · rw [Bool.not_eq_true] at hc
    simp only [hc, Bool.false_eq_true, if_false, bind_ok]
    constructor
    · rintro ⟨⟨a, b⟩, h1, u, h2, h3⟩
      cases h3
      exact ⟨b, u, h1, h2⟩
    · rintro ⟨b, u, h1, h2⟩
      exact ⟨(ts, b), h1, u, h2, rfl⟩

theorem tasksD_ok {L : Layout} {st : Struct R} {n : Nat} {ts : List Task} : CapD.getReconstructionTasks cp L st n = .ok ts ↔
    ∃ sc u, (if Struct.canReconstructWith L 0 n st.state then (.ok ([], st.state) : Res _) else CapD.tasksFromLevel cp L st 0 st.state) = .ok (ts, sc) ∧
      getR sc 0 = .ok u := by
  unfold CapD.getReconstructionTasks
  by_cases hc : Struct.canReconstructWith L 0 n st.state = true
  · simp only [hc, if_true, bind_ok]
    constructor
    · rintro ⟨⟨a, b⟩, h1, u, h2, h3⟩
      cases h3
      exact ⟨b, u, h1, h2⟩
    · rintro ⟨b, u, h1, h2⟩
      exact ⟨(ts, b), h1, u, h2, rfl⟩
  · rw [Bool.not_eq_true] at hc
    simp only [hc, Bool.false_eq_true, if_false, bind_ok]
    constructor
    · rintro ⟨⟨a, b⟩, h1, u, h2, h3⟩
      cases h3
      exact ⟨b, u, h1, h2⟩
    · rintro ⟨b, u, h1, h2⟩
      exact ⟨(ts, b), h1, u, h2, rfl⟩

/-- The task of BSM targets a level that exists or the next one. -/
theorem bsm_target {st : Struct R} {n : Nat} {t : Task} {ts : List Task} (h : Struct.getReconstructionTasks .bsm st n = .ok (t :: ts))
    (hlen : st.state.length = st.levels.length) : t.target ≤ st.levels.length := by
  obtain ⟨sc, u, h1, -⟩ := tasks_ok.mp h
  split at h1
  · cases h1
  · unfold Struct.tasksFromLevel at h1
    simp only [bind_ok] at h1
    obtain ⟨tgt, e1, h1⟩ := h1
    cases tgt with
    | some b =>
      have hb := target_lt e1
      simp only at h1
      split at h1
      · cases h1
      · simp only [bind_ok] at h1
        obtain ⟨⟨a, b', c⟩, -, s, -, h1⟩ := h1
        cases h1
        simp only
        omega
    | none =>
      simp only [Struct.grow] at h1
      by_cases hz : st.levels.length = 0
      · simp only [hz, if_true] at h1
        cases h1
      · simp only [hz, if_false, bind_ok] at h1
        obtain ⟨⟨a, b', c⟩, -, s, -, h1⟩ := h1
        cases h1
        exact le_refl _

theorem flush_eq {d d' : Index R} (h : d.flush = .ok d') (ha : Agree cp d.str.bufSize d.str.sf d'.height)
    (hlen : d.str.state.length = d.str.levels.length) :
    CapD.flush cp d = .ok d' ∧ d'.str.bufSize = d.str.bufSize ∧ d'.str.sf = d.str.sf ∧ d'.str.state.length = d'.str.levels.length := by
  unfold Index.flush at h
  simp only [bind_ok] at h
  obtain ⟨ts, h0, s1, h1, s2, h2, b, h3, he⟩ := h
  cases he
  simp only [Index.height, Struct.height] at ha ⊢
  have hl2 : (d.str.copy).state.length = (d.str.copy).levels.length := by simp [Struct.copy, hlen]
  have hs12 : s1.levels.length ≤ s2.levels.length := by
    unfold Struct.flushBuffer Struct.flushIntoL0 at h2
    simp only [bind_ok] at h2
    obtain ⟨-, -, old, -, nl, -, s0, -, e⟩ := h2
    cases e
    simp only [List.length_set]
    split <;> simp
  -- the tasks
  have hrun : CapD.runTasks cp d.L d.impl d.str.copy ts = .ok s1 ∧ s1.bufSize = d.str.bufSize ∧ s1.sf = d.str.sf ∧
      (∀ t ∈ (match d.L with | .bsm => ts.take 1 | _ => ts), t.target < s1.levels.length) ∧ s1.state.length = s1.levels.length := by
    have ha1 : Agree cp d.str.copy.bufSize d.str.copy.sf s1.levels.length := ha.mono hs12
    cases hL : d.L with
    | leveling =>
      rw [hL] at h1
      obtain ⟨k1, k2, k3, k4, k5⟩ := runLoop_eq ts _ _ h1 ha1
      exact ⟨k1, k2, k3, k4, k5 hl2⟩
    | tiering =>
      rw [hL] at h1
      obtain ⟨k1, k2, k3, k4, k5⟩ := runLoop_eq ts _ _ h1 ha1
      exact ⟨k1, k2, k3, k4, k5 hl2⟩
    | bsm =>
      rw [hL] at h1 h0
      cases ts with
      | nil => cases h1; exact ⟨rfl, rfl, rfl, by simp, hl2⟩
      | cons t ts =>
        obtain ⟨k1, k2, k3, k4, k5⟩ := reconstructBSM_eq (cp := cp) (t := t) h1 ha1 (bsm_target h0 hl2)
        exact ⟨k1, k2, k3, by simpa using k4, k5 hl2⟩
  obtain ⟨r1, r2, r3, r4, r5⟩ := hrun
  obtain ⟨f1, f2, f3, f4, f5, f6⟩ := flushBuffer_eq h2 (by rw [r2, r3]; exact ha) r5
  have htask : CapD.getReconstructionTasks cp d.L d.str.copy d.buf.hwm = .ok ts := by
    obtain ⟨sc, u, e1, e2⟩ := tasks_ok.mp h0
    refine tasksD_ok.mpr ⟨sc, u, ?_, e2⟩
    split
    · next hc => rw [if_pos hc] at e1; exact e1
    · next hc =>
      rw [if_neg hc] at e1
      rw [tasksFromLevel_eq, e1]
      intro g1
      refine grow_eq (B := s2.levels.length) ha ?_
      by_cases hz : d.str.copy.levels.length = 0
      · rw [hz]; exact f2
      · obtain ⟨n1, n2⟩ := tasksFromLevel_new e1 g1 hz
        refine lt_of_lt_of_le ?_ hs12
        cases hL : d.L with
        | bsm =>
          obtain ⟨t, ht, hte⟩ := n1 hL
          rw [← hte]
          apply r4
          rw [hL, ht]; simp
        | leveling =>
          obtain ⟨t, ht, hte⟩ := n2
          rw [← hte]
          apply r4
          rw [hL]; exact ht
        | tiering =>
          obtain ⟨t, ht, hte⟩ := n2
          rw [← hte]
          apply r4
          rw [hL]; exact ht
  refine ⟨?_, by rw [f4, r2], by rw [f5, r3], f6⟩
  unfold CapD.flush
  simp only [bind_ok]
  exact ⟨ts, htask, s1, r1, s2, f1, b, h3, rfl⟩

theorem step_eq [DecidableEq R] {d d' : Index R} {o : Index.Op R} {b : Bool} (h : d.step o = .ok (d', b))
    (ha : Agree cp d.str.bufSize d.str.sf d'.height) (hlen : d.str.state.length = d.str.levels.length) :
    CapD.step cp d o = .ok (d', b) ∧ d'.str.bufSize = d.str.bufSize ∧ d'.str.sf = d.str.sf ∧ d'.str.state.length = d'.str.levels.length := by
  have app : ∀ r ts, d.internalAppend r ts = .ok (d', b) → CapD.internalAppend cp d r ts = .ok (d', b) ∧
      d'.str.bufSize = d.str.bufSize ∧ d'.str.sf = d.str.sf ∧ d'.str.state.length = d'.str.levels.length := by
    intro r ts h
    unfold Index.internalAppend at h
    unfold CapD.internalAppend
    by_cases hat : d.buf.atLwm = true
    · simp only [hat, if_true, bind_ok] at h ⊢
      obtain ⟨d1, f1, f2⟩ := h
      have hd' : d'.str = d1.str := by cases f2; rfl
      obtain ⟨k1, k2, k3, k4⟩ := flush_eq (cp := cp) f1 (by simpa [Index.height, hd'] using ha) hlen
      rw [hd']
      exact ⟨⟨d1, k1, f2⟩, k2, k3, k4⟩
    · rw [Bool.not_eq_true] at hat
      simp only [hat, Bool.false_eq_true, if_false, bind_ok] at h ⊢
      obtain ⟨d1, f1, f2⟩ := h
      have hd' : d'.str = d1.str := by cases f2; rfl
      cases f1
      rw [hd']
      exact ⟨⟨d, rfl, f2⟩, rfl, rfl, hlen⟩
  cases o with
  | ins r => exact app r false h
  | del r =>
    simp only [Index.step, CapD.step] at h ⊢
    by_cases ht : d.tagging = true
    · rw [if_pos ht]
      refine ⟨h, ?_⟩
      unfold Index.erase at h
      rw [if_pos ht, bind_ok] at h
      obtain ⟨o, h1, h2⟩ := h
      cases o with
      | some ls => cases h2; exact ⟨rfl, rfl, by simp only [taggedDelete_len h1]; exact hlen⟩
      | none => simp only at h2; cases h2; exact ⟨rfl, rfl, hlen⟩
    · rw [if_neg ht]
      unfold Index.erase at h
      rw [if_neg ht] at h
      exact app r true h

theorem run_eq [DecidableEq R] : ∀ (ops : List (Index.Op R)) {d d' : Index R} {bs : List Bool}, d.run ops = .ok (d', bs) →
    Agree cp d.str.bufSize d.str.sf d'.height → d.str.state.length = d.str.levels.length → CapD.run cp d ops = .ok (d', bs)
  | [], d, d', bs, h, _, _ => by cases h; rfl
  | o :: os, d, d', bs, h, ha, hlen => by
    obtain ⟨d1, b, bs1, h1, h2, rfl⟩ := run_cons.mp h
    obtain ⟨k1, k2, k3, k4⟩ := step_eq (cp := cp) h1 (ha.mono (run_height os h2)) hlen
    have := run_eq os h2 (by rw [k2, k3]; exact ha) k4
    rw [CapD.run]
    simp only [bind_ok]
    exact ⟨(d1, b), k1, (d', bs1), this, rfl⟩

end CapD

/-! ### Rounding -/

theorem log2_le52 {n : Nat} (h : n < 2 ^ 53) : n.log2 - 52 = 0 := by
  by_cases h0 : n = 0
  · subst h0; decide
  · have := (Nat.log2_lt h0).mpr h
    omega

theorem rd53_small {n : Nat} (h : n ≤ 2 ^ 53) : rd53 n = n := by
  rcases Nat.lt_or_eq_of_le h with h | rfl
  · unfold rd53
    rw [log2_le52 h]
    simp [nearestEven, Nat.mod_one]
  · decide

theorem capDouble_exact {pw : Nat → Nat → Nat} (hpw : PowOk pw) {bs sf i : Nat} (hsf : 1 ≤ sf) (hbs : 1 ≤ bs) (h : bs * sf ^ (i + 1) ≤ 2 ^ 53) :
    capDouble pw bs sf i = .ok (Struct.levelCap bs sf i) := by
  have h1 : 0 < sf ^ (i + 1) := Nat.pow_pos hsf
  have h2 : bs ≤ 2 ^ 53 := le_trans (Nat.le_mul_of_pos_right _ h1) h
  have h3 : sf ^ (i + 1) ≤ 2 ^ 53 := le_trans (Nat.le_mul_of_pos_left _ hbs) h
  have h4 : sf ≤ 2 ^ 53 := le_trans (Nat.le_self_pow (by omega) sf) h3
  unfold capDouble Struct.levelCap
  simp only
  rw [rd53_small h4, rd53_small h2, hpw sf (i + 1) (rd53_small h3), rd53_small h, if_pos (by
    refine lt_of_le_of_lt h ?_
    decide)]

theorem rd53_shift {m : Nat} (h : m < 2 ^ 53) (k : Nat) : rd53 (m * 2 ^ k) = m * 2 ^ k := by
  rcases Nat.eq_zero_or_pos m with rfl | hm
  · rw [Nat.zero_mul]; decide
  have hn : m * 2 ^ k ≠ 0 := Nat.mul_ne_zero (by omega) (by positivity)
  have hlog : (m * 2 ^ k).log2 < 53 + k := by
    rw [Nat.log2_lt hn, pow_add]
    exact Nat.mul_lt_mul_of_pos_right h (by positivity)
  have hd : 2 ^ ((m * 2 ^ k).log2 - 52) ∣ m * 2 ^ k :=
    Dvd.dvd.mul_left (Nat.pow_dvd_pow 2 (by omega)) m
  unfold rd53 nearestEven
  simp only
  rw [Nat.mod_eq_zero_of_dvd hd, if_pos (by positivity), Nat.div_mul_cancel hd]

/-- With a scale factor that is a power of two only the product can overflow. -/
theorem capDouble_pow2 {pw : Nat → Nat → Nat} (hpw : PowOk pw) {bs : Nat} (hbs : bs < 2 ^ 53) (e i : Nat) :
    capDouble pw bs (2 ^ e) i =
      if Struct.levelCap bs (2 ^ e) i < 2 ^ 64 then .ok (Struct.levelCap bs (2 ^ e) i) else .error .ub := by
  have hone : ∀ k, rd53 (2 ^ k) = 2 ^ k := by
    intro k
    have := rd53_shift (m := 1) (by decide) k
    rwa [Nat.one_mul] at this
  unfold capDouble Struct.levelCap
  simp only
  rw [hone e, rd53_small (le_of_lt hbs), hpw (2 ^ e) (i + 1) (by rw [← pow_mul]; exact hone _), ← pow_mul, rd53_shift hbs]

end DE
