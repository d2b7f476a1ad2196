import Verif.Proofs.Tagging

/-!
No level ever has more slots for shards than the layout gives it, for every layout and shard class.
-/

namespace DE
variable {R : Type}

/-- Every level has at most `n` slots, and no step creates a level with more. -/
def SCap (L : Layout) (n : Nat) (st : Struct R) : Prop :=
  Struct.shardCap L st.sf ≤ n ∧ 1 ≤ n ∧ ∀ l ∈ st.levels, l.shards.length ≤ n

variable {I : ShardImpl R} {v : View R} {n : Nat}

theorem reconstruct2_cap {a b l : Level R} (h : Level.reconstruct2 I a b = .ok l) : l.shards.length = 1 := by
  unfold Level.reconstruct2 at h
  simp only [bind_ok] at h
  obtain ⟨-, -, s0, h0, s1, h1, m, hm, he⟩ := h
  cases he
  rfl

theorem appendLevel_cap {a b l : Level R} (h : Level.appendLevel I a b = .ok l) : l.shards.length = a.shards.length := by
  unfold Level.appendLevel at h
  split at h
  · cases h; rfl
  · rw [bind_ok] at h
    obtain ⟨m, hm, he⟩ := h
    split at he
    · cases he; rfl
    · cases he; simp

theorem appendBuffer_cap {a l : Level R} (h : Level.appendBuffer I a v = .ok l) : l.shards.length = a.shards.length := by
  unfold Level.appendBuffer at h
  split at h
  · simp only [bind_ok] at h
    obtain ⟨-, -, m, hm, he⟩ := h
    cases he
    rfl
  · simp only [bind_ok] at h
    obtain ⟨m, hm, he⟩ := h
    cases he
    simp

theorem finalize_cap {a l : Level R} (h : a.finalize = .ok l) : l.shards.length = a.shards.length := by
  unfold Level.finalize at h
  split at h
  · cases h; rfl
  · split at h
    · cases h
    · cases h; simp

theorem newBase_cap {L : Layout} {a b l : Level R} (hn : 1 ≤ n) (ha : a.shards.length ≤ n) (hb : b.shards.length ≤ n)
    (h : Struct.newBase L I a b = .ok l) : l.shards.length ≤ n := by
  have hgen : (Level.appendLevel I a b >>= fun l => l.finalize) = .ok l → l.shards.length ≤ n := by
    intro h
    rw [bind_ok] at h
    obtain ⟨m, h1, h2⟩ := h
    rw [finalize_cap h2, appendLevel_cap h1]; exact ha
  cases L with
  | leveling =>
    simp only [Struct.newBase] at h
    split at h
    · rw [reconstruct2_cap h]; exact hn
    · cases h; exact hb
  | tiering => exact hgen h
  | bsm => exact hgen h

theorem reconstruct_cap {L : Layout} {st st' : Struct R} {b i : Nat} (ha : SCap L n st)
    (h : Struct.reconstruct L I st b i = .ok st') : SCap L n st' := by
  unfold Struct.reconstruct at h
  have hgen : ∀ st1 : Struct R, SCap L n st1 → (do
      let lb ← DE.getR st1.levels b
      let li ← DE.getR st1.levels i
      let nb ← Struct.newBase L I lb li
      (.ok { st1 with
        levels := (st1.levels.set b nb).set i (Level.new i (Struct.shardCap L st.sf))
        state := (st1.state.set b
            { reccnt := nb.recordCount, reccap := Struct.levelCap st1.bufSize st1.sf b
              shardcnt := nb.cnt, shardcap := Struct.shardCap L st.sf }).set i
            { reccnt := 0, reccap := Struct.levelCap st1.bufSize st1.sf i, shardcnt := 0, shardcap := Struct.shardCap L st.sf } } :
        Res (Struct R))) = .ok st' → SCap L n st' := by
    intro st1 h1 h
    simp only [bind_ok] at h
    obtain ⟨lb, e1, li, e2, nb, e3, e4⟩ := h
    cases e4
    refine ⟨h1.1, h1.2.1, ?_⟩
    intro l hl
    rcases mem_set2 hl with hl | rfl | rfl
    · exact h1.2.2 l hl
    · exact newBase_cap h1.2.1 (h1.2.2 _ (getR_mem e1)) (h1.2.2 _ (getR_mem e2)) e3
    · simpa [Level.new] using ha.1
  refine hgen _ ?_ h
  split
  · refine ⟨ha.1, ha.2.1, ?_⟩
    intro l hl
    rcases List.mem_append.mp hl with hl | hl
    · exact ha.2.2 l hl
    · simp at hl; subst hl; simpa [Level.new] using ha.1
  · exact ha

theorem reconstructBSM_cap {L : Layout} {st st' : Struct R} {t : Task} (ha : SCap L n st)
    (h : Struct.reconstructBSM I st t = .ok st') : SCap L n st' := by
  unfold Struct.reconstructBSM at h
  simp only [bind_ok] at h
  obtain ⟨srcs, e1, nl, e2, e3⟩ := h
  have hnl : nl.shards.length ≤ n := by
    unfold Level.reconstructMany at e2
    simp only [bind_ok] at e2
    obtain ⟨m, hm, he⟩ := e2
    cases he
    exact ha.2.1
  have hfold : ∀ (ss : List Nat) (st0 : Struct R), SCap L n st0 → SCap L n (ss.foldl (fun st s =>
      { st with levels := st.levels.set s (Level.new s 1)
                state := st.state.set s { reccnt := 0, reccap := Struct.levelCap st.bufSize st.sf t.target
                                          shardcnt := 0, shardcap := 1 } }) st0) := by
    intro ss
    induction ss with
    | nil => intro st0 h0; exact h0
    | cons s ss ih =>
      intro st0 h0
      refine ih _ ⟨h0.1, h0.2.1, ?_⟩
      intro l hl
      rcases List.mem_or_eq_of_mem_set hl with hl | rfl
      · exact h0.2.2 l hl
      · simpa [Level.new] using h0.2.1
  cases e3
  refine hfold _ _ ?_
  split
  · refine ⟨ha.1, ha.2.1, ?_⟩
    intro l hl
    rcases List.mem_append.mp hl with hl | hl
    · exact ha.2.2 l hl
    · simp at hl; subst hl; exact hnl
  · refine ⟨ha.1, ha.2.1, ?_⟩
    intro l hl
    rcases List.mem_or_eq_of_mem_set hl with hl | rfl
    · exact ha.2.2 l hl
    · exact hnl

theorem runTasks_slots {L : Layout} {ts : List Task} {st st' : Struct R} (ha : SCap L n st)
    (h : Struct.runTasks L I st ts = .ok st') : SCap L n st' := by
  have hgen : ∀ (ts : List Task) (st st' : Struct R), SCap L n st → ts.foldlM (fun st t => do
      let src ← DE.getR t.sources 0
      Struct.reconstruct L I st t.target src) st = .ok st' → SCap L n st' := by
    intro ts
    induction ts with
    | nil => intro st st' ha h; cases h; exact ha
    | cons t ts ih =>
      intro st st' ha h
      rw [List.foldlM_cons, bind_ok] at h
      obtain ⟨st1, h1, h2⟩ := h
      rw [bind_ok] at h1
      obtain ⟨src, h0, h1⟩ := h1
      exact ih _ _ (reconstruct_cap ha h1) h2
  cases L with
  | leveling => exact hgen ts st st' ha h
  | tiering => exact hgen ts st st' ha h
  | bsm =>
    cases ts with
    | nil => cases h; exact ha
    | cons t ts => exact reconstructBSM_cap ha h

theorem newL0_cap {L : Layout} {a l : Level R} (hn : 1 ≤ n) (ha : a.shards.length ≤ n) (h : Struct.newL0 L I a v = .ok l) :
    l.shards.length ≤ n := by
  cases L with
  | leveling =>
    simp only [Struct.newL0, bind_ok] at h
    obtain ⟨tmp, h1, h2⟩ := h
    have ht := appendBuffer_cap h1
    split at h2
    · rw [reconstruct2_cap h2]; exact hn
    · cases h2; rw [ht]; simpa [Level.new] using hn
  | tiering => exact (appendBuffer_cap h).trans_le ha
  | bsm => exact (appendBuffer_cap h).trans_le ha

theorem flushIntoL0_slots {L : Layout} {st st' : Struct R} (ha : SCap L n st)
    (h : Struct.flushIntoL0 L I st v = .ok st') : SCap L n st' := by
  unfold Struct.flushIntoL0 at h
  have hgen : ∀ st1 : Struct R, SCap L n st1 → (do
      let old ← DE.getR st1.levels 0
      let nl ← Struct.newL0 L I old v
      let s0 ← DE.getR st1.state 0
      (.ok { st1 with levels := st1.levels.set 0 nl
                      state := st1.state.set 0 { s0 with reccnt := nl.recordCount, shardcnt := nl.cnt } } : Res (Struct R)))
        = .ok st' → SCap L n st' := by
    intro st1 h1 h
    simp only [bind_ok] at h
    obtain ⟨old, e1, nl, e2, s0, -, e4⟩ := h
    cases e4
    refine ⟨h1.1, h1.2.1, ?_⟩
    intro l hl
    rcases List.mem_or_eq_of_mem_set hl with hl | rfl
    · exact h1.2.2 l hl
    · exact newL0_cap h1.2.1 (h1.2.2 _ (getR_mem e1)) e2
  refine hgen _ ?_ h
  split
  · refine ⟨ha.1, ha.2.1, ?_⟩
    intro l hl
    rcases List.mem_append.mp hl with hl | hl
    · exact ha.2.2 l hl
    · simp at hl; subst hl; simpa [Level.new] using ha.1
  · exact ha

theorem copy_slots {L : Layout} {st : Struct R} (hl : SOk st) (ha : SCap L n st) : SCap L n st.copy := by
  refine ⟨ha.1, ha.2.1, ?_⟩
  intro l h
  simp only [Struct.copy, List.mem_map] at h
  obtain ⟨l0, h0, rfl⟩ := h
  have h1 := ha.2.2 l0 h0
  have h2 := (hl l0 h0).1
  simp only [Level.clone, List.length_append, List.length_take, List.length_replicate]
  omega

theorem flush_slots {d d' : Index R} (hl : SOk d.str) (ha : SCap d.L n d.str) (h : d.flush = .ok d') : SCap d'.L n d'.str := by
  unfold Index.flush at h
  simp only [bind_ok] at h
  obtain ⟨ts, -, s1, h1, s2, h2, b, -, he⟩ := h
  cases he
  unfold Struct.flushBuffer at h2
  simp only [bind_ok] at h2
  obtain ⟨-, -, h2⟩ := h2
  exact flushIntoL0_slots (runTasks_slots (copy_slots hl ha) h1) h2

theorem internalAppend_cap {d d' : Index R} (hl : SOk d.str) (ha : SCap d.L n d.str) {r : R} {ts b : Bool}
    (h : d.internalAppend r ts = .ok (d', b)) : SCap d'.L n d'.str := by
  unfold Index.internalAppend at h
  have key : ∀ d1 : Index R, SCap d1.L n d1.str →
      (Except.ok ({ d1 with buf := (d1.buf.append r ts).1 }, (d1.buf.append r ts).2) : Res (Index R × Bool)) = .ok (d', b) →
      SCap d'.L n d'.str := by
    intro d1 h1 h2
    have hd : d' = { d1 with buf := (d1.buf.append r ts).1 } := (congrArg Prod.fst (Except.ok.inj h2)).symm
    rw [hd]; exact h1
  split at h
  · rw [bind_ok] at h
    obtain ⟨d1, h1, h2⟩ := h
    exact key d1 (flush_slots hl ha h1) h2
  · exact key d ha h

theorem deleteRecord_cap {l l' : Level R} {r : R} (hd : l.deleteRecord I r = .ok (some l')) : l'.shards.length = l.shards.length := by
  unfold Level.deleteRecord at hd
  split at hd
  · cases hd
  · rw [bind_ok] at hd
    obtain ⟨o, h1, h2⟩ := hd
    cases o with
    | none => cases h2
    | some ss' =>
      cases h2
      obtain ⟨pre, s, post, j, e1, -, e3, -⟩ := deleteIn_some h1
      simp only
      rw [e1, e3]; simp

theorem step_slots [DecidableEq R] {d d' : Index R} {o : Index.Op R} {b : Bool} (hl : SOk d.str) (ha : SCap d.L n d.str)
    (h : d.step o = .ok (d', b)) : SCap d'.L n d'.str := by
  cases o with
  | ins r => exact internalAppend_cap hl ha h
  | del r =>
    simp only [Index.step, Index.erase] at h
    split at h
    · rw [bind_ok] at h
      obtain ⟨o, h1, h2⟩ := h
      cases o with
      | some ls =>
        cases h2
        obtain ⟨i, l, l', e1, e2, e3, -⟩ := taggedDelete_some h1
        subst e3
        refine ⟨ha.1, ha.2.1, ?_⟩
        intro x hx
        rcases List.mem_or_eq_of_mem_set hx with hx | rfl
        · exact ha.2.2 x hx
        · rw [deleteRecord_cap e2]; exact ha.2.2 l (mem_of_getElem? e1)
      | none => cases h2; exact ha
    · exact internalAppend_cap hl ha h

theorem run_slots [DecidableEq R] {d0 d : Index R} (h0 : BufInv d0.buf) (hl : d0.str.levels = []) (h1 : 1 ≤ d0.str.sf)
    {ops : List (Index.Op R)} {bs : List Bool} (hr : d0.run ops = .ok (d, bs)) : SCap d.L (Struct.shardCap d0.L d0.str.sf) d.str := by
  refine (run_prefix_ind ops (fun _ d _ => SOk d.str ∧ SCap d.L (Struct.shardCap d0.L d0.str.sf) d.str) h0 ?_ ?_ hr).1.2
  · refine ⟨?_, le_refl _, ?_, ?_⟩
    · intro l h; rw [hl] at h; simp at h
    · unfold Struct.shardCap; split <;> omega
    · intro l h; rw [hl] at h; simp at h
  · intro ops o d d' bs b _ _ hP _ _ _ _ hs
    exact ⟨step_lok hP.1 hs, step_slots hP.1 hP.2 hs⟩

/-- As many shards as slots. -/
theorem SCap.shards {L : Layout} {st : Struct R} (h : SCap L n st) : st.visible.length ≤ n * st.height := by
  obtain ⟨-, -, h⟩ := h
  unfold Struct.visible Struct.height
  revert h
  generalize st.levels = ls
  intro h
  induction ls with
  | nil => simp
  | cons l ls ih =>
    have h1 := h l (by simp)
    have h2 := ih (fun x hx => h x (by simp [hx]))
    rw [List.flatMap_cons, List.length_append, List.length_cons, Nat.mul_succ]
    have h3 : l.visible.length ≤ n := by
      unfold Level.visible
      refine le_trans (List.length_filterMap_le _ _) ?_
      rw [List.length_take]; omega
    omega

end DE
