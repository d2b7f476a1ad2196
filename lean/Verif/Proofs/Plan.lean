import Verif.Proofs.Abs

/-!
The planner (`get_reconstruction_tasks`) and the execution of its tasks, for leveling and tiering.
-/

namespace DE
variable {R : Type}

/-- `k-1, ..., 0` -/
def downTo : Nat → List Nat
  | 0 => []
  | k+1 => k :: downTo k

/-- The tasks are exactly the moves `base-1 → base, ..., 0 → 1`. -/
def Shape (ts : List Task) (base : Nat) : Prop :=
  ts.map (fun t => (t.sources, t.target)) = (downTo base).map (fun i => ([i], i+1))

theorem tasksLoop_shape (L : Layout) : ∀ (base : Nat) (sc : List LState) (acc : List Task), base < sc.length →
    ∃ ts sc', Struct.tasksLoop L 0 base sc acc = .ok (acc ++ ts, sc') ∧ sc'.length = sc.length ∧ Shape ts base
  | 0, sc, acc, _ => ⟨[], sc, by simp [Struct.tasksLoop], rfl, rfl⟩
  | i+1, sc, acc, h => by
    obtain ⟨sp, hsp⟩ := getElem?_of_lt (l := sc) (i := i) (by omega)
    obtain ⟨sq, hsq⟩ := getElem?_of_lt (l := sc) (i := i+1) h
    rw [Struct.tasksLoop, if_pos (by omega)]
    simp only [getR, hsp, hsq]
    obtain ⟨ts, sc', h1, h2, h3⟩ := tasksLoop_shape L i
      ((sc.set i { sp with reccnt := 0, shardcnt := 0 }).set (i+1)
        { sq with reccnt := sq.reccnt + sp.reccnt
                  shardcnt := if L = .tiering ∨ sq.shardcnt = 0 then sq.shardcnt + 1 else sq.shardcnt })
      (acc ++ [{ sources := [i], target := i+1
                 reccnt := if L = .leveling ∧ Struct.canReconstructWith L (i+1) sp.reccnt sc then
                   sp.reccnt + sq.reccnt else sp.reccnt }])
      (by simp; omega)
    refine ⟨{ sources := [i], target := i+1
              reccnt := if L = .leveling ∧ Struct.canReconstructWith L (i+1) sp.reccnt sc then
                sp.reccnt + sq.reccnt else sp.reccnt } :: ts, sc', ?_, by rw [h2]; simp, ?_⟩
    · simp only [bind, Except.bind]
      rw [h1, List.append_assoc]; rfl
    · simp only [Shape, List.map_cons, downTo] at h3 ⊢
      rw [h3]

theorem runTasks_shape {L : Layout} (hL : L ≠ .bsm) (I : ShardImpl R) : ∀ (base : Nat) (ts : List Task) (st : Struct R),
    Shape ts base → Struct.runTasks L I st ts = runDown L I base st
  | 0, ts, st, h => by
    have : ts = [] := by simpa [Shape, downTo] using h
    subst this
    cases L <;> simp_all [Struct.runTasks, runDown, pure, Except.pure]
  | k+1, ts, st, h => by
    match ts, h with
    | [], h => simp [Shape, downTo] at h
    | t :: ts, h =>
      simp only [Shape, downTo, List.map_cons, List.cons.injEq, Prod.mk.injEq] at h
      obtain ⟨⟨h1, h2⟩, h3⟩ := h
      have ih := fun st => runTasks_shape hL I k ts st h3
      cases L with
      | bsm => exact absurd rfl hL
      | leveling =>
        simp only [Struct.runTasks] at ih ⊢
        rw [List.foldlM_cons, runDown, h1, h2]
        simp only [getR, List.getElem?_cons_zero]
        simp only [bind, Except.bind]
        cases Struct.reconstruct Layout.leveling I st (k + 1) k with
        | error e => rfl
        | ok a => exact ih a
      | tiering =>
        simp only [Struct.runTasks] at ih ⊢
        rw [List.foldlM_cons, runDown, h1, h2]
        simp only [getR, List.getElem?_cons_zero]
        simp only [bind, Except.bind]
        cases Struct.reconstruct Layout.tiering I st (k + 1) k with
        | error e => rfl
        | ok a => exact ih a

theorem findTarget_some {L : Layout} {inc : Nat} {state : List LState} : ∀ {n i b : Nat},
    Struct.findTarget L inc state i n = some b → i ≤ b ∧ b < i + n ∧
      Struct.canReconstructWith L b inc state = true ∧
      ∀ j, i ≤ j → j < b → Struct.canReconstructWith L j inc state = false
  | 0, i, b, h => by simp [Struct.findTarget] at h
  | n+1, i, b, h => by
    rw [Struct.findTarget] at h
    split at h
    · next hc => cases h; exact ⟨le_refl _, by omega, hc, fun j h1 h2 => by omega⟩
    · next hc =>
      obtain ⟨h1, h2, h3, h4⟩ := findTarget_some h
      refine ⟨by omega, by omega, h3, ?_⟩
      intro j hj1 hj2
      by_cases hij : j = i
      · subst hij; simpa using hc
      · exact h4 j (by omega) hj2

theorem findTarget_none {L : Layout} {inc : Nat} {state : List LState} : ∀ {n i : Nat},
    Struct.findTarget L inc state i n = none →
      ∀ j, i ≤ j → j < i + n → Struct.canReconstructWith L j inc state = false
  | 0, i, h, j, h1, h2 => by omega
  | n+1, i, h, j, h1, h2 => by
    rw [Struct.findTarget] at h
    split at h
    · cases h
    · next hc =>
      by_cases hij : j = i
      · subst hij; simpa using hc
      · exact findTarget_none h j (by omega) (by omega)

/-- What the planner decides: how far down the chain of moves reaches. -/
def PlanSpec (L : Layout) (bs sf : Nat) (A : List (List (Shard R))) (n base : Nat) : Prop :=
  (base = 0 ∧ (A = [] ∨ absCan L bs sf A 0 n = true)) ∨
  (0 < base ∧ base ≤ A.length ∧ absCan L bs sf A 0 n = false ∧
    ∃ s0, A[0]? = some s0 ∧ (∀ j, 1 ≤ j → j < base → absCan L bs sf A j (recs s0) = false) ∧
      (base < A.length → absCan L bs sf A base (recs s0) = true))

theorem plan_spec {L : Layout} (hL : L ≠ .bsm) {st : Struct R} (h : SInv L st) (n : Nat) :
    ∃ ts base, Struct.getReconstructionTasks L st n = .ok ts ∧ Shape ts base ∧
      PlanSpec L st.bufSize st.sf st.abs n base := by
  have habs : st.abs.length = st.levels.length := by simp [Struct.abs]
  unfold Struct.getReconstructionTasks
  by_cases hc : Struct.canReconstructWith L 0 n st.state = true
  · rw [if_pos hc]
    have : ∃ s, st.state[0]? = some s := by
      cases hs : st.state[0]? with
      | none => simp [Struct.canReconstructWith, hs] at hc
      | some s => exact ⟨s, rfl⟩
    obtain ⟨s, hs⟩ := this
    refine ⟨[], 0, by simp [bind, Except.bind, getR, hs], rfl, Or.inl ⟨rfl, Or.inr ?_⟩⟩
    rw [← h.can]; exact hc
  · rw [if_neg hc]
    have hc' : Struct.canReconstructWith L 0 n st.state = false := by simpa using hc
    -- the scratch state and base level
    have key : ∃ sc base, (∃ tgt, Struct.findReconstructionTarget L 0 st.state = .ok tgt ∧
        (match tgt with
          | some b => (st.state, b)
          | none => Struct.grow L st st.state) = (sc, base)) ∧ base < sc.length ∧
        PlanSpec L st.bufSize st.sf st.abs n base := by
      unfold Struct.findReconstructionTarget
      by_cases h0 : st.state.length = 0
      · rw [if_pos ⟨rfl, h0⟩]
        refine ⟨_, _, ⟨none, rfl, rfl⟩, by simp [Struct.grow, h.len], ?_⟩
        left
        refine ⟨by simp [Struct.grow, h.len, h0], Or.inl ?_⟩
        apply List.eq_nil_of_length_eq_zero; rw [habs, h.len, h0]
      · rw [if_neg (by tauto)]
        obtain ⟨s, hs⟩ := getElem?_of_lt (l := st.state) (i := 0) (by omega)
        obtain ⟨l, hl⟩ := getElem?_of_lt (l := st.levels) (i := 0) (by rw [h.len]; omega)
        have hinv := h.lvl _ _ _ hl hs
        have hrec : s.reccnt = recs l.visible := by rw [hinv.state]; rfl
        simp only [getR, hs]
        refine ⟨_, _, ⟨_, rfl, rfl⟩, ?_⟩
        cases hf : Struct.findTarget L s.reccnt st.state (0 + 1) (st.state.length - (0 + 1)) with
        | some b =>
          obtain ⟨h1, h2, h3, h4⟩ := findTarget_some hf
          refine ⟨by simp only; omega, Or.inr ⟨h1, by rw [habs, h.len]; simp only; omega, ?_, l.visible, ?_, ?_, ?_⟩⟩
          · rw [← h.can]; exact hc'
          · simp [Struct.abs, hl]
          · intro j hj1 hj2
            rw [← h.can, ← hrec]; exact h4 j hj1 hj2
          · intro _; rw [← h.can, ← hrec]; exact h3
        | none =>
          have h4 := findTarget_none hf
          refine ⟨by simp [Struct.grow, h.len], Or.inr ⟨?_, ?_, ?_, l.visible, ?_, ?_, ?_⟩⟩
          · simp only [Struct.grow]; rw [h.len]; omega
          · simp only [Struct.grow]; rw [habs]
          · rw [← h.can]; exact hc'
          · simp [Struct.abs, hl]
          · intro j hj1 hj2
            simp only [Struct.grow] at hj2
            rw [← h.can, ← hrec]; exact h4 j hj1 (by rw [h.len] at hj2; omega)
          · intro hlt; simp only [Struct.grow] at hlt; omega
    obtain ⟨sc, base, ⟨tgt, htgt, hsc⟩, hlt, hplan⟩ := key
    obtain ⟨ts, sc', h1, h2, h3⟩ := tasksLoop_shape L base sc [] hlt
    obtain ⟨s, hs⟩ := getElem?_of_lt (l := sc') (i := 0) (by omega)
    refine ⟨ts, base, ?_, h3, hplan⟩
    unfold Struct.tasksFromLevel
    rw [htgt]
    cases tgt with
    | none =>
      simp only at hsc
      cases L with
      | bsm => exact absurd rfl hL
      | leveling => simp only [bind, Except.bind, hsc, h1, List.nil_append, getR, hs]
      | tiering => simp only [bind, Except.bind, hsc, h1, List.nil_append, getR, hs]
    | some b =>
      simp only [Prod.mk.injEq] at hsc
      obtain ⟨rfl, rfl⟩ := hsc
      cases L with
      | bsm => exact absurd rfl hL
      | leveling => simp only [bind, Except.bind, h1, List.nil_append, getR, hs]
      | tiering => simp only [bind, Except.bind, h1, List.nil_append, getR, hs]

/-! ### Running the chain of moves -/

/-- All sources of the chain are non-empty and (tiering) its final target has a free slot. -/
def RunPre (L : Layout) (sf : Nat) (A : List (List (Shard R))) (base : Nat) : Prop :=
  (∀ j, j < base → ∃ src, A[j]? = some src ∧ src ≠ []) ∧
  (L = .tiering → 0 < sf ∧ ∀ dst, A[base]? = some dst → dst.length < sf)

theorem absStep_ok {L : Layout} {I : ShardImpl R} {A A' : List (List (Shard R))} {k : Nat}
    (hk : k < A.length) (h : absStep L I A k = .ok A') :
    ∃ A1 dst src nd, A1 = (if k + 1 ≥ A.length then A ++ [[]] else A) ∧ A1[k+1]? = some dst ∧
      A1[k]? = some src ∧ A[k]? = some src ∧ absComb L I dst src = .ok nd ∧
      A' = (A1.set (k+1) nd).set k [] ∧ k + 1 < A1.length ∧
      (dst = [] ∧ A.length = k + 1 ∨ A[k+1]? = some dst) := by
  unfold absStep at h
  simp only [bind_ok] at h
  obtain ⟨dst, hd, src, hs, nd, hn, he⟩ := h
  have hd' : (if k + 1 ≥ A.length then A ++ [[]] else A)[k+1]? = some dst := by
    unfold getR at hd; split at hd
    · cases hd; assumption
    · cases hd
  have hs' : (if k + 1 ≥ A.length then A ++ [[]] else A)[k]? = some src := by
    unfold getR at hs; split at hs
    · cases hs; assumption
    · cases hs
  refine ⟨_, dst, src, nd, rfl, hd', hs', ?_, hn, ?_, ?_, ?_⟩
  · split at hs'
    · rwa [List.getElem?_append_left hk] at hs'
    · exact hs'
  · cases he; rfl
  · by_contra hc
    rw [List.getElem?_eq_none (by omega)] at hd'; cases hd'
  · split at hd'
    · next hge =>
      left
      have hl : A.length = k + 1 := by omega
      rw [List.getElem?_append_right (by omega), hl] at hd'
      simp at hd'
      exact ⟨hd', hl⟩
    · right; exact hd'

/-- Levels not touched by a move are unchanged. -/
theorem absStep_other {L : Layout} {I : ShardImpl R} {A A' : List (List (Shard R))} {k : Nat}
    (hk : k < A.length) (h : absStep L I A k = .ok A') {j : Nat} (h1 : j ≠ k) (h2 : j ≠ k + 1) :
    A'[j]? = A[j]? := by
  obtain ⟨A1, dst, src, nd, hA1, hd, hs, -, -, he, hlen, hor⟩ := absStep_ok hk h
  rw [he, List.getElem?_set_ne (Ne.symm h1), List.getElem?_set_ne (Ne.symm h2), hA1]
  split
  · next hge =>
    by_cases hj : j < A.length
    · rw [List.getElem?_append_left hj]
    · rw [List.getElem?_eq_none (by simp; omega), List.getElem?_eq_none (by omega)]
  · rfl

theorem absStep_src {L : Layout} {I : ShardImpl R} {A A' : List (List (Shard R))} {k : Nat}
    (hk : k < A.length) (h : absStep L I A k = .ok A') : A'[k]? = some [] := by
  obtain ⟨A1, dst, src, nd, hA1, hd, hs, -, -, he, hlen, hor⟩ := absStep_ok hk h
  rw [he, List.getElem?_set_self (by simp; omega)]

theorem absStep_length {L : Layout} {I : ShardImpl R} {A A' : List (List (Shard R))} {k : Nat}
    (hk : k < A.length) (h : absStep L I A k = .ok A') : A'.length = max A.length (k+2) := by
  obtain ⟨A1, dst, src, nd, hA1, hd, hs, -, -, he, hlen, hor⟩ := absStep_ok hk h
  rw [he, List.length_set, List.length_set, hA1]
  split
  · simp; omega
  · omega

theorem RunPre.step {L : Layout} {sf : Nat} {A : List (List (Shard R))} {k : Nat} (h : RunPre L sf A (k+1)) :
    StepPre L sf A k := ⟨h.1 k (by omega), h.2⟩

theorem lt_of_getElem? {α : Type} {l : List α} {i : Nat} {a : α} (h : l[i]? = some a) : i < l.length := by
  by_contra hc
  rw [List.getElem?_eq_none (by omega)] at h; cases h

theorem RunPre.next {L : Layout} {I : ShardImpl R} {sf : Nat} {A A' : List (List (Shard R))} {k : Nat}
    (h : RunPre L sf A (k+1)) (hs : absStep L I A k = .ok A') : RunPre L sf A' k := by
  obtain ⟨src, hsrc, -⟩ := h.1 k (by omega)
  have hk := lt_of_getElem? hsrc
  refine ⟨?_, ?_⟩
  · intro j hj
    rw [absStep_other hk hs (by omega) (by omega)]
    exact h.1 j (by omega)
  · intro hT
    refine ⟨(h.2 hT).1, ?_⟩
    intro dst hd
    rw [absStep_src hk hs] at hd
    cases hd
    simpa using (h.2 hT).1

theorem runDown_abs {L : Layout} (hL : L ≠ .bsm) (I : ShardImpl R) : ∀ (base : Nat) {st : Struct R}, SInv L st →
    RunPre L st.sf st.abs base →
    (∃ e, runDown L I base st = .error e ∧ absRun L I base st.abs = .error e) ∨
    (∃ st', runDown L I base st = .ok st' ∧ absRun L I base st.abs = .ok st'.abs ∧
      SInv L st' ∧ st'.bufSize = st.bufSize ∧ st'.sf = st.sf)
  | 0, st, h, _ => Or.inr ⟨st, rfl, rfl, h, rfl, rfl⟩
  | k+1, st, h, hp => by
    rcases reconstruct_abs hL I h hp.step with ⟨e, h1, h2⟩ | ⟨st1, h1, h2, h3, h4, h5⟩
    · left; exact ⟨e, by rw [runDown, h1]; rfl, by rw [absRun, h2]; rfl⟩
    · have hp1 : RunPre L st1.sf st1.abs k := by rw [h5]; exact hp.next h2
      rw [runDown, absRun, h1, h2]
      rcases runDown_abs hL I k h3 hp1 with ⟨e, g1, g2⟩ | ⟨st2, g1, g2, g3, g4, g5⟩
      · left; exact ⟨e, g1, g2⟩
      · right; exact ⟨st2, g1, g2, g3, g4.trans h4, g5.trans h5⟩

/-- After a non-trivial chain of moves level 0 is empty. -/
theorem absRun_zero {L : Layout} {I : ShardImpl R} {sf : Nat} : ∀ (base : Nat) {A A' : List (List (Shard R))},
    RunPre L sf A base → 0 < base → absRun L I base A = .ok A' → A'[0]? = some []
  | 0, A, A', _, h, _ => by omega
  | k+1, A, A', hp, _, h => by
    rw [absRun, bind_ok] at h
    obtain ⟨A1, h1, h2⟩ := h
    obtain ⟨src, hsrc, -⟩ := hp.1 k (by omega)
    by_cases hk : k = 0
    · subst hk
      cases h2
      exact absStep_src (lt_of_getElem? hsrc) h1
    · exact absRun_zero k (hp.next h1) (by omega) h2

/-- Sources are non-empty and the target has room: the planner's choice satisfies `RunPre`. -/
theorem PlanSpec.runPre {L : Layout} (hL : L ≠ .bsm) {bs sf : Nat} {A : List (List (Shard R))} {base : Nat}
    (hsf : 0 < sf) (hlev : L = .leveling → ∀ s0, A[0]? = some s0 → recs s0 ≤ Struct.levelCap bs sf 0)
    (h : PlanSpec L bs sf A bs base) (hA : L = .tiering → ∀ s0, A[0]? = some s0 → base = 0 → s0.length < sf) :
    RunPre L sf A base := by
  rcases h with ⟨hb, hor⟩ | ⟨hpos, hle, hc0, s0, hs0, hno, hyes⟩
  · subst hb
    refine ⟨fun j hj => by omega, fun hT => ⟨hsf, fun dst hd => hA hT dst hd rfl⟩⟩
  · refine ⟨?_, ?_⟩
    · intro j hj
      obtain ⟨src, hsrc⟩ := getElem?_of_lt (l := A) (i := j) (by omega)
      refine ⟨src, hsrc, ?_⟩
      rintro rfl
      by_cases hj0 : j = 0
      · subst hj0
        rw [hs0] at hsrc; cases hsrc
        simp only [absCan, hs0] at hc0
        cases L with
        | bsm => exact hL rfl
        | leveling =>
          simp [recs, Struct.levelCap] at hc0
          exact absurd hc0 (not_lt.mpr (Nat.le_mul_of_pos_right _ hsf))
        | tiering => simp at hc0; omega
      · have := hno j (by omega) hj
        simp only [absCan, hsrc] at this
        cases L with
        | bsm => exact hL rfl
        | leveling =>
          have h0 := hlev rfl s0 hs0
          have hm : Struct.levelCap bs sf 0 ≤ Struct.levelCap bs sf j := by
            unfold Struct.levelCap
            exact Nat.mul_le_mul_left _ (Nat.pow_le_pow_right hsf (by omega))
          simp only [recs, List.map_nil, List.sum_nil, decide_eq_false_iff_not] at this h0
          omega
        | tiering => simp at this; omega
    · intro hT
      refine ⟨hsf, ?_⟩
      intro dst hd
      have := hyes (lt_of_getElem? hd)
      subst hT
      simpa [absCan, hd] using this

end DE
