import Verif.Proofs.BSMShape
import Verif.Proofs.Instances

/-!
No `assert` fires: every failing step of a run is undefined behaviour of a shard constructor or lookup.
-/

namespace DE
variable {R : Type}

/-- The computation does not end in a failed assert. -/
def NoAbort {α : Type} (x : Res α) : Prop := x ≠ .error .abort

theorem NoAbort.ok {α : Type} (a : α) : NoAbort (.ok a : Res α) := by intro h; cases h
theorem NoAbort.ub {α : Type} : NoAbort (.error .ub : Res α) := by intro h; cases h

theorem NoAbort.bind {α β : Type} {x : Res α} {f : α → Res β} (hx : NoAbort x) (hf : ∀ a, x = .ok a → NoAbort (f a)) :
    NoAbort (x >>= f) := by
  cases x with
  | error e => intro h; cases h; exact hx rfl
  | ok a => exact hf a rfl

theorem NoAbort.getR {α : Type} (l : List α) (i : Nat) : NoAbort (DE.getR l i) := by
  unfold DE.getR
  split
  · exact NoAbort.ok _
  · exact NoAbort.ub

theorem NoAbort.mapM {α β : Type} {f : α → Res β} (h : ∀ a, NoAbort (f a)) : ∀ l : List α, NoAbort (l.mapM f)
  | [] => by simp only [List.mapM_nil]; exact NoAbort.ok _
  | a :: l => by
    rw [List.mapM_cons]
    refine (h a).bind fun _ _ => (NoAbort.mapM h l).bind fun _ _ => NoAbort.ok _

/-- A shard class without asserts. -/
structure ShardImpl.Quiet (I : ShardImpl R) : Prop where
  build : ∀ v, NoAbort (I.build v)
  merge : ∀ os, NoAbort (I.merge os)
  lookup : ∀ s r, NoAbort (I.lookup s r)

theorem absComb_quiet {L : Layout} {I : ShardImpl R} (hI : I.Quiet) (dst src : List (Shard R)) : NoAbort (absComb L I dst src) := by
  unfold absComb
  split
  · split
    · exact (hI.merge _).bind fun _ _ => NoAbort.ok _
    · exact NoAbort.ok _
  · exact (hI.merge _).bind fun _ _ => NoAbort.ok _

theorem absRun_quiet {L : Layout} {I : ShardImpl R} (hI : I.Quiet) : ∀ (k : Nat) (A : List (List (Shard R))), NoAbort (absRun L I k A)
  | 0, A => NoAbort.ok _
  | k+1, A => by
    rw [absRun]
    refine NoAbort.bind ?_ fun A' _ => absRun_quiet hI k A'
    unfold absStep
    exact (NoAbort.getR _ _).bind fun _ _ => (NoAbort.getR _ _).bind fun _ _ => (absComb_quiet hI _ _).bind fun _ _ => NoAbort.ok _

theorem absL0_quiet {L : Layout} {I : ShardImpl R} (hI : I.Quiet) (A : List (List (Shard R))) (v : View R) : NoAbort (absL0 L I A v) := by
  unfold absL0
  refine (NoAbort.getR _ _).bind fun _ _ => NoAbort.bind ?_ fun _ _ => NoAbort.ok _
  unfold absNew0
  repeat' first
    | exact NoAbort.ok _
    | refine (hI.build _).bind fun _ _ => ?_
    | refine (hI.merge _).bind fun _ _ => ?_
    | split

theorem flush_quiet {d : Index R} (h : d.Inv) (hI : d.impl.Quiet) (hat : d.buf.atLwm = true) : NoAbort d.flush := by
  obtain ⟨base, -, ⟨e, h1, h2⟩ | ⟨st', h1, -⟩⟩ := flush_abs h hat
  · rw [h1]
    intro he
    cases he
    exact (absRun_quiet hI _ _).bind (fun _ _ => absL0_quiet hI _ _) h2
  · rw [h1]; exact NoAbort.ok _

theorem findTgt_quiet {L : Layout} {i : Nat} {st : List LState} : NoAbort (Struct.findReconstructionTarget L i st) := by
  unfold Struct.findReconstructionTarget
  split
  · exact NoAbort.ok _
  · exact (NoAbort.getR _ _).bind fun _ _ => NoAbort.ok _

theorem bsmLoop_quiet (src : Nat) : ∀ (i : Nat) (sc : List LState) (acc : List Nat) (n : Nat), NoAbort (Struct.bsmLoop src i sc acc n)
  | 0, sc, acc, n => NoAbort.ok _
  | i+1, sc, acc, n => by
    rw [Struct.bsmLoop]
    split
    · exact (NoAbort.getR _ _).bind fun _ _ => bsmLoop_quiet src i _ _ _
    · exact NoAbort.ok _

theorem plan_quiet {st : Struct R} {n : Nat} : NoAbort (Struct.getReconstructionTasks .bsm st n) := by
  unfold Struct.getReconstructionTasks
  have hend : ∀ x : List Task × List LState, NoAbort (match x with
      | (tasks, scratch) => do
        let _ ← DE.getR scratch 0
        Except.ok tasks : Res (List Task)) := fun _ => (NoAbort.getR _ _).bind fun _ _ => NoAbort.ok _
  by_cases hc : Struct.canReconstructWith .bsm 0 n st.state = true
  · rw [if_pos hc]
    exact NoAbort.bind (NoAbort.ok _) fun _ _ => hend _
  · rw [if_neg hc]
    refine NoAbort.bind ?_ fun _ _ => hend _
    · unfold Struct.tasksFromLevel
      refine findTgt_quiet.bind fun tgt _ => ?_
      have hfin : ∀ (sc : List LState) (base : Nat), NoAbort
          (if base = 0 then (.ok ([], sc) : Res (List Task × List LState))
            else do
              let (srcs, n, scratch) ← Struct.bsmLoop 0 base sc [] 0
              let s ← getR scratch base
              .ok ([{ sources := srcs, target := base, reccnt := n }],
                scratch.set base { s with reccnt := n, shardcnt := 1 })) := by
        intro sc base
        split
        · exact NoAbort.ok _
        · exact (bsmLoop_quiet _ _ _ _ _).bind fun _ _ => (NoAbort.getR _ _).bind fun _ _ => NoAbort.ok _
      cases tgt with
      | some b => exact hfin _ _
      | none => exact hfin _ _

theorem reconstructBSM_quiet {I : ShardImpl R} (hI : I.Quiet) (st : Struct R) (t : Task) : NoAbort (Struct.reconstructBSM I st t) := by
  unfold Struct.reconstructBSM
  refine (NoAbort.mapM (fun _ => NoAbort.getR _ _) _).bind fun _ _ => NoAbort.bind ?_ fun _ _ => NoAbort.ok _
  unfold Level.reconstructMany
  exact (hI.merge _).bind fun _ _ => NoAbort.ok _

/-- Level 0 carries no pending shard. -/
def NoPend (st : Struct R) : Prop := ∀ l, st.levels[0]? = some l → l.pending = none

theorem foldl_noPend (f : Nat → LState) : ∀ (ss : List Nat) (st : Struct R), (0 ∈ ss ∨ NoPend st) →
    NoPend (ss.foldl (fun st s => { st with levels := st.levels.set s (Level.new s 1), state := st.state.set s (f s) }) st)
  | [], st, h => by simpa using h
  | s :: ss, st, h => by
    rw [List.foldl_cons]
    apply foldl_noPend f ss
    by_cases h0 : 0 ∈ ss
    · exact Or.inl h0
    · right
      intro l hl
      simp only at hl
      by_cases hs : s = 0
      · subst hs
        rw [List.getElem?_set] at hl
        split at hl
        · split at hl
          · cases hl; rfl
          · cases hl
        · rename_i hh; exact absurd rfl hh
      · rw [List.getElem?_set_ne hs] at hl
        rcases h with h | h
        · rcases List.mem_cons.mp h with h | h
          · exact absurd h.symm hs
          · exact absurd h h0
        · exact h l hl

theorem reconstructBSM_noPend {I : ShardImpl R} {st st' : Struct R} {base k : Nat} (hpos : 0 < base)
    (h : Struct.reconstructBSM I st { sources := downTo base, target := base, reccnt := k } = .ok st') : NoPend st' := by
  unfold Struct.reconstructBSM at h
  simp only [bind_ok] at h
  obtain ⟨srcs, -, nl, -, e⟩ := h
  cases e
  generalize hX : (if base ≥ st.levels.length then _ else _ : Struct R) = X
  have hbs : ∀ (ss : List Nat) (st : Struct R), (0 ∈ ss ∨ NoPend st) → NoPend (ss.foldl (fun st s =>
      { st with levels := st.levels.set s (Level.new s 1)
                state := st.state.set s { reccnt := 0, reccap := Struct.levelCap st.bufSize st.sf base
                                          shardcnt := 0, shardcap := 1 } }) st) := by
    intro ss
    induction ss with
    | nil => intro st h; simpa using h
    | cons s ss ih =>
      intro st h
      rw [List.foldl_cons]
      apply ih
      by_cases h0 : 0 ∈ ss
      · exact Or.inl h0
      · right
        have := foldl_noPend (fun _ => { reccnt := 0, reccap := Struct.levelCap st.bufSize st.sf base, shardcnt := 0, shardcap := 1 })
          [s] st (by
            rcases h with h | h
            · rcases List.mem_cons.mp h with h | h
              · left; simp [h]
              · exact absurd h h0
            · exact Or.inr h)
        exact this
  exact hbs _ _ (Or.inl (mem_downTo.mpr hpos))

theorem flushBuffer_quiet {I : ShardImpl R} (hI : I.Quiet) {st : Struct R} (h : GBInv st) (hp : NoPend st) {v : View R}
    (hz : ∀ x, (szs st).head? = some x → x = 0) : NoAbort (Struct.flushBuffer .bsm I st v) := by
  have hlen := h.len
  unfold Struct.flushBuffer
  refine NoAbort.bind ?_ fun _ _ => ?_
  · have : Struct.canReconstructWith .bsm 0 v.count (if st.state.length = 0 then (Struct.grow .bsm st st.state).1 else st.state) = true := by
      by_cases h0 : st.state.length = 0
      · rw [if_pos h0]
        have hs0 : st.state = [] := List.eq_nil_of_length_eq_zero h0
        simp [Struct.grow, hs0, Struct.canReconstructWith]
      · rw [if_neg h0, h.can]
        have hl : 0 < (szs st).length := by rw [szs, List.length_map]; omega
        obtain ⟨x, hx⟩ := getElem?_of_lt hl
        rw [hx, hz x (by rw [List.head?_eq_getElem?]; exact hx)]
    rw [this]
    exact NoAbort.ok _
  · unfold Struct.flushIntoL0
    refine (NoAbort.getR _ _).bind fun old hold => NoAbort.bind ?_ fun _ _ => (NoAbort.getR _ _).bind fun _ _ => NoAbort.ok _
    have hold := getR_ok hold
    have hpend : old.pending = none := by
      by_cases hl0 : st.levels.length = 0
      · rw [if_pos hl0] at hold
        have : st.levels = [] := List.eq_nil_of_length_eq_zero hl0
        simp [this] at hold
        rw [← hold]; rfl
      · rw [if_neg hl0] at hold
        exact hp old hold
    show NoAbort (Level.appendBuffer I old v)
    unfold Level.appendBuffer
    rw [hpend]
    split
    · exact NoAbort.bind (NoAbort.ok _) fun _ _ => (hI.build _).bind fun _ _ => NoAbort.ok _
    · exact (hI.build _).bind fun _ _ => NoAbort.ok _

theorem copy_noPend (st : Struct R) : NoPend st.copy := by
  intro l hl
  simp only [Struct.copy, List.getElem?_map] at hl
  cases h : st.levels[0]? with
  | none => rw [h] at hl; cases hl
  | some l0 => rw [h] at hl; cases hl; rfl

theorem bflush_quiet {d : Index R} (hL : d.L = .bsm) (hb : BufInv d.buf) (hI : d.impl.Quiet) (hc : d.impl.Conserving)
    (h : GBInv d.str) (hat : d.buf.atLwm = true) : NoAbort d.flush := by
  have hcnt : d.buf.lwm ≤ d.buf.tail - d.buf.head := by simpa [Buffer.atLwm, Buffer.count] using hat
  unfold Index.flush
  rw [hL]
  obtain ⟨hcp, hce⟩ := h.copy
  refine plan_quiet.bind fun ts hts => NoAbort.bind ?_ fun s1 hs1 => NoAbort.bind ?_ fun s2 hs2 => NoAbort.bind ?_ fun _ _ => NoAbort.ok _
  · unfold Struct.runTasks
    simp only
    split
    · exact NoAbort.ok _
    · exact reconstructBSM_quiet hI _ _
  · rcases gplan hcp hts with ⟨rfl, hz⟩ | ⟨base, k, rfl, hpos, hle, hfull, hfree⟩
    · cases hs1
      exact flushBuffer_quiet hI hcp (copy_noPend _) hz
    · obtain ⟨p1, -, -, m, hm, hp3⟩ := reconstructBSM_szs hc hcp hpos hle hs1
      refine flushBuffer_quiet hI p1 (reconstructBSM_noPend hpos hs1) ?_
      rw [hp3]
      obtain ⟨b, rfl⟩ : ∃ b, base = b + 1 := ⟨base - 1, by omega⟩
      intro x hx
      simpa [List.replicate_succ] using hx.symm
  · rw [show d.buf.view.tail = d.buf.tail from rfl, Buffer.advanceHead_tail (by have := hb.lwm; omega)]
    exact NoAbort.ok _

theorem deleteIn_quiet {I : ShardImpl R} (hI : I.Quiet) (r : R) : ∀ ss : List (Option (Shard R)), NoAbort (Level.deleteIn I r ss)
  | [] => NoAbort.ok _
  | none :: ss => by
    rw [Level.deleteIn]
    refine (deleteIn_quiet hI r ss).bind fun a _ => ?_
    cases a <;> exact NoAbort.ok _
  | some s :: ss => by
    rw [Level.deleteIn]
    refine (hI.lookup s r).bind fun a _ => ?_
    cases a with
    | some i => exact NoAbort.ok _
    | none =>
      refine (deleteIn_quiet hI r ss).bind fun a _ => ?_
      cases a <;> exact NoAbort.ok _

theorem taggedDelete_quiet {I : ShardImpl R} (hI : I.Quiet) (r : R) : ∀ ls : List (Level R), NoAbort (Struct.taggedDeleteIn I r ls)
  | [] => NoAbort.ok _
  | l :: ls => by
    rw [Struct.taggedDeleteIn]
    refine NoAbort.bind ?_ fun a _ => ?_
    · unfold Level.deleteRecord
      split
      · exact NoAbort.ok _
      · refine (deleteIn_quiet hI r _).bind fun a _ => ?_
        cases a <;> exact NoAbort.ok _
    · cases a with
      | some l' => exact NoAbort.ok _
      | none =>
        refine (taggedDelete_quiet hI r ls).bind fun a _ => ?_
        cases a <;> exact NoAbort.ok _

theorem step_quiet [DecidableEq R] {d : Index R} (hI : d.impl.Quiet) (hf : d.buf.atLwm = true → NoAbort d.flush) (o : Index.Op R) :
    NoAbort (d.step o) := by
  have app : ∀ r ts, NoAbort (d.internalAppend r ts) := by
    intro r ts
    unfold Index.internalAppend
    by_cases hat : d.buf.atLwm = true
    · rw [if_pos hat]; exact (hf hat).bind fun _ _ => NoAbort.ok _
    · rw [if_neg hat]; exact NoAbort.bind (NoAbort.ok _) fun _ _ => NoAbort.ok _
  cases o with
  | ins r => exact app r false
  | del r =>
    simp only [Index.step, Index.erase]
    split
    · refine (taggedDelete_quiet hI r _).bind fun a _ => ?_
      cases a <;> exact NoAbort.ok _
    · exact app r true

/-- The step at which a run fails. -/
theorem run_error [DecidableEq R] : ∀ (ops : List (Index.Op R)) {d0 : Index R} {e : Fault}, d0.run ops = .error e →
    ∃ pre o post d bs, ops = pre ++ o :: post ∧ d0.run pre = .ok (d, bs) ∧ d.step o = .error e
  | [], d0, e, h => by cases h
  | o :: os, d0, e, h => by
    rw [Index.run] at h
    cases hs : d0.step o with
    | error e' =>
      rw [hs] at h
      cases h
      exact ⟨[], o, os, d0, [], rfl, rfl, hs⟩
    | ok p =>
      obtain ⟨d1, b⟩ := p
      rw [hs] at h
      cases hr : d1.run os with
      | ok q =>
        simp only [bind, Except.bind, hr] at h
        cases h
      | error e' =>
        have he : e' = e := by
          simp only [bind, Except.bind, hr] at h
          cases h; rfl
        subst he
        obtain ⟨pre, o', post, d, bs, h1, h2, h3⟩ := run_error os hr
        refine ⟨o :: pre, o', post, d, b :: bs, by rw [h1]; rfl, ?_, h3⟩
        exact run_cons.mpr ⟨d1, b, bs, hs, h2, rfl⟩

section
variable {K : Type} [LinearOrder R] [LinearOrder K] [HasKey R K]

omit [LinearOrder R] in
theorem copyOut_quiet (v : View R) : NoAbort v.copyOut := by
  unfold View.copyOut
  split
  · exact NoAbort.ok _
  · split
    · exact NoAbort.ok _
    · exact NoAbort.ub

theorem sortedImpl_quiet (pq : PQ R) {lb : LB R K} (hlb : ∀ l k, NoAbort (lb l k)) : (sortedImpl pq lb).Quiet where
  build v := (copyOut_quiet v).bind fun _ _ => NoAbort.ok _
  merge os := by
    show NoAbort (sortedMerge pq os)
    unfold sortedMerge
    split
    · exact NoAbort.ok _
    · exact NoAbort.ub
  lookup s r := by
    show NoAbort (sortedLookup lb s r)
    unfold sortedLookup
    refine (hlb _ _).bind fun _ _ => ?_
    split
    · exact NoAbort.ok _
    · refine (NoAbort.getR _ _).bind fun _ _ => ?_
      split <;> exact NoAbort.ok _

end

end DE
