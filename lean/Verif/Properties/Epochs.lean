import Verif.Properties.Concurrency

/-!
C48-C50, C58-C60: epochs, reconstructions and what a query sees, under every interleaving.
-/

namespace DE.Conc
variable {P : Par} {n : Nat} {s s' : St} {i j : Nat} {t u : Th} {c : Ch}

/-! ### C48: a pinned epoch is not destroyed -/

/-- While a job holds an epoch, the epoch is not deleted. -/
theorem C48_alive (hw : 0 < P.hwm) (h : Reach P n any s) (hi : s.thr[i]? = some t) {e : Nat} (he : t.ep = some e) :
    s.alive e = true := (h.inv hw).alive hi he

/-- No thread ever uses a deleted epoch or dereferences a null epoch. -/
theorem C48_no_ub (hw : 0 < P.hwm) (h : Reach P n any s) : Conc.step P s i c ≠ .error .ub := (h.inv hw).no_ub

/-- A query keeps running on epoch 0 while epochs 0 and 1 are superseded in turn; and an epoch that nobody has pinned is
deleted meanwhile. -/
example : ∃ s t, Reach P12 4 any s ∧ s.thr[1]? = some t ∧ t.ep = some 1 ∧ s.cur.ep = some 2 ∧ s.alive 0 = false := by
  obtain ⟨s, h1, h2⟩ := reach_of (P := P12) (n := 4) anyB (ok := any) (fun _ _ _ => trivial)
    (insLow 0 10 ++ insSched 0 11 ++ job1 2 2 ++ query 1 ++ insLow 0 12 ++ insSched 0 13 ++ job2 2 2)
    (fun s => decide (s.thr[1]? = some (⟨.run, some 1, some 2, 2⟩ : Th) ∧ s.cur.ep = some 2 ∧ s.alive 0 = false)) (by decide)
  rw [decide_eq_true_eq] at h2
  exact ⟨s, _, h1, h2.1, rfl, h2.2⟩

/-! ### C49: at most one reconstruction is in flight -/

/-- The thread has set `m_reconstruction_scheduled` and is preparing the next epoch. -/
def preparing : PC → Bool
  | .crA _ | .crC _ | .crS _ => true
  | .ga1 (.create _) | .gaP2 (.create _) | .gaP3 (.create _) _ | .gaC2 (.create _) | .gaC3 (.create _) _ => true
  | .ej1 (.create _) | .ejP2 (.create _) | .ejP3 (.create _) _ | .ejC2 (.create _) | .ejC3 (.create _) _ => true
  | _ => false

/-- The thread is running a reconstruction. -/
def reconstructing : PC → Bool
  | .jb _ | .cp _ _ _ => true
  | .gh1 (.job _) _ | .ghO2 (.job _) _ | .ghO3 (.job _) _ _ | .ghB (.job _) _ | .ghH2 (.job _) _ | .ghH3 (.job _) _ _ | .gt (.job _) => true
  | .rl1 (.job _) | .rlO2 (.job _) | .rlO3 (.job _) _ | .rlH2 (.job _) | .rlH3 (.job _) _ => true
  | .ad1 _ | .rt1 _ _ | .rt2 _ _ _ | .rt3 _ _ | .ad3 _ | .ad4 _ _ | .ad5 _ _ | .ad6 _ | .ad7 _ | .ad8 _ | .ad9 _ | .ad10 _ _
  | .ad11 _ _ | .ad12 _ | .ad13 | .ad14 | .ad15 | .ad16 | .ad17 => true
  | _ => false

theorem sect_isSome (t : Th) : (sect t).isSome = (preparing t.pc || reconstructing t.pc) := by
  obtain ⟨pc, ep, hd, tl⟩ := t
  cases pc
  all_goals first
    | rfl
    | (rename_i k; cases k <;> rfl)
    | (rename_i k _; cases k <;> rfl)
    | (rename_i k _ _; cases k <;> rfl)

/-- Reconstructions queued, being prepared or running: at most one altogether; none if the flag is down. -/
theorem C49_one (hw : 0 < P.hwm) (h : Reach P n any s) :
    s.jobs.length + s.thr.countP (fun t => preparing t.pc || reconstructing t.pc) ≤ 1 ∧
    (s.flag = false → s.jobs = [] ∧ ∀ t ∈ s.thr, preparing t.pc = false ∧ reconstructing t.pc = false) := by
  have hm := (h.inv hw).mutex
  unfold Mutex at hm
  have he : s.thr.countP (fun t => (sect t).isSome) = s.thr.countP (fun t => preparing t.pc || reconstructing t.pc) := by
    congr 1; funext t; exact sect_isSome t
  rw [he] at hm
  constructor
  · split at hm <;> omega
  · intro hf
    rw [hf] at hm
    have h0 : s.thr.countP (fun t => preparing t.pc || reconstructing t.pc) = 0 := by simp at hm; simpa using hm.1
    have hj : s.jobs.length = 0 := by simp at hm; simp [hm.2]
    refine ⟨List.eq_nil_of_length_eq_zero hj, fun t ht => ?_⟩
    have := List.countP_eq_zero.mp h0 t ht
    simpa using this

/-- The assertion at the start of `create_new_epoch` holds. -/
theorem C49_assert (hw : 0 < P.hwm) (h : Reach P n any s) (hi : s.thr[i]? = some t) {r : Nat} (ht : t.pc = .crA r) : s.next = none := by
  have hs : sect t = some .A := by unfold sect; rw [ht]
  exact ((h.inv hw).phase hi hs : Core P s.sv .A).2

/-- A thread at that assertion, while another thread is about to try to schedule a reconstruction too. -/
example : ∃ s, Reach P12 4 any s ∧ pcOf s 0 = some (.crA 11) ∧ pcOf s 3 = some (.casF 12) := by
  obtain ⟨s, h1, h2⟩ := reach_of (P := P12) (n := 4) anyB (ok := any) (fun _ _ _ => trivial)
    (insLow 0 10 ++ [(0, .insert 11), (0, .tailFirst)] ++ gos 0 1 ++ [(3, .insert 12), (3, .headFirst)] ++ gos 3 1 ++ gos 0 1)
    (fun s => decide (pcOf s 0 = some (.crA 11) ∧ pcOf s 3 = some (.casF 12))) (by decide)
  rw [decide_eq_true_eq] at h2
  exact ⟨s, h1, h2⟩

/-! ### C50: await_next_epoch returns -/

/-- No epoch transition is pending. -/
def Quiet (s : St) : Prop := s.next = none ∧ s.flag = false ∧ s.jobs = []

/-- A waiter that finds a next epoch and goes to sleep after the transition has notified: it sleeps although no transition is
pending, all other threads are idle and the mutex is free. -/
theorem C50_false : ∃ s, Reach P12 4 any s ∧ Quiet s ∧ s.lock = none ∧ pcOf s 1 = some .aw4 ∧
    (∀ k, k ≠ 1 → k < 4 → pcOf s k = some .idle) ∧ ∀ c, c ≠ .spurious → Conc.step P12 s 1 c = .ok none := by
  obtain ⟨s, h1, h2⟩ := reach_of (P := P12) (n := 4) anyB (ok := any) (fun _ _ _ => trivial)
    (insLow 0 10 ++ insSched 0 11 ++ [(1, .await), (1, .go)] ++ job1 2 2 ++ gos 1 2)
    (fun s => decide (s.next = none ∧ s.flag = false ∧ s.jobs = [] ∧ s.lock = none ∧
      s.thr[1]? = some ({ pc := .aw4 } : Th) ∧ pcOf s 0 = some .idle ∧ pcOf s 2 = some .idle ∧ pcOf s 3 = some .idle)) (by decide)
  rw [decide_eq_true_eq] at h2
  obtain ⟨a1, a2, a3, a4, a5, a6, a7, a8⟩ := h2
  refine ⟨s, h1, ⟨a1, a2, a3⟩, a4, by unfold pcOf; rw [a5]; rfl, ?_, ?_⟩
  · intro k h1 h2
    match k, h1, h2 with
    | 0, _, _ => exact a6
    | 2, _, _ => exact a7
    | 3, _, _ => exact a8
  · intro c hc
    unfold Conc.step
    rw [a5]
    simp only [stepT, if_neg hc]

/-- And it stays asleep, whatever the other threads do, until another reconstruction is scheduled. -/
theorem C50_asleep (hw : 0 < P.hwm) (h : Reach P n any s) (hi : s.thr[i]? = some t) (ht : t.pc = .aw4) (hf : s.flag = false)
    (hs : Conc.step P s j c = .ok (some s')) (hc : c ≠ .spurious) : s'.thr[i]? = some t := by
  have hj : j ≠ i := by
    rintro rfl
    unfold Conc.step at hs
    rw [hi] at hs
    obtain ⟨pc, ep, hd, tl⟩ := t
    simp only at ht; subst ht
    simp only [stepT, if_neg hc] at hs
    cases hs
  unfold Conc.step at hs
  split at hs
  case h_2 => cases hs
  rename_i u hu
  have h15 : u.pc ≠ .ad15 := by
    intro h15
    have := ((C49_one hw h).2 hf).2 u (List.mem_of_getElem? hu)
    rw [h15] at this
    exact absurd this.2 (by decide)
  have key : ∀ {a : St} {t' : Th}, (.ok (some (a.setT j t')) : Out) = .ok (some s') → a.thr = s.thr → s'.thr[i]? = some t := by
    intro a t' h a1
    have := ok_inj h; subst this
    show (a.thr.set j t')[i]? = _
    rw [List.getElem?_set_ne hj, a1]; exact hi
  obtain ⟨pc, ep, hd, tl⟩ := u
  cases pc
  case ad15 => exact absurd rfl h15
  all_goals
    simp only [stepT] at hs
    repeat' split at hs
  all_goals first
    | exact key hs rfl
    | exact absurd hs (by simp)

/-- The thread will notify the waiters before its transition is over. -/
def willNotify (pc : PC) : Bool :=
  (preparing pc || reconstructing pc) && !(pc == .ad14 || pc == .ad15 || pc == .ad16 || pc == .ad17)

/-- What does hold. The notification wakes every sleeping waiter. -/
theorem C50_notify_partial (hi : s.thr[i]? = some t) (ht : t.pc = .ad15) (hs : Conc.step P s i c = .ok (some s')) :
    ∀ u ∈ s'.thr, u.pc ≠ .aw4 := by
  unfold Conc.step at hs
  rw [hi] at hs
  obtain ⟨pc, ep, hd, tl⟩ := t
  simp only at ht; subst ht
  simp only [stepT] at hs
  have := ok_inj hs; subst this
  intro u hu
  have hu : u ∈ (s.thr.map wake).set i ⟨.ad16, ep, hd, tl⟩ := hu
  rcases List.mem_or_eq_of_mem_set hu with hu | rfl
  · obtain ⟨w, _, rfl⟩ := List.mem_map.mp hu
    unfold wake
    split
    · simp
    · assumption
  · simp

/-- As long as a transition is pending its notification is still to come: a waiter that falls asleep then is woken. -/
theorem C50_pending_partial (hw : 0 < P.hwm) (h : Reach P n any s) (hn : s.next ≠ none) :
    s.jobs ≠ [] ∨ ∃ t ∈ s.thr, willNotify t.pc = true := by
  have hI := h.inv hw
  by_cases hj : s.jobs = []
  · right
    have hflag : s.flag = true := by
      by_contra hf
      have hf : s.flag = false := by simpa using hf
      have : s.next = none := (hI.core .A (.inl ⟨hf, rfl⟩)).2
      exact hn this
    have hm := hI.mutex
    unfold Mutex at hm
    rw [hflag, hj] at hm
    simp only [List.length_nil, ite_true, Nat.add_zero] at hm
    obtain ⟨t, ht, hs⟩ := List.countP_pos_iff.mp (by rw [hm]; exact Nat.one_pos : 0 < s.thr.countP (fun t => (sect t).isSome))
    refine ⟨t, ht, ?_⟩
    obtain ⟨ph, hph⟩ := Option.isSome_iff_exists.mp hs
    have hc := hI.core ph (.inr (.inr ⟨t, ht, hph⟩))
    unfold willNotify
    rw [← sect_isSome, hs, Bool.true_and]
    have hA : ph ≠ .A := by
      rintro rfl
      exact hn hc.2
    unfold sect at hph
    rw [Bool.not_eq_true']
    by_contra hx
    rw [Bool.not_eq_false, Bool.or_eq_true, Bool.or_eq_true, Bool.or_eq_true, beq_iff_eq, beq_iff_eq, beq_iff_eq, beq_iff_eq] at hx
    rcases hx with ((hx | hx) | hx) | hx <;> (rw [hx] at hph; cases hph; exact hA rfl)
  · exact .inl hj

/-- A waiter that is awake when no transition is pending returns, by three steps of its own (the first needs the mutex). -/
theorem C50_returns_partial (hi : s.thr[i]? = some t) :
    (t.pc = .aw5 → s.lock = none → ∃ s', Conc.step P s i .go = .ok (some s') ∧ pcOf s' i = some .aw6 ∧ s'.next = s.next) ∧
    (t.pc = .aw6 → ∃ s', Conc.step P s i .go = .ok (some s') ∧ pcOf s' i = some .aw1 ∧ s'.next = s.next ∧ s'.lock = none) ∧
    (t.pc = .aw1 → s.next = none → ∃ s', Conc.step P s i .go = .ok (some s') ∧ pcOf s' i = some .idle) := by
  have hlt : i < s.thr.length := (List.getElem?_eq_some_iff.mp hi).1
  have hpc : ∀ (a : St) (t' : Th), a.thr = s.thr → pcOf (a.setT i t') i = some t'.pc := by
    intro a t' h
    unfold pcOf
    rw [show (a.setT i t').thr[i]? = some t' from List.getElem?_set_self (by rw [h]; exact hlt)]; rfl
  obtain ⟨pc, ep, hd, tl⟩ := t
  unfold Conc.step
  rw [hi]
  refine ⟨?_, ?_, ?_⟩ <;> intro ht <;> simp only at ht <;> subst ht
  · intro hl
    simp only [stepT, if_pos hl]
    exact ⟨_, rfl, hpc _ _ rfl, rfl⟩
  · simp only [stepT]
    exact ⟨_, rfl, hpc _ _ rfl, rfl, rfl⟩
  · intro hn
    simp only [stepT, if_pos hn]
    exact ⟨_, rfl, hpc _ _ rfl⟩

/-- The hypotheses of the parts: a waiter asleep while the transition is about to notify. -/
example : ∃ s, Reach P12 4 any s ∧ pcOf s 1 = some .aw4 ∧ pcOf s 2 = some .ad15 := by
  obtain ⟨s, h1, h2⟩ := reach_of (P := P12) (n := 4) anyB (ok := any) (fun _ _ _ => trivial)
    (insLow 0 10 ++ insSched 0 11 ++ [(1, .await)] ++ gos 1 3 ++ (job1 2 2).take 26)
    (fun s => decide (pcOf s 1 = some .aw4 ∧ pcOf s 2 = some .ad15)) (by decide)
  rw [decide_eq_true_eq] at h2
  exact ⟨s, h1, h2⟩

/-! ### C58: end_job releases its own epoch -/

/-- A thread whose next step decrements an epoch's count has pinned that epoch. -/
def EndsOwn (s : St) : Prop :=
  ∀ (i : Nat) (t : Th) k o, s.thr[i]? = some t →
    (t.pc = .ejP3 k o → s.prev = o → t.ep = s.prev.ep) ∧ (t.pc = .ejC3 k o → s.cur = o → t.ep = s.cur.ep)

/-- An `end_job` that has compared its epoch with the previous one before a transition, and reads the current one after it. -/
def sched58 : List (Nat × Ch) :=
  insLow 0 10 ++ insSched 0 11 ++ [(1, .query)] ++ gos 1 3 ++ [(1, .endJob), (1, .go)] ++ job1 2 2

theorem C58_false : ∃ s, Reach P12 4 any s ∧ ¬ EndsOwn s := by
  obtain ⟨s, h1, h2⟩ := reach_of (P := P12) (n := 4) anyB (ok := any) (fun _ _ _ => trivial) (sched58 ++ query 3 ++ [(1, .go)])
    (fun s => decide (s.thr[1]? = some (⟨.ejC3 .client ⟨some 1, 1⟩, some 0, none, 0⟩ : Th) ∧ s.cur = ⟨some 1, 1⟩)) (by decide)
  rw [decide_eq_true_eq] at h2
  refine ⟨s, h1, fun hv => ?_⟩
  have := (hv 1 _ _ _ h2.1).2 rfl h2.2
  rw [h2.2] at this
  exact absurd this (by decide)

/-- If nobody has pinned the new epoch, the assertion on its count fails instead. -/
theorem C58_false_assert : ∃ s, Reach P12 4 any s ∧ Conc.step P12 s 1 .go = .error .abort := by
  obtain ⟨s, h1, h2⟩ := reach_of (P := P12) (n := 4) anyB (ok := any) (fun _ _ _ => trivial) sched58
    (fun s => decide (s.thr[1]? = some (⟨.ejC2 .client, some 0, none, 0⟩ : Th) ∧ s.cur = ⟨some 1, 0⟩)) (by decide)
  rw [decide_eq_true_eq] at h2
  refine ⟨s, h1, ?_⟩
  unfold Conc.step
  rw [h2.1]
  simp only [stepT]
  rw [h2.2]
  rfl

/-- What `end_job` does: it decrements its own epoch, or it decrements the current epoch although it has pinned the previous
one; and then the previous epoch is never retired and no flush ever completes, in any continuation. -/
theorem C58_partial (hw : 0 < P.hwm) (h : Reach P n any s) (hi : s.thr[i]? = some t) {k : K} {o : EP} :
    (t.pc = .ejP3 k o → s.prev = o → t.ep = s.prev.ep) ∧
    (t.pc = .ejC3 k o → s.cur = o → Conc.step P s i c = .ok (some s') → t.ep = s.cur.ep ∨
      (t.ep = s.prev.ep ∧ ∀ s'', From P s' s'' → s''.head.idx = s.head.idx ∧ s''.prev.ep = s.prev.ep)) := by
  have hI := h.inv hw
  constructor
  · intro hpc hcas
    have hl := (hI.thread hi).1
    unfold LocPc at hl
    rw [hpc] at hl
    exact hl.2.2.2.1.symm
  · intro hpc hcas hs
    by_cases hne : s.cur.ep = t.ep
    · exact .inl hne.symm
    · right
      have hst := StuckE.of_misdirected hI hi hpc hcas hne hs
      have hpr : s'.prev = s.prev ∧ s'.head.idx = s.head.idx := by
        unfold Conc.step at hs
        rw [hi] at hs
        refine ⟨?_, step_head hs (by rw [hpc]; simp)⟩
        obtain ⟨pc, ep, hd, tl⟩ := t
        simp only at hpc; subst hpc
        simp only [stepT, if_pos hcas] at hs
        have := ok_inj hs; subst this; rfl
      refine ⟨?_, fun s'' hf => ?_⟩
      · have hl := (hI.thread hi).1
        unfold LocPc at hl
        rw [hpc] at hl
        obtain ⟨x, hx⟩ := Option.ne_none_iff_exists'.mp hl.1
        have hpos := H_pos hi hx
        obtain ⟨ph, hph⟩ := hI.some_phase
        have hc := hI.core ph hph
        have two : EpS s.sv s.prev s.cur → t.ep = s.prev.ep := fun hE => by
          rw [hx]
          exact ((hE.held hpos).1.resolve_right (fun h => hne ((show s.cur.ep = _ from h).trans hx.symm))).symm
        have one : s.cur = ⟨none, 0⟩ → t.ep = s.prev.ep := fun h0 => by
          have : o.ep ≠ none := hl.2.2.2.1
          rw [← hcas, h0] at this; exact absurd rfl this
        cases ph with
        | A => exact two hc.1.1
        | Cr => exact two hc.1.1
        | N => exact two hc.1.1
        | A1 => exact two hc.1.1
        | G => exact two hc.1.1
        | R => exact two hc.1.1
        | B => exact one hc.1
        | C => obtain ⟨_, h, _⟩ := hc; exact one h.1
        | W => obtain ⟨_, h, _⟩ := hc; exact one h.1
        | D => obtain ⟨_, h, _⟩ := hc; exact one h.1
        | A2 => exact two hc.1.1
      · have hI' : Inv P s' := hI.step hs
        obtain ⟨_, a, b⟩ := hst.forever hI' hf
        rw [a, b, hpr.1, hpr.2]; exact ⟨rfl, rfl⟩

/-- After the misdirected `end_job` of `C58_false` the head of the buffer stays at 2 for ever, so that at most two more records
can be inserted. -/
theorem C58_consequence : ∃ s, Reach P12 4 any s ∧ ∀ s', From P12 s s' → s'.head.idx = 2 ∧ s'.tail ≤ 4 := by
  have hw : 0 < P12.hwm := by decide
  obtain ⟨s, h1, h2⟩ := reach_of (P := P12) (n := 4) anyB (ok := any) (fun _ _ _ => trivial) (sched58 ++ query 3 ++ gos 1 2)
    (fun s => decide (s.prev.ep = some 0 ∧ s.H 0 < s.prev.ref ∧ s.head.idx = 2)) (by decide)
  rw [decide_eq_true_eq] at h2
  refine ⟨s, h1, fun s' hf => ?_⟩
  have hI := h1.inv hw
  have ha := (StuckE.forever ⟨0, h2.1, h2.2.1⟩ hI hf).2.1
  have hb : s'.tail ≤ s'.head.idx + P12.hwm := (hf.inv hI).bnd.2
  rw [h2.2.2] at ha
  rw [ha] at hb
  exact ⟨ha, hb⟩

/-! ### C59: the assertions of the reconstruction hold -/

/-- A thread that has found the buffer at the low watermark and then is delayed over a whole flush schedules a second
reconstruction; it flushes an empty buffer, and `assert(new_head > m_head)` fails. -/
theorem C59_false : ∃ s e, Reach P12 4 any s ∧ pcOf s 2 = some (.ad7 e) ∧ Conc.step P12 s 2 .go = .error .abort := by
  obtain ⟨s, h1, h2⟩ := reach_of (P := P12) (n := 4) anyB (ok := any) (fun _ _ _ => trivial)
    (insLow 0 10 ++ [(3, .insert 12), (3, .tailFirst)] ++ gos 3 1 ++ insSched 0 11 ++ job1 2 2 ++ gos 3 10 ++
      [(2, .work)] ++ gos 2 18)
    (fun s => decide (s.thr[2]? = some (⟨.ad7 2, none, none, 2⟩ : Th) ∧ s.head.idx = 2)) (by decide)
  rw [decide_eq_true_eq] at h2
  refine ⟨s, 2, h1, by unfold pcOf; rw [h2.1]; rfl, ?_⟩
  unfold Conc.step
  rw [h2.1]
  simp only [stepT]
  rw [h2.2]
  rfl

/-- Apart from that (and from the assertion of `C58_false_assert`) no assertion ever fails: the reconstruction aborts only if
its view is empty, and then only in `advance_head`. -/
theorem C59_partial (hw : 0 < P.hwm) (h : Reach P n any s) (hi : s.thr[i]? = some t) (hs : Conc.step P s i c = .error .abort) :
    (∃ k, t.pc = .ejC2 k ∧ s.cur.ep ≠ none ∧ s.cur.ref = 0) ∨ (∃ e, t.pc = .ad7 e ∧ t.tl = s.head.idx) := by
  obtain ⟨t', hi', h'⟩ := (h.inv hw).abort_cases (h.hist hw) hs
  rw [hi] at hi'; cases hi'; exact h'

/-- In particular no thread of an execution without queries that end while an epoch transition is going on, and in which the
reconstruction has something to flush, aborts. -/
theorem C59_nonempty (hw : 0 < P.hwm) (h : Reach P n any s) (hi : s.thr[i]? = some t) (he : ∀ k, t.pc ≠ .ejC2 k)
    (hne : s.head.idx < t.tl) : Conc.step P s i c ≠ .error .abort := by
  intro hs
  rcases C59_partial hw h hi hs with ⟨k, hk, _⟩ | ⟨_, _, hx⟩
  · exact he k hk
  · omega

/-! ### C60: what a concurrent query sees -/

/-- The records a job sees: those of the version of its epoch, then those of its view of the buffer. -/
def snapshot (P : Par) (s : St) (e h tl : Nat) : List Slot :=
  s.estr e ++ (List.range (tl - h)).map (fun k => s.mem ((h + k) % P.cap))

/-- A job with epoch `e` and view `[h, tl)` sees every insert that has returned 1 and whose position is below `tl` exactly at its
position, and nothing beyond `tl`. -/
def SeesAll (P : Par) (s : St) : Prop :=
  ∀ (i : Nat) (t : Th) e h, s.thr[i]? = some t → t.ep = some e → t.hd = some h → (∀ k, t.pc ≠ .gt k) →
    (snapshot P s e h t.tl).length = t.tl ∧
    ∀ p r, (p, r) ∈ s.done → p < t.tl → (snapshot P s e h t.tl)[p]? = some (some (p, r))

/-- The insert of record 9 has returned 1, and the query started afterwards does not see it. -/
theorem C60_false : ∃ s, Reach P12 4 any s ∧ ¬ SeesAll P12 s := by
  obtain ⟨s, h1, h2⟩ := reach_of (P := P12) (n := 4) anyB (ok := any) (fun _ _ _ => trivial)
    ([(3, .insert 9), (3, .tailFirst)] ++ gos 3 4 ++ insSched 0 11 ++ job1 2 2 ++ [(3, .go)] ++ query 1)
    (fun s => decide (s.thr[1]? = some (⟨.run, some 1, some 2, 2⟩ : Th) ∧ (0, 9) ∈ s.done ∧ s.estr 1 = [none, some (1, 11)]))
    (by decide)
  rw [decide_eq_true_eq] at h2
  obtain ⟨a1, a2, a3⟩ := h2
  refine ⟨s, h1, fun hv => ?_⟩
  have := (hv 1 _ 1 2 a1 rfl rfl (by simp)).2 0 9 a2 (by decide)
  unfold snapshot at this
  rw [a3] at this
  simp at this

/-- Even without a flush a query sees slots that have been claimed but not written: here the record a slot held in an earlier
round, which is also in the version, so the query sees it twice. -/
theorem C60_false_stale : ∃ s e h tl, Reach P12 4 tidy s ∧ s.thr[1]? = some (⟨.run, some e, some h, tl⟩ : Th) ∧
    snapshot P12 s e h tl = [some (0, 10), some (1, 11), some (2, 12), some (3, 13), some (0, 10)] := by
  obtain ⟨s, h1, h2⟩ := reach_of (P := P12) (n := 4) tidyB (ok := tidy) (fun _ _ => tidyB_sound)
    (insLow 0 10 ++ insSched 0 11 ++ job1 2 2 ++ insLow 0 12 ++ insSched 0 13 ++ job2 2 2 ++
      [(3, .insert 14), (3, .tailFirst)] ++ gos 3 4 ++ query 1)
    (fun s => decide (s.thr[1]? = some (⟨.run, some 2, some 4, 5⟩ : Th) ∧
      snapshot P12 s 2 4 5 = [some (0, 10), some (1, 11), some (2, 12), some (3, 13), some (0, 10)])) (by decide)
  rw [decide_eq_true_eq] at h2
  exact ⟨s, 2, 4, 5, h1, h2⟩

theorem snapshot_slot (hw : 0 < P.hwm) (h : Reach P n tidy s) (hi : s.thr[i]? = some t) {e x : Nat} (he : t.ep = some e)
    (hx : t.hd = some x) (hk : ∀ k, t.pc ≠ .gt k) :
    (s.estr e).length = x ∧ x ≤ t.tl ∧ t.tl ≤ s.tail ∧ (∀ p, p < x → ∃ r, (s.estr e)[p]? = some (some (p, r)) ∧ (p, r) ∈ s.done) ∧
    ∀ p r, x ≤ p → (p, r) ∈ s.done → s.mem (p % P.cap) = some (p, r) := by
  have hI := h.inv hw
  have hH := h.hist hw
  have hD := h.dat hw
  have hF := hI.pinned_str hD hi he
  rw [h.view hw i t hi e x he hx] at hF
  have hv : x ≤ t.tl ∧ t.tl ≤ s.tail := ((hI.thread hi).2 x hx).resolve_left (fun ⟨k, h⟩ => hk k h)
  refine ⟨hF.1, hv.1, hv.2, hF.2 trivial, fun p r hp hd => hD.slot trivial hH hd ?_⟩
  have h1 := hI.hd_le hi hx
  have h2 : s.tail ≤ s.head.idx + P.hwm := hI.bnd.2
  unfold Par.cap
  omega

/-- If flushes copy only finished slots, every job sees every completed insert below the tail of its view exactly where it
belongs, at any moment while it holds its epoch and its view. -/
theorem C60_partial (hw : 0 < P.hwm) (h : Reach P n tidy s) : SeesAll P s := by
  intro i t e x hi he hx hk
  obtain ⟨a1, a2, a3, a4, a5⟩ := snapshot_slot hw h hi he hx hk
  have hH := h.hist hw
  constructor
  · unfold snapshot
    rw [List.length_append, List.length_map, List.length_range, a1]; omega
  · intro p r hd hp
    unfold snapshot
    by_cases hpx : p < x
    · rw [List.getElem?_append_left (by rw [a1]; exact hpx)]
      obtain ⟨r', h1, h2⟩ := a4 p hpx
      rw [h1, hH.fun (hH.sub _ hd) (hH.sub _ h2)]
    · rw [List.getElem?_append_right (by rw [a1]; omega), a1, List.getElem?_map, List.getElem?_range (by omega)]
      have hpe : x + (p - x) = p := by omega
      rw [Option.map_some, hpe, a5 p r (by omega) hd]

/-- If moreover every append below the tail of the view has finished, the job sees each claimed position exactly once, in order,
and nothing else. -/
theorem C60_exact (hw : 0 < P.hwm) (h : Reach P n tidy s) (hi : s.thr[i]? = some t) {e x : Nat} (he : t.ep = some e)
    (hx : t.hd = some x) (hk : ∀ k, t.pc ≠ .gt k) (hfin : ∀ p, p < t.tl → ∃ r, (p, r) ∈ s.done) :
    ∃ rs : List Nat, rs.length = t.tl ∧ (∀ p r, rs[p]? = some r → (p, r) ∈ s.done) ∧
      snapshot P s e x t.tl = (rs.zipIdx).map (fun y => some (y.2, y.1)) := by
  obtain ⟨h1, h2⟩ := C60_partial hw h i t e x hi he hx hk
  have hH := h.hist hw
  have ex : ∀ m, m ≤ t.tl → ∃ rs : List Nat, rs.length = m ∧ ∀ p r, rs[p]? = some r → (p, r) ∈ s.done := by
    intro m
    induction m with
    | zero => exact fun _ => ⟨[], rfl, fun p r h => by simp at h⟩
    | succ m ih =>
      intro hm
      obtain ⟨rs, hl, hr⟩ := ih (by omega)
      obtain ⟨r, hd⟩ := hfin m (by omega)
      refine ⟨rs ++ [r], by simp [hl], fun p r' hp => ?_⟩
      by_cases hpl : p < rs.length
      · rw [List.getElem?_append_left hpl] at hp; exact hr p r' hp
      · rw [List.getElem?_append_right (by omega)] at hp
        have hz : p - rs.length = 0 := by
          by_contra hz
          rw [List.getElem?_eq_none (by simp; omega)] at hp; cases hp
        rw [hz] at hp
        have : p = m := by omega
        subst this
        have : r = r' := by simpa using hp
        subst this; exact hd
  obtain ⟨rs, hl, hr⟩ := ex t.tl (le_refl _)
  refine ⟨rs, hl, hr, ?_⟩
  apply List.ext_getElem?
  intro p
  by_cases hp : p < t.tl
  · have hg : rs[p]? = some rs[p] := List.getElem?_eq_getElem (by omega)
    rw [h2 p _ (hr p _ hg) hp, List.getElem?_map, List.getElem?_zipIdx, hg]
    simp
  · rw [List.getElem?_eq_none (by omega), List.getElem?_eq_none (by simp; omega)]

/-- When a job takes its view, every insert that has returned by then is below the tail of the view. -/
theorem C60_recent (hw : 0 < P.hwm) (h : Reach P n any s) (hi : s.thr[i]? = some t) {k : K} (hpc : t.pc = .gt k)
    (hs : Conc.step P s i c = .ok (some s')) :
    ∃ t', s'.thr[i]? = some t' ∧ t'.hd = t.hd ∧ t'.ep = t.ep ∧ ∀ p r, (p, r) ∈ s.done → p < t'.tl := by
  have hH := h.hist hw
  have hlt : i < s.thr.length := (List.getElem?_eq_some_iff.mp hi).1
  unfold Conc.step at hs
  rw [hi] at hs
  obtain ⟨pc, ep, hd, tl⟩ := t
  simp only at hpc; subst hpc
  simp only [stepT] at hs
  have := ok_inj hs; subst this
  exact ⟨_, List.getElem?_set_self hlt, rfl, rfl, fun p r hd => hH.claimed_lt (hH.sub _ hd)⟩

set_option maxHeartbeats 2000000 in
/-- A query that keeps its view over a flush: it sees all four records, two in its version and two in its view, while the
current epoch has them all in the version. -/
example : ∃ s t, Reach P12 4 tidy s ∧ s.thr[1]? = some t ∧ t.ep = some 1 ∧ t.hd = some 2 ∧ t.tl = 4 ∧ s.cur.ep = some 2 ∧
    (∀ p, p < 4 → ∃ r, (p, r) ∈ s.done) := by
  obtain ⟨s, h1, h2⟩ := reach_of (P := P12) (n := 4) tidyB (ok := tidy) (fun _ _ => tidyB_sound)
    (insLow 0 10 ++ insSched 0 11 ++ job1 2 2 ++ insLow 0 12 ++ insSched 0 13 ++ query 1 ++ job2 2 2)
    (fun s => decide (s.thr[1]? = some (⟨.run, some 1, some 2, 4⟩ : Th) ∧ s.cur.ep = some 2 ∧
      s.done.map Prod.fst = [3, 2, 1, 0])) (by decide)
  rw [decide_eq_true_eq] at h2
  obtain ⟨a1, a2, a3⟩ := h2
  refine ⟨s, _, h1, a1, rfl, rfl, rfl, a2, fun p hp => ?_⟩
  have : p ∈ s.done.map Prod.fst := by rw [a3]; simp; omega
  obtain ⟨⟨q, r⟩, hq, rfl⟩ := List.mem_map.mp this
  exact ⟨r, hq⟩

end DE.Conc
