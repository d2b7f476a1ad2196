import Verif.Proofs.Scheduler

/-!
C52: jobs are started in the order in which they were submitted. C62: accepted jobs are run. C63: destroying the scheduler ends.
-/

namespace DE.Sched
variable {pop : Pop}

/-- C52, if the task queue hands out a least element with respect to `operator<`: at every moment of every execution the jobs
started so far are a prefix of the jobs submitted so far. (Each submission is started at most once, in order, and nothing else is
started.) The contract of `psudb::LockedPriorityQueue` is what is missing. -/
theorem C52_partial (hm : MinPop pop) {n : Nat} {s : St} (h : Reach pop n s) : s.started <+: s.submitted := by
  have : Ordered s := h.induct (P := Ordered) ⟨[], List.Perm.refl _, List.Pairwise.nil, by simp, rfl⟩
    (fun s e s' => ordered_step hm)
  obtain ⟨Q, _, _, _, hj⟩ := this
  exact ⟨s.pool.map Task.job ++ Q.map Task.job, by rw [hj, List.append_assoc]⟩

/-- The queue and everything in front of it accounted for, whatever the order. -/
theorem C52_once (hb : BagPop pop) {n : Nat} {s : St} (h : Reach pop n s) :
    (s.started ++ s.pool.map Task.job ++ s.queue.map Task.job).Perm s.submitted := by
  refine h.induct (P := fun s => (s.started ++ s.pool.map Task.job ++ s.queue.map Task.job).Perm s.submitted) (List.Perm.refl _) ?_
  intro s e s' hp h
  rcases step_cases h with ⟨h1, h2, h3, h4, h5⟩ | ⟨j, h1, h2, h3, h4, h5⟩ | ⟨t, q, h0, h1, h2, h3, h4, h5⟩ | ⟨t, p, h0, h1, h2, h3, h4, h5⟩
  · rw [h2, h3, h4, h5]; exact hp
  · rw [h2, h3, h4, h5, List.map_cons]
    refine List.Perm.trans ?_ (hp.append_right [j])
    rw [List.append_assoc _ _ [j]]
    exact List.Perm.append_left _ (by simpa using (List.perm_append_comm (l₁ := [j])))
  · rw [h2, h3, h4, h5]
    refine List.Perm.trans ?_ hp
    rw [List.map_append, List.append_assoc, List.append_assoc, List.append_assoc]
    exact List.Perm.append_left _ (List.Perm.append_left _ ((hb.perm _ _ _ h0).map Task.job).symm)
  · rw [h2, h3, h4, h5]
    rw [h0] at hp
    simpa using hp

/-- Two jobs are submitted while the scheduler thread is not waiting; later it dispatches both and the only worker runs them. -/
def twoJobs : List Ev := [.submit 10, .submit 11, .sched true, .wake, .wake, .sched true, .sched true, .sched true, .start, .finish 0, .start]

/-- With a queue that hands out the greatest task with respect to `operator<`, as a plain `std::priority_queue` does, the later job
is run first. -/
theorem C52_false_max : ∃ pop, MaxPop pop ∧ ∃ s, Reach pop 1 s ∧ s.submitted = [10, 11] ∧ s.started = [11, 10] ∧
    ¬ s.started <+: s.submitted := by
  have h : ∃ s, runEvs popMax (init 1) twoJobs = some s ∧ s.submitted = [10, 11] ∧ s.started = [11, 10] := by decide
  obtain ⟨s, h1, h2, h3⟩ := h
  exact ⟨popMax, popMax_max, s, ⟨_, h1⟩, h2, h3, by rw [h2, h3]; decide⟩

example : ∃ s, runEvs popMin (init 1) twoJobs = some s ∧ s.submitted = [10, 11] ∧ s.started = [10, 11] := by decide

/-- The serial scheduler runs every job, in order, before `schedule_job` returns. -/
theorem C52_serial (js : List Nat) : js.foldl serialJob (0, []) = (js.length, js) := by
  have : ∀ (js : List Nat) (s : Nat × List Nat), js.foldl serialJob s = (s.1 + js.length, s.2 ++ js) := by
    intro js
    induction js with
    | nil => intro s; simp
    | cons j js ih =>
      intro s
      rw [List.foldl_cons, ih]
      simp [serialJob]
      omega
  simpa using this js (0, [])

/-! ### C62 -/

/-- A job is submitted; before the scheduler thread looks at the queue the object is destroyed. -/
def dropped : List Ev := [.submit 10, .main, .main, .sched false, .main, .sched false, .sched false, .sched false, .main,
  .wake, .wake, .wake, .main]

/-- C62 is false: jobs still in the task queue when `shutdown` is called are dropped, whatever the queue does. For a query this means
a promise that is never fulfilled. -/
theorem C62_false (pop : Pop) : ∃ s, Reach pop 1 s ∧ s.main = .gone ∧ s.submitted = [10] ∧ s.started = [] := by
  refine ⟨_, ⟨dropped, rfl⟩, ?_⟩
  decide

/-- What holds of C62: once `shutdown` has stopped the pool, every job ever submitted has been started and has ended, or is in the
task queue, where it stays for good. Missing: the jobs in the task queue. -/
theorem C62_partial (hb : BagPop pop) {n : Nat} {s : St} (h : Reach pop n s) (hs : Stopped s) :
    s.running = [] ∧ (s.started ++ s.queue.map Task.job).Perm s.submitted := by
  have hd : Drained s := h.induct (P := Drained) (fun hs => absurd rfl hs.1) (fun s e s' => drained_step)
  obtain ⟨h1, h2, -⟩ := hd hs
  refine ⟨h2, ?_⟩
  have := C52_once hb h
  rw [h1] at this
  simpa using this

/-! ### C63 -/

/-- The scheduler thread reads the flag; it is set, both notifications are sent, and only then the scheduler thread waits. -/
def lostWake : List Ev := [.main, .main, .wake, .wake, .wake, .main, .sched false]

/-- C63 is false: the destroying thread waits for the scheduler thread, which sleeps, and nobody is left to wake it. -/
theorem C63_false (pop : Pop) : ∃ s, Reach pop 1 s ∧ Blocked pop s := by
  refine ⟨_, ⟨lostWake, rfl⟩, by decide, by decide, ?_⟩
  intro e s' h
  cases e with
  | submit j => exact .inr ⟨j, rfl⟩
  | start => cases h
  | finish i => cases h
  | sched b => cases h
  | spurious => exact .inl rfl
  | wake => cases h
  | main => cases h

/-- Once the flag is set, and unless clients keep submitting, only boundedly many steps follow: nothing runs forever. -/
theorem C63_bounded (hb : BagPop pop) : ∀ (es : List Ev) (s s' : St), s.flag = true → (∀ j, Ev.submit j ∉ es) →
    runEvs pop s es = some s' → es.length + bound s' ≤ bound s
  | [], s, s', _, _, h => by cases h; simp
  | e :: es, s, s', hf, he, h => by
    unfold runEvs at h
    split at h
    · rename_i s1 h1
      have a := bound_step hb (e := e) hf (fun j hj => he j (hj ▸ List.mem_cons_self)) h1
      have b := C63_bounded hb es s1 s' (flagged_step hf h1) (fun j hj => he j (List.mem_cons_of_mem _ hj)) h
      rw [List.length_cons]
      omega
    · cases h

/-- The only way in which destruction blocks is the lost wake-up of `C63_false`: the scheduler thread sleeps although the flag is
set, after the last notification of both other threads. -/
theorem C63_partial {n : Nat} {s : St} (h : Reach pop n s) (hb : Blocked pop s) :
    s.sched = .wait ∧ s.wake = .done ∧ s.main = .joinSched := by
  obtain ⟨h1, h2, h3⟩ := hb
  obtain ⟨m1, m2⟩ := manned n h
  have hf := m1.mpr h1
  have no : ∀ e, e ≠ Ev.spurious → (∀ j, e ≠ .submit j) → step pop s e = none := by
    intro e e1 e2
    cases hs : step pop s e with
    | none => rfl
    | some s' =>
      rcases h3 e s' hs with h | ⟨j, h⟩
      · exact absurd h e1
      · exact absurd h (e2 j)
  have hw : s.wake = .done := by
    have := no .wake (by simp) (by simp)
    replace this : wakeStep s = none := this
    unfold wakeStep at this
    split at this
    · cases this
    · cases this
    · cases this
    · assumption
  have hs : s.sched = .wait ∨ s.sched = .done := by
    have := no (.sched false) (by simp) (by simp)
    replace this : schedStep pop s false = none := this
    unfold schedStep at this
    split at this
    · cases this
    · left; assumption
    · cases this
    · rw [if_neg (by simp)] at this; cases this
    · cases this
    · right; assumption
  have hm := no .main (by simp) (by simp)
  replace hm : mainStep s = none := hm
  unfold mainStep at hm
  split at hm
  · cases hm
  · rename_i hstop
    exfalso
    split at hm
    · cases hm
    · rename_i hne
      have ht : 0 < s.threads := by
        rcases m2 with m2 | m2
        · exact absurd hstop m2.2
        · exact m2
      by_cases hr : s.running = []
      · have hp : s.pool ≠ [] := fun hp => hne ⟨hp, hr⟩
        have := no .start (by simp) (by simp)
        unfold step at this
        dsimp only at this
        split at this
        · rw [hr, List.length_nil, if_pos ht] at this
          cases this
        · rename_i hp'
          exact hp hp'
      · have := no (.finish 0) (by simp) (by simp)
        unfold step at this
        dsimp only at this
        rw [if_pos (List.length_pos_iff.mpr hr)] at this
        cases this
  · cases hm
  · rename_i hj
    split at hm
    · cases hm
    · rename_i hd
      rcases hs with hs | hs
      · exact ⟨hs, hw, hj⟩
      · exact absurd hs hd
  · rw [if_pos hw] at hm; cases hm
  · rename_i hg; exact absurd hg h2

/-- The full statement of C63 whenever `shutdown` sets the flag while the scheduler thread is not between its test of the flag and
its wait: destruction never blocks. -/
theorem C63_heard {n : Nat} {s s0 s' : St} {es : List Ev} (h : Reach pop n s) (hl : s.main = .live) (he : s.sched ≠ .enter)
    (h0 : step pop s .main = some s0) (hr : runEvs pop s0 es = some s') : ¬ Blocked pop s' := by
  intro hb
  have hh : Heard s0 := by
    replace h0 : mainStep s = some s0 := h0
    unfold mainStep at h0
    rw [hl] at h0
    cases h0
    exact ⟨rfl, by simp, he, fun _ => .inl rfl⟩
  have hreach : Reach pop n s' := by
    obtain ⟨fs, hf⟩ := h
    refine ⟨fs ++ (.main :: es), ?_⟩
    rw [runEvs_append _ _ _ _ hf]
    unfold runEvs
    rw [h0]
    exact hr
  have : ∀ (es : List Ev) (s : St), Heard s → runEvs pop s es = some s' → Heard s' := by
    intro es
    induction es with
    | nil => intro s hs h; cases h; exact hs
    | cons e es ih =>
      intro s hs h
      unfold runEvs at h
      split at h
      · rename_i s1 h1
        exact ih s1 (heard_step hs h1) h
      · cases h
  have hh' := this es s0 hh hr
  obtain ⟨b1, b2, b3⟩ := C63_partial hreach hb
  rcases hh'.2.2.2 b1 with h | h <;> rw [b3] at h <;> cases h

/-- A destruction that ends: the scheduler thread sleeps when the flag is set. -/
example : ∃ s s0 s', runEvs popMin (init 1) [.submit 10, .sched true] = some s ∧ s.main = .live ∧ s.sched ≠ .enter ∧
    step popMin s .main = some s0 ∧ runEvs popMin s0 [.wake, .wake, .sched true, .sched true, .start, .sched true, .finish 0, .main, .main,
      .sched true, .wake, .main, .main] = some s' ∧ s'.main = .gone ∧ s'.started = [10] :=
  ⟨_, _, _, rfl, rfl, by decide, rfl, rfl, by decide, by decide⟩

end DE.Sched
