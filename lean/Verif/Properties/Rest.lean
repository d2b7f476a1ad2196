import Verif.Proofs.ConcRest

/-!
C93: an index whose calls have all returned is not stuck. `AtRest` says that no thread is inside a call or a reconstruction (a
reconstruction may be queued). `Solo P i m s s'` says that thread `i` alone, in `m` steps, leads from `s` to `s'`; it plays both
the client and, when it takes the queued reconstruction, the worker.
-/

namespace DE.Conc
variable {P : Par} {n : Nat} {s s' : St} {i : Nat} {t : Th}

/-! ### C93: an index at rest accepts inserts -/

/-- At rest no epoch and no head is counted as used, whatever releases have been counted off the wrong epoch or head before, and the
lock is free. -/
theorem C93_counts (hw : 0 < P.hwm) (h : Reach P n any s) (hr : AtRest s) :
    s.prev.ref = 0 ∧ s.cur.ref = 0 ∧ s.old.ref = 0 ∧ s.head.ref = 0 ∧ s.lock = none ∧ s.jobs.length = (if s.flag then 1 else 0) := by
  obtain ⟨h1, h2, h3, h4, h5, h6⟩ := hr.counts hw h
  refine ⟨h1, h2, h3, h4, h5, ?_⟩
  split at h6
  · rename_i hf; obtain ⟨e, he⟩ := h6; rw [he, if_pos hf]; rfl
  · rename_i hf; rw [h6, if_neg hf]; rfl

/-- From every state at rest, any thread can insert any records: they are accepted in order, at the next positions, and the index is
at rest again. An insert that is refused because the buffer is full succeeds after one reconstruction. The
constructor asserts that the low watermark does not exceed the high one (MutableBuffer.h 53-54). -/
theorem C93 (hw : 0 < P.hwm) (hlw : P.lwm ≤ P.hwm) (h : Reach P n any s) (hr : AtRest s) (hi : i < n) (rs : List Nat) :
    ∃ m s', m ≤ rs.length * (P.hwm + 67) ∧ Solo P i m s s' ∧ AtRest s' ∧ s'.tail = s.tail + rs.length ∧
      ∃ new, s'.done = new ++ s.done ∧ new.reverse.map Prod.snd = rs ∧ new.reverse.map Prod.fst = List.range' s.tail rs.length := by
  obtain ⟨t, hi⟩ : ∃ t, s.thr[i]? = some t := ⟨_, List.getElem?_eq_getElem (h.threads.symm ▸ hi)⟩
  induction rs generalizing s t with
  | nil => exact ⟨0, s, by simp, ⟨[], rfl, rfl⟩, hr, rfl, [], rfl, rfl, rfl⟩
  | cons r rs ih =>
    obtain ⟨m1, a, u, hm1, a1, a2, a3, a4, a5⟩ := hr.accepts hw hlw h hi r
    obtain ⟨m2, s', hm2, b1, b2, b3, new, b4, b5, b6⟩ := ih (a1.reach h) a2 u a3
    refine ⟨m1 + m2, s', ?_, a1.trans b1, b2, ?_, new ++ [(s.tail, r)], ?_, ?_, ?_⟩
    · rw [List.length_cons, Nat.add_mul]; omega
    · rw [b3, a4, List.length_cons]; omega
    · rw [b4, a5]; simp
    · simp [b5]
    · simp [b6, a4, List.range'_succ]

/-- If from some state on the index never holds more than a bounded number of records (as after a misdirected release, C44 and C58),
then some call never returns: no later state is at rest. -/
theorem C93_wedged (hw : 0 < P.hwm) (hlw : P.lwm ≤ P.hwm) (h : Reach P n any s) (hn : 0 < n) {B : Nat}
    (hB : ∀ s', From P s s' → s'.tail ≤ B) (hf : From P s s') : ¬ AtRest s' := by
  intro hr
  have hr' := hf.reach h
  obtain ⟨m, a, -, ⟨cs, -, ha⟩, -, ht, -⟩ := C93 hw hlw hr' hr hn (List.replicate (B + 1) 0)
  have := hB a (hf.trans (From.of_exec .refl ha))
  rw [ht, List.length_replicate] at this
  omega

/-- A full buffer, with the reconstruction queued; the state is at rest, and `C93` applies although an insert alone is refused. -/
example : ∃ s, Reach P12 4 any s ∧ AtRest s ∧ s.tail = s.head.idx + P12.hwm ∧ s.jobs = [1] ∧
    (∃ m s', Solo P12 3 m s s' ∧ AtRest s' ∧ s'.tail = s.tail + 3) := by
  obtain ⟨s, h1, h2⟩ := reach_of (P := P12) (n := 4) anyB (ok := any) (fun _ _ _ => trivial) (insLow 0 10 ++ insSched 0 11)
    (fun s => decide (s.thr.all (fun u => decide (u.pc = .idle)) = true ∧ s.tail = s.head.idx + P12.hwm ∧ s.jobs = [1])) (by decide)
  rw [decide_eq_true_eq] at h2
  obtain ⟨a1, a2, a3⟩ := h2
  have hr : AtRest s := fun u hu => of_decide_eq_true (List.all_eq_true.mp a1 u hu)
  obtain ⟨m, s', -, b1, b2, b3, -⟩ := C93 (by decide) (by decide) h1 hr (i := 3) (by decide) [20, 21, 22]
  exact ⟨s, h1, hr, a2, a3, m, s', b1, b2, b3⟩

/-- The state of `C58_consequence` is of the kind of `C93_wedged`: whatever happens later, some call has not returned. -/
example : ∃ s, Reach P12 4 any s ∧ ∀ s', From P12 s s' → ¬ AtRest s' := by
  obtain ⟨s, h1, h2⟩ := C58_consequence
  exact ⟨s, h1, fun s' hf => C93_wedged (by decide) (by decide) h1 (by decide) (fun s' hf => (h2 s' hf).2) hf⟩

end DE.Conc
