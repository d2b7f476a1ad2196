import Verif.Proofs.ConcProgressJob
import Verif.Properties.Epochs

/-!
C70 to C72: which calls can be held up by other threads. A thread "running alone" takes steps while all other threads are
stopped wherever they are; a call that ends in this way under all circumstances never waits for another thread.
-/

namespace DE.Conc
variable {P : Par} {n : Nat} {s s' : St} {i : Nat} {t : Th} {c : Ch}

/-! ### C70: an insert never waits -/

/-- Wherever the other threads are, an insert (including the scheduling of a reconstruction) running alone takes at most 16 steps,
and it returns unless the assert of `end_job` fails (see C58). -/
theorem C70 (hw : 0 < P.hwm) (h : Reach P n any s) (hi : s.thr[i]? = some t) (hin : appending t.pc = true) :
    (∀ m s', Alone P i appending s m s' → m ≤ 16) ∧
    ∃ m s' u, Alone P i appending s m s' ∧ s'.thr[i]? = some u ∧
      (u.pc = .idle ∨ ((∃ r, u.pc = .ejC2 (.create r)) ∧ s'.cur.ref = 0)) := by
  have hμ : ∀ b t c d, (Inv P b ∧ Hist P b) → b.thr[i]? = some t → appending t.pc = true → stepT P b i t c = .ok (some d) →
      ∃ t', d.thr[i]? = some t' ∧ (if appending t'.pc then appM d t' else 0) < appM b t ∧ (appending t'.pc = true → Inv P d ∧ Hist P d) := by
    intro b t c d hb hi hin hs
    obtain ⟨t', h1, h2⟩ := app_step hb.1 hi hin hs
    have hst : Conc.step P b i c = .ok (some d) := by unfold Conc.step; rw [hi]; exact hs
    exact ⟨t', h1, h2, fun _ => ⟨hb.1.step hst, hb.2.step hb.1 hst⟩⟩
  have hQ := And.intro (h.inv hw) (h.hist hw)
  constructor
  · intro m s' ha
    obtain ⟨t', -, h1, -⟩ := ha.bounded hμ hQ hi hin
    have := appM_le s t
    omega
  · obtain ⟨m, b, u, ha, -, hu, hx⟩ := (Alone.refl (P := P) (i := i) (inn := appending) (a := s)).finishes
      (Stuck := fun b u => (∃ r, u.pc = .ejC2 (.create r)) ∧ b.cur.ref = 0) hμ
      (fun b t hb hi hin => app_enabled hb.1 hb.2 hi hin) hQ hi hin
    refine ⟨m, b, u, ha, hu, hx.imp (fun hx => ?_) id⟩
    exact ha.exit (E := fun _ u => u.pc = .idle) (fun b t c d t' a1 a2 a3 a4 a5 => app_exit a1 a2 a3 a4 a5) hi hin hu hx

/-- An insert about to advance the tail while a reconstruction has taken the current epoch out: it finishes in two steps. -/
example : ∃ s s' t u, Reach P12 4 any s ∧ s.thr[0]? = some t ∧ t.pc = .ap3 11 1 ∧ pcOf s 2 = some (.ad5 1 ⟨some 0, 0⟩) ∧
    Alone P12 0 appending s 2 s' ∧ s'.thr[0]? = some u ∧ u.pc = .idle ∧ (1, 11) ∈ s'.done := by
  obtain ⟨s, h1, h2⟩ := reach_of (P := P12) (n := 4) anyB (ok := any) (fun _ _ _ => trivial)
    (insLow 0 10 ++ (insSched 0 11).take 15 ++ (job1 2 1).take 15)
    (fun s => decide (s.thr[0]? = some ({ pc := .ap3 11 1 } : Th) ∧ pcOf s 2 = some (.ad5 1 ⟨some 0, 0⟩) ∧ s.tail = 1)) (by decide)
  rw [decide_eq_true_eq] at h2
  obtain ⟨a1, a2, a3⟩ := h2
  have e1 : Conc.step P12 s 0 .go = .ok (some ({ s with tail := 2, claimed := (1, 11) :: s.claimed }.setT 0 { pc := .ap5 11 1 })) := by
    unfold Conc.step; rw [a1]; simp [stepT, a3]
  have a4 : ({ s with tail := 2, claimed := (1, 11) :: s.claimed }.setT 0 { pc := .ap5 11 1 }).thr[0]? = some ({ pc := .ap5 11 1 } : Th) :=
    setT_self a1 rfl
  generalize hb : { s with tail := 2, claimed := (1, 11) :: s.claimed }.setT 0 { pc := .ap5 11 1 } = b at e1 a4
  have e2 : Conc.step P12 b 0 .go =
      .ok (some ({ b with mem := upd b.mem (1 % P12.cap) (some (1, 11)), done := (1, 11) :: b.done }.setT 0 { pc := .idle })) := by
    unfold Conc.step; rw [a4]; rfl
  exact ⟨s, _, _, _, h1, a1, rfl, a2, (Alone.refl.step a1 rfl e1).step a4 rfl e2, setT_self a4 rfl, rfl, List.mem_cons_self⟩

/-! ### C71: the calls of a query wait for a reconstruction -/

/-- What a call of a query waits for: the reconstruction is between taking out the current epoch and storing it as the previous
one (`get_active_epoch`, `end_job`); or between replacing the head and storing the old one (`get_buffer_view` and dropping a
view); or, when dropping a view of the current head, another view has been wrongly counted off it (see C44). -/
theorem C71_partial (hw : 0 < P.hwm) (h : Reach P n any s) (hi : s.thr[i]? = some t) (hin : calling t.pc = true) :
    (¬ Waits s t → (∀ m s', Alone P i calling s m s' → m ≤ 7) ∧ ∃ m s' u, Alone P i calling s m s' ∧ s'.thr[i]? = some u ∧
      ((u.pc = .run ∨ u.pc = .gt .client) ∨ (u.pc = .ejC2 .client ∧ s'.cur.ref = 0))) ∧
    (Waits s t → ∀ m s' u, Alone P i calling s m s' → s'.thr[i]? = some u → calling u.pc = true) := by
  have hQ := And.intro (h.inv hw) (h.hist hw)
  constructor
  · intro hnw
    have hμ : ∀ b t c d, ((Inv P b ∧ Hist P b) ∧ ∀ u, b.thr[i]? = some u → ¬ Waits b u) → b.thr[i]? = some t → calling t.pc = true →
        stepT P b i t c = .ok (some d) → ∃ t', d.thr[i]? = some t' ∧ (if calling t'.pc then callM d t' else 0) < callM b t ∧
          (calling t'.pc = true → (Inv P d ∧ Hist P d) ∧ ∀ u, d.thr[i]? = some u → ¬ Waits d u) := by
      intro b t c d hb hi hin hs
      obtain ⟨t', h1, h2, h3⟩ := call_step hb.1.1 hi hin (hb.2 t hi) hs
      have hst : Conc.step P b i c = .ok (some d) := by unfold Conc.step; rw [hi]; exact hs
      refine ⟨t', h1, h2, fun hx => ⟨⟨hb.1.1.step hst, hb.1.2.step hb.1.1 hst⟩, fun u hu => ?_⟩⟩
      rw [h1] at hu; cases hu
      exact h3 hx
    have hQ : (Inv P s ∧ Hist P s) ∧ ∀ u, s.thr[i]? = some u → ¬ Waits s u :=
      ⟨hQ, fun u hu => by rw [hi] at hu; cases hu; exact hnw⟩
    constructor
    · intro m s' ha
      obtain ⟨t', -, h1, -⟩ := ha.bounded hμ hQ hi hin
      have := callM_le s t
      omega
    · obtain ⟨m, b, u, ha, -, hu, hx⟩ := (Alone.refl (P := P) (i := i) (inn := calling) (a := s)).finishes
        (Stuck := fun b u => u.pc = .ejC2 .client ∧ b.cur.ref = 0) hμ
        (fun b t hb hi hin => (call_enabled hb.1.1 hb.1.2 hi hin).imp (fun ⟨d, hd⟩ => ⟨_, d, hd⟩) id) hQ hi hin
      refine ⟨m, b, u, ha, hu, hx.imp (fun hx => ?_) id⟩
      exact ha.exit (E := fun _ u => u.pc = .run ∨ u.pc = .gt .client) (fun b t c d t' a1 a2 a3 a4 a5 => call_exit a1 a2 a3 a4 a5) hi hin hu hx
  · intro hwt m s' u ha hu
    suffices h : Inv P s' ∧ ∀ u, s'.thr[i]? = some u → calling u.pc = true ∧ Waits s' u from (h.2 u hu).1
    clear hu u
    induction ha with
    | refl => exact ⟨hQ.1, fun u hu => by rw [hi] at hu; cases hu; exact ⟨hin, hwt⟩⟩
    | @step m b d v c _ hv hvi hs ih =>
      refine ⟨ih.1.step hs, fun u hu => ?_⟩
      unfold Conc.step at hs
      rw [hv] at hs
      obtain ⟨t', rfl, h2, h3⟩ := wait_step ih.1 hv hvi (ih.2 v hv).2 hs
      rw [setT_self hv rfl] at hu; cases hu
      exact ⟨h2, h3⟩

/-- A query does wait: a reconstruction has been stopped after taking out the current epoch, and a query that starts now never
gets past `get_active_epoch`, however long it runs. -/
theorem C71_false : ∃ s t, Reach P12 4 any s ∧ s.thr[1]? = some t ∧ t.pc = .ga1 .client ∧
    ∀ m s' u, Alone P12 1 calling s m s' → s'.thr[1]? = some u → calling u.pc = true := by
  obtain ⟨s, h1, h2⟩ := reach_of (P := P12) (n := 4) anyB (ok := any) (fun _ _ _ => trivial)
    (insLow 0 10 ++ insSched 0 11 ++ (job1 2 2).take 16 ++ [(1, .query)])
    (fun s => decide (s.thr[1]? = some ({ pc := .ga1 .client } : Th) ∧ s.thr[2]?.map Th.pc = some (.ad5 1 ⟨some 0, 0⟩))) (by decide)
  rw [decide_eq_true_eq] at h2
  obtain ⟨a1, a2⟩ := h2
  obtain ⟨u, hu, hp⟩ := Option.map_eq_some_iff.mp a2
  exact ⟨s, _, h1, a1, rfl, (C71_partial (by decide) h1 a1 rfl).2 (.inl ⟨⟨u, List.mem_of_getElem? hu, _, _, hp⟩, .inl rfl⟩)⟩

/-- The same for a query that takes its view between the two stores of `advance_head`. -/
theorem C71_false_view : ∃ s t, Reach P12 4 any s ∧ s.thr[1]? = some t ∧ t.pc = .gh1 .client 0 ∧
    ∀ m s' u, Alone P12 1 calling s m s' → s'.thr[1]? = some u → calling u.pc = true := by
  obtain ⟨s, h1, h2⟩ := reach_of (P := P12) (n := 4) anyB (ok := any) (fun _ _ _ => trivial)
    (insLow 0 10 ++ insSched 0 11 ++ [(1, .query)] ++ gos 1 3 ++ (job1 2 2).take 22 ++ [(1, .getBuffer)])
    (fun s => decide (s.thr[1]? = some (⟨.gh1 .client 0, some 0, none, 0⟩ : Th) ∧ s.thr[2]?.map Th.pc = some (.ad11 1 ⟨0, 0⟩))) (by decide)
  rw [decide_eq_true_eq] at h2
  obtain ⟨a1, a2⟩ := h2
  obtain ⟨u, hu, hp⟩ := Option.map_eq_some_iff.mp a2
  exact ⟨s, _, h1, a1, rfl, (C71_partial (by decide) h1 a1 rfl).2 (.inr (.inl ⟨⟨u, List.mem_of_getElem? hu, _, _, hp⟩, .inl rfl⟩))⟩

/-- A query that starts while a reconstruction is copying the buffer does not wait. -/
example : ∃ s t, Reach P12 4 any s ∧ s.thr[1]? = some t ∧ t.pc = .ga1 .client ∧ (∃ acc, pcOf s 2 = some (.cp 1 1 acc)) ∧ ¬ Waits s t := by
  obtain ⟨s, h1, h2⟩ := reach_of (P := P12) (n := 4) anyB (ok := any) (fun _ _ _ => trivial)
    (insLow 0 10 ++ insSched 0 11 ++ (job1 2 2).take 8 ++ [(1, .query)])
    (fun s => decide (s.thr[1]? = some ({ pc := .ga1 .client } : Th) ∧ pcOf s 2 = some (.cp 1 1 [some (0, 10)]) ∧
      s.thr.all (fun u => match u.pc with | .ad5 _ _ => false | .ad11 _ _ => false | _ => true) = true)) (by decide)
  rw [decide_eq_true_eq] at h2
  obtain ⟨a1, a2, a3⟩ := h2
  rw [List.all_eq_true] at a3
  refine ⟨s, _, h1, a1, rfl, ⟨_, a2⟩, ?_⟩
  rintro (⟨⟨u, hu, e, c, hp⟩, -⟩ | ⟨⟨u, hu, e, c, hp⟩, -⟩ | ⟨h, -⟩)
  · have := a3 u hu; rw [hp] at this; cases this
  · have := a3 u hu; rw [hp] at this; cases this
  · cases h

/-! ### C72: what a reconstruction waits for -/

/-- A reconstruction running alone finishes exactly if no pin is counted on the previous epoch (until it is retired), none on the
old head (until the head is advanced) and the lock is free (until it is taken). It then takes at most one step per record in the
buffer and 33 more, and it clears the flag, unless it flushed an empty view (then the assert of `advance_head` fails, C59). -/
theorem C72 (hw : 0 < P.hwm) (h : Reach P n any s) (hi : s.thr[i]? = some t) (hin : rebuilding t.pc = true) :
    (Ready s t.pc → (∀ m s', Alone P i rebuilding s m s' → m ≤ 33 + (s.tail - s.head.idx) ∧ m ≤ 33 + P.hwm) ∧
      ∃ m s' u, Alone P i rebuilding s m s' ∧ s'.thr[i]? = some u ∧
        ((u.pc = .idle ∧ s'.flag = false) ∨ ((∃ e, u.pc = .ad7 e) ∧ u.tl = s'.head.idx))) ∧
    (¬ Ready s t.pc → ∀ m s' u, Alone P i rebuilding s m s' → s'.thr[i]? = some u → rebuilding u.pc = true) := by
  have hG := h.good hw
  constructor
  · intro hr
    have hμ : ∀ b t c d, (Good P b ∧ ∀ u, b.thr[i]? = some u → Ready b u.pc) → b.thr[i]? = some t → rebuilding t.pc = true →
        stepT P b i t c = .ok (some d) → ∃ t', d.thr[i]? = some t' ∧ (if rebuilding t'.pc then recM d t' else 0) < recM b t ∧
          (rebuilding t'.pc = true → Good P d ∧ ∀ u, d.thr[i]? = some u → Ready d u.pc) := by
      intro b t c d hb hi hin hs
      obtain ⟨t', h1, h2, h3⟩ := rec_step hb.1 hi hin (hb.2 t hi) hs
      have hst : Conc.step P b i c = .ok (some d) := by unfold Conc.step; rw [hi]; exact hs
      refine ⟨t', h1, h2, fun hx => ⟨hb.1.step hst, fun u hu => ?_⟩⟩
      rw [h1] at hu; cases hu
      exact h3 hx
    have hQ : Good P s ∧ ∀ u, s.thr[i]? = some u → Ready s u.pc :=
      ⟨hG, fun u hu => by rw [hi] at hu; cases hu; exact hr⟩
    constructor
    · intro m s' ha
      obtain ⟨t', -, h1, -⟩ := ha.bounded hμ hQ hi hin
      have h2 := recM_le hG hi hin
      obtain ⟨-, h3⟩ : s.head.idx ≤ s.tail ∧ s.tail ≤ s.head.idx + P.hwm := hG.inv.bnd
      omega
    · obtain ⟨m, b, u, ha, -, hu, hx⟩ := (Alone.refl (P := P) (i := i) (inn := rebuilding) (a := s)).finishes
        (Stuck := fun b u => (∃ e, u.pc = .ad7 e) ∧ u.tl = b.head.idx) hμ
        (fun b t hb hi hin => by
          rcases rec_enabled hb.1 hi hin with ⟨d, hd⟩ | ⟨h1, h2⟩ | h
          · exact .inl ⟨_, d, hd⟩
          · have := (hb.2 t hi).2.2; rw [h1] at this; exact absurd (this rfl) h2
          · exact .inr h) hQ hi hin
      refine ⟨m, b, u, ha, hu, hx.imp (fun hx => ?_) id⟩
      exact ha.exit (E := fun b u => u.pc = .idle ∧ b.flag = false) (fun b t c d t' a1 a2 a3 a4 a5 => rec_exit a1 a2 a3 a4 a5) hi hin hu hx
  · intro hnr m s' u ha hu
    suffices h : Good P s' ∧ ∀ u, s'.thr[i]? = some u → rebuilding u.pc = true ∧ ¬ Ready s' u.pc from (h.2 u hu).1
    clear hu u
    induction ha with
    | refl => exact ⟨hG, fun u hu => by rw [hi] at hu; cases hu; exact ⟨hin, hnr⟩⟩
    | @step m b d v c _ hv hvi hs ih =>
      refine ⟨ih.1.step hs, fun u hu => ?_⟩
      unfold Conc.step at hs
      rw [hv] at hs
      obtain ⟨t', h1, h2, h3⟩ := rec_blocked ih.1 hv hvi (ih.2 v hv).2 hs
      rw [h1] at hu; cases hu
      exact ⟨h2, h3⟩

/-- A reconstruction that has just started, with nothing to wait for; and one that waits for a query on the previous epoch. -/
example : (∃ s t, Reach P12 4 any s ∧ s.thr[2]? = some t ∧ t.pc = .jb 1 ∧ Ready s t.pc) ∧
    ∃ s t, Reach P12 4 any s ∧ s.thr[2]? = some t ∧ t.pc = .jb 2 ∧ ¬ Ready s t.pc := by
  constructor
  · obtain ⟨s, h1, h2⟩ := reach_of (P := P12) (n := 4) anyB (ok := any) (fun _ _ _ => trivial)
      (insLow 0 10 ++ insSched 0 11 ++ [(2, .work)])
      (fun s => decide (s.thr[2]? = some ({ pc := .jb 1 } : Th) ∧ Ready s (.jb 1))) (by decide)
    rw [decide_eq_true_eq] at h2
    exact ⟨s, _, h1, h2.1, rfl, h2.2⟩
  · obtain ⟨s, h1, h2⟩ := reach_of (P := P12) (n := 4) anyB (ok := any) (fun _ _ _ => trivial)
      (insLow 0 10 ++ query 1 ++ insSched 0 11 ++ job1 2 2 ++ insLow 0 12 ++ insSched 0 13 ++ [(2, .work)])
      (fun s => decide (s.thr[2]? = some (⟨.jb 2, none, none, 2⟩ : Th) ∧ ¬ Ready s (.jb 2))) (by decide)
    rw [decide_eq_true_eq] at h2
    exact ⟨s, _, h1, h2.1, rfl, h2.2⟩

end DE.Conc
