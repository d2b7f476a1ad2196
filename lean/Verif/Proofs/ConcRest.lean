import Verif.Proofs.ConcStuck
import Verif.Properties.Progress

/-!
States in which all calls have returned: what is known about them and what a thread can do from there.
-/

set_option linter.unreachableTactic false
set_option linter.unusedTactic false
set_option linter.unusedSimpArgs false

namespace DE.Conc
variable {P : Par} {n : Nat} {s s' : St} {i : Nat} {t : Th} {c : Ch}

/-- All calls have returned and no reconstruction is running. -/
def AtRest (s : St) : Prop := ∀ u ∈ s.thr, u.pc = .idle

/-- Holding the lock of the condition variable. -/
def locking : PC → Bool
  | .ad15 | .ad16 | .aw3 | .aw6 => true
  | _ => false

/-- The lock is held by a thread that is about to give it back. -/
def LockOk (s : St) : Prop := ∀ j, s.lock = some j → ∃ u, s.thr[j]? = some u ∧ locking u.pc = true

theorem wake_locking (u : Th) (h : locking u.pc = true) : locking (wake u).pc = true := by
  unfold wake
  split
  · rename_i h1; rw [h1] at h; cases h
  · exact h

theorem LockOk.step (h : LockOk s) (hs : Conc.step P s i c = .ok (some s')) : LockOk s' := by
  unfold Conc.step at hs
  split at hs
  case h_2 => cases hs
  rename_i t hi
  have hlen := (List.getElem?_eq_some_iff.mp hi).1
  have key : ∀ {a : St} {t' : Th}, (.ok (some (a.setT i t')) : Out) = .ok (some s') → a.thr = s.thr → a.lock = s.lock →
      (locking t.pc = true → locking t'.pc = true) → LockOk s' := by
    intro a t' e a1 a2 a3 j hj
    have := ok_inj e; subst this
    obtain ⟨u, h1, h2⟩ := h j (a2 ▸ hj)
    show ∃ u, (a.thr.set i t')[j]? = some u ∧ _
    rw [a1, List.getElem?_set]
    by_cases hx : i = j
    · subst hx; rw [hi] at h1; cases h1
      exact ⟨t', by simp [hlen], a3 h2⟩
    · exact ⟨u, by simp [hx, h1], h2⟩
  have take : ∀ {t' : Th}, (.ok (some ({ s with lock := some i }.setT i t')) : Out) = .ok (some s') → locking t'.pc = true → LockOk s' := by
    intro t' e a1 j hj
    have := ok_inj e; subst this
    have hj : some i = some j := hj
    cases hj
    exact ⟨t', List.getElem?_set_self hlen, a1⟩
  have give : ∀ {t' : Th}, (.ok (some ({ s with lock := none }.setT i t')) : Out) = .ok (some s') → LockOk s' := by
    intro t' e j hj
    have := ok_inj e; subst this
    cases hj
  obtain ⟨pc, ep, hd, tl⟩ := t
  cases pc
  case ad14 => simp only [stepT] at hs; split at hs; exacts [take hs rfl, by cases hs]
  case aw2 => simp only [stepT] at hs; split at hs; exacts [take hs rfl, by cases hs]
  case aw5 => simp only [stepT] at hs; split at hs; exacts [take hs rfl, by cases hs]
  case ad16 => exact give hs
  case aw3 => exact give hs
  case aw6 => exact give hs
  case ad15 =>
    simp only [stepT] at hs
    intro j hj
    have := ok_inj hs; subst this
    obtain ⟨u, h1, h2⟩ := h j hj
    show ∃ u, ((s.thr.map wake).set i _)[j]? = some u ∧ _
    rw [List.getElem?_set]
    by_cases hx : i = j
    · subst hx; exact ⟨⟨.ad16, ep, hd, tl⟩, by simp [hlen], rfl⟩
    · exact ⟨wake u, by simp [hx, h1], wake_locking u h2⟩
  all_goals
    simp only [stepT] at hs
    repeat' split at hs
  all_goals first
    | exact key hs rfl rfl (fun h => by cases h)
    | exact absurd hs (by simp)

theorem Reach.lockOk {ok : St → Nat → Prop} (h : Reach P n ok s) : LockOk s := by
  induction h with
  | init => intro j hj; cases hj
  | step _ _ hs ih => exact ih.step hs

theorem step_length (hs : Conc.step P s i c = .ok (some s')) : s'.thr.length = s.thr.length := by
  unfold Conc.step at hs
  split at hs
  case h_2 => cases hs
  rename_i t hi
  have key : ∀ {a : St} {t' : Th}, (.ok (some (a.setT i t')) : Out) = .ok (some s') → a.thr.length = s.thr.length →
      s'.thr.length = s.thr.length := by
    intro a t' e a1
    have := ok_inj e; subst this
    show (a.thr.set i t').length = _
    rw [List.length_set, a1]
  obtain ⟨pc, ep, hd, tl⟩ := t
  cases pc
  all_goals
    simp only [stepT] at hs
    repeat' split at hs
  all_goals first
    | exact key hs rfl
    | exact key hs (List.length_map _)
    | exact absurd hs (by simp)

theorem Reach.threads {ok : St → Nat → Prop} (h : Reach P n ok s) : s.thr.length = n := by
  induction h with
  | init => exact List.length_replicate
  | step _ _ hs ih => exact (step_length hs).trans ih

theorem AtRest.pcs (h : AtRest s) (hi : s.thr[i]? = some t) : t.pc = .idle := h t (List.mem_of_getElem? hi)

/-- At rest nothing is counted anywhere, the lock is free, and a reconstruction is waiting exactly if the flag is set. -/
theorem AtRest.counts (hw : 0 < P.hwm) (h : Reach P n any s) (hr : AtRest s) :
    s.prev.ref = 0 ∧ s.cur.ref = 0 ∧ s.old.ref = 0 ∧ s.head.ref = 0 ∧ s.lock = none ∧
      (if s.flag then ∃ e, s.jobs = [e] else s.jobs = []) := by
  have hI := h.inv hw
  have hlock : s.lock = none := by
    cases hl : s.lock with
    | none => rfl
    | some j =>
      obtain ⟨u, h1, h2⟩ := h.lockOk j hl
      rw [hr.pcs h1] at h2; cases h2
  have hfree : ∀ u ∈ s.thr, u.ep = none ∧ u.hd = none := by
    intro u hu
    have := (hI.loc u hu).1
    unfold LocPc at this
    rw [hr u hu] at this
    exact this
  have hH : ∀ e, s.H e = 0 := fun e => List.countP_eq_zero.mpr (fun u hu => by simp [(hfree u hu).1])
  have hV : ∀ e, s.V e = 0 := fun e => List.countP_eq_zero.mpr (fun u hu => by simp [(hfree u hu).2])
  have hsect : ∀ u ∈ s.thr, sect u = none := fun u hu => by unfold sect; rw [hr u hu]
  have hm := hI.mutex
  unfold Mutex at hm
  rw [List.countP_eq_zero.mpr (fun u hu => by simp [hsect u hu])] at hm
  have hjobs : if s.flag then ∃ e, s.jobs = [e] else s.jobs = [] := by
    split
    · rename_i hf
      rw [hf] at hm
      exact List.length_eq_one_iff.mp (by simpa using hm)
    · rename_i hf
      rw [if_neg hf] at hm
      exact List.length_eq_zero_iff.mp (by simpa using hm)
  have hcalm : Calm P s.sv := by
    obtain ⟨ph, hph⟩ := hI.some_phase
    have hc := hI.core ph hph
    rcases hph with ⟨-, rfl⟩ | ⟨e, -, rfl⟩ | ⟨u, hu, h⟩
    · exact hc.1
    · exact hc.1
    · rw [hsect u hu] at h; cases h
  obtain ⟨⟨e1, -, -, -, hE⟩, ⟨-, -, hB, -⟩, -⟩ := hcalm
  have hB : s.old.ref + s.head.ref = s.V s.old.idx + s.V s.head.idx := hB
  rw [hV, hV] at hB
  have hE : s.prev.ref = 0 ∧ s.cur.ref = 0 := by
    rcases hE with ⟨h1, h2, -⟩ | ⟨e0, -, -, -, -, -, h2, -⟩
    · have h1 : s.prev = ⟨none, 0⟩ := h1
      have h2 : s.cur.ref = s.H e1 := h2
      rw [h1, h2, hH]; exact ⟨rfl, rfl⟩
    · have h2 : s.prev.ref + s.cur.ref = s.H e0 + s.H e1 := h2
      rw [hH, hH] at h2
      omega
  exact ⟨hE.1, hE.2, by omega, by omega, hlock, hjobs⟩

/-! ### Inserting from rest -/

theorem From.of_exec : ∀ {l : List (Nat × Ch)} {a : St}, From P s a → exec P l a = .ok (some s') → From P s s'
  | [], a, h, he => by cases he; exact h
  | (i, c) :: l, a, h, he => by
    unfold exec at he
    split at he
    · rename_i b hb; exact From.of_exec (h.step hb) he
    · rename_i hx; exact absurd he (hx s')

theorem From.trans {a : St} (h1 : From P s a) (h2 : From P a s') : From P s s' := by
  induction h2 with
  | refl => exact h1
  | step _ hs ih => exact ih.step hs

theorem From.reach (hr : Reach P n any s) (h : From P s s') : Reach P n any s' := by
  induction h with
  | refl => exact hr
  | step _ hs ih => exact ih.step trivial hs

theorem set_same {l : List Th} (h : l[i]? = some t) : l.set i t = l := by
  obtain ⟨hl, h⟩ := List.getElem?_eq_some_iff.mp h
  subst h
  exact List.set_getElem_self hl

/-- At rest a thread is as after the constructor, except for the tail of its last view. -/
theorem AtRest.thread (hw : 0 < P.hwm) (h : Reach P n any s) (hr : AtRest s) (hi : s.thr[i]? = some t) :
    t = ⟨.idle, none, none, t.tl⟩ := by
  have h1 := hr.pcs hi
  have h2 := ((h.inv hw).thread hi).1
  unfold LocPc at h2
  rw [h1] at h2
  obtain ⟨pc, ep, hd, tl⟩ := t
  obtain ⟨a, b⟩ : ep = none ∧ hd = none := h2
  have h1 : pc = .idle := h1
  subst h1 a b
  rfl

/-- What `create_new_epoch` needs, when no reconstruction is scheduled. -/
theorem AtRest.epochs (hw : 0 < P.hwm) (h : Reach P n any s) (hr : AtRest s) (hf : s.flag = false) :
    s.next = none ∧ ∃ e, s.cur = ⟨some e, 0⟩ ∧ s.alive e = true ∧ s.prev.ep ≠ some e := by
  obtain ⟨-, hc, -⟩ := hr.counts hw h
  obtain ⟨⟨⟨e1, h1, h2, -, hE⟩, -⟩, hn⟩ := (h.inv hw).core .A (.inl ⟨hf, rfl⟩)
  refine ⟨hn, e1, ?_, h2, ?_⟩
  · have h1 : s.cur.ep = some e1 := h1
    rw [← h1, ← hc]
  · rcases hE with ⟨h3, -⟩ | ⟨e0, h3, h4, -⟩
    · have h3 : s.prev = ⟨none, 0⟩ := h3
      rw [h3]; simp
    · have h3 : s.prev.ep = some e0 := h3
      rw [h3]; simpa using h4

/-- `s'` is reached from `s` by `m` steps of thread `i`. -/
def Solo (P : Par) (i m : Nat) (s s' : St) : Prop :=
  ∃ cs : List Ch, cs.length = m ∧ exec P (cs.map (Prod.mk i)) s = .ok (some s')

theorem exec_append : ∀ {l l' : List (Nat × Ch)} {a b d : St}, exec P l a = .ok (some b) → exec P l' b = .ok (some d) →
    exec P (l ++ l') a = .ok (some d)
  | [], _, _, _, _, h1, h2 => by cases h1; exact h2
  | (i, c) :: l, l', a, b, d, h1, h2 => by
    show exec P ((i, c) :: (l ++ l')) a = _
    unfold exec at h1 ⊢
    split at h1
    · exact exec_append h1 h2
    · rename_i hx; exact absurd h1 (hx b)

theorem Solo.trans {m k : Nat} {a : St} (h1 : Solo P i m s a) (h2 : Solo P i k a s') : Solo P i (m + k) s s' := by
  obtain ⟨l1, rfl, h1⟩ := h1
  obtain ⟨l2, rfl, h2⟩ := h2
  exact ⟨l1 ++ l2, List.length_append, by rw [List.map_append]; exact exec_append h1 h2⟩

theorem Solo.reach {m : Nat} (hr : Reach P n any s) (h : Solo P i m s s') : Reach P n any s' := by
  obtain ⟨cs, -, h⟩ := h
  exact (From.of_exec .refl h).reach hr

theorem Alone.solo {inn : PC → Bool} {m : Nat} (h : Alone P i inn s m s') : Solo P i m s s' := by
  induction h with
  | refl => exact ⟨[], rfl, rfl⟩
  | @step m b d u c _ _ _ hs ih =>
    refine ih.trans ⟨[c], rfl, ?_⟩
    show exec P [(i, c)] b = _
    unfold exec
    rw [hs]; rfl

/-- From rest, an insert that finds room succeeds. -/
theorem AtRest.insert (hw : 0 < P.hwm) (h : Reach P n any s) (hr : AtRest s) (hi : s.thr[i]? = some t) (r : Nat)
    (hroom : s.tail < s.head.idx + P.hwm) :
    ∃ m s', m ≤ 18 ∧ Solo P i m s s' ∧ AtRest s' ∧ s'.thr[i]? = some t ∧ s'.tail = s.tail + 1 ∧ s'.done = (s.tail, r) :: s.done := by
  have ht := hr.thread hw h hi
  have hlen := (List.getElem?_eq_some_iff.mp hi).1
  have hep := hr.epochs hw h
  obtain ⟨hb, -⟩ : s.head.idx ≤ s.tail ∧ s.tail ≤ s.head.idx + P.hwm := (h.inv hw).bnd
  have hset := set_same hi
  obtain ⟨tail, head, old, cur, prev, next, flag, jobs, lock, mem, ehead, estr, alive, nextId, thr, cl, dn⟩ := s
  simp only at *
  generalize t.tl = tl at ht
  subst ht
  have hr : ∀ u ∈ thr, u.pc = .idle := hr
  have hsub : subGe tail head.idx P.hwm = false := by unfold subGe; rw [if_pos hb]; simp; omega
  by_cases hl : subGe tail head.idx P.lwm = true
  · cases hf : flag with
    | true =>
      subst hf
      refine ⟨8, ⟨tail + 1, head, old, cur, prev, next, true, jobs, lock, upd mem (tail % P.cap) (some (tail, r)), ehead, estr, alive, nextId, thr, (tail, r) :: cl, (tail, r) :: dn⟩, by omega, ⟨[.insert r, .tailFirst, .go, .go, .go, .go, .go, .go], rfl, ?_⟩, ?_⟩
      · simp only [List.map_cons, List.map_nil, exec, Conc.step, stepT, St.setT, hi, hl, hsub, hlen, List.getElem?_set_self, List.set_set, gaRet, ejRet, hset, if_true, if_false, Bool.false_eq_true, reduceIte]
      · exact ⟨hr, hi, rfl, rfl⟩
    | false =>
      subst hf
      obtain ⟨rfl, e, rfl, ha, hp⟩ := hep rfl
      refine ⟨17, ⟨tail + 1, head, old, ⟨some e, 0⟩, prev, some nextId, true, jobs ++ [nextId], lock, upd mem (tail % P.cap) (some (tail, r)), upd ehead nextId (ehead e), upd estr nextId (estr e), upd alive nextId true, nextId + 1, thr, (tail, r) :: cl, (tail, r) :: dn⟩, by omega, ⟨[.insert r, .tailFirst, .go, .go, .go, .go, .go, .go, .go, .go, .go, .go, .go, .go, .go, .go, .go], rfl, ?_⟩, ?_⟩
      · simp only [List.map_cons, List.map_nil, exec, Conc.step, stepT, St.setT, hi, hl, hsub, hlen, List.getElem?_set_self, List.set_set, gaRet, ejRet, hset, if_true, if_false, Bool.false_eq_true, reduceIte, ha, hp, reduceCtorEq, gt_iff_lt, Nat.zero_add, Nat.lt_add_one, Nat.sub_self]
      · exact ⟨hr, hi, rfl, rfl⟩
  · have hl : subGe tail head.idx P.lwm = false := by simpa using hl
    refine ⟨7, ⟨tail + 1, head, old, cur, prev, next, flag, jobs, lock, upd mem (tail % P.cap) (some (tail, r)), ehead, estr, alive, nextId, thr, (tail, r) :: cl, (tail, r) :: dn⟩, by omega, ⟨[.insert r, .tailFirst, .go, .go, .go, .go, .go], rfl, ?_⟩, ?_⟩
    · simp only [List.map_cons, List.map_nil, exec, Conc.step, stepT, St.setT, hi, hl, hsub, hlen, List.getElem?_set_self, List.set_set, gaRet, ejRet, hset, if_true, if_false, Bool.false_eq_true, reduceIte]
    · exact ⟨hr, hi, rfl, rfl⟩

/-- From rest, an insert into a full buffer is refused, but it schedules a reconstruction. -/
theorem AtRest.refused (hw : 0 < P.hwm) (hlw : P.lwm ≤ P.hwm) (h : Reach P n any s) (hr : AtRest s) (hi : s.thr[i]? = some t) (r : Nat)
    (hfull : s.tail = s.head.idx + P.hwm) (hf : s.flag = false) :
    ∃ s', Solo P i 15 s s' ∧ AtRest s' ∧ s'.thr[i]? = some t ∧ s'.tail = s.tail ∧ s'.head = s.head ∧ s'.done = s.done ∧
      ∃ e, s'.jobs = [e] := by
  have ht := hr.thread hw h hi
  have hlen := (List.getElem?_eq_some_iff.mp hi).1
  have hep := hr.epochs hw h hf
  have hjobs := (hr.counts hw h).2.2.2.2.2
  have hset := set_same hi
  obtain ⟨tail, head, old, cur, prev, next, flag, jobs, lock, mem, ehead, estr, alive, nextId, thr, cl, dn⟩ := s
  simp only at *
  generalize t.tl = tl at ht
  subst ht hf
  have hjobs : jobs = [] := hjobs
  subst hjobs
  have hr : ∀ u ∈ thr, u.pc = .idle := hr
  have hsub : subGe tail head.idx P.hwm = true := by unfold subGe; rw [if_pos (by omega)]; simp; omega
  have hl : subGe tail head.idx P.lwm = true := by unfold subGe; rw [if_pos (by omega)]; simp; omega
  obtain ⟨rfl, e, rfl, ha, hp⟩ := hep
  refine ⟨⟨tail, head, old, ⟨some e, 0⟩, prev, some nextId, true, [nextId], lock, mem, upd ehead nextId (ehead e), upd estr nextId (estr e), upd alive nextId true, nextId + 1, thr, cl, dn⟩,
    ⟨[.insert r, .tailFirst, .go, .go, .go, .go, .go, .go, .go, .go, .go, .go, .go, .go, .go], rfl, ?_⟩, ?_⟩
  · simp only [List.map_cons, List.map_nil, exec, Conc.step, stepT, St.setT, hi, hl, hsub, hlen, List.getElem?_set_self, List.set_set, gaRet, ejRet, hset, if_true, if_false, Bool.false_eq_true, reduceIte, ha, hp, reduceCtorEq, gt_iff_lt, Nat.zero_add, Nat.lt_add_one, Nat.sub_self, List.nil_append]
  · exact ⟨hr, hi, rfl, rfl, rfl, _, rfl⟩

/-! ### Reconstructing from rest -/

/-- Past the replacement of the head. -/
def advanced : PC → Bool
  | .ad11 _ _ | .ad12 _ | .ad13 | .ad14 | .ad15 | .ad16 | .ad17 | .idle => true
  | _ => false

/-- The view of the reconstruction is complete. -/
def viewed : PC → Bool
  | .cp _ _ _ | .rl1 (.job _) | .rlO2 (.job _) | .rlO3 (.job _) _ | .rlH2 (.job _) | .rlH3 (.job _) _ => true
  | .ad1 _ | .rt1 _ _ | .rt2 _ _ _ | .rt3 _ _ | .ad3 _ | .ad4 _ _ | .ad5 _ _ | .ad6 _ | .ad7 _ | .ad8 _ | .ad9 _ | .ad10 _ _ => true
  | _ => false

/-- A reconstruction running alone, the other threads being idle: the tail stays at `T` and the head at `h` until it becomes `T`. -/
structure JobRun (h T : Nat) (D : List (Nat × Nat)) (i : Nat) (b : St) : Prop where
  others : ∀ j u, j ≠ i → b.thr[j]? = some u → u.pc = .idle
  tail : b.tail = T
  done : b.done = D
  mine : ∀ u, b.thr[i]? = some u → (if advanced u.pc then b.head.idx = T else b.head.idx = h) ∧ (viewed u.pc = true → u.tl = T)

theorem JobRun.step {h T : Nat} {D : List (Nat × Nat)} (hJ : JobRun h T D i s) (hi : s.thr[i]? = some t)
    (hin : rebuilding t.pc = true) (hs : stepT P s i t c = .ok (some s')) : JobRun h T D i s' := by
  have hlen := (List.getElem?_eq_some_iff.mp hi).1
  have key : ∀ {a : St} {t' : Th}, (.ok (some (a.setT i t')) : Out) = .ok (some s') → (a.thr = s.thr ∨ a.thr = s.thr.map Conc.wake) →
      a.tail = s.tail → a.done = s.done →
      ((if advanced t'.pc then a.head.idx = T else a.head.idx = h) ∧ (viewed t'.pc = true → t'.tl = T)) → JobRun h T D i s' := by
    intro a t' e a1 a2 a3 a4
    have := ok_inj e; subst this
    refine ⟨fun j u hj hu => ?_, a2.trans hJ.tail, a3.trans hJ.done, fun u hu => ?_⟩
    · have hu : (a.thr.set i t')[j]? = some u := hu
      rw [List.getElem?_set_ne (Ne.symm hj)] at hu
      rcases a1 with a1 | a1 <;> rw [a1] at hu
      · exact hJ.others j u hj hu
      · rw [List.getElem?_map] at hu
        obtain ⟨v, hv, rfl⟩ := Option.map_eq_some_iff.mp hu
        have := hJ.others j v hj hv
        unfold wake
        rw [if_neg (by rw [this]; simp)]
        exact this
    · have hu : (a.thr.set i t')[i]? = some u := hu
      rw [List.getElem?_set_self (by rcases a1 with a1 | a1 <;> rw [a1] <;> simpa using hlen)] at hu
      cases hu
      exact a4
  obtain ⟨m1, m2⟩ := hJ.mine t hi
  have ht := hJ.tail
  obtain ⟨pc, ep, hd, tl⟩ := t
  cases pc <;> simp only [rebuilding, Bool.false_eq_true] at hin
  case gh1 k g => cases k <;> simp at hin; simp only [stepT] at hs; split at hs <;> exact key hs (.inl rfl) rfl rfl ⟨m1, fun h => by cases h⟩
  case ghB k g => cases k <;> simp at hin; simp only [stepT] at hs; split at hs <;> exact key hs (.inl rfl) rfl rfl ⟨m1, fun h => by cases h⟩
  case ghO2 k g => cases k <;> simp at hin; simp only [stepT] at hs; exact key hs (.inl rfl) rfl rfl ⟨m1, fun h => by cases h⟩
  case ghH2 k g => cases k <;> simp at hin; simp only [stepT] at hs; exact key hs (.inl rfl) rfl rfl ⟨m1, fun h => by cases h⟩
  case ghO3 k g o => cases k <;> simp at hin; simp only [stepT] at hs; split at hs <;> exact key hs (.inl rfl) rfl rfl ⟨m1, fun h => by cases h⟩
  case ghH3 k g o =>
    cases k <;> simp at hin
    simp only [stepT] at hs
    split at hs
    · rename_i ho
      subst ho
      exact key hs (.inl rfl) rfl rfl ⟨m1, fun h => by cases h⟩
    · exact key hs (.inl rfl) rfl rfl ⟨m1, fun h => by cases h⟩
  case gt k => cases k <;> simp at hin; simp only [stepT] at hs; exact key hs (.inl rfl) rfl rfl ⟨m1, fun _ => ht⟩
  case rl1 k => cases k <;> simp at hin; simp only [stepT] at hs; split at hs <;> exact key hs (.inl rfl) rfl rfl ⟨m1, fun _ => m2 rfl⟩
  case rlO2 k => cases k <;> simp at hin; simp only [stepT] at hs; split at hs <;> exact key hs (.inl rfl) rfl rfl ⟨m1, fun _ => m2 rfl⟩
  case rlH2 k => cases k <;> simp at hin; simp only [stepT] at hs; split at hs <;> exact key hs (.inl rfl) rfl rfl ⟨m1, fun _ => m2 rfl⟩
  case rlO3 k o => cases k <;> simp at hin; simp only [stepT] at hs; split at hs <;> exact key hs (.inl rfl) rfl rfl ⟨m1, fun _ => m2 rfl⟩
  case rlH3 k o =>
    cases k <;> simp at hin
    simp only [stepT] at hs
    split at hs
    · rename_i ho
      subst ho
      exact key hs (.inl rfl) rfl rfl ⟨m1, fun _ => m2 rfl⟩
    · exact key hs (.inl rfl) rfl rfl ⟨m1, fun _ => m2 rfl⟩
  case ad10 e o =>
    simp only [stepT] at hs
    split at hs
    · exact key hs (.inl rfl) rfl rfl ⟨m2 rfl, fun h => by cases h⟩
    · exact key hs (.inl rfl) rfl rfl ⟨m1, fun _ => m2 rfl⟩
  case ad15 => exact key hs (.inr rfl) rfl rfl ⟨m1, fun h => by cases h⟩
  all_goals
    simp only [stepT] at hs
    repeat' split at hs
  all_goals first
    | exact key hs (.inl rfl) rfl rfl ⟨m1, fun _ => m2 rfl⟩
    | exact key hs (.inl rfl) rfl rfl ⟨m1, fun h => by cases h⟩
    | exact absurd hs (by simp)

/-- From rest, a scheduled reconstruction empties a non-empty buffer. -/
theorem AtRest.rebuild (hw : 0 < P.hwm) (h : Reach P n any s) (hr : AtRest s) (hi : s.thr[i]? = some t) {e : Nat} (hj : s.jobs = [e])
    (hne : s.head.idx < s.tail) :
    ∃ m s' u, m ≤ 34 + P.hwm ∧ Solo P i m s s' ∧ AtRest s' ∧ s'.thr[i]? = some u ∧ s'.tail = s.tail ∧ s'.head.idx = s.tail ∧
      s'.done = s.done ∧ s'.flag = false := by
  obtain ⟨c1, c2, c3, c4, c5, c6⟩ := hr.counts hw h
  have ht := hr.thread hw h hi
  have hpc := hr.pcs hi
  have hst : Conc.step P s i .work = .ok (some ({ s with jobs := [] }.setT i { t with pc := .jb e })) := by
    unfold Conc.step
    rw [hi]
    obtain ⟨pc, ep, hd, tl⟩ := t
    have hpc : pc = .idle := hpc
    subst hpc
    simp only [stepT, hj]
  generalize hb : { s with jobs := [] }.setT i { t with pc := .jb e } = b at hst
  have hbr : Reach P n any b := h.step trivial hst
  have hbi : b.thr[i]? = some { t with pc := .jb e } := by rw [← hb]; exact setT_self hi rfl
  have hready : Ready b (.jb e) := by rw [← hb]; exact ⟨fun _ => c1, fun _ => c3, fun _ => c5⟩
  obtain ⟨⟨hbound, m, s', u, ha, hu, hend⟩, -⟩ : (_ ∧ ∃ m s' u, Alone P i rebuilding b m s' ∧ s'.thr[i]? = some u ∧
        ((u.pc = .idle ∧ s'.flag = false) ∨ ((∃ e, u.pc = .ad7 e) ∧ u.tl = s'.head.idx))) ∧ True :=
    ⟨(C72 hw hbr hbi rfl).1 hready, trivial⟩
  have hJ0 : JobRun s.head.idx s.tail s.done i b := by
    rw [← hb]
    refine ⟨fun j u hj hu => ?_, rfl, rfl, fun u hu => ?_⟩
    · have hu : (s.thr.set i _)[j]? = some u := hu
      rw [List.getElem?_set_ne (Ne.symm hj)] at hu
      exact hr.pcs hu
    · rw [hb, hbi] at hu; cases hu
      exact ⟨rfl, fun h => by cases h⟩
  have hJ : JobRun s.head.idx s.tail s.done i s' := by
    clear hend hu
    induction ha with
    | refl => exact hJ0
    | step _ hv hvi hs ih =>
      unfold Conc.step at hs
      rw [hv] at hs
      exact ih.step hv hvi hs
  obtain ⟨m1, m2⟩ := hJ.mine u hu
  rcases hend with ⟨e1, e2⟩ | ⟨⟨e', e1⟩, e2⟩
  · rw [e1] at m1
    refine ⟨1 + m, s', u, by have := (hbound m s' ha).2; omega, Solo.trans ⟨[.work], rfl, ?_⟩ ha.solo, ?_, hu, hJ.tail, m1, hJ.done, e2⟩
    · show exec P [(i, .work)] s = _
      unfold exec
      rw [hst]; rfl
    · intro v hv
      obtain ⟨j, hj⟩ := List.getElem?_of_mem hv
      by_cases hx : j = i
      · subst hx; rw [hu] at hj; cases hj; exact e1
      · exact hJ.others j v hx hj
  · rw [e1] at m1 m2
    have m1 : s'.head.idx = s.head.idx := m1
    have := m2 rfl
    omega

/-- From rest, any thread can get another record in. -/
theorem AtRest.accepts (hw : 0 < P.hwm) (hlw : P.lwm ≤ P.hwm) (h : Reach P n any s) (hr : AtRest s) (hi : s.thr[i]? = some t) (r : Nat) :
    ∃ m s' u, m ≤ P.hwm + 67 ∧ Solo P i m s s' ∧ AtRest s' ∧ s'.thr[i]? = some u ∧ s'.tail = s.tail + 1 ∧ s'.done = (s.tail, r) :: s.done := by
  obtain ⟨-, hb⟩ : s.head.idx ≤ s.tail ∧ s.tail ≤ s.head.idx + P.hwm := (h.inv hw).bnd
  by_cases hroom : s.tail < s.head.idx + P.hwm
  · obtain ⟨m, s', hm, h1, h2, h3, h4, h5⟩ := hr.insert hw h hi r hroom
    exact ⟨m, s', t, by omega, h1, h2, h3, h4, h5⟩
  have hfull : s.tail = s.head.idx + P.hwm := by omega
  obtain ⟨k, a, hk, a1, a2, a3, a4, a5, a6, e, a7⟩ : ∃ k a, k ≤ 15 ∧ Solo P i k s a ∧ AtRest a ∧ a.thr[i]? = some t ∧ a.tail = s.tail ∧
      a.head = s.head ∧ a.done = s.done ∧ ∃ e, a.jobs = [e] := by
    cases hf : s.flag with
    | true =>
      have := (hr.counts hw h).2.2.2.2.2
      rw [hf] at this
      exact ⟨0, s, by omega, ⟨[], rfl, rfl⟩, hr, hi, rfl, rfl, rfl, this⟩
    | false =>
      obtain ⟨a, ha⟩ := hr.refused hw hlw h hi r hfull hf
      exact ⟨15, a, le_refl _, ha⟩
  have har := a1.reach h
  obtain ⟨k2, b, u, hk2, b1, b2, b3, b4, b5, b6, b7⟩ := a2.rebuild hw har a3 a7 (by rw [a4, a5]; omega)
  have hbr := b1.reach har
  obtain ⟨k3, s', hk3, d1, d2, d3, d4, d5⟩ := b2.insert hw hbr b3 r (by rw [b4, b5]; omega)
  refine ⟨k + k2 + k3, s', u, by omega, (a1.trans b1).trans d1, d2, d3, ?_, ?_⟩
  · rw [d4, b4, a4]
  · rw [d5, b4, b6, a4, a6]

end DE.Conc
