import Verif.Model.Scheduler
import Mathlib.Data.List.Sort
import Mathlib.Data.List.Basic
import Mathlib.Order.Nat
import Mathlib.Tactic.Common

/-!
Scheduler: contracts of the external queue, reachability and invariants.
-/

namespace DE.Sched
variable {pop : Pop}
/-- A queue loses and invents nothing, and hands out something unless it is empty. -/
structure BagPop (pop : Pop) : Prop where
  perm : ∀ q t q', pop q = some (t, q') → q.Perm (t :: q')
  some : ∀ q, q ≠ [] → (pop q).isSome

/-- A queue that moreover hands out a least element with respect to `operator<`. -/
structure MinPop (pop : Pop) : Prop extends BagPop pop where
  least : ∀ q t q', pop q = .some (t, q') → ∀ u ∈ q', Task.lt u t = false

/-- A queue that hands out a greatest element with respect to `operator<`, like `std::priority_queue<Task>`. -/
structure MaxPop (pop : Pop) : Prop extends BagPop pop where
  greatest : ∀ q t q', pop q = .some (t, q') → ∀ u ∈ q', Task.lt t u = false

/-- Reachable from the constructor with `n` threads. -/
def Reach (pop : Pop) (n : Nat) (s : St) : Prop := ∃ es, runEvs pop (init n) es = some s

theorem runEvs_append {pop : Pop} : ∀ (es fs : List Ev) (s s' : St), runEvs pop s es = some s' → runEvs pop s (es ++ fs) = runEvs pop s' fs
  | [], _, _, _, h => by cases h; rfl
  | e :: es, fs, s, s', h => by
    unfold runEvs at h
    show (match step pop s e with | some s' => runEvs pop s' (es ++ fs) | none => none) = _
    split at h
    · rename_i s1 h1
      rw [h1]
      exact runEvs_append es fs s1 s' h
    · cases h

theorem Reach.induct {n : Nat} {P : St → Prop} (h0 : P (init n)) (hs : ∀ s e s', P s → step pop s e = some s' → P s') {s : St}
    (h : Reach pop n s) : P s := by
  obtain ⟨es, h⟩ := h
  have : ∀ (es : List Ev) s1, P s1 → runEvs pop s1 es = some s → P s := by
    intro es
    induction es with
    | nil => intro s1 h1 h; cases h; exact h1
    | cons e es ih =>
      intro s1 h1 h
      unfold runEvs at h
      split at h
      · rename_i s2 h2
        exact ih s2 (hs _ _ _ h1 h2) h
      · cases h
  exact this es _ h0 h

/-- Changes of the thread positions only. -/
def SameJobs (s s' : St) : Prop := s'.ctr = s.ctr ∧ s'.queue = s.queue ∧ s'.pool = s.pool ∧ s'.submitted = s.submitted ∧ s'.started = s.started

theorem notifyAll_same (s : St) : SameJobs s (notifyAll s) := by
  unfold notifyAll
  split <;> exact ⟨rfl, rfl, rfl, rfl, rfl⟩

/-- What a step can do to the jobs. -/
theorem step_cases {s s' : St} {e : Ev} (h : step pop s e = some s') :
    SameJobs s s' ∨
    (∃ j, s'.ctr = s.ctr + 1 ∧ s'.queue = ⟨s.ctr, j⟩ :: s.queue ∧ s'.pool = s.pool ∧ s'.submitted = s.submitted ++ [j] ∧
      s'.started = s.started) ∨
    (∃ t q, pop s.queue = some (t, q) ∧ s'.ctr = s.ctr ∧ s'.queue = q ∧ s'.pool = s.pool ++ [t] ∧ s'.submitted = s.submitted ∧
      s'.started = s.started) ∨
    (∃ t p, s.pool = t :: p ∧ s'.ctr = s.ctr ∧ s'.queue = s.queue ∧ s'.pool = p ∧ s'.submitted = s.submitted ∧
      s'.started = s.started ++ [t.job]) := by
  cases e with
  | submit j =>
    right; left
    replace h : submit s j = some s' := h
    unfold submit at h
    split at h
    · cases h
    · cases h
      obtain ⟨h1, h2, h3, h4, h5⟩ := notifyAll_same
        { s with ctr := s.ctr + 1, queue := ⟨s.ctr, j⟩ :: s.queue, submitted := s.submitted ++ [j] }
      exact ⟨j, h1, h2, h3, h4, h5⟩
  | start =>
    right; right; right
    unfold step at h
    dsimp only at h
    split at h
    · rename_i t p hp
      split at h
      · cases h
        exact ⟨t, p, hp, rfl, rfl, rfl, rfl, rfl⟩
      · cases h
    · cases h
  | finish i =>
    left
    unfold step at h
    dsimp only at h
    split at h
    · cases h; exact ⟨rfl, rfl, rfl, rfl, rfl⟩
    · cases h
  | sched b =>
    replace h : schedStep pop s b = some s' := h
    unfold schedStep at h
    split at h
    · left; cases h; exact ⟨rfl, rfl, rfl, rfl, rfl⟩
    · cases h
    · left; cases h; exact ⟨rfl, rfl, rfl, rfl, rfl⟩
    · split at h
      · split at h
        · split at h
          · rename_i t q hq
            cases h
            right; right; left
            exact ⟨t, q, hq, rfl, rfl, rfl, rfl, rfl⟩
          · cases h
        · cases h
      · left; cases h; exact ⟨rfl, rfl, rfl, rfl, rfl⟩
    · left; cases h; exact ⟨rfl, rfl, rfl, rfl, rfl⟩
    · cases h
  | spurious =>
    left
    unfold step at h
    dsimp only at h
    split at h
    · cases h; exact ⟨rfl, rfl, rfl, rfl, rfl⟩
    · cases h
  | wake =>
    left
    replace h : wakeStep s = some s' := h
    unfold wakeStep at h
    split at h
    · cases h; exact ⟨rfl, rfl, rfl, rfl, rfl⟩
    · cases h; exact notifyAll_same s
    · cases h; exact ⟨rfl, rfl, rfl, rfl, rfl⟩
    · cases h
  | main =>
    left
    replace h : mainStep s = some s' := h
    unfold mainStep at h
    split at h
    · cases h; exact ⟨rfl, rfl, rfl, rfl, rfl⟩
    · split at h
      · cases h; exact ⟨rfl, rfl, rfl, rfl, rfl⟩
      · cases h
    · cases h; exact notifyAll_same s
    · split at h
      · cases h; exact ⟨rfl, rfl, rfl, rfl, rfl⟩
      · cases h
    · split at h
      · cases h; exact ⟨rfl, rfl, rfl, rfl, rfl⟩
      · cases h
    · cases h

/-- The jobs in the system in the order of submission. -/
def Ordered (s : St) : Prop := ∃ Q : List Task, Q.Perm s.queue ∧ Q.Pairwise (fun a b => a.ts < b.ts) ∧ (∀ t ∈ Q, t.ts < s.ctr) ∧
  s.submitted = s.started ++ s.pool.map Task.job ++ Q.map Task.job

theorem ordered_step (hm : MinPop pop) {s s' : St} {e : Ev} (ho : Ordered s) (h : step pop s e = some s') : Ordered s' := by
  obtain ⟨Q, hp, hs, hc, hj⟩ := ho
  rcases step_cases h with ⟨h1, h2, h3, h4, h5⟩ | ⟨j, h1, h2, h3, h4, h5⟩ | ⟨t, q, h0, h1, h2, h3, h4, h5⟩ | ⟨t, p, h0, h1, h2, h3, h4, h5⟩
  · exact ⟨Q, h2 ▸ hp, hs, h1 ▸ hc, by rw [h3, h4, h5]; exact hj⟩
  · refine ⟨Q ++ [⟨s.ctr, j⟩], ?_, ?_, ?_, ?_⟩
    · rw [h2]
      exact (List.perm_append_comm.trans (by simpa using hp))
    · rw [List.pairwise_append]
      refine ⟨hs, List.pairwise_singleton .., ?_⟩
      intro a ha b hb
      rw [List.mem_singleton] at hb
      subst hb
      exact hc a ha
    · intro t ht
      rw [h1]
      rcases List.mem_append.mp ht with ht | ht
      · exact (hc t ht).trans (Nat.lt_succ_self _)
      · rw [List.mem_singleton] at ht
        subst ht
        exact Nat.lt_succ_self _
    · rw [h3, h4, h5, hj]
      simp
  · have hperm := hm.perm _ _ _ h0
    have hleast := hm.least _ _ _ h0
    cases Q with
    | nil =>
      have := (hp.trans hperm).length_eq
      simp at this
    | cons a Q =>
      have e : a = t := by
        have ha : a ∈ t :: q := (hp.trans hperm).subset List.mem_cons_self
        have ht : t ∈ a :: Q := (hp.trans hperm).symm.subset List.mem_cons_self
        rcases List.mem_cons.mp ha with ha | ha
        · exact ha
        · rcases List.mem_cons.mp ht with ht | ht
          · exact ht.symm
          · have := hleast a ha
            have h6 := (List.pairwise_cons.mp hs).1 t ht
            simp [Task.lt] at this
            omega
      subst e
      refine ⟨Q, ?_, (List.pairwise_cons.mp hs).2, ?_, ?_⟩
      · rw [h2]
        exact (hp.trans hperm).cons_inv
      · intro u hu
        rw [h1]
        exact hc u (List.mem_cons_of_mem _ hu)
      · rw [h3, h4, h5, hj]
        simp
  · refine ⟨Q, h2 ▸ hp, hs, h1 ▸ hc, ?_⟩
    rw [h3, h4, h5, hj, h0]
    simp

/-- Removes the least task: a queue as wanted. -/
def popMin : Pop
  | [] => none
  | t :: q => match popMin q with
    | none => some (t, [])
    | some (u, r) => if Task.lt u t then some (u, t :: r) else some (t, u :: r)

/-- Removes the greatest task. -/
def popMax : Pop
  | [] => none
  | t :: q => match popMax q with
    | none => some (t, [])
    | some (u, r) => if Task.lt t u then some (u, t :: r) else some (t, u :: r)

theorem popMin_bag : BagPop popMin where
  some := by
    intro q hq
    cases q with
    | nil => exact absurd rfl hq
    | cons t q =>
      unfold popMin
      split
      · rfl
      · split <;> rfl
  perm := by
    intro q
    induction q with
    | nil => intro t q' h; cases h
    | cons a q ih =>
      intro t q' h
      unfold popMin at h
      split at h
      · rename_i h0
        cases h
        cases q with
        | nil => exact List.Perm.refl _
        | cons b q =>
          unfold popMin at h0
          split at h0
          · cases h0
          · split at h0 <;> cases h0
      · rename_i u r h0
        have := ih _ _ h0
        split at h
        · cases h
          exact (List.Perm.cons a this).trans (List.Perm.swap ..)
        · cases h
          exact List.Perm.cons a this

theorem popMax_bag : BagPop popMax where
  some := by
    intro q hq
    cases q with
    | nil => exact absurd rfl hq
    | cons t q =>
      unfold popMax
      split
      · rfl
      · split <;> rfl
  perm := by
    intro q
    induction q with
    | nil => intro t q' h; cases h
    | cons a q ih =>
      intro t q' h
      unfold popMax at h
      split at h
      · rename_i h0
        cases h
        cases q with
        | nil => exact List.Perm.refl _
        | cons b q =>
          unfold popMax at h0
          split at h0
          · cases h0
          · split at h0 <;> cases h0
      · rename_i u r h0
        have := ih _ _ h0
        split at h
        · cases h
          exact (List.Perm.cons a this).trans (List.Perm.swap ..)
        · cases h
          exact List.Perm.cons a this

/-- The contract of `C52_partial` can be met. -/
theorem popMin_min : MinPop popMin where
  toBagPop := popMin_bag
  least := by
    intro q
    induction q with
    | nil => intro t q' h; cases h
    | cons a q ih =>
      intro t q' h v hv
      unfold popMin at h
      split at h
      · cases h; cases hv
      · rename_i u r h0
        have h1 := ih _ _ h0
        split at h
        · rename_i hlt
          cases h
          rcases List.mem_cons.mp hv with rfl | hv
          · simp [Task.lt] at hlt ⊢; omega
          · exact h1 v hv
        · rename_i hlt
          cases h
          rcases List.mem_cons.mp hv with rfl | hv
          · simpa using hlt
          · have := h1 v hv
            simp [Task.lt] at hlt this ⊢; omega

theorem popMax_max : MaxPop popMax where
  toBagPop := popMax_bag
  greatest := by
    intro q
    induction q with
    | nil => intro t q' h; cases h
    | cons a q ih =>
      intro t q' h v hv
      unfold popMax at h
      split at h
      · cases h; cases hv
      · rename_i u r h0
        have h1 := ih _ _ h0
        split at h
        · rename_i hlt
          cases h
          rcases List.mem_cons.mp hv with rfl | hv
          · simp [Task.lt] at hlt ⊢; omega
          · exact h1 v hv
        · rename_i hlt
          cases h
          rcases List.mem_cons.mp hv with rfl | hv
          · simpa using hlt
          · have := h1 v hv
            simp [Task.lt] at hlt this ⊢; omega

theorem notifyAll_rest (s : St) : (notifyAll s).running = s.running ∧ (notifyAll s).main = s.main ∧ (notifyAll s).threads = s.threads ∧
    (notifyAll s).flag = s.flag ∧ (notifyAll s).wake = s.wake ∧ (notifyAll s).pool = s.pool ∧ (notifyAll s).queue = s.queue := by
  unfold notifyAll
  split <;> exact ⟨rfl, rfl, rfl, rfl, rfl, rfl, rfl⟩

/-- `shutdown` has stopped the pool. -/
def Stopped (s : St) : Prop := s.main ≠ .live ∧ s.main ≠ .stop

/-- After the pool has been stopped it is empty and has no threads. -/
def Drained (s : St) : Prop := Stopped s → s.pool = [] ∧ s.running = [] ∧ s.threads = 0

theorem drained_step {s s' : St} {e : Ev} (hd : Drained s) (h : step pop s e = some s') : Drained s' := by
  cases e with
  | submit j =>
    replace h : submit s j = some s' := h
    unfold submit at h
    split at h
    · cases h
    · cases h
      obtain ⟨h1, h2, h3, -, -, h4, -⟩ := notifyAll_rest
        { s with ctr := s.ctr + 1, queue := ⟨s.ctr, j⟩ :: s.queue, submitted := s.submitted ++ [j] }
      unfold Drained Stopped
      rw [h1, h2, h3, h4]
      exact hd
  | start =>
    unfold step at h
    dsimp only at h
    split at h
    · rename_i t p hp
      split at h
      · cases h
        intro hs
        have := (hd hs).1
        rw [hp] at this
        cases this
      · cases h
    · cases h
  | finish i =>
    unfold step at h
    dsimp only at h
    split at h
    · rename_i hi
      cases h
      intro hs
      rw [(hd hs).2.1] at hi
      cases hi
    · cases h
  | sched b =>
    replace h : schedStep pop s b = some s' := h
    unfold schedStep at h
    split at h
    · cases h; exact hd
    · cases h
    · cases h; exact hd
    · split at h
      · split at h
        · rename_i hr
          split at h
          · cases h
            intro hs
            rw [(hd hs).2.2] at hr
            cases hr
          · cases h
        · cases h
      · cases h; exact hd
    · cases h; exact hd
    · cases h
  | spurious =>
    unfold step at h
    dsimp only at h
    split at h
    · cases h; exact hd
    · cases h
  | wake =>
    replace h : wakeStep s = some s' := h
    unfold wakeStep at h
    split at h
    · cases h; exact hd
    · cases h
      obtain ⟨h1, h2, h3, -, -, h4, -⟩ := notifyAll_rest s
      unfold Drained Stopped
      dsimp only
      rw [h1, h2, h3, h4]
      exact hd
    · cases h; exact hd
    · cases h
  | main =>
    replace h : mainStep s = some s' := h
    unfold mainStep at h
    split at h
    · cases h; intro hs; exact absurd rfl hs.2
    · split at h
      · rename_i hp
        cases h; intro _; exact ⟨hp.1, hp.2, rfl⟩
      · cases h
    · rename_i hm
      cases h
      obtain ⟨h1, h2, h3, -, -, h4, -⟩ := notifyAll_rest s
      intro _
      dsimp only
      rw [h1, h3, h4]
      exact hd ⟨by rw [hm]; decide, by rw [hm]; decide⟩
    · rename_i hm
      split at h
      · cases h; intro _; exact hd ⟨by rw [hm]; decide, by rw [hm]; decide⟩
      · cases h
    · rename_i hm
      split at h
      · cases h; intro _; exact hd ⟨by rw [hm]; decide, by rw [hm]; decide⟩
      · cases h
    · cases h

/-- The object is being destroyed and no thread can make a step by itself (calls of clients and spurious wake-ups apart). -/
def Blocked (pop : Pop) (s : St) : Prop :=
  s.main ≠ .live ∧ s.main ≠ .gone ∧ ∀ e s', step pop s e = some s' → e = .spurious ∨ ∃ j, e = .submit j

/-- An upper bound for the number of steps after the flag has been set. -/
def bound (s : St) : Nat := 3 * s.queue.length + 2 * s.pool.length + s.running.length +
  (match s.sched with | .enter => 5 | .wait => 4 | .woken => 3 | .loop => 2 | .test => 1 | .done => 0) +
  (match s.wake with | .sleep => 3 | .notify => 2 | .test => 1 | .done => 0) +
  (match s.main with | .live => 5 | .stop => 4 | .notify => 3 | .joinSched => 2 | .joinWake => 1 | .gone => 0)

/-- Positions of the threads reachable after the flag has been set. -/
def Flagged (s : St) : Prop := s.flag = true

theorem flagged_step {s s' : St} {e : Ev} (hf : Flagged s) (h : step pop s e = some s') : Flagged s' := by
  unfold Flagged at *
  have hn : (notifyAll s).flag = s.flag := (notifyAll_rest s).2.2.2.1
  cases e with
  | submit j =>
    replace h : submit s j = some s' := h
    unfold submit at h
    split at h
    · cases h
    · cases h
      rw [(notifyAll_rest _).2.2.2.1]
      exact hf
  | start =>
    unfold step at h; dsimp only at h
    split at h
    · split at h <;> cases h; exact hf
    · cases h
  | finish i =>
    unfold step at h; dsimp only at h
    split at h <;> cases h; exact hf
  | sched b =>
    replace h : schedStep pop s b = some s' := h
    unfold schedStep at h
    split at h
    · cases h; exact hf
    · cases h
    · cases h; exact hf
    · split at h
      · split at h
        · split at h <;> cases h; exact hf
        · cases h
      · cases h; exact hf
    · cases h; exact hf
    · cases h
  | spurious =>
    unfold step at h; dsimp only at h
    split at h <;> cases h; exact hf
  | wake =>
    replace h : wakeStep s = some s' := h
    unfold wakeStep at h
    split at h
    · cases h; exact hf
    · cases h; exact hn.trans hf
    · cases h; exact hf
    · cases h
  | main =>
    replace h : mainStep s = some s' := h
    unfold mainStep at h
    split at h
    · cases h; rfl
    · split at h <;> cases h; exact hf
    · cases h; exact hn.trans hf
    · split at h <;> cases h; exact hf
    · split at h <;> cases h; exact hf
    · cases h

theorem bound_notify (s : St) : bound (notifyAll s) ≤ bound s := by
  unfold notifyAll
  split
  · rename_i h
    unfold bound
    rw [h]
    dsimp only
    omega
  · exact Nat.le_refl _

theorem bound_step (hb : BagPop pop) {s s' : St} {e : Ev} (hf : Flagged s) (he : ∀ j, e ≠ .submit j) (h : step pop s e = some s') :
    bound s' + 1 ≤ bound s := by
  unfold Flagged at hf
  cases e with
  | submit j => exact absurd rfl (he j)
  | start =>
    unfold step at h; dsimp only at h
    split at h
    · rename_i t p hp
      split at h <;> cases h
      unfold bound
      rw [hp]
      simp only [List.length_cons]
      omega
    · cases h
  | finish i =>
    unfold step at h; dsimp only at h
    split at h <;> cases h
    rename_i hi
    unfold bound
    simp only [List.length_eraseIdx, if_pos hi]
    omega
  | sched b =>
    replace h : schedStep pop s b = some s' := h
    unfold schedStep at h
    split at h
    · rename_i hs; cases h; unfold bound; rw [hs]; dsimp only; omega
    · cases h
    · rename_i hs; cases h; unfold bound; rw [hs]; dsimp only; omega
    · rename_i hs
      split at h
      · split at h
        · split at h <;> cases h
          rename_i t q hq
          have := (hb.perm _ _ _ hq).length_eq
          rw [List.length_cons] at this
          unfold bound
          simp only [List.length_append, List.length_singleton]
          omega
        · cases h
      · cases h; unfold bound; rw [hs]; dsimp only; omega
    · rename_i hs; cases h; unfold bound; rw [hs, hf]; dsimp only [if_pos]; simp only [if_true]; omega
    · cases h
  | spurious =>
    unfold step at h; dsimp only at h
    split at h <;> cases h
    rename_i hs; unfold bound; rw [hs]; dsimp only; omega
  | wake =>
    replace h : wakeStep s = some s' := h
    unfold wakeStep at h
    split at h
    · rename_i hs; cases h; unfold bound; rw [hs]; dsimp only; omega
    · rename_i hs; cases h
      have h1 := bound_notify s
      have h2 := (notifyAll_rest s).2.2.2.2.1
      unfold bound at h1 ⊢
      rw [h2, hs] at h1
      rw [hs]
      dsimp only at h1 ⊢
      omega
    · rename_i hs; cases h; unfold bound; rw [hs, hf]; simp only [if_true]; omega
    · cases h
  | main =>
    replace h : mainStep s = some s' := h
    unfold mainStep at h
    split at h
    · rename_i hs; cases h; unfold bound; rw [hs]; dsimp only; omega
    · rename_i hs; split at h <;> cases h; unfold bound; rw [hs]; dsimp only; omega
    · rename_i hs; cases h
      have h1 := bound_notify s
      have h2 := (notifyAll_rest s).2.1
      unfold bound at h1 ⊢
      rw [h2, hs] at h1
      rw [hs]
      dsimp only at h1 ⊢
      omega
    · rename_i hs; split at h <;> cases h; unfold bound; rw [hs]; dsimp only; omega
    · rename_i hs; split at h <;> cases h; unfold bound; rw [hs]; dsimp only; omega
    · cases h

/-- Whether the pool has a worker until it is stopped. -/
def Manned (s : St) : Prop := (s.flag = true ↔ s.main ≠ .live) ∧ (Stopped s ∨ 0 < s.threads)

theorem manned_step {s s' : St} {e : Ev} (hd : Manned s) (h : step pop s e = some s') : Manned s' := by
  cases e with
  | submit j =>
    replace h : submit s j = some s' := h
    unfold submit at h
    split at h
    · cases h
    · cases h
      obtain ⟨h1, h2, h3, h5, -, h4, -⟩ := notifyAll_rest
        { s with ctr := s.ctr + 1, queue := ⟨s.ctr, j⟩ :: s.queue, submitted := s.submitted ++ [j] }
      unfold Manned Stopped
      rw [h2, h3, h5]
      exact hd
  | start =>
    unfold step at h; dsimp only at h
    split at h
    · split at h <;> cases h; exact hd
    · cases h
  | finish i =>
    unfold step at h; dsimp only at h
    split at h <;> cases h; exact hd
  | sched b =>
    replace h : schedStep pop s b = some s' := h
    unfold schedStep at h
    split at h
    · cases h; exact hd
    · cases h
    · cases h; exact hd
    · split at h
      · split at h
        · split at h <;> cases h; exact hd
        · cases h
      · cases h; exact hd
    · cases h; exact hd
    · cases h
  | spurious =>
    unfold step at h; dsimp only at h
    split at h <;> cases h; exact hd
  | wake =>
    replace h : wakeStep s = some s' := h
    unfold wakeStep at h
    split at h
    · cases h; exact hd
    · cases h
      obtain ⟨h1, h2, h3, h5, -, h4, -⟩ := notifyAll_rest s
      unfold Manned Stopped
      dsimp only
      rw [h2, h3, h5]
      exact hd
    · cases h; exact hd
    · cases h
  | main =>
    replace h : mainStep s = some s' := h
    unfold mainStep at h
    unfold Manned Stopped at *
    split at h
    · rename_i hm
      cases h
      refine ⟨by simp, .inr ?_⟩
      rcases hd.2 with h | h
      · exact absurd hm h.1
      · exact h
    · rename_i hm
      rw [hm] at hd
      split at h <;> cases h
      exact ⟨by simpa using hd.1, .inl ⟨by simp, by simp⟩⟩
    · rename_i hm
      cases h
      rw [hm] at hd
      dsimp only
      rw [(notifyAll_rest s).2.2.2.1]
      exact ⟨by simpa using hd.1, .inl ⟨by simp, by simp⟩⟩
    · rename_i hm
      rw [hm] at hd
      split at h <;> cases h
      exact ⟨by simpa using hd.1, .inl ⟨by simp, by simp⟩⟩
    · rename_i hm
      rw [hm] at hd
      split at h <;> cases h
      exact ⟨by simpa using hd.1, .inl ⟨by simp, by simp⟩⟩
    · cases h

theorem manned (n : Nat) {s : St} (h : Reach pop n s) : Manned s := by
  refine h.induct (P := Manned) ⟨by simp [init], .inr ?_⟩ (fun s e s' => manned_step)
  unfold init
  dsimp only
  split <;> omega

/-- The flag is set and the scheduler thread will be woken up again or never sleeps again. -/
def Heard (s : St) : Prop := s.flag = true ∧ s.main ≠ .live ∧ s.sched ≠ .enter ∧ (s.sched = .wait → s.main = .stop ∨ s.main = .notify)

theorem heard_step {s s' : St} {e : Ev} (hh : Heard s) (h : step pop s e = some s') : Heard s' := by
  obtain ⟨h1, h2, h3, h4⟩ := hh
  have hn : ∀ s : St, (notifyAll s).sched ≠ .wait := by
    intro s
    unfold notifyAll
    split
    · simp
    · assumption
  have hn2 : ∀ s : St, s.sched ≠ .enter → (notifyAll s).sched ≠ .enter := by
    intro s hs
    unfold notifyAll
    split
    · simp
    · assumption
  cases e with
  | submit j =>
    replace h : submit s j = some s' := h
    unfold submit at h
    split at h
    · cases h
    · cases h
      refine ⟨?_, ?_, hn2 _ h3, fun hw => absurd hw (hn _)⟩
      · rw [(notifyAll_rest _).2.2.2.1]; exact h1
      · rw [(notifyAll_rest _).2.1]; exact h2
  | start =>
    unfold step at h; dsimp only at h
    split at h
    · split at h <;> cases h; exact ⟨h1, h2, h3, h4⟩
    · cases h
  | finish i =>
    unfold step at h; dsimp only at h
    split at h <;> cases h; exact ⟨h1, h2, h3, h4⟩
  | sched b =>
    replace h : schedStep pop s b = some s' := h
    unfold schedStep at h
    split at h
    · rename_i hs; exact absurd hs h3
    · cases h
    · cases h; exact ⟨h1, h2, by simp, by simp⟩
    · split at h
      · split at h
        · split at h <;> cases h; exact ⟨h1, h2, h3, h4⟩
        · cases h
      · cases h; exact ⟨h1, h2, by simp, by simp⟩
    · cases h; exact ⟨h1, h2, by simp [h1], by simp [h1]⟩
    · cases h
  | spurious =>
    unfold step at h; dsimp only at h
    split at h <;> cases h; exact ⟨h1, h2, by simp, by simp⟩
  | wake =>
    replace h : wakeStep s = some s' := h
    unfold wakeStep at h
    split at h
    · cases h; exact ⟨h1, h2, h3, h4⟩
    · cases h
      exact ⟨(notifyAll_rest s).2.2.2.1.trans h1, by dsimp only; rw [(notifyAll_rest _).2.1]; exact h2, hn2 _ h3,
        fun hw => absurd hw (hn _)⟩
    · cases h; exact ⟨h1, h2, h3, h4⟩
    · cases h
  | main =>
    replace h : mainStep s = some s' := h
    unfold mainStep at h
    split at h
    · rename_i hm; exact absurd hm h2
    · split at h <;> cases h
      exact ⟨h1, by simp, h3, fun _ => .inr rfl⟩
    · cases h
      exact ⟨(notifyAll_rest s).2.2.2.1.trans h1, by simp, hn2 _ h3, fun hw => absurd hw (hn _)⟩
    · split at h <;> cases h
      rename_i hd
      exact ⟨h1, by simp, h3, fun hw => absurd (hw.symm.trans hd) (by simp)⟩
    · rename_i hm
      split at h <;> cases h
      refine ⟨h1, by simp, h3, fun hw => ?_⟩
      rcases h4 hw with h | h <;> rw [hm] at h <;> cases h
    · cases h

end DE.Sched
