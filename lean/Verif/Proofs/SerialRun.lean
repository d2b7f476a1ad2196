import Verif.Model.SerialSched
import Verif.Proofs.Full

/-!
The serial execution of the concurrent program refines the serial model.
-/

namespace DE.SerialRun
open Conc (Par Slot Ch Hd EP Th PC upd K)
open Full (Cfg slotRec window)
variable {R : Type} [Inhabited R] {C : Cfg R} {hf : Bool}

set_option linter.unusedSimpArgs false
set_option linter.unreachableTactic false
set_option linter.unusedTactic false

theorem sstep_ok {s s' : St R} {i : Nat} {c : Ch} (h : sstep C s i c = .ok (some s')) : step C s i c = .ok (some s') := by
  unfold sstep at h
  split at h
  · split at h
    · cases h
    · exact h
  · exact h

/-- The state without the delete bits. -/
def St.full (s : St R) : Full.St R := ⟨s.base, s.vs⟩

theorem ring_false (mem : Nat → Slot) : ring C mem (fun _ => false) = Full.ring C mem := rfl

/-- Without tags a step is a step of the system of `Full.lean`. -/
theorem sstep_full {s s' : St R} {i : Nat} {c : Ch} (h : sstep C s i c = .ok (some s')) (ht : s.tags = fun _ => false) :
    Full.step C s.full i c = .ok (some s'.full) ∧ s'.tags = fun _ => false := by
  have h := sstep_ok h
  unfold step at h
  unfold Full.step
  simp only [St.full]
  cases hi : s.base.thr[i]? with
  | none => rw [hi] at h; cases h
  | some t =>
    rw [hi] at h
    simp only [bind_ok] at h ⊢
    obtain ⟨b, hb, h⟩ := h
    cases b with
    | none => cases h
    | some b =>
      obtain ⟨vs, hv, h⟩ := bind_ok.mp h
      cases h
      refine ⟨⟨some b, hb, bind_ok.mpr ⟨vs, ?_, rfl⟩⟩, ?_⟩
      · rw [← hv]
        unfold structs Full.structs
        rw [ht]
        rfl
      · show wipe C.P s.tags t = _
        unfold wipe
        rw [ht]
        split
        · funext j; unfold upd; split <;> rfl
        · rfl

/-- `s'` comes after `s` within `k` steps. -/
def Go (C : Cfg R) (hf : Bool) (k : Nat) (s s' : St R) : Prop := ∃ j, j ≤ k ∧ ∀ n, drive C hf (j + n) s = drive C hf n s'

theorem Go.refl (s : St R) : Go C hf 0 s s := ⟨0, Nat.le_refl _, fun n => by rw [Nat.zero_add]⟩

theorem Go.trans {a b : Nat} {s s' s'' : St R} (h : Go C hf a s s') (g : Go C hf b s' s'') : Go C hf (a + b) s s'' := by
  obtain ⟨j, hj, h⟩ := h
  obtain ⟨l, hl, g⟩ := g
  exact ⟨j + l, by omega, fun n => by rw [Nat.add_assoc, h, g]⟩

theorem Go.mono {a b : Nat} {s s' : St R} (h : Go C hf a s s') (hab : a ≤ b) : Go C hf b s s' := by
  obtain ⟨j, hj, h⟩ := h
  exact ⟨j, by omega, h⟩

theorem Go.one {s s' : St R} (i : Nat) (c : Ch) (hn : next hf s.base = some (i, c)) (hs : sstep C s i c = .ok (some s')) : Go C hf 1 s s' :=
  ⟨1, Nat.le_refl _, fun n => by rw [Nat.add_comm, drive, hn]; simp only [hs]; rfl⟩

theorem Go.step {k : Nat} {s s' s'' : St R} (i : Nat) (c : Ch) (hn : next hf s.base = some (i, c)) (hs : sstep C s i c = .ok (some s'))
    (h : Go C hf k s' s'') : Go C hf (k + 1) s s'' := by rw [Nat.add_comm]; exact (Go.one i c hn hs).trans h

/-- A state with free mutex and two threads. -/
abbrev mkB (tail : Nat) (head old : Hd) (cur prev : EP) (nx : Option Nat) (flag : Bool) (jobs : List Nat) (lock : Option Nat) (mem : Nat → Slot) (ehead : Nat → Nat)
    (estr : Nat → List Slot) (alive : Nat → Bool) (nextId : Nat) (t u : Th) (cl dn : List (Nat × Nat)) (vs : Nat → Struct R) (tg : Nat → Bool) : St R :=
  ⟨⟨tail, head, old, cur, prev, nx, flag, jobs, lock, mem, ehead, estr, alive, nextId, [t, u], cl, dn⟩, vs, tg⟩

variable {tail h o e n a b r : Nat} {p : Option Nat} {nx : Option Nat} {flag : Bool} {mem : Nat → Slot} {ehead : Nat → Nat}
  {estr : Nat → List Slot} {alive : Nat → Bool} {cl dn : List (Nat × Nat)} {vs : Nat → Struct R} {tg : Nat → Bool}

/-- The caller from the watermark test to `schedule_job`. -/
theorem go_create (hal : alive e = true) (hp : p ≠ some e) :
    Go C hf 10 (mkB tail ⟨h, 0⟩ ⟨o, 0⟩ ⟨some e, 0⟩ ⟨p, 0⟩ none false [] none mem ehead estr alive n ⟨.casF r, none, none, a⟩ ⟨.idle, none, none, b⟩ cl dn vs tg)
      (mkB tail ⟨h, 0⟩ ⟨o, 0⟩ ⟨some e, 0⟩ ⟨p, 0⟩ (some n) true [n] none mem (upd ehead n (ehead e)) (upd estr n (estr e)) (upd alive n true) (n + 1)
        ⟨.ap1 r, none, none, a⟩ ⟨.idle, none, none, b⟩ cl dn (upd vs n (vs e).copy) tg) := by
  refine .step (s' := mkB tail ⟨h, 0⟩ ⟨o, 0⟩ ⟨some e, 0⟩ ⟨p, 0⟩ none true [] none mem ehead estr alive n ⟨.crA r, none, none, a⟩ ⟨.idle, none, none, b⟩ cl dn vs tg)
    0 .go rfl rfl ?_
  refine .step (s' := mkB tail ⟨h, 0⟩ ⟨o, 0⟩ ⟨some e, 0⟩ ⟨p, 0⟩ none true [] none mem ehead estr alive n ⟨.ga1 (.create r), none, none, a⟩ ⟨.idle, none, none, b⟩ cl dn vs tg)
    0 .go rfl rfl ?_
  refine .step (s' := mkB tail ⟨h, 0⟩ ⟨o, 0⟩ ⟨some e, 0⟩ ⟨p, 0⟩ none true [] none mem ehead estr alive n ⟨.gaC2 (.create r), none, none, a⟩ ⟨.idle, none, none, b⟩ cl dn vs tg)
    0 .go rfl rfl ?_
  refine .step (s' := mkB tail ⟨h, 0⟩ ⟨o, 0⟩ ⟨some e, 0⟩ ⟨p, 0⟩ none true [] none mem ehead estr alive n ⟨.gaC3 (.create r) ⟨some e, 0⟩, none, none, a⟩ ⟨.idle, none, none, b⟩ cl dn vs tg)
    0 .go rfl rfl ?_
  refine .step (s' := mkB tail ⟨h, 0⟩ ⟨o, 0⟩ ⟨some e, 1⟩ ⟨p, 0⟩ none true [] none mem ehead estr alive n ⟨.crC r, some e, none, a⟩ ⟨.idle, none, none, b⟩ cl dn vs tg)
    0 .go rfl (by simp [sstep, step, Conc.step, Conc.stepT, structs, wipe, Conc.St.setT, Conc.gaRet, bind, Except.bind]) ?_
  refine .step (s' := mkB tail ⟨h, 0⟩ ⟨o, 0⟩ ⟨some e, 1⟩ ⟨p, 0⟩ (some n) true [] none mem (upd ehead n (ehead e)) (upd estr n (estr e)) (upd alive n true) (n + 1)
      ⟨.ej1 (.create r), some e, none, a⟩ ⟨.idle, none, none, b⟩ cl dn (upd vs n (vs e).copy) tg)
    0 .go rfl (by simp [sstep, step, Conc.step, Conc.stepT, structs, wipe, Conc.St.setT, Conc.gaRet, bind, Except.bind, hal]) ?_
  refine .step (s' := mkB tail ⟨h, 0⟩ ⟨o, 0⟩ ⟨some e, 1⟩ ⟨p, 0⟩ (some n) true [] none mem (upd ehead n (ehead e)) (upd estr n (estr e)) (upd alive n true) (n + 1)
      ⟨.ejC2 (.create r), some e, none, a⟩ ⟨.idle, none, none, b⟩ cl dn (upd vs n (vs e).copy) tg)
    0 .go rfl (by simp [sstep, step, Conc.step, Conc.stepT, structs, wipe, Conc.St.setT, Conc.gaRet, bind, Except.bind, hp]) ?_
  refine .step (s' := mkB tail ⟨h, 0⟩ ⟨o, 0⟩ ⟨some e, 1⟩ ⟨p, 0⟩ (some n) true [] none mem (upd ehead n (ehead e)) (upd estr n (estr e)) (upd alive n true) (n + 1)
      ⟨.ejC3 (.create r) ⟨some e, 1⟩, some e, none, a⟩ ⟨.idle, none, none, b⟩ cl dn (upd vs n (vs e).copy) tg)
    0 .go rfl rfl ?_
  refine .step (s' := mkB tail ⟨h, 0⟩ ⟨o, 0⟩ ⟨some e, 0⟩ ⟨p, 0⟩ (some n) true [] none mem (upd ehead n (ehead e)) (upd estr n (estr e)) (upd alive n true) (n + 1)
      ⟨.crS r, none, none, a⟩ ⟨.idle, none, none, b⟩ cl dn (upd vs n (vs e).copy) tg)
    0 .go rfl (by simp [sstep, step, Conc.step, Conc.stepT, structs, wipe, Conc.St.setT, Conc.ejRet, bind, Except.bind]) ?_
  exact .one 0 .go rfl rfl

/-- The job takes its view. -/
theorem go_view (hal : alive n = true) (heh : ehead n = h) (ho : o ≠ h) :
    Go C hf 7 (mkB tail ⟨h, 0⟩ ⟨o, 0⟩ ⟨some e, 0⟩ ⟨p, 0⟩ (some n) true [n] none mem ehead estr alive m ⟨.ap1 r, none, none, a⟩ ⟨.idle, none, none, b⟩ cl dn vs tg)
      (mkB tail ⟨h, 1⟩ ⟨o, 0⟩ ⟨some e, 0⟩ ⟨p, 0⟩ (some n) true [] none mem ehead estr alive m ⟨.ap1 r, none, none, a⟩ ⟨.cp n h [], none, some h, tail⟩ cl dn vs tg) := by
  refine .step (s' := (mkB tail ⟨h, 0⟩ ⟨o, 0⟩ ⟨some e, 0⟩ ⟨p, 0⟩ (some n) true [] none mem ehead estr alive m ⟨.ap1 r, none, none, a⟩ ⟨.jb n, none, none, b⟩ cl dn vs tg))
    1 .work rfl (by first | rfl | simp [sstep, step, Conc.step, Conc.stepT, structs, wipe, Conc.St.setT, Conc.gaRet, Conc.ejRet, Conc.gtRet, Conc.rlRet, Conc.wake, bind, Except.bind, hal, heh, ho]) ?_
  refine .step (s' := (mkB tail ⟨h, 0⟩ ⟨o, 0⟩ ⟨some e, 0⟩ ⟨p, 0⟩ (some n) true [] none mem ehead estr alive m ⟨.ap1 r, none, none, a⟩ ⟨.gh1 (.job n) h, none, none, b⟩ cl dn vs tg))
    1 .go rfl (by first | rfl | simp [sstep, step, Conc.step, Conc.stepT, structs, wipe, Conc.St.setT, Conc.gaRet, Conc.ejRet, Conc.gtRet, Conc.rlRet, Conc.wake, bind, Except.bind, hal, heh, ho]) ?_
  refine .step (s' := (mkB tail ⟨h, 0⟩ ⟨o, 0⟩ ⟨some e, 0⟩ ⟨p, 0⟩ (some n) true [] none mem ehead estr alive m ⟨.ap1 r, none, none, a⟩ ⟨.ghB (.job n) h, none, none, b⟩ cl dn vs tg))
    1 .go rfl (by first | rfl | simp [sstep, step, Conc.step, Conc.stepT, structs, wipe, Conc.St.setT, Conc.gaRet, Conc.ejRet, Conc.gtRet, Conc.rlRet, Conc.wake, bind, Except.bind, hal, heh, ho]) ?_
  refine .step (s' := (mkB tail ⟨h, 0⟩ ⟨o, 0⟩ ⟨some e, 0⟩ ⟨p, 0⟩ (some n) true [] none mem ehead estr alive m ⟨.ap1 r, none, none, a⟩ ⟨.ghH2 (.job n) h, none, none, b⟩ cl dn vs tg))
    1 .go rfl (by first | rfl | simp [sstep, step, Conc.step, Conc.stepT, structs, wipe, Conc.St.setT, Conc.gaRet, Conc.ejRet, Conc.gtRet, Conc.rlRet, Conc.wake, bind, Except.bind, hal, heh, ho]) ?_
  refine .step (s' := (mkB tail ⟨h, 0⟩ ⟨o, 0⟩ ⟨some e, 0⟩ ⟨p, 0⟩ (some n) true [] none mem ehead estr alive m ⟨.ap1 r, none, none, a⟩ ⟨.ghH3 (.job n) h ⟨h, 0⟩, none, none, b⟩ cl dn vs tg))
    1 .go rfl (by first | rfl | simp [sstep, step, Conc.step, Conc.stepT, structs, wipe, Conc.St.setT, Conc.gaRet, Conc.ejRet, Conc.gtRet, Conc.rlRet, Conc.wake, bind, Except.bind, hal, heh, ho]) ?_
  refine .step (s' := (mkB tail ⟨h, 1⟩ ⟨o, 0⟩ ⟨some e, 0⟩ ⟨p, 0⟩ (some n) true [] none mem ehead estr alive m ⟨.ap1 r, none, none, a⟩ ⟨.gt (.job n), none, some h, b⟩ cl dn vs tg))
    1 .go rfl (by first | rfl | simp [sstep, step, Conc.step, Conc.stepT, structs, wipe, Conc.St.setT, Conc.gaRet, Conc.ejRet, Conc.gtRet, Conc.rlRet, Conc.wake, bind, Except.bind, hal, heh, ho]) ?_
  exact .one 1 .go rfl (by first | rfl | simp [sstep, step, Conc.step, Conc.stepT, structs, wipe, Conc.St.setT, Conc.gaRet, Conc.ejRet, Conc.gtRet, Conc.rlRet, Conc.wake, bind, Except.bind, hal, heh, ho])

/-- The job copies the slots of its view. -/
theorem go_copy (c : Nat) : ∀ (q : Nat) (acc : List Slot), q + c = tail →
    Go C hf c (mkB tail ⟨h, 1⟩ ⟨o, 0⟩ ⟨some e, 0⟩ ⟨p, 0⟩ (some n) true [] none mem ehead estr alive m ⟨.ap1 r, none, none, a⟩ ⟨.cp n q acc, none, some h, tail⟩ cl dn vs tg)
      (mkB tail ⟨h, 1⟩ ⟨o, 0⟩ ⟨some e, 0⟩ ⟨p, 0⟩ (some n) true [] none mem ehead estr alive m ⟨.ap1 r, none, none, a⟩ ⟨.cp n tail (acc ++ (List.range c).map (fun k => mem ((q + k) % C.P.cap))), none, some h, tail⟩ cl dn vs tg) := by
  induction c with
  | zero => intro q acc hq; obtain rfl : q = tail := by omega
            simpa using Go.refl _
  | succ c ih =>
    intro q acc hq
    refine .step (s' := (mkB tail ⟨h, 1⟩ ⟨o, 0⟩ ⟨some e, 0⟩ ⟨p, 0⟩ (some n) true [] none mem ehead estr alive m ⟨.ap1 r, none, none, a⟩ ⟨.cp n (q + 1) (acc ++ [mem (q % C.P.cap)]), none, some h, tail⟩ cl dn vs tg))
      1 .go rfl (by simp [sstep, step, Conc.step, Conc.stepT, structs, wipe, Conc.St.setT, bind, Except.bind, show q < tail by omega]) ?_
    have := ih (q + 1) (acc ++ [mem (q % C.P.cap)]) (by omega)
    rw [List.append_assoc] at this
    have e1 : [mem (q % C.P.cap)] ++ (List.range c).map (fun k => mem ((q + 1 + k) % C.P.cap)) =
        (List.range (c + 1)).map (fun k => mem ((q + k) % C.P.cap)) := by
      rw [List.range_succ_eq_map]
      simp only [List.map_cons, List.map_map, Nat.add_zero, List.singleton_append, Function.comp_def, Nat.succ_eq_add_one, Nat.add_assoc, Nat.add_comm]
      simp only [Nat.add_left_comm, Nat.add_comm]
    rw [e1] at this
    exact this

/-- The job flushes and drops its view. -/
theorem go_flush {acc : List Slot} {st' : Struct R} (hal : alive n = true) (ho : o ≠ h)
    (hj : Full.job C.L C.impl C.P.hwm (vs n) (blockView C tg h acc) = .ok st') :
    Go C hf 4 (mkB tail ⟨h, 1⟩ ⟨o, 0⟩ ⟨some e, 0⟩ ⟨p, 0⟩ (some n) true [] none mem ehead estr alive m ⟨.ap1 r, none, none, a⟩ ⟨.cp n tail acc, none, some h, tail⟩ cl dn vs tg)
      (mkB tail ⟨h, 0⟩ ⟨o, 0⟩ ⟨some e, 0⟩ ⟨p, 0⟩ (some n) true [] none mem ehead (upd estr n (estr n ++ acc)) alive m ⟨.ap1 r, none, none, a⟩ ⟨.ad1 n, none, none, tail⟩ cl dn (upd vs n st') tg) := by
  refine .step (s' := (mkB tail ⟨h, 1⟩ ⟨o, 0⟩ ⟨some e, 0⟩ ⟨p, 0⟩ (some n) true [] none mem ehead (upd estr n (estr n ++ acc)) alive m ⟨.ap1 r, none, none, a⟩ ⟨.rl1 (.job n), none, some h, tail⟩ cl dn (upd vs n st') tg))
    1 .go rfl (by first | rfl | simp [sstep, step, Conc.step, Conc.stepT, structs, wipe, Conc.St.setT, Conc.gaRet, Conc.ejRet, Conc.gtRet, Conc.rlRet, Conc.wake, bind, Except.bind, hal, ho, hj]) ?_
  refine .step (s' := (mkB tail ⟨h, 1⟩ ⟨o, 0⟩ ⟨some e, 0⟩ ⟨p, 0⟩ (some n) true [] none mem ehead (upd estr n (estr n ++ acc)) alive m ⟨.ap1 r, none, none, a⟩ ⟨.rlH2 (.job n), none, some h, tail⟩ cl dn (upd vs n st') tg))
    1 .go rfl (by first | rfl | simp [sstep, step, Conc.step, Conc.stepT, structs, wipe, Conc.St.setT, Conc.gaRet, Conc.ejRet, Conc.gtRet, Conc.rlRet, Conc.wake, bind, Except.bind, hal, ho, hj]) ?_
  refine .step (s' := (mkB tail ⟨h, 1⟩ ⟨o, 0⟩ ⟨some e, 0⟩ ⟨p, 0⟩ (some n) true [] none mem ehead (upd estr n (estr n ++ acc)) alive m ⟨.ap1 r, none, none, a⟩ ⟨.rlH3 (.job n) ⟨h, 1⟩, none, some h, tail⟩ cl dn (upd vs n st') tg))
    1 .go rfl (by first | rfl | simp [sstep, step, Conc.step, Conc.stepT, structs, wipe, Conc.St.setT, Conc.gaRet, Conc.ejRet, Conc.gtRet, Conc.rlRet, Conc.wake, bind, Except.bind, hal, ho, hj]) ?_
  exact .one 1 .go rfl (by first | rfl | simp [sstep, step, Conc.step, Conc.stepT, structs, wipe, Conc.St.setT, Conc.gaRet, Conc.ejRet, Conc.gtRet, Conc.rlRet, Conc.wake, bind, Except.bind, hal, ho, hj])

/-- A failing flush fails the call. -/
theorem go_flush_err {acc : List Slot} {f : Fault} (hal : alive n = true)
    (hj : Full.job C.L C.impl C.P.hwm (vs n) (blockView C tg h acc) = .error f) (k : Nat) :
    drive C hf (k + 1) (mkB tail ⟨h, 1⟩ ⟨o, 0⟩ ⟨some e, 0⟩ ⟨p, 0⟩ (some n) true [] none mem ehead estr alive m ⟨.ap1 r, none, none, a⟩ ⟨.cp n tail acc, none, some h, tail⟩ cl dn vs tg) = .error f := by
  have hn : next hf (mkB tail ⟨h, 1⟩ ⟨o, 0⟩ ⟨some e, 0⟩ ⟨p, 0⟩ (some n) true [] none mem ehead estr alive m ⟨.ap1 r, none, none, a⟩ ⟨.cp n tail acc, none, some h, tail⟩ cl dn vs tg).base = some (1, .go) := rfl
  have hs : sstep C (mkB tail ⟨h, 1⟩ ⟨o, 0⟩ ⟨some e, 0⟩ ⟨p, 0⟩ (some n) true [] none mem ehead estr alive m ⟨.ap1 r, none, none, a⟩ ⟨.cp n tail acc, none, some h, tail⟩ cl dn vs tg) 1 .go = .error f := by
    simp [sstep, step, Conc.step, Conc.stepT, structs, wipe, Conc.St.setT, bind, Except.bind, hal, hj]
  rw [drive, hn]
  simp only [hs]
  rfl

/-- The job retires the epoch before. -/
theorem go_retire {x : Nat} (hal : alive x = true) :
    Go C hf 4 (mkB tail ⟨h, 0⟩ ⟨o, 0⟩ ⟨some e, 0⟩ ⟨some x, 0⟩ (some n) true [] none mem ehead estr alive m ⟨.ap1 r, none, none, a⟩ ⟨.ad1 n, none, none, tail⟩ cl dn vs tg)
      (mkB tail ⟨h, 0⟩ ⟨o, 0⟩ ⟨some e, 0⟩ ⟨none, 0⟩ (some n) true [] none mem ehead estr (upd alive x false) m ⟨.ap1 r, none, none, a⟩ ⟨.ad3 n, none, none, tail⟩ cl dn vs tg) := by
  refine .step (s' := (mkB tail ⟨h, 0⟩ ⟨o, 0⟩ ⟨some e, 0⟩ ⟨some x, 0⟩ (some n) true [] none mem ehead estr alive m ⟨.ap1 r, none, none, a⟩ ⟨.rt1 n x, none, none, tail⟩ cl dn vs tg))
    1 .go rfl (by first | rfl | simp [sstep, step, Conc.step, Conc.stepT, structs, wipe, Conc.St.setT, Conc.gaRet, Conc.ejRet, Conc.gtRet, Conc.rlRet, Conc.wake, bind, Except.bind, hal]) ?_
  refine .step (s' := (mkB tail ⟨h, 0⟩ ⟨o, 0⟩ ⟨some e, 0⟩ ⟨some x, 0⟩ (some n) true [] none mem ehead estr alive m ⟨.ap1 r, none, none, a⟩ ⟨.rt2 n x ⟨some x, 0⟩, none, none, tail⟩ cl dn vs tg))
    1 .go rfl (by first | rfl | simp [sstep, step, Conc.step, Conc.stepT, structs, wipe, Conc.St.setT, Conc.gaRet, Conc.ejRet, Conc.gtRet, Conc.rlRet, Conc.wake, bind, Except.bind, hal]) ?_
  refine .step (s' := (mkB tail ⟨h, 0⟩ ⟨o, 0⟩ ⟨some e, 0⟩ ⟨none, 0⟩ (some n) true [] none mem ehead estr alive m ⟨.ap1 r, none, none, a⟩ ⟨.rt3 n x, none, none, tail⟩ cl dn vs tg))
    1 .go rfl (by first | rfl | simp [sstep, step, Conc.step, Conc.stepT, structs, wipe, Conc.St.setT, Conc.gaRet, Conc.ejRet, Conc.gtRet, Conc.rlRet, Conc.wake, bind, Except.bind, hal]) ?_
  exact .one 1 .go rfl (by first | rfl | simp [sstep, step, Conc.step, Conc.stepT, structs, wipe, Conc.St.setT, Conc.gaRet, Conc.ejRet, Conc.gtRet, Conc.rlRet, Conc.wake, bind, Except.bind, hal])

theorem go_noretire :
    Go C hf 1 (mkB tail ⟨h, 0⟩ ⟨o, 0⟩ ⟨some e, 0⟩ ⟨none, 0⟩ (some n) true [] none mem ehead estr alive m ⟨.ap1 r, none, none, a⟩ ⟨.ad1 n, none, none, tail⟩ cl dn vs tg)
      (mkB tail ⟨h, 0⟩ ⟨o, 0⟩ ⟨some e, 0⟩ ⟨none, 0⟩ (some n) true [] none mem ehead estr alive m ⟨.ap1 r, none, none, a⟩ ⟨.ad3 n, none, none, tail⟩ cl dn vs tg) := by
  exact .one 1 .go rfl (by first | rfl | simp [sstep, step, Conc.step, Conc.stepT, structs, wipe, Conc.St.setT, Conc.gaRet, Conc.ejRet, Conc.gtRet, Conc.rlRet, Conc.wake, bind, Except.bind, ])

theorem go_unset (hal : alive n = true) :
    Go C hf 4 (mkB tail ⟨h, 0⟩ ⟨o, 0⟩ ⟨some e, 0⟩ ⟨none, 0⟩ (some n) true [] none mem ehead estr alive m ⟨.ap1 r, none, none, a⟩ ⟨.ad3 n, none, none, tail⟩ cl dn vs tg)
      (mkB tail ⟨h, 0⟩ ⟨o, 0⟩ ⟨none, 0⟩ ⟨some e, 0⟩ (some n) true [] none mem (upd ehead n tail) estr alive m ⟨.ap1 r, none, none, a⟩ ⟨.ad7 n, none, none, tail⟩ cl dn vs tg) := by
  refine .step (s' := (mkB tail ⟨h, 0⟩ ⟨o, 0⟩ ⟨some e, 0⟩ ⟨none, 0⟩ (some n) true [] none mem ehead estr alive m ⟨.ap1 r, none, none, a⟩ ⟨.ad4 n ⟨some e, 0⟩, none, none, tail⟩ cl dn vs tg))
    1 .go rfl (by first | rfl | simp [sstep, step, Conc.step, Conc.stepT, structs, wipe, Conc.St.setT, Conc.gaRet, Conc.ejRet, Conc.gtRet, Conc.rlRet, Conc.wake, bind, Except.bind, hal]) ?_
  refine .step (s' := (mkB tail ⟨h, 0⟩ ⟨o, 0⟩ ⟨none, 0⟩ ⟨none, 0⟩ (some n) true [] none mem ehead estr alive m ⟨.ap1 r, none, none, a⟩ ⟨.ad5 n ⟨some e, 0⟩, none, none, tail⟩ cl dn vs tg))
    1 .go rfl (by first | rfl | simp [sstep, step, Conc.step, Conc.stepT, structs, wipe, Conc.St.setT, Conc.gaRet, Conc.ejRet, Conc.gtRet, Conc.rlRet, Conc.wake, bind, Except.bind, hal]) ?_
  refine .step (s' := (mkB tail ⟨h, 0⟩ ⟨o, 0⟩ ⟨none, 0⟩ ⟨some e, 0⟩ (some n) true [] none mem ehead estr alive m ⟨.ap1 r, none, none, a⟩ ⟨.ad6 n, none, none, tail⟩ cl dn vs tg))
    1 .go rfl (by first | rfl | simp [sstep, step, Conc.step, Conc.stepT, structs, wipe, Conc.St.setT, Conc.gaRet, Conc.ejRet, Conc.gtRet, Conc.rlRet, Conc.wake, bind, Except.bind, hal]) ?_
  exact .one 1 .go rfl (by first | rfl | simp [sstep, step, Conc.step, Conc.stepT, structs, wipe, Conc.St.setT, Conc.gaRet, Conc.ejRet, Conc.gtRet, Conc.rlRet, Conc.wake, bind, Except.bind, hal])

/-- The job publishes its epoch. -/
theorem go_publish (hlt : h < tail) :
    Go C hf 11 (mkB tail ⟨h, 0⟩ ⟨o, 0⟩ ⟨none, 0⟩ ⟨some e, 0⟩ (some n) true [] none mem (upd ehead n tail) estr alive m ⟨.ap1 r, none, none, a⟩ ⟨.ad7 n, none, none, tail⟩ cl dn vs tg)
      (mkB tail ⟨tail, 0⟩ ⟨h, 0⟩ ⟨some n, 0⟩ ⟨some e, 0⟩ none false [] none mem (upd ehead n tail) estr alive m ⟨.ap1 r, none, none, a⟩ ⟨.idle, none, none, tail⟩ cl dn vs tg) := by
  refine .step (s' := (mkB tail ⟨h, 0⟩ ⟨o, 0⟩ ⟨none, 0⟩ ⟨some e, 0⟩ (some n) true [] none mem (upd ehead n tail) estr alive m ⟨.ap1 r, none, none, a⟩ ⟨.ad8 n, none, none, tail⟩ cl dn vs tg))
    1 .go rfl (by first | rfl | simp [sstep, step, Conc.step, Conc.stepT, structs, wipe, Conc.St.setT, Conc.gaRet, Conc.ejRet, Conc.gtRet, Conc.rlRet, Conc.wake, bind, Except.bind, hlt, show ¬ tail = h by omega]) ?_
  refine .step (s' := (mkB tail ⟨h, 0⟩ ⟨o, 0⟩ ⟨none, 0⟩ ⟨some e, 0⟩ (some n) true [] none mem (upd ehead n tail) estr alive m ⟨.ap1 r, none, none, a⟩ ⟨.ad9 n, none, none, tail⟩ cl dn vs tg))
    1 .go rfl (by first | rfl | simp [sstep, step, Conc.step, Conc.stepT, structs, wipe, Conc.St.setT, Conc.gaRet, Conc.ejRet, Conc.gtRet, Conc.rlRet, Conc.wake, bind, Except.bind, hlt, show ¬ tail = h by omega]) ?_
  refine .step (s' := (mkB tail ⟨h, 0⟩ ⟨o, 0⟩ ⟨none, 0⟩ ⟨some e, 0⟩ (some n) true [] none mem (upd ehead n tail) estr alive m ⟨.ap1 r, none, none, a⟩ ⟨.ad10 n ⟨h, 0⟩, none, none, tail⟩ cl dn vs tg))
    1 .go rfl (by first | rfl | simp [sstep, step, Conc.step, Conc.stepT, structs, wipe, Conc.St.setT, Conc.gaRet, Conc.ejRet, Conc.gtRet, Conc.rlRet, Conc.wake, bind, Except.bind, hlt, show ¬ tail = h by omega]) ?_
  refine .step (s' := (mkB tail ⟨tail, 0⟩ ⟨o, 0⟩ ⟨none, 0⟩ ⟨some e, 0⟩ (some n) true [] none mem (upd ehead n tail) estr alive m ⟨.ap1 r, none, none, a⟩ ⟨.ad11 n ⟨h, 0⟩, none, none, tail⟩ cl dn vs tg))
    1 .go rfl (by first | rfl | simp [sstep, step, Conc.step, Conc.stepT, structs, wipe, Conc.St.setT, Conc.gaRet, Conc.ejRet, Conc.gtRet, Conc.rlRet, Conc.wake, bind, Except.bind, hlt, show ¬ tail = h by omega]) ?_
  refine .step (s' := (mkB tail ⟨tail, 0⟩ ⟨h, 0⟩ ⟨none, 0⟩ ⟨some e, 0⟩ (some n) true [] none mem (upd ehead n tail) estr alive m ⟨.ap1 r, none, none, a⟩ ⟨.ad12 n, none, none, tail⟩ cl dn vs tg))
    1 .go rfl (by first | rfl | simp [sstep, step, Conc.step, Conc.stepT, structs, wipe, Conc.St.setT, Conc.gaRet, Conc.ejRet, Conc.gtRet, Conc.rlRet, Conc.wake, bind, Except.bind, hlt, show ¬ tail = h by omega]) ?_
  refine .step (s' := (mkB tail ⟨tail, 0⟩ ⟨h, 0⟩ ⟨some n, 0⟩ ⟨some e, 0⟩ (some n) true [] none mem (upd ehead n tail) estr alive m ⟨.ap1 r, none, none, a⟩ ⟨.ad13, none, none, tail⟩ cl dn vs tg))
    1 .go rfl (by first | rfl | simp [sstep, step, Conc.step, Conc.stepT, structs, wipe, Conc.St.setT, Conc.gaRet, Conc.ejRet, Conc.gtRet, Conc.rlRet, Conc.wake, bind, Except.bind, hlt, show ¬ tail = h by omega]) ?_
  refine .step (s' := (mkB tail ⟨tail, 0⟩ ⟨h, 0⟩ ⟨some n, 0⟩ ⟨some e, 0⟩ none true [] none mem (upd ehead n tail) estr alive m ⟨.ap1 r, none, none, a⟩ ⟨.ad14, none, none, tail⟩ cl dn vs tg))
    1 .go rfl (by first | rfl | simp [sstep, step, Conc.step, Conc.stepT, structs, wipe, Conc.St.setT, Conc.gaRet, Conc.ejRet, Conc.gtRet, Conc.rlRet, Conc.wake, bind, Except.bind, hlt, show ¬ tail = h by omega]) ?_
  refine .step (s' := (mkB tail ⟨tail, 0⟩ ⟨h, 0⟩ ⟨some n, 0⟩ ⟨some e, 0⟩ none true [] (some 1) mem (upd ehead n tail) estr alive m ⟨.ap1 r, none, none, a⟩ ⟨.ad15, none, none, tail⟩ cl dn vs tg))
    1 .go rfl (by first | rfl | simp [sstep, step, Conc.step, Conc.stepT, structs, wipe, Conc.St.setT, Conc.gaRet, Conc.ejRet, Conc.gtRet, Conc.rlRet, Conc.wake, bind, Except.bind, hlt, show ¬ tail = h by omega]) ?_
  refine .step (s' := (mkB tail ⟨tail, 0⟩ ⟨h, 0⟩ ⟨some n, 0⟩ ⟨some e, 0⟩ none true [] (some 1) mem (upd ehead n tail) estr alive m ⟨.ap1 r, none, none, a⟩ ⟨.ad16, none, none, tail⟩ cl dn vs tg))
    1 .go rfl (by first | rfl | simp [sstep, step, Conc.step, Conc.stepT, structs, wipe, Conc.St.setT, Conc.gaRet, Conc.ejRet, Conc.gtRet, Conc.rlRet, Conc.wake, bind, Except.bind, hlt, show ¬ tail = h by omega]) ?_
  refine .step (s' := (mkB tail ⟨tail, 0⟩ ⟨h, 0⟩ ⟨some n, 0⟩ ⟨some e, 0⟩ none true [] none mem (upd ehead n tail) estr alive m ⟨.ap1 r, none, none, a⟩ ⟨.ad17, none, none, tail⟩ cl dn vs tg))
    1 .go rfl (by first | rfl | simp [sstep, step, Conc.step, Conc.stepT, structs, wipe, Conc.St.setT, Conc.gaRet, Conc.ejRet, Conc.gtRet, Conc.rlRet, Conc.wake, bind, Except.bind, hlt, show ¬ tail = h by omega]) ?_
  exact .one 1 .go rfl (by first | rfl | simp [sstep, step, Conc.step, Conc.stepT, structs, wipe, Conc.St.setT, Conc.gaRet, Conc.ejRet, Conc.gtRet, Conc.rlRet, Conc.wake, bind, Except.bind, hlt, show ¬ tail = h by omega])

theorem go_publish_err (hlt : ¬ h < tail) (k : Nat) : drive C hf (k + 1) (mkB tail ⟨h, 0⟩ ⟨o, 0⟩ ⟨none, 0⟩ ⟨some e, 0⟩ (some n) true [] none mem (upd ehead n tail) estr alive m ⟨.ap1 r, none, none, a⟩ ⟨.ad7 n, none, none, tail⟩ cl dn vs tg) = .error .abort := by
  have hn : next hf (mkB tail ⟨h, 0⟩ ⟨o, 0⟩ ⟨none, 0⟩ ⟨some e, 0⟩ (some n) true [] none mem (upd ehead n tail) estr alive m ⟨.ap1 r, none, none, a⟩ ⟨.ad7 n, none, none, tail⟩ cl dn vs tg).base = some (1, .go) := rfl
  have hs : sstep C (mkB tail ⟨h, 0⟩ ⟨o, 0⟩ ⟨none, 0⟩ ⟨some e, 0⟩ (some n) true [] none mem (upd ehead n tail) estr alive m ⟨.ap1 r, none, none, a⟩ ⟨.ad7 n, none, none, tail⟩ cl dn vs tg) 1 .go = .error .abort := by
    simp [sstep, step, Conc.step, Conc.stepT, structs, wipe, Conc.St.setT, bind, Except.bind, hlt]
  rw [drive, hn]
  simp only [hs]
  rfl


/-- The append. -/
theorem go_append (hc : Conc.subGe tail h C.P.hwm = false) :
    Go C hf 4 (mkB tail ⟨h, 0⟩ ⟨o, 0⟩ ⟨some e, 0⟩ ⟨p, 0⟩ none false [] none mem ehead estr alive m ⟨.ap1 r, none, none, a⟩ ⟨.idle, none, none, b⟩ cl dn vs tg)
      (mkB (tail + 1) ⟨h, 0⟩ ⟨o, 0⟩ ⟨some e, 0⟩ ⟨p, 0⟩ none false [] none (upd mem (tail % C.P.cap) (some (tail, r))) ehead estr alive m ⟨.idle, none, none, a⟩ ⟨.idle, none, none, b⟩ ((tail, r) :: cl) ((tail, r) :: dn) vs (upd tg (tail % C.P.cap) false)) := by
  refine .step (s' := (mkB tail ⟨h, 0⟩ ⟨o, 0⟩ ⟨some e, 0⟩ ⟨p, 0⟩ none false [] none mem ehead estr alive m ⟨.ap2 r tail, none, none, a⟩ ⟨.idle, none, none, b⟩ cl dn vs tg))
    0 .go rfl (by first | rfl | simp [sstep, step, Conc.step, Conc.stepT, structs, wipe, Conc.St.setT, Conc.gaRet, Conc.ejRet, Conc.gtRet, Conc.rlRet, Conc.wake, bind, Except.bind, hc]) ?_
  refine .step (s' := (mkB tail ⟨h, 0⟩ ⟨o, 0⟩ ⟨some e, 0⟩ ⟨p, 0⟩ none false [] none mem ehead estr alive m ⟨.ap3 r tail, none, none, a⟩ ⟨.idle, none, none, b⟩ cl dn vs tg))
    0 .go rfl (by first | rfl | simp [sstep, step, Conc.step, Conc.stepT, structs, wipe, Conc.St.setT, Conc.gaRet, Conc.ejRet, Conc.gtRet, Conc.rlRet, Conc.wake, bind, Except.bind, hc]) ?_
  refine .step (s' := (mkB (tail + 1) ⟨h, 0⟩ ⟨o, 0⟩ ⟨some e, 0⟩ ⟨p, 0⟩ none false [] none mem ehead estr alive m ⟨.ap5 r tail, none, none, a⟩ ⟨.idle, none, none, b⟩ ((tail, r) :: cl) dn vs tg))
    0 .go rfl (by first | rfl | simp [sstep, step, Conc.step, Conc.stepT, structs, wipe, Conc.St.setT, Conc.gaRet, Conc.ejRet, Conc.gtRet, Conc.rlRet, Conc.wake, bind, Except.bind, hc]) ?_
  exact .one 0 .go rfl (by first | rfl | simp [sstep, step, Conc.step, Conc.stepT, structs, wipe, Conc.St.setT, Conc.gaRet, Conc.ejRet, Conc.gtRet, Conc.rlRet, Conc.wake, bind, Except.bind, hc])

theorem go_full (hc : Conc.subGe tail h C.P.hwm = true) :
    Go C hf 2 (mkB tail ⟨h, 0⟩ ⟨o, 0⟩ ⟨some e, 0⟩ ⟨p, 0⟩ none false [] none mem ehead estr alive m ⟨.ap1 r, none, none, a⟩ ⟨.idle, none, none, b⟩ cl dn vs tg)
      (mkB tail ⟨h, 0⟩ ⟨o, 0⟩ ⟨some e, 0⟩ ⟨p, 0⟩ none false [] none mem ehead estr alive m ⟨.idle, none, none, a⟩ ⟨.idle, none, none, b⟩ cl dn vs tg) := by
  refine .step (s' := (mkB tail ⟨h, 0⟩ ⟨o, 0⟩ ⟨some e, 0⟩ ⟨p, 0⟩ none false [] none mem ehead estr alive m ⟨.ap2 r tail, none, none, a⟩ ⟨.idle, none, none, b⟩ cl dn vs tg))
    0 .go rfl (by first | rfl | simp [sstep, step, Conc.step, Conc.stepT, structs, wipe, Conc.St.setT, Conc.gaRet, Conc.ejRet, Conc.gtRet, Conc.rlRet, Conc.wake, bind, Except.bind, hc]) ?_
  exact .one 0 .go rfl (by first | rfl | simp [sstep, step, Conc.step, Conc.stepT, structs, wipe, Conc.St.setT, Conc.gaRet, Conc.ejRet, Conc.gtRet, Conc.rlRet, Conc.wake, bind, Except.bind, hc])

theorem go_low (hc : Conc.subGe tail h C.P.lwm = true) :
    Go C hf 2 (mkB tail ⟨h, 0⟩ ⟨o, 0⟩ ⟨some e, 0⟩ ⟨p, 0⟩ none false [] none mem ehead estr alive m ⟨.ins r, none, none, a⟩ ⟨.idle, none, none, b⟩ cl dn vs tg)
      (mkB tail ⟨h, 0⟩ ⟨o, 0⟩ ⟨some e, 0⟩ ⟨p, 0⟩ none false [] none mem ehead estr alive m ⟨.casF r, none, none, a⟩ ⟨.idle, none, none, b⟩ cl dn vs tg) := by
  cases hf with
  | true =>
    refine .step (s' := (mkB tail ⟨h, 0⟩ ⟨o, 0⟩ ⟨some e, 0⟩ ⟨p, 0⟩ none false [] none mem ehead estr alive m ⟨.insH r h, none, none, a⟩ ⟨.idle, none, none, b⟩ cl dn vs tg))
      0 .headFirst rfl rfl ?_
    exact .one 0 .go rfl (by first | rfl | simp [sstep, step, Conc.step, Conc.stepT, structs, wipe, Conc.St.setT, Conc.gaRet, Conc.ejRet, Conc.gtRet, Conc.rlRet, Conc.wake, bind, Except.bind, hc])
  | false =>
    refine .step (s' := (mkB tail ⟨h, 0⟩ ⟨o, 0⟩ ⟨some e, 0⟩ ⟨p, 0⟩ none false [] none mem ehead estr alive m ⟨.insT r tail, none, none, a⟩ ⟨.idle, none, none, b⟩ cl dn vs tg))
      0 .tailFirst rfl rfl ?_
    exact .one 0 .go rfl (by first | rfl | simp [sstep, step, Conc.step, Conc.stepT, structs, wipe, Conc.St.setT, Conc.gaRet, Conc.ejRet, Conc.gtRet, Conc.rlRet, Conc.wake, bind, Except.bind, hc])

theorem go_high (hc : Conc.subGe tail h C.P.lwm = false) :
    Go C hf 2 (mkB tail ⟨h, 0⟩ ⟨o, 0⟩ ⟨some e, 0⟩ ⟨p, 0⟩ none false [] none mem ehead estr alive m ⟨.ins r, none, none, a⟩ ⟨.idle, none, none, b⟩ cl dn vs tg)
      (mkB tail ⟨h, 0⟩ ⟨o, 0⟩ ⟨some e, 0⟩ ⟨p, 0⟩ none false [] none mem ehead estr alive m ⟨.ap1 r, none, none, a⟩ ⟨.idle, none, none, b⟩ cl dn vs tg) := by
  cases hf with
  | true =>
    refine .step (s' := (mkB tail ⟨h, 0⟩ ⟨o, 0⟩ ⟨some e, 0⟩ ⟨p, 0⟩ none false [] none mem ehead estr alive m ⟨.insH r h, none, none, a⟩ ⟨.idle, none, none, b⟩ cl dn vs tg))
      0 .headFirst rfl rfl ?_
    exact .one 0 .go rfl (by first | rfl | simp [sstep, step, Conc.step, Conc.stepT, structs, wipe, Conc.St.setT, Conc.gaRet, Conc.ejRet, Conc.gtRet, Conc.rlRet, Conc.wake, bind, Except.bind, hc])
  | false =>
    refine .step (s' := (mkB tail ⟨h, 0⟩ ⟨o, 0⟩ ⟨some e, 0⟩ ⟨p, 0⟩ none false [] none mem ehead estr alive m ⟨.insT r tail, none, none, a⟩ ⟨.idle, none, none, b⟩ cl dn vs tg))
      0 .tailFirst rfl rfl ?_
    exact .one 0 .go rfl (by first | rfl | simp [sstep, step, Conc.step, Conc.stepT, structs, wipe, Conc.St.setT, Conc.gaRet, Conc.ejRet, Conc.gtRet, Conc.rlRet, Conc.wake, bind, Except.bind, hc])

end DE.SerialRun
