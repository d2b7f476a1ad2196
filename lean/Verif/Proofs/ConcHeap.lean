import Verif.Model.ConcHeap
import Verif.Proofs.OwnershipStatic
import Verif.Proofs.Snapshot
import Verif.Proofs.Full
import Verif.Properties.Teardown

/-!
The concurrent model with memory refines the one with values: the reference counts are exact in every reachable state.
-/

namespace DE.Conc
variable {P : Par} {s s' : St} {i : Nat} {t : Th} {c : Ch}

/-- The flush of the reconstruction in flight is still to come. -/
def pre : PC → Bool
  | .ej1 (.create _) | .ejP2 (.create _) | .ejP3 (.create _) _ | .ejC2 (.create _) | .ejC3 (.create _) _ => true
  | .crS _ => true
  | .jb _ => true
  | .gh1 (.job _) _ | .ghO2 (.job _) _ | .ghO3 (.job _) _ _ | .ghB (.job _) _ | .ghH2 (.job _) _ | .ghH3 (.job _) _ _ => true
  | .gt (.job _) => true
  | .cp _ _ _ => true
  | _ => false

/-- The same of a state. -/
def PreF (s : St) : Prop := s.jobs ≠ [] ∨ ∃ t ∈ s.thr, pre t.pc = true

theorem pre_sect (h : pre t.pc = true) : (sect t).isSome = true := by
  obtain ⟨pc, ep, hd, tl⟩ := t
  cases pc
  all_goals
    simp only [pre] at h
    try contradiction
  all_goals
    first
      | rfl
      | (rename_i k; cases k <;> first | contradiction | rfl)
      | (rename_i k _; cases k <;> first | contradiction | rfl)
      | (rename_i k _ _; cases k <;> first | contradiction | rfl)

theorem pre_wake (u : Th) : pre (wake u).pc = pre u.pc := by
  unfold wake
  split
  · rename_i h; rw [h]; rfl
  · rfl

theorem PreF.keep {a : St} {t' : Th} (hi : s.thr[i]? = some t) (h1 : a.thr = s.thr) (h2 : a.jobs ≠ [] → PreF s)
    (h3 : pre t'.pc = true → PreF s) (h : PreF (a.setT i t')) : PreF s := by
  rcases h with h | ⟨u, hu, hp⟩
  · exact h2 h
  · have hu : u ∈ a.thr.set i t' := hu
    rw [h1] at hu
    rcases mem_set_cases hu with rfl | ⟨j, -, hj⟩
    · exact h3 hp
    · exact Or.inr ⟨u, List.mem_of_getElem? hj, hp⟩

set_option linter.unusedSimpArgs false in
/-- What a step does to the epochs, besides creating one, deleting one, and the flush. -/
theorem stepT_heap (hi : s.thr[i]? = some t) (hs : stepT P s i t c = .ok (some s')) :
    (∃ r e, t.pc = .crC r ∧ t.ep = some e ∧ s.alive e = true ∧ s'.alive = upd s.alive s.nextId true ∧ s'.nextId = s.nextId + 1 ∧
      s'.next = some s.nextId) ∨
    (∃ e p acc, t.pc = .cp e p acc ∧ ¬ p < t.tl ∧ s.alive e = true ∧ s'.alive = s.alive ∧ s'.nextId = s.nextId ∧ s'.next = s.next) ∨
    (∃ e y, t.pc = .rt3 e y ∧ s.alive y = true ∧ s'.alive = upd s.alive y false ∧ s'.nextId = s.nextId ∧ s'.next = s.next ∧ (PreF s' → PreF s)) ∨
    ((∀ r, t.pc ≠ .crC r) ∧ (∀ e p acc, t.pc = .cp e p acc → p < t.tl) ∧ (∀ e y, t.pc ≠ .rt3 e y) ∧
      (t.pc = .run → c = .use → ∀ e, t.ep = some e → s.alive e = true) ∧
      s'.alive = s.alive ∧ s'.nextId = s.nextId ∧ (s'.next = s.next ∨ s'.next = none) ∧ (PreF s' → PreF s)) := by
  have hm := List.mem_of_getElem? hi
  obtain ⟨pc, ep, hd, tl⟩ := t
  have key : ∀ {a : St} {t' : Th}, a.thr = s.thr → (a.jobs ≠ [] → PreF s) → (pre t'.pc = true → PreF s) → PreF (a.setT i t') → PreF s :=
    fun h1 h2 h3 h4 => PreF.keep hi h1 h2 h3 h4
  have old : pre pc = true → PreF s := fun h => Or.inr ⟨_, hm, h⟩
  cases pc
  case crC r =>
    simp only [stepT] at hs
    cases ep with
    | none => cases hs
    | some e =>
      simp only at hs
      split at hs
      · rename_i ha
        cases hs
        exact .inl ⟨r, e, rfl, rfl, ha, rfl, rfl, rfl⟩
      · cases hs
  case cp e p acc =>
    simp only [stepT] at hs
    split at hs
    · rename_i hp
      cases hs
      exact .inr (.inr (.inr ⟨by simp, by rintro e' p' acc' h; cases h; exact hp, by simp, by simp, rfl, rfl, .inl rfl,
        key rfl (fun h => .inl h) (fun _ => old rfl)⟩))
    · rename_i hp
      split at hs
      · rename_i ha
        cases hs
        exact .inr (.inl ⟨e, p, acc, rfl, hp, ha, rfl, rfl, rfl⟩)
      · cases hs
  case rt3 e y =>
    simp only [stepT] at hs
    split at hs
    · rename_i ha
      cases hs
      exact .inr (.inr (.inl ⟨e, y, rfl, ha, rfl, rfl, rfl, key rfl (fun h => .inl h) (by simp [pre])⟩))
    · cases hs
  case run =>
    simp only [stepT] at hs
    refine .inr (.inr (.inr ⟨by simp, by simp, by simp, ?_, ?_⟩))
    · rintro - rfl e he
      simp only at he
      subst he
      simp only at hs
      split at hs
      · assumption
      · cases hs
    · repeat' split at hs
      all_goals
        first
          | (cases hs; done)
          | (cases hs
             exact ⟨rfl, rfl, .inl rfl, key rfl (fun h => .inl h) (by simp [pre])⟩)
  case idle =>
    simp only [stepT] at hs
    refine .inr (.inr (.inr ⟨by simp, by simp, by simp, by simp, ?_⟩))
    repeat' split at hs
    all_goals
      first
        | (cases hs; done)
        | (cases hs
           exact ⟨rfl, rfl, .inl rfl, key rfl (fun h => .inl h) (by simp [pre])⟩)
        | (rename_i hj
           cases hs
           exact ⟨rfl, rfl, .inl rfl, key rfl (fun _ => .inl (by rw [hj]; simp)) (fun _ => .inl (by rw [hj]; simp))⟩)
  case crS r =>
    simp only [stepT] at hs
    refine .inr (.inr (.inr ⟨by simp, by simp, by simp, by simp, ?_⟩))
    split at hs
    · cases hs
      exact ⟨rfl, rfl, .inl rfl, key rfl (fun _ => old rfl) (fun _ => old rfl)⟩
    · cases hs
  case ad13 =>
    simp only [stepT] at hs
    cases hs
    exact .inr (.inr (.inr ⟨by simp, by simp, by simp, by simp, rfl, rfl, .inr rfl, key rfl (fun h => .inl h) (by simp [pre])⟩))
  case ad15 =>
    simp only [stepT] at hs
    cases hs
    refine .inr (.inr (.inr ⟨by simp, by simp, by simp, by simp, rfl, rfl, .inl rfl, ?_⟩))
    rintro (h | ⟨u, hu, hp⟩)
    · exact .inl h
    · have hu : u ∈ (s.thr.map wake).set i _ := hu
      rcases mem_set_cases hu with rfl | ⟨j, -, hj⟩
      · simp [pre] at hp
      · rw [List.getElem?_map] at hj
        obtain ⟨w, hw, rfl⟩ := Option.map_eq_some_iff.mp hj
        rw [pre_wake] at hp
        exact .inr ⟨w, List.mem_of_getElem? hw, hp⟩
  all_goals
    simp only [stepT] at hs
    refine .inr (.inr (.inr ⟨by simp, by simp, by simp, by simp, ?_⟩))
    repeat' split at hs
    all_goals
      first
        | (cases hs; done)
        | (cases hs
           refine ⟨rfl, rfl, .inl rfl, key rfl (fun h => .inl h) (fun hp => ?_)⟩
           first
             | (exfalso; simp [pre] at hp; done)
             | (rename_i k; cases k <;> first | (exfalso; simp [pre, gaRet, ejRet, gtRet, rlRet] at hp; done) | exact old rfl)
             | (rename_i k _; cases k <;> first | (exfalso; simp [pre, gaRet, ejRet, gtRet, rlRet] at hp; done) | exact old rfl)
             | (rename_i k _ _; cases k <;> first | (exfalso; simp [pre, gaRet, ejRet, gtRet, rlRet] at hp; done) | exact old rfl)
             | (rename_i k _ _ _; cases k <;> first | (exfalso; simp [pre, gaRet, ejRet, gtRet, rlRet] at hp; done) | exact old rfl)
             | exact old rfl)

/-- No flush is pending after the flush. -/
theorem flush_done (hv : Inv P s) (hi : s.thr[i]? = some t) {e p : Nat} {acc : List Slot} (ht : t.pc = .cp e p acc) (hp : ¬ p < t.tl)
    (hs : stepT P s i t c = .ok (some s')) : ¬ PreF s' := by
  obtain ⟨-, hj, hu⟩ := hv.alone hi (ph := .A1 e) (by unfold sect; rw [ht])
  obtain ⟨pc, ep, hd, tl⟩ := t
  simp only at ht
  subst ht
  simp only [stepT] at hs
  rw [if_neg hp] at hs
  split at hs
  · cases hs
    rintro (h | ⟨u, hu', hpre⟩)
    · exact h hj
    · have hu' : u ∈ s.thr.set i _ := hu'
      rcases mem_set_cases hu' with rfl | ⟨j, hne, hj'⟩
      · simp [pre] at hpre
      · have := pre_sect hpre
        rw [hu j u hne hj'] at this
        cases this
  · cases hs

/-- The epoch whose flush is run is the next one. -/
theorem cp_next (hv : Inv P s) (hi : s.thr[i]? = some t) {e p : Nat} {acc : List Slot} (ht : t.pc = .cp e p acc) :
    s.next = some e := (hv.phase hi (ph := .A1 e) (by unfold sect; rw [ht])).2.1.1

end DE.Conc

namespace DE.CH
variable {R : Type}
open Conc (upd Ch)
open Full (Cfg)
open Rc (RHeap)
open Snap (HStruct Own Res' WfH)

/-- The references to levels held by the epochs that exist. -/
def refs (alive : Nat → Bool) (n : Nat) (vs : Nat → HStruct) : Multiset Nat :=
  ∑ e ∈ Finset.range n, if alive e then ((vs e).levels : Multiset Nat) else 0

theorem refs_congr {al al' : Nat → Bool} {n : Nat} {vs vs' : Nat → HStruct} (h : ∀ e < n, al e = al' e ∧ (al e = true → (vs e).levels = (vs' e).levels)) :
    refs al n vs = refs al' n vs' := by
  unfold refs
  apply Finset.sum_congr rfl
  intro e he
  obtain ⟨h1, h2⟩ := h e (Finset.mem_range.mp he)
  rw [← h1]
  split
  · rename_i ha; rw [h2 ha]
  · rfl

theorem refs_split {al : Nat → Bool} {n e : Nat} {vs : Nat → HStruct} (he : e < n) (ha : al e = true) :
    refs al n vs = ((vs e).levels : Multiset Nat) + refs (upd al e false) n vs := by
  unfold refs
  rw [← Finset.add_sum_erase _ _ (Finset.mem_range.mpr he), if_pos ha]
  congr 1
  rw [← Finset.add_sum_erase (Finset.range n) (fun x => if upd al e false x = true then ((vs x).levels : Multiset Nat) else 0) (Finset.mem_range.mpr he)]
  have : upd al e false e = false := Conc.upd_self _ _ _
  simp only [this, Bool.false_eq_true, if_false, zero_add]
  apply Finset.sum_congr rfl
  intro x hx
  rw [Conc.upd_ne _ _ (Finset.ne_of_mem_erase hx)]

theorem refs_new {al : Nat → Bool} {n : Nat} {vs : Nat → HStruct} {st : HStruct} :
    refs (upd al n true) (n + 1) (upd vs n st) = (st.levels : Multiset Nat) + refs al n vs := by
  unfold refs
  rw [Finset.sum_range_succ, add_comm]
  congr 1
  · rw [Conc.upd_self, Conc.upd_self]; rfl
  · apply Finset.sum_congr rfl
    intro x hx
    have : x ≠ n := (Finset.mem_range.mp hx).ne
    rw [Conc.upd_ne _ _ this, Conc.upd_ne _ _ this]

theorem mem_refs {al : Nat → Bool} {n a : Nat} {vs : Nat → HStruct} :
    a ∈ refs al n vs ↔ ∃ e < n, al e = true ∧ a ∈ (vs e).levels := by
  unfold refs
  rw [Multiset.mem_sum]
  constructor
  · rintro ⟨e, he, h⟩
    by_cases ha : al e = true
    · rw [if_pos ha] at h; exact ⟨e, Finset.mem_range.mp he, ha, h⟩
    · rw [if_neg ha] at h; simp at h
  · rintro ⟨e, he, ha, h⟩
    exact ⟨e, Finset.mem_range.mpr he, by rw [if_pos ha]; exact h⟩

/-- The job with memory does what the job on values does. -/
theorem job_spec (L : Layout) (I : ShardImpl R) (hwm : Nat) {x : RHeap R} {st : HStruct} {Ls : Multiset Nat} {m : Nat}
    (k : Rc.Keep L Ls 0 x st) (o : Own m x.h st) (v : View R) :
    match Full.job L I hwm (Snap.read x.h st) v with
    | .ok S => ∃ y u, job L I hwm x st v = .ok (y, u) ∧ Rc.Inv y ((u.levels : Multiset Nat) + Ls) 0 ∧ Res' m x.h (y.h, u) S
    | .error e => job L I hwm x st v = .error e := by
  unfold Full.job job
  cases hts : Struct.getReconstructionTasks L (Snap.read x.h st) hwm with
  | error e => rfl
  | ok ts =>
    simp only [Rc.okb]
    have s1 := Rc.sim_runTasks L I k ts
    have s2 := Snap.sim_runTasks L I o (Snap.tasks_proper hts)
    cases h1 : Snap.runTasks L I x.h st ts with
    | error e =>
      rw [h1] at s1 s2
      cases h2 : Struct.runTasks L I (Snap.read x.h st) ts with
      | error e' =>
        rw [h2] at s2
        rw [show e = e' from s2] at s1
        rw [show Rc.runTasks L I x st ts = .error e' from s1]
        rfl
      | ok S => rw [h2] at s2; exact s2.elim
    | ok p =>
      rw [h1] at s1 s2
      cases h2 : Struct.runTasks L I (Snap.read x.h st) ts with
      | error e' => rw [h2] at s2; exact s2.elim
      | ok S =>
        rw [h2] at s2
        obtain ⟨y, e, eh, j⟩ := s1
        have r : Res' m x.h p S := s2
        rw [e]
        simp only [Rc.okb]
        have s3 := Rc.sim_flushBuffer L I j v
        have s4 := Snap.sim_flushBuffer L I r.own v
        rw [r.val] at s4
        rw [eh] at s3
        cases h3 : Snap.flushBuffer L I p.1 p.2 v with
        | error e =>
          rw [h3] at s3 s4
          cases h4 : Struct.flushBuffer L I S v with
          | error e' =>
            rw [h4] at s4
            rw [show e = e' from s4] at s3
            exact s3
          | ok S => rw [h4] at s4; exact s4.elim
        | ok q =>
          rw [h3] at s3 s4
          cases h4 : Struct.flushBuffer L I S v with
          | error e' => rw [h4] at s4; exact s4.elim
          | ok S' =>
            rw [h4] at s4
            obtain ⟨z, e, eh', j'⟩ := s3
            have r' : Res' m p.1 q S' := s4
            refine ⟨z, q.2, e, j', ?_⟩
            rw [eh']
            exact r.trans r'

variable [Inhabited R] {C : Cfg R} {s s' : St R} {f : Full.St R}

/-- The state with memory stands for the state with values. -/
structure Good (s : St R) (f : Full.St R) : Prop where
  base : f.base = s.base
  val : ∀ e, s.base.alive e = true → Snap.read s.x.h (s.vs e) = f.vs e
  inv : Rc.Inv s.x (refs s.base.alive s.base.nextId s.vs) 0
  wf : WfH s.x.h
  lt : ∀ e, s.base.alive e = true → e < s.base.nextId
  nxt : ∀ e, s.base.next = some e → s.base.nextId = e + 1
  own : ∀ e, s.base.nextId = e + 1 → s.base.alive e = true →
    ∃ m, Own m s.x.h (s.vs e) ∧ ∀ e' < e, s.base.alive e' = true → ∀ a ∈ (s.vs e').levels, a < m
  pend : Conc.PreF s.base → ∀ e, s.base.next = some e → Rc.NoPend s.x.h (s.vs e).levels

/-- What a step leaves alone: pinned versions. -/
def Same (s s' : St R) : Prop :=
  s.x.h.sh <+: s'.x.h.sh ∧ ∀ e, s.base.alive e = true → 0 < s.base.H e → s'.vs e = s.vs e ∧ ∀ a ∈ (s.vs e).levels, s'.x.h.lv[a]? = s.x.h.lv[a]?

omit [Inhabited R] in
theorem Same.rfl' {x : RHeap R} {b : Conc.St} (h : x.h = s.x.h) : Same s ⟨b, x, s.vs⟩ := by
  refine ⟨?_, fun e _ _ => ⟨rfl, fun a _ => ?_⟩⟩
  · show s.x.h.sh <+: x.h.sh
    rw [h]
  · show x.h.lv[a]? = _
    rw [h]

omit [Inhabited R] in
theorem Good.mem (g : Good s f) {e a : Nat} (he : s.base.alive e = true) (ha : a ∈ (s.vs e).levels) :
    a ∈ refs s.base.alive s.base.nextId s.vs := mem_refs.mpr ⟨e, g.lt e he, he, ha⟩

/-- A step that leaves heap and epochs alone. -/
theorem Good.same (g : Good s f) {b : Conc.St} (h1 : b.alive = s.base.alive) (h2 : b.nextId = s.base.nextId)
    (h3 : b.next = s.base.next ∨ b.next = none) (h4 : Conc.PreF b → Conc.PreF s.base) : Good ⟨b, s.x, s.vs⟩ ⟨b, f.vs⟩ where
  base := rfl
  val := by rw [h1]; exact g.val
  inv := by show Rc.Inv s.x (refs b.alive b.nextId s.vs) 0; rw [h1, h2]; exact g.inv
  wf := g.wf
  lt := by show ∀ e, b.alive e = true → e < b.nextId; rw [h1, h2]; exact g.lt
  nxt := by
    show ∀ e, b.next = some e → b.nextId = e + 1
    intro e he
    rw [h2]
    rcases h3 with h | h
    · rw [h] at he; exact g.nxt e he
    · rw [h] at he; cases he
  own := by
    show ∀ e, b.nextId = e + 1 → b.alive e = true → _
    rw [h1, h2]
    exact g.own
  pend := by
    intro hp e he
    have he : b.next = some e := he
    rcases h3 with h | h
    · rw [h] at he; exact g.pend (h4 hp) e he
    · rw [h] at he; cases he

/-- Deleting an epoch. -/
theorem Good.drop (g : Good s f) {b : Conc.St} {y : Nat} (hy : s.base.alive y = true) (h1 : b.alive = upd s.base.alive y false)
    (h2 : b.nextId = s.base.nextId) (h3 : b.next = s.base.next ∨ b.next = none) (h4 : Conc.PreF b → Conc.PreF s.base) :
    ∃ x, Rc.destroy s.x (s.vs y) = .ok x ∧ x.h = s.x.h ∧ Good ⟨b, x, s.vs⟩ ⟨b, f.vs⟩ := by
  obtain ⟨x, e, eh, j⟩ := (g.inv.congr (refs_split (g.lt y hy) hy) rfl).decLs
  have hal : ∀ e, b.alive e = true → s.base.alive e = true := by
    intro e he
    rw [h1] at he
    by_cases hey : e = y
    · rw [hey]; exact hy
    · rwa [Conc.upd_ne _ _ hey] at he
  refine ⟨x, e, eh, rfl, ?_, ?_, ?_, ?_, ?_, ?_, ?_⟩
  · intro e he
    show Snap.read x.h (s.vs e) = _
    rw [eh]; exact g.val e (hal e he)
  · show Rc.Inv x (refs b.alive b.nextId s.vs) 0
    rw [h1, h2]; exact j
  · show WfH x.h
    rw [eh]; exact g.wf
  · intro e he
    show e < b.nextId
    rw [h2]; exact g.lt e (hal e he)
  · intro e he
    have he : b.next = some e := he
    show b.nextId = e + 1
    rw [h2]
    rcases h3 with h | h
    · rw [h] at he; exact g.nxt e he
    · rw [h] at he; cases he
  · intro e hn he
    have hn : b.nextId = e + 1 := hn
    rw [h2] at hn
    obtain ⟨m, o, hm⟩ := g.own e hn (hal e he)
    refine ⟨m, ?_, fun e' h he' => hm e' h (hal e' he')⟩
    show Own m x.h _
    rw [eh]; exact o
  · intro hp e he
    have he : b.next = some e := he
    show Rc.NoPend x.h _
    rw [eh]
    rcases h3 with h | h
    · rw [h] at he; exact g.pend (h4 hp) e he
    · rw [h] at he; cases he

/-- Creating the next epoch. -/
theorem Good.create (g : Good s f) {b : Conc.St} {e : Nat} (he : s.base.alive e = true) (h1 : b.alive = upd s.base.alive s.base.nextId true)
    (h2 : b.nextId = s.base.nextId + 1) (h3 : b.next = some s.base.nextId) :
    ∃ x st, Rc.copy s.x (s.vs e) = .ok (x, st) ∧ Same s ⟨b, x, upd s.vs s.base.nextId st⟩ ∧
      Good ⟨b, x, upd s.vs s.base.nextId st⟩ ⟨b, upd f.vs s.base.nextId (f.vs e).copy⟩ := by
  have s1 := Rc.sim_copy g.inv (st := s.vs e) (fun a ha => g.mem he ha)
  obtain ⟨p, e2, r⟩ := Snap.copy_spec g.wf (st := s.vs e) (fun a ha => g.inv.lvLt a (g.mem he ha))
  rw [e2] at s1
  obtain ⟨x, e1, eh, j, np⟩ := s1
  have hlt : ∀ e', s.base.alive e' = true → ∀ a ∈ (s.vs e').levels, a < s.x.h.lv.length := fun e' h a ha => g.inv.lvLt a (g.mem h ha)
  have hold : ∀ {e'}, s.base.alive e' = true → e' ≠ s.base.nextId := fun h hn => absurd (g.lt _ h) (by omega)
  have hal : ∀ {e'}, b.alive e' = true → e' ≠ s.base.nextId → s.base.alive e' = true := by
    intro e' h hn
    rwa [h1, Conc.upd_ne _ _ hn] at h
  refine ⟨x, p.2, e1, ⟨?_, ?_⟩, rfl, ?_, ?_, ?_, ?_, ?_, ?_, ?_⟩
  · show s.x.h.sh <+: x.h.sh
    rw [eh]; exact r.frame.1
  · intro e' h' _
    refine ⟨Conc.upd_ne _ _ (hold h'), fun a ha => ?_⟩
    show x.h.lv[a]? = _
    rw [eh]; exact r.frame.3 a (hlt e' h' a ha)
  · intro e' h'
    show Snap.read x.h (upd s.vs s.base.nextId p.2 e') = upd f.vs s.base.nextId (f.vs e).copy e'
    rw [eh]
    by_cases hn : e' = s.base.nextId
    · subst hn
      rw [Conc.upd_self, Conc.upd_self, r.val, g.val e he]
    · rw [Conc.upd_ne _ _ hn, Conc.upd_ne _ _ hn, Snap.read_frame g.wf r.frame (hlt e' (hal h' hn))]
      exact g.val e' (hal h' hn)
  · show Rc.Inv x (refs b.alive b.nextId _) 0
    rw [h1, h2, refs_new]
    exact j
  · show WfH x.h
    rw [eh]; exact r.own.wf
  · intro e' h'
    show e' < b.nextId
    rw [h2]
    by_cases hn : e' = s.base.nextId
    · omega
    · have := g.lt e' (hal h' hn); omega
  · intro e' h'
    have h' : b.next = some e' := h'
    rw [h3] at h'
    cases h'
    exact h2
  · intro e' hn h'
    have hn : b.nextId = e' + 1 := hn
    obtain rfl : e' = s.base.nextId := by omega
    refine ⟨s.x.h.lv.length, ?_, fun e'' hlt' h'' a ha => ?_⟩
    · show Own _ x.h (upd s.vs _ _ _)
      rw [Conc.upd_self, eh]
      exact r.own
    · have hne : e'' ≠ s.base.nextId := by omega
      have ha : a ∈ (upd s.vs s.base.nextId p.2 e'').levels := ha
      rw [Conc.upd_ne _ _ hne] at ha
      exact hlt e'' (hal h'' hne) a ha
  · intro _ e' h'
    have h' : b.next = some e' := h'
    rw [h3] at h'
    cases h'
    show Rc.NoPend x.h (upd s.vs _ _ _).levels
    rw [Conc.upd_self]
    exact np

/-- The flush. -/
theorem Good.flush (g : Good s f) {b : Conc.St} {e : Nat} (he : s.base.alive e = true) (hn : s.base.next = some e) (hH : s.base.H e = 0)
    (hp : Conc.PreF s.base) (h1 : b.alive = s.base.alive) (h2 : b.nextId = s.base.nextId) (h3 : b.next = s.base.next) (h4 : ¬ Conc.PreF b) (v : View R) :
    match Full.job C.L C.impl C.P.hwm (f.vs e) v with
    | .ok S => ∃ x st, job C.L C.impl C.P.hwm s.x (s.vs e) v = .ok (x, st) ∧ Same s ⟨b, x, upd s.vs e st⟩ ∧
        Good ⟨b, x, upd s.vs e st⟩ ⟨b, upd f.vs e S⟩
    | .error q => job C.L C.impl C.P.hwm s.x (s.vs e) v = .error q := by
  have hid := g.nxt e hn
  obtain ⟨m, o, hm⟩ := g.own e hid he
  have k : Rc.Keep C.L (refs (upd s.base.alive e false) s.base.nextId s.vs) 0 s.x (s.vs e) :=
    ⟨g.inv.congr (refs_split (g.lt e he) he) rfl, fun _ => g.pend hp e hn⟩
  have j := job_spec C.L C.impl C.P.hwm k o v
  rw [g.val e he] at j
  cases hj : Full.job C.L C.impl C.P.hwm (f.vs e) v with
  | error q => rw [hj] at j; exact j
  | ok S =>
    rw [hj] at j
    obtain ⟨x, st, ej, i, r⟩ := j
    have hlt : ∀ e', s.base.alive e' = true → e' ≠ e → ∀ a ∈ (s.vs e').levels, a < m := by
      intro e' h' hne a ha
      have := g.lt e' h'
      exact hm e' (by omega) h' a ha
    refine ⟨x, st, ej, ⟨r.frame.1, ?_⟩, rfl, ?_, ?_, r.own.wf, ?_, ?_, ?_, fun h => absurd h h4⟩
    · intro e' h' hpos
      have hne : e' ≠ e := by rintro rfl; omega
      exact ⟨Conc.upd_ne _ _ hne, fun a ha => r.frame.3 a (hlt e' h' hne a ha)⟩
    · intro e' h'
      have h' : b.alive e' = true := h'
      rw [h1] at h'
      show Snap.read x.h (upd s.vs e st e') = upd f.vs e S e'
      by_cases hne : e' = e
      · rw [hne, Conc.upd_self, Conc.upd_self]; exact r.val
      · rw [Conc.upd_ne _ _ hne, Conc.upd_ne _ _ hne, Snap.read_frame g.wf r.frame (hlt e' h' hne)]
        exact g.val e' h'
    · show Rc.Inv x (refs b.alive b.nextId (upd s.vs e st)) 0
      rw [h1, h2]
      refine i.congr ?_ rfl
      rw [refs_split (g.lt e he) he, Conc.upd_self]
      congr 1
      apply refs_congr
      intro e' _
      refine ⟨rfl, fun ha => ?_⟩
      have hne : e' ≠ e := by rintro rfl; rw [Conc.upd_self] at ha; cases ha
      rw [Conc.upd_ne _ _ hne]
    · show ∀ e, b.alive e = true → e < b.nextId
      rw [h1, h2]; exact g.lt
    · show ∀ e, b.next = some e → b.nextId = e + 1
      rw [h2, h3]; exact g.nxt
    · intro e' hn' h'
      have hn' : b.nextId = e' + 1 := hn'
      obtain rfl : e' = e := by omega
      refine ⟨m, ?_, fun e'' hl h'' a ha => ?_⟩
      · show Own m x.h (upd s.vs _ _ _)
        rw [Conc.upd_self]
        exact r.own
      · have h'' : b.alive e'' = true := h''
        rw [h1] at h''
        have hne : e'' ≠ e' := by omega
        have ha : a ∈ (upd s.vs e' st e'').levels := ha
        rw [Conc.upd_ne _ _ hne] at ha
        exact hlt e'' h'' hne a ha

/-- A step with memory does exactly what the step with values does. -/
theorem Good.step (g : Good s f) (hv : Conc.Inv C.P s.base) (i : Nat) (c : Ch) :
    match Full.step C f i c with
    | .ok none => CH.step C s i c = .ok none
    | .ok (some f') => ∃ s', CH.step C s i c = .ok (some s') ∧ Same s s' ∧ Good s' f'
    | .error e => CH.step C s i c = .error e := by
  unfold Full.step CH.step
  rw [g.base]
  cases hi : s.base.thr[i]? with
  | none => rfl
  | some t =>
    simp only
    cases hb : Conc.step C.P s.base i c with
    | error e => rfl
    | ok o =>
      cases o with
      | none => rfl
      | some b =>
        simp only [Rc.okb]
        have hs : Conc.stepT C.P s.base i t c = .ok (some b) := by
          unfold Conc.step at hb
          rw [hi] at hb
          exact hb
        rcases Conc.stepT_heap hi hs with ⟨r, e, hpc, hep, ha, h1, h2, h3⟩ | ⟨e, p, acc, hpc, hlt, ha, h1, h2, h3⟩ | ⟨e, y, hpc, ha, h1, h2, h3, h4⟩ |
          ⟨q1, q2, q3, q4, h1, h2, h3, h4⟩
        · unfold Full.structs heap
          rw [hpc, hep, g.base]
          obtain ⟨x, st, e1, h5, h6⟩ := g.create ha h1 h2 h3
          simp only [Rc.okb]
          rw [e1]
          exact ⟨_, rfl, h5, h6⟩
        · unfold Full.structs heap
          rw [hpc]
          simp only [if_neg hlt]
          have hp : Conc.PreF s.base := Or.inr ⟨t, List.mem_of_getElem? hi, by rw [hpc]; rfl⟩
          have hnx := (hv.phase hi (ph := .A1 e) (by unfold Conc.sect; rw [hpc])).2.1
          have := g.flush (C := C) ha hnx.1 hnx.2.2.2 hp h1 h2 h3 (Conc.flush_done hv hi hpc hlt hs) (Full.blockView C (t.hd.getD 0) acc)
          cases hj : Full.job C.L C.impl C.P.hwm (f.vs e) (Full.blockView C (t.hd.getD 0) acc) with
          | error q =>
            rw [hj] at this
            rw [show job _ _ _ _ _ _ = _ from this]
            rfl
          | ok S =>
            rw [hj] at this
            obtain ⟨x, st, e1, h5, h6⟩ := this
            rw [e1]
            exact ⟨_, rfl, h5, h6⟩
        · unfold Full.structs heap
          rw [hpc]
          obtain ⟨x, e1, eh, h6⟩ := g.drop ha h1 h2 (.inl h3) h4
          simp only [Rc.okb]
          rw [e1]
          exact ⟨_, rfl, Same.rfl' eh, h6⟩
        · rw [Full.structs_other q1 q2]
          have hheap : heap C s t c = .ok (s.x, s.vs) := by
            unfold heap
            split
            · rename_i h; exact absurd h (q1 _)
            · rename_i h; rw [if_pos (q2 _ _ _ h)]
            · rename_i h; exact absurd h (q3 _ _)
            · rename_i h
              split
              · rename_i e he
                obtain ⟨ps, e1, -⟩ := Rc.visit_spec g.inv (as := (s.vs e).levels) (fun a ha => g.mem (q4 h rfl e he) ha)
                rw [e1]; rfl
              · rfl
            · rfl
          rw [hheap]
          exact ⟨_, rfl, Same.rfl' rfl, g.same h1 h2 h3 h4⟩

theorem good_init (C : Cfg R) (n : Nat) : Good (init C n) (Full.init C n) where
  base := rfl
  val := fun e _ => rfl
  inv := by
    refine ⟨fun a => ?_, fun a ha => ?_, fun a => ?_, fun a ha => ?_, fun l hl => ?_⟩
    · simp [init, refs, Conc.init]
    · simp [init, refs, Conc.init] at ha
    · simp [init, Rc.held]
    · simp [init, Rc.held] at ha
    · simp [init] at hl
  wf := by intro a l hl; simp [init] at hl
  lt := by intro e he; simp [init, Conc.init] at he ⊢; omega
  nxt := by intro e he; simp [init, Conc.init] at he
  own := by
    intro e hn _
    refine ⟨0, ⟨?_, Nat.zero_le _, ?_, ?_⟩, ?_⟩
    · intro a l hl; simp [init] at hl
    · intro a ha; simp [init] at ha
    · intro a b c ha; simp [init] at ha
    · intro e' _ _ a ha; simp [init] at ha
  pend := by intro _ e he; simp [init, Conc.init] at he

/-- Unfolding a step. -/
theorem step_base {i : Nat} {c : Ch} (h : step C s i c = .ok (some s')) : Conc.step C.P s.base i c = .ok (some s'.base) := by
  unfold step at h
  split at h
  · cases h
  · rw [DE.bind_ok] at h
    obtain ⟨o, h1, h2⟩ := h
    cases o with
    | none => cases h2
    | some b =>
      simp only [DE.bind_ok] at h2
      obtain ⟨p, -, h4⟩ := h2
      cases h4
      exact h1

theorem Reach.base {n : Nat} (h : Reach C n s) : Conc.Reach C.P n Conc.any s.base := by
  induction h with
  | init => exact .init
  | step _ hs ih => exact .step ih trivial (step_base hs)

/-- Every execution with memory is an execution with values. -/
theorem Reach.good {n : Nat} (hw : 0 < C.P.hwm) (h : Reach C n s) : ∃ f, Full.Reach C n Conc.any f ∧ Good s f := by
  induction h with
  | init => exact ⟨_, .init, good_init C n⟩
  | @step s s' i c hr hs ih =>
    obtain ⟨f, hf, g⟩ := ih
    have := g.step (hr.base.inv hw) i c
    cases hfs : Full.step C f i c with
    | error e => rw [hfs] at this; rw [this] at hs; cases hs
    | ok o =>
      cases o with
      | none => rw [hfs] at this; rw [this] at hs; cases hs
      | some f' =>
        rw [hfs] at this
        obtain ⟨s'', e, -, g'⟩ := this
        rw [hs] at e
        cases e
        exact ⟨f', .step hf trivial hfs, g'⟩

end DE.CH
