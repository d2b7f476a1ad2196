import Verif.Proofs.ConcData
import Verif.Proofs.ConcStuck

/-!
Executing concrete schedules, and the relation between the view and the epoch of a query.
-/

namespace DE.Conc
variable {P : Par} {s s' : St} {i : Nat} {t : Th} {c : Ch}

/-! ### Schedules -/

/-- Decision procedure for `tidy`. -/
def tidyB (s : St) (i : Nat) : Bool :=
  match s.thr[i]? with
  | some t =>
    match t.pc with
    | .cp _ p _ => decide (t.tl ≤ p) || s.done.any (fun x => x.1 == p)
    | _ => true
  | none => true

theorem tidyB_sound (h : tidyB s i = true) : tidy s i := by
  intro t e p acc hi hpc hp
  unfold tidyB at h
  rw [hi] at h
  simp only [hpc] at h
  rw [Bool.or_eq_true, decide_eq_true_eq] at h
  rcases h with h | h
  · omega
  · rw [List.any_eq_true] at h
    obtain ⟨⟨q, r⟩, hm, hq⟩ := h
    have : q = p := by simpa using hq
    subst this
    exact ⟨r, hm⟩

/-- Execute a schedule, giving up at a step that is not allowed. -/
def run (P : Par) (ok : St → Nat → Bool) : List (Nat × Ch) → St → Option St
  | [], s => some s
  | (i, c) :: l, s =>
    match ok s i, step P s i c with
    | true, .ok (some s') => run P ok l s'
    | _, _ => none

theorem Reach.run {n : Nat} {ok : St → Nat → Prop} {okB : St → Nat → Bool} (hok : ∀ s i, okB s i = true → ok s i)
    (l : List (Nat × Ch)) (h : Reach P n ok s) (hr : run P okB l s = some s') : Reach P n ok s' := by
  induction l generalizing s with
  | nil => cases hr; exact h
  | cons x l ih =>
    obtain ⟨i, c⟩ := x
    unfold Conc.run at hr
    split at hr
    · rename_i s1 h1 h2
      exact ih (h.step (hok _ _ h1) h2) hr
    · cases hr

/-- A state satisfying a test is reached by a schedule. -/
theorem reach_of {n : Nat} {ok : St → Nat → Prop} (okB : St → Nat → Bool) (hok : ∀ s i, okB s i = true → ok s i)
    (l : List (Nat × Ch)) (q : St → Bool) (h : (Conc.run P okB l (init P n)).any q = true) :
    ∃ s, Reach P n ok s ∧ q s = true := by
  cases hr : Conc.run P okB l (init P n) with
  | none => rw [hr] at h; cases h
  | some s =>
    rw [hr] at h
    exact ⟨s, Reach.run hok l .init hr, h⟩

/-! ### View and epoch -/

/-- The epochs pinned by a thread keep their head. -/
theorem step_ehead (hI : Inv P s) (hi : s.thr[i]? = some t) (hs : stepT P s i t c = .ok (some s')) {e : Nat} (he : 0 < s.H e) :
    s'.ehead e = s.ehead e := by
  obtain ⟨ph, hph⟩ := hI.some_phase
  have hlt : e < s.nextId := ((hI.core ph hph).alive he).2
  have key : ∀ {a : St} {t' : Th}, (.ok (some (a.setT i t')) : Out) = .ok (some s') → a.ehead e = s.ehead e → s'.ehead e = s.ehead e := by
    intro a t' h a1
    have := ok_inj h; subst this
    exact a1
  obtain ⟨pc, ep, hd, tl⟩ := t
  cases pc
  case crC =>
    simp only [stepT] at hs
    repeat' split at hs
    all_goals first
      | exact key hs (upd_ne _ _ (ne_of_lt hlt))
      | exact absurd hs (by simp)
  case ad6 x =>
    obtain ⟨e1, hT, _⟩ : Core P s.sv (.C x tl 0) := hI.phase hi rfl
    obtain ⟨_, _, _, _, hN, _, _, hH⟩ := hT
    have hN : s.next = some x := hN
    have hH : s.H x = 0 := hH
    simp only [stepT] at hs
    rw [hN] at hs
    simp only at hs
    split at hs
    · exact key hs (upd_ne _ _ (by rintro rfl; omega))
    · exact absurd hs (by simp)
  all_goals
    simp only [stepT] at hs
    repeat' split at hs
  all_goals first
    | exact key hs rfl
    | exact absurd hs (by simp)

/-- The view of a job starts at the head of its epoch. -/
def VwOk (s : St) (t : Th) : Prop := ∀ e h, t.ep = some e → t.hd = some h → s.ehead e = h

theorem VwOk.step (hI : Inv P s) (hv : ∀ (j : Nat) (t : Th), s.thr[j]? = some t → VwOk s t) (hs : Conc.step P s i c = .ok (some s')) :
    ∀ (j : Nat) (t : Th), s'.thr[j]? = some t → VwOk s' t := by
  unfold Conc.step at hs
  split at hs
  case h_2 => cases hs
  rename_i t hi
  have hlt : i < s.thr.length := (List.getElem?_eq_some_iff.mp hi).1
  intro j u hu
  by_cases hj : j = i
  · subst hj
    have hloc := (hI.thread hi).1
    have heh : ∀ {e}, t.ep = some e → s'.ehead e = s.ehead e := fun he => step_ehead hI hi hs (H_pos hi he)
    have own : ∃ u', s'.thr[j]? = some u' ∧ VwOk s' u' := by
      have key : ∀ {a : St} {t' : Th}, (.ok (some (a.setT j t')) : Out) = .ok (some s') → j < a.thr.length →
          (t'.ep = none ∨ t'.hd = none ∨ (t'.ep = t.ep ∧ ∀ e h, t.ep = some e → t'.hd = some h → s.ehead e = h)) →
          ∃ u', s'.thr[j]? = some u' ∧ VwOk s' u' := by
        intro a t' h a1 a2
        have := ok_inj h; subst this
        refine ⟨t', List.getElem?_set_self a1, fun e h he hh => ?_⟩
        rcases a2 with a2 | a2 | ⟨a2, a3⟩
        · rw [a2] at he; cases he
        · rw [a2] at hh; cases hh
        · rw [a2] at he
          exact (heh he).trans (a3 e h he hh)
      have hvt : ∀ e h, t.ep = some e → t.hd = some h → s.ehead e = h := hv j t hi
      clear heh
      obtain ⟨pc, ep, hd, tl⟩ := t
      cases pc
      case gaP3 k o =>
        obtain ⟨l1, _⟩ : Free _ ∧ _ := hloc
        simp only [stepT] at hs
        split at hs
        · exact key hs hlt (.inr (.inl l1.2))
        · exact key hs hlt (.inl l1.1)
      case gaC3 k o =>
        obtain ⟨l1, _⟩ : Free _ ∧ _ := hloc
        simp only [stepT] at hs
        split at hs
        · exact key hs hlt (.inr (.inl l1.2))
        · exact key hs hlt (.inl l1.1)
      case ghO3 k g o =>
        obtain ⟨_, l2, l3⟩ : hd = none ∧ ((k = .client ∧ ∃ e, ep = some e ∧ s.ehead e = g) ∨ (∃ e, k = .job e) ∧ ep = none) ∧ o.idx = g := hloc
        simp only [stepT] at hs
        split at hs
        · refine key hs hlt ?_
          rcases l2 with ⟨_, e, h1, h2⟩ | ⟨_, h1⟩
          · refine .inr (.inr ⟨rfl, fun e' h he hh => ?_⟩)
            have he : ep = some e' := he
            rw [h1] at he; cases he; cases hh; exact h2.trans l3.symm
          · exact .inl h1
        · exact key hs hlt (.inr (.inr ⟨rfl, hvt⟩))
      case ghH3 k g o =>
        obtain ⟨_, l2, l3⟩ : hd = none ∧ ((k = .client ∧ ∃ e, ep = some e ∧ s.ehead e = g) ∨ (∃ e, k = .job e) ∧ ep = none) ∧ o.idx = g := hloc
        simp only [stepT] at hs
        split at hs
        · refine key hs hlt ?_
          rcases l2 with ⟨_, e, h1, h2⟩ | ⟨_, h1⟩
          · refine .inr (.inr ⟨rfl, fun e' h he hh => ?_⟩)
            have he : ep = some e' := he
            rw [h1] at he; cases he; cases hh; exact h2.trans l3.symm
          · exact .inl h1
        · exact key hs hlt (.inr (.inr ⟨rfl, hvt⟩))
      case ejP3 k o =>
        simp only [stepT] at hs
        split at hs
        · exact key hs hlt (.inl rfl)
        · exact key hs hlt (.inr (.inr ⟨rfl, hvt⟩))
      case ejC3 k o =>
        simp only [stepT] at hs
        split at hs
        · exact key hs hlt (.inl rfl)
        · exact key hs hlt (.inr (.inr ⟨rfl, hvt⟩))
      case rlO3 k o =>
        simp only [stepT] at hs
        split at hs
        · exact key hs hlt (.inr (.inl rfl))
        · exact key hs hlt (.inr (.inr ⟨rfl, hvt⟩))
      case rlH3 k o =>
        simp only [stepT] at hs
        split at hs
        · exact key hs hlt (.inr (.inl rfl))
        · exact key hs hlt (.inr (.inr ⟨rfl, hvt⟩))
      case ad15 =>
        simp only [stepT] at hs
        exact key hs (by simpa using hlt) (.inr (.inr ⟨rfl, hvt⟩))
      all_goals
        simp only [stepT] at hs
        repeat' split at hs
      all_goals first
        | exact key hs hlt (.inr (.inr ⟨rfl, hvt⟩))
        | exact absurd hs (by simp)
    obtain ⟨u', h1, h2⟩ := own
    rw [h1] at hu; cases hu; exact h2
  · have mono : ∀ w, s.thr[j]? = some w → VwOk s' w := fun w hw e h he hh =>
      (step_ehead hI hi hs (H_pos hw he)).trans (hv j w hw e h he hh)
    rcases step_others hs hj with e | e
    · exact mono u (e ▸ hu)
    · rw [e, Option.map_eq_some_iff] at hu
      obtain ⟨w, hw, rfl⟩ := hu
      intro e h he hh
      have h1 : (wake w).ep = w.ep := by unfold wake; split <;> rfl
      have h2 : (wake w).hd = w.hd := by unfold wake; split <;> rfl
      rw [h1] at he; rw [h2] at hh
      exact mono w hw e h he hh

theorem Reach.view {n : Nat} {ok : St → Nat → Prop} (hw : 0 < P.hwm) (h : Reach P n ok s) :
    ∀ (j : Nat) (t : Th), s.thr[j]? = some t → VwOk s t := by
  induction h with
  | init =>
    intro j t ht e h he
    rw [(List.mem_replicate.mp (List.mem_of_getElem? ht)).2] at he; cases he
  | step hr _ hs ih => exact VwOk.step (hr.inv hw) ih hs

/-- A pinned epoch is the current or the previous one, or (for a moment) in the hands of the reconstruction. -/
theorem Inv.pinned_str (hI : Inv P s) {A : Prop} (hD : Dat A P s) (hi : s.thr[i]? = some t) {e : Nat} (he : t.ep = some e) :
    Fl A s e (s.ehead e) := by
  obtain ⟨ph, hph⟩ := hI.some_phase
  have hc := hI.core ph hph
  have hpos := H_pos hi he
  have two : EpS s.sv s.prev s.cur → Fl A s e (s.ehead e) := fun h => hD.str e (h.held hpos).1.symm
  have one : EpS s.sv ⟨none, 0⟩ s.prev → Fl A s e (s.ehead e) := fun h =>
    (h.held hpos).1.elim (fun h => by cases h) (fun h => hD.str e (.inr h))
  cases ph with
  | A => exact two hc.1.1
  | Cr => exact two hc.1.1
  | N => exact two hc.1.1
  | A1 => exact two hc.1.1
  | G => exact two hc.1.1
  | R => exact two hc.1.1
  | B e0 c =>
    have hh := (hc.2.2.2.1.held hpos).1.elim (fun h => by cases h) id
    rcases hph with ⟨_, h⟩ | ⟨_, _, h⟩ | ⟨u, hu, hs⟩
    · cases h
    · cases h
    · obtain ⟨j, hj⟩ := List.getElem?_of_mem hu
      have hd := hD.locd j u hj
      obtain ⟨pc, ep, hdx, tl⟩ := u
      cases pc
      case ad5 => cases hs; exact hd.2 e hh
      all_goals first
        | cases hs
        | (rename_i k; cases k <;> cases hs)
        | (rename_i k _; cases k <;> cases hs)
        | (rename_i k _ _; cases k <;> cases hs)
  | C => obtain ⟨_, h, _⟩ := hc; exact one h.2.1
  | W => obtain ⟨_, h, _⟩ := hc; exact one h.2.1
  | D => obtain ⟨_, h, _⟩ := hc; exact one h.2.1
  | A2 => exact two hc.1.1

end DE.Conc
