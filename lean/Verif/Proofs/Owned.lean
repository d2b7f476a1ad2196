import Verif.Model.Teardown
import Verif.Proofs.ConcRun

/-!
Who owns the epochs: every live epoch is in one of the three epoch pointers or in the hands of the thread that runs the transition.
-/

namespace DE.Conc
variable {P : Par} {s s' : St} {i : Nat} {t : Th} {c : Ch}

/-- The epoch a thread has taken out of the shared pointers. -/
def Carries (t : Th) (e : Nat) : Prop := (∃ x, t.pc = .rt3 x e) ∨ ∃ x c, t.pc = .ad5 x c ∧ c.ep = some e

/-- Every live epoch is somewhere. -/
def Owned (s : St) : Prop := ∀ e, s.alive e = true → s.cur.ep = some e ∨ s.prev.ep = some e ∨ s.next = some e ∨ ∃ t ∈ s.thr, Carries t e

theorem wake_carries {t : Th} {e : Nat} (h : Carries t e) : Carries (wake t) e := by
  unfold wake
  split
  · rename_i h4
    rcases h with ⟨x, h⟩ | ⟨x, c, h, -⟩ <;> (rw [h4] at h; cases h)
  · exact h

theorem mem_set_ne {α : Type} {l : List α} {i : Nat} {a b u : α} (hi : l[i]? = some a) (hu : u ∈ l) (hne : u ≠ a) : u ∈ l.set i b := by
  obtain ⟨j, hj⟩ := List.mem_iff_getElem?.mp hu
  refine List.mem_iff_getElem?.mpr ⟨j, ?_⟩
  rw [List.getElem?_set]
  split
  · rename_i h; subst h; rw [hi] at hj; cases hj; exact absurd rfl hne
  · exact hj

theorem mem_set_self {α : Type} {l : List α} {i : Nat} {a b : α} (hi : l[i]? = some a) : b ∈ l.set i b :=
  List.mem_iff_getElem?.mpr ⟨i, List.getElem?_set_self (List.getElem?_eq_some_iff.mp hi).1⟩

/-- Steps that touch no epoch pointer. -/
theorem Owned.keep (h : Owned s) (hi : s.thr[i]? = some t) {a : St} {t' : Th} (h1 : a.cur.ep = s.cur.ep) (h2 : a.prev.ep = s.prev.ep)
    (h3 : a.next = s.next) (h4 : a.alive = s.alive) (h5 : a.thr = s.thr ∨ a.thr = s.thr.map wake) (hc : ∀ e, ¬ Carries t e) : Owned (a.setT i t') := by
  intro e he
  have he : s.alive e = true := h4 ▸ he
  show a.cur.ep = some e ∨ a.prev.ep = some e ∨ a.next = some e ∨ ∃ t ∈ a.thr.set i t', Carries t e
  rw [h1, h2, h3]
  refine (h e he).imp id (Or.imp id (Or.imp id ?_))
  rintro ⟨u, hu, hcu⟩
  have hne : u ≠ t := fun h => hc e (h ▸ hcu)
  rcases h5 with h5 | h5
  · rw [h5]; exact ⟨u, mem_set_ne hi hu hne, hcu⟩
  · rw [h5]
    by_cases hw : t.pc = .aw4
    · refine ⟨wake u, mem_set_ne (a := wake t) (by rw [List.getElem?_map, hi]; rfl) (List.mem_map_of_mem hu) ?_, wake_carries hcu⟩
      intro hx
      have h6 := wake_carries hcu
      rw [hx] at h6
      unfold wake at h6
      rw [if_pos hw] at h6
      rcases h6 with ⟨x, h⟩ | ⟨x, c, h, -⟩ <;> cases h
    · refine ⟨wake u, mem_set_ne (a := wake t) (by rw [List.getElem?_map, hi]; rfl) (List.mem_map_of_mem hu) ?_, wake_carries hcu⟩
      intro hx
      have h6 := wake_carries hcu
      rw [hx] at h6
      unfold wake at h6
      rw [if_neg hw] at h6
      exact hc e h6

theorem Owned.step (h : Owned s) (hv : Inv P s) (hi : s.thr[i]? = some t) (hs : stepT P s i t c = .ok (some s')) : Owned s' := by
  have hcore : ∀ ph, sect t = some ph → Core P s.sv ph := fun ph hp => hv.core ph (.inr (.inr ⟨t, List.mem_of_getElem? hi, hp⟩))
  have hloc := hv.loc t (List.mem_of_getElem? hi)
  have key : ∀ {a : St} {t' : Th}, (.ok (some (a.setT i t')) : Out) = .ok (some s') → a.cur.ep = s.cur.ep → a.prev.ep = s.prev.ep →
      a.next = s.next → a.alive = s.alive → (a.thr = s.thr ∨ a.thr = s.thr.map wake) → (∀ e, ¬ Carries t e) → Owned s' := by
    intro a t' h0 h1 h2 h3 h4 h5 h6
    have := ok_inj h0; subst this
    exact h.keep hi h1 h2 h3 h4 h5 h6
  -- steps that do: the moved thread's epoch has to be found again
  have move : ∀ {a : St} {t' : Th}, (.ok (some (a.setT i t')) : Out) = .ok (some s') → a.thr = s.thr →
      (∀ e, a.alive e = true → (s.alive e = true ∧
        (s.cur.ep = some e ∨ s.prev.ep = some e ∨ s.next = some e ∨ Carries t e →
          a.cur.ep = some e ∨ a.prev.ep = some e ∨ a.next = some e ∨ Carries t' e)) ∨ a.next = some e) → Owned s' := by
    intro a t' h0 h1 h2
    have := ok_inj h0; subst this
    intro e he
    show a.cur.ep = some e ∨ a.prev.ep = some e ∨ a.next = some e ∨ ∃ t ∈ a.thr.set i t', Carries t e
    rw [h1]
    rcases h2 e he with ⟨h3, h4⟩ | h3
    · have h5 : (a.cur.ep = some e ∨ a.prev.ep = some e ∨ a.next = some e ∨ Carries t' e) →
          a.cur.ep = some e ∨ a.prev.ep = some e ∨ a.next = some e ∨ ∃ u ∈ s.thr.set i t', Carries u e :=
        Or.imp id (Or.imp id (Or.imp id (fun h => ⟨t', mem_set_self hi, h⟩)))
      rcases h e h3 with h6 | h6 | h6 | ⟨u, hu, h6⟩
      · exact h5 (h4 (.inl h6))
      · exact h5 (h4 (.inr (.inl h6)))
      · exact h5 (h4 (.inr (.inr (.inl h6))))
      · by_cases hut : u = t
        · subst hut; exact h5 (h4 (.inr (.inr (.inr h6))))
        · exact .inr (.inr (.inr ⟨u, mem_set_ne hi hu hut, h6⟩))
    · exact .inr (.inr (.inl h3))
  obtain ⟨pc, ep, hd, tl⟩ := t
  cases pc
  case crC r =>
    simp only [stepT] at hs
    split at hs
    · split at hs
      · refine move hs rfl ?_
        intro e he
        by_cases hx : e = s.nextId
        · exact .inr (by rw [hx])
        · refine .inl ⟨by simpa [upd, hx] using he, ?_⟩
          have hn : s.next = none := (hcore (.Cr _) rfl).2.1
          rintro (h | h | h | h)
          · exact .inl h
          · exact .inr (.inl h)
          · rw [hn] at h; cases h
          · rcases h with ⟨x, h⟩ | ⟨x, c, h, -⟩ <;> cases h
      · cases hs
    · cases hs
  case rt2 e x old =>
    simp only [stepT] at hs
    have ho : old = ⟨some x, 0⟩ := hloc.1.2
    split at hs
    · rename_i hp
      refine move hs rfl ?_
      intro y hy
      refine .inl ⟨hy, ?_⟩
      rintro (h | h | h | h)
      · exact .inl h
      · rw [hp, ho] at h; cases h
        exact .inr (.inr (.inr (.inl ⟨e, rfl⟩)))
      · exact .inr (.inr (.inl h))
      · rcases h with ⟨x, h⟩ | ⟨x, c, h, -⟩ <;> cases h
    · refine key hs rfl rfl rfl rfl (.inl rfl) ?_
      rintro y (⟨x, h⟩ | ⟨x, c, h, -⟩) <;> cases h
  case rt3 e x =>
    simp only [stepT] at hs
    split at hs
    case isFalse => cases hs
    refine move hs rfl ?_
    intro y hy
    by_cases hx : y = x
    · subst hx; simp [upd] at hy
    · refine .inl ⟨by simpa [upd, hx] using hy, ?_⟩
      rintro (h | h | h | h)
      · exact .inl h
      · exact .inr (.inl h)
      · exact .inr (.inr (.inl h))
      · rcases h with ⟨z, h⟩ | ⟨z, c, h, -⟩
        · cases h; exact absurd rfl hx
        · cases h
  case ad4 e c =>
    simp only [stepT] at hs
    split at hs
    · rename_i hp
      refine move hs rfl ?_
      intro y hy
      refine .inl ⟨hy, ?_⟩
      rintro (h | h | h | h)
      · exact .inr (.inr (.inr (.inr ⟨e, c, rfl, hp ▸ h⟩)))
      · exact .inr (.inl h)
      · exact .inr (.inr (.inl h))
      · rcases h with ⟨x, h⟩ | ⟨x, c, h, -⟩ <;> cases h
    · refine key hs rfl rfl rfl rfl (.inl rfl) ?_
      rintro y (⟨x, h⟩ | ⟨x, c, h, -⟩) <;> cases h
  case ad5 e c =>
    simp only [stepT] at hs
    have hp : s.prev = ⟨none, 0⟩ := (hcore (.B e c) rfl).2.1
    refine move hs rfl ?_
    intro y hy
    refine .inl ⟨hy, ?_⟩
    rintro (h | h | h | h)
    · exact .inl h
    · rw [hp] at h; cases h
    · exact .inr (.inr (.inl h))
    · rcases h with ⟨x, h⟩ | ⟨x, c', h, h2⟩
      · cases h
      · cases h; exact .inr (.inl h2)
  case ad12 e =>
    simp only [stepT] at hs
    obtain ⟨e1, ht, -⟩ := hcore (.D e tl) rfl
    have hp : s.cur = ⟨none, 0⟩ := ht.1
    refine move hs rfl ?_
    intro y hy
    refine .inl ⟨hy, ?_⟩
    rintro (h | h | h | h)
    · rw [hp] at h; cases h
    · exact .inr (.inl h)
    · exact .inl h
    · rcases h with ⟨x, h⟩ | ⟨x, c, h, -⟩ <;> cases h
  case ad13 =>
    simp only [stepT] at hs
    have hp : s.next = s.cur.ep := (hcore .A2 rfl).2
    refine move hs rfl ?_
    intro y hy
    refine .inl ⟨hy, ?_⟩
    rintro (h | h | h | h)
    · exact .inl h
    · exact .inr (.inl h)
    · exact .inl (hp ▸ h)
    · rcases h with ⟨x, h⟩ | ⟨x, c, h, -⟩ <;> cases h
  all_goals
    simp only [stepT] at hs
    repeat' split at hs
  all_goals first
    | exact key hs rfl rfl rfl rfl (.inl rfl) (by rintro y (⟨x, h⟩ | ⟨x, c, h, -⟩) <;> cases h)
    | exact key hs rfl rfl rfl rfl (.inr rfl) (by rintro y (⟨x, h⟩ | ⟨x, c, h, -⟩) <;> cases h)
    | (rename_i hp; exact key hs (by rw [hp]) rfl rfl rfl (.inl rfl) (by rintro y (⟨x, h⟩ | ⟨x, c, h, -⟩) <;> cases h))
    | (rename_i hp; exact key hs rfl (by rw [hp]) rfl rfl (.inl rfl) (by rintro y (⟨x, h⟩ | ⟨x, c, h, -⟩) <;> cases h))
    | exact absurd hs (by simp)

theorem Reach.owned {n : Nat} {ok : St → Nat → Prop} (hw : 0 < P.hwm) (h : Reach P n ok s) : Owned s := by
  induction h with
  | init =>
    intro e he
    have : e = 0 := by simpa [Conc.init] using he
    exact .inl (by rw [this]; rfl)
  | @step s s' i c hr _ hs ih =>
    unfold Conc.step at hs
    split at hs
    case h_2 => cases hs
    rename_i t hi
    exact ih.step (hr.inv hw) hi hs

end DE.Conc
