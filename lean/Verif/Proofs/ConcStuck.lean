import Verif.Proofs.ConcHist

/-!
What happens after a reference count has been decremented on the wrong object.
-/

namespace DE.Conc
variable {P : Par} {s s' : St} {i : Nat} {t : Th} {c : Ch}

/-- States reachable from `s`. -/
inductive From (P : Par) (s : St) : St → Prop
  | refl : From P s s
  | step {a b : St} {i : Nat} {c : Ch} : From P s a → Conc.step P a i c = .ok (some b) → From P s b

theorem From.inv (hI : Inv P s) (h : From P s s') : Inv P s' := by
  induction h with
  | refl => exact hI
  | step _ hs ih => exact ih.step hs

/-! ### Heads -/

theorem V_wake (s : St) : ({ s with thr := s.thr.map wake } : St).V = s.V := congrArg Sv.V (sv_wake s)
theorem H_wake (s : St) : ({ s with thr := s.thr.map wake } : St).H = s.H := congrArg Sv.H (sv_wake s)

theorem same_V {t' : Th} (hi : s.thr[i]? = some t) (ht : t'.hd = t.hd) (h : s.V s.old.idx < s.old.ref) :
    (s.setT i t').V (s.setT i t').old.idx < (s.setT i t').old.ref := by
  rw [V_set_same hi ht]; exact h

theorem same_H {t' : Th} {e : Nat} (hi : s.thr[i]? = some t) (ht : t'.ep = t.ep) (h : s.H e < s.prev.ref) :
    (s.setT i t').H e < (s.setT i t').prev.ref := by
  rw [H_set_same hi ht]; exact h

/-- The steps that do not touch the old head nor the views. -/
theorem step_views (hi : s.thr[i]? = some t) (hs : stepT P s i t c = .ok (some s'))
    (h1 : ∀ k g o, t.pc ≠ .ghO3 k g o) (h2 : ∀ k g o, t.pc ≠ .ghH3 k g o) (h3 : ∀ k o, t.pc ≠ .rlO3 k o)
    (h4 : ∀ k o, t.pc ≠ .rlH3 k o) (h5 : ∀ e o, t.pc ≠ .ad11 e o) : s'.old = s.old ∧ s'.V = s.V := by
  obtain ⟨pc, ep, hd, tl⟩ := t
  have key : ∀ {a : St} {t' : Th}, (.ok (some (a.setT i t')) : Out) = .ok (some s') → a.old = s.old → a.thr = s.thr → t'.hd = hd →
      s'.old = s.old ∧ s'.V = s.V := by
    intro a t' h a1 a2 a3
    have := ok_inj h; subst this
    refine ⟨a1, ?_⟩
    rw [V_set_same (s := a) (by rw [a2]; exact hi) a3]
    unfold St.V; rw [a2]
  cases pc <;> simp only [stepT] at hs
  case ghO3 => exact absurd rfl (h1 _ _ _)
  case ghH3 => exact absurd rfl (h2 _ _ _)
  case rlO3 => exact absurd rfl (h3 _ _)
  case rlH3 => exact absurd rfl (h4 _ _)
  case ad11 => exact absurd rfl (h5 _ _)
  case ad15 =>
    have := ok_inj hs; subst this
    refine ⟨rfl, ?_⟩
    have hi' : ({ s with thr := s.thr.map wake } : St).thr[i]? = some ⟨.ad15, ep, hd, tl⟩ := by
      show (s.thr.map wake)[i]? = _
      rw [List.getElem?_map, hi]
      exact congrArg some (wake_of_ne (by simp))
    exact (V_set_same (t' := ⟨.ad16, ep, hd, tl⟩) hi' rfl).trans (V_wake s)
  all_goals
    repeat' split at hs
  all_goals first
    | exact key hs rfl rfl rfl
    | exact absurd hs (by simp)

/-- The old head is counted higher than it is pinned. -/
def StuckB (s : St) : Prop := s.V s.old.idx < s.old.ref

theorem StuckB.step (h : StuckB s) (hI : Inv P s) (hs : Conc.step P s i c = .ok (some s')) :
    StuckB s' ∧ s'.head.idx = s.head.idx := by
  have hs0 := hs
  unfold Conc.step at hs
  split at hs
  case h_2 => cases hs
  rename_i t hi
  have hloc := hI.thread hi
  obtain ⟨ph, hph⟩ := hI.some_phase
  have hc := hI.core ph hph
  have hhead : s'.head.idx = s.head.idx := by
    by_cases h10 : ∃ e o, t.pc = .ad10 e o
    · obtain ⟨e, o, h10⟩ := h10
      have hsec : sect t = some (.C e t.tl 3) := by unfold sect; rw [h10]
      obtain ⟨_, _, _, _, _, _, h5⟩ := hI.phase hi hsec
      have : s.old.ref = 0 := h5 (le_refl _)
      unfold StuckB at h; omega
    · push Not at h10
      exact step_head hs h10
  refine ⟨?_, hhead⟩
  unfold StuckB at h ⊢
  by_cases hv : (∃ k g o, t.pc = .ghO3 k g o) ∨ (∃ k g o, t.pc = .ghH3 k g o) ∨ (∃ k o, t.pc = .rlO3 k o) ∨ (∃ k o, t.pc = .rlH3 k o) ∨
      (∃ e o, t.pc = .ad11 e o)
  · obtain ⟨pc, ep, hd, tl⟩ := t
    rcases hv with ⟨k, g, o, hp⟩ | ⟨k, g, o, hp⟩ | ⟨k, o, hp⟩ | ⟨k, o, hp⟩ | ⟨e, o, hp⟩
    · simp only at hp; subst hp
      obtain ⟨l1, _⟩ : hd = none ∧ _ := hloc.1
      subst l1
      simp only [stepT] at hs
      split at hs
      · rename_i hp
        have := ok_inj hs; subst this
        subst hp
        have hV : ({ s with old := ⟨s.old.idx, s.old.ref + 1⟩ }.setT i ⟨.gt k, ep, some s.old.idx, tl⟩).V = upd s.V s.old.idx (s.V s.old.idx + 1) :=
          V_set_pin (s := { s with old := ⟨s.old.idx, s.old.ref + 1⟩ }) hi rfl rfl
        rw [hV]
        show upd s.V s.old.idx (s.V s.old.idx + 1) s.old.idx < s.old.ref + 1
        rw [upd_self]; omega
      · have := ok_inj hs; subst this
        exact same_V hi rfl h
    · simp only at hp; subst hp
      obtain ⟨l1, l2, l3⟩ : hd = none ∧ _ ∧ o.idx = g := hloc.1
      subst l1
      simp only [stepT] at hs
      split at hs
      · rename_i hp
        have := ok_inj hs; subst this
        subst hp
        have hV : ({ s with head := ⟨s.head.idx, s.head.ref + 1⟩ }.setT i ⟨.gt k, ep, some s.head.idx, tl⟩).V = upd s.V s.head.idx (s.V s.head.idx + 1) :=
          V_set_pin (s := { s with head := ⟨s.head.idx, s.head.ref + 1⟩ }) hi rfl rfl
        rw [hV]
        show upd s.V s.head.idx (s.V s.head.idx + 1) s.old.idx < s.old.ref
        have hne : s.old.idx ≠ s.head.idx := by
          cases ph with
          | A => exact hc.1.2.1.1
          | Cr => exact hc.1.2.1.1
          | N => exact hc.1.2.1.1
          | A1 => exact hc.1.2.1.1
          | G => exact hc.1.2.1.1
          | R => exact hc.1.2.1.1
          | B => exact hc.2.2.2.2.2.1.1
          | C => obtain ⟨_, _, _, b, _⟩ := hc; exact b.1
          | W =>
            obtain ⟨_, _, _, _, _, _, h5, _⟩ := hc
            have : s.old.ref = 0 := h5
            omega
          | D => obtain ⟨_, _, _, b, _⟩ := hc; exact b.1
          | A2 => exact hc.1.2.1.1
        rw [upd_ne _ _ hne]; exact h
      · have := ok_inj hs; subst this
        exact same_V hi rfl h
    · simp only at hp; subst hp
      obtain ⟨l1, l2, l3, l4⟩ : hd = some s.old.idx ∧ _ ∧ o.idx = s.old.idx ∧ 0 < o.ref := hloc.1
      subst l1
      have hpos := V_pos hi (e := s.old.idx) rfl
      simp only [stepT] at hs
      split at hs
      · rename_i hp
        have := ok_inj hs; subst this
        subst hp
        have hV : ({ s with old := ⟨s.old.idx, s.old.ref - 1⟩ }.setT i ⟨rlRet k, ep, none, tl⟩).V = upd s.V s.old.idx (s.V s.old.idx - 1) :=
          V_set_unpin (s := { s with old := ⟨s.old.idx, s.old.ref - 1⟩ }) hi rfl rfl
        rw [hV]
        show upd s.V s.old.idx (s.V s.old.idx - 1) s.old.idx < s.old.ref - 1
        rw [upd_self]; omega
      · have := ok_inj hs; subst this
        exact same_V hi rfl h
    · simp only at hp; subst hp
      obtain ⟨l1, l2, l3⟩ : hd ≠ none ∧ _ ∧ 0 < o.ref := hloc.1
      obtain ⟨x, rfl⟩ := Option.ne_none_iff_exists'.mp l1
      simp only [stepT] at hs
      split at hs
      · rename_i hp
        have := ok_inj hs; subst this
        subst hp
        have hV : ({ s with head := ⟨s.head.idx, s.head.ref - 1⟩ }.setT i ⟨rlRet k, ep, none, tl⟩).V = upd s.V x (s.V x - 1) :=
          V_set_unpin (s := { s with head := ⟨s.head.idx, s.head.ref - 1⟩ }) hi rfl rfl
        rw [hV]
        show upd s.V x (s.V x - 1) s.old.idx < s.old.ref
        by_cases hx : s.old.idx = x
        · subst hx; rw [upd_self]; omega
        · rw [upd_ne _ _ hx]; exact h
      · have := ok_inj hs; subst this
        exact same_V hi rfl h
    · simp only at hp; subst hp
      obtain ⟨_, _, _, _, _, _, h5, _⟩ : Core P s.sv (.W e tl o) := hI.phase hi rfl
      have : s.old.ref = 0 := h5
      omega
  · push Not at hv
    obtain ⟨v1, v2, v3, v4, v5⟩ := hv
    obtain ⟨a, b⟩ := step_views hi hs v1 v2 v3 v4 v5
    rw [a, b]; exact h

theorem StuckB.forever (h : StuckB s) (hI : Inv P s) (hf : From P s s') : StuckB s' ∧ s'.head.idx = s.head.idx := by
  induction hf with
  | refl => exact ⟨h, rfl⟩
  | step hr hs ih =>
    obtain ⟨a, b⟩ := ih.1.step (hr.inv hI) hs
    exact ⟨a, b.trans ih.2⟩

/-- A view released on the wrong head leaves the old head stuck. -/
theorem StuckB.of_misdirected (hI : Inv P s) (hi : s.thr[i]? = some t) {k : K} {o : Hd} (hpc : t.pc = .rlH3 k o) (hcas : s.head = o)
    {x : Nat} (hx : t.hd = some x) (hne : x ≠ s.head.idx) (hs : Conc.step P s i c = .ok (some s')) : StuckB s' := by
  unfold Conc.step at hs
  rw [hi] at hs
  simp only at hs
  have hloc := hI.thread hi
  obtain ⟨ph, hph⟩ := hI.some_phase
  have hc := hI.core ph hph
  have hpos := V_pos hi hx
  obtain ⟨pc, ep, hd, tl⟩ := t
  simp only at hpc hx
  subst hpc; subst hx
  obtain ⟨_, _, l3⟩ : _ ∧ _ ∧ 0 < o.ref := hloc.1
  simp only [stepT, if_pos hcas] at hs
  have := ok_inj hs; subst this
  subst hcas
  have hb : BufS P s.sv s.old s.head := by
    cases ph with
    | A => exact hc.1.2.1
    | Cr => exact hc.1.2.1
    | N => exact hc.1.2.1
    | A1 => exact hc.1.2.1
    | G => exact hc.1.2.1
    | R => exact hc.1.2.1
    | B => exact hc.2.2.2.2.2.1
    | C => obtain ⟨_, _, _, b, _⟩ := hc; exact b
    | W =>
      obtain ⟨_, _, _, _, _, h5, _⟩ := hc
      have h5 : s.head = _ := h5
      rw [h5] at l3; exact absurd l3 (lt_irrefl _)
    | D => obtain ⟨_, _, _, b, _⟩ := hc; exact b
    | A2 => exact hc.1.2.1
  have hxo : x = s.old.idx := (hb.held hpos).resolve_right hne
  have hle : s.V s.old.idx ≤ s.old.ref := hb.2.1
  unfold StuckB
  have hV : ({ s with head := ⟨s.head.idx, s.head.ref - 1⟩ }.setT i ⟨rlRet k, ep, none, tl⟩).V = upd s.V x (s.V x - 1) :=
    V_set_unpin (s := { s with head := ⟨s.head.idx, s.head.ref - 1⟩ }) hi rfl rfl
  rw [hV]
  show upd s.V x (s.V x - 1) s.old.idx < s.old.ref
  rw [hxo, upd_self]
  rw [hxo] at hpos
  omega

/-! ### Epochs -/

/-- The steps that do not touch the previous epoch nor the pins of epochs. -/
theorem step_pins (hi : s.thr[i]? = some t) (hs : stepT P s i t c = .ok (some s'))
    (h1 : ∀ k o, t.pc ≠ .gaP3 k o) (h2 : ∀ k o, t.pc ≠ .gaC3 k o) (h3 : ∀ k o, t.pc ≠ .ejP3 k o)
    (h4 : ∀ k o, t.pc ≠ .ejC3 k o) (h5 : ∀ e o, t.pc ≠ .ad5 e o) (h6 : ∀ e x o, t.pc ≠ .rt2 e x o) :
    s'.prev = s.prev ∧ s'.H = s.H := by
  obtain ⟨pc, ep, hd, tl⟩ := t
  have key : ∀ {a : St} {t' : Th}, (.ok (some (a.setT i t')) : Out) = .ok (some s') → a.prev = s.prev → a.thr = s.thr → t'.ep = ep →
      s'.prev = s.prev ∧ s'.H = s.H := by
    intro a t' h a1 a2 a3
    have := ok_inj h; subst this
    refine ⟨a1, ?_⟩
    rw [H_set_same (s := a) (by rw [a2]; exact hi) a3]
    unfold St.H; rw [a2]
  cases pc <;> simp only [stepT] at hs
  case gaP3 => exact absurd rfl (h1 _ _)
  case gaC3 => exact absurd rfl (h2 _ _)
  case ejP3 => exact absurd rfl (h3 _ _)
  case ejC3 => exact absurd rfl (h4 _ _)
  case ad5 => exact absurd rfl (h5 _ _)
  case rt2 => exact absurd rfl (h6 _ _ _)
  case ad15 =>
    have := ok_inj hs; subst this
    refine ⟨rfl, ?_⟩
    have hi' : ({ s with thr := s.thr.map wake } : St).thr[i]? = some ⟨.ad15, ep, hd, tl⟩ := by
      show (s.thr.map wake)[i]? = _
      rw [List.getElem?_map, hi]
      exact congrArg some (wake_of_ne (by simp))
    exact (H_set_same (t' := ⟨.ad16, ep, hd, tl⟩) hi' rfl).trans (H_wake s)
  all_goals
    repeat' split at hs
  all_goals first
    | exact key hs rfl rfl rfl
    | exact absurd hs (by simp)

/-- The previous epoch is counted higher than it is pinned. -/
def StuckE (s : St) : Prop := ∃ e, s.prev.ep = some e ∧ s.H e < s.prev.ref

/-- The transition cannot have gone past the retirement of the previous epoch. -/
theorem StuckE.phase (h : StuckE s) (hI : Inv P s) {ph : Ph} (hph : IsPh s ph) :
    ph = .A ∨ (∃ e, ph = .Cr e) ∨ ph = .N ∨ (∃ e, ph = .A1 e) ∨ (∃ e g, ph = .G e g) ∨ ph = .A2 := by
  have hc := hI.core ph hph
  obtain ⟨e0, h1, h2⟩ := h
  have tr : ∀ {e e1}, Trans s.sv e e1 → False := by
    rintro e e1 ⟨_, hE, _⟩
    obtain ⟨e', g1, _, _, hh⟩ := hE
    have g1 : s.prev.ep = some e' := g1
    rcases hh with ⟨_, k1, _⟩ | ⟨_, k, _⟩
    · rw [h1] at g1; cases g1
      have k1 : s.prev.ref = s.H e0 := k1
      omega
    · cases k
  cases ph with
  | A => exact .inl rfl
  | Cr e => exact .inr (.inl ⟨e, rfl⟩)
  | N => exact .inr (.inr (.inl rfl))
  | A1 e => exact .inr (.inr (.inr (.inl ⟨e, rfl⟩)))
  | G e g => exact .inr (.inr (.inr (.inr (.inl ⟨e, g, rfl⟩))))
  | R =>
    obtain ⟨_, _, _, _, hp, _⟩ := hc
    have hp : s.prev = _ := hp
    rw [hp] at h1; cases h1
  | B =>
    obtain ⟨_, hp, _⟩ := hc
    have hp : s.prev = _ := hp
    rw [hp] at h1; cases h1
  | C => obtain ⟨_, h, _⟩ := hc; exact (tr h).elim
  | W => obtain ⟨_, h, _⟩ := hc; exact (tr h).elim
  | D => obtain ⟨_, h, _⟩ := hc; exact (tr h).elim
  | A2 => exact .inr (.inr (.inr (.inr (.inr rfl))))

theorem StuckE.calm (h : StuckE s) (hI : Inv P s) : Calm P s.sv := by
  obtain ⟨ph, hph⟩ := hI.some_phase
  have hc := hI.core ph hph
  rcases h.phase hI hph with rfl | ⟨e, rfl⟩ | rfl | ⟨e, rfl⟩ | ⟨e, g, rfl⟩ | rfl
  all_goals exact hc.1

theorem StuckE.step (h : StuckE s) (hI : Inv P s) (hs : Conc.step P s i c = .ok (some s')) :
    StuckE s' ∧ s'.head.idx = s.head.idx ∧ s'.prev.ep = s.prev.ep := by
  have hs0 := hs
  unfold Conc.step at hs
  split at hs
  case h_2 => cases hs
  rename_i t hi
  have hloc := hI.thread hi
  have hcalm := h.calm hI
  have hhead : s'.head.idx = s.head.idx := by
    by_cases h10 : ∃ e o, t.pc = .ad10 e o
    · obtain ⟨e, o, h10⟩ := h10
      have hsec : sect t = some (.C e t.tl 3) := by unfold sect; rw [h10]
      rcases h.phase hI (.inr (.inr ⟨t, List.mem_of_getElem? hi, hsec⟩)) with h | ⟨_, h⟩ | h | ⟨_, h⟩ | ⟨_, _, h⟩ | h <;> cases h
    · push Not at h10
      exact step_head hs h10
  have h' := h
  obtain ⟨e0, h1, h2⟩ := h
  by_cases hv : (∃ k o, t.pc = .gaP3 k o) ∨ (∃ k o, t.pc = .gaC3 k o) ∨ (∃ k o, t.pc = .ejP3 k o) ∨ (∃ k o, t.pc = .ejC3 k o) ∨
      (∃ e o, t.pc = .ad5 e o) ∨ (∃ e x o, t.pc = .rt2 e x o)
  · obtain ⟨pc, ep, hd, tl⟩ := t
    rcases hv with ⟨k, o, hp⟩ | ⟨k, o, hp⟩ | ⟨k, o, hp⟩ | ⟨k, o, hp⟩ | ⟨e, o, hp⟩ | ⟨e, x, o, hp⟩
    · simp only at hp; subst hp
      obtain ⟨l1, _⟩ : Free _ ∧ _ := hloc.1
      have l1 : ep = none := l1.1
      subst l1
      simp only [stepT] at hs
      split at hs
      · rename_i hp
        have := ok_inj hs; subst this
        subst hp
        refine ⟨⟨e0, h1, ?_⟩, hhead, rfl⟩
        have hV : ({ s with prev := ⟨s.prev.ep, s.prev.ref + 1⟩ }.setT i ⟨gaRet k, s.prev.ep, hd, tl⟩).H = upd s.H e0 (s.H e0 + 1) :=
          H_set_pin (s := { s with prev := ⟨s.prev.ep, s.prev.ref + 1⟩ }) hi rfl h1
        rw [hV]
        show upd s.H e0 (s.H e0 + 1) e0 < s.prev.ref + 1
        rw [upd_self]; omega
      · have := ok_inj hs; subst this
        refine ⟨⟨e0, h1, ?_⟩, hhead, rfl⟩
        exact same_H hi rfl h2
    · simp only at hp; subst hp
      obtain ⟨l1, _, l3⟩ : Free _ ∧ _ ∧ o.ep ≠ none := hloc.1
      have l1 : ep = none := l1.1
      subst l1
      obtain ⟨e1, l3⟩ := Option.ne_none_iff_exists'.mp l3
      simp only [stepT] at hs
      split at hs
      · rename_i hp
        have := ok_inj hs; subst this
        subst hp
        refine ⟨⟨e0, h1, ?_⟩, hhead, rfl⟩
        have hV : ({ s with cur := ⟨s.cur.ep, s.cur.ref + 1⟩ }.setT i ⟨gaRet k, s.cur.ep, hd, tl⟩).H = upd s.H e1 (s.H e1 + 1) :=
          H_set_pin (s := { s with cur := ⟨s.cur.ep, s.cur.ref + 1⟩ }) hi rfl l3
        rw [hV]
        show upd s.H e1 (s.H e1 + 1) e0 < s.prev.ref
        have hne : e0 ≠ e1 := by
          obtain ⟨x, g1, _, _, hh⟩ := hcalm.1
          have g1 : s.cur.ep = some x := g1
          rw [l3] at g1; cases g1
          rcases hh with ⟨hh, _⟩ | ⟨y, k1, k2, _⟩
          · have hh : s.prev = _ := hh
            rw [hh] at h1; cases h1
          · have k1 : s.prev.ep = some y := k1
            rw [h1] at k1; cases k1; exact k2
        rw [upd_ne _ _ hne]; exact h2
      · have := ok_inj hs; subst this
        refine ⟨⟨e0, h1, ?_⟩, hhead, rfl⟩
        exact same_H hi rfl h2
    · simp only at hp; subst hp
      obtain ⟨l1, l2, l3, l4, l5, l6⟩ : ep ≠ none ∧ (k = .client ∨ hd = none) ∧ (∀ e, k ≠ .job e) ∧ s.prev.ep = ep ∧ o.ep = ep ∧ 0 < o.ref := hloc.1
      have l4' := l4
      rw [h1] at l4
      subst l4
      have hpos := H_pos hi (e := e0) rfl
      simp only [stepT] at hs
      split at hs
      · rename_i hp
        have := ok_inj hs; subst this
        subst hp
        refine ⟨⟨e0, h1, ?_⟩, hhead, rfl⟩
        have hV : ({ s with prev := ⟨s.prev.ep, s.prev.ref - 1⟩ }.setT i ⟨ejRet k, none, hd, tl⟩).H = upd s.H e0 (s.H e0 - 1) :=
          H_set_unpin (s := { s with prev := ⟨s.prev.ep, s.prev.ref - 1⟩ }) hi rfl rfl
        rw [hV]
        show upd s.H e0 (s.H e0 - 1) e0 < s.prev.ref - 1
        rw [upd_self]; omega
      · have := ok_inj hs; subst this
        refine ⟨⟨e0, h1, ?_⟩, hhead, rfl⟩
        exact same_H hi rfl h2
    · simp only at hp; subst hp
      obtain ⟨l1, _⟩ : ep ≠ none ∧ _ := hloc.1
      obtain ⟨x, rfl⟩ := Option.ne_none_iff_exists'.mp l1
      simp only [stepT] at hs
      split at hs
      · rename_i hp
        have := ok_inj hs; subst this
        subst hp
        refine ⟨⟨e0, h1, ?_⟩, hhead, rfl⟩
        have hV : ({ s with cur := ⟨s.cur.ep, s.cur.ref - 1⟩ }.setT i ⟨ejRet k, none, hd, tl⟩).H = upd s.H x (s.H x - 1) :=
          H_set_unpin (s := { s with cur := ⟨s.cur.ep, s.cur.ref - 1⟩ }) hi rfl rfl
        rw [hV]
        show upd s.H x (s.H x - 1) e0 < s.prev.ref
        by_cases hx : e0 = x
        · subst hx; rw [upd_self]; omega
        · rw [upd_ne _ _ hx]; exact h2
      · have := ok_inj hs; subst this
        refine ⟨⟨e0, h1, ?_⟩, hhead, rfl⟩
        exact same_H hi rfl h2
    · simp only at hp; subst hp
      rcases h'.phase hI (.inr (.inr ⟨_, List.mem_of_getElem? hi, rfl⟩)) with h | ⟨_, h⟩ | h | ⟨_, h⟩ | ⟨_, _, h⟩ | h <;> cases h
    · simp only at hp; subst hp
      obtain ⟨l1, l2⟩ : Free _ ∧ o = ⟨some x, 0⟩ := hloc.1
      subst l2
      simp only [stepT] at hs
      split at hs
      · rename_i hp
        rw [hp] at h2; exact absurd h2 (Nat.not_lt_zero _)
      · have := ok_inj hs; subst this
        refine ⟨⟨e0, h1, ?_⟩, hhead, rfl⟩
        exact same_H hi rfl h2
  · push Not at hv
    obtain ⟨v1, v2, v3, v4, v5, v6⟩ := hv
    obtain ⟨a, b⟩ := step_pins hi hs v1 v2 v3 v4 v5 v6
    refine ⟨⟨e0, by rw [a]; exact h1, ?_⟩, hhead, by rw [a]⟩
    rw [a, b]; exact h2

theorem StuckE.forever (h : StuckE s) (hI : Inv P s) (hf : From P s s') :
    StuckE s' ∧ s'.head.idx = s.head.idx ∧ s'.prev.ep = s.prev.ep := by
  induction hf with
  | refl => exact ⟨h, rfl, rfl⟩
  | step hr hs ih =>
    obtain ⟨a, b, d⟩ := ih.1.step (hr.inv hI) hs
    exact ⟨a, b.trans ih.2.1, d.trans ih.2.2⟩

/-- An `end_job` that decrements the wrong epoch leaves the previous epoch stuck. -/
theorem StuckE.of_misdirected (hI : Inv P s) (hi : s.thr[i]? = some t) {k : K} {o : EP} (hpc : t.pc = .ejC3 k o) (hcas : s.cur = o)
    (hne : s.cur.ep ≠ t.ep) (hs : Conc.step P s i c = .ok (some s')) : StuckE s' := by
  unfold Conc.step at hs
  rw [hi] at hs
  simp only at hs
  have hloc := hI.thread hi
  obtain ⟨ph, hph⟩ := hI.some_phase
  have hc := hI.core ph hph
  obtain ⟨pc, ep, hd, tl⟩ := t
  simp only at hpc
  subst hpc
  obtain ⟨l1, _, _, l4, l5⟩ : ep ≠ none ∧ (k = .client ∨ hd = none) ∧ (∀ e, k ≠ .job e) ∧ o.ep ≠ none ∧ 0 < o.ref := hloc.1
  obtain ⟨x, rfl⟩ := Option.ne_none_iff_exists'.mp l1
  have hpos := H_pos hi (e := x) rfl
  simp only [stepT, if_pos hcas] at hs
  have := ok_inj hs; subst this
  subst hcas
  have tr : s.cur = ⟨none, 0⟩ → EpS s.sv s.prev s.cur := fun h => absurd (by rw [h]) l4
  have hE : EpS s.sv s.prev s.cur := by
    cases ph with
    | A => exact hc.1.1
    | Cr => exact hc.1.1
    | N => exact hc.1.1
    | A1 => exact hc.1.1
    | G => exact hc.1.1
    | R => exact hc.1.1
    | B => exact tr hc.1
    | C => obtain ⟨_, h, _⟩ := hc; exact tr h.1
    | W => obtain ⟨_, h, _⟩ := hc; exact tr h.1
    | D => obtain ⟨_, h, _⟩ := hc; exact tr h.1
    | A2 => exact hc.1.1
  have hx : s.prev.ep = some x := (hE.held hpos).1.resolve_right (fun h => hne h)
  have hle : s.H x ≤ s.prev.ref := (hI.core ph hph).prev_count (v := s.sv) hx
  refine ⟨x, hx, ?_⟩
  have hV : ({ s with cur := ⟨s.cur.ep, s.cur.ref - 1⟩ }.setT i ⟨ejRet k, none, hd, tl⟩).H = upd s.H x (s.H x - 1) :=
    H_set_unpin (s := { s with cur := ⟨s.cur.ep, s.cur.ref - 1⟩ }) hi rfl rfl
  rw [hV]
  show upd s.H x (s.H x - 1) x < s.prev.ref
  rw [upd_self]; omega

end DE.Conc
