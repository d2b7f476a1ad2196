import Verif.Proofs.ConcMain

/-!
The invariant is preserved by the steps of `end_job`, `get_head` and `release_head_reference`.
-/

namespace DE.Conc
variable {P : Par} {s s' : St} {i : Nat} {ep hd : Option Nat} {tl : Nat} {c : Ch}

theorem inv_run (h : Inv P s) (hi : s.thr[i]? = some ⟨.run, ep, hd, tl⟩)
    (hs : stepT P s i ⟨.run, ep, hd, tl⟩ c = .ok (some s')) : Inv P s' := by
  simp only [stepT] at hs
  split at hs
  · split at hs
    · rename_i _ _ e
      split at hs
      · cases hs
        exact h.goKeep hi (by simp) ⟨rfl, .inl ⟨rfl, e, rfl, rfl⟩⟩ rfl
      · cases hs
    · cases hs
  · split at hs
    · cases hs
      exact h.goKeep hi (by simp) ⟨by simp, .inl rfl, by simp⟩ rfl
    · cases hs
  · split at hs
    · cases hs
      exact h.goKeep hi (by simp) ⟨by simp, .inl rfl⟩ rfl
    · cases hs
  · split at hs
    · split at hs
      · cases hs; exact h.goKeep hi (by simp) trivial rfl
      · cases hs
    · cases hs
  · split at hs
    · rename_i hf
      cases hs
      exact h.goKeep hi (by simp) hf rfl
    · cases hs
  · cases hs

/-! ### end_job -/

theorem inv_ej1 {k : K} (h : Inv P s) (hi : s.thr[i]? = some ⟨.ej1 k, ep, hd, tl⟩)
    (hs : stepT P s i ⟨.ej1 k, ep, hd, tl⟩ c = .ok (some s')) : Inv P s' := by
  obtain ⟨h1, h2, h3⟩ : ep ≠ none ∧ (k = .client ∨ hd = none) ∧ ∀ e, k ≠ .job e := (h.thread hi).1
  simp only [stepT] at hs
  have hsect : ∀ pc, (pc = PC.ejP2 k ∨ pc = PC.ejC2 k) → sect (⟨pc, ep, hd, tl⟩ : Th) = sect ⟨.ej1 k, ep, hd, tl⟩ := by
    rintro pc (rfl | rfl) <;> cases k <;> rfl
  split at hs
  · rename_i hp
    cases hs
    exact h.goKeep hi (by simp) ⟨h1, h2, h3, hp⟩ (hsect _ (.inl rfl))
  · cases hs
    exact h.goKeep hi (by simp) ⟨h1, h2, h3⟩ (hsect _ (.inr rfl))

theorem inv_ejP2 {k : K} (h : Inv P s) (hi : s.thr[i]? = some ⟨.ejP2 k, ep, hd, tl⟩)
    (hs : stepT P s i ⟨.ejP2 k, ep, hd, tl⟩ c = .ok (some s')) : Inv P s' := by
  obtain ⟨h1, h2, h3, h4⟩ : ep ≠ none ∧ (k = .client ∨ hd = none) ∧ (∀ e, k ≠ .job e) ∧ s.prev.ep = ep := (h.thread hi).1
  simp only [stepT] at hs
  split at hs
  · rename_i hp; rw [h4] at hp; exact absurd hp h1
  · split at hs
    · rename_i hr
      cases hs
      exact h.goKeep hi (by simp) ⟨h1, h2, h3, h4, h4, hr⟩ (by cases k <;> rfl)
    · cases hs

theorem inv_ejP3 {k : K} {o : EP} (h : Inv P s) (hi : s.thr[i]? = some ⟨.ejP3 k o, ep, hd, tl⟩)
    (hs : stepT P s i ⟨.ejP3 k o, ep, hd, tl⟩ c = .ok (some s')) : Inv P s' := by
  obtain ⟨h1, h2, h3, h4, h5, h6⟩ : ep ≠ none ∧ (k = .client ∨ hd = none) ∧ (∀ e, k ≠ .job e) ∧ s.prev.ep = ep ∧ o.ep = ep ∧ 0 < o.ref :=
    (h.thread hi).1
  simp only [stepT] at hs
  split at hs
  · rename_i hp
    have := ok_inj hs; subst this
    obtain ⟨e, rfl⟩ := Option.ne_none_iff_exists'.mp h1
    subst hp
    rw [h5]
    refine h.unpinPrev (t' := ⟨ejRet k, none, hd, tl⟩) hi rfl h4 rfl rfl ?_ (fun n => ?_)
    · cases k with
      | create => rfl
      | client => rfl
      | job e => exact absurd rfl (h3 e)
    · refine Loc.keep ?_ (h.thread hi).2 rfl rfl (by simp)
      cases k with
      | create r => exact ⟨rfl, h2.resolve_left (by simp)⟩
      | client => trivial
      | job e => exact absurd rfl (h3 e)
  · cases hs
    exact h.goKeep hi (by simp) ⟨h1, h2, h3⟩ (by cases k <;> rfl)

theorem inv_ejC2 {k : K} (h : Inv P s) (hi : s.thr[i]? = some ⟨.ejC2 k, ep, hd, tl⟩)
    (hs : stepT P s i ⟨.ejC2 k, ep, hd, tl⟩ c = .ok (some s')) : Inv P s' := by
  obtain ⟨h1, h2, h3⟩ : ep ≠ none ∧ (k = .client ∨ hd = none) ∧ ∀ e, k ≠ .job e := (h.thread hi).1
  simp only [stepT] at hs
  split at hs
  · cases hs
    exact h.goKeep hi (by simp) ⟨h1, h2, h3⟩ (by cases k <;> rfl)
  · rename_i hn
    split at hs
    · rename_i hr
      cases hs
      exact h.goKeep hi (by simp) ⟨h1, h2, h3, hn, hr⟩ (by cases k <;> rfl)
    · cases hs

theorem inv_ejC3 {k : K} {o : EP} (h : Inv P s) (hi : s.thr[i]? = some ⟨.ejC3 k o, ep, hd, tl⟩)
    (hs : stepT P s i ⟨.ejC3 k o, ep, hd, tl⟩ c = .ok (some s')) : Inv P s' := by
  obtain ⟨h1, h2, h3, h4, h5⟩ : ep ≠ none ∧ (k = .client ∨ hd = none) ∧ (∀ e, k ≠ .job e) ∧ o.ep ≠ none ∧ 0 < o.ref :=
    (h.thread hi).1
  simp only [stepT] at hs
  split at hs
  · rename_i hp
    have := ok_inj hs; subst this
    obtain ⟨e, rfl⟩ := Option.ne_none_iff_exists'.mp h1
    subst hp
    refine h.unpinCur (t' := ⟨ejRet k, none, hd, tl⟩) hi rfl h5 rfl rfl ?_ (fun n => ?_)
    · cases k with
      | create => rfl
      | client => rfl
      | job e => exact absurd rfl (h3 e)
    · refine Loc.keep ?_ (h.thread hi).2 rfl rfl (by simp)
      cases k with
      | create r => exact ⟨rfl, h2.resolve_left (by simp)⟩
      | client => trivial
      | job e => exact absurd rfl (h3 e)
  · cases hs
    exact h.goKeep hi (by simp) ⟨h1, h2, h3⟩ (by cases k <;> rfl)

/-! ### get_head -/

/-- What is known while acquiring a view. -/
abbrev GhL (v : Sv) (k : K) (g : Nat) (ep hd : Option Nat) : Prop :=
  hd = none ∧ ((k = .client ∧ ∃ e, ep = some e ∧ v.ehead e = g) ∨ (∃ e, k = .job e) ∧ ep = none)

theorem GhL.not_create {v : Sv} {g r : Nat} (h : GhL v (.create r) g ep hd) : False := by
  rcases h.2 with ⟨h, _⟩ | ⟨⟨_, h⟩, _⟩ <;> cases h

theorem inv_gh1 {k : K} {g : Nat} (h : Inv P s) (hi : s.thr[i]? = some ⟨.gh1 k g, ep, hd, tl⟩)
    (hs : stepT P s i ⟨.gh1 k g, ep, hd, tl⟩ c = .ok (some s')) : Inv P s' := by
  have hl : GhL s.sv k g ep hd := (h.thread hi).1
  simp only [stepT] at hs
  split at hs
  · cases hs
    exact h.goKeep hi (by simp) hl (by cases k <;> rfl)
  · cases hs
    exact h.goKeep hi (by simp) hl (by cases k <;> rfl)

theorem inv_ghO2 {k : K} {g : Nat} (h : Inv P s) (hi : s.thr[i]? = some ⟨.ghO2 k g, ep, hd, tl⟩)
    (hs : stepT P s i ⟨.ghO2 k g, ep, hd, tl⟩ c = .ok (some s')) : Inv P s' := by
  have hl : GhL s.sv k g ep hd := (h.thread hi).1
  simp only [stepT] at hs
  cases hs
  exact h.goKeep hi (by simp) ⟨hl.1, hl.2, rfl⟩ (by cases k <;> rfl)

theorem inv_ghB {k : K} {g : Nat} (h : Inv P s) (hi : s.thr[i]? = some ⟨.ghB k g, ep, hd, tl⟩)
    (hs : stepT P s i ⟨.ghB k g, ep, hd, tl⟩ c = .ok (some s')) : Inv P s' := by
  have hl : GhL s.sv k g ep hd := (h.thread hi).1
  simp only [stepT] at hs
  split at hs
  · cases hs
    exact h.goKeep hi (by simp) hl (by cases k <;> rfl)
  · cases hs
    exact h.goKeep hi (by simp) hl (by cases k <;> rfl)

theorem inv_ghH2 {k : K} {g : Nat} (h : Inv P s) (hi : s.thr[i]? = some ⟨.ghH2 k g, ep, hd, tl⟩)
    (hs : stepT P s i ⟨.ghH2 k g, ep, hd, tl⟩ c = .ok (some s')) : Inv P s' := by
  have hl : GhL s.sv k g ep hd := (h.thread hi).1
  simp only [stepT] at hs
  cases hs
  exact h.goKeep hi (by simp) ⟨hl.1, hl.2, rfl⟩ (by cases k <;> rfl)

theorem inv_ghO3 {k : K} {g : Nat} {o : Hd} (h : Inv P s) (hi : s.thr[i]? = some ⟨.ghO3 k g o, ep, hd, tl⟩)
    (hs : stepT P s i ⟨.ghO3 k g o, ep, hd, tl⟩ c = .ok (some s')) : Inv P s' := by
  obtain ⟨h1, h2, h3⟩ : hd = none ∧ ((k = .client ∧ ∃ e, ep = some e ∧ s.ehead e = g) ∨ (∃ e, k = .job e) ∧ ep = none) ∧ o.idx = g :=
    (h.thread hi).1
  subst h3
  simp only [stepT] at hs
  split at hs
  · rename_i hp
    have := ok_inj hs; subst this
    subst hp
    rcases h2 with ⟨rfl, e, rfl, he⟩ | ⟨⟨e, rfl⟩, rfl⟩
    · exact h.pinOld (t' := ⟨.gt .client, some e, some s.old.idx, tl⟩) hi h1 rfl he rfl rfl rfl
        (fun n => ⟨⟨by simp, .inl rfl⟩, fun _ _ => .inl ⟨_, rfl⟩⟩)
    · obtain ⟨hC, _, _, _, _, hg⟩ : Core P s.sv (.G e s.old.idx) := h.phase hi rfl
      exact absurd hg hC.2.1.1
  · cases hs
    exact h.goKeep hi (by simp) ⟨h1, h2⟩ (by cases k <;> rfl)

theorem inv_ghH3 {k : K} {g : Nat} {o : Hd} (h : Inv P s) (hi : s.thr[i]? = some ⟨.ghH3 k g o, ep, hd, tl⟩)
    (hs : stepT P s i ⟨.ghH3 k g o, ep, hd, tl⟩ c = .ok (some s')) : Inv P s' := by
  obtain ⟨h1, h2, h3⟩ : hd = none ∧ ((k = .client ∧ ∃ e, ep = some e ∧ s.ehead e = g) ∨ (∃ e, k = .job e) ∧ ep = none) ∧ o.idx = g :=
    (h.thread hi).1
  subst h3
  simp only [stepT] at hs
  split at hs
  · rename_i hp
    have := ok_inj hs; subst this
    subst hp
    rcases h2 with ⟨rfl, e, rfl, he⟩ | ⟨⟨e, rfl⟩, rfl⟩
    · exact h.pinHead (t' := ⟨.gt .client, some e, some s.head.idx, tl⟩) hi h1 rfl he rfl rfl rfl
        (fun n => ⟨⟨by simp, .inl rfl⟩, fun _ _ => .inl ⟨_, rfl⟩⟩)
    · refine h.actPh (t' := ⟨.gt (.job e), none, some s.head.idx, tl⟩) hi rfl rfl rfl
        (sv_pinH (t' := ⟨.gt (.job e), none, some s.head.idx, tl⟩) hi h1 rfl rfl _) (.setHead rfl)
        ⟨⟨by simp, .inr ⟨⟨e, rfl⟩, rfl⟩⟩, fun _ _ => .inl ⟨_, rfl⟩⟩ h.bnd (ph := .G e s.head.idx) (ph' := .A1 e) rfl rfl ?_
      intro hc
      have he := hc.2.2.1
      obtain ⟨a, b, d, f, g, _⟩ := hc.pinHead ⟨e, .inr ⟨_, rfl⟩, he⟩
      exact ⟨a, b, d, f, g⟩
  · cases hs
    exact h.goKeep hi (by simp) ⟨h1, h2⟩ (by cases k <;> rfl)

theorem Inv.hd_le (h : Inv P s) {t : Th} (hi : s.thr[i]? = some t) {x : Nat} (hx : t.hd = some x) :
    x ≤ s.head.idx ∧ s.head.idx ≤ x + P.hwm := by
  obtain ⟨ph, hp⟩ := h.some_phase
  exact (h.core ph hp).pinned (v := s.sv) (V_pos hi hx)

theorem inv_gt {k : K} (h : Inv P s) (hi : s.thr[i]? = some ⟨.gt k, ep, hd, tl⟩)
    (hs : stepT P s i ⟨.gt k, ep, hd, tl⟩ c = .ok (some s')) : Inv P s' := by
  obtain ⟨h1, h2⟩ : hd ≠ none ∧ (k = .client ∨ (∃ e, k = .job e) ∧ ep = none) := (h.thread hi).1
  obtain ⟨x, rfl⟩ := Option.ne_none_iff_exists'.mp h1
  have hx := (h.hd_le hi rfl).1
  have hb : s.head.idx ≤ s.tail := h.bnd.1
  simp only [stepT] at hs
  have := ok_inj hs; subst this
  refine h.go (t' := ⟨gtRet x k, ep, some x, s.tail⟩) hi rfl rfl ⟨?_, fun y hy => .inr ⟨?_, le_refl _⟩⟩ ?_
  · rcases h2 with rfl | ⟨⟨e, rfl⟩, rfl⟩
    · trivial
    · exact ⟨rfl, x, rfl, le_refl _⟩
  · cases hy; exact le_trans hx hb
  · rcases h2 with rfl | ⟨⟨e, rfl⟩, rfl⟩ <;> rfl

/-! ### release_head_reference -/

theorem inv_rl1 {k : K} (h : Inv P s) (hi : s.thr[i]? = some ⟨.rl1 k, ep, hd, tl⟩)
    (hs : stepT P s i ⟨.rl1 k, ep, hd, tl⟩ c = .ok (some s')) : Inv P s' := by
  obtain ⟨h1, h2⟩ : hd ≠ none ∧ (k = .client ∨ (∃ e, k = .job e) ∧ ep = none) := (h.thread hi).1
  simp only [stepT] at hs
  split at hs
  · rename_i hp
    cases hs
    exact h.goKeep hi (by simp) ⟨hp.symm, h2⟩ (by cases k <;> rfl)
  · cases hs
    exact h.goKeep hi (by simp) ⟨h1, h2⟩ (by cases k <;> rfl)

theorem inv_rlO2 {k : K} (h : Inv P s) (hi : s.thr[i]? = some ⟨.rlO2 k, ep, hd, tl⟩)
    (hs : stepT P s i ⟨.rlO2 k, ep, hd, tl⟩ c = .ok (some s')) : Inv P s' := by
  obtain ⟨h1, h2⟩ : hd = some s.old.idx ∧ (k = .client ∨ (∃ e, k = .job e) ∧ ep = none) := (h.thread hi).1
  simp only [stepT] at hs
  split at hs
  · cases hs
    exact h.goKeep hi (by simp) ⟨by simp [h1], h2⟩ (by cases k <;> rfl)
  · rename_i hp
    cases hs
    exact h.goKeep hi (by simp) ⟨h1, h2, rfl, Nat.pos_of_ne_zero hp⟩ (by cases k <;> rfl)

theorem inv_rlH2 {k : K} (h : Inv P s) (hi : s.thr[i]? = some ⟨.rlH2 k, ep, hd, tl⟩)
    (hs : stepT P s i ⟨.rlH2 k, ep, hd, tl⟩ c = .ok (some s')) : Inv P s' := by
  obtain ⟨h1, h2⟩ : hd ≠ none ∧ (k = .client ∨ (∃ e, k = .job e) ∧ ep = none) := (h.thread hi).1
  simp only [stepT] at hs
  split at hs
  · cases hs
    exact h.goKeep hi (by simp) ⟨h1, h2⟩ (by cases k <;> rfl)
  · rename_i hp
    cases hs
    exact h.goKeep hi (by simp) ⟨h1, h2, Nat.pos_of_ne_zero hp⟩ (by cases k <;> rfl)

theorem inv_rlO3 {k : K} {o : Hd} (h : Inv P s) (hi : s.thr[i]? = some ⟨.rlO3 k o, ep, hd, tl⟩)
    (hs : stepT P s i ⟨.rlO3 k o, ep, hd, tl⟩ c = .ok (some s')) : Inv P s' := by
  obtain ⟨h1, h2, h3, h4⟩ : hd = some s.old.idx ∧ (k = .client ∨ (∃ e, k = .job e) ∧ ep = none) ∧ o.idx = s.old.idx ∧ 0 < o.ref :=
    (h.thread hi).1
  simp only [stepT] at hs
  split at hs
  · rename_i hp
    have := ok_inj hs; subst this
    subst hp
    refine h.unpinOld (t' := ⟨rlRet k, ep, none, tl⟩) hi h1 rfl rfl ?_ (fun n => Loc.none ?_ rfl)
    · rcases h2 with rfl | ⟨⟨e, rfl⟩, rfl⟩ <;> rfl
    · rcases h2 with rfl | ⟨⟨e, rfl⟩, rfl⟩
      · trivial
      · exact ⟨rfl, rfl⟩
  · cases hs
    exact h.goKeep hi (by simp) ⟨by simp [h1], h2⟩ (by cases k <;> rfl)

theorem inv_rlH3 {k : K} {o : Hd} (h : Inv P s) (hi : s.thr[i]? = some ⟨.rlH3 k o, ep, hd, tl⟩)
    (hs : stepT P s i ⟨.rlH3 k o, ep, hd, tl⟩ c = .ok (some s')) : Inv P s' := by
  obtain ⟨h1, h2, h3⟩ : hd ≠ none ∧ (k = .client ∨ (∃ e, k = .job e) ∧ ep = none) ∧ 0 < o.ref := (h.thread hi).1
  simp only [stepT] at hs
  split at hs
  · rename_i hp
    have := ok_inj hs; subst this
    subst hp
    obtain ⟨x, rfl⟩ := Option.ne_none_iff_exists'.mp h1
    refine h.unpinHead (t' := ⟨rlRet k, ep, none, tl⟩) hi rfl h3 rfl rfl ?_ (fun n => Loc.none ?_ rfl)
    · rcases h2 with rfl | ⟨⟨e, rfl⟩, rfl⟩ <;> rfl
    · rcases h2 with rfl | ⟨⟨e, rfl⟩, rfl⟩
      · trivial
      · exact ⟨rfl, rfl⟩
  · cases hs
    exact h.goKeep hi (by simp) ⟨h1, h2⟩ (by cases k <;> rfl)

end DE.Conc
