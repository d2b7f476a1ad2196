import Verif.Proofs.ConcClient

/-!
The invariant is preserved by the steps of the reconstruction, `advance_epoch`, `advance_head` and `await_next_epoch`; it
therefore holds in every reachable state.
-/

namespace DE.Conc
variable {P : Par} {s s' : St} {i : Nat} {ep hd : Option Nat} {tl : Nat} {c : Ch}

theorem inv_jb {e : Nat} (h : Inv P s) (hi : s.thr[i]? = some ⟨.jb e, ep, hd, tl⟩)
    (hs : stepT P s i ⟨.jb e, ep, hd, tl⟩ c = .ok (some s')) : Inv P s' := by
  have hf : Free (⟨.jb e, ep, hd, tl⟩ : Th) := (h.thread hi).1
  simp only [stepT] at hs
  split at hs
  · cases hs
    refine h.goPh hi rfl rfl (Loc.none ⟨hf.2, .inr ⟨⟨e, rfl⟩, hf.1⟩⟩ hf.2) (ph := .A1 e) (ph' := .G e (s.ehead e)) rfl rfl ?_
    rintro ⟨a, b, d, f, g⟩
    exact ⟨a, b, d, f, g, d⟩
  · cases hs

theorem inv_cp {e p : Nat} {acc : List Slot} (h : Inv P s) (hi : s.thr[i]? = some ⟨.cp e p acc, ep, hd, tl⟩)
    (hs : stepT P s i ⟨.cp e p acc, ep, hd, tl⟩ c = .ok (some s')) : Inv P s' := by
  obtain ⟨h1, x, h2, h3⟩ : ep = none ∧ (∃ h, hd = some h ∧ h ≤ p) := (h.thread hi).1
  simp only [stepT] at hs
  split at hs
  · cases hs
    exact h.goKeep hi (by simp) ⟨h1, x, h2, Nat.le_succ_of_le h3⟩ rfl
  · split at hs
    · have := ok_inj hs; subst this
      refine h.act (t' := ⟨.rl1 (.job e), ep, hd, tl⟩) hi rfl rfl rfl (sv_same (s := s) hi rfl rfl rfl) (.refl _) ?_ h.bnd rfl (fun _ _ hc => hc)
      exact Loc.keep ⟨by simp [h2], .inr ⟨⟨e, rfl⟩, h1⟩⟩ (h.thread hi).2 rfl rfl (by simp)
    · cases hs

theorem inv_ad1 {e : Nat} (h : Inv P s) (hi : s.thr[i]? = some ⟨.ad1 e, ep, hd, tl⟩)
    (hs : stepT P s i ⟨.ad1 e, ep, hd, tl⟩ c = .ok (some s')) : Inv P s' := by
  have hf : Free (⟨.ad1 e, ep, hd, tl⟩ : Th) := (h.thread hi).1
  simp only [stepT] at hs
  split at hs
  · rename_i hp
    cases hs
    refine h.goPh hi rfl rfl (Loc.none hf hf.2) (ph := .A1 e) (ph' := .R e none) rfl rfl ?_
    rintro ⟨a, b, d, f, g⟩
    refine ⟨a, b, d, f, ?_, by simp⟩
    obtain ⟨e1, _, _, _, x | ⟨e0, x, _⟩⟩ := a.1
    · exact x.1
    · have x : s.prev.ep = some e0 := x
      rw [hp] at x; cases x
  · cases hs
    exact h.goFree hi hf hf rfl

theorem inv_rt1 {e x : Nat} (h : Inv P s) (hi : s.thr[i]? = some ⟨.rt1 e x, ep, hd, tl⟩)
    (hs : stepT P s i ⟨.rt1 e x, ep, hd, tl⟩ c = .ok (some s')) : Inv P s' := by
  have hf : Free (⟨.rt1 e x, ep, hd, tl⟩ : Th) := (h.thread hi).1
  simp only [stepT] at hs
  split at hs
  · rename_i hp
    cases hs
    refine h.goFree hi hf ⟨hf, ?_⟩ rfl
    show s.prev = _
    rw [← hp.1, ← hp.2]
  · cases hs
    exact h.goFree hi hf hf rfl

theorem inv_rt2 {e x : Nat} {o : EP} (h : Inv P s) (hi : s.thr[i]? = some ⟨.rt2 e x o, ep, hd, tl⟩)
    (hs : stepT P s i ⟨.rt2 e x o, ep, hd, tl⟩ c = .ok (some s')) : Inv P s' := by
  obtain ⟨hf, ho⟩ : Free (⟨.rt2 e x o, ep, hd, tl⟩ : Th) ∧ o = ⟨some x, 0⟩ := (h.thread hi).1
  subst ho
  simp only [stepT] at hs
  split at hs
  · rename_i hp
    have := ok_inj hs; subst this
    have hc0 : Core P s.sv (.A1 e) := h.phase hi rfl
    have hx0 : s.H x = 0 := by
      have : s.H x ≤ s.prev.ref := hc0.prev_count (v := s.sv) (e := x) (by show s.prev.ep = _; rw [hp])
      rw [hp] at this
      exact Nat.le_zero.mp this
    refine h.actPh (t' := ⟨.rt3 e x, ep, hd, tl⟩) hi rfl rfl rfl
      (v' := { s.sv with prev := ⟨none, 0⟩ })
      (sv_set (s₂ := { s with prev := ⟨none, 0⟩ }) hi rfl rfl) ⟨le_refl _, le_refl _, fun _ _ => rfl, fun _ _ h => h, ?_⟩
      (Loc.none hf hf.2) h.bnd (ph := .A1 e) (ph' := .R e (some x)) rfl rfl ?_
    · intro y hy hpy
      have hpy : s.prev.ep = some y := hpy
      have hy : 0 < s.H y := hy
      rw [hp] at hpy; cases hpy
      omega
    · rintro ⟨⟨hE, hB, hL⟩, hN, h1, h2, h3⟩
      have h3 : s.prev.ep ≠ some e := h3
      have hpx : s.prev.ep = some x := by rw [hp]
      obtain ⟨e1, g1, g2, g3, hh⟩ := hE
      have g1 : s.cur.ep = some e1 := g1
      rcases hh with ⟨hh, _⟩ | ⟨e0, k1, k2, k6, _, k3, k4, k5⟩
      · have hh : s.prev = _ := hh
        rw [hp] at hh; cases hh
      · have k1 : s.prev.ep = some e0 := k1
        rw [hp] at k1; cases k1
        have k4 : s.prev.ref + s.cur.ref = s.H x + s.H e1 := k4
        rw [hp] at k4
        refine ⟨⟨⟨e1, g1, g2, g3, .inl ⟨rfl, ?_, ?_⟩⟩, hB, hL.1, fun _ hx => by cases hx⟩, hN, h1, h2, rfl, ?_⟩
        · show s.cur.ref = s.H e1
          simp only at k4; omega
        · intro y hy
          show s.H y = 0
          by_cases yx : y = x
          · subst yx; exact hx0
          · exact k5 y yx hy
        · intro y hy
          cases hy
          refine ⟨fun hh => h3 (by rw [hpx, hh]), fun hh => ?_, hx0, k6⟩
          have hh : s.cur.ep = some x := hh
          rw [g1] at hh; cases hh; exact k2 rfl
  · cases hs
    exact h.goFree hi hf hf rfl

theorem inv_rt3 {e x : Nat} (h : Inv P s) (hi : s.thr[i]? = some ⟨.rt3 e x, ep, hd, tl⟩)
    (hs : stepT P s i ⟨.rt3 e x, ep, hd, tl⟩ c = .ok (some s')) : Inv P s' := by
  have hf : Free (⟨.rt3 e x, ep, hd, tl⟩ : Th) := (h.thread hi).1
  simp only [stepT] at hs
  split at hs
  case isFalse => cases hs
  have := ok_inj hs; subst this
  refine h.actPh (t' := ⟨.ad3 e, ep, hd, tl⟩) hi rfl rfl rfl
      (v' := { s.sv with alive := upd s.alive x false })
      (sv_set (s₂ := { s with alive := upd s.alive x false }) hi rfl rfl) ⟨le_refl _, le_refl _, fun _ _ => rfl, fun _ _ h => h, fun _ _ h => h⟩
      (Loc.none hf hf.2) h.bnd (ph := .R e (some x)) (ph' := .R e none) rfl rfl ?_
  rintro ⟨⟨hE, hB, hL⟩, hN, h1, h2, h3, h4⟩
  obtain ⟨a, b, d⟩ := h4 x rfl
  obtain ⟨e1, g1, g2, g3, hh⟩ := hE
  have g1 : s.cur.ep = some e1 := g1
  have b : s.cur.ep ≠ some x := b
  have ne : e1 ≠ x := fun hh => b (by rw [g1, hh])
  refine ⟨⟨⟨e1, g1, ?_, g3, ?_⟩, hB, hL⟩, ⟨hN.1, ?_, hN.2.2⟩, h1, h2, h3, by simp⟩
  · show upd s.alive x false e1 = true
    rw [upd_ne _ _ ne]; exact g2
  · rcases hh with hh | ⟨e0, k1, _⟩
    · exact .inl hh
    · rw [h3] at k1; cases k1
  · show upd s.alive x false e = true
    rw [upd_ne _ _ (Ne.symm a)]; exact hN.2.1

theorem inv_ad3 {e : Nat} (h : Inv P s) (hi : s.thr[i]? = some ⟨.ad3 e, ep, hd, tl⟩)
    (hs : stepT P s i ⟨.ad3 e, ep, hd, tl⟩ c = .ok (some s')) : Inv P s' := by
  have hf : Free (⟨.ad3 e, ep, hd, tl⟩ : Th) := (h.thread hi).1
  simp only [stepT] at hs
  cases hs
  exact h.goFree hi hf hf rfl

theorem inv_ad4 {e : Nat} {o : EP} (h : Inv P s) (hi : s.thr[i]? = some ⟨.ad4 e o, ep, hd, tl⟩)
    (hs : stepT P s i ⟨.ad4 e o, ep, hd, tl⟩ c = .ok (some s')) : Inv P s' := by
  have hf : Free (⟨.ad4 e o, ep, hd, tl⟩ : Th) := (h.thread hi).1
  simp only [stepT] at hs
  split at hs
  · rename_i hp
    have := ok_inj hs; subst this
    subst hp
    refine h.actPh (t' := ⟨.ad5 e s.cur, ep, hd, tl⟩) hi rfl rfl rfl
      (v' := { s.sv with cur := ⟨none, 0⟩ })
      (sv_set (s₂ := { s with cur := ⟨none, 0⟩ }) hi rfl rfl) ⟨le_refl _, le_refl _, fun _ _ => rfl, fun _ _ h => h, fun _ _ h => h⟩
      (Loc.none hf hf.2) h.bnd (ph := .R e none) (ph' := .B e s.cur) rfl rfl ?_
    rintro ⟨⟨hE, hB, hL⟩, hN, h1, h2, h3, h4⟩
    have hE : EpS s.sv ⟨none, 0⟩ s.cur := h3 ▸ hE
    exact ⟨rfl, h3, hN, hE, h2, hB, fun e1 he1 => hL.1 e1 he1⟩
  · cases hs
    exact h.goFree hi hf hf rfl

theorem inv_ad5 {e : Nat} {o : EP} (h : Inv P s) (hi : s.thr[i]? = some ⟨.ad5 e o, ep, hd, tl⟩)
    (hs : stepT P s i ⟨.ad5 e o, ep, hd, tl⟩ c = .ok (some s')) : Inv P s' := by
  have hf : Free (⟨.ad5 e o, ep, hd, tl⟩ : Th) := (h.thread hi).1
  have hc0 : Core P s.sv (.B e o) := h.phase hi rfl
  simp only [stepT] at hs
  have := ok_inj hs; subst this
  refine h.actPh (t' := ⟨.ad6 e, ep, hd, tl⟩) hi rfl rfl rfl
      (v' := { s.sv with prev := o })
      (sv_set (s₂ := { s with prev := o }) hi rfl rfl) ⟨le_refl _, le_refl _, fun _ _ => rfl, fun _ _ h => h, ?_⟩
      (Loc.none hf hf.2) h.bnd (ph := .B e o) (ph' := .C e tl 0) rfl rfl ?_
  · intro y _ hy
    rw [hc0.2.1] at hy; cases hy
  · rintro ⟨h1, h2, hN, hE, h3, hB, h4⟩
    have hE' := hE
    obtain ⟨e1, g1, _⟩ := hE'
    exact ⟨e1, ⟨h1, hE, g1, fun hh => h3 (by rw [g1, hh]), hN⟩, h4 e1 g1, hB, by simp, by simp, by simp⟩

theorem inv_ad6 {e : Nat} (h : Inv P s) (hi : s.thr[i]? = some ⟨.ad6 e, ep, hd, tl⟩)
    (hs : stepT P s i ⟨.ad6 e, ep, hd, tl⟩ c = .ok (some s')) : Inv P s' := by
  have hf : Free (⟨.ad6 e, ep, hd, tl⟩ : Th) := (h.thread hi).1
  obtain ⟨e1, hT, h1, h2, _⟩ : Core P s.sv (.C e tl 0) := h.phase hi rfl
  have hN : Nx s.sv e := hT.2.2.2.2
  have hnx : s.next = some e := hN.1
  simp only [stepT] at hs
  split at hs
  · rename_i x hx
    rw [hnx] at hx; cases hx
    split at hs
    · have := ok_inj hs; subst this
      have hH0 : s.H e = 0 := hN.2.2.2
      refine h.actPh (t' := ⟨.ad7 e, ep, hd, tl⟩) hi rfl rfl rfl
        (v' := { s.sv with ehead := upd s.ehead e tl })
        (sv_set (s₂ := { s with ehead := upd s.ehead e tl }) hi rfl rfl) ⟨le_refl _, le_refl _, ?_, fun _ _ h => h, fun _ _ h => h⟩
        (Loc.none hf hf.2) h.bnd (ph := .C e tl 0) (ph' := .C e tl 1) rfl rfl ?_
      · intro y hy
        have hy : 0 < s.H y := hy
        exact upd_ne _ _ (fun hh => by subst hh; omega)
      · intro _
        refine ⟨e1, hT, ?_, h2, fun _ => upd_self _ _ _, by simp, by simp⟩
        show upd s.ehead e tl e1 = _
        rw [upd_ne _ _ (Ne.symm hT.2.2.2.1)]; exact h1
    · cases hs
  · cases hs

theorem inv_ad7 {e : Nat} (h : Inv P s) (hi : s.thr[i]? = some ⟨.ad7 e, ep, hd, tl⟩)
    (hs : stepT P s i ⟨.ad7 e, ep, hd, tl⟩ c = .ok (some s')) : Inv P s' := by
  have hf : Free (⟨.ad7 e, ep, hd, tl⟩ : Th) := (h.thread hi).1
  simp only [stepT] at hs
  split at hs
  · rename_i hp
    cases hs
    refine h.goPh hi rfl rfl (Loc.none hf hf.2) (ph := .C e tl 1) (ph' := .C e tl 2) rfl rfl ?_
    rintro ⟨e1, hT, h1, h2, h3, _, _⟩
    exact ⟨e1, hT, h1, h2, fun _ => h3 (le_refl _), fun _ => hp, by simp⟩
  · cases hs

theorem inv_ad8 {e : Nat} (h : Inv P s) (hi : s.thr[i]? = some ⟨.ad8 e, ep, hd, tl⟩)
    (hs : stepT P s i ⟨.ad8 e, ep, hd, tl⟩ c = .ok (some s')) : Inv P s' := by
  have hf : Free (⟨.ad8 e, ep, hd, tl⟩ : Th) := (h.thread hi).1
  simp only [stepT] at hs
  split at hs
  · cases hs
    refine h.goPh hi rfl rfl (Loc.none hf hf.2) (ph := .C e tl 2) (ph' := .C e tl 0) rfl rfl ?_
    rintro ⟨e1, hT, h1, h2, _, _, _⟩
    exact ⟨e1, hT, h1, h2, by simp, by simp, by simp⟩
  · rename_i hr
    cases hs
    refine h.goPh hi rfl rfl (Loc.none hf hf.2) (ph := .C e tl 2) (ph' := .C e tl 3) rfl rfl ?_
    rintro ⟨e1, hT, h1, h2, h3, h4, _⟩
    exact ⟨e1, hT, h1, h2, fun _ => h3 (by omega), fun _ => h4 (le_refl _), fun _ => by show s.old.ref = 0; omega⟩

theorem inv_ad9 {e : Nat} (h : Inv P s) (hi : s.thr[i]? = some ⟨.ad9 e, ep, hd, tl⟩)
    (hs : stepT P s i ⟨.ad9 e, ep, hd, tl⟩ c = .ok (some s')) : Inv P s' := by
  have hf : Free (⟨.ad9 e, ep, hd, tl⟩ : Th) := (h.thread hi).1
  simp only [stepT] at hs
  cases hs
  exact h.goFree hi hf hf rfl

theorem inv_ad10 {e : Nat} {o : Hd} (h : Inv P s) (hi : s.thr[i]? = some ⟨.ad10 e o, ep, hd, tl⟩)
    (hs : stepT P s i ⟨.ad10 e o, ep, hd, tl⟩ c = .ok (some s')) : Inv P s' := by
  have hf : Free (⟨.ad10 e o, ep, hd, tl⟩ : Th) := (h.thread hi).1
  obtain ⟨e1, hT, h1, h2, h3, h4, h5⟩ : Core P s.sv (.C e tl 3) := h.phase hi rfl
  obtain ⟨h4a, h4b⟩ : s.head.idx < tl ∧ tl ≤ s.tail := h4 (by omega)
  have hb : s.head.idx ≤ s.tail ∧ s.tail ≤ s.head.idx + P.hwm := h.bnd
  simp only [stepT] at hs
  split at hs
  · rename_i hp
    have := ok_inj hs; subst this
    subst hp
    refine h.actPh (t' := ⟨.ad11 e s.head, ep, hd, tl⟩) hi rfl rfl rfl
      (v' := { s.sv with head := ⟨tl, 0⟩ })
      (sv_set (s₂ := { s with head := ⟨tl, 0⟩ }) hi rfl rfl) ⟨le_refl _, le_of_lt h4a, fun _ _ => rfl, fun _ _ h => h, fun _ _ h => h⟩
      (Loc.none hf hf.2) ⟨h4b, ?_⟩ (ph := .C e tl 3) (ph' := .W e tl s.head) rfl rfl ?_
    · show s.tail ≤ tl + P.hwm
      omega
    · intro _
      exact ⟨e1, hT, h1, h2, h3 (by omega), rfl, h5 (le_refl _), h4a, le_trans h4b hb.2⟩
  · cases hs
    exact h.goFree hi hf hf rfl

theorem inv_ad11 {e : Nat} {o : Hd} (h : Inv P s) (hi : s.thr[i]? = some ⟨.ad11 e o, ep, hd, tl⟩)
    (hs : stepT P s i ⟨.ad11 e o, ep, hd, tl⟩ c = .ok (some s')) : Inv P s' := by
  have hf : Free (⟨.ad11 e o, ep, hd, tl⟩ : Th) := (h.thread hi).1
  obtain ⟨e1, hT, h1, hB, h3, h4, h5, h6, h7⟩ : Core P s.sv (.W e tl o) := h.phase hi rfl
  obtain ⟨b1, b2, b3, b4, b5, b6⟩ := hB
  have h5 : s.old.ref = 0 := h5
  have b1 : s.old.idx ≠ o.idx := b1
  have b2 : s.V s.old.idx ≤ s.old.ref := b2
  have b3 : s.old.ref + o.ref = s.V s.old.idx + s.V o.idx := b3
  have hV0 : s.V s.old.idx = 0 := by omega
  have hz : ∀ x, x ≠ o.idx → s.V x = 0 := by
    intro x hx
    by_cases y : x = s.old.idx
    · rw [y]; exact hV0
    · exact b4 x y hx
  simp only [stepT] at hs
  have := ok_inj hs; subst this
  refine h.actPh (t' := ⟨.ad12 e, ep, hd, tl⟩) hi rfl rfl rfl
      (v' := { s.sv with old := o })
      (sv_set (s₂ := { s with old := o }) hi rfl rfl) ⟨le_refl _, le_refl _, fun _ _ => rfl, ?_, fun _ _ h => h⟩
      (Loc.none hf hf.2) h.bnd (ph := .W e tl o) (ph' := .D e tl) rfl rfl ?_
  · intro y hy hh
    have hy : 0 < s.V y := hy
    have hh : s.old.idx = y := hh
    rw [← hh] at hy; omega
  · intro _
    have hh : s.head = ⟨tl, 0⟩ := h4
    refine ⟨e1, hT, h1, ⟨?_, ?_, ?_, ?_, ?_, ?_⟩, h3, ?_, h6⟩
    · show o.idx ≠ s.head.idx
      rw [hh]; exact ne_of_lt h6
    · show s.V o.idx ≤ o.ref
      omega
    · show o.ref + s.head.ref = s.V o.idx + s.V s.head.idx
      rw [hh]; rw [hz tl (by omega)]; simp only; omega
    · intro x hx _
      exact hz x hx
    · show s.head.idx ≤ o.idx + P.hwm
      rw [hh]; exact h7
    · intro _
      show o.idx < s.head.idx
      rw [hh]; exact h6
    · show tl = s.head.idx
      rw [hh]

theorem inv_ad12 {e : Nat} (h : Inv P s) (hi : s.thr[i]? = some ⟨.ad12 e, ep, hd, tl⟩)
    (hs : stepT P s i ⟨.ad12 e, ep, hd, tl⟩ c = .ok (some s')) : Inv P s' := by
  have hf : Free (⟨.ad12 e, ep, hd, tl⟩ : Th) := (h.thread hi).1
  obtain ⟨e1, ⟨hT1, hE, hT3, hT4, hN⟩, h1, hB, h3, h4, h5⟩ : Core P s.sv (.D e tl) := h.phase hi rfl
  simp only [stepT] at hs
  have := ok_inj hs; subst this
  refine h.actPh (t' := ⟨.ad13, ep, hd, tl⟩) hi rfl rfl rfl
      (v' := { s.sv with cur := ⟨s.next, 0⟩ })
      (sv_set (s₂ := { s with cur := ⟨s.next, 0⟩ }) hi rfl rfl) ⟨le_refl _, le_refl _, fun _ _ => rfl, fun _ _ h => h, fun _ _ h => h⟩
      (Loc.none hf hf.2) h.bnd (ph := .D e tl) (ph' := .A2) rfl rfl ?_
  intro _
  have hnx : s.next = some e := hN.1
  obtain ⟨e', g1, g2, g3, hh⟩ := hE
  have g1 : s.prev.ep = some e' := g1
  have hT3 : s.prev.ep = some e1 := hT3
  have : e' = e1 := by rw [hT3] at g1; exact (Option.some.inj g1).symm
  subst this
  rcases hh with ⟨_, k1, k2⟩ | ⟨e0, k, _⟩
  · have k1 : s.prev.ref = s.H e' := k1
    have hH0 : s.H e = 0 := hN.2.2.2
    refine ⟨⟨⟨e, hnx, hN.2.1, hN.2.2.1, .inr ⟨e', hT3, Ne.symm hT4, g2, g3, le_of_eq k1.symm, ?_, ?_⟩⟩, hB, ?_, ?_⟩, rfl⟩
    · show s.prev.ref + 0 = s.H e' + s.H e
      omega
    · intro x hx _; exact k2 x hx
    · intro x hx
      have hx : s.next = some x := hx
      rw [hnx] at hx; cases hx
      exact h3.trans h4
    · intro x hx
      have hx : s.prev.ep = some x := hx
      rw [hT3] at hx; cases hx
      exact ⟨h1, h4 ▸ h5⟩
  · cases k

theorem inv_ad13 (h : Inv P s) (hi : s.thr[i]? = some ⟨.ad13, ep, hd, tl⟩)
    (hs : stepT P s i ⟨.ad13, ep, hd, tl⟩ c = .ok (some s')) : Inv P s' := by
  have hf : Free (⟨.ad13, ep, hd, tl⟩ : Th) := (h.thread hi).1
  simp only [stepT] at hs
  have := ok_inj hs; subst this
  refine h.actPh (t' := ⟨.ad14, ep, hd, tl⟩) hi rfl rfl rfl
      (v' := { s.sv with next := none })
      (sv_set (s₂ := { s with next := none }) hi rfl rfl) ⟨le_refl _, le_refl _, fun _ _ => rfl, fun _ _ h => h, fun _ _ h => h⟩
      (Loc.none hf hf.2) h.bnd (ph := .A2) (ph' := .A) rfl rfl ?_
  rintro ⟨hC, _⟩
  exact ⟨hC, rfl⟩

theorem inv_ad14 (h : Inv P s) (hi : s.thr[i]? = some ⟨.ad14, ep, hd, tl⟩)
    (hs : stepT P s i ⟨.ad14, ep, hd, tl⟩ c = .ok (some s')) : Inv P s' := by
  have hf : Free (⟨.ad14, ep, hd, tl⟩ : Th) := (h.thread hi).1
  simp only [stepT] at hs
  split at hs
  · have := ok_inj hs; subst this
    exact h.act (t' := ⟨.ad15, ep, hd, tl⟩) hi rfl rfl rfl (sv_same (s := s) hi rfl rfl rfl) (.refl _) (Loc.none hf hf.2) h.bnd rfl (fun _ _ hc => hc)
  · cases hs

theorem inv_ad15 (h : Inv P s) (hi : s.thr[i]? = some ⟨.ad15, ep, hd, tl⟩)
    (hs : stepT P s i ⟨.ad15, ep, hd, tl⟩ c = .ok (some s')) : Inv P s' := by
  have hf : Free (⟨.ad15, ep, hd, tl⟩ : Th) := (h.thread hi).1
  simp only [stepT] at hs
  have := ok_inj hs; subst this
  have hi' : ({ s with thr := s.thr.map wake } : St).thr[i]? = some ⟨.ad15, ep, hd, tl⟩ := by
    show (s.thr.map wake)[i]? = _
    rw [List.getElem?_map, hi]
    exact congrArg some (wake_of_ne (by simp))
  exact h.wake.go hi' rfl rfl (Loc.none hf hf.2) rfl

theorem inv_ad16 (h : Inv P s) (hi : s.thr[i]? = some ⟨.ad16, ep, hd, tl⟩)
    (hs : stepT P s i ⟨.ad16, ep, hd, tl⟩ c = .ok (some s')) : Inv P s' := by
  have hf : Free (⟨.ad16, ep, hd, tl⟩ : Th) := (h.thread hi).1
  simp only [stepT] at hs
  have := ok_inj hs; subst this
  exact h.act (t' := ⟨.ad17, ep, hd, tl⟩) hi rfl rfl rfl (sv_same (s := s) hi rfl rfl rfl) (.refl _) (Loc.none hf hf.2) h.bnd rfl (fun _ _ hc => hc)

theorem inv_ad17 (h : Inv P s) (hi : s.thr[i]? = some ⟨.ad17, ep, hd, tl⟩)
    (hs : stepT P s i ⟨.ad17, ep, hd, tl⟩ c = .ok (some s')) : Inv P s' := by
  have hf : Free (⟨.ad17, ep, hd, tl⟩ : Th) := (h.thread hi).1
  simp only [stepT] at hs
  have := ok_inj hs; subst this
  have hc0 : Core P s.sv .A := h.phase hi rfl
  obtain ⟨hf0, hj0, ha⟩ := h.alone hi (ph := .A) rfl
  have hm := h.mutex
  unfold Mutex at hm
  rw [hf0, hj0] at hm
  simp only [ite_true, List.length_nil] at hm
  have hcs := countP_set (fun t => (sect t).isSome) s.thr i _ (⟨.idle, ep, hd, tl⟩ : Th) hi
  have e1 : (sect (⟨.ad17, ep, hd, tl⟩ : Th)).isSome = true := rfl
  have e2 : (sect (⟨.idle, ep, hd, tl⟩ : Th)).isSome = false := rfl
  simp only [e1, e2, Bool.false_eq_true, ite_false, ite_true, Nat.add_zero] at hcs
  have hv : ({ s with flag := false }.setT i ⟨.idle, ep, hd, tl⟩).sv = s.sv :=
    sv_same (s := s) (s₂ := { s with flag := false }) hi rfl rfl rfl
  refine ⟨?_, ?_, ?_, ?_⟩
  · show (s.thr.set i _).countP _ + s.jobs.length = 0
    rw [hj0]; simp only [List.length_nil]; omega
  · intro u hu
    rw [hv]
    rcases mem_set_cases hu with rfl | ⟨j, hj, hju⟩
    · exact Loc.none hf hf.2
    · exact h.thread hju
  · intro ph hph
    rw [hv]
    rcases hph with ⟨_, rfl⟩ | ⟨e', he', hp⟩ | ⟨u, hu, hp⟩
    · exact hc0
    · have he' : e' ∈ s.jobs := he'
      rw [hj0] at he'; cases he'
    · rcases mem_set_cases hu with rfl | ⟨j, hj', hju⟩
      · cases hp
      · rw [ha j u hj' hju] at hp; cases hp
  · rw [hv]; exact h.bnd

/-! ### await_next_epoch -/

theorem inv_aw1 (h : Inv P s) (hi : s.thr[i]? = some ⟨.aw1, ep, hd, tl⟩)
    (hs : stepT P s i ⟨.aw1, ep, hd, tl⟩ c = .ok (some s')) : Inv P s' := by
  have hf : Free (⟨.aw1, ep, hd, tl⟩ : Th) := (h.thread hi).1
  simp only [stepT] at hs
  split at hs
  · cases hs; exact h.goFree hi hf hf rfl
  · cases hs; exact h.goFree hi hf hf rfl

theorem inv_aw2 (h : Inv P s) (hi : s.thr[i]? = some ⟨.aw2, ep, hd, tl⟩)
    (hs : stepT P s i ⟨.aw2, ep, hd, tl⟩ c = .ok (some s')) : Inv P s' := by
  have hf : Free (⟨.aw2, ep, hd, tl⟩ : Th) := (h.thread hi).1
  simp only [stepT] at hs
  split at hs
  · have := ok_inj hs; subst this
    exact h.act (t' := ⟨.aw3, ep, hd, tl⟩) hi rfl rfl rfl (sv_same (s := s) hi rfl rfl rfl) (.refl _) (Loc.none hf hf.2) h.bnd rfl (fun _ _ hc => hc)
  · cases hs

theorem inv_aw3 (h : Inv P s) (hi : s.thr[i]? = some ⟨.aw3, ep, hd, tl⟩)
    (hs : stepT P s i ⟨.aw3, ep, hd, tl⟩ c = .ok (some s')) : Inv P s' := by
  have hf : Free (⟨.aw3, ep, hd, tl⟩ : Th) := (h.thread hi).1
  simp only [stepT] at hs
  have := ok_inj hs; subst this
  exact h.act (t' := ⟨.aw4, ep, hd, tl⟩) hi rfl rfl rfl (sv_same (s := s) hi rfl rfl rfl) (.refl _) (Loc.none hf hf.2) h.bnd rfl (fun _ _ hc => hc)

theorem inv_aw4 (h : Inv P s) (hi : s.thr[i]? = some ⟨.aw4, ep, hd, tl⟩)
    (hs : stepT P s i ⟨.aw4, ep, hd, tl⟩ c = .ok (some s')) : Inv P s' := by
  have hf : Free (⟨.aw4, ep, hd, tl⟩ : Th) := (h.thread hi).1
  simp only [stepT] at hs
  split at hs
  · cases hs; exact h.goFree hi hf hf rfl
  · cases hs

theorem inv_aw5 (h : Inv P s) (hi : s.thr[i]? = some ⟨.aw5, ep, hd, tl⟩)
    (hs : stepT P s i ⟨.aw5, ep, hd, tl⟩ c = .ok (some s')) : Inv P s' := by
  have hf : Free (⟨.aw5, ep, hd, tl⟩ : Th) := (h.thread hi).1
  simp only [stepT] at hs
  split at hs
  · have := ok_inj hs; subst this
    exact h.act (t' := ⟨.aw6, ep, hd, tl⟩) hi rfl rfl rfl (sv_same (s := s) hi rfl rfl rfl) (.refl _) (Loc.none hf hf.2) h.bnd rfl (fun _ _ hc => hc)
  · cases hs

theorem inv_aw6 (h : Inv P s) (hi : s.thr[i]? = some ⟨.aw6, ep, hd, tl⟩)
    (hs : stepT P s i ⟨.aw6, ep, hd, tl⟩ c = .ok (some s')) : Inv P s' := by
  have hf : Free (⟨.aw6, ep, hd, tl⟩ : Th) := (h.thread hi).1
  simp only [stepT] at hs
  have := ok_inj hs; subst this
  exact h.act (t' := ⟨.aw1, ep, hd, tl⟩) hi rfl rfl rfl (sv_same (s := s) hi rfl rfl rfl) (.refl _) (Loc.none hf hf.2) h.bnd rfl (fun _ _ hc => hc)

/-! ### All steps -/

theorem Inv.step (h : Inv P s) (hs : step P s i c = .ok (some s')) : Inv P s' := by
  unfold Conc.step at hs
  split at hs
  · rename_i t hi
    obtain ⟨pc, ep, hd, tl⟩ := t
    cases pc with
    | idle => exact inv_idle h hi hs
    | ins => exact inv_ins h hi hs
    | insT => exact inv_insT h hi hs
    | insH => exact inv_insH h hi hs
    | casF => exact inv_casF h hi hs
    | crA => exact inv_crA h hi hs
    | crC => exact inv_crC h hi hs
    | crS => exact inv_crS h hi hs
    | ap1 => exact inv_ap1 h hi hs
    | ap2 => exact inv_ap2 h hi hs
    | ap3 => exact inv_ap3 h hi hs
    | ap4 => exact inv_ap4 h hi hs
    | ap5 => exact inv_ap5 h hi hs
    | ga1 => exact inv_ga1 h hi hs
    | gaP2 => exact inv_gaP2 h hi hs
    | gaP3 => exact inv_gaP3 h hi hs
    | gaC2 => exact inv_gaC2 h hi hs
    | gaC3 => exact inv_gaC3 h hi hs
    | run => exact inv_run h hi hs
    | ej1 => exact inv_ej1 h hi hs
    | ejP2 => exact inv_ejP2 h hi hs
    | ejP3 => exact inv_ejP3 h hi hs
    | ejC2 => exact inv_ejC2 h hi hs
    | ejC3 => exact inv_ejC3 h hi hs
    | gh1 => exact inv_gh1 h hi hs
    | ghO2 => exact inv_ghO2 h hi hs
    | ghO3 => exact inv_ghO3 h hi hs
    | ghB => exact inv_ghB h hi hs
    | ghH2 => exact inv_ghH2 h hi hs
    | ghH3 => exact inv_ghH3 h hi hs
    | gt => exact inv_gt h hi hs
    | rl1 => exact inv_rl1 h hi hs
    | rlO2 => exact inv_rlO2 h hi hs
    | rlO3 => exact inv_rlO3 h hi hs
    | rlH2 => exact inv_rlH2 h hi hs
    | rlH3 => exact inv_rlH3 h hi hs
    | jb => exact inv_jb h hi hs
    | cp => exact inv_cp h hi hs
    | ad1 => exact inv_ad1 h hi hs
    | rt1 => exact inv_rt1 h hi hs
    | rt2 => exact inv_rt2 h hi hs
    | rt3 => exact inv_rt3 h hi hs
    | ad3 => exact inv_ad3 h hi hs
    | ad4 => exact inv_ad4 h hi hs
    | ad5 => exact inv_ad5 h hi hs
    | ad6 => exact inv_ad6 h hi hs
    | ad7 => exact inv_ad7 h hi hs
    | ad8 => exact inv_ad8 h hi hs
    | ad9 => exact inv_ad9 h hi hs
    | ad10 => exact inv_ad10 h hi hs
    | ad11 => exact inv_ad11 h hi hs
    | ad12 => exact inv_ad12 h hi hs
    | ad13 => exact inv_ad13 h hi hs
    | ad14 => exact inv_ad14 h hi hs
    | ad15 => exact inv_ad15 h hi hs
    | ad16 => exact inv_ad16 h hi hs
    | ad17 => exact inv_ad17 h hi hs
    | aw1 => exact inv_aw1 h hi hs
    | aw2 => exact inv_aw2 h hi hs
    | aw3 => exact inv_aw3 h hi hs
    | aw4 => exact inv_aw4 h hi hs
    | aw5 => exact inv_aw5 h hi hs
    | aw6 => exact inv_aw6 h hi hs
  · cases hs

theorem Inv.init (hw : 0 < P.hwm) (n : Nat) : Inv P (init P n) := by
  have hthr : ∀ t ∈ (Conc.init P n).thr, t = {} := fun t ht => (List.mem_replicate.mp ht).2
  have hH : (Conc.init P n).H = fun _ => 0 := by
    funext e
    exact List.countP_eq_zero.mpr (fun t ht => by rw [hthr t ht]; simp)
  have hV : (Conc.init P n).V = fun _ => 0 := by
    funext e
    exact List.countP_eq_zero.mpr (fun t ht => by rw [hthr t ht]; simp)
  have hs : (Conc.init P n).thr.countP (fun t => (sect t).isSome) = 0 :=
    List.countP_eq_zero.mpr (fun t ht => by rw [hthr t ht]; simp [sect])
  refine ⟨?_, ?_, ?_, ?_⟩
  · unfold Mutex; rw [hs]; rfl
  · intro t ht
    rw [hthr t ht]
    exact Loc.none ⟨rfl, rfl⟩ rfl
  · intro ph hph
    have hA : Core P (Conc.init P n).sv .A := by
      unfold St.sv
      rw [hH, hV]
      refine ⟨⟨⟨0, rfl, rfl, Nat.zero_lt_one, .inl ⟨rfl, rfl, fun _ _ => rfl⟩⟩, ⟨?_, le_refl _, rfl, fun _ _ _ => rfl, Nat.zero_le _, ?_⟩, ?_, ?_⟩, rfl⟩
      · exact Nat.ne_of_gt hw
      · intro h; exact absurd h (lt_irrefl _)
      · intro _ _; rfl
      · intro _ h; cases h
    rcases hph with ⟨_, rfl⟩ | ⟨e, he, _⟩ | ⟨t, ht, hp⟩
    · exact hA
    · cases he
    · rw [hthr t ht] at hp; cases hp
  · exact ⟨le_refl _, Nat.zero_le _⟩

theorem Reach.inv {n : Nat} {ok : St → Nat → Prop} (hw : 0 < P.hwm) (h : Reach P n ok s) : Inv P s := by
  induction h with
  | init => exact Inv.init hw n
  | step _ _ hs ih => exact ih.step hs

end DE.Conc
