import Verif.Proofs.ConcInv

/-!
Every step preserves the invariant.
-/

namespace DE.Conc
variable {P : Par}

theorem Loc.none {v : Sv} {t : Th} (h : LocPc P v t) (hd : t.hd = none) : Loc P v t :=
  ⟨h, fun x hx => by rw [hd] at hx; cases hx⟩

theorem Loc.free {v : Sv} {t : Th} (hf : Free t) (h : LocPc P v t) : Loc P v t := Loc.none h hf.2

theorem Loc.keep {v : Sv} {t t' : Th} (h : LocPc P v t') (hl : LocVw v t) (hd : t'.hd = t.hd) (htl : t'.tl = t.tl)
    (hpc : ∀ k, t.pc ≠ .gt k) : Loc P v t' := by
  refine ⟨h, fun x hx => .inr ?_⟩
  rcases hl x (hd ▸ hx) with ⟨k, hk⟩ | h
  · exact absurd hk (hpc k)
  · rw [htl]; exact h

theorem sv_pinP {s : St} {i : Nat} {t t' : Th} (hi : s.thr[i]? = some t) (hn : t.ep = none) {e : Nat} (he : t'.ep = some e)
    (hd : t'.hd = t.hd) (p : EP) : ({ s with prev := p }.setT i t').sv = s.sv.setPrev p e (s.H e + 1) := by
  have h1 := H_set_pin (s := { s with prev := p }) (i := i) (t := t) (t' := t') hi hn he
  have h2 := V_set_same (s := { s with prev := p }) (i := i) (t := t) (t' := t') hi hd
  unfold St.sv; rw [h1, h2]; rfl

theorem sv_pinC {s : St} {i : Nat} {t t' : Th} (hi : s.thr[i]? = some t) (hn : t.ep = none) {e : Nat} (he : t'.ep = some e)
    (hd : t'.hd = t.hd) (p : EP) : ({ s with cur := p }.setT i t').sv = s.sv.setCur p e (s.H e + 1) := by
  have h1 := H_set_pin (s := { s with cur := p }) (i := i) (t := t) (t' := t') hi hn he
  have h2 := V_set_same (s := { s with cur := p }) (i := i) (t := t) (t' := t') hi hd
  unfold St.sv; rw [h1, h2]; rfl

theorem sv_unpinP {s : St} {i : Nat} {t t' : Th} (hi : s.thr[i]? = some t) {e : Nat} (he : t.ep = some e) (hn : t'.ep = none)
    (hd : t'.hd = t.hd) (p : EP) : ({ s with prev := p }.setT i t').sv = s.sv.setPrev p e (s.H e - 1) := by
  have h1 := H_set_unpin (s := { s with prev := p }) (i := i) (t := t) (t' := t') hi he hn
  have h2 := V_set_same (s := { s with prev := p }) (i := i) (t := t) (t' := t') hi hd
  unfold St.sv; rw [h1, h2]; rfl

theorem sv_unpinC {s : St} {i : Nat} {t t' : Th} (hi : s.thr[i]? = some t) {e : Nat} (he : t.ep = some e) (hn : t'.ep = none)
    (hd : t'.hd = t.hd) (p : EP) : ({ s with cur := p }.setT i t').sv = s.sv.setCur p e (s.H e - 1) := by
  have h1 := H_set_unpin (s := { s with cur := p }) (i := i) (t := t) (t' := t') hi he hn
  have h2 := V_set_same (s := { s with cur := p }) (i := i) (t := t) (t' := t') hi hd
  unfold St.sv; rw [h1, h2]; rfl

theorem sv_pinO {s : St} {i : Nat} {t t' : Th} (hi : s.thr[i]? = some t) (hn : t.hd = none) {e : Nat} (he : t'.hd = some e)
    (hd : t'.ep = t.ep) (p : Hd) : ({ s with old := p }.setT i t').sv = s.sv.setOld p e (s.V e + 1) := by
  have h1 := V_set_pin (s := { s with old := p }) (i := i) (t := t) (t' := t') hi hn he
  have h2 := H_set_same (s := { s with old := p }) (i := i) (t := t) (t' := t') hi hd
  unfold St.sv; rw [h1, h2]; rfl

theorem sv_pinH {s : St} {i : Nat} {t t' : Th} (hi : s.thr[i]? = some t) (hn : t.hd = none) {e : Nat} (he : t'.hd = some e)
    (hd : t'.ep = t.ep) (p : Hd) : ({ s with head := p }.setT i t').sv = s.sv.setHead p e (s.V e + 1) := by
  have h1 := V_set_pin (s := { s with head := p }) (i := i) (t := t) (t' := t') hi hn he
  have h2 := H_set_same (s := { s with head := p }) (i := i) (t := t) (t' := t') hi hd
  unfold St.sv; rw [h1, h2]; rfl

theorem sv_unpinO {s : St} {i : Nat} {t t' : Th} (hi : s.thr[i]? = some t) {e : Nat} (he : t.hd = some e) (hn : t'.hd = none)
    (hd : t'.ep = t.ep) (p : Hd) : ({ s with old := p }.setT i t').sv = s.sv.setOld p e (s.V e - 1) := by
  have h1 := V_set_unpin (s := { s with old := p }) (i := i) (t := t) (t' := t') hi he hn
  have h2 := H_set_same (s := { s with old := p }) (i := i) (t := t) (t' := t') hi hd
  unfold St.sv; rw [h1, h2]; rfl

theorem sv_unpinH {s : St} {i : Nat} {t t' : Th} (hi : s.thr[i]? = some t) {e : Nat} (he : t.hd = some e) (hn : t'.hd = none)
    (hd : t'.ep = t.ep) (p : Hd) : ({ s with head := p }.setT i t').sv = s.sv.setHead p e (s.V e - 1) := by
  have h1 := V_set_unpin (s := { s with head := p }) (i := i) (t := t) (t' := t') hi he hn
  have h2 := H_set_same (s := { s with head := p }) (i := i) (t := t) (t' := t') hi hd
  unfold St.sv; rw [h1, h2]; rfl

/-- Shared changes that leave the pins alone. -/
theorem sv_same {s s₂ : St} {i : Nat} {t t' : Th} (hi : s₂.thr[i]? = some t) (he : t'.ep = t.ep) (hd : t'.hd = t.hd)
    (hv : s₂.sv = s.sv) : (s₂.setT i t').sv = s.sv := by
  rw [← hv]
  unfold St.sv; rw [H_set_same hi he, V_set_same hi hd]; rfl

/-- Replacing a thread by one with the same pins. -/
theorem sv_set {s₂ : St} {i : Nat} {t t' : Th} (hi : s₂.thr[i]? = some t) (he : t'.ep = t.ep) (hd : t'.hd = t.hd) :
    (s₂.setT i t').sv = s₂.sv := sv_same hi he hd rfl

/-! ### Stability of the individual changes -/

theorem Stable.setPrev {v : Sv} {p : EP} {e n : Nat} (hp : p.ep = v.prev.ep) : Stable v (v.setPrev p e n) :=
  ⟨le_refl _, le_refl _, fun _ _ => rfl, fun _ _ h => h, fun _ _ h => hp.trans h⟩
theorem Stable.setCur {v : Sv} {p : EP} {e n : Nat} : Stable v (v.setCur p e n) :=
  ⟨le_refl _, le_refl _, fun _ _ => rfl, fun _ _ h => h, fun _ _ h => h⟩
theorem Stable.setOld {v : Sv} {p : Hd} {e n : Nat} (hp : p.idx = v.old.idx) : Stable v (v.setOld p e n) :=
  ⟨le_refl _, le_refl _, fun _ _ => rfl, fun _ _ h => hp.trans h, fun _ _ h => h⟩
theorem Stable.setHead {v : Sv} {p : Hd} {e n : Nat} (hp : p.idx = v.head.idx) : Stable v (v.setHead p e n) :=
  ⟨le_refl _, le_of_eq hp.symm, fun _ _ => rfl, fun _ _ h => h, fun _ _ h => h⟩

section steps
variable {s : St} {i : Nat} {t : Th}

/-- `go` keeps nothing pinned and stays outside the reconstruction. -/
theorem Inv.goFree (h : Inv P s) (hi : s.thr[i]? = some t) (hf : Free t) {pc : PC}
    (hl : LocPc P s.sv { t with pc := pc }) (hs : sect { t with pc := pc } = sect t) : Inv P (s.setT i { t with pc := pc }) :=
  h.go hi rfl rfl (Loc.none hl hf.2) hs

/-- `go` in the middle of a client job. -/
theorem Inv.goKeep (h : Inv P s) (hi : s.thr[i]? = some t) {pc : PC} (hpc : ∀ k, t.pc ≠ .gt k)
    (hl : LocPc P s.sv { t with pc := pc }) (hs : sect { t with pc := pc } = sect t) : Inv P (s.setT i { t with pc := pc }) :=
  h.go hi rfl rfl (Loc.keep hl (h.thread hi).2 rfl rfl hpc) hs

/-- A pinned epoch is alive. -/
theorem Inv.alive (h : Inv P s) (hi : s.thr[i]? = some t) {e : Nat} (he : t.ep = some e) : s.alive e = true := by
  obtain ⟨ph, hp⟩ := h.some_phase
  exact ((h.core ph hp).alive (v := s.sv) (H_pos hi he)).1

theorem Inv.pinPrev (h : Inv P s) (hi : s.thr[i]? = some t) (hf : t.ep = none) {e : Nat} (he : s.prev.ep = some e) {t' : Th}
    (ht' : t'.ep = some e) (hd : t'.hd = t.hd) (hs : sect t' = sect t)
    (hl : ∀ n, Loc P (s.sv.setPrev ⟨some e, s.prev.ref + 1⟩ e n) t') :
    Inv P ({ s with prev := ⟨some e, s.prev.ref + 1⟩ }.setT i t') := by
  have hp : (⟨some e, s.prev.ref + 1⟩ : EP) = ⟨s.sv.prev.ep, s.sv.prev.ref + 1⟩ := by
    show _ = (⟨s.prev.ep, s.prev.ref + 1⟩ : EP); rw [he]
  refine h.act hi rfl rfl rfl (sv_pinP hi hf ht' hd _) (.setPrev he.symm) (hl _) h.bnd hs ?_
  intro ph _ hc
  rw [hp]
  exact hc.pinPrev he

theorem Inv.pinCur (h : Inv P s) (hi : s.thr[i]? = some t) (hf : t.ep = none) {e : Nat} (he : s.cur.ep = some e) {t' : Th}
    (ht' : t'.ep = some e) (hd : t'.hd = t.hd) (hs : sect t' = sect t)
    (hl : ∀ n, Loc P (s.sv.setCur ⟨some e, s.cur.ref + 1⟩ e n) t') :
    Inv P ({ s with cur := ⟨some e, s.cur.ref + 1⟩ }.setT i t') := by
  have hp : (⟨some e, s.cur.ref + 1⟩ : EP) = ⟨s.sv.cur.ep, s.sv.cur.ref + 1⟩ := by
    show _ = (⟨s.cur.ep, s.cur.ref + 1⟩ : EP); rw [he]
  refine h.act hi rfl rfl rfl (sv_pinC hi hf ht' hd _) .setCur (hl _) h.bnd hs ?_
  intro ph _ hc
  rw [hp]
  exact hc.pinCur he

theorem Inv.unpinPrev (h : Inv P s) (hi : s.thr[i]? = some t) {e : Nat} (ht : t.ep = some e) (he : s.prev.ep = some e) {t' : Th}
    (ht' : t'.ep = none) (hd : t'.hd = t.hd) (hs : sect t' = sect t)
    (hl : ∀ n, Loc P (s.sv.setPrev ⟨some e, s.prev.ref - 1⟩ e n) t') :
    Inv P ({ s with prev := ⟨some e, s.prev.ref - 1⟩ }.setT i t') := by
  have hp : (⟨some e, s.prev.ref - 1⟩ : EP) = ⟨s.sv.prev.ep, s.sv.prev.ref - 1⟩ := by
    show _ = (⟨s.prev.ep, s.prev.ref - 1⟩ : EP); rw [he]
  refine h.act hi rfl rfl rfl (sv_unpinP hi ht ht' hd _) (.setPrev he.symm) (hl _) h.bnd hs ?_
  intro ph _ hc
  rw [hp]
  exact hc.unpinPrev he (H_pos hi ht)

theorem Inv.unpinCur (h : Inv P s) (hi : s.thr[i]? = some t) {e : Nat} (ht : t.ep = some e) (hr : 0 < s.cur.ref) {t' : Th}
    (ht' : t'.ep = none) (hd : t'.hd = t.hd) (hs : sect t' = sect t)
    (hl : ∀ n, Loc P (s.sv.setCur ⟨s.cur.ep, s.cur.ref - 1⟩ e n) t') :
    Inv P ({ s with cur := ⟨s.cur.ep, s.cur.ref - 1⟩ }.setT i t') := by
  refine h.act hi rfl rfl rfl (sv_unpinC hi ht ht' hd _) .setCur (hl _) h.bnd hs ?_
  intro ph _ hc
  exact hc.unpinCur hr (H_pos hi ht)

theorem Inv.pinOld (h : Inv P s) (hi : s.thr[i]? = some t) (hf : t.hd = none) {e : Nat} (he : t.ep = some e)
    (hg : s.ehead e = s.old.idx) {t' : Th} (ht' : t'.hd = some s.old.idx) (hd : t'.ep = t.ep) (hs : sect t' = sect t)
    (hl : ∀ n, Loc P (s.sv.setOld ⟨s.old.idx, s.old.ref + 1⟩ s.old.idx n) t') :
    Inv P ({ s with old := ⟨s.old.idx, s.old.ref + 1⟩ }.setT i t') := by
  refine h.act hi rfl rfl rfl (sv_pinO hi hf ht' hd _) (.setOld rfl) (hl _) h.bnd hs ?_
  intro ph _ hc
  exact hc.pinOld (H_pos hi he) hg

theorem Inv.pinHead (h : Inv P s) (hi : s.thr[i]? = some t) (hf : t.hd = none) {e : Nat} (he : t.ep = some e)
    (hg : s.ehead e = s.head.idx) {t' : Th} (ht' : t'.hd = some s.head.idx) (hd : t'.ep = t.ep) (hs : sect t' = sect t)
    (hl : ∀ n, Loc P (s.sv.setHead ⟨s.head.idx, s.head.ref + 1⟩ s.head.idx n) t') :
    Inv P ({ s with head := ⟨s.head.idx, s.head.ref + 1⟩ }.setT i t') := by
  refine h.act hi rfl rfl rfl (sv_pinH hi hf ht' hd _) (.setHead rfl) (hl _) h.bnd hs ?_
  intro ph _ hc
  exact hc.pinHead ⟨e, .inl (H_pos hi he), hg⟩

theorem Inv.unpinOld (h : Inv P s) (hi : s.thr[i]? = some t) (ht : t.hd = some s.old.idx) {t' : Th}
    (ht' : t'.hd = none) (hd : t'.ep = t.ep) (hs : sect t' = sect t)
    (hl : ∀ n, Loc P (s.sv.setOld ⟨s.old.idx, s.old.ref - 1⟩ s.old.idx n) t') :
    Inv P ({ s with old := ⟨s.old.idx, s.old.ref - 1⟩ }.setT i t') := by
  refine h.act hi rfl rfl rfl (sv_unpinO hi ht ht' hd _) (.setOld rfl) (hl _) h.bnd hs ?_
  intro ph _ hc
  exact hc.unpinOld (V_pos hi ht)

theorem Inv.unpinHead (h : Inv P s) (hi : s.thr[i]? = some t) {x : Nat} (ht : t.hd = some x) (hr : 0 < s.head.ref) {t' : Th}
    (ht' : t'.hd = none) (hd : t'.ep = t.ep) (hs : sect t' = sect t)
    (hl : ∀ n, Loc P (s.sv.setHead ⟨s.head.idx, s.head.ref - 1⟩ x n) t') :
    Inv P ({ s with head := ⟨s.head.idx, s.head.ref - 1⟩ }.setT i t') := by
  refine h.act hi rfl rfl rfl (sv_unpinH hi ht ht' hd _) (.setHead rfl) (hl _) h.bnd hs ?_
  intro ph _ hc
  exact hc.unpinHead hr (V_pos hi ht)

/-- `notify_all` does not disturb anything. -/
theorem wake_ep (u : Th) : (wake u).ep = u.ep := by unfold wake; split <;> rfl
theorem wake_hd (u : Th) : (wake u).hd = u.hd := by unfold wake; split <;> rfl
theorem wake_tl (u : Th) : (wake u).tl = u.tl := by unfold wake; split <;> rfl
theorem wake_of_ne {u : Th} (h : u.pc ≠ .aw4) : wake u = u := by unfold wake; rw [if_neg h]
theorem wake_sect (u : Th) : sect (wake u) = sect u := by
  unfold wake
  split
  · rename_i h; simp only [sect, h]
  · rfl
theorem wake_loc {v : Sv} {u : Th} (h : Loc P v u) : Loc P v (wake u) := by
  unfold wake
  split
  · rename_i hp
    have hf : Free u := by have := h.1; unfold LocPc at this; rw [hp] at this; exact this
    exact Loc.none hf hf.2
  · exact h

theorem sv_wake (s : St) : ({ s with thr := s.thr.map wake } : St).sv = s.sv := by
  have h1 : ({ s with thr := s.thr.map wake } : St).H = s.H := by
    funext e
    show (s.thr.map wake).countP _ = s.thr.countP _
    rw [List.countP_map]
    refine List.countP_congr (fun u _ => ?_)
    simp [wake_ep]
  have h2 : ({ s with thr := s.thr.map wake } : St).V = s.V := by
    funext e
    show (s.thr.map wake).countP _ = s.thr.countP _
    rw [List.countP_map]
    refine List.countP_congr (fun u _ => ?_)
    simp [wake_hd]
  unfold St.sv
  rw [h1, h2]

theorem Inv.wake (h : Inv P s) : Inv P { s with thr := s.thr.map wake } := by
  refine ⟨?_, ?_, ?_, ?_⟩
  · have := h.mutex
    unfold Mutex at this ⊢
    show (s.thr.map Conc.wake).countP _ + s.jobs.length = _
    rw [List.countP_map]
    rw [← this]
    congr 1
    exact List.countP_congr (fun u _ => by simp [wake_sect])
  · intro u hu
    rw [sv_wake]
    obtain ⟨w, hw, rfl⟩ := List.mem_map.mp hu
    exact wake_loc (h.loc w hw)
  · intro ph hph
    rw [sv_wake]
    refine h.core ph ?_
    rcases hph with hp | hp | ⟨u, hu, hp⟩
    · exact .inl hp
    · exact .inr (.inl hp)
    · obtain ⟨w, hw, rfl⟩ := List.mem_map.mp hu
      rw [wake_sect] at hp
      exact .inr (.inr ⟨w, hw, hp⟩)
  · rw [sv_wake]; exact h.bnd

end steps

end DE.Conc
