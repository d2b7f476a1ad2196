import Verif.Proofs.ConcCore

/-!
The invariant is preserved by everything a thread other than the reconstruction can do to the shared state: pinning and
releasing epochs and heads (also when the release hits the wrong one), and claiming a buffer slot.
-/

namespace DE.Conc
variable {P : Par} {v : Sv}

/-! ### Epochs -/

/-- Replace `m_previous_epoch` and the pins of epoch `e`. -/
def Sv.setPrev (v : Sv) (p : EP) (e n : Nat) : Sv := { v with prev := p, H := upd v.H e n }
/-- Replace `m_current_epoch` and the pins of epoch `e`. -/
def Sv.setCur (v : Sv) (p : EP) (e n : Nat) : Sv := { v with cur := p, H := upd v.H e n }

theorem Nx.setPrev {p : EP} {e n x : Nat} (h : Nx v x) (hx : x ≠ e) : Nx (v.setPrev p e n) x :=
  ⟨h.1, h.2.1, h.2.2.1, by show upd v.H e n x = 0; rw [upd_ne _ _ hx]; exact h.2.2.2⟩
theorem Nx.setCur {p : EP} {e n x : Nat} (h : Nx v x) (hx : x ≠ e) : Nx (v.setCur p e n) x :=
  ⟨h.1, h.2.1, h.2.2.1, by show upd v.H e n x = 0; rw [upd_ne _ _ hx]; exact h.2.2.2⟩

theorem Core.prev_count {ph : Ph} (h : Core P v ph) {e : Nat} (he : v.prev.ep = some e) : v.H e ≤ v.prev.ref := by
  have key : ∀ {p c : EP}, EpS v p c → p.ep = some e → v.H e ≤ p.ref := by
    rintro p c ⟨e1, _, _, _, h⟩ hp
    rcases h with ⟨hp', _, _⟩ | ⟨e0, hp', _, _, _, hle, _, _⟩
    · rw [hp'] at hp; cases hp
    · rw [hp'] at hp; cases hp; exact hle
  have key2 : ∀ {c : EP}, EpS v ⟨none, 0⟩ c → c.ep = some e → v.H e ≤ c.ref := by
    rintro c ⟨e1, hc, _, _, h⟩ hp
    rcases h with ⟨_, hr, _⟩ | ⟨e0, hp', _⟩
    · rw [hc] at hp; cases hp; exact le_of_eq hr.symm
    · cases hp'
  cases ph with
  | A => exact key h.1.1 he
  | Cr => exact key h.1.1 he
  | N => exact key h.1.1 he
  | A1 => exact key h.1.1 he
  | G => exact key h.1.1 he
  | R => exact key h.1.1 he
  | B => rw [h.2.1] at he; cases he
  | C => obtain ⟨_, h, _⟩ := h; exact key2 h.2.1 he
  | W => obtain ⟨_, h, _⟩ := h; exact key2 h.2.1 he
  | D => obtain ⟨_, h, _⟩ := h; exact key2 h.2.1 he
  | A2 => exact key h.1.1 he

theorem Trans.pin {e x e1 : Nat} (h : Trans v x e1) (he : v.prev.ep = some e) :
    Trans (v.setPrev ⟨v.prev.ep, v.prev.ref + 1⟩ e (v.H e + 1)) x e1 := by
  obtain ⟨hc, hE, hp, hne, hN⟩ := h
  have : e = e1 := by rw [hp] at he; exact (Option.some.inj he).symm
  subst this
  exact ⟨hc, hE.pinC he, hp, hne, hN.setPrev hne⟩

theorem Trans.unpin {e x e1 : Nat} (h : Trans v x e1) (he : v.prev.ep = some e) (hH : 0 < v.H e) :
    Trans (v.setPrev ⟨v.prev.ep, v.prev.ref - 1⟩ e (v.H e - 1)) x e1 := by
  obtain ⟨hc, hE, hp, hne, hN⟩ := h
  have : e = e1 := by rw [hp] at he; exact (Option.some.inj he).symm
  subst this
  have hr : 0 < v.prev.ref := by
    obtain ⟨e1, hc, _, _, h⟩ := hE
    rcases h with ⟨_, hr, _⟩ | ⟨e0, hp', _⟩
    · rw [hc] at he; cases he; omega
    · cases hp'
  exact ⟨hc, hE.unpinC hr hH, hp, hne, hN.setPrev hne⟩

theorem Core.pinPrev {ph : Ph} (h : Core P v ph) {e : Nat} (he : v.prev.ep = some e) :
    Core P (v.setPrev ⟨v.prev.ep, v.prev.ref + 1⟩ e (v.H e + 1)) ph := by
  cases ph with
  | A => exact ⟨⟨h.1.1.pinP he, h.1.2.1, h.1.2.2⟩, h.2⟩
  | Cr => exact ⟨⟨h.1.1.pinP he, h.1.2.1, h.1.2.2⟩, h.2⟩
  | N =>
    obtain ⟨⟨hE, hB, hL⟩, x, hN, h1, h2, h3⟩ := h
    have hx : x ≠ e := fun y => h3 (y ▸ he)
    exact ⟨⟨hE.pinP he, hB, hL⟩, x, hN.setPrev hx, h1, h2, h3⟩
  | A1 x =>
    obtain ⟨⟨hE, hB, hL⟩, hN, h1, h2, h3⟩ := h
    have hx : x ≠ e := fun y => h3 (y ▸ he)
    exact ⟨⟨hE.pinP he, hB, hL⟩, hN.setPrev hx, h1, h2, h3⟩
  | G x g =>
    obtain ⟨⟨hE, hB, hL⟩, hN, h1, h2, h3, h4⟩ := h
    have hx : x ≠ e := fun y => h3 (y ▸ he)
    exact ⟨⟨hE.pinP he, hB, hL⟩, hN.setPrev hx, h1, h2, h3, h4⟩
  | R => have := h.2.2.2.2.1; rw [this] at he; cases he
  | B => rw [h.2.1] at he; cases he
  | C => obtain ⟨e1, hT, h⟩ := h; exact ⟨e1, hT.pin he, h⟩
  | W => obtain ⟨e1, hT, h⟩ := h; exact ⟨e1, hT.pin he, h⟩
  | D => obtain ⟨e1, hT, h⟩ := h; exact ⟨e1, hT.pin he, h⟩
  | A2 => exact ⟨⟨h.1.1.pinP he, h.1.2.1, h.1.2.2⟩, h.2⟩

theorem Core.unpinPrev {ph : Ph} (h : Core P v ph) {e : Nat} (he : v.prev.ep = some e) (hH : 0 < v.H e) :
    Core P (v.setPrev ⟨v.prev.ep, v.prev.ref - 1⟩ e (v.H e - 1)) ph := by
  cases ph with
  | A => exact ⟨⟨h.1.1.unpinP he hH, h.1.2.1, h.1.2.2⟩, h.2⟩
  | Cr => exact ⟨⟨h.1.1.unpinP he hH, h.1.2.1, h.1.2.2⟩, h.2⟩
  | N =>
    obtain ⟨⟨hE, hB, hL⟩, x, hN, h1, h2, h3⟩ := h
    have hx : x ≠ e := fun y => h3 (y ▸ he)
    exact ⟨⟨hE.unpinP he hH, hB, hL⟩, x, hN.setPrev hx, h1, h2, h3⟩
  | A1 x =>
    obtain ⟨⟨hE, hB, hL⟩, hN, h1, h2, h3⟩ := h
    have hx : x ≠ e := fun y => h3 (y ▸ he)
    exact ⟨⟨hE.unpinP he hH, hB, hL⟩, hN.setPrev hx, h1, h2, h3⟩
  | G x g =>
    obtain ⟨⟨hE, hB, hL⟩, hN, h1, h2, h3, h4⟩ := h
    have hx : x ≠ e := fun y => h3 (y ▸ he)
    exact ⟨⟨hE.unpinP he hH, hB, hL⟩, hN.setPrev hx, h1, h2, h3, h4⟩
  | R => have := h.2.2.2.2.1; rw [this] at he; cases he
  | B => rw [h.2.1] at he; cases he
  | C => obtain ⟨e1, hT, h⟩ := h; exact ⟨e1, hT.unpin he hH, h⟩
  | W => obtain ⟨e1, hT, h⟩ := h; exact ⟨e1, hT.unpin he hH, h⟩
  | D => obtain ⟨e1, hT, h⟩ := h; exact ⟨e1, hT.unpin he hH, h⟩
  | A2 => exact ⟨⟨h.1.1.unpinP he hH, h.1.2.1, h.1.2.2⟩, h.2⟩

theorem Core.pinCur {ph : Ph} (h : Core P v ph) {e : Nat} (he : v.cur.ep = some e) :
    Core P (v.setCur ⟨v.cur.ep, v.cur.ref + 1⟩ e (v.H e + 1)) ph := by
  cases ph with
  | A => exact ⟨⟨h.1.1.pinC he, h.1.2.1, h.1.2.2⟩, h.2⟩
  | Cr => exact ⟨⟨h.1.1.pinC he, h.1.2.1, h.1.2.2⟩, h.2⟩
  | N =>
    obtain ⟨⟨hE, hB, hL⟩, x, hN, h1, h2, h3⟩ := h
    have hx : x ≠ e := fun y => h2 (y ▸ he)
    exact ⟨⟨hE.pinC he, hB, hL⟩, x, hN.setCur hx, h1, h2, h3⟩
  | A1 x =>
    obtain ⟨⟨hE, hB, hL⟩, hN, h1, h2, h3⟩ := h
    have hx : x ≠ e := fun y => h2 (y ▸ he)
    exact ⟨⟨hE.pinC he, hB, hL⟩, hN.setCur hx, h1, h2, h3⟩
  | G x g =>
    obtain ⟨⟨hE, hB, hL⟩, hN, h1, h2, h3, h4⟩ := h
    have hx : x ≠ e := fun y => h2 (y ▸ he)
    exact ⟨⟨hE.pinC he, hB, hL⟩, hN.setCur hx, h1, h2, h3, h4⟩
  | R x d =>
    obtain ⟨⟨hE, hB, hL⟩, hN, h1, h2, h3, h4⟩ := h
    have hx : x ≠ e := fun y => h2 (y ▸ he)
    refine ⟨⟨hE.pinC he, hB, hL⟩, hN.setCur hx, h1, h2, h3, fun y hy => ⟨(h4 y hy).1, (h4 y hy).2.1, ?_, (h4 y hy).2.2.2⟩⟩
    have hye : y ≠ e := fun z => (h4 y hy).2.1 (z ▸ he)
    show upd v.H e _ y = 0
    rw [upd_ne _ _ hye]; exact (h4 y hy).2.2.1
  | B => rw [h.1] at he; cases he
  | C => obtain ⟨_, ⟨hc, _⟩, _⟩ := h; rw [hc] at he; cases he
  | W => obtain ⟨_, ⟨hc, _⟩, _⟩ := h; rw [hc] at he; cases he
  | D => obtain ⟨_, ⟨hc, _⟩, _⟩ := h; rw [hc] at he; cases he
  | A2 => exact ⟨⟨h.1.1.pinC he, h.1.2.1, h.1.2.2⟩, h.2⟩

theorem Core.unpinCur {ph : Ph} (h : Core P v ph) {e : Nat} (hr : 0 < v.cur.ref) (hH : 0 < v.H e) :
    Core P (v.setCur ⟨v.cur.ep, v.cur.ref - 1⟩ e (v.H e - 1)) ph := by
  cases ph with
  | A => exact ⟨⟨h.1.1.unpinC hr hH, h.1.2.1, h.1.2.2⟩, h.2⟩
  | Cr => exact ⟨⟨h.1.1.unpinC hr hH, h.1.2.1, h.1.2.2⟩, h.2⟩
  | N =>
    obtain ⟨⟨hE, hB, hL⟩, x, hN, h1, h2, h3⟩ := h
    have hx : x ≠ e := fun y => by rw [← y, hN.2.2.2] at hH; omega
    exact ⟨⟨hE.unpinC hr hH, hB, hL⟩, x, hN.setCur hx, h1, h2, h3⟩
  | A1 x =>
    obtain ⟨⟨hE, hB, hL⟩, hN, h1, h2, h3⟩ := h
    have hx : x ≠ e := fun y => by rw [← y, hN.2.2.2] at hH; omega
    exact ⟨⟨hE.unpinC hr hH, hB, hL⟩, hN.setCur hx, h1, h2, h3⟩
  | G x g =>
    obtain ⟨⟨hE, hB, hL⟩, hN, h1, h2, h3, h4⟩ := h
    have hx : x ≠ e := fun y => by rw [← y, hN.2.2.2] at hH; omega
    exact ⟨⟨hE.unpinC hr hH, hB, hL⟩, hN.setCur hx, h1, h2, h3, h4⟩
  | R x d =>
    obtain ⟨⟨hE, hB, hL⟩, hN, h1, h2, h3, h4⟩ := h
    have hx : x ≠ e := fun y => by rw [← y, hN.2.2.2] at hH; omega
    refine ⟨⟨hE.unpinC hr hH, hB, hL⟩, hN.setCur hx, h1, h2, h3, fun y hy => ⟨(h4 y hy).1, (h4 y hy).2.1, ?_, (h4 y hy).2.2.2⟩⟩
    have hye : y ≠ e := fun z => by rw [← z, (h4 y hy).2.2.1] at hH; omega
    show upd v.H e _ y = 0
    rw [upd_ne _ _ hye]; exact (h4 y hy).2.2.1
  | B => rw [h.1] at hr; cases hr
  | C => obtain ⟨_, ⟨hc, _⟩, _⟩ := h; rw [hc] at hr; cases hr
  | W => obtain ⟨_, ⟨hc, _⟩, _⟩ := h; rw [hc] at hr; cases hr
  | D => obtain ⟨_, ⟨hc, _⟩, _⟩ := h; rw [hc] at hr; cases hr
  | A2 => exact ⟨⟨h.1.1.unpinC hr hH, h.1.2.1, h.1.2.2⟩, h.2⟩

/-! ### Heads -/

/-- Replace the old head and the views on head `x`. -/
def Sv.setOld (v : Sv) (o : Hd) (x n : Nat) : Sv := { v with old := o, V := upd v.V x n }
/-- Replace the head and the views on head `x`. -/
def Sv.setHead (v : Sv) (o : Hd) (x n : Nat) : Sv := { v with head := o, V := upd v.V x n }

theorem Core.pinHead {ph : Ph} (h : Core P v ph)
    (hx : ∃ e, (0 < v.H e ∨ ∃ g, ph = .G e g) ∧ v.ehead e = v.head.idx) :
    Core P (v.setHead ⟨v.head.idx, v.head.ref + 1⟩ v.head.idx (v.V v.head.idx + 1)) ph := by
  cases ph with
  | A => exact ⟨⟨h.1.1, h.1.2.1.pinH, h.1.2.2⟩, h.2⟩
  | Cr => exact ⟨⟨h.1.1, h.1.2.1.pinH, h.1.2.2⟩, h.2⟩
  | N => exact ⟨⟨h.1.1, h.1.2.1.pinH, h.1.2.2⟩, h.2⟩
  | A1 => exact ⟨⟨h.1.1, h.1.2.1.pinH, h.1.2.2⟩, h.2⟩
  | G => exact ⟨⟨h.1.1, h.1.2.1.pinH, h.1.2.2⟩, h.2⟩
  | R => exact ⟨⟨h.1.1, h.1.2.1.pinH, h.1.2.2⟩, h.2⟩
  | B => obtain ⟨h1, h2, h3, h4, h5, h6, h7⟩ := h; exact ⟨h1, h2, h3, h4, h5, h6.pinH, h7⟩
  | C => obtain ⟨e1, hT, h1, h2, h3⟩ := h; exact ⟨e1, hT, h1, h2.pinH, h3⟩
  | W e n c =>
    obtain ⟨e1, hT, h1, h2, h3, h4, h5, h6, h7⟩ := h
    obtain ⟨x, hx | ⟨_, hx⟩, hxe⟩ := hx
    · obtain ⟨hx', _⟩ := hT.2.1.held hx
      rcases hx' with y | y
      · cases y
      · rw [hT.2.2.1] at y; cases y
        rw [h1, h4] at hxe; simp at hxe; omega
    · cases hx
  | D => obtain ⟨e1, hT, h1, h2, h3⟩ := h; exact ⟨e1, hT, h1, h2.pinH, h3⟩
  | A2 => exact ⟨⟨h.1.1, h.1.2.1.pinH, h.1.2.2⟩, h.2⟩

theorem Calm.old_target (h : Calm P v) {e : Nat} (he : 0 < v.H e) (hg : v.ehead e = v.old.idx) : v.old.idx < v.head.idx := by
  rcases (h.1.held he).1 with x | x
  · exact (h.2.2.2 e x).2
  · have := h.2.2.1 e x; rw [hg] at this; exact absurd this h.2.1.1

theorem Core.pinOld {ph : Ph} (h : Core P v ph) {e : Nat} (he : 0 < v.H e) (hg : v.ehead e = v.old.idx) :
    Core P (v.setOld ⟨v.old.idx, v.old.ref + 1⟩ v.old.idx (v.V v.old.idx + 1)) ph := by
  cases ph with
  | A => exact ⟨⟨h.1.1, h.1.2.1.pinO (h.1.old_target he hg), h.1.2.2⟩, h.2⟩
  | Cr => exact ⟨⟨h.1.1, h.1.2.1.pinO (h.1.old_target he hg), h.1.2.2⟩, h.2⟩
  | N => exact ⟨⟨h.1.1, h.1.2.1.pinO (h.1.old_target he hg), h.1.2.2⟩, h.2⟩
  | A1 => exact ⟨⟨h.1.1, h.1.2.1.pinO (h.1.old_target he hg), h.1.2.2⟩, h.2⟩
  | G => exact ⟨⟨h.1.1, h.1.2.1.pinO (h.1.old_target he hg), h.1.2.2⟩, h.2⟩
  | R => exact ⟨⟨h.1.1, h.1.2.1.pinO (h.1.old_target he hg), h.1.2.2⟩, h.2⟩
  | B x c =>
    obtain ⟨h1, h2, h3, h4, h5, h6, h7⟩ := h
    rcases (h4.held he).1 with y | y
    · cases y
    · rw [h7 e y] at hg; exact absurd hg (Ne.symm h6.1)
  | C =>
    obtain ⟨e1, hT, h1, h2, h3⟩ := h
    rcases (hT.2.1.held he).1 with y | y
    · cases y
    · rw [hT.2.2.1] at y; cases y; rw [h1] at hg; exact absurd hg (Ne.symm h2.1)
  | W =>
    obtain ⟨e1, hT, h1, h2, h3⟩ := h
    rcases (hT.2.1.held he).1 with y | y
    · cases y
    · rw [hT.2.2.1] at y; cases y; rw [h1] at hg; exact absurd hg (Ne.symm h2.1)
  | D =>
    obtain ⟨e1, hT, h1, h2, h3, h4, h5⟩ := h
    exact ⟨e1, hT, h1, h2.pinO (h4 ▸ h5), h3, h4, h5⟩
  | A2 => exact ⟨⟨h.1.1, h.1.2.1.pinO (h.1.old_target he hg), h.1.2.2⟩, h.2⟩

theorem Core.unpinOld {ph : Ph} (h : Core P v ph) (hV : 0 < v.V v.old.idx) :
    Core P (v.setOld ⟨v.old.idx, v.old.ref - 1⟩ v.old.idx (v.V v.old.idx - 1)) ph := by
  cases ph with
  | A => exact ⟨⟨h.1.1, h.1.2.1.unpinO hV, h.1.2.2⟩, h.2⟩
  | Cr => exact ⟨⟨h.1.1, h.1.2.1.unpinO hV, h.1.2.2⟩, h.2⟩
  | N => exact ⟨⟨h.1.1, h.1.2.1.unpinO hV, h.1.2.2⟩, h.2⟩
  | A1 => exact ⟨⟨h.1.1, h.1.2.1.unpinO hV, h.1.2.2⟩, h.2⟩
  | G => exact ⟨⟨h.1.1, h.1.2.1.unpinO hV, h.1.2.2⟩, h.2⟩
  | R => exact ⟨⟨h.1.1, h.1.2.1.unpinO hV, h.1.2.2⟩, h.2⟩
  | B => obtain ⟨h1, h2, h3, h4, h5, h6, h7⟩ := h; exact ⟨h1, h2, h3, h4, h5, h6.unpinO hV, h7⟩
  | C e n l =>
    obtain ⟨e1, hT, h1, h2, h3, h4, h5⟩ := h
    exact ⟨e1, hT, h1, h2.unpinO hV, h3, h4, fun hl => by show v.old.ref - 1 = 0; rw [h5 hl]⟩
  | W =>
    obtain ⟨e1, hT, h1, h2, h3, h4, h5, h6⟩ := h
    have := h2.2.1; omega
  | D => obtain ⟨e1, hT, h1, h2, h3⟩ := h; exact ⟨e1, hT, h1, h2.unpinO hV, h3⟩
  | A2 => exact ⟨⟨h.1.1, h.1.2.1.unpinO hV, h.1.2.2⟩, h.2⟩

theorem Core.unpinHead {ph : Ph} (h : Core P v ph) {x : Nat} (hr : 0 < v.head.ref) (hV : 0 < v.V x) :
    Core P (v.setHead ⟨v.head.idx, v.head.ref - 1⟩ x (v.V x - 1)) ph := by
  cases ph with
  | A => exact ⟨⟨h.1.1, h.1.2.1.unpinH hr hV, h.1.2.2⟩, h.2⟩
  | Cr => exact ⟨⟨h.1.1, h.1.2.1.unpinH hr hV, h.1.2.2⟩, h.2⟩
  | N => exact ⟨⟨h.1.1, h.1.2.1.unpinH hr hV, h.1.2.2⟩, h.2⟩
  | A1 => exact ⟨⟨h.1.1, h.1.2.1.unpinH hr hV, h.1.2.2⟩, h.2⟩
  | G => exact ⟨⟨h.1.1, h.1.2.1.unpinH hr hV, h.1.2.2⟩, h.2⟩
  | R => exact ⟨⟨h.1.1, h.1.2.1.unpinH hr hV, h.1.2.2⟩, h.2⟩
  | B => obtain ⟨h1, h2, h3, h4, h5, h6, h7⟩ := h; exact ⟨h1, h2, h3, h4, h5, h6.unpinH hr hV, h7⟩
  | C => obtain ⟨e1, hT, h1, h2, h3⟩ := h; exact ⟨e1, hT, h1, h2.unpinH hr hV, h3⟩
  | W =>
    obtain ⟨e1, hT, h1, h2, h3, h4, h5⟩ := h
    rw [h4] at hr; cases hr
  | D => obtain ⟨e1, hT, h1, h2, h3⟩ := h; exact ⟨e1, hT, h1, h2.unpinH hr hV, h3⟩
  | A2 => exact ⟨⟨h.1.1, h.1.2.1.unpinH hr hV, h.1.2.2⟩, h.2⟩

theorem Core.claim {ph : Ph} (h : Core P v ph) {t : Nat} (ht : v.tail ≤ t) : Core P { v with tail := t } ph := by
  cases ph with
  | A => exact h
  | Cr => exact h
  | N => exact h
  | A1 => exact h
  | G => exact h
  | R => exact h
  | B => exact h
  | C =>
    obtain ⟨e1, hT, h1, h2, h3, h4, h5⟩ := h
    exact ⟨e1, hT, h1, h2, h3, fun hl => ⟨(h4 hl).1, le_trans (h4 hl).2 ht⟩, h5⟩
  | W => exact h
  | D => exact h
  | A2 => exact h

end DE.Conc
