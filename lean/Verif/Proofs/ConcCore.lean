import Verif.Model.Conc
import Mathlib.Data.Nat.Basic
import Mathlib.Tactic.Ring

/-!
The invariant of the concurrent model: the part that speaks about reference counts.

`Sv` is the shared state together with the number of threads pinning each epoch (`H`) and each head (`V`). `Core v ph` is the
invariant that holds while the one reconstruction in flight is in phase `ph`.
-/

namespace DE.Conc

/-- Number of threads that have pinned epoch `e`. -/
def St.H (s : St) (e : Nat) : Nat := s.thr.countP (fun t => decide (t.ep = some e))
/-- Number of threads holding a view on head `h`. -/
def St.V (s : St) (h : Nat) : Nat := s.thr.countP (fun t => decide (t.hd = some h))

/-- The shared state, with the pins. -/
structure Sv where
  tail : Nat
  head : Hd
  old : Hd
  cur : EP
  prev : EP
  next : Option Nat
  ehead : Nat → Nat
  alive : Nat → Bool
  nextId : Nat
  H : Nat → Nat
  V : Nat → Nat

/-- Projection of a state. -/
def St.sv (s : St) : Sv :=
  ⟨s.tail, s.head, s.old, s.cur, s.prev, s.next, s.ehead, s.alive, s.nextId, s.H, s.V⟩

/-- Counts of a pair of epochs: all pins are on one of the two; the older one is never counted too low, and the sum is right. -/
def EpS (v : Sv) (p c : EP) : Prop :=
  ∃ e1, c.ep = some e1 ∧ v.alive e1 = true ∧ e1 < v.nextId ∧
    ((p = ⟨none, 0⟩ ∧ c.ref = v.H e1 ∧ ∀ e, e ≠ e1 → v.H e = 0) ∨
     (∃ e0, p.ep = some e0 ∧ e0 ≠ e1 ∧ v.alive e0 = true ∧ e0 < v.nextId ∧ v.H e0 ≤ p.ref ∧
        p.ref + c.ref = v.H e0 + v.H e1 ∧ ∀ e, e ≠ e0 → e ≠ e1 → v.H e = 0))

/-- The same for a pair of heads. -/
def BufS (P : Par) (v : Sv) (o h : Hd) : Prop :=
  o.idx ≠ h.idx ∧ v.V o.idx ≤ o.ref ∧ o.ref + h.ref = v.V o.idx + v.V h.idx ∧
    (∀ x, x ≠ o.idx → x ≠ h.idx → v.V x = 0) ∧ h.idx ≤ o.idx + P.hwm ∧ (0 < v.V o.idx → o.idx < h.idx)

/-- The heads of the epochs, outside a transition. -/
def Link (v : Sv) : Prop :=
  (∀ e, v.cur.ep = some e → v.ehead e = v.head.idx) ∧
  (∀ e, v.prev.ep = some e → v.ehead e = v.old.idx ∧ v.old.idx < v.head.idx)

/-- The next epoch. -/
def Nx (v : Sv) (e : Nat) : Prop :=
  v.next = some e ∧ v.alive e = true ∧ e < v.nextId ∧ v.H e = 0

/-- Outside the critical part of a transition. -/
def Calm (P : Par) (v : Sv) : Prop := EpS v v.prev v.cur ∧ BufS P v v.old v.head ∧ Link v

/-- During a transition: no current epoch, the former one is in `m_previous_epoch`. -/
def Trans (v : Sv) (e e1 : Nat) : Prop :=
  v.cur = ⟨none, 0⟩ ∧ EpS v ⟨none, 0⟩ v.prev ∧ v.prev.ep = some e1 ∧ e ≠ e1 ∧ Nx v e

/-- Phases of the reconstruction. -/
inductive Ph where
  | A                                   -- no next epoch
  | Cr (e : Nat)                        -- cloning the current epoch `e`
  | N                                   -- next epoch stored
  | A1 (e : Nat)                        -- the same, `e` is the next epoch
  | G (e g : Nat)                       -- the reconstruction acquires its view
  | R (e : Nat) (x : Option Nat)        -- previous epoch retired; `x` not yet deleted
  | B (e : Nat) (c : EP)                -- current epoch taken out, not yet stored as previous
  | C (e n l : Nat)                     -- advancing the head to `n`
  | W (e n : Nat) (c : Hd)              -- head replaced, old head not yet stored
  | D (e n : Nat)                       -- head advanced
  | A2                                  -- next epoch made current
deriving DecidableEq, Repr

/-- The invariant of each phase. -/
def Core (P : Par) (v : Sv) : Ph → Prop
  | .A => Calm P v ∧ v.next = none
  | .Cr e => Calm P v ∧ v.next = none ∧ v.cur.ep = some e
  | .N => Calm P v ∧ ∃ e, Nx v e ∧ v.ehead e = v.head.idx ∧ v.cur.ep ≠ some e ∧ v.prev.ep ≠ some e
  | .A1 e => Calm P v ∧ Nx v e ∧ v.ehead e = v.head.idx ∧ v.cur.ep ≠ some e ∧ v.prev.ep ≠ some e
  | .G e g => Calm P v ∧ Nx v e ∧ v.ehead e = v.head.idx ∧ v.cur.ep ≠ some e ∧ v.prev.ep ≠ some e ∧ g = v.head.idx
  | .R e x => Calm P v ∧ Nx v e ∧ v.ehead e = v.head.idx ∧ v.cur.ep ≠ some e ∧ v.prev = ⟨none, 0⟩ ∧
      ∀ y, x = some y → y ≠ e ∧ v.cur.ep ≠ some y ∧ v.H y = 0 ∧ v.alive y = true
  | .B e c => v.cur = ⟨none, 0⟩ ∧ v.prev = ⟨none, 0⟩ ∧ Nx v e ∧ EpS v ⟨none, 0⟩ c ∧ c.ep ≠ some e ∧
      BufS P v v.old v.head ∧ ∀ e1, c.ep = some e1 → v.ehead e1 = v.head.idx
  | .C e n l => ∃ e1, Trans v e e1 ∧ v.ehead e1 = v.head.idx ∧ BufS P v v.old v.head ∧
      (1 ≤ l → v.ehead e = n) ∧ (2 ≤ l → v.head.idx < n ∧ n ≤ v.tail) ∧ (3 ≤ l → v.old.ref = 0)
  | .W e n c => ∃ e1, Trans v e e1 ∧ v.ehead e1 = c.idx ∧ BufS P v v.old c ∧ v.ehead e = n ∧
      v.head = ⟨n, 0⟩ ∧ v.old.ref = 0 ∧ c.idx < n ∧ n ≤ c.idx + P.hwm
  | .D e n => ∃ e1, Trans v e e1 ∧ v.ehead e1 = v.old.idx ∧ BufS P v v.old v.head ∧ v.ehead e = n ∧
      n = v.head.idx ∧ v.old.idx < n
  | .A2 => Calm P v ∧ v.next = v.cur.ep

variable {P : Par} {v : Sv}

/-! ### What the pins tell -/

theorem EpS.held {p c : EP} (h : EpS v p c) {e : Nat} (he : 0 < v.H e) :
    (p.ep = some e ∨ c.ep = some e) ∧ v.alive e = true ∧ e < v.nextId := by
  obtain ⟨e1, hc, ha, hl, h⟩ := h
  rcases h with ⟨_, _, h0⟩ | ⟨e0, hp, _, ha0, hl0, _, _, h0⟩
  · by_cases x : e = e1
    · subst x; exact ⟨.inr hc, ha, hl⟩
    · exact absurd (h0 e x) (by omega)
  · by_cases x : e = e1
    · subst x; exact ⟨.inr hc, ha, hl⟩
    · by_cases y : e = e0
      · subst y; exact ⟨.inl hp, ha0, hl0⟩
      · exact absurd (h0 e y x) (by omega)

theorem BufS.held {o h : Hd} (b : BufS P v o h) {x : Nat} (hx : 0 < v.V x) : x = o.idx ∨ x = h.idx := by
  obtain ⟨_, _, _, h0, _⟩ := b
  by_contra hc
  push Not at hc
  exact absurd (h0 x hc.1 hc.2) (by omega)

theorem Core.alive {ph : Ph} (h : Core P v ph) {e : Nat} (he : 0 < v.H e) : v.alive e = true ∧ e < v.nextId := by
  cases ph with
  | A => exact (h.1.1.held he).2
  | Cr => exact (h.1.1.held he).2
  | N => exact (h.1.1.held he).2
  | A1 => exact (h.1.1.held he).2
  | G => exact (h.1.1.held he).2
  | R => exact (h.1.1.held he).2
  | B => exact (h.2.2.2.1.held he).2
  | C => obtain ⟨_, h, _⟩ := h; exact (h.2.1.held he).2
  | W => obtain ⟨_, h, _⟩ := h; exact (h.2.1.held he).2
  | D => obtain ⟨_, h, _⟩ := h; exact (h.2.1.held he).2
  | A2 => exact (h.1.1.held he).2

theorem BufS.le {o h : Hd} (b : BufS P v o h) {x : Nat} (hx : 0 < v.V x) : x ≤ h.idx ∧ h.idx ≤ x + P.hwm := by
  rcases b.held hx with r | r <;> subst r
  · exact ⟨le_of_lt (b.2.2.2.2.2 hx), b.2.2.2.2.1⟩
  · exact ⟨le_refl _, by omega⟩

/-- A pinned head is not more than a buffer behind. -/
theorem Core.pinned {ph : Ph} (h : Core P v ph) {x : Nat} (hx : 0 < v.V x) : x ≤ v.head.idx ∧ v.head.idx ≤ x + P.hwm := by
  cases ph with
  | A => exact h.1.2.1.le hx
  | Cr => exact h.1.2.1.le hx
  | N => exact h.1.2.1.le hx
  | A1 => exact h.1.2.1.le hx
  | G => exact h.1.2.1.le hx
  | R => exact h.1.2.1.le hx
  | B => exact h.2.2.2.2.2.1.le hx
  | C => obtain ⟨_, _, _, b, _⟩ := h; exact b.le hx
  | W =>
    obtain ⟨_, _, _, b, _, hh, ho, hl, hn⟩ := h
    rcases b.held hx with r | r
    · have := b.2.1; rw [← r] at this; omega
    · subst r; rw [hh]; exact ⟨le_of_lt hl, hn⟩
  | D => obtain ⟨_, _, _, b, _⟩ := h; exact b.le hx
  | A2 => exact h.1.2.1.le hx

/-! ### Pinning and releasing, pair level -/

theorem upd_self {α : Type} (f : Nat → α) (i : Nat) (x : α) : upd f i x i = x := by simp [upd]
theorem upd_ne {α : Type} (f : Nat → α) {i j : Nat} (x : α) (h : j ≠ i) : upd f i x j = f j := by simp [upd, h]

theorem EpS.pinC {p c : EP} (h : EpS v p c) {e : Nat} (he : c.ep = some e) :
    EpS { v with H := upd v.H e (v.H e + 1) } p ⟨c.ep, c.ref + 1⟩ := by
  obtain ⟨e1, hc, ha, hl, h⟩ := h
  have : e = e1 := by rw [hc] at he; exact (Option.some.inj he).symm
  subst this
  refine ⟨e, hc, ha, hl, ?_⟩
  rcases h with ⟨hp, hr, h0⟩ | ⟨e0, hp, hn, ha0, hl0, hle, hs, h0⟩
  · exact .inl ⟨hp, by simp [upd_self, hr], fun x hx => by simp [upd_ne _ _ hx, h0 x hx]⟩
  · refine .inr ⟨e0, hp, hn, ha0, hl0, ?_, ?_, fun x hx hy => ?_⟩
    · simpa [upd_ne _ _ hn] using hle
    · simp only [upd_ne _ _ hn, upd_self]; omega
    · simp [upd_ne _ _ hy, h0 x hx hy]

theorem EpS.pinP {p c : EP} (h : EpS v p c) {e : Nat} (he : p.ep = some e) :
    EpS { v with H := upd v.H e (v.H e + 1) } ⟨p.ep, p.ref + 1⟩ c := by
  obtain ⟨e1, hc, ha, hl, h⟩ := h
  refine ⟨e1, hc, ha, hl, ?_⟩
  rcases h with ⟨hp, hr, h0⟩ | ⟨e0, hp, hn, ha0, hl0, hle, hs, h0⟩
  · rw [hp] at he; cases he
  · have : e = e0 := by rw [hp] at he; exact (Option.some.inj he).symm
    subst this
    refine .inr ⟨e, hp, hn, ha0, hl0, ?_, ?_, fun x hx hy => ?_⟩
    · simp only [upd_self]; omega
    · simp only [upd_ne _ _ (Ne.symm hn), upd_self]; omega
    · simp [upd_ne _ _ hx, h0 x hx hy]

theorem EpS.unpinP {p c : EP} (h : EpS v p c) {e : Nat} (he : p.ep = some e) (hH : 0 < v.H e) :
    EpS { v with H := upd v.H e (v.H e - 1) } ⟨p.ep, p.ref - 1⟩ c := by
  obtain ⟨e1, hc, ha, hl, h⟩ := h
  refine ⟨e1, hc, ha, hl, ?_⟩
  rcases h with ⟨hp, hr, h0⟩ | ⟨e0, hp, hn, ha0, hl0, hle, hs, h0⟩
  · rw [hp] at he; cases he
  · have : e = e0 := by rw [hp] at he; exact (Option.some.inj he).symm
    subst this
    refine .inr ⟨e, hp, hn, ha0, hl0, ?_, ?_, fun x hx hy => ?_⟩
    · simp only [upd_self]; omega
    · simp only [upd_ne _ _ (Ne.symm hn), upd_self]; omega
    · simp [upd_ne _ _ hx, h0 x hx hy]

/-- Decrementing the current epoch's count while giving up a pin on *any* epoch: the step of `end_job` whether or not it hits
the right epoch. -/
theorem EpS.unpinC {p c : EP} (h : EpS v p c) {e : Nat} (hr : 0 < c.ref) (hH : 0 < v.H e) :
    EpS { v with H := upd v.H e (v.H e - 1) } p ⟨c.ep, c.ref - 1⟩ := by
  obtain ⟨e1, hc, ha, hl, h⟩ := h
  refine ⟨e1, hc, ha, hl, ?_⟩
  rcases h with ⟨hp, hr', h0⟩ | ⟨e0, hp, hn, ha0, hl0, hle, hs, h0⟩
  · have : e = e1 := by by_contra x; exact absurd (h0 e x) (by omega)
    subst this
    exact .inl ⟨hp, by simp [upd_self, hr'], fun x hx => by simp [upd_ne _ _ hx, h0 x hx]⟩
  · refine .inr ⟨e0, hp, hn, ha0, hl0, ?_, ?_, fun x hx hy => ?_⟩
    · by_cases y : e0 = e
      · subst y; simp only [upd_self]; omega
      · simpa [upd_ne _ _ y] using hle
    · by_cases y : e0 = e
      · subst y; simp only [upd_ne _ _ (Ne.symm hn), upd_self]; omega
      · have : e = e1 := by by_contra x; exact absurd (h0 e (Ne.symm y) x) (by omega)
        subst this
        simp only [upd_ne _ _ hn, upd_self]; omega
    · by_cases y : x = e
      · subst y; exact absurd (h0 x hx hy) (by omega)
      · simp [upd_ne _ _ y, h0 x hx hy]

theorem BufS.pinH {o h : Hd} (b : BufS P v o h) : BufS P { v with V := upd v.V h.idx (v.V h.idx + 1) } o ⟨h.idx, h.ref + 1⟩ := by
  obtain ⟨hn, hle, hs, h0, hb, hp⟩ := b
  refine ⟨hn, ?_, ?_, fun x hx hy => ?_, hb, ?_⟩
  · simpa [upd_ne _ _ hn] using hle
  · simp only [upd_ne _ _ hn, upd_self]; omega
  · simp [upd_ne _ _ hy, h0 x hx hy]
  · simpa [upd_ne _ _ hn] using hp

theorem BufS.pinO {o h : Hd} (b : BufS P v o h) (hl : o.idx < h.idx) :
    BufS P { v with V := upd v.V o.idx (v.V o.idx + 1) } ⟨o.idx, o.ref + 1⟩ h := by
  obtain ⟨hn, hle, hs, h0, hb, hp⟩ := b
  refine ⟨hn, ?_, ?_, fun x hx hy => ?_, hb, fun _ => hl⟩
  · simp only [upd_self]; omega
  · simp only [upd_ne _ _ (Ne.symm hn), upd_self]; omega
  · simp [upd_ne _ _ hx, h0 x hx hy]

theorem BufS.unpinO {o h : Hd} (b : BufS P v o h) (hV : 0 < v.V o.idx) :
    BufS P { v with V := upd v.V o.idx (v.V o.idx - 1) } ⟨o.idx, o.ref - 1⟩ h := by
  obtain ⟨hn, hle, hs, h0, hb, hp⟩ := b
  refine ⟨hn, ?_, ?_, fun x hx hy => ?_, hb, fun _ => hp hV⟩
  · simp only [upd_self]; omega
  · simp only [upd_ne _ _ (Ne.symm hn), upd_self]; omega
  · simp [upd_ne _ _ hx, h0 x hx hy]

/-- Decrementing the head's count while giving up a view on *any* head. -/
theorem BufS.unpinH {o h : Hd} (b : BufS P v o h) {x : Nat} (hr : 0 < h.ref) (hV : 0 < v.V x) :
    BufS P { v with V := upd v.V x (v.V x - 1) } o ⟨h.idx, h.ref - 1⟩ := by
  have hx := b.held hV
  obtain ⟨hn, hle, hs, h0, hb, hp⟩ := b
  rcases hx with rfl | rfl
  · refine ⟨hn, ?_, ?_, fun y hy hz => ?_, hb, fun _ => hp hV⟩
    · simp only [upd_self]; omega
    · simp only [upd_ne _ _ (Ne.symm hn), upd_self]; omega
    · simp [upd_ne _ _ hy, h0 y hy hz]
  · refine ⟨hn, ?_, ?_, fun y hy hz => ?_, hb, ?_⟩
    · simpa [upd_ne _ _ hn] using hle
    · simp only [upd_ne _ _ hn, upd_self]; omega
    · simp [upd_ne _ _ hz, h0 y hy hz]
    · simpa [upd_ne _ _ hn] using hp

end DE.Conc
