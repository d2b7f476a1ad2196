import Verif.Proofs.ConcJob
import Mathlib.Data.List.Nodup

/-!
Consequences of the invariant (no undefined behaviour, which asserts can fail) and the history invariant: who claimed and who
wrote which position.
-/

namespace DE.Conc
variable {P : Par} {s s' : St} {i : Nat} {t : Th} {c : Ch}

/-! ### No undefined behaviour -/

theorem Inv.no_ub (h : Inv P s) : Conc.step P s i c ≠ .error .ub := by
  unfold Conc.step
  split
  · rename_i t hi
    have hal : ∀ {e}, t.ep = some e → s.alive e = true := fun he => h.alive hi he
    obtain ⟨pc, ep, hd, tl⟩ := t
    intro hs
    cases pc <;> simp only [stepT] at hs
    case idle => split at hs <;> first | cases hs | (split at hs <;> cases hs)
    case ins => split at hs <;> cases hs
    case casF => split at hs <;> cases hs
    case crA => split at hs <;> cases hs
    case crC =>
      obtain ⟨h1, _⟩ : ep ≠ none ∧ hd = none := (h.thread hi).1
      obtain ⟨e, rfl⟩ := Option.ne_none_iff_exists'.mp h1
      simp only [hal rfl] at hs
      simp at hs
    case crS =>
      obtain ⟨_, e, hN, _⟩ : Core P s.sv .N := h.phase hi rfl
      have hn : s.next = some e := hN.1
      rw [hn] at hs
      cases hs
    case ap2 => split at hs <;> cases hs
    case ap3 => split at hs <;> cases hs
    case ap4 => split at hs <;> cases hs
    case gaP3 => split at hs <;> cases hs
    case gaC3 => split at hs <;> cases hs
    case run =>
      split at hs
      · split at hs
        · rw [hal rfl] at hs; simp at hs
        · cases hs
      · split at hs <;> cases hs
      · split at hs <;> cases hs
      · split at hs
        · rw [hal rfl] at hs; simp at hs
        · cases hs
      · split at hs <;> cases hs
      · cases hs
    case ejP2 => split at hs <;> first | cases hs | (split at hs <;> cases hs)
    case ejP3 => split at hs <;> cases hs
    case ejC2 => split at hs <;> first | cases hs | (split at hs <;> cases hs)
    case ejC3 => split at hs <;> cases hs
    case ghO3 => split at hs <;> cases hs
    case ghH3 => split at hs <;> cases hs
    case rlO3 => split at hs <;> cases hs
    case rlH3 => split at hs <;> cases hs
    case jb e =>
      obtain ⟨_, hN, _⟩ : Core P s.sv (.A1 e) := h.phase hi rfl
      have : s.alive e = true := hN.2.1
      rw [this] at hs; simp at hs
    case cp e p acc =>
      obtain ⟨_, hN, _⟩ : Core P s.sv (.A1 e) := h.phase hi rfl
      have : s.alive e = true := hN.2.1
      simp only [this] at hs
      split at hs <;> simp at hs
    case ad1 => split at hs <;> cases hs
    case rt2 => split at hs <;> cases hs
    case rt3 e x =>
      obtain ⟨_, _, _, _, _, hx⟩ : Core P s.sv (.R e (some x)) := h.phase hi rfl
      have : s.alive x = true := (hx x rfl).2.2.2
      rw [this] at hs; simp at hs
    case ad4 => split at hs <;> cases hs
    case ad6 e =>
      obtain ⟨e1, hT, _⟩ : Core P s.sv (.C e tl 0) := h.phase hi rfl
      have h1 : s.next = some e := hT.2.2.2.2.1
      have h2 : s.alive e = true := hT.2.2.2.2.2.1
      rw [h1] at hs
      simp only [h2] at hs
      simp at hs
    case ad7 => split at hs <;> cases hs
    case ad10 => split at hs <;> cases hs
    case ad14 => split at hs <;> cases hs
    case aw2 => split at hs <;> cases hs
    case aw4 => split at hs <;> cases hs
    case aw5 => split at hs <;> cases hs
    all_goals cases hs
  · intro hs; cases hs

/-! ### History -/

/-- What the history invariant knows about a thread: bounds on loaded tails, and the view of the reconstruction. -/
def LocJ (s : St) (t : Th) : Prop :=
  match t.pc with
  | .ap2 _ x | .ap3 _ x => x ≤ s.tail
  | .gh1 (.job _) g | .ghO2 (.job _) g | .ghO3 (.job _) g _ | .ghB (.job _) g | .ghH2 (.job _) g | .ghH3 (.job _) g _ =>
      g = s.head.idx
  | .gt (.job _) => t.hd = some s.head.idx
  | .cp _ p acc => t.hd = some s.head.idx ∧ s.head.idx ≤ t.tl ∧ t.tl ≤ s.tail ∧ p ≤ t.tl ∧ p = s.head.idx + acc.length
  | .rl1 (.job _) | .rlO2 (.job _) | .rlO3 (.job _) _ | .rlH2 (.job _) | .rlH3 (.job _) _ =>
      s.head.idx ≤ t.tl ∧ t.tl ≤ s.tail
  | .ad1 _ | .rt1 _ _ | .rt2 _ _ _ | .rt3 _ _ | .ad3 _ | .ad4 _ _ | .ad5 _ _ | .ad6 _ | .ad7 _ | .ad8 _ | .ad9 _ | .ad10 _ _ =>
      s.head.idx ≤ t.tl ∧ t.tl ≤ s.tail
  | _ => True

/-- Who claimed and who wrote which position. -/
structure Hist (P : Par) (s : St) : Prop where
  claims : s.claimed.map Prod.fst = (List.range s.tail).reverse
  sub : ∀ x ∈ s.done, x ∈ s.claimed
  pend : ∀ (j : Nat) (t : Th) r p, s.thr[j]? = some t → t.pc = .ap5 r p → (p, r) ∈ s.claimed ∧ ∀ r', (p, r') ∉ s.done
  uniq : ∀ (j k : Nat) (t u : Th) r r' p, s.thr[j]? = some t → s.thr[k]? = some u → t.pc = .ap5 r p → u.pc = .ap5 r' p → j = k
  covered : ∀ p r, (p, r) ∈ s.claimed → (p, r) ∈ s.done ∨ ∃ (j : Nat) (t : Th), s.thr[j]? = some t ∧ t.pc = .ap5 r p
  memd : ∀ j p r, s.mem j = some (p, r) → (p, r) ∈ s.done ∧ p % P.cap = j
  locj : ∀ (j : Nat) (t : Th), s.thr[j]? = some t → LocJ s t

theorem setT_get (hi : s.thr[i]? = some t) (t' : Th) (j : Nat) :
    (s.setT i t').thr[j]? = if i = j then some t' else s.thr[j]? := by
  show (s.thr.set i t')[j]? = _
  rw [List.getElem?_set]
  split
  · rename_i h
    subst h
    rw [if_pos ((List.getElem?_eq_some_iff.mp hi).1)]
  · rfl

theorem gaRet_ne5 (k : K) (r p : Nat) : gaRet k ≠ .ap5 r p := by cases k <;> simp [gaRet]
theorem ejRet_ne5 (k : K) (r p : Nat) : ejRet k ≠ .ap5 r p := by cases k <;> simp [ejRet]
theorem gtRet_ne5 (h : Nat) (k : K) (r p : Nat) : gtRet h k ≠ .ap5 r p := by cases k <;> simp [gtRet]
theorem rlRet_ne5 (k : K) (r p : Nat) : rlRet k ≠ .ap5 r p := by cases k <;> simp [rlRet]

/-- The steps that do not touch the tail, the slots and the histories. -/
theorem step_frame (hs : stepT P s i t c = .ok (some s')) (h3 : ∀ r x, t.pc ≠ .ap3 r x) (h5 : ∀ r p, t.pc ≠ .ap5 r p) :
    s'.tail = s.tail ∧ s'.claimed = s.claimed ∧ s'.done = s.done ∧ s'.mem = s.mem ∧
      ∃ t', (s'.thr = s.thr.set i t' ∨ s'.thr = (s.thr.map wake).set i t') ∧ ∀ r p, t'.pc ≠ .ap5 r p := by
  obtain ⟨pc, ep, hd, tl⟩ := t
  have key : ∀ {a : St} {t' : Th}, (.ok (some (a.setT i t')) : Out) = .ok (some s') → a.tail = s.tail → a.claimed = s.claimed →
      a.done = s.done → a.mem = s.mem → (a.thr = s.thr ∨ a.thr = s.thr.map wake) → (∀ r p, t'.pc ≠ .ap5 r p) →
      s'.tail = s.tail ∧ s'.claimed = s.claimed ∧ s'.done = s.done ∧ s'.mem = s.mem ∧
      ∃ t', (s'.thr = s.thr.set i t' ∨ s'.thr = (s.thr.map wake).set i t') ∧ ∀ r p, t'.pc ≠ .ap5 r p := by
    intro a t' h a1 a2 a3 a4 a5 a6
    have := ok_inj h; subst this
    refine ⟨a1, a2, a3, a4, t', ?_, a6⟩
    rcases a5 with a5 | a5
    · left; show a.thr.set i t' = _; rw [a5]
    · right; show a.thr.set i t' = _; rw [a5]
  cases pc <;> simp only [stepT] at hs
  case ap3 => exact absurd rfl (h3 _ _)
  case ap5 => exact absurd rfl (h5 _ _)
  case ad15 => exact key hs rfl rfl rfl rfl (.inr rfl) (by simp)
  all_goals
    repeat' split at hs
  all_goals first
    | exact key hs rfl rfl rfl rfl (.inl rfl) (by simp [gaRet_ne5, ejRet_ne5, gtRet_ne5, rlRet_ne5])
    | exact absurd hs (by simp)

/-- Only `advance_head` changes the head. -/
theorem step_head (hs : stepT P s i t c = .ok (some s')) (h10 : ∀ e o, t.pc ≠ .ad10 e o) : s'.head.idx = s.head.idx := by
  obtain ⟨pc, ep, hd, tl⟩ := t
  have key : ∀ {a : St} {t' : Th}, (.ok (some (a.setT i t')) : Out) = .ok (some s') → a.head.idx = s.head.idx →
      s'.head.idx = s.head.idx := by
    intro a t' h a1
    have := ok_inj h; subst this
    exact a1
  cases pc <;> simp only [stepT] at hs
  case ad10 => exact absurd rfl (h10 _ _)
  case ghH3 =>
    split at hs
    · rename_i h; exact key hs (by rw [h])
    · exact key hs rfl
  case rlH3 =>
    split at hs
    · rename_i h; exact key hs (by rw [h])
    · exact key hs rfl
  all_goals
    repeat' split at hs
  all_goals first
    | exact key hs rfl
    | exact absurd hs (by simp)

theorem step_tail (hs : stepT P s i t c = .ok (some s')) : s.tail ≤ s'.tail := by
  by_cases h3 : ∃ r x, t.pc = .ap3 r x
  · obtain ⟨r, x, h3⟩ := h3
    unfold stepT at hs
    rw [h3] at hs
    simp only at hs
    split at hs
    · have := ok_inj hs; subst this
      show s.tail ≤ x + 1
      omega
    · have := ok_inj hs; subst this; exact le_refl _
  · by_cases h5 : ∃ r p, t.pc = .ap5 r p
    · obtain ⟨r, p, h5⟩ := h5
      unfold stepT at hs
      rw [h5] at hs
      simp only at hs
      have := ok_inj hs; subst this; exact le_refl _
    · push Not at h3 h5
      exact le_of_eq (step_frame hs h3 h5).1.symm

theorem LocJ.mono (h : LocJ s t) (ht : s.tail ≤ s'.tail) (hh : s'.head.idx = s.head.idx ∨ sect t = none) : LocJ s' t := by
  obtain ⟨pc, ep, hd, tl⟩ := t
  have job : ∀ {x}, s'.head.idx = s.head.idx ∨ some x = (none : Option Ph) → s'.head.idx = s.head.idx :=
    fun h => h.elim id (fun h => by cases h)
  cases pc with
  | ap2 => exact le_trans h ht
  | ap3 => exact le_trans h ht
  | gh1 k => cases k with
    | job => exact (show _ = s.head.idx from h).trans (job hh).symm
    | _ => trivial
  | ghO2 k => cases k with
    | job => exact (show _ = s.head.idx from h).trans (job hh).symm
    | _ => trivial
  | ghO3 k => cases k with
    | job => exact (show _ = s.head.idx from h).trans (job hh).symm
    | _ => trivial
  | ghB k => cases k with
    | job => exact (show _ = s.head.idx from h).trans (job hh).symm
    | _ => trivial
  | ghH2 k => cases k with
    | job => exact (show _ = s.head.idx from h).trans (job hh).symm
    | _ => trivial
  | ghH3 k => cases k with
    | job => exact (show _ = s.head.idx from h).trans (job hh).symm
    | _ => trivial
  | gt k => cases k with
    | job => exact (show hd = some s'.head.idx by rw [job hh]; exact h)
    | _ => trivial
  | cp e p acc =>
    obtain ⟨h1, h2, h3, h4, h5⟩ : hd = some s.head.idx ∧ s.head.idx ≤ tl ∧ tl ≤ s.tail ∧ p ≤ tl ∧ p = s.head.idx + acc.length := h
    show hd = some s'.head.idx ∧ s'.head.idx ≤ tl ∧ tl ≤ s'.tail ∧ p ≤ tl ∧ p = s'.head.idx + acc.length
    rw [job hh]
    exact ⟨h1, h2, le_trans h3 ht, h4, h5⟩
  | rl1 k => cases k with
    | job => exact ⟨(job hh) ▸ h.1, le_trans h.2 ht⟩
    | _ => trivial
  | rlO2 k => cases k with
    | job => exact ⟨(job hh) ▸ h.1, le_trans h.2 ht⟩
    | _ => trivial
  | rlO3 k => cases k with
    | job => exact ⟨(job hh) ▸ h.1, le_trans h.2 ht⟩
    | _ => trivial
  | rlH2 k => cases k with
    | job => exact ⟨(job hh) ▸ h.1, le_trans h.2 ht⟩
    | _ => trivial
  | rlH3 k => cases k with
    | job => exact ⟨(job hh) ▸ h.1, le_trans h.2 ht⟩
    | _ => trivial
  | ad1 => exact ⟨(job hh) ▸ h.1, le_trans h.2 ht⟩
  | rt1 => exact ⟨(job hh) ▸ h.1, le_trans h.2 ht⟩
  | rt2 => exact ⟨(job hh) ▸ h.1, le_trans h.2 ht⟩
  | rt3 => exact ⟨(job hh) ▸ h.1, le_trans h.2 ht⟩
  | ad3 => exact ⟨(job hh) ▸ h.1, le_trans h.2 ht⟩
  | ad4 => exact ⟨(job hh) ▸ h.1, le_trans h.2 ht⟩
  | ad5 => exact ⟨(job hh) ▸ h.1, le_trans h.2 ht⟩
  | ad6 => exact ⟨(job hh) ▸ h.1, le_trans h.2 ht⟩
  | ad7 => exact ⟨(job hh) ▸ h.1, le_trans h.2 ht⟩
  | ad8 => exact ⟨(job hh) ▸ h.1, le_trans h.2 ht⟩
  | ad9 => exact ⟨(job hh) ▸ h.1, le_trans h.2 ht⟩
  | ad10 => exact ⟨(job hh) ▸ h.1, le_trans h.2 ht⟩
  | _ => trivial

theorem LocJ.wake (h : LocJ s t) : LocJ s (wake t) := by
  unfold Conc.wake
  split
  · trivial
  · exact h

/-- The thread that moves. -/
theorem step_locj (h : Inv P s) (hi : s.thr[i]? = some t) (hj : LocJ s t) (hs : stepT P s i t c = .ok (some s')) :
    ∃ t', s'.thr[i]? = some t' ∧ LocJ s' t' := by
  have hlt : i < s.thr.length := (List.getElem?_eq_some_iff.mp hi).1
  have key : ∀ {a : St} {t' : Th}, (.ok (some (a.setT i t')) : Out) = .ok (some s') → i < a.thr.length → LocJ a t' →
      ∃ t', s'.thr[i]? = some t' ∧ LocJ s' t' := by
    intro a t' h a1 a2
    have := ok_inj h; subst this
    exact ⟨t', List.getElem?_set_self a1, a2⟩
  have hloc := h.thread hi
  have hb : s.head.idx ≤ s.tail := h.bnd.1
  obtain ⟨pc, ep, hd, tl⟩ := t
  cases pc with
  | idle =>
    simp only [stepT] at hs
    repeat' split at hs
    all_goals first
      | exact key hs hlt trivial
      | exact absurd hs (by simp)
  | ins =>
    simp only [stepT] at hs
    repeat' split at hs
    all_goals first
      | exact key hs hlt trivial
      | exact absurd hs (by simp)
  | insT => simp only [stepT] at hs; split at hs <;> exact key hs hlt trivial
  | insH => simp only [stepT] at hs; split at hs <;> exact key hs hlt trivial
  | casF => simp only [stepT] at hs; split at hs <;> exact key hs hlt trivial
  | crA => simp only [stepT] at hs; split at hs <;> first | exact key hs hlt trivial | exact absurd hs (by simp)
  | crC =>
    simp only [stepT] at hs
    repeat' split at hs
    all_goals first
      | exact key hs hlt trivial
      | exact absurd hs (by simp)
  | crS => simp only [stepT] at hs; split at hs <;> first | exact key hs hlt trivial | exact absurd hs (by simp)
  | ap1 => simp only [stepT] at hs; exact key hs hlt (le_refl s.tail)
  | ap2 => simp only [stepT] at hs; split at hs <;> first | exact key hs hlt hj | exact key hs hlt trivial
  | ap3 => simp only [stepT] at hs; split at hs <;> exact key hs hlt trivial
  | ap4 => simp only [stepT] at hs; split at hs <;> first | exact key hs hlt hloc.1.2 | exact key hs hlt trivial
  | ap5 => simp only [stepT] at hs; exact key hs hlt trivial
  | ga1 => simp only [stepT] at hs; split at hs <;> exact key hs hlt trivial
  | gaP2 => simp only [stepT] at hs; split at hs <;> exact key hs hlt trivial
  | gaP3 k => simp only [stepT] at hs; split at hs <;> exact key hs hlt (by cases k <;> trivial)
  | gaC2 => simp only [stepT] at hs; split at hs <;> exact key hs hlt trivial
  | gaC3 k => simp only [stepT] at hs; split at hs <;> exact key hs hlt (by cases k <;> trivial)
  | run =>
    simp only [stepT] at hs
    repeat' split at hs
    all_goals first
      | exact key hs hlt trivial
      | exact absurd hs (by simp)
  | ej1 => simp only [stepT] at hs; split at hs <;> exact key hs hlt trivial
  | ejP2 =>
    simp only [stepT] at hs
    repeat' split at hs
    all_goals first
      | exact key hs hlt trivial
      | exact absurd hs (by simp)
  | ejP3 k => simp only [stepT] at hs; split at hs <;> exact key hs hlt (by cases k <;> trivial)
  | ejC2 =>
    simp only [stepT] at hs
    repeat' split at hs
    all_goals first
      | exact key hs hlt trivial
      | exact absurd hs (by simp)
  | ejC3 k => simp only [stepT] at hs; split at hs <;> exact key hs hlt (by cases k <;> trivial)
  | gh1 k => simp only [stepT] at hs; split at hs <;> exact key hs hlt (by cases k <;> exact hj)
  | ghO2 k => simp only [stepT] at hs; exact key hs hlt (by cases k <;> exact hj)
  | ghB k => simp only [stepT] at hs; split at hs <;> exact key hs hlt (by cases k <;> exact hj)
  | ghH2 k => simp only [stepT] at hs; exact key hs hlt (by cases k <;> exact hj)
  | ghO3 k g o =>
    simp only [stepT] at hs
    split at hs
    · rename_i hp
      cases k with
      | job e =>
        have h2 : o.idx = g := hloc.1.2.2
        obtain ⟨hC, _, _, _, _, hg⟩ : Core P s.sv (.G e g) := h.phase hi rfl
        subst hp; subst h2
        exact absurd hg hC.2.1.1
      | _ => exact key hs hlt trivial
    · exact key hs hlt (by cases k <;> exact hj)
  | ghH3 k g o =>
    simp only [stepT] at hs
    split at hs
    · rename_i hp
      refine key hs hlt ?_
      cases k with
      | job e => rfl
      | _ => trivial
    · exact key hs hlt (by cases k <;> exact hj)
  | gt k =>
    simp only [stepT] at hs
    refine key hs hlt ?_
    cases k with
    | job e =>
      have hh : hd = some s.head.idx := hj
      subst hh
      exact ⟨rfl, hb, le_refl _, hb, rfl⟩
    | _ => trivial
  | rl1 k => simp only [stepT] at hs; split at hs <;> exact key hs hlt (by cases k <;> exact hj)
  | rlO2 k => simp only [stepT] at hs; split at hs <;> exact key hs hlt (by cases k <;> exact hj)
  | rlH2 k => simp only [stepT] at hs; split at hs <;> exact key hs hlt (by cases k <;> exact hj)
  | rlO3 k => simp only [stepT] at hs; split at hs <;> exact key hs hlt (by cases k <;> exact hj)
  | rlH3 k o =>
    simp only [stepT] at hs
    split at hs
    · rename_i hp
      refine key hs hlt ?_
      subst hp
      cases k <;> exact hj
    · exact key hs hlt (by cases k <;> exact hj)
  | jb e =>
    obtain ⟨_, _, hN, _⟩ : Core P s.sv (.A1 e) := h.phase hi rfl
    simp only [stepT] at hs
    split at hs
    · exact key hs hlt hN
    · exact absurd hs (by simp)
  | cp e p acc =>
    obtain ⟨h1, h2, h3, h4, h5⟩ : hd = some s.head.idx ∧ s.head.idx ≤ tl ∧ tl ≤ s.tail ∧ p ≤ tl ∧ p = s.head.idx + acc.length := hj
    simp only [stepT] at hs
    split at hs
    · rename_i hp
      refine key hs hlt ⟨h1, h2, h3, hp, ?_⟩
      simp only [List.length_append, List.length_singleton]; omega
    · split at hs
      · exact key hs hlt ⟨h2, h3⟩
      · exact absurd hs (by simp)
  | ad1 => simp only [stepT] at hs; split at hs <;> exact key hs hlt hj
  | rt1 => simp only [stepT] at hs; split at hs <;> exact key hs hlt hj
  | rt2 => simp only [stepT] at hs; split at hs <;> exact key hs hlt hj
  | rt3 => simp only [stepT] at hs; split at hs
           · exact key hs hlt hj
           · cases hs
  | ad3 => simp only [stepT] at hs; exact key hs hlt hj
  | ad4 => simp only [stepT] at hs; split at hs <;> exact key hs hlt hj
  | ad5 => simp only [stepT] at hs; exact key hs hlt hj
  | ad6 =>
    simp only [stepT] at hs
    repeat' split at hs
    all_goals first
      | exact key hs hlt hj
      | exact absurd hs (by simp)
  | ad7 => simp only [stepT] at hs; split at hs <;> first | exact key hs hlt hj | exact absurd hs (by simp)
  | ad8 => simp only [stepT] at hs; split at hs <;> exact key hs hlt hj
  | ad9 => simp only [stepT] at hs; exact key hs hlt hj
  | ad10 => simp only [stepT] at hs; split at hs <;> first | exact key hs hlt hj | exact key hs hlt trivial
  | ad11 => simp only [stepT] at hs; exact key hs hlt trivial
  | ad12 => simp only [stepT] at hs; exact key hs hlt trivial
  | ad13 => simp only [stepT] at hs; exact key hs hlt trivial
  | ad14 => simp only [stepT] at hs; split at hs <;> first | exact key hs hlt trivial | exact absurd hs (by simp)
  | ad15 => simp only [stepT] at hs; exact key hs (by simpa using hlt) trivial
  | ad16 => simp only [stepT] at hs; exact key hs hlt trivial
  | ad17 => simp only [stepT] at hs; exact key hs hlt trivial
  | aw1 => simp only [stepT] at hs; split at hs <;> exact key hs hlt trivial
  | aw2 => simp only [stepT] at hs; split at hs <;> first | exact key hs hlt trivial | exact absurd hs (by simp)
  | aw3 => simp only [stepT] at hs; exact key hs hlt trivial
  | aw4 => simp only [stepT] at hs; split at hs <;> first | exact key hs hlt trivial | exact absurd hs (by simp)
  | aw5 => simp only [stepT] at hs; split at hs <;> first | exact key hs hlt trivial | exact absurd hs (by simp)
  | aw6 => simp only [stepT] at hs; exact key hs hlt trivial

/-- The other threads stay where they are, up to waking up. -/
theorem step_others (hs : stepT P s i t c = .ok (some s')) {j : Nat} (hj : j ≠ i) :
    s'.thr[j]? = s.thr[j]? ∨ s'.thr[j]? = (s.thr[j]?).map wake := by
  by_cases h3 : ∃ r x, t.pc = .ap3 r x
  · obtain ⟨r, x, h3⟩ := h3
    unfold stepT at hs
    rw [h3] at hs
    simp only at hs
    left
    split at hs <;> (have := ok_inj hs; subst this; exact List.getElem?_set_ne (Ne.symm hj))
  · by_cases h5 : ∃ r p, t.pc = .ap5 r p
    · obtain ⟨r, p, h5⟩ := h5
      unfold stepT at hs
      rw [h5] at hs
      simp only at hs
      left
      have := ok_inj hs; subst this; exact List.getElem?_set_ne (Ne.symm hj)
    · push Not at h3 h5
      obtain ⟨_, _, _, _, t', ht, _⟩ := step_frame hs h3 h5
      rcases ht with ht | ht
      · left; rw [ht, List.getElem?_set_ne (Ne.symm hj)]
      · right; rw [ht, List.getElem?_set_ne (Ne.symm hj), List.getElem?_map]

theorem wake_ap5 {u : Th} {r p : Nat} : (wake u).pc = .ap5 r p ↔ u.pc = .ap5 r p := by
  unfold wake
  split
  · rename_i h; simp [h]
  · rfl

/-- Where the other threads' pending writes are. -/
theorem step_ap5 (hs : stepT P s i t c = .ok (some s')) {j : Nat} (hj : j ≠ i) {r p : Nat} :
    (∃ u, s'.thr[j]? = some u ∧ u.pc = .ap5 r p) ↔ (∃ u, s.thr[j]? = some u ∧ u.pc = .ap5 r p) := by
  rcases step_others hs hj with h | h
  · rw [h]
  · rw [h]
    constructor
    · rintro ⟨u, hu, hp⟩
      rw [Option.map_eq_some_iff] at hu
      obtain ⟨w, hw, rfl⟩ := hu
      exact ⟨w, hw, wake_ap5.mp hp⟩
    · rintro ⟨u, hu, hp⟩
      exact ⟨wake u, by rw [hu]; rfl, wake_ap5.mpr hp⟩

theorem Hist.claimed_lt (h : Hist P s) {p r : Nat} (hp : (p, r) ∈ s.claimed) : p < s.tail := by
  have : p ∈ s.claimed.map Prod.fst := List.mem_map.mpr ⟨_, hp, rfl⟩
  rw [h.claims] at this
  simpa using this

theorem Hist.fun (h : Hist P s) {p r r' : Nat} (hp : (p, r) ∈ s.claimed) (hp' : (p, r') ∈ s.claimed) : r = r' := by
  have hn : (s.claimed.map Prod.fst).Nodup := by rw [h.claims]; rw [List.nodup_reverse]; exact List.nodup_range
  have : ∀ (l : List (Nat × Nat)), (l.map Prod.fst).Nodup → (p, r) ∈ l → (p, r') ∈ l → r = r' := by
    intro l
    induction l with
    | nil => intro _ h; cases h
    | cons x l ih =>
      intro hn h1 h2
      rw [List.map_cons, List.nodup_cons] at hn
      rcases List.mem_cons.mp h1 with a | a <;> rcases List.mem_cons.mp h2 with b | b
      · rw [← b] at a; exact (Prod.mk.inj a).2
      · exact absurd (List.mem_map.mpr ⟨_, b, by rw [← a]⟩) hn.1
      · exact absurd (List.mem_map.mpr ⟨_, a, by rw [← b]⟩) hn.1
      · exact ih hn.2 a b
  exact this _ hn hp hp'

theorem Hist.locj_step (h : Hist P s) (hI : Inv P s) (hi : s.thr[i]? = some t) (hs : stepT P s i t c = .ok (some s')) :
    ∀ (j : Nat) (u : Th), s'.thr[j]? = some u → LocJ s' u := by
  intro j u hu
  by_cases hj : j = i
  · subst hj
    obtain ⟨t', ht', hl⟩ := step_locj hI hi (h.locj _ _ hi) hs
    rw [ht'] at hu; cases hu; exact hl
  · have mono : ∀ w, s.thr[j]? = some w → LocJ s' w := by
      intro w hw
      refine (h.locj j w hw).mono (step_tail hs) ?_
      by_cases h10 : ∃ e o, t.pc = .ad10 e o
      · right
        obtain ⟨e, o, h10⟩ := h10
        have : sect t = some (.C e t.tl 3) := by unfold sect; rw [h10]
        exact (hI.alone hi this).2.2 j w hj hw
      · left
        push Not at h10
        exact step_head hs h10
    rcases step_others hs hj with e | e
    · exact mono u (e ▸ hu)
    · rw [e, Option.map_eq_some_iff] at hu
      obtain ⟨w, hw, rfl⟩ := hu
      exact (mono w hw).wake

theorem Hist.step (h : Hist P s) (hI : Inv P s) (hs : Conc.step P s i c = .ok (some s')) : Hist P s' := by
  unfold Conc.step at hs
  split at hs
  case h_2 => cases hs
  rename_i t hi
  have hlt : i < s.thr.length := (List.getElem?_eq_some_iff.mp hi).1
  have hlocj := h.locj_step hI hi hs
  by_cases h3 : ∃ r x, t.pc = .ap3 r x ∧ s.tail = x
  · obtain ⟨r, x, h3, hx⟩ := h3
    have hoth := fun j hj r p => step_ap5 (j := j) hs hj (r := r) (p := p)
    have hs0 := hs
    unfold stepT at hs
    rw [h3] at hs
    simp only [if_pos hx] at hs
    have := ok_inj hs; subst this
    have hget : ∀ u, ({ s with tail := x + 1, claimed := (x, r) :: s.claimed }.setT i { t with pc := .ap5 r x } : St).thr[i]? = some u →
        u.pc = .ap5 r x := by
      intro u hu
      have : (s.thr.set i { t with pc := .ap5 r x })[i]? = some u := hu
      rw [List.getElem?_set_self hlt] at this; cases this; rfl
    have hbd : ∀ {p r'}, (p, r') ∈ s.claimed → p < x := fun hp => hx ▸ h.claimed_lt hp
    refine ⟨?_, ?_, ?_, ?_, ?_, h.memd, hlocj⟩
    · show ((x, r) :: s.claimed).map Prod.fst = (List.range (x + 1)).reverse
      rw [List.map_cons, h.claims, List.range_succ, List.reverse_append, hx]; rfl
    · intro y hy
      exact List.mem_cons_of_mem _ (h.sub y hy)
    · intro j u r' p hu hp
      by_cases hj : j = i
      · subst hj
        rw [hget u hu] at hp; cases hp
        refine ⟨List.mem_cons_self, fun r'' hd => ?_⟩
        exact absurd (hbd (h.sub _ hd)) (lt_irrefl _)
      · obtain ⟨w, hw, hp'⟩ := (hoth j hj r' p).mp ⟨u, hu, hp⟩
        obtain ⟨a, b⟩ := h.pend j w r' p hw hp'
        exact ⟨List.mem_cons_of_mem _ a, b⟩
    · intro j k u w r1 r2 p hu hw hp1 hp2
      by_cases hj : j = i <;> by_cases hk : k = i
      · rw [hj, hk]
      · subst hj
        rw [hget u hu] at hp1; cases hp1
        obtain ⟨w', hw', hp'⟩ := (hoth k hk r2 x).mp ⟨w, hw, hp2⟩
        exact absurd (hbd (h.pend k w' r2 x hw' hp').1) (lt_irrefl _)
      · subst hk
        rw [hget w hw] at hp2; cases hp2
        obtain ⟨w', hw', hp'⟩ := (hoth j hj r1 x).mp ⟨u, hu, hp1⟩
        exact absurd (hbd (h.pend j w' r1 x hw' hp').1) (lt_irrefl _)
      · obtain ⟨u', hu', hpu⟩ := (hoth j hj r1 p).mp ⟨u, hu, hp1⟩
        obtain ⟨w', hw', hpw⟩ := (hoth k hk r2 p).mp ⟨w, hw, hp2⟩
        exact h.uniq j k u' w' r1 r2 p hu' hw' hpu hpw
    · intro p r' hp
      rcases List.mem_cons.mp hp with e | e
      · cases e
        exact .inr ⟨i, _, List.getElem?_set_self hlt, rfl⟩
      · rcases h.covered p r' e with hd | ⟨j, w, hw, hpw⟩
        · exact .inl hd
        · have hj : j ≠ i := by
            rintro rfl
            rw [hi] at hw; cases hw; rw [h3] at hpw; cases hpw
          obtain ⟨u, hu, hpu⟩ := (hoth j hj r' p).mpr ⟨w, hw, hpw⟩
          exact .inr ⟨j, u, hu, hpu⟩
  · by_cases h5 : ∃ r p, t.pc = .ap5 r p
    · obtain ⟨r, p, h5⟩ := h5
      have hoth := fun j hj r p => step_ap5 (j := j) hs hj (r := r) (p := p)
      unfold stepT at hs
      rw [h5] at hs
      simp only at hs
      have := ok_inj hs; subst this
      obtain ⟨hcl, hnd⟩ := h.pend i t r p hi h5
      have hget : ∀ u, ({ s with mem := upd s.mem (p % P.cap) (some (p, r)), done := (p, r) :: s.done }.setT i { t with pc := .idle } : St).thr[i]? = some u →
          u.pc = .idle := by
        intro u hu
        have : (s.thr.set i { t with pc := .idle })[i]? = some u := hu
        rw [List.getElem?_set_self hlt] at this; cases this; rfl
      refine ⟨h.claims, ?_, ?_, ?_, ?_, ?_, hlocj⟩
      · intro y hy
        rcases List.mem_cons.mp hy with e | e
        · rw [e]; exact hcl
        · exact h.sub y e
      · intro j u r' q hu hq
        by_cases hj : j = i
        · subst hj
          rw [hget u hu] at hq; cases hq
        · obtain ⟨w, hw, hp'⟩ := (hoth j hj r' q).mp ⟨u, hu, hq⟩
          obtain ⟨a, b⟩ := h.pend j w r' q hw hp'
          refine ⟨a, fun r'' hd => ?_⟩
          rcases List.mem_cons.mp hd with e | e
          · cases e
            exact hj (h.uniq j i w t r' r p hw hi hp' h5)
          · exact b r'' e
      · intro j k u w r1 r2 q hu hw hp1 hp2
        have hj : j ≠ i := by rintro rfl; rw [hget u hu] at hp1; cases hp1
        have hk : k ≠ i := by rintro rfl; rw [hget w hw] at hp2; cases hp2
        obtain ⟨u', hu', hpu⟩ := (hoth j hj r1 q).mp ⟨u, hu, hp1⟩
        obtain ⟨w', hw', hpw⟩ := (hoth k hk r2 q).mp ⟨w, hw, hp2⟩
        exact h.uniq j k u' w' r1 r2 q hu' hw' hpu hpw
      · intro q r' hq
        rcases h.covered q r' hq with hd | ⟨j, w, hw, hpw⟩
        · exact .inl (List.mem_cons_of_mem _ hd)
        · by_cases hj : j = i
          · subst hj
            rw [hi] at hw; cases hw; rw [h5] at hpw; cases hpw
            exact .inl List.mem_cons_self
          · obtain ⟨u, hu, hpu⟩ := (hoth j hj r' q).mpr ⟨w, hw, hpw⟩
            exact .inr ⟨j, u, hu, hpu⟩
      · intro j q r' hm
        have hm : upd s.mem (p % P.cap) (some (p, r)) j = some (q, r') := hm
        by_cases hj : j = p % P.cap
        · subst hj
          rw [upd_self] at hm; cases hm
          exact ⟨List.mem_cons_self, rfl⟩
        · rw [upd_ne _ _ hj] at hm
          obtain ⟨a, b⟩ := h.memd j q r' hm
          exact ⟨List.mem_cons_of_mem _ a, b⟩
    · -- everything else
      have hfr : s'.tail = s.tail ∧ s'.claimed = s.claimed ∧ s'.done = s.done ∧ s'.mem = s.mem ∧
          ∀ u, s'.thr[i]? = some u → ∀ r p, u.pc ≠ .ap5 r p := by
        by_cases hap : ∃ r x, t.pc = .ap3 r x
        · obtain ⟨r, x, hap⟩ := hap
          have hne : s.tail ≠ x := fun e => h3 ⟨r, x, hap, e⟩
          unfold stepT at hs
          rw [hap] at hs
          simp only [if_neg hne] at hs
          have := ok_inj hs; subst this
          refine ⟨rfl, rfl, rfl, rfl, fun u hu => ?_⟩
          have : (s.thr.set i { t with pc := .ap4 r s.tail })[i]? = some u := hu
          rw [List.getElem?_set_self hlt] at this; cases this; simp
        · push Not at hap h5
          obtain ⟨a, b, c, d, t', ht, hn⟩ := step_frame hs hap h5
          refine ⟨a, b, c, d, fun u hu => ?_⟩
          rcases ht with ht | ht
          · rw [ht, List.getElem?_set_self hlt] at hu; cases hu; exact hn
          · rw [ht, List.getElem?_set_self (by simpa using hlt)] at hu; cases hu; exact hn
      obtain ⟨f1, f2, f3, f4, f5⟩ := hfr
      have hoth := fun j hj r p => step_ap5 (j := j) hs hj (r := r) (p := p)
      push Not at h5
      refine ⟨?_, ?_, ?_, ?_, ?_, ?_, hlocj⟩
      · rw [f1, f2]; exact h.claims
      · rw [f2, f3]; exact h.sub
      · intro j u r p hu hp
        have hj : j ≠ i := by rintro rfl; exact f5 u hu r p hp
        obtain ⟨w, hw, hp'⟩ := (hoth j hj r p).mp ⟨u, hu, hp⟩
        rw [f2, f3]
        exact h.pend j w r p hw hp'
      · intro j k u w r1 r2 q hu hw hp1 hp2
        have hj : j ≠ i := by rintro rfl; exact f5 u hu _ _ hp1
        have hk : k ≠ i := by rintro rfl; exact f5 w hw _ _ hp2
        obtain ⟨u', hu', hpu⟩ := (hoth j hj r1 q).mp ⟨u, hu, hp1⟩
        obtain ⟨w', hw', hpw⟩ := (hoth k hk r2 q).mp ⟨w, hw, hp2⟩
        exact h.uniq j k u' w' r1 r2 q hu' hw' hpu hpw
      · intro p r hp
        rw [f2] at hp
        rw [f3]
        rcases h.covered p r hp with hd | ⟨j, w, hw, hpw⟩
        · exact .inl hd
        · have hj : j ≠ i := by
            rintro rfl
            rw [hi] at hw; cases hw; exact h5 _ _ hpw
          obtain ⟨u, hu, hpu⟩ := (hoth j hj r p).mpr ⟨w, hw, hpw⟩
          exact .inr ⟨j, u, hu, hpu⟩
      · rw [f3, f4]; exact h.memd

theorem Hist.init (P : Par) (n : Nat) : Hist P (init P n) := by
  have hthr : ∀ (j : Nat) (t : Th), (Conc.init P n).thr[j]? = some t → t = {} :=
    fun j t ht => (List.mem_replicate.mp (List.mem_of_getElem? ht)).2
  refine ⟨rfl, ?_, ?_, ?_, ?_, ?_, ?_⟩
  · intro x hx; cases hx
  · intro j t r p hj hp; rw [hthr j t hj] at hp; cases hp
  · intro j k t u r r' p hj _ hp _; rw [hthr j t hj] at hp; cases hp
  · intro p r hp; cases hp
  · intro j p r hm; cases hm
  · intro j t hj; rw [hthr j t hj]; trivial

theorem Reach.hist {n : Nat} {ok : St → Nat → Prop} (hw : 0 < P.hwm) (h : Reach P n ok s) : Hist P s := by
  induction h with
  | init => exact Hist.init P n
  | step hr _ hs ih => exact ih.step (hr.inv hw) hs

/-! ### Which asserts can fail -/

/-- The only asserts that can fail are the one on the count of the current epoch in `end_job`, and the first one of
`advance_head`, the latter only if the reconstruction flushed an empty view. -/
theorem Inv.abort_cases (h : Inv P s) (hH : Hist P s) (hs : Conc.step P s i c = .error .abort) :
    ∃ t, s.thr[i]? = some t ∧
      ((∃ k, t.pc = .ejC2 k ∧ s.cur.ep ≠ none ∧ s.cur.ref = 0) ∨ (∃ e, t.pc = .ad7 e ∧ t.tl = s.head.idx)) := by
  unfold Conc.step at hs
  split at hs
  case h_2 => cases hs
  rename_i t hi
  refine ⟨t, hi, ?_⟩
  have hj := hH.locj i t hi
  obtain ⟨pc, ep, hd, tl⟩ := t
  cases pc <;> simp only [stepT] at hs
  case crA =>
    obtain ⟨_, hn⟩ : Core P s.sv .A := h.phase hi rfl
    have hn : s.next = none := hn
    rw [if_pos hn] at hs; cases hs
  case ejP2 k =>
    obtain ⟨h1, h2, h3, h4⟩ : ep ≠ none ∧ (k = .client ∨ hd = none) ∧ (∀ e, k ≠ .job e) ∧ s.prev.ep = ep := (h.thread hi).1
    obtain ⟨e, rfl⟩ := Option.ne_none_iff_exists'.mp h1
    obtain ⟨ph, hp⟩ := h.some_phase
    have hle : s.H e ≤ s.prev.ref := (h.core ph hp).prev_count (v := s.sv) h4
    have hpos := H_pos hi (e := e) rfl
    have : 0 < s.prev.ref := by omega
    rw [if_neg (by rw [h4]; simp), if_pos this] at hs
    cases hs
  case ejC2 k =>
    split at hs
    · cases hs
    · rename_i hn
      split at hs
      · cases hs
      · exact .inl ⟨k, rfl, hn, by omega⟩
  case ad7 e =>
    obtain ⟨j1, j2⟩ : s.head.idx ≤ tl ∧ tl ≤ s.tail := hj
    split at hs
    · cases hs
    · rename_i hn
      refine .inr ⟨e, rfl, ?_⟩
      show tl = s.head.idx
      omega
  all_goals
    repeat' split at hs
  all_goals exact absurd hs (by simp)

end DE.Conc
