import Verif.Proofs.ConcProgress
import Verif.Proofs.ConcData

/-!
How many steps a reconstruction needs when it runs alone, and what it waits for.
-/

namespace DE.Conc
variable {P : Par} {s s' : St} {i : Nat} {t : Th} {c : Ch}

/-- What a reconstruction knows beyond the other invariants: the previous epoch it retires, and the head of the view it drops. -/
def LocS (s : St) (t : Th) : Prop :=
  match t.pc with
  | .rt1 _ x | .rt2 _ x _ => s.prev.ep = some x
  | .rl1 (.job _) | .rlO2 (.job _) | .rlO3 (.job _) _ | .rlH2 (.job _) | .rlH3 (.job _) _ => t.hd = some s.head.idx
  | _ => True

/-- The same for all threads. -/
def Sec (s : St) : Prop := ∀ (j : Nat) (u : Th), s.thr[j]? = some u → LocS s u

theorem LocS.of_sect (h : sect t = none) : LocS s t := by
  obtain ⟨pc, ep, hd, tl⟩ := t
  cases pc <;> try trivial
  all_goals (first | (rename_i k; cases k <;> first | trivial | cases h) | (rename_i k _; cases k <;> trivial))

theorem LocS.mono (h : LocS s t) (h1 : s'.prev.ep = s.prev.ep) (h2 : s'.head.idx = s.head.idx) : LocS s' t := by
  obtain ⟨pc, ep, hd, tl⟩ := t
  cases pc <;> try trivial
  case rt1 => exact h1.trans h
  case rt2 => exact h1.trans h
  all_goals (first
    | (rename_i k; cases k <;> first | trivial | (show hd = some s'.head.idx; rw [h2]; exact h))
    | (rename_i k _; cases k <;> first | trivial | (show hd = some s'.head.idx; rw [h2]; exact h)))

theorem LocS.wake (h : LocS s t) : LocS s (wake t) := by
  unfold Conc.wake
  split
  · trivial
  · exact h

theorem step_locs (hH : Hist P s) (hS : Sec s) (hi : s.thr[i]? = some t) (hs : stepT P s i t c = .ok (some s')) :
    ∃ t', s'.thr[i]? = some t' ∧ LocS s' t' := by
  have key : ∀ {a : St} {t' : Th}, (.ok (some (a.setT i t')) : Out) = .ok (some s') → (a.thr = s.thr ∨ a.thr = s.thr.map Conc.wake) →
      LocS (a.setT i t') t' → ∃ t', s'.thr[i]? = some t' ∧ LocS s' t' := by
    intro a t' h a1 a2
    have := ok_inj h; subst this
    refine ⟨t', ?_, a2⟩
    show (a.thr.set i t')[i]? = some t'
    refine List.getElem?_set_self ?_
    have := (List.getElem?_eq_some_iff.mp hi).1
    rcases a1 with a1 | a1 <;> rw [a1]
    · exact this
    · rw [List.length_map]; exact this
  have hl := hS i t hi
  have hj := hH.locj i t hi
  obtain ⟨pc, ep, hd, tl⟩ := t
  cases pc <;> simp only [stepT] at hs
  case gaP3 k o =>
    cases k <;> (split at hs <;> exact key hs (.inl rfl) trivial)
  case gaC3 k o =>
    cases k <;> (split at hs <;> exact key hs (.inl rfl) trivial)
  case ejP3 k o =>
    cases k <;> (split at hs <;> exact key hs (.inl rfl) trivial)
  case ejC3 k o =>
    cases k <;> (split at hs <;> exact key hs (.inl rfl) trivial)
  case gt k =>
    cases k <;> exact key hs (.inl rfl) trivial
  case run =>
    repeat' split at hs
    all_goals first
      | exact key hs (.inl rfl) trivial
      | exact absurd hs (by simp)
  case rl1 k =>
    cases k with
    | job e => exact (by split at hs <;> exact key hs (.inl rfl) hl)
    | _ => split at hs <;> exact key hs (.inl rfl) trivial
  case rlO2 k =>
    cases k with
    | job e => exact (by split at hs <;> exact key hs (.inl rfl) hl)
    | _ => split at hs <;> exact key hs (.inl rfl) trivial
  case rlH2 k =>
    cases k with
    | job e => exact (by split at hs <;> exact key hs (.inl rfl) hl)
    | _ => split at hs <;> exact key hs (.inl rfl) trivial
  case rlO3 k o =>
    cases k with
    | job e =>
      split at hs
      · exact key hs (.inl rfl) trivial
      · exact key hs (.inl rfl) hl
    | _ => split at hs <;> exact key hs (.inl rfl) trivial
  case rlH3 k o =>
    cases k with
    | job e =>
      split at hs
      · exact key hs (.inl rfl) trivial
      · exact key hs (.inl rfl) hl
    | _ => split at hs <;> exact key hs (.inl rfl) trivial
  case cp e p acc =>
    repeat' split at hs
    · exact key hs (.inl rfl) trivial
    · exact key hs (.inl rfl) hj.1
    · cases hs
  case ad1 e =>
    split at hs
    · exact key hs (.inl rfl) trivial
    · rename_i h; exact key hs (.inl rfl) h
  case rt1 e x =>
    split at hs
    · exact key hs (.inl rfl) hl
    · exact key hs (.inl rfl) hl
  case rt2 e x o =>
    split at hs
    · exact key hs (.inl rfl) trivial
    · exact key hs (.inl rfl) hl
  case ad15 => exact key hs (.inr rfl) trivial
  all_goals
    repeat' split at hs
  all_goals first
    | exact key hs (.inl rfl) trivial
    | exact absurd hs (by simp)

theorem Sec.step (hS : Sec s) (hI : Inv P s) (hH : Hist P s) (hs : Conc.step P s i c = .ok (some s')) : Sec s' := by
  unfold Conc.step at hs
  split at hs
  case h_2 => cases hs
  rename_i t hi
  intro j u hu
  by_cases hj : j = i
  · subst hj
    obtain ⟨t', h1, h2⟩ := step_locs hH hS hi hs
    rw [hu] at h1; cases h1
    exact h2
  · have other : ∀ w, s.thr[j]? = some w → LocS s' w := by
      intro w hw
      cases hx : sect w with
      | none => exact LocS.of_sect hx
      | some ph =>
        have ht : sect t = none := (hI.alone hw hx).2.2 i t (Ne.symm hj) hi
        refine (hS j w hw).mono (step_out hs ht).2.2.2.2.1 (step_head hs ?_)
        intro e o h
        unfold sect at ht
        rw [h] at ht
        cases ht
    rcases step_others hs hj with h | h
    · rw [h] at hu; exact other u hu
    · rw [h, Option.map_eq_some_iff] at hu
      obtain ⟨w, hw, rfl⟩ := hu
      exact (other w hw).wake

theorem Reach.sec {n : Nat} {ok : St → Nat → Prop} (hw : 0 < P.hwm) (h : Reach P n ok s) : Sec s := by
  induction h with
  | init =>
    intro j u hu
    have : u ∈ (Conc.init P n).thr := List.mem_of_getElem? hu
    rw [List.eq_of_mem_replicate this]
    trivial
  | step hr _ hs ih => exact ih.step (hr.inv hw) (hr.hist hw) hs

/-! ### The reconstruction alone -/

/-- Inside a reconstruction. -/
def rebuilding : PC → Bool
  | .jb _ | .gh1 (.job _) _ | .ghO2 (.job _) _ | .ghO3 (.job _) _ _ | .ghB (.job _) _ | .ghH2 (.job _) _ | .ghH3 (.job _) _ _ => true
  | .gt (.job _) | .cp _ _ _ | .rl1 (.job _) | .rlO2 (.job _) | .rlO3 (.job _) _ | .rlH2 (.job _) | .rlH3 (.job _) _ => true
  | .ad1 _ | .rt1 _ _ | .rt2 _ _ _ | .rt3 _ _ | .ad3 _ | .ad4 _ _ | .ad5 _ _ | .ad6 _ | .ad7 _ | .ad8 _ | .ad9 _ | .ad10 _ _ => true
  | .ad11 _ _ | .ad12 _ | .ad13 | .ad14 | .ad15 | .ad16 | .ad17 => true
  | _ => false

/-- Not yet past `retire_epoch`. -/
def unretired : PC → Bool
  | .rt3 _ _ | .ad3 _ | .ad4 _ _ | .ad5 _ _ | .ad6 _ | .ad7 _ | .ad8 _ | .ad9 _ | .ad10 _ _ => false
  | .ad11 _ _ | .ad12 _ | .ad13 | .ad14 | .ad15 | .ad16 | .ad17 => false
  | _ => true

/-- Not yet past the test of the old head in `advance_head`. -/
def unadvanced : PC → Bool
  | .ad9 _ | .ad10 _ _ | .ad11 _ _ | .ad12 _ | .ad13 | .ad14 | .ad15 | .ad16 | .ad17 => false
  | _ => true

/-- Not yet holding the lock to notify the waiters. -/
def unlocked : PC → Bool
  | .ad15 | .ad16 | .ad17 => false
  | _ => true

/-- Nothing to wait for: no reader counted on the previous epoch or on the old head, and the lock free. -/
def Ready (s : St) (p : PC) : Prop :=
  (unretired p = true → s.prev.ref = 0) ∧ (unadvanced p = true → s.old.ref = 0) ∧ (unlocked p = true → s.lock = none)

instance (s : St) (p : PC) : Decidable (Ready s p) := by unfold Ready; infer_instance

/-- Steps a reconstruction still needs. -/
def recM (s : St) (t : Th) : Nat :=
  match t.pc with
  | .jb e => 33 + (s.tail - s.ehead e)
  | .gh1 _ g => 30 + (s.tail - g)
  | .ghB _ g => 29 + (s.tail - g)
  | .ghH2 _ g => 28 + (s.tail - g)
  | .ghO2 _ g => 32 + (s.tail - g)
  | .ghO3 _ g _ => 31 + (s.tail - g)
  | .ghH3 _ g o => (if s.head = o then 27 else 31) + (s.tail - g)
  | .gt _ => 25 + (s.tail - t.hd.getD 0)
  | .cp _ p _ => 24 + (t.tl - p)
  | .rl1 _ => 23
  | .rlO2 _ | .rlO3 _ _ => 24
  | .rlH2 _ => 22
  | .rlH3 _ o => if s.head = o then 21 else 24
  | .ad1 _ => 19
  | .rt1 _ _ => 18
  | .rt2 _ _ o => if s.prev = o then 17 else 19
  | .rt3 _ _ => 16
  | .ad3 _ => 15
  | .ad4 _ o => if s.cur = o then 14 else 16
  | .ad5 _ _ => 13
  | .ad6 _ => 12
  | .ad7 _ => 11
  | .ad8 _ => 10
  | .ad9 _ => 9
  | .ad10 _ o => if s.head = o then 8 else 10
  | .ad11 _ _ => 7
  | .ad12 _ => 6
  | .ad13 => 5
  | .ad14 => 4
  | .ad15 => 3
  | .ad16 => 2
  | .ad17 => 1
  | _ => 0

/-- Everything known about a reachable state that is used below. -/
structure Good (P : Par) (s : St) : Prop where
  inv : Inv P s
  hist : Hist P s
  sec : Sec s

theorem Good.step (h : Good P s) (hs : Conc.step P s i c = .ok (some s')) : Good P s' :=
  ⟨h.inv.step hs, h.hist.step h.inv hs, h.sec.step h.inv h.hist hs⟩

theorem Reach.good {n : Nat} {ok : St → Nat → Prop} (hw : 0 < P.hwm) (h : Reach P n ok s) : Good P s :=
  ⟨h.inv hw, h.hist hw, h.sec hw⟩

/-- The steps needed are bounded by the number of records in the buffer. -/
theorem recM_le (hG : Good P s) (hi : s.thr[i]? = some t) (hin : rebuilding t.pc = true) : recM s t ≤ 33 + (s.tail - s.head.idx) := by
  have hj := hG.hist.locj i t hi
  have hph := fun {ph} (h : sect t = some ph) => hG.inv.phase hi h
  obtain ⟨pc, ep, hd, tl⟩ := t
  cases pc <;> simp only [rebuilding, Bool.false_eq_true] at hin
  case jb e =>
    have h : s.ehead e = s.head.idx := (hph rfl).2.2.1
    show 33 + (s.tail - s.ehead e) ≤ _
    rw [h]
  case gt k =>
    cases k <;> simp at hin
    have hj : hd = some s.head.idx := hj
    subst hj
    show 25 + (s.tail - s.head.idx) ≤ _
    omega
  case cp e p acc =>
    obtain ⟨-, h2, h3, h4, h5⟩ : hd = some s.head.idx ∧ s.head.idx ≤ tl ∧ tl ≤ s.tail ∧ p ≤ tl ∧ p = s.head.idx + acc.length := hj
    show 24 + (tl - p) ≤ _
    omega
  case ghH3 k g o =>
    cases k <;> simp at hin
    have hj : g = s.head.idx := hj
    subst hj
    show (if s.head = o then 27 else 31) + _ ≤ _
    split <;> omega
  case gh1 k g => cases k <;> simp at hin; have hj : g = s.head.idx := hj; subst hj; show 30 + _ ≤ _; omega
  case ghB k g => cases k <;> simp at hin; have hj : g = s.head.idx := hj; subst hj; show 29 + _ ≤ _; omega
  case ghH2 k g => cases k <;> simp at hin; have hj : g = s.head.idx := hj; subst hj; show 28 + _ ≤ _; omega
  case ghO2 k g => cases k <;> simp at hin; have hj : g = s.head.idx := hj; subst hj; show 32 + _ ≤ _; omega
  case ghO3 k g o => cases k <;> simp at hin; have hj : g = s.head.idx := hj; subst hj; show 31 + _ ≤ _; omega
  all_goals
    simp only [recM]
    repeat' split
    all_goals omega

/-- The counts of the heads while the reconstruction is before `advance_head`. -/
theorem Good.calm (hG : Good P s) (hi : s.thr[i]? = some t) {e : Nat} (hp : sect t = some (.A1 e)) :
    EpS s.sv s.prev s.cur ∧ BufS P s.sv s.old s.head := by
  have := (hG.inv.phase hi hp).1
  exact ⟨this.1, this.2.1⟩

/-- A step of a reconstruction with nothing to wait for. -/
theorem rec_step (hG : Good P s) (hi : s.thr[i]? = some t) (hin : rebuilding t.pc = true) (hr : Ready s t.pc)
    (hs : stepT P s i t c = .ok (some s')) :
    ∃ t', s'.thr[i]? = some t' ∧ (if rebuilding t'.pc then recM s' t' else 0) < recM s t ∧ (rebuilding t'.pc = true → Ready s' t'.pc) := by
  have key : ∀ {a : St} {t' : Th}, (.ok (some (a.setT i t')) : Out) = .ok (some s') → (a.thr = s.thr ∨ a.thr = s.thr.map Conc.wake) →
      (rebuilding t'.pc = true → Ready a t'.pc) → (if rebuilding t'.pc then recM (a.setT i t') t' else 0) < recM s t →
      ∃ t', s'.thr[i]? = some t' ∧ (if rebuilding t'.pc then recM s' t' else 0) < recM s t ∧ (rebuilding t'.pc = true → Ready s' t'.pc) := by
    intro a t' h a1 a2 a3
    have := ok_inj h; subst this
    refine ⟨t', ?_, a3, a2⟩
    show (a.thr.set i t')[i]? = some t'
    refine List.getElem?_set_self ?_
    have := (List.getElem?_eq_some_iff.mp hi).1
    rcases a1 with a1 | a1 <;> rw [a1]
    · exact this
    · rw [List.length_map]; exact this
  have hj := hG.hist.locj i t hi
  have hl := hG.sec i t hi
  have hloc := (hG.inv.thread hi).1
  have hph := fun {ph} (h : sect t = some ph) => hG.inv.phase hi h
  have hcalm := fun {e} (h : sect t = some (.A1 e)) => hG.calm hi h
  obtain ⟨hr1, hr2, hr3⟩ := hr
  obtain ⟨pc, ep, hd, tl⟩ := t
  cases pc <;> simp only [rebuilding, Bool.false_eq_true] at hin
  case jb e =>
    simp only [stepT] at hs
    have h : s.ehead e = s.head.idx := (hph rfl).2.2.1
    split at hs
    · exact key hs (.inl rfl) (fun _ => ⟨hr1, hr2, hr3⟩) (by simp [rebuilding, recM, St.setT])
    · cases hs
  case gh1 k g =>
    cases k <;> simp at hin
    simp only [stepT] at hs
    have hj : g = s.head.idx := hj
    have hb : s.old.idx ≠ s.head.idx := (hph rfl).1.2.1.1
    rw [if_neg (by rw [hj]; exact hb)] at hs
    exact key hs (.inl rfl) (fun _ => ⟨hr1, hr2, hr3⟩) (by simp [rebuilding, recM, St.setT])
  case ghB k g =>
    cases k <;> simp at hin
    simp only [stepT] at hs
    have hj : g = s.head.idx := hj
    rw [if_pos hj.symm] at hs
    exact key hs (.inl rfl) (fun _ => ⟨hr1, hr2, hr3⟩) (by simp [rebuilding, recM, St.setT])
  case ghO2 k g =>
    cases k <;> simp at hin
    simp only [stepT] at hs
    exact key hs (.inl rfl) (fun _ => ⟨hr1, hr2, hr3⟩) (by simp [rebuilding, recM, St.setT])
  case ghH2 k g =>
    cases k <;> simp at hin
    simp only [stepT] at hs
    have hj : g = s.head.idx := hj
    subst hj
    exact key hs (.inl rfl) (fun _ => ⟨hr1, hr2, hr3⟩) (by simp [rebuilding, recM, St.setT])
  case ghO3 k g o =>
    cases k <;> simp at hin
    simp only [stepT] at hs
    have hj : g = s.head.idx := hj
    have hb : s.old.idx ≠ s.head.idx := (hph rfl).1.2.1.1
    obtain ⟨-, -, h3⟩ : _ ∧ _ ∧ o.idx = g := hloc
    rw [if_neg (by rintro rfl; exact hb (h3.trans hj))] at hs
    exact key hs (.inl rfl) (fun _ => ⟨hr1, hr2, hr3⟩) (by simp [rebuilding, recM, St.setT])
  case ghH3 k g o =>
    cases k <;> simp at hin
    simp only [stepT] at hs
    obtain ⟨-, -, h3⟩ : _ ∧ _ ∧ o.idx = g := hloc
    split at hs
    · rename_i h; exact key hs (.inl rfl) (fun _ => ⟨hr1, hr2, hr3⟩) (by simp [rebuilding, recM, St.setT, h, h3])
    · rename_i h; exact key hs (.inl rfl) (fun _ => ⟨hr1, hr2, hr3⟩) (by simp [rebuilding, recM, St.setT, h])
  case gt k =>
    cases k <;> simp at hin
    simp only [stepT] at hs
    exact key hs (.inl rfl) (fun _ => ⟨hr1, hr2, hr3⟩) (by simp [rebuilding, recM, gtRet])
  case cp e p acc =>
    simp only [stepT] at hs
    split at hs
    · exact key hs (.inl rfl) (fun _ => ⟨hr1, hr2, hr3⟩) (by simp [rebuilding, recM]; omega)
    · split at hs
      · exact key hs (.inl rfl) (fun _ => ⟨hr1, hr2, hr3⟩) (by simp [rebuilding, recM]; omega)
      · cases hs
  case rl1 k =>
    cases k <;> simp at hin
    simp only [stepT] at hs
    have hl : hd = some s.head.idx := hl
    have hb : s.old.idx ≠ s.head.idx := (hcalm rfl).2.1
    rw [if_neg (by rw [hl]; exact fun h => hb (Option.some.inj h))] at hs
    exact key hs (.inl rfl) (fun _ => ⟨hr1, hr2, hr3⟩) (by simp [rebuilding, recM])
  case rlO2 k =>
    cases k <;> simp at hin
    have hl : hd = some s.head.idx := hl
    have hb : s.old.idx ≠ s.head.idx := (hcalm rfl).2.1
    have h1 : hd = some s.old.idx := hloc.1
    rw [hl] at h1
    exact absurd (Option.some.inj h1).symm hb
  case rlO3 k o =>
    cases k <;> simp at hin
    have hl : hd = some s.head.idx := hl
    have hb : s.old.idx ≠ s.head.idx := (hcalm rfl).2.1
    have h1 : hd = some s.old.idx := hloc.1
    rw [hl] at h1
    exact absurd (Option.some.inj h1).symm hb
  case rlH2 k =>
    cases k <;> simp at hin
    simp only [stepT] at hs
    have hl : hd = some s.head.idx := hl
    have hV := V_pos hi hl
    have hsum : s.old.ref + s.head.ref = s.V s.old.idx + s.V s.head.idx := (hcalm rfl).2.2.2.1
    have h2 := hr2 rfl
    rw [if_neg (by omega)] at hs
    exact key hs (.inl rfl) (fun _ => ⟨hr1, hr2, hr3⟩) (by simp [rebuilding, recM, St.setT])
  case rlH3 k o =>
    cases k <;> simp at hin
    simp only [stepT] at hs
    split at hs
    · rename_i h; exact key hs (.inl rfl) (fun _ => ⟨hr1, hr2, hr3⟩) (by simp [rebuilding, recM, rlRet, h])
    · rename_i h; exact key hs (.inl rfl) (fun _ => ⟨hr1, hr2, hr3⟩) (by simp [rebuilding, recM, h])
  case ad1 e =>
    simp only [stepT] at hs
    split at hs
    · exact key hs (.inl rfl) (fun _ => ⟨(fun h => by cases h), hr2, hr3⟩) (by simp [rebuilding, recM])
    · exact key hs (.inl rfl) (fun _ => ⟨hr1, hr2, hr3⟩) (by simp [rebuilding, recM])
  case rt1 e x =>
    simp only [stepT] at hs
    have hl : s.prev.ep = some x := hl
    rw [if_pos ⟨hl, hr1 rfl⟩] at hs
    exact key hs (.inl rfl) (fun _ => ⟨hr1, hr2, hr3⟩) (by simp [rebuilding, recM, St.setT])
  case rt2 e x o =>
    simp only [stepT] at hs
    split at hs
    · rename_i h; exact key hs (.inl rfl) (fun _ => ⟨(fun h => by cases h), hr2, hr3⟩) (by simp [rebuilding, recM, h])
    · rename_i h; exact key hs (.inl rfl) (fun _ => ⟨hr1, hr2, hr3⟩) (by simp [rebuilding, recM, h])
  case ad4 e o =>
    simp only [stepT] at hs
    split at hs
    · rename_i h; exact key hs (.inl rfl) (fun _ => ⟨(fun h => by cases h), hr2, hr3⟩) (by simp [rebuilding, recM, h])
    · rename_i h; exact key hs (.inl rfl) (fun _ => ⟨hr1, hr2, hr3⟩) (by simp [rebuilding, recM, h])
  case ad5 e o =>
    simp only [stepT] at hs
    exact key hs (.inl rfl) (fun _ => ⟨(fun h => by cases h), hr2, hr3⟩) (by simp [rebuilding, recM])
  case ad8 e =>
    simp only [stepT] at hs
    rw [if_neg (by have := hr2 rfl; omega)] at hs
    exact key hs (.inl rfl) (fun _ => ⟨(fun h => by cases h), (fun h => by cases h), hr3⟩) (by simp [rebuilding, recM])
  case ad10 e o =>
    simp only [stepT] at hs
    split at hs
    · rename_i h; exact key hs (.inl rfl) (fun _ => ⟨(fun h => by cases h), (fun h => by cases h), hr3⟩) (by simp [rebuilding, recM, h])
    · rename_i h; exact key hs (.inl rfl) (fun _ => ⟨(fun h => by cases h), (fun h => by cases h), hr3⟩) (by simp [rebuilding, recM, h])
  case ad11 e o =>
    simp only [stepT] at hs
    exact key hs (.inl rfl) (fun _ => ⟨(fun h => by cases h), (fun h => by cases h), hr3⟩) (by simp [rebuilding, recM])
  case ad14 =>
    simp only [stepT] at hs
    split at hs
    · exact key hs (.inl rfl) (fun _ => ⟨(fun h => by cases h), (fun h => by cases h), (fun h => by cases h)⟩) (by simp [rebuilding, recM])
    · cases hs
  case ad15 =>
    simp only [stepT] at hs
    exact key hs (.inr rfl) (fun _ => ⟨(fun h => by cases h), (fun h => by cases h), (fun h => by cases h)⟩) (by simp [rebuilding, recM])
  case ad16 =>
    simp only [stepT] at hs
    exact key hs (.inl rfl) (fun _ => ⟨(fun h => by cases h), (fun h => by cases h), (fun h => by cases h)⟩) (by simp [rebuilding, recM])
  case ad17 =>
    simp only [stepT] at hs
    exact key hs (.inl rfl) ((fun h => by cases h)) (by simp [rebuilding, recM])
  all_goals
    simp only [stepT] at hs
    repeat' split at hs
  all_goals first
    | exact key hs (.inl rfl) (fun _ => ⟨hr1, hr2, hr3⟩) (by simp [rebuilding, recM, St.setT])
    | exact absurd hs (by simp)

theorem rec_exit {t' : Th} (hi : s.thr[i]? = some t) (hin : rebuilding t.pc = true) (hs : stepT P s i t c = .ok (some s'))
    (hi' : s'.thr[i]? = some t') (hx : rebuilding t'.pc = false) : t'.pc = .idle ∧ s'.flag = false := by
  have key : ∀ {a : St} {u : Th}, (.ok (some (a.setT i u)) : Out) = .ok (some s') → (a.thr = s.thr ∨ a.thr = s.thr.map Conc.wake) →
      (rebuilding u.pc = true ∨ (u.pc = .idle ∧ a.flag = false)) → t'.pc = .idle ∧ s'.flag = false := by
    intro a u h a1 a2
    have := ok_inj h; subst this
    have : (a.setT i u).thr[i]? = some u := by
      show (a.thr.set i u)[i]? = some u
      refine List.getElem?_set_self ?_
      have := (List.getElem?_eq_some_iff.mp hi).1
      rcases a1 with a1 | a1 <;> rw [a1]
      · exact this
      · rw [List.length_map]; exact this
    rw [this] at hi'; cases hi'
    rcases a2 with a2 | a2
    · rw [a2] at hx; cases hx
    · exact a2
  obtain ⟨pc, ep, hd, tl⟩ := t
  cases pc <;> simp only [rebuilding, Bool.false_eq_true] at hin
  case gh1 k g => cases k <;> simp at hin; simp only [stepT] at hs; split at hs <;> exact key hs (.inl rfl) (.inl rfl)
  case ghB k g => cases k <;> simp at hin; simp only [stepT] at hs; split at hs <;> exact key hs (.inl rfl) (.inl rfl)
  case ghO2 k g => cases k <;> simp at hin; simp only [stepT] at hs; exact key hs (.inl rfl) (.inl rfl)
  case ghH2 k g => cases k <;> simp at hin; simp only [stepT] at hs; exact key hs (.inl rfl) (.inl rfl)
  case ghO3 k g o => cases k <;> simp at hin; simp only [stepT] at hs; split at hs <;> exact key hs (.inl rfl) (.inl rfl)
  case ghH3 k g o => cases k <;> simp at hin; simp only [stepT] at hs; split at hs <;> exact key hs (.inl rfl) (.inl rfl)
  case gt k => cases k <;> simp at hin; simp only [stepT] at hs; exact key hs (.inl rfl) (.inl rfl)
  case rl1 k => cases k <;> simp at hin; simp only [stepT] at hs; split at hs <;> exact key hs (.inl rfl) (.inl rfl)
  case rlO2 k => cases k <;> simp at hin; simp only [stepT] at hs; split at hs <;> exact key hs (.inl rfl) (.inl rfl)
  case rlH2 k => cases k <;> simp at hin; simp only [stepT] at hs; split at hs <;> exact key hs (.inl rfl) (.inl rfl)
  case rlO3 k o => cases k <;> simp at hin; simp only [stepT] at hs; split at hs <;> exact key hs (.inl rfl) (.inl rfl)
  case rlH3 k o => cases k <;> simp at hin; simp only [stepT] at hs; split at hs <;> exact key hs (.inl rfl) (.inl rfl)
  case ad15 => simp only [stepT] at hs; exact key hs (.inr rfl) (.inl rfl)
  case ad17 => simp only [stepT] at hs; exact key hs (.inl rfl) (.inr ⟨rfl, rfl⟩)
  all_goals
    simp only [stepT] at hs
    repeat' split at hs
  all_goals first
    | exact key hs (.inl rfl) (.inl rfl)
    | exact absurd hs (by simp)

/-- A step of a reconstruction that has something to wait for. -/
theorem rec_blocked (hG : Good P s) (hi : s.thr[i]? = some t) (hin : rebuilding t.pc = true) (hr : ¬ Ready s t.pc)
    (hs : stepT P s i t c = .ok (some s')) : ∃ t', s'.thr[i]? = some t' ∧ rebuilding t'.pc = true ∧ ¬ Ready s' t'.pc := by
  have key : ∀ {a : St} {t' : Th}, (.ok (some (a.setT i t')) : Out) = .ok (some s') → a.thr = s.thr → rebuilding t'.pc = true →
      (Ready a t'.pc → Ready s t.pc) → ∃ t', s'.thr[i]? = some t' ∧ rebuilding t'.pc = true ∧ ¬ Ready s' t'.pc := by
    intro a t' h a1 a2 a3
    have := ok_inj h; subst this
    exact ⟨t', setT_self hi a1, a2, fun h => hr (a3 h)⟩
  have hj := hG.hist.locj i t hi
  have hl := hG.sec i t hi
  have hloc := (hG.inv.thread hi).1
  have hph := fun {ph} (h : sect t = some ph) => hG.inv.phase hi h
  have hcalm := fun {e} (h : sect t = some (.A1 e)) => hG.calm hi h
  obtain ⟨pc, ep, hd, tl⟩ := t
  cases pc <;> simp only [rebuilding, Bool.false_eq_true] at hin
  case ghO3 k g o =>
    cases k <;> simp at hin
    simp only [stepT] at hs
    have hj : g = s.head.idx := hj
    have hb : s.old.idx ≠ s.head.idx := (hph rfl).1.2.1.1
    obtain ⟨-, -, h3⟩ : _ ∧ _ ∧ o.idx = g := hloc
    rw [if_neg (by rintro rfl; exact hb (h3.trans hj))] at hs
    exact key hs rfl rfl (fun h => h)
  case gh1 k g => cases k <;> simp at hin; simp only [stepT] at hs; split at hs <;> exact key hs rfl rfl (fun h => h)
  case ghB k g => cases k <;> simp at hin; simp only [stepT] at hs; split at hs <;> exact key hs rfl rfl (fun h => h)
  case ghO2 k g => cases k <;> simp at hin; simp only [stepT] at hs; exact key hs rfl rfl (fun h => h)
  case ghH2 k g => cases k <;> simp at hin; simp only [stepT] at hs; exact key hs rfl rfl (fun h => h)
  case ghH3 k g o => cases k <;> simp at hin; simp only [stepT] at hs; split at hs <;> exact key hs rfl rfl (fun h => h)
  case gt k => cases k <;> simp at hin; simp only [stepT] at hs; exact key hs rfl rfl (fun h => h)
  case rl1 k => cases k <;> simp at hin; simp only [stepT] at hs; split at hs <;> exact key hs rfl rfl (fun h => h)
  case rlH2 k => cases k <;> simp at hin; simp only [stepT] at hs; split at hs <;> exact key hs rfl rfl (fun h => h)
  case rlH3 k o => cases k <;> simp at hin; simp only [stepT] at hs; split at hs <;> exact key hs rfl rfl (fun h => h)
  case rlO2 k =>
    cases k <;> simp at hin
    have hl : hd = some s.head.idx := hl
    have hb : s.old.idx ≠ s.head.idx := (hcalm rfl).2.1
    have h1 : hd = some s.old.idx := hloc.1
    rw [hl] at h1
    exact absurd (Option.some.inj h1).symm hb
  case rlO3 k o =>
    cases k <;> simp at hin
    have hl : hd = some s.head.idx := hl
    have hb : s.old.idx ≠ s.head.idx := (hcalm rfl).2.1
    have h1 : hd = some s.old.idx := hloc.1
    rw [hl] at h1
    exact absurd (Option.some.inj h1).symm hb
  case ad1 e =>
    simp only [stepT] at hs
    split at hs
    · rename_i hn
      have h0 : s.prev.ref = 0 := by
        obtain ⟨e1, -, -, -, h⟩ := (hcalm rfl).1
        rcases h with ⟨h, -⟩ | ⟨e0, h, -⟩
        · rw [h]
        · rw [hn] at h; cases h
      exact key hs rfl rfl (fun h => ⟨fun _ => h0, h.2.1, h.2.2⟩)
    · exact key hs rfl rfl (fun h => h)
  case rt2 e x o =>
    simp only [stepT] at hs
    split at hs
    · rename_i h
      obtain ⟨-, h2⟩ : _ ∧ o = ⟨some x, 0⟩ := hloc
      exact key hs rfl rfl (fun h' => ⟨fun _ => by rw [h, h2], h'.2.1, h'.2.2⟩)
    · exact key hs rfl rfl (fun h => h)
  case ad5 e o =>
    simp only [stepT] at hs
    exact key hs rfl rfl (fun h => ⟨(fun h => by cases h), h.2.1, h.2.2⟩)
  case ad8 e =>
    simp only [stepT] at hs
    split at hs
    · exact key hs rfl rfl (fun h => h)
    · exact key hs rfl rfl (fun h => ⟨(fun h => by cases h), fun _ => by omega, h.2.2⟩)
  case ad11 e o =>
    simp only [stepT] at hs
    exact key hs rfl rfl (fun h => ⟨(fun h => by cases h), (fun h => by cases h), h.2.2⟩)
  case ad14 =>
    simp only [stepT] at hs
    split at hs
    · rename_i h; exact absurd ⟨(fun h => by cases h), (fun h => by cases h), fun _ => h⟩ hr
    · cases hs
  case ad15 => exact absurd ⟨(fun h => by cases h), (fun h => by cases h), (fun h => by cases h)⟩ hr
  case ad16 => exact absurd ⟨(fun h => by cases h), (fun h => by cases h), (fun h => by cases h)⟩ hr
  case ad17 => exact absurd ⟨(fun h => by cases h), (fun h => by cases h), (fun h => by cases h)⟩ hr
  all_goals
    simp only [stepT] at hs
    repeat' split at hs
  all_goals first
    | exact key hs rfl rfl (fun h => h)
    | exact absurd hs (by simp)

/-- A reconstruction can always take a step, unless it waits for the lock or the assert of `advance_head` fails. -/
theorem rec_enabled (hG : Good P s) (hi : s.thr[i]? = some t) (hin : rebuilding t.pc = true) :
    (∃ s', Conc.step P s i .go = .ok (some s')) ∨ (t.pc = .ad14 ∧ s.lock ≠ none) ∨ ((∃ e, t.pc = .ad7 e) ∧ t.tl = s.head.idx) := by
  have hj := hG.hist.locj i t hi
  cases hr : Conc.step P s i .go with
  | ok o =>
    cases o with
    | some s' => exact .inl ⟨s', rfl⟩
    | none =>
      right; left
      unfold Conc.step at hr
      rw [hi] at hr
      obtain ⟨pc, ep, hd, tl⟩ := t
      cases pc <;> simp only [rebuilding, Bool.false_eq_true] at hin
      case ad14 =>
        simp only [stepT] at hr
        split at hr
        · cases hr
        · rename_i h; exact ⟨rfl, h⟩
      all_goals
        simp only [stepT] at hr
        repeat' split at hr
        all_goals exact absurd hr (by simp)
  | error f =>
    cases f with
    | ub => exact absurd hr hG.inv.no_ub
    | abort =>
      right; right
      obtain ⟨u, hu, h⟩ := hG.inv.abort_cases hG.hist hr
      rw [hi] at hu; cases hu
      rcases h with ⟨k, h1, h2, h3⟩ | ⟨e, h1, h2⟩
      · rw [h1] at hin; cases k <;> simp [rebuilding] at hin
      · exact ⟨⟨e, h1⟩, by simpa using h2⟩

end DE.Conc
