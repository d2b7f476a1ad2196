import Verif.Proofs.ConcProgress

/-!
How many steps inserts need when other threads run at the same time.
-/

set_option linter.unreachableTactic false
set_option linter.unusedTactic false

namespace DE.Conc
variable {P : Par} {s s' : St} {i : Nat} {t : Th} {c : Ch}

/-- The words an insert loads and then compares-and-swaps: the tail, the current and the previous epoch. -/
def Same (s s' : St) : Prop := s'.tail = s.tail ∧ s'.cur = s.cur ∧ s'.prev = s.prev

instance : Decidable (Same s s') := by unfold Same; infer_instance

/-- `d` is reached from `a` by `m` steps of thread `i`, which stays inside one insert, and any number of steps of other threads, `k` of
which changed one of the words the insert works on. -/
inductive Among (P : Par) (i : Nat) (a : St) : Nat → Nat → St → Prop
  | refl : Among P i a 0 0 a
  | own {m k : Nat} {b d : St} {t : Th} {c : Ch} : Among P i a m k b → b.thr[i]? = some t → appending t.pc = true →
      Conc.step P b i c = .ok (some d) → Among P i a (m + 1) k d
  | other {m k j : Nat} {b d : St} {c : Ch} : Among P i a m k b → j ≠ i → Conc.step P b j c = .ok (some d) →
      Among P i a m (k + if Same b d then 0 else 1) d

/-- `d` is reached from `a` by `m` steps of threads that are inside inserts; no new call starts. -/
inductive Inserting (P : Par) (a : St) : Nat → St → Prop
  | refl : Inserting P a 0 a
  | step {m i : Nat} {b d : St} {t : Th} {c : Ch} : Inserting P a m b → b.thr[i]? = some t → appending t.pc = true →
      Conc.step P b i c = .ok (some d) → Inserting P a (m + 1) d

theorem appM_same (h : Same s s') (t : Th) : appM s' t = appM s t := by
  obtain ⟨h1, h2, h3⟩ := h
  unfold appM
  rw [h1, h2, h3]

theorem appM_diff (s s' : St) (t : Th) : appM s' t ≤ appM s t + 3 := by
  unfold appM
  split <;> (try split) <;> (try split) <;> omega

theorem appM_change (s s' : St) (t : Th) : appM s' t ≤ appM s t + 3 * (if Same s s' then 0 else 1) := by
  by_cases h : Same s s'
  · rw [if_pos h, appM_same h]; omega
  · rw [if_neg h]; exact appM_diff s s' t

/-- How often the thread can still change one of the words in its insert. -/
def appR : PC → Nat
  | .ins _ | .insT _ _ | .insH _ _ | .casF _ | .crA _ | .ga1 _ | .gaP2 _ | .gaP3 _ _ | .gaC2 _ | .gaC3 _ _ => 3
  | .crC _ | .ej1 _ | .ejP2 _ | .ejP3 _ _ | .ejC2 _ | .ejC3 _ _ => 2
  | .crS _ | .ap1 _ | .ap2 _ _ | .ap3 _ _ | .ap4 _ _ => 1
  | _ => 0

theorem appR_le (pc : PC) : appR pc ≤ 3 := by
  unfold appR
  split <;> omega

theorem app_change (hI : Inv P s) (hi : s.thr[i]? = some t) (hin : appending t.pc = true) (hs : stepT P s i t c = .ok (some s')) :
    ∃ t', s'.thr = s.thr.set i t' ∧ appR t'.pc + (if Same s s' then 0 else 1) ≤ appR t.pc := by
  have key : ∀ {a : St} {t' : Th}, (.ok (some (a.setT i t')) : Out) = .ok (some s') → a.thr = s.thr →
      appR t'.pc + (if Same s (a.setT i t') then 0 else 1) ≤ appR t.pc →
      ∃ t', s'.thr = s.thr.set i t' ∧ appR t'.pc + (if Same s s' then 0 else 1) ≤ appR t.pc := by
    intro a t' h a1 a2
    have := ok_inj h; subst this
    exact ⟨t', by show a.thr.set i t' = _; rw [a1], a2⟩
  have keyS : ∀ {a : St} {t' : Th}, (.ok (some (a.setT i t')) : Out) = .ok (some s') → a.thr = s.thr → a.tail = s.tail → a.cur = s.cur → a.prev = s.prev →
      appR t'.pc ≤ appR t.pc → ∃ t', s'.thr = s.thr.set i t' ∧ appR t'.pc + (if Same s s' then 0 else 1) ≤ appR t.pc := by
    intro a t' h a1 a2 a3 a4 a5
    exact key h a1 (by rw [if_pos (show Same s (a.setT i t') from ⟨a2, a3, a4⟩)]; exact a5)
  have keyD : ∀ {a : St} {t' : Th}, (.ok (some (a.setT i t')) : Out) = .ok (some s') → a.thr = s.thr →
      appR t'.pc + 1 ≤ appR t.pc → ∃ t', s'.thr = s.thr.set i t' ∧ appR t'.pc + (if Same s s' then 0 else 1) ≤ appR t.pc := by
    intro a t' h a1 a5
    refine key h a1 ?_
    split <;> omega
  have hloc := (hI.thread hi).1
  obtain ⟨pc, ep, hd, tl⟩ := t
  cases pc <;> simp only [appending, Bool.false_eq_true] at hin
  case ga1 k =>
    cases k <;> simp at hin
    simp only [stepT] at hs
    refine keyS hs rfl rfl rfl rfl ?_
    split <;> simp [appR]
  case gaP2 k =>
    cases k <;> simp at hin
    simp [LocPc] at hloc
  case gaP3 k o =>
    cases k <;> simp at hin
    simp [LocPc] at hloc
  case gaC2 k =>
    cases k <;> simp at hin
    simp only [stepT] at hs
    refine keyS hs rfl rfl rfl rfl ?_
    split <;> simp [appR]
  case ej1 k =>
    cases k <;> simp at hin
    simp only [stepT] at hs
    refine keyS hs rfl rfl rfl rfl ?_
    split <;> simp [appR]
  case gaC3 k o =>
    cases k <;> simp at hin
    simp only [stepT] at hs
    split at hs
    · exact keyD hs rfl (by simp [gaRet, appR])
    · exact keyS hs rfl rfl rfl rfl (by simp [appR])
  case ejP3 k o =>
    cases k <;> simp at hin
    simp only [stepT] at hs
    split at hs
    · exact keyD hs rfl (by simp [ejRet, appR])
    · exact keyS hs rfl rfl rfl rfl (by simp [appR])
  case ejC3 k o =>
    cases k <;> simp at hin
    simp only [stepT] at hs
    split at hs
    · exact keyD hs rfl (by simp [ejRet, appR])
    · exact keyS hs rfl rfl rfl rfl (by simp [appR])
  case ap3 r x =>
    simp only [stepT] at hs
    split at hs
    · exact keyD hs rfl (by simp [appR])
    · exact keyS hs rfl rfl rfl rfl (by simp [appR])
  all_goals simp only [stepT] at hs
  case insT => refine keyS hs rfl rfl rfl rfl ?_; split <;> simp [appR]
  case insH => refine keyS hs rfl rfl rfl rfl ?_; split <;> simp [appR]
  all_goals
    repeat' split at hs
  all_goals first
    | exact keyS hs rfl rfl rfl rfl (by simp [appR])
    | exact absurd hs (by simp)

/-! ### One insert among arbitrary threads -/

theorem wake_appending {u : Th} (h : appending u.pc = true) : wake u = u :=
  wake_of_ne (fun h4 => by rw [h4] at h; cases h)

theorem Among.reach {m k n : Nat} (h : Among P i s m k s') (hr : Reach P n any s) : Reach P n any s' := by
  induction h with
  | refl => exact hr
  | own _ _ _ hs ih => exact ih.step trivial hs
  | other _ _ hs ih => exact ih.step trivial hs

theorem Among.bounded {n m k : Nat} (hw : 0 < P.hwm) (hr : Reach P n any s) (hi : s.thr[i]? = some t) (hin : appending t.pc = true)
    (h : Among P i s m k s') :
    ∃ t', s'.thr[i]? = some t' ∧ m + (if appending t'.pc then appM s' t' else 0) ≤ appM s t + 3 * k := by
  induction h with
  | refl => exact ⟨t, hi, by simp [hin]⟩
  | @own m k b d u c hb hu hiu hs ih =>
    obtain ⟨t1, h1, h2⟩ := ih
    rw [hu] at h1; cases h1
    rw [hiu] at h2
    unfold Conc.step at hs
    rw [hu] at hs
    obtain ⟨t', h4, h5⟩ := app_step ((hb.reach hr).inv hw) hu hiu hs
    refine ⟨t', h4, ?_⟩
    simp at h2
    omega
  | @other m k j b d c hb hj hs ih =>
    obtain ⟨t1, h1, h2⟩ := ih
    have hs' := hs
    unfold Conc.step at hs'
    split at hs'
    case h_2 => cases hs'
    rename_i u hu
    have hthr := step_others hs' (Ne.symm hj)
    by_cases ha : appending t1.pc = true
    · have h3 : d.thr[i]? = some t1 := by
        rcases hthr with h | h
        · rw [h, h1]
        · rw [h, h1, Option.map_some, wake_appending ha]
      refine ⟨t1, h3, ?_⟩
      rw [if_pos ha] at h2 ⊢
      have := appM_change b d t1
      omega
    · have h3 : ∃ t2, d.thr[i]? = some t2 ∧ appending t2.pc = false := by
        rcases hthr with h | h
        · exact ⟨t1, by rw [h, h1], by simpa using ha⟩
        · refine ⟨wake t1, by rw [h, h1, Option.map_some], ?_⟩
          unfold wake
          split
          · rfl
          · simpa using ha
      obtain ⟨t2, h3, h4⟩ := h3
      refine ⟨t2, h3, ?_⟩
      rw [h4]
      split at h2 <;> simp <;> omega

/-! ### Inserts only -/

theorem sum_set_le {α : Type} {p : α → Bool} {g g' : α → Nat} {k : Nat} (hg : ∀ u, g' u ≤ g u + (if p u then k else 0)) {l : List α} {i : Nat} {t t' : α}
    (hi : l[i]? = some t) : ((l.set i t').map g').sum + g t ≤ (l.map g).sum + g' t' + k * l.countP p := by
  induction l generalizing i with
  | nil => simp at hi
  | cons a l ih =>
    have hsum : ∀ l : List α, (l.map g').sum ≤ (l.map g).sum + k * l.countP p := by
      intro l
      induction l with
      | nil => simp
      | cons b l ih =>
        have := hg b
        rw [List.map_cons, List.sum_cons, List.map_cons, List.sum_cons, List.countP_cons, Nat.mul_add]
        by_cases hb : p b = true
        · rw [if_pos hb] at this; rw [if_pos hb]; omega
        · rw [if_neg hb] at this; rw [if_neg hb]; omega
    cases i with
    | zero =>
      simp at hi; subst hi
      have h1 := hsum l
      have h2 : k * l.countP p ≤ k * (a :: l).countP p := Nat.mul_le_mul_left _ (by rw [List.countP_cons]; omega)
      simp only [List.set_cons_zero, List.map_cons, List.sum_cons]
      omega
    | succ i =>
      have h1 := ih (i := i) (by simpa using hi)
      have h2 := hg a
      simp only [List.set_cons_succ, List.map_cons, List.sum_cons]
      rw [List.countP_cons, Nat.mul_add]
      by_cases hb : p a = true
      · rw [if_pos hb] at h2; rw [if_pos hb]; omega
      · rw [if_neg hb] at h2; rw [if_neg hb]; omega

/-- Threads that are inside an insert. -/
def inserters (s : St) : Nat := s.thr.countP (fun t => appending t.pc)

/-- What the inserts can still do. -/
def pot (K : Nat) (s : St) (t : Th) : Nat := if appending t.pc then appM s t + 3 * K * appR t.pc else 0

theorem inserting_step {K : Nat} (hI : Inv P s) (hK : inserters s ≤ K) (hi : s.thr[i]? = some t) (hin : appending t.pc = true)
    (hs : stepT P s i t c = .ok (some s')) : (s'.thr.map (pot K s')).sum + 1 ≤ (s.thr.map (pot K s)).sum ∧ inserters s' ≤ K := by
  obtain ⟨t', h1, h2⟩ := app_change hI hi hin hs
  obtain ⟨t'', h3, h4⟩ := app_step hI hi hin hs
  have hlt := (List.getElem?_eq_some_iff.mp hi).1
  have : t'' = t' := by
    rw [h1, List.getElem?_set_self hlt] at h3
    exact (Option.some.inj h3).symm
  subst this
  constructor
  · have hg : ∀ u, pot K s' u ≤ pot K s u + (if (fun t : Th => appending t.pc) u then 3 * (if Same s s' then 0 else 1) else 0) := by
      intro u
      unfold pot
      simp only
      by_cases ha : appending u.pc = true
      · rw [if_pos ha, if_pos ha, if_pos ha]
        have := appM_change s s' u
        omega
      · rw [if_neg ha, if_neg ha, if_neg ha]
    have h5 := sum_set_le hg (t' := t'') hi
    rw [h1]
    have h6 : pot K s t = appM s t + 3 * K * appR t.pc := by unfold pot; rw [if_pos hin]
    have h7 : pot K s' t'' ≤ (if appending t''.pc then appM s' t'' else 0) + 3 * K * appR t''.pc := by
      unfold pot; split <;> omega
    have h8 : 3 * (if Same s s' then 0 else 1) * List.countP (fun t => appending t.pc) s.thr ≤ 3 * K * (if Same s s' then 0 else 1) := by
      split
      · simp
      · simp only [Nat.mul_one]; exact Nat.mul_le_mul_left _ hK
    have h9 : 3 * K * appR t''.pc + 3 * K * (if Same s s' then 0 else 1) ≤ 3 * K * appR t.pc := by
      rw [← Nat.mul_add]; exact Nat.mul_le_mul_left _ h2
    omega
  · unfold inserters
    rw [h1]
    have h5 := sum_set_le (p := fun _ => false) (g := fun u : Th => if appending u.pc then 1 else 0) (g' := fun u : Th => if appending u.pc then 1 else 0)
      (k := 0) (fun u => by simp) (t' := t'') hi
    have hc : ∀ l : List Th, (l.map (fun u : Th => if appending u.pc then 1 else 0)).sum = l.countP (fun t => appending t.pc) := by
      intro l
      induction l with
      | nil => rfl
      | cons a l ih => rw [List.map_cons, List.sum_cons, ih, List.countP_cons]; omega
    rw [hc, hc, if_pos hin] at h5
    unfold inserters at hK
    have : (if appending t''.pc then 1 else 0) ≤ 1 := by split <;> omega
    omega

theorem Inserting.reach {m n : Nat} (h : Inserting P s m s') (hr : Reach P n any s) : Reach P n any s' := by
  induction h with
  | refl => exact hr
  | step _ _ _ hs ih => exact ih.step trivial hs

theorem Inserting.bounded {m n K : Nat} (hw : 0 < P.hwm) (hr : Reach P n any s) (hK : inserters s ≤ K) (h : Inserting P s m s') :
    m + (s'.thr.map (pot K s')).sum ≤ (s.thr.map (pot K s)).sum ∧ inserters s' ≤ K := by
  induction h with
  | refl => exact ⟨by omega, hK⟩
  | step hb hi hin hs ih =>
    unfold Conc.step at hs
    rw [hi] at hs
    obtain ⟨h1, h2⟩ := inserting_step ((hb.reach hr).inv hw) ih.2 hi hin hs
    exact ⟨by omega, h2⟩

theorem pot_le (K : Nat) (s : St) (l : List Th) : (l.map (pot K s)).sum ≤ l.countP (fun t => appending t.pc) * (16 + 9 * K) := by
  induction l with
  | nil => simp
  | cons a l ih =>
    rw [List.map_cons, List.sum_cons, List.countP_cons, Nat.add_mul]
    have : pot K s a ≤ (if appending a.pc then 1 else 0) * (16 + 9 * K) := by
      unfold pot
      split
      · have h1 := appM_le s a
        have h2 : 3 * K * appR a.pc ≤ 3 * K * 3 := Nat.mul_le_mul_left _ (appR_le a.pc)
        omega
      · omega
    omega

end DE.Conc
