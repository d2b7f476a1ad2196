import Verif.Proofs.ConcContend
import Verif.Properties.Progress

/-!
C81: inserts are lock-free. `Among` is an execution in which one insert is watched while other threads do anything; `Inserting` is an
execution of inserts only.
-/

namespace DE.Conc
variable {P : Par} {n : Nat} {s s' : St} {i : Nat} {t : Th} {c : Ch}

/-- C81, one insert among arbitrary other threads: it takes at most 16 steps of its own, plus three for every step by which another
thread changes the tail, the current or the previous epoch in the meantime. -/
theorem C81_each (hw : 0 < P.hwm) (h : Reach P n any s) (hi : s.thr[i]? = some t) (hin : appending t.pc = true) {m k : Nat}
    (ha : Among P i s m k s') : m ≤ 16 + 3 * k := by
  obtain ⟨t', -, h1⟩ := ha.bounded hw h hi hin
  have := appM_le s t
  omega

/-- Such a step is always progress of the other thread: it has claimed a slot, or has pinned or unpinned an epoch (a call or query
begins or ends), or it is one of the four stores of an epoch transition. -/
theorem C81_cause (hs : Conc.step P s i c = .ok (some s')) (hd : ¬ Same s s') :
    ∃ t t', s.thr[i]? = some t ∧ s'.thr[i]? = some t' ∧
      ((∃ r, s'.claimed = (s.tail, r) :: s.claimed ∧ t'.pc = .ap5 r s.tail) ∨
       ((∃ k o, t.pc = .gaP3 k o ∨ t.pc = .gaC3 k o) ∧ ∃ k, t'.pc = gaRet k) ∨
       ((∃ k o, t.pc = .ejP3 k o ∨ t.pc = .ejC3 k o) ∧ ∃ k, t'.pc = ejRet k) ∨
       (∃ e x, t'.pc = .rt3 e x) ∨ (∃ e o, t'.pc = .ad5 e o) ∨ (∃ e, t'.pc = .ad6 e ∧ ∃ o, t.pc = .ad5 e o) ∨ t'.pc = .ad13) := by
  unfold Conc.step at hs
  split at hs
  case h_2 => cases hs
  rename_i t hi
  have key : ∀ {a : St} {t' : Th}, (.ok (some (a.setT i t')) : Out) = .ok (some s') → a.thr = s.thr → s'.thr[i]? = some t' := by
    intro a t' h ha
    have := ok_inj h; subst this
    exact setT_self hi ha
  have no : ∀ {a : St} {t' : Th}, (.ok (some (a.setT i t')) : Out) = .ok (some s') → a.tail = s.tail → a.cur = s.cur → a.prev = s.prev → False := by
    intro a t' h h1 h2 h3
    have := ok_inj h; subst this
    exact hd ⟨h1, h2, h3⟩
  obtain ⟨pc, ep, hd', tl⟩ := t
  refine ⟨⟨pc, ep, hd', tl⟩, ?_⟩
  cases pc <;> simp only [stepT] at hs
  case ap3 r x =>
    split at hs
    · rename_i hx; subst hx
      refine ⟨_, hi, key hs rfl, .inl ⟨r, ?_, rfl⟩⟩
      have := ok_inj hs; subst this; rfl
    · exact (no hs rfl rfl rfl).elim
  case gaP3 k o =>
    split at hs
    · exact ⟨_, hi, key hs rfl, .inr (.inl ⟨⟨k, o, .inl rfl⟩, k, rfl⟩)⟩
    · exact (no hs rfl rfl rfl).elim
  case gaC3 k o =>
    split at hs
    · exact ⟨_, hi, key hs rfl, .inr (.inl ⟨⟨k, o, .inr rfl⟩, k, rfl⟩)⟩
    · exact (no hs rfl rfl rfl).elim
  case ejP3 k o =>
    split at hs
    · exact ⟨_, hi, key hs rfl, .inr (.inr (.inl ⟨⟨k, o, .inl rfl⟩, k, rfl⟩))⟩
    · exact (no hs rfl rfl rfl).elim
  case ejC3 k o =>
    split at hs
    · exact ⟨_, hi, key hs rfl, .inr (.inr (.inl ⟨⟨k, o, .inr rfl⟩, k, rfl⟩))⟩
    · exact (no hs rfl rfl rfl).elim
  case rt2 e x o =>
    split at hs
    · exact ⟨_, hi, key hs rfl, .inr (.inr (.inr (.inl ⟨e, x, rfl⟩)))⟩
    · exact (no hs rfl rfl rfl).elim
  case ad4 e o =>
    split at hs
    · exact ⟨_, hi, key hs rfl, .inr (.inr (.inr (.inr (.inl ⟨e, o, rfl⟩))))⟩
    · exact (no hs rfl rfl rfl).elim
  case ad5 e o => exact ⟨_, hi, key hs rfl, .inr (.inr (.inr (.inr (.inr (.inl ⟨e, rfl, o, rfl⟩)))))⟩
  case ad12 e => exact ⟨_, hi, key hs rfl, .inr (.inr (.inr (.inr (.inr (.inr rfl)))))⟩
  all_goals
    repeat' split at hs
  all_goals first
    | exact (no hs rfl rfl rfl).elim
    | exact absurd hs (by simp)

/-- C81, inserts only: `k` inserts in progress take together at most `k * (16 + 9 * k)` steps in every interleaving, and as long as one
of them has not returned it can take a step, unless the assert of `end_job` fails in it (see C58). So in every interleaving all return. -/
theorem C81_all (hw : 0 < P.hwm) (h : Reach P n any s) :
    (∀ m s', Inserting P s m s' → m ≤ inserters s * (16 + 9 * inserters s)) ∧
    (∀ m s', Inserting P s m s' → ∀ i t, s'.thr[i]? = some t → appending t.pc = true →
      (∃ c d, Conc.step P s' i c = .ok (some d)) ∨ ((∃ r, t.pc = .ejC2 (.create r)) ∧ s'.cur.ref = 0)) := by
  constructor
  · intro m s' hm
    have h1 := (hm.bounded hw h (le_refl _)).1
    have h2 := pot_le (inserters s) s s.thr
    unfold inserters at h1 h2 ⊢
    omega
  · intro m s' hm i t hi hin
    have hr := hm.reach h
    exact app_enabled (hr.inv hw) (hr.hist hw) hi hin

/-- Three inserts that all loaded the tail 0; the first has claimed the slot, the second has lost the race and reloads; the third is
still to try. -/
example : ∃ s, Reach P12 4 any s ∧ inserters s = 3 ∧ pcOf s 0 = some (.ap5 10 0) ∧ pcOf s 1 = some (.ap4 11 1) ∧ pcOf s 2 = some (.ap3 12 0) := by
  obtain ⟨s, h1, h2⟩ := reach_of (P := P12) (n := 4) anyB (ok := any) (fun _ _ _ => trivial)
    ((insLow 0 10).take 5 ++ (insLow 1 11).take 5 ++ (insLow 2 12).take 5 ++ gos 0 1 ++ gos 1 1)
    (fun s : St => decide (inserters s = 3 ∧ pcOf s 0 = some (.ap5 10 0) ∧ pcOf s 1 = some (.ap4 11 1) ∧ pcOf s 2 = some (.ap3 12 0))) (by decide)
  rw [decide_eq_true_eq] at h2
  exact ⟨s, h1, h2⟩

/-- The hypotheses of `C81_each` with interference: thread 1 takes two steps (loses the race, reloads), thread 0 one that counts. -/
example : ∃ s s' t, Reach P12 4 any s ∧ s.thr[1]? = some t ∧ appending t.pc = true ∧ Among P12 1 s 2 1 s' := by
  obtain ⟨s, h1, h2⟩ := reach_of (P := P12) (n := 4) anyB (ok := any) (fun _ _ _ => trivial)
    ((insLow 0 10).take 5 ++ (insLow 1 11).take 5)
    (fun s : St => decide (s.thr[0]? = some ({ pc := .ap3 10 0 } : Th) ∧ s.thr[1]? = some ({ pc := .ap3 11 0 } : Th) ∧ s.tail = 0)) (by decide)
  rw [decide_eq_true_eq] at h2
  obtain ⟨a0, a1, a2⟩ := h2
  generalize hb : { s with tail := 1, claimed := (0, 10) :: s.claimed }.setT 0 { pc := .ap5 10 0 } = b
  have e0 : Conc.step P12 s 0 .go = .ok (some b) := by
    unfold Conc.step; rw [a0, ← hb]; simp [stepT, a2]
  have b1 : b.thr[1]? = some ({ pc := .ap3 11 0 } : Th) := by
    rw [← hb, ← a1]; show (s.thr.set 0 _)[1]? = _; simp
  have b2 : b.tail = 1 := by rw [← hb]; rfl
  have e1 : Conc.step P12 b 1 .go = .ok (some (b.setT 1 { pc := .ap4 11 1 })) := by
    unfold Conc.step; rw [b1]; simp [stepT, b2]
  generalize hd : b.setT 1 { pc := .ap4 11 1 } = d at e1
  have d1 : d.thr[1]? = some ({ pc := .ap4 11 1 } : Th) := by rw [← hd]; exact setT_self b1 rfl
  have e2 : Conc.step P12 d 1 .go = .ok (some (d.setT 1 { pc := .ap3 11 1 })) := by
    unfold Conc.step; rw [d1]
    have : d.tail = 1 := by rw [← hd]; exact b2
    simp [stepT, this, P12]
  have hns : ¬ Same s b := by rintro ⟨h, -⟩; rw [b2, a2] at h; cases h
  have := (Among.refl (P := P12) (i := 1) (a := s)).other (by decide : 0 ≠ 1) e0
  rw [if_neg hns] at this
  exact ⟨s, _, _, h1, a1, rfl, (this.own b1 rfl e1).own d1 rfl e2⟩

end DE.Conc
