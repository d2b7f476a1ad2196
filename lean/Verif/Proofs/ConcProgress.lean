import Verif.Proofs.ConcHist

/-!
How many steps a thread needs when it runs alone.
-/

set_option linter.unreachableTactic false
set_option linter.unusedTactic false

namespace DE.Conc
variable {P : Par} {s s' : St} {i : Nat} {t : Th} {c : Ch}

/-- `b` is reached from `a` by `m` steps of thread `i` alone, all from program counters in `inn`. -/
inductive Alone (P : Par) (i : Nat) (inn : PC → Bool) (a : St) : Nat → St → Prop
  | refl : Alone P i inn a 0 a
  | step {m : Nat} {b d : St} {t : Th} {c : Ch} : Alone P i inn a m b → b.thr[i]? = some t → inn t.pc = true →
      Conc.step P b i c = .ok (some d) → Alone P i inn a (m + 1) d

theorem Alone.inv {inn : PC → Bool} {m : Nat} (h : Alone P i inn s m s') (hI : Inv P s) : Inv P s' := by
  induction h with
  | refl => exact hI
  | step _ _ _ hs ih => exact ih.step hs

theorem Alone.reach {inn : PC → Bool} {m n : Nat} (h : Alone P i inn s m s') (hr : Reach P n any s) : Reach P n any s' := by
  induction h with
  | refl => exact hr
  | step _ _ _ hs ih => exact ih.step trivial hs

/-- A measure that decreases with every step of the thread bounds the number of its steps. -/
theorem Alone.bounded {inn : PC → Bool} {Q : St → Prop} {μ : St → Th → Nat}
    (hμ : ∀ b t c d, Q b → b.thr[i]? = some t → inn t.pc = true → stepT P b i t c = .ok (some d) →
      ∃ t', d.thr[i]? = some t' ∧ (if inn t'.pc then μ d t' else 0) < μ b t ∧ (inn t'.pc = true → Q d))
    (hQ : Q s) (hi : s.thr[i]? = some t) (hin : inn t.pc = true) {m : Nat} (h : Alone P i inn s m s') :
    ∃ t', s'.thr[i]? = some t' ∧ m + (if inn t'.pc then μ s' t' else 0) ≤ μ s t ∧ (inn t'.pc = true → Q s') := by
  induction h with
  | refl => exact ⟨t, hi, by simp [hin], fun _ => hQ⟩
  | @step m b d u c _ hu hiu hs ih =>
    obtain ⟨t1, h1, h2, h3⟩ := ih
    rw [hu] at h1
    cases h1
    rw [hiu] at h2
    unfold Conc.step at hs
    rw [hu] at hs
    obtain ⟨t', h4, h5, h6⟩ := hμ b u c d (h3 hiu) hu hiu hs
    refine ⟨t', h4, ?_, h6⟩
    simp at h2
    omega

/-- If moreover the thread can always step unless it is stuck, then its run ends. -/
theorem Alone.finishes {inn : PC → Bool} {Q : St → Prop} {Stuck : St → Th → Prop} {μ : St → Th → Nat}
    (hμ : ∀ b t c d, Q b → b.thr[i]? = some t → inn t.pc = true → stepT P b i t c = .ok (some d) →
      ∃ t', d.thr[i]? = some t' ∧ (if inn t'.pc then μ d t' else 0) < μ b t ∧ (inn t'.pc = true → Q d))
    (he : ∀ b t, Q b → b.thr[i]? = some t → inn t.pc = true → (∃ c d, Conc.step P b i c = .ok (some d)) ∨ Stuck b t)
    {m : Nat} (h : Alone P i inn s m s') (hQ : Q s') (hi : s'.thr[i]? = some t) (hin : inn t.pc = true) :
    ∃ k b u, Alone P i inn s k b ∧ m ≤ k ∧ b.thr[i]? = some u ∧ (inn u.pc = false ∨ Stuck b u) := by
  induction hn : μ s' t using Nat.strongRecOn generalizing m s' t with
  | _ n ih =>
    rcases he s' t hQ hi hin with ⟨c, d, hs⟩ | hs
    · have hd := h.step hi hin hs
      unfold Conc.step at hs
      rw [hi] at hs
      obtain ⟨t', h1, h2, h3⟩ := hμ s' t c d hQ hi hin hs
      by_cases hx : inn t'.pc = true
      · rw [if_pos hx, hn] at h2
        obtain ⟨k, b, u, hk, hl, hu⟩ := ih _ h2 hd (h3 hx) h1 hx rfl
        exact ⟨k, b, u, hk, by omega, hu⟩
      · exact ⟨m + 1, d, t', hd, by omega, h1, .inl (by simpa using hx)⟩
    · exact ⟨m, s', t, h, le_refl _, hi, .inr hs⟩

/-- Where a solo run that has left `inn` is. -/
theorem Alone.exit {inn : PC → Bool} {E : St → Th → Prop}
    (hE : ∀ b t c d t', b.thr[i]? = some t → inn t.pc = true → stepT P b i t c = .ok (some d) → d.thr[i]? = some t' →
      inn t'.pc = false → E d t')
    (hi : s.thr[i]? = some t) (hin : inn t.pc = true) {m : Nat} (h : Alone P i inn s m s') {u : Th} (hu : s'.thr[i]? = some u)
    (hx : inn u.pc = false) : E s' u := by
  cases h with
  | refl => rw [hi] at hu; cases hu; rw [hin] at hx; cases hx
  | step _ hb hbi hs =>
    unfold Conc.step at hs
    rw [hb] at hs
    exact hE _ _ _ _ _ hb hbi hs hu hx

theorem setT_self {a : St} {t t' : Th} (hi : s.thr[i]? = some t) (ha : a.thr = s.thr) : (a.setT i t').thr[i]? = some t' := by
  show (a.thr.set i t')[i]? = some t'
  rw [ha]
  exact List.getElem?_set_self (List.getElem?_eq_some_iff.mp hi).1

/-! ### Appends -/

/-- Inside `internal_append`. -/
def appending : PC → Bool
  | .ins _ | .insT _ _ | .insH _ _ | .casF _ | .crA _ | .crC _ | .crS _ | .ap1 _ | .ap2 _ _ | .ap3 _ _ | .ap4 _ _ | .ap5 _ _ => true
  | .ga1 (.create _) | .gaP2 (.create _) | .gaP3 (.create _) _ | .gaC2 (.create _) | .gaC3 (.create _) _ => true
  | .ej1 (.create _) | .ejP2 (.create _) | .ejP3 (.create _) _ | .ejC2 (.create _) | .ejC3 (.create _) _ => true
  | _ => false

/-- Steps an append still needs. -/
def appM (s : St) (t : Th) : Nat :=
  match t.pc with
  | .ins _ => 16
  | .insT _ _ | .insH _ _ => 15
  | .casF _ => 14
  | .crA _ => 13
  | .ga1 _ => 12
  | .gaC2 _ => 11
  | .gaC3 _ o => if s.cur = o then 10 else 13
  | .crC _ => 9
  | .ej1 _ => 8
  | .ejP2 _ | .ejC2 _ => 7
  | .ejP3 _ o => if s.prev = o then 6 else 9
  | .ejC3 _ o => if s.cur = o then 6 else 9
  | .crS _ => 5
  | .ap1 _ => 4
  | .ap2 _ x => if s.tail = x then 3 else 5
  | .ap3 _ x => if s.tail = x then 2 else 4
  | .ap4 _ x => if s.tail = x then 3 else 5
  | .ap5 _ _ => 1
  | _ => 0

theorem appM_le (s : St) (t : Th) : appM s t ≤ 16 := by
  unfold appM
  split <;> (try split) <;> omega

theorem Core.cur_some {ph : Ph} {v : Sv} (h : Core P v ph) (hp : ph = .A ∨ (∃ e, ph = .Cr e) ∨ ph = .N) : ∃ e, v.cur.ep = some e := by
  rcases hp with rfl | ⟨e, rfl⟩ | rfl
  · obtain ⟨⟨⟨e1, h, -⟩, -⟩, -⟩ := h; exact ⟨e1, h⟩
  · obtain ⟨⟨⟨e1, h, -⟩, -⟩, -⟩ := h; exact ⟨e1, h⟩
  · obtain ⟨⟨⟨e1, h, -⟩, -⟩, -⟩ := h; exact ⟨e1, h⟩

theorem app_step (hI : Inv P s) (hi : s.thr[i]? = some t) (hin : appending t.pc = true) (hs : stepT P s i t c = .ok (some s')) :
    ∃ t', s'.thr[i]? = some t' ∧ (if appending t'.pc then appM s' t' else 0) < appM s t := by
  have key : ∀ {a : St} {t' : Th}, (.ok (some (a.setT i t')) : Out) = .ok (some s') → a.thr = s.thr →
      (if appending t'.pc then appM (a.setT i t') t' else 0) < appM s t → ∃ t', s'.thr[i]? = some t' ∧ (if appending t'.pc then appM s' t' else 0) < appM s t := by
    intro a t' h a1 a2
    have := ok_inj h; subst this
    exact ⟨t', setT_self hi a1, a2⟩
  have hloc := (hI.thread hi).1
  obtain ⟨pc, ep, hd, tl⟩ := t
  cases pc <;> simp only [appending, Bool.false_eq_true] at hin
  case ga1 k =>
    cases k <;> simp at hin
    obtain ⟨e, he⟩ := (hI.phase hi rfl).cur_some (.inl rfl)
    have he : s.cur.ep = some e := he
    simp only [stepT, he] at hs
    exact key hs rfl (by simp [appending, appM])
  case gaP2 k =>
    cases k <;> simp at hin
    simp [LocPc] at hloc
  case gaP3 k o =>
    cases k <;> simp at hin
    simp [LocPc] at hloc
  case gaC2 k =>
    cases k <;> simp at hin
    obtain ⟨e, he⟩ := (hI.phase hi rfl).cur_some (.inl rfl)
    have he : s.cur.ep = some e := he
    simp only [stepT, he] at hs
    exact key hs rfl (by simp [appending, appM, St.setT])
  case gaC3 k o =>
    cases k <;> simp at hin
    simp only [stepT] at hs
    split at hs
    · rename_i h; exact key hs rfl (by simp [appending, appM, gaRet, h])
    · rename_i h; exact key hs rfl (by simp [appending, appM, h])
  case ej1 k =>
    cases k <;> simp at hin
    simp only [stepT] at hs
    refine key hs rfl ?_
    split <;> simp [appending, appM]
  case ejP2 k =>
    cases k <;> simp at hin
    simp only [stepT] at hs
    obtain ⟨h1, -, -, h4⟩ : ep ≠ none ∧ _ ∧ _ ∧ s.prev.ep = ep := hloc
    rw [if_neg (by rw [h4]; exact h1)] at hs
    split at hs
    · exact key hs rfl (by simp [appending, appM, St.setT])
    · cases hs
  case ejP3 k o =>
    cases k <;> simp at hin
    simp only [stepT] at hs
    split at hs
    · rename_i h; exact key hs rfl (by simp [appending, appM, ejRet, h])
    · rename_i h; exact key hs rfl (by simp [appending, appM, h])
  case ejC2 k =>
    cases k <;> simp at hin
    obtain ⟨e, he⟩ := (hI.phase hi rfl).cur_some (.inr (.inr rfl))
    have he : s.cur.ep = some e := he
    simp only [stepT, he] at hs
    split at hs
    · rename_i h; cases h
    · split at hs
      · exact key hs rfl (by simp [appending, appM, St.setT])
      · cases hs
  case ejC3 k o =>
    cases k <;> simp at hin
    simp only [stepT] at hs
    split at hs
    · rename_i h; exact key hs rfl (by simp [appending, appM, ejRet, h])
    · rename_i h; exact key hs rfl (by simp [appending, appM, h])
  case ap2 r x =>
    simp only [stepT] at hs
    split at hs
    · exact key hs rfl (by simp [appending, appM]; split <;> simp)
    · refine key hs rfl ?_
      by_cases hx : s.tail = x <;> simp [appending, appM, St.setT, hx]
  case ap3 r x =>
    simp only [stepT] at hs
    split at hs
    · rename_i h; exact key hs rfl (by simp [appending, appM, h])
    · rename_i h; exact key hs rfl (by simp [appending, appM, h, St.setT])
  case ap4 r x =>
    simp only [stepT] at hs
    split at hs
    · exact key hs rfl (by simp [appending, appM]; split <;> simp)
    · refine key hs rfl ?_
      by_cases hx : s.tail = x <;> simp [appending, appM, St.setT, hx]
  all_goals simp only [stepT] at hs
  case insT => refine key hs rfl ?_; split <;> simp [appending, appM]
  case insH => refine key hs rfl ?_; split <;> simp [appending, appM]
  all_goals
    repeat' split at hs
  all_goals first
    | exact key hs rfl (by simp [appending, appM, St.setT])
    | exact absurd hs (by simp)

/-- An append can always take a step, unless the assert of `end_job` fails. -/
theorem app_enabled (hI : Inv P s) (hH : Hist P s) (hi : s.thr[i]? = some t) (hin : appending t.pc = true) :
    (∃ c s', Conc.step P s i c = .ok (some s')) ∨ ((∃ r, t.pc = .ejC2 (.create r)) ∧ s.cur.ref = 0) := by
  have hc : ∃ c, Conc.step P s i c ≠ .ok none := by
    unfold Conc.step
    rw [hi]
    obtain ⟨pc, ep, hd, tl⟩ := t
    cases pc <;> simp only [appending, Bool.false_eq_true] at hin
    case ins => exact ⟨.tailFirst, by simp [stepT]⟩
    all_goals
      refine ⟨.go, ?_⟩
      simp only [stepT]
      repeat' split
      all_goals simp
  obtain ⟨c, hc⟩ := hc
  cases hr : Conc.step P s i c with
  | ok o =>
    cases o with
    | none => exact absurd hr hc
    | some s' => exact .inl ⟨c, s', hr⟩
  | error f =>
    cases f with
    | ub => exact absurd hr hI.no_ub
    | abort =>
      obtain ⟨u, hu, h⟩ := hI.abort_cases hH hr
      rw [hi] at hu; cases hu
      rcases h with ⟨k, h1, -, h3⟩ | ⟨e, h1, -⟩
      · rw [h1] at hin
        cases k with
        | create r => exact .inr ⟨⟨r, h1⟩, h3⟩
        | client => simp [appending] at hin
        | job e => simp [appending] at hin
      · rw [h1] at hin; simp [appending] at hin

theorem app_exit {t' : Th} (hi : s.thr[i]? = some t) (hin : appending t.pc = true) (hs : stepT P s i t c = .ok (some s'))
    (hi' : s'.thr[i]? = some t') (hx : appending t'.pc = false) : t'.pc = .idle := by
  have key : ∀ {a : St} {u : Th}, (.ok (some (a.setT i u)) : Out) = .ok (some s') → a.thr = s.thr →
      (appending u.pc = true ∨ u.pc = .idle) → t'.pc = .idle := by
    intro a u h a1 a2
    have := ok_inj h; subst this
    rw [setT_self hi a1] at hi'; cases hi'
    rcases a2 with a2 | a2
    · rw [a2] at hx; cases hx
    · exact a2
  obtain ⟨pc, ep, hd, tl⟩ := t
  cases pc <;> simp only [appending, Bool.false_eq_true] at hin
  case ga1 k => cases k <;> simp at hin; simp only [stepT] at hs; split at hs <;> exact key hs rfl (.inl rfl)
  case gaP2 k => cases k <;> simp at hin; simp only [stepT] at hs; split at hs <;> exact key hs rfl (.inl rfl)
  case gaC2 k => cases k <;> simp at hin; simp only [stepT] at hs; split at hs <;> exact key hs rfl (.inl rfl)
  case gaP3 k o => cases k <;> simp at hin; simp only [stepT] at hs; split at hs <;> exact key hs rfl (.inl rfl)
  case gaC3 k o => cases k <;> simp at hin; simp only [stepT] at hs; split at hs <;> exact key hs rfl (.inl rfl)
  case ej1 k => cases k <;> simp at hin; simp only [stepT] at hs; split at hs <;> exact key hs rfl (.inl rfl)
  case ejP2 k =>
    cases k <;> simp at hin
    simp only [stepT] at hs
    repeat' split at hs
    all_goals first | exact key hs rfl (.inl rfl) | exact absurd hs (by simp)
  case ejC2 k =>
    cases k <;> simp at hin
    simp only [stepT] at hs
    repeat' split at hs
    all_goals first | exact key hs rfl (.inl rfl) | exact absurd hs (by simp)
  case ejP3 k o => cases k <;> simp at hin; simp only [stepT] at hs; split at hs <;> exact key hs rfl (.inl rfl)
  case ejC3 k o => cases k <;> simp at hin; simp only [stepT] at hs; split at hs <;> exact key hs rfl (.inl rfl)
  all_goals
    simp only [stepT] at hs
    repeat' split at hs
  all_goals first
    | exact key hs rfl (.inl rfl)
    | exact key hs rfl (.inr rfl)
    | exact absurd hs (by simp)

/-! ### The calls of a query -/

/-- Inside `get_active_epoch` called by a client job. -/
def pinning : PC → Bool
  | .ga1 .client | .gaP2 .client | .gaP3 .client _ | .gaC2 .client | .gaC3 .client _ => true
  | _ => false
/-- Inside `get_buffer_view` called by a client job. -/
def viewing : PC → Bool
  | .gh1 .client _ | .ghO2 .client _ | .ghO3 .client _ _ | .ghB .client _ | .ghH2 .client _ | .ghH3 .client _ _ => true
  | _ => false
/-- Inside `end_job` called by a client job. -/
def ending : PC → Bool
  | .ej1 .client | .ejP2 .client | .ejP3 .client _ | .ejC2 .client | .ejC3 .client _ => true
  | _ => false
/-- Inside the destructor of the view of a client job. -/
def releasing : PC → Bool
  | .rl1 .client | .rlO2 .client | .rlO3 .client _ | .rlH2 .client | .rlH3 .client _ => true
  | _ => false
/-- Inside one of the calls of a query. -/
def calling (p : PC) : Bool := pinning p || viewing p || ending p || releasing p

/-- A reconstruction has taken the current epoch out and not yet stored it as previous epoch. -/
def GapE (s : St) : Prop := ∃ u ∈ s.thr, ∃ e c, u.pc = .ad5 e c
/-- A reconstruction has replaced the head and not yet stored the old one. -/
def GapH (s : St) : Prop := ∃ u ∈ s.thr, ∃ e c, u.pc = .ad11 e c

/-- What a call waits for. -/
def Waits (s : St) (t : Th) : Prop :=
  (GapE s ∧ (pinning t.pc = true ∨ ending t.pc = true)) ∨ (GapH s ∧ (viewing t.pc = true ∨ releasing t.pc = true)) ∨
    (releasing t.pc = true ∧ t.hd = some s.head.idx ∧ s.head.ref = 0)

/-- Steps a call still needs. -/
def callM (s : St) (t : Th) : Nat :=
  match t.pc with
  | .ga1 _ => 3
  | .gaC2 _ => if s.cur.ep = none then 4 else 2
  | .gaP2 _ => if s.prev.ep = none then 4 else 2
  | .gaC3 _ o => if s.cur = o then 1 else 4
  | .gaP3 _ o => if s.prev = o then 1 else 4
  | .ej1 _ => 3
  | .ejC2 _ => if s.cur.ep = none then 4 else 2
  | .ejP2 _ => 2
  | .ejC3 _ o => if s.cur = o then 1 else 4
  | .ejP3 _ o => if s.prev = o then 1 else 4
  | .gh1 _ _ => 5
  | .ghB _ g => if s.head.idx = g then 4 else 6
  | .ghO2 _ g => if s.old.idx = g then 3 else 7
  | .ghH2 _ g => if s.head.idx = g then 3 else 7
  | .ghO3 _ _ o => if s.old = o then 2 else 6
  | .ghH3 _ _ o => if s.head = o then 2 else 6
  | .rl1 _ => 3
  | .rlO2 _ => 2
  | .rlH2 _ => if s.head.ref = 0 then 4 else 2
  | .rlO3 _ o => if s.old = o then 1 else 4
  | .rlH3 _ o => if s.head = o then 1 else 4
  | _ => 0

theorem callM_le (s : St) (t : Th) : callM s t ≤ 7 := by
  unfold callM
  split <;> (try split) <;> omega

/-- The phase in which the old head is not stored is the gap. -/
theorem IsPh.gapH {e n : Nat} {o : Hd} (hp : IsPh s (.W e n o)) : ∃ u ∈ s.thr, u.pc = .ad11 e o := by
  rcases hp with ⟨-, hx⟩ | ⟨_, -, hx⟩ | ⟨u, hu, hx⟩
  · cases hx
  · cases hx
  · refine ⟨u, hu, ?_⟩
    obtain ⟨pc, ep, hd, tl⟩ := u
    cases pc <;> simp [sect] at hx
    case ad11 => rw [hx.1, hx.2.2]
    all_goals (first | (rename_i k; cases k <;> simp at hx) | (rename_i k _; cases k <;> simp at hx) | (rename_i k _ _; cases k <;> simp at hx))

theorem IsPh.gapE {e : Nat} {o : EP} (hp : IsPh s (.B e o)) : ∃ u ∈ s.thr, u.pc = .ad5 e o := by
  rcases hp with ⟨-, hx⟩ | ⟨_, -, hx⟩ | ⟨u, hu, hx⟩
  · cases hx
  · cases hx
  · refine ⟨u, hu, ?_⟩
    obtain ⟨pc, ep, hd, tl⟩ := u
    cases pc <;> simp [sect] at hx
    case ad5 => rw [hx.1, hx.2]
    all_goals (first | (rename_i k; cases k <;> simp at hx) | (rename_i k _; cases k <;> simp at hx) | (rename_i k _ _; cases k <;> simp at hx))

/-- Whoever pins an epoch outside the gap finds it as previous or current epoch. -/
theorem Inv.held (hI : Inv P s) (hi : s.thr[i]? = some t) {e : Nat} (he : t.ep = some e) :
    (s.prev.ep = some e ∨ s.cur.ep = some e) ∨ GapE s := by
  have hpos := H_pos hi he
  obtain ⟨ph, hp⟩ := hI.some_phase
  have hc := hI.core ph hp
  cases ph with
  | A => obtain ⟨⟨h, -⟩, -⟩ := hc; exact .inl (h.held hpos).1
  | Cr e => obtain ⟨⟨h, -⟩, -⟩ := hc; exact .inl (h.held hpos).1
  | N => obtain ⟨⟨h, -⟩, -⟩ := hc; exact .inl (h.held hpos).1
  | A1 e => obtain ⟨⟨h, -⟩, -⟩ := hc; exact .inl (h.held hpos).1
  | G e g => obtain ⟨⟨h, -⟩, -⟩ := hc; exact .inl (h.held hpos).1
  | R e x => obtain ⟨⟨h, -⟩, -⟩ := hc; exact .inl (h.held hpos).1
  | B e c => obtain ⟨u, hu, h⟩ := hp.gapE; exact .inr ⟨u, hu, e, c, h⟩
  | C e n l =>
    obtain ⟨e1, ⟨-, h, -⟩, -⟩ := hc
    rcases (h.held hpos).1 with h | h
    · cases h
    · exact .inl (.inl h)
  | W e n c =>
    obtain ⟨e1, ⟨-, h, -⟩, -⟩ := hc
    rcases (h.held hpos).1 with h | h
    · cases h
    · exact .inl (.inl h)
  | D e n =>
    obtain ⟨e1, ⟨-, h, -⟩, -⟩ := hc
    rcases (h.held hpos).1 with h | h
    · cases h
    · exact .inl (.inl h)
  | A2 => obtain ⟨⟨h, -⟩, -⟩ := hc; exact .inl (h.held hpos).1

/-- Outside the gap there is a current or a previous epoch. -/
theorem Inv.some_epoch (hI : Inv P s) (hg : ¬ GapE s) : s.cur.ep ≠ none ∨ s.prev.ep ≠ none := by
  obtain ⟨ph, hp⟩ := hI.some_phase
  have hc := hI.core ph hp
  have calm : ∀ {v : Sv}, Calm P v → v.cur.ep ≠ none := by
    rintro v ⟨⟨e1, h, -⟩, -⟩; rw [h]; simp
  cases ph with
  | A => exact .inl (calm hc.1)
  | Cr e => exact .inl (calm hc.1)
  | N => exact .inl (calm hc.1)
  | A1 e => exact .inl (calm hc.1)
  | G e g => exact .inl (calm hc.1)
  | R e x => exact .inl (calm hc.1)
  | B e c => obtain ⟨u, hu, h⟩ := hp.gapE; exact absurd ⟨u, hu, e, c, h⟩ hg
  | C e n l => obtain ⟨e1, ⟨-, -, h, -⟩, -⟩ := hc; right; rw [show s.prev.ep = some e1 from h]; simp
  | W e n c => obtain ⟨e1, ⟨-, -, h, -⟩, -⟩ := hc; right; rw [show s.prev.ep = some e1 from h]; simp
  | D e n => obtain ⟨e1, ⟨-, -, h, -⟩, -⟩ := hc; right; rw [show s.prev.ep = some e1 from h]; simp
  | A2 => exact .inl (calm hc.1)

/-- In the gap there is neither. -/
theorem Inv.in_gapE (hI : Inv P s) (hg : GapE s) : s.cur = ⟨none, 0⟩ ∧ s.prev = ⟨none, 0⟩ := by
  obtain ⟨u, hu, e, c, h⟩ := hg
  have hp : IsPh s (.B e c) := .inr (.inr ⟨u, hu, by unfold sect; rw [h]⟩)
  obtain ⟨h1, h2, -⟩ := hI.core _ hp
  exact ⟨h1, h2⟩

/-- Outside the gap the head of a pinned epoch is the old or the current one. -/
theorem Inv.head_of (hI : Inv P s) (hg : ¬ GapH s) (hi : s.thr[i]? = some t) {e : Nat} (he : t.ep = some e) :
    s.ehead e = s.old.idx ∨ s.ehead e = s.head.idx := by
  have hpos := H_pos hi he
  obtain ⟨ph, hp⟩ := hI.some_phase
  have hc := hI.core ph hp
  have calm : Calm P s.sv → s.ehead e = s.old.idx ∨ s.ehead e = s.head.idx := by
    rintro ⟨h, -, h1, h2⟩
    rcases (h.held hpos).1 with h | h
    · exact .inl (h2 e h).1
    · exact .inr (h1 e h)
  have one : ∀ {x : EP}, EpS s.sv ⟨none, 0⟩ x → x.ep = some e := by
    intro x h
    rcases (h.held hpos).1 with h | h
    · cases h
    · exact h
  cases ph with
  | A => exact calm hc.1
  | Cr e => exact calm hc.1
  | N => exact calm hc.1
  | A1 e => exact calm hc.1
  | G e g => exact calm hc.1
  | R e x => exact calm hc.1
  | B y c => obtain ⟨-, -, -, h, -, -, h1⟩ := hc; exact .inr (h1 e (one h))
  | C y n l =>
    obtain ⟨e1, ⟨-, h, h', -⟩, h1, -⟩ := hc
    have := one h
    have h' : s.prev.ep = some e1 := h'
    have h2 : s.prev.ep = some e := this
    rw [h'] at h2; cases h2
    exact .inr h1
  | W y n c => obtain ⟨u, hu, h⟩ := hp.gapH; exact absurd ⟨u, hu, y, c, h⟩ hg
  | D y n =>
    obtain ⟨e1, ⟨-, h, h', -⟩, h1, -⟩ := hc
    have := one h
    have h' : s.prev.ep = some e1 := h'
    have h2 : s.prev.ep = some e := this
    rw [h'] at h2; cases h2
    exact .inl h1
  | A2 => exact calm hc.1

/-- The counts of the heads outside the gap. -/
theorem Inv.bufS (hI : Inv P s) (hg : ¬ GapH s) : BufS P s.sv s.old s.head := by
  obtain ⟨ph, hp⟩ := hI.some_phase
  have hc := hI.core ph hp
  cases ph with
  | A => exact hc.1.2.1
  | Cr e => exact hc.1.2.1
  | N => exact hc.1.2.1
  | A1 e => exact hc.1.2.1
  | G e g => exact hc.1.2.1
  | R e x => exact hc.1.2.1
  | B e c => exact hc.2.2.2.2.2.1
  | C e n l => obtain ⟨e1, -, -, h, -⟩ := hc; exact h
  | W e n c => obtain ⟨u, hu, h⟩ := hp.gapH; exact absurd ⟨u, hu, e, c, h⟩ hg
  | D e n => obtain ⟨e1, -, -, h, -⟩ := hc; exact h
  | A2 => exact hc.1.2.1

/-- In the gap: the new head is not referenced, and views and epochs refer to the head that is stored nowhere. -/
theorem Inv.in_gapH (hI : Inv P s) (hg : GapH s) : s.head.ref = 0 ∧ s.old.ref = 0 ∧
    (∀ (j : Nat) (u : Th) e, s.thr[j]? = some u → u.ep = some e → s.ehead e ≠ s.old.idx ∧ s.ehead e ≠ s.head.idx) ∧
    (∀ (j : Nat) (u : Th) x, s.thr[j]? = some u → u.hd = some x → x ≠ s.old.idx) := by
  obtain ⟨u, hu, e, c, h⟩ := hg
  have hp : IsPh s (.W e u.tl c) := .inr (.inr ⟨u, hu, by unfold sect; rw [h]⟩)
  obtain ⟨e1, ⟨-, h1, h2, -⟩, h3, ⟨b1, b2, -⟩, -, h5, h6, h7, -⟩ := hI.core _ hp
  have h5 : s.head = ⟨u.tl, 0⟩ := h5
  have h6 : s.old.ref = 0 := h6
  have h3 : s.ehead e1 = c.idx := h3
  have b1 : s.old.idx ≠ c.idx := b1
  have b2 : s.V s.old.idx ≤ s.old.ref := b2
  refine ⟨by rw [h5], h6, ?_, ?_⟩
  · intro j w e' hj he'
    have hx : s.prev.ep = some e' := by
      rcases (h1.held (H_pos hj he')).1 with h | h
      · cases h
      · exact h
    have h2 : s.prev.ep = some e1 := h2
    rw [h2] at hx; cases hx
    rw [h3, h5]
    refine ⟨Ne.symm b1, ?_⟩
    show c.idx ≠ u.tl
    omega
  · rintro j w x hj hx rfl
    have := V_pos hj hx
    omega

/-- The gaps after a step of thread `i` that only moves its program counter. -/
theorem gap_set {p : PC → Prop} {t' : Th} (hi : s.thr[i]? = some t) (h1 : ¬ p t.pc) (h2 : ¬ p t'.pc) :
    (∃ u ∈ s.thr.set i t', p u.pc) ↔ ∃ u ∈ s.thr, p u.pc := by
  constructor
  · rintro ⟨u, hu, h⟩
    rcases mem_set_cases hu with rfl | hu
    · exact absurd h h2
    · obtain ⟨j, -, hj⟩ := hu
      exact ⟨u, List.mem_iff_getElem?.mpr ⟨j, hj⟩, h⟩
  · rintro ⟨u, hu, h⟩
    obtain ⟨j, hj⟩ := List.mem_iff_getElem?.mp hu
    have hij : i ≠ j := by
      rintro rfl
      rw [hi] at hj; cases hj; exact h1 h
    exact ⟨u, List.mem_iff_getElem?.mpr ⟨j, by rw [List.getElem?_set_ne hij]; exact hj⟩, h⟩

theorem calling_gap {p : PC} (h : calling p = true) : (¬ ∃ e c, p = .ad5 e c) ∧ ¬ ∃ e c, p = .ad11 e c := by
  constructor <;> (rintro ⟨e, c, rfl⟩; simp [calling, pinning, viewing, ending, releasing] at h)

theorem gapE_set {t' : Th} {a : St} (hi : s.thr[i]? = some t) (ha : a.thr = s.thr) (h1 : calling t.pc = true) (h2 : calling t'.pc = true) :
    GapE (a.setT i t') ↔ GapE s := by
  unfold GapE
  show (∃ u ∈ a.thr.set i t', _) ↔ _
  rw [ha]
  exact gap_set (p := fun p => ∃ e c, p = .ad5 e c) hi (calling_gap h1).1 (calling_gap h2).1

theorem gapH_set {t' : Th} {a : St} (hi : s.thr[i]? = some t) (ha : a.thr = s.thr) (h1 : calling t.pc = true) (h2 : calling t'.pc = true) :
    GapH (a.setT i t') ↔ GapH s := by
  unfold GapH
  show (∃ u ∈ a.thr.set i t', _) ↔ _
  rw [ha]
  exact gap_set (p := fun p => ∃ e c, p = .ad11 e c) hi (calling_gap h1).2 (calling_gap h2).2

/-- A step of a call that does not wait. -/
theorem call_step (hI : Inv P s) (hi : s.thr[i]? = some t) (hin : calling t.pc = true) (hw : ¬ Waits s t)
    (hs : stepT P s i t c = .ok (some s')) :
    ∃ t', s'.thr[i]? = some t' ∧ (if calling t'.pc then callM s' t' else 0) < callM s t ∧ (calling t'.pc = true → ¬ Waits s' t') := by
  have stay : ∀ {t' : Th}, (.ok (some (s.setT i t')) : Out) = .ok (some s') → calling t'.pc = true → t'.hd = t.hd →
      (pinning t'.pc = pinning t.pc ∧ ending t'.pc = ending t.pc ∧ viewing t'.pc = viewing t.pc ∧ releasing t'.pc = releasing t.pc) →
      callM (s.setT i t') t' < callM s t → ∃ t', s'.thr[i]? = some t' ∧ (if calling t'.pc then callM s' t' else 0) < callM s t ∧
        (calling t'.pc = true → ¬ Waits s' t') := by
    intro t' h a1 a2 a3 a4
    have := ok_inj h; subst this
    refine ⟨t', setT_self hi rfl, by rw [if_pos a1]; exact a4, fun _ hc => hw ?_⟩
    obtain ⟨b1, b2, b3, b4⟩ := a3
    unfold Waits at hc ⊢
    rw [b1, b2, b3, b4, a2, gapE_set hi rfl hin a1, gapH_set hi rfl hin a1] at hc
    exact hc
  have leave : ∀ {a : St} {t' : Th}, (.ok (some (a.setT i t')) : Out) = .ok (some s') → a.thr = s.thr → calling t'.pc = false →
      0 < callM s t → ∃ t', s'.thr[i]? = some t' ∧ (if calling t'.pc then callM s' t' else 0) < callM s t ∧
        (calling t'.pc = true → ¬ Waits s' t') := by
    intro a t' h a1 a2 a3
    have := ok_inj h; subst this
    exact ⟨t', setT_self hi a1, by simp [a2, a3], fun h => by rw [a2] at h; cases h⟩
  have hloc := (hI.thread hi).1
  obtain ⟨pc, ep, hd, tl⟩ := t
  cases pc <;> simp only [calling, pinning, viewing, ending, releasing, Bool.or_self, Bool.false_eq_true] at hin
  case ga1 k =>
    cases k <;> simp at hin
    simp only [stepT] at hs
    have hg : ¬ GapE s := fun h => hw (.inl ⟨h, .inl rfl⟩)
    by_cases hn : s.cur.ep = none
    · rw [if_pos hn] at hs
      have hp := (hI.some_epoch hg).resolve_left (fun h => h hn)
      exact stay hs rfl rfl ⟨rfl, rfl, rfl, rfl⟩ (by simp [callM, St.setT, hp])
    · rw [if_neg hn] at hs
      exact stay hs rfl rfl ⟨rfl, rfl, rfl, rfl⟩ (by simp [callM, St.setT, hn])
  case gaP2 k =>
    cases k <;> simp at hin
    simp only [stepT] at hs
    split at hs
    · rename_i h; exact stay hs rfl rfl ⟨rfl, rfl, rfl, rfl⟩ (by simp [callM, h])
    · rename_i h; exact stay hs rfl rfl ⟨rfl, rfl, rfl, rfl⟩ (by simp [callM, h, St.setT])
  case gaC2 k =>
    cases k <;> simp at hin
    simp only [stepT] at hs
    split at hs
    · rename_i h; exact stay hs rfl rfl ⟨rfl, rfl, rfl, rfl⟩ (by simp [callM, h])
    · rename_i h; exact stay hs rfl rfl ⟨rfl, rfl, rfl, rfl⟩ (by simp [callM, h, St.setT])
  case gaP3 k o =>
    cases k <;> simp at hin
    simp only [stepT] at hs
    split at hs
    · rename_i h; exact leave hs rfl rfl (by simp [callM, h])
    · rename_i h; exact stay hs rfl rfl ⟨rfl, rfl, rfl, rfl⟩ (by simp [callM, h])
  case gaC3 k o =>
    cases k <;> simp at hin
    simp only [stepT] at hs
    split at hs
    · rename_i h; exact leave hs rfl rfl (by simp [callM, h])
    · rename_i h; exact stay hs rfl rfl ⟨rfl, rfl, rfl, rfl⟩ (by simp [callM, h])
  case ej1 k =>
    cases k <;> simp at hin
    simp only [stepT] at hs
    have hg : ¬ GapE s := fun h => hw (.inl ⟨h, .inr rfl⟩)
    obtain ⟨h1, -⟩ : ep ≠ none ∧ _ := hloc
    obtain ⟨e, rfl⟩ := Option.ne_none_iff_exists'.mp h1
    have hh := (hI.held hi rfl).resolve_right hg
    split at hs
    · exact stay hs rfl rfl ⟨rfl, rfl, rfl, rfl⟩ (by simp [callM])
    · rename_i h
      have h := hh.resolve_left h
      exact stay hs rfl rfl ⟨rfl, rfl, rfl, rfl⟩ (by simp [callM, h, St.setT])
  case ejP2 k =>
    cases k <;> simp at hin
    simp only [stepT] at hs
    obtain ⟨h1, -, -, h4⟩ : ep ≠ none ∧ _ ∧ _ ∧ s.prev.ep = ep := hloc
    rw [if_neg (by rw [h4]; exact h1)] at hs
    split at hs
    · exact stay hs rfl rfl ⟨rfl, rfl, rfl, rfl⟩ (by simp [callM, St.setT])
    · cases hs
  case ejC2 k =>
    cases k <;> simp at hin
    simp only [stepT] at hs
    split at hs
    · rename_i h; exact stay hs rfl rfl ⟨rfl, rfl, rfl, rfl⟩ (by simp [callM, h])
    · rename_i h
      split at hs
      · exact stay hs rfl rfl ⟨rfl, rfl, rfl, rfl⟩ (by simp [callM, St.setT, h])
      · cases hs
  case ejP3 k o =>
    cases k <;> simp at hin
    simp only [stepT] at hs
    split at hs
    · rename_i h; exact leave hs rfl rfl (by simp [callM, h])
    · rename_i h; exact stay hs rfl rfl ⟨rfl, rfl, rfl, rfl⟩ (by simp [callM, h])
  case ejC3 k o =>
    cases k <;> simp at hin
    simp only [stepT] at hs
    split at hs
    · rename_i h; exact leave hs rfl rfl (by simp [callM, h])
    · rename_i h; exact stay hs rfl rfl ⟨rfl, rfl, rfl, rfl⟩ (by simp [callM, h])
  case gh1 k g =>
    cases k <;> simp at hin
    simp only [stepT] at hs
    have hg : ¬ GapH s := fun h => hw (.inr (.inl ⟨h, .inl rfl⟩))
    obtain ⟨-, h2⟩ : hd = none ∧ _ := hloc
    obtain ⟨-, e, he, hge⟩ := h2.resolve_right (by simp)
    have hh := hI.head_of hg hi he
    have hge : s.ehead e = g := hge
    rw [hge] at hh
    split at hs
    · rename_i h; exact stay hs rfl rfl ⟨rfl, rfl, rfl, rfl⟩ (by simp [callM, St.setT, h])
    · rename_i h
      have h := (hh.resolve_left (fun h' => h h'.symm)).symm
      exact stay hs rfl rfl ⟨rfl, rfl, rfl, rfl⟩ (by simp [callM, St.setT, h])
  case ghB k g =>
    cases k <;> simp at hin
    simp only [stepT] at hs
    split at hs
    · rename_i h; exact stay hs rfl rfl ⟨rfl, rfl, rfl, rfl⟩ (by simp [callM, St.setT, h])
    · rename_i h; exact stay hs rfl rfl ⟨rfl, rfl, rfl, rfl⟩ (by simp [callM, h])
  case ghO2 k g =>
    cases k <;> simp at hin
    simp only [stepT] at hs
    refine stay hs rfl rfl ⟨rfl, rfl, rfl, rfl⟩ ?_
    show (if s.old = (⟨g, s.old.ref⟩ : Hd) then 2 else 6) < (if s.old.idx = g then 3 else 7)
    by_cases h : s.old.idx = g
    · subst h; simp
    · rw [if_neg h]; split <;> omega
  case ghH2 k g =>
    cases k <;> simp at hin
    simp only [stepT] at hs
    refine stay hs rfl rfl ⟨rfl, rfl, rfl, rfl⟩ ?_
    show (if s.head = (⟨g, s.head.ref⟩ : Hd) then 2 else 6) < (if s.head.idx = g then 3 else 7)
    by_cases h : s.head.idx = g
    · subst h; simp
    · rw [if_neg h]; split <;> omega
  case ghO3 k g o =>
    cases k <;> simp at hin
    simp only [stepT] at hs
    split at hs
    · rename_i h; exact leave hs rfl rfl (by simp [callM, h])
    · rename_i h; exact stay hs rfl rfl ⟨rfl, rfl, rfl, rfl⟩ (by simp [callM, h])
  case ghH3 k g o =>
    cases k <;> simp at hin
    simp only [stepT] at hs
    split at hs
    · rename_i h; exact leave hs rfl rfl (by simp [callM, h])
    · rename_i h; exact stay hs rfl rfl ⟨rfl, rfl, rfl, rfl⟩ (by simp [callM, h])
  case rl1 k =>
    cases k <;> simp at hin
    simp only [stepT] at hs
    have hg : ¬ GapH s := fun h => hw (.inr (.inl ⟨h, .inr rfl⟩))
    obtain ⟨h1, -⟩ : hd ≠ none ∧ _ := hloc
    obtain ⟨x, rfl⟩ := Option.ne_none_iff_exists'.mp h1
    have hb := hI.bufS hg
    split at hs
    · exact stay hs rfl rfl ⟨rfl, rfl, rfl, rfl⟩ (by simp [callM])
    · rename_i h
      have hx : x = s.head.idx := (hb.held (v := s.sv) (V_pos hi rfl)).resolve_left (fun h' => h (congrArg some h'.symm))
      have hr : s.head.ref ≠ 0 := fun h0 => hw (.inr (.inr ⟨rfl, congrArg some hx, h0⟩))
      exact stay hs rfl rfl ⟨rfl, rfl, rfl, rfl⟩ (by simp [callM, St.setT, hr])
  case rlO2 k =>
    cases k <;> simp at hin
    simp only [stepT] at hs
    have hg : ¬ GapH s := fun h => hw (.inr (.inl ⟨h, .inr rfl⟩))
    obtain ⟨h1, -⟩ : hd = some s.old.idx ∧ _ := hloc
    have hb : s.V s.old.idx ≤ s.old.ref := (hI.bufS hg).2.1
    have := V_pos hi h1
    rw [if_neg (by omega)] at hs
    exact stay hs rfl rfl ⟨rfl, rfl, rfl, rfl⟩ (by simp [callM, St.setT])
  case rlH2 k =>
    cases k <;> simp at hin
    simp only [stepT] at hs
    split at hs
    · rename_i h; exact stay hs rfl rfl ⟨rfl, rfl, rfl, rfl⟩ (by simp [callM, h])
    · rename_i h; exact stay hs rfl rfl ⟨rfl, rfl, rfl, rfl⟩ (by simp [callM, h, St.setT])
  case rlO3 k o =>
    cases k <;> simp at hin
    simp only [stepT] at hs
    split at hs
    · rename_i h; exact leave hs rfl rfl (by simp [callM, h])
    · rename_i h; exact stay hs rfl rfl ⟨rfl, rfl, rfl, rfl⟩ (by simp [callM, h])
  case rlH3 k o =>
    cases k <;> simp at hin
    simp only [stepT] at hs
    split at hs
    · rename_i h; exact leave hs rfl rfl (by simp [callM, h])
    · rename_i h; exact stay hs rfl rfl ⟨rfl, rfl, rfl, rfl⟩ (by simp [callM, h])

theorem call_exit {t' : Th} (hi : s.thr[i]? = some t) (hin : calling t.pc = true) (hs : stepT P s i t c = .ok (some s'))
    (hi' : s'.thr[i]? = some t') (hx : calling t'.pc = false) : t'.pc = .run ∨ t'.pc = .gt .client := by
  have key : ∀ {a : St} {u : Th}, (.ok (some (a.setT i u)) : Out) = .ok (some s') → a.thr = s.thr →
      (calling u.pc = true ∨ u.pc = .run ∨ u.pc = .gt .client) → t'.pc = .run ∨ t'.pc = .gt .client := by
    intro a u h a1 a2
    have := ok_inj h; subst this
    rw [setT_self hi a1] at hi'; cases hi'
    rcases a2 with a2 | a2
    · rw [a2] at hx; cases hx
    · exact a2
  obtain ⟨pc, ep, hd, tl⟩ := t
  cases pc <;> simp only [calling, pinning, viewing, ending, releasing, Bool.or_self, Bool.false_eq_true] at hin
  case ga1 k =>
    cases k <;> simp at hin
    simp only [stepT] at hs
    repeat' split at hs
    all_goals first
      | exact key hs rfl (.inl rfl)
      | exact key hs rfl (.inr (.inl rfl))
      | exact key hs rfl (.inr (.inr rfl))
      | exact absurd hs (by simp)
  case gaP2 k =>
    cases k <;> simp at hin
    simp only [stepT] at hs
    repeat' split at hs
    all_goals first
      | exact key hs rfl (.inl rfl)
      | exact key hs rfl (.inr (.inl rfl))
      | exact key hs rfl (.inr (.inr rfl))
      | exact absurd hs (by simp)
  case gaC2 k =>
    cases k <;> simp at hin
    simp only [stepT] at hs
    repeat' split at hs
    all_goals first
      | exact key hs rfl (.inl rfl)
      | exact key hs rfl (.inr (.inl rfl))
      | exact key hs rfl (.inr (.inr rfl))
      | exact absurd hs (by simp)
  case gaP3 k o =>
    cases k <;> simp at hin
    simp only [stepT] at hs
    repeat' split at hs
    all_goals first
      | exact key hs rfl (.inl rfl)
      | exact key hs rfl (.inr (.inl rfl))
      | exact key hs rfl (.inr (.inr rfl))
      | exact absurd hs (by simp)
  case gaC3 k o =>
    cases k <;> simp at hin
    simp only [stepT] at hs
    repeat' split at hs
    all_goals first
      | exact key hs rfl (.inl rfl)
      | exact key hs rfl (.inr (.inl rfl))
      | exact key hs rfl (.inr (.inr rfl))
      | exact absurd hs (by simp)
  case ej1 k =>
    cases k <;> simp at hin
    simp only [stepT] at hs
    repeat' split at hs
    all_goals first
      | exact key hs rfl (.inl rfl)
      | exact key hs rfl (.inr (.inl rfl))
      | exact key hs rfl (.inr (.inr rfl))
      | exact absurd hs (by simp)
  case ejP2 k =>
    cases k <;> simp at hin
    simp only [stepT] at hs
    repeat' split at hs
    all_goals first
      | exact key hs rfl (.inl rfl)
      | exact key hs rfl (.inr (.inl rfl))
      | exact key hs rfl (.inr (.inr rfl))
      | exact absurd hs (by simp)
  case ejC2 k =>
    cases k <;> simp at hin
    simp only [stepT] at hs
    repeat' split at hs
    all_goals first
      | exact key hs rfl (.inl rfl)
      | exact key hs rfl (.inr (.inl rfl))
      | exact key hs rfl (.inr (.inr rfl))
      | exact absurd hs (by simp)
  case ejP3 k o =>
    cases k <;> simp at hin
    simp only [stepT] at hs
    repeat' split at hs
    all_goals first
      | exact key hs rfl (.inl rfl)
      | exact key hs rfl (.inr (.inl rfl))
      | exact key hs rfl (.inr (.inr rfl))
      | exact absurd hs (by simp)
  case ejC3 k o =>
    cases k <;> simp at hin
    simp only [stepT] at hs
    repeat' split at hs
    all_goals first
      | exact key hs rfl (.inl rfl)
      | exact key hs rfl (.inr (.inl rfl))
      | exact key hs rfl (.inr (.inr rfl))
      | exact absurd hs (by simp)
  case gh1 k g =>
    cases k <;> simp at hin
    simp only [stepT] at hs
    repeat' split at hs
    all_goals first
      | exact key hs rfl (.inl rfl)
      | exact key hs rfl (.inr (.inl rfl))
      | exact key hs rfl (.inr (.inr rfl))
      | exact absurd hs (by simp)
  case ghO2 k g =>
    cases k <;> simp at hin
    simp only [stepT] at hs
    repeat' split at hs
    all_goals first
      | exact key hs rfl (.inl rfl)
      | exact key hs rfl (.inr (.inl rfl))
      | exact key hs rfl (.inr (.inr rfl))
      | exact absurd hs (by simp)
  case ghO3 k g o =>
    cases k <;> simp at hin
    simp only [stepT] at hs
    repeat' split at hs
    all_goals first
      | exact key hs rfl (.inl rfl)
      | exact key hs rfl (.inr (.inl rfl))
      | exact key hs rfl (.inr (.inr rfl))
      | exact absurd hs (by simp)
  case ghB k g =>
    cases k <;> simp at hin
    simp only [stepT] at hs
    repeat' split at hs
    all_goals first
      | exact key hs rfl (.inl rfl)
      | exact key hs rfl (.inr (.inl rfl))
      | exact key hs rfl (.inr (.inr rfl))
      | exact absurd hs (by simp)
  case ghH2 k g =>
    cases k <;> simp at hin
    simp only [stepT] at hs
    repeat' split at hs
    all_goals first
      | exact key hs rfl (.inl rfl)
      | exact key hs rfl (.inr (.inl rfl))
      | exact key hs rfl (.inr (.inr rfl))
      | exact absurd hs (by simp)
  case ghH3 k g o =>
    cases k <;> simp at hin
    simp only [stepT] at hs
    repeat' split at hs
    all_goals first
      | exact key hs rfl (.inl rfl)
      | exact key hs rfl (.inr (.inl rfl))
      | exact key hs rfl (.inr (.inr rfl))
      | exact absurd hs (by simp)
  case rl1 k =>
    cases k <;> simp at hin
    simp only [stepT] at hs
    repeat' split at hs
    all_goals first
      | exact key hs rfl (.inl rfl)
      | exact key hs rfl (.inr (.inl rfl))
      | exact key hs rfl (.inr (.inr rfl))
      | exact absurd hs (by simp)
  case rlO2 k =>
    cases k <;> simp at hin
    simp only [stepT] at hs
    repeat' split at hs
    all_goals first
      | exact key hs rfl (.inl rfl)
      | exact key hs rfl (.inr (.inl rfl))
      | exact key hs rfl (.inr (.inr rfl))
      | exact absurd hs (by simp)
  case rlO3 k o =>
    cases k <;> simp at hin
    simp only [stepT] at hs
    repeat' split at hs
    all_goals first
      | exact key hs rfl (.inl rfl)
      | exact key hs rfl (.inr (.inl rfl))
      | exact key hs rfl (.inr (.inr rfl))
      | exact absurd hs (by simp)
  case rlH2 k =>
    cases k <;> simp at hin
    simp only [stepT] at hs
    repeat' split at hs
    all_goals first
      | exact key hs rfl (.inl rfl)
      | exact key hs rfl (.inr (.inl rfl))
      | exact key hs rfl (.inr (.inr rfl))
      | exact absurd hs (by simp)
  case rlH3 k o =>
    cases k <;> simp at hin
    simp only [stepT] at hs
    repeat' split at hs
    all_goals first
      | exact key hs rfl (.inl rfl)
      | exact key hs rfl (.inr (.inl rfl))
      | exact key hs rfl (.inr (.inr rfl))
      | exact absurd hs (by simp)

/-- A step of a call that waits. -/
theorem wait_step (hI : Inv P s) (hi : s.thr[i]? = some t) (hin : calling t.pc = true) (hw : Waits s t)
    (hs : stepT P s i t c = .ok (some s')) : ∃ t', s' = s.setT i t' ∧ calling t'.pc = true ∧ Waits s' t' := by
  have stay : ∀ {t' : Th}, (.ok (some (s.setT i t')) : Out) = .ok (some s') → calling t'.pc = true → t'.hd = t.hd →
      (pinning t'.pc = pinning t.pc ∧ ending t'.pc = ending t.pc ∧ viewing t'.pc = viewing t.pc ∧ releasing t'.pc = releasing t.pc) →
      ∃ t', s' = s.setT i t' ∧ calling t'.pc = true ∧ Waits s' t' := by
    intro t' h a1 a2 a3
    have := ok_inj h; subst this
    refine ⟨t', rfl, a1, ?_⟩
    obtain ⟨b1, b2, b3, b4⟩ := a3
    unfold Waits at hw ⊢
    rw [b1, b2, b3, b4, a2, gapE_set hi rfl hin a1, gapH_set hi rfl hin a1]
    exact hw
  have hloc := (hI.thread hi).1
  have gE : (pinning t.pc = true ∨ ending t.pc = true) → s.cur = ⟨none, 0⟩ ∧ s.prev = ⟨none, 0⟩ := by
    intro h
    rcases hw with ⟨hg, -⟩ | ⟨-, h'⟩ | ⟨h', -⟩
    · exact hI.in_gapE hg
    all_goals
      obtain ⟨pc, ep, hd, tl⟩ := t
      exfalso
      cases pc <;> simp [pinning, ending, viewing, releasing] at h h'
  obtain ⟨pc, ep, hd, tl⟩ := t
  cases pc <;> simp only [calling, pinning, viewing, ending, releasing, Bool.or_self, Bool.false_eq_true] at hin
  case ga1 k =>
    cases k <;> simp at hin
    simp only [stepT, (gE (.inl rfl)).1] at hs
    exact stay hs rfl rfl ⟨rfl, rfl, rfl, rfl⟩
  case gaP2 k =>
    cases k <;> simp at hin
    simp only [stepT, (gE (.inl rfl)).2] at hs
    exact stay hs rfl rfl ⟨rfl, rfl, rfl, rfl⟩
  case gaC2 k =>
    cases k <;> simp at hin
    simp only [stepT, (gE (.inl rfl)).1] at hs
    exact stay hs rfl rfl ⟨rfl, rfl, rfl, rfl⟩
  case gaP3 k o =>
    cases k <;> simp at hin
    simp only [stepT, (gE (.inl rfl)).2] at hs
    obtain ⟨-, -, ho⟩ : _ ∧ _ ∧ o.ep ≠ none := hloc
    rw [if_neg (by rintro rfl; exact ho rfl)] at hs
    exact stay hs rfl rfl ⟨rfl, rfl, rfl, rfl⟩
  case gaC3 k o =>
    cases k <;> simp at hin
    simp only [stepT, (gE (.inl rfl)).1] at hs
    obtain ⟨-, -, ho⟩ : _ ∧ _ ∧ o.ep ≠ none := hloc
    rw [if_neg (by rintro rfl; exact ho rfl)] at hs
    exact stay hs rfl rfl ⟨rfl, rfl, rfl, rfl⟩
  case ej1 k =>
    cases k <;> simp at hin
    obtain ⟨h1, -⟩ : ep ≠ none ∧ _ := hloc
    simp only [stepT, (gE (.inr rfl)).2] at hs
    rw [if_neg (fun h => h1 h.symm)] at hs
    exact stay hs rfl rfl ⟨rfl, rfl, rfl, rfl⟩
  case ejP2 k =>
    cases k <;> simp at hin
    obtain ⟨h1, -, -, h4⟩ : ep ≠ none ∧ _ ∧ _ ∧ s.prev.ep = ep := hloc
    rw [(gE (.inr rfl)).2] at h4
    exact absurd h4.symm h1
  case ejC2 k =>
    cases k <;> simp at hin
    simp only [stepT, (gE (.inr rfl)).1] at hs
    exact stay hs rfl rfl ⟨rfl, rfl, rfl, rfl⟩
  case ejP3 k o =>
    cases k <;> simp at hin
    obtain ⟨h1, -, -, h4, -⟩ : ep ≠ none ∧ _ ∧ _ ∧ s.prev.ep = ep ∧ _ := hloc
    rw [(gE (.inr rfl)).2] at h4
    exact absurd h4.symm h1
  case ejC3 k o =>
    cases k <;> simp at hin
    simp only [stepT, (gE (.inr rfl)).1] at hs
    obtain ⟨-, -, -, ho, -⟩ : _ ∧ _ ∧ _ ∧ o.ep ≠ none ∧ _ := hloc
    rw [if_neg (by rintro rfl; exact ho rfl)] at hs
    exact stay hs rfl rfl ⟨rfl, rfl, rfl, rfl⟩
  case gh1 k g =>
    cases k <;> simp at hin
    simp only [stepT] at hs
    split at hs <;> exact stay hs rfl rfl ⟨rfl, rfl, rfl, rfl⟩
  case ghB k g =>
    cases k <;> simp at hin
    simp only [stepT] at hs
    split at hs <;> exact stay hs rfl rfl ⟨rfl, rfl, rfl, rfl⟩
  case ghO2 k g =>
    cases k <;> simp at hin
    simp only [stepT] at hs
    exact stay hs rfl rfl ⟨rfl, rfl, rfl, rfl⟩
  case ghH2 k g =>
    cases k <;> simp at hin
    simp only [stepT] at hs
    exact stay hs rfl rfl ⟨rfl, rfl, rfl, rfl⟩
  case ghO3 k g o =>
    cases k <;> simp at hin
    simp only [stepT] at hs
    obtain ⟨-, h2, h3⟩ : hd = none ∧ _ ∧ o.idx = g := hloc
    obtain ⟨-, e, he, hge⟩ := h2.resolve_right (by simp)
    have hge : s.ehead e = g := hge
    have hg : GapH s := by
      rcases hw with ⟨-, h⟩ | ⟨h, -⟩ | ⟨h, -⟩
      · simp [pinning, ending] at h
      · exact h
      · simp [releasing] at h
    have := ((hI.in_gapH hg).2.2.1 i _ e hi he).1
    rw [if_neg (by intro h; rw [← h] at h3; exact this (hge.trans h3.symm))] at hs
    exact stay hs rfl rfl ⟨rfl, rfl, rfl, rfl⟩
  case ghH3 k g o =>
    cases k <;> simp at hin
    simp only [stepT] at hs
    obtain ⟨-, h2, h3⟩ : hd = none ∧ _ ∧ o.idx = g := hloc
    obtain ⟨-, e, he, hge⟩ := h2.resolve_right (by simp)
    have hge : s.ehead e = g := hge
    have hg : GapH s := by
      rcases hw with ⟨-, h⟩ | ⟨h, -⟩ | ⟨h, -⟩
      · simp [pinning, ending] at h
      · exact h
      · simp [releasing] at h
    have := ((hI.in_gapH hg).2.2.1 i _ e hi he).2
    rw [if_neg (by intro h; rw [← h] at h3; exact this (hge.trans h3.symm))] at hs
    exact stay hs rfl rfl ⟨rfl, rfl, rfl, rfl⟩
  case rl1 k =>
    cases k <;> simp at hin
    simp only [stepT] at hs
    split at hs <;> exact stay hs rfl rfl ⟨rfl, rfl, rfl, rfl⟩
  case rlO2 k =>
    cases k <;> simp at hin
    simp only [stepT] at hs
    split at hs <;> exact stay hs rfl rfl ⟨rfl, rfl, rfl, rfl⟩
  case rlH2 k =>
    cases k <;> simp at hin
    simp only [stepT] at hs
    split at hs <;> exact stay hs rfl rfl ⟨rfl, rfl, rfl, rfl⟩
  case rlO3 k o =>
    cases k <;> simp at hin
    simp only [stepT] at hs
    obtain ⟨h1, -⟩ : hd = some s.old.idx ∧ _ := hloc
    exfalso
    rcases hw with ⟨-, h⟩ | ⟨h, -⟩ | ⟨-, h2, -⟩
    · simp [pinning, ending] at h
    · exact (hI.in_gapH h).2.2.2 i _ _ hi h1 rfl
    · by_cases hg : GapH s
      · exact (hI.in_gapH hg).2.2.2 i _ _ hi h1 rfl
      · have hne : s.old.idx ≠ s.head.idx := (hI.bufS hg).1
        have h2 : hd = some s.head.idx := h2
        rw [h1] at h2
        exact hne (Option.some.inj h2)
  case rlH3 k o =>
    cases k <;> simp at hin
    simp only [stepT] at hs
    obtain ⟨-, -, h3⟩ : _ ∧ _ ∧ 0 < o.ref := hloc
    have hr : s.head.ref = 0 := by
      rcases hw with ⟨-, h⟩ | ⟨h, -⟩ | ⟨-, -, h⟩
      · simp [pinning, ending] at h
      · exact (hI.in_gapH h).1
      · exact h
    rw [if_neg (by rintro rfl; omega)] at hs
    exact stay hs rfl rfl ⟨rfl, rfl, rfl, rfl⟩

/-- A call can always take a step, unless the assert of `end_job` fails. -/
theorem call_enabled (hI : Inv P s) (hH : Hist P s) (hi : s.thr[i]? = some t) (hin : calling t.pc = true) :
    (∃ s', Conc.step P s i .go = .ok (some s')) ∨ (t.pc = .ejC2 .client ∧ s.cur.ref = 0) := by
  have hc : Conc.step P s i .go ≠ .ok none := by
    unfold Conc.step
    rw [hi]
    obtain ⟨pc, ep, hd, tl⟩ := t
    cases pc <;> simp only [calling, pinning, viewing, ending, releasing, Bool.or_self, Bool.false_eq_true] at hin
    all_goals
      simp only [stepT]
      repeat' split
      all_goals simp
  cases hr : Conc.step P s i .go with
  | ok o =>
    cases o with
    | none => exact absurd hr hc
    | some s' => exact .inl ⟨s', rfl⟩
  | error f =>
    cases f with
    | ub => exact absurd hr hI.no_ub
    | abort =>
      obtain ⟨u, hu, h⟩ := hI.abort_cases hH hr
      rw [hi] at hu; cases hu
      rcases h with ⟨k, h1, -, h3⟩ | ⟨e, h1, -⟩
      · rw [h1] at hin
        cases k with
        | create r => simp [calling, pinning, viewing, ending, releasing] at hin
        | client => exact .inr ⟨h1, h3⟩
        | job e => simp [calling, pinning, viewing, ending, releasing] at hin
      · rw [h1] at hin; simp [calling, pinning, viewing, ending, releasing] at hin

end DE.Conc
