import Verif.Proofs.ConcHist

/-!
What the slots and the versions contain, in executions in which no flush copies a slot that is still being written.
-/

namespace DE.Conc
variable {A : Prop} {P : Par} {s s' : St} {i : Nat} {t : Th} {c : Ch}

/-- When thread `i` copies a slot during a flush, the append that claimed it has finished. -/
def tidy (s : St) (i : Nat) : Prop :=
  ∀ t e p acc, s.thr[i]? = some t → t.pc = .cp e p acc → p < t.tl → ∃ r, (p, r) ∈ s.done

/-- Version `e` holds `n` slots; if `A` (no flush has copied a slot still being written), they are exactly the records claimed at
positions below `n`, in order, all of them written. -/
def Fl (A : Prop) (s : St) (e n : Nat) : Prop :=
  (s.estr e).length = n ∧ (A → ∀ p, p < n → ∃ r, (s.estr e)[p]? = some (some (p, r)) ∧ (p, r) ∈ s.done)

/-- What a flush has copied so far. -/
def AccOk (A : Prop) (s : St) (acc : List Slot) : Prop :=
  A → ∀ k, k < acc.length → ∃ r, acc[k]? = some (some (s.head.idx + k, r)) ∧ (s.head.idx + k, r) ∈ s.done

/-- What the thread running the reconstruction knows. -/
def LocD (A : Prop) (s : St) (t : Th) : Prop :=
  match t.pc with
  | .ej1 (.create _) | .ejP2 (.create _) | .ejP3 (.create _) _ | .ejC2 (.create _) | .ejC3 (.create _) _ | .crS _ =>
      ∀ x, s.next = some x → Fl A s x s.head.idx
  | .jb e => Fl A s e s.head.idx
  | .gh1 (.job e) _ | .ghO2 (.job e) _ | .ghO3 (.job e) _ _ | .ghB (.job e) _ | .ghH2 (.job e) _ | .ghH3 (.job e) _ _ =>
      Fl A s e s.head.idx
  | .gt (.job e) => Fl A s e s.head.idx
  | .cp e _ acc => Fl A s e s.head.idx ∧ AccOk A s acc
  | .rl1 (.job e) | .rlO2 (.job e) | .rlO3 (.job e) _ | .rlH2 (.job e) | .rlH3 (.job e) _ => Fl A s e t.tl
  | .ad1 e | .rt1 e _ | .rt2 e _ _ | .rt3 e _ | .ad3 e | .ad4 e _ => Fl A s e t.tl
  | .ad5 e c => Fl A s e t.tl ∧ ∀ x, c.ep = some x → Fl A s x (s.ehead x)
  | .ad6 e | .ad7 e | .ad8 e | .ad9 e | .ad10 e _ | .ad11 e _ | .ad12 e => Fl A s e t.tl
  | _ => True

/-- The contents of the slots and of the versions. -/
structure Dat (A : Prop) (P : Par) (s : St) : Prop where
  settled : A → ∀ p, p < s.head.idx → ∃ r, (p, r) ∈ s.done
  fresh : A → ∀ p r, (p, r) ∈ s.done → ∃ q r', s.mem (p % P.cap) = some (q, r') ∧ p ≤ q
  str : ∀ e, s.cur.ep = some e ∨ s.prev.ep = some e → Fl A s e (s.ehead e)
  jobs : ∀ e ∈ s.jobs, Fl A s e s.head.idx
  locd : ∀ (j : Nat) (t : Th), s.thr[j]? = some t → LocD A s t

theorem Fl.mono {e n : Nat} (h : Fl A s e n) (h1 : s'.estr e = s.estr e) (h2 : ∀ x ∈ s.done, x ∈ s'.done) : Fl A s' e n := by
  unfold Fl
  rw [h1]
  exact ⟨h.1, fun hA p hp => (h.2 hA p hp).elim fun r hr => ⟨r, hr.1, h2 _ hr.2⟩⟩

theorem AccOk.mono {acc : List Slot} (h : AccOk A s acc) (h1 : s'.head.idx = s.head.idx) (h2 : ∀ x ∈ s.done, x ∈ s'.done) : AccOk A s' acc := by
  unfold AccOk
  rw [h1]
  exact fun hA k hk => (h hA k hk).elim fun r hr => ⟨r, hr.1, h2 _ hr.2⟩

theorem LocD.of_sect (h : sect t = none) : LocD A s t := by
  obtain ⟨pc, ep, hd, tl⟩ := t
  cases pc
  case ej1 k => cases k <;> trivial
  case ejP2 k => cases k <;> trivial
  case ejP3 k _ => cases k <;> trivial
  case ejC2 k => cases k <;> trivial
  case ejC3 k _ => cases k <;> trivial
  case gh1 k _ => cases k <;> trivial
  case ghO2 k _ => cases k <;> trivial
  case ghO3 k _ _ => cases k <;> trivial
  case ghB k _ => cases k <;> trivial
  case ghH2 k _ => cases k <;> trivial
  case ghH3 k _ _ => cases k <;> trivial
  case gt k => cases k <;> trivial
  case rl1 k => cases k <;> trivial
  case rlO2 k => cases k <;> trivial
  case rlO3 k _ => cases k <;> trivial
  case rlH2 k => cases k <;> trivial
  case rlH3 k _ => cases k <;> trivial
  all_goals trivial

/-- What a thread outside the section knows is not disturbed. -/
theorem LocD.mono (h : LocD A s t) (h1 : s'.estr = s.estr) (h2 : ∀ x ∈ s.done, x ∈ s'.done) (h3 : s'.next = s.next)
    (h4 : s'.head.idx = s.head.idx) (h5 : s'.ehead = s.ehead) : LocD A s' t := by
  have hF : ∀ {e n}, Fl A s e n → Fl A s' e n := fun h => h.mono (by rw [h1]) h2
  obtain ⟨pc, ep, hd, tl⟩ := t
  have nx : (∀ x, s.next = some x → Fl A s x s.head.idx) → ∀ x, s'.next = some x → Fl A s' x s'.head.idx := by
    intro h x hx
    rw [h4]; exact hF (h x (h3 ▸ hx))
  have hd' : ∀ {e}, Fl A s e s.head.idx → Fl A s' e s'.head.idx := by
    intro e h
    rw [h4]; exact hF h
  cases pc
  case ej1 k => cases k <;> first | exact nx h | trivial
  case ejP2 k => cases k <;> first | exact nx h | trivial
  case ejP3 k _ => cases k <;> first | exact nx h | trivial
  case ejC2 k => cases k <;> first | exact nx h | trivial
  case ejC3 k _ => cases k <;> first | exact nx h | trivial
  case crS => exact nx h
  case jb => exact hd' h
  case gh1 k _ => cases k <;> first | exact hd' h | trivial
  case ghO2 k _ => cases k <;> first | exact hd' h | trivial
  case ghO3 k _ _ => cases k <;> first | exact hd' h | trivial
  case ghB k _ => cases k <;> first | exact hd' h | trivial
  case ghH2 k _ => cases k <;> first | exact hd' h | trivial
  case ghH3 k _ _ => cases k <;> first | exact hd' h | trivial
  case gt k => cases k <;> first | exact hd' h | trivial
  case cp => exact ⟨hd' h.1, AccOk.mono h.2 h4 h2⟩
  case rl1 k => cases k <;> first | exact hF h | trivial
  case rlO2 k => cases k <;> first | exact hF h | trivial
  case rlO3 k _ => cases k <;> first | exact hF h | trivial
  case rlH2 k => cases k <;> first | exact hF h | trivial
  case rlH3 k _ => cases k <;> first | exact hF h | trivial
  case ad5 => exact ⟨hF h.1, fun x hx => by rw [h5]; exact hF (h.2 x hx)⟩
  all_goals first | exact hF h | trivial

theorem LocD.wake (h : LocD A s t) : LocD A s (wake t) := by
  unfold Conc.wake
  split
  · trivial
  · exact h

/-- Completed writes stay completed. -/
theorem step_done (hs : stepT P s i t c = .ok (some s')) : ∀ x ∈ s.done, x ∈ s'.done := by
  by_cases h3 : ∃ r x, t.pc = .ap3 r x
  · obtain ⟨r, x, h3⟩ := h3
    unfold stepT at hs
    rw [h3] at hs
    simp only at hs
    split at hs <;> (have := ok_inj hs; subst this; exact fun _ h => h)
  · by_cases h5 : ∃ r p, t.pc = .ap5 r p
    · obtain ⟨r, p, h5⟩ := h5
      unfold stepT at hs
      rw [h5] at hs
      simp only at hs
      have := ok_inj hs; subst this; exact fun _ h => List.mem_cons_of_mem _ h
    · push Not at h3 h5
      rw [(step_frame hs h3 h5).2.2.1]; exact fun _ h => h

/-- What threads outside the section leave alone. -/
theorem step_out (hs : stepT P s i t c = .ok (some s')) (hsec : sect t = none) :
    s'.estr = s.estr ∧ s'.ehead = s.ehead ∧ s'.next = s.next ∧ s'.cur.ep = s.cur.ep ∧ s'.prev.ep = s.prev.ep ∧ (∀ e ∈ s'.jobs, e ∈ s.jobs) := by
  obtain ⟨pc, ep, hd, tl⟩ := t
  have key : ∀ {a : St} {t' : Th}, (.ok (some (a.setT i t')) : Out) = .ok (some s') → a.estr = s.estr → a.ehead = s.ehead → a.next = s.next →
      a.cur.ep = s.cur.ep → a.prev.ep = s.prev.ep → (∀ e ∈ a.jobs, e ∈ s.jobs) →
      s'.estr = s.estr ∧ s'.ehead = s.ehead ∧ s'.next = s.next ∧ s'.cur.ep = s.cur.ep ∧ s'.prev.ep = s.prev.ep ∧ (∀ e ∈ s'.jobs, e ∈ s.jobs) := by
    intro a t' h a1 a2 a3 a4 a5 a6
    have := ok_inj h; subst this
    exact ⟨a1, a2, a3, a4, a5, a6⟩
  cases pc
  case idle =>
    simp only [stepT] at hs
    repeat' split at hs
    all_goals first
      | exact key hs rfl rfl rfl rfl rfl (fun _ h => h)
      | (rename_i e rest he; exact key hs rfl rfl rfl rfl rfl (fun x h => he.symm ▸ List.mem_cons_of_mem _ h))
      | exact absurd hs (by simp)
  case gaP3 k o =>
    simp only [stepT] at hs
    split at hs
    · rename_i h; exact key hs rfl rfl rfl rfl (by rw [h]) (fun _ h => h)
    · exact key hs rfl rfl rfl rfl rfl (fun _ h => h)
  case gaC3 k o =>
    simp only [stepT] at hs
    split at hs
    · rename_i h; exact key hs rfl rfl rfl (by rw [h]) rfl (fun _ h => h)
    · exact key hs rfl rfl rfl rfl rfl (fun _ h => h)
  case ejP3 k o =>
    simp only [stepT] at hs
    split at hs
    · rename_i h; exact key hs rfl rfl rfl rfl (by rw [h]) (fun _ h => h)
    · exact key hs rfl rfl rfl rfl rfl (fun _ h => h)
  case ejC3 k o =>
    simp only [stepT] at hs
    split at hs
    · rename_i h; exact key hs rfl rfl rfl (by rw [h]) rfl (fun _ h => h)
    · exact key hs rfl rfl rfl rfl rfl (fun _ h => h)
  case cp => cases hsec
  case crC => cases hsec
  case crS => cases hsec
  case ad4 => cases hsec
  case ad5 => cases hsec
  case ad6 => cases hsec
  case ad12 => cases hsec
  case ad13 => cases hsec
  case rt2 => cases hsec
  all_goals
    simp only [stepT] at hs
    repeat' split at hs
  all_goals first
    | exact key hs rfl rfl rfl rfl rfl (fun _ h => h)
    | exact absurd hs (by simp)

theorem mod_gap {a b m : Nat} (h : a % m = b % m) (hab : a < b) : a + m ≤ b := by
  have h1 := Nat.div_add_mod a m
  have h2 := Nat.div_add_mod b m
  have hlt : a / m < b / m := by
    by_contra hc
    have := Nat.mul_le_mul_left m (Nat.le_of_not_lt hc)
    omega
  have := Nat.mul_le_mul_left m hlt
  rw [Nat.mul_succ] at this
  omega

/-- A completed append less than a ring behind the tail is in its slot. -/
theorem Dat.slot (hD : Dat A P s) (hA : A) (hH : Hist P s) {p r : Nat} (hd : (p, r) ∈ s.done) (hp : s.tail ≤ p + P.cap) :
    s.mem (p % P.cap) = some (p, r) := by
  obtain ⟨q, r', hm, hle⟩ := hD.fresh hA p r hd
  obtain ⟨hq, hmod⟩ := hH.memd _ q r' hm
  have hqt := hH.claimed_lt (hH.sub _ hq)
  have hpq : q = p := by
    by_contra hne
    have := mod_gap hmod.symm (by omega : p < q)
    omega
  subst hpq
  rw [hm, hH.fun (hH.sub _ hq) (hH.sub _ hd)]

/-- The thread that moves. -/
theorem step_locd (hD : Dat A P s) (hI : Inv P s) (hH : Hist P s) (hT : A → tidy s i) (hi : s.thr[i]? = some t)
    (hs : stepT P s i t c = .ok (some s')) : ∃ t', s'.thr[i]? = some t' ∧ LocD A s' t' := by
  have hlt : i < s.thr.length := (List.getElem?_eq_some_iff.mp hi).1
  have key : ∀ {a : St} {t' : Th}, (.ok (some (a.setT i t')) : Out) = .ok (some s') → i < a.thr.length → LocD A a t' →
      ∃ t', s'.thr[i]? = some t' ∧ LocD A s' t' := by
    intro a t' h a1 a2
    have := ok_inj h; subst this
    exact ⟨t', List.getElem?_set_self a1, LocD.mono a2 rfl (fun _ h => h) rfl rfl rfl⟩
  have hd := hD.locd i t hi
  have hj := hH.locj i t hi
  have hb : s.tail ≤ s.head.idx + P.hwm := hI.bnd.2
  obtain ⟨pc, ep, hdx, tl⟩ := t
  have loc : ∀ {a : St} {t' : Th}, LocD A s t' → a.estr = s.estr → a.done = s.done → a.next = s.next → a.head.idx = s.head.idx →
      a.ehead = s.ehead → LocD A a t' := fun h a1 a2 a3 a4 a5 => h.mono a1 (fun x h => a2 ▸ h) a3 a4 a5
  cases pc with
  | idle =>
    simp only [stepT] at hs
    repeat' split at hs
    all_goals first
      | exact key hs hlt trivial
      | (rename_i e rest he
         have hm : e ∈ s.jobs := he.symm ▸ List.mem_cons_self
         exact key hs hlt (loc (t' := ⟨.jb e, ep, hdx, tl⟩) (hD.jobs e hm) rfl rfl rfl rfl rfl))
      | exact absurd hs (by simp)
  | ins =>
    simp only [stepT] at hs
    repeat' split at hs
    all_goals first
      | exact key hs hlt trivial
      | exact absurd hs (by simp)
  | insT => simp only [stepT] at hs; split at hs <;> exact key hs hlt trivial
  | insH => simp only [stepT] at hs; split at hs <;> exact key hs hlt trivial
  | casF => simp only [stepT] at hs; split at hs <;> exact key hs hlt trivial
  | crA => simp only [stepT] at hs; split at hs <;> first | exact key hs hlt trivial | exact absurd hs (by simp)
  | crC r =>
    simp only [stepT] at hs
    obtain ⟨h1, _⟩ : ep ≠ none ∧ hdx = none := (hI.thread hi).1
    obtain ⟨e, rfl⟩ := Option.ne_none_iff_exists'.mp h1
    obtain ⟨hC, _, hcur⟩ : Core P s.sv (.Cr e) := hI.phase hi rfl
    have hcur : s.cur.ep = some e := hcur
    have heh : s.ehead e = s.head.idx := hC.2.2.1 e hcur
    have hF := hD.str e (.inl hcur)
    rw [heh] at hF
    simp only at hs
    split at hs
    · refine key hs hlt ?_
      intro x hx
      have hx : some s.nextId = some x := hx
      cases hx
      refine ⟨?_, ?_⟩
      · show (upd s.estr s.nextId (s.estr e) s.nextId).length = s.head.idx
        rw [upd_self]; exact hF.1
      · show A → ∀ p, p < s.head.idx → ∃ r, (upd s.estr s.nextId (s.estr e) s.nextId)[p]? = some (some (p, r)) ∧ (p, r) ∈ s.done
        rw [upd_self]; exact hF.2
    · exact absurd hs (by simp)
  | crS => simp only [stepT] at hs; split at hs <;> first | exact key hs hlt trivial | exact absurd hs (by simp)
  | ap1 => simp only [stepT] at hs; exact key hs hlt trivial
  | ap2 => simp only [stepT] at hs; split at hs <;> exact key hs hlt trivial
  | ap3 => simp only [stepT] at hs; split at hs <;> exact key hs hlt trivial
  | ap4 => simp only [stepT] at hs; split at hs <;> exact key hs hlt trivial
  | ap5 => simp only [stepT] at hs; exact key hs hlt trivial
  | ga1 => simp only [stepT] at hs; split at hs <;> exact key hs hlt trivial
  | gaP2 => simp only [stepT] at hs; split at hs <;> exact key hs hlt trivial
  | gaP3 k => simp only [stepT] at hs; split at hs <;> exact key hs hlt (by cases k <;> trivial)
  | gaC2 => simp only [stepT] at hs; split at hs <;> exact key hs hlt trivial
  | gaC3 k => simp only [stepT] at hs; split at hs <;> exact key hs hlt (by cases k <;> trivial)
  | run =>
    simp only [stepT] at hs
    repeat' split at hs
    all_goals first
      | exact key hs hlt trivial
      | exact absurd hs (by simp)
  | ej1 k => simp only [stepT] at hs; split at hs <;> exact key hs hlt (by cases k <;> exact hd)
  | ejP2 k =>
    simp only [stepT] at hs
    repeat' split at hs
    all_goals first
      | exact key hs hlt (by cases k <;> exact hd)
      | exact absurd hs (by simp)
  | ejP3 k =>
    simp only [stepT] at hs
    split at hs
    · refine key hs hlt ?_
      cases k with
      | create r => exact loc (t' := ⟨.crS r, none, hdx, tl⟩) hd rfl rfl rfl rfl rfl
      | _ => exact trivial
    · exact key hs hlt (by cases k <;> exact hd)
  | ejC2 k =>
    simp only [stepT] at hs
    repeat' split at hs
    all_goals first
      | exact key hs hlt (by cases k <;> exact hd)
      | exact absurd hs (by simp)
  | ejC3 k =>
    simp only [stepT] at hs
    split at hs
    · refine key hs hlt ?_
      cases k with
      | create r => exact loc (t' := ⟨.crS r, none, hdx, tl⟩) hd rfl rfl rfl rfl rfl
      | _ => exact trivial
    · exact key hs hlt (by cases k <;> exact hd)
  | gh1 k => simp only [stepT] at hs; split at hs <;> exact key hs hlt (by cases k <;> exact hd)
  | ghO2 k => simp only [stepT] at hs; exact key hs hlt (by cases k <;> exact hd)
  | ghB k => simp only [stepT] at hs; split at hs <;> exact key hs hlt (by cases k <;> exact hd)
  | ghH2 k => simp only [stepT] at hs; exact key hs hlt (by cases k <;> exact hd)
  | ghO3 k g o =>
    simp only [stepT] at hs
    split at hs
    · refine key hs hlt ?_
      cases k with
      | job e => exact loc (t' := ⟨.gt (.job e), ep, some o.idx, tl⟩) hd rfl rfl rfl rfl rfl
      | _ => exact trivial
    · exact key hs hlt (by cases k <;> exact hd)
  | ghH3 k g o =>
    simp only [stepT] at hs
    split at hs
    · rename_i hp
      refine key hs hlt ?_
      cases k with
      | job e => exact loc (t' := ⟨.gt (.job e), ep, some o.idx, tl⟩) hd rfl rfl rfl (by rw [hp]) rfl
      | _ => exact trivial
    · exact key hs hlt (by cases k <;> exact hd)
  | gt k =>
    simp only [stepT] at hs
    refine key hs hlt ?_
    cases k with
    | job e => exact ⟨hd, fun _ k hk => absurd hk (Nat.not_lt_zero _)⟩
    | _ => trivial
  | rl1 k => simp only [stepT] at hs; split at hs <;> exact key hs hlt (by cases k <;> exact hd)
  | rlO2 k => simp only [stepT] at hs; split at hs <;> exact key hs hlt (by cases k <;> exact hd)
  | rlH2 k => simp only [stepT] at hs; split at hs <;> exact key hs hlt (by cases k <;> exact hd)
  | rlO3 k o =>
    simp only [stepT] at hs
    split at hs
    · refine key hs hlt ?_
      cases k with
      | job e => exact loc (t' := ⟨.ad1 e, ep, none, tl⟩) hd rfl rfl rfl rfl rfl
      | _ => exact trivial
    · exact key hs hlt (by cases k <;> exact hd)
  | rlH3 k o =>
    simp only [stepT] at hs
    split at hs
    · rename_i hp
      refine key hs hlt ?_
      cases k with
      | job e => exact loc (t' := ⟨.ad1 e, ep, none, tl⟩) hd rfl rfl rfl (by rw [hp]) rfl
      | _ => exact trivial
    · exact key hs hlt (by cases k <;> exact hd)
  | jb e =>
    simp only [stepT] at hs
    split at hs
    · exact key hs hlt hd
    · exact absurd hs (by simp)
  | cp e p acc =>
    obtain ⟨j1, j2, j3, j4, j5⟩ : hdx = some s.head.idx ∧ s.head.idx ≤ tl ∧ tl ≤ s.tail ∧ p ≤ tl ∧ p = s.head.idx + acc.length := hj
    obtain ⟨d1, d2⟩ : Fl A s e s.head.idx ∧ AccOk A s acc := hd
    simp only [stepT] at hs
    split at hs
    · rename_i hp
      refine key hs hlt ⟨d1, ?_⟩
      intro hA k hk
      obtain ⟨r, hr⟩ := hT hA _ e p acc hi rfl hp
      have hm := hD.slot hA hH hr (by unfold Par.cap; omega)
      rw [List.length_append, List.length_singleton] at hk
      by_cases hkl : k < acc.length
      · obtain ⟨r', a, b⟩ := d2 hA k hkl
        exact ⟨r', by rw [List.getElem?_append_left hkl]; exact a, b⟩
      · have hkl : k = acc.length := by omega
        subst hkl
        refine ⟨r, ?_, j5 ▸ hr⟩
        rw [List.getElem?_append_right (le_refl _), Nat.sub_self, hm, j5]; rfl
    · rename_i hp
      split at hs
      · refine key hs hlt ?_
        have htl : s.head.idx + acc.length = tl := by omega
        refine ⟨?_, ?_⟩
        · show (upd s.estr e (s.estr e ++ acc) e).length = tl
          rw [upd_self, List.length_append, d1.1]; exact htl
        · show A → ∀ q, q < tl → ∃ r, (upd s.estr e (s.estr e ++ acc) e)[q]? = some (some (q, r)) ∧ (q, r) ∈ s.done
          rw [upd_self]
          intro hA q hq
          by_cases hqh : q < s.head.idx
          · obtain ⟨r, a, b⟩ := d1.2 hA q hqh
            exact ⟨r, by rw [List.getElem?_append_left (by rw [d1.1]; exact hqh)]; exact a, b⟩
          · obtain ⟨r, a, b⟩ := d2 hA (q - s.head.idx) (by omega)
            have hqe : s.head.idx + (q - s.head.idx) = q := by omega
            rw [hqe] at a b
            exact ⟨r, by rw [List.getElem?_append_right (by rw [d1.1]; omega), d1.1]; exact a, b⟩
      · exact absurd hs (by simp)
  | ad1 => simp only [stepT] at hs; split at hs <;> exact key hs hlt hd
  | rt1 => simp only [stepT] at hs; split at hs <;> exact key hs hlt hd
  | rt2 => simp only [stepT] at hs; split at hs <;> exact key hs hlt hd
  | rt3 => simp only [stepT] at hs; split at hs
           · exact key hs hlt hd
           · cases hs
  | ad3 => simp only [stepT] at hs; exact key hs hlt hd
  | ad4 e o =>
    simp only [stepT] at hs
    split at hs
    · rename_i hp
      refine key hs hlt ⟨hd, fun x hx => ?_⟩
      exact hD.str x (.inl (by rw [hp]; exact hx))
    · exact key hs hlt hd
  | ad5 => simp only [stepT] at hs; exact key hs hlt hd.1
  | ad6 =>
    simp only [stepT] at hs
    repeat' split at hs
    all_goals first
      | exact key hs hlt hd
      | exact absurd hs (by simp)
  | ad7 => simp only [stepT] at hs; split at hs <;> first | exact key hs hlt hd | exact absurd hs (by simp)
  | ad8 => simp only [stepT] at hs; split at hs <;> exact key hs hlt hd
  | ad9 => simp only [stepT] at hs; exact key hs hlt hd
  | ad10 => simp only [stepT] at hs; split at hs <;> exact key hs hlt hd
  | ad11 => simp only [stepT] at hs; exact key hs hlt hd
  | ad12 => simp only [stepT] at hs; exact key hs hlt trivial
  | ad13 => simp only [stepT] at hs; exact key hs hlt trivial
  | ad14 => simp only [stepT] at hs; split at hs <;> first | exact key hs hlt trivial | exact absurd hs (by simp)
  | ad15 => simp only [stepT] at hs; exact key hs (by simpa using hlt) trivial
  | ad16 => simp only [stepT] at hs; exact key hs hlt trivial
  | ad17 => simp only [stepT] at hs; exact key hs hlt trivial
  | aw1 => simp only [stepT] at hs; split at hs <;> exact key hs hlt trivial
  | aw2 => simp only [stepT] at hs; split at hs <;> first | exact key hs hlt trivial | exact absurd hs (by simp)
  | aw3 => simp only [stepT] at hs; exact key hs hlt trivial
  | aw4 => simp only [stepT] at hs; split at hs <;> first | exact key hs hlt trivial | exact absurd hs (by simp)
  | aw5 => simp only [stepT] at hs; split at hs <;> first | exact key hs hlt trivial | exact absurd hs (by simp)
  | aw6 => simp only [stepT] at hs; exact key hs hlt trivial

/-- The versions of the current and the previous epoch. -/
theorem step_str (hD : Dat A P s) (hI : Inv P s) (hi : s.thr[i]? = some t)
    (hs : stepT P s i t c = .ok (some s')) : ∀ e, s'.cur.ep = some e ∨ s'.prev.ep = some e → Fl A s' e (s'.ehead e) := by
  have hdn := step_done hs
  by_cases hsec : sect t = none
  · obtain ⟨a1, a2, _, a4, a5, _⟩ := step_out hs hsec
    intro e he
    rw [a4, a5] at he
    rw [a2]
    exact (hD.str e he).mono (by rw [a1]) hdn
  have hd := hD.locd i t hi
  obtain ⟨ph, hph⟩ := Option.ne_none_iff_exists'.mp hsec
  have hc := hI.phase hi hph
  have same : s'.estr = s.estr → s'.ehead = s.ehead → s'.cur.ep = s.cur.ep → s'.prev.ep = s.prev.ep →
      ∀ e, s'.cur.ep = some e ∨ s'.prev.ep = some e → Fl A s' e (s'.ehead e) := by
    intro a1 a2 a4 a5 e he
    rw [a4, a5] at he
    rw [a2]
    exact (hD.str e he).mono (by rw [a1]) hdn
  have key : ∀ {a : St} {t' : Th}, (.ok (some (a.setT i t')) : Out) = .ok (some s') → a.estr = s.estr → a.ehead = s.ehead →
      a.cur.ep = s.cur.ep → a.prev.ep = s.prev.ep → ∀ e, s'.cur.ep = some e ∨ s'.prev.ep = some e → Fl A s' e (s'.ehead e) := by
    intro a t' h a1 a2 a3 a4
    have := ok_inj h; subst this
    exact same a1 a2 a3 a4
  have hlive : Calm P s.sv → ∀ e, s.cur.ep = some e ∨ s.prev.ep = some e → e < s.nextId := by
    rintro ⟨⟨e1, g1, _, g3, hh⟩, _⟩ e he
    rcases he with he | he
    · have g1 : s.cur.ep = some e1 := g1
      rw [he] at g1; cases g1; exact g3
    · rcases hh with ⟨hp, _⟩ | ⟨e0, hp, _, _, hl, _⟩
      · have hp : s.prev = _ := hp
        rw [hp] at he; cases he
      · have hp : s.prev.ep = some e0 := hp
        rw [he] at hp; cases hp; exact hl
  obtain ⟨pc, ep, hdx, tl⟩ := t
  cases pc
  case crC r =>
    obtain ⟨h1, _⟩ : ep ≠ none ∧ hdx = none := (hI.thread hi).1
    obtain ⟨e0, rfl⟩ := Option.ne_none_iff_exists'.mp h1
    have hC : Calm P s.sv := (hI.phase hi rfl : Core P s.sv (.Cr e0)).1
    simp only [stepT] at hs
    split at hs
    · have := ok_inj hs; subst this
      intro e he
      have he : s.cur.ep = some e ∨ s.prev.ep = some e := he
      have hne : e ≠ s.nextId := ne_of_lt (hlive hC e he)
      have h2 := hD.str e he
      show Fl A _ e (upd s.ehead s.nextId (s.ehead e0) e)
      rw [upd_ne _ _ hne]
      exact h2.mono (upd_ne _ _ hne) (fun _ h => h)
    · exact absurd hs (by simp)
  case cp e p acc =>
    obtain ⟨hC, _, _, n1, n2⟩ : Core P s.sv (.A1 e) := hI.phase hi rfl
    have n1 : s.cur.ep ≠ some e := n1
    have n2 : s.prev.ep ≠ some e := n2
    simp only [stepT] at hs
    split at hs
    · exact key hs rfl rfl rfl rfl
    · split at hs
      · have := ok_inj hs; subst this
        intro x hx
        have hx : s.cur.ep = some x ∨ s.prev.ep = some x := hx
        have hne : x ≠ e := by
          rintro rfl
          exact hx.elim n1 n2
        exact (hD.str x hx).mono (upd_ne _ _ hne) (fun _ h => h)
      · exact absurd hs (by simp)
  case rt2 e x o =>
    simp only [stepT] at hs
    split at hs
    · have := ok_inj hs; subst this
      intro y hy
      rcases hy with hy | hy
      · exact (hD.str y (.inl hy)).mono rfl (fun _ h => h)
      · cases hy
    · exact key hs rfl rfl rfl rfl
  case ad4 e o =>
    simp only [stepT] at hs
    split at hs
    · have := ok_inj hs; subst this
      intro y hy
      rcases hy with hy | hy
      · cases hy
      · exact (hD.str y (.inr hy)).mono rfl (fun _ h => h)
    · exact key hs rfl rfl rfl rfl
  case ad5 e o =>
    obtain ⟨hcur, _⟩ : Core P s.sv (.B e o) := hI.phase hi rfl
    have hcur : s.cur = _ := hcur
    simp only [stepT] at hs
    have := ok_inj hs; subst this
    intro y hy
    rcases hy with hy | hy
    · have hy : s.cur.ep = some y := hy
      rw [hcur] at hy; cases hy
    · exact Fl.mono (hd.2 y hy) rfl (fun _ h => h)
  case ad6 e =>
    obtain ⟨e1, hT, _⟩ : Core P s.sv (.C e tl 0) := hI.phase hi rfl
    obtain ⟨hcur, _, hp, hne, hN⟩ := hT
    have hcur : s.cur = _ := hcur
    have hp : s.prev.ep = some e1 := hp
    have hN : s.next = some e := hN.1
    simp only [stepT] at hs
    rw [hN] at hs
    simp only at hs
    split at hs
    · have := ok_inj hs; subst this
      intro y hy
      rcases hy with hy | hy
      · have hy : s.cur.ep = some y := hy
        rw [hcur] at hy; cases hy
      · have hy : s.prev.ep = some y := hy
        have hye : y ≠ e := by
          intro hye
          rw [hp] at hy
          exact hne (hye.symm.trans (Option.some.inj hy).symm)
        show Fl A _ y (upd s.ehead e tl y)
        rw [upd_ne _ _ hye]
        exact (hD.str y (.inr hy)).mono rfl (fun _ h => h)
    · exact absurd hs (by simp)
  case ad12 e =>
    obtain ⟨e1, hT, _, _, heh, _⟩ : Core P s.sv (.D e tl) := hI.phase hi rfl
    have hN : s.next = some e := hT.2.2.2.2.1
    have heh : s.ehead e = tl := heh
    simp only [stepT] at hs
    have := ok_inj hs; subst this
    intro y hy
    rcases hy with hy | hy
    · have hy : s.next = some y := hy
      rw [hN] at hy; cases hy
      show Fl A _ e (s.ehead e)
      rw [heh]
      exact Fl.mono hd rfl (fun _ h => h)
    · exact (hD.str y (.inr hy)).mono rfl (fun _ h => h)
  case gaP3 k o =>
    simp only [stepT] at hs
    split at hs
    · rename_i h; exact key hs rfl rfl rfl (by rw [h])
    · exact key hs rfl rfl rfl rfl
  case gaC3 k o =>
    simp only [stepT] at hs
    split at hs
    · rename_i h; exact key hs rfl rfl (by rw [h]) rfl
    · exact key hs rfl rfl rfl rfl
  case ejP3 k o =>
    simp only [stepT] at hs
    split at hs
    · rename_i h; exact key hs rfl rfl rfl (by rw [h])
    · exact key hs rfl rfl rfl rfl
  case ejC3 k o =>
    simp only [stepT] at hs
    split at hs
    · rename_i h; exact key hs rfl rfl (by rw [h]) rfl
    · exact key hs rfl rfl rfl rfl
  all_goals
    simp only [stepT] at hs
    repeat' split at hs
  all_goals first
    | exact key hs rfl rfl rfl rfl
    | exact absurd hs (by simp)

/-- The slots: only the write of an append changes them. -/
theorem step_fresh (hD : Dat A P s) (hI : Inv P s) (hH : Hist P s) (hw : 0 < P.hwm) (hi : s.thr[i]? = some t)
    (hs : stepT P s i t c = .ok (some s')) :
    A → ∀ p r, (p, r) ∈ s'.done → ∃ q r', s'.mem (p % P.cap) = some (q, r') ∧ p ≤ q := by
  by_cases h3 : ∃ r x, t.pc = .ap3 r x
  · obtain ⟨r, x, h3⟩ := h3
    unfold stepT at hs
    rw [h3] at hs
    simp only at hs
    split at hs <;> (have := ok_inj hs; subst this; exact hD.fresh)
  · by_cases h5 : ∃ r p, t.pc = .ap5 r p
    · obtain ⟨r, p, h5⟩ := h5
      unfold stepT at hs
      rw [h5] at hs
      simp only at hs
      have := ok_inj hs; subst this
      intro hA
      obtain ⟨hcl, hnd⟩ := hH.pend i t r p hi h5
      have hhead : s.head.idx ≤ p := by
        by_contra hc
        obtain ⟨r', hr'⟩ := hD.settled hA p (by omega)
        exact hnd r' hr'
      have hb : s.tail ≤ s.head.idx + P.hwm := hI.bnd.2
      intro q r' hq
      show ∃ q' r'', upd s.mem (p % P.cap) (some (p, r)) (q % P.cap) = some (q', r'') ∧ q ≤ q'
      by_cases hm : q % P.cap = p % P.cap
      · rw [hm, upd_self]
        refine ⟨p, r, rfl, ?_⟩
        rcases List.mem_cons.mp hq with e | e
        · cases e; exact le_refl _
        · by_contra hc
          have h1 := mod_gap hm.symm (by omega : p < q)
          have h2 := hH.claimed_lt (hH.sub _ e)
          unfold Par.cap at h1
          omega
      · rw [upd_ne _ _ hm]
        rcases List.mem_cons.mp hq with e | e
        · cases e; exact absurd rfl hm
        · exact hD.fresh hA q r' e
    · push Not at h3 h5
      obtain ⟨_, _, a, b, _⟩ := step_frame hs h3 h5
      rw [a, b]; exact hD.fresh

theorem Dat.step (hD : Dat A P s) (hI : Inv P s) (hH : Hist P s) (hw : 0 < P.hwm) (hT : A → tidy s i)
    (hs : Conc.step P s i c = .ok (some s')) : Dat A P s' := by
  have hs0 := hs
  unfold Conc.step at hs
  split at hs
  case h_2 => cases hs
  rename_i t hi
  have hdn := step_done hs
  refine ⟨?_, step_fresh hD hI hH hw hi hs, step_str hD hI hi hs, ?_, ?_⟩
  · -- settled
    by_cases h10 : ∃ e o, t.pc = .ad10 e o
    · obtain ⟨e, o, h10⟩ := h10
      have hd := hD.locd i t hi
      unfold LocD at hd
      rw [h10] at hd
      have hset : A → ∀ p, p < t.tl → ∃ r, (p, r) ∈ s'.done := fun hA p hp =>
        (hd.2 hA p hp).elim fun r hr => ⟨r, hdn _ hr.2⟩
      unfold stepT at hs
      rw [h10] at hs
      simp only at hs
      split at hs
      · have := ok_inj hs; subst this; exact hset
      · have := ok_inj hs; subst this; exact hD.settled
    · push Not at h10
      rw [step_head hs h10]
      exact fun hA p hp => (hD.settled hA p hp).elim fun r hr => ⟨r, hdn _ hr⟩
  · -- jobs
    by_cases hsec : sect t = none
    · obtain ⟨a1, _, _, _, _, a6⟩ := step_out hs hsec
      have hh : s'.head.idx = s.head.idx := step_head hs (fun e o h => by unfold sect at hsec; rw [h] at hsec; cases hsec)
      intro e he
      rw [hh]
      exact (hD.jobs e (a6 e he)).mono (by rw [a1]) hdn
    · obtain ⟨ph, hph⟩ := Option.ne_none_iff_exists'.mp hsec
      have hj : s.jobs = [] := (hI.alone hi hph).2.1
      by_cases hcr : ∃ r, t.pc = .crS r
      · obtain ⟨r, hcr⟩ := hcr
        have hd := hD.locd i t hi
        unfold LocD at hd
        rw [hcr] at hd
        unfold stepT at hs
        rw [hcr] at hs
        simp only at hs
        split at hs
        · rename_i e he
          have := ok_inj hs; subst this
          intro x hx
          have hx : x ∈ s.jobs ++ [e] := hx
          rw [hj] at hx
          have hx : x = e := by simpa using hx
          subst hx
          exact Fl.mono (hd x he) rfl (fun _ h => h)
        · cases hs
      · push Not at hcr
        have hj' : s'.jobs = [] := by
          obtain ⟨pc, ep, hdx, tl⟩ := t
          have key : ∀ {a : St} {t' : Th}, (.ok (some (a.setT i t')) : Out) = .ok (some s') → a.jobs = [] → s'.jobs = [] := by
            intro a t' h a1
            have := ok_inj h; subst this
            exact a1
          cases pc
          case crS => exact absurd rfl (hcr _)
          case idle => exact absurd rfl hsec
          all_goals
            simp only [stepT] at hs
            repeat' split at hs
          all_goals first
            | exact key hs hj
            | exact absurd hs (by simp)
        intro x hx
        rw [hj'] at hx; cases hx
  · -- threads
    intro j u hu
    by_cases hj : j = i
    · subst hj
      obtain ⟨t', ht', hl⟩ := step_locd hD hI hH hT hi hs
      rw [ht'] at hu; cases hu; exact hl
    · have mono : ∀ w, s.thr[j]? = some w → LocD A s' w := by
        intro w hw
        by_cases hsec : sect t = none
        · obtain ⟨a1, a2, a3, _⟩ := step_out hs hsec
          have hh : s'.head.idx = s.head.idx := step_head hs (fun e o h => by unfold sect at hsec; rw [h] at hsec; cases hsec)
          exact (hD.locd j w hw).mono a1 hdn a3 hh a2
        · obtain ⟨ph, hph⟩ := Option.ne_none_iff_exists'.mp hsec
          exact LocD.of_sect ((hI.alone hi hph).2.2 j w hj hw)
      rcases step_others hs hj with e | e
      · exact mono u (e ▸ hu)
      · rw [e, Option.map_eq_some_iff] at hu
        obtain ⟨w, hw, rfl⟩ := hu
        exact (mono w hw).wake

theorem Dat.init (P : Par) (n : Nat) : Dat A P (init P n) := by
  refine ⟨fun _ p hp => absurd hp (Nat.not_lt_zero _), fun _ p r h => (List.not_mem_nil h).elim, ?_, fun e h => (List.not_mem_nil h).elim, ?_⟩
  · rintro e (h | h)
    · exact ⟨rfl, fun _ p hp => absurd hp (Nat.not_lt_zero _)⟩
    · cases h
  · intro j t ht
    rw [(List.mem_replicate.mp (List.mem_of_getElem? ht)).2]; trivial

theorem Reach.datW {n : Nat} {ok : St → Nat → Prop} (hw : 0 < P.hwm) (hT : A → ∀ s i, ok s i → tidy s i) (h : Reach P n ok s) :
    Dat A P s := by
  induction h with
  | init => exact Dat.init P n
  | step hr ht hs ih => exact ih.step (hr.inv hw) (hr.hist hw) hw (fun hA => hT hA _ _ ht) hs

/-- Executions whose flushes wait for the records they copy. -/
theorem Reach.dat {n : Nat} (hw : 0 < P.hwm) (h : Reach P n tidy s) : Dat True P s :=
  h.datW hw fun _ _ _ h => h

/-- Every execution: the part of the invariant about how many slots each version holds. -/
theorem Reach.len {n : Nat} {ok : St → Nat → Prop} (hw : 0 < P.hwm) (h : Reach P n ok s) : Dat False P s :=
  h.datW hw fun hF => hF.elim

end DE.Conc
