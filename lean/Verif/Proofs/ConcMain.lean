import Verif.Proofs.ConcStep

/-!
The invariant holds in every reachable state of the concurrent model.
-/

namespace DE.Conc
variable {P : Par} {s s' : St} {i : Nat} {ep hd : Option Nat} {tl : Nat} {c : Ch}

/-- Result of a successful step. -/
theorem ok_inj {a b : St} (h : (.ok (some a) : Out) = .ok (some b)) : a = b := Option.some.inj (Except.ok.inj h)

/-! ### Appending -/

theorem inv_idle (h : Inv P s) (hi : s.thr[i]? = some ⟨.idle, ep, hd, tl⟩)
    (hs : stepT P s i ⟨.idle, ep, hd, tl⟩ c = .ok (some s')) : Inv P s' := by
  have hf : Free (⟨.idle, ep, hd, tl⟩ : Th) := (h.thread hi).1
  simp only [stepT] at hs
  split at hs
  · cases hs; exact h.goFree hi hf hf rfl
  · cases hs; exact h.goFree hi hf ⟨hf, fun _ => by simp⟩ rfl
  · split at hs
    · rename_i e rest hj
      have := ok_inj hs; subst this
      -- taking a job: the token moves from the queue to the thread
      have hm := h.mutex
      unfold Mutex at hm
      have hcs := countP_set (fun t => (sect t).isSome) s.thr i _ (⟨.jb e, ep, hd, tl⟩ : Th) hi
      have e1 : (sect (⟨.idle, ep, hd, tl⟩ : Th)).isSome = false := rfl
      have e2 : (sect (⟨.jb e, ep, hd, tl⟩ : Th)).isSome = true := rfl
      simp only [e1, e2, Bool.false_eq_true, ite_false, ite_true, Nat.add_zero] at hcs
      have hv : ({ s with jobs := rest }.setT i ⟨.jb e, ep, hd, tl⟩).sv = s.sv :=
        sv_same (s := s) (s₂ := { s with jobs := rest }) hi rfl rfl rfl
      rw [hj] at hm
      simp only [List.length_cons] at hm
      have hflag : s.flag = true := by
        by_contra hf
        have hf : s.flag = false := by simpa using hf
        rw [hf] at hm; simp at hm
      rw [hflag] at hm
      simp only [ite_true] at hm
      have hr : rest = [] := List.length_eq_zero_iff.mp (by omega)
      refine ⟨?_, ?_, ?_, ?_⟩
      · show (s.thr.set i _).countP _ + rest.length = if s.flag then 1 else 0
        rw [hcs, hflag, hr]; simp only [ite_true, List.length_nil]; omega
      · intro u hu
        rw [hv]
        rcases mem_set_cases hu with rfl | ⟨j, hj, hju⟩
        · exact Loc.none hf hf.2
        · exact h.thread hju
      · intro ph hph
        rw [hv]
        rcases hph with ⟨hf', _⟩ | ⟨e', he', _⟩ | ⟨u, hu, hp⟩
        · have : s.flag = false := hf'
          rw [hflag] at this; cases this
        · have : e' ∈ rest := he'
          rw [hr] at this; cases this
        · rcases mem_set_cases hu with rfl | ⟨j, hj', hju⟩
          · cases hp
            exact h.core _ (.inr (.inl ⟨e, by rw [hj]; simp, rfl⟩))
          · have hpos : 0 < s.thr.countP (fun t => (sect t).isSome) :=
              List.countP_pos_iff.mpr ⟨u, List.mem_of_getElem? hju, by simp [hp]⟩
            omega
      · rw [hv]; exact h.bnd
    · cases hs
  · cases hs; exact h.goFree hi hf hf rfl
  · cases hs

theorem inv_ins {r : Nat} (h : Inv P s) (hi : s.thr[i]? = some ⟨.ins r, ep, hd, tl⟩)
    (hs : stepT P s i ⟨.ins r, ep, hd, tl⟩ c = .ok (some s')) : Inv P s' := by
  have hf : Free (⟨.ins r, ep, hd, tl⟩ : Th) := (h.thread hi).1
  simp only [stepT] at hs
  split at hs
  · cases hs; exact h.goFree hi hf hf rfl
  · cases hs; exact h.goFree hi hf hf rfl
  · cases hs

theorem inv_insT {r x : Nat} (h : Inv P s) (hi : s.thr[i]? = some ⟨.insT r x, ep, hd, tl⟩)
    (hs : stepT P s i ⟨.insT r x, ep, hd, tl⟩ c = .ok (some s')) : Inv P s' := by
  have hf : Free (⟨.insT r x, ep, hd, tl⟩ : Th) := (h.thread hi).1
  simp only [stepT] at hs
  split at hs
  · cases hs; exact h.goFree hi hf hf rfl
  · cases hs; exact h.goFree hi hf hf rfl

theorem inv_insH {r x : Nat} (h : Inv P s) (hi : s.thr[i]? = some ⟨.insH r x, ep, hd, tl⟩)
    (hs : stepT P s i ⟨.insH r x, ep, hd, tl⟩ c = .ok (some s')) : Inv P s' := by
  have hf : Free (⟨.insH r x, ep, hd, tl⟩ : Th) := (h.thread hi).1
  simp only [stepT] at hs
  split at hs
  · cases hs; exact h.goFree hi hf hf rfl
  · cases hs; exact h.goFree hi hf hf rfl

theorem inv_casF {r : Nat} (h : Inv P s) (hi : s.thr[i]? = some ⟨.casF r, ep, hd, tl⟩)
    (hs : stepT P s i ⟨.casF r, ep, hd, tl⟩ c = .ok (some s')) : Inv P s' := by
  have hf : Free (⟨.casF r, ep, hd, tl⟩ : Th) := (h.thread hi).1
  simp only [stepT] at hs
  split at hs
  · cases hs; exact h.goFree hi hf hf rfl
  · rename_i hflag
    have := ok_inj hs; subst this
    have hflag : s.flag = false := by simpa using hflag
    have hm := h.mutex
    unfold Mutex at hm
    rw [hflag] at hm
    simp only [Bool.false_eq_true, ite_false] at hm
    have hcs := countP_set (fun t => (sect t).isSome) s.thr i _ (⟨.crA r, ep, hd, tl⟩ : Th) hi
    have e1 : (sect (⟨.casF r, ep, hd, tl⟩ : Th)).isSome = false := rfl
    have e2 : (sect (⟨.crA r, ep, hd, tl⟩ : Th)).isSome = true := rfl
    simp only [e1, e2, Bool.false_eq_true, ite_false, ite_true, Nat.add_zero] at hcs
    have hv : ({ s with flag := true }.setT i ⟨.crA r, ep, hd, tl⟩).sv = s.sv :=
      sv_same (s := s) (s₂ := { s with flag := true }) hi rfl rfl rfl
    refine ⟨?_, ?_, ?_, ?_⟩
    · show (s.thr.set i _).countP _ + s.jobs.length = 1
      rw [hcs]; omega
    · intro u hu
      rw [hv]
      rcases mem_set_cases hu with rfl | ⟨j, hj, hju⟩
      · exact Loc.none hf hf.2
      · exact h.thread hju
    · intro ph hph
      rw [hv]
      rcases hph with ⟨hf', _⟩ | ⟨e', he', _⟩ | ⟨u, hu, hp⟩
      · cases hf'
      · have he' : e' ∈ s.jobs := he'
        have : s.jobs = [] := List.length_eq_zero_iff.mp (by omega)
        rw [this] at he'; cases he'
      · rcases mem_set_cases hu with rfl | ⟨j, hj', hju⟩
        · cases hp
          exact h.core _ (.inl ⟨hflag, rfl⟩)
        · have hpos : 0 < s.thr.countP (fun t => (sect t).isSome) :=
            List.countP_pos_iff.mpr ⟨u, List.mem_of_getElem? hju, by simp [hp]⟩
          omega
    · rw [hv]; exact h.bnd

theorem inv_ap1 {r : Nat} (h : Inv P s) (hi : s.thr[i]? = some ⟨.ap1 r, ep, hd, tl⟩)
    (hs : stepT P s i ⟨.ap1 r, ep, hd, tl⟩ c = .ok (some s')) : Inv P s' := by
  have hf : Free (⟨.ap1 r, ep, hd, tl⟩ : Th) := (h.thread hi).1
  simp only [stepT] at hs
  cases hs; exact h.goFree hi hf hf rfl

theorem inv_ap2 {r x : Nat} (h : Inv P s) (hi : s.thr[i]? = some ⟨.ap2 r x, ep, hd, tl⟩)
    (hs : stepT P s i ⟨.ap2 r x, ep, hd, tl⟩ c = .ok (some s')) : Inv P s' := by
  have hf : Free (⟨.ap2 r x, ep, hd, tl⟩ : Th) := (h.thread hi).1
  simp only [stepT] at hs
  split at hs
  · cases hs; exact h.goFree hi hf hf rfl
  · rename_i hx
    cases hs
    refine h.goFree hi hf ⟨hf, ?_⟩ rfl
    unfold subGe at hx
    split at hx
    · simp at hx
      show x < s.head.idx + P.hwm
      omega
    · simp at hx

theorem inv_ap3 {r x : Nat} (h : Inv P s) (hi : s.thr[i]? = some ⟨.ap3 r x, ep, hd, tl⟩)
    (hs : stepT P s i ⟨.ap3 r x, ep, hd, tl⟩ c = .ok (some s')) : Inv P s' := by
  obtain ⟨hf, hx⟩ : Free (⟨.ap3 r x, ep, hd, tl⟩ : Th) ∧ x < s.head.idx + P.hwm := (h.thread hi).1
  simp only [stepT] at hs
  split at hs
  · rename_i ht
    have := ok_inj hs; subst this
    have hb := h.bnd
    have hv : ({ s with tail := x + 1, claimed := (x, r) :: s.claimed }.setT i ⟨.ap5 r x, ep, hd, tl⟩).sv = { s.sv with tail := x + 1 } := by
      exact sv_set (s₂ := { s with tail := x + 1, claimed := (x, r) :: s.claimed }) hi rfl rfl
    have hle : s.tail ≤ x + 1 := by omega
    refine h.act hi rfl rfl rfl hv ⟨hle, le_refl _, fun _ _ => rfl, fun _ _ h => h, fun _ _ h => h⟩ ?_ ?_ rfl ?_
    · exact Loc.none ⟨hf, Nat.lt_succ_self x⟩ hf.2
    · exact ⟨le_trans hb.1 hle, hx⟩
    · intro ph _ hc; exact hc.claim hle
  · cases hs
    exact h.goFree hi hf ⟨hf, le_refl _⟩ rfl

theorem inv_ap4 {r x : Nat} (h : Inv P s) (hi : s.thr[i]? = some ⟨.ap4 r x, ep, hd, tl⟩)
    (hs : stepT P s i ⟨.ap4 r x, ep, hd, tl⟩ c = .ok (some s')) : Inv P s' := by
  obtain ⟨hf, hx⟩ : Free (⟨.ap4 r x, ep, hd, tl⟩ : Th) ∧ x ≤ s.tail := (h.thread hi).1
  simp only [stepT] at hs
  split at hs
  · cases hs; exact h.goFree hi hf hf rfl
  · cases hs
    refine h.goFree hi hf ⟨hf, ?_⟩ rfl
    show x < s.head.idx + P.hwm
    omega

theorem inv_ap5 {r p : Nat} (h : Inv P s) (hi : s.thr[i]? = some ⟨.ap5 r p, ep, hd, tl⟩)
    (hs : stepT P s i ⟨.ap5 r p, ep, hd, tl⟩ c = .ok (some s')) : Inv P s' := by
  obtain ⟨hf, hx⟩ : Free (⟨.ap5 r p, ep, hd, tl⟩ : Th) ∧ p < s.tail := (h.thread hi).1
  simp only [stepT] at hs
  have := ok_inj hs; subst this
  exact h.act hi rfl rfl rfl (sv_same (s := s) hi rfl rfl rfl) (.refl _) (Loc.none hf hf.2) h.bnd rfl (fun _ _ hc => hc)

/-! ### get_active_epoch -/

theorem inv_ga1 {k : K} (h : Inv P s) (hi : s.thr[i]? = some ⟨.ga1 k, ep, hd, tl⟩)
    (hs : stepT P s i ⟨.ga1 k, ep, hd, tl⟩ c = .ok (some s')) : Inv P s' := by
  obtain ⟨hf, hk⟩ : Free (⟨.ga1 k, ep, hd, tl⟩ : Th) ∧ ∀ e, k ≠ .job e := (h.thread hi).1
  simp only [stepT] at hs
  cases k with
  | job e => exact absurd rfl (hk e)
  | client =>
    split at hs
    · cases hs; exact h.goFree hi hf ⟨hf, rfl⟩ rfl
    · cases hs; exact h.goFree hi hf ⟨hf, hk⟩ rfl
  | create r =>
    split at hs
    · rename_i hn
      obtain ⟨⟨⟨e1, he, _⟩, _⟩, _⟩ : Core P s.sv .A := h.phase hi rfl
      have he : s.cur.ep = some e1 := he
      rw [hn] at he; cases he
    · cases hs; exact h.goFree hi hf ⟨hf, hk⟩ rfl

theorem inv_gaP2 {k : K} (h : Inv P s) (hi : s.thr[i]? = some ⟨.gaP2 k, ep, hd, tl⟩)
    (hs : stepT P s i ⟨.gaP2 k, ep, hd, tl⟩ c = .ok (some s')) : Inv P s' := by
  obtain ⟨hf, hk⟩ : Free (⟨.gaP2 k, ep, hd, tl⟩ : Th) ∧ k = .client := (h.thread hi).1
  subst hk
  simp only [stepT] at hs
  split at hs
  · cases hs; exact h.goFree hi hf ⟨hf, fun _ => by simp⟩ rfl
  · rename_i hn
    cases hs; exact h.goFree hi hf ⟨hf, rfl, hn⟩ rfl

theorem inv_gaC2 {k : K} (h : Inv P s) (hi : s.thr[i]? = some ⟨.gaC2 k, ep, hd, tl⟩)
    (hs : stepT P s i ⟨.gaC2 k, ep, hd, tl⟩ c = .ok (some s')) : Inv P s' := by
  obtain ⟨hf, hk⟩ : Free (⟨.gaC2 k, ep, hd, tl⟩ : Th) ∧ ∀ e, k ≠ .job e := (h.thread hi).1
  simp only [stepT] at hs
  cases k with
  | job e => exact absurd rfl (hk e)
  | client =>
    split at hs
    · cases hs; exact h.goFree hi hf ⟨hf, hk⟩ rfl
    · rename_i hn; cases hs; exact h.goFree hi hf ⟨hf, hk, hn⟩ rfl
  | create r =>
    split at hs
    · cases hs; exact h.goFree hi hf ⟨hf, hk⟩ rfl
    · rename_i hn; cases hs; exact h.goFree hi hf ⟨hf, hk, hn⟩ rfl

theorem inv_gaP3 {k : K} {o : EP} (h : Inv P s) (hi : s.thr[i]? = some ⟨.gaP3 k o, ep, hd, tl⟩)
    (hs : stepT P s i ⟨.gaP3 k o, ep, hd, tl⟩ c = .ok (some s')) : Inv P s' := by
  obtain ⟨hf, hk, ho⟩ : Free (⟨.gaP3 k o, ep, hd, tl⟩ : Th) ∧ k = .client ∧ o.ep ≠ none := (h.thread hi).1
  subst hk
  simp only [stepT] at hs
  split at hs
  · rename_i hp
    have := ok_inj hs; subst this
    obtain ⟨e, he⟩ := Option.ne_none_iff_exists'.mp ho
    subst hp
    rw [he]
    exact h.pinPrev hi hf.1 he rfl rfl rfl (fun n => Loc.none trivial hf.2)
  · cases hs; exact h.goFree hi hf ⟨hf, fun _ => by simp⟩ rfl

theorem inv_gaC3 {k : K} {o : EP} (h : Inv P s) (hi : s.thr[i]? = some ⟨.gaC3 k o, ep, hd, tl⟩)
    (hs : stepT P s i ⟨.gaC3 k o, ep, hd, tl⟩ c = .ok (some s')) : Inv P s' := by
  obtain ⟨hf, hk, ho⟩ : Free (⟨.gaC3 k o, ep, hd, tl⟩ : Th) ∧ (∀ e, k ≠ .job e) ∧ o.ep ≠ none := (h.thread hi).1
  simp only [stepT] at hs
  cases k with
  | job e => exact absurd rfl (hk e)
  | client =>
    split at hs
    · rename_i hp
      have := ok_inj hs; subst this
      obtain ⟨e, he⟩ := Option.ne_none_iff_exists'.mp ho
      subst hp
      rw [he]
      exact h.pinCur hi hf.1 he rfl rfl rfl (fun n => Loc.none trivial hf.2)
    · cases hs; exact h.goFree hi hf ⟨hf, hk⟩ rfl
  | create r =>
    split at hs
    · rename_i hp
      have := ok_inj hs; subst this
      obtain ⟨e, he⟩ := Option.ne_none_iff_exists'.mp ho
      subst hp
      rw [he]
      refine h.actPh hi rfl rfl rfl (sv_pinC (t' := ⟨.crC r, some e, hd, tl⟩) hi hf.1 rfl rfl _) .setCur (Loc.none ⟨by simp, hf.2⟩ hf.2) h.bnd (ph := .A)
        (ph' := .Cr e) rfl rfl ?_
      intro hc
      have hc' := hc.pinCur (e := e) he
      have : (⟨some e, s.cur.ref + 1⟩ : EP) = ⟨s.sv.cur.ep, s.sv.cur.ref + 1⟩ := by
        show _ = (⟨s.cur.ep, s.cur.ref + 1⟩ : EP); rw [he]
      rw [this]
      exact ⟨hc'.1, hc'.2, he⟩
    · cases hs; exact h.goFree hi hf ⟨hf, hk⟩ rfl

/-! ### create_new_epoch -/

theorem inv_crA {r : Nat} (h : Inv P s) (hi : s.thr[i]? = some ⟨.crA r, ep, hd, tl⟩)
    (hs : stepT P s i ⟨.crA r, ep, hd, tl⟩ c = .ok (some s')) : Inv P s' := by
  have hf : Free (⟨.crA r, ep, hd, tl⟩ : Th) := (h.thread hi).1
  simp only [stepT] at hs
  split at hs
  · cases hs; exact h.goFree hi hf ⟨hf, fun _ => by simp⟩ rfl
  · cases hs

theorem inv_crC {r : Nat} (h : Inv P s) (hi : s.thr[i]? = some ⟨.crC r, ep, hd, tl⟩)
    (hs : stepT P s i ⟨.crC r, ep, hd, tl⟩ c = .ok (some s')) : Inv P s' := by
  obtain ⟨he, hd0⟩ : ep ≠ none ∧ hd = none := (h.thread hi).1
  obtain ⟨e, rfl⟩ := Option.ne_none_iff_exists'.mp he
  simp only [stepT] at hs
  split at hs
  · have := ok_inj hs; subst this
    have hc0 : Core P s.sv (.Cr e) := h.phase hi rfl
    have hids : ∀ x, 0 < s.H x → x < s.nextId := fun x hx => (hc0.alive (v := s.sv) hx).2
    have hv : ({ s with next := some s.nextId, nextId := s.nextId + 1, ehead := upd s.ehead s.nextId (s.ehead e), estr := upd s.estr s.nextId (s.estr e), alive := upd s.alive s.nextId true }.setT i ⟨.ej1 (.create r), some e, hd, tl⟩).sv
        = { s.sv with next := some s.nextId, nextId := s.nextId + 1, ehead := upd s.ehead s.nextId (s.ehead e), alive := upd s.alive s.nextId true } := by
      exact sv_set (s₂ := { s with next := some s.nextId, nextId := s.nextId + 1, ehead := upd s.ehead s.nextId (s.ehead e), estr := upd s.estr s.nextId (s.estr e), alive := upd s.alive s.nextId true }) hi rfl rfl
    refine h.actPh hi rfl rfl rfl hv ⟨le_refl _, le_refl _, ?_, fun _ _ h => h, fun _ _ h => h⟩ (Loc.none ⟨by simp, .inr hd0, by simp⟩ hd0)
      h.bnd (ph := .Cr e) (ph' := .N) rfl rfl ?_
    · intro x hx
      exact upd_ne _ _ (ne_of_lt (hids x hx))
    · rintro ⟨⟨hE, hB, hL⟩, hn, hcur⟩
      have hne : ∀ {x : Nat}, x < s.nextId → upd s.ehead s.nextId (s.ehead e) x = s.ehead x := fun hx => upd_ne _ _ (ne_of_lt hx)
      have hal : ∀ {x : Nat}, s.alive x = true → upd s.alive s.nextId true x = true := by
        intro x hx
        by_cases y : x = s.nextId
        · subst y; exact upd_self _ _ _
        · rw [upd_ne _ _ y]; exact hx
      have hepl : (∀ x, s.cur.ep = some x → x < s.nextId) ∧ ∀ x, s.prev.ep = some x → x < s.nextId := by
        obtain ⟨e1, h1, _, hl1, hh⟩ := hE
        have h1 : s.cur.ep = some e1 := h1
        refine ⟨fun x hx => by rw [h1] at hx; cases hx; exact hl1, fun x hx => ?_⟩
        rcases hh with ⟨hp, _⟩ | ⟨e0, hp, _, _, hl0, _⟩
        · have hp : s.prev = ⟨none, 0⟩ := hp
          rw [hp] at hx; cases hx
        · have hp : s.prev.ep = some e0 := hp
          rw [hp] at hx; cases hx; exact hl0
      refine ⟨⟨?_, hB, ?_⟩, s.nextId, ⟨rfl, upd_self _ _ _, Nat.lt_succ_self _, ?_⟩, ?_, ?_, ?_⟩
      · obtain ⟨e1, h1, ha, hl, hh⟩ := hE
        refine ⟨e1, h1, hal ha, Nat.lt_succ_of_lt hl, ?_⟩
        rcases hh with hh | ⟨e0, h1, h2, h3, h4, h5⟩
        · exact .inl hh
        · exact .inr ⟨e0, h1, h2, hal h3, Nat.lt_succ_of_lt h4, h5⟩
      · refine ⟨fun x hx => ?_, fun x hx => ?_⟩
        · show upd s.ehead s.nextId (s.ehead e) x = _
          rw [hne (hepl.1 x hx)]; exact hL.1 x hx
        · show upd s.ehead s.nextId (s.ehead e) x = _ ∧ _
          rw [hne (hepl.2 x hx)]; exact hL.2 x hx
      · show s.H s.nextId = 0
        by_contra hx
        exact absurd (hids _ (Nat.pos_of_ne_zero hx)) (lt_irrefl _)
      · show upd s.ehead s.nextId (s.ehead e) s.nextId = _
        rw [upd_self]; exact hL.1 e hcur
      · intro hx; exact absurd (hepl.1 _ hx) (lt_irrefl _)
      · intro hx; exact absurd (hepl.2 _ hx) (lt_irrefl _)
  · cases hs

theorem inv_crS {r : Nat} (h : Inv P s) (hi : s.thr[i]? = some ⟨.crS r, ep, hd, tl⟩)
    (hs : stepT P s i ⟨.crS r, ep, hd, tl⟩ c = .ok (some s')) : Inv P s' := by
  have hf : Free (⟨.crS r, ep, hd, tl⟩ : Th) := (h.thread hi).1
  simp only [stepT] at hs
  split at hs
  · rename_i e he
    have := ok_inj hs; subst this
    have hc0 : Core P s.sv .N := h.phase hi rfl
    obtain ⟨hf0, hj0, ha⟩ := h.alone hi (ph := .N) rfl
    have hm := h.mutex
    unfold Mutex at hm
    rw [hf0, hj0] at hm
    simp only [ite_true, List.length_nil] at hm
    have hcs := countP_set (fun t => (sect t).isSome) s.thr i _ (⟨.ap1 r, ep, hd, tl⟩ : Th) hi
    have e1 : (sect (⟨.crS r, ep, hd, tl⟩ : Th)).isSome = true := rfl
    have e2 : (sect (⟨.ap1 r, ep, hd, tl⟩ : Th)).isSome = false := rfl
    simp only [e1, e2, Bool.false_eq_true, ite_false, ite_true, Nat.add_zero] at hcs
    have hv : ({ s with jobs := s.jobs ++ [e] }.setT i ⟨.ap1 r, ep, hd, tl⟩).sv = s.sv :=
      sv_same (s := s) (s₂ := { s with jobs := s.jobs ++ [e] }) hi rfl rfl rfl
    refine ⟨?_, ?_, ?_, ?_⟩
    · show (s.thr.set i _).countP _ + (s.jobs ++ [e]).length = if s.flag then 1 else 0
      rw [hj0, hf0]; simp only [List.nil_append, List.length_singleton, ite_true]; omega
    · intro u hu
      rw [hv]
      rcases mem_set_cases hu with rfl | ⟨j, hj, hju⟩
      · exact Loc.none hf hf.2
      · exact h.thread hju
    · intro ph hph
      rw [hv]
      rcases hph with ⟨hf', _⟩ | ⟨e', he', hp⟩ | ⟨u, hu, hp⟩
      · have : s.flag = false := hf'
        rw [hf0] at this; cases this
      · have he' : e' ∈ s.jobs ++ [e] := he'
        rw [hj0] at he'
        simp at he'
        subst he'; subst hp
        obtain ⟨hC, x, hN, h1, h2, h3⟩ := hc0
        have hx : s.next = some x := hN.1
        rw [he] at hx; cases hx
        exact ⟨hC, hN, h1, h2, h3⟩
      · rcases mem_set_cases hu with rfl | ⟨j, hj', hju⟩
        · cases hp
        · rw [ha j u hj' hju] at hp; cases hp
    · rw [hv]; exact h.bnd
  · cases hs

end DE.Conc
