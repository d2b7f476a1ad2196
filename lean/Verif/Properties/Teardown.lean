import Verif.Proofs.Owned
import Verif.Properties.Epochs
import Mathlib.Data.List.Perm.Subperm

/-!
C79: versions are freed exactly once; never more than three exist.
-/

namespace DE.Conc
variable {P : Par} {n : Nat} {s : St}

/-- C79, destruction: whatever was executed before, once no thread is inside an operation the destructor deletes every epoch (with its
structure) that is still allocated, each exactly once: no double free, no leak. -/
theorem C79_destroy (hw : 0 < P.hwm) (h : Reach P n any s) (hidle : ∀ t ∈ s.thr, t.pc = .idle) :
    ∃ s', destroy s = .ok s' ∧ ∀ e, s'.alive e = false := by
  have hdel : ∀ {u : St} {x : Nat}, u.alive x = true → delEpoch u (some x) = .ok { u with alive := upd u.alive x false } := by
    intro u x hx; simp [delEpoch, hx]
  have hv := h.inv hw
  have ho := h.owned hw
  have hnc : ∀ t ∈ s.thr, ∀ e, ¬ Carries t e := by
    intro t ht e hc
    have := hidle t ht
    rcases hc with ⟨x, hx⟩ | ⟨x, c, hx, -⟩ <;> (rw [this] at hx; cases hx)
  have hcs : ∀ t ∈ s.thr, (sect t).isSome = false := by
    intro t ht
    unfold sect
    rw [hidle t ht]; rfl
  have hm := hv.mutex
  unfold Mutex at hm
  rw [List.countP_eq_zero.mpr (fun t ht => by rw [hcs t ht]; simp), Nat.zero_add] at hm
  -- current and previous epoch
  have hE : EpS s.sv s.prev s.cur ∧ (s.next = none ∨ ∃ e, Nx s.sv e ∧ s.cur.ep ≠ some e ∧ s.prev.ep ≠ some e) := by
    by_cases hf : s.flag = true
    · rw [if_pos hf] at hm
      match hj : s.jobs with
      | [] => rw [hj] at hm; simp at hm
      | e :: l =>
        have := hv.core (.A1 e) (.inr (.inl ⟨e, by rw [hj]; simp, rfl⟩))
        exact ⟨this.1.1, .inr ⟨e, this.2.1, this.2.2.2.1, this.2.2.2.2⟩⟩
    · have := hv.core .A (.inl ⟨by simpa using hf, rfl⟩)
      exact ⟨this.1.1, .inl this.2⟩
  obtain ⟨⟨e1, hc, ha, -, hp⟩, hn⟩ := hE
  have ha : s.alive e1 = true := ha
  have hown : ∀ e, s.alive e = true → s.cur.ep = some e ∨ s.prev.ep = some e ∨ s.next = some e := by
    intro e he
    rcases ho e he with h | h | h | ⟨t, ht, h⟩
    · exact .inl h
    · exact .inr (.inl h)
    · exact .inr (.inr h)
    · exact absurd h (hnc t ht e)
  -- the epoch after the next one was deleted
  obtain ⟨s1, h1, h1c, h1p, h1a, h1n⟩ : ∃ s1, delEpoch s s.next = .ok s1 ∧ s1.cur = s.cur ∧ s1.prev = s.prev ∧
      (∀ e, s.cur.ep = some e ∨ s.prev.ep = some e → s1.alive e = s.alive e) ∧
      (∀ e, s1.alive e = true → s.cur.ep = some e ∨ s.prev.ep = some e) := by
    rcases hn with hn | ⟨e, ⟨hn, hna, -⟩, hnc, hnp⟩
    · refine ⟨s, by rw [hn]; rfl, rfl, rfl, fun _ _ => rfl, ?_⟩
      intro e he
      rcases hown e he with h | h | h
      · exact .inl h
      · exact .inr h
      · rw [hn] at h; cases h
    · have hn : s.next = some e := hn
      have hna : s.alive e = true := hna
      refine ⟨{ s with alive := upd s.alive e false }, (congrArg (delEpoch s) hn).trans (hdel hna), rfl, rfl, ?_, ?_⟩
      · intro y hy
        have : y ≠ e := by rintro rfl; rcases hy with h | h; exacts [hnc h, hnp h]
        simp [upd, this]
      · intro y hy
        by_cases hye : y = e
        · subst hye; simp [upd] at hy
        · have hy : s.alive y = true := by simpa [upd, hye] using hy
          rcases hown y hy with h | h | h
          · exact .inl h
          · exact .inr h
          · rw [hn] at h; cases h; exact absurd rfl hye
  have h1e : s1.alive e1 = true := (h1a e1 (.inl hc)).trans ha
  have h2 : delEpoch s1 s1.cur.ep = .ok { s1 with alive := upd s1.alive e1 false } := by
    exact (congrArg (delEpoch s1) ((congrArg EP.ep h1c).trans hc)).trans (hdel h1e)
  rcases hp with ⟨hp, -⟩ | ⟨e0, hp, hne, ha0, -⟩
  · refine ⟨_, by unfold destroy; simp only [h1, h2, bind, Except.bind]; show delEpoch _ s1.prev.ep = _; rw [h1p, hp]; rfl, ?_⟩
    intro e
    by_cases hee : e = e1
    · simp [upd, hee]
    · by_contra hx
      have hx : s1.alive e = true := by simpa [upd, hee] using hx
      rcases h1n e hx with h | h
      · rw [hc] at h; cases h; exact hee rfl
      · rw [hp] at h; cases h
  · have ha0 : s.alive e0 = true := ha0
    have h3 : s1.alive e0 = true := (h1a e0 (.inr hp)).trans ha0
    refine ⟨{ s1 with alive := upd (upd s1.alive e1 false) e0 false }, ?_, ?_⟩
    · unfold destroy
      simp only [h1, h2, bind, Except.bind]
      show delEpoch _ s1.prev.ep = _
      rw [h1p, hp]
      simp [delEpoch, upd, hne, h3]
    · intro e
      by_cases hee : e = e1
      · simp [upd, hee]
      · by_cases hee0 : e = e0
        · simp [upd, hee0]
        · by_contra hx
          have hx : s1.alive e = true := by simpa [upd, hee, hee0] using hx
          rcases h1n e hx with h | h
          · rw [hc] at h; cases h; exact hee rfl
          · rw [hp] at h; cases h; exact hee0 rfl

/-- C79, bound: at no moment of any execution are more than three epochs (versions of the index) allocated. -/
theorem C79_three (hw : 0 < P.hwm) (h : Reach P n any s) {l : List Nat} (hnd : l.Nodup) (hl : ∀ e ∈ l, s.alive e = true) : l.length ≤ 3 := by
  have hv := h.inv hw
  have ho := h.owned hw
  have main : ∃ a b c : Option Nat, ∀ e, s.alive e = true → some e = a ∨ some e = b ∨ some e = c := by
    by_cases hcar : ∃ t ∈ s.thr, ∃ e, Carries t e
    · obtain ⟨t, ht, x, hx⟩ := hcar
      have huniq : ∀ u ∈ s.thr, ∀ y, Carries u y → u = t := by
        intro u hu y hy
        have hsc : ∀ {w : Th} {z : Nat}, Carries w z → (sect w).isSome = true := by
          intro w z hw
          rcases hw with ⟨q, hq⟩ | ⟨q, c, hq, -⟩ <;> (unfold sect; rw [hq]; rfl)
        have hm := hv.mutex
        unfold Mutex at hm
        have h1 : s.thr.countP (fun t => (sect t).isSome) ≤ 1 := by split at hm <;> omega
        rw [List.countP_eq_length_filter] at h1
        have m1 : u ∈ s.thr.filter (fun t => (sect t).isSome) := List.mem_filter.mpr ⟨hu, hsc hy⟩
        have m2 : t ∈ s.thr.filter (fun t => (sect t).isSome) := List.mem_filter.mpr ⟨ht, hsc hx⟩
        match hf : s.thr.filter (fun t => (sect t).isSome), h1 with
        | [], _ => rw [hf] at m1; cases m1
        | [z], _ => rw [hf, List.mem_singleton] at m1 m2; rw [m1, m2]
      obtain ⟨i, hi⟩ := List.mem_iff_getElem?.mp ht
      refine ⟨s.cur.ep, some x, s.next, fun e he => ?_⟩
      have hprev : s.prev.ep = none := by
        rcases hx with ⟨q, hq⟩ | ⟨q, c, hq, -⟩
        · have : Core P s.sv (.R q (some x)) := hv.phase hi (by unfold sect; rw [hq])
          have h5 : s.prev = ⟨none, 0⟩ := this.2.2.2.2.1
          rw [h5]
        · have : Core P s.sv (.B q c) := hv.phase hi (by unfold sect; rw [hq])
          have h5 : s.prev = ⟨none, 0⟩ := this.2.1
          rw [h5]
      rcases ho e he with h | h | h | ⟨u, hu, h⟩
      · exact .inl h.symm
      · rw [hprev] at h; cases h
      · exact .inr (.inr h.symm)
      · have := huniq u hu e h; subst this
        have : e = x := by
          rcases hx with ⟨q, hq⟩ | ⟨q, c, hq, hq2⟩ <;> rcases h with ⟨r, hr⟩ | ⟨r, d, hr, hr2⟩
          · rw [hq] at hr; cases hr; rfl
          · rw [hq] at hr; cases hr
          · rw [hq] at hr; cases hr
          · rw [hq] at hr; cases hr; rw [hq2] at hr2; cases hr2; rfl
        exact .inr (.inl (by rw [this]))
    · refine ⟨s.cur.ep, s.prev.ep, s.next, fun e he => ?_⟩
      rcases ho e he with h | h | h | ⟨u, hu, h⟩
      · exact .inl h.symm
      · exact .inr (.inl h.symm)
      · exact .inr (.inr h.symm)
      · exact absurd ⟨u, hu, e, h⟩ hcar
  obtain ⟨a, b, c, habc⟩ := main
  have hsub : (l.map some).Subperm [a, b, c] := by
    refine (hnd.map (Option.some_injective _)).subperm ?_
    intro y hy
    obtain ⟨e, he, rfl⟩ := List.mem_map.mp hy
    simpa using habc e (hl e he)
  have := hsub.length_le
  simpa using this

/-- How a step changes the set of allocated epochs. -/
theorem stepT_alive {i : Nat} {t : Th} {c : Ch} {s' : St} (hs : stepT P s i t c = .ok (some s')) :
    (s'.alive = s.alive ∧ s'.nextId = s.nextId) ∨ (s'.alive = upd s.alive s.nextId true ∧ s'.nextId = s.nextId + 1) ∨
      ∃ e x, t.pc = .rt3 e x ∧ s'.alive = upd s.alive x false ∧ s'.nextId = s.nextId := by
  obtain ⟨pc, ep, hd, tl⟩ := t
  cases pc
  case rt3 e x =>
    simp only [stepT] at hs
    split at hs <;> cases hs
    exact .inr (.inr ⟨e, x, rfl, rfl, rfl⟩)
  case crC r =>
    simp only [stepT] at hs
    split at hs
    · split at hs <;> cases hs
      exact .inr (.inl ⟨rfl, rfl⟩)
    · cases hs
  all_goals
    simp only [stepT] at hs
    repeat' split at hs
    all_goals first | cases hs; done | (cases hs; exact .inl ⟨rfl, rfl⟩)

/-- C79, deletion while running: when a reconstruction deletes the epoch it has retired, that epoch is allocated (it was never deleted
before), no thread holds it, it is neither the current, the previous nor the next epoch, and afterwards it is deallocated. -/
theorem C79_delete (hw : 0 < P.hwm) (h : Reach P n any s) {i e x : Nat} {t : Th} (hi : s.thr[i]? = some t) (ht : t.pc = .rt3 e x) (c : Ch) :
    s.alive x = true ∧ (∀ u ∈ s.thr, u.ep ≠ some x) ∧ s.cur.ep ≠ some x ∧ s.prev.ep ≠ some x ∧ s.next ≠ some x ∧
      ∃ s', Conc.step P s i c = .ok (some s') ∧ s'.alive x = false := by
  have hv := h.inv hw
  obtain ⟨-, hN, -, -, hp, hx⟩ : Core P s.sv (.R e (some x)) := hv.phase hi (by unfold sect; rw [ht])
  obtain ⟨hxe, hxc, hxH, hxa⟩ := hx x rfl
  have hxa : s.alive x = true := hxa
  have hxH : s.H x = 0 := hxH
  have hp : s.prev = ⟨none, 0⟩ := hp
  have hn : s.next = some e := hN.1
  refine ⟨hxa, fun u hu he => ?_, hxc, by rw [hp]; simp, by rw [hn]; exact fun h => hxe (Option.some.inj h).symm, ?_⟩
  · obtain ⟨j, hj⟩ := List.mem_iff_getElem?.mp hu
    have := H_pos hj he
    omega
  · obtain ⟨pc, ep, hd, tl⟩ := t
    subst ht
    refine ⟨_, by unfold Conc.step; rw [hi]; simp only [stepT, hxa, if_true]; rfl, ?_⟩
    show upd s.alive x false x = false
    simp [upd]

/-- C79, once: an epoch that was deleted stays deleted (its number is never given to a new epoch), so with `C79_delete` none is deleted
twice; and only the deletion step of a reconstruction deallocates an epoch. -/
theorem C79_once {i : Nat} {c : Ch} {s' : St} (hs : Conc.step P s i c = .ok (some s')) {e : Nat} :
    (e < s.nextId → s.alive e = false → s'.alive e = false ∧ e < s'.nextId) ∧
    (s.alive e = true → s'.alive e = false → ∃ t x, s.thr[i]? = some t ∧ t.pc = .rt3 x e) ∧
    (s.alive e = false → s'.alive e = true → e = s.nextId ∧ s'.nextId = s.nextId + 1) := by
  unfold Conc.step at hs
  split at hs
  case h_2 => cases hs
  rename_i t hi
  rcases stepT_alive hs with ⟨h1, h2⟩ | ⟨h1, h2⟩ | ⟨a, x, hp, h1, h2⟩
  · rw [h1, h2]
    exact ⟨fun h0 h => ⟨h, h0⟩, (fun h h' => by rw [h] at h'; cases h'), (fun h h' => by rw [h] at h'; cases h')⟩
  · rw [h1, h2]
    refine ⟨fun h0 h => ⟨?_, by omega⟩, fun h h' => ?_, fun h h' => ⟨?_, rfl⟩⟩
    · rw [upd_ne _ _ (by omega)]; exact h
    · by_cases he : e = s.nextId
      · subst he; simp [upd] at h'
      · rw [upd_ne _ _ he, h] at h'; cases h'
    · by_contra he
      rw [upd_ne _ _ he, h] at h'; cases h'
  · rw [h1, h2]
    refine ⟨fun h0 h => ⟨?_, h0⟩, fun h h' => ?_, fun h h' => ?_⟩
    · by_cases he : e = x
      · subst he; simp [upd]
      · rw [upd_ne _ _ he]; exact h
    · by_cases he : e = x
      · subst he; exact ⟨t, a, hi, hp⟩
      · rw [upd_ne _ _ he, h] at h'; cases h'
    · by_cases he : e = x
      · subst he; simp [upd] at h'
      · rw [upd_ne _ _ he, h] at h'; cases h'

/-- The hypotheses of `C79_delete`: the second reconstruction is about to delete epoch 0. -/
example : ∃ s, Reach P12 4 any s ∧ (∃ t, s.thr[2]? = some t ∧ t.pc = .rt3 2 0) ∧ s.alive 0 = true := by
  obtain ⟨s, h1, h2⟩ := reach_of (P := P12) (n := 4) anyB (ok := any) (fun _ _ _ => trivial)
    (insLow 0 11 ++ insSched 0 10 ++ job1 2 2 ++ insLow 0 12 ++ insSched 0 13 ++ (job2 2 2).take 16)
    (fun s : St => (match s.thr[2]? with | some t => (match t.pc with | .rt3 2 0 => true | _ => false) | none => false) && s.alive 0) (by decide)
  rw [Bool.and_eq_true] at h2
  refine ⟨s, h1, ?_, h2.2⟩
  have := h2.1
  split at this
  · rename_i t ht
    refine ⟨t, ht, ?_⟩
    revert this
    split <;> simp_all
  · cases this

/-- The hypotheses of `C79_destroy`, with a previous epoch, a current one and a scheduled reconstruction, epoch 0 already retired; and of
`C79_three`, with three live epochs. -/
example : ∃ s, Reach P12 4 any s ∧ (∀ t ∈ s.thr, t.pc = .idle) ∧ s.prev.ep = some 1 ∧ s.cur.ep = some 2 ∧ s.next = some 3 ∧
    s.alive 0 = false ∧ s.alive 1 = true ∧ s.alive 2 = true ∧ s.alive 3 = true := by
  obtain ⟨s, h1, h2⟩ := reach_of (P := P12) (n := 4) anyB (ok := any) (fun _ _ _ => trivial)
    (insLow 0 11 ++ insSched 0 10 ++ job1 2 2 ++ insLow 0 12 ++ insSched 0 13 ++ job2 2 2 ++ insLow 0 14 ++ insSched 0 15)
    (fun s : St => (s.thr.all fun t : Th => match t.pc with | .idle => true | _ => false) && decide (s.prev.ep = some 1 ∧ s.cur.ep = some 2 ∧
      s.next = some 3 ∧ s.alive 0 = false ∧ s.alive 1 = true ∧ s.alive 2 = true ∧ s.alive 3 = true)) (by decide)
  rw [Bool.and_eq_true, decide_eq_true_eq, List.all_eq_true] at h2
  refine ⟨s, h1, fun t ht => ?_, h2.2⟩
  have := h2.1 t ht
  revert this
  cases t.pc <;> simp

end DE.Conc
