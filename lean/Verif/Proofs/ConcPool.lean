import Verif.Proofs.ConcRest

/-!
Executions in which queries and reconstructions run on one thread of the scheduler: the counts of epochs and heads are exact.
-/

set_option linter.unreachableTactic false
set_option linter.unusedTactic false
set_option linter.unusedSimpArgs false

namespace DE.Conc
variable {P : Par} {n w : Nat} {s s' : St} {i : Nat} {t : Th} {c : Ch}

/-- Thread `i` is idle and about to start a query or a reconstruction. -/
def Starts (s : St) (i : Nat) (c : Ch) : Prop := (∃ t, s.thr[i]? = some t ∧ t.pc = .idle) ∧ (c = .query ∨ c = .work)

/-- The executions in which all queries and reconstructions run on thread `w`, the only worker of the scheduler
(FIFOScheduler.h 38-45, 107-125 with `thread_cnt = 1`). All other threads insert and await epochs. -/
inductive Pool (P : Par) (n w : Nat) : St → Prop
  | init : Pool P n w (init P n)
  | step {s s' : St} {i : Nat} {c : Ch} : Pool P n w s → (Starts s i c → i = w) → Conc.step P s i c = .ok (some s') → Pool P n w s'

theorem Pool.reach (h : Pool P n w s) : Reach P n any s := by
  induction h with
  | init => exact .init
  | step _ _ hs ih => exact ih.step trivial hs

/-- In a query or in a reconstruction. -/
def onPool : PC → Bool
  | .ga1 k | .gaP2 k | .gaP3 k _ | .gaC2 k | .gaC3 k _ | .ej1 k | .ejP2 k | .ejP3 k _ | .ejC2 k | .ejC3 k _ =>
    match k with | .create _ => false | _ => true
  | .run | .gh1 _ _ | .ghO2 _ _ | .ghO3 _ _ _ | .ghB _ _ | .ghH2 _ _ | .ghH3 _ _ _ | .gt _ => true
  | .rl1 _ | .rlO2 _ | .rlO3 _ _ | .rlH2 _ | .rlH3 _ _ | .jb _ | .cp _ _ _ => true
  | .ad1 _ | .rt1 _ _ | .rt2 _ _ _ | .rt3 _ _ | .ad3 _ | .ad4 _ _ | .ad5 _ _ | .ad6 _ | .ad7 _ | .ad8 _ | .ad9 _ | .ad10 _ _ => true
  | .ad11 _ _ | .ad12 _ | .ad13 | .ad14 | .ad15 | .ad16 | .ad17 => true
  | _ => false

/-- In a branch that works on the previous epoch or on the old head. -/
def detour : PC → Bool
  | .gaP2 _ | .gaP3 _ _ | .ejP2 _ | .ejP3 _ _ | .ghO2 _ _ | .ghO3 _ _ _ | .rlO2 _ | .rlO3 _ _ => true
  | _ => false

/-- What is known about a thread: it is on the worker, or in no query and no reconstruction; what it has pinned is current. -/
structure One (w : Nat) (ce : Option Nat) (hd : Nat) (j : Nat) (u : Th) : Prop where
  pool : j = w ∨ onPool u.pc = false
  ep : ∀ e, u.ep = some e → ce = some e
  hd : ∀ h, u.hd = some h → hd = h
  str : detour u.pc = false

/-- The invariant of the executions with one worker. -/
structure OW (w : Nat) (s : St) : Prop where
  prev : s.prev.ref = 0
  old : s.old.ref = 0
  thr : ∀ (j : Nat) (u : Th), s.thr[j]? = some u → One w s.cur.ep s.head.idx j u

theorem One.wake {ce : Option Nat} {hd j : Nat} {u : Th} (h : One w ce hd j u) : One w ce hd j (wake u) := by
  unfold Conc.wake
  split
  · exact ⟨.inr rfl, h.ep, h.hd, rfl⟩
  · exact h

/-- The phases outside the critical part of a transition. -/
def Ph.calm : Ph → Bool
  | .B _ _ | .C _ _ _ | .W _ _ _ | .D _ _ => false
  | _ => true

theorem Core.calm {ph : Ph} (h : ph.calm = true) (hc : Core P s.sv ph) : Calm P s.sv := by
  cases ph <;> first | exact hc.1 | cases h

theorem sect_pool {u : Th} {ph : Ph} (h : sect u = some ph) (hp : onPool u.pc = false) : ph.calm = true := by
  obtain ⟨pc, ep, hd, tl⟩ := u
  cases pc <;> simp [sect] at h <;> try (subst h; rfl)
  all_goals first
    | cases hp
    | (rename_i k; cases k <;> simp [onPool] at hp h <;> (subst h; rfl))
    | (rename_i k _; cases k <;> simp [onPool] at hp h <;> (subst h; rfl))
    | (rename_i k _ _; cases k <;> simp [onPool] at hp h <;> (subst h; rfl))

/-- While the worker is in a query or in the quiet part of a reconstruction, or another thread prepares a reconstruction, no
transition is going on. -/
theorem OW.calm (h : OW w s) (hI : Inv P s) (hi : s.thr[i]? = some t) (hp : i = w ∨ sect t ≠ none)
    (hc : ∀ ph, sect t = some ph → ph.calm = true) : Calm P s.sv := by
  obtain ⟨ph, hph⟩ := hI.some_phase
  have hcore := hI.core ph hph
  rcases hph with ⟨-, rfl⟩ | ⟨e, -, rfl⟩ | ⟨u, hu, hx⟩
  · exact hcore.1
  · exact hcore.1
  · obtain ⟨j, hj⟩ := List.getElem?_of_mem hu
    by_cases hij : i = j
    · subst hij; rw [hi] at hj; cases hj
      exact hcore.calm (hc ph hx)
    · have hn := (hI.alone hj hx).2.2 i t hij hi
      rcases hp with rfl | hp
      · exact hcore.calm (sect_pool hx ((h.thr j u hj).pool.resolve_left (Ne.symm hij)))
      · exact absurd hn hp

/-- While the worker runs a reconstruction, no other thread has pinned anything. -/
theorem OW.free (h : OW w s) (hI : Inv P s) (hi : s.thr[i]? = some t) (hp : sect t ≠ none) (ho : onPool t.pc = true) :
    ∀ (j : Nat) (u : Th), j ≠ i → s.thr[j]? = some u → Free u := by
  have hw : i = w := (h.thr i t hi).pool.resolve_right (by rw [ho]; simp)
  subst hw
  obtain ⟨ph, hp⟩ := Option.ne_none_iff_exists'.mp hp
  intro j u hj hu
  have hn := (hI.alone hi hp).2.2 j u hj hu
  have hq := (h.thr j u hu).pool.resolve_left hj
  have hl := (hI.thread hu).1
  obtain ⟨pc, ep, hd, tl⟩ := u
  cases pc <;> first
    | exact hl
    | exact hl.1
    | (exfalso; cases hn; done)
    | (exfalso; cases hq; done)
    | (rename_i k; cases k <;> first | (exfalso; cases hn; done) | (exfalso; cases hq; done))
    | (rename_i k _; cases k <;> first | (exfalso; cases hn; done) | (exfalso; cases hq; done))

theorem One.go {ce : Option Nat} {hd : Nat} (h : One w ce hd i t) {pc : PC} (h1 : i = w ∨ onPool pc = false)
    (h2 : detour pc = false) : One w ce hd i { t with pc := pc } := ⟨h1, h.ep, h.hd, h2⟩

set_option maxHeartbeats 800000 in
theorem OW.step (h : OW w s) (hG : Good P s) (hc : Starts s i c → i = w) (hs : Conc.step P s i c = .ok (some s')) : OW w s' := by
  have hI := hG.inv
  unfold Conc.step at hs
  split at hs
  case h_2 => cases hs
  rename_i t hi
  have hlen := (List.getElem?_eq_some_iff.mp hi).1
  have ho := h.thr i t hi
  have hl := (hI.thread hi).1
  have hj := hG.hist.locj i t hi
  have key : ∀ {a : St} {t' : Th}, (.ok (some (a.setT i t')) : Out) = .ok (some s') → a.thr = s.thr → a.prev.ref = 0 → a.old.ref = 0 →
      a.cur.ep = s.cur.ep → a.head.idx = s.head.idx → One w s.cur.ep s.head.idx i t' → OW w s' := by
    intro a t' e a1 a2 a3 a4 a5 a6
    have := ok_inj e; subst this
    refine ⟨a2, a3, fun j u hu => ?_⟩
    show One w a.cur.ep a.head.idx j u
    rw [a4, a5]
    have hu : (a.thr.set i t')[j]? = some u := hu
    rw [a1, List.getElem?_set] at hu
    by_cases hx : i = j
    · subst hx; simp [hlen] at hu; subst hu; exact a6
    · simp [hx] at hu; exact h.thr j u hu
  have keyF : ∀ {a : St} {t' : Th}, (.ok (some (a.setT i t')) : Out) = .ok (some s') → a.thr = s.thr → a.prev.ref = 0 → a.old.ref = 0 →
      (sect t ≠ none ∧ onPool t.pc = true) → (t'.ep = none ∧ t'.hd = none ∧ detour t'.pc = false) → OW w s' := by
    intro a t' e a1 a2 a3 a4 a5
    have hf := h.free hI hi a4.1 a4.2
    have hw : i = w := ho.pool.resolve_right (by rw [a4.2]; simp)
    have := ok_inj e; subst this
    refine ⟨a2, a3, fun j u hu => ?_⟩
    have hu : (a.thr.set i t')[j]? = some u := hu
    rw [a1, List.getElem?_set] at hu
    by_cases hx : i = j
    · subst hx; simp [hlen] at hu; subst hu
      exact ⟨.inl hw, fun e he => (by rw [a5.1] at he; cases he), fun e he => (by rw [a5.2.1] at he; cases he), a5.2.2⟩
    · simp [hx] at hu
      have hu' := hf j u (Ne.symm hx) hu
      have ho := h.thr j u hu
      exact ⟨ho.pool, fun e he => (by rw [hu'.1] at he; cases he), fun e he => (by rw [hu'.2] at he; cases he), ho.str⟩
  have zero : sect t ≠ none → onPool t.pc = true → Free t → (∀ e, s.H e = 0) ∧ ∀ x, s.V x = 0 := by
    intro a1 a2 a3
    have hf := h.free hI hi a1 a2
    have all : ∀ u ∈ s.thr, Free u := by
      intro u hu
      obtain ⟨j, hj⟩ := List.getElem?_of_mem hu
      by_cases hx : j = i
      · subst hx; rw [hi] at hj; cases hj; exact a3
      · exact hf j u hx hj
    exact ⟨fun e => List.countP_eq_zero.mpr (fun u hu => by simp [(all u hu).1]),
      fun e => List.countP_eq_zero.mpr (fun u hu => by simp [(all u hu).2])⟩
  obtain ⟨pc, ep, hd, tl⟩ := t
  have calm : (onPool pc = true ∨ sect ⟨pc, ep, hd, tl⟩ ≠ none) →
      (∀ ph, sect ⟨pc, ep, hd, tl⟩ = some ph → ph.calm = true) → Calm P s.sv := fun hp hq =>
    h.calm hI hi (hp.imp (fun hp => ho.pool.resolve_right (by rw [hp]; simp)) id) hq
  have pool : onPool pc = true → i = w := fun hp => ho.pool.resolve_right (by rw [hp]; simp)
  cases pc
  case idle =>
    simp only [stepT] at hs
    repeat' split at hs
    all_goals first
      | (exfalso; cases hs; done)
      | exact key hs rfl h.prev h.old rfl rfl (ho.go (.inr rfl) rfl)
      | exact key hs rfl h.prev h.old rfl rfl (ho.go (.inl (hc ⟨⟨_, hi, rfl⟩, .inl rfl⟩)) rfl)
      | exact key hs rfl h.prev h.old rfl rfl (ho.go (.inl (hc ⟨⟨_, hi, rfl⟩, .inr rfl⟩)) rfl)
  case ga1 k =>
    simp only [stepT] at hs
    have hcalm := calm (by cases k <;> simp [onPool, sect]) (by intro ph hx; cases k <;> simp [sect] at hx; subst hx; rfl)
    obtain ⟨⟨e1, hcur, -⟩, -⟩ := hcalm
    have hcur : s.cur.ep = some e1 := hcur
    simp only [hcur, reduceCtorEq, if_false] at hs
    exact key hs rfl h.prev h.old rfl rfl (ho.go ho.pool rfl)
  case gaC2 k =>
    simp only [stepT] at hs
    split at hs <;> exact key hs rfl h.prev h.old rfl rfl (ho.go ho.pool rfl)
  case gaC3 k o =>
    simp only [stepT] at hs
    split at hs
    · rename_i hx
      refine key hs rfl h.prev h.old (by rw [hx]) rfl ⟨?_, ?_, ho.hd, ?_⟩
      · cases k
        · exact .inr rfl
        · exact .inl (pool rfl)
        · exact .inl (pool rfl)
      · intro e he; rw [hx]; exact he
      · cases k <;> rfl
    · exact key hs rfl h.prev h.old rfl rfl (ho.go ho.pool rfl)
  case ej1 k =>
    simp only [stepT] at hs
    have hcalm := calm (by cases k <;> simp [onPool, sect]) (by intro ph hx; cases k <;> simp [sect] at hx; subst hx; rfl)
    have hne : s.prev.ep ≠ ep := by
      obtain ⟨e, he⟩ := Option.ne_none_iff_exists'.mp (show ep ≠ none from hl.1)
      have h1 := ho.ep e he
      obtain ⟨⟨e1, hcur, -, -, hE⟩, -⟩ := hcalm
      have hcur : s.cur.ep = some e1 := hcur
      rw [h1] at hcur; cases hcur
      rw [he]
      rcases hE with ⟨hE, -⟩ | ⟨e0, hE, h0, -⟩
      · have hE : s.prev = ⟨none, 0⟩ := hE
        rw [hE]; simp
      · have hE : s.prev.ep = some e0 := hE
        rw [hE]; simpa using h0
    rw [if_neg hne] at hs
    exact key hs rfl h.prev h.old rfl rfl (ho.go ho.pool rfl)
  case ejC2 k =>
    simp only [stepT] at hs
    repeat' split at hs
    all_goals first
      | (exfalso; cases hs; done)
      | exact key hs rfl h.prev h.old rfl rfl (ho.go ho.pool rfl)
  case ejC3 k o =>
    simp only [stepT] at hs
    split at hs
    · rename_i hx
      refine key hs rfl h.prev h.old (by rw [hx]) rfl ⟨?_, fun e he => (by cases he), ho.hd, ?_⟩
      · cases k
        · exact .inr rfl
        · exact .inl (pool rfl)
        · exact .inl (pool rfl)
      · cases k <;> rfl
    · exact key hs rfl h.prev h.old rfl rfl (ho.go ho.pool rfl)
  case gh1 k g =>
    simp only [stepT] at hs
    have hcalm := calm (.inl rfl) (by intro ph hx; cases k <;> simp [sect] at hx; subst hx; rfl)
    obtain ⟨-, ⟨hb, -⟩, hk, -⟩ := hcalm
    have hb : s.old.idx ≠ s.head.idx := hb
    have hg : g = s.head.idx := by
      rcases hl.2 with ⟨-, e, he, hg⟩ | ⟨⟨e, rfl⟩, -⟩
      · have h1 := ho.ep e he
        have hk : s.ehead e = s.head.idx := hk e h1
        have hg : s.ehead e = g := hg
        rw [← hg, hk]
      · exact hj
    rw [hg, if_neg hb] at hs
    exact key hs rfl h.prev h.old rfl rfl (ho.go (.inl (pool rfl)) rfl)
  case ghH3 k g o =>
    simp only [stepT] at hs
    split at hs
    · rename_i hx
      refine key hs rfl h.prev h.old rfl (by rw [hx]) ⟨.inl (pool rfl), ho.ep, ?_, rfl⟩
      intro e he; cases he; rw [hx]
    · exact key hs rfl h.prev h.old rfl rfl (ho.go (.inl (pool rfl)) rfl)
  case rl1 k =>
    simp only [stepT] at hs
    have hcalm := calm (.inl rfl) (by intro ph hx; cases k <;> simp [sect] at hx; subst hx; rfl)
    obtain ⟨-, ⟨hb, -⟩, -⟩ := hcalm
    have hb : s.old.idx ≠ s.head.idx := hb
    have hne : some s.old.idx ≠ hd := by
      obtain ⟨x, hx⟩ := Option.ne_none_iff_exists'.mp (show hd ≠ none from hl.1)
      rw [hx, ← ho.hd x hx]; simpa using hb
    rw [if_neg hne] at hs
    exact key hs rfl h.prev h.old rfl rfl (ho.go (.inl (pool rfl)) rfl)
  case rlH3 k o =>
    simp only [stepT] at hs
    split at hs
    · rename_i hx
      refine key hs rfl h.prev h.old rfl (by rw [hx]) ⟨.inl (pool rfl), ho.ep, fun e he => (by cases he), ?_⟩
      cases k <;> rfl
    · exact key hs rfl h.prev h.old rfl rfl (ho.go (.inl (pool rfl)) rfl)
  case gt k =>
    refine key hs rfl h.prev h.old rfl rfl ⟨.inl (pool rfl), ho.ep, ho.hd, ?_⟩
    cases k <;> rfl
  case rt2 e x o =>
    simp only [stepT] at hs
    split at hs
    · exact key hs rfl rfl h.old rfl rfl (ho.go (.inl (pool rfl)) rfl)
    · exact key hs rfl h.prev h.old rfl rfl (ho.go (.inl (pool rfl)) rfl)
  case ad4 e o =>
    simp only [stepT] at hs
    split at hs
    · exact keyF hs rfl h.prev h.old ⟨by simp [sect], rfl⟩ ⟨hl.1, hl.2, rfl⟩
    · exact key hs rfl h.prev h.old rfl rfl (ho.go (.inl (pool rfl)) rfl)
  case ad5 e o =>
    refine keyF hs rfl ?_ h.old ⟨by simp [sect], rfl⟩ ⟨hl.1, hl.2, rfl⟩
    obtain ⟨-, -, -, ⟨e1, -, -, -, hE⟩, -⟩ : Core P s.sv (.B e o) := hI.phase hi rfl
    obtain ⟨hz, -⟩ := zero (by simp [sect]) rfl hl
    rcases hE with ⟨-, hE, -⟩ | ⟨e0, hE, -⟩
    · have hE : o.ref = s.H e1 := hE
      show o.ref = 0
      rw [hE, hz]
    · cases hE
  case ad10 e o =>
    simp only [stepT] at hs
    split at hs
    · exact keyF hs rfl h.prev h.old ⟨by simp [sect], rfl⟩ ⟨hl.1, hl.2, rfl⟩
    · exact key hs rfl h.prev h.old rfl rfl (ho.go (.inl (pool rfl)) rfl)
  case ad11 e o =>
    refine keyF hs rfl h.prev ?_ ⟨by simp [sect], rfl⟩ ⟨hl.1, hl.2, rfl⟩
    obtain ⟨e1, -, -, ⟨-, -, hB, -⟩, -⟩ : Core P s.sv (.W e tl o) := hI.phase hi rfl
    obtain ⟨-, hz⟩ := zero (by simp [sect]) rfl hl
    have hB : s.old.ref + o.ref = s.V s.old.idx + s.V o.idx := hB
    rw [hz, hz] at hB
    show o.ref = 0
    omega
  case ad12 e => exact keyF hs rfl h.prev h.old ⟨by simp [sect], rfl⟩ ⟨hl.1, hl.2, rfl⟩
  case ad15 =>
    simp only [stepT] at hs
    have := ok_inj hs; subst this
    refine ⟨h.prev, h.old, fun j u hu => ?_⟩
    have hu : ((s.thr.map wake).set i _)[j]? = some u := hu
    rw [List.getElem?_set] at hu
    by_cases hx : i = j
    · subst hx; simp [hlen] at hu; subst hu; exact ho.go (.inl (pool rfl)) rfl
    · simp only [hx, if_false, List.getElem?_map, Option.map_eq_some_iff] at hu
      obtain ⟨v, hv, rfl⟩ := hu
      exact (h.thr j v hv).wake
  all_goals
    have hstr := ho.str
    try (simp [detour] at hstr; done)
  all_goals
    simp only [stepT] at hs
    repeat' split at hs
  all_goals first
    | (exfalso; cases hs; done)
    | exact key hs rfl h.prev h.old rfl rfl (ho.go (.inr rfl) rfl)
    | exact key hs rfl h.prev h.old rfl rfl (ho.go (.inl (pool rfl)) rfl)

theorem OW.init : OW w (init P n) := by
  refine ⟨rfl, rfl, fun j u hu => ?_⟩
  have : u = {} := List.eq_of_mem_replicate (List.mem_of_getElem? hu)
  subst this
  exact ⟨.inr rfl, fun e he => (by cases he), fun e he => (by cases he), rfl⟩

theorem Pool.ow (hw : 0 < P.hwm) (h : Pool P n w s) : OW w s := by
  induction h with
  | init => exact .init
  | step h hc hs ih => exact ih.step (h.reach.good hw) hc hs

end DE.Conc
