import Verif.Proofs.Later
import Verif.Proofs.BSMShape

/-!
The order in which epochs are published: they are numbered in the order of their creation, and a call of `get_active_epoch` pins one
that is at least as new as the newest published before the call.
-/

namespace DE.Conc
variable {P : Par}

/-- The newest epoch that has been published. -/
def pub (s : St) : Nat := if s.next = none ∨ s.cur.ep = s.next then s.nextId - 1 else s.nextId - 2

/-- Where the published epochs are. -/
structure Ord (s : St) : Prop where
  nid : 0 < s.nextId
  nx : ∀ e, s.next = some e → e + 1 = s.nextId ∧ 0 < e
  cur : ∀ a, s.cur.ep = some a → a = pub s
  gap : s.cur.ep = none → ∀ b, s.prev.ep = some b → b = pub s
  prev : ∀ b, s.prev.ep = some b → b ≤ pub s
  hold : ∀ t ∈ s.thr, ∀ e c, t.pc = .ad5 e c → c.ep = some (pub s)
  pin : ∀ t ∈ s.thr, ∀ e, t.ep = some e → e ≤ pub s

theorem init_ord (n : Nat) : Ord (init P n) := by
  refine ⟨Nat.one_pos, by intro e h; simp [init] at h, by intro a h; simp [init] at h; simp [pub, init, h], by simp [init], by simp [init], ?_, ?_⟩ <;>
  · intro t ht
    rw [(List.mem_replicate.mp ht).2]
    simp

theorem wake_pc {u : Th} {q : PC} (h : (wake u).pc = q) : u.pc = q ∨ q = .aw5 := by
  unfold wake at h
  split at h
  · exact .inr h.symm
  · exact .inl h

/-- The threads after a step of thread `i`. -/
theorem mem_thr {s a : St} {i : Nat} {t' u : Th} (h : a.thr = s.thr ∨ a.thr = s.thr.map wake) (hu : u ∈ (a.setT i t').thr) :
    u = t' ∨ u ∈ s.thr ∨ ∃ w ∈ s.thr, u = wake w := by
  have hu : u ∈ a.thr.set i t' := hu
  rcases List.mem_or_eq_of_mem_set hu with hu | hu
  · rcases h with h | h
    · rw [h] at hu; exact .inr (.inl hu)
    · rw [h] at hu
      obtain ⟨w, hw, rfl⟩ := List.mem_map.mp hu
      exact .inr (.inr ⟨w, hw, rfl⟩)
  · exact .inl hu

theorem Ord.threads {s a : St} (h : Ord s) {i : Nat} {t' : Th} (hp : pub (a.setT i t') = pub s)
    (ht : a.thr = s.thr ∨ a.thr = s.thr.map wake) (h1 : ∀ e c, t'.pc = .ad5 e c → c.ep = some (pub s)) (h2 : ∀ e, t'.ep = some e → e ≤ pub s) :
    (∀ t ∈ (a.setT i t').thr, ∀ e c, t.pc = .ad5 e c → c.ep = some (pub (a.setT i t'))) ∧
      ∀ t ∈ (a.setT i t').thr, ∀ e, t.ep = some e → e ≤ pub (a.setT i t') := by
  rw [hp]
  constructor
  · intro u hu e c hpc
    rcases mem_thr ht hu with rfl | hu | ⟨w, hw, rfl⟩
    · exact h1 e c hpc
    · exact h.hold u hu e c hpc
    · rcases wake_pc hpc with h3 | h3
      · exact h.hold w hw e c h3
      · cases h3
  · intro u hu e hpc
    rcases mem_thr ht hu with rfl | hu | ⟨w, hw, rfl⟩
    · exact h2 e hpc
    · exact h.pin u hu e hpc
    · rw [wake_ep] at hpc; exact h.pin w hw e hpc

/-- A step that does not publish or create an epoch. -/
theorem Ord.keep {s a : St} (h : Ord s) {i : Nat} {t' : Th} (h1 : a.next = s.next) (h2 : a.nextId = s.nextId) (h3 : a.cur.ep = s.cur.ep)
    (h4 : a.prev.ep = s.prev.ep ∨ a.prev.ep = none) (ht : a.thr = s.thr ∨ a.thr = s.thr.map wake)
    (h5 : ∀ e c, t'.pc ≠ .ad5 e c) (h6 : ∀ e, t'.ep = some e → e ≤ pub s) : Ord (a.setT i t') ∧ pub (a.setT i t') = pub s := by
  have hp : pub (a.setT i t') = pub s := by
    unfold pub
    show (if a.next = none ∨ a.cur.ep = a.next then a.nextId - 1 else a.nextId - 2) = _
    rw [h1, h2, h3]
  obtain ⟨g1, g2⟩ := h.threads hp ht (fun e c hx => absurd hx (h5 e c)) h6
  refine ⟨⟨by show 0 < a.nextId; rw [h2]; exact h.nid, ?_, ?_, ?_, ?_, g1, g2⟩, hp⟩
  · intro e he
    show e + 1 = a.nextId ∧ _
    rw [h2]; exact h.nx e (by rw [← h1]; exact he)
  · intro b hb; rw [hp]; exact h.cur b (by rw [← h3]; exact hb)
  · intro hc b hb; rw [hp]
    have hb : a.prev.ep = some b := hb
    rcases h4 with h4 | h4
    · exact h.gap (by rw [← h3]; exact hc) b (by rw [← h4]; exact hb)
    · rw [h4] at hb; cases hb
  · intro b hb; rw [hp]
    have hb : a.prev.ep = some b := hb
    rcases h4 with h4 | h4
    · exact h.prev b (by rw [← h4]; exact hb)
    · rw [h4] at hb; cases hb

theorem Ord.step {s s' : St} {i : Nat} {t : Th} {c : Ch} (h : Ord s) (hI : Inv P s) (hi : s.thr[i]? = some t)
    (hs : stepT P s i t c = .ok (some s')) : Ord s' ∧ pub s ≤ pub s' := by
  have ht := List.mem_of_getElem? hi
  have hpin : ∀ e, t.ep = some e → e ≤ pub s := h.pin t ht
  have key : ∀ {a : St} {t' : Th}, (.ok (some (a.setT i t')) : Out) = .ok (some s') → a.next = s.next → a.nextId = s.nextId →
      a.cur.ep = s.cur.ep → (a.prev.ep = s.prev.ep ∨ a.prev.ep = none) → (a.thr = s.thr ∨ a.thr = s.thr.map wake) →
      (∀ e c, t'.pc ≠ .ad5 e c) → (∀ e, t'.ep = some e → e ≤ pub s) → Ord s' ∧ pub s ≤ pub s' := by
    intro a t' hx a1 a2 a3 a4 a5 a6 a7
    have := ok_inj hx; subst this
    obtain ⟨g1, g2⟩ := h.keep a1 a2 a3 a4 a5 a6 a7
    exact ⟨g1, g2.ge⟩
  obtain ⟨pc, ep, hd, tl⟩ := t
  cases pc
  case crC r =>
    have hc : Core P s.sv (.Cr (ep.getD 0)) := hI.phase hi rfl
    simp only [stepT] at hs
    split at hs
    case h_2 => cases hs
    rename_i e
    split at hs
    case isFalse => cases hs
    have := ok_inj hs; subst this
    have hn : s.next = none := hc.2.1
    have hcur : s.cur.ep = some e := hc.2.2
    have h0 := h.nid
    have hp : pub s = s.nextId - 1 := by unfold pub; rw [if_pos (.inl hn)]
    have he : e = s.nextId - 1 := by rw [← hp]; exact h.cur e hcur
    have hp' : ∀ a : St, a.next = some s.nextId → a.nextId = s.nextId + 1 → a.cur = s.cur → pub a = pub s := by
      intro a a1 a2 a3
      have : ¬ (a.next = none ∨ a.cur.ep = a.next) := by
        rw [a1, a3, hcur]
        simp only [Option.some.injEq, reduceCtorEq, false_or]; omega
      rw [hp]; unfold pub; rw [if_neg this, a2]; omega
    let a : St := { s with next := some s.nextId, nextId := s.nextId + 1, ehead := upd s.ehead s.nextId (s.ehead e), estr := upd s.estr s.nextId (s.estr e), alive := upd s.alive s.nextId true }
    let t' : Th := { (⟨.crC r, some e, hd, tl⟩ : Th) with pc := .ej1 (.create r) }
    have hpp : pub (a.setT i t') = pub s := hp' _ rfl rfl rfl
    obtain ⟨g1, g2⟩ := h.threads (a := a) (i := i) (t' := t') hpp
      (.inl rfl) (by intro e c hx; cases hx) hpin
    refine ⟨⟨by show 0 < s.nextId + 1; omega, ?_, ?_, ?_, ?_, g1, g2⟩, hpp.ge⟩
    · intro x hx
      have hx : some s.nextId = some x := hx
      cases hx
      exact ⟨rfl, h.nid⟩
    · intro b hb; exact (h.cur b hb).trans hpp.symm
    · intro hc b hb; exact (h.gap hc b hb).trans hpp.symm
    · intro b hb; exact (h.prev b hb).trans hpp.ge
  case gaP3 k old =>
    simp only [stepT] at hs
    split at hs
    · rename_i hx
      refine key hs rfl rfl rfl (.inl (by rw [hx])) (.inl rfl) (by intro e c; cases k <;> (intro hy; cases hy)) ?_
      intro e he
      exact h.prev e (by rw [hx]; exact he)
    · exact key hs rfl rfl rfl (.inl rfl) (.inl rfl) (by intro e c hy; cases hy) hpin
  case gaC3 k old =>
    simp only [stepT] at hs
    split at hs
    · rename_i hx
      refine key hs rfl rfl (by rw [hx]) (.inl rfl) (.inl rfl) (by intro e c; cases k <;> (intro hy; cases hy)) ?_
      intro e he
      exact (h.cur e (by rw [hx]; exact he)).le
    · exact key hs rfl rfl rfl (.inl rfl) (.inl rfl) (by intro e c hy; cases hy) hpin
  case ejP3 k old =>
    simp only [stepT] at hs
    split at hs
    · rename_i hx
      exact key hs rfl rfl rfl (.inl (by rw [hx])) (.inl rfl) (by intro e c; cases k <;> (intro hy; cases hy)) (by intro e he; cases he)
    · exact key hs rfl rfl rfl (.inl rfl) (.inl rfl) (by intro e c hy; cases hy) hpin
  case ejC3 k old =>
    simp only [stepT] at hs
    split at hs
    · rename_i hx
      exact key hs rfl rfl (by rw [hx]) (.inl rfl) (.inl rfl) (by intro e c; cases k <;> (intro hy; cases hy)) (by intro e he; cases he)
    · exact key hs rfl rfl rfl (.inl rfl) (.inl rfl) (by intro e c hy; cases hy) hpin
  case rt2 e x old =>
    simp only [stepT] at hs
    split at hs
    · exact key hs rfl rfl rfl (.inr rfl) (.inl rfl) (by intro e c hy; cases hy) hpin
    · exact key hs rfl rfl rfl (.inl rfl) (.inl rfl) (by intro e c hy; cases hy) hpin
  case ad4 e cc =>
    have hc : Core P s.sv (.R e none) := hI.phase hi rfl
    simp only [stepT] at hs
    split at hs
    · rename_i hx
      have := ok_inj hs; subst this
      have hn : s.next = some e := hc.2.1.1
      have hne : s.cur.ep ≠ some e := hc.2.2.2.1
      have hpr : s.prev = ⟨none, 0⟩ := hc.2.2.2.2.1
      obtain ⟨e1, he1, -⟩ := hc.1.1
      have he1 : s.cur.ep = some e1 := he1
      have hp : pub s = s.nextId - 2 := by
        unfold pub; rw [if_neg]; rw [hn]; simp [hne]
      have hpp : ∀ a : St, a.next = s.next → a.nextId = s.nextId → a.cur.ep = none → pub a = pub s := by
        intro a a1 a2 a3
        rw [hp]; unfold pub; rw [if_neg, a2]; rw [a1, a3, hn]; simp
      have hpp := hpp ({ s with cur := ⟨none, 0⟩ }.setT i { (⟨.ad4 e cc, ep, hd, tl⟩ : Th) with pc := .ad5 e cc }) rfl rfl rfl
      obtain ⟨g1, g2⟩ := h.threads (a := { s with cur := ⟨none, 0⟩ }) (i := i) hpp (.inl rfl) (by
        intro e' c' hy
        cases hy
        rw [← hx, he1, h.cur e1 he1]) hpin
      refine ⟨⟨h.nid, h.nx, (by intro a ha; cases ha), ?_, ?_, g1, g2⟩, hpp.ge⟩
      · intro _ b hb
        have hb : s.prev.ep = some b := hb
        rw [hpr] at hb; cases hb
      · intro b hb
        have hb : s.prev.ep = some b := hb
        rw [hpr] at hb; cases hb
    · exact key hs rfl rfl rfl (.inl rfl) (.inl rfl) (by intro e c hy; cases hy) hpin
  case ad5 e cc =>
    simp only [stepT] at hs
    have := ok_inj hs; subst this
    have hcc : cc.ep = some (pub s) := h.hold _ ht e cc rfl
    have hpp : pub ({ s with prev := cc }.setT i { (⟨.ad5 e cc, ep, hd, tl⟩ : Th) with pc := .ad6 e }) = pub s := rfl
    obtain ⟨g1, g2⟩ := h.threads (a := { s with prev := cc }) (i := i) hpp (.inl rfl) (by intro e' c' hy; cases hy) hpin
    refine ⟨⟨h.nid, h.nx, h.cur, ?_, ?_, g1, g2⟩, hpp.ge⟩
    · intro _ b hb
      have hb : cc.ep = some b := hb
      rw [hcc] at hb; exact (Option.some.inj hb).symm
    · intro b hb
      have hb : cc.ep = some b := hb
      rw [hcc] at hb; exact (Option.some.inj hb).ge
  case ad12 e =>
    have hc : Core P s.sv (.D e tl) := hI.phase hi rfl
    obtain ⟨e1, htr, -⟩ := hc
    simp only [stepT] at hs
    have := ok_inj hs; subst this
    have hn : s.next = some e := htr.2.2.2.2.1
    obtain ⟨hx1, hx2⟩ := h.nx e hn
    have hpp : pub ({ s with cur := ⟨s.next, 0⟩ }.setT i { (⟨.ad12 e, ep, hd, tl⟩ : Th) with pc := .ad13 }) = e := by
      unfold pub
      rw [if_pos (.inr rfl)]
      show s.nextId - 1 = e
      omega
    have hle : pub s ≤ e := by
      unfold pub; split <;> omega
    have hmem : ∀ u ∈ ({ s with cur := ⟨s.next, 0⟩ }.setT i { (⟨.ad12 e, ep, hd, tl⟩ : Th) with pc := .ad13 }).thr,
        u = { (⟨.ad12 e, ep, hd, tl⟩ : Th) with pc := .ad13 } ∨ (u ∈ s.thr ∧ ∀ e' c', u.pc ≠ .ad5 e' c') := by
      intro u hu
      obtain ⟨j, hj⟩ := List.mem_iff_getElem?.mp hu
      have hj : (s.thr.set i { (⟨.ad12 e, ep, hd, tl⟩ : Th) with pc := .ad13 })[j]? = some u := hj
      by_cases hij : j = i
      · subst hij
        rw [List.getElem?_set_self (List.getElem?_eq_some_iff.mp hi).1] at hj
        exact .inl (Option.some.inj hj).symm
      · rw [List.getElem?_set_ne (Ne.symm hij)] at hj
        refine .inr ⟨List.mem_of_getElem? hj, ?_⟩
        intro e' c' hx
        have := (hI.alone hi (ph := .D e tl) rfl).2.2 j u hij hj
        unfold sect at this
        rw [hx] at this; cases this
    refine ⟨⟨h.nid, h.nx, ?_, ?_, ?_, ?_, ?_⟩, by rw [hpp]; exact hle⟩
    · intro a ha
      have ha : s.next = some a := ha
      rw [hpp]; rw [hn] at ha; exact (Option.some.inj ha).symm
    · intro hcn
      have hcn : s.next = none := hcn
      rw [hn] at hcn; cases hcn
    · intro b hb; rw [hpp]; exact (h.prev b hb).trans hle
    · intro u hu e' c' hx
      rcases hmem u hu with rfl | ⟨-, hu⟩
      · cases hx
      · exact absurd hx (hu e' c')
    · intro u hu e' hx
      rw [hpp]
      rcases hmem u hu with rfl | ⟨hu, -⟩
      · exact (hpin e' hx).trans hle
      · exact (h.pin u hu e' hx).trans hle
  case ad13 =>
    have hc : Core P s.sv .A2 := hI.phase hi rfl
    simp only [stepT] at hs
    have := ok_inj hs; subst this
    have hn : s.next = s.cur.ep := hc.2
    have hpp : pub ({ s with next := none }.setT i { (⟨.ad13, ep, hd, tl⟩ : Th) with pc := .ad14 }) = pub s := by
      unfold pub
      rw [if_pos (.inl rfl), if_pos (.inr hn.symm)]
      rfl
    obtain ⟨g1, g2⟩ := h.threads (a := { s with next := none }) (i := i) hpp (.inl rfl) (by intro e' c' hy; cases hy) hpin
    refine ⟨⟨h.nid, (by intro e he; cases he), ?_, ?_, ?_, g1, g2⟩, hpp.ge⟩
    · intro b hb; rw [hpp]; exact h.cur b hb
    · intro hc b hb; rw [hpp]; exact h.gap hc b hb
    · intro b hb; rw [hpp]; exact h.prev b hb
  case ad15 =>
    simp only [stepT] at hs
    exact key hs rfl rfl rfl (.inl rfl) (.inr rfl) (by intro e c hy; cases hy) hpin
  all_goals
    simp only [stepT] at hs
    repeat' split at hs
  all_goals first
    | (refine key hs rfl rfl rfl (.inl rfl) (.inl rfl) ?_ hpin
       intro e c hy
       first
         | cases hy
         | (rename_i k; cases k <;> cases hy)
         | (rename_i k _; cases k; cases hy)
         | (rename_i k _ _; cases k <;> cases hy))
    | cases hs

/-! ### What a call of `get_active_epoch` pins -/

/-- The only value stored to the pointer of the previous epoch. -/
theorem step_prev {s s' : St} {i : Nat} {t : Th} {c : Ch} (h : Ord s) (hi : s.thr[i]? = some t)
    (hs : stepT P s i t c = .ok (some s')) : s'.prev.ep = s.prev.ep ∨ s'.prev.ep = none ∨ s'.prev.ep = some (pub s) := by
  have key : ∀ {a : St} {t' : Th}, (.ok (some (a.setT i t')) : Out) = .ok (some s') → a.prev.ep = s.prev.ep →
      s'.prev.ep = s.prev.ep ∨ s'.prev.ep = none ∨ s'.prev.ep = some (pub s) := by
    intro a t' hx a1
    have := ok_inj hx; subst this
    exact .inl a1
  have ht := List.mem_of_getElem? hi
  obtain ⟨pc, ep, hd, tl⟩ := t
  cases pc
  case gaP3 k old =>
    simp only [stepT] at hs
    split at hs
    · rename_i hx; exact key hs (by rw [hx])
    · exact key hs rfl
  case ejP3 k old =>
    simp only [stepT] at hs
    split at hs
    · rename_i hx; exact key hs (by rw [hx])
    · exact key hs rfl
  case rt2 e x old =>
    simp only [stepT] at hs
    split at hs
    · have := ok_inj hs; subst this; exact .inr (.inl rfl)
    · exact key hs rfl
  case ad5 e cc =>
    simp only [stepT] at hs
    have := ok_inj hs; subst this
    exact .inr (.inr (h.hold _ ht e cc rfl))
  all_goals
    simp only [stepT] at hs
    repeat' split at hs
  all_goals first
    | exact key hs rfl
    | cases hs

/-- The call has seen no current epoch. -/
def late : PC → Prop
  | .gaP2 _ | .gaP3 _ _ => True
  | _ => False

/-- What a thread that began after epoch `B` was published can pin. -/
structure Fresh (B : Nat) (s : St) (u : Th) : Prop where
  pin : ∀ e, u.ep = some e → B ≤ e
  prev : late u.pc → ∀ b, s.prev.ep = some b → B ≤ b

theorem Fresh.other {B : Nat} {s s' : St} {u : Th} (h : Fresh B s u) (hB : B ≤ pub s)
    (hp : s'.prev.ep = s.prev.ep ∨ s'.prev.ep = none ∨ s'.prev.ep = some (pub s)) : Fresh B s' u := by
  refine ⟨h.pin, ?_⟩
  intro hl b hb
  rcases hp with hp | hp | hp
  · exact h.prev hl b (by rw [← hp]; exact hb)
  · rw [hp] at hb; cases hb
  · rw [hp] at hb; cases hb; exact hB

theorem Fresh.own {B : Nat} {s s' : St} {i : Nat} {t : Th} {c : Ch} (h : Fresh B s t) (ho : Ord s) (hB : B ≤ pub s) (hi : s.thr[i]? = some t)
    (hs : stepT P s i t c = .ok (some s')) : ∃ t', s'.thr[i]? = some t' ∧ Fresh B s' t' := by
  have hlt : i < s.thr.length := (List.getElem?_eq_some_iff.mp hi).1
  have key : ∀ {a : St} {t' : Th}, (.ok (some (a.setT i t')) : Out) = .ok (some s') → i < a.thr.length → ¬ late t'.pc →
      (∀ e, t'.ep = some e → B ≤ e) → ∃ t', s'.thr[i]? = some t' ∧ Fresh B s' t' := by
    intro a t' hx a1 a2 a3
    have := ok_inj hx; subst this
    exact ⟨t', List.getElem?_set_self a1, a3, fun hl => absurd hl a2⟩
  have hpin := h.pin
  have hprev := h.prev
  obtain ⟨pc, ep, hd, tl⟩ := t
  cases pc
  case ga1 k =>
    simp only [stepT] at hs
    have := ok_inj hs; subst this
    refine ⟨_, List.getElem?_set_self hlt, hpin, ?_⟩
    intro hl b hb
    by_cases hc : s.cur.ep = none
    · exact (ho.gap hc b hb).symm ▸ hB
    · simp only [if_neg hc] at hl; exact hl.elim
  case gaP2 k =>
    simp only [stepT] at hs
    have := ok_inj hs; subst this
    exact ⟨_, List.getElem?_set_self hlt, hpin, fun _ b hb => hprev trivial b hb⟩
  case gaP3 k old =>
    simp only [stepT] at hs
    split at hs
    · rename_i hx
      refine key hs hlt (by cases k <;> exact fun h => h) ?_
      intro e he
      exact hprev trivial e (by rw [hx]; exact he)
    · exact key hs hlt (fun h => h) hpin
  case gaC3 k old =>
    simp only [stepT] at hs
    split at hs
    · rename_i hx
      refine key hs hlt (by cases k <;> exact fun h => h) ?_
      intro e he
      rw [ho.cur e (by rw [hx]; exact he)]; exact hB
    · exact key hs hlt (fun h => h) hpin
  case ejP3 k old =>
    simp only [stepT] at hs
    split at hs
    · exact key hs hlt (by cases k <;> exact fun h => h) (by intro e he; cases he)
    · exact key hs hlt (fun h => h) hpin
  case ejC3 k old =>
    simp only [stepT] at hs
    split at hs
    · exact key hs hlt (by cases k <;> exact fun h => h) (by intro e he; cases he)
    · exact key hs hlt (fun h => h) hpin
  case ad15 =>
    simp only [stepT] at hs
    exact key hs (by rw [List.length_map]; exact hlt) (fun h => h) hpin
  all_goals
    simp only [stepT] at hs
    repeat' split at hs
  all_goals first
    | exact key hs hlt (fun h => h) hpin
    | (refine key hs hlt ?_ hpin
       first
         | (rename_i k; cases k <;> exact fun h => h)
         | (rename_i k _ _; cases k <;> exact fun h => h))
    | cases hs

theorem Fresh.step {B : Nat} {s s' : St} {i j : Nat} {u : Th} {c : Ch} (h : Fresh B s u) (ho : Ord s) (hB : B ≤ pub s)
    (hj : s.thr[j]? = some u) (hs : Conc.step P s i c = .ok (some s')) : ∃ u', s'.thr[j]? = some u' ∧ Fresh B s' u' := by
  unfold Conc.step at hs
  split at hs
  case h_2 => cases hs
  rename_i t hi
  by_cases hji : j = i
  · subst hji
    rw [hi] at hj; cases hj
    exact h.own ho hB hi hs
  · have hp := step_prev ho hi hs
    rcases step_others hs hji with h1 | h1
    · exact ⟨u, h1.trans hj, h.other hB hp⟩
    · refine ⟨wake u, by rw [h1, hj]; rfl, ?_⟩
      have h2 := h.other hB hp
      refine ⟨by rw [wake_ep]; exact h2.pin, ?_⟩
      intro hl
      unfold wake at hl
      split at hl
      · exact hl.elim
      · exact h2.prev hl

end DE.Conc

namespace DE.Full
open Conc (Par Slot Ch upd pub Ord Fresh)
variable {R : Type}

/-- A reconstruction never removes a level. -/
theorem job_height {L : Layout} {I : ShardImpl R} {hwm : Nat} {st st' : Struct R} {v : View R} (h : job L I hwm st v = .ok st') :
    st.height ≤ st'.height := by
  unfold job at h
  simp only [bind_ok] at h
  obtain ⟨ts, -, s1, h1, h2⟩ := h
  unfold Struct.flushBuffer Struct.flushIntoL0 at h2
  simp only [bind_ok] at h2
  obtain ⟨-, -, old, -, nl, -, s0, -, e⟩ := h2
  cases e
  have := runTasks_height h1
  simp only [Struct.height, List.length_set]
  refine le_trans this ?_
  split <;> simp

variable [Inhabited R]

/-- The versions in the order of their epochs. -/
structure VOrd (s : St R) : Prop where
  ord : Ord s.base
  height : ∀ a b, a ≤ b → b < s.base.nextId → (s.vs a).height ≤ (s.vs b).height
  slots : ∀ a b, a ≤ b → b < s.base.nextId → s.base.estr a <+: s.base.estr b

/-- A step keeps the order, publishes no older epoch and leaves the published versions alone. -/
theorem VOrd.step {C : Cfg R} {s s' : St R} {i : Nat} {c : Ch} (h : VOrd s) (hI : Conc.Inv C.P s.base)
    (hs : step C s i c = .ok (some s')) : VOrd s' ∧ pub s.base ≤ pub s'.base ∧
      ∀ e, e ≤ pub s.base → s'.vs e = s.vs e ∧ s'.base.estr e = s.base.estr e := by
  obtain ⟨t, hi, h2, h3⟩ := step_some hs
  unfold Conc.step at h2
  rw [hi] at h2
  simp only at h2
  obtain ⟨ho, hp⟩ := h.ord.step hI hi h2
  obtain ⟨b, vs⟩ := s'
  by_cases h1 : ∃ r, t.pc = .crC r
  · obtain ⟨r, hpc⟩ := h1
    obtain ⟨pc, ep, hd, tl⟩ := t
    simp only at hpc; subst hpc
    have hc : Conc.Core C.P s.base.sv (.Cr (ep.getD 0)) := hI.phase hi rfl
    simp only [Conc.stepT] at h2
    split at h2
    case h_2 => cases h2
    rename_i e
    split at h2
    case isFalse => cases h2
    have hb := Conc.ok_inj h2
    have hvs : (.ok (upd s.vs s.base.nextId (s.vs e).copy) : Res _) = .ok vs := h3
    have hvs := Except.ok.inj hvs
    subst hvs
    have hn : s.base.next = none := hc.2.1
    have hcur : s.base.cur.ep = some e := hc.2.2
    have h0 := h.ord.nid
    have hpub : pub s.base = s.base.nextId - 1 := by unfold pub; rw [if_pos (.inl hn)]
    have he : e = s.base.nextId - 1 := by rw [← hpub]; exact h.ord.cur e hcur
    have hst : b.estr = upd s.base.estr s.base.nextId (s.base.estr e) := by subst hb; rfl
    have hid : b.nextId = s.base.nextId + 1 := by subst hb; rfl
    refine ⟨⟨ho, ?_, ?_⟩, hp, ?_⟩
    · intro x y hxy hy
      have hy : y < b.nextId := hy
      rw [hid] at hy
      show (upd s.vs s.base.nextId (s.vs e).copy x).height ≤ (upd s.vs s.base.nextId (s.vs e).copy y).height
      have hcp : (s.vs e).copy.height = (s.vs e).height := by simp [Struct.copy, Struct.height]
      unfold upd
      by_cases hx1 : x = s.base.nextId
      · rw [if_pos hx1, if_pos (by omega)]
      · rw [if_neg hx1]
        by_cases hy1 : y = s.base.nextId
        · rw [if_pos hy1, hcp]; exact h.height x e (by omega) (by omega)
        · rw [if_neg hy1]; exact h.height x y hxy (by omega)
    · intro x y hxy hy
      have hy : y < b.nextId := hy
      rw [hid] at hy
      show b.estr x <+: b.estr y
      rw [hst]
      unfold upd
      by_cases hx1 : x = s.base.nextId
      · rw [if_pos hx1, if_pos (by omega)]
      · rw [if_neg hx1]
        by_cases hy1 : y = s.base.nextId
        · rw [if_pos hy1]; exact h.slots x e (by omega) (by omega)
        · rw [if_neg hy1]; exact h.slots x y hxy (by omega)
    · intro x hx
      show upd s.vs s.base.nextId (s.vs e).copy x = s.vs x ∧ b.estr x = s.base.estr x
      rw [hst]
      unfold upd
      rw [if_neg (by omega), if_neg (by omega)]
      exact ⟨rfl, rfl⟩
  have h1 : ∀ r, t.pc ≠ .crC r := fun r hr => h1 ⟨r, hr⟩
  by_cases h4 : ∃ e p acc, t.pc = .cp e p acc ∧ ¬ p < t.tl
  · obtain ⟨e, p, acc, hpc, hp'⟩ := h4
    obtain ⟨pc, ep, hd, tl⟩ := t
    simp only at hpc; subst hpc
    have hc : Conc.Core C.P s.base.sv (.A1 e) := hI.phase hi rfl
    have hp' : ¬ p < tl := hp'
    simp only [Conc.stepT, if_neg hp'] at h2
    split at h2
    case isFalse => cases h2
    have hb := Conc.ok_inj h2
    have hst : b.estr = upd s.base.estr e (s.base.estr e ++ acc) := by subst hb; rfl
    have hid : b.nextId = s.base.nextId := by subst hb; rfl
    unfold structs at h3
    simp only [if_neg hp'] at h3
    rw [bind_ok] at h3
    obtain ⟨v', hv, h3⟩ := h3
    have hvs : upd s.vs e v' = vs := Except.ok.inj h3
    subst hvs
    have hn : s.base.next = some e := hc.2.1.1
    have hne : s.base.cur.ep ≠ some e := hc.2.2.2.1
    obtain ⟨hx1, hx2⟩ := h.ord.nx e hn
    have hpub : pub s.base < e := by
      unfold pub; rw [if_neg]
      · omega
      · rw [hn]; simp [hne]
    have hh := job_height hv
    refine ⟨⟨ho, ?_, ?_⟩, hp, ?_⟩
    · intro x y hxy hy
      have hy : y < b.nextId := hy
      rw [hid] at hy
      show (upd s.vs e v' x).height ≤ (upd s.vs e v' y).height
      unfold upd
      by_cases hx3 : x = e
      · rw [if_pos hx3, if_pos (by omega)]
      · rw [if_neg hx3]
        by_cases hy1 : y = e
        · rw [if_pos hy1]; exact (h.height x e (by omega) (by omega)).trans hh
        · rw [if_neg hy1]; exact h.height x y hxy hy
    · intro x y hxy hy
      have hy : y < b.nextId := hy
      rw [hid] at hy
      show b.estr x <+: b.estr y
      rw [hst]
      unfold upd
      by_cases hx3 : x = e
      · rw [if_pos hx3, if_pos (by omega)]
      · rw [if_neg hx3]
        by_cases hy1 : y = e
        · rw [if_pos hy1]; exact (h.slots x e (by omega) (by omega)).trans (List.prefix_append _ _)
        · rw [if_neg hy1]; exact h.slots x y hxy hy
    · intro x hx
      show upd s.vs e v' x = s.vs x ∧ b.estr x = s.base.estr x
      rw [hst]
      unfold upd
      rw [if_neg (by omega), if_neg (by omega)]
      exact ⟨rfl, rfl⟩
  have h5 : ∀ e p acc, t.pc = .cp e p acc → p < t.tl := by
    intro e p acc hpc
    by_contra hc
    exact h4 ⟨e, p, acc, hpc, hc⟩
  rw [structs_other h1 h5] at h3
  have h3 : s.vs = vs := Except.ok.inj h3
  subst h3
  obtain ⟨e1, e2⟩ := step_vers h2 h1 h5
  have e1 : b.estr = s.base.estr := e1
  have e2 : b.nextId = s.base.nextId := e2
  refine ⟨⟨ho, ?_, ?_⟩, hp, ?_⟩
  · intro x y hxy hy; exact h.height x y hxy (by rw [← e2]; exact hy)
  · intro x y hxy hy
    show b.estr x <+: b.estr y
    rw [e1]; exact h.slots x y hxy (by rw [← e2]; exact hy)
  · intro x _
    refine ⟨rfl, ?_⟩
    show b.estr x = _
    rw [e1]

theorem Reach.vord {C : Cfg R} (hw : 0 < C.P.hwm) {n : Nat} {ok : Conc.St → Nat → Prop} {s : St R} (h : Reach C n ok s) : VOrd s := by
  induction h with
  | init => exact ⟨Conc.init_ord n, fun a b _ _ => le_refl _, fun a b _ _ => List.prefix_refl _⟩
  | step hr _ hs ih => exact (ih.step (hr.base.inv hw) hs).1

/-- Along an execution: what is published stays, and a thread that begins a call pins nothing older. -/
theorem Later.fresh {C : Cfg R} (hw : 0 < C.P.hwm) {n : Nat} {ok : Conc.St → Nat → Prop} {s0 s : St R} (h0 : Reach C n ok s0)
    (h : Later C ok s0 s) : pub s0.base ≤ pub s.base ∧ (∀ e, e ≤ pub s0.base → s.vs e = s0.vs e ∧ s.base.estr e = s0.base.estr e) ∧
      ∀ (j : Nat) (u : Conc.Th), s0.base.thr[j]? = some u → u.ep = none → ¬ Conc.late u.pc → ∃ u', s.base.thr[j]? = some u' ∧ Fresh (pub s0.base) s.base u' := by
  induction h with
  | refl => exact ⟨le_refl _, fun _ _ => ⟨rfl, rfl⟩, fun j u hj hu hl => ⟨u, hj, ⟨fun e he => (by rw [hu] at he; cases he), fun h => absurd h hl⟩⟩⟩
  | @step s s' i c hl hk hs ih =>
    have hr := hl.reach h0
    have hv := hr.vord hw
    obtain ⟨g1, g2, g3⟩ := hv.step (hr.base.inv hw) hs
    obtain ⟨i1, i2, i3⟩ := ih
    refine ⟨i1.trans g2, ?_, ?_⟩
    · intro e he
      have := g3 e (he.trans i1)
      exact ⟨this.1.trans (i2 e he).1, this.2.trans (i2 e he).2⟩
    · intro j u hj hu hla
      obtain ⟨u', hu', hf⟩ := i3 j u hj hu hla
      obtain ⟨t, -, h2, -⟩ := step_some hs
      exact hf.step hv.ord i1 hu' h2

end DE.Full
