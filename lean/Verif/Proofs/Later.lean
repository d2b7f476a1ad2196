import Verif.Proofs.Full

/-!
When a view was taken: the tail of the view of a thread is the tail of the buffer at a moment after the thread last had no view.
-/

namespace DE.Conc
variable {P : Par} {s s' : St} {i : Nat} {t : Th} {c : Ch}

/-- The thread has no view, is about to read the tail of its view, or the tail of its view satisfies `B`. -/
def Took (B : Nat → Prop) (t : Th) : Prop := t.hd = none ∨ (∃ k, t.pc = .gt k) ∨ B t.tl

theorem Took.mono {B B' : Nat → Prop} (h : ∀ x, B x → B' x) (ht : Took B t) : Took B' t :=
  ht.imp id (Or.imp id (h _))

/-- The thread that moves. -/
theorem Took.own {B : Nat → Prop} (hi : s.thr[i]? = some t) (ht : Took B t) (hB : B s.tail) (hs : stepT P s i t c = .ok (some s')) :
    ∃ t', s'.thr[i]? = some t' ∧ Took B t' := by
  have hlt : i < s.thr.length := (List.getElem?_eq_some_iff.mp hi).1
  have key : ∀ {a : St} {t' : Th}, (.ok (some (a.setT i t')) : Out) = .ok (some s') → i < a.thr.length → Took B t' →
      ∃ t', s'.thr[i]? = some t' ∧ Took B t' := by
    intro a t' h a1 a2
    have := ok_inj h; subst this
    exact ⟨t', List.getElem?_set_self a1, a2⟩
  obtain ⟨pc, ep, hd, tl⟩ := t
  by_cases hg : ∃ k, pc = .gt k
  · obtain ⟨k, rfl⟩ := hg
    simp only [stepT] at hs
    exact key hs hlt (.inr (.inr hB))
  have ht' : ∀ pc' ep', Took B ⟨pc', ep', hd, tl⟩ := by
    intro pc' ep'
    rcases ht with h | ⟨k, h⟩ | h
    · exact .inl h
    · exact absurd ⟨k, h⟩ hg
    · exact .inr (.inr h)
  have hnone : ∀ pc' ep', Took B ⟨pc', ep', none, tl⟩ := fun _ _ => .inl rfl
  cases pc
  case gt k => exact absurd ⟨k, rfl⟩ hg
  all_goals
    simp only [stepT] at hs
    repeat' split at hs
  all_goals first
    | exact key hs hlt (ht' _ _)
    | exact key hs hlt (hnone _ _)
    | exact key hs hlt (.inr (.inl ⟨_, rfl⟩))
    | exact key hs (by rw [List.length_map]; exact hlt) (ht' _ _)
    | exact absurd hs (by simp)

theorem Took.step {B : Nat → Prop} {j : Nat} {u : Th} (hj : s.thr[j]? = some u) (hu : Took B u) (hB : B s.tail)
    (hs : Conc.step P s i c = .ok (some s')) : ∃ u', s'.thr[j]? = some u' ∧ Took B u' := by
  unfold Conc.step at hs
  split at hs
  case h_2 => cases hs
  rename_i t hi
  by_cases hji : j = i
  · subst hji
    rw [hi] at hj; cases hj
    exact hu.own hi hB hs
  · rcases step_others hs hji with h | h
    · exact ⟨u, h.trans hj, hu⟩
    · refine ⟨wake u, by rw [h, hj]; rfl, ?_⟩
      unfold wake
      split
      · rename_i h4
        rcases hu with h | ⟨k, h⟩ | h
        · exact .inl h
        · rw [h4] at h; cases h
        · exact .inr (.inr h)
      · exact hu

end DE.Conc

namespace DE.Full
open Conc (Par Slot Ch)
variable {R : Type} [Inhabited R]

/-- `s` comes after `s0` in an execution all of whose steps are allowed by `ok`. -/
inductive Later (C : Cfg R) (ok : Conc.St → Nat → Prop) (s0 : St R) : St R → Prop
  | refl : Later C ok s0 s0
  | step {s s' : St R} {i : Nat} {c : Ch} : Later C ok s0 s → ok s.base i → step C s i c = .ok (some s') → Later C ok s0 s'

variable {C : Cfg R} {ok : Conc.St → Nat → Prop} {s0 s1 s : St R} {n : Nat}

theorem Later.reach (h : Later C ok s0 s) (h0 : Reach C n ok s0) : Reach C n ok s := by
  induction h with
  | refl => exact h0
  | step _ hk hs ih => exact ih.step hk hs

theorem Later.trans (h : Later C ok s0 s1) (h1 : Later C ok s1 s) : Later C ok s0 s := by
  induction h1 with
  | refl => exact h
  | step _ hk hs ih => exact ih.step hk hs

theorem Later.tail (h : Later C ok s0 s) : s0.base.tail ≤ s.base.tail := by
  induction h with
  | refl => exact le_refl _
  | step _ _ hs ih =>
    obtain ⟨t, ht, h2, -⟩ := step_some hs
    unfold Conc.step at h2
    rw [ht] at h2
    exact ih.trans (Conc.step_tail h2)

theorem Later.done (h : Later C ok s0 s) : ∀ x ∈ s0.base.done, x ∈ s.base.done := by
  induction h with
  | refl => exact fun _ h => h
  | step _ _ hs ih =>
    obtain ⟨t, ht, h2, -⟩ := step_some hs
    unfold Conc.step at h2
    rw [ht] at h2
    exact fun x hx => Conc.step_done h2 x (ih x hx)

/-- The tail of a view taken since `s0` is the tail of the buffer at some moment since `s0`. -/
theorem Later.took (h : Later C ok s0 s) {j : Nat} {u0 : Conc.Th} (hj : s0.base.thr[j]? = some u0)
    (hu0 : u0.hd = none) :
    ∃ u, s.base.thr[j]? = some u ∧ Conc.Took (fun x => ∃ s1, Later C ok s0 s1 ∧ Later C ok s1 s ∧ x = s1.base.tail) u := by
  induction h with
  | refl => exact ⟨u0, hj, .inl hu0⟩
  | @step s s' i c hl hk hs ih =>
    obtain ⟨u, hu, ht⟩ := ih
    obtain ⟨-, -, h2, -⟩ := step_some hs
    refine Conc.Took.step hu (ht.mono ?_) ?_ h2
    · rintro x ⟨s1, a, b, e⟩
      exact ⟨s1, a, b.step hk hs, e⟩
    · exact ⟨s, hl, .step .refl hk hs, rfl⟩

end DE.Full

namespace DE.Conc

/-- Each position is written once. -/
theorem Reach.done_nodup {P : Par} {n : Nat} {ok : St → Nat → Prop} {s : St} (hw : 0 < P.hwm) (h : Reach P n ok s) :
    (s.done.map Prod.fst).Nodup := by
  induction h with
  | init => exact List.nodup_nil
  | @step s s' i c hr _ hs ih =>
    unfold Conc.step at hs
    split at hs
    case h_2 => cases hs
    rename_i t hi
    by_cases h3 : ∃ r x, t.pc = .ap3 r x
    · obtain ⟨r, x, h3⟩ := h3
      unfold stepT at hs
      rw [h3] at hs
      simp only at hs
      split at hs <;> (have := ok_inj hs; subst this; exact ih)
    · by_cases h5 : ∃ r p, t.pc = .ap5 r p
      · obtain ⟨r, p, h5⟩ := h5
        obtain ⟨-, hnd⟩ := (hr.hist hw).pend i t r p hi h5
        unfold stepT at hs
        rw [h5] at hs
        simp only at hs
        have := ok_inj hs; subst this
        show (((p, r) :: s.done).map Prod.fst).Nodup
        rw [List.map_cons, List.nodup_cons]
        refine ⟨fun hm => ?_, ih⟩
        obtain ⟨⟨q, r'⟩, hq, hqe⟩ := List.mem_map.mp hm
        have hqe : q = p := hqe
        subst hqe
        exact hnd r' hq
      · push Not at h3 h5
        obtain ⟨_, _, a, b, _⟩ := step_frame hs h3 h5
        rw [a]; exact ih

theorem Reach.claimed_length {P : Par} {n : Nat} {ok : St → Nat → Prop} {s : St} (hw : 0 < P.hwm) (h : Reach P n ok s) :
    s.claimed.length = s.tail := by
  have := congrArg List.length (h.hist hw).claims
  simpa using this

theorem Reach.done_length {P : Par} {n : Nat} {ok : St → Nat → Prop} {s : St} (hw : 0 < P.hwm) (h : Reach P n ok s) :
    s.done.length ≤ s.claimed.length := by
  have h1 : (s.done.map Prod.fst).Subperm (s.claimed.map Prod.fst) := by
    apply (h.done_nodup hw).subperm
    intro p hp
    obtain ⟨x, hx, rfl⟩ := List.mem_map.mp hp
    exact List.mem_map_of_mem ((h.hist hw).sub x hx)
  simpa using h1.length_le

end DE.Conc

namespace DE.Conc
variable {P : Par} {s s' : St} {i : Nat} {t : Th} {c : Ch}

/-- A slot that nobody has written, or what a finished append wrote. -/
def Real (s : St) (x : Slot) : Prop := ∀ y, x = some y → y ∈ s.done

/-- Whatever is copied from the ring, and when, it is what finished appends wrote or the initial content. -/
structure Copied (s : St) : Prop where
  str : ∀ e, ∀ x ∈ s.estr e, Real s x
  acc : ∀ (j : Nat) (t : Th) (e p : Nat) (acc : List Slot), s.thr[j]? = some t → t.pc = .cp e p acc → ∀ x ∈ acc, Real s x

theorem gtRet_cp (h : Nat) (k : K) {e p : Nat} {acc : List Slot} (hk : gtRet h k = .cp e p acc) : acc = [] := by
  cases k <;> simp [gtRet] at hk
  exact hk.2.2

theorem gaRet_cp (k : K) {e p : Nat} {acc : List Slot} : gaRet k ≠ .cp e p acc := by cases k <;> simp [gaRet]
theorem ejRet_cp (k : K) {e p : Nat} {acc : List Slot} : ejRet k ≠ .cp e p acc := by cases k <;> simp [ejRet]
theorem rlRet_cp (k : K) {e p : Nat} {acc : List Slot} : rlRet k ≠ .cp e p acc := by cases k <;> simp [rlRet]

theorem Copied.step (hC : Copied s) (hH : Hist P s) (hs : Conc.step P s i c = .ok (some s')) : Copied s' := by
  unfold Conc.step at hs
  split at hs
  case h_2 => cases hs
  rename_i t hi
  have hdn := step_done hs
  have hlt : i < s.thr.length := (List.getElem?_eq_some_iff.mp hi).1
  have hreal : ∀ {x}, Real s x → Real s' x := fun h y hy => hdn y (h y hy)
  -- the other threads
  have others : ∀ (j : Nat) (u : Th) (e p : Nat) (acc : List Slot), j ≠ i → s'.thr[j]? = some u → u.pc = .cp e p acc → ∀ x ∈ acc, Real s' x := by
    intro j u e p acc hj hu hpc x hx
    rcases step_others hs hj with h | h
    · exact hreal (hC.acc j u e p acc (h ▸ hu) hpc x hx)
    · rw [h, Option.map_eq_some_iff] at hu
      obtain ⟨w, hw, rfl⟩ := hu
      unfold wake at hpc
      split at hpc
      · cases hpc
      · exact hreal (hC.acc j w e p acc hw hpc x hx)
  suffices h : (∀ e, ∀ x ∈ s'.estr e, Real s x) ∧ ∀ u, s'.thr[i]? = some u → ∀ e p acc, u.pc = .cp e p acc → ∀ x ∈ acc, Real s x by
    refine ⟨fun e x hx => hreal (h.1 e x hx), fun j u e p acc hu hpc x hx => ?_⟩
    by_cases hj : j = i
    · subst hj; exact hreal (h.2 u hu e p acc hpc x hx)
    · exact others j u e p acc hj hu hpc x hx
  have key : ∀ {a : St} {t' : Th}, (.ok (some (a.setT i t')) : Out) = .ok (some s') → i < a.thr.length → (∀ e, ∀ x ∈ a.estr e, Real s x) →
      (∀ e p acc, t'.pc = .cp e p acc → ∀ x ∈ acc, Real s x) →
      (∀ e, ∀ x ∈ s'.estr e, Real s x) ∧ ∀ u, s'.thr[i]? = some u → ∀ e p acc, u.pc = .cp e p acc → ∀ x ∈ acc, Real s x := by
    intro a t' h a1 a2 a3
    have := ok_inj h; subst this
    refine ⟨a2, fun u hu => ?_⟩
    rw [show (a.setT i t').thr[i]? = some t' from List.getElem?_set_self a1] at hu
    cases hu; exact a3
  obtain ⟨pc, ep, hd, tl⟩ := t
  cases pc
  case cp e p acc =>
    have hacc := hC.acc i _ e p acc hi rfl
    simp only [stepT] at hs
    split at hs
    · refine key hs hlt hC.str ?_
      intro e' p' acc' hpc x hx
      have hpc : PC.cp e (p + 1) (acc ++ [s.mem (p % P.cap)]) = .cp e' p' acc' := hpc
      cases hpc
      rcases List.mem_append.mp hx with hx | hx
      · exact hacc x hx
      · rw [List.mem_singleton.mp hx]
        rintro ⟨q, r⟩ hy
        exact (hH.memd _ q r hy).1
    · split at hs
      · refine key hs hlt ?_ (by intro e' p' acc' h; cases h)
        intro e' x hx
        have hx : x ∈ upd s.estr e (s.estr e ++ acc) e' := hx
        unfold upd at hx
        split at hx
        · rcases List.mem_append.mp hx with hx | hx
          · exact hC.str e x hx
          · exact hacc x hx
        · exact hC.str e' x hx
      · cases hs
  case crC r =>
    simp only [stepT] at hs
    split at hs
    case h_2 => cases hs
    rename_i e
    split at hs
    · refine key hs hlt ?_ (by intro e' p' acc' h; cases h)
      intro e' x hx
      have hx : x ∈ upd s.estr s.nextId (s.estr e) e' := hx
      unfold upd at hx
      split at hx
      · exact hC.str e x hx
      · exact hC.str e' x hx
    · cases hs
  case gt k =>
    simp only [stepT] at hs
    refine key hs hlt hC.str ?_
    intro e p acc h x hx
    rw [gtRet_cp _ _ h] at hx; cases hx
  all_goals
    simp only [stepT] at hs
    repeat' split at hs
  all_goals first
    | (refine key hs hlt hC.str ?_
       intro e p acc h
       first
         | exact absurd h (gaRet_cp _)
         | exact absurd h (ejRet_cp _)
         | exact absurd h (rlRet_cp _)
         | cases h)
    | (refine key hs (by rw [List.length_map]; exact hlt) hC.str ?_
       intro e p acc h
       cases h)
    | exact absurd hs (by simp)

theorem Reach.copied {n : Nat} {ok : St → Nat → Prop} (hw : 0 < P.hwm) (h : Reach P n ok s) : Copied s := by
  induction h with
  | init =>
    refine ⟨fun e x hx => (List.not_mem_nil hx).elim, ?_⟩
    intro j t e p acc ht hpc
    rw [(List.mem_replicate.mp (List.mem_of_getElem? ht)).2] at hpc; cases hpc
  | step hr _ hs ih => exact ih.step (hr.hist hw) hs

/-- In any execution, every slot a job sees has been written by a finished append or is still in its initial state. -/
theorem Reach.real {n : Nat} {ok : St → Nat → Prop} (hw : 0 < P.hwm) (h : Reach P n ok s) (e x tl : Nat) : ∀ y ∈ snapshot P s e x tl, Real s y := by
  intro y hy
  unfold snapshot at hy
  rcases List.mem_append.mp hy with hy | hy
  · exact (h.copied hw).str e y hy
  · obtain ⟨k, -, rfl⟩ := List.mem_map.mp hy
    rintro ⟨q, r⟩ hq
    exact ((h.hist hw).memd _ q r hq).1

/-- In any execution, a job sees as many slots as the tail of its view says. -/
theorem Reach.seen {n : Nat} {ok : St → Nat → Prop} (hw : 0 < P.hwm) (h : Reach P n ok s) (hi : s.thr[i]? = some t) {e x : Nat} (he : t.ep = some e)
    (hx : t.hd = some x) (hk : ∀ k, t.pc ≠ .gt k) : (snapshot P s e x t.tl).length = t.tl := by
  have hF := (h.inv hw).pinned_str (h.len hw) hi he
  rw [h.view hw i t hi e x he hx] at hF
  have hv : x ≤ t.tl ∧ t.tl ≤ s.tail := (((h.inv hw).thread hi).2 x hx).resolve_left (fun ⟨k, h⟩ => hk k h)
  unfold snapshot
  rw [List.length_append, hF.1, List.length_map, List.length_range]
  omega

end DE.Conc

namespace DE.Full
variable {R : Type} [Inhabited R] {C : Cfg R} {ok : Conc.St → Nat → Prop}

theorem Later.run {okB : Conc.St → Nat → Bool} (hok : ∀ s i, okB s i = true → ok s i) (l : List (Nat × Conc.Ch)) {s0 s s' : St R}
    (h : Later C ok s0 s) (hr : Full.run C okB l s = some s') : Later C ok s0 s' := by
  induction l generalizing s with
  | nil => cases hr; exact h
  | cons x l ih =>
    obtain ⟨i, c⟩ := x
    unfold Full.run at hr
    split at hr
    · rename_i s1 h1 h2
      exact ih (h.step (hok _ _ h1) h2) hr
    · cases hr

/-- Two states of one execution. -/
theorem later_of {n : Nat} (okB : Conc.St → Nat → Bool) (hok : ∀ s i, okB s i = true → ok s i) (l l' : List (Nat × Conc.Ch)) (q : St R → St R → Bool)
    (h : (Full.run C okB l (Full.init C n)).any (fun s0 => (Full.run C okB l' s0).any (q s0)) = true) :
    ∃ s0 s, Reach C n ok s0 ∧ Later C ok s0 s ∧ q s0 s = true := by
  obtain ⟨s0, h1, h2⟩ := reach_of okB hok l _ h
  rw [Option.any_eq_true] at h2
  obtain ⟨s, h3, h4⟩ := h2
  exact ⟨s0, s, h1, Later.run hok l' .refl h3, h4⟩

end DE.Full
