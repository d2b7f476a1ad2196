import Verif.Properties.Concurrency

/-!
C46 for appends that no other append overtakes, as in the project's concurrent tests with their single client
(tests/include/concurrent_extension.h, `t_insert`, `t_debug_insert`, `t_insert_with_mem_merges`).
-/

namespace DE.Conc
variable {P : Par} {n i : Nat}

/-- Whatever flushes do meanwhile, an append fails with the buffer never full only if the tail moves during the call, that is, if another append
takes a position. -/
theorem C46_alone_partial (hw : 0 < P.hwm) {r tl : Nat} {s0 s1 s2 : St} (h0 : Reach P n any s0) :
    ¬ FailsUnfull P (fun s => s.tail = tl) i r s0 s1 s2 := by
  rintro ⟨hp, hW, ⟨c, hs⟩, hp2⟩
  have inv : ∀ {a}, Within P (fun s => s.tail < s.head.idx + P.hwm ∧ Trying i r s ∧ s.tail = tl) s0 a →
      ∀ t, a.thr[i]? = some t → t.pc = .ap1 r ∨ t.pc = .ap2 r tl ∨ t.pc = .ap3 r tl := by
    intro a ha
    induction ha with
    | refl hq =>
      intro t ht
      unfold pcOf at hp
      rw [ht] at hp
      exact .inl (Option.some.inj hp)
    | @step a b k c' ha hs hq ih =>
      intro t ht
      obtain ⟨_, ⟨w, hw', -⟩, htl⟩ := ha.last
      obtain ⟨_, ⟨w2, hw2, hpc2⟩, htl2⟩ := hq
      rw [hw2] at ht; cases ht
      have hpcw := ih w hw'
      unfold Conc.step at hs
      split at hs
      case h_2 => cases hs
      rename_i v hv
      by_cases hk : i = k
      · subst hk
        rw [hw'] at hv; cases hv
        have hlt : i < a.thr.length := (List.getElem?_eq_some_iff.mp hw').1
        have get : ∀ {a' : St} {t' : Th}, (.ok (some (a'.setT i t')) : Out) = .ok (some b) → a'.thr = a.thr → t = t' := by
          intro a' t' h2 h1
          have h2 := ok_inj h2; subst h2
          rw [show (a'.setT i t').thr[i]? = some t' from List.getElem?_set_self (by rw [h1]; exact hlt)] at hw2
          exact (Option.some.inj hw2).symm
        unfold stepT at hs
        rcases hpcw with hpcw | hpcw | hpcw <;> rw [hpcw] at hs <;> simp only at hs
        · have := get hs rfl; subst this
          exact .inr (.inl (by rw [htl]))
        · split at hs
          · have := get hs rfl; subst this
            rcases hpc2 with h | ⟨y, h | h | h⟩ <;> cases h
          · have := get hs rfl; subst this
            exact .inr (.inr rfl)
        · rw [if_pos htl] at hs
          have := get hs rfl; subst this
          rcases hpc2 with h | ⟨y, h | h | h⟩ <;> cases h
      · rcases step_others hs hk with e | e
        · rw [e, hw'] at hw2; cases hw2; exact hpcw
        · rw [e, hw'] at hw2
          simp only [Option.map_some, Option.some.injEq] at hw2
          subst hw2
          unfold wake at hpc2 ⊢
          split
          · rename_i hx
            rcases hpcw with h | h | h <;> rw [h] at hx <;> cases hx
          · exact hpcw
  obtain ⟨hfull, ⟨w, hw', -⟩, htl⟩ := hW.last
  have hpcw := inv hW w hw'
  have hI : s1.head.idx ≤ s1.tail := ((hW.reach h0).inv hw).bnd.1
  have hlt : i < s1.thr.length := (List.getElem?_eq_some_iff.mp hw').1
  unfold Conc.step at hs
  rw [hw'] at hs
  simp only at hs
  unfold stepT at hs
  have end' : ∀ {a : St} {t' : Th}, (.ok (some (a.setT i t')) : Out) = .ok (some s2) → a.thr = s1.thr → t'.pc = .idle := by
    intro a t' h2 h1
    have h2 := ok_inj h2; subst h2
    unfold pcOf at hp2
    rw [show (a.setT i t').thr[i]? = some t' from List.getElem?_set_self (by rw [h1]; exact hlt)] at hp2
    exact Option.some.inj hp2
  rcases hpcw with hpcw | hpcw | hpcw <;> rw [hpcw] at hs <;> simp only at hs
  · have := end' hs rfl; cases this
  · split at hs
    · rename_i hge
      unfold subGe at hge
      rw [if_pos (by omega), decide_eq_true_eq] at hge
      omega
    · have := end' hs rfl; cases this
  · rw [if_pos htl] at hs
    have := end' hs rfl; cases this

/-- The hypotheses hold with a whole flush inside the call: the appending thread 3 loads the tail, the flush empties the buffer and moves the head,
the tail stays at 2, and the append is about to claim position 2. -/
example : ∃ s0 s1, Reach ⟨1, 3⟩ 4 any s0 ∧ pcOf s0 3 = some (.ap1 15) ∧
    Within ⟨1, 3⟩ (fun s => s.tail < s.head.idx + 3 ∧ Trying 3 15 s ∧ s.tail = 2) s0 s1 ∧
    s0.head.idx = 0 ∧ s1.head.idx = 2 ∧ pcOf s1 3 = some (.ap3 15 2) := by
  have key : ∀ {o : Option St} {b : St → Bool}, (o.any b) = true → ∃ s, o = some s ∧ b s = true := by
    intro o b h
    cases o with
    | none => cases h
    | some s => exact ⟨s, rfl, h⟩
  have k := key (o := Conc.run ⟨1, 3⟩ anyB ([(3, Ch.insert 15), (3, Ch.tailFirst)] ++ gos 3 1 ++ insLow 0 10 ++ insSched 0 11) (init ⟨1, 3⟩ 4))
    (b := fun s0 : St => decide (pcOf s0 3 = some (.ap1 15)) && decide (s0.head.idx = 0) &&
      (runIn ⟨1, 3⟩ (fun s => okB46 ⟨1, 3⟩ 3 15 s && decide (s.tail = 2)) (gos 3 1 ++ job1 2 2 ++ gos 3 1) s0).any
        fun s1 : St => decide (s1.head.idx = 2) && decide (pcOf s1 3 = some (.ap3 15 2))) (by decide +kernel)
  obtain ⟨s0, h0, hb⟩ := k
  simp only [Bool.and_eq_true, decide_eq_true_eq] at hb
  obtain ⟨s1, h1, hc⟩ := key hb.2
  simp only [Bool.and_eq_true, decide_eq_true_eq] at hc
  refine ⟨s0, s1, Reach.run (fun _ _ _ => trivial) _ .init h0, hb.1.1, ?_, hb.1.2, hc.1, hc.2⟩
  refine Within.run (fun s h => ?_) _ (fun hq => .refl hq) h1
  rw [Bool.and_eq_true, decide_eq_true_eq] at h
  exact ⟨(okB46_sound h.1).1, (okB46_sound h.1).2.1, h.2⟩

end DE.Conc
