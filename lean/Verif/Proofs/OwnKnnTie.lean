import Verif.Proofs.OwnKnnTests
import Verif.Proofs.VPVisits
import Verif.Properties.VPTree

/-!
A tie in the project's own k-NN test.
-/

namespace DE.Own

/-- A queue that, among elements at the same distance, gives away `c` last. -/
noncomputable def keepLast {R 𝔽 : Type} [LinearOrder 𝔽] (c : R) : MaxQ R 𝔽 := fun f l =>
  open Classical in MaxQ.std f (l.filter (fun x => decide (x ≠ c)) ++ l.filter (fun x => decide (x = c)))

theorem std_first {R 𝔽 : Type} [LinearOrder 𝔽] (f : R → 𝔽) : ∀ (l : List R) {m : R} {rest : List R}, MaxQ.std f l = some (m, rest) →
    ∃ pre post, l = pre ++ m :: post ∧ ∀ y ∈ pre, f y < f m
  | [], m, rest, h => by cases h
  | x :: xs, m, rest, h => by
    unfold MaxQ.std at h
    cases hx : MaxQ.std f xs with
    | none => rw [hx] at h; cases h; exact ⟨[], _, rfl, by simp⟩
    | some p =>
      obtain ⟨m', rest'⟩ := p
      rw [hx] at h
      simp only at h
      split at h
      · cases h; exact ⟨[], _, rfl, by simp⟩
      · next hn =>
        cases h
        obtain ⟨pre, post, e, hp⟩ := std_first f xs hx
        refine ⟨x :: pre, post, by rw [e]; rfl, ?_⟩
        intro y hy
        rcases List.mem_cons.mp hy with rfl | hy
        · exact not_le.mp hn
        · exact hp y hy

theorem keepLast_ok {R 𝔽 : Type} [LinearOrder 𝔽] (c : R) : (keepLast c : MaxQ R 𝔽).Ok := by
  classical
  intro f l hl
  have hp : l.Perm (l.filter (fun x => decide (x ≠ c)) ++ l.filter (fun x => decide (x = c))) := by
    have := (List.filter_append_perm (fun x => decide (x ≠ c)) l).symm
    refine this.trans (List.Perm.of_eq ?_)
    congr 1
    refine List.filter_congr (fun x _ => ?_)
    by_cases h : x = c <;> simp [h]
  have hne : l.filter (fun x => decide (x ≠ c)) ++ l.filter (fun x => decide (x = c)) ≠ [] := by
    intro h; rw [h] at hp; exact hl hp.eq_nil
  obtain ⟨x, rest, h1, h2, h3⟩ := MaxQ.std_ok f _ hne
  refine ⟨x, rest, ?_, hp.trans h2, fun y hy => h3 y (hp.mem_iff.mp hy)⟩
  unfold keepLast
  convert h1

theorem keepLast_last {R 𝔽 : Type} [LinearOrder 𝔽] {c : R} {f : R → 𝔽} {l rest : List R} (h : keepLast c f l = some (c, rest)) :
    ∀ y ∈ l, y ≠ c → f y < f c := by
  classical
  unfold keepLast at h
  obtain ⟨pre, post, e, hp⟩ := std_first f _ h
  intro y hy hyc
  apply hp
  have hy' : y ∈ l.filter (fun x => decide (x ≠ c)) := List.mem_filter.mpr ⟨hy, by simpa using hyc⟩
  rcases List.append_eq_append_iff.mp e with ⟨a', h1, h2⟩ | ⟨c', h1, h2⟩
  · rw [h1]
    exact List.mem_append_left _ (by convert hy')
  · cases c' with
    | nil =>
      rw [List.append_nil] at h1
      rw [← h1]; convert hy'
    | cons z zs =>
      rw [List.cons_append] at h2
      injection h2 with h2 _
      have : c ∈ l.filter (fun x => decide (x ≠ c)) := by
        have : c ∈ pre ++ z :: zs := by rw [h2]; simp
        rw [← h1] at this
        convert this
      have := (List.mem_filter.mp this).2
      simp at this

/-- In a 2-nearest search around 1 the point 2, once in the queue, stays there. -/
theorem tie_stays : ∀ (vs : List (Fin 2 → ℝ)) {X : List (Fin 2 → ℝ)} {st st' : VP.SState (Fin 2 → ℝ) ℝ},
    VP.Found 2 (fun y => Point.euclid y (diag 1)) X st → (vs ++ X).Nodup → (∀ v ∈ vs ++ X, ∃ i, v = diag i) → diag 2 ∈ st.1 →
    VP.visits (VP.visit (keepLast (diag 2)) Point.euclid (diag 1) 2) vs st = .ok st' → diag 2 ∈ st'.1
  | [], X, st, st', _, _, _, hc, h => by cases h; exact hc
  | x :: vs, X, st, st', hF, hnd, hall, hc, h => by
    unfold VP.visits at h
    rw [bind_ok] at h
    obtain ⟨s1, h1, h⟩ := h
    have hsym := (Point.euclid_metric (D := 2)).symm
    have hF1 := (VP.visit_good (keepLast_ok (diag 2)) (safe := True) hsym (by omega) x hF).elim h1
    have hperm : (x :: vs ++ X).Perm (vs ++ x :: X) := List.perm_middle.symm
    refine tie_stays vs hF1 (hperm.nodup_iff.mp hnd) (fun v hv => hall v (hperm.mem_iff.mpr hv)) ?_ h
    -- one visit
    have hsub : ∀ y ∈ st.1, y ∈ X := by
      obtain ⟨⟨rest, g1, -, -⟩, -⟩ := hF
      exact fun y hy => g1.mem_iff.mpr (List.mem_append_left _ hy)
    have hstn : st.1.Nodup := by
      obtain ⟨⟨rest, g1, -, -⟩, -⟩ := hF
      have : X.Nodup := (List.nodup_append.mp hnd).2.1
      exact (List.nodup_append.mp (g1.nodup_iff.mp this)).1
    have hxX : x ∉ X := by
      intro hx
      exact (List.nodup_append.mp hnd).2.2 x List.mem_cons_self x hx rfl
    unfold VP.visit at h1
    split at h1
    · next hcl =>
      have fin : ∀ l : List (Fin 2 → ℝ), diag 2 ∈ l →
          (if (x :: l).length = 2 then do
            let (top, _) ← VP.popR (keepLast (diag 2)) (fun y => Point.euclid y (diag 1)) (x :: l)
            .ok (x :: l, some (Point.euclid (diag 1) top))
          else .ok (x :: l, st.2)) = .ok s1 → diag 2 ∈ s1.1 := by
        intro l hl h1
        split at h1
        · rw [bind_ok] at h1
          obtain ⟨⟨t, l'⟩, -, h1⟩ := h1
          cases h1
          exact List.mem_cons_of_mem _ hl
        · cases h1
          exact List.mem_cons_of_mem _ hl
      by_cases hlen : st.1.length = 2
      · rw [if_pos hlen] at h1
        cases hk : keepLast (diag 2) (fun y => Point.euclid y (diag 1)) st.1 with
        | none =>
          unfold VP.popR at h1
          rw [hk] at h1
          cases h1
        | some p =>
          obtain ⟨t, rest⟩ := p
          have e : VP.popR (keepLast (diag 2)) (fun y => Point.euclid y (diag 1)) st.1 = .ok (t, rest) := by unfold VP.popR; rw [hk]
          rw [e] at h1
          refine fin rest ?_ h1
          have hne : st.1 ≠ [] := by intro h0; rw [h0] at hc; cases hc
          obtain ⟨t', rest', k1, k2, k3⟩ := keepLast_ok (diag 2) (fun y => Point.euclid y (diag 1)) st.1 hne
          rw [hk] at k1
          cases k1
          by_cases ht : t = diag 2
          · exfalso
            subst ht
            have hl := keepLast_last hk
            -- the other element is 1
            have hr : rest.length = 1 := by have := k2.length_eq; simp only [List.length_cons] at this; omega
            obtain ⟨y, rfl⟩ := List.length_eq_one_iff.mp hr
            have hy : y ∈ st.1 := k2.mem_iff.mpr (by simp)
            have hyc : y ≠ diag 2 := by
              have := k2.nodup_iff.mp hstn
              intro h0
              subst h0
              simp at this
            obtain ⟨i, rfl⟩ := hall y (List.mem_append_right _ (hsub y hy))
            have q1 := euclid_lt.mp (hl _ hy hyc)
            have hi : i = 1 := by unfold far at q1; omega
            subst hi
            -- so is `x`
            obtain ⟨m, hm, hm2, -⟩ := hF.2.2 hlen
            rw [hm2] at hcl
            simp only [VP.closer, decide_eq_true_eq] at hcl
            obtain ⟨j, rfl⟩ := hall x (by simp)
            rw [hsym] at hcl
            have q2 := lt_of_lt_of_le hcl (k3 m hm)
            have q3 := euclid_lt.mp q2
            have hj : j = 1 := by unfold far at q3; omega
            subst hj
            exact hxX (hsub _ hy)
          · rcases List.mem_cons.mp (k2.mem_iff.mp hc) with h0 | h0
            · exact absurd h0.symm ht
            · exact h0
      · rw [if_neg hlen] at h1
        exact fin st.1 hc h1
    · cases h1
      exact hc

end DE.Own
