import Verif.Proofs.VPCost
import Verif.Proofs.Unbiased
import Mathlib.Data.Finset.Card
import Mathlib.Logic.Equiv.Basic
import Mathlib.Order.Interval.Finset.Nat

/-!
Lemmas for C110: the cost of selecting medians, averaged over the random numbers.
-/

namespace DE.VPA
open Finset DE.VP
variable {R 𝔽 : Type} [LinearOrder 𝔽]

/-! ### Averages over the next draws of a tape -/

/-- The sum of `F` over the tapes that have `N` draws below `M` from position `pos` on and agree with `f` elsewhere. -/
def total (M : Nat) (F : (Nat → Nat) → Nat) : Nat → (Nat → Nat) → Nat → Nat
  | 0, f, _ => F f
  | N+1, f, pos => ∑ x ∈ range M, total M F N (Function.update f pos x) (pos + 1)

theorem total_mono {M : Nat} {F G : (Nat → Nat) → Nat} : ∀ (N : Nat) (f : Nat → Nat) (pos : Nat),
    (∀ g : Nat → Nat, (∀ i, i < pos → g i = f i) → F g ≤ G g) → total M F N f pos ≤ total M G N f pos
  | 0, f, _, h => h f (fun _ _ => rfl)
  | N+1, f, pos, h => by
    unfold total
    refine Finset.sum_le_sum (fun x _ => total_mono N _ _ ?_)
    intro g hg
    refine h g (fun i hi => ?_)
    rw [hg i (by omega), Function.update_of_ne (by omega)]

theorem total_add_const {M : Nat} {F : (Nat → Nat) → Nat} (c : Nat) : ∀ (N : Nat) (f : Nat → Nat) (pos : Nat),
    total M (fun g => c + F g) N f pos = c * M ^ N + total M F N f pos
  | 0, f, _ => by simp [total]
  | N+1, f, pos => by
    unfold total
    simp only [total_add_const c N, Finset.sum_add_distrib, Finset.sum_const, Finset.card_range, smul_eq_mul]
    rw [pow_succ]; ring

/-- `t` written on `f` from `pos` on. -/
def ext {N M : Nat} (f : Nat → Nat) (pos : Nat) (t : Fin N → Fin M) : Nat → Nat :=
  fun i => if h : pos ≤ i ∧ i < pos + N then (t ⟨i - pos, by omega⟩ : Nat) else f i

theorem total_eq {M : Nat} {F : (Nat → Nat) → Nat} : ∀ (N : Nat) (f : Nat → Nat) (pos : Nat),
    total M F N f pos = ∑ t : Fin N → Fin M, F (ext f pos t)
  | 0, f, pos => by
    unfold total
    have : ∀ t : Fin 0 → Fin M, ext f pos t = f := by
      intro t; funext i; unfold ext; rw [dif_neg (by omega)]
    simp [this]
  | N+1, f, pos => by
    unfold total
    rw [← (Fin.consEquiv (fun _ => Fin M)).sum_comp, Fintype.sum_prod_type, Finset.sum_range]
    refine Finset.sum_congr rfl (fun x _ => ?_)
    rw [total_eq N]
    refine Finset.sum_congr rfl (fun t _ => ?_)
    congr 1
    funext i
    unfold ext
    simp only [Fin.consEquiv_apply]
    by_cases h0 : i = pos
    · subst h0
      rw [dif_neg (by omega), dif_pos (by omega), Function.update_self]
      have : (⟨i - i, by omega⟩ : Fin (N+1)) = 0 := by ext; simp
      rw [this, Fin.cons_zero]
    · by_cases h1 : pos ≤ i ∧ i < pos + (N + 1)
      · rw [dif_pos (by omega), dif_pos h1]
        have : (⟨i - pos, by omega⟩ : Fin (N+1)) = Fin.succ ⟨i - (pos + 1), by omega⟩ := by ext; simp; omega
        rw [this, Fin.cons_succ]
      · rw [dif_neg (by omega), dif_neg h1, Function.update_of_ne h0]

/-! ### The position of the pivot -/

/-- `partition` after its random number has been drawn (VPTree.h 313-331). -/
def partAt (start stop : Nat) (a : List (Ptr R 𝔽)) (o : Nat) : Res (List (Ptr R 𝔽) × Nat) := do
  let a ← swapR a (start + o) stop
  let (a, j) ← partLoop stop (stop - start) start start a
  let a ← swapR a j stop
  .ok (a, j)

theorem partition_eq {g : Rng} {start stop : Nat} {a : List (Ptr R 𝔽)} {pos : Nat} (h : start < stop) (hm : stop - start ≤ g.max) :
    partition g start stop a pos = (partAt start stop a (g.tape pos % (stop - start))).map (fun r => (r.1, r.2, pos + 1)) := by
  unfold partition Rng.below partAt
  rw [if_neg (by omega), map_bind']
  show (swapR a (start + g.tape pos % (stop - start)) stop >>= _) = _
  congr 1; funext b
  rw [map_bind']
  congr 1; funext ⟨b, j⟩
  simp only
  rw [map_bind']
  congr 1

theorem partAt_good {start stop o : Nat} {a : List (Ptr R 𝔽)} (ho : o < stop - start) (hlen : stop < a.length) :
    ∃ b j p, partAt start stop a o = .ok (b, j) ∧ Swaps start (stop+1) a b ∧ start ≤ j ∧ j ≤ stop ∧ a[start + o]? = some p ∧
      b[j]? = some p ∧ InSeg (fun x => x.dist < p.dist) start j b ∧ InSeg (fun x => p.dist ≤ x.dist) (j + 1) (stop + 1) b := by
  have h1 : start + o < a.length := by omega
  unfold partAt
  rw [swapR_ok h1 hlen]
  simp only [bind, Except.bind]
  have hsw : Swaps start (stop+1) a (swapL a (start + o) stop h1 hlen) := Swaps.one _ _ (by omega) (by omega) (by omega) (by omega)
  have hl2 : stop < (swapL a (start + o) stop h1 hlen).length := by rw [hsw.len]; exact hlen
  have hp : (swapL a (start + o) stop h1 hlen)[stop]? = some a[start + o] := by
    rw [swapL_get, if_pos rfl, List.getElem?_eq_getElem h1]
  have := partLoop_good True (start := start) (stop - start) start start _ (by omega) hl2 (le_refl _) (le_refl _) hp
    (fun i a b => by omega) (fun i a b => by omega)
  rcases this with ⟨⟨b, j⟩, e, g1, g2, g3, g4, g5, g6⟩ | ⟨-, h⟩
  swap
  · exact absurd trivial h
  simp only at g1 g2 g3 g4 g5 g6
  have hb : b.length = a.length := by rw [g1.len, hsw.len]
  rw [e]
  simp only
  rw [swapR_ok (show j < b.length by omega) (show stop < b.length by omega)]
  refine ⟨_, j, a[start + o], rfl, ?_, g2, g3, List.getElem?_eq_getElem h1, ?_, ?_, ?_⟩
  · exact (hsw.trans (g1.mono (le_refl _) (by omega))).trans (Swaps.one _ _ (by omega) (by omega) (by omega) (by omega))
  · rw [swapL_get]
    split
    · next e => subst e; exact g4
    · rw [if_pos rfl]; exact g4
  · intro k hk1 hk2 x hx
    rw [swapL_get, if_neg (by omega), if_neg (by omega)] at hx
    exact g5 k hk1 hk2 x hx
  · intro k hk1 hk2 x hx
    rw [swapL_get] at hx
    split at hx
    · next e => exact g6 j (le_refl _) (by omega) x hx
    · rw [if_neg (by omega)] at hx
      exact g6 k (by omega) (by omega) x hx

open Classical in
/-- The positions of a segment that are closer than `d`. -/
noncomputable def closerSet (start stop : Nat) (a : List (Ptr R 𝔽)) (d : 𝔽) : Finset Nat :=
  (Finset.Ico start (stop + 1)).filter (fun i => ∃ x, a[i]? = some x ∧ x.dist < d)

theorem closerSet_swaps {start stop : Nat} {a b : List (Ptr R 𝔽)} (h : Swaps start (stop + 1) a b) (d : 𝔽) :
    (closerSet start stop b d).card = (closerSet start stop a d).card := by
  induction h with
  | refl => rfl
  | @step b i j h1 h2 h3 h4 h5 h6 _ ih =>
    rw [← ih]
    refine Finset.card_equiv (Equiv.swap i j) (fun k => ?_)
    unfold closerSet
    simp only [Finset.mem_filter, Finset.mem_Ico]
    have e : (swapL b i j h1 h2)[k]? = b[Equiv.swap i j k]? := by
      rw [swapL_get]
      by_cases hj : j = k
      · subst hj; rw [if_pos rfl, Equiv.swap_apply_right]
      · rw [if_neg hj]
        by_cases hi : i = k
        · subst hi; rw [if_pos rfl, Equiv.swap_apply_left]
        · rw [if_neg hi, Equiv.swap_apply_of_ne_of_ne (Ne.symm hi) (Ne.symm hj)]
    rw [e]
    have : (start ≤ k ∧ k < stop + 1) ↔ (start ≤ Equiv.swap i j k ∧ Equiv.swap i j k < stop + 1) := by
      by_cases hj : k = j
      · subst hj; rw [Equiv.swap_apply_right]; omega
      · by_cases hi : k = i
        · subst hi; rw [Equiv.swap_apply_left]; omega
        · rw [Equiv.swap_apply_of_ne_of_ne hi hj]
    rw [this]

/-- The pivot ends at the position that is its rank. -/
theorem rank_eq {start stop j : Nat} {a b : List (Ptr R 𝔽)} {p : Ptr R 𝔽} (hs : Swaps start (stop+1) a b) (h1 : start ≤ j) (h2 : j ≤ stop)
    (hlen : stop < a.length) (h3 : b[j]? = some p) (h4 : InSeg (fun x => x.dist < p.dist) start j b)
    (h5 : InSeg (fun x => p.dist ≤ x.dist) (j + 1) (stop + 1) b) : (closerSet start stop a p.dist).card = j - start := by
  rw [← closerSet_swaps hs]
  have : closerSet start stop b p.dist = Finset.Ico start j := by
    ext i
    unfold closerSet
    simp only [Finset.mem_filter, Finset.mem_Ico]
    constructor
    · rintro ⟨⟨i1, i2⟩, x, hx, hlt⟩
      refine ⟨i1, ?_⟩
      by_contra hij
      rcases Nat.lt_or_ge j i with h | h
      · exact absurd hlt (not_lt.mpr (h5 i (by omega) i2 x hx))
      · obtain rfl : i = j := by omega
        rw [h3] at hx; cases hx
        exact lt_irrefl _ hlt
    · rintro ⟨i1, i2⟩
      have hl := hs.len
      have : i < b.length := by omega
      exact ⟨⟨i1, by omega⟩, b[i], List.getElem?_eq_getElem this, h4 i i1 i2 _ (List.getElem?_eq_getElem this)⟩
  rw [this, Nat.card_Ico]

/-- The distances of a segment are pairwise different. -/
def Distinct (start stop : Nat) (a : List (Ptr R 𝔽)) : Prop :=
  ∀ i j x y, start ≤ i → i < j → j ≤ stop → a[i]? = some x → a[j]? = some y → x.dist ≠ y.dist

theorem Distinct.ne {start stop : Nat} {a : List (Ptr R 𝔽)} (h : Distinct start stop a) {i j : Nat} {x y : Ptr R 𝔽} (h1 : start ≤ i)
    (h2 : i ≤ stop) (h3 : start ≤ j) (h4 : j ≤ stop) (hne : i ≠ j) (hx : a[i]? = some x) (hy : a[j]? = some y) : x.dist ≠ y.dist := by
  rcases Nat.lt_or_ge i j with hl | hl
  · exact h i j x y h1 hl h4 hx hy
  · exact (h j i y x h3 (by omega) h2 hy hx).symm

theorem Distinct.swaps {start stop lo hi : Nat} {a b : List (Ptr R 𝔽)} (h : Distinct start stop a) (hs : Swaps lo hi a b) (h1 : start ≤ lo)
    (h2 : hi ≤ stop + 1) : Distinct start stop b := by
  induction hs with
  | refl => exact h
  | @step b i j q1 q2 q3 q4 q5 q6 _ ih =>
    intro k l x y k1 k2 k3 hx hy
    have e : ∀ k, (swapL b i j q1 q2)[k]? = b[Equiv.swap i j k]? := by
      intro k
      rw [swapL_get]
      by_cases hj : j = k
      · subst hj; rw [if_pos rfl, Equiv.swap_apply_right]
      · rw [if_neg hj]
        by_cases hi : i = k
        · subst hi; rw [if_pos rfl, Equiv.swap_apply_left]
        · rw [if_neg hi, Equiv.swap_apply_of_ne_of_ne (Ne.symm hi) (Ne.symm hj)]
    have r : ∀ k, start ≤ k → k ≤ stop → start ≤ Equiv.swap i j k ∧ Equiv.swap i j k ≤ stop := by
      intro k z1 z2
      by_cases hj : k = j
      · subst hj; rw [Equiv.swap_apply_right]; omega
      · by_cases hi : k = i
        · subst hi; rw [Equiv.swap_apply_left]; omega
        · rw [Equiv.swap_apply_of_ne_of_ne hi hj]; exact ⟨z1, z2⟩
    rw [e] at hx hy
    exact ih.ne (r k k1 (by omega)).1 (r k k1 (by omega)).2 (r l (by omega) k3).1 (r l (by omega) k3).2
      (fun hh => by have := (Equiv.swap i j).injective hh; omega) hx hy

theorem Distinct.sub {start stop start' stop' : Nat} {a : List (Ptr R 𝔽)} (h : Distinct start stop a) (h1 : start ≤ start') (h2 : stop' ≤ stop) :
    Distinct start' stop' a := fun i j x y a1 a2 a3 hx hy => h i j x y (by omega) a2 (by omega) hx hy

/-- Different draws give different positions of the pivot. -/
theorem pivot_inj {start stop o o' : Nat} {a b b' : List (Ptr R 𝔽)} {j : Nat} (hd : Distinct start stop a) (hlen : stop < a.length)
    (ho : o < stop - start) (ho' : o' < stop - start) (h : partAt start stop a o = .ok (b, j)) (h' : partAt start stop a o' = .ok (b', j)) :
    o = o' := by
  obtain ⟨b1, j1, p, e1, s1, l1, u1, a1, c1, d1, f1⟩ := partAt_good ho hlen
  obtain ⟨b2, j2, p', e2, s2, l2, u2, a2, c2, d2, f2⟩ := partAt_good ho' hlen
  rw [h] at e1; cases e1
  rw [h'] at e2; cases e2
  have r1 := rank_eq s1 l1 u1 hlen c1 d1 f1
  have r2 := rank_eq s2 l2 u2 hlen c2 d2 f2
  by_contra hne
  have hpp := hd.ne (by omega) (by omega) (by omega) (by omega) (show start + o ≠ start + o' by omega) a1 a2
  have key : ∀ (q q' : Ptr R 𝔽) (i : Nat), start ≤ i → i ≤ stop → a[i]? = some q → q.dist < q'.dist →
      (closerSet start stop a q.dist).card < (closerSet start stop a q'.dist).card := by
    intro q q' i i1 i2 hq hlt
    apply Finset.card_lt_card
    rw [Finset.ssubset_iff_of_subset]
    · refine ⟨i, ?_, ?_⟩
      · unfold closerSet; simp only [Finset.mem_filter, Finset.mem_Ico]; exact ⟨⟨i1, by omega⟩, q, hq, hlt⟩
      · unfold closerSet; simp only [Finset.mem_filter, Finset.mem_Ico]
        rintro ⟨-, x, hx, hl⟩
        rw [hq] at hx; cases hx
        exact lt_irrefl _ hl
    · intro k hk
      unfold closerSet at hk ⊢
      simp only [Finset.mem_filter, Finset.mem_Ico] at hk ⊢
      obtain ⟨hk1, x, hx, hl⟩ := hk
      exact ⟨hk1, x, hx, lt_trans hl hlt⟩
  rcases lt_or_gt_of_ne hpp with hl | hl
  · have := key p p' (start + o) (by omega) (by omega) a1 hl
    omega
  · have := key p' p (start + o') (by omega) (by omega) a2 hl
    omega

/-! ### The recurrence -/

theorem sum_sides : ∀ n : Nat, 4 * ∑ p ∈ range n, max p (n - 1 - p) + 2 * n ≤ 3 * n ^ 2 + 1
  | 0 => by simp
  | 1 => by simp
  | n+2 => by
    have ih := sum_sides n
    have e : ∑ p ∈ range (n+2), max p (n + 2 - 1 - p) = ∑ p ∈ range n, max p (n - 1 - p) + (3 * n + 2) := by
      rw [Finset.sum_range_succ, Finset.sum_range_succ']
      have : ∑ p ∈ range n, max (p + 1) (n + 2 - 1 - (p + 1)) = ∑ p ∈ range n, (max p (n - 1 - p) + 1) := by
        refine Finset.sum_congr rfl (fun p hp => ?_)
        have := Finset.mem_range.mp hp
        omega
      rw [this, Finset.sum_add_distrib]
      simp only [Finset.sum_const, Finset.card_range, smul_eq_mul]
      omega
    rw [e]
    nlinarith

/-- The parts left over by `m` different pivots among `m + 1` records. -/
theorem sum_rank {m : Nat} (r : Nat → Nat) (hr : ∀ o, o < m → r o ≤ m) (hinj : ∀ o o', o < m → o' < m → r o = r o' → o = o') :
    m * m + 4 * ∑ o ∈ range m, max (r o) (m - r o) ≤ 4 * (m + 1) * m := by
  have hsum : ∑ o ∈ range m, max (r o) (m - r o) = ∑ p ∈ (range m).image r, max p (m - p) := by
    rw [Finset.sum_image]
    intro o ho o' ho' h
    exact hinj o o' (Finset.mem_range.mp ho) (Finset.mem_range.mp ho') h
  have hsub : (range m).image r ⊆ range (m + 1) := by
    intro p hp
    obtain ⟨o, ho, rfl⟩ := Finset.mem_image.mp hp
    have := hr o (Finset.mem_range.mp ho)
    exact Finset.mem_range.mpr (by omega)
  have hcard : ((range m).image r).card = m := by
    rw [Finset.card_image_of_injOn, Finset.card_range]
    intro o ho o' ho' h
    exact hinj o o' (Finset.mem_range.mp ho) (Finset.mem_range.mp ho') h
  have hex : ∃ e ∈ range (m + 1), e ∉ (range m).image r := by
    by_contra hne
    push_neg at hne
    have : range (m + 1) ⊆ (range m).image r := hne
    have := Finset.card_le_card this
    rw [hcard, Finset.card_range] at this
    omega
  obtain ⟨e, he, hne⟩ := hex
  have hle : ∑ p ∈ (range m).image r, max p (m - p) + max e (m - e) ≤ ∑ p ∈ range (m + 1), max p (m - p) := by
    rw [Nat.add_comm, ← Finset.sum_insert (f := fun p => max p (m - p)) hne]
    refine Finset.sum_le_sum_of_subset ?_
    intro p hp
    rcases Finset.mem_insert.mp hp with rfl | hp
    · exact he
    · exact hsub hp
  have hs := sum_sides (m + 1)
  simp only [Nat.add_sub_cancel] at hs
  rw [hsum]
  have he2 : m ≤ 2 * max e (m - e) := by omega
  rcases Nat.eq_zero_or_pos m with h0 | h0
  · subst h0; simp
  · nlinarith

/-! ### The selection -/

/-- The comparisons of a selection and the cost of what follows. -/
def costQ (K : List (Ptr R 𝔽) → Nat → Nat) : Res (List (Ptr R 𝔽) × Nat × Nat × Nat) → Nat
  | .ok (b, pos, c, _) => c + K b pos
  | .error _ => 0

theorem quickselect_average {M mx k : Nat} (hM0 : 0 < M) : ∀ (fuel start stop : Nat) (a : List (Ptr R 𝔽)) (pos : Nat) (f : Nat → Nat)
    (N N0 B : Nat) (K : (Nat → Nat) → List (Ptr R 𝔽) → Nat → Nat),
    stop + 1 - start ≤ fuel → start ≤ k → k ≤ stop → stop < a.length → a.length ≤ mx → (∀ d, 0 < d → d ≤ stop - start → d ∣ M) →
    Distinct start stop a →
    (∀ b f pos N', Swaps start (stop + 1) a b → N0 ≤ N' → total M (fun g => K g b pos) N' f pos ≤ B * M ^ N') →
    N0 + (stop - start) ≤ N →
    total M (fun g => costQ (K g) (quickselectC ⟨g, mx⟩ k fuel start stop a pos)) N f pos ≤ (4 * (stop - start + 1) + B) * M ^ N
  | 0, start, stop, a, pos, f, N, N0, B, K, hf, h1, h2, h3, hm, hM, hd, hK, hN => by omega
  | fuel+1, start, stop, a, pos, f, N, N0, B, K, hf, h1, h2, h3, hm, hM, hd, hK, hN => by
    by_cases he : start = stop
    · have : ∀ g : Nat → Nat, costQ (K g) (quickselectC ⟨g, mx⟩ k (fuel+1) start stop a pos) = K g a pos := by
        intro g
        unfold quickselectC
        rw [if_pos he]
        simp [costQ]
      simp only [this]
      refine (hK a f pos N (.refl _) (by omega)).trans ?_
      exact Nat.mul_le_mul_right _ (by omega)
    obtain ⟨N, rfl⟩ : ∃ n, N = n + 1 := ⟨N - 1, by omega⟩
    unfold total
    obtain ⟨q, hq⟩ := hM (stop - start) (by omega) (le_refl _)
    -- the position of the pivot, as a function of the draw
    have hpart : ∀ o, ∃ b j, o < stop - start → partAt start stop a o = .ok (b, j) ∧ Swaps start (stop+1) a b ∧ start ≤ j ∧ j ≤ stop := by
      intro o
      by_cases ho : o < stop - start
      · obtain ⟨b, j, p, e1, e2, e3, e4, -⟩ := partAt_good ho h3
        exact ⟨b, j, fun _ => ⟨e1, e2, e3, e4⟩⟩
      · exact ⟨[], 0, fun h => absurd h ho⟩
    choose bb jj hbj using hpart
    have step : ∀ x ∈ range M, total M (fun g => costQ (K g) (quickselectC ⟨g, mx⟩ k (fuel+1) start stop a pos)) N (Function.update f pos x) (pos + 1)
        ≤ ((stop - start) + 4 * max (jj (x % (stop - start)) - start) (stop - start - (jj (x % (stop - start)) - start)) + B) * M ^ N := by
      intro x _
      generalize hoe : x % (stop - start) = o
      have ho : o < stop - start := by rw [← hoe]; exact Nat.mod_lt _ (by omega)
      obtain ⟨e1, e2, e3, e4⟩ := hbj o ho
      generalize bb o = b at *
      generalize jj o = j at *
      have hbl := e2.len
      have hval : ∀ g : Nat → Nat, (∀ i, i < pos + 1 → g i = Function.update f pos x i) →
          partition ⟨g, mx⟩ start stop a pos = .ok (b, j, pos + 1) := by
        intro g hg
        rw [partition_eq (by omega) (by simp only; omega)]
        have : g pos = x := by rw [hg pos (by omega), Function.update_self]
        simp only [this, hoe, e1]
        rfl
      rcases Nat.lt_trichotomy k j with hk | hk | hk
      · refine (total_mono (G := fun g => (stop - start) + costQ (K g) (quickselectC ⟨g, mx⟩ k fuel start (j - 1) b (pos + 1))) N _ _ ?_).trans ?_
        · intro g hg
          rw [quickselectC, if_neg he, hval g hg]
          show costQ (K g) (if k < j then _ else _) ≤ _
          rw [if_pos hk]
          cases quickselectC ⟨g, mx⟩ k fuel start (j - 1) b (pos + 1) with
          | error e => exact Nat.zero_le _
          | ok r => obtain ⟨c, p, n, d⟩ := r; simp only [costQ, bind, Except.bind]; omega
        · rw [total_add_const]
          have ih := quickselect_average (mx := mx) hM0 fuel start (j - 1) b (pos + 1) (Function.update f pos x) N N0 B K (by omega) h1 (by omega) (by omega)
            (by omega) (fun d d1 d2 => hM d d1 (by omega)) ((hd.swaps e2 (le_refl _) (le_refl _)).sub (le_refl _) (by omega))
            (fun b' f' pos' N' hs hN' => hK b' f' pos' N' (e2.trans (hs.mono (le_refl _) (by omega))) hN') (by omega)
          have : 4 * (j - 1 - start + 1) + B ≤ 4 * max (j - start) (stop - start - (j - start)) + B := by omega
          have := Nat.mul_le_mul_right (M ^ N) this
          nlinarith
      · subst hk
        refine (total_mono (G := fun g => (stop - start) + K g b (pos + 1)) N _ _ ?_).trans ?_
        · intro g hg
          rw [quickselectC, if_neg he, hval g hg]
          show costQ (K g) (if k < k then _ else _) ≤ _
          rw [if_neg (by omega), if_neg (by omega)]
          exact le_refl _
        · rw [total_add_const]
          have := hK b (Function.update f pos x) (pos + 1) N e2 (by omega)
          nlinarith [Nat.zero_le (max (k - start) (stop - start - (k - start)) * M ^ N)]
      · refine (total_mono (G := fun g => (stop - start) + costQ (K g) (quickselectC ⟨g, mx⟩ k fuel (j + 1) stop b (pos + 1))) N _ _ ?_).trans ?_
        · intro g hg
          rw [quickselectC, if_neg he, hval g hg]
          show costQ (K g) (if k < j then _ else _) ≤ _
          rw [if_neg (by omega), if_pos hk]
          cases quickselectC ⟨g, mx⟩ k fuel (j + 1) stop b (pos + 1) with
          | error e => exact Nat.zero_le _
          | ok r => obtain ⟨c, p, n, d⟩ := r; simp only [costQ, bind, Except.bind]; omega
        · rw [total_add_const]
          have ih := quickselect_average (mx := mx) hM0 fuel (j + 1) stop b (pos + 1) (Function.update f pos x) N N0 B K (by omega) (by omega) h2 (by omega)
            (by omega) (fun d d1 d2 => hM d d1 (by omega)) ((hd.swaps e2 (le_refl _) (le_refl _)).sub (by omega) (le_refl _))
            (fun b' f' pos' N' hs hN' => hK b' f' pos' N' (e2.trans (hs.mono (by omega) (le_refl _))) hN') (by omega)
          have : 4 * (stop - (j + 1) + 1) + B ≤ 4 * max (j - start) (stop - start - (j - start)) + B := by omega
          have := Nat.mul_le_mul_right (M ^ N) this
          nlinarith
    refine (Finset.sum_le_sum step).trans ?_
    rw [← Finset.sum_mul]
    have hmod := sum_mod (fun o => (stop - start) + 4 * max (jj o - start) (stop - start - (jj o - start)) + B) (stop - start) q
    rw [← hq] at hmod
    rw [hmod]
    have hrank := sum_rank (m := stop - start) (fun o => jj o - start)
      (fun o ho => by obtain ⟨-, -, e3, e4⟩ := hbj o ho; omega)
      (fun o o' ho ho' h => by
        obtain ⟨e1, -, e3, e4⟩ := hbj o ho
        obtain ⟨e1', -, e3', e4'⟩ := hbj o' ho'
        have : jj o = jj o' := by omega
        rw [← this] at e1'
        exact pivot_inj hd h3 ho ho' e1 e1')
    have hsum : ∑ u ∈ range (stop - start), ((stop - start) + 4 * max (jj u - start) (stop - start - (jj u - start)) + B) =
        (stop - start) * (stop - start) + 4 * ∑ o ∈ range (stop - start), max (jj o - start) (stop - start - (jj o - start)) + (stop - start) * B := by
      rw [Finset.sum_add_distrib, Finset.sum_add_distrib, ← Finset.mul_sum]
      simp only [Finset.sum_const, Finset.card_range, smul_eq_mul]
    rw [hsum, pow_succ]
    have h4 : (stop - start) * (stop - start) + 4 * ∑ o ∈ range (stop - start), max (jj o - start) (stop - start - (jj o - start)) + (stop - start) * B
        ≤ (4 * (stop - start + 1) + B) * (stop - start) := by
      linarith
    calc q * _ * M ^ N ≤ q * ((4 * (stop - start + 1) + B) * (stop - start)) * M ^ N :=
          Nat.mul_le_mul_right _ (Nat.mul_le_mul_left _ h4)
      _ = (4 * (stop - start + 1) + B) * (M ^ N * ((stop - start) * q)) := by ring
      _ = _ := by rw [← hq]

/-! ### The construction -/

/-- No two points are equally far from a third. -/
def General (dist : R → R → 𝔽) (l : List (Nat × R)) : Prop :=
  l.Nodup ∧ ∀ v ∈ l, ∀ x ∈ l, ∀ y ∈ l, v ≠ x → v ≠ y → x ≠ y → dist v.2 x.2 ≠ dist v.2 y.2

omit [LinearOrder 𝔽] in
theorem General.perm {dist : R → R → 𝔽} {l l' : List (Nat × R)} (h : General dist l) (hp : l'.Perm l) : General dist l' :=
  ⟨hp.nodup_iff.mpr h.1, fun v hv x hx y hy => h.2 v (hp.mem_iff.mp hv) x (hp.mem_iff.mp hx) y (hp.mem_iff.mp hy)⟩

/-- The distances computed for a segment: they do not depend on the points. -/
def distsOf (leafSz : Nat) : Nat → Nat → Nat → Nat
  | 0, _, _ => 0
  | fuel+1, start, stop =>
    if start > stop then 0
    else if stop - start ≤ leafSz then 0
    else (stop - start) + 1 + distsOf leafSz fuel (start + 1) ((start + 1 + stop) / 2 - 1) + distsOf leafSz fuel ((start + 1 + stop) / 2) stop

theorem distsOf_eq {dist : R → R → 𝔽} {leafSz : Nat} {g : Rng} : ∀ (fuel start stop : Nat) (a : List (Ptr R 𝔽)) (pos : Nat)
    (r : Node 𝔽 × List (Ptr R 𝔽) × Nat × Work), buildC dist leafSz g fuel start stop a pos = .ok r → r.2.2.2.dists = distsOf leafSz fuel start stop
  | 0, start, stop, a, pos, r, h => by cases h
  | fuel+1, start, stop, a, pos, r, h => by
    unfold buildC at h
    unfold distsOf
    by_cases h1 : start > stop
    · rw [if_pos h1] at h ⊢; cases h; rfl
    rw [if_neg h1] at h ⊢
    by_cases h2 : stop - start ≤ leafSz
    · rw [if_pos h2] at h ⊢; cases h; rfl
    rw [if_neg h2] at h ⊢
    simp only [bind_ok] at h
    obtain ⟨⟨o, pos1⟩, -, b, -, v, -, c, -, ⟨e, pos2, cm, ne⟩, -, m, -, ⟨n1, a1, p1, w1⟩, hi, ⟨n2, a2, p2, w2⟩, ho, hr⟩ := h
    cases hr
    have e1 := distsOf_eq fuel _ _ _ _ _ hi
    have e2 := distsOf_eq fuel _ _ _ _ _ ho
    simp only at e1 e2 ⊢
    rw [e1, e2]

/-- The comparisons of a construction and the cost of what follows. -/
def costB (K : List (Ptr R 𝔽) → Nat → Nat) : Res (Node 𝔽 × List (Ptr R 𝔽) × Nat × Work) → Nat
  | .ok (_, b, pos, w) => w.cmps + K b pos
  | .error _ => 0

theorem build_average {dist : R → R → 𝔽} {leafSz M mx : Nat} (hM0 : 0 < M) : ∀ (fuel start stop : Nat) (a : List (Ptr R 𝔽)) (pos : Nat)
    (f : Nat → Nat) (N N0 B : Nat) (K : (Nat → Nat) → List (Ptr R 𝔽) → Nat → Nat),
    stop + 1 - start < fuel → (start > stop ∨ stop < a.length) → a.length ≤ mx → (∀ d, 0 < d → d < stop - start → d ∣ M) →
    General dist (a.map core) →
    (∀ b f pos N', Swaps start (stop + 1) (a.map core) (b.map core) → N0 ≤ N' → total M (fun g => K g b pos) N' f pos ≤ B * M ^ N') →
    N0 + distsOf leafSz fuel start stop ≤ N →
    total M (fun g => costB (K g) (buildC dist leafSz ⟨g, mx⟩ fuel start stop a pos)) N f pos ≤
      (4 * distsOf leafSz fuel start stop + B) * M ^ N
  | 0, start, stop, a, pos, f, N, N0, B, K, hf, hb, hm, hM, hg, hK, hN => by omega
  | fuel+1, start, stop, a, pos, f, N, N0, B, K, hf, hb, hm, hM, hg, hK, hN => by
    have base : ∀ n : Node 𝔽, (∀ g, buildC dist leafSz ⟨g, mx⟩ (fuel+1) start stop a pos = .ok (n, a, pos, ⟨0, 0, 0⟩)) →
        total M (fun g => costB (K g) (buildC dist leafSz ⟨g, mx⟩ (fuel+1) start stop a pos)) N f pos ≤
          (4 * distsOf leafSz (fuel+1) start stop + B) * M ^ N := by
      intro n hn
      simp only [hn, costB, Nat.zero_add]
      exact (hK a f pos N (.refl _) (by omega)).trans (Nat.mul_le_mul_right _ (by omega))
    by_cases h1 : start > stop
    · exact base .null (fun g => by unfold buildC; rw [if_pos h1])
    by_cases h2 : stop - start ≤ leafSz
    · exact base (.leaf start stop) (fun g => by unfold buildC; rw [if_neg h1, if_pos h2])
    have hlen : stop < a.length := by omega
    have hD : distsOf leafSz (fuel+1) start stop = (stop - start) + 1 + distsOf leafSz fuel (start + 1) ((start + 1 + stop) / 2 - 1) +
        distsOf leafSz fuel ((start + 1 + stop) / 2) stop := by
      rw [distsOf, if_neg h1, if_neg h2]
    rw [hD] at hN ⊢
    clear hD base
    generalize hmid : (start + 1 + stop) / 2 = mid at *
    generalize hD1 : distsOf leafSz fuel (start + 1) (mid - 1) = D1 at *
    generalize hD2 : distsOf leafSz fuel mid stop = D2 at *
    obtain ⟨N, rfl⟩ : ∃ n, N = n + 1 := ⟨N - 1, by omega⟩
    unfold total
    have step : ∀ x ∈ range M, total M (fun g => costB (K g) (buildC dist leafSz ⟨g, mx⟩ (fuel+1) start stop a pos)) N (Function.update f pos x) (pos + 1)
        ≤ (4 * (stop - start + 1 + D1 + D2) + B) * M ^ N := by
      intro x _
      generalize hoe : x % (stop - start + 1) = o
      have ho : o < stop - start + 1 := by rw [← hoe]; exact Nat.mod_lt _ (by omega)
      have ha1 : start < a.length := by omega
      have ha2 : start + o < a.length := by omega
      have s1 : Swaps start (stop+1) a (swapL a start (start + o) ha1 ha2) := Swaps.one _ _ (by omega) (by omega) (by omega) (by omega)
      generalize hbd : swapL a start (start + o) ha1 ha2 = b at s1
      have hbl := s1.len
      have hb1 : start < b.length := by omega
      obtain ⟨c, hc, c1, c2, c3⟩ : ∃ c, setDists dist b[start].record (stop - start) (start + 1) b = .ok c ∧ c.map core = b.map core ∧
          (∀ k, k < start + 1 ∨ start + 1 + (stop - start) ≤ k → c[k]? = b[k]?) ∧
          InSeg (fun x => x.dist = dist b[start].record x.record) (start + 1) (start + 1 + (stop - start)) c := by
        rcases setDists_good True (dist := dist) (v := b[start].record) (stop - start) (start + 1) b (by omega) with ⟨c, e1, e2⟩ | ⟨-, h⟩
        · exact ⟨c, e1, e2⟩
        · exact absurd trivial h
      have hcl : c.length = b.length := by have := congrArg List.length c1; simpa using this
      have hcs : c[start]? = some b[start] := by rw [c2 start (by omega), List.getElem?_eq_getElem hb1]
      have hgc : General dist (c.map core) := by rw [c1]; exact hg.perm (s1.map core).perm
      have hdis : Distinct (start + 1) stop c := by
        intro i j y z i1 i2 i3 hy hz
        rw [c3 i i1 (by omega) y hy, c3 j (by omega) (by omega) z hz]
        have gi : (c.map core)[i]? = some (core y) := by rw [List.getElem?_map, hy]; rfl
        have gj : (c.map core)[j]? = some (core z) := by rw [List.getElem?_map, hz]; rfl
        have gs : (c.map core)[start]? = some (core b[start]) := by rw [List.getElem?_map, hcs]; rfl
        have inj : ∀ {k l : Nat} {u w : Nat × R}, (c.map core)[k]? = some u → (c.map core)[l]? = some w → k ≠ l → u ≠ w := by
          intro k l u w hu hw hne he
          subst he
          obtain ⟨k1, k2⟩ := List.getElem?_eq_some_iff.mp hu
          obtain ⟨l1, l2⟩ := List.getElem?_eq_some_iff.mp hw
          exact hne ((List.Nodup.getElem_inj_iff hgc.1).mp (k2.trans l2.symm))
        exact hgc.2 _ (List.mem_of_getElem? gs) _ (List.mem_of_getElem? gi) _ (List.mem_of_getElem? gj) (inj gs gi (by omega)) (inj gs gj (by omega))
          (inj gi gj (by omega))
      -- what follows the inner subtree and what follows the selection
      let K2 : (Nat → Nat) → List (Ptr R 𝔽) → Nat → Nat := fun g a' pos' => costB (K g) (buildC dist leafSz ⟨g, mx⟩ fuel mid stop a' pos')
      let K1 : (Nat → Nat) → List (Ptr R 𝔽) → Nat → Nat := fun g e pos' => match getR e mid with
        | .ok m => costB (K2 g) (buildC dist leafSz ⟨g, mx⟩ fuel (start + 1) (mid - 1)
            (e.set start { b[start] with dist := dist b[start].record m.record }) pos')
        | .error _ => 0
      refine (total_mono (G := fun g => costQ (K1 g) (quickselectC ⟨g, mx⟩ mid (stop - start) (start + 1) stop c (pos + 1))) N _ _ ?_).trans ?_
      · intro g hgx
        have hx : g pos = x := by rw [hgx pos (by omega), Function.update_self]
        have hbelow : Rng.below ⟨g, mx⟩ (stop - start + 1) pos = .ok (o, pos + 1) := by
          unfold Rng.below
          rw [if_neg (by simp only; omega)]
          simp only [hx, hoe]
        rw [buildC, if_neg h1, if_neg h2, hbelow]
        show costB (K g) (swapR a start (start + o) >>= _) ≤ _
        rw [swapR_ok ha1 ha2, hbd]
        show costB (K g) (getR b start >>= _) ≤ _
        rw [getR_lt hb1]
        show costB (K g) (setDists dist b[start].record (stop - start) (start + 1) b >>= _) ≤ _
        rw [hc]
        show costB (K g) (quickselectC ⟨g, mx⟩ ((start + 1 + stop) / 2) (stop - start) (start + 1) stop c (pos + 1) >>= _) ≤ _
        simp only [hmid]
        cases hq : quickselectC ⟨g, mx⟩ mid (stop - start) (start + 1) stop c (pos + 1) with
        | error e => exact Nat.zero_le _
        | ok r =>
          obtain ⟨e, p, cm, ne⟩ := r
          simp only [costQ, K1]
          show costB (K g) (getR e mid >>= _) ≤ _
          cases hm' : getR e mid with
          | error _ => exact Nat.zero_le _
          | ok m =>
            simp only
            show costB (K g) (buildC dist leafSz ⟨g, mx⟩ fuel (start + 1) (mid - 1)
              (e.set start { b[start] with dist := dist b[start].record m.record }) p >>= _) ≤ _
            cases buildC dist leafSz ⟨g, mx⟩ fuel (start + 1) (mid - 1) (e.set start { b[start] with dist := dist b[start].record m.record }) p with
            | error _ => exact Nat.zero_le _
            | ok r1 =>
              obtain ⟨n1, a1, p1, w1⟩ := r1
              simp only [costB, K2]
              show costB (K g) (buildC dist leafSz ⟨g, mx⟩ fuel mid stop a1 p1 >>= _) ≤ _
              cases buildC dist leafSz ⟨g, mx⟩ fuel mid stop a1 p1 with
              | error _ => exact Nat.zero_le _
              | ok r2 =>
                obtain ⟨n2, a2, p2, w2⟩ := r2
                simp only [costB, bind, Except.bind]
                omega
      · have hq := quickselect_average (mx := mx) (k := mid) hM0 (stop - start) (start + 1) stop c (pos + 1) (Function.update f pos x) N (N0 + D1 + D2)
          (4 * D1 + (4 * D2 + B)) K1 (by omega) (by omega) (by omega) (by omega) (by omega) (fun d d1 d2 => hM d d1 (by omega)) hdis ?_ (by omega)
        · refine hq.trans (Nat.mul_le_mul_right _ (by omega))
        intro e f' pos' N' hs hN'
        have hel := hs.len
        have hmr : getR e mid = .ok e[mid] := getR_lt (by omega)
        simp only [K1, hmr]
        have hes : e[start]? = some b[start] := by rw [hs.out (Or.inl (by omega)), hcs]
        generalize hfd : e.set start { b[start] with dist := dist b[start].record e[mid].record } = h
        have hhl : h.length = e.length := by rw [← hfd, List.length_set]
        have hhc : h.map core = e.map core := by
          rw [← hfd, List.map_set]
          apply List.ext_getElem?
          intro k
          rw [List.getElem?_set]
          split
          · next hk =>
            subst hk
            rw [if_pos (by rw [List.length_map]; omega), List.getElem?_map, hes]
            rfl
          · rfl
        have sh : Swaps start (stop+1) (a.map core) (h.map core) := by
          rw [hhc]
          refine (s1.map core).trans ?_
          rw [← c1]
          exact (hs.map core).mono (by omega) (le_refl _)
        refine build_average hM0 fuel (start + 1) (mid - 1) h pos' f' N' (N0 + D2) (4 * D2 + B) K2 (by omega) (Or.inr (by omega)) (by omega)
          (fun d d1 d2 => hM d d1 (by omega)) (hg.perm sh.perm) ?_ (by omega) |>.trans (by rw [hD1])
        intro p f2 pos2 N2 hs2 hN2
        have hpl : p.length = h.length := by have := hs2.len; simpa using this
        rw [show mid - 1 + 1 = mid by omega] at hs2
        have sp : Swaps start (stop+1) (a.map core) (p.map core) := sh.trans (hs2.mono (by omega) (by omega))
        refine (build_average hM0 fuel mid stop p pos2 f2 N2 N0 B K (by omega) (Or.inr (by omega)) (by omega)
          (fun d d1 d2 => hM d d1 (by omega)) (hg.perm sp.perm) ?_ (by omega)).trans (by rw [hD2])
        intro q f3 pos3 N3 hs3 hN3
        exact hK q f3 pos3 N3 (sp.trans (hs3.mono (by omega) (le_refl _))) hN3
    refine (Finset.sum_le_sum step).trans ?_
    rw [Finset.sum_const, Finset.card_range, smul_eq_mul, pow_succ]
    exact le_of_eq (by ring)

end DE.VPA
