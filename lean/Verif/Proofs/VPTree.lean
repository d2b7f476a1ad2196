import Verif.SpecVP
import Verif.Proofs.Sampling

namespace DE

/-! ### Swaps inside a segment -/

section swaps
variable {α β : Type}

def swapL (a : List α) (i j : Nat) (hi : i < a.length) (hj : j < a.length) : List α := (a.set i a[j]).set j a[i]

theorem swapR_ok {a : List α} {i j : Nat} (hi : i < a.length) (hj : j < a.length) : swapR a i j = .ok (swapL a i j hi hj) := by
  unfold swapR
  rw [getR_lt hi]
  simp only [bind, Except.bind, getR_lt hj]
  rfl

theorem swapL_get {a : List α} {i j : Nat} (hi : i < a.length) (hj : j < a.length) (k : Nat) :
    (swapL a i j hi hj)[k]? = if j = k then a[i]? else if i = k then a[j]? else a[k]? := by
  unfold swapL
  rw [List.getElem?_set]
  split
  · rw [if_pos (by rw [List.length_set]; exact hj), List.getElem?_eq_getElem hi]
  · rw [List.getElem?_set]
    split
    · simp [hi, hj]
    · rfl

/-- `b` comes from `a` by swaps of positions in `[lo, hi)`. -/
inductive Swaps (lo hi : Nat) : List α → List α → Prop
  | refl (a : List α) : Swaps lo hi a a
  | step {a b : List α} {i j : Nat} (h₁ : i < b.length) (h₂ : j < b.length) : lo ≤ i → i < hi → lo ≤ j → j < hi →
      Swaps lo hi a b → Swaps lo hi a (swapL b i j h₁ h₂)

theorem Swaps.perm {lo hi : Nat} {a b : List α} (h : Swaps lo hi a b) : b.Perm a := by
  induction h with
  | refl => exact List.Perm.refl _
  | step hi hj _ _ _ _ _ ih => exact (List.set_set_perm hi hj).trans ih

theorem Swaps.len {lo hi : Nat} {a b : List α} (h : Swaps lo hi a b) : b.length = a.length := h.perm.length_eq

theorem Swaps.trans {lo hi : Nat} {a b c : List α} (h : Swaps lo hi a b) (h' : Swaps lo hi b c) : Swaps lo hi a c := by
  induction h' with
  | refl => exact h
  | step h1 h2 h3 h4 h5 h6 _ ih => exact .step h1 h2 h3 h4 h5 h6 ih

theorem Swaps.mono {lo hi lo' hi' : Nat} (hl : lo' ≤ lo) (hh : hi ≤ hi') {a b : List α} (h : Swaps lo hi a b) : Swaps lo' hi' a b := by
  induction h with
  | refl => exact .refl _
  | step h1 h2 h3 h4 h5 h6 _ ih => exact .step h1 h2 (by omega) (by omega) (by omega) (by omega) ih

theorem Swaps.one {lo hi : Nat} {a : List α} {i j : Nat} (hi' : i < a.length) (hj' : j < a.length) (h1 : lo ≤ i) (h2 : i < hi)
    (h3 : lo ≤ j) (h4 : j < hi) : Swaps lo hi a (swapL a i j hi' hj') := .step hi' hj' h1 h2 h3 h4 (.refl _)

theorem Swaps.out {lo hi : Nat} {a b : List α} (h : Swaps lo hi a b) {k : Nat} (hk : k < lo ∨ hi ≤ k) : b[k]? = a[k]? := by
  induction h with
  | refl => rfl
  | step h1 h2 h3 h4 h5 h6 _ ih =>
    rw [swapL_get, if_neg (by omega), if_neg (by omega)]; exact ih

theorem Swaps.map (f : α → β) {lo hi : Nat} {a b : List α} (h : Swaps lo hi a b) : Swaps lo hi (a.map f) (b.map f) := by
  induction h with
  | refl => exact .refl _
  | @step b i j h1 h2 h3 h4 h5 h6 _ ih =>
    have : (swapL b i j h1 h2).map f = swapL (b.map f) i j (by simpa using h1) (by simpa using h2) := by
      unfold swapL
      rw [List.map_set, List.map_set, List.getElem_map, List.getElem_map]
    rw [this]
    exact .step _ _ h3 h4 h5 h6 ih

/-- Every element in `[lo, hi)` has property `P`. -/
def InSeg (P : α → Prop) (lo hi : Nat) (a : List α) : Prop := ∀ (i : Nat), lo ≤ i → i < hi → ∀ x, a[i]? = some x → P x

theorem InSeg.swaps {P : α → Prop} {lo hi l h : Nat} {a b : List α} (hs : Swaps l h a b)
    (hc : (lo ≤ l ∧ h ≤ hi) ∨ h ≤ lo ∨ hi ≤ l) (hp : InSeg P lo hi a) : InSeg P lo hi b := by
  induction hs with
  | refl => exact hp
  | step h1 h2 h3 h4 h5 h6 _ ih =>
    intro k hk1 hk2 x hx
    rw [swapL_get] at hx
    split at hx
    · next e =>
      exact ih _ (by omega) (by omega) x hx
    · split at hx
      · next e =>
        exact ih _ (by omega) (by omega) x hx
      · exact ih _ hk1 hk2 x hx

theorem InSeg.mono {P Q : α → Prop} {lo hi : Nat} {a : List α} (h : InSeg P lo hi a) (hpq : ∀ x, P x → Q x) : InSeg Q lo hi a :=
  fun i h1 h2 x hx => hpq x (h i h1 h2 x hx)

theorem InSeg.sub {P : α → Prop} {lo hi lo' hi' : Nat} {a : List α} (h : InSeg P lo hi a) (h1 : lo ≤ lo') (h2 : hi' ≤ hi) : InSeg P lo' hi' a :=
  fun i a b x hx => h i (by omega) (by omega) x hx

end swaps

namespace VP
variable {R 𝔽 : Type} [LinearOrder 𝔽]

theorem partLoop_good (safe : Prop) {start stop : Nat} {p : Ptr R 𝔽} : ∀ (c i j : Nat) (a : List (Ptr R 𝔽)), i + c = stop → stop < a.length →
    start ≤ j → j ≤ i → a[stop]? = some p → InSeg (fun x => x.dist < p.dist) start j a → InSeg (fun x => p.dist ≤ x.dist) j i a →
    Good safe (partLoop stop c i j a) (fun r => Swaps start stop a r.1 ∧ start ≤ r.2 ∧ r.2 ≤ stop ∧ r.1[stop]? = some p ∧
      InSeg (fun x => x.dist < p.dist) start r.2 r.1 ∧ InSeg (fun x => p.dist ≤ x.dist) r.2 stop r.1)
  | 0, i, j, a, hc, hlen, hj, hji, hp, h1, h2 => by
    have : i = stop := by omega
    subst this
    exact Good.ok ⟨.refl _, hj, hji, hp, h1, h2⟩
  | c+1, i, j, a, hc, hlen, hj, hji, hp, h1, h2 => by
    unfold partLoop
    have hi : i < a.length := by omega
    have hjl : j < a.length := by omega
    rw [getR_lt hi]
    have hp' : getR a stop = .ok p := by unfold getR; rw [hp]
    simp only [bind, Except.bind, hp']
    split
    · next hlt =>
      rw [swapR_ok hjl hi]
      simp only
      have hsw : Swaps start stop a (swapL a j i hjl hi) := Swaps.one _ _ (by omega) (by omega) (by omega) (by omega)
      refine (partLoop_good safe (start := start) (p := p) c (i+1) (j+1) (swapL a j i hjl hi) (by omega) (by rw [hsw.len]; exact hlen) (by omega) (by omega)
        (by rw [hsw.out (by omega)]; exact hp) ?_ ?_).mono ?_
      · intro k hk1 hk2 x hx
        rw [swapL_get] at hx
        split at hx
        · next e =>
          -- k = i, so i = j
          have : i = j := by omega
          subst this
          rw [List.getElem?_eq_getElem hi] at hx
          cases hx; exact hlt
        · split at hx
          · rw [List.getElem?_eq_getElem hi] at hx
            cases hx; exact hlt
          · exact h1 k hk1 (by omega) x hx
      · intro k hk1 hk2 x hx
        rw [swapL_get] at hx
        split at hx
        · next e =>
          by_cases hij : j = i
          · omega
          · exact h2 j (le_refl _) (by omega) x hx
        · rw [if_neg (by omega)] at hx
          exact h2 k (by omega) (by omega) x hx
      · rintro r ⟨g1, g2, g3, g4, g5, g6⟩
        exact ⟨hsw.trans g1, by omega, g3, g4, g5, g6⟩
    · next hlt =>
      refine (partLoop_good safe c (i+1) j a (by omega) hlen hj (by omega) hp h1 ?_).mono (fun r h => h)
      intro k hk1 hk2 x hx
      by_cases e : k = i
      · subst e
        rw [List.getElem?_eq_getElem hi] at hx
        cases hx; exact not_lt.mp hlt
      · exact h2 k hk1 (by omega) x hx

theorem partition_good {g : Rng} {safe : Prop} {start stop : Nat} {a : List (Ptr R 𝔽)} (hlt : start < stop) (hlen : stop < a.length)
    (hs : safe → a.length ≤ g.max) (pos : Nat) :
    Good safe (partition g start stop a pos) (fun r => Swaps start (stop+1) a r.1 ∧ start ≤ r.2.1 ∧ r.2.1 ≤ stop ∧ ∃ p,
      r.1[r.2.1]? = some p ∧ InSeg (fun x => x.dist < p.dist) start r.2.1 r.1 ∧ InSeg (fun x => p.dist ≤ x.dist) (r.2.1 + 1) (stop + 1) r.1) := by
  unfold partition
  refine (below_good pos (by omega) (fun h => by have := hs h; omega)).bind ?_
  rintro ⟨o, pos⟩ ⟨ho, -⟩
  simp only at ho
  have h1 : start + o < a.length := by omega
  simp only
  rw [swapR_ok h1 hlen]
  simp only [bind, Except.bind]
  have hsw : Swaps start (stop+1) a (swapL a (start + o) stop h1 hlen) := Swaps.one _ _ (by omega) (by omega) (by omega) (by omega)
  have hl2 : stop < (swapL a (start + o) stop h1 hlen).length := by rw [hsw.len]; exact hlen
  have hp := List.getElem?_eq_getElem hl2
  have := partLoop_good safe (start := start) (stop - start) start start _ (by omega) hl2 (le_refl _) (le_refl _) hp
    (fun i a b => by omega) (fun i a b => by omega)
  refine this.bind ?_
  rintro ⟨b, j⟩ ⟨g1, g2, g3, g4, g5, g6⟩
  simp only at g1 g2 g3 g4 g5 g6
  have hb : b.length = a.length := by rw [g1.len, hsw.len]
  simp only
  rw [swapR_ok (show j < b.length by omega) (show stop < b.length by omega)]
  refine Good.ok ⟨?_, g2, g3, (swapL a (start + o) stop h1 hlen)[stop], ?_, ?_, ?_⟩
  · exact (hsw.trans (g1.mono (le_refl _) (by omega))).trans (Swaps.one _ _ (by omega) (by omega) (by omega) (by omega))
  · simp only
    rw [swapL_get]
    split
    · next e => subst e; exact g4
    · rw [if_pos rfl]; exact g4
  · intro k hk1 hk2 x hx
    simp only at hk2 hx
    rw [swapL_get, if_neg (by omega), if_neg (by omega)] at hx
    exact g5 k hk1 hk2 x hx
  · intro k hk1 hk2 x hx
    simp only at hk1 hx
    rw [swapL_get] at hx
    split at hx
    · next e => exact g6 j (le_refl _) (by omega) x hx
    · rw [if_neg (by omega)] at hx
      exact g6 k (by omega) (by omega) x hx

theorem quickselect_good {g : Rng} {safe : Prop} {k : Nat} : ∀ (fuel start stop : Nat) (a : List (Ptr R 𝔽)) (pos : Nat),
    stop + 1 - start ≤ fuel → start ≤ k → k ≤ stop → stop < a.length → (safe → a.length ≤ g.max) →
    Good safe (quickselect g k fuel start stop a pos) (fun r => Swaps start (stop+1) a r.1 ∧ ∃ m, r.1[k]? = some m ∧
      InSeg (fun x => x.dist ≤ m.dist) start k r.1 ∧ InSeg (fun x => m.dist ≤ x.dist) k (stop + 1) r.1)
  | 0, start, stop, a, pos, hf, h1, h2, h3, hs => by omega
  | fuel+1, start, stop, a, pos, hf, h1, h2, h3, hs => by
    unfold quickselect
    by_cases he : start = stop
    · rw [if_pos he]
      have hk : k < a.length := by omega
      refine Good.ok ⟨.refl _, a[k], List.getElem?_eq_getElem hk, fun i x y => by omega, ?_⟩
      intro i hi1 hi2 x hx
      have : i = k := by omega
      subst this
      rw [List.getElem?_eq_getElem hk] at hx
      cases hx; exact le_refl _
    · rw [if_neg he]
      refine (partition_good (by omega) h3 hs pos).bind ?_
      rintro ⟨b, pv, pos⟩ ⟨g1, g2, g3, p, g4, g5, g6⟩
      simp only at g1 g2 g3 g4 g5 g6
      have hb := g1.len
      simp only
      split
      · next hlt =>
        refine (quickselect_good fuel start (pv - 1) b pos (by omega) h1 (by omega) (by omega) (by rw [hb]; exact hs)).mono ?_
        rintro ⟨c, pos⟩ ⟨q1, m, q2, q3, q4⟩
        simp only at q1 q2 q3 q4
        have q1' : Swaps start pv b c := q1.mono (le_refl _) (by omega)
        have hmp : m.dist < p.dist := InSeg.swaps q1' (Or.inl ⟨le_refl _, le_refl _⟩) g5 k h1 hlt m q2
        refine ⟨g1.trans (q1'.mono (le_refl _) (by omega)), m, q2, q3, ?_⟩
        intro i hi1 hi2 x hx
        simp only at hx
        rcases Nat.lt_trichotomy i pv with hi | hi | hi
        · exact q4 i hi1 (by omega) x hx
        · rw [hi, q1'.out (Or.inr (le_refl _)), g4] at hx
          cases hx; exact le_of_lt hmp
        · have := InSeg.swaps q1' (Or.inr (Or.inl (by omega))) g6 i (by omega) hi2 x hx
          exact le_trans (le_of_lt hmp) this
      · next hge =>
        split
        · next hgt =>
          refine (quickselect_good fuel (pv + 1) stop b pos (by omega) (by omega) h2 (by omega) (by rw [hb]; exact hs)).mono ?_
          rintro ⟨c, pos⟩ ⟨q1, m, q2, q3, q4⟩
          simp only at q1 q2 q3 q4
          have hmp : p.dist ≤ m.dist := InSeg.swaps q1 (Or.inl ⟨le_refl _, le_refl _⟩) g6 k (by omega) (by omega) m q2
          refine ⟨g1.trans (q1.mono (by omega) (le_refl _)), m, q2, ?_, q4⟩
          intro i hi1 hi2 x hx
          simp only at hx
          rcases Nat.lt_trichotomy i pv with hi | hi | hi
          · have := InSeg.swaps q1 (Or.inr (Or.inr (by omega))) g5 i hi1 hi x hx
            exact le_trans (le_of_lt this) hmp
          · rw [hi, q1.out (Or.inl (by omega)), g4] at hx
            cases hx; exact hmp
          · exact q3 i (by omega) hi2 x hx
        · next hle =>
          have : pv = k := by omega
          subst this
          refine Good.ok ⟨g1, p, g4, g5.mono (fun x h => le_of_lt h), ?_⟩
          intro i hi1 hi2 x hx
          by_cases e : i = pv
          · subst e
            simp only at hx
            rw [g4] at hx
            cases hx; exact le_refl _
          · exact g6 i (by omega) hi2 x hx

/-- The pointer part of a `vp_ptr`. -/
def core (p : Ptr R 𝔽) : Nat × R := (p.idx, p.record)

omit [LinearOrder 𝔽] in
theorem setDists_good (safe : Prop) {dist : R → R → 𝔽} {v : R} : ∀ (c i : Nat) (a : List (Ptr R 𝔽)), i + c ≤ a.length →
    Good safe (setDists dist v c i a) (fun b => b.map core = a.map core ∧ (∀ k, k < i ∨ i + c ≤ k → b[k]? = a[k]?) ∧
      InSeg (fun x => x.dist = dist v x.record) i (i + c) b)
  | 0, i, a, _ => Good.ok ⟨rfl, fun _ _ => rfl, fun k h1 h2 => by omega⟩
  | c+1, i, a, h => by
    unfold setDists
    have hi : i < a.length := by omega
    rw [getR_lt hi]
    simp only [bind, Except.bind]
    refine (setDists_good safe c (i+1) (a.set i { a[i] with dist := dist v a[i].record }) (by rw [List.length_set]; omega)).mono ?_
    rintro b ⟨h1, h2, h3⟩
    refine ⟨?_, ?_, ?_⟩
    · rw [h1, List.map_set]
      apply List.ext_getElem?
      intro k
      rw [List.getElem?_set]
      split
      · next e =>
        subst e
        rw [if_pos (by simpa using hi), List.getElem?_map, List.getElem?_eq_getElem hi]
        rfl
      · rfl
    · intro k hk
      rw [h2 k (by omega), List.getElem?_set, if_neg (by omega)]
    · intro k hk1 hk2 x hx
      by_cases e : k = i
      · subst e
        rw [h2 k (by omega), List.getElem?_set, if_pos rfl, if_pos hi] at hx
        cases hx; rfl
      · exact h3 k (by omega) (by omega) x hx

/-- No null pointer in the tree. -/
def Node.Full : Node 𝔽 → Prop
  | .null => False
  | .leaf _ _ => True
  | .node _ _ inside outside => inside.Full ∧ outside.Full

/-- Leaves are non-empty. -/
def Node.LeafOk' : Node 𝔽 → Prop
  | .null => True
  | .leaf start stop => start ≤ stop
  | .node _ _ inside outside => inside.LeafOk' ∧ outside.LeafOk'

omit [LinearOrder 𝔽] in
theorem Node.LeafOk.weak {n : Nat} : ∀ {t : Node 𝔽}, t.LeafOk n → t.LeafOk'
  | .null, _ => trivial
  | .leaf _ _, h => h.1
  | .node _ _ _ _, h => ⟨Node.LeafOk.weak h.1, Node.LeafOk.weak h.2⟩

theorem Node.Split.congr {dist : R → R → 𝔽} {f h : Nat → Option R} : ∀ {t : Node 𝔽}, (∀ x ∈ t.indices, h x = f x) → t.Split dist f → t.Split dist h
  | .null, _, _ => trivial
  | .leaf _ _, _, _ => trivial
  | .node s r i o, he, ⟨⟨v, h1, h2, h3⟩, h4, h5⟩ => by
    have hi : ∀ x ∈ i.indices, h x = f x := fun x hx => he x (by simp [Node.indices, hx])
    have ho : ∀ x ∈ o.indices, h x = f x := fun x hx => he x (by simp [Node.indices, hx])
    refine ⟨⟨v, ?_, ?_, ?_⟩, Node.Split.congr hi h4, Node.Split.congr ho h5⟩
    · rw [he s (by simp [Node.indices])]; exact h1
    · intro x hx y hy
      rw [hi x hx] at hy
      exact h2 x hx y hy
    · intro x hx y hy
      rw [ho x hx] at hy
      exact h3 x hx y hy

omit [LinearOrder 𝔽] in
theorem recs_core {a b : List (Ptr R 𝔽)} {i : Nat} (h : (a.map core)[i]? = (b.map core)[i]?) : recs a i = recs b i := by
  rw [List.getElem?_map, List.getElem?_map] at h
  unfold recs
  cases ha : a[i]? with
  | none => rw [ha] at h; cases hb : b[i]? with
    | none => rfl
    | some y => rw [hb] at h; cases h
  | some x => rw [ha] at h; cases hb : b[i]? with
    | none => rw [hb] at h; cases h
    | some y =>
      rw [hb] at h
      simp only [Option.map_some, Option.some.injEq] at h ⊢
      exact congrArg Prod.snd h

theorem build_good {dist : R → R → 𝔽} {leafSz : Nat} {g : Rng} {safe : Prop} : ∀ (fuel start stop : Nat) (a : List (Ptr R 𝔽)) (pos : Nat),
    stop + 1 - start < fuel → (start > stop ∨ stop < a.length) → (safe → a.length ≤ g.max) →
    Good safe (build dist leafSz g fuel start stop a pos) (fun r => Swaps start (stop+1) (a.map core) (r.2.1.map core) ∧
      r.1.indices.Perm (List.range' start (stop + 1 - start)) ∧ r.1.Split dist (recs r.2.1) ∧ r.1.LeafOk leafSz ∧
      (start ≤ stop → stop - start ≤ leafSz → r.1 = .leaf start stop) ∧ (start ≤ stop → 2 ≤ leafSz → r.1.Full))
  | 0, start, stop, a, pos, hf, hb, hs => by omega
  | fuel+1, start, stop, a, pos, hf, hb, hs => by
    unfold build
    by_cases h1 : start > stop
    · rw [if_pos h1]
      refine Good.ok ⟨.refl _, ?_, trivial, trivial, by omega, by omega⟩
      rw [show stop + 1 - start = 0 by omega]
      exact List.Perm.refl _
    rw [if_neg h1]
    by_cases h2 : stop - start ≤ leafSz
    · rw [if_pos h2]
      exact Good.ok ⟨.refl _, List.Perm.refl _, trivial, ⟨by omega, h2⟩, fun _ _ => rfl, fun _ _ => trivial⟩
    rw [if_neg h2]
    have hlen : stop < a.length := by omega
    refine (below_good pos (by omega) (fun h => by have := hs h; omega)).bind ?_
    rintro ⟨o, pos⟩ ⟨ho, -⟩
    simp only at ho
    simp only
    have ha1 : start < a.length := by omega
    have ha2 : start + o < a.length := by omega
    rw [swapR_ok ha1 ha2]
    simp only [bind, Except.bind]
    have s1 : Swaps start (stop+1) a (swapL a start (start + o) ha1 ha2) := Swaps.one _ _ (by omega) (by omega) (by omega) (by omega)
    generalize hbd : swapL a start (start + o) ha1 ha2 = b at s1
    have hbl := s1.len
    have hb1 : start < b.length := by omega
    rw [getR_lt hb1]
    simp only
    refine (setDists_good safe (dist := dist) (v := b[start].record) (stop - start) (start + 1) b (by omega)).bind ?_
    rintro c ⟨c1, c2, c3⟩
    have hcl : c.length = b.length := by have := congrArg List.length c1; simpa using this
    refine (quickselect_good (stop - start) (start + 1) stop c pos (by omega) (k := (start + 1 + stop) / 2) (by omega) (by omega) (by omega)
      (by rw [hcl, hbl]; exact hs)).bind ?_
    rintro ⟨e, pos⟩ ⟨e1, m, e2, e3, e4⟩
    simp only at e1 e2 e3 e4
    have hel := e1.len
    have he2 : getR e ((start + 1 + stop) / 2) = .ok m := by unfold getR; rw [e2]
    simp only [he2]
    generalize hmid : (start + 1 + stop) / 2 = mid at *
    have hm1 : start + 1 ≤ mid := by omega
    have hm2 : mid ≤ stop := by omega
    have c3' : InSeg (fun x => x.dist = dist b[start].record x.record) (start + 1) (stop + 1) e :=
      InSeg.swaps e1 (Or.inl ⟨le_refl _, le_refl _⟩) (c3.sub (le_refl _) (by omega))
    have hmr : m.dist = dist b[start].record m.record := c3' mid hm1 (by omega) m e2
    have hes : e[start]? = c[start]? := e1.out (Or.inl (by omega))
    have hcs : c[start]? = b[start]? := c2 start (by omega)
    have hbs : b[start]? = some b[start] := List.getElem?_eq_getElem hb1
    -- the array after storing the radius
    generalize hfd : e.set start { b[start] with dist := dist b[start].record m.record } = f
    have hfl : f.length = e.length := by rw [← hfd, List.length_set]
    have hfc : f.map core = e.map core := by
      rw [← hfd, List.map_set]
      apply List.ext_getElem?
      intro k
      rw [List.getElem?_set]
      split
      · next hk =>
        subst hk
        rw [if_pos (by rw [List.length_map]; omega), List.getElem?_map, hes, hcs, hbs]
        rfl
      · rfl
    have sf : Swaps start (stop+1) (a.map core) (f.map core) := by
      rw [hfc]
      refine (s1.map core).trans ?_
      rw [← c1]
      exact (e1.map core).mono (by omega) (le_refl _)
    have hfs : (f.map core)[start]? = some (core b[start]) := by
      rw [hfc, List.getElem?_map, hes, hcs, hbs]; rfl
    have hin : InSeg (fun x => dist b[start].record x.2 ≤ dist b[start].record m.record) (start + 1) mid (f.map core) := by
      rw [hfc]
      intro k hk1 hk2 x hx
      rw [List.getElem?_map, Option.map_eq_some_iff] at hx
      obtain ⟨y, hy, rfl⟩ := hx
      have q1 := e3 k hk1 hk2 y hy
      have q2 := c3' k hk1 (by omega) y hy
      simp only at q1 q2
      rw [q2, hmr] at q1
      exact q1
    have hout : InSeg (fun x => dist b[start].record m.record ≤ dist b[start].record x.2) mid (stop + 1) (f.map core) := by
      rw [hfc]
      intro k hk1 hk2 x hx
      rw [List.getElem?_map, Option.map_eq_some_iff] at hx
      obtain ⟨y, hy, rfl⟩ := hx
      have q1 := e4 k hk1 hk2 y hy
      have q2 := c3' k (by omega) hk2 y hy
      simp only at q1 q2
      rw [q2, hmr] at q1
      exact q1
    refine (build_good fuel (start + 1) (mid - 1) f pos (by omega) (by omega) (by rw [hfl, hel, hcl, hbl]; exact hs)).bind ?_
    rintro ⟨ti, p, pos⟩ ⟨i1, i2, i3, i4, -, i6⟩
    simp only at i1 i2 i3 i4
    rw [show mid - 1 + 1 = mid by omega] at i1 i2
    have hpl : p.length = f.length := by have := i1.len; simpa using this
    simp only
    refine (build_good fuel mid stop p pos (by omega) (by omega) (by rw [hpl, hfl, hel, hcl, hbl]; exact hs)).bind ?_
    rintro ⟨to2, q, pos⟩ ⟨o1, o2, o3, o4, -, o6⟩
    simp only at o1 o2 o3 o4
    refine Good.ok ⟨?_, ?_, ⟨⟨b[start].record, ?_, ?_, ?_⟩, ?_, o3⟩, ⟨i4, o4⟩, by omega, fun _ h => ⟨i6 (by omega) h, o6 hm2 h⟩⟩
    · exact (sf.trans (i1.mono (by omega) (by omega))).trans (o1.mono (by omega) (le_refl _))
    · simp only [Node.indices]
      have : List.range' start (stop + 1 - start) = start :: (List.range' (start + 1) (mid - (start + 1)) ++ List.range' mid (stop + 1 - mid)) := by
        rw [show stop + 1 - start = (stop - start) + 1 by omega, List.range'_succ]
        congr 1
        have := List.range'_append (s := start + 1) (m := mid - (start + 1)) (n := stop + 1 - mid) (step := 1)
        rw [show start + 1 + 1 * (mid - (start + 1)) = mid by omega, show mid - (start + 1) + (stop + 1 - mid) = stop - start by omega] at this
        exact this.symm
      rw [this]
      exact (i2.append o2).cons _
    · have : (q.map core)[start]? = some (core b[start]) := by
        rw [o1.out (Or.inl (by omega)), i1.out (Or.inl (by omega))]; exact hfs
      rw [List.getElem?_map, Option.map_eq_some_iff] at this
      obtain ⟨y, hy, hyc⟩ := this
      unfold recs
      simp only [hy, Option.map_some]
      exact congrArg (fun z => some z.2) hyc
    · intro x hx y hy
      have hxr := (i2.mem_iff).mp hx
      rw [List.mem_range'_1] at hxr
      have hin2 := InSeg.swaps o1 (Or.inr (Or.inr (le_refl _))) (InSeg.swaps i1 (Or.inl ⟨le_refl _, le_refl _⟩) hin)
      unfold recs at hy
      rw [Option.map_eq_some_iff] at hy
      obtain ⟨z, hz, rfl⟩ := hy
      exact hin2 x (by omega) (by omega) (core z) (by rw [List.getElem?_map]; simp only at hz; rw [hz]; rfl)
    · intro x hx y hy
      have hxr := (o2.mem_iff).mp hx
      rw [List.mem_range'_1] at hxr
      have hout2 := InSeg.swaps o1 (Or.inl ⟨le_refl _, le_refl _⟩) (InSeg.swaps i1 (Or.inr (Or.inl (le_refl _))) hout)
      unfold recs at hy
      rw [Option.map_eq_some_iff] at hy
      obtain ⟨z, hz, rfl⟩ := hy
      exact hout2 x (by omega) (by omega) (core z) (by rw [List.getElem?_map]; simp only at hz; rw [hz]; rfl)
    · refine Node.Split.congr ?_ i3
      intro x hx
      have hxr := (i2.mem_iff).mp hx
      rw [List.mem_range'_1] at hxr
      exact recs_core (o1.out (Or.inl (by omega)))

theorem initPtrs_core [Zero 𝔽] (data : List (Wrapped R)) :
    (initPtrs (𝔽 := 𝔽) data).map core = data.mapIdx (fun i w => (i, w.record)) := by
  unfold initPtrs
  apply List.ext_getElem?
  intro i
  simp only [List.getElem?_map, List.getElem?_mapIdx, Option.map_map]
  rfl

/-- What the constructor produces. -/
theorem tree_good [Zero 𝔽] {dist : R → R → 𝔽} {leafSz : Nat} {g : Rng} {safe : Prop} (data : List (Wrapped R))
    (hs : safe → data.length ≤ g.max) :
    Good safe (tree dist leafSz g data) (fun t => (t.ptrs.map core).Perm (data.mapIdx (fun i w => (i, w.record))) ∧
      t.root.indices.Perm (List.range data.length) ∧ t.root.Split dist (recs t.ptrs) ∧ t.root.LeafOk leafSz ∧
      (data ≠ [] → data.length ≤ leafSz + 1 → t.root = .leaf 0 (data.length - 1)) ∧ (data ≠ [] → 2 ≤ leafSz → t.root.Full)) := by
  unfold tree
  by_cases h : data.length = 0
  · simp only [if_pos h]
    have : data = [] := List.length_eq_zero_iff.mp h
    subst this
    exact Good.ok ⟨List.Perm.refl _, List.Perm.refl _, trivial, trivial, fun h => absurd rfl h, fun h => absurd rfl h⟩
  · simp only [if_neg h]
    have hl : (initPtrs (𝔽 := 𝔽) data).length = data.length := by unfold initPtrs; simp
    refine (build_good (data.length + 1) 0 (data.length - 1) (initPtrs data) 0 (by omega) (by omega) (by rw [hl]; exact hs)).bind ?_
    rintro ⟨t, a, p⟩ ⟨h1, h2, h3, h4, h5, h6⟩
    simp only at h1 h2 h3 h4 h5 h6
    refine Good.ok ⟨?_, ?_, h3, h4, fun _ hle => h5 (by omega) (by omega), fun _ h => h6 (by omega) h⟩
    · rw [← initPtrs_core (𝔽 := 𝔽)]
      exact h1.perm
    · rw [show data.length - 1 + 1 - 0 = data.length by omega] at h2
      rw [List.range_eq_range']
      exact h2


omit [LinearOrder 𝔽] in
theorem recs_range (a : List (Ptr R 𝔽)) : (List.range a.length).filterMap (recs a) = a.map Ptr.record := by
  have h : (List.range a.length).map (recs a) = a.map (fun p => some p.record) := by
    apply List.ext_getElem?
    intro i
    rw [List.getElem?_map, List.getElem?_map]
    by_cases hi : i < a.length
    · rw [List.getElem?_range hi, List.getElem?_eq_getElem hi]
      simp only [Option.map_some, recs, List.getElem?_eq_getElem hi]
    · rw [List.getElem?_eq_none (by simpa using hi), List.getElem?_eq_none (by simpa using hi)]
      rfl
  have h2 : (List.range a.length).filterMap (recs a) = ((List.range a.length).map (recs a)).filterMap id := by
    rw [List.filterMap_map]; rfl
  rw [h2, h, List.filterMap_map]
  induction a with
  | nil => rfl
  | cons x xs _ => simp [Function.comp_def]

/-- The facts about a built tree used by searches. -/
structure Built (dist : R → R → 𝔽) (leafSz : Nat) (data : List (Wrapped R)) (t : Tree R 𝔽) : Prop where
  ptrs : (t.ptrs.map core).Perm (data.mapIdx (fun i w => (i, w.record)))
  indices : t.root.indices.Perm (List.range data.length)
  split : t.root.Split dist (recs t.ptrs)
  leaf : t.root.LeafOk leafSz
  small : data ≠ [] → data.length ≤ leafSz + 1 → t.root = .leaf 0 (data.length - 1)
  full : data ≠ [] → 2 ≤ leafSz → t.root.Full

theorem tree_built [Zero 𝔽] {dist : R → R → 𝔽} {leafSz : Nat} {g : Rng} {safe : Prop} (data : List (Wrapped R))
    (hs : safe → data.length ≤ g.max) : Good safe (tree dist leafSz g data) (Built dist leafSz data) :=
  (tree_good data hs).mono (fun _ ⟨h1, h2, h3, h4, h5, h6⟩ => ⟨h1, h2, h3, h4, h5, h6⟩)

variable {dist : R → R → 𝔽} {leafSz : Nat} {data : List (Wrapped R)} {t : Tree R 𝔽}

theorem Built.len (h : Built dist leafSz data t) : t.ptrs.length = data.length := by
  have := h.ptrs.length_eq
  simpa using this

theorem Built.records (h : Built dist leafSz data t) : (t.root.indices.filterMap (recs t.ptrs)).Perm (data.map Wrapped.record) := by
  refine (h.indices.filterMap _).trans ?_
  rw [← h.len, recs_range]
  have := h.ptrs.map Prod.snd
  rw [List.map_map] at this
  refine this.trans ?_
  have e : (data.mapIdx (fun i w => (i, w.record))).map Prod.snd = data.map Wrapped.record := by
    apply List.ext_getElem?
    intro i
    simp only [List.getElem?_map, List.getElem?_mapIdx, Option.map_map]
    rfl
  rw [e]

theorem Built.idx_lt (h : Built dist leafSz data t) : ∀ i ∈ t.root.indices, i < t.ptrs.length := by
  intro i hi
  rw [h.len]
  exact List.mem_range.mp (h.indices.mem_iff.mp hi)

/-- A pointer of the tree points to its record. -/
theorem Built.points (h : Built dist leafSz data t) {p : Ptr R 𝔽} (hp : p ∈ t.ptrs) : ∃ w, data[p.idx]? = some w ∧ w.record = p.record := by
  have : core p ∈ data.mapIdx (fun i w => (i, w.record)) := h.ptrs.mem_iff.mp (List.mem_map_of_mem hp)
  rw [List.mem_mapIdx] at this
  obtain ⟨i, hi, e⟩ := this
  unfold core at e
  have e1 := congrArg Prod.fst e
  have e2 := congrArg Prod.snd e
  simp only at e1 e2
  subst e1
  exact ⟨_, List.getElem?_eq_getElem hi, e2⟩

/-! ### Lookup -/

variable [DecidableEq R]

omit [LinearOrder 𝔽] in
theorem scanEq_sound {r : R} {a : List (Ptr R 𝔽)} : ∀ {c i j : Nat}, scanEq r a c i = .ok (some j) → ∃ p ∈ a, p.idx = j ∧ p.record = r
  | 0, i, j, h => by unfold scanEq at h; cases h
  | c+1, i, j, h => by
    unfold scanEq at h
    rw [bind_ok] at h
    obtain ⟨p, hp, h⟩ := h
    split at h
    · next e =>
      refine ⟨p, ?_, Option.some.inj (Except.ok.inj h), e⟩
      unfold getR at hp
      split at hp
      · next x hx => cases hp; exact List.mem_of_getElem? hx
      · cases hp
    · exact scanEq_sound h

omit [LinearOrder 𝔽] in
theorem scanEq_total {r : R} {a : List (Ptr R 𝔽)} : ∀ {c i : Nat}, i + c ≤ a.length → ∃ o, scanEq r a c i = .ok o ∧
    (r ∈ (List.range' i c).filterMap (recs a) → ∃ j, o = some j)
  | 0, i, _ => ⟨none, rfl, by simp⟩
  | c+1, i, h => by
    unfold scanEq
    have hi : i < a.length := by omega
    rw [getR_lt hi]
    simp only [bind, Except.bind]
    have hr : recs a i = some a[i].record := by unfold recs; rw [List.getElem?_eq_getElem hi]; rfl
    split
    · exact ⟨_, rfl, fun _ => ⟨_, rfl⟩⟩
    · next hne =>
      obtain ⟨o, h1, h2⟩ := scanEq_total (r := r) (a := a) (c := c) (i := i+1) (by omega)
      refine ⟨o, h1, fun hm => h2 ?_⟩
      rw [List.range'_succ, List.filterMap_cons, hr] at hm
      rcases List.mem_cons.mp hm with hm | hm
      · exact absurd hm.symm hne
      · exact hm

theorem lookup_sound {r : R} {a : List (Ptr R 𝔽)} : ∀ {t : Node 𝔽} {j : Nat}, lookup dist r a t = .ok (some j) →
    ∃ p ∈ a, p.idx = j ∧ p.record = r
  | .null, j, h => by unfold lookup at h; cases h
  | .leaf _ _, j, h => by unfold lookup at h; exact scanEq_sound h
  | .node _ _ _ _, j, h => by
    unfold lookup at h
    rw [bind_ok] at h
    obtain ⟨v, hv, h⟩ := h
    split at h
    · exact scanEq_sound h
    · split at h
      · exact lookup_sound h
      · exact lookup_sound h

/-- On the way to `r`, no vantage point is `r` and no vantage point has `r` exactly at its radius. -/
def Node.Clear (dist : R → R → 𝔽) (f : Nat → Option R) (r : R) : Node 𝔽 → Prop
  | .null => True
  | .leaf _ _ => True
  | .node start radius inside outside => (∀ v, f start = some v → v ≠ r ∧ dist r v ≠ radius) ∧ inside.Clear dist f r ∧ outside.Clear dist f r

theorem lookup_total {r : R} {a : List (Ptr R 𝔽)} : ∀ {t : Node 𝔽}, (∀ i ∈ t.indices, i < a.length) → t.LeafOk' → t.Full →
    ∃ o, lookup dist r a t = .ok o ∧ ((∀ x y, dist x y = dist y x) → t.Split dist (recs a) → t.Clear dist (recs a) r →
      r ∈ t.indices.filterMap (recs a) → ∃ j, o = some j)
  | .null, _, _, h => by cases h
  | .leaf s e, hi, hl, _ => by
    unfold lookup
    have hse : s ≤ e := hl
    have : e < a.length := hi e (by simp only [Node.indices, List.mem_range'_1]; omega)
    obtain ⟨o, h1, h2⟩ := scanEq_total (r := r) (a := a) (c := e + 1 - s) (i := s) (by omega)
    exact ⟨o, h1, fun _ _ _ => h2⟩
  | .node s rad ti to', hi, hl, hf => by
    unfold lookup
    have hs : s < a.length := hi s (by simp [Node.indices])
    have ii : ∀ i ∈ ti.indices, i < a.length := fun i hx => hi i (by simp [Node.indices, hx])
    have io : ∀ i ∈ to'.indices, i < a.length := fun i hx => hi i (by simp [Node.indices, hx])
    rw [getR_lt hs]
    simp only [bind, Except.bind]
    have hr : recs a s = some a[s].record := by unfold recs; rw [List.getElem?_eq_getElem hs]; rfl
    obtain ⟨oi, i1, i2⟩ := lookup_total (r := r) ii hl.1 hf.1
    obtain ⟨oo, o1, o2⟩ := lookup_total (r := r) io hl.2 hf.2
    split
    · next e =>
      obtain ⟨o, h1, -⟩ := scanEq_total (r := r) (a := a) (c := 0 + 1 - s) (i := s) (by omega)
      exact ⟨o, h1, fun _ _ hc _ => absurd e (hc.1 _ hr).1⟩
    · next hne =>
      split
      · next hge =>
        refine ⟨oo, o1, fun hsym hsp hc hm => ?_⟩
        obtain ⟨⟨v, h1, h2, h3⟩, h4, h5⟩ := hsp
        rw [hr] at h1; cases h1
        simp only [Node.indices, List.filterMap_cons, hr, List.filterMap_append, List.mem_cons, List.mem_append] at hm
        rcases hm with hm | hm | hm
        · exact absurd hm.symm hne
        · rw [List.mem_filterMap] at hm
          obtain ⟨j, hj, hm⟩ := hm
          have q := h2 j hj r hm
          rw [hsym] at q
          exact absurd (le_antisymm q hge) (hc.1 _ hr).2
        · exact o2 hsym h5 hc.2.2 hm
      · next hlt =>
        refine ⟨oi, i1, fun hsym hsp hc hm => ?_⟩
        obtain ⟨⟨v, h1, h2, h3⟩, h4, h5⟩ := hsp
        rw [hr] at h1; cases h1
        simp only [Node.indices, List.filterMap_cons, hr, List.filterMap_append, List.mem_cons, List.mem_append] at hm
        rcases hm with hm | hm | hm
        · exact absurd hm.symm hne
        · exact i2 hsym h4 hc.2.1 hm
        · rw [List.mem_filterMap] at hm
          obtain ⟨j, hj, hm⟩ := hm
          have q := h3 j hj r hm
          rw [hsym] at q
          exact absurd q hlt

end VP
end DE
