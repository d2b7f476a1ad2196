import Verif.Model.VPCost
import Verif.Proofs.VPTree
import Mathlib.Tactic.Linarith

/-!
Lemmas for C110: erasure of the counters, balance of the tree, bounds on the work.
-/

namespace DE
theorem Good.of_map {α β : Type} {safe : Prop} {r : Res α} {f : α → β} {P : β → Prop} (h : Good safe (r.map f) P) :
    Good safe r (fun a => P (f a)) := by
  rcases r with e | a
  · rcases h with ⟨b, hb, -⟩ | ⟨h, hs⟩
    · cases hb
    · cases h; exact Or.inr ⟨rfl, hs⟩
  · rcases h with ⟨b, hb, hp⟩ | ⟨h, -⟩
    · cases hb; exact Or.inl ⟨a, rfl, hp⟩
    · cases h

theorem Good.and {α : Type} {safe : Prop} {r : Res α} {P Q : α → Prop} (h : Good safe r P) (h' : Good safe r Q) :
    Good safe r (fun a => P a ∧ Q a) := by
  rcases h with ⟨a, rfl, hp⟩ | h
  · exact Or.inl ⟨a, rfl, hp, h'.elim rfl⟩
  · exact Or.inr h

namespace VP
variable {R 𝔽 : Type} [LinearOrder 𝔽]

theorem map_bind' {α β γ : Type} (r : Res α) (f : α → Res β) (h : β → γ) : (r >>= f).map h = r >>= fun x => (f x).map h := by
  cases r <;> rfl

theorem bind_map' {α β γ : Type} (r : Res α) (f : α → β) (h : β → Res γ) : (r.map f) >>= h = r >>= fun x => h (f x) := by
  cases r <;> rfl

theorem quickselectC_eq {g : Rng} {k : Nat} : ∀ (fuel start stop : Nat) (a : List (Ptr R 𝔽)) (pos : Nat),
    (quickselectC g k fuel start stop a pos).map (fun r => (r.1, r.2.1)) = quickselect g k fuel start stop a pos
  | 0, _, _, _, _ => rfl
  | fuel+1, start, stop, a, pos => by
    unfold quickselectC quickselect
    split
    · rfl
    · rw [map_bind']
      congr 1; funext ⟨b, pv, pos⟩
      simp only
      split
      · rw [← quickselectC_eq fuel]
        cases quickselectC g k fuel start (pv - 1) b pos <;> rfl
      · split
        · rw [← quickselectC_eq fuel]
          cases quickselectC g k fuel (pv + 1) stop b pos <;> rfl
        · rfl

theorem buildC_eq {dist : R → R → 𝔽} {leafSz : Nat} {g : Rng} : ∀ (fuel start stop : Nat) (a : List (Ptr R 𝔽)) (pos : Nat),
    (buildC dist leafSz g fuel start stop a pos).map (fun r => (r.1, r.2.1, r.2.2.1)) = build dist leafSz g fuel start stop a pos
  | 0, _, _, _, _ => rfl
  | fuel+1, start, stop, a, pos => by
    unfold buildC build
    split
    · rfl
    split
    · rfl
    · rw [map_bind']
      congr 1; funext ⟨o, pos⟩
      simp only
      rw [map_bind']
      congr 1; funext b
      rw [map_bind']
      congr 1; funext v
      rw [map_bind']
      congr 1; funext c
      rw [← quickselectC_eq, map_bind', bind_map']
      congr 1; funext ⟨e, pos, _, _⟩
      simp only
      rw [map_bind']
      congr 1; funext m
      rw [← buildC_eq fuel, map_bind', bind_map']
      congr 1; funext ⟨n1, a1, p1, w1⟩
      simp only
      rw [← buildC_eq fuel, map_bind', bind_map']
      congr 1

theorem treeC_eq [Zero 𝔽] {dist : R → R → 𝔽} {leafSz : Nat} {g : Rng} (data : List (Wrapped R)) :
    (treeC dist leafSz g data).map Prod.fst = tree dist leafSz g data := by
  unfold treeC tree
  simp only
  split
  · rfl
  · rw [← buildC_eq, map_bind', bind_map']
    congr 1

omit [LinearOrder 𝔽] in
theorem scanEqC_eq [DecidableEq R] {r : R} {a : List (Ptr R 𝔽)} : ∀ (c i : Nat), (scanEqC r a c i).map Prod.fst = scanEq r a c i
  | 0, _ => rfl
  | c+1, i => by
    unfold scanEqC scanEq
    rw [map_bind']
    congr 1; funext p
    split
    · rfl
    · rw [← scanEqC_eq c]
      cases scanEqC r a c (i+1) <;> rfl

theorem lookupC_eq [DecidableEq R] {dist : R → R → 𝔽} {r : R} {a : List (Ptr R 𝔽)} : ∀ (t : Node 𝔽),
    (lookupC dist r a t).map Prod.fst = lookup dist r a t
  | .null => rfl
  | .leaf start stop => by
    unfold lookupC lookup
    rw [← scanEqC_eq]
    cases scanEqC r a (stop + 1 - start) start <;> rfl
  | .node start radius i o => by
    unfold lookupC lookup
    rw [map_bind']
    congr 1; funext v
    split
    · rw [← scanEqC_eq]
      cases scanEqC r a (0 + 1 - start) start <;> rfl
    · split
      · rw [← lookupC_eq o]
        cases lookupC dist r a o <;> rfl
      · rw [← lookupC_eq i]
        cases lookupC dist r a i <;> rfl

theorem searchC_eq [Add 𝔽] [Sub 𝔽] {q : MaxQ R 𝔽} {dist : R → R → 𝔽} {point : R} {k : Nat} {a : List (Ptr R 𝔽)} :
    ∀ (t : Node 𝔽) (st : SState R 𝔽), (searchC q dist point k a t st).map Prod.fst = search q dist point k a t st
  | .null, _ => rfl
  | .leaf start stop, st => by
    unfold searchC search
    cases visitLeaf q dist point k a (stop + 1 - start) start st <;> rfl
  | .node start radius i o, st => by
    unfold searchC search
    rw [map_bind']
    congr 1; funext v
    simp only
    rw [map_bind']
    congr 1; funext st
    have last : ∀ (b : Option 𝔽 → Bool) (t : Node 𝔽) (x : SState R 𝔽 × Nat),
        (∀ s, (searchC q dist point k a t s).map Prod.fst = search q dist point k a t s) →
        Except.map Prod.fst (if b x.1.2 = true then (do
            let y ← searchC q dist point k a t x.1
            Except.ok (y.1, 1 + x.2 + y.2))
          else (do
            let y ← Except.ok (x.1, 0)
            Except.ok (y.1, 1 + x.2 + y.2)) : Res (SState R 𝔽 × Nat)) =
        if b x.1.2 = true then search q dist point k a t x.1 else Except.ok x.1 := by
      intro b t x h
      split
      · rw [← h x.1]
        cases searchC q dist point k a t x.1 <;> rfl
      · rfl
    split
    · split
      · rw [← searchC_eq i st, map_bind', bind_map']
        congr 1; funext x
        exact last (fun f => reachOut _ radius f) o x (searchC_eq o)
      · exact last (fun f => reachOut _ radius f) o (st, 0) (searchC_eq o)
    · split
      · rw [← searchC_eq o st, map_bind', bind_map']
        congr 1; funext x
        exact last (fun f => reachIn _ radius f) i x (searchC_eq i)
      · exact last (fun f => reachIn _ radius f) i (st, 0) (searchC_eq i)

/-! ### Bounds -/

/-- A selection among `m` records: at most `m (m - 1) / 2` comparisons, at most `m` nested calls. -/
theorem quickselectC_work {g : Rng} {safe : Prop} {k : Nat} : ∀ (fuel start stop : Nat) (a : List (Ptr R 𝔽)) (pos : Nat),
    stop + 1 - start ≤ fuel → start ≤ k → k ≤ stop → stop < a.length → (safe → a.length ≤ g.max) →
    Good safe (quickselectC g k fuel start stop a pos) (fun r =>
      2 * r.2.2.1 ≤ (stop + 1 - start) * (stop - start) ∧ r.2.2.2 ≤ stop + 1 - start)
  | 0, start, stop, a, pos, hf, h1, h2, h3, hs => by omega
  | fuel+1, start, stop, a, pos, hf, h1, h2, h3, hs => by
    unfold quickselectC
    by_cases he : start = stop
    · rw [if_pos he]
      exact Good.ok ⟨by simp, by simp only; omega⟩
    · rw [if_neg he]
      refine (partition_good (by omega) h3 hs pos).bind ?_
      rintro ⟨b, pv, pos⟩ ⟨g1, g2, g3, -⟩
      simp only at g1 g2 g3
      have hb := g1.len
      have key : ∀ m d c : Nat, m ≤ d → 2 * c ≤ m * (m - 1) → 2 * (c + d) ≤ (d + 1) * d := by
        intro m d c h1 h2
        have : m * (m - 1) ≤ d * (d - 1) := Nat.mul_le_mul h1 (by omega)
        cases d with
        | zero => obtain rfl : m = 0 := by omega
                  omega
        | succ d =>
          simp only [Nat.add_sub_cancel] at this
          nlinarith
      simp only
      split
      · next hlt =>
        refine (quickselectC_work fuel start (pv - 1) b pos (by omega) h1 (by omega) (by omega) (by rw [hb]; exact hs)).bind ?_
        rintro ⟨c, pos, x, n⟩ ⟨q1, q2⟩
        simp only at q1 q2
        refine Good.ok ⟨?_, by simp only; omega⟩
        rw [show stop + 1 - start = (stop - start) + 1 by omega]
        refine key (pv - 1 + 1 - start) _ _ (by omega) ?_
        rwa [show pv - 1 + 1 - start - 1 = pv - 1 - start by omega]
      · split
        · next hge hgt =>
          refine (quickselectC_work fuel (pv + 1) stop b pos (by omega) (by omega) h2 (by omega) (by rw [hb]; exact hs)).bind ?_
          rintro ⟨c, pos, x, n⟩ ⟨q1, q2⟩
          simp only at q1 q2
          refine Good.ok ⟨?_, by simp only; omega⟩
          rw [show stop + 1 - start = (stop - start) + 1 by omega]
          refine key (stop + 1 - (pv + 1)) _ _ (by omega) ?_
          rwa [show stop + 1 - (pv + 1) - 1 = stop - (pv + 1) by omega]
        · refine Good.ok ⟨?_, by simp only; omega⟩
          rw [show stop + 1 - start = (stop - start) + 1 by omega]
          have := key 0 (stop - start) 0 (by omega) (by omega)
          rwa [Nat.zero_add] at this

/-- If all distances are equal the selection removes one record per call. -/
theorem quickselectC_equal {g : Rng} {safe : Prop} {k : Nat} {δ : 𝔽} : ∀ (fuel start stop : Nat) (a : List (Ptr R 𝔽)) (pos : Nat),
    stop + 1 - start ≤ fuel → start ≤ k → k < stop → stop < a.length → (safe → a.length ≤ g.max) →
    InSeg (fun x => x.dist = δ) start (stop + 1) a →
    Good safe (quickselectC g k fuel start stop a pos) (fun r =>
      (k + 1 - start) * (stop - k) ≤ r.2.2.1 ∧ r.2.2.2 = k + 1 - start)
  | 0, start, stop, a, pos, hf, h1, h2, h3, hs, hδ => by omega
  | fuel+1, start, stop, a, pos, hf, h1, h2, h3, hs, hδ => by
    unfold quickselectC
    rw [if_neg (by omega)]
    refine (partition_good (by omega) h3 hs pos).bind ?_
    rintro ⟨b, pv, pos⟩ ⟨g1, g2, g3, p, g4, g5, -⟩
    simp only at g1 g2 g3 g4 g5
    have hb := g1.len
    have hδ' : InSeg (fun x => x.dist = δ) start (stop + 1) b := InSeg.swaps g1 (Or.inl ⟨le_refl _, le_refl _⟩) hδ
    have hpv : pv = start := by
      by_contra hne
      have hl : start < b.length := by omega
      have e1 := g5 start (le_refl _) (by omega) b[start] (List.getElem?_eq_getElem hl)
      have e2 := hδ' start (le_refl _) (by omega) b[start] (List.getElem?_eq_getElem hl)
      have e3 := hδ' pv g2 (by omega) p g4
      simp only at e1 e2 e3
      rw [e2, e3] at e1
      exact lt_irrefl _ e1
    subst hpv
    simp only
    rw [if_neg (by omega)]
    split
    · next hgt =>
      refine (quickselectC_equal fuel (pv + 1) stop b pos (by omega) (by omega) h2 (by omega) (by rw [hb]; exact hs)
        (hδ'.sub (by omega) (le_refl _))).bind ?_
      rintro ⟨c, pos, x, n⟩ ⟨q1, q2⟩
      simp only at q1 q2
      refine Good.ok ⟨?_, by simp only; omega⟩
      simp only
      rw [show k + 1 - pv = (k + 1 - (pv + 1)) + 1 by omega, Nat.succ_mul]
      omega
    · refine Good.ok ⟨?_, by simp only; omega⟩
      rw [show k + 1 - pv = 1 by omega]
      simp only
      omega

/-- Nodes on the longest path. -/
def Node.depth : Node 𝔽 → Nat
  | .null => 0
  | .leaf _ _ => 1
  | .node _ _ inside outside => max inside.depth outside.depth + 1

/-- Nodes of the tree. -/
def Node.count : Node 𝔽 → Nat
  | .null => 0
  | .leaf _ _ => 1
  | .node _ _ inside outside => inside.count + outside.count + 1

theorem sq_step {n cm c1 c2 : Nat} (hn : 1 ≤ n) (z1 : 2 * cm ≤ n * (n - 1)) (x3 : c1 ≤ ((n+1)/2 - 1) ^ 2) (y3 : c2 ≤ (n + 1 - (n+1)/2) ^ 2) :
    cm + c1 + c2 ≤ (n + 1) ^ 2 := by
  generalize hh : (n+1)/2 = k at *
  obtain ⟨j, rfl⟩ : ∃ j, k = j + 1 := ⟨k - 1, by omega⟩
  rw [Nat.add_sub_cancel] at x3
  rcases (show n + 1 = 2 * (j + 1) ∨ n + 1 = 2 * (j + 1) + 1 by omega) with hn | hn
  · obtain rfl : n = 2 * j + 1 := by omega
    rw [show 2 * j + 1 + 1 - (j + 1) = j + 1 by omega] at y3
    rw [show 2 * j + 1 - 1 = 2 * j by omega] at z1
    nlinarith
  · obtain rfl : n = 2 * j + 2 := by omega
    rw [show 2 * j + 2 + 1 - (j + 1) = j + 2 by omega] at y3
    rw [show 2 * j + 2 - 1 = 2 * j + 1 by omega] at z1
    nlinarith

/-- The tree of a segment of at most `2^d * (leafSz + 1)` records: depth and work. -/
theorem buildC_work {dist : R → R → 𝔽} {leafSz : Nat} {g : Rng} : ∀ (fuel d start stop : Nat) (a : List (Ptr R 𝔽)) (pos : Nat)
    (r : Node 𝔽 × List (Ptr R 𝔽) × Nat × Work),
    stop + 1 - start < fuel → (start > stop ∨ stop < a.length) → stop + 1 - start ≤ 2 ^ d * (leafSz + 1) →
    buildC dist leafSz g fuel start stop a pos = .ok r →
    r.1.depth ≤ d + 1 ∧ r.2.2.2.dists ≤ (stop + 1 - start) * d ∧ r.2.2.2.cmps ≤ (stop + 1 - start) ^ 2 ∧
      r.2.2.2.nest ≤ stop - start
  | 0, d, start, stop, a, pos, r, hf, hb, hd, h => by omega
  | fuel+1, d, start, stop, a, pos, r, hf, hb, hd, h => by
    unfold buildC at h
    by_cases h1 : start > stop
    · rw [if_pos h1] at h
      cases h
      exact ⟨by simp [Node.depth], by simp, by simp, by simp⟩
    rw [if_neg h1] at h
    by_cases h2 : stop - start ≤ leafSz
    · rw [if_pos h2] at h
      cases h
      exact ⟨by simp [Node.depth], by simp, by simp, by simp⟩
    rw [if_neg h2] at h
    have hlen : stop < a.length := by omega
    cases d with
    | zero => omega
    | succ d =>
    have hd' : stop + 1 - start ≤ 2 * (2 ^ d * (leafSz + 1)) := by
      rwa [pow_succ, Nat.mul_comm (2 ^ d) 2, Nat.mul_assoc] at hd
    generalize hX : 2 ^ d * (leafSz + 1) = X at hd'
    simp only [bind_ok] at h
    obtain ⟨⟨o, pos1⟩, hbl, b, hsw, v, hv, c, hc, ⟨e, pos2, cm, ne⟩, hq, m, hm, ⟨n1, a1, p1, w1⟩, hi, ⟨n2, a2, p2, w2⟩, ho, hr⟩ := h
    cases hr
    have ho' := ((below_good (safe := False) pos (by omega) (fun h => h.elim)).elim hbl).1
    simp only at ho'
    have ha1 : start < a.length := by omega
    have ha2 : start + o < a.length := by omega
    rw [swapR_ok ha1 ha2] at hsw
    cases hsw
    have hbl : (swapL a start (start + o) ha1 ha2).length = a.length :=
      (Swaps.one (lo := start) (hi := stop + 1) ha1 ha2 (by omega) (by omega) (by omega) (by omega)).len
    have hc' := ((setDists_good False (stop - start) (start + 1) _ (by omega)).elim hc).1
    have hcl : c.length = a.length := by have := congrArg List.length hc'; simpa [hbl] using this
    have hq1 := (quickselectC_work (safe := False) (stop - start) (start + 1) stop c pos1 (k := (start + 1 + stop) / 2) (by omega) (by omega)
      (by omega) (by omega) (fun h => h.elim)).elim hq
    have hq2 := (((quickselectC_eq (g := g) (k := (start + 1 + stop) / 2) (stop - start) (start + 1) stop c pos1) ▸
      (quickselect_good (safe := False) (stop - start) (start + 1) stop c pos1 (k := (start + 1 + stop) / 2) (by omega) (by omega)
      (by omega) (by omega) (fun h => h.elim))).of_map.elim hq).1.len
    dsimp only at hq1 hq2 hm hi ho
    have hi1 := buildC_work fuel d _ _ _ _ _ (by omega) (by right; rw [List.length_set]; omega) (by omega) hi
    have hi2 := (((buildC_eq (dist := dist) (leafSz := leafSz) (g := g) fuel (start + 1) ((start + 1 + stop) / 2 - 1) _ pos2) ▸
      (build_good (safe := False) fuel (start + 1) ((start + 1 + stop) / 2 - 1) _ pos2 (by omega) (by right; rw [List.length_set]; omega)
      (fun h => h.elim))).of_map.elim hi).1.len
    simp only [List.length_map, List.length_set] at hi1 hi2
    have ho1 := buildC_work fuel d _ _ _ _ _ (by omega) (by right; omega) (by omega) ho
    simp only at ho1
    obtain ⟨x1, x2, x3, x4⟩ := hi1
    obtain ⟨y1, y2, y3, y4⟩ := ho1
    obtain ⟨z1, z2⟩ := hq1
    generalize hM : (start + 1 + stop) / 2 = mid at *
    obtain ⟨n, rfl⟩ : ∃ n, stop = start + n := ⟨stop - start, by omega⟩
    have em : mid = start + (n + 1) / 2 := by omega
    subst em
    refine ⟨?_, ?_, ?_, ?_⟩
    · simp only [Node.depth]; omega
    · simp only
      have e1 : start + (n+1)/2 - 1 + 1 - (start + 1) = (n+1)/2 - 1 := by omega
      have e2 : start + n + 1 - (start + (n+1)/2) = n + 1 - (n+1)/2 := by omega
      have e3 : start + n + 1 - start = n + 1 := by omega
      rw [e1] at x2; rw [e2] at y2; rw [e3]
      have : ((n+1)/2 - 1) * d + (n + 1 - (n+1)/2) * d ≤ (n + 1) * d := by
        rw [← Nat.add_mul]; exact Nat.mul_le_mul_right _ (by omega)
      rw [Nat.mul_succ]
      omega
    · simp only
      have e1 : start + (n+1)/2 - 1 + 1 - (start + 1) = (n+1)/2 - 1 := by omega
      have e2 : start + n + 1 - (start + (n+1)/2) = n + 1 - (n+1)/2 := by omega
      have e3 : start + n + 1 - start = n + 1 := by omega
      have e4 : start + n + 1 - (start + 1) = n := by omega
      have e5 : start + n - (start + 1) = n - 1 := by omega
      rw [e1] at x3; rw [e2] at y3; rw [e3]; rw [e4, e5] at z1
      exact sq_step (by omega) z1 x3 y3
    · simp only
      omega

omit [LinearOrder 𝔽] in
theorem scanEqC_work [DecidableEq R] {r : R} {a : List (Ptr R 𝔽)} : ∀ {c i : Nat} {x : Option Nat × Nat}, scanEqC r a c i = .ok x → x.2 ≤ c
  | 0, _, x, h => by cases h; exact le_refl _
  | c+1, i, x, h => by
    unfold scanEqC at h
    simp only [bind_ok] at h
    obtain ⟨p, -, h⟩ := h
    split at h
    · cases h; simp only; omega
    · simp only [bind_ok] at h
      obtain ⟨y, h1, h2⟩ := h
      have := scanEqC_work h1
      cases h2; simp only; omega

/-- A lookup computes at most one distance per inner node of a path and compares with one record per node and those of a leaf. -/
theorem lookupC_work [DecidableEq R] {dist : R → R → 𝔽} {r : R} {a : List (Ptr R 𝔽)} {leafSz : Nat} : ∀ {t : Node 𝔽} {x : Option Nat × Nat × Nat},
    t.LeafOk leafSz → lookupC dist r a t = .ok x → x.2.1 + 1 ≤ t.depth ∧ x.2.2 ≤ t.depth + (leafSz + 1)
  | .null, x, _, h => by cases h
  | .leaf s e, x, hl, h => by
    unfold lookupC at h
    simp only [bind_ok] at h
    obtain ⟨y, h1, h2⟩ := h
    have := scanEqC_work h1
    cases h2
    have h3 := hl.2
    simp only [Node.depth]; omega
  | .node s rd i o, x, hl, h => by
    unfold lookupC at h
    simp only [bind_ok] at h
    obtain ⟨v, -, h⟩ := h
    split at h
    · simp only [bind_ok] at h
      obtain ⟨y, h1, h2⟩ := h
      have := scanEqC_work h1
      cases h2
      simp only [Node.depth]
      omega
    · split at h
      · simp only [bind_ok] at h
        obtain ⟨y, h1, h2⟩ := h
        have := lookupC_work hl.2 h1
        cases h2
        simp only [Node.depth]; omega
      · simp only [bind_ok] at h
        obtain ⟨y, h1, h2⟩ := h
        have := lookupC_work hl.1 h1
        cases h2
        simp only [Node.depth]; omega

/-- A search meets no record twice. -/
theorem searchC_work [Add 𝔽] [Sub 𝔽] {q : MaxQ R 𝔽} {dist : R → R → 𝔽} {point : R} {k : Nat} {a : List (Ptr R 𝔽)} :
    ∀ {t : Node 𝔽} {st : SState R 𝔽} {x : SState R 𝔽 × Nat}, searchC q dist point k a t st = .ok x → x.2 ≤ t.indices.length
  | .null, st, x, h => by cases h; simp
  | .leaf s e, st, x, h => by
    unfold searchC at h
    simp only [bind_ok] at h
    obtain ⟨y, -, h2⟩ := h
    cases h2
    simp [Node.indices]
  | .node s rd i o, st, x, h => by
    have last : ∀ (b : Option 𝔽 → Bool) (t : Node 𝔽) (x z : SState R 𝔽 × Nat),
        (∀ st x, searchC q dist point k a t st = .ok x → x.2 ≤ t.indices.length) →
        (if b x.1.2 = true then (do
            let y ← searchC q dist point k a t x.1
            Except.ok (y.1, 1 + x.2 + y.2))
          else (do
            let y ← Except.ok (x.1, 0)
            Except.ok (y.1, 1 + x.2 + y.2)) : Res (SState R 𝔽 × Nat)) = .ok z → z.2 ≤ 1 + x.2 + t.indices.length := by
      intro b t x z ih h
      split at h
      · simp only [bind_ok] at h
        obtain ⟨y, h1, h2⟩ := h
        have := ih _ _ h1
        cases h2; simp only; omega
      · cases h; simp only; omega
    unfold searchC at h
    simp only [bind_ok] at h
    obtain ⟨v, -, st1, -, h⟩ := h
    simp only [Node.indices, List.length_cons, List.length_append]
    split at h
    · split at h
      · simp only [bind_ok] at h
        obtain ⟨y, h1, h⟩ := h
        have e1 := searchC_work h1
        have e2 := last (fun f => reachOut _ rd f) o y x (fun _ _ h => searchC_work h) h
        omega
      · have e2 := last (fun f => reachOut _ rd f) o (st1, 0) x (fun _ _ h => searchC_work h) h
        simp only at e2
        omega
    · split at h
      · simp only [bind_ok] at h
        obtain ⟨y, h1, h⟩ := h
        have e1 := searchC_work h1
        have e2 := last (fun f => reachIn _ rd f) i y x (fun _ _ h => searchC_work h) h
        omega
      · have e2 := last (fun f => reachIn _ rd f) i (st1, 0) x (fun _ _ h => searchC_work h) h
        simp only at e2
        omega

end VP
end DE
