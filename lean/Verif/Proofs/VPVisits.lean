import Verif.Proofs.Knn

/-!
The records a tree search meets, in order, and the record at the root.
-/

namespace DE.VP
variable {R 𝔽 : Type} [LinearOrder 𝔽]

/-- Visit the records of a list. -/
def visits {σ : Type} (F : R → σ → Res σ) : List R → σ → Res σ
  | [], s => .ok s
  | x :: xs, s => do
    let s ← F x s
    visits F xs s

omit [LinearOrder 𝔽] in
theorem visits_append {σ : Type} {F : R → σ → Res σ} : ∀ {xs ys : List R} {s s' s'' : σ}, visits F xs s = .ok s' →
    visits F ys s' = .ok s'' → visits F (xs ++ ys) s = .ok s''
  | [], ys, s, s', s'', h1, h2 => by cases h1; exact h2
  | x :: xs, ys, s, s', s'', h1, h2 => by
    unfold visits at h1
    rw [bind_ok] at h1
    obtain ⟨u, e, h1⟩ := h1
    rw [List.cons_append]
    unfold visits
    rw [e]
    exact visits_append h1 h2

theorem visitLeaf_visits [Add 𝔽] [Sub 𝔽] {q : MaxQ R 𝔽} {dist : R → R → 𝔽} {point : R} {k : Nat} {a : List (Ptr R 𝔽)} :
    ∀ (c i : Nat) {st st' : SState R 𝔽}, visitLeaf q dist point k a c i st = .ok st' →
    visits (visit q dist point k) ((List.range' i c).filterMap (recs a)) st = .ok st'
  | 0, i, st, st', h => h
  | c+1, i, st, st', h => by
    unfold visitLeaf at h
    rw [bind_ok] at h
    obtain ⟨p, hp, h⟩ := h
    rw [bind_ok] at h
    obtain ⟨s, hs, h⟩ := h
    have hr : recs a i = some p.record := by
      unfold getR at hp
      unfold recs
      split at hp
      · next x hx => cases hp; rw [hx]; rfl
      · cases hp
    rw [List.range'_succ, List.filterMap_cons, hr]
    simp only
    unfold visits
    rw [hs]
    exact visitLeaf_visits c (i+1) h

/-- A search is a sequence of visits of records of the tree, each position at most once; it starts with the root's record. -/
theorem search_visits [Add 𝔽] [Sub 𝔽] {q : MaxQ R 𝔽} {dist : R → R → 𝔽} {point : R} {k : Nat} {a : List (Ptr R 𝔽)} :
    ∀ (t : Node 𝔽) {st st' : SState R 𝔽}, search q dist point k a t st = .ok st' →
    ∃ vs, List.Subperm vs (t.indices.filterMap (recs a)) ∧ visits (visit q dist point k) vs st = .ok st' ∧
      ∀ s r ti to', t = .node s r ti to' → ∃ v ws, vs = v :: ws ∧ recs a s = some v
  | .null, st, st', h => ⟨[], List.nil_subperm, h, fun _ _ _ _ h => by cases h⟩
  | .leaf s e, st, st', h => ⟨_, List.Subperm.refl _, visitLeaf_visits _ _ h, fun _ _ _ _ h => by cases h⟩
  | .node s r ti to', st, st', h => by
    unfold search at h
    rw [bind_ok] at h
    obtain ⟨p, hp, h⟩ := h
    have hr : recs a s = some p.record := by
      unfold getR at hp
      unfold recs
      split at hp
      · next x hx => cases hp; rw [hx]; rfl
      · cases hp
    dsimp only at h
    rw [bind_ok] at h
    obtain ⟨s1, h1, h⟩ := h
    have inS : ∀ {u u' : SState R 𝔽}, (if reachIn (dist point p.record) r u.2 = true then search q dist point k a ti u else .ok u) = .ok u' →
        ∃ vs, List.Subperm vs (ti.indices.filterMap (recs a)) ∧ visits (visit q dist point k) vs u = .ok u' := by
      intro u u' hu
      split at hu
      · obtain ⟨vs, g1, g2, -⟩ := search_visits ti hu
        exact ⟨vs, g1, g2⟩
      · exact ⟨[], List.nil_subperm, hu⟩
    have outS : ∀ {u u' : SState R 𝔽}, (if reachOut (dist point p.record) r u.2 = true then search q dist point k a to' u else .ok u) = .ok u' →
        ∃ vs, List.Subperm vs (to'.indices.filterMap (recs a)) ∧ visits (visit q dist point k) vs u = .ok u' := by
      intro u u' hu
      split at hu
      · obtain ⟨vs, g1, g2, -⟩ := search_visits to' hu
        exact ⟨vs, g1, g2⟩
      · exact ⟨[], List.nil_subperm, hu⟩
    have fin : ∀ ws, List.Subperm ws (ti.indices.filterMap (recs a) ++ to'.indices.filterMap (recs a)) →
        visits (visit q dist point k) ws s1 = .ok st' →
        ∃ vs, List.Subperm vs ((Node.node s r ti to').indices.filterMap (recs a)) ∧ visits (visit q dist point k) vs st = .ok st' ∧
          ∀ s' r' ti' to'', (Node.node s r ti to' : Node 𝔽) = .node s' r' ti' to'' → ∃ v ws, vs = v :: ws ∧ recs a s' = some v := by
      intro ws w1 w2
      refine ⟨p.record :: ws, ?_, ?_, ?_⟩
      · simp only [Node.indices, List.filterMap_cons, hr, List.filterMap_append]
        exact (List.subperm_cons _).mpr w1
      · unfold visits
        rw [h1]
        exact w2
      · intro s' r' ti' to'' e
        cases e
        exact ⟨_, _, rfl, hr⟩
    split at h
    · have h' : ((if reachIn (dist point p.record) r s1.2 = true then search q dist point k a ti s1 else .ok s1) >>= fun u =>
          if reachOut (dist point p.record) r u.2 = true then search q dist point k a to' u else .ok u) = .ok st' := by
        split at h
        · next c => rw [if_pos c]; exact h
        · next c => rw [if_neg c]; exact h
      rw [bind_ok] at h'
      obtain ⟨u, e1, e2⟩ := h'
      obtain ⟨v1, a1, a2⟩ := inS e1
      obtain ⟨v2, b1, b2⟩ := outS e2
      exact fin (v1 ++ v2) (a1.append b1) (visits_append a2 b2)
    · have h' : ((if reachOut (dist point p.record) r s1.2 = true then search q dist point k a to' s1 else .ok s1) >>= fun u =>
          if reachIn (dist point p.record) r u.2 = true then search q dist point k a ti u else .ok u) = .ok st' := by
        split at h
        · next c => rw [if_pos c]; exact h
        · next c => rw [if_neg c]; exact h
      rw [bind_ok] at h'
      obtain ⟨u, e1, e2⟩ := h'
      obtain ⟨v1, a1, a2⟩ := outS e1
      obtain ⟨v2, b1, b2⟩ := inS e2
      exact fin (v1 ++ v2) ((a1.append b1).trans List.perm_append_comm.subperm) (visits_append a2 b2)

/-- A tree that is no leaf has the record of the first draw at its root. -/
theorem tree_root [Zero 𝔽] {dist : R → R → 𝔽} {leafSz : Nat} {g : Rng} {data : List (Wrapped R)} {t : Tree R 𝔽}
    (hl : leafSz + 1 < data.length) (ht : tree dist leafSz g data = .ok t) :
    ∃ r ti to', t.root = .node 0 r ti to' ∧ recs t.ptrs 0 = (data[g.tape 0 % data.length]?).map Wrapped.record := by
  unfold tree at ht
  simp only [if_neg (show ¬ data.length = 0 by omega)] at ht
  rw [bind_ok] at ht
  obtain ⟨⟨root, a', pos'⟩, hb, ht⟩ := ht
  cases ht
  simp only
  unfold build at hb
  rw [if_neg (by omega), if_neg (by omega), bind_ok] at hb
  have hlen : (initPtrs (𝔽 := 𝔽) data).length = data.length := by unfold initPtrs; simp
  obtain ⟨⟨o, pos⟩, h1, hb⟩ := hb
  simp only at hb
  have ho : o = g.tape 0 % data.length ∧ data.length ≤ g.max := by
    unfold Rng.below at h1
    rw [show data.length - 1 - 0 + 1 = data.length by omega] at h1
    split at h1
    · cases h1
    · cases h1; exact ⟨rfl, by omega⟩
  have hol : o < data.length := by rw [ho.1]; exact Nat.mod_lt _ (by omega)
  rw [swapR_ok (show 0 < (initPtrs (𝔽 := 𝔽) data).length by omega) (show 0 + o < (initPtrs (𝔽 := 𝔽) data).length by omega), bind_ok] at hb
  obtain ⟨b, hbd, hb⟩ := hb
  cases hbd
  generalize hbd : swapL (initPtrs (𝔽 := 𝔽) data) 0 (0 + o) (by omega) (by omega) = b at hb
  have hbl : b.length = data.length := by
    rw [← hbd, ← hlen]
    exact (Swaps.one (lo := 0) (hi := data.length) (show 0 < (initPtrs (𝔽 := 𝔽) data).length by omega)
      (show 0 + o < (initPtrs (𝔽 := 𝔽) data).length by omega) (by omega) (by omega) (by omega) (by omega)).len
  rw [bind_ok] at hb
  obtain ⟨v, hv, hb⟩ := hb
  have hv' : b[0]? = some v := by
    unfold getR at hv
    split at hv
    · next x hx => cases hv; exact hx
    · cases hv
  have hvr : some v.record = (data[o]?).map Wrapped.record := by
    have : b[0]? = (initPtrs (𝔽 := 𝔽) data)[0 + o]? := by
      rw [← hbd, swapL_get]
      by_cases h0 : 0 + o = 0
      · rw [if_pos h0, h0]
      · rw [if_neg h0, if_pos rfl]
    rw [Nat.zero_add] at this
    rw [this] at hv'
    unfold initPtrs at hv'
    rw [List.getElem?_mapIdx] at hv'
    cases hd : data[o]? with
    | none => rw [hd] at hv'; cases hv'
    | some w => rw [hd] at hv'; cases hv'; rfl
  rw [bind_ok] at hb
  obtain ⟨c, hc, hb⟩ := hb
  obtain ⟨c1, c2, -⟩ := (setDists_good True _ _ _ (by omega)).elim hc
  have hcl : c.length = b.length := by have := congrArg List.length c1; simpa using this
  rw [bind_ok] at hb
  obtain ⟨⟨e, pos2⟩, he, hb⟩ := hb
  simp only at hb
  obtain ⟨e1, -⟩ := (quickselect_good (safe := True) _ _ _ _ _ (by omega) (by omega) (by omega) (by omega) (fun _ => by omega)).elim he
  have hel : e.length = c.length := e1.len
  have he0 : e[0]? = some v := by
    rw [e1.out (Or.inl (by omega)), c2 0 (by omega)]; exact hv'
  rw [bind_ok] at hb
  obtain ⟨m, hm, hb⟩ := hb
  rw [bind_ok] at hb
  obtain ⟨⟨ni, ai, posi⟩, hi, hb⟩ := hb
  simp only at hb
  rw [bind_ok] at hb
  obtain ⟨⟨no, ao, poso⟩, hoo, hb⟩ := hb
  cases hb
  refine ⟨_, _, _, rfl, ?_⟩
  obtain ⟨i1, -⟩ := (build_good (safe := True) _ _ _ _ _ (by omega) (by rw [List.length_set]; omega) (fun _ => by rw [List.length_set]; omega)).elim hi
  have hail : ai.length = e.length := by have := i1.len; simpa using this
  obtain ⟨o1, -⟩ := (build_good (safe := True) _ _ _ _ _ (by omega) (by omega) (fun _ => by omega)).elim hoo
  have q1 := o1.out (k := 0) (Or.inl (by omega))
  have q2 := i1.out (k := 0) (Or.inl (by omega))
  have q3 := recs_core (q1.trans q2)
  simp only at q3
  rw [q3, ← ho.1, ← hvr]
  unfold recs
  rw [List.getElem?_set, if_pos rfl, if_pos (by omega)]
  rfl

end DE.VP
