import Verif.Proofs.Knn

/-!
k-nearest-neighbour search when pruning is not exact: the comparison `f x ≤ f y` between a record returned and a record left out is
weakened to `ρ (f x) (f y)`.
-/

namespace DE
variable {R 𝔽 : Type} [LinearOrder 𝔽]

/-- `KNearest` with a weaker comparison. -/
def KNear (k : Nat) (f : R → 𝔽) (ρ : 𝔽 → 𝔽 → Prop) (data res : List R) : Prop :=
  ∃ rest, data.Perm (res ++ rest) ∧ res.length = min k data.length ∧ ∀ x ∈ res, ∀ y ∈ rest, ρ (f x) (f y)

/-- A comparison that extends `≤` and is respected by it. -/
structure Weak (ρ : 𝔽 → 𝔽 → Prop) : Prop where
  of_le : ∀ {a b}, a ≤ b → ρ a b
  left : ∀ {a b c}, a ≤ b → ρ b c → ρ a c

variable {ρ : 𝔽 → 𝔽 → Prop}

omit [LinearOrder 𝔽] in
theorem KNear.perm {k : Nat} {f : R → 𝔽} {data data' res res' : List R} (h : KNear k f ρ data res) (hd : data.Perm data')
    (hr : res.Perm res') : KNear k f ρ data' res' := by
  obtain ⟨rest, h1, h2, h3⟩ := h
  refine ⟨rest, hd.symm.trans (h1.trans (hr.append_right _)), ?_, fun x hx y hy => h3 x (hr.mem_iff.mpr hx) y hy⟩
  rw [← hr.length_eq, ← hd.length_eq]; exact h2

theorem KNearest.near (hρ : Weak ρ) {k : Nat} {f : R → 𝔽} {data res : List R} (h : KNearest k f data res) : KNear k f ρ data res := by
  obtain ⟨rest, h1, h2, h3⟩ := h
  exact ⟨rest, h1, h2, fun x hx y hy => hρ.of_le (h3 x hx y hy)⟩

omit [LinearOrder 𝔽] in
theorem near_parts {k : Nat} {f : R → 𝔽} : ∀ {Ds rs : List (List R)}, List.Forall₂ (fun D r => KNear k f ρ D r) Ds rs →
    ∃ E, Ds.flatten.Perm (rs.flatten ++ E) ∧ min k Ds.flatten.length = min k rs.flatten.length ∧
      ∀ y ∈ E, ∃ r : List R, r.Sublist rs.flatten ∧ r.length = k ∧ ∀ z ∈ r, ρ (f z) (f y)
  | _, _, .nil => ⟨[], List.Perm.refl _, rfl, by simp⟩
  | D :: Ds, r :: rs, .cons ⟨rest, h1, h2, h3⟩ h => by
    obtain ⟨E, g1, g2, g3⟩ := near_parts h
    have hl := h1.length_eq
    have hl' := g1.length_eq
    simp only [List.length_append] at hl hl'
    refine ⟨rest ++ E, ?_, ?_, ?_⟩
    · simp only [List.flatten_cons]
      refine (h1.append g1).trans ?_
      simp only [List.append_assoc]
      refine List.Perm.append_left r ?_
      rw [← List.append_assoc, ← List.append_assoc]
      exact List.perm_append_comm.append_right E
    · simp only [List.flatten_cons, List.length_append]
      omega
    · intro y hy
      rcases List.mem_append.mp hy with hy | hy
      · have := List.length_pos_of_mem hy
        exact ⟨r, by simp only [List.flatten_cons]; exact List.sublist_append_left _ _, by omega, fun z hz => h3 z hz y hy⟩
      · obtain ⟨r', a1, a2⟩ := g3 y hy
        exact ⟨r', by simp only [List.flatten_cons]; exact a1.trans (List.sublist_append_right _ _), a2⟩

/-- The exact `k` nearest of the approximately nearest of each part are approximately nearest of the whole: the errors do not add up. -/
theorem KNearest.widen_near (hρ : Weak ρ) {k : Nat} {f : R → 𝔽} {Ds rs : List (List R)} {res : List R}
    (hD : List.Forall₂ (fun D r => KNear k f ρ D r) Ds rs) (hr : KNearest k f rs.flatten res) : KNear k f ρ Ds.flatten res := by
  obtain ⟨E, h1, h2, h3⟩ := near_parts hD
  obtain ⟨rest, g1, g2, g3⟩ := hr
  refine ⟨rest ++ E, ?_, by rw [h2]; exact g2, ?_⟩
  · refine h1.trans ?_
    rw [← List.append_assoc]
    exact g1.append_right E
  · intro x hx y hy
    rcases List.mem_append.mp hy with hy | hy
    · exact hρ.of_le (g3 x hx y hy)
    · by_contra hno
      obtain ⟨r, a1, a2, a3⟩ := h3 y hy
      have hall : ∀ z ∈ r, f z < f x := fun z hz => not_le.mp (fun hle => hno (hρ.left hle (a3 z hz)))
      have c1 : r.countP (fun z => decide (f z < f x)) = r.length := by
        rw [List.countP_eq_length]; intro z hz; simpa using hall z hz
      have c2 : rest.countP (fun z => decide (f z < f x)) = 0 := by
        rw [List.countP_eq_zero]; intro z hz; simpa using g3 x hx z hz
      have c3 : res.countP (fun z => decide (f z < f x)) < res.length := by
        have hle := List.countP_le_length (p := fun z => decide (f z < f x)) (l := res)
        rcases Nat.lt_or_eq_of_le hle with h | h
        · exact h
        · have := (List.countP_eq_length.mp h) x hx
          simp at this
      have c4 := g1.countP_eq (fun z => decide (f z < f x))
      rw [List.countP_append] at c4
      have c5 := a1.countP_le (p := fun z => decide (f z < f x))
      omega

namespace VP

/-- The search state after the records `S` were met or excluded. -/
def FoundW (k : Nat) (f : R → 𝔽) (ρ : 𝔽 → 𝔽 → Prop) (S : List R) (st : SState R 𝔽) : Prop :=
  KNear k f ρ S st.1 ∧ (st.1.length < k → st.2 = none) ∧ (st.1.length = k → ∃ m ∈ st.1, st.2 = some (f m) ∧ ∀ y ∈ st.1, f y ≤ f m)

theorem FoundW.perm {k : Nat} {f : R → 𝔽} {S S' : List R} {st : SState R 𝔽} (h : FoundW k f ρ S st) (hp : S.Perm S') : FoundW k f ρ S' st :=
  ⟨h.1.perm hp (List.Perm.refl _), h.2⟩

theorem FoundW.len {k : Nat} {f : R → 𝔽} {S : List R} {st : SState R 𝔽} (h : FoundW k f ρ S st) : st.1.length ≤ k := by
  obtain ⟨⟨_, _, h2, _⟩, _⟩ := h; omega

/-- The current bound is the distance of a record met. -/
theorem FoundW.bound {k : Nat} {f : R → 𝔽} {S : List R} {st : SState R 𝔽} (h : FoundW k f ρ S st) {b : 𝔽} (hb : st.2 = some b) :
    ∃ m ∈ S, b = f m := by
  have hlen : st.1.length = k := by
    rcases Nat.lt_or_eq_of_le h.len with hlt | he
    · rw [h.2.1 hlt] at hb; cases hb
    · exact he
  obtain ⟨m, hm, hm2, -⟩ := h.2.2 hlen
  rw [hb] at hm2
  cases hm2
  obtain ⟨⟨rest, h1, -, -⟩, -⟩ := h
  exact ⟨m, h1.mem_iff.mpr (List.mem_append_left _ hm), rfl⟩

/-- Records that are not closer than the current bound, by the weak comparison, may be excluded. -/
theorem FoundW.skip (hρ : Weak ρ) {k : Nat} {f : R → 𝔽} {S T : List R} {st : SState R 𝔽} (h : FoundW k f ρ S st) {b : 𝔽} (hb : st.2 = some b)
    (hT : ∀ y ∈ T, ρ b (f y)) : FoundW k f ρ (T ++ S) st := by
  have hlen : st.1.length = k := by
    rcases Nat.lt_or_eq_of_le h.len with hlt | he
    · rw [h.2.1 hlt] at hb; cases hb
    · exact he
  obtain ⟨m, hm, hm2, hm3⟩ := h.2.2 hlen
  rw [hb] at hm2
  cases hm2
  obtain ⟨⟨rest, h1, h2, h3⟩, h4, h5⟩ := h
  have hl := h1.length_eq
  simp only [List.length_append] at hl
  refine ⟨⟨T ++ rest, ?_, by rw [List.length_append]; omega, ?_⟩, h4, h5⟩
  · refine (List.Perm.append_left T h1).trans ?_
    rw [← List.append_assoc, ← List.append_assoc]
    exact List.perm_append_comm.append_right rest
  · intro x hx y hy
    rcases List.mem_append.mp hy with hy | hy
    · exact hρ.left (hm3 x hx) (hT y hy)
    · exact h3 x hx y hy

theorem visit_goodW (hρ : Weak ρ) {q : MaxQ R 𝔽} (hq : q.Ok) {safe : Prop} {dist : R → R → 𝔽} (hsym : ∀ x y, dist x y = dist y x) {point : R} {k : Nat}
    (hk : 1 ≤ k) (x : R) {S : List R} {st : SState R 𝔽} (h : FoundW k (fun y => dist y point) ρ S st) :
    Good safe (visit q dist point k x st) (fun st' => FoundW k (fun y => dist y point) ρ (x :: S) st') := by
  unfold visit
  by_cases hc : closer (dist point x) st.2 = true
  · rw [if_pos hc]
    -- the last step: set the bound
    have fin : ∀ l, KNear k (fun y => dist y point) ρ (x :: S) (x :: l) → ((x :: l).length < k → st.2 = none) →
        Good safe (if (x :: l).length = k then do
          let (top, _) ← popR q (fun y => dist y point) (x :: l)
          .ok (x :: l, some (dist point top))
          else .ok (x :: l, st.2)) (fun st' => FoundW k (fun y => dist y point) ρ (x :: S) st') := by
      intro l hl hn
      split
      · next hlk =>
        refine (popR_good hq _ (by simp)).bind ?_
        rintro ⟨t, l'⟩ ⟨g1, g2⟩
        simp only at g1 g2
        refine Good.ok ⟨hl, fun h0 => by simp only at h0; omega, fun _ => ⟨t, g1.mem_iff.mpr List.mem_cons_self, ?_, g2⟩⟩
        simp only [hsym point t]
      · next hlk =>
        exact Good.ok ⟨hl, hn, fun h0 => absurd h0 hlk⟩
    by_cases hlen : st.1.length = k
    · rw [if_pos hlen]
      obtain ⟨m, hm, hm2, hm3⟩ := h.2.2 hlen
      rw [hm2] at hc
      simp only [closer, decide_eq_true_eq] at hc
      rw [hsym] at hc
      obtain ⟨⟨rest, h1, h2, h3⟩, h4, h5⟩ := h
      have hl := h1.length_eq
      simp only [List.length_append] at hl
      have hne : st.1 ≠ [] := by intro h0; rw [h0] at hlen; simp at hlen; omega
      rcases popR_good hq (safe := safe) (fun y => dist y point) hne with ⟨⟨t, l'⟩, e, g1, g2⟩ | ⟨e, hn⟩
      · simp only at g1 g2
        rw [e]
        have hgl := g1.length_eq
        simp only [List.length_cons] at hgl
        have ht : t ∈ st.1 := g1.mem_iff.mpr List.mem_cons_self
        refine fin l' ⟨t :: rest, ?_, by simp only [List.length_cons]; omega, ?_⟩ (fun h0 => by simp only [List.length_cons] at h0; omega)
        · simp only [List.cons_append]
          refine List.Perm.cons x ?_
          exact (h1.trans (g1.append_right rest)).trans List.perm_middle.symm
        · intro a ha b hb
          have hbt : ρ (dist t point) (dist b point) := by
            rcases List.mem_cons.mp hb with rfl | hb
            · exact hρ.of_le (le_refl _)
            · exact h3 t ht b hb
          have hat : dist a point ≤ dist t point := by
            rcases List.mem_cons.mp ha with rfl | ha
            · exact le_trans (le_of_lt hc) (g2 m hm)
            · exact g2 a (g1.mem_iff.mpr (List.mem_cons_of_mem _ ha))
          exact hρ.left hat hbt
      · rw [e]
        exact Or.inr ⟨rfl, hn⟩
    · rw [if_neg hlen]
      have hlt := lt_of_le_of_ne h.len hlen
      obtain ⟨⟨rest, h1, h2, h3⟩, h4, h5⟩ := h
      have hl := h1.length_eq
      simp only [List.length_append] at hl
      have : rest = [] := List.length_eq_zero_iff.mp (by omega)
      subst this
      exact fin st.1 ⟨[], h1.cons x, by simp only [List.length_cons]; omega, by simp⟩ (fun _ => h4 hlt)
  · rw [if_neg hc]
    cases hb : st.2 with
    | none => rw [hb] at hc; simp [closer] at hc
    | some b =>
      rw [hb] at hc
      simp only [closer, decide_eq_true_eq, not_lt] at hc
      refine Good.ok (h.skip hρ (T := [x]) hb ?_)
      intro y hy
      rw [List.mem_singleton] at hy
      subst hy
      rw [hsym]; exact hρ.of_le hc

theorem visitLeaf_goodW (hρ : Weak ρ) {q : MaxQ R 𝔽} (hq : q.Ok) {safe : Prop} {dist : R → R → 𝔽} (hsym : ∀ x y, dist x y = dist y x) {point : R} {k : Nat}
    (hk : 1 ≤ k) {a : List (Ptr R 𝔽)} : ∀ (c i : Nat) (S : List R) (st : SState R 𝔽), i + c ≤ a.length → FoundW k (fun y => dist y point) ρ S st →
    Good safe (visitLeaf q dist point k a c i st) (fun st' => FoundW k (fun y => dist y point) ρ ((List.range' i c).filterMap (recs a) ++ S) st')
  | 0, i, S, st, _, h => Good.ok h
  | c+1, i, S, st, hi, h => by
    unfold visitLeaf
    have hia : i < a.length := by omega
    rw [getR_lt hia]
    simp only [bind, Except.bind]
    refine (visit_goodW hρ hq hsym hk a[i].record h).bind ?_
    intro st' h'
    refine (visitLeaf_goodW hρ hq hsym hk c (i+1) (a[i].record :: S) st' (by omega) h').mono ?_
    intro st'' h''
    refine h''.perm ?_
    rw [List.range'_succ, List.filterMap_cons]
    have : recs a i = some a[i].record := by unfold recs; rw [List.getElem?_eq_getElem hia]; rfl
    rw [this]
    exact List.perm_middle

variable [Add 𝔽] [Sub 𝔽]

/-- What pruning must guarantee for the records of a set `P`: what is skipped is not closer than the present bound, by the weak
comparison. -/
structure Prunes (ρ : 𝔽 → 𝔽 → Prop) (dist : R → R → 𝔽) (point : R) (P : R → Prop) : Prop where
  inside : ∀ v y m r, P v → P y → P m → dist v y ≤ r → ¬ dist point v - dist m point ≤ r → ρ (dist m point) (dist y point)
  outside : ∀ v y m r, P v → P y → P m → r ≤ dist v y → ¬ dist point v + dist m point ≥ r → ρ (dist m point) (dist y point)

theorem search_goodW (hρ : Weak ρ) {q : MaxQ R 𝔽} (hq : q.Ok) {safe : Prop} {dist : R → R → 𝔽} (hsym : ∀ x y, dist x y = dist y x)
    {point : R} {P : R → Prop} (hP : Prunes ρ dist point P) {k : Nat} (hk : 1 ≤ k) {a : List (Ptr R 𝔽)} (ha : ∀ p ∈ a, P p.record) :
    ∀ (t : Node 𝔽) (S : List R) (st : SState R 𝔽), (∀ x ∈ S, P x) →
    (∀ i ∈ t.indices, i < a.length) → t.LeafOk' → t.Split dist (recs a) → FoundW k (fun y => dist y point) ρ S st →
    Good safe (search q dist point k a t st) (fun st' => FoundW k (fun y => dist y point) ρ (t.indices.filterMap (recs a) ++ S) st')
  | .null, S, st, _, _, _, _, h => Good.ok h
  | .leaf s e, S, st, _, hi, hl, _, h => by
    unfold search
    have : e < a.length := hi e (by simp only [Node.indices, List.mem_range'_1]; have : s ≤ e := hl; omega)
    exact visitLeaf_goodW hρ hq hsym hk _ _ _ _ (by have : s ≤ e := hl; omega) h
  | .node s r ti to', S, st, hS, hi, hl, ⟨⟨v, h1, h2, h3⟩, h4, h5⟩, h => by
    unfold search
    have hs : s < a.length := hi s (by simp [Node.indices])
    have hv : a[s].record = v := by
      unfold recs at h1
      rw [List.getElem?_eq_getElem hs] at h1
      simpa using h1
    have hPr : ∀ i x, recs a i = some x → P x := by
      intro i x hx
      unfold recs at hx
      cases hai : a[i]? with
      | none => rw [hai] at hx; simp at hx
      | some p =>
        rw [hai] at hx
        have : p.record = x := by simpa using hx
        exact this ▸ ha p (List.mem_of_getElem? hai)
    have hPv : P v := hPr s v h1
    have ii : ∀ i ∈ ti.indices, i < a.length := fun i hx => hi i (by simp [Node.indices, hx])
    have io : ∀ i ∈ to'.indices, i < a.length := fun i hx => hi i (by simp [Node.indices, hx])
    rw [getR_lt hs]
    simp only [bind, Except.bind, hv]
    refine (visit_goodW hρ hq hsym hk v h).bind ?_
    intro st1 f1
    have hPf : ∀ (l : List Nat) (S : List R), (∀ x ∈ S, P x) → ∀ x ∈ l.filterMap (recs a) ++ S, P x := by
      intro l S hS x hx
      rcases List.mem_append.mp hx with hx | hx
      · obtain ⟨j, -, hj⟩ := List.mem_filterMap.mp hx
        exact hPr j x hj
      · exact hS x hx
    have hS1 : ∀ x ∈ v :: S, P x := by
      intro x hx
      rcases List.mem_cons.mp hx with rfl | hx
      · exact hPv
      · exact hS x hx
    -- the two guarded recursive calls
    have inS : ∀ (S : List R) (st : SState R 𝔽), (∀ x ∈ S, P x) → FoundW k (fun y => dist y point) ρ S st →
        Good safe (if reachIn (dist point v) r st.2 = true then search q dist point k a ti st else .ok st)
          (fun st' => FoundW k (fun y => dist y point) ρ (ti.indices.filterMap (recs a) ++ S) st') := by
      intro S st hS f
      split
      · exact search_goodW hρ hq hsym hP hk ha ti S st hS ii hl.1 h4 f
      · next hr =>
        cases hb : st.2 with
        | none => rw [hb] at hr; simp [reachIn] at hr
        | some b =>
          rw [hb] at hr
          simp only [reachIn, decide_eq_true_eq] at hr
          obtain ⟨m, hm, rfl⟩ := f.bound hb
          refine Good.ok (f.skip hρ hb ?_)
          intro y hy
          rw [List.mem_filterMap] at hy
          obtain ⟨j, hj, hy⟩ := hy
          exact hP.inside v y m r hPv (hPr j y hy) (hS m hm) (h2 j hj y hy) hr
    have outS : ∀ (S : List R) (st : SState R 𝔽), (∀ x ∈ S, P x) → FoundW k (fun y => dist y point) ρ S st →
        Good safe (if reachOut (dist point v) r st.2 = true then search q dist point k a to' st else .ok st)
          (fun st' => FoundW k (fun y => dist y point) ρ (to'.indices.filterMap (recs a) ++ S) st') := by
      intro S st hS f
      split
      · exact search_goodW hρ hq hsym hP hk ha to' S st hS io hl.2 h5 f
      · next hr =>
        cases hb : st.2 with
        | none => rw [hb] at hr; simp [reachOut] at hr
        | some b =>
          rw [hb] at hr
          simp only [reachOut, decide_eq_true_eq] at hr
          obtain ⟨m, hm, rfl⟩ := f.bound hb
          refine Good.ok (f.skip hρ hb ?_)
          intro y hy
          rw [List.mem_filterMap] at hy
          obtain ⟨j, hj, hy⟩ := hy
          exact hP.outside v y m r hPv (hPr j y hy) (hS m hm) (h3 j hj y hy) hr
    have hrec : recs a s = some v := h1
    have pf : ∀ st', FoundW k (fun y => dist y point) ρ (ti.indices.filterMap (recs a) ++ (to'.indices.filterMap (recs a) ++ (v :: S))) st' →
        FoundW k (fun y => dist y point) ρ ((Node.node s r ti to').indices.filterMap (recs a) ++ S) st' := by
      intro st' hf
      refine hf.perm ?_
      simp only [Node.indices, List.filterMap_cons, hrec, List.filterMap_append, List.cons_append]
      rw [← List.append_assoc]
      exact List.perm_middle
    split
    · have key : Good safe _ _ := (inS _ st1 hS1 f1).bind
        (f := fun st => if reachOut (dist point v) r st.2 = true then search q dist point k a to' st else .ok st) (fun st2 f2 =>
        (outS _ st2 (hPf _ _ hS1) f2).mono (fun st3 f3 => pf st3 (f3.perm (by
          rw [← List.append_assoc, ← List.append_assoc]
          exact List.perm_append_comm.append_right _))))
      by_cases c : reachIn (dist point v) r st1.2 = true
      · rw [if_pos c] at key ⊢; exact key
      · rw [if_neg c] at key ⊢; exact key
    · have key : Good safe _ _ := (outS _ st1 hS1 f1).bind
        (f := fun st => if reachIn (dist point v) r st.2 = true then search q dist point k a ti st else .ok st) (fun st2 f2 =>
        (inS _ st2 (hPf _ _ hS1) f2).mono pf)
      by_cases c : reachOut (dist point v) r st1.2 = true
      · rw [if_pos c] at key ⊢; exact key
      · rw [if_neg c] at key ⊢; exact key

end VP

variable [Add 𝔽] [Sub 𝔽]

theorem knnLocal_goodW (hρ : Weak ρ) {q : MaxQ R 𝔽} (hq : q.Ok) {safe : Prop} {dist : R → R → 𝔽} (hsym : ∀ x y, dist x y = dist y x)
    {point : R} {P : R → Prop} (hP : VP.Prunes ρ dist point P) {k : Nat} (hk : 1 ≤ k) {leafSz : Nat} {data : List (Wrapped R)} {t : VP.Tree R 𝔽}
    (ht : VP.Built dist leafSz data t) (hd : ∀ w ∈ data, P w.record) :
    Good safe (knnLocal q dist t point k) (fun r => KNear k (fun y => dist y point) ρ (data.map Wrapped.record) r ∧
      r.Pairwise (fun a b => dist b point ≤ dist a point)) := by
  unfold knnLocal
  refine (VP.search_goodW hρ hq hsym hP hk (fun p hp => ?_) t.root [] ([], none) (by simp) ht.idx_lt ht.leaf.weak ht.split
    ⟨⟨[], List.Perm.refl _, by simp, by simp⟩, fun _ => rfl, fun h => by simp at h; omega⟩).bind ?_
  · obtain ⟨w, hw, e⟩ := ht.points hp
    exact e ▸ hd w (List.mem_of_getElem? hw)
  intro st hst
  rw [List.append_nil] at hst
  have h1 := hst.1.perm ht.records (List.Perm.refl _)
  exact (drain_good hq _ st.1.length st.1 rfl).mono (fun r hr => ⟨h1.perm (List.Perm.refl _) hr.1, hr.2⟩)

theorem knn_goodW (hρ : Weak ρ) {q : MaxQ R 𝔽} (hq : q.Ok) {safe : Prop} {dist : R → R → 𝔽} (hsym : ∀ x y, dist x y = dist y x) [Zero 𝔽]
    {point : R} {P : R → Prop} (hP : VP.Prunes ρ dist point P) {k : Nat} (hk : 1 ≤ k) {leafSz : Nat} {g : Shard R → Rng} {d : Index R}
    (hb : d.buf.WF) (hd : ∀ x ∈ d.knnData, P x) (hs : safe → ∀ s ∈ d.str.visible, s.data.length ≤ (g s).max) :
    Good safe (d.knn q dist (fun s => VP.tree dist leafSz (g s) s.data) point k) (fun r => KNear k (fun y => dist y point) ρ d.knnData r ∧
      r.Pairwise (fun a b => dist b point ≤ dist a point)) := by
  unfold Index.knn
  rw [Buffer.view_gets hb]
  simp only [bind, Except.bind]
  refine (knnBuffer_good hq hk d.buf.contents).bind ?_
  intro b hbuf
  refine (mapM_good (P := fun (s : Shard R) r => KNear k (fun y => dist y point) ρ (s.data.map Wrapped.record) r) d.str.visible ?_).bind ?_
  · intro s hsv
    refine (VP.tree_built s.data (fun h => hs h s hsv)).bind (fun t ht => (knnLocal_goodW hρ hq hsym hP hk ht ?_).mono (fun r h => h.1))
    intro w hw
    refine hd _ (List.mem_append_right _ (List.mem_flatten.mpr ⟨_, List.mem_map.mpr ⟨s, hsv, rfl⟩, List.mem_map.mpr ⟨w, hw, rfl⟩⟩))
  · intro rs hrs
    refine (knnCombine_good hq hk (b :: rs)).mono ?_
    rintro r ⟨h1, h2⟩
    refine ⟨?_, h2⟩
    have hf : List.Forall₂ (fun D r => KNear k (fun y => dist y point) ρ D r)
        (((d.buf.contents.filter (fun w => !w.isDeleted)).map Wrapped.record) :: d.str.visible.map (fun s => s.data.map Wrapped.record)) (b :: rs) := by
      refine .cons (hbuf.1.near hρ) ?_
      rw [List.forall₂_map_left_iff]
      exact hrs
    have := KNearest.widen_near hρ hf h1
    rw [List.flatten_cons] at this
    exact this

end DE
