import Verif.Proofs.VPTree
import Verif.Proofs.InsertOnly
import Mathlib.Algebra.Order.Group.Defs
import Mathlib.Algebra.Order.Monoid.Unbundled.Basic
import Mathlib.Algebra.Order.Group.Unbundled.Basic

/-!
k-nearest-neighbour search.
-/

namespace DE
variable {R 𝔽 : Type} [LinearOrder 𝔽]

theorem KNearest.perm {k : Nat} {f : R → 𝔽} {data data' res res' : List R} (h : KNearest k f data res) (hd : data.Perm data')
    (hr : res.Perm res') : KNearest k f data' res' := by
  obtain ⟨rest, h1, h2, h3⟩ := h
  refine ⟨rest, hd.symm.trans (h1.trans (hr.append_right _)), ?_, fun x hx y hy => h3 x (hr.mem_iff.mpr hx) y hy⟩
  rw [← hr.length_eq, ← hd.length_eq]; exact h2

theorem KNearest.nil (k : Nat) (f : R → 𝔽) : KNearest k f [] [] := ⟨[], List.Perm.refl _, by simp, by simp⟩

/-- Replacing the nearest of a part by the whole part. -/
theorem KNearest.widen {k : Nat} {f : R → 𝔽} {D r B res : List R} (hD : KNearest k f D r) (hr : KNearest k f (r ++ B) res) :
    KNearest k f (D ++ B) res := by
  obtain ⟨rest, h1, h2, h3⟩ := hD
  obtain ⟨rest', g1, g2, g3⟩ := hr
  have hl := h1.length_eq
  have hl' := g1.length_eq
  simp only [List.length_append] at hl hl' g2
  refine ⟨rest' ++ rest, ?_, ?_, ?_⟩
  · -- D ++ B ~ (r ++ rest) ++ B ~ (r ++ B) ++ rest ~ (res ++ rest') ++ rest
    refine (h1.append_right B).trans ?_
    rw [List.append_assoc]
    refine (List.Perm.append_left r List.perm_append_comm).trans ?_
    rw [← List.append_assoc, ← List.append_assoc]
    exact g1.append_right rest
  · rw [List.length_append]; omega
  · intro x hx y hy
    rcases List.mem_append.mp hy with hy | hy
    · exact g3 x hx y hy
    · by_contra hlt
      rw [not_le] at hlt
      have hpos : 0 < rest.length := List.length_pos_of_mem hy
      -- every record of `r` is nearer than `x`
      have hall : ∀ z ∈ r, f z < f x := fun z hz => lt_of_le_of_lt (h3 z hz y hy) hlt
      have c1 : r.countP (fun z => decide (f z < f x)) = r.length := by
        rw [List.countP_eq_length]; intro z hz; simpa using hall z hz
      have c2 : rest'.countP (fun z => decide (f z < f x)) = 0 := by
        rw [List.countP_eq_zero]; intro z hz; simpa using g3 x hx z hz
      have c3 : res.countP (fun z => decide (f z < f x)) < res.length := by
        have hle := List.countP_le_length (p := fun z => decide (f z < f x)) (l := res)
        rcases Nat.lt_or_eq_of_le hle with h | h
        · exact h
        · have := (List.countP_eq_length.mp h) x hx
          simp at this
      have c4 := g1.countP_eq (fun z => decide (f z < f x))
      rw [List.countP_append, List.countP_append] at c4
      omega

theorem KNearest.flatten {k : Nat} {f : R → 𝔽} : ∀ {Ds rs : List (List R)} {B res : List R}, List.Forall₂ (fun D r => KNearest k f D r) Ds rs →
    KNearest k f (rs.flatten ++ B) res → KNearest k f (Ds.flatten ++ B) res
  | _, _, B, res, .nil, h => h
  | D :: Ds, r :: rs, B, res, .cons h1 h2, h => by
    simp only [List.flatten_cons, List.append_assoc] at h ⊢
    have h' := h1.widen h
    -- move D to the back
    have h'' : KNearest k f (rs.flatten ++ (B ++ D)) res := h'.perm (by
      rw [← List.append_assoc rs.flatten]; exact List.perm_append_comm) (List.Perm.refl _)
    have := KNearest.flatten h2 h''
    exact this.perm (by rw [← List.append_assoc]; exact List.perm_append_comm) (List.Perm.refl _)

/-! ### The queue -/

theorem popR_good {q : MaxQ R 𝔽} (hq : q.Ok) {safe : Prop} (f : R → 𝔽) {l : List R} (h : l ≠ []) :
    Good safe (VP.popR q f l) (fun r => l.Perm (r.1 :: r.2) ∧ ∀ y ∈ l, f y ≤ f r.1) := by
  obtain ⟨x, rest, h1, h2, h3⟩ := hq f l h
  unfold VP.popR
  rw [h1]
  exact Good.ok ⟨h2, h3⟩

theorem drain_good {q : MaxQ R 𝔽} (hq : q.Ok) {safe : Prop} (f : R → 𝔽) : ∀ (c : Nat) (l : List R), l.length = c →
    Good safe (drain q f c l) (fun r => l.Perm r ∧ r.Pairwise (fun a b => f b ≤ f a))
  | 0, l, h => by
    have : l = [] := List.length_eq_zero_iff.mp h
    subst this
    exact Good.ok ⟨List.Perm.refl _, List.Pairwise.nil⟩
  | c+1, l, h => by
    unfold drain
    refine (popR_good hq f (by intro h0; subst h0; simp at h)).bind ?_
    rintro ⟨x, rest⟩ ⟨h1, h2⟩
    simp only at h1 h2
    have hl := h1.length_eq
    simp only [List.length_cons] at hl
    refine (drain_good hq f c rest (by omega)).bind ?_
    rintro xs ⟨g1, g2⟩
    refine Good.ok ⟨h1.trans (g1.cons x), List.Pairwise.cons ?_ g2⟩
    intro y hy
    exact h2 y (h1.mem_iff.mpr (List.mem_cons_of_mem _ (g1.mem_iff.mpr hy)))

theorem keepNearest_good {q : MaxQ R 𝔽} (hq : q.Ok) {safe : Prop} {dist : R → R → 𝔽} {point : R} {k : Nat} (hk : 1 ≤ k) :
    ∀ (xs l S : List R), KNearest k (fun y => dist y point) S l →
    Good safe (keepNearest q dist point k l xs) (fun r => KNearest k (fun y => dist y point) (xs ++ S) r)
  | [], l, S, h => Good.ok h
  | x :: xs, l, S, ⟨rest, h1, h2, h3⟩ => by
    unfold keepNearest
    have hl := h1.length_eq
    simp only [List.length_append] at hl
    have fin : ∀ l', KNearest k (fun y => dist y point) (x :: S) l' →
        Good safe (keepNearest q dist point k l' xs) (fun r => KNearest k (fun y => dist y point) (x :: xs ++ S) r) := fun l' hl' =>
      (keepNearest_good hq hk xs l' (x :: S) hl').mono (fun r hr => hr.perm List.perm_middle (List.Perm.refl _))
    split
    · next hlt =>
      refine fin _ ⟨rest, h1.cons x, by simp only [List.length_cons]; omega, ?_⟩
      have : rest = [] := List.length_eq_zero_iff.mp (by omega)
      subst this
      simp
    · next hge =>
      refine (popR_good hq (fun y => dist y point) (by intro h0; subst h0; simp at hge; omega)).bind ?_
      rintro ⟨t, l'⟩ ⟨g1, g2⟩
      simp only at g1 g2
      have hgl := g1.length_eq
      simp only [List.length_cons] at hgl
      have ht : t ∈ l := g1.mem_iff.mpr List.mem_cons_self
      simp only
      split
      · next hlt =>
        refine fin _ ⟨t :: rest, ?_, by simp only [List.length_cons]; omega, ?_⟩
        · simp only [List.cons_append]
          refine (h1.trans ((g1.append_right rest))).cons x |>.trans ?_
          refine List.Perm.cons x ?_
          simp only [List.cons_append]
          exact List.perm_middle.symm
        · intro a ha b hb
          have hbt : dist t point ≤ dist b point := by
            rcases List.mem_cons.mp hb with rfl | hb
            · exact le_refl _
            · exact h3 t ht b hb
          have hat : dist a point ≤ dist t point := by
            rcases List.mem_cons.mp ha with rfl | ha
            · exact le_of_lt hlt
            · exact g2 a (g1.mem_iff.mpr (List.mem_cons_of_mem _ ha))
          exact le_trans hat hbt
      · next hge' =>
        refine fin _ ⟨x :: rest, (h1.cons x).trans List.perm_middle.symm, by simp only [List.length_cons]; omega, ?_⟩
        intro a ha b hb
        rcases List.mem_cons.mp hb with rfl | hb
        · exact le_trans (g2 a ha) (not_lt.mp hge')
        · exact h3 a ha b hb

theorem knnBuffer_good {q : MaxQ R 𝔽} (hq : q.Ok) {safe : Prop} {dist : R → R → 𝔽} {point : R} {k : Nat} (hk : 1 ≤ k) (buf : List (Wrapped R)) :
    Good safe (knnBuffer q dist buf point k) (fun r => KAnswer k (fun y => dist y point)
      ((buf.filter (fun w => !w.isDeleted)).map Wrapped.record) r) := by
  unfold knnBuffer
  refine (keepNearest_good hq hk _ [] [] (KNearest.nil _ _)).bind ?_
  intro l hl
  rw [List.append_nil] at hl
  exact (drain_good hq _ l.length l rfl).mono (fun r hr => ⟨hl.perm (List.Perm.refl _) hr.1, hr.2⟩)

theorem knnCombine_good {q : MaxQ R 𝔽} (hq : q.Ok) {safe : Prop} {dist : R → R → 𝔽} {point : R} {k : Nat} (hk : 1 ≤ k)
    (rs : List (List R)) : Good safe (knnCombine q dist point k rs) (fun r => KAnswer k (fun y => dist y point) rs.flatten r) := by
  unfold knnCombine
  refine (keepNearest_good hq hk _ [] [] (KNearest.nil _ _)).bind ?_
  intro l hl
  rw [List.append_nil] at hl
  exact (drain_good hq _ l.length l rfl).mono (fun r hr => ⟨hl.perm (List.Perm.refl _) hr.1, hr.2⟩)

/-! ### Tree search -/

namespace VP
variable [AddCommGroup 𝔽]

/-- The search state after the records `S` were met or excluded. -/
def Found (k : Nat) (f : R → 𝔽) (S : List R) (st : SState R 𝔽) : Prop :=
  KNearest k f S st.1 ∧ (st.1.length < k → st.2 = none) ∧ (st.1.length = k → ∃ m ∈ st.1, st.2 = some (f m) ∧ ∀ y ∈ st.1, f y ≤ f m)

omit [AddCommGroup 𝔽] in
theorem Found.perm {k : Nat} {f : R → 𝔽} {S S' : List R} {st : SState R 𝔽} (h : Found k f S st) (hp : S.Perm S') : Found k f S' st :=
  ⟨h.1.perm hp (List.Perm.refl _), h.2⟩

omit [AddCommGroup 𝔽] in
theorem Found.len {k : Nat} {f : R → 𝔽} {S : List R} {st : SState R 𝔽} (h : Found k f S st) : st.1.length ≤ k := by
  obtain ⟨⟨_, _, h2, _⟩, _⟩ := h; omega

omit [AddCommGroup 𝔽] in
/-- Records at least as far as the current bound may be excluded. -/
theorem Found.skip {k : Nat} {f : R → 𝔽} {S T : List R} {st : SState R 𝔽} (h : Found k f S st) {b : 𝔽} (hb : st.2 = some b)
    (hT : ∀ y ∈ T, b ≤ f y) : Found k f (T ++ S) st := by
  have hlen : st.1.length = k := by
    rcases Nat.lt_or_eq_of_le h.len with hlt | he
    · rw [h.2.1 hlt] at hb; cases hb
    · exact he
  obtain ⟨m, hm, hm2, hm3⟩ := h.2.2 hlen
  rw [hb] at hm2
  cases hm2
  obtain ⟨⟨rest, h1, h2, h3⟩, h4, h5⟩ := h
  have hl := h1.length_eq
  simp only [List.length_append] at hl
  refine ⟨⟨T ++ rest, ?_, by rw [List.length_append]; omega, ?_⟩, h4, h5⟩
  · refine (List.Perm.append_left T h1).trans ?_
    rw [← List.append_assoc, ← List.append_assoc]
    exact List.perm_append_comm.append_right rest
  · intro x hx y hy
    rcases List.mem_append.mp hy with hy | hy
    · exact le_trans (hm3 x hx) (hT y hy)
    · exact h3 x hx y hy

omit [AddCommGroup 𝔽] in
theorem visit_good {q : MaxQ R 𝔽} (hq : q.Ok) {safe : Prop} {dist : R → R → 𝔽} (hsym : ∀ x y, dist x y = dist y x) {point : R} {k : Nat}
    (hk : 1 ≤ k) (x : R) {S : List R} {st : SState R 𝔽} (h : Found k (fun y => dist y point) S st) :
    Good safe (visit q dist point k x st) (fun st' => Found k (fun y => dist y point) (x :: S) st') := by
  unfold visit
  by_cases hc : closer (dist point x) st.2 = true
  · rw [if_pos hc]
    -- the last step: set the bound
    have fin : ∀ l, KNearest k (fun y => dist y point) (x :: S) (x :: l) → ((x :: l).length < k → st.2 = none) →
        Good safe (if (x :: l).length = k then do
          let (top, _) ← popR q (fun y => dist y point) (x :: l)
          .ok (x :: l, some (dist point top))
          else .ok (x :: l, st.2)) (fun st' => Found k (fun y => dist y point) (x :: S) st') := by
      intro l hl hn
      split
      · next hlk =>
        refine (popR_good hq _ (by simp)).bind ?_
        rintro ⟨t, l'⟩ ⟨g1, g2⟩
        simp only at g1 g2
        refine Good.ok ⟨hl, fun h0 => by simp only at h0; omega, fun _ => ⟨t, g1.mem_iff.mpr List.mem_cons_self, ?_, g2⟩⟩
        simp only [hsym point t]
      · next hlk =>
        exact Good.ok ⟨hl, hn, fun h0 => absurd h0 hlk⟩
    by_cases hlen : st.1.length = k
    · rw [if_pos hlen]
      obtain ⟨m, hm, hm2, hm3⟩ := h.2.2 hlen
      rw [hm2] at hc
      simp only [closer, decide_eq_true_eq] at hc
      rw [hsym] at hc
      obtain ⟨⟨rest, h1, h2, h3⟩, h4, h5⟩ := h
      have hl := h1.length_eq
      simp only [List.length_append] at hl
      have hne : st.1 ≠ [] := by intro h0; rw [h0] at hlen; simp at hlen; omega
      rcases popR_good hq (safe := safe) (fun y => dist y point) hne with ⟨⟨t, l'⟩, e, g1, g2⟩ | ⟨e, hn⟩
      · simp only at g1 g2
        rw [e]
        have hgl := g1.length_eq
        simp only [List.length_cons] at hgl
        have ht : t ∈ st.1 := g1.mem_iff.mpr List.mem_cons_self
        refine fin l' ⟨t :: rest, ?_, by simp only [List.length_cons]; omega, ?_⟩ (fun h0 => by simp only [List.length_cons] at h0; omega)
        · simp only [List.cons_append]
          refine List.Perm.cons x ?_
          exact (h1.trans (g1.append_right rest)).trans List.perm_middle.symm
        · intro a ha b hb
          have hbt : dist t point ≤ dist b point := by
            rcases List.mem_cons.mp hb with rfl | hb
            · exact le_refl _
            · exact h3 t ht b hb
          have hat : dist a point ≤ dist t point := by
            rcases List.mem_cons.mp ha with rfl | ha
            · exact le_trans (le_of_lt hc) (g2 m hm)
            · exact g2 a (g1.mem_iff.mpr (List.mem_cons_of_mem _ ha))
          exact le_trans hat hbt
      · rw [e]
        exact Or.inr ⟨rfl, hn⟩
    · rw [if_neg hlen]
      have hlt := lt_of_le_of_ne h.len hlen
      obtain ⟨⟨rest, h1, h2, h3⟩, h4, h5⟩ := h
      have hl := h1.length_eq
      simp only [List.length_append] at hl
      have : rest = [] := List.length_eq_zero_iff.mp (by omega)
      subst this
      exact fin st.1 ⟨[], h1.cons x, by simp only [List.length_cons]; omega, by simp⟩ (fun _ => h4 hlt)
  · rw [if_neg hc]
    cases hb : st.2 with
    | none => rw [hb] at hc; simp [closer] at hc
    | some b =>
      rw [hb] at hc
      simp only [closer, decide_eq_true_eq, not_lt] at hc
      refine Good.ok (h.skip (T := [x]) hb ?_)
      intro y hy
      rw [List.mem_singleton] at hy
      subst hy
      rw [hsym]; exact hc

omit [AddCommGroup 𝔽] in
theorem visitLeaf_good {q : MaxQ R 𝔽} (hq : q.Ok) {safe : Prop} {dist : R → R → 𝔽} (hsym : ∀ x y, dist x y = dist y x) {point : R} {k : Nat}
    (hk : 1 ≤ k) {a : List (Ptr R 𝔽)} : ∀ (c i : Nat) (S : List R) (st : SState R 𝔽), i + c ≤ a.length → Found k (fun y => dist y point) S st →
    Good safe (visitLeaf q dist point k a c i st) (fun st' => Found k (fun y => dist y point) ((List.range' i c).filterMap (recs a) ++ S) st')
  | 0, i, S, st, _, h => Good.ok h
  | c+1, i, S, st, hi, h => by
    unfold visitLeaf
    have hia : i < a.length := by omega
    rw [getR_lt hia]
    simp only [bind, Except.bind]
    refine (visit_good hq hsym hk a[i].record h).bind ?_
    intro st' h'
    refine (visitLeaf_good hq hsym hk c (i+1) (a[i].record :: S) st' (by omega) h').mono ?_
    intro st'' h''
    refine h''.perm ?_
    rw [List.range'_succ, List.filterMap_cons]
    have : recs a i = some a[i].record := by unfold recs; rw [List.getElem?_eq_getElem hia]; rfl
    rw [this]
    exact List.perm_middle

theorem search_good [IsOrderedAddMonoid 𝔽] {q : MaxQ R 𝔽} (hq : q.Ok) {safe : Prop} {dist : R → R → 𝔽} (hsym : ∀ x y, dist x y = dist y x)
    (htri : ∀ x y z, dist x z ≤ dist x y + dist y z) {point : R} {k : Nat} (hk : 1 ≤ k) {a : List (Ptr R 𝔽)} : ∀ (t : Node 𝔽) (S : List R) (st : SState R 𝔽),
    (∀ i ∈ t.indices, i < a.length) → t.LeafOk' → t.Split dist (recs a) → Found k (fun y => dist y point) S st →
    Good safe (search q dist point k a t st) (fun st' => Found k (fun y => dist y point) (t.indices.filterMap (recs a) ++ S) st')
  | .null, S, st, _, _, _, h => Good.ok h
  | .leaf s e, S, st, hi, hl, _, h => by
    unfold search
    have : e < a.length := hi e (by simp only [Node.indices, List.mem_range'_1]; have : s ≤ e := hl; omega)
    exact visitLeaf_good hq hsym hk _ _ _ _ (by have : s ≤ e := hl; omega) h
  | .node s r ti to', S, st, hi, hl, ⟨⟨v, h1, h2, h3⟩, h4, h5⟩, h => by
    unfold search
    have hs : s < a.length := hi s (by simp [Node.indices])
    have hv : a[s].record = v := by
      unfold recs at h1
      rw [List.getElem?_eq_getElem hs] at h1
      simpa using h1
    have ii : ∀ i ∈ ti.indices, i < a.length := fun i hx => hi i (by simp [Node.indices, hx])
    have io : ∀ i ∈ to'.indices, i < a.length := fun i hx => hi i (by simp [Node.indices, hx])
    rw [getR_lt hs]
    simp only [bind, Except.bind, hv]
    refine (visit_good hq hsym hk v h).bind ?_
    intro st1 f1
    -- the two guarded recursive calls
    have inS : ∀ (S : List R) (st : SState R 𝔽), Found k (fun y => dist y point) S st →
        Good safe (if reachIn (dist point v) r st.2 = true then search q dist point k a ti st else .ok st)
          (fun st' => Found k (fun y => dist y point) (ti.indices.filterMap (recs a) ++ S) st') := by
      intro S st f
      split
      · exact search_good hq hsym htri hk ti S st ii hl.1 h4 f
      · next hr =>
        cases hb : st.2 with
        | none => rw [hb] at hr; simp [reachIn] at hr
        | some b =>
          rw [hb] at hr
          simp only [reachIn, decide_eq_true_eq, not_le] at hr
          refine Good.ok (f.skip hb ?_)
          intro y hy
          rw [List.mem_filterMap] at hy
          obtain ⟨j, hj, hy⟩ := hy
          have q1 := h2 j hj y hy
          have q2 := htri point y v
          have : dist point v ≤ dist y point + r := by
            rw [hsym y point]
            refine le_trans q2 ?_
            rw [hsym y v]
            exact add_le_add le_rfl q1
          rw [lt_sub_iff_add_lt] at hr
          have q3 : r + b < dist y point + r := lt_of_lt_of_le hr this
          rw [add_comm r b] at q3
          exact le_of_lt (lt_of_add_lt_add_right q3)
    have outS : ∀ (S : List R) (st : SState R 𝔽), Found k (fun y => dist y point) S st →
        Good safe (if reachOut (dist point v) r st.2 = true then search q dist point k a to' st else .ok st)
          (fun st' => Found k (fun y => dist y point) (to'.indices.filterMap (recs a) ++ S) st') := by
      intro S st f
      split
      · exact search_good hq hsym htri hk to' S st io hl.2 h5 f
      · next hr =>
        cases hb : st.2 with
        | none => rw [hb] at hr; simp [reachOut] at hr
        | some b =>
          rw [hb] at hr
          simp only [reachOut, decide_eq_true_eq, ge_iff_le, not_le] at hr
          refine Good.ok (f.skip hb ?_)
          intro y hy
          rw [List.mem_filterMap] at hy
          obtain ⟨j, hj, hy⟩ := hy
          have q1 := h3 j hj y hy
          have q2 := htri v point y
          rw [hsym v point, hsym point y] at q2
          have q3 := lt_of_lt_of_le hr (le_trans q1 q2)
          exact le_of_lt (lt_of_add_lt_add_left q3)
    have hrec : recs a s = some v := h1
    have pf : ∀ st', Found k (fun y => dist y point) (ti.indices.filterMap (recs a) ++ (to'.indices.filterMap (recs a) ++ (v :: S))) st' →
        Found k (fun y => dist y point) ((Node.node s r ti to').indices.filterMap (recs a) ++ S) st' := by
      intro st' hf
      refine hf.perm ?_
      simp only [Node.indices, List.filterMap_cons, hrec, List.filterMap_append, List.cons_append]
      rw [← List.append_assoc]
      exact List.perm_middle
    split
    · have key : Good safe _ _ := (inS _ st1 f1).bind
        (f := fun st => if reachOut (dist point v) r st.2 = true then search q dist point k a to' st else .ok st) (fun st2 f2 =>
        (outS _ st2 f2).mono (fun st3 f3 => pf st3 (f3.perm (by
          rw [← List.append_assoc, ← List.append_assoc]
          exact List.perm_append_comm.append_right _))))
      by_cases c : reachIn (dist point v) r st1.2 = true
      · rw [if_pos c] at key ⊢; exact key
      · rw [if_neg c] at key ⊢; exact key
    · have key : Good safe _ _ := (outS _ st1 f1).bind
        (f := fun st => if reachIn (dist point v) r st.2 = true then search q dist point k a ti st else .ok st) (fun st2 f2 =>
        (inS _ st2 f2).mono pf)
      by_cases c : reachOut (dist point v) r st1.2 = true
      · rw [if_pos c] at key ⊢; exact key
      · rw [if_neg c] at key ⊢; exact key

end VP

variable [AddCommGroup 𝔽]

theorem knnLocal_good [IsOrderedAddMonoid 𝔽] {q : MaxQ R 𝔽} (hq : q.Ok) {safe : Prop} {dist : R → R → 𝔽} (hsym : ∀ x y, dist x y = dist y x)
    (htri : ∀ x y z, dist x z ≤ dist x y + dist y z) {point : R} {k : Nat} (hk : 1 ≤ k) {leafSz : Nat} {data : List (Wrapped R)} {t : VP.Tree R 𝔽}
    (ht : VP.Built dist leafSz data t) :
    Good safe (knnLocal q dist t point k) (fun r => KAnswer k (fun y => dist y point) (data.map Wrapped.record) r) := by
  unfold knnLocal
  refine (VP.search_good hq hsym htri hk t.root [] ([], none) ht.idx_lt ht.leaf.weak ht.split
    ⟨KNearest.nil _ _, fun _ => rfl, fun h => by simp at h; omega⟩).bind ?_
  intro st hst
  rw [List.append_nil] at hst
  have h1 := hst.1.perm ht.records (List.Perm.refl _)
  exact (drain_good hq _ st.1.length st.1 rfl).mono (fun r hr => ⟨h1.perm (List.Perm.refl _) hr.1, hr.2⟩)

omit [LinearOrder 𝔽] [AddCommGroup 𝔽] in
theorem mapM_good {α β : Type} {safe : Prop} {f : α → Res β} {P : α → β → Prop} : ∀ (l : List α), (∀ x ∈ l, Good safe (f x) (P x)) →
    Good safe (l.mapM f) (fun r => List.Forall₂ P l r)
  | [], _ => by rw [List.mapM_nil]; exact Good.ok .nil
  | x :: xs, h => by
    rw [List.mapM_cons]
    refine (h x (by simp)).bind ?_
    intro y hy
    refine (mapM_good xs (fun z hz => h z (by simp [hz]))).bind ?_
    intro ys hys
    exact Good.ok (.cons hy hys)

theorem knn_gets [IsOrderedAddMonoid 𝔽] {q : MaxQ R 𝔽} (hq : q.Ok) {safe : Prop} {dist : R → R → 𝔽} (hsym : ∀ x y, dist x y = dist y x)
    (htri : ∀ x y z, dist x z ≤ dist x y + dist y z) {point : R} {k : Nat} (hk : 1 ≤ k) {leafSz : Nat} {g : Shard R → Rng} {d : Index R}
    (hb : d.buf.view.gets = .ok d.buf.contents) (hs : safe → ∀ s ∈ d.str.visible, s.data.length ≤ (g s).max) :
    Good safe (d.knn q dist (fun s => VP.tree dist leafSz (g s) s.data) point k) (fun r => KAnswer k (fun y => dist y point) d.knnData r) := by
  unfold Index.knn
  rw [hb]
  simp only [bind, Except.bind]
  refine (knnBuffer_good hq hk d.buf.contents).bind ?_
  intro b hbuf
  refine (mapM_good (P := fun (s : Shard R) r => KAnswer k (fun y => dist y point) (s.data.map Wrapped.record) r) d.str.visible ?_).bind ?_
  · intro s hsv
    exact (VP.tree_built s.data (fun h => hs h s hsv)).bind (fun t ht => knnLocal_good hq hsym htri hk ht)
  · intro rs hrs
    refine (knnCombine_good hq hk (b :: rs)).mono ?_
    rintro r ⟨h1, h2⟩
    refine ⟨?_, h2⟩
    have hf : List.Forall₂ (fun D r => KNearest k (fun y => dist y point) D r)
        (((d.buf.contents.filter (fun w => !w.isDeleted)).map Wrapped.record) :: d.str.visible.map (fun s => s.data.map Wrapped.record)) (b :: rs) := by
      refine .cons hbuf.1 ?_
      rw [List.forall₂_map_left_iff]
      exact hrs.imp (fun _ _ h => h.1)
    have := KNearest.flatten (B := []) hf (by rw [List.append_nil]; exact h1)
    rw [List.append_nil, List.flatten_cons] at this
    exact this

theorem knn_good [IsOrderedAddMonoid 𝔽] {q : MaxQ R 𝔽} (hq : q.Ok) {safe : Prop} {dist : R → R → 𝔽} (hsym : ∀ x y, dist x y = dist y x)
    (htri : ∀ x y z, dist x z ≤ dist x y + dist y z) {point : R} {k : Nat} (hk : 1 ≤ k) {leafSz : Nat} {g : Shard R → Rng} {d : Index R}
    (hb : d.buf.WF) (hs : safe → ∀ s ∈ d.str.visible, s.data.length ≤ (g s).max) :
    Good safe (d.knn q dist (fun s => VP.tree dist leafSz (g s) s.data) point k) (fun r => KAnswer k (fun y => dist y point) d.knnData r) :=
  knn_gets hq hsym htri hk (Buffer.view_gets hb) hs

end DE
