import Verif.Model.OwnTests
import Verif.Spec
import Verif.Proofs.Segments

/-!
The histories of the project's own tests: each record is inserted once and erased at most once, in a later iteration, so
no stretch of the history nets out to nothing.
-/

namespace DE.Own
variable {R : Type} [DecidableEq R]

/-- Every run of operations leaves something behind. -/
def NoVoidStretch (ops : List (Index.Op R)) : Prop :=
  ∀ p s t, ops = p ++ s ++ t → s ≠ [] → ∃ r, insCount r s ≠ delCount r s

structure LoopInv (rs : List R) (st : LoopState R) : Prop where
  td : ∀ x ∈ st.toDelete, x ∈ rs ∧ x ∉ st.deleted
  dl : ∀ x ∈ st.deleted, x ∈ rs
  nd : st.deleted.Nodup
  ins : ∀ r, insCount r st.ops = rs.count r
  del : ∀ r, delCount r st.ops = st.deleted.count r
  pre : ∀ p, p <+: st.ops → ∀ r, delCount r p ≤ insCount r p
  last : ∀ q, q <+: st.ops → ∀ p r b, q = p ++ .ins r :: b → (∀ o ∈ b, ∃ x, o = .del x) → .del r ∉ q

theorem insCount_dels (r : R) (l : List R) : insCount r (l.map (Index.Op.del (R := R))) = 0 := by
  unfold insCount; rw [List.count_eq_zero]; simp
theorem delCount_dels (r : R) (l : List R) : delCount r (l.map (Index.Op.del (R := R))) = l.count r := by
  unfold delCount
  exact List.count_map_of_injective _ _ (fun a b h => by cases h; rfl) r

theorem erased_ok {st : LoopState R} {c : Choice R} (h : c.coin = true → st.toDelete ≠ [] → SampleOk st.toDelete c.sample) :
    (erased st c).Nodup ∧ ∀ x ∈ erased st c, x ∈ st.toDelete := by
  unfold erased
  split
  · next hc =>
    simp only [Bool.and_eq_true, Bool.not_eq_true', List.isEmpty_eq_false_iff] at hc
    exact ⟨(h hc.1 hc.2).1, (h hc.1 hc.2).2.1⟩
  · simp

/-- A prefix of `a ++ b` is a prefix of `a` or `a` followed by a prefix of `b`. -/
theorem prefix_append_cases {α : Type} {q a b : List α} (h : q <+: a ++ b) : q <+: a ∨ ∃ b', b' <+: b ∧ q = a ++ b' := by
  rcases le_total q.length a.length with hl | hl
  · exact Or.inl (List.prefix_of_prefix_length_le h (List.prefix_append a b) hl)
  · obtain ⟨b', rfl⟩ := List.prefix_of_prefix_length_le (List.prefix_append a b) h hl
    exact Or.inr ⟨b', (List.prefix_append_right_inj a).mp h, rfl⟩

theorem last_ins_unique {p p' : List (Index.Op R)} {r r' : R} {b b' : List (Index.Op R)}
    (h : p ++ .ins r :: b = p' ++ .ins r' :: b') (hb : ∀ o ∈ b, ∃ x, o = .del x) (hb' : ∀ o ∈ b', ∃ x, o = .del x) : r = r' := by
  rcases List.append_eq_append_iff.mp h with ⟨a, h1, h2⟩ | ⟨a, h1, h2⟩
  · cases a with
    | nil => simp at h2; exact h2.1
    | cons o a =>
      simp only [List.cons_append, List.cons.injEq] at h2
      obtain ⟨x, hx⟩ := hb (.ins r') (by rw [h2.2]; simp)
      cases hx
  · cases a with
    | nil => simp at h2; exact h2.1.symm
    | cons o a =>
      simp only [List.cons_append, List.cons.injEq] at h2
      obtain ⟨x, hx⟩ := hb' (.ins r) (by rw [h2.2]; simp)
      cases hx

theorem LoopInv.nil : LoopInv ([] : List R) {} where
  td := by simp
  dl := by simp
  nd := by simp
  ins := by intro r; rfl
  del := by intro r; rfl
  pre := by intro p hp r; have := List.prefix_nil.mp hp; subst this; simp [delCount]
  last := by intro q hq p r b h; have := List.prefix_nil.mp hq; subst this; simp at h

theorem LoopInv.step {rs : List R} {st : LoopState R} (h : LoopInv rs st) {r : R} (hr : r ∉ rs) {c : Choice R}
    (hc : c.coin = true → st.toDelete ≠ [] → SampleOk st.toDelete c.sample) : LoopInv (rs ++ [r]) (iterate st r c) := by
  obtain ⟨e1, e2⟩ := erased_ok hc
  have hrd : r ∉ st.deleted ++ erased st c := by
    intro hm
    rcases List.mem_append.mp hm with hm | hm
    · exact hr (h.dl r hm)
    · exact hr (h.td r (e2 r hm)).1
  have htail : ∀ b, b <+: (erased st c).map (Index.Op.del (R := R)) → ∃ l, l <+: erased st c ∧ b = l.map .del := by
    intro b hb
    have := List.prefix_iff_eq_take.mp hb
    rw [← List.map_take] at this
    exact ⟨_, List.take_prefix _ _, this⟩
  refine ⟨?_, ?_, ?_, ?_, ?_, ?_, ?_⟩
  · have hf : ∀ x ∈ st.toDelete.filter (fun x => decide (x ∉ erased st c)), x ∈ rs ++ [r] ∧ x ∉ st.deleted ++ erased st c := by
      intro x hx
      rw [List.mem_filter, decide_eq_true_eq] at hx
      have := h.td x hx.1
      simp only [List.mem_append, not_or]
      exact ⟨Or.inl this.1, this.2, hx.2⟩
    intro x hx
    simp only [iterate] at hx ⊢
    split at hx
    · rcases List.mem_append.mp hx with hx | hx
      · exact hf x hx
      · rw [List.mem_singleton] at hx; subst hx
        exact ⟨by simp, hrd⟩
    · exact hf x hx
  · intro x hx
    simp only [iterate, List.mem_append] at hx
    rcases hx with hx | hx
    · simp [h.dl x hx]
    · simp [(h.td x (e2 x hx)).1]
  · simp only [iterate]
    rw [List.nodup_append]
    refine ⟨h.nd, e1, ?_⟩
    rintro x hx y hy rfl
    exact (h.td x (e2 x hy)).2 hx
  · intro x
    simp only [iterate]
    rw [insCount_append, h.ins, List.count_append]
    have : insCount x (.ins r :: (erased st c).map .del) = [r].count x := by
      have := insCount_dels x (erased st c)
      unfold insCount at this ⊢
      rw [List.count_cons, this, List.count_cons, List.count_nil]
      simp
    omega
  · intro x
    simp only [iterate]
    rw [delCount_append, h.del, List.count_append]
    have : delCount x (.ins r :: (erased st c).map .del) = (erased st c).count x := by
      rw [← delCount_dels x]
      unfold delCount
      rw [List.count_cons]; simp
    omega
  · intro p hp x
    rcases prefix_append_cases hp with hp | ⟨b, hb, rfl⟩
    · exact h.pre p hp x
    · rcases b with _ | ⟨o, b⟩
      · simpa using h.pre st.ops (List.prefix_refl _) x
      · rw [List.cons_prefix_cons] at hb
        obtain ⟨rfl, hb⟩ := hb
        obtain ⟨l, hl, rfl⟩ := htail b hb
        rw [delCount_append, insCount_append, h.del, h.ins]
        have e3 : delCount x (.ins r :: l.map .del) = l.count x := by
          rw [← delCount_dels x]; unfold delCount; rw [List.count_cons]; simp
        rw [e3]
        by_cases hx : x ∈ rs
        · have h1 : 1 ≤ rs.count x := List.count_pos_iff.mpr hx
          have h2 : (st.deleted ++ erased st c).Nodup := by
            rw [List.nodup_append]
            refine ⟨h.nd, e1, ?_⟩
            rintro x hx y hy rfl
            exact (h.td x (e2 x hy)).2 hx
          have h3 := List.nodup_iff_count_le_one.mp h2 x
          rw [List.count_append] at h3
          have h4 := hl.sublist.count_le x
          omega
        · have h1 : st.deleted.count x = 0 := List.count_eq_zero.mpr (fun hd => hx (h.dl x hd))
          have h2 : l.count x = 0 := List.count_eq_zero.mpr (fun hd => hx (h.td x (e2 x (hl.subset hd))).1)
          omega
  · intro q hq p x b e hb
    rcases prefix_append_cases hq with hq | ⟨b', hb', rfl⟩
    · exact h.last q hq p x b e hb
    · rcases b' with _ | ⟨o, b'⟩
      · rw [List.append_nil] at e ⊢
        exact h.last st.ops (List.prefix_refl _) p x b e hb
      · rw [List.cons_prefix_cons] at hb'
        obtain ⟨rfl, hb'⟩ := hb'
        obtain ⟨l, hl, rfl⟩ := htail b' hb'
        have := last_ins_unique e (by intro o ho; rw [List.mem_map] at ho; obtain ⟨y, -, rfl⟩ := ho; exact ⟨y, rfl⟩) hb
        subst this
        intro hm
        rcases List.mem_append.mp hm with hm | hm
        · have h1 : 0 < delCount r st.ops := List.count_pos_iff.mpr hm
          rw [h.del, List.count_eq_zero.mpr (fun hd => hr (h.dl r hd))] at h1
          omega
        · rcases List.mem_cons.mp hm with hm | hm
          · cases hm
          · rw [List.mem_map] at hm
            obtain ⟨y, hy, hy'⟩ := hm
            cases hy'
            exact hr (h.td r (e2 r (hl.subset hy))).1

theorem LoopInv.loop : ∀ {its : List (R × Choice R)} {rs : List R} {st : LoopState R}, LoopInv rs st →
    (rs ++ its.map Prod.fst).Nodup → ChoicesOk st its → LoopInv (rs ++ its.map Prod.fst) (loop st its)
  | [], rs, st, h, _, _ => by simpa [Own.loop] using h
  | (r, c) :: its, rs, st, h, hn, hc => by
    rw [List.map_cons, show rs ++ (r, c).1 :: its.map Prod.fst = (rs ++ [r]) ++ its.map Prod.fst by simp] at hn ⊢
    have hr : r ∉ rs := by
      intro hm
      have := (List.nodup_append.mp hn).1
      rw [List.nodup_append] at this
      exact this.2.2 r hm r (by simp) rfl
    exact (h.step hr hc.1).loop hn hc.2

theorem LoopInv.noVoid {rs : List R} {st : LoopState R} (h : LoopInv rs st) : NoVoidStretch st.ops := by
  intro p s t e hs
  have key : ∀ s : List (Index.Op R), (∀ o ∈ s, ∃ x, o = .del x) ∨
      ∃ a x b, s = a ++ .ins x :: b ∧ ∀ o ∈ b, ∃ y, o = .del y := by
    intro s
    induction s with
    | nil => left; simp
    | cons o s ih =>
      rcases ih with ih | ⟨a, x, b, rfl, hb⟩
      · cases o with
        | ins x => right; exact ⟨[], x, s, rfl, ih⟩
        | del x =>
          left
          intro o ho
          rcases List.mem_cons.mp ho with rfl | ho
          · exact ⟨x, rfl⟩
          · exact ih o ho
      · right; exact ⟨o :: a, x, b, rfl, hb⟩
  rcases key s with hd | ⟨a, x, b, rfl, hb⟩
  · obtain ⟨o, s', rfl⟩ := List.exists_cons_of_ne_nil hs
    obtain ⟨x, rfl⟩ := hd o (by simp)
    refine ⟨x, ?_⟩
    have h1 : insCount x (.del x :: s') = 0 := by
      refine List.count_eq_zero.mpr (fun hm => ?_)
      obtain ⟨y, hy⟩ := hd _ hm
      cases hy
    have h2 : 0 < delCount x (.del x :: s') := List.count_pos_iff.mpr (by simp)
    omega
  · refine ⟨x, ?_⟩
    have h0 := h.last (p ++ (a ++ .ins x :: b)) (by rw [e]; exact List.prefix_append _ _) (p ++ a) x b (by simp) hb
    have h1 : delCount x (a ++ .ins x :: b) = 0 := List.count_eq_zero.mpr (fun hm => h0 (List.mem_append_right _ hm))
    have h2 : 0 < insCount x (a ++ .ins x :: b) := List.count_pos_iff.mpr (by simp)
    omega

end DE.Own
