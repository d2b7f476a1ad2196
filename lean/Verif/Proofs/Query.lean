import Verif.Proofs.InsertOnly

/-!
Range query and range count over sorted shards.
-/

namespace DE
variable {R K : Type} [LinearOrder R] [LinearOrder K] [HasKey R K]

theorem key_mono {a b : R} (h : a ≤ b) : key (K := K) a ≤ key b := by
  by_contra hc
  exact absurd (HasKey.key_lt _ _ (lt_of_not_ge hc)) (not_lt_of_ge h)

theorem lowerBoundSpec_le (k : K) (l : List (Wrapped R)) : lowerBoundSpec k l ≤ l.length := by
  induction l with
  | nil => simp [lowerBoundSpec]
  | cons w ws ih => simp only [lowerBoundSpec]; split <;> simp <;> omega

/-- Dropping up to the lower bound then skipping smaller keys. -/
theorem dropWhile_lb (k : K) : ∀ (l : List (Wrapped R)) (i : Nat), i ≤ lowerBoundSpec k l →
    (l.drop i).dropWhile (fun w => decide (key w.record < k)) = l.drop (lowerBoundSpec k l)
  | [], i, h => by simp
  | w :: ws, 0, _ => by
    simp only [List.drop_zero, lowerBoundSpec]
    by_cases hw : key w.record < k
    · rw [List.dropWhile_cons_of_pos (by simpa using hw), if_pos hw, List.drop_succ_cons]
      simpa using dropWhile_lb k ws 0 (Nat.zero_le _)
    · rw [List.dropWhile_cons_of_neg (by simpa using hw), if_neg hw, List.drop_zero]
  | w :: ws, i+1, h => by
    simp only [lowerBoundSpec] at h ⊢
    by_cases hw : key w.record < k
    · rw [if_pos hw] at h ⊢
      rw [List.drop_succ_cons, List.drop_succ_cons]
      exact dropWhile_lb k ws i (by omega)
    · rw [if_neg hw] at h; omega

/-- On a sorted array, "drop below lo, then take up to hi" is the in-range filter. -/
theorem scan_filter (lo hi : K) : ∀ (l : List (Wrapped R)), RecSorted l →
    (l.drop (lowerBoundSpec lo l)).takeWhile (fun w => decide (key w.record ≤ hi)) = l.filter (inRange lo hi)
  | [], _ => by simp
  | w :: ws, h => by
    have hs := List.pairwise_cons.mp h
    simp only [lowerBoundSpec]
    by_cases hw : key w.record < lo
    · rw [if_pos hw, List.drop_succ_cons, List.filter_cons_of_neg (by simp [inRange, hw])]
      exact scan_filter lo hi ws hs.2
    · rw [if_neg hw, List.drop_zero]
      have hge : lo ≤ key w.record := not_lt.mp hw
      have hall : ∀ x ∈ w :: ws, lo ≤ key (K := K) x.record := by
        intro x hx
        rcases List.mem_cons.mp hx with rfl | hx
        · exact hge
        · exact le_trans hge (key_mono (hs.1 x hx))
      clear hw hge
      have : ∀ (l : List (Wrapped R)), RecSorted l → (∀ x ∈ l, lo ≤ key (K := K) x.record) →
          l.takeWhile (fun w => decide (key w.record ≤ hi)) = l.filter (inRange lo hi) := by
        intro l
        induction l with
        | nil => simp
        | cons x xs ih =>
          intro hs hlo
          have hs' := List.pairwise_cons.mp hs
          by_cases hx : key x.record ≤ hi
          · rw [List.takeWhile_cons_of_pos (by simpa using hx),
              List.filter_cons_of_pos (by simp [inRange, hx, hlo x (by simp)]),
              ih hs'.2 (fun y hy => hlo y (by simp [hy]))]
          · rw [List.takeWhile_cons_of_neg (by simpa using hx)]
            symm
            rw [List.filter_eq_nil_iff]
            intro y hy
            simp only [inRange, Bool.and_eq_true, decide_eq_true_eq, not_and]
            intro _ hyh
            rcases List.mem_cons.mp hy with rfl | hy
            · exact hx hyh
            · exact hx (le_trans (key_mono (hs'.1 y hy)) hyh)
      exact this _ h hall

theorem lbs_all (k : K) {l : List (Wrapped R)} (h : lowerBoundSpec k l = l.length) :
    ∀ w ∈ l, key w.record < k := by
  induction l with
  | nil => simp
  | cons x xs ih =>
    simp only [lowerBoundSpec] at h
    split at h
    · next hx =>
      intro w hw
      rcases List.mem_cons.mp hw with rfl | hw
      · exact hx
      · exact ih (by simpa using h) w hw
    · simp at h

/-- `local_query` of the range query is the in-range filter of the shard. -/
theorem rqLocal_spec {lb : LB R K} (hlb : lb.Sound) {s : Shard R} (hs : RecSorted s.data) {lo hi : K} :
    (∀ l, rqLocal lb s lo hi = .ok l → l = s.data.filter (inRange lo hi)) ∧
    (s.data ≠ [] → rqLocal lb s lo hi = .ok (s.data.filter (inRange lo hi))) := by
  by_cases hne : s.data = []
  · refine ⟨?_, fun h => absurd hne h⟩
    intro l hl
    unfold rqLocal at hl
    rw [bind_ok] at hl
    obtain ⟨i, -, h2⟩ := hl
    rw [hne] at h2 ⊢
    split at h2
    · cases h2; rfl
    · split at h2
      · cases h2
      · next h3 h4 => simp at h3 h4; omega
  · have key : rqLocal lb s lo hi = .ok (s.data.filter (inRange lo hi)) := by
      obtain ⟨i, h1, h2, h3⟩ := hlb s.data hne hs lo
      unfold rqLocal
      rw [h1]
      simp only [bind, Except.bind]
      have hle := lowerBoundSpec_le lo s.data
      by_cases hi' : i = s.data.length
      · rw [if_pos hi']
        congr 1
        symm
        rw [List.filter_eq_nil_iff]
        intro w hw
        have := lbs_all lo (l := s.data) (by omega) w hw
        simp [inRange, this]
      · rw [if_neg hi', if_neg (by omega), dropWhile_lb _ _ _ h2, scan_filter lo hi _ hs]
    refine ⟨?_, fun _ => key⟩
    intro l hl
    rw [key] at hl
    exact (Except.ok.inj hl).symm

theorem mapM_spec {α β : Type} {f : α → Res β} {g : α → β} : ∀ {l : List α} {r : List β},
    (∀ x ∈ l, ∀ y, f x = .ok y → y = g x) → l.mapM f = .ok r → r = l.map g
  | [], r, _, h => by simp [pure, Except.pure] at h; simp [h]
  | x :: l, r, hx, h => by
    rw [List.mapM_cons] at h
    simp only [bind_ok] at h
    obtain ⟨y, h1, ys, h2, h3⟩ := h
    cases h3
    rw [List.map_cons, ← hx x (by simp) y h1, ← mapM_spec (fun a ha => hx a (by simp [ha])) h2]

/-- Entries with key in `[lo, hi]`. -/
def inRangeE (lo hi : K) (e : Entry R) : Prop := lo ≤ key e.record ∧ key e.record ≤ hi

instance (lo hi : K) : DecidablePred (inRangeE (R := R) lo hi) := fun _ => instDecidableAnd

theorem ents_filter (lo hi : K) (l : List (Wrapped R)) : ents (l.filter (inRange lo hi)) = (ents l).filter (inRangeE lo hi) := by
  induction l with
  | nil => simp [ents]
  | cons w ws ih =>
    have e : ∀ l : List (Wrapped R), ents (w :: l) = w.entry ::ₘ ents l := fun l => rfl
    by_cases hw : inRangeE lo hi w.entry
    · rw [List.filter_cons_of_pos (by
        unfold inRangeE at hw; simp [inRange]; exact hw), e, e, Multiset.filter_cons_of_pos _ hw, ih]
    · rw [List.filter_cons_of_neg (by
        unfold inRangeE at hw; simp only [inRange, Bool.and_eq_true, decide_eq_true_eq]; exact hw), e,
        Multiset.filter_cons_of_neg _ hw, ih]

theorem ents_reverse_flatten (cs : List (List (Wrapped R))) : ents cs.reverse.flatten = ents cs.flatten := by
  apply ents_perm
  exact (List.reverse_perm cs).flatten

theorem sents_filter (lo hi : K) (ss : List (Shard R)) :
    ents ((ss.map (fun s => s.data.filter (inRange lo hi))).flatten) =
      ((ss.map (fun s => ents s.data)).sum).filter (inRangeE lo hi) := by
  induction ss with
  | nil => rfl
  | cons s ss ih =>
    simp only [List.map_cons, List.flatten_cons, ents_append, List.sum_cons, Multiset.filter_add, ih, ents_filter]

/-- What a range query computes, for any buffer whose view can be read record by record. -/
theorem rangeQuery_gets {pq : PQ R} {lb : LB R K} (hlb : lb.Sound) {d : Index R} (hb : d.buf.view.gets = .ok d.buf.contents)
    (hs : ∀ s ∈ d.str.visible, RecSorted s.data) {lo hi : K} {res : List R} (h : d.rangeQuery pq lb lo hi = .ok res) :
    ∃ m : List (Wrapped R), res = m.map Wrapped.record ∧ (∀ w ∈ m, w.isTombstone = false) ∧
      Reduces (fun e => e.tomb = true) (d.entries.filter (inRangeE lo hi)) (ents m) ∧
      m = mergeAll pq (fun w => !w.isTombstone)
        (d.buf.contents.filter (inRange lo hi) :: d.str.visible.map (fun s => s.data.filter (inRange lo hi))).reverse := by
  unfold Index.rangeQuery rqBuffer at h
  rw [hb] at h
  simp only [bind_ok] at h
  obtain ⟨b, ⟨l, e1, e2⟩, rs, e3, e4⟩ := h
  cases e1; cases e2
  have hrs := mapM_spec (g := fun s => s.data.filter (inRange lo hi))
    (fun s hsm y hy => (rqLocal_spec hlb (hs s hsm)).1 y hy) e3
  subst hrs
  refine ⟨_, (Except.ok.inj e4).symm, ?_, ?_, rfl⟩
  · intro w hw
    have := mergeLoop_keep pq _ _ _ w hw
    simpa using this
  · have hr := mergeAll_reduces pq (fun w : Wrapped R => !w.isTombstone) (fun e => e.tomb = true) (fun w hw => by
      simp only [Bool.not_eq_false'] at hw; exact hw)
      (d.buf.contents.filter (inRange lo hi) :: d.str.visible.map (fun s => s.data.filter (inRange lo hi))).reverse
    rw [ents_reverse_flatten, List.flatten_cons, ents_append, ents_filter, sents_filter, ← Multiset.filter_add] at hr
    exact hr

/-- What a range query computes. -/
theorem rangeQuery_spec {pq : PQ R} {lb : LB R K} (hlb : lb.Sound) {d : Index R} (hb : d.buf.WF)
    (hs : ∀ s ∈ d.str.visible, RecSorted s.data) {lo hi : K} {res : List R} (h : d.rangeQuery pq lb lo hi = .ok res) :
    ∃ m : List (Wrapped R), res = m.map Wrapped.record ∧ (∀ w ∈ m, w.isTombstone = false) ∧
      Reduces (fun e => e.tomb = true) (d.entries.filter (inRangeE lo hi)) (ents m) ∧
      m = mergeAll pq (fun w => !w.isTombstone)
        (d.buf.contents.filter (inRange lo hi) :: d.str.visible.map (fun s => s.data.filter (inRange lo hi))).reverse :=
  rangeQuery_gets hlb (Buffer.view_gets hb) hs h

/-- A range query is defined if no shard is empty. -/
theorem rangeQuery_gets_total {pq : PQ R} {lb : LB R K} (hlb : lb.Sound) {d : Index R} (hb : d.buf.view.gets = .ok d.buf.contents)
    (hs : ∀ s ∈ d.str.visible, RecSorted s.data ∧ s.data ≠ []) {lo hi : K} : ∃ res, d.rangeQuery pq lb lo hi = .ok res := by
  unfold Index.rangeQuery rqBuffer
  rw [hb]
  have hm := mapM_ok (f := fun s => rqLocal lb s lo hi) (g := fun s => s.data.filter (inRange lo hi))
    (l := d.str.visible) (fun s hsm => (rqLocal_spec hlb (hs s hsm).1).2 (hs s hsm).2)
  simp only [hm, bind, Except.bind]
  exact ⟨_, rfl⟩

/-- A range query is defined if no shard is empty. -/
theorem rangeQuery_total {pq : PQ R} {lb : LB R K} (hlb : lb.Sound) {d : Index R} (hb : d.buf.WF)
    (hs : ∀ s ∈ d.str.visible, RecSorted s.data ∧ s.data ≠ []) {lo hi : K} : ∃ res, d.rangeQuery pq lb lo hi = .ok res :=
  rangeQuery_gets_total hlb (Buffer.view_gets hb) hs

end DE
