import Verif.Proofs.Query

/-!
Range counts over sorted shards.
-/

namespace DE
variable {R K : Type} [LinearOrder R] [LinearOrder K] [HasKey R K]

/-- In-range entries that are neither tagged nor tombstones. -/
def liveIn (lo hi : K) (w : Wrapped R) : Bool := inRange lo hi w && !w.isDeleted && !w.isTombstone

theorem rc_len (lo hi : K) (l : List (Wrapped R)) :
    ((l.filter (inRange lo hi)).filter (fun w => !w.isDeleted)).length =
      l.countP (liveIn lo hi) + tsCount ((l.filter (inRange lo hi)).filter (fun w => !w.isDeleted)) := by
  unfold tsCount
  induction l with
  | nil => rfl
  | cons w l ih =>
    by_cases h1 : inRange lo hi w = true
    · rw [List.filter_cons_of_pos h1]
      by_cases h2 : w.isDeleted = false
      · rw [List.filter_cons_of_pos (by simp [h2]), List.length_cons, ih, List.countP_cons, List.countP_cons]
        cases h3 : w.isTombstone <;> simp [liveIn, h1, h2, h3] <;> omega
      · simp only [Bool.not_eq_false] at h2
        rw [List.filter_cons_of_neg (by simp [h2]), ih, List.countP_cons]
        simp [liveIn, h2]
    · simp only [Bool.not_eq_true] at h1
      rw [List.filter_cons_of_neg (by simp [h1]), ih, List.countP_cons]
      simp [liveIn, h1]

/-- `local_query` of the range count. -/
theorem rcLocal_spec {lb : LB R K} (hlb : lb.Sound) {s : Shard R} (hs : RecSorted s.data) {lo hi : K} :
    (∀ l, rcLocal lb s lo hi = .ok l → l = [] ∨
      l = [(((s.data.filter (inRange lo hi)).filter (fun w => !w.isDeleted)).length,
            tsCount ((s.data.filter (inRange lo hi)).filter (fun w => !w.isDeleted)))]) ∧
    (s.data ≠ [] → ∃ l, rcLocal lb s lo hi = .ok l ∧ (l = [] ↔ ∀ w ∈ s.data, ¬ lo ≤ key w.record)) := by
  by_cases hne : s.data = []
  · refine ⟨?_, fun h => absurd hne h⟩
    intro l hl
    unfold rcLocal at hl
    rw [bind_ok] at hl
    obtain ⟨i, -, h2⟩ := hl
    rw [hne] at h2 ⊢
    split at h2
    · cases h2; exact Or.inl rfl
    · split at h2
      · cases h2
      · next h3 h4 => simp at h3 h4; omega
  · obtain ⟨i, h1, h2, h3⟩ := hlb s.data hne hs lo
    have hle := lowerBoundSpec_le lo s.data
    have key : ∃ l, rcLocal lb s lo hi = .ok l ∧ (i = s.data.length ∧ l = [] ∨ i ≠ s.data.length ∧
      l = [(((s.data.filter (inRange lo hi)).filter (fun w => !w.isDeleted)).length,
            tsCount ((s.data.filter (inRange lo hi)).filter (fun w => !w.isDeleted)))]) := by
      unfold rcLocal
      rw [h1]
      simp only [bind, Except.bind]
      by_cases hi' : i = s.data.length
      · rw [if_pos hi']; exact ⟨_, rfl, Or.inl ⟨hi', rfl⟩⟩
      · rw [if_neg hi', if_neg (by omega), dropWhile_lb _ _ _ h2, scan_filter lo hi _ hs]
        exact ⟨_, rfl, Or.inr ⟨hi', rfl⟩⟩
    obtain ⟨l, e, hor⟩ := key
    refine ⟨?_, fun _ => ⟨l, e, ?_⟩⟩
    · intro l' hl'
      rw [e] at hl'
      have := (Except.ok.inj hl').symm
      subst this
      rcases hor with ⟨-, h⟩ | ⟨-, h⟩
      · exact Or.inl h
      · exact Or.inr h
    · rcases hor with ⟨hi', rfl⟩ | ⟨hi', rfl⟩
      · simp only [true_iff]
        intro w hw hlo
        have := lbs_all lo (l := s.data) (by omega) w hw
        exact absurd hlo (not_le_of_gt this)
      · simp only [List.cons_ne_nil, false_iff]
        intro hall
        have : lowerBoundSpec lo s.data = s.data.length := by
          clear h1 h2 h3 hle hi' e hs hne
          generalize s.data = xs at hall
          induction xs with
          | nil => rfl
          | cons x xs ih =>
            simp only [lowerBoundSpec]
            rw [if_pos (lt_of_not_ge (hall x (by simp))), ih (fun w hw => hall w (by simp [hw]))]; rfl
        exact hi' (h3 this)

/-- Sum of the local counts when it is defined. -/
theorem rcSum_spec {lo hi : K} : ∀ {ls : List (List (Wrapped R))} {rs : List (List (Nat × Nat))} {p : Nat × Nat},
    rs.length = ls.length →
    (∀ (i : Nat) (l : List (Wrapped R)) (r : List (Nat × Nat)), ls[i]? = some l → rs[i]? = some r → r = [] ∨
      r = [(((l.filter (inRange lo hi)).filter (fun w => !w.isDeleted)).length,
            tsCount ((l.filter (inRange lo hi)).filter (fun w => !w.isDeleted)))]) →
    rcSum rs = .ok p → p.1 = (ls.map (fun l => l.countP (liveIn lo hi))).sum + p.2
  | [], [], p, _, _, h => by cases h; rfl
  | [], r :: rs, p, hl, _, h => by simp at hl
  | l :: ls, [], p, hl, _, h => by simp at hl
  | l :: ls, r :: rs, p, hl, hs, h => by
    rcases hs 0 l r rfl rfl with rfl | rfl
    · cases h
    · rw [rcSum, bind_ok] at h
      obtain ⟨⟨a, b⟩, h1, h2⟩ := h
      have ih := rcSum_spec (by simpa using hl) (fun i l r hi hr => hs (i+1) l r (by simpa using hi) (by simpa using hr)) h1
      have h2 := Except.ok.inj h2
      rw [← h2]
      simp only [List.map_cons, List.sum_cons] at ih ⊢
      have := rc_len lo hi l
      omega

theorem mapM_getElem {α β : Type} {f : α → Res β} : ∀ {l : List α} {r : List β}, l.mapM f = .ok r →
    r.length = l.length ∧ ∀ (i : Nat) (x : α) (y : β), l[i]? = some x → r[i]? = some y → f x = .ok y
  | [], r, h => by
    simp [pure, Except.pure] at h; subst h; simp
  | x :: l, r, h => by
    rw [List.mapM_cons] at h
    simp only [bind_ok] at h
    obtain ⟨y, h1, ys, h2, h3⟩ := h
    cases h3
    obtain ⟨g1, g2⟩ := mapM_getElem h2
    refine ⟨by simp [g1], ?_⟩
    rintro (_ | i) a b ha hb
    · simp at ha hb; subst ha hb; exact h1
    · exact g2 i a b (by simpa using ha) (by simpa using hb)

/-- Entry-level version of `liveIn`. -/
def liveInE (lo hi : K) (e : Entry R) : Prop := inRangeE lo hi e ∧ e.del = false ∧ e.tomb = false

instance (lo hi : K) : DecidablePred (liveInE (R := R) lo hi) := fun _ => instDecidableAnd

theorem ents_countP (lo hi : K) (l : List (Wrapped R)) : l.countP (liveIn lo hi) = (ents l).countP (liveInE lo hi) := by
  induction l with
  | nil => rfl
  | cons w l ih =>
    have e : ents (w :: l) = w.entry ::ₘ ents l := rfl
    rw [List.countP_cons, e, Multiset.countP_cons, ih]
    congr 1
    by_cases h : liveIn lo hi w = true
    · rw [if_pos h, if_pos]
      simp [liveIn, inRange] at h
      exact ⟨h.1.1, h.1.2, h.2⟩
    · rw [if_neg h, if_neg]
      rintro ⟨⟨h1, h1'⟩, h2, h3⟩
      apply h
      have h2 : w.isDeleted = false := h2
      have h3 : w.isTombstone = false := h3
      have h1 : lo ≤ key w.record := h1
      have h1' : key w.record ≤ hi := h1'
      simp [liveIn, inRange, h1, h1', h2, h3]

/-- What a range count computes when it is defined. -/
theorem rangeCount_gets {lb : LB R K} (hlb : lb.Sound) {d : Index R}
    (hb : d.buf.view.gets = .ok d.buf.contents)
    (hs : ∀ s ∈ d.str.visible, RecSorted s.data) {lo hi : K} {n : Nat} (h : d.rangeCount lb lo hi = .ok n) :
    n = d.entries.countP (liveInE lo hi) := by
  unfold Index.rangeCount rcBuffer at h
  rw [hb] at h
  simp only [bind_ok] at h
  obtain ⟨b, ⟨l, e1, e2⟩, rs, e3, e4⟩ := h
  cases e1
  have e2 := (Except.ok.inj e2).symm
  subst e2
  obtain ⟨g1, g2⟩ := mapM_getElem e3
  unfold rcCombine at e4
  rw [bind_ok] at e4
  obtain ⟨⟨r, t⟩, e5, e6⟩ := e4
  have hsum := rcSum_spec (lo := lo) (hi := hi) (ls := d.buf.contents :: d.str.visible.map Shard.data)
    (by simp [g1]) (by
      rintro (_ | i) x y hx hy
      · simp at hx hy; subst hx hy; exact Or.inr (by simp)
      · simp only [List.getElem?_cons_succ, List.getElem?_map] at hx hy
        rw [Option.map_eq_some_iff] at hx
        obtain ⟨s, hx, rfl⟩ := hx
        exact (rcLocal_spec hlb (hs s (List.mem_of_getElem? hx))).1 y (g2 i s y hx hy)) e5
  have e6 := Except.ok.inj e6
  simp only at hsum e6
  rw [if_neg (by omega)] at e6
  have : n = (List.map (fun l => List.countP (liveIn lo hi) l) (d.buf.contents :: List.map Shard.data d.str.visible)).sum := by
    omega
  rw [this, List.map_cons, List.sum_cons]
  unfold Index.entries
  rw [Multiset.countP_add, ents_countP]
  congr 1
  generalize d.str.visible = vs
  induction vs with
  | nil => rfl
  | cons v vs ih =>
    simp only [List.map_cons, List.sum_cons]
    rw [Multiset.countP_add, ents_countP, ih]

theorem rangeCount_spec {lb : LB R K} (hlb : lb.Sound) {d : Index R} (hb : d.buf.WF)
    (hs : ∀ s ∈ d.str.visible, RecSorted s.data) {lo hi : K} {n : Nat} (h : d.rangeCount lb lo hi = .ok n) :
    n = d.entries.countP (liveInE lo hi) :=
  rangeCount_gets hlb (Buffer.view_gets hb) hs h

theorem rcSum_total : ∀ {rs : List (List (Nat × Nat))}, (∃ p, rcSum rs = .ok p) ↔ ∀ r ∈ rs, r ≠ []
  | [] => by simp [rcSum]
  | [] :: rs => by simp [rcSum]
  | (x :: xs) :: rs => by
    have ih := rcSum_total (rs := rs)
    constructor
    · rintro ⟨p, h⟩
      rw [rcSum, bind_ok] at h
      obtain ⟨q, h1, -⟩ := h
      intro r hr
      rcases List.mem_cons.mp hr with rfl | hr
      · simp
      · exact ih.mp ⟨q, h1⟩ r hr
    · intro h
      obtain ⟨q, hq⟩ := ih.mpr (fun r hr => h r (by simp [hr]))
      rw [rcSum, hq]
      exact ⟨_, rfl⟩

/-- When a range count is defined. -/
theorem rangeCount_gets_total {lb : LB R K} (hlb : lb.Sound) {d : Index R}
    (hb : d.buf.view.gets = .ok d.buf.contents)
    (hs : ∀ s ∈ d.str.visible, RecSorted s.data ∧ s.data ≠ []) {lo hi : K} :
    (∃ n, d.rangeCount lb lo hi = .ok n) ↔ ∀ s ∈ d.str.visible, ∃ w ∈ s.data, lo ≤ key w.record := by
  have hm : ∃ rs, d.str.visible.mapM (fun s => rcLocal lb s lo hi) = .ok rs ∧
      ((∀ r ∈ rs, r ≠ []) ↔ ∀ s ∈ d.str.visible, ∃ w ∈ s.data, lo ≤ key w.record) := by
    generalize d.str.visible = vs at hs
    induction vs with
    | nil => exact ⟨[], rfl, by simp⟩
    | cons v vs ih =>
      obtain ⟨rs, h1, h2⟩ := ih (fun s hs' => hs s (by simp [hs']))
      obtain ⟨l, h3, h4⟩ := (rcLocal_spec hlb (hs v (by simp)).1 (lo := lo) (hi := hi)).2 (hs v (by simp)).2
      refine ⟨l :: rs, ?_, ?_⟩
      · rw [List.mapM_cons, h3, h1]; rfl
      · simp only [List.mem_cons, forall_eq_or_imp, h2, ne_eq, h4]
        simp
  obtain ⟨rs, h1, h2⟩ := hm
  unfold Index.rangeCount rcBuffer rcCombine
  rw [hb]
  have hb' : ∀ (x : List (Nat × Nat)), x ≠ [] → ((∃ p, rcSum (x :: rs) = .ok p) ↔ ∀ r ∈ rs, r ≠ []) := by
    intro x hx
    rw [rcSum_total]; simp [hx]
  rw [← h2]
  simp only [bind, Except.bind, h1]
  constructor
  · rintro ⟨n, hn⟩
    revert hn
    cases hq : rcSum _ with
    | error e => intro hn; cases hn
    | ok p => intro _; exact (hb' _ (by simp)).mp ⟨p, hq⟩
  · intro h
    obtain ⟨p, hp⟩ := (hb' [(((d.buf.contents.filter (inRange lo hi)).filter (fun w => !w.isDeleted)).length,
      tsCount ((d.buf.contents.filter (inRange lo hi)).filter (fun w => !w.isDeleted)))] (by simp)).mpr h
    rw [hp]
    exact ⟨_, rfl⟩

theorem rangeCount_total {lb : LB R K} (hlb : lb.Sound) {d : Index R} (hb : d.buf.WF)
    (hs : ∀ s ∈ d.str.visible, RecSorted s.data ∧ s.data ≠ []) {lo hi : K} :
    (∃ n, d.rangeCount lb lo hi = .ok n) ↔ ∀ s ∈ d.str.visible, ∃ w ∈ s.data, lo ≤ key w.record :=
  rangeCount_gets_total hlb (Buffer.view_gets hb) hs

end DE
