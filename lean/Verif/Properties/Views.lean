import Verif.Proofs.Views
/-!
C95: view objects of a buffer, used by one thread in any order.
-/
namespace DE
open VBuf
variable {R : Type} [DecidableEq R] [Inhabited R]

/-- The objects that exist and have not been moved from. -/
def liveViews (x : VBuf R) : List VObj := x.objs.filterMap (fun o => o.filter (·.active))

omit [DecidableEq R] [Inhabited R] in
theorem mem_liveViews {x : VBuf R} {o : VObj} : o ∈ liveViews x ↔ some o ∈ x.objs ∧ o.active = true := by
  simp only [liveViews, List.mem_filterMap, Option.filter_eq_some_iff]
  constructor
  · rintro ⟨a, ha, rfl, h⟩; exact ⟨ha, h⟩
  · rintro ⟨h1, h2⟩; exact ⟨_, h1, rfl, h2⟩

theorem cnt_live (p : VObj → Bool) (l : List (Option VObj)) : cnt p l = (l.filterMap (fun o => o.filter (·.active))).countP p := by
  induction l with
  | nil => rfl
  | cons a l ih =>
    unfold cnt at ih ⊢
    cases a with
    | none => simp [sel, ih]
    | some o =>
      cases ha : o.active
      · simp [sel, ha, ih, Option.filter]
      · simp [List.countP_cons, sel, ha, ih, Option.filter]

/-- C95: whatever views are created, moved and destroyed in whatever order, every call ends (no assert fails, no loop waits forever),
and `advance_head` is refused exactly as long as there is a view from before the buffer's present head. -/
theorem C95 {lwm hwm capacity : Nat} (hw : 0 < hwm) {x : VBuf R} {L : List (R × Bool)} (h : Reach Legal lwm hwm capacity x L)
    {o : Op R} (hl : Legal x o) :
    ∃ y b, x.step o = .ok (some (y, b)) ∧ (∀ n, o = .advance n → (b = true ↔ ∀ v ∈ liveViews x, x.b.head ≤ v.head)) := by
  have hi := h.inv (fun _ _ h => h) hw
  obtain ⟨y, b, e, _⟩ := hi.step hl
  refine ⟨y, b, e, ?_⟩
  rintro n rfl
  have hz : x.oldRef = 0 ↔ ∀ v ∈ liveViews x, x.b.head ≤ v.head := by
    rw [hi.oref, cnt_zero]
    simp only [decide_eq_false_iff_not, not_lt]
    exact ⟨fun h v hv => h v (mem_liveViews.mp hv).1 (mem_liveViews.mp hv).2, fun h v h1 h2 => h v (mem_liveViews.mpr ⟨h1, h2⟩)⟩
  rw [← hz]
  rcases advance_ok hi hl.1 hl.2 with ⟨h0, e'⟩ | ⟨h0, z, e', _⟩
  · simp only [VBuf.step, e', bind, Except.bind] at e
    cases e
    simp; omega
  · simp only [VBuf.step, e', bind, Except.bind] at e
    cases e
    simp [h0]

/-- C95: every view is counted exactly once, at the head it was taken at: the counts are the numbers of live views at the present head
and before it. In particular both are 0 when all views are gone. -/
theorem C95_counts {lwm hwm capacity : Nat} (hw : 0 < hwm) {x : VBuf R} {L : List (R × Bool)} (h : Reach Legal lwm hwm capacity x L) :
    x.headRef = (liveViews x).countP (fun v => decide (v.head = x.b.head)) ∧
    x.oldRef = (liveViews x).countP (fun v => decide (v.head < x.b.head)) ∧
    x.headRef + x.oldRef = (liveViews x).length := by
  have hi := h.inv (fun _ _ h => h) hw
  have h1 := hi.href.trans (cnt_live _ _)
  have h2 := hi.oref.trans (cnt_live _ _)
  refine ⟨h1, h2, ?_⟩
  have hle : ∀ v ∈ liveViews x, v.head = x.b.head ∨ v.head < x.b.head := by
    intro v hv
    obtain ⟨a, b⟩ := mem_liveViews.mp hv
    rcases (hi.live v a b).2.2 with e | ⟨e, e'⟩
    · exact Or.inl e
    · exact Or.inr (e ▸ e')
  rw [h1, h2]
  change (liveViews x).countP _ + (liveViews x).countP _ = _
  revert hle
  generalize liveViews x = l
  intro hle
  induction l with
  | nil => rfl
  | cons v l ih =>
    have := ih (fun u hu => hle u (List.mem_cons_of_mem _ hu))
    simp only [List.countP_cons, List.length_cons]
    rcases hle v List.mem_cons_self with e | e
    · simp only [e, decide_true, if_true, lt_irrefl, decide_false]; simp; omega
    · have hne : ¬ v.head = x.b.head := by omega
      simp only [e, hne, decide_true, if_true, decide_false]; simp; omega

/-- C95: with the high watermark at most half the capacity (as in the framework), a live view reads exactly the accepted appends
number `get_head()` up to `get_tail()`, whatever has been done since it was created. Missing: buffers whose high watermark is more than half
their capacity (`C95_false_capacity`, `C95_false_raised`). -/
theorem C95_reads_partial {lwm hwm capacity : Nat} (hw : 0 < hwm) (hc : capacity = 0 ∨ 2 * hwm ≤ capacity) {x : VBuf R} {L : List (R × Bool)}
    (h : Reach LegalHalf lwm hwm capacity x L) {v : VObj} (hv : v ∈ liveViews x) :
    v.head ≤ v.tail ∧ v.tail ≤ L.length ∧
    ∃ l, (window x.b v).gets = .ok l ∧ l.map (fun w => (w.record, w.isTombstone)) = (L.drop v.head).take (v.tail - v.head) := by
  have hi := h.inv (fun _ _ h => h.1) hw
  have hh := h.half hw hc
  obtain ⟨a, b⟩ := mem_liveViews.mp hv
  obtain ⟨h1, h2, h3⟩ := hi.live v a b
  refine ⟨h1, hi.len ▸ h2, hi.reads a b ?_⟩
  have := hi.ht
  have := hh.cnt
  have := hh.old
  rcases h3 with e | ⟨e, e'⟩
  · omega
  · have := hh.old e'
    omega

/-- C95 for `copy_to_buffer`: with the high watermark at most half the capacity, unless the view covers the whole ring it copies what `get`
reads. Missing: the views of the whole ring (`C95_false_copy`). -/
theorem C95_copy_partial {lwm hwm capacity : Nat} (hw : 0 < hwm) (hc : capacity = 0 ∨ 2 * hwm ≤ capacity) {x : VBuf R} {L : List (R × Bool)}
    (h : Reach LegalHalf lwm hwm capacity x L) {v : VObj} (hv : v ∈ liveViews x) (hn : v.tail - v.head < x.b.cap) :
    ∃ l, (window x.b v).copyOut = .ok l ∧ l.map (fun w => (w.record, w.isTombstone)) = (L.drop v.head).take (v.tail - v.head) := by
  obtain ⟨h1, -, l, hl, e⟩ := C95_reads_partial hw hc h hv
  have ha := (mem_liveViews.mp hv).2
  have hcap : (window x.b v).cap = x.b.cap := by simp [window, ha]
  have hp : 0 < (window x.b v).cap := by rw [hcap]; omega
  have hc1 := copyOut_eq (window x.b v) hp h1 (by rw [hcap]; exact hn)
  have hg := gets_eq (window x.b v) hp (by rw [hcap]; exact Nat.le_of_lt hn)
  rw [← hg, hl] at hc1
  exact ⟨l, hc1, e⟩

/-- C95: a view made now covers the accepted appends from the present head on; older views stay as they are. -/
theorem C95_view_partial {lwm hwm capacity : Nat} (hw : 0 < hwm) (hc : capacity = 0 ∨ 2 * hwm ≤ capacity) {x : VBuf R} {L : List (R × Bool)}
    (h : Reach LegalHalf lwm hwm capacity x L) :
    ∃ y v, x.step .view = .ok (some (y, true)) ∧ y.objs = x.objs ++ [some v] ∧ v.head = x.b.head ∧ v.tail = L.length ∧
      ∃ l, (window y.b v).gets = .ok l ∧ l.map (fun w => (w.record, w.isTombstone)) = L.drop x.b.head := by
  have hi := h.inv (fun _ _ h => h.1) hw
  obtain ⟨y, hy, _, hb, ho⟩ := getView_ok hi (Or.inl rfl)
  have hs : x.step .view = .ok (some (y, true)) := by simp [VBuf.step, hy]
  have hr : Reach LegalHalf lwm hwm capacity y L := Reach.step h (o := .view) (b := true) ⟨trivial, fun n h => by cases h⟩ hs
  refine ⟨y, _, hs, ho, rfl, hi.len.symm, ?_⟩
  obtain ⟨_, _, l, hl, e⟩ := C95_reads_partial hw hc hr (v := ⟨x.b.head, x.b.tail, true⟩) (mem_liveViews.mpr ⟨by rw [ho]; simp, rfl⟩)
  refine ⟨l, hl, e.trans ?_⟩
  exact List.take_of_length_le (by simp [hi.len])

omit [Inhabited R] in
/-- C95: moving a view gives a new object that reads the same; the old one has no records, and destroying it changes nothing. -/
theorem C95_move {x : VBuf R} {i : Nat} {v : VObj} (hv : x.objs[i]? = some (some v)) :
    ∃ y, x.step (.move i) = .ok (some (y, true)) ∧ y.objs[x.objs.length]? = some (some v) ∧ (window y.b v).gets = (window x.b v).gets ∧
      (∃ u, y.objs[i]? = some (some u) ∧ (window y.b u).count = 0) ∧
      ∃ z, y.step (.destroy i) = .ok (some (z, true)) ∧ z.b = y.b ∧ z.headRef = y.headRef ∧ z.oldRef = y.oldRef ∧ z.oldIdx = y.oldIdx ∧
        liveViews z = liveViews y := by
  have hlt : i < x.objs.length := (List.getElem?_eq_some_iff.mp hv).1
  have hi' : (x.move i v).objs[i]? = some (some ⟨0, 0, false⟩) := by
    simp only [VBuf.move]
    rw [List.getElem?_append_left (by simpa using hlt), List.getElem?_set_self hlt]
  refine ⟨x.move i v, by simp [VBuf.step, obj_ok hv, bind, Except.bind], ?_, rfl, ⟨_, hi', rfl⟩, ?_⟩
  · simp [VBuf.move]
  · refine ⟨{ x.move i v with objs := (x.move i v).objs.set i none }, by simp [VBuf.step, obj_ok hi', bind, Except.bind, destroy], rfl, rfl,
      rfl, rfl, ?_⟩
    simp only [liveViews]
    generalize (x.move i v).objs = l at hi'
    clear hlt hv
    induction l generalizing i with
    | nil => simp at hi'
    | cons a l ih =>
      cases i with
      | zero => simp only [List.getElem?_cons_zero, Option.some.injEq] at hi'; subst hi'; simp [Option.filter]
      | succ i =>
        have := ih (i := i) (by simpa using hi')
        simp only [List.set_cons_succ, List.filterMap_cons, this]

/-- C95: `get_available_capacity` is the number of slots outside the range from the oldest record that some view or the buffer still
needs to the tail. -/
theorem C95_available {lwm hwm capacity : Nat} (hw : 0 < hwm) {x : VBuf R} {L : List (R × Bool)} (h : Reach Legal lwm hwm capacity x L) :
    x.available = x.b.cap - (x.b.tail - ((liveViews x).map VObj.head).foldr min x.b.head) := by
  have hi := h.inv (fun _ _ h => h) hw
  have hle : ∀ v ∈ liveViews x, v.head = x.b.head ∨ (v.head = x.oldIdx ∧ x.oldIdx < x.b.head) := fun v hv =>
    (hi.live v (mem_liveViews.mp hv).1 (mem_liveViews.mp hv).2).2.2
  have h2 := hi.oref.trans (cnt_live _ _)
  change x.oldRef = (liveViews x).countP _ at h2
  have key : ∀ l : List VObj, (∀ v ∈ l, v.head = x.b.head ∨ (v.head = x.oldIdx ∧ x.oldIdx < x.b.head)) →
      (l.map VObj.head).foldr min x.b.head =
        if l.countP (fun v => decide (v.head < x.b.head)) = 0 then x.b.head else x.oldIdx := by
    intro l
    induction l with
    | nil => intro _; rfl
    | cons v l ih =>
      intro hl
      have hr := ih (fun u hu => hl u (List.mem_cons_of_mem _ hu))
      simp only [List.map_cons, List.foldr_cons, hr, List.countP_cons]
      rcases hl v List.mem_cons_self with e | ⟨e, e'⟩
      · simp only [e, lt_irrefl, decide_false, Bool.false_eq_true, if_false, Nat.add_zero]
        split
        · exact min_self _
        · next hne =>
          have hpos : 0 < l.countP (fun v => decide (v.head < x.b.head)) := Nat.pos_of_ne_zero hne
          obtain ⟨u, hu, hu'⟩ := List.countP_pos_iff.mp hpos
          simp only [decide_eq_true_eq] at hu'
          rcases hl u (List.mem_cons_of_mem _ hu) with e2 | ⟨_, e2⟩
          · omega
          · exact min_eq_right (le_of_lt e2)
      · have : v.head < x.b.head := e ▸ e'
        simp only [this, decide_true, if_true]
        rw [if_neg (Nat.succ_ne_zero (l.countP (fun v => decide (v.head < x.b.head)))), e]
        split
        · exact min_eq_left (le_of_lt e')
        · exact min_self _
  rw [key _ hle]
  unfold available
  rw [h2]
  split <;> rfl

instance (x : VBuf R) (o : Op R) : Decidable (Legal x o) :=
  have (i : Nat) : Decidable (∃ o, x.objs[i]? = some (some o)) :=
    match h : x.objs[i]? with
    | some (some o) => .isTrue ⟨o, rfl⟩
    | some none => .isFalse (by rintro ⟨o, ho⟩; cases ho)
    | none => .isFalse (by rintro ⟨o, ho⟩; cases ho)
  match o with
  | .append _ _ => .isTrue trivial
  | .view => .isTrue trivial
  | .viewAt g => inferInstanceAs (Decidable (g = x.b.head ∨ (g = x.oldIdx ∧ g < x.b.head)))
  | .move i => this i
  | .destroy i => this i
  | .tag i _ => this i
  | .advance n => inferInstanceAs (Decidable (x.b.head < n ∧ n ≤ x.b.tail))
  | .setLow n => inferInstanceAs (Decidable (n < x.b.hwm))
  | .setHigh n => inferInstanceAs (Decidable (x.b.lwm < n ∧ n < x.b.cap))

/-- A sequence of legal calls, with the accepted appends. -/
def runLegal (x : VBuf R) (L : List (R × Bool)) : List (Op R) → Option (VBuf R × List (R × Bool))
  | [] => some (x, L)
  | o :: os =>
    if Legal x o then
      match x.step o with
      | .ok (some (y, b)) => runLegal y (logOf L o b) os
      | _ => none
    else none

theorem reach_run {lwm hwm capacity : Nat} (ops : List (Op R)) {x y : VBuf R} {L M : List (R × Bool)}
    (h : Reach Legal lwm hwm capacity x L) (hr : runLegal x L ops = some (y, M)) : Reach Legal lwm hwm capacity y M := by
  induction ops generalizing x L with
  | nil => simp only [runLegal, Option.some.injEq, Prod.mk.injEq] at hr; obtain ⟨rfl, rfl⟩ := hr; exact h
  | cons o os ih =>
    simp only [runLegal] at hr
    split at hr
    · next hl =>
      split at hr
      · next e => exact ih (.step h hl e) hr
      · cases hr
    · cases hr

/-- What the live views read after a sequence of legal calls, beside the accepted appends they cover. -/
def viewsAfter (lwm hwm capacity : Nat) (ops : List (Op Nat)) : Option (List (Res (List Nat) × Res (List Nat) × List Nat)) :=
  match VBuf.new lwm hwm capacity with
  | .error _ => none
  | .ok x => (runLegal x [] ops).map (fun y => (liveViews y.1).map (fun v =>
      ((window y.1.b v).gets.map (·.map Wrapped.record), (window y.1.b v).copyOut.map (·.map Wrapped.record),
        ((y.2.drop v.head).take (v.tail - v.head)).map Prod.fst)))

theorem of_viewsAfter {lwm hwm capacity : Nat} {ops : List (Op Nat)} {a c : Res (List Nat)} {e : List Nat}
    (h : viewsAfter lwm hwm capacity ops = some [(a, c, e)]) :
    ∃ (x : VBuf Nat) (L : List (Nat × Bool)) (v : VObj), Reach Legal lwm hwm capacity x L ∧ v ∈ liveViews x ∧
      (window x.b v).gets.map (·.map Wrapped.record) = a ∧ (window x.b v).copyOut.map (·.map Wrapped.record) = c ∧
      ((L.drop v.head).take (v.tail - v.head)).map Prod.fst = e := by
  unfold viewsAfter at h
  split at h
  · cases h
  · next x hx =>
    cases hr : runLegal x [] ops with
    | none => rw [hr] at h; cases h
    | some y =>
      rw [hr] at h
      simp only [Option.map_some, Option.some.injEq] at h
      cases hv : liveViews y.1 with
      | nil => rw [hv] at h; cases h
      | cons v l =>
        rw [hv] at h
        simp only [List.map_cons, List.cons.injEq, Prod.mk.injEq] at h
        exact ⟨y.1, y.2, v, reach_run ops (.new hx) hr, by rw [hv]; exact List.mem_cons_self, h.1.1, h.1.2.1, h.1.2.2⟩

/-- Three records, a view on them, the head moves behind them, three more records. -/
def overwrite : List (Op Nat) :=
  [.append 1 false, .append 2 false, .append 3 false, .view, .advance 3, .append 4 false, .append 5 false, .append 6 false]

/-- C95 fails for a buffer whose high watermark is more than half its capacity, which the constructor accepts (MutableBuffer.h 43-54): a
view of the records 1, 2, 3 reads 5, 6, 3. -/
theorem C95_false_capacity : ∃ (x : VBuf Nat) (L : List (Nat × Bool)) (v : VObj), Reach Legal 1 3 4 x L ∧ v ∈ liveViews x ∧
    ((L.drop v.head).take (v.tail - v.head)).map Prod.fst = [1, 2, 3] ∧ (window x.b v).gets.map (·.map Wrapped.record) = .ok [5, 6, 3] := by
  have h : viewsAfter 1 3 4 overwrite = some [(.ok [5, 6, 3], .ok [5, 6, 3], [1, 2, 3])] := by decide
  obtain ⟨x, L, v, h1, h2, h3, _, h5⟩ := of_viewsAfter h
  exact ⟨x, L, v, h1, h2, h5, h3⟩

/-- C95 fails after `set_high_watermark` has raised the watermark above half the capacity, which its asserts allow. -/
theorem C95_false_raised : ∃ (x : VBuf Nat) (L : List (Nat × Bool)) (v : VObj), Reach Legal 1 2 0 x L ∧ v ∈ liveViews x ∧
    ((L.drop v.head).take (v.tail - v.head)).map Prod.fst = [1, 2, 3] ∧ (window x.b v).gets.map (·.map Wrapped.record) = .ok [5, 6, 3] := by
  have h : viewsAfter 1 2 0 (.setHigh 3 :: overwrite) = some [(.ok [5, 6, 3], .ok [5, 6, 3], [1, 2, 3])] := by decide
  obtain ⟨x, L, v, h1, h2, h3, _, h5⟩ := of_viewsAfter h
  exact ⟨x, L, v, h1, h2, h5, h3⟩

/-- A view at the previous head that covers the whole ring, starting at slot 1. -/
def wholeRing : List (Op Nat) :=
  [.append 1 false, .append 2 false, .advance 1, .append 3 false, .advance 3, .append 4 false, .append 5 false, .viewAt 1]

/-- C95 fails for `copy_to_buffer`, with the default capacity: `get` reads the records 2 to 5, but the copy runs past the end of the ring,
because the wrapped start and end of the view are equal (BufferView.h 119-133). -/
theorem C95_false_copy : ∃ (x : VBuf Nat) (L : List (Nat × Bool)) (v : VObj), Reach Legal 1 2 0 x L ∧ v ∈ liveViews x ∧
    (window x.b v).gets.map (·.map Wrapped.record) = .ok [2, 3, 4, 5] ∧ (window x.b v).copyOut.map (·.map Wrapped.record) = .error .ub := by
  have h : viewsAfter 1 2 0 wholeRing = some [(.ok [2, 3, 4, 5], .error .ub, [2, 3, 4, 5])] := by decide
  obtain ⟨x, L, v, h1, h2, h3, h4, _⟩ := of_viewsAfter h
  exact ⟨x, L, v, h1, h2, h3, h4⟩

/-- Views created, moved, used and destroyed out of order, with a refused advance: the moved view still reads what it read before. -/
example : viewsAfter 1 2 0
    [.append 1 false, .append 2 true, .view, .view, .advance 1, .move 1, .append 3 false, .destroy 0, .advance 2, .destroy 1, .tag 2 1] =
    some [(.ok [1, 2], .ok [1, 2], [1, 2])] := by decide

end DE
