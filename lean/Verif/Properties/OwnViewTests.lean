import Verif.Model.OwnViewTests
import Verif.Properties.Views
import Verif.Properties.BufferApi
/-!
C129: the project's own sequential tests of the buffer and its views (tests/mutable_buffer_tests.cpp: `t_insert`, `t_truncate`,
`t_advance_head`, `t_bview_get`), for any watermarks and records.
-/
namespace DE
open VBuf Own
variable {R : Type} [DecidableEq R] [Inhabited R]

omit [Inhabited R] in
theorem fillLow_ok : ∀ (xs : List R) {x : VBuf R} {L : List (R × Bool)} {nh : Nat}, Inv x L → x.b.head = 0 →
    x.b.tail + xs.length ≤ x.b.hwm → (nh = 0 ∧ x.b.tail < x.b.lwm) ∨ (0 < nh ∧ nh = x.b.lwm ∧ x.b.lwm ≤ x.b.tail) →
    ∃ b nh', fillLow x nh xs = ({ x with b := b }, List.replicate xs.length true, nh') ∧ Inv { x with b := b } (L ++ xs.map (·, false)) ∧
      b.head = 0 ∧ b.tail = x.b.tail + xs.length ∧ b.hwm = x.b.hwm ∧ b.cap = x.b.cap ∧
      ((nh' = 0 ∧ b.tail < x.b.lwm) ∨ (0 < nh' ∧ nh' = x.b.lwm ∧ x.b.lwm ≤ b.tail))
  | [], x, L, nh, hi, h0, hl, hn => ⟨x.b, nh, rfl, by simpa using hi, h0, rfl, rfl, rfl, hn⟩
  | r :: rs, x, L, nh, hi, h0, hl, hn => by
    simp only [List.length_cons] at hl
    obtain ⟨a1, a2, a3, a4, a5, a6, a7⟩ := append_inv hi r false
    have hlw : (x.b.append r false).1.lwm = x.b.lwm := by
      unfold Buffer.append
      split <;> rfl
    rw [decide_eq_true (by omega)] at a2
    have ht : (x.b.append r false).1.tail = x.b.tail + 1 := by
      unfold Buffer.append
      rw [if_neg (by omega)]
    simp only [a2, logOf] at a1
    obtain ⟨b, nh', e1, e2, e3, e4, e5, e6, e7⟩ := fillLow_ok rs (x := { x with b := (x.b.append r false).1 })
      (nh := if (x.b.append r false).1.tail - (x.b.append r false).1.head ≥ (x.b.append r false).1.lwm ∧ nh = 0
        then (x.b.append r false).1.tail else nh) a1 (by simpa [a3] using h0) (by simp only [ht, a6]; omega)
        (by
          simp only [ht, a3, h0, hlw]
          split <;> omega)
    refine ⟨b, nh', ?_, by simpa using e2, e3, by simp only [e4, ht, List.length_cons]; omega, by simpa [a6] using e5, by simpa [a5] using e6,
      by simpa [hlw] using e7⟩
    simp only [fillLow, a2, e1, List.length_cons, List.replicate_succ]

/-- The state after the first loop of the tests. -/
theorem filled {lwm hwm : Nat} (h0 : 0 < lwm) (xs : List R) (h1 : lwm ≤ xs.length) (h2 : xs.length ≤ hwm) :
    ∃ (b b0 : Buffer R), VBuf.new lwm hwm 0 = .ok (⟨b0, 0, hwm, 0, []⟩ : VBuf R) ∧
      fillLow ⟨b0, 0, hwm, 0, []⟩ 0 xs = (⟨b, 0, hwm, 0, []⟩, List.replicate xs.length true, lwm) ∧
      Inv ⟨b, 0, hwm, 0, []⟩ (xs.map (·, false)) ∧ b.head = 0 ∧ b.tail = xs.length ∧ b.hwm = hwm ∧ b.cap = 2 * hwm := by
  have hn : VBuf.new lwm hwm 0 = .ok (⟨{ lwm := lwm, hwm := hwm, cap := 2 * hwm, tail := 0, head := 0, data := fun _ => default, tscnt := 0 },
      0, hwm, 0, []⟩ : VBuf R) := by
    simp [VBuf.new, assertC, show hwm < 2 * hwm by omega, show lwm ≤ hwm by omega, bind, Except.bind]
  obtain ⟨b, nh, e1, e2, e3, e4, e5, e6, e7⟩ := fillLow_ok xs (nh := 0) (Inv.init (by omega) hn) rfl (by simp; omega) (Or.inl ⟨rfl, h0⟩)
  simp only [Nat.zero_add] at e4
  have : nh = lwm := by
    rcases e7 with e | e
    · simp only at e; omega
    · exact e.2.1
  subst this
  exact ⟨b, _, hn, e1, by simpa using e2, e3, e4, e5, e6⟩

omit [Inhabited R] in
theorem script_cons {x y : VBuf R} {c : Cmd R} {cs : List (Cmd R)} {o : Obs R} {os : List (Obs R)} (h1 : line x c = .ok (some (y, o)))
    (h2 : script y cs = .ok (some os)) : script x (c :: cs) = .ok (some (o :: os)) := by
  simp only [script, h1, bind, Except.bind, h2]

omit [Inhabited R] in
theorem line_view {b : Buffer R} {hr oi orf : Nat} {objs : List (Option VObj)} (h : oi ≠ b.head) :
    line ⟨b, hr, oi, orf, objs⟩ (.op .view) = .ok (some (⟨b, hr + 1, oi, orf, objs ++ [some ⟨b.head, b.tail, true⟩]⟩, .flag true)) := by
  simp [line, VBuf.step, getView, getHead, h, bind, Except.bind]

omit [Inhabited R] in
theorem line_advance {b : Buffer R} {hr oi orf n : Nat} {objs : List (Option VObj)} (h1 : b.head < n) (h2 : n ≤ b.tail) :
    line ⟨b, hr, oi, orf, objs⟩ (.op (.advance n)) =
      if orf > 0 then .ok (some (⟨b, hr, oi, orf, objs⟩, .flag false))
      else .ok (some (⟨{ b with head := n }, 0, b.head, hr, objs⟩, .flag true)) := by
  by_cases h : 0 < orf <;>
    simp [line, VBuf.step, VBuf.advance, Buffer.advanceHead, assertC, h1, h2, bind, Except.bind, h]

omit [Inhabited R] in
theorem scan_copy {x : VBuf R} {L : List (R × Bool)} (hi : Inv x L) {i : Nat} {v : VObj} (hv : x.objs[i]? = some (some v)) (ha : v.active = true)
    (hc : x.b.tail < v.head + x.b.cap) {xs : List R} (hx : ((L.drop v.head).take (v.tail - v.head)).map Prod.fst = xs) :
    line x (.scan i) = .ok (some (x, .recs xs)) ∧ line x (.copy i) = .ok (some (x, .recs xs)) := by
  obtain ⟨l, hl, e⟩ := hi.reads (List.mem_of_getElem? hv) ha (by omega)
  obtain ⟨h1, h2, -⟩ := hi.live v (List.mem_of_getElem? hv) ha
  have hcap : (window x.b v).cap = x.b.cap := by simp [window, ha]
  have hcp : 0 < (window x.b v).cap := by rw [hcap]; have := hi.hwm; omega
  have hco := copyOut_eq (window x.b v) hcp h1 (by rw [hcap]; simp only [window]; omega)
  rw [← gets_eq (window x.b v) hcp (by rw [hcap]; simp only [window]; omega), hl] at hco
  have hr : l.map Wrapped.record = xs := by
    rw [← hx, ← e, List.map_map]; rfl
  simp only [line, obj_ok hv, hl, hco, bind, Except.bind, hr, and_self]

/-- C129: what `t_advance_head` asserts, for any watermarks and any records between two more than the low and the high watermark: a view
keeps its records while the head moves, the head cannot be advanced again before the view is gone, and the capacity is then free again. -/
theorem C129_advance {lwm hwm : Nat} (h0 : 0 < lwm) (xs : List R) (h1 : lwm + 2 ≤ xs.length) (h2 : xs.length ≤ hwm) :
    advanceHeadTest lwm hwm xs = .ok (some (List.replicate xs.length true,
      [.num (2 * hwm - xs.length), .flag true, .num xs.length, .recs xs, .flag true, .num (xs.length - lwm), .flag true,
       .num (xs.length - lwm), .flag true, .num xs.length, .num (2 * hwm - xs.length), .flag false, .flag true,
       .num (2 * hwm - (xs.length - lwm)), .flag true, .num 0])) := by
  obtain ⟨b, b0, e1, e2, hi, e3, e4, e5, e6⟩ := filled h0 xs (by omega) h2
  suffices key : script ⟨b, 0, hwm, 0, []⟩ [.avail, .op .view, .viewCount 0, .copy 0, .op (.advance lwm), .count, .op .view, .viewCount 1,
      .op (.destroy 1), .viewCount 0, .avail, .op (.advance (b.tail - 1)), .op (.destroy 0), .avail, .op (.advance b.tail), .count] =
      .ok (some [.num (2 * hwm - xs.length), .flag true, .num xs.length, .recs xs, .flag true, .num (xs.length - lwm), .flag true,
       .num (xs.length - lwm), .flag true, .num xs.length, .num (2 * hwm - xs.length), .flag false, .flag true,
       .num (2 * hwm - (xs.length - lwm)), .flag true, .num 0]) by
    unfold advanceHeadTest
    rw [e1]
    simp only [bind, Except.bind, e2, key]
  obtain ⟨y, hy, hyi, -⟩ := getView_ok hi (Or.inl rfl)
  have hyv : y = ⟨b, 1, hwm, 0, [some ⟨0, xs.length, true⟩]⟩ := by
    simp only [getView, getHead, e3, e4, show hwm ≠ 0 by omega, if_false, if_true, List.nil_append, Option.some.injEq] at hy
    exact hy.symm
  subst hyv
  refine script_cons (y := ⟨b, 0, hwm, 0, []⟩) (by simp [line, available, e3, e4, e6]) ?_
  refine script_cons (line_view (by omega)) ?_
  rw [e3, e4]
  refine script_cons (y := ⟨b, 1, hwm, 0, [some ⟨0, xs.length, true⟩]⟩) (by simp [line, obj, window, View.count, bind, Except.bind]) ?_
  refine script_cons (scan_copy hyi (v := ⟨0, xs.length, true⟩) rfl rfl (by simp only; omega) (by simp [Function.comp_def])).2 ?_
  refine script_cons ((line_advance (by omega) (by omega)).trans (if_neg (by omega))) ?_
  refine script_cons (y := ⟨{ b with head := lwm }, 0, b.head, 1, [some ⟨0, xs.length, true⟩]⟩) (by simp [line, e4]) ?_
  rw [e3]
  refine script_cons (line_view (by simp only; omega)) ?_
  refine script_cons (y := ⟨{ b with head := lwm }, 1, 0, 1, [some ⟨0, xs.length, true⟩, some ⟨lwm, xs.length, true⟩]⟩)
    (by simp [line, obj, window, View.count, bind, Except.bind, e4]) ?_
  refine script_cons (y := ⟨{ b with head := lwm }, 0, 0, 1, [some ⟨0, xs.length, true⟩, none]⟩)
    (by simp [line, VBuf.step, obj, bind, Except.bind, destroy, release, show (0:Nat) ≠ lwm by omega]) ?_
  refine script_cons (y := ⟨{ b with head := lwm }, 0, 0, 1, [some ⟨0, xs.length, true⟩, none]⟩)
    (by simp [line, obj, window, View.count, bind, Except.bind]) ?_
  refine script_cons (y := ⟨{ b with head := lwm }, 0, 0, 1, [some ⟨0, xs.length, true⟩, none]⟩)
    (by simp [line, available, e4, e6]) ?_
  refine script_cons ((line_advance (by simp only; omega) (by simp only; omega)).trans (if_pos (by omega))) ?_
  refine script_cons (y := ⟨{ b with head := lwm }, 0, 0, 0, [none, none]⟩)
    (by simp [line, VBuf.step, obj, bind, Except.bind, destroy, release]) ?_
  refine script_cons (y := ⟨{ b with head := lwm }, 0, 0, 0, [none, none]⟩) (by simp [line, available, e4, e6]) ?_
  refine script_cons ((line_advance (by simp only; omega) (by simp only; omega)).trans (if_neg (by omega))) ?_
  refine script_cons (y := _) (by simp [line, e4]; rfl) ?_
  rfl

omit [Inhabited R] in
theorem line_inv {x y : VBuf R} {L : List (R × Bool)} {o : Op R} {b : Bool} (hi : Inv x L) (hl : Legal x o)
    (h : line x (.op o) = .ok (some (y, .flag b))) : Inv y (logOf L o b) := by
  obtain ⟨y', b', e, hi'⟩ := hi.step hl
  simp only [line, e, bind, Except.bind, Except.ok.injEq, Option.some.injEq, Prod.mk.injEq, Obs.flag.injEq] at h
  obtain ⟨rfl, rfl⟩ := h
  exact hi'

omit [Inhabited R] in
/-- A loop of accepted appends, then the rest of the test. -/
theorem script_appends {cs : List (Cmd R)} {os : List (Obs R)} : ∀ (ys : List R) {x : VBuf R} {L : List (R × Bool)}, Inv x L →
    x.b.tail - x.b.head + ys.length ≤ x.b.hwm →
    (∀ b : Buffer R, Inv { x with b := b } (L ++ ys.map (·, false)) → b.head = x.b.head → b.tail = x.b.tail + ys.length → b.cap = x.b.cap →
      script { x with b := b } cs = .ok (some os)) →
    script x (ys.map (fun r => .op (.append r false)) ++ cs) = .ok (some (List.replicate ys.length (.flag true) ++ os))
  | [], x, L, hi, _, h => by simpa using h x.b (by simpa using hi) rfl rfl rfl
  | r :: rs, x, L, hi, hl, h => by
    simp only [List.length_cons] at hl
    obtain ⟨a1, a2, a3, a4, a5, a6, a7⟩ := append_inv hi r false
    rw [decide_eq_true (by omega)] at a2
    have ht : (x.b.append r false).1.tail = x.b.tail + 1 := by
      unfold Buffer.append
      rw [if_neg (by omega)]
    simp only [a2, logOf] at a1
    have hht := hi.ht
    refine script_cons (y := { x with b := (x.b.append r false).1 }) (o := .flag true) (by simp [line, VBuf.step, a2, bind, Except.bind]) ?_
    refine script_appends rs a1 (by simp only [ht, a3, a6]; omega) (fun b hb e1 e2 e3 => ?_)
    refine h b (by simpa using hb) (e1.trans a3) ?_ (e3.trans a5)
    simp only [e2, ht, List.length_cons]
    omega

/-- C129: what `t_bview_get` asserts, for any watermarks and records: a view reads the same records before and after the head moves, a new
view reads the records behind the new head, also together with those appended later. -/
theorem C129_get {lwm hwm : Nat} (h0 : 0 < lwm) (xs ys : List R) (h1 : lwm ≤ xs.length) (h2 : xs.length ≤ hwm)
    (h3 : xs.length - lwm + ys.length ≤ hwm) :
    bviewGetTest lwm hwm xs ys = .ok (some (List.replicate xs.length true,
      [.num (2 * hwm - xs.length), .flag true, .recs xs, .flag true, .recs xs, .flag true, .flag true, .recs (xs.drop lwm), .flag true] ++
      List.replicate ys.length (.flag true) ++ [.flag true, .recs (xs.drop lwm ++ ys), .flag true])) := by
  obtain ⟨b, b0, e1, e2, hi, e3, e4, e5, e6⟩ := filled h0 xs (by omega) h2
  suffices key : script ⟨b, 0, hwm, 0, []⟩ ([.avail, .op .view, .scan 0, .op (.advance lwm), .scan 0, .op (.destroy 0), .op .view, .scan 1,
      .op (.destroy 1)] ++ ys.map (fun r => .op (.append r false)) ++ [.op .view, .scan 2, .op (.destroy 2)]) =
      .ok (some ([.num (2 * hwm - xs.length), .flag true, .recs xs, .flag true, .recs xs, .flag true, .flag true, .recs (xs.drop lwm),
        .flag true] ++ List.replicate ys.length (.flag true) ++ [.flag true, .recs (xs.drop lwm ++ ys), .flag true])) by
    unfold bviewGetTest
    rw [e1]
    simp only [bind, Except.bind, e2, key]
  simp only [List.cons_append, List.nil_append]
  have hl1 := line_view (b := b) (hr := 0) (oi := hwm) (orf := 0) (objs := []) (by omega)
  have i1 := line_inv hi (by trivial) hl1
  refine script_cons (y := ⟨b, 0, hwm, 0, []⟩) (by simp [line, available, e3, e4, e6]) ?_
  refine script_cons hl1 ?_
  rw [e3, e4] at i1 ⊢
  refine script_cons (scan_copy i1 (v := ⟨0, xs.length, true⟩) rfl rfl (by simp only; omega) (by simp [logOf, Function.comp_def])).1 ?_
  have hl2 := (line_advance (b := b) (hr := 1) (oi := hwm) (orf := 0) (n := lwm) (objs := [some ⟨0, xs.length, true⟩]) (by omega)
    (by omega)).trans (if_neg (by omega))
  have i2 := line_inv i1 (o := .advance lwm) ⟨by simp only; omega, by simp only; omega⟩ hl2
  refine script_cons hl2 ?_
  refine script_cons (scan_copy i2 (v := ⟨0, xs.length, true⟩) rfl rfl (by simp only; omega) (by simp [logOf, Function.comp_def])).1 ?_
  have hl3 : line ⟨{ b with head := lwm }, 0, b.head, 1, [some ⟨0, xs.length, true⟩]⟩ (.op (.destroy 0)) =
      .ok (some (⟨{ b with head := lwm }, 0, b.head, 0, [none]⟩, .flag true)) := by
    simp [line, VBuf.step, obj, bind, Except.bind, destroy, release, e3]
  have i3 := line_inv i2 (o := .destroy 0) ⟨_, rfl⟩ hl3
  refine script_cons hl3 ?_
  have hl4 := line_view (b := { b with head := lwm }) (hr := 0) (oi := b.head) (orf := 0) (objs := [none]) (by simp only; omega)
  have i4 := line_inv i3 (by trivial) hl4
  refine script_cons hl4 ?_
  refine script_cons (scan_copy i4 (v := ⟨lwm, b.tail, true⟩) rfl rfl (by simp only; omega)
    (by simp [logOf, Function.comp_def, e4, ← List.map_drop])).1 ?_
  have hl5 : line ⟨{ b with head := lwm }, 1, b.head, 0, [none, some ⟨lwm, b.tail, true⟩]⟩ (.op (.destroy 1)) =
      .ok (some (⟨{ b with head := lwm }, 0, b.head, 0, [none, none]⟩, .flag true)) := by
    simp [line, VBuf.step, obj, bind, Except.bind, destroy, release, e3, show (0:Nat) ≠ lwm by omega]
  have i5 := line_inv i4 (o := .destroy 1) ⟨_, rfl⟩ hl5
  refine script_cons hl5 ?_
  refine script_appends ys i5 (by simp only; omega) (fun c i6 f1 f2 f3 => ?_)
  simp only at f1 f2 f3
  have hl6 := line_view (b := c) (hr := 0) (oi := b.head) (orf := 0) (objs := [none, none]) (by omega)
  have i7 := line_inv i6 (by trivial) hl6
  refine script_cons hl6 ?_
  refine script_cons (scan_copy i7 (v := ⟨c.head, c.tail, true⟩) rfl rfl (by simp only; omega) ?_).1 ?_
  · simp only [logOf, f1, f2, e4]
    rw [List.drop_append_of_le_length (by simpa using h1), List.take_of_length_le (by simp; omega)]
    simp [Function.comp_def, ← List.map_drop]
  refine script_cons (y := ⟨c, 0, b.head, 0, [none, none, none]⟩) ?_ rfl
  simp [line, VBuf.step, obj, bind, Except.bind, destroy, release, e3, f1, show (0:Nat) ≠ lwm by omega]

/-- The test of the project with small numbers, including an append loop that wraps around the end of the ring. -/
example : bviewGetTest 2 3 [1, 2, 3] [4, 5] = .ok (some ([true, true, true],
    [.num 3, .flag true, .recs [1, 2, 3], .flag true, .recs [1, 2, 3], .flag true, .flag true, .recs [3], .flag true, .flag true, .flag true,
     .flag true, .recs [3, 4, 5], .flag true])) := C129_get (by decide) _ _ (by decide) (by decide) (by decide)

example : (advanceHeadTest 1 3 [7, 8, 9]).toOption.map (·.isSome) = some true := by
  rw [C129_advance (by decide) _ (by decide) (by decide)]; rfl

/-- The bound of `C129_advance` is needed: with one record more than the low watermark the second `advance_head` of the test is called with the
present head and fails its assert (MutableBuffer.h 146). -/
example : advanceHeadTest 1 3 [7, 8] = .error .abort := by rfl

/-- What the loops must observe: round `i` of the records `ps`. -/
def wantedRounds (lwm : Nat) (ps : List (R × Bool)) : List Round :=
  ps.mapIdx (fun i p => ⟨decide (lwm ≤ i), false, true, p.2, i + 1, i + 1, (ps.take (i + 1)).countP Prod.snd⟩)

omit [Inhabited R] in
theorem rounds_ok {F : Type} {B : BFilter R F} (hB : B.NoFalseNeg) : ∀ (ps P : List (R × Bool)) {x : FBuf R F}, FInv B x P → x.b.head = 0 →
    x.b.tscnt = P.countP Prod.snd → P.length + ps.length ≤ x.b.hwm → x.b.hwm < 2 ^ 63 → ((P ++ ps).map Prod.fst).Nodup →
    ∃ y, rounds B x ps = .ok (y, ps.mapIdx (fun i p => ⟨decide (x.b.lwm ≤ P.length + i), false, true, p.2, P.length + i + 1, P.length + i + 1,
        (P ++ ps.take (i + 1)).countP Prod.snd⟩)) ∧ FInv B y (P ++ ps) ∧ y.b.head = 0 ∧ y.b.hwm = x.b.hwm
  | [], P, x, h, h0, _, _, _, _ => ⟨x, rfl, by simpa using h, h0, rfl⟩
  | (r, ts) :: ps, P, x, h, h0, ht, hl, hw, hn => by
    simp only [List.length_cons] at hl
    have hlen := h.len
    have htl : x.b.tail = P.length := by omega
    obtain ⟨g1, g2, g3, g4, g5, g6, g7⟩ := h.app (by omega) r ts
    have hq : P.length < x.b.hwm := by omega
    rw [if_pos hq] at g1
    simp only [hq, decide_true, Bool.and_true] at g2 g6
    have hlen' := g1.len
    simp only [List.length_append, List.length_cons, List.length_nil] at hlen'
    have htl' : (x.append B r ts).1.b.tail = P.length + 1 := by omega
    have hc : (x.append B r ts).1.checkTombstone B r = .ok ts := by
      rw [g1.check hB (by omega)]
      have hnot : (r, true) ∉ P := by
        intro hm
        rw [List.map_append, List.nodup_append] at hn
        exact hn.2.2 r (List.mem_map.mpr ⟨_, hm, rfl⟩) r (by simp) rfl
      cases ts <;> simp [hnot]
    obtain ⟨y, e1, e2, e3, e4⟩ := rounds_ok hB ps (P ++ [(r, ts)]) g1 (g4.trans h0)
      (by rw [g6, ht, List.countP_append]; cases ts <;> simp) (by simp only [List.length_append, List.length_cons, List.length_nil, g3]; omega)
      (by rw [g3]; exact hw) (by simpa using hn)
    refine ⟨y, ?_, by simpa using e2, e3, e4.trans g3⟩
    simp only [rounds, hc, bind, Except.bind, e1, List.mapIdx_cons, Except.ok.injEq, Prod.mk.injEq, true_and, List.cons.injEq]
    constructor
    · have hf : x.isFull = false := by
        unfold FBuf.isFull FBuf.count
        rw [sub64_eq (by omega) (by omega), h0, htl]
        simp; omega
      have hcn : (x.append B r ts).1.count = P.length + 1 := by
        unfold FBuf.count
        rw [sub64_eq (by omega) (by omega), g4, h0, htl']; rfl
      rw [hf, hcn, htl', g2, g6, ht]
      simp only [Buffer.atLwm, Buffer.count, htl, h0, Nat.sub_zero, Nat.add_zero, Nat.zero_add, List.take_succ_cons, List.take_zero, List.countP_append]
      cases ts <;> simp
    · apply List.ext_getElem
      · simp
      · intro k _ _
        simp only [List.getElem_mapIdx, g7, List.length_append, List.length_cons, List.length_nil, List.take_succ_cons, List.append_assoc,
          List.cons_append, List.nil_append]
        congr 1 <;> first | omega | (congr 1; simp only [eq_iff_iff]; omega) | rfl

/-- C129: what `t_insert` and `t_truncate` assert, for any watermarks, any distinct records (inserts or tombstones) and any filter without false
negatives: up to the high watermark every append is accepted and every counter is right after each; then the buffer is full and refuses;
after `truncate` it is empty and accepts again. -/
theorem C129_truncate {F : Type} {B : BFilter R F} (hB : B.NoFalseNeg) {lwm hwm : Nat} (h0 : 0 < hwm) (hlw : lwm ≤ hwm) (hw : hwm < 2 ^ 63)
    {ps : List (R × Bool)} (hl : ps.length = hwm) (hn : (ps.map Prod.fst).Nodup) (r : R) :
    truncateTest B lwm hwm ps r = .ok (wantedRounds lwm ps, ⟨true, true, false, 0, 0, true⟩) := by
  have hnew : FBuf.new B lwm hwm = .ok (⟨⟨lwm, hwm, 2 * hwm, 0, 0, fun _ => default, 0⟩, B.empty⟩ : FBuf R F) := by
    simp [FBuf.new, Buffer.new, assertC, show hwm < 2 * hwm by omega, hlw, bind, Except.bind]
  have hi : FInv B (FBuf.mk (R := R) (F := F) ⟨lwm, hwm, 2 * hwm, 0, 0, fun _ => default, 0⟩ B.empty) [] :=
    ⟨⟨rfl, h0, hlw, le_refl _, by simp, by simp [Buffer.contents]⟩, rfl, [], rfl, by simp⟩
  obtain ⟨y, e1, e2, e3, e4⟩ := rounds_ok hB ps [] hi rfl (by simp) (by simp [hl]) hw (by simpa using hn)
  simp only [List.nil_append] at e1 e2 e4
  have hlen := e2.len
  obtain ⟨g1, g2, g3, g4, g5, g6, g7⟩ := e2.app (by omega) r false
  rw [e4, decide_eq_false (by omega)] at g2
  rw [e4] at g3
  have ht := g1.trunc (g4.trans e3)
  obtain ⟨-, k2, -⟩ := ht.app (by simp [FBuf.truncate]) r false
  have hh : ((y.append B r false).1.truncate B).b.hwm = hwm := g3
  have hhd : ((y.append B r false).1.truncate B).b.head = 0 := g4.trans e3
  have hcz : ((y.append B r false).1.truncate B).count = 0 := by
    unfold FBuf.count
    rw [hhd, show ((y.append B r false).1.truncate B).b.tail = 0 from rfl, sub64_eq (le_refl _) (by omega)]
  have hfz : ((y.append B r false).1.truncate B).isFull = false := by
    unfold FBuf.isFull
    rw [hcz, hh]; simp; omega
  have hf : y.isFull = true := by
    unfold FBuf.isFull FBuf.count
    rw [sub64_eq (by omega) (by omega), ← hlen, e4, hl]; simp
  unfold truncateTest
  rw [hnew]
  simp only [bind, Except.bind, e1, hf, g2, hfz, hcz, k2, hh, List.length_nil, h0, decide_true, Bool.not_false]
  simp only [wantedRounds, Nat.zero_add]
  rfl

/-- Inserts and tombstones with a filter that has false positives. -/
example : truncateTest parity 2 3 [(4, true), (6, false), (8, true)] 6 = .ok
    ([⟨false, false, true, true, 1, 1, 1⟩, ⟨false, false, true, false, 2, 2, 1⟩, ⟨true, false, true, true, 3, 3, 2⟩], ⟨true, true, false, 0, 0, true⟩) :=
  C129_truncate (lwm := 2) (hwm := 3) (ps := [(4, true), (6, false), (8, true)]) parity_ok (by decide) (by decide) (by decide) rfl (by decide) 6

end DE
