import Verif.Proofs.BufferApi

/-!
C84: the mutable buffer used on its own: `append`, `advance_head`, `truncate`, `check_tombstone` and the counters.
-/

namespace DE
variable {R F : Type}

/-- Operations on a buffer: append, advance the head by `n`, truncate. -/
inductive FOp (R : Type) where
  | app (r : R) (ts : Bool)
  | adv (n : Nat)
  | trunc

/-- Run them on the model; returns the results of the appends. -/
def runF (B : BFilter R F) (x : FBuf R F) : List (FOp R) → Res (FBuf R F × List Bool)
  | [] => .ok (x, [])
  | .app r ts :: os => do
    let p ← runF B (x.append B r ts).1 os
    .ok (p.1, (x.append B r ts).2 :: p.2)
  | .adv n :: os => do
    let y ← x.advance n
    runF B y os
  | .trunc :: os => runF B (x.truncate B) os

/-- Specification state: the queue, and the number of tombstones accepted since the last truncation. -/
structure QState (R : Type) where
  q : List (R × Bool)
  ts : Nat

/-- Specification: a bounded queue. -/
def apiSpec (hwm : Nat) (s : QState R) : List (FOp R) → QState R × List Bool
  | [] => (s, [])
  | .app r ts :: os =>
    let ok := decide (s.q.length < hwm)
    let p := apiSpec hwm (if ok then ⟨s.q ++ [(r, ts)], s.ts + (if ts then 1 else 0)⟩ else s) os
    (p.1, ok :: p.2)
  | .adv n :: os => apiSpec hwm ⟨s.q.drop n, s.ts⟩ os
  | .trunc :: os => apiSpec hwm ⟨[], 0⟩ os

/-- No truncation after a head advance. -/
def TruncFirst : List (FOp R) → Prop
  | [] => True
  | .adv _ :: os => .trunc ∉ os ∧ TruncFirst os
  | _ :: os => TruncFirst os

/-- The model follows the specification. -/
theorem runF_spec {B : BFilter R F} : ∀ (ops : List (FOp R)) {x x' : FBuf R F} {s : QState R} {acks : List Bool} (n : Nat),
    FInv B x s.q → x.b.tscnt = s.ts → x.b.tail ≤ n → n + ops.length < 2 ^ 64 → (.trunc ∈ ops → x.b.head = 0) → TruncFirst ops →
    runF B x ops = .ok (x', acks) →
    FInv B x' (apiSpec x.b.hwm s ops).1.q ∧ x'.b.tscnt = (apiSpec x.b.hwm s ops).1.ts ∧ acks = (apiSpec x.b.hwm s ops).2 ∧
      x'.b.tail < 2 ^ 64 ∧ x'.b.hwm = x.b.hwm ∧ x'.b.lwm = x.b.lwm
  | [], x, x', s, acks, n, h, ht, hn, hlen, _, _, hr => by
    cases hr
    simp at hlen
    exact ⟨h, ht, rfl, by omega, rfl, rfl⟩
  | .app r ts :: os, x, x', s, acks, n, h, ht, hn, hlen, h0, htf, hr => by
    rw [runF, bind_ok] at hr
    obtain ⟨p, hr, e⟩ := hr
    cases e
    simp only [List.length_cons] at hlen
    obtain ⟨g1, g2, g3, g4, g5, g6, g7⟩ := h.app (by omega) r ts
    have := runF_spec os (n + 1) (s := if decide (s.q.length < x.b.hwm) then ⟨s.q ++ [(r, ts)], s.ts + (if ts then 1 else 0)⟩ else s)
      (x := (x.append B r ts).1) (x' := p.1) (acks := p.2) ?_ ?_ (by omega) (by omega) (fun hm => g4.trans (h0 (by simp [hm]))) htf hr
    · rw [g3] at this
      obtain ⟨k1, k2, k3, k4, k5, k6⟩ := this
      rw [apiSpec]
      exact ⟨k1, k2, by rw [g2, ← k3], k4, k5, k6.trans g7⟩
    · by_cases hq : s.q.length < x.b.hwm
      · simp only [hq, decide_true, if_true] at g1 ⊢; exact g1
      · simp only [hq, decide_false, if_false, Bool.false_eq_true] at g1 ⊢; exact g1
    · rw [g6, ht]
      by_cases hq : s.q.length < x.b.hwm
      · simp [hq]
      · simp [hq]
  | .adv m :: os, x, x', s, acks, n, h, ht, hn, hlen, h0, htf, hr => by
    rw [runF, bind_ok] at hr
    obtain ⟨y, hy, hr⟩ := hr
    simp only [List.length_cons] at hlen
    obtain ⟨g1, g2, g3, g4, -, -, -, g8⟩ := h.adv hy
    have := runF_spec os (n + 1) (s := ⟨s.q.drop m, s.ts⟩) g1 (g4.trans ht) (by omega) (by omega)
      (fun hm => absurd hm htf.1) htf.2 hr
    rw [g2, g8] at this
    rw [apiSpec]
    exact this
  | .trunc :: os, x, x', s, acks, n, h, ht, hn, hlen, h0, htf, hr => by
    rw [runF] at hr
    simp only [List.length_cons] at hlen
    have hh := h0 (by simp)
    exact runF_spec os (n + 1) (x := x.truncate B) (s := ⟨[], 0⟩) (h.trunc hh) rfl (by simp [FBuf.truncate]) (by omega) (fun _ => hh) htf hr

/-- C84, the part that holds: after any history of appends, head advances and truncations in which no truncation follows
a head advance, the buffer is the bounded queue of the specification. Appends were accepted exactly when the queue was
shorter than the high watermark, the counters are those of the queue, and `check_tombstone(r)` is true exactly if the
queue holds a tombstone of `r`, whatever the filter's false positives. -/
theorem C84_buffer_partial [DecidableEq R] [Inhabited R] {B : BFilter R F} (hB : B.NoFalseNeg) {lwm hwm : Nat} {x0 x : FBuf R F}
    {ops : List (FOp R)} {acks : List Bool} (hnew : FBuf.new B lwm hwm = .ok x0) (hcap : 2 * hwm < 2 ^ 64)
    (hlen : ops.length < 2 ^ 31) (htf : TruncFirst ops) (hrun : runF B x0 ops = .ok (x, acks)) :
    let s := (apiSpec hwm ⟨[], 0⟩ ops).1
    acks = (apiSpec hwm ⟨[], 0⟩ ops).2 ∧ x.count = s.q.length ∧ x.isFull = decide (hwm ≤ s.q.length) ∧
      x.b.atLwm = decide (lwm ≤ s.q.length) ∧
      x.available = 2 * hwm - s.q.length ∧ x.b.tscnt = s.ts ∧ (∀ r, x.checkTombstone B r = .ok (decide ((r, true) ∈ s.q))) ∧
      ∃ l, x.b.view.gets = .ok l ∧ l.map (fun w => (w.record, w.isTombstone)) = s.q := by
  intro s
  unfold FBuf.new Buffer.new at hnew
  simp only [bind_ok, assertC_ok, decide_eq_true_eq] at hnew
  obtain ⟨b, ⟨-, h1, -, h2, h3⟩, h4⟩ := hnew
  cases h3; cases h4
  have hi : FInv B (FBuf.mk (R := R) (F := F) ⟨lwm, hwm, 2 * hwm, 0, 0, fun _ => default, 0⟩ B.empty) [] :=
    ⟨⟨rfl, by simp only; omega, h2, le_refl _, by simp, by simp [Buffer.contents]⟩, rfl, [], rfl, by simp⟩
  obtain ⟨k1, k2, k3, k4, k5, k6⟩ := runF_spec ops 0 (s := ⟨[], 0⟩) hi rfl (le_refl _) (by omega) (fun _ => rfl) htf hrun
  simp only at k1 k2 k3 k5 k6
  have hl : s.q.length = x.b.tail - x.b.head := k1.len
  have hcnt : x.count = s.q.length := by
    unfold FBuf.count
    rw [sub64_eq k1.wf.ht k4, hl]
  refine ⟨k3, hcnt, ?_, ?_, ?_, k2, fun r => k1.check hB k4 r, x.b.contents, Buffer.view_gets k1.wf, k1.que⟩
  · unfold FBuf.isFull; rw [hcnt, k5]
  · unfold Buffer.atLwm Buffer.count; rw [hl, k6]
  · unfold FBuf.available
    have hc : x.b.cap = 2 * hwm := by rw [k1.wf.cap, k5]
    have h5 := k1.wf.cnt
    rw [sub64_eq k1.wf.ht k4, hl, hc, sub64_eq (by omega) hcap]

/-- A filter that answers "maybe" for everything with the same parity as an inserted number. -/
def parity : BFilter Nat (Bool × Bool) :=
  { empty := (false, false)
    insert := fun f r => if r % 2 = 0 then (true, f.2) else (f.1, true)
    lookup := fun f r => if r % 2 = 0 then f.1 else f.2 }

theorem parity_ok : parity.NoFalseNeg := by
  have key : ∀ (l : List Nat) (f : Bool × Bool) (r : Nat), r ∈ l ∨ parity.lookup f r = true →
      parity.lookup (l.foldl parity.insert f) r = true := by
    intro l
    induction l with
    | nil => intro f r h; simpa using h
    | cons a l ih =>
      intro f r h
      rw [List.foldl_cons]
      apply ih
      rcases h with h | h
      · rcases List.mem_cons.mp h with rfl | h
        · right
          unfold parity
          by_cases hr : r % 2 = 0 <;> simp [hr]
        · exact Or.inl h
      · right
        unfold parity at h ⊢
        by_cases hr : r % 2 = 0 <;> by_cases ha : a % 2 = 0 <;> simp_all
  exact fun l r h => key l _ r (Or.inl h)

/-- Non-vacuous: with a filter that has false positives; a refused append, a truncation, consumed tombstones. -/
example : (do
    let x ← FBuf.new parity 2 3
    let p ← runF parity x [.app 1 true, .app 3 false, .trunc, .app 4 true, .app 6 false, .app 8 true, .app 2 true, .adv 1, .app 10 false]
    .ok (p.2, p.1.count, p.1.isFull, p.1.available, p.1.b.tscnt,
      [← p.1.checkTombstone parity 4, ← p.1.checkTombstone parity 8, ← p.1.checkTombstone parity 6, ← p.1.checkTombstone parity 1])) =
    (.ok ([true, true, true, true, true, false, true], 3, true, 3, 2, [false, true, false, false]) : Res _) := by decide

/-- C84, how it fails: if the head was ever advanced, truncating leaves a buffer that reports `2^64 - head` records,
claims to be full and refuses every append from then on; and the head can never be advanced again. -/
theorem C84_truncate_stuck [Inhabited R] {B : BFilter R F} {lwm hwm : Nat} {x0 x : FBuf R F}
    {ops : List (FOp R)} {acks : List Bool} (hnew : FBuf.new B lwm hwm = .ok x0) (hcap : hwm ≤ 2 ^ 63)
    (hlen : ops.length < 2 ^ 31) (htf : .trunc ∉ ops) (hrun : runF B x0 ops = .ok (x, acks)) {n : Nat}
    (hadv : .adv n ∈ ops) (later : List (R × Bool)) :
    ∃ y, runF B x (.trunc :: later.map (fun p => FOp.app p.1 p.2)) = .ok (y, later.map (fun _ => false)) ∧
      y.isFull = true ∧ y.count = 2 ^ 64 - x.b.head ∧ 0 < x.b.head ∧ ∀ m, y.advance m = .error .abort := by
  unfold FBuf.new Buffer.new at hnew
  simp only [bind_ok, assertC_ok, decide_eq_true_eq] at hnew
  obtain ⟨b, ⟨-, h1, -, h2, h3⟩, h4⟩ := hnew
  cases h3; cases h4
  have hi : FInv B (FBuf.mk (R := R) (F := F) ⟨lwm, hwm, 2 * hwm, 0, 0, fun _ => default, 0⟩ B.empty) [] :=
    ⟨⟨rfl, by simp only; omega, h2, le_refl _, by simp, by simp [Buffer.contents]⟩, rfl, [], rfl, by simp⟩
  -- the head is positive and bounded by the number of operations
  have key : ∀ (os : List (FOp R)) {x x' : FBuf R F} {q : List (R × Bool)} {acks : List Bool}, FInv B x q →
      x.b.tail + os.length < 2 ^ 32 → .trunc ∉ os → runF B x os = .ok (x', acks) →
      x'.b.hwm = x.b.hwm ∧ x'.b.head ≤ x'.b.tail ∧ x'.b.tail ≤ x.b.tail + os.length ∧
      ((∃ n, .adv n ∈ os) ∨ 0 < x.b.head → 0 < x'.b.head) := by
    intro os
    induction os with
    | nil =>
      intro x x' q acks h hl _ hr
      cases hr
      refine ⟨rfl, h.wf.ht, by simp, ?_⟩
      rintro (⟨n, hn⟩ | h)
      · simp at hn
      · exact h
    | cons o os ih =>
      intro x x' q acks h hl hnt hr
      have hnt' : .trunc ∉ os := fun h => hnt (by simp [h])
      simp only [List.length_cons] at hl ⊢
      cases o with
      | app r ts =>
        rw [runF, bind_ok] at hr
        obtain ⟨p, hr, e⟩ := hr
        cases e
        obtain ⟨g1, -, g3, g4, g5, -⟩ := h.app (by omega) r ts
        obtain ⟨k1, k2, k3, k4⟩ := ih (acks := p.2) g1 (by omega) hnt' hr
        refine ⟨k1.trans g3, k2, by omega, ?_⟩
        rintro (⟨n, hn⟩ | h)
        · exact k4 (Or.inl ⟨n, by simpa using hn⟩)
        · exact k4 (Or.inr (by rw [g4]; exact h))
      | adv m =>
        rw [runF, bind_ok] at hr
        obtain ⟨y, hy, hr⟩ := hr
        obtain ⟨g1, g2, g3, -, g5, -, g7, -⟩ := h.adv hy
        obtain ⟨k1, k2, k3, k4⟩ := ih g1 (by omega) hnt' hr
        refine ⟨k1.trans g2, k2, by omega, fun _ => k4 (Or.inr (by omega))⟩
      | trunc => exact absurd List.mem_cons_self hnt
  obtain ⟨k1, k2, k3, k4⟩ := key ops hi (by simp only; omega) htf hrun
  simp only at k1 k3 k4
  have hpos := k4 (Or.inl ⟨n, hadv⟩)
  let y := x.truncate B
  have hc : sub64 y.b.tail y.b.head = 2 ^ 64 - x.b.head := by
    show sub64 0 x.b.head = _
    exact sub64_wrap hpos (by omega)
  have hful : y.b.hwm ≤ sub64 y.b.tail y.b.head := by
    rw [hc]
    show x.b.hwm ≤ _
    omega
  have happ : ∀ r ts, y.append B r ts = (y, false) := by
    intro r ts
    unfold FBuf.append
    rw [if_pos hful]
  have hrun' : ∀ later : List (R × Bool), runF B y (later.map (fun p => FOp.app p.1 p.2)) = .ok (y, later.map (fun _ => false)) := by
    intro later
    induction later with
    | nil => rfl
    | cons p later ih =>
      rw [List.map_cons, runF, happ, ih]; rfl
  refine ⟨y, ?_, ?_, hc, hpos, ?_⟩
  · rw [runF]; exact hrun' later
  · unfold FBuf.isFull FBuf.count; simpa using hful
  · intro m
    unfold FBuf.advance Buffer.advanceHead assertC
    have ht : y.b.tail = 0 := rfl
    have hh : y.b.head = x.b.head := rfl
    by_cases hm : 0 < m
    · have hx : ¬ x.b.head = 0 := by omega
      simp [ht, hh, hm, hx]; rfl
    · simp [ht, hh, hm]; rfl

/-- C84 is false: two appends, the head advanced over one of them, a truncation, and the next append is refused by a
buffer that reports 2^64 - 1 records. -/
theorem C84_false : ∃ (x0 x : FBuf Nat (Bool × Bool)), FBuf.new parity 2 3 = .ok x0 ∧
    runF parity x0 [.app 1 false, .app 2 false, .adv 1, .trunc, .app 3 false] = .ok (x, [true, true, false]) ∧
    x.count = 2 ^ 64 - 1 ∧ x.isFull = true := by
  have h : (do
      let x ← FBuf.new parity 2 3
      let p ← runF parity x [.app 1 false, .app 2 false, .adv 1, .trunc, .app 3 false]
      .ok (p.2, p.1.count, p.1.isFull)) = (.ok ([true, true, false], 2 ^ 64 - 1, true) : Res _) := by decide
  obtain ⟨x0, h1, h2⟩ := bind_ok.mp h
  obtain ⟨p, h3, h4⟩ := bind_ok.mp h2
  have h4 := Except.ok.inj h4
  have a := congrArg Prod.fst h4
  have b := congrArg (fun t => t.2.1) h4
  have c := congrArg (fun t => t.2.2) h4
  simp only at a b c
  exact ⟨x0, p.1, h1, by rw [h3, ← a], b, c⟩

end DE
