import Verif.Model.Util
import Verif.Proofs.Closure
import Verif.Proofs.Learned
import Mathlib.Data.List.Perm.Basic
import Mathlib.Order.Defs.LinearOrder

/-!
Lemmas about task lists and cursors.
-/

namespace DE
namespace TaskVec

/-- The records of a list of tasks. -/
def sum (l : List Task) : Nat := (l.map (·.reccnt)).sum

theorem sum_split (l r : List Task) (t : Task) : sum (l ++ t :: r) = sum (l ++ r) + t.reccnt := by
  simp [sum]; omega

theorem smallestLoop_spec : ∀ (post pre mid : List Task) (t : Task), (∀ x ∈ pre, t.reccnt < x.reccnt) → (∀ x ∈ mid, t.reccnt ≤ x.reccnt) →
    ∃ l x r, pre ++ t :: mid ++ post = l ++ x :: r ∧ smallestLoop post (pre.length + 1 + mid.length) t.reccnt pre.length = l.length ∧
      (∀ y ∈ l, x.reccnt < y.reccnt) ∧ (∀ y ∈ r, x.reccnt ≤ y.reccnt)
  | [], pre, mid, t, h1, h2 => ⟨pre, t, mid, by simp, rfl, h1, h2⟩
  | p :: post, pre, mid, t, h1, h2 => by
    rw [smallestLoop]
    split
    next h =>
      obtain ⟨l, x, r, e1, e2, e3⟩ := smallestLoop_spec post (pre ++ t :: mid) [] p (by
        intro x hx
        rcases List.mem_append.mp hx with hx | hx
        · exact lt_trans h (h1 x hx)
        · rcases List.mem_cons.mp hx with rfl | hx
          · exact h
          · exact lt_of_lt_of_le h (h2 x hx)) (by simp)
      refine ⟨l, x, r, by rw [← e1]; simp, ?_, e3⟩
      rw [← e2]
      simp only [List.length_append, List.length_cons, List.length_nil]
      congr 1 <;> omega
    next h =>
      obtain ⟨l, x, r, e1, e2, e3⟩ := smallestLoop_spec post pre (mid ++ [p]) t h1 (by
        intro x hx
        rcases List.mem_append.mp hx with hx | hx
        · exact h2 x hx
        · rw [List.mem_singleton.mp hx]; omega)
      refine ⟨l, x, r, by rw [← e1]; simp, ?_, e3⟩
      rw [← e2]
      simp only [List.length_append, List.length_cons, List.length_nil]
      congr 1

theorem eraseIdx_mid {α : Type} (l r : List α) (x : α) : (l ++ x :: r).eraseIdx l.length = l ++ r := by
  rw [List.eraseIdx_append_of_length_le (le_refl _)]
  simp

theorem remove_eq {v : TaskVec} {l r : List Task} {t : Task} (h : v.tasks = l ++ t :: r) :
    v.remove l.length = .ok (t, ⟨l ++ r, v.total - BitVec.ofNat 64 t.reccnt⟩) := by
  unfold remove
  have h1 : (l ++ t :: r)[l.length]? = some t := by simp
  rw [h, getR, h1, eraseIdx_mid]
  simp only [assertC, List.length_append, List.length_cons]
  rw [if_pos (by simp)]
  rfl

theorem remove_none {v : TaskVec} {i : Nat} (h : v.tasks.length ≤ i) : v.remove i = .error .abort := by
  unfold remove assertC
  rw [if_neg (by simpa using h)]
  rfl

theorem removeSmallest_eq {v : TaskVec} (h : v.tasks ≠ []) : ∃ l t r, v.tasks = l ++ t :: r ∧ (∀ y ∈ l, t.reccnt < y.reccnt) ∧
    (∀ y ∈ r, t.reccnt ≤ y.reccnt) ∧ v.removeSmallest = .ok (t, ⟨l ++ r, v.total - BitVec.ofNat 64 t.reccnt⟩) := by
  obtain ⟨t0, ts, e⟩ : ∃ t0 ts, v.tasks = t0 :: ts := by
    cases hv : v.tasks with
    | nil => exact absurd hv h
    | cons a b => exact ⟨a, b, rfl⟩
  obtain ⟨l, t, r, e1, e2, e3, e4⟩ := smallestLoop_spec ts [] [] t0 (by simp) (by simp)
  simp only [List.nil_append, List.length_nil, Nat.zero_add, Nat.add_zero, List.cons_append] at e1 e2
  refine ⟨l, t, r, by rw [e, e1], e3, e4, ?_⟩
  unfold removeSmallest
  rw [e]
  show (getR (t0 :: ts) (smallestLoop ts 1 t0.reccnt 0) >>= _) = _
  rw [e2, e1]
  have h1 : getR (l ++ t :: r) l.length = .ok t := by simp [getR]
  rw [h1]
  show Except.ok _ = _
  rw [show (l ++ t :: r).tail = ts by rw [← e1]; rfl, e2, eraseIdx_mid]

end TaskVec

variable {R : Type}

/-- What a cursor has still to give. -/
def Cur.rest (c : Cur R) : List R := if c.null then [] else (c.arr.take c.stop).drop c.ptr

/-- A cursor as it is made: `end` is behind `rec_cnt` records, of which `cur_rec_idx` have been passed. -/
structure Cur.WF (c : Cur R) : Prop where
  stop : c.null = false → c.stop ≤ c.arr.length
  ptr : c.null = false → c.ptr ≤ c.stop
  cnt : c.null = false → c.cnt - c.idx = c.stop - c.ptr

theorem Cur.rest_cons {c : Cur R} (h : c.WF) (hn : c.null = false) (hp : c.ptr < c.stop) :
    ∃ r, c.arr[c.ptr]? = some r ∧ c.rest = r :: { c with ptr := c.ptr + 1 }.rest := by
  have h1 := h.stop hn
  refine ⟨c.arr[c.ptr]'(by omega), by simp [List.getElem?_eq_getElem (show c.ptr < c.arr.length by omega)], ?_⟩
  simp only [rest, hn]
  rw [List.drop_eq_getElem_cons (by simp; omega)]
  simp

theorem Cur.rest_nil {c : Cur R} (h : c.WF) (hr : c.null = true ∨ c.stop ≤ c.ptr) : c.rest = [] := by
  unfold rest
  rcases hr with hr | hr
  · simp [hr]
  · split
    · rfl
    · simp; omega

theorem Cur.peek_false {c : Cur R} (h : c.WF) : c.peek false = .ok c.rest.head? := by
  unfold peek
  cases hn : c.null with
  | true => simp [Cur.rest_nil h (.inl hn)]
  | false =>
    have h1 := h.stop hn
    have h2 := h.ptr hn
    simp only [Bool.false_eq_true, if_false]
    rw [if_neg (by omega)]
    split
    next hs => rw [Cur.rest_nil h (.inr hs)]; rfl
    next hs =>
      obtain ⟨r, e1, e2⟩ := Cur.rest_cons h hn (by omega)
      rw [e2, getR, e1]
      rfl

theorem Cur.peek_true {c : Cur R} (h : c.WF) (hr : c.rest ≠ []) : c.peek true = .ok c.rest.tail.head? := by
  have hn : c.null = false := by
    cases hn : c.null with
    | true => exact absurd (Cur.rest_nil h (.inl hn)) hr
    | false => rfl
  have h1 := h.stop hn
  have h2 := h.ptr hn
  have hp : c.ptr < c.stop := by
    by_contra hc
    exact hr (Cur.rest_nil h (.inr (by omega)))
  obtain ⟨r, e1, e2⟩ := Cur.rest_cons h hn hp
  have hwf : ({ c with ptr := c.ptr + 1, idx := c.idx + 1 } : Cur R).WF :=
    ⟨fun _ => h1, fun _ => hp, fun _ => by have := h.cnt hn; dsimp only; omega⟩
  have := Cur.peek_false hwf
  rw [e2, List.tail_cons, show ({ c with ptr := c.ptr + 1 } : Cur R).rest = ({ c with ptr := c.ptr + 1, idx := c.idx + 1 } : Cur R).rest from rfl, ← this]
  simp [peek, hn]

theorem Cur.advance_ok {c : Cur R} (h : c.WF) (hr : c.rest ≠ []) :
    ∃ c', c.advance = .ok (c', decide (c'.rest ≠ [])) ∧ c'.WF ∧ c'.rest = c.rest.tail ∧ c.arr[c.ptr]? = c.rest.head? := by
  have hn : c.null = false := by
    cases hn : c.null with
    | true => exact absurd (Cur.rest_nil h (.inl hn)) hr
    | false => rfl
  have h1 := h.stop hn
  have h2 := h.ptr hn
  have h3 := h.cnt hn
  have hp : c.ptr < c.stop := by
    by_contra hc
    exact hr (Cur.rest_nil h (.inr (by omega)))
  obtain ⟨r, e1, e2⟩ := Cur.rest_cons h hn hp
  have hwf : ({ c with ptr := c.ptr + 1, idx := c.idx + 1 } : Cur R).WF :=
    ⟨fun _ => h1, fun _ => hp, fun _ => by dsimp only; omega⟩
  refine ⟨{ c with ptr := c.ptr + 1, idx := c.idx + 1 }, ?_, hwf, by rw [e2]; rfl, by rw [e1, e2]; rfl⟩
  unfold advance
  rw [if_neg (by simp [hn]; omega)]
  dsimp only
  by_cases hs : c.stop ≤ c.ptr + 1
  · rw [if_pos (by omega), show decide _ = false from decide_eq_false (not_not.mpr (Cur.rest_nil hwf (.inr hs)))]
  · rw [if_neg (by omega), if_neg (by omega)]
    obtain ⟨r', -, e3⟩ := Cur.rest_cons hwf hn (by dsimp only; omega)
    rw [show decide _ = true from decide_eq_true (by rw [e3]; simp)]

variable [LinearOrder R]

/-- The first of the least heads: what `get_next` is to find. `i` is the number of the first list. -/
def firstMin : Nat → List (Option R) → Option (R × Nat) → Option (R × Nat)
  | _, [], best => best
  | i, none :: hs, best => firstMin (i + 1) hs best
  | i, some r :: hs, none => firstMin (i + 1) hs (some (r, i))
  | i, some r :: hs, some (m, j) => if r < m then firstMin (i + 1) hs (some (r, i)) else firstMin (i + 1) hs (some (m, j))

/-- The records `get_next` looks at. -/
theorem getNextLoop_eq (current : Option Nat) : ∀ (cs : List (Cur R)) (hs : List (Option R)) (i : Nat) (best : Option (R × Nat)),
    List.Forall₂ (fun (ic : Cur R × Nat) h => ic.1.peek (decide (current = some ic.2)) = .ok h) (cs.zipIdx i) hs →
    getNextLoop current i cs best = .ok (firstMin i hs best)
  | [], hs, i, best, hf => by
    simp only [List.zipIdx_nil, List.forall₂_nil_left_iff] at hf
    subst hf; rfl
  | c :: cs, hs, i, best, hf => by
    rw [List.zipIdx_cons] at hf
    cases hf with
    | @cons _ h _ hs' hc hf =>
      unfold getNextLoop
      rw [show c.peek (decide (current = some i)) = .ok h from hc]
      show (match h with
        | none => getNextLoop current (i + 1) cs best
        | some r => match best with
          | none => getNextLoop current (i + 1) cs (some (r, i))
          | some (m, j) => if r < m then getNextLoop current (i + 1) cs (some (r, i)) else getNextLoop current (i + 1) cs (some (m, j))) = _
      cases h with
      | none => exact getNextLoop_eq current cs _ _ _ hf
      | some r =>
        cases best with
        | none => exact getNextLoop_eq current cs _ _ _ hf
        | some mj =>
          obtain ⟨m, j⟩ := mj
          simp only [firstMin]
          split <;> exact getNextLoop_eq current cs _ _ _ hf

/-- `(m, j)` is the first least head of `hs`. -/
def FirstHead (hs : List (Option R)) : Option (R × Nat) → Prop
  | none => ∀ h ∈ hs, h = none
  | some (m, j) => hs[j]? = some (some m) ∧ ∀ k r, hs[k]? = some (some r) → m ≤ r ∧ (k < j → m < r)

theorem FirstHead.snoc_none {hs : List (Option R)} {b : Option (R × Nat)} (h : FirstHead hs b) : FirstHead (hs ++ [none]) b := by
  cases b with
  | none =>
    intro x hx
    rcases List.mem_append.mp hx with hx | hx
    · exact h x hx
    · simpa using hx
  | some mj =>
    obtain ⟨m, j⟩ := mj
    obtain ⟨h1, h2⟩ := h
    have hj : j < hs.length := (List.getElem?_eq_some_iff.mp h1).1
    refine ⟨by rw [List.getElem?_append_left hj]; exact h1, fun k r hk => ?_⟩
    rw [List.getElem?_append] at hk
    split at hk
    · exact h2 k r hk
    · rw [List.getElem?_singleton] at hk
      split at hk <;> simp at hk

theorem firstMin_spec : ∀ (post pre : List (Option R)) (b : Option (R × Nat)), FirstHead pre b → FirstHead (pre ++ post) (firstMin pre.length post b)
  | [], pre, b, h => by simpa [firstMin] using h
  | none :: post, pre, b, h => by
    have := firstMin_spec post (pre ++ [none]) b h.snoc_none
    simpa [firstMin] using this
  | some r :: post, pre, none, h => by
    have := firstMin_spec post (pre ++ [some r]) (some (r, pre.length)) (by
      refine ⟨by simp, fun k r' hk => ?_⟩
      rw [List.getElem?_append] at hk
      split at hk
      · have := h _ (List.mem_of_getElem? hk); simp at this
      · next hl =>
        rw [List.getElem?_singleton] at hk
        split at hk
        · simp at hk; subst hk; exact ⟨le_refl _, fun h => absurd h hl⟩
        · simp at hk)
    simpa [firstMin] using this
  | some r :: post, pre, some (m, j), h => by
    obtain ⟨h1, h2⟩ := h
    have hj : j < pre.length := (List.getElem?_eq_some_iff.mp h1).1
    rw [firstMin]
    split
    next hr =>
      have := firstMin_spec post (pre ++ [some r]) (some (r, pre.length)) (by
        refine ⟨by simp, fun k r' hk => ?_⟩
        rw [List.getElem?_append] at hk
        split at hk
        · have := (h2 k r' hk).1
          exact ⟨le_trans (le_of_lt hr) this, fun _ => lt_of_lt_of_le hr this⟩
        · next hl =>
          rw [List.getElem?_singleton] at hk
          split at hk
          · simp at hk; subst hk; exact ⟨le_refl _, fun h => absurd h hl⟩
          · simp at hk)
      simpa using this
    next hr =>
      have := firstMin_spec post (pre ++ [some r]) (some (m, j)) (by
        refine ⟨by rw [List.getElem?_append_left hj]; exact h1, fun k r' hk => ?_⟩
        rw [List.getElem?_append] at hk
        split at hk
        · exact h2 k r' hk
        · next hl =>
          rw [List.getElem?_singleton] at hk
          split at hk
          · simp at hk; subst hk; exact ⟨not_lt.mp hr, fun h => by omega⟩
          · simp at hk)
      simpa using this

/-- The heads, with the one of cursor `current` skipped. -/
def headsBut (cs : List (Cur R)) (current : Option Nat) : List (Option R) :=
  cs.zipIdx.map (fun ic => if current = some ic.2 then ic.1.rest.tail.head? else ic.1.rest.head?)

omit [LinearOrder R] in
theorem headsBut_none (cs : List (Cur R)) : headsBut cs none = cs.map (fun c => c.rest.head?) := by
  unfold headsBut
  apply List.ext_getElem?
  intro k
  simp [List.getElem?_zipIdx]
  cases cs[k]? <;> simp

omit [LinearOrder R] in
theorem headsBut_some {cs : List (Cur R)} {i : Nat} {c c' : Cur R} (hi : cs[i]? = some c) (hc : c'.rest = c.rest.tail) :
    headsBut cs (some i) = headsBut (cs.set i c') none := by
  rw [headsBut_none]
  unfold headsBut
  apply List.ext_getElem?
  intro k
  have hl : i < cs.length := (List.getElem?_eq_some_iff.mp hi).1
  simp only [List.getElem?_map, List.getElem?_zipIdx, List.getElem?_set, Option.map_map, Nat.zero_add]
  by_cases h : i = k
  · subst h
    have := (List.getElem?_eq_some_iff.mp hi).2
    simp [hl, hc, this]
  · rw [if_neg h]
    cases cs[k]? with
    | none => rfl
    | some d => simp [h]

/-- `get_next`: the first least head. -/
theorem getNext_eq {cs : List (Cur R)} {current : Option Nat} (h : ∀ c ∈ cs, c.WF)
    (hc : ∀ i, current = some i → ∀ c, cs[i]? = some c → c.rest ≠ []) :
    getNext cs current = .ok ((firstMin 0 (headsBut cs current) none).map Prod.snd) := by
  unfold getNext
  rw [getNextLoop_eq current cs (headsBut cs current) 0 none ?_]
  · rfl
  unfold headsBut
  rw [List.forall₂_map_right_iff, List.forall₂_same]
  rintro ⟨c, k⟩ hk
  have hk' : cs[k]? = some c := by
    have := List.mem_zipIdx_iff_getElem?.mp hk
    simpa using this
  have hwf := h c (List.mem_of_getElem? hk')
  by_cases hk2 : current = some k
  · simp only [hk2, decide_true, if_true]
    exact Cur.peek_true hwf (hc k hk2 c hk')
  · simp only [hk2, decide_false, if_false]
    exact Cur.peek_false hwf

/-- `get_next` without `current`. -/
theorem getNext_none {cs : List (Cur R)} (h : ∀ c ∈ cs, c.WF) :
    ∃ b, getNext cs none = .ok (b.map Prod.snd) ∧ FirstHead (cs.map (fun c => c.rest.head?)) b := by
  refine ⟨_, getNext_eq h (by simp), ?_⟩
  rw [headsBut_none]
  exact firstMin_spec (cs.map (fun c => c.rest.head?)) [] none (by intro x hx; simp at hx)

omit [LinearOrder R] in
theorem flatten_set {α : Type} : ∀ {l : List (List α)} {i : Nat} {x : α} {t : List α}, l[i]? = some (x :: t) → l.flatten.Perm (x :: (l.set i t).flatten)
  | [], _, _, _, h => by simp at h
  | a :: l, 0, x, t, h => by simp at h; subst h; simp
  | a :: l, i + 1, x, t, h => by
    have := flatten_set (l := l) (i := i) (by simpa using h)
    simp only [List.set_cons_succ, List.flatten_cons]
    exact (this.append_left a).trans List.perm_middle

/-- Draining cursors over sorted arrays merges them. -/
theorem drainCursors_ok : ∀ (n : Nat) (cs : List (Cur R)), (∀ c ∈ cs, c.WF) → (∀ c ∈ cs, c.rest.Pairwise (· ≤ ·)) →
    (cs.map Cur.rest).flatten.length ≤ n →
    ∃ out, drainCursors n cs = .ok out ∧ out.Perm (cs.map Cur.rest).flatten ∧ out.Pairwise (· ≤ ·)
  | 0, cs, _, _, hn => ⟨[], rfl, by rw [List.length_eq_zero_iff.mp (by omega : (cs.map Cur.rest).flatten.length = 0)], .nil⟩
  | n + 1, cs, hwf, hs, hn => by
    obtain ⟨b, e1, e2⟩ := getNext_none hwf
    unfold drainCursors
    rw [e1]
    cases b with
    | none =>
      refine ⟨[], rfl, ?_, .nil⟩
      have : (cs.map Cur.rest).flatten = [] := by
        rw [List.flatten_eq_nil_iff]
        intro l hl
        obtain ⟨c, hc, rfl⟩ := List.mem_map.mp hl
        have := e2 _ (List.mem_map.mpr ⟨c, hc, rfl⟩)
        simpa using this
      rw [this]
    | some mj =>
      obtain ⟨m, j⟩ := mj
      obtain ⟨h1, h2⟩ := e2
      rw [List.getElem?_map, Option.map_eq_some_iff] at h1
      obtain ⟨c, hc, hm⟩ := h1
      obtain ⟨t, ht⟩ : ∃ t, c.rest = m :: t := by
        cases hr : c.rest with
        | nil => rw [hr] at hm; simp at hm
        | cons a t => rw [hr] at hm; simp at hm; exact ⟨t, by rw [hm]⟩
      have hcm := List.mem_of_getElem? hc
      obtain ⟨c', a1, a2, a3, a4⟩ := Cur.advance_ok (hwf c hcm) (by rw [ht]; simp)
      rw [ht] at a3 a4
      have hj : j < cs.length := (List.getElem?_eq_some_iff.mp hc).1
      have hmap : (cs.set j c').map Cur.rest = (cs.map Cur.rest).set j t := by rw [List.map_set, a3]; rfl
      have hp : (cs.map Cur.rest).flatten.Perm (m :: ((cs.set j c').map Cur.rest).flatten) := by
        rw [hmap]
        exact flatten_set (by rw [List.getElem?_map, hc]; simp [ht])
      have hmem : ∀ d ∈ cs.set j c', d = c' ∨ d ∈ cs := fun d hd => (List.mem_or_eq_of_mem_set hd).symm
      obtain ⟨out, d1, d2, d3⟩ := drainCursors_ok n (cs.set j c')
        (fun d hd => (hmem d hd).elim (fun e => e ▸ a2) (hwf d))
        (fun d hd => (hmem d hd).elim (fun e => by
          rw [e, a3]
          have := hs c hcm
          rw [ht] at this
          exact (List.pairwise_cons.mp this).2) (hs d))
        (by have := hp.length_eq; simp only [List.length_cons] at this; omega)
      refine ⟨m :: out, ?_, (d2.cons m).trans hp.symm, ?_⟩
      · have g1 : getR cs j = .ok c := by simp [getR, hc]
        have g2 : getR c.arr c.ptr = .ok m := by simp [getR, a4]
        show (getR cs j >>= _) = _
        rw [g1]
        show (getR c.arr c.ptr >>= _) = _
        rw [g2]
        show (c.advance >>= _) = _
        rw [a1]
        show (drainCursors n (cs.set j c') >>= _) = _
        rw [d1]
        rfl
      · rw [List.pairwise_cons]
        refine ⟨fun x hx => ?_, d3⟩
        have hx' := hp.symm.mem_iff.mp (List.mem_cons_of_mem m (d2.mem_iff.mp hx))
        obtain ⟨l, hl, hxl⟩ := List.mem_flatten.mp hx'
        obtain ⟨d, hd, rfl⟩ := List.mem_map.mp hl
        obtain ⟨k, hk⟩ := List.mem_iff_getElem?.mp hd
        cases hr : d.rest with
        | nil => rw [hr] at hxl; simp at hxl
        | cons a t' =>
          have ha : m ≤ a := (h2 k a (by rw [List.getElem?_map, hk]; simp [hr])).1
          have hsd := hs d hd
          rw [hr] at hsd hxl
          rcases List.mem_cons.mp hxl with rfl | hxl
          · exact ha
          · exact le_trans ha ((List.pairwise_cons.mp hsd).1 x hxl)

end DE
