import Verif.Proofs.Util
import Mathlib.Data.BitVec
import Mathlib.Tactic.LinearCombination

/-!
C113 (the list of reconstruction tasks) and C114 (cursors).
-/

namespace DE

/-! ### `ReconstructionVector` -/

/-- A call on a `ReconstructionVector` that changes it. -/
inductive TaskVec.Call where
  | add (source target reccnt : Nat)
  | addTask (t : Task)
  | remove (i : Nat)
  | removeSmallest

/-- Run a call. -/
def TaskVec.call (v : TaskVec) : TaskVec.Call → Res TaskVec
  | .add s t n => .ok (v.add s t n)
  | .addTask t => .ok (v.addTask t)
  | .remove i => (v.remove i).map Prod.snd
  | .removeSmallest => v.removeSmallest.map Prod.snd

/-- The records of the tasks that were added as tasks. -/
def handed : List TaskVec.Call → Nat
  | [] => 0
  | .addTask t :: cs => t.reccnt + handed cs
  | _ :: cs => handed cs

theorem call_total {v v' : TaskVec} {c : TaskVec.Call} (h : v.call c = .ok v') :
    v'.total + BitVec.ofNat 64 (TaskVec.sum v.tasks + handed [c]) = v.total + BitVec.ofNat 64 (TaskVec.sum v'.tasks) := by
  have rm : ∀ (l r : List Task) (t : Task), v.tasks = l ++ t :: r → v' = ⟨l ++ r, v.total - BitVec.ofNat 64 t.reccnt⟩ →
      v'.total + BitVec.ofNat 64 (TaskVec.sum v.tasks + 0) = v.total + BitVec.ofNat 64 (TaskVec.sum v'.tasks) := by
    rintro l r t e rfl
    rw [e, TaskVec.sum_split]
    simp only [Nat.add_zero, BitVec.ofNat_add]
    generalize BitVec.ofNat 64 t.reccnt = x
    generalize BitVec.ofNat 64 (TaskVec.sum (l ++ r)) = y
    rw [BitVec.add_comm y x, ← BitVec.add_assoc, BitVec.sub_add_cancel]
  cases c with
  | add s t n =>
    obtain rfl := Except.ok.inj h
    simp only [TaskVec.add, handed, TaskVec.sum, List.map_append, List.sum_append, BitVec.ofNat_add]
    simp only [List.map_cons, List.map_nil, List.sum_cons, List.sum_nil, BitVec.add_zero, BitVec.ofNat_add, Nat.add_zero]
    rw [BitVec.add_assoc, BitVec.add_comm (BitVec.ofNat 64 n)]
  | addTask t =>
    obtain rfl := Except.ok.inj h
    simp [TaskVec.addTask, handed, TaskVec.sum]
  | remove i =>
    rw [TaskVec.call] at h
    by_cases hi : i < v.tasks.length
    · have e : v.tasks = v.tasks.take i ++ v.tasks[i] :: v.tasks.drop (i + 1) := by simp
      have e2 := TaskVec.remove_eq e
      rw [List.length_take, Nat.min_eq_left (le_of_lt hi)] at e2
      rw [e2] at h
      exact rm _ _ _ e (Except.ok.inj h).symm
    · rw [TaskVec.remove_none (not_lt.mp hi)] at h
      cases h
  | removeSmallest =>
    rw [TaskVec.call] at h
    by_cases hv : v.tasks = []
    · rw [TaskVec.removeSmallest, hv] at h
      cases h
    · obtain ⟨l, t, r, e, -, -, e2⟩ := TaskVec.removeSmallest_eq hv
      rw [e2] at h
      exact rm _ _ _ e (Except.ok.inj h).symm

theorem calls_total : ∀ (cs : List TaskVec.Call) {v v' : TaskVec}, cs.foldlM TaskVec.call v = .ok v' →
    v'.total + BitVec.ofNat 64 (TaskVec.sum v.tasks + handed cs) = v.total + BitVec.ofNat 64 (TaskVec.sum v'.tasks)
  | [], v, v', h => by
    obtain rfl := Except.ok.inj h
    simp [handed]
  | c :: cs, v, v', h => by
    rw [List.foldlM_cons] at h
    cases hc : v.call c with
    | error e => rw [hc] at h; cases h
    | ok w =>
      rw [hc] at h
      have h1 := calls_total cs (v := w) h
      have h2 := call_total hc
      have e : handed (c :: cs) = handed [c] + handed cs := by cases c <;> simp [handed]
      rw [e]
      simp only [BitVec.ofNat_add] at *
      generalize BitVec.ofNat 64 (TaskVec.sum v.tasks) = a at *
      generalize BitVec.ofNat 64 (TaskVec.sum w.tasks) = b at *
      generalize BitVec.ofNat 64 (TaskVec.sum v'.tasks) = x at *
      generalize BitVec.ofNat 64 (handed [c]) = y at *
      generalize BitVec.ofNat 64 (handed cs) = z at *
      linear_combination h1 + h2

/-- The list after some calls, from the constructor. -/
def tasksAfter (cs : List TaskVec.Call) : Res TaskVec := cs.foldlM TaskVec.call TaskVec.new

/-- C113, partial: after any calls other than `add_reconstruction(task)` that return, `get_total_reccnt` is the number of records of the
tasks in the list (modulo 2^64).
Missing: `add_reconstruction(task)`, after which the total is too small (`C113_false`). -/
theorem C113_partial {cs : List TaskVec.Call} {v : TaskVec} (h : tasksAfter cs = .ok v) (hc : ∀ t, TaskVec.Call.addTask t ∉ cs) :
    v.totalReccnt = (v.tasks.map (·.reccnt)).sum % 2 ^ 64 := by
  have h1 := calls_total cs h
  have h2 : ∀ cs : List TaskVec.Call, (∀ t, TaskVec.Call.addTask t ∉ cs) → handed cs = 0 := by
    intro cs
    induction cs with
    | nil => intro _; rfl
    | cons c cs ih =>
      intro hc
      have := ih (fun t ht => hc t (by simp [ht]))
      cases c with
      | addTask t => exact absurd (List.mem_cons_self) (hc t)
      | _ => exact this
  rw [h2 cs hc] at h1
  have e : v.total = BitVec.ofNat 64 (TaskVec.sum v.tasks) := by simpa [TaskVec.new, TaskVec.sum] using h1
  rw [TaskVec.totalReccnt, e, BitVec.toNat_ofNat]
  rfl

/-- C113: with such calls the total is short by the records of the tasks handed over as tasks, for as long as the list lives. -/
theorem C113_short {cs : List TaskVec.Call} {v : TaskVec} (h : tasksAfter cs = .ok v) :
    (v.totalReccnt + handed cs) % 2 ^ 64 = (v.tasks.map (·.reccnt)).sum % 2 ^ 64 := by
  have h1 := congrArg BitVec.toNat (calls_total cs h)
  simpa [TaskVec.new, TaskVec.sum, TaskVec.totalReccnt] using h1

/-- C113: removing. `remove_reconstruction(i)` takes task number `i` out and keeps the others in order, or aborts if there is none. -/
theorem C113_remove (v : TaskVec) (i : Nat) :
    (∀ t, v.tasks[i]? = some t → ∃ v', v.remove i = .ok (t, v') ∧ v'.tasks = v.tasks.take i ++ v.tasks.drop (i + 1)) ∧
    (v.tasks[i]? = none → v.remove i = .error .abort) := by
  constructor
  · intro t ht
    obtain ⟨hi, rfl⟩ := List.getElem?_eq_some_iff.mp ht
    have e2 := TaskVec.remove_eq (v := v) (l := v.tasks.take i) (t := v.tasks[i]) (r := v.tasks.drop (i + 1)) (by simp)
    rw [List.length_take, Nat.min_eq_left (le_of_lt hi)] at e2
    exact ⟨_, e2, rfl⟩
  · intro h
    exact TaskVec.remove_none (List.getElem?_eq_none_iff.mp h)

/-- C113: `remove_smallest_reconstruction` takes out the first of the smallest tasks; on an empty list it is undefined. -/
theorem C113_smallest (v : TaskVec) :
    (v.tasks ≠ [] → ∃ l t r v', v.tasks = l ++ t :: r ∧ v.removeSmallest = .ok (t, v') ∧ v'.tasks = l ++ r ∧
      (∀ y ∈ l, t.reccnt < y.reccnt) ∧ ∀ y ∈ r, t.reccnt ≤ y.reccnt) ∧
    (v.tasks = [] → v.removeSmallest = .error .ub) := by
  constructor
  · intro h
    obtain ⟨l, t, r, e1, e2, e3, e4⟩ := TaskVec.removeSmallest_eq h
    exact ⟨l, t, r, _, e1, e4, rfl, e2, e3⟩
  · intro h
    rw [TaskVec.removeSmallest, h]
    rfl

theorem adds_tasks : ∀ (l : List (Nat × Nat × Nat)) {v v' : TaskVec}, (l.map (fun x => TaskVec.Call.add x.1 x.2.1 x.2.2)).foldlM TaskVec.call v = .ok v' →
    v'.tasks = v.tasks ++ l.map (fun x => ⟨[x.1], x.2.1, x.2.2⟩)
  | [], v, v', h => by
    obtain rfl := Except.ok.inj h
    simp
  | x :: l, v, v', h => by
    have := adds_tasks l (v := v.add x.1 x.2.1 x.2.2) h
    rw [this]
    simp [TaskVec.add]

/-- C113: reading. After adding tasks `(source, target, records)` there are as many, and `operator[]` returns them in the order in which
they were added; behind the last it is undefined. -/
theorem C113_read (l : List (Nat × Nat × Nat)) : ∃ v, tasksAfter (l.map (fun x => .add x.1 x.2.1 x.2.2)) = .ok v ∧ v.size = l.length ∧
    (∀ i s t n, l[i]? = some (s, t, n) → ∃ x, v.get i = .ok x ∧ x.sources = [s] ∧ x.target = t ∧ x.reccnt = n) ∧
    ∀ i, l.length ≤ i → v.get i = .error .ub := by
  have hex : ∀ (l : List (Nat × Nat × Nat)) (v : TaskVec), ∃ v', (l.map (fun x => TaskVec.Call.add x.1 x.2.1 x.2.2)).foldlM TaskVec.call v = .ok v' := by
    intro l
    induction l with
    | nil => intro v; exact ⟨v, rfl⟩
    | cons x l ih => intro v; exact ih (v.add x.1 x.2.1 x.2.2)
  obtain ⟨v, hv⟩ := hex l TaskVec.new
  have ht := adds_tasks l hv
  rw [show TaskVec.new.tasks = [] from rfl, List.nil_append] at ht
  refine ⟨v, hv, by rw [TaskVec.size, ht, List.length_map], fun i s t n hi => ?_, fun i hi => ?_⟩
  · refine ⟨⟨[s], t, n⟩, ?_, rfl, rfl, rfl⟩
    rw [TaskVec.get, ht, getR, List.getElem?_map, hi]
    rfl
  · rw [TaskVec.get, ht, getR, List.getElem?_eq_none (by rw [List.length_map]; exact hi)]

/-- C113: a task collects its sources in order and the sum of their records, and keeps its target. -/
theorem C113_sources (l : List (Nat × Nat)) (t : Task) :
    (l.foldl (fun t x => t.addSource x.1 x.2) t).sources = t.sources ++ l.map Prod.fst ∧
    (l.foldl (fun t x => t.addSource x.1 x.2) t).reccnt = t.reccnt + (l.map Prod.snd).sum ∧
    (l.foldl (fun t x => t.addSource x.1 x.2) t).target = t.target := by
  induction l generalizing t with
  | nil => simp
  | cons x l ih =>
    obtain ⟨h1, h2, h3⟩ := ih (t.addSource x.1 x.2)
    rw [List.foldl_cons]
    refine ⟨h1.trans (by simp [Task.addSource]), h2.trans (by simp [Task.addSource]; omega), h3⟩

/-- Three tasks, and a task with three sources. -/
example : ∃ v, tasksAfter [.add 0 1 7, .add 1 2 3, .add 2 3 3] = .ok v ∧ v.get 1 = .ok ⟨[1], 2, 3⟩ ∧ v.get 3 = .error .ub := ⟨_, rfl, rfl, rfl⟩
example : ([(2, 5), (1, 6)].foldl (fun t x => t.addSource x.1 x.2) (⟨[3], 4, 1⟩ : Task)) = ⟨[3, 2, 1], 4, 12⟩ := rfl

/-- C113 is false: a task of 5 records added as a task is not counted, and when it is removed the total becomes 2^64 - 5. -/
theorem C113_false : ∃ v, tasksAfter [.addTask ⟨[0], 1, 5⟩] = .ok v ∧ v.size = 1 ∧ v.totalReccnt = 0 ∧
    ∃ v', v.removeSmallest = .ok (⟨[0], 1, 5⟩, v') ∧ v'.size = 0 ∧ v'.totalReccnt = 2 ^ 64 - 5 :=
  ⟨_, rfl, by decide, by decide, _, rfl, by decide, by decide⟩

/-- A list of three tasks after five calls. -/
example : ∃ v, tasksAfter [.add 0 1 7, .add 1 2 3, .add 2 3 3, .removeSmallest, .add 3 4 9] = .ok v ∧
    v.tasks.map (·.reccnt) = [7, 3, 9] ∧ v.totalReccnt = 19 := ⟨_, rfl, by decide, by decide⟩

/-! ### Cursors -/

variable {R : Type} [LinearOrder R]

/-- C114: `get_next` returns `nullptr` exactly if no cursor has a record left, otherwise the first of the cursors whose next record is
least. -/
theorem C114_next {cs : List (Cur R)} (h : ∀ c ∈ cs, c.WF) :
    ∃ res, getNext cs none = .ok res ∧ (res = none ↔ ∀ c ∈ cs, c.rest = []) ∧
      ∀ i, res = some i → ∃ c m t, cs[i]? = some c ∧ c.rest = m :: t ∧
        ∀ k d r t', cs[k]? = some d → d.rest = r :: t' → m ≤ r ∧ (k < i → m < r) := by
  obtain ⟨b, e1, e2⟩ := getNext_none h
  refine ⟨_, e1, ?_, ?_⟩
  · cases b with
    | none =>
      simp only [Option.map_none, true_iff]
      intro c hc
      have := e2 _ (List.mem_map.mpr ⟨c, hc, rfl⟩)
      simpa using this
    | some mj =>
      simp only [Option.map_some, reduceCtorEq, false_iff]
      intro hall
      have := e2.1
      rw [List.getElem?_map, Option.map_eq_some_iff] at this
      obtain ⟨c, hc, hm⟩ := this
      rw [hall c (List.mem_of_getElem? hc)] at hm
      simp at hm
  · intro i hi
    cases b with
    | none => simp at hi
    | some mj =>
      obtain ⟨m, j⟩ := mj
      simp only [Option.map_some, Option.some.injEq] at hi
      subst hi
      obtain ⟨h1, h2⟩ := e2
      rw [List.getElem?_map, Option.map_eq_some_iff] at h1
      obtain ⟨c, hc, hm⟩ := h1
      cases hr : c.rest with
      | nil => rw [hr] at hm; simp at hm
      | cons a t =>
        rw [hr] at hm
        simp only [List.head?_cons, Option.some.injEq] at hm
        subst hm
        exact ⟨c, a, t, hc, hr, fun k d r t' hk hd => h2 k r (by rw [List.getElem?_map, hk]; simp [hd])⟩

omit [LinearOrder R] in
/-- C114: `advance_cursor` on a cursor with a record left passes it and returns whether there is another. -/
theorem C114_advance {c : Cur R} (h : c.WF) {x : R} {t : List R} (hr : c.rest = x :: t) :
    ∃ c', c.advance = .ok (c', decide (t ≠ [])) ∧ c'.WF ∧ c'.rest = t := by
  obtain ⟨c', e1, e2, e3, -⟩ := Cur.advance_ok h (by rw [hr]; simp)
  rw [hr, List.tail_cons] at e3
  rw [e3] at e1
  exact ⟨c', e1, e2, e3⟩

/-- C114: looking ahead. `get_next(cursors, current)` returns the cursor that `get_next(cursors)` will return after `current` has been
advanced. -/
theorem C114_peek {cs : List (Cur R)} (h : ∀ c ∈ cs, c.WF) {i : Nat} {c c' : Cur R} {b : Bool} (hi : cs[i]? = some c) (hr : c.rest ≠ [])
    (ha : c.advance = .ok (c', b)) : getNext cs (some i) = getNext (cs.set i c') none := by
  obtain ⟨c'', e1, e2, e3, -⟩ := Cur.advance_ok (h c (List.mem_of_getElem? hi)) hr
  rw [ha] at e1
  obtain ⟨rfl, -⟩ := Prod.mk.inj (Except.ok.inj e1)
  rw [getNext_eq h (fun k hk d hd => by
    obtain rfl := Option.some.inj hk
    rw [hi] at hd
    exact Option.some.inj hd ▸ hr)]
  rw [getNext_eq (cs := cs.set i c') (fun d hd => (List.mem_or_eq_of_mem_set hd).elim (h d) (fun e => e ▸ e2)) (by simp), headsBut_some hi e3]

/-- C114: reading the records of sorted arrays by `get_next` and `advance_cursor` until `get_next` returns `nullptr` gives all of them,
once each, in order, and nothing is undefined. -/
theorem C114_merge {cs : List (Cur R)} (h : ∀ c ∈ cs, c.WF) (hs : ∀ c ∈ cs, c.rest.Pairwise (· ≤ ·)) {n : Nat}
    (hn : (cs.map Cur.rest).flatten.length ≤ n) :
    ∃ out, drainCursors n cs = .ok out ∧ out.Perm (cs.map Cur.rest).flatten ∧ out.Pairwise (· ≤ ·) :=
  drainCursors_ok n cs h hs hn

/-- The cursor over a whole array. -/
def Cur.of (l : List R) : Cur R := ⟨l, 0, l.length, 0, l.length, false⟩

omit [LinearOrder R] in
theorem Cur.of_wf (l : List R) : (Cur.of l).WF := ⟨fun _ => le_refl _, fun _ => Nat.zero_le _, fun _ => rfl⟩

omit [LinearOrder R] in
theorem Cur.of_rest (l : List R) : (Cur.of l).rest = l := by simp [Cur.of, Cur.rest]

/-- Two arrays, an empty one and a null cursor. -/
example : drainCursors 9 [Cur.of [1, 4, 6], Cur.of [], ⟨[], 0, 0, 0, 0, true⟩, Cur.of [2, 4, 5, (9 : Nat)]] = .ok [1, 2, 4, 4, 5, 6, 9] := by decide

end DE
