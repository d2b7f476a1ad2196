import Verif.Proofs.MtAppend
import Mathlib.Algebra.BigOperators.Ring.Finset

/-!
C127: threads that only append to one buffer (`t_multithreaded_insert`, tests/mutable_buffer_tests.cpp 159-196).
-/

namespace DE
open Mt
variable {R : Type} [Inhabited R]

theorem mtNew {lwm hwm : Nat} {b0 : Buffer R} (hnew : Buffer.new lwm hwm = .ok b0) :
    b0.head = 0 ∧ b0.tail = 0 ∧ b0.tscnt = 0 ∧ b0.hwm = hwm ∧ b0.hwm ≤ b0.cap := by
  unfold Buffer.new at hnew
  unfold assertC at hnew
  split at hnew
  · simp only [bind, Except.bind] at hnew
    split at hnew
    · cases hnew
    · cases hnew
      exact ⟨rfl, rfl, rfl, rfl, by simp only; omega⟩
  · cases hnew

omit [Inhabited R] in
theorem mtPick {α : Type} (a : List α) (i : Nat) : ∀ T, i < T → (List.range T).flatMap (fun k => if k = i then a else []) = a
  | 0, h => by omega
  | T+1, h => by
    rw [List.range_succ, List.flatMap_append]
    by_cases e : i = T
    · subst e
      have : (List.range i).flatMap (fun k => if k = i then a else []) = [] := by
        rw [List.flatMap_eq_nil_iff]
        intro k hk
        have := List.mem_range.mp hk
        rw [if_neg (by omega)]
      rw [this]
      simp
    · rw [mtPick a i T (by omega)]
      simp [show ¬ T = i by omega]

omit [Inhabited R] in
theorem mtCount {α : Type} (T : Nat) : ∀ l : List (Nat × α), (∀ p ∈ l, p.1 < T) →
    l.length = ∑ i ∈ Finset.range T, ((l.filter (fun p => decide (p.1 = i))).map Prod.snd).length
  | [], _ => by simp
  | p :: l, h => by
    have ih := mtCount T l (fun q hq => h q (List.mem_cons_of_mem _ hq))
    have e : ∀ i, (((p :: l).filter (fun p => decide (p.1 = i))).map Prod.snd).length =
        ((l.filter (fun p => decide (p.1 = i))).map Prod.snd).length + if p.1 = i then 1 else 0 := by
      intro i
      by_cases hi : p.1 = i <;> simp [hi]
    simp only [e, Finset.sum_add_distrib]
    rw [← ih, Finset.sum_ite_eq, if_pos (Finset.mem_range.mpr (h p (by simp)))]
    rfl

/-- C127, linearizability: for any number of threads, any lists of inserts and tombstones and any interleaving of the steps,
when all threads are done there is an order of all appends, keeping the order of each thread, such that doing them one after
the other gives the same buffer and the same results to every thread. -/
theorem C127_linearizable {lwm hwm : Nat} {b0 : Buffer R} (hnew : Buffer.new lwm hwm = .ok b0) {T : Nat} {ls : Nat → List (R × Bool)}
    {n : Nat} {s : St R} (hrun : Run T (start b0 ls) n s) (hdone : ∀ i < T, (s.thr i).todo = []) :
    ∃ order : List (Nat × R × Bool), (∀ p ∈ order, p.1 < T) ∧
      (∀ i < T, (order.filter (fun p => decide (p.1 = i))).map Prod.snd = ls i) ∧
      (seq b0 order).1 = s.b ∧
      ∀ i < T, ((seq b0 order).2.filter (fun p => decide (p.1 = i))).map Prod.snd = (s.thr i).done := by
  obtain ⟨h1, h2, h3, h4, h5⟩ := mtNew hnew
  obtain ⟨log, hinv⟩ := hrun.inv h5 (Inv.start T ls h1 h2 h3)
  obtain ⟨e1, e2⟩ := hinv.done h1 hdone
  have hch : ∀ i, ∃ ref : List (R × Bool), i < T → ls i = own log i ++ ref ∧
      (s.thr i).done = List.replicate (own log i).length true ++ List.replicate ref.length false ∧ (ref ≠ [] → b0.hwm ≤ log.length) := by
    intro i
    by_cases hi : i < T
    · obtain ⟨ref, p1, p2, p3⟩ := e2 i hi
      rw [hdone i hi, List.append_nil] at p1
      exact ⟨ref, fun _ => ⟨p1, p2, p3⟩⟩
    · exact ⟨[], fun h => absurd h hi⟩
  choose ref href using hch
  set rs : List (Nat × R × Bool) := (List.range T).flatMap (fun i => (ref i).map (fun x => (i, x))) with hrs
  have hfil : ∀ i < T, rs.filter (fun p => decide (p.1 = i)) = (ref i).map (fun x => (i, x)) := by
    intro i hi
    rw [hrs, List.filter_flatMap]
    have : ∀ k, ((ref k).map (fun x => (k, x))).filter (fun p => decide (p.1 = i)) = if k = i then (ref i).map (fun x => (i, x)) else [] := by
      intro k
      by_cases e : k = i
      · subst e
        rw [if_pos rfl, List.filter_eq_self]
        intro p hp
        obtain ⟨x, -, rfl⟩ := List.mem_map.mp hp
        simp
      · rw [if_neg e, List.filter_eq_nil_iff]
        intro p hp
        obtain ⟨x, -, rfl⟩ := List.mem_map.mp hp
        simp [e]
    simp only [this]
    exact mtPick _ i T hi
  have hids : ∀ p ∈ rs, p.1 < T := by
    intro p hp
    obtain ⟨i, hi, hp⟩ := List.mem_flatMap.mp hp
    obtain ⟨x, -, rfl⟩ := List.mem_map.mp hp
    exact List.mem_range.mp hi
  have hseq : seq b0 (log ++ rs) = (after b0 log, log.map (fun p => (p.1, true)) ++ rs.map (fun p => (p.1, false))) := by
    rw [seq_append, seq_accept h5 h1 h2 h3 log hinv.le]
    by_cases hr : rs = []
    · rw [hr]; rfl
    · have hf : b0.hwm ≤ log.length := by
        obtain ⟨p, hp⟩ := List.exists_mem_of_ne_nil rs hr
        obtain ⟨i, hi, hp⟩ := List.mem_flatMap.mp hp
        obtain ⟨x, hx, -⟩ := List.mem_map.mp hp
        exact (href i (List.mem_range.mp hi)).2.2 (List.ne_nil_of_mem hx)
      rw [seq_refuse (by show log.length - b0.head ≥ b0.hwm; omega)]
  refine ⟨log ++ rs, ?_, ?_, ?_, ?_⟩
  · intro p hp
    rcases List.mem_append.mp hp with hp | hp
    · exact hinv.ids p hp
    · exact hids p hp
  · intro i hi
    rw [List.filter_append, List.map_append, hfil i hi, (href i hi).1, List.map_map]
    show own log i ++ (ref i).map id = _
    rw [List.map_id]
  · rw [hseq, e1]
  · intro i hi
    rw [hseq, (href i hi).2.1, List.filter_append, List.map_append, List.filter_map, List.filter_map, List.map_map, List.map_map]
    have hr := congrArg List.length (hfil i hi)
    rw [List.length_map] at hr
    congr 1
    · have : own log i = _ := rfl
      rw [List.eq_replicate_iff]
      refine ⟨by rw [List.length_map]; unfold own; rw [List.length_map]; rfl, ?_⟩
      intro v hv
      obtain ⟨p, -, rfl⟩ := List.mem_map.mp hv
      rfl
    · rw [List.eq_replicate_iff]
      refine ⟨by rw [List.length_map]; exact hr, ?_⟩
      intro v hv
      obtain ⟨p, -, rfl⟩ := List.mem_map.mp hv
      rfl

/-- C127, counts: the buffer holds as many records as were appended, or is full. -/
theorem C127_count {lwm hwm : Nat} {b0 : Buffer R} (hnew : Buffer.new lwm hwm = .ok b0) {T : Nat} {ls : Nat → List (R × Bool)}
    {n : Nat} {s : St R} (hrun : Run T (start b0 ls) n s) (hdone : ∀ i < T, (s.thr i).todo = []) :
    s.b.count = min (∑ i ∈ Finset.range T, (ls i).length) hwm := by
  obtain ⟨h1, h2, h3, h4, h5⟩ := mtNew hnew
  obtain ⟨order, a1, a2, a3, -⟩ := C127_linearizable hnew hrun hdone
  have hlen : order.length = ∑ i ∈ Finset.range T, (ls i).length := by
    rw [mtCount T order a1]
    exact Finset.sum_congr rfl (fun i hi => by rw [a2 i (Finset.mem_range.mp hi)])
  rw [← a3, ← hlen, ← h4]
  by_cases hle : order.length ≤ b0.hwm
  · rw [seq_accept h5 h1 h2 h3 order hle]
    show order.length - b0.head = _
    omega
  · have hsp : order = order.take b0.hwm ++ order.drop b0.hwm := (List.take_append_drop _ _).symm
    have htl : (order.take b0.hwm).length = b0.hwm := by rw [List.length_take]; omega
    rw [hsp, seq_append, seq_accept h5 h1 h2 h3 _ (by omega)]
    rw [seq_refuse (by show (order.take b0.hwm).length - b0.head ≥ b0.hwm; omega)]
    show (order.take b0.hwm).length - b0.head = _
    rw [← hsp]
    omega

/-- C127, `t_multithreaded_insert`: if the buffer is large enough, every append of every thread succeeds, the buffer holds
exactly the appended records, those of each thread in its order, all with the visible flag, and counts their tombstones. -/
theorem C127_all {lwm hwm : Nat} {b0 : Buffer R} (hnew : Buffer.new lwm hwm = .ok b0) {T : Nat} {ls : Nat → List (R × Bool)}
    (hfit : ∑ i ∈ Finset.range T, (ls i).length ≤ hwm)
    {n : Nat} {s : St R} (hrun : Run T (start b0 ls) n s) (hdone : ∀ i < T, (s.thr i).todo = []) :
    (∀ i < T, (s.thr i).done = List.replicate (ls i).length true) ∧ s.b.count = ∑ i ∈ Finset.range T, (ls i).length ∧
    ∃ order : List (Nat × R × Bool), (∀ p ∈ order, p.1 < T) ∧
      (∀ i < T, (order.filter (fun p => decide (p.1 = i))).map Prod.snd = ls i) ∧
      s.b.tscnt = order.countP (fun p => p.2.2) ∧
      ∀ q, (h : q < order.length) → s.b.view.get q = .ok (Buffer.entryAt order[q].2.1 order[q].2.2 q) := by
  obtain ⟨h1, h2, h3, h4, h5⟩ := mtNew hnew
  obtain ⟨order, a1, a2, a3, a4⟩ := C127_linearizable hnew hrun hdone
  have hlen : order.length = ∑ i ∈ Finset.range T, (ls i).length := by
    rw [mtCount T order a1]
    exact Finset.sum_congr rfl (fun i hi => by rw [a2 i (Finset.mem_range.mp hi)])
  have hs := seq_accept h5 h1 h2 h3 order (by omega)
  rw [hs] at a3 a4
  refine ⟨?_, ?_, order, a1, a2, ?_, ?_⟩
  · intro i hi
    rw [← a4 i hi, ← a2 i hi, List.filter_map, List.map_map, List.eq_replicate_iff]
    refine ⟨by rw [List.length_map, List.length_map]; rfl, ?_⟩
    intro v hv
    obtain ⟨p, -, rfl⟩ := List.mem_map.mp hv
    rfl
  · rw [C127_count hnew hrun hdone]
    omega
  · rw [← a3]; rfl
  · intro q hq
    have hc : q < s.b.view.cap := by rw [← a3]; show q < b0.cap; omega
    have hst : s.b.view.start = 0 := by
      rw [← a3]; show b0.head % b0.cap = 0
      rw [h1, Nat.zero_mod]
    have hi : s.b.view.toIdx q = q := by unfold View.toIdx; rw [hst, if_neg (by omega)]; omega
    unfold View.get
    rw [hi, if_pos hc]
    congr 1
    rw [← a3]
    show (match order[q]? with | some p => Buffer.entryAt p.2.1 p.2.2 q | none => b0.data q) = _
    rw [List.getElem?_eq_getElem hq]

/-- C127, termination: no execution has more than `8 N + 2 T hwm` steps, `N` being the number of appends and `T` the number of
threads, and a state in which no thread can step is one in which all are done. So all calls return however they are scheduled. -/
theorem C127_terminates {lwm hwm : Nat} {b0 : Buffer R} (hnew : Buffer.new lwm hwm = .ok b0) {T : Nat} {ls : Nat → List (R × Bool)}
    {n : Nat} {s : St R} (hrun : Run T (start b0 ls) n s) :
    n ≤ 8 * ∑ i ∈ Finset.range T, (ls i).length + 2 * T * hwm ∧ ((∀ i < T, step s i = none) → ∀ i < T, (s.thr i).todo = []) := by
  obtain ⟨h1, h2, h3, h4, h5⟩ := mtNew hnew
  refine ⟨?_, ?_⟩
  · have := hrun.total h5 (Inv.start T ls h1 h2 h3)
    have e : total T (start b0 ls) = 8 * ∑ i ∈ Finset.range T, (ls i).length + 2 * T * hwm := by
      unfold total
      rw [Finset.mul_sum]
      show ∑ i ∈ Finset.range T, 8 * (ls i).length + 2 * T * (b0.hwm - b0.tail) = _
      rw [h2, h4, Nat.sub_zero]
    omega
  · intro h i hi
    have := h i hi
    unfold step at this
    split at this
    · assumption
    · cases this

/-- Two threads with two records each; thread 1 loses an exchange and retries. -/
def mtDemo : Nat → List (Nat × Bool) := fun i => if i = 0 then [(10, false), (11, true)] else [(20, false), (21, false)]

def mtShow (hwm : Nat) (sched : List Nat) : Option (List Nat × List Bool × List Bool × Nat × Nat) :=
  match Buffer.new (R := Nat) 1 hwm with
  | .ok b => (exec (start b mtDemo) sched).map (fun s =>
      ((List.range s.b.tail).map (fun q => (s.b.data q).record), (s.thr 0).done, (s.thr 1).done, s.b.tscnt, ((s.thr 0).todo ++ (s.thr 1).todo).length))
  | .error _ => none

example : mtShow 4 ([0, 0, 1, 1, 0, 1, 1, 1] ++ List.replicate 4 0 ++ List.replicate 4 1 ++ List.replicate 7 1 ++ List.replicate 7 0) =
    some ([10, 20, 21, 11], [true, true], [true, true], 1, 0) := by decide

/-- With room for three records one append is refused. -/
example : mtShow 3 ([0, 0, 1, 1, 0, 1, 1, 1] ++ List.replicate 4 0 ++ List.replicate 4 1 ++ List.replicate 7 1 ++ List.replicate 2 0) =
    some ([10, 20, 21], [true, false], [true, true], 0, 0) := by decide

omit [Inhabited R] in
theorem mtRun {T : Nat} : ∀ {l : List Nat} {s0 s s' : St R} {n : Nat}, Run T s0 n s → exec s l = some s' → (∀ i ∈ l, i < T) →
    Run T s0 (n + l.length) s'
  | [], _, _, _, _, h, he, _ => by cases he; exact h
  | i :: l, s0, s, s', n, h, he, hl => by
    obtain ⟨s1, h1, h2⟩ := Option.bind_eq_some_iff.mp (show (step s i).bind (fun s => exec s l) = some s' from he)
    have := mtRun (Run.succ h (hl i (by simp)) h1) h2 (fun k hk => hl k (by simp [hk]))
    rw [List.length_cons, show n + (l.length + 1) = n + 1 + l.length by omega]
    exact this

/-- The hypotheses of the theorems are met by that execution. -/
example : ∃ b0 n s, Buffer.new 1 4 = .ok b0 ∧ Run 2 (start b0 mtDemo) n s ∧ (∀ i < 2, (s.thr i).todo = []) ∧
    ∑ i ∈ Finset.range 2, (mtDemo i).length ≤ 4 := by
  refine ⟨_, _, _, rfl, mtRun (l := [0, 0, 1, 1, 0, 1, 1, 1] ++ List.replicate 4 0 ++ List.replicate 4 1 ++ List.replicate 7 1 ++ List.replicate 7 0)
    .zero rfl (by decide), ?_, by decide⟩
  intro i hi
  have : i = 0 ∨ i = 1 := by omega
  rcases this with rfl | rfl <;> rfl

end DE
