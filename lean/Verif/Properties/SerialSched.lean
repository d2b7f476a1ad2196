import Verif.Proofs.SerialRefine
import Verif.Properties.RangeQuery
import Verif.Properties.TaggingErase
import Verif.Proofs.SegTotal
import Verif.Properties.Buffer

/-!
C91, C96: an index with the `SerialScheduler`, used by one thread, behaves as the sequential index of `Dynamic.lean`: same return
values, same query results, same faults; after every call all background work is done and nothing stays pinned or allocated. C91 for
tombstone deletes, C96 for tagging, the default configuration (DynamicExtension.h 27-30).
-/

namespace DE.SerialRun
open Full (Cfg)
variable {R : Type} [Inhabited R]

/-- No work is left: threads outside all operations, no reconstruction scheduled or running, no reference counted, mutex free, and
the allocated epochs are the current and the previous one. -/
structure Quiet (s : Conc.St) : Prop where
  threads : ∀ t ∈ s.thr, t.pc = .idle ∧ t.ep = none ∧ t.hd = none
  jobs : s.jobs = [] ∧ s.flag = false ∧ s.next = none
  refs : s.head.ref = 0 ∧ s.old.ref = 0 ∧ s.cur.ref = 0 ∧ s.prev.ref = 0
  lock : s.lock = none
  epochs : ∀ x, s.alive x = true ↔ s.cur.ep = some x ∨ s.prev.ep = some x

/-- The two states hold the same data: the structure of the current epoch, head and tail of the buffer, and the records between
with their delete tags. -/
def SameData (C : Cfg R) (s : St R) (d : Index R) : Prop :=
  (∃ e, s.base.cur.ep = some e ∧ s.vs e = d.str ∧ s.base.ehead e = d.buf.head) ∧
  s.base.head.idx = d.buf.head ∧ s.base.tail = d.buf.tail ∧ d.buf.data = ring C s.base.mem s.tags

theorem Rel.quiet {C : Cfg R} {T : Bool} {s : St R} {d : Index R} (h : Rel C T s d) : Quiet s.base ∧ SameData C s d := by
  obtain ⟨-, -, -, -, -, -, o, e, n, a, b, p, mem, ehead, estr, alive, cl, dn, vs, tg, rfl, -, heh, -, hal, -, hdata, hvs⟩ := h
  refine ⟨⟨?_, ⟨rfl, rfl, rfl⟩, ⟨rfl, rfl, rfl, rfl⟩, rfl, ?_⟩, ⟨e, rfl, hvs, heh⟩, rfl, rfl, hdata⟩
  · intro t ht
    rcases List.mem_cons.mp ht with rfl | ht
    · exact ⟨rfl, rfl, rfl⟩
    · rcases List.mem_cons.mp ht with rfl | ht
      · exact ⟨rfl, rfl, rfl⟩
      · cases ht
  · intro x
    show alive x = true ↔ some e = some x ∨ p = some x
    rw [hal x, Option.some.injEq, eq_comm]

/-- C91. Every sequence of inserts, erases (with tombstones), queries and waits of one thread: the real program, with its epochs,
reference counts, flags and the scheduled job, ends in the state of the sequential index with the same results, reached by
steps of the concurrent system, and is quiet; if the sequential index faults, the program faults in the same way. In
particular no call blocks or spins. -/
theorem C91_serial_session [DecidableEq R] {β : Type} {C : Cfg R} (hR : ReadsContents C.impl) {Q : Index R → β} (hQ : ReadsView Q)
    {d0 : Index R} (hnew : Index.new C.L false C.impl C.P.lwm C.P.hwm C.sf = .ok d0) (hf : Bool) {fuel : Nat} (hfuel : C.P.hwm + 50 < fuel) (os : List Act) :
    (∀ d xs, serial C Q d0 os = .ok (d, xs) → ∃ s, session C false hf fuel Q (SerialRun.init C 2) os = .ok (some (s, xs)) ∧
      Full.Reach C 2 (fun _ _ => True) s.full ∧ Quiet s.base ∧ SameData C s d) ∧
    (∀ f, serial C Q d0 os = .error f → session C false hf fuel Q (SerialRun.init C 2) os = .error f) := by
  obtain ⟨rfl, hw, hl, -⟩ := new_ok hnew
  have h := session_sim (hf := hf) hR hQ hfuel os (Rel.init (C := C) (T := false) hw hl)
  constructor
  · intro d xs hd
    rw [hd] at h
    obtain ⟨s, hs, hr⟩ := h
    exact ⟨s, hs, (session_plain os ⟨.init, rfl⟩ hs).1, hr.quiet⟩
  · intro f hd
    rw [hd] at h
    exact h

/-- C96. The same for the default delete policy: every sequence of inserts, tagging erases, queries and waits of one thread ends as the
sequential index does, with the same return values, results and delete tags, or faults as it does; in particular every view and epoch
an erase takes is given back, on every path, and a slot of the ring that is written again carries no old tag. -/
theorem C96_tagging_session [DecidableEq R] {β : Type} {C : Cfg R} (hR : ReadsContents C.impl) {Q : Index R → β} (hQ : ReadsView Q)
    {d0 : Index R} (hnew : Index.new C.L true C.impl C.P.lwm C.P.hwm C.sf = .ok d0) (hf : Bool) {fuel : Nat} (hfuel : C.P.hwm + 50 < fuel) (os : List Act) :
    (∀ d xs, serial C Q d0 os = .ok (d, xs) → ∃ s, session C true hf fuel Q (SerialRun.init C 2) os = .ok (some (s, xs)) ∧
      Quiet s.base ∧ SameData C s d) ∧
    (∀ f, serial C Q d0 os = .error f → session C true hf fuel Q (SerialRun.init C 2) os = .error f) := by
  obtain ⟨rfl, hw, hl, -⟩ := new_ok hnew
  have h := session_sim (hf := hf) hR hQ hfuel os (Rel.init (C := C) (T := true) hw hl)
  constructor
  · intro d xs hd
    rw [hd] at h
    obtain ⟨s, hs, hr⟩ := h
    exact ⟨s, hs, hr.quiet⟩
  · intro f hd
    rw [hd] at h
    exact h

section Sorted
variable {K : Type} [LinearOrder R] [LinearOrder K] [HasKey R K]

/-- C91 for the shards with sorted arrays and range queries. -/
theorem C91_serial_range_query (P : Conc.Par) (L : Layout) (pq : PQ R) (lb : LB R K) (sf : Nat) (ρ : Nat → R) (del : Nat → Bool) (lo hi : K)
    {d0 : Index R} (hnew : Index.new L false (sortedImpl pq lb) P.lwm P.hwm sf = .ok d0) (hf : Bool) {fuel : Nat} (hfuel : P.hwm + 50 < fuel) (os : List Act)
    {d : Index R} {xs : List (Ans (Res (List R)))} (hd : serial ⟨P, L, sortedImpl pq lb, sf, ρ, del⟩ (fun d => d.rangeQuery pq lb lo hi) d0 os = .ok (d, xs)) :
    ∃ s, session ⟨P, L, sortedImpl pq lb, sf, ρ, del⟩ false hf fuel (fun d => d.rangeQuery pq lb lo hi) (SerialRun.init ⟨P, L, sortedImpl pq lb, sf, ρ, del⟩ 2) os =
      .ok (some (s, xs)) ∧ Quiet s.base := by
  obtain ⟨s, h1, -, h2, -⟩ := (C91_serial_session (C := ⟨P, L, sortedImpl pq lb, sf, ρ, del⟩) (sorted_readsContents pq lb)
    (Q := fun d => d.rangeQuery pq lb lo hi) (fun _ _ _ => rfl) hnew hf hfuel os).1 d xs hd
  exact ⟨s, h1, h2⟩

/-- Expected answers when the thread only inserts and queries: every insert returns 1, every query returns the records inserted so
far whose key is in the range. -/
def Answers (ρ : Nat → R) (lo hi : K) : List R → List Act → List (Ans (Res (List R))) → Prop
  | _, [], xs => xs = []
  | seen, .call r :: os, xs => ∃ ys, xs = .ret true :: ys ∧ Answers ρ lo hi (seen ++ [ρ r]) os ys
  | seen, .query :: os, xs => ∃ res ys, xs = .result (.ok res) :: ys ∧ res.Perm (seen.filter (fun r => decide (lo ≤ key r ∧ key r ≤ hi))) ∧
      Answers ρ lo hi seen os ys
  | seen, .await :: os, xs => ∃ ys, xs = .none :: ys ∧ Answers ρ lo hi seen os ys

omit [Inhabited R] [LinearOrder K] [HasKey R K] in
theorem run_snoc_inv : ∀ (ops : List (Index.Op R)) {o : Index.Op R} {d0 d d' : Index R} {bs bs' : List Bool}, d0.run ops = .ok (d, bs) →
    d0.run (ops ++ [o]) = .ok (d', bs') → ∃ b, d.step o = .ok (d', b) ∧ bs' = bs ++ [b]
  | [], o, d0, d, d', bs, bs', h, h' => by
    cases h
    rw [List.nil_append, Index.run] at h'
    obtain ⟨⟨d1, b⟩, e1, h'⟩ := bind_ok.mp h'
    cases h'
    exact ⟨b, e1, rfl⟩
  | p :: ops, o, d0, d, d', bs, bs', h, h' => by
    rw [Index.run] at h
    rw [List.cons_append, Index.run] at h'
    obtain ⟨⟨d1, b⟩, e1, h⟩ := bind_ok.mp h
    obtain ⟨⟨d2, b2⟩, e2, h'⟩ := bind_ok.mp h'
    rw [e1] at e2
    cases e2
    obtain ⟨⟨d3, bs3⟩, e3, h⟩ := bind_ok.mp h
    obtain ⟨⟨d4, bs4⟩, e4, h'⟩ := bind_ok.mp h'
    cases h
    cases h'
    obtain ⟨c, g1, g2⟩ := run_snoc_inv ops e3 e4
    exact ⟨c, g1, by rw [g2]; rfl⟩

theorem inserted_snoc {R : Type} (ops : List (Index.Op R)) (r : R) : inserted (ops ++ [.ins r]) = inserted ops ++ [r] := by
  induction ops with
  | nil => rfl
  | cons o ops ih => cases o <;> simp [inserted, ih]

/-- C91, end to end: one thread that inserts and queries, with the real concurrent machinery underneath. No call fails, blocks or
faults, every query sees exactly what was inserted before it, and nothing stays behind. -/
theorem C91_insert_query_session (P : Conc.Par) (L : Layout) {pq : PQ R} (hpq : pq.ByRec) {lb : LB R K} (hlb : lb.Sound) (sf : Nat) (ρ : Nat → R) (lo hi : K)
    {d0 : Index R} (hnew : Index.new L false (sortedImpl pq lb) P.lwm P.hwm sf = .ok d0) (hlwm : 1 ≤ P.lwm) (hsf : 1 ≤ sf)
    (hf : Bool) {fuel : Nat} (hfuel : P.hwm + 50 < fuel) (os : List Act) :
    ∃ s xs, session ⟨P, L, sortedImpl pq lb, sf, ρ, fun _ => false⟩ false hf fuel (fun d => d.rangeQuery pq lb lo hi)
        (SerialRun.init ⟨P, L, sortedImpl pq lb, sf, ρ, fun _ => false⟩ 2) os = .ok (some (s, xs)) ∧
      Answers ρ lo hi [] os xs ∧ Quiet s.base := by
  have key : ∀ (os : List Act) (ops : List (Index.Op R)) (d : Index R), InsertOnly ops → d0.run ops = .ok (d, List.replicate ops.length true) →
      ∃ d' xs, serial ⟨P, L, sortedImpl pq lb, sf, ρ, fun _ => false⟩ (fun d => d.rangeQuery pq lb lo hi) d os = .ok (d', xs) ∧
        Answers ρ lo hi (inserted ops) os xs := by
    intro os
    induction os with
    | nil => intro ops d _ _; exact ⟨d, [], rfl, rfl⟩
    | cons o os ih =>
      intro ops d hio hd
      cases o with
      | call r =>
        have hio' : InsertOnly (ops ++ [.ins (ρ r)]) := by
          intro o ho
          rcases List.mem_append.mp ho with ho | ho
          · exact hio o ho
          · exact ⟨ρ r, List.mem_singleton.mp ho⟩
        obtain ⟨d1, -, h1, -, -⟩ := C04_insert_only_exact (pq' := pq) hpq hlb hnew hlwm hsf hio' lo hi
        obtain ⟨b, e1, e2⟩ := run_snoc_inv ops hd h1
        have hb : b = true := by
          rw [List.length_append, List.length_singleton, List.replicate_succ'] at e2
          exact (List.singleton_inj.mp (List.append_cancel_left e2)).symm
        subst hb
        obtain ⟨d', xs, g1, g2⟩ := ih _ d1 hio' h1
        rw [inserted_snoc] at g2
        refine ⟨d', .ret true :: xs, ?_, xs, rfl, g2⟩
        rw [serial]
        have : serialAct ⟨P, L, sortedImpl pq lb, sf, ρ, fun _ => false⟩ (fun d => d.rangeQuery pq lb lo hi) d (.call r) = .ok (d1, .ret true) := by
          show (d.step (.ins (ρ r))).map _ = _
          rw [e1]; rfl
        simp only [this, bind, Except.bind, g1]
      | query =>
        obtain ⟨d1, res, h1, h2, h3⟩ := C04_insert_only_exact (pq' := pq) hpq hlb hnew hlwm hsf hio lo hi
        rw [hd] at h1
        cases h1
        obtain ⟨d', xs, g1, g2⟩ := ih ops d hio hd
        refine ⟨d', .result (.ok res) :: xs, ?_, res, xs, rfl, h3, g2⟩
        rw [serial]
        simp only [serialAct, h2, bind, Except.bind, g1]
      | await =>
        obtain ⟨d', xs, g1, g2⟩ := ih ops d hio hd
        refine ⟨d', .none :: xs, ?_, xs, rfl, g2⟩
        rw [serial]
        simp only [serialAct, bind, Except.bind, g1]
  obtain ⟨d, xs, h1, h2⟩ := key os [] d0 (fun o ho => by cases ho) rfl
  obtain ⟨s, h3, h4⟩ := C91_serial_range_query P L pq lb sf ρ (fun _ => false) lo hi hnew hf hfuel os h1
  exact ⟨s, xs, h3, h2, h4⟩

/-- What the answers of a tagging session promise; `hist` are the calls made before. Inserts return 1. The first erase of a record
returns 1 exactly if the record was inserted (once anything was inserted). A query that returns gives only inserted records of the
range, and a record that was not erased as often as it was inserted. -/
def TagAnswers (ρ : Nat → R) (del : Nat → Bool) (lo hi : K) : List (Index.Op R) → List Act → List (Ans (Res (List R))) → Prop
  | _, [], xs => xs = []
  | hist, .call r :: os, xs => ∃ b ys, xs = .ret b :: ys ∧
      (if del r then (∃ x, .ins x ∈ hist) → .del (ρ r) ∉ hist → (b = true ↔ .ins (ρ r) ∈ hist) else b = true) ∧
      TagAnswers ρ del lo hi (hist ++ [if del r then .del (ρ r) else .ins (ρ r)]) os ys
  | hist, .query :: os, xs => ∃ res ys, xs = .result res :: ys ∧
      (∀ l, res = .ok l → (∀ r ∈ l, .ins r ∈ hist ∧ lo ≤ key r ∧ key r ≤ hi) ∧
        ∀ r, lo ≤ key r ∧ key r ≤ hi → .del r ∉ hist → l.count r = insCount r hist) ∧
      TagAnswers ρ del lo hi hist os ys
  | hist, .await :: os, xs => ∃ ys, xs = .none :: ys ∧ TagAnswers ρ del lo hi hist os ys

/-- C96, end to end for sorted shards with leveling or tiering: what a one-thread tagging session that does not fault answers. -/
theorem C96_tagging_answers (P : Conc.Par) {L : Layout} (hL : L ≠ .bsm) {pq : PQ R} (hpq : pq.ByRec) {lb : LB R K} (hlb : lb.Sound) (sf : Nat)
    (ρ : Nat → R) (del : Nat → Bool) (lo hi : K)
    {d0 : Index R} (hnew : Index.new L true (sortedImpl pq lb) P.lwm P.hwm sf = .ok d0) (hlwm : 1 ≤ P.lwm) (hsf : 1 ≤ sf)
    (hf : Bool) {fuel : Nat} (hfuel : P.hwm + 50 < fuel) (os : List Act) {o : Option (St R × List (Ans (Res (List R))))}
    (hs : session ⟨P, L, sortedImpl pq lb, sf, ρ, del⟩ true hf fuel (fun d => d.rangeQuery pq lb lo hi)
        (SerialRun.init ⟨P, L, sortedImpl pq lb, sf, ρ, del⟩ 2) os = .ok o) :
    ∃ s xs, o = some (s, xs) ∧ TagAnswers ρ del lo hi [] os xs ∧ Quiet s.base := by
  have key : ∀ (os : List Act) (ops : List (Index.Op R)) (d d' : Index R) (bs : List Bool) (xs : List (Ans (Res (List R)))),
      d0.run ops = .ok (d, bs) →
      serial ⟨P, L, sortedImpl pq lb, sf, ρ, del⟩ (fun d => d.rangeQuery pq lb lo hi) d os = .ok (d', xs) →
      TagAnswers ρ del lo hi ops os xs := by
    intro os
    induction os with
    | nil =>
      intro ops d d' bs xs _ h
      rw [serial] at h
      cases h
      rfl
    | cons o os ih =>
      intro ops d d' bs xs hd h
      rw [serial] at h
      obtain ⟨⟨d1, x⟩, h1, h⟩ := bind_ok.mp h
      obtain ⟨⟨d2, ys⟩, h2, h⟩ := bind_ok.mp h
      cases h
      cases o with
      | call r =>
        obtain ⟨⟨d3, b⟩, h3, h4⟩ : ∃ y : Index R × Bool, d.step (op ⟨P, L, sortedImpl pq lb, sf, ρ, del⟩ r) = .ok y ∧ (y.1, Ans.ret y.2) = (d1, x) := by
          simp only [serialAct] at h1
          cases hst : d.step (op ⟨P, L, sortedImpl pq lb, sf, ρ, del⟩ r) with
          | error f => rw [hst] at h1; cases h1
          | ok y => rw [hst] at h1; exact ⟨y, rfl, Except.ok.inj h1⟩
        cases h4
        have hrun := run_snoc' ops hd h3
        refine ⟨b, ys, rfl, ?_, ih _ d3 d' _ ys hrun h2⟩
        have hop : op ⟨P, L, sortedImpl pq lb, sf, ρ, del⟩ r = if del r then .del (ρ r) else .ins (ρ r) := rfl
        rw [hop] at h3 hrun
        cases hdel : del r with
        | true =>
          rw [if_pos rfl]
          intro hins hno
          rw [hdel, if_pos rfl] at h3
          exact C12_first_erase_partial hL hpq hlb hnew hlwm hsf hd hins hno h3
        | false =>
          rw [if_neg (by simp)]
          rw [hdel, if_neg (by simp)] at hrun
          have hlen := (C01_serial_inserts_succeed hnew hlwm hd).1
          have := (C01_serial_inserts_succeed hnew hlwm hrun).2.1 ops.length (ρ r) (by simp)
          rw [← hlen] at this
          simpa using this
      | query =>
        cases h1
        refine ⟨_, ys, rfl, ?_, ih ops _ d' bs ys hd h2⟩
        intro l hl
        refine ⟨C07_only_inserted_in_range hpq hlb hnew hlwm hd hl, fun r hr hno => ?_⟩
        have hset := C08_partial hpq hlb hnew hlwm hd hl
        obtain ⟨g1, g2, g3, g4, g5⟩ := new_inv hL hnew hlwm hsf
        obtain ⟨k1, k2⟩ := tagging_before_first g1 (g4 ▸ sortedImpl_conserving pq lb) (g4 ▸ sortedImpl_lookupSound pq lb) g3 g5
          hd r (List.count_eq_zero.mpr hno)
        rw [← k2, ← Multiset.coe_count, hset, Multiset.count_map, Multiset.filter_filter, liveCount, Multiset.countP_eq_card_filter]
        congr 1
        apply Multiset.filter_congr
        intro e he
        constructor
        · rintro ⟨rfl, -⟩
          exact ⟨rfl, (k1 e he).1⟩
        · rintro ⟨rfl, -⟩
          exact ⟨rfl, hr⟩
      | await =>
        cases h1
        exact ⟨ys, rfl, ih ops _ d' bs ys hd h2⟩
  have hC := C96_tagging_session (C := ⟨P, L, sortedImpl pq lb, sf, ρ, del⟩) (sorted_readsContents pq lb)
    (Q := fun d => d.rangeQuery pq lb lo hi) (fun _ _ _ => rfl) hnew hf hfuel os
  cases hser : serial ⟨P, L, sortedImpl pq lb, sf, ρ, del⟩ (fun d => d.rangeQuery pq lb lo hi) d0 os with
  | error f => rw [hC.2 f hser] at hs; cases hs
  | ok y =>
    obtain ⟨d, xs⟩ := y
    obtain ⟨s, h1, h2, -⟩ := hC.1 d xs hser
    rw [h1] at hs
    cases hs
    exact ⟨s, xs, rfl, key os [] d0 d [] xs rfl hser, h2⟩

end Sorted

/-! ### A concrete session -/

/-- Records 1, 2, 3, ... with key = value = number; numbers from 100 on stand for erases of the record with the number less 100. -/
def demo (L : Layout) : Cfg Rec := ⟨⟨1, 2⟩, L, sortedImpl PQ.std LB.scan, 2, fun r => ⟨r % 100, r % 100⟩, fun r => decide (100 ≤ r)⟩

/-- An answer in short: the return value, or the keys of the result. -/
def brief : Ans (Res (List Rec)) → Option (Bool × List Nat)
  | .ret b => some (b, [])
  | .result (.ok l) => some (true, l.map Record.key)
  | .result _ => none
  | .none => some (true, [])

/-- The answers of a session, if it ends, and whether it leaves the flag and the reference counts clear. -/
def demoAns (L : Layout) (tg : Bool) (os : List Act) : Option (List (Option (Bool × List Nat)) × Bool) :=
  match session (demo L) tg true 60 (fun d => d.rangeQuery PQ.std LB.scan 0 9) (SerialRun.init (demo L) 2) os with
  | .ok (some (s, xs)) => some (xs.map brief, !s.base.flag && s.base.cur.ref == 0 && s.base.head.ref == 0)
  | _ => none

set_option maxRecDepth 16384 in
/-- Inserts, an erase and queries with reconstructions in between. -/
example : demoAns .tiering false [.call 1, .query, .call 2, .call 3, .call 101, .call 4, .await, .query] =
    some ([some (true, []), some (true, [1]), some (true, []), some (true, []), some (true, []), some (true, []), some (true, []),
      some (true, [2, 3, 4])], true) := by decide

set_option maxRecDepth 16384 in
/-- With tagging: an erase that hits a shard, one that hits the buffer and one that misses. The erased records are still returned by
the query (C08). -/
example : demoAns .leveling true [.call 1, .call 2, .call 101, .call 102, .call 109, .query] =
    some ([some (true, []), some (true, []), some (true, []), some (true, []), some (false, []), some (true, [1, 2])], true) := by decide

set_option maxRecDepth 16384 in
/-- The flush that follows drops the tagged record. -/
example : demoAns .tiering true [.call 1, .call 101, .call 2, .query] =
    some ([some (true, []), some (true, []), some (true, []), some (true, [2])], true) := by decide

/-- The hypotheses of the theorems can be met. -/
example : ∃ d0 : Index Rec, Index.new .leveling false (sortedImpl PQ.std LB.scan) 1 2 2 = .ok d0 ∧ ReadsContents (demo .leveling).impl :=
  ⟨_, rfl, sorted_readsContents _ _⟩

end DE.SerialRun
