import Verif.Proofs.Decompose
import Verif.Proofs.Instances
import Verif.Proofs.VPIndex
import Verif.Properties.Sampling

/-!
C100 (user-defined shard and query classes).
-/

namespace DE
variable {R W P LQ BQ LR Out : Type} {Q : QueryClass R W P LQ BQ LR Out} {good : Shard R → Prop}
  {pre : P → Multiset (Entry R) → Prop} {spec : P → Multiset (Entry R) → List Out → Prop}

/-- C100 on insert-only histories: with a shard class that conserves records and a query class for a decomposable problem,
every insert returns 1, every query has defined behaviour, and what it returns answers the question for exactly the inserted
records. On any layout, delete policy and watermarks; the class may use early abort, randomness and repeated rounds (with a
class that never repeats the query returns). -/
theorem C100_insert_only [DecidableEq R] [Inhabited R] {L : Layout} {tag : Bool} {I : ShardImpl R} (hI : I.CleanOk) (hk : I.Keeps good)
    (D : Decomposition Q (fun s => s.Plain ∧ good s) pre spec) {lwm hwm sf : Nat} {d0 : Index R} {ops : List (Index.Op R)}
    (hnew : Index.new L tag I lwm hwm sf = .ok d0) (hlwm : 1 ≤ lwm) (hsf : 1 ≤ sf) (hio : InsertOnly ops) :
    ∃ d, d0.run ops = .ok (d, List.replicate ops.length true) ∧
      ∀ (p : P) (w : W) (fuel : Nat), pre p ((inserted ops).map (fun r => (⟨r, false, false⟩ : Entry R))) →
        ∃ o, d.query Q fuel p w = .ok o ∧
          (∀ res, o = some res → spec p ((inserted ops).map (fun r => (⟨r, false, false⟩ : Entry R))) res) ∧
          (Q.OneRound → 0 < fuel → o ≠ none) := by
  obtain ⟨d, h1, h2, h3, -⟩ := (new_cleanI hI hnew hlwm hsf).run ops hio
  obtain ⟨-, -, -, h4, h5, -⟩ := new_ginv hnew hlwm hsf
  rw [h5, zero_add] at h3
  obtain ⟨hd, -⟩ := new_ok hnew
  obtain ⟨h6, h7⟩ := Keeps.run hk (new_buf hnew hlwm) h4 (by rw [hd]) h1
  refine ⟨d, h1, fun p w fuel hpre => ?_⟩
  have e : d.entries = ((inserted ops).map (fun r => (⟨r, false, false⟩ : Entry R)) : List (Entry R)) := h3
  rw [← e] at hpre ⊢
  exact query_ok D (Buffer.view_gets h7.wf) (fun s hs => ⟨h2.shards s hs, h6.visible s hs⟩) p w fuel hpre

/-- C100 on any history that ran, with erases of either policy: the query answers the question for what is stored, every entry
once. -/
theorem C100_any_history [DecidableEq R] [Inhabited R] {L : Layout} {tag : Bool} {I : ShardImpl R} (hk : I.Keeps good)
    (D : Decomposition Q good pre spec) {lwm hwm sf : Nat} {d0 d : Index R} {ops : List (Index.Op R)} {bs : List Bool}
    (hnew : Index.new L tag I lwm hwm sf = .ok d0) (hlwm : 1 ≤ lwm) (hrun : d0.run ops = .ok (d, bs))
    (p : P) (w : W) (fuel : Nat) (hpre : pre p d.entries) :
    ∃ o, d.query Q fuel p w = .ok o ∧ (∀ res, o = some res → spec p d.entries res) ∧ (Q.OneRound → 0 < fuel → o ≠ none) := by
  obtain ⟨hd, -⟩ := new_ok hnew
  obtain ⟨h6, h7⟩ := Keeps.run hk (new_buf hnew hlwm) (by rw [hd]) (by rw [hd]) hrun
  exact query_ok D (Buffer.view_gets h7.wf) (fun s hs => h6.visible s hs) p w fuel hpre

/-- C100 with tombstone deletes on leveling and tiering: the answer is for a collection `E` in which, for every record, the live
copies minus the tombstones are the inserts minus the erases; a query class that lets tombstones cancel records answers for the
current content. -/
theorem C100_tombstones [DecidableEq R] [Inhabited R] {L : Layout} (hL : L = .leveling ∨ L = .tiering) {I : ShardImpl R}
    (hI : I.Conserving) (hls : I.LookupSound) (hk : I.Keeps good) (D : Decomposition Q good pre spec)
    {lwm hwm sf : Nat} {d0 d : Index R} {ops : List (Index.Op R)} {bs : List Bool}
    (hnew : Index.new L false I lwm hwm sf = .ok d0) (hlwm : 1 ≤ lwm) (hsf : 1 ≤ sf) (hrun : d0.run ops = .ok (d, bs)) :
    ∃ E : Multiset (Entry R), (∀ x ∈ E, x.del = false) ∧
      (∀ r, liveCount r E + delCount r ops = tombCount r E + insCount r ops) ∧
      ∀ (p : P) (w : W) (fuel : Nat), pre p E → ∃ o, d.query Q fuel p w = .ok o ∧ (∀ res, o = some res → spec p E res) ∧
        (Q.OneRound → 0 < fuel → o ≠ none) := by
  have hL' : L ≠ .bsm := by rcases hL with rfl | rfl <;> decide
  obtain ⟨h1, h2, h3, h4, h5⟩ := new_inv hL' hnew hlwm hsf
  obtain ⟨⟨a, b⟩, -⟩ := run_net h1 (h4 ▸ hI) (h4 ▸ hls) h3 h5 hrun
  exact ⟨d.entries, a, b, fun p w fuel hpre => C100_any_history hk D hnew hlwm hrun p w fuel hpre⟩

/-! ### The query classes of the repository are run by this driver -/

/-- The models of range query, range count, point lookup, k-NN, range sampling and weighted sampling used by the other properties return exactly
what this driver returns for the query classes of the repository. -/
theorem C100_builtin {K 𝔽 : Type} [LinearOrder R] [LinearOrder K] [HasKey R K] [LinearOrder 𝔽] [Add 𝔽] [Sub 𝔽] (d : Index R) (fuel : Nat) :
    (∀ (pq : PQ R) (lb : LB R K) (lo hi : K) (out : List R),
      d.query (rqClass pq lb) (fuel+1) (lo, hi) () = .ok (some out) ↔ d.rangeQuery pq lb lo hi = .ok out) ∧
    (∀ (lb : LB R K) (lo hi : K) (n : Nat),
      d.query (rcClass lb) (fuel+1) (lo, hi) () = .ok (some [n]) ↔ d.rangeCount lb lo hi = .ok n) ∧
    (∀ (f : Shard R → K → Res (Option Nat)) (k : K) (out : List R),
      d.query (plClass f) (fuel+1) k () = .ok (some out) ↔ d.pointLookup f k = .ok out) ∧
    (∀ (q : MaxQ R 𝔽) (dist : R → R → 𝔽) (treeOf : Shard R → Res (VP.Tree R 𝔽)) (point : R) (k : Nat) (out : List R),
      d.query (knnClass q dist treeOf) (fuel+1) (point, k) () = .ok (some out) ↔ d.knn q dist treeOf point k = .ok out) ∧
    (∀ (rej : Bool) (al : AliasFn) (g : Rng) (lb ub : LB R K) (lo hi : K) (n : Nat) (out : List R),
      d.query (irsClass rej al g lb ub) fuel (lo, hi, n) 0 = .ok (some out) ↔ d.irs rej al g lb ub lo hi n fuel = .ok (some out)) ∧
    ∀ (wt : R → Nat) (D : Nat) (al : AliasFn) (g : Rng) (n : Nat) (out : List R),
      d.query (wssClass wt D al g) fuel n 0 = .ok (some out) ↔ d.wss wt D al g n fuel = .ok (some out) := by
  refine ⟨fun pq lb lo hi out => (rangeQuery_driver pq lb d lo hi fuel).1 out, ?_,
    fun f k out => (pointLookup_driver f d k fuel).1 out, fun q dist t point k out => (knn_driver q dist t d point k fuel).1 out,
    fun rej al g lb ub lo hi n out => irs_driver rej al g lb ub d lo hi n fuel out,
    fun wt D al g n out => wss_driver wt D al g d n fuel out⟩
  intro lb lo hi n
  rw [(rangeCount_driver lb d lo hi fuel).1 [n], bind_ok]
  constructor
  · rintro ⟨m, h1, h2⟩; cases h2; exact h1
  · intro h; exact ⟨n, h, rfl⟩

/-! ### Two user-defined classes -/

/-- A user's shard class: an unsorted bag. -/
def bagImpl [DecidableEq R] : ShardImpl R where
  build := fun v => do
    let l ← v.gets
    .ok { data := l.filter (fun w => !w.isDeleted), tscnt := 0 }
  merge := fun ss => .ok { data := (ss.filterMap id).flatMap (fun s => s.data.filter (fun w => !w.isDeleted)), tscnt := 0 }
  lookup := fun s r => .ok (s.data.findIdx? (fun w => decide (w.record = r)))

theorem bagImpl_keeps [DecidableEq R] : (bagImpl : ShardImpl R).Keeps (fun _ => True) :=
  ⟨fun _ _ _ => trivial, fun _ _ _ _ => trivial, fun _ _ _ => trivial⟩

theorem bagImpl_cleanOk [DecidableEq R] : (bagImpl : ShardImpl R).CleanOk where
  conserving := {
    build := by
      intro v l s hv hs
      simp only [bagImpl, bind_ok, hv.2.1] at hs
      obtain ⟨l', e, hs⟩ := hs
      cases e; cases hs
      exact dropDel_reduces _
    merge := by
      intro ss s hs
      simp only [bagImpl] at hs
      cases hs
      have e : (ss.map some).filterMap id = ss := by induction ss <;> simp_all
      simp only [e]
      have : ∀ ss : List (Shard R), ss.flatMap (fun s => s.data.filter (fun w => !w.isDeleted)) =
          (ss.flatMap Shard.data).filter (fun w => !w.isDeleted) := by
        intro ss; induction ss <;> simp_all
      rw [this]
      refine (Reduces.of_eq ?_).trans (dropDel_reduces _)
      clear this e
      induction ss with
      | nil => rfl
      | cons x xs ih => rw [List.flatMap_cons, ents_append, ← ih]; rfl }
  merge := fun ss _ _ => ⟨_, rfl⟩
  build := fun b hb _ => ⟨_, by simp only [bagImpl, Buffer.view_gets hb, bind, Except.bind]; rfl⟩

/-- A user's query class: the sum of `f` over all entries, computed `p + 1` times over (so that it repeats). -/
def sumClass (f : R → Nat) : QueryClass R Unit Nat Unit (View R) Nat Nat where
  preprocBuffer := fun v _ w => .ok (v, w)
  preproc := fun _ _ w => .ok ((), w)
  distribute := fun p qs b w => .ok ((p, qs, b), w)
  localBuffer := fun b w => do
    let l ← b.gets
    .ok (([(l.map (fun x => f x.record)).sum], b), w)
  localShard := fun s q w => .ok (([(s.data.map (fun x => f x.record)).sum], q), w)
  combine := fun rs _ out => .ok (out ++ [rs.flatten.sum])
  again := fun p _ qs b w => .ok (if p = 0 then none else some (p - 1, qs, b), w)
  earlyAbort := false

theorem ents_map_record {α : Type} [AddCommMonoid α] (f : R → α) (l : List (Wrapped R)) :
    ((ents l).map (fun e => f e.record)).sum = (l.map (fun x => f x.record)).sum := by
  unfold ents
  rw [Multiset.map_coe, Multiset.sum_coe, List.map_map]
  rfl

/-- The sum is a decomposable problem. -/
def sumClass_decomposition (f : R → Nat) (good : Shard R → Prop) : Decomposition (sumClass f) good (fun _ _ => True)
    (fun p A out => out = List.replicate (p + 1) (A.map (fun e => f e.record)).sum) where
  Prepared := fun _ _ _ => True
  PreparedB := fun _ A v => ∃ l, v.gets = .ok l ∧ A = ents l
  Ready := fun _ _ _ => True
  ReadyB := fun _ A v => ∃ l, v.gets = .ok l ∧ A = ents l
  Part := fun _ A r => r = [(A.map (fun e => f e.record)).sum]
  Before := fun p₀ p A out => p ≤ p₀ ∧ out = List.replicate (p₀ - p) (A.map (fun e => f e.record)).sum
  After := fun p₀ p A out => p ≤ p₀ ∧ out = List.replicate (p₀ - p + 1) (A.map (fun e => f e.record)).sum
  preprocBuffer := fun v l p w h => ⟨v, w, rfl, l, h, rfl⟩
  preproc := fun s p w _ => ⟨(), w, rfl, trivial⟩
  distribute := by
    intro p A As qs b w _ hb hq
    exact ⟨p, qs, b, w, rfl, hb, hq, le_refl _, by simp⟩
  localBuffer := by
    rintro p A b w ⟨l, h, rfl⟩
    refine ⟨[(l.map (fun x => f x.record)).sum], b, w, ?_, ?_, l, h, rfl⟩
    · simp only [sumClass, h, bind, Except.bind]
    · rw [ents_map_record]
  localShard := by
    intro s p q w _ _
    exact ⟨_, q, w, rfl, by rw [ents_map_record], trivial⟩
  combine := by
    rintro p₀ p As rs out _ ⟨hp, rfl⟩ hP
    have hrs : rs.flatten.sum = (As.sum.map (fun e => f e.record)).sum := by
      clear hp
      induction hP with
      | nil => simp
      | cons h _ ih => rw [h, List.flatten_cons, List.sum_append, ih]; simp
    refine ⟨_, rfl, hp, ?_⟩
    simp only [sumClass, Bool.false_eq_true, if_false]
    rw [hrs, ← List.replicate_succ']
  again := by
    rintro p₀ p A As out qs b w _ ⟨hp, rfl⟩ hb hq
    refine ⟨_, w, rfl, ?_, ?_⟩
    · intro h
      split at h
      · next h0 => subst h0; simp
      · cases h
    · intro p' qs' b' h
      split at h
      · cases h
      · next h0 =>
        cases h
        refine ⟨⟨by omega, ?_⟩, hb, hq⟩
        congr 1
        omega

/-- A user's query class with early abort: some stored record, if there is any. -/
def anyClass : QueryClass R Unit Unit Unit (View R) R R where
  preprocBuffer := fun v _ w => .ok (v, w)
  preproc := fun _ _ w => .ok ((), w)
  distribute := fun p qs b w => .ok ((p, qs, b), w)
  localBuffer := fun b w => do
    let l ← b.gets
    .ok (((l.map Wrapped.record).take 1, b), w)
  localShard := fun s q w => .ok (((s.data.map Wrapped.record).take 1, q), w)
  combine := fun rs _ out => .ok (out ++ rs.flatten)
  again := fun _ _ _ _ w => .ok (none, w)
  earlyAbort := true

/-- Finding some record is a decomposable problem. -/
def anyClass_decomposition (good : Shard R → Prop) : Decomposition (anyClass (R := R)) good (fun _ _ => True)
    (fun _ A out => (A = 0 ∧ out = []) ∨ ∃ e ∈ A, out = [e.record]) where
  Prepared := fun _ _ _ => True
  PreparedB := fun _ A v => ∃ l, v.gets = .ok l ∧ A = ents l
  Ready := fun _ _ _ => True
  ReadyB := fun _ A v => ∃ l, v.gets = .ok l ∧ A = ents l
  Part := fun _ A r => (A = 0 ∧ r = []) ∨ ∃ e ∈ A, r = [e.record]
  Before := fun _ _ _ out => out = []
  After := fun _ _ A out => (A = 0 ∧ out = []) ∨ ∃ e ∈ A, out = [e.record]
  preprocBuffer := fun v l p w h => ⟨v, w, rfl, l, h, rfl⟩
  preproc := fun s p w _ => ⟨(), w, rfl, trivial⟩
  distribute := fun p A As qs b w _ hb hq => ⟨p, qs, b, w, rfl, hb, hq, rfl⟩
  localBuffer := by
    rintro p A b w ⟨l, h, rfl⟩
    refine ⟨(l.map Wrapped.record).take 1, b, w, ?_, ?_, l, h, rfl⟩
    · simp only [anyClass, h, bind, Except.bind]
    · cases l with
      | nil => exact Or.inl ⟨rfl, rfl⟩
      | cons x xs => exact Or.inr ⟨x.entry, by simp [ents], rfl⟩
  localShard := by
    intro s p q w _ _
    refine ⟨_, q, w, rfl, ?_, trivial⟩
    cases s.data with
    | nil => exact Or.inl ⟨rfl, rfl⟩
    | cons x xs => exact Or.inr ⟨x.entry, by simp [ents], rfl⟩
  combine := by
    rintro p₀ p As rs out _ rfl hP
    refine ⟨_, rfl, ?_⟩
    simp only [anyClass, if_true, List.nil_append]
    induction hP with
    | nil => exact Or.inl ⟨rfl, rfl⟩
    | cons h _ ih =>
      rcases h with ⟨rfl, rfl⟩ | ⟨e, he, rfl⟩
      · simpa [cutAfter] using ih
      · refine Or.inr ⟨e, by simp [he], ?_⟩
        simp [cutAfter]
  again := by
    intro p₀ p A As out qs b w _ h hb hq
    exact ⟨none, w, rfl, fun _ => h, by intro _ _ _ h; cases h⟩

/-- Non-vacuous: the promises of C100 are met by these classes, and on a run with flushes and merges the answers come out. -/
example (L : Layout) {d0 : Index Rec} (hnew : Index.new L false bagImpl 2 2 2 = .ok d0) :
    ∃ d, d0.run (insSeq 0 9) = .ok (d, List.replicate 9 true) ∧
      (∃ o, d.query (sumClass Record.value) 5 2 () = .ok o ∧ ∀ res, o = some res → res = [36, 36, 36]) := by
  obtain ⟨d, h1, h2⟩ := C100_insert_only (bagImpl_cleanOk) (bagImpl_keeps) (sumClass_decomposition Record.value _) hnew
    (by decide) (by decide) (ops := insSeq 0 9) (insSeq_insertOnly _ _)
  obtain ⟨o, h3, h4, -⟩ := h2 2 () 5 trivial
  exact ⟨d, h1, o, h3, fun res hr => by rw [h4 res hr]; decide⟩

example : (do
    let d ← Index.new .tiering false (bagImpl (R := Rec)) 2 2 2
    let (d, _) ← d.run (insSeq 0 9 ++ [Index.Op.del (⟨3, 3⟩ : Rec)])
    let a ← d.query (sumClass Record.value) 5 1 ()
    let b ← d.query anyClass 5 () ()
    (.ok (a, b, d.str.visible.length) : Res _)) = .ok (some [39, 39], some [⟨8, 8⟩], 3) := by decide

end DE
