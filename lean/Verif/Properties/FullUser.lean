import Verif.Properties.UserQuery
import Verif.Properties.LinearTomb

/-!
C101: queries of user-defined shard and query classes that run beside inserts, tombstone erases and reconstructions.
-/

namespace DE.Full
open Conc (Par Slot Ch)
variable {R W Q₀ LQ BQ LR Out : Type} [Inhabited R] {Q : QueryClass R W Q₀ LQ BQ LR Out} {good : Shard R → Prop}
  {pre : Q₀ → Multiset (Entry R) → Prop} {spec : Q₀ → Multiset (Entry R) → List Out → Prop}

omit [Inhabited R] in
theorem keeps_good {I : ShardImpl R} (hI : I.CleanOk) (hk : I.Keeps good) : Good I good where
  ok := hI
  merge := fun ss s _ h hm => hk.merge (ss.map some) s (by
    intro x hx
    obtain ⟨y, hy, hxy⟩ := List.mem_map.mp hx
    cases hxy; exact h x hy) hm
  build := fun _ s _ _ hb => hk.build _ s hb

omit [Inhabited R] in
theorem keeps_goodNet {I : ShardImpl R} (hI : I.Conserving) (hk : I.Keeps good) : GoodNet I good where
  conserving := hI
  merge := fun ss s _ h hm => hk.merge (ss.map some) s (by
    intro x hx
    obtain ⟨y, hy, hxy⟩ := List.mem_map.mp hx
    cases hxy; exact h x hy) hm
  build := fun _ s _ hb => hk.build _ s hb

/-- C101, inserts only: if flushes copy only finished slots and the appends below the tail of the view have finished, a query of
a user-defined class has defined behaviour and what it returns answers the question for exactly the records whose inserts had taken
effect at one moment between its call (`s0`: the caller has no view yet) and its end. -/
theorem C101_partial {P : Par} {L : Layout} {I : ShardImpl R} (hI : I.CleanOk) (hk : I.Keeps good)
    (D : Decomposition Q (fun s => s.Plain ∧ good s) pre spec) {sf n : Nat} {ρ : Nat → R}
    (hw : 0 < P.hwm) (hsf : 1 ≤ sf) {s0 s : St R} (h0 : Reach ⟨P, L, I, sf, ρ, fun _ => false⟩ n Conc.tidy s0)
    (hl : Later ⟨P, L, I, sf, ρ, fun _ => false⟩ Conc.tidy s0 s) {i : Nat} {u t : Conc.Th} {e x : Nat}
    (hu : s0.base.thr[i]? = some u) (hun : u.hd = none) (hi : Holds s.base i t e x) (hfin : ∀ p, p < t.tl → ∃ r, (p, r) ∈ s.base.done) :
    ∃ s1, Later ⟨P, L, I, sf, ρ, fun _ => false⟩ Conc.tidy s0 s1 ∧ Later ⟨P, L, I, sf, ρ, fun _ => false⟩ Conc.tidy s1 s ∧
      ∀ (p : Q₀) (w : W) (fuel : Nat), pre p (s1.base.claimed.map (fun y => (⟨ρ y.2, false, false⟩ : Entry R)) : List (Entry R)) →
        ∃ o, (snapshot ⟨P, L, I, sf, ρ, fun _ => false⟩ s e x t.tl).query Q fuel p w = .ok o ∧
          (∀ res, o = some res → spec p (s1.base.claimed.map (fun y => (⟨ρ y.2, false, false⟩ : Entry R)) : List (Entry R)) res) ∧
          (Q.OneRound → 0 < fuel → o ≠ none) := by
  obtain ⟨rs, h1, h2, h3, h4, h5⟩ := held (C := ⟨P, L, I, sf, ρ, fun _ => false⟩) (keeps_good hI hk) (fun _ => rfl) hw hsf
    (hl.reach h0) hi hfin
  obtain ⟨s1, a1, a2, rfl⟩ := at_moment (C := ⟨P, L, I, sf, ρ, fun _ => false⟩) hw h0 hl hu hun hi h1 h2
  refine ⟨s1, a1, a2, fun p w fuel hpre => ?_⟩
  have he : (snapshot ⟨P, L, I, sf, ρ, fun _ => false⟩ s e x t.tl).entries =
      (s1.base.claimed.map (fun y => (⟨ρ y.2, false, false⟩ : Entry R)) : List (Entry R)) := by
    rw [h3]
    unfold insEntries
    rw [List.map_map, List.map_map, Multiset.coe_eq_coe]
    exact (List.reverse_perm _).map _
  rw [← he] at hpre ⊢
  exact query_ok D h4 h5 p w fuel hpre

/-- In every insert-only execution, whether or not flushes wait for the records they copy: with a shard class that accepts what a view
contains, the query has defined behaviour and answers the question for as many values as the tail of its view says, each of
which was inserted or is the initial content of a slot. -/
theorem C101_any_partial {P : Par} {L : Layout} {I : ShardImpl R} (hI : GoodAny I good)
    (D : Decomposition Q (fun s => s.Plain ∧ good s) pre spec) {sf n : Nat} {ρ : Nat → R}
    (hw : 0 < P.hwm) (hsf : 1 ≤ sf) {s : St R} (h : Reach ⟨P, L, I, sf, ρ, fun _ => false⟩ n Conc.any s)
    {i : Nat} {t : Conc.Th} {e x : Nat} (hi : Holds s.base i t e x) :
    ∃ vs : List R, vs.length = t.tl ∧ (∀ v ∈ vs, v = default ∨ ∃ p r, (p, r) ∈ s.base.done ∧ v = ρ r) ∧
      ∀ (p : Q₀) (w : W) (fuel : Nat), pre p (vs.map (fun r => (⟨r, false, false⟩ : Entry R)) : List (Entry R)) →
        ∃ o, (snapshot ⟨P, L, I, sf, ρ, fun _ => false⟩ s e x t.tl).query Q fuel p w = .ok o ∧
          (∀ res, o = some res → spec p (vs.map (fun r => (⟨r, false, false⟩ : Entry R)) : List (Entry R)) res) ∧
          (Q.OneRound → 0 < fuel → o ≠ none) := by
  have hv := h.pinnedW (C := ⟨P, L, I, sf, ρ, fun _ => false⟩) (VGood.keepsAny (C := ⟨P, L, I, sf, ρ, fun _ => false⟩) hI (fun _ => rfl) hw hsf)
    hw (fun h => h.elim) hi.thr hi.ep
  have he := snapshot_entries (C := ⟨P, L, I, sf, ρ, fun _ => false⟩) (h := x) (tl := t.tl) (fun _ => rfl) hv
  refine ⟨(Conc.snapshot P s.base e x t.tl).map (sval ρ), ?_, ?_, fun p w fuel hpre => ?_⟩
  · rw [List.length_map]; exact h.base.seen hw hi.thr hi.ep hi.hd hi.view
  · intro v hv
    obtain ⟨y, hy, rfl⟩ := List.mem_map.mp hv
    have := h.base.real hw e x t.tl y hy
    match y, this with
    | none, _ => exact Or.inl rfl
    | some (p, r), this => exact Or.inr ⟨p, r, this _ rfl, rfl⟩
  · have he' : (snapshot ⟨P, L, I, sf, ρ, fun _ => false⟩ s e x t.tl).entries =
        (((Conc.snapshot P s.base e x t.tl).map (sval ρ)).map (fun r => (⟨r, false, false⟩ : Entry R)) : List (Entry R)) := he
    rw [← he'] at hpre ⊢
    exact query_ok D (snapshot_gets (C := ⟨P, L, I, sf, ρ, fun _ => false⟩) hw (view_le hw h hi).2) hv.shards p w fuel hpre

/-- C101 with tombstone erases, under the same condition and, on BSM, if no stretch of at most `hwm` consecutive operations cancels out
completely: the answer is for a collection `E` in which, for
every record, live copies minus tombstones are the inserts minus the erases that had taken effect at that moment. -/
theorem C101_tombstones_partial [DecidableEq R] {P : Par} {L : Layout} {I : ShardImpl R} (hI : I.Conserving) (hk : I.Keeps good)
    (D : Decomposition Q good pre spec) {sf n : Nat} {ρ : Nat → R} {del : Nat → Bool}
    (hw : 0 < P.hwm) (hsf : 1 ≤ sf) {s0 s : St R} (h0 : Reach ⟨P, L, I, sf, ρ, del⟩ n Conc.tidy s0)
    (hl : Later ⟨P, L, I, sf, ρ, del⟩ Conc.tidy s0 s) {i : Nat} {u t : Conc.Th} {e x : Nat}
    (hu : s0.base.thr[i]? = some u) (hun : u.hd = none) (hi : Holds s.base i t e x) (hfin : ∀ p, p < t.tl → ∃ r, (p, r) ∈ s.base.done)
    (hL : L = .bsm → NoVoidOps ⟨P, L, I, sf, ρ, del⟩ s.base.claimed) :
    ∃ s1, Later ⟨P, L, I, sf, ρ, del⟩ Conc.tidy s0 s1 ∧ Later ⟨P, L, I, sf, ρ, del⟩ Conc.tidy s1 s ∧
      ∃ E : Multiset (Entry R), (∀ x ∈ E, x.del = false) ∧
      (∀ r, liveCount r E + s1.base.claimed.countP (fun y => decide (del y.2 = true ∧ ρ y.2 = r)) =
        tombCount r E + s1.base.claimed.countP (fun y => decide (del y.2 = false ∧ ρ y.2 = r))) ∧
      ∀ (p : Q₀) (w : W) (fuel : Nat), pre p E →
        ∃ o, (snapshot ⟨P, L, I, sf, ρ, del⟩ s e x t.tl).query Q fuel p w = .ok o ∧ (∀ res, o = some res → spec p E res) ∧
          (Q.OneRound → 0 < fuel → o ≠ none) := by
  obtain ⟨s1, a1, a2, hn, hg, hs⟩ := heldNet (C := ⟨P, L, I, sf, ρ, del⟩) (keeps_goodNet hI hk) hw hsf h0 hl hu hun hi hfin hL
  have hdel : ∀ y ∈ (((s1.base.claimed.map Prod.snd).map (fun a => (⟨ρ a, del a, false⟩ : Entry R)) : List (Entry R)) : Multiset (Entry R)), y.del = false := by
    intro y hy
    obtain ⟨a, -, rfl⟩ := List.mem_map.mp (Multiset.mem_coe.mp hy)
    rfl
  refine ⟨s1, a1, a2, _, fun y hy => hdel y (Multiset.mem_of_le hn.le hy), ?_, fun p w fuel hpre => query_ok D hg hs p w fuel hpre⟩
  intro r
  have h1 := hn.net r (by intro y hy; simp [hdel y hy])
  have e1 : liveCount r (((s1.base.claimed.map Prod.snd).map (fun a => (⟨ρ a, del a, false⟩ : Entry R)) : List (Entry R)) : Multiset (Entry R)) =
      s1.base.claimed.countP (fun y => decide (del y.2 = false ∧ ρ y.2 = r)) := by
    unfold liveCount
    rw [Multiset.coe_countP, List.countP_map, List.countP_map]
    apply List.countP_congr
    intro a _
    simp [and_comm]
  have e2 : tombCount r (((s1.base.claimed.map Prod.snd).map (fun a => (⟨ρ a, del a, false⟩ : Entry R)) : List (Entry R)) : Multiset (Entry R)) =
      s1.base.claimed.countP (fun y => decide (del y.2 = true ∧ ρ y.2 = r)) := by
    unfold tombCount
    rw [Multiset.coe_countP, List.countP_map, List.countP_map]
    apply List.countP_congr
    intro a _
    simp [and_comm]
  rw [e1, e2] at h1
  omega

/-! ### A user's bag of records and the sum over it -/

/-- Two threads, a buffer of 4 slots, flushed at 2; appends from 100 on are erases. -/
def CB (L : Layout) (del : Nat → Bool) : Cfg Rec := ⟨Conc.P12, L, bagImpl, 2, fun r => ⟨r % 100, r % 100⟩, del⟩

omit [Inhabited R] in
theorem bagImpl_goodAny [DecidableEq R] : GoodAny (bagImpl : ShardImpl R) (fun _ => True) where
  toGood := keeps_good bagImpl_cleanOk bagImpl_keeps
  any := by
    intro v l h1 h2 _ hc
    refine ⟨_, by simp only [bagImpl, h2, bind, Except.bind]; rfl, ?_, trivial⟩
    exact ((dropDel_reduces l).clean hc).symm

/-- The hypotheses of `C101_partial`, and what it gives: the query begins while an insert is pending, a flush and two inserts happen
before it takes its view, and another insert before it reads. -/
example : ∃ s0 s, Reach (CB .leveling fun _ => false) 4 Conc.tidy s0 ∧ Later (CB .leveling fun _ => false) Conc.tidy s0 s ∧ s0.base.claimed.length = 2 ∧
    (∃ u, s0.base.thr[1]? = some u ∧ u.hd = none) ∧ Holds s.base 1 ⟨.run, some 1, some 2, 3⟩ 1 2 ∧ (∀ p, p < 3 → ∃ r, (p, r) ∈ s.base.done) ∧
    s.base.claimed.length = 4 ∧ (snapshot (CB .leveling fun _ => false) s 1 2 3).query (sumClass Record.value) 3 0 () = .ok (some [33]) := by
  obtain ⟨s0, s, h1, h2, h3⟩ := later_of (C := CB .leveling fun _ => false) (n := 4) Conc.tidyB (ok := Conc.tidy) (fun _ _ => Conc.tidyB_sound)
    (Conc.insLow 0 11 ++ Conc.insSched 0 10 ++ [(1, .query)]) (Conc.job1 2 2 ++ Conc.insLow 0 12 ++ Conc.gos 1 3 ++ [(1, .getBuffer)] ++ Conc.gos 1 5 ++ Conc.insSched 0 13)
    (fun s0 s => decide (s0.base.claimed.length = 2 ∧ (s0.base.thr[1]?).any (fun u : Conc.Th => decide (u.hd = none)) = true ∧
      s.base.thr[1]? = some (⟨.run, some 1, some 2, 3⟩ : Conc.Th) ∧ (2, 12) ∈ s.base.done ∧ (1, 10) ∈ s.base.done ∧ (0, 11) ∈ s.base.done ∧
      s.base.claimed.length = 4 ∧ (snapshot (CB .leveling fun _ => false) s 1 2 3).query (sumClass Record.value) 3 0 () = .ok (some [33]))) (by decide)
  rw [decide_eq_true_eq] at h3
  obtain ⟨a1, a2, a3, a4, a5, a6, a7⟩ := h3
  rw [Option.any_eq_true] at a2
  obtain ⟨u, hu, hun⟩ := a2
  refine ⟨s0, s, h1, h2, a1, ⟨u, hu, of_decide_eq_true hun⟩, ⟨a3, rfl, rfl, by simp⟩, ?_, a7⟩
  intro p hp
  match p, hp with
  | 0, _ => exact ⟨_, a6⟩
  | 1, _ => exact ⟨_, a5⟩
  | 2, _ => exact ⟨_, a4⟩

/-- The hypotheses of `C101_tombstones_partial`: insert 11, erase it, flush, insert 12; the bag keeps both entries and the query sees them. -/
example : ∃ s0 s, Reach (CB .tiering (100 ≤ ·)) 4 Conc.tidy s0 ∧ Later (CB .tiering (100 ≤ ·)) Conc.tidy s0 s ∧
    (∃ u, s0.base.thr[1]? = some u ∧ u.hd = none) ∧ Holds s.base 1 ⟨.run, some 1, some 2, 3⟩ 1 2 ∧ (∀ p, p < 3 → ∃ r, (p, r) ∈ s.base.done) ∧
    ((snapshot (CB .tiering (100 ≤ ·)) s 1 2 3).str.visible.flatMap (·.data.map (fun w => (w.record, w.isTombstone)))) = [(⟨11, 11⟩, false), (⟨11, 11⟩, true)] ∧
    (snapshot (CB .tiering (100 ≤ ·)) s 1 2 3).query (sumClass Record.value) 3 0 () = .ok (some [34]) := by
  obtain ⟨s0, s, h1, h2, h3⟩ := later_of (C := CB .tiering (100 ≤ ·)) (n := 4) Conc.tidyB (ok := Conc.tidy) (fun _ _ => Conc.tidyB_sound)
    (Conc.insLow 0 11 ++ Conc.insSched 0 111 ++ [(1, .query)]) (Conc.job1 2 2 ++ Conc.insLow 0 12 ++ Conc.gos 1 3 ++ [(1, .getBuffer)] ++ Conc.gos 1 5)
    (fun s0 s => decide ((s0.base.thr[1]?).any (fun u : Conc.Th => decide (u.hd = none)) = true ∧
      s.base.thr[1]? = some (⟨.run, some 1, some 2, 3⟩ : Conc.Th) ∧ (2, 12) ∈ s.base.done ∧ (1, 111) ∈ s.base.done ∧ (0, 11) ∈ s.base.done ∧
      ((snapshot (CB .tiering (100 ≤ ·)) s 1 2 3).str.visible.flatMap (·.data.map (fun w => (w.record, w.isTombstone)))) = [(⟨11, 11⟩, false), (⟨11, 11⟩, true)] ∧
      (snapshot (CB .tiering (100 ≤ ·)) s 1 2 3).query (sumClass Record.value) 3 0 () = .ok (some [34]))) (by decide)
  rw [decide_eq_true_eq] at h3
  obtain ⟨a2, a3, a4, a5, a6, a7⟩ := h3
  rw [Option.any_eq_true] at a2
  obtain ⟨u, hu, hun⟩ := a2
  refine ⟨s0, s, h1, h2, ⟨u, hu, of_decide_eq_true hun⟩, ⟨a3, rfl, rfl, by simp⟩, ?_, a7⟩
  intro p hp
  match p, hp with
  | 0, _ => exact ⟨_, a6⟩
  | 1, _ => exact ⟨_, a5⟩
  | 2, _ => exact ⟨_, a4⟩

theorem sum_le_of_sublist {l l' : List Nat} (h : l.Sublist l') : l.sum ≤ l'.sum := by
  induction h with
  | slnil => exact le_refl _
  | cons _ _ ih => rw [List.sum_cons]; omega
  | cons_cons _ _ ih => rw [List.sum_cons, List.sum_cons]; omega

/-- Why not in every execution: the inserts of 9 and 11 have returned before the query begins, the answer of the user's query is for 11
alone (and a zeroed slot), and no moment during the query explains it. -/
theorem C101_false : ∃ s0 s, Reach (CB .tiering fun _ => false) 4 Conc.any s0 ∧ Later (CB .tiering fun _ => false) Conc.any s0 s ∧
    (∃ u, s0.base.thr[0]? = some u ∧ u.hd = none) ∧ Holds s.base 0 ⟨.run, some 1, some 2, 2⟩ 1 2 ∧ (∀ p, p < 2 → ∃ r, (p, r) ∈ s.base.done) ∧
    ∃ res, (snapshot (CB .tiering fun _ => false) s 1 2 2).query (sumClass Record.value) 3 0 () = .ok (some res) ∧
      ∀ s1, Later (CB .tiering fun _ => false) Conc.any s0 s1 → Later (CB .tiering fun _ => false) Conc.any s1 s →
        res ≠ [(s1.base.claimed.map (fun y => ((CB .tiering fun _ => false).ρ y.2).value)).sum] := by
  obtain ⟨s0, s, h1, h2, h3⟩ := later_of (C := CB .tiering fun _ => false) (n := 4) Conc.anyB (ok := Conc.any) (fun _ _ _ => trivial)
    ([(3, .insert 9), (3, .tailFirst)] ++ Conc.gos 3 4 ++ Conc.insSched 0 11 ++ Conc.job1 2 2 ++ [(3, .go)]) (Conc.query 0)
    (fun s0 s => decide (s0.base.done = [(0, 9), (1, 11)] ∧ s.base.done = [(0, 9), (1, 11)] ∧
      (s0.base.thr[0]?).any (fun u : Conc.Th => decide (u.hd = none)) = true ∧ s.base.thr[0]? = some (⟨.run, some 1, some 2, 2⟩ : Conc.Th) ∧
      (snapshot (CB .tiering fun _ => false) s 1 2 2).query (sumClass Record.value) 3 0 () = .ok (some [11]))) (by decide)
  rw [decide_eq_true_eq] at h3
  obtain ⟨a1, a2, a3, a4, a5⟩ := h3
  rw [Option.any_eq_true] at a3
  obtain ⟨u, hu, hun⟩ := a3
  refine ⟨s0, s, h1, h2, ⟨u, hu, of_decide_eq_true hun⟩, ⟨a4, rfl, rfl, by simp⟩, ?_, _, a5, ?_⟩
  · intro p hp
    match p, hp with
    | 0, _ => exact ⟨9, by rw [a2]; simp⟩
    | 1, _ => exact ⟨11, by rw [a2]; simp⟩
  · intro s1 b1 b2 he
    have hH := (h1.base.hist (by decide)).sub
    have c1 : (0, 9) ∈ s1.base.claimed := b1.claimed_sub.mem (hH _ (by rw [a1]; simp))
    have c2 : (1, 11) ∈ s1.base.claimed := b1.claimed_sub.mem (hH _ (by rw [a1]; simp))
    have h5 : 9 + 11 ≤ (s1.base.claimed.map (fun y => ((CB .tiering fun _ => false).ρ y.2).value)).sum := by
      have hp : ([(0, 9), (1, 11)] : List (Nat × Nat)).Subperm s1.base.claimed := by
        apply List.Nodup.subperm (by decide)
        intro y hy
        simp only [List.mem_cons, List.not_mem_nil, or_false] at hy
        rcases hy with rfl | rfl <;> assumption
      obtain ⟨l, q1, q2⟩ := hp
      have := sum_le_of_sublist (q2.map (fun y : Nat × Nat => ((CB .tiering fun _ => false).ρ y.2).value))
      rw [(q1.map _).sum_eq] at this
      simpa [CB] using this
    simp only [List.cons.injEq, and_true] at he
    omega

end DE.Full
