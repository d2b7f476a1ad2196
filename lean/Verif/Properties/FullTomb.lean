import Verif.Properties.Full

/-!
C69: range queries that run concurrently with inserts, tombstone erases and reconstructions, on the real level structures.
-/

namespace DE.Full
open Conc (Par Slot Ch)
variable {R K : Type} [LinearOrder R] [LinearOrder K] [HasKey R K] [Inhabited R]

/-- How many of the appends `rs` are inserts of `r`. -/
def insN {R : Type} [DecidableEq R] (C : Cfg R) (rs : List Nat) (r : R) : Nat := rs.countP (fun a => decide (C.del a = false ∧ C.ρ a = r))
/-- How many of the appends `rs` are erases of `r`. -/
def delN {R : Type} [DecidableEq R] (C : Cfg R) (rs : List Nat) (r : R) : Nat := rs.countP (fun a => decide (C.del a = true ∧ C.ρ a = r))

/-- No stretch of at most `hwm` consecutive operations cancels out completely: in each, some record is not inserted as often as erased.
(`claimed` pairs positions with operations.) -/
def NoVoidOps {R : Type} [DecidableEq R] (C : Cfg R) (claimed : List (Nat × Nat)) : Prop :=
  ∀ (p : Nat) (l : List Nat), l ≠ [] → l.length ≤ C.P.hwm → (∀ k a, l[k]? = some a → (p + k, a) ∈ claimed) → ∃ r, insN C l r ≠ delN C l r

/-- A range query on the epoch and the view `[h, tl)` that succeeds returns only records in range, each at most as often as it was
inserted below `tl` and at least as often as it was inserted minus the number of its erases. -/
def TombQuery (C : Cfg R) (pq' : PQ R) (lb : LB R K) (s : St R) (e h tl : Nat) (lo hi : K) : Prop :=
  ∃ rs : List Nat, rs.length = tl ∧ (∀ p r, rs[p]? = some r → (p, r) ∈ s.base.claimed) ∧
    ∀ res, (snapshot C s e h tl).rangeQuery pq' lb lo hi = .ok res →
      (∀ r ∈ res, lo ≤ key r ∧ key r ≤ hi) ∧
      ∀ r, lo ≤ key r ∧ key r ≤ hi → insN C rs r ≤ res.count r + delN C rs r ∧ res.count r ≤ insN C rs r

theorem sorted_net {pq : PQ R} (hpq : pq.ByRec) (lb : LB R K) : GoodNet (sortedImpl pq lb) (fun s => RecSorted s.data) where
  conserving := sortedImpl_conserving pq lb
  merge := fun ss s _ h hm => (sortedImpl_closed_sorted hpq lb (v := ⟨fun _ => ⟨0, (default : R)⟩, 0, 0, 0, 0⟩)).merge (ss.map some) s (by
    intro x hx
    obtain ⟨y, hy, hxy⟩ := List.mem_map.mp hx
    cases hxy; exact h x hy) hm
  build := fun b s _ hb => (sortedImpl_closed_sorted hpq lb (v := b.view)).build s hb

omit [Inhabited R] in
/-- What cancelling pairs in a range does to the counts of a record of that range. -/
theorem count_range {E : Multiset (Entry R)} {m : List (Wrapped R)} {lo hi : K} (hk : ∀ w ∈ m, w.isTombstone = false)
    (h : Reduces (fun e => e.tomb = true) (E.filter (inRangeE lo hi)) (ents m)) {r : R} (hr : lo ≤ key r ∧ key r ≤ hi) :
    liveCount r E ≤ (m.map Wrapped.record).count r + tombCount r E ∧ (m.map Wrapped.record).count r ≤ liveCount r E := by
  have hl : liveCount r (E.filter (inRangeE lo hi)) = liveCount r E := by
    unfold liveCount
    rw [Multiset.countP_filter]
    apply Multiset.countP_congr rfl
    intro x _
    simp only [eq_iff_iff]
    constructor
    · rintro ⟨h, -⟩; exact h
    · rintro ⟨rfl, h⟩; exact ⟨⟨rfl, h⟩, hr⟩
  have ht : tombCount r (E.filter (inRangeE lo hi)) ≤ tombCount r E := by
    unfold tombCount
    exact Multiset.countP_le_of_le _ (Multiset.filter_le _ _)
  have hres : (m.map Wrapped.record).count r = liveCount r (ents m) := by
    rw [liveCount_eq_count r (fun x hx => by
      obtain ⟨w, hw, rfl⟩ := mem_ents.mp hx
      exact hk w hw)]
    have : (ents m).map Entry.record = (m.map Wrapped.record : Multiset R) := by
      simp [ents, Function.comp_def, Wrapped.entry]
    rw [this, Multiset.coe_count]
  rw [hres]
  refine ⟨?_, ?_⟩
  · obtain ⟨cl, ct, dr, e, hm, hc1, hc2, hc3⟩ := h
    rw [← hl]
    refine le_trans ?_ (Nat.add_le_add_left ht _)
    rw [e]
    simp only [liveCount_add, tombCount_add]
    rw [liveCount_zero_of_tomb r hc2, liveCount_zero_of_tomb r hc3, liveCount_eq_count r hc1, tombCount_eq_count r hc2, hm]
    omega
  · rw [← hl]; exact h.liveCount_le r

omit [LinearOrder R] in
/-- The entries of the slots a query sees if all appends below the tail of its view have finished. -/
theorem slotEnts_zip (C : Cfg R) (rs : List Nat) :
    slotEnts C ((rs.zipIdx).map (fun y => some (y.2, y.1))) = (rs.map (fun a => (⟨C.ρ a, C.del a, false⟩ : Entry R)) : List (Entry R)) := by
  unfold slotEnts
  congr 1
  rw [List.map_map]
  conv_rhs => rw [← List.zipIdx_map_fst 0 rs, List.map_map]
  rfl

omit [LinearOrder R] [Inhabited R] in
theorem liveCount_slots [DecidableEq R] (C : Cfg R) (rs : List Nat) (r : R) :
    liveCount r ((rs.map (fun a => (⟨C.ρ a, C.del a, false⟩ : Entry R)) : List (Entry R)) : Multiset (Entry R)) = insN C rs r := by
  unfold liveCount insN
  rw [Multiset.coe_countP, List.countP_map]
  apply List.countP_congr
  intro a _
  simp [and_comm]

omit [LinearOrder R] [Inhabited R] in
theorem tombCount_slots [DecidableEq R] (C : Cfg R) (rs : List Nat) (r : R) :
    tombCount r ((rs.map (fun a => (⟨C.ρ a, C.del a, false⟩ : Entry R)) : List (Entry R)) : Multiset (Entry R)) = delN C rs r := by
  unfold tombCount delN
  rw [Multiset.coe_countP, List.countP_map]
  apply List.countP_congr
  intro a _
  simp [and_comm]

omit [LinearOrder R] in
/-- The slots of the flushed part of what a query sees, if no stretch of operations is void. -/
theorem novoid_slots [DecidableEq R] {C : Cfg R} {claimed : List (Nat × Nat)} (h : NoVoidOps C claimed) {rs : List Nat} {u w : List Slot}
    (hc : ∀ p r, rs[p]? = some r → (p, r) ∈ claimed) (he : u ++ w = (rs.zipIdx).map (fun y => some (y.2, y.1))) : NoVoidSlots C u := by
  rintro a l b rfl h1 h2 hred
  have hlen : rs.length = a.length + (l.length + (b.length + w.length)) := by
    have := congrArg List.length he
    simp at this; omega
  have hl : l = (((rs.drop a.length).take l.length).zipIdx a.length).map (fun y => some (y.2, y.1)) := by
    have hx : l = ((((rs.zipIdx).map (fun y => some (y.2, y.1))).drop a.length).take l.length : List Slot) := by
      rw [← he]; simp
    conv_lhs => rw [hx]
    apply List.ext_getElem?
    intro k
    simp only [List.getElem?_take, List.getElem?_drop, List.getElem?_map, List.getElem?_zipIdx]
    by_cases hk : k < l.length
    · simp only [hk, if_true]
      cases rs[a.length + k]? <;> simp
    · simp [hk]
  generalize hl' : (rs.drop a.length).take l.length = l' at hl
  have hlen' : l'.length = l.length := by rw [← hl']; simp; omega
  obtain ⟨r, hr⟩ := h a.length l' (by rintro rfl; exact h1 (List.eq_nil_of_length_eq_zero hlen'.symm)) (by omega) (by
    intro k x hk
    rw [← hl', List.getElem?_take] at hk
    by_cases hlt : k < l.length
    · rw [if_pos hlt, List.getElem?_drop] at hk; exact hc _ _ hk
    · rw [if_neg hlt] at hk; cases hk)
  have e : slotEnts C l = (l'.map (fun a => (⟨C.ρ a, C.del a, false⟩ : Entry R)) : List (Entry R)) := by
    rw [hl]
    unfold slotEnts
    congr 1
    rw [List.map_map]
    conv_rhs => rw [← List.zipIdx_map_fst a.length l', List.map_map]
    rfl
  rw [e] at hred
  have hnet := hred.net r (by
    intro y hy
    obtain ⟨a, -, rfl⟩ := List.mem_map.mp (Multiset.mem_coe.mp hy)
    simp)
  rw [liveCount_slots, tombCount_slots] at hnet
  exact hr (by simpa [liveCount, tombCount] using hnet)

/-- C69 if flushes copy only finished slots and the appends below the tail of the view have finished. On BSM: if no stretch of at
most `hwm` consecutive operations cancels out completely (see C03). Missing: appends in flight, for which it is false (`C69_false`). -/
theorem C69_partial {P : Par} {L : Layout} {pq pq' : PQ R} (hpq : pq.ByRec) {lb : LB R K} (hlb : lb.Sound) {sf n : Nat}
    {ρ : Nat → R} {del : Nat → Bool} (hw : 0 < P.hwm) (hsf : 1 ≤ sf) {s : St R} (h : Reach ⟨P, L, sortedImpl pq lb, sf, ρ, del⟩ n Conc.tidy s)
    (hL : L = .bsm → NoVoidOps ⟨P, L, sortedImpl pq lb, sf, ρ, del⟩ s.base.claimed) {i : Nat} {t : Conc.Th} {e x : Nat} (hi : Holds s.base i t e x) (hfin : ∀ p, p < t.tl → ∃ r, (p, r) ∈ s.base.done) (lo hi' : K) :
    TombQuery ⟨P, L, sortedImpl pq lb, sf, ρ, del⟩ pq' lb s e x t.tl lo hi' := by
  have hv := h.pinned (C := ⟨P, L, sortedImpl pq lb, sf, ρ, del⟩)
    (VNet.keeps (C := ⟨P, L, sortedImpl pq lb, sf, ρ, del⟩) (sorted_net hpq lb) hw hsf) hw hi.thr hi.ep
  have hvl := (view_le (C := ⟨P, L, sortedImpl pq lb, sf, ρ, del⟩) hw h hi).2
  obtain ⟨rs, h3, h4, h5⟩ := Conc.C60_exact hw h.base hi.thr hi.ep hi.hd hi.view hfin
  have hcl : ∀ p r, rs[p]? = some r → (p, r) ∈ s.base.claimed := fun p r hp => (h.base.hist hw).sub _ (h4 p r hp)
  have hv := hv (fun hb => novoid_slots (hL hb) hcl h5)
  refine ⟨rs, h3, hcl, ?_⟩
  intro res hres
  have hg := snapshot_gets (C := ⟨P, L, sortedImpl pq lb, sf, ρ, del⟩) hw (s := s) (e := e) (h := x) (tl := t.tl) hvl
  obtain ⟨m, rfl, hk, hr, -⟩ := rangeQuery_gets hlb hg (fun sh hsm => hv.shards sh hsm) hres
  refine ⟨?_, ?_⟩
  · intro r hr'
    obtain ⟨w, hw', rfl⟩ := List.mem_map.mp hr'
    have hin := Multiset.mem_of_le hr.le (mem_ents.mpr ⟨w, hw', rfl⟩)
    rw [Multiset.mem_filter] at hin
    exact hin.2
  · intro r hrr
    obtain ⟨c1, c2⟩ := count_range hk hr hrr
    have hn := snapshot_net (C := ⟨P, L, sortedImpl pq lb, sf, ρ, del⟩) (h := x) (tl := t.tl) hv
    have hn : Reduces (fun e => e.del = true) (slotEnts ⟨P, L, sortedImpl pq lb, sf, ρ, del⟩ (Conc.snapshot P s.base e x t.tl))
      (snapshot ⟨P, L, sortedImpl pq lb, sf, ρ, del⟩ s e x t.tl).entries := hn
    rw [h5, slotEnts_zip] at hn
    have hnet := hn.net r (by
      intro y hy
      obtain ⟨a, -, rfl⟩ := List.mem_map.mp (Multiset.mem_coe.mp hy)
      simp)
    have hle := hn.liveCount_le r
    rw [liveCount_slots, tombCount_slots] at hnet
    rw [liveCount_slots] at hle
    omega

/-- The index of `C12` with erases: append `100 + r` erases record `r`. -/
def T12 (L : Layout) : Cfg Rec := ⟨Conc.P12, L, sortedImpl PQ.std LB.scan, 2, fun a => ⟨a % 100, a % 100⟩, fun a => decide (100 ≤ a)⟩

set_option maxRecDepth 4096 in
/-- C69 is false while an append is in flight, although all flushes copied finished slots: record 5 was inserted twice and erased once,
all three calls have returned, and the query does not return it, because the slot the append of record 8 has claimed still holds
the tombstone of five positions ago. -/
theorem C69_false : ∃ s, Reach (T12 .leveling) 4 Conc.tidy s ∧ Holds s.base 1 ⟨.run, some 2, some 4, 5⟩ 2 4 ∧
    s.base.claimed = [(4, 8), (3, 5), (2, 5), (1, 6), (0, 105)] ∧ (∀ p < 4, ∃ r, (p, r) ∈ s.base.done) ∧
    (snapshot (T12 .leveling) s 2 4 5).rangeQuery PQ.std LB.scan 0 50 = .ok [⟨6, 6⟩] ∧
    ¬ TombQuery (T12 .leveling) PQ.std LB.scan s 2 4 5 0 50 := by
  obtain ⟨s, h1, h2⟩ := reach_of (C := T12 .leveling) (n := 4) Conc.tidyB (ok := Conc.tidy) (fun _ _ => Conc.tidyB_sound)
    (Conc.insLow 0 105 ++ Conc.insSched 0 6 ++ Conc.job1 2 2 ++ Conc.insLow 0 5 ++ Conc.insSched 0 5 ++ Conc.job2 2 2 ++
      [(3, .insert 8), (3, .tailFirst)] ++ Conc.gos 3 4 ++ Conc.query 1)
    (fun s => decide (s.base.thr[1]? = some (⟨.run, some 2, some 4, 5⟩ : Conc.Th) ∧
      s.base.claimed = [(4, 8), (3, 5), (2, 5), (1, 6), (0, 105)] ∧
      s.base.done = [(3, 5), (2, 5), (1, 6), (0, 105)] ∧
      (snapshot (T12 .leveling) s 2 4 5).rangeQuery PQ.std LB.scan 0 50 = .ok [⟨6, 6⟩])) (by decide)
  rw [decide_eq_true_eq] at h2
  obtain ⟨a1, a2, a3, a4⟩ := h2
  refine ⟨s, h1, ⟨a1, rfl, rfl, by simp⟩, a2, ?_, a4, ?_⟩
  · intro p hp
    match p, hp with
    | 0, _ => exact ⟨_, by rw [a3]; simp; rfl⟩
    | 1, _ => exact ⟨_, by rw [a3]; simp; rfl⟩
    | 2, _ => exact ⟨_, by rw [a3]; simp; rfl⟩
    | 3, _ => exact ⟨_, by rw [a3]; simp; rfl⟩
  · rintro ⟨rs, l1, l2, hq⟩
    have hq := ((hq _ a4).2 ⟨5, 5⟩ (by decide)).1
    match rs, l1 with
    | [a, b, c, d, e], _ =>
      have ha := l2 0 a rfl
      have hb := l2 1 b rfl
      have hc := l2 2 c rfl
      have hd := l2 3 d rfl
      have he := l2 4 e rfl
      rw [a2] at ha hb hc hd he
      simp at ha hb hc hd he
      subst ha hb hc hd he
      exact absurd hq (by decide)

/-- The hypotheses of `C69_partial`: a flushed tombstone has met its record in the level, a fifth record is in the ring, and all appends
have finished. -/
example : ∃ s, Reach (T12 .leveling) 4 Conc.tidy s ∧ Holds s.base 1 ⟨.run, some 2, some 4, 5⟩ 2 4 ∧
    (∀ p < 5, ∃ r, (p, r) ∈ s.base.done) ∧ s.base.claimed = [(4, 8), (3, 7), (2, 105), (1, 6), (0, 5)] ∧
    (snapshot (T12 .leveling) s 2 4 5).rangeQuery PQ.std LB.scan 0 50 = .ok [⟨6, 6⟩, ⟨7, 7⟩, ⟨8, 8⟩] := by
  obtain ⟨s, h1, h2⟩ := reach_of (C := T12 .leveling) (n := 4) Conc.tidyB (ok := Conc.tidy) (fun _ _ => Conc.tidyB_sound)
    (Conc.insLow 0 5 ++ Conc.insSched 0 6 ++ Conc.job1 2 2 ++ Conc.insLow 0 105 ++ Conc.insSched 0 7 ++ Conc.job2 2 2 ++
      Conc.insLow 0 8 ++ Conc.query 1)
    (fun s => decide (s.base.thr[1]? = some (⟨.run, some 2, some 4, 5⟩ : Conc.Th) ∧
      s.base.done = [(4, 8), (3, 7), (2, 105), (1, 6), (0, 5)] ∧ s.base.claimed = [(4, 8), (3, 7), (2, 105), (1, 6), (0, 5)] ∧
      (snapshot (T12 .leveling) s 2 4 5).rangeQuery PQ.std LB.scan 0 50 = .ok [⟨6, 6⟩, ⟨7, 7⟩, ⟨8, 8⟩])) (by decide)
  rw [decide_eq_true_eq] at h2
  obtain ⟨a1, a3, a4⟩ := h2
  refine ⟨s, h1, ⟨a1, rfl, rfl, by simp⟩, ?_, a4⟩
  intro p hp
  match p, hp with
  | 0, _ => exact ⟨_, by rw [a3]; simp; rfl⟩
  | 1, _ => exact ⟨_, by rw [a3]; simp; rfl⟩
  | 2, _ => exact ⟨_, by rw [a3]; simp; rfl⟩
  | 3, _ => exact ⟨_, by rw [a3]; simp; rfl⟩
  | 4, _ => exact ⟨_, by rw [a3]; simp; rfl⟩

/-- The schedule of `C69_false_bsm`: four inserts, insert and erase of record 5, three inserts. -/
def voidSched : List (Nat × Ch) := Conc.insLow 0 1 ++ Conc.insSched 0 2 ++ Conc.job1 2 2 ++ Conc.insLow 0 3 ++ Conc.insSched 0 4 ++ Conc.job2 2 2 ++
  Conc.insLow 0 5 ++ Conc.insSched 0 105 ++ Conc.job2 2 2 ++ Conc.insLow 0 6 ++ Conc.insSched 0 7 ++ Conc.job2 2 2 ++ Conc.insLow 0 8 ++ Conc.query 1

set_option maxRecDepth 8192 in
/-- Why the condition on BSM: every append has finished and every flush copied finished slots, but one flushed block was the insert and the
erase of record 5. Records 6 and 7, inserted later and never erased, are not returned. -/
theorem C69_false_bsm : ∃ s, Reach (T12 .bsm) 4 Conc.tidy s ∧ Holds s.base 1 ⟨.run, some 4, some 8, 9⟩ 4 8 ∧ (∀ p < 9, ∃ r, (p, r) ∈ s.base.done) ∧
    (snapshot (T12 .bsm) s 4 8 9).rangeQuery PQ.std LB.scan 0 50 = .ok [⟨1, 1⟩, ⟨2, 2⟩, ⟨3, 3⟩, ⟨4, 4⟩, ⟨8, 8⟩] ∧
    s.base.claimed = [(8, 8), (7, 7), (6, 6), (5, 105), (4, 5), (3, 4), (2, 3), (1, 2), (0, 1)] ∧
    ¬ TombQuery (T12 .bsm) PQ.std LB.scan s 4 8 9 0 50 := by
  obtain ⟨s, h1, h2⟩ := reach_of (C := T12 .bsm) (n := 4) Conc.tidyB (ok := Conc.tidy) (fun _ _ => Conc.tidyB_sound) voidSched
    (fun s => decide (s.base.thr[1]? = some (⟨.run, some 4, some 8, 9⟩ : Conc.Th) ∧
      s.base.done = [(8, 8), (7, 7), (6, 6), (5, 105), (4, 5), (3, 4), (2, 3), (1, 2), (0, 1)] ∧
      s.base.claimed = [(8, 8), (7, 7), (6, 6), (5, 105), (4, 5), (3, 4), (2, 3), (1, 2), (0, 1)] ∧
      (snapshot (T12 .bsm) s 4 8 9).rangeQuery PQ.std LB.scan 0 50 = .ok [⟨1, 1⟩, ⟨2, 2⟩, ⟨3, 3⟩, ⟨4, 4⟩, ⟨8, 8⟩])) (by decide)
  rw [decide_eq_true_eq] at h2
  obtain ⟨a1, a2, a3, a4⟩ := h2
  refine ⟨s, h1, ⟨a1, rfl, rfl, by simp⟩, ?_, a4, a3, ?_⟩
  · intro p hp
    rw [a2]
    match p, hp with
    | 0, _ | 1, _ | 2, _ | 3, _ | 4, _ | 5, _ | 6, _ | 7, _ | 8, _ => exact ⟨_, by simp; rfl⟩
  · rintro ⟨rs, l1, l2, l3⟩
    have hq := ((l3 _ a4).2 ⟨6, 6⟩ (by decide)).1
    have g : ∀ p (hp : p < rs.length), (p, rs[p]) ∈ s.base.claimed := fun p hp => l2 p _ (List.getElem?_eq_getElem hp)
    rw [a3] at g
    have h0 : 0 < insN (T12 .bsm) rs ⟨6, 6⟩ := by
      unfold insN
      rw [List.countP_pos_iff]
      have h6 := g 6 (by omega)
      simp at h6
      exact ⟨rs[6], List.getElem_mem _, by rw [h6]; decide⟩
    have hd : delN (T12 .bsm) rs ⟨6, 6⟩ = 0 := by
      unfold delN
      rw [List.countP_eq_zero]
      intro x hx
      obtain ⟨p, hp, rfl⟩ := List.mem_iff_getElem.mp hx
      have h6 := g p hp
      generalize rs[p] = y at h6
      simp only [List.mem_cons, Prod.mk.injEq, List.not_mem_nil, or_false] at h6
      rcases h6 with h | h | h | h | h | h | h | h | h <;> rw [h.2] <;> decide
    have hr : ([⟨1, 1⟩, ⟨2, 2⟩, ⟨3, 3⟩, ⟨4, 4⟩, ⟨8, 8⟩] : List Rec).count ⟨6, 6⟩ = 0 := by decide
    rw [hr, hd] at hq
    omega

/-- The hypotheses of `C69_partial` on BSM: the erase of record 5 comes after its insert was flushed. -/
example : ∃ s, Reach (T12 .bsm) 4 Conc.tidy s ∧ Holds s.base 1 ⟨.run, some 2, some 4, 5⟩ 2 4 ∧
    (∀ p < 5, ∃ r, (p, r) ∈ s.base.done) ∧ NoVoidOps (T12 .bsm) s.base.claimed ∧
    (snapshot (T12 .bsm) s 2 4 5).rangeQuery PQ.std LB.scan 0 50 = .ok [⟨6, 6⟩, ⟨7, 7⟩, ⟨8, 8⟩] := by
  obtain ⟨s, h1, h2⟩ := reach_of (C := T12 .bsm) (n := 4) Conc.tidyB (ok := Conc.tidy) (fun _ _ => Conc.tidyB_sound)
    (Conc.insLow 0 5 ++ Conc.insSched 0 6 ++ Conc.job1 2 2 ++ Conc.insLow 0 105 ++ Conc.insSched 0 7 ++ Conc.job2 2 2 ++
      Conc.insLow 0 8 ++ Conc.query 1)
    (fun s => decide (s.base.thr[1]? = some (⟨.run, some 2, some 4, 5⟩ : Conc.Th) ∧
      s.base.done = [(4, 8), (3, 7), (2, 105), (1, 6), (0, 5)] ∧ s.base.claimed = [(4, 8), (3, 7), (2, 105), (1, 6), (0, 5)] ∧
      (snapshot (T12 .bsm) s 2 4 5).rangeQuery PQ.std LB.scan 0 50 = .ok [⟨6, 6⟩, ⟨7, 7⟩, ⟨8, 8⟩])) (by decide)
  rw [decide_eq_true_eq] at h2
  obtain ⟨a1, a3, a4, a5⟩ := h2
  refine ⟨s, h1, ⟨a1, rfl, rfl, by simp⟩, ?_, ?_, a5⟩
  · intro p hp
    rw [a3]
    match p, hp with
    | 0, _ | 1, _ | 2, _ | 3, _ | 4, _ => exact ⟨_, by simp; rfl⟩
  · rw [a4]
    intro p l h0 hl hc
    match l, h0, hl with
    | [a], _, _ =>
      have h1 := hc 0 a rfl
      simp only [List.mem_cons, Prod.mk.injEq, List.not_mem_nil, or_false] at h1
      rcases h1 with h | h | h | h | h <;> obtain ⟨-, rfl⟩ := h
      · exact ⟨⟨8, 8⟩, by decide⟩
      · exact ⟨⟨7, 7⟩, by decide⟩
      · exact ⟨⟨5, 5⟩, by decide⟩
      · exact ⟨⟨6, 6⟩, by decide⟩
      · exact ⟨⟨5, 5⟩, by decide⟩
    | [a, b], _, _ =>
      have h1 := hc 0 a rfl
      have h2 := hc 1 b rfl
      simp only [List.mem_cons, Prod.mk.injEq, List.not_mem_nil, or_false] at h1 h2
      rcases h1 with h | h | h | h | h <;> obtain ⟨hp, rfl⟩ := h <;>
        rcases h2 with h | h | h | h | h <;> obtain ⟨hp2, rfl⟩ := h <;> try omega
      · exact ⟨⟨8, 8⟩, by decide⟩
      · exact ⟨⟨7, 7⟩, by decide⟩
      · exact ⟨⟨6, 6⟩, by decide⟩
      · exact ⟨⟨6, 6⟩, by decide⟩
    | a :: b :: c :: l, _, hl => simp [T12, Conc.P12] at hl

end DE.Full
