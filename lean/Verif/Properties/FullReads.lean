import Verif.Proofs.Later
import Verif.Properties.Full
import Verif.Properties.Counts
import Verif.Properties.PointLookup
import Verif.Properties.RangeCount
import Verif.Properties.VPTree

/-!
C73-C77: reads that run concurrently with inserts and reconstructions, on the real level structures: `get_record_count`, successive
range queries, point lookups, range counts and k-NN queries.
-/

namespace DE.Full
open Conc (Par Slot Ch)

section
variable {R : Type}

theorem vp_goodAny {𝔽 : Type} [DecidableEq R] [LinearOrder 𝔽] [Zero 𝔽] (dist : R → R → 𝔽) (leafSz : Nat) (g : Rng) :
    GoodAny (vpImpl dist leafSz g) (fun _ => True) where
  ok := vpImpl_cleanOk dist leafSz g
  merge := fun _ _ _ _ _ => trivial
  build := fun _ _ _ _ _ => trivial
  any := by
    intro v l h1 h2 _ hc
    have hb : ∃ s, (vpImpl dist leafSz g).build v = .ok s := ⟨_, by simp only [vpImpl, h2, bind, Except.bind]; rfl⟩
    obtain ⟨s, hb⟩ := hb
    refine ⟨s, hb, ?_, trivial⟩
    simp only [vpImpl, bind_ok, h2] at hb
    obtain ⟨l', e, hs⟩ := hb
    cases e; cases hs
    simp only
    rw [ents_mask]
    exact ((dropDel_reduces l).clean hc).symm

variable [Inhabited R]

/-! ### C73: get_record_count -/

/-- What `get_record_count` returns on the epoch and the view a thread holds, in any insert-only execution: the tail of its view. -/
theorem count_tail {C : Cfg R} {Q : Shard R → Prop} (hI : GoodAny C.impl Q) (hio : C.InsOnly) (hw : 0 < C.P.hwm) (hsf : 0 < C.sf)
    {n : Nat} {ok : Conc.St → Nat → Prop} {s : St R} (h : Reach C n ok s) {i : Nat} {t : Conc.Th} {e x : Nat} (hi : Holds s.base i t e x) :
    (snapshot C s e x t.tl).recordCount = t.tl := by
  have hv := h.pinnedW (VGood.keepsAny hI hio hw hsf) hw (fun h => h.elim) hi.thr hi.ep
  rw [C14_stored, snapshot_entries hio hv]
  unfold insEntries
  rw [Multiset.coe_card, List.length_map, List.length_map]
  exact h.base.seen hw hi.thr hi.ep hi.hd hi.view

/-- C73: in every insert-only execution, with any number of threads, a `get_record_count` returns the number of inserts that had
claimed their slot at one moment between its call and its return: it is linearizable, an insert taking effect when it claims
its slot. `s0` is a state in which the caller holds no view yet. -/
theorem C73_record_count {C : Cfg R} {Q : Shard R → Prop} (hI : GoodAny C.impl Q) (hio : C.InsOnly) (hw : 0 < C.P.hwm) (hsf : 0 < C.sf)
    {n : Nat} {s0 s : St R} (h0 : Reach C n Conc.any s0) (hl : Later C Conc.any s0 s) {i : Nat} {u t : Conc.Th} {e x : Nat}
    (hu : s0.base.thr[i]? = some u) (hun : u.hd = none) (hi : Holds s.base i t e x) :
    ∃ s1, Later C Conc.any s0 s1 ∧ Later C Conc.any s1 s ∧ (snapshot C s e x t.tl).recordCount = s1.base.claimed.length := by
  obtain ⟨t', ht', hk⟩ := hl.took hu hun
  rw [hi.thr] at ht'; cases ht'
  rcases hk with h | ⟨k, h⟩ | ⟨s1, h1, h2, h3⟩
  · rw [hi.hd] at h; cases h
  · exact absurd h (hi.view k)
  · refine ⟨s1, h1, h2, ?_⟩
    rw [count_tail hI hio hw hsf (hl.reach h0) hi, h3, (h1.reach h0).base.claimed_length hw]

/-- In numbers: at least the inserts that had returned before the call, at most those that have begun by its return. -/
theorem C73_bounds {C : Cfg R} {Q : Shard R → Prop} (hI : GoodAny C.impl Q) (hio : C.InsOnly) (hw : 0 < C.P.hwm) (hsf : 0 < C.sf)
    {n : Nat} {s0 s : St R} (h0 : Reach C n Conc.any s0) (hl : Later C Conc.any s0 s) {i : Nat} {u t : Conc.Th} {e x : Nat}
    (hu : s0.base.thr[i]? = some u) (hun : u.hd = none) (hi : Holds s.base i t e x) :
    s0.base.done.length ≤ (snapshot C s e x t.tl).recordCount ∧ (snapshot C s e x t.tl).recordCount ≤ s.base.claimed.length := by
  obtain ⟨s1, h1, h2, h3⟩ := C73_record_count hI hio hw hsf h0 hl hu hun hi
  have a1 := h0.base.done_length hw
  have a2 := h0.base.claimed_length hw
  have a3 := (h1.reach h0).base.claimed_length hw
  have a4 := (hl.reach h0).base.claimed_length hw
  have a5 := h1.tail
  have a6 := h2.tail
  omega

/-- The shard types with sorted arrays. -/
theorem C73_sorted {K : Type} [LinearOrder R] [LinearOrder K] [HasKey R K] {P : Par} {L : Layout} {pq : PQ R} (hpq : pq.ByRec) {lb : LB R K}
    {sf n : Nat} {ρ : Nat → R} (hw : 0 < P.hwm) (hsf : 1 ≤ sf) {s0 s : St R}
    (h0 : Reach ⟨P, L, sortedImpl pq lb, sf, ρ, fun _ => false⟩ n Conc.any s0)
    (hl : Later ⟨P, L, sortedImpl pq lb, sf, ρ, fun _ => false⟩ Conc.any s0 s) {i : Nat} {u t : Conc.Th} {e x : Nat}
    (hu : s0.base.thr[i]? = some u) (hun : u.hd = none) (hi : Holds s.base i t e x) :
    ∃ s1, Later ⟨P, L, sortedImpl pq lb, sf, ρ, fun _ => false⟩ Conc.any s0 s1 ∧
      Later ⟨P, L, sortedImpl pq lb, sf, ρ, fun _ => false⟩ Conc.any s1 s ∧
      (snapshot ⟨P, L, sortedImpl pq lb, sf, ρ, fun _ => false⟩ s e x t.tl).recordCount = s1.base.claimed.length :=
  C73_record_count (C := ⟨P, L, sortedImpl pq lb, sf, ρ, fun _ => false⟩) (sorted_goodAny hpq lb) (fun _ => rfl) hw hsf h0 hl hu hun hi

/-- VPTree shards. -/
theorem C73_vptree {𝔽 : Type} [DecidableEq R] [LinearOrder 𝔽] [Zero 𝔽] {dist : R → R → 𝔽} {leafSz : Nat} {g : Rng} {P : Par} {L : Layout}
    {sf n : Nat} {ρ : Nat → R} (hw : 0 < P.hwm) (hsf : 1 ≤ sf) {s0 s : St R}
    (h0 : Reach ⟨P, L, vpImpl dist leafSz g, sf, ρ, fun _ => false⟩ n Conc.any s0)
    (hl : Later ⟨P, L, vpImpl dist leafSz g, sf, ρ, fun _ => false⟩ Conc.any s0 s) {i : Nat} {u t : Conc.Th} {e x : Nat}
    (hu : s0.base.thr[i]? = some u) (hun : u.hd = none) (hi : Holds s.base i t e x) :
    ∃ s1, Later ⟨P, L, vpImpl dist leafSz g, sf, ρ, fun _ => false⟩ Conc.any s0 s1 ∧
      Later ⟨P, L, vpImpl dist leafSz g, sf, ρ, fun _ => false⟩ Conc.any s1 s ∧
      (snapshot ⟨P, L, vpImpl dist leafSz g, sf, ρ, fun _ => false⟩ s e x t.tl).recordCount = s1.base.claimed.length :=
  C73_record_count (C := ⟨P, L, vpImpl dist leafSz g, sf, ρ, fun _ => false⟩) (vp_goodAny dist leafSz g) (fun _ => rfl) hw hsf h0 hl hu hun hi

/-! ### Queries while everything has been written -/

/-- What a thread holds if the appends below the tail of its view have finished: exactly the records inserted there. -/
theorem held {C : Cfg R} {Q : Shard R → Prop} (hI : Good C.impl Q) (hio : C.InsOnly) (hw : 0 < C.P.hwm) (hsf : 0 < C.sf) {n : Nat} {s : St R}
    (h : Reach C n Conc.tidy s) {i : Nat} {t : Conc.Th} {e x : Nat} (hi : Holds s.base i t e x)
    (hfin : ∀ p, p < t.tl → ∃ r, (p, r) ∈ s.base.done) :
    ∃ rs : List Nat, rs.length = t.tl ∧ (∀ p r, rs[p]? = some r → (p, r) ∈ s.base.done) ∧
      (snapshot C s e x t.tl).entries = insEntries (rs.map C.ρ) ∧
      (snapshot C s e x t.tl).buf.view.gets = .ok (snapshot C s e x t.tl).buf.contents ∧
      ∀ sh ∈ (snapshot C s e x t.tl).str.visible, CleanShard sh ∧ Q sh := by
  have hv := h.pinned (VGood.keeps hI hio hw hsf) hw hi.thr hi.ep
  obtain ⟨rs, h3, h4, h5⟩ := Conc.C60_exact hw h.base hi.thr hi.ep hi.hd hi.view hfin
  refine ⟨rs, h3, h4, ?_, snapshot_gets hw (view_le hw h hi).2, hv.shards⟩
  rw [snapshot_entries hio hv, h5, List.map_map]
  congr 1
  conv_rhs => rw [← List.zipIdx_map_fst 0 rs, List.map_map]
  rfl

end

section
variable {R K : Type} [LinearOrder R] [LinearOrder K] [HasKey R K] [Inhabited R]

/-! ### C74: successive queries -/

/-- In every execution, whether or not flushes wait for the records they copy, a range query on the epoch and the view a thread
holds is defined, and returns the in-range ones among as many values as the tail of its view says, each of which was inserted or is the
initial content of a slot. -/
theorem C67_any_partial {P : Par} {L : Layout} {pq pq' : PQ R} (hpq : pq.ByRec) {lb : LB R K} (hlb : lb.Sound) {sf n : Nat} {ρ : Nat → R}
    (hw : 0 < P.hwm) (hsf : 1 ≤ sf) {s : St R} (h : Reach ⟨P, L, sortedImpl pq lb, sf, ρ, fun _ => false⟩ n Conc.any s)
    {i : Nat} {t : Conc.Th} {e x : Nat} (hi : Holds s.base i t e x) (lo hi' : K) :
    ∃ vs : List R, vs.length = t.tl ∧ (∀ v ∈ vs, v = default ∨ ∃ p r, (p, r) ∈ s.base.done ∧ v = ρ r) ∧
      ∃ res, (snapshot ⟨P, L, sortedImpl pq lb, sf, ρ, fun _ => false⟩ s e x t.tl).rangeQuery pq' lb lo hi' = .ok res ∧
        res.Perm (inKeys lo hi' vs) := by
  obtain ⟨res, h1, h2⟩ := query_slots (pq' := pq') hpq hlb hw hsf h hi lo hi'
  refine ⟨_, ?_, ?_, res, h1, h2⟩
  · rw [List.length_map]; exact h.base.seen hw hi.thr hi.ep hi.hd hi.view
  · intro v hv
    obtain ⟨y, hy, rfl⟩ := List.mem_map.mp hv
    have := h.base.real hw e x t.tl y hy
    match y, this with
    | none, _ => exact Or.inl rfl
    | some (p, r), this => exact Or.inr ⟨p, r, this _ rfl, rfl⟩

omit [LinearOrder R] in
/-- The tail of a view taken since `s0` is past every position claimed before `s0`. -/
theorem tail_since {C : Cfg R} {ok : Conc.St → Nat → Prop} {s0 s : St R} (hl : Later C ok s0 s) {i : Nat} {u t : Conc.Th}
    {e x : Nat} (hu : s0.base.thr[i]? = some u) (hun : u.hd = none) (hi : Holds s.base i t e x) : s0.base.tail ≤ t.tl := by
  obtain ⟨t', ht', hk⟩ := hl.took hu hun
  rw [hi.thr] at ht'; cases ht'
  rcases hk with h | ⟨k, h⟩ | ⟨s1, h1, -, h3⟩
  · rw [hi.hd] at h; cases h
  · exact absurd h (hi.view k)
  · rw [h3]; exact h1.tail

/-- The records of some finished appends are among those a thread sees if they lie below the tail of its view. -/
theorem seen_subperm {P : Par} {n : Nat} {s : Conc.St} (hw : 0 < P.hwm) (h : Conc.Reach P n Conc.tidy s) {i : Nat} {t : Conc.Th}
    {e x : Nat} (hi : Holds s i t e x) (ρ : Nat → R) {l : List (Nat × Nat)} (hnd : l.Nodup) (hl : ∀ y ∈ l, y ∈ s.done ∧ y.1 < t.tl) (lo hi' : K) :
    (inKeys lo hi' (l.map (fun y => ρ y.2))).Subperm (inKeys lo hi' ((Conc.snapshot P s e x t.tl).map (sval ρ))) := by
  obtain ⟨c1, c2⟩ := Conc.C60_partial hw h i t e x hi.thr hi.ep hi.hd hi.view
  have h1 : (l.map some).Subperm (Conc.snapshot P s e x t.tl) := by
    apply (hnd.map (Option.some_injective _)).subperm
    intro y hy
    obtain ⟨⟨p, r⟩, hpr, rfl⟩ := List.mem_map.mp hy
    exact List.mem_of_getElem? (c2 p r (hl _ hpr).1 (hl _ hpr).2)
  obtain ⟨l', hp, hsub⟩ := h1
  have h2 := List.Subperm.filter (fun r => decide (lo ≤ key r ∧ key r ≤ hi')) (show ((l.map some).map (sval ρ)).Subperm _ from
    ⟨l'.map (sval ρ), hp.map _, hsub.map _⟩)
  rw [List.map_map] at h2
  exact h2

/-- If flushes copy only finished slots, a query returns every in-range record whose insert had returned 1 before the query took its
view, as often as it had been inserted. -/
theorem C74_own_writes_partial {P : Par} {L : Layout} {pq pq' : PQ R} (hpq : pq.ByRec) {lb : LB R K} (hlb : lb.Sound) {sf n : Nat} {ρ : Nat → R}
    (hw : 0 < P.hwm) (hsf : 1 ≤ sf) {s0 s : St R} (h0 : Reach ⟨P, L, sortedImpl pq lb, sf, ρ, fun _ => false⟩ n Conc.tidy s0)
    (hl : Later ⟨P, L, sortedImpl pq lb, sf, ρ, fun _ => false⟩ Conc.tidy s0 s) {i : Nat} {u t : Conc.Th} {e x : Nat}
    (hu : s0.base.thr[i]? = some u) (hun : u.hd = none) (hi : Holds s.base i t e x) (lo hi' : K) :
    ∃ res, (snapshot ⟨P, L, sortedImpl pq lb, sf, ρ, fun _ => false⟩ s e x t.tl).rangeQuery pq' lb lo hi' = .ok res ∧
      (inKeys lo hi' (s0.base.done.map (fun y => ρ y.2))).Subperm res := by
  obtain ⟨res, h1, h2⟩ := query_slots (pq' := pq') hpq hlb hw hsf (hl.reach h0) hi lo hi'
  refine ⟨res, h1, (seen_subperm hw (hl.reach h0).base hi ρ ((h0.base.done_nodup hw).of_map _) ?_ lo hi').trans h2.symm.subperm⟩
  intro y hy
  refine ⟨hl.done y hy, ?_⟩
  have h3 := (h0.base.hist hw).claimed_lt ((h0.base.hist hw).sub y hy)
  exact h3.trans_le (tail_since hl hu hun hi)

/-- If flushes copy only finished slots: a query that takes its view after another query (by whatever thread) has run on finished
appends returns at least what that one returned. -/
theorem C74_monotone_partial {P : Par} {L : Layout} {pq pq' : PQ R} (hpq : pq.ByRec) {lb : LB R K} (hlb : lb.Sound) {sf n : Nat} {ρ : Nat → R}
    (hw : 0 < P.hwm) (hsf : 1 ≤ sf) {s0 s1 s : St R} (h0 : Reach ⟨P, L, sortedImpl pq lb, sf, ρ, fun _ => false⟩ n Conc.tidy s0)
    {i0 : Nat} {t0 : Conc.Th} {e0 x0 : Nat} (hi0 : Holds s0.base i0 t0 e0 x0) (hfin : ∀ p, p < t0.tl → ∃ r, (p, r) ∈ s0.base.done)
    (hl0 : Later ⟨P, L, sortedImpl pq lb, sf, ρ, fun _ => false⟩ Conc.tidy s0 s1)
    (hl : Later ⟨P, L, sortedImpl pq lb, sf, ρ, fun _ => false⟩ Conc.tidy s1 s) {i : Nat} {u t : Conc.Th} {e x : Nat}
    (hu : s1.base.thr[i]? = some u) (hun : u.hd = none) (hi : Holds s.base i t e x) (lo hi' : K) :
    ∃ res0 res, (snapshot ⟨P, L, sortedImpl pq lb, sf, ρ, fun _ => false⟩ s0 e0 x0 t0.tl).rangeQuery pq' lb lo hi' = .ok res0 ∧
      (snapshot ⟨P, L, sortedImpl pq lb, sf, ρ, fun _ => false⟩ s e x t.tl).rangeQuery pq' lb lo hi' = .ok res ∧ res0.Subperm res := by
  obtain ⟨res0, q1, q2⟩ := query_slots (pq' := pq') hpq hlb hw hsf h0 hi0 lo hi'
  obtain ⟨rs, h3, h4, h5⟩ := Conc.C60_exact hw h0.base hi0.thr hi0.ep hi0.hd hi0.view hfin
  obtain ⟨res, h1, h2⟩ := query_slots (pq' := pq') hpq hlb hw hsf (hl.reach (hl0.reach h0)) hi lo hi'
  refine ⟨res0, res, q1, h1, ?_⟩
  rw [h5] at q2
  have he : ((rs.zipIdx).map (fun y => some (y.2, y.1))).map (sval ρ) = (rs.zipIdx.map Prod.swap).map (fun y => ρ y.2) := by
    rw [List.map_map, List.map_map]; rfl
  rw [he] at q2
  have hnd : (rs.zipIdx.map Prod.swap).Nodup := by
    refine List.Nodup.of_map Prod.fst ?_
    rw [List.map_map]
    have : rs.zipIdx.map (Prod.fst ∘ Prod.swap) = List.range' 0 rs.length := by
      rw [← List.zipIdx_map_snd 0 rs]; rfl
    rw [this]
    exact List.nodup_range'
  refine q2.subperm.trans ((seen_subperm hw (hl.reach (hl0.reach h0)).base hi ρ hnd ?_ lo hi').trans h2.symm.subperm)
  intro y hy
  obtain ⟨⟨r, p⟩, hz, rfl⟩ := List.mem_map.mp hy
  have hz := List.mem_zipIdx_iff_getElem?.mp hz
  have hd := h4 p r hz
  refine ⟨hl.done _ (hl0.done _ hd), ?_⟩
  have h6 := (h0.base.hist hw).claimed_lt ((h0.base.hist hw).sub _ hd)
  exact h6.trans_le (hl0.tail.trans (tail_since hl hu hun hi))

/-- The insert of record 9 has returned 1, a query that runs on finished appends returns it, and a query that begins afterwards
does not. -/
theorem C74_false : ∃ s0 s, Reach (C12 .tiering) 4 Conc.any s0 ∧ Later (C12 .tiering) Conc.any s0 s ∧ s0.base.done = [(0, 9), (1, 11)] ∧
    Holds s0.base 1 ⟨.run, some 0, some 0, 2⟩ 0 0 ∧ (∃ u, s0.base.thr[0]? = some u ∧ u.hd = none) ∧ Holds s.base 0 ⟨.run, some 1, some 2, 2⟩ 1 2 ∧
    (snapshot (C12 .tiering) s0 0 0 2).rangeQuery PQ.std LB.scan 5 20 = .ok [⟨9, 9⟩, ⟨11, 11⟩] ∧
    (snapshot (C12 .tiering) s 1 2 2).rangeQuery PQ.std LB.scan 5 20 = .ok [⟨11, 11⟩] := by
  obtain ⟨s0, s, h1, h2, h3⟩ := later_of (C := C12 .tiering) (n := 4) Conc.anyB (ok := Conc.any) (fun _ _ _ => trivial)
    ([(3, .insert 9), (3, .tailFirst)] ++ Conc.gos 3 4 ++ Conc.insSched 0 11 ++ Conc.query 1 ++ Conc.job1 2 2 ++ [(3, .go)]) (Conc.query 0)
    (fun s0 s => decide (s0.base.done = [(0, 9), (1, 11)] ∧ s0.base.thr[1]? = some (⟨.run, some 0, some 0, 2⟩ : Conc.Th) ∧
      (s0.base.thr[0]?).any (fun u : Conc.Th => decide (u.hd = none)) = true ∧ s.base.thr[0]? = some (⟨.run, some 1, some 2, 2⟩ : Conc.Th) ∧
      (snapshot (C12 .tiering) s0 0 0 2).rangeQuery PQ.std LB.scan 5 20 = .ok [⟨9, 9⟩, ⟨11, 11⟩] ∧
      (snapshot (C12 .tiering) s 1 2 2).rangeQuery PQ.std LB.scan 5 20 = .ok [⟨11, 11⟩])) (by decide)
  rw [decide_eq_true_eq] at h3
  obtain ⟨a1, a2, a3, a4, a5, a6⟩ := h3
  rw [Option.any_eq_true] at a3
  obtain ⟨u, hu, hun⟩ := a3
  exact ⟨s0, s, h1, h2, a1, ⟨a2, rfl, rfl, by simp⟩, ⟨u, hu, of_decide_eq_true hun⟩, ⟨a4, rfl, rfl, by simp⟩, a5, a6⟩

/-- The hypotheses of `C73_record_count`, in an execution in which a slot is flushed before it has been written; the call begins
when one insert has returned and another is in flight, and two more happen before it takes its view. -/
example : ∃ s0 s, Reach (C12 .tiering) 4 Conc.any s0 ∧ Later (C12 .tiering) Conc.any s0 s ∧ (∃ u, s0.base.thr[1]? = some u ∧ u.hd = none) ∧
    s0.base.done.length = 1 ∧ s.base.claimed.length = 4 ∧ none ∈ s.base.estr 1 ∧
    Holds s.base 1 ⟨.run, some 1, some 2, 3⟩ 1 2 ∧ (snapshot (C12 .tiering) s 1 2 3).recordCount = 3 := by
  obtain ⟨s0, s, h1, h2, h3⟩ := later_of (C := C12 .tiering) (n := 4) Conc.anyB (ok := Conc.any) (fun _ _ _ => trivial)
    ([(3, .insert 9), (3, .tailFirst)] ++ Conc.gos 3 4 ++ Conc.insSched 0 11) (Conc.job1 2 2 ++ [(3, .go)] ++ Conc.insLow 0 12 ++ Conc.query 1 ++ Conc.insSched 3 13)
    (fun s0 s => decide ((s0.base.thr[1]?).any (fun u : Conc.Th => decide (u.hd = none)) = true ∧ s0.base.done.length = 1 ∧
      s.base.claimed.length = 4 ∧ none ∈ s.base.estr 1 ∧ s.base.thr[1]? = some (⟨.run, some 1, some 2, 3⟩ : Conc.Th) ∧
      (snapshot (C12 .tiering) s 1 2 3).recordCount = 3)) (by decide)
  rw [decide_eq_true_eq] at h3
  obtain ⟨a1, a2, a3, a4, a5, a6⟩ := h3
  rw [Option.any_eq_true] at a1
  obtain ⟨u, hu, hun⟩ := a1
  exact ⟨s0, s, h1, h2, ⟨u, hu, of_decide_eq_true hun⟩, a2, a3, a4, ⟨a5, rfl, rfl, by simp⟩, a6⟩

/-- The hypotheses of `C74_own_writes_partial` and `C74_monotone_partial` (with `s1 = s0`): a query on the first epoch, a flush and an
insert, and a query on the second epoch. -/
example : ∃ s0 s, Reach (C12 .leveling) 4 Conc.tidy s0 ∧ Later (C12 .leveling) Conc.tidy s0 s ∧ s0.base.done = [(1, 10), (0, 11)] ∧
    Holds s0.base 1 ⟨.run, some 0, some 0, 2⟩ 0 0 ∧ (∃ u, s0.base.thr[3]? = some u ∧ u.hd = none) ∧ Holds s.base 3 ⟨.run, some 1, some 2, 3⟩ 1 2 ∧
    (snapshot (C12 .leveling) s0 0 0 2).rangeQuery PQ.std LB.scan 5 20 = .ok [⟨11, 11⟩, ⟨10, 10⟩] ∧
    (snapshot (C12 .leveling) s 1 2 3).rangeQuery PQ.std LB.scan 5 20 = .ok [⟨10, 10⟩, ⟨11, 11⟩, ⟨12, 12⟩] := by
  obtain ⟨s0, s, h1, h2, h3⟩ := later_of (C := C12 .leveling) (n := 4) Conc.tidyB (ok := Conc.tidy) (fun _ _ => Conc.tidyB_sound)
    (Conc.insLow 0 11 ++ Conc.insSched 0 10 ++ Conc.query 1) (Conc.job1 2 2 ++ Conc.insLow 0 12 ++ Conc.query 3)
    (fun s0 s => decide (s0.base.done = [(1, 10), (0, 11)] ∧ s0.base.thr[1]? = some (⟨.run, some 0, some 0, 2⟩ : Conc.Th) ∧
      (s0.base.thr[3]?).any (fun u : Conc.Th => decide (u.hd = none)) = true ∧ s.base.thr[3]? = some (⟨.run, some 1, some 2, 3⟩ : Conc.Th) ∧
      (snapshot (C12 .leveling) s0 0 0 2).rangeQuery PQ.std LB.scan 5 20 = .ok [⟨11, 11⟩, ⟨10, 10⟩] ∧
      (snapshot (C12 .leveling) s 1 2 3).rangeQuery PQ.std LB.scan 5 20 = .ok [⟨10, 10⟩, ⟨11, 11⟩, ⟨12, 12⟩])) (by decide)
  rw [decide_eq_true_eq] at h3
  obtain ⟨a1, a2, a3, a4, a5, a6⟩ := h3
  rw [Option.any_eq_true] at a3
  obtain ⟨u, hu, hun⟩ := a3
  exact ⟨s0, s, h1, h2, a1, ⟨a2, rfl, rfl, by simp⟩, ⟨u, hu, of_decide_eq_true hun⟩, ⟨a4, rfl, rfl, by simp⟩, a5, a6⟩

/-! ### C75: point lookups -/

/-- If flushes copy only finished slots and the appends below the tail of the view have finished: a point lookup on the epoch and the view
a thread holds returns a record with the key iff one was inserted below the tail of its view; if the keys are distinct it is that record. -/
theorem C75_partial {P : Par} {L : Layout} {pq : PQ R} (hpq : pq.ByRec) {lb : LB R K} {f : Shard R → K → Res (Option Nat)} (hf : ExactKeyLookup f)
    {sf n : Nat} {ρ : Nat → R} (hw : 0 < P.hwm) (hsf : 1 ≤ sf) {s : St R} (h : Reach ⟨P, L, sortedImpl pq lb, sf, ρ, fun _ => false⟩ n Conc.tidy s)
    {i : Nat} {t : Conc.Th} {e x : Nat} (hi : Holds s.base i t e x) (hfin : ∀ p, p < t.tl → ∃ r, (p, r) ∈ s.base.done) (k : K) :
    ∃ rs : List Nat, rs.length = t.tl ∧ (∀ p r, rs[p]? = some r → (p, r) ∈ s.base.done) ∧
      ∃ res, (snapshot ⟨P, L, sortedImpl pq lb, sf, ρ, fun _ => false⟩ s e x t.tl).pointLookup f k = .ok res ∧
        (∀ r ∈ res, r ∈ rs.map ρ ∧ key r = k) ∧ ((∃ r ∈ rs.map ρ, key r = k) → res.length = 1) ∧
        (((rs.map ρ).map (key (K := K))).Nodup → res = (rs.map ρ).filter (fun r => decide (key r = k))) := by
  obtain ⟨rs, h1, h2, h3, h4, -⟩ := held (C := ⟨P, L, sortedImpl pq lb, sf, ρ, fun _ => false⟩) (sorted_good hpq lb) (fun _ => rfl) hw hsf h hi hfin
  refine ⟨rs, h1, h2, ?_⟩
  have hmem : ∀ y : Entry R, y ∈ (snapshot ⟨P, L, sortedImpl pq lb, sf, ρ, fun _ => false⟩ s e x t.tl).entries ↔
      y.record ∈ rs.map ρ ∧ y.del = false ∧ y.tomb = false := by
    intro y
    rw [h3]
    unfold insEntries
    rw [Multiset.mem_coe, List.mem_map]
    constructor
    · rintro ⟨r, hr, rfl⟩; exact ⟨hr, rfl, rfl⟩
    · rintro ⟨hr, hdl, ht⟩
      refine ⟨y.record, hr, ?_⟩
      cases y; simp_all
  rcases pointLookup_gets hf h4 k with ⟨y, hy, hk, hq⟩ | ⟨hno, hq⟩
  · obtain ⟨g1, g2, g3⟩ := (hmem y).mp hy
    have ha : answer y = [y.record] := by unfold answer; rw [g2, g3]; rfl
    rw [ha] at hq
    refine ⟨[y.record], hq, ?_, fun _ => rfl, fun hnd => (filter_unique hnd g1 hk).symm⟩
    intro r hr
    rw [List.mem_singleton] at hr
    rw [hr]; exact ⟨g1, hk⟩
  · have hnone : ∀ r ∈ rs.map ρ, key (K := K) r ≠ k := fun r hr => hno ⟨r, false, false⟩ ((hmem _).mpr ⟨hr, rfl, rfl⟩)
    refine ⟨[], hq, by simp, ?_, ?_⟩
    · rintro ⟨r, hr, hk⟩
      exact absurd hk (hnone r hr)
    · intro _
      symm
      rw [List.filter_eq_nil_iff]
      intro r hr
      simpa using hnone r hr

/-! ### C76: range counts -/

/-- If flushes copy only finished slots and the appends below the tail of the view have finished: a range count on the epoch and the view a
thread holds that returns, returns the number of in-range records inserted below the tail of its view; it returns iff every shard has a
record that is not below the range (see C11). -/
theorem C76_partial {P : Par} {L : Layout} {pq : PQ R} (hpq : pq.ByRec) {lb : LB R K} (hlb : lb.Sound)
    {sf n : Nat} {ρ : Nat → R} (hw : 0 < P.hwm) (hsf : 1 ≤ sf) {s : St R} (h : Reach ⟨P, L, sortedImpl pq lb, sf, ρ, fun _ => false⟩ n Conc.tidy s)
    {i : Nat} {t : Conc.Th} {e x : Nat} (hi : Holds s.base i t e x) (hfin : ∀ p, p < t.tl → ∃ r, (p, r) ∈ s.base.done) (lo hi' : K) :
    ∃ rs : List Nat, rs.length = t.tl ∧ (∀ p r, rs[p]? = some r → (p, r) ∈ s.base.done) ∧
      (∀ m, (snapshot ⟨P, L, sortedImpl pq lb, sf, ρ, fun _ => false⟩ s e x t.tl).rangeCount lb lo hi' = .ok m →
        m = (inKeys lo hi' (rs.map ρ)).length) ∧
      ((∃ m, (snapshot ⟨P, L, sortedImpl pq lb, sf, ρ, fun _ => false⟩ s e x t.tl).rangeCount lb lo hi' = .ok m) ↔
        ∀ sh ∈ (s.vs e).visible, ∃ w ∈ sh.data, lo ≤ key w.record) := by
  obtain ⟨rs, h1, h2, h3, h4, h5⟩ := held (C := ⟨P, L, sortedImpl pq lb, sf, ρ, fun _ => false⟩) (sorted_good hpq lb) (fun _ => rfl) hw hsf h hi hfin
  refine ⟨rs, h1, h2, fun m hm => ?_, rangeCount_gets_total hlb h4 (fun sh hsm => ⟨(h5 sh hsm).2, (h5 sh hsm).1.1⟩)⟩
  rw [rangeCount_gets hlb h4 (fun sh hsm => (h5 sh hsm).2) hm, h3, ← Multiset.coe_card, ← ins_filter, Multiset.card_map,
    Multiset.countP_eq_card_filter]
  congr 1
  apply Multiset.filter_congr
  intro y hy
  obtain ⟨a, b⟩ := insEntries_clean y hy
  unfold liveInE
  rw [a, b]
  tauto

/-- The hypotheses of `C75_partial` and `C76_partial`: the query holds an epoch that is no longer current. -/
example : ∃ s, Reach (C12 .leveling) 4 Conc.tidy s ∧ Holds s.base 1 ⟨.run, some 1, some 2, 3⟩ 1 2 ∧ (∀ p, p < 3 → ∃ r, (p, r) ∈ s.base.done) ∧
    s.base.cur.ep = some 2 ∧ (snapshot (C12 .leveling) s 1 2 3).pointLookup scanKey 10 = .ok [⟨10, 10⟩] ∧
    (snapshot (C12 .leveling) s 1 2 3).pointLookup scanKey 13 = .ok [] ∧ (snapshot (C12 .leveling) s 1 2 3).rangeCount LB.scan 11 20 = .ok 2 := by
  obtain ⟨s, h1, h2⟩ := reach_of (C := C12 .leveling) (n := 4) Conc.tidyB (ok := Conc.tidy) (fun _ _ => Conc.tidyB_sound)
    (Conc.insLow 0 11 ++ Conc.insSched 0 10 ++ Conc.job1 2 2 ++ Conc.insLow 0 12 ++ Conc.query 1 ++ Conc.insSched 0 13 ++ Conc.job2 2 2)
    (fun s => decide (s.base.thr[1]? = some (⟨.run, some 1, some 2, 3⟩ : Conc.Th) ∧ (2, 12) ∈ s.base.done ∧ (1, 10) ∈ s.base.done ∧
      (0, 11) ∈ s.base.done ∧ s.base.cur.ep = some 2 ∧ (snapshot (C12 .leveling) s 1 2 3).pointLookup scanKey 10 = .ok [⟨10, 10⟩] ∧
      (snapshot (C12 .leveling) s 1 2 3).pointLookup scanKey 13 = .ok [] ∧ (snapshot (C12 .leveling) s 1 2 3).rangeCount LB.scan 11 20 = .ok 2)) (by decide)
  rw [decide_eq_true_eq] at h2
  obtain ⟨a1, a2, a3, a4, a5⟩ := h2
  refine ⟨s, h1, ⟨a1, rfl, rfl, by simp⟩, ?_, a5⟩
  intro p hp
  match p, hp with
  | 0, _ => exact ⟨_, a4⟩
  | 1, _ => exact ⟨_, a3⟩
  | 2, _ => exact ⟨_, a2⟩

/-- The insert of record 9 has returned 1; a point lookup that begins afterwards does not find it. -/
theorem C75_false : ∃ s0 s, Reach (C12 .tiering) 4 Conc.any s0 ∧ Later (C12 .tiering) Conc.any s0 s ∧ s0.base.done = [(0, 9), (1, 11)] ∧
    (∃ u, s0.base.thr[0]? = some u ∧ u.hd = none) ∧ Holds s.base 0 ⟨.run, some 1, some 2, 2⟩ 1 2 ∧ (∀ p, p < 2 → ∃ r, (p, r) ∈ s.base.done) ∧
    (snapshot (C12 .tiering) s 1 2 2).pointLookup scanKey 9 = .ok [] := by
  obtain ⟨s0, s, h1, h2, h3⟩ := later_of (C := C12 .tiering) (n := 4) Conc.anyB (ok := Conc.any) (fun _ _ _ => trivial)
    ([(3, .insert 9), (3, .tailFirst)] ++ Conc.gos 3 4 ++ Conc.insSched 0 11 ++ Conc.job1 2 2 ++ [(3, .go)]) (Conc.query 0)
    (fun s0 s => decide (s0.base.done = [(0, 9), (1, 11)] ∧
      (s0.base.thr[0]?).any (fun u : Conc.Th => decide (u.hd = none)) = true ∧ s.base.thr[0]? = some (⟨.run, some 1, some 2, 2⟩ : Conc.Th) ∧
      s.base.done = [(0, 9), (1, 11)] ∧ (snapshot (C12 .tiering) s 1 2 2).pointLookup scanKey 9 = .ok [])) (by decide)
  rw [decide_eq_true_eq] at h3
  obtain ⟨a1, a2, a3, a4, a5⟩ := h3
  rw [Option.any_eq_true] at a2
  obtain ⟨u, hu, hun⟩ := a2
  refine ⟨s0, s, h1, h2, a1, ⟨u, hu, of_decide_eq_true hun⟩, ⟨a3, rfl, rfl, by simp⟩, ?_, a5⟩
  intro p hp
  rw [a4]
  match p, hp with
  | 0, _ => exact ⟨9, by simp⟩
  | 1, _ => exact ⟨11, by simp⟩

/-- Two inserts have returned 1; a range count over their keys that begins afterwards returns 1. -/
theorem C76_false : ∃ s0 s, Reach (C12 .tiering) 4 Conc.any s0 ∧ Later (C12 .tiering) Conc.any s0 s ∧ s0.base.done = [(0, 9), (1, 11)] ∧
    (∃ u, s0.base.thr[0]? = some u ∧ u.hd = none) ∧ Holds s.base 0 ⟨.run, some 1, some 2, 2⟩ 1 2 ∧
    (snapshot (C12 .tiering) s 1 2 2).rangeCount LB.scan 5 20 = .ok 1 := by
  obtain ⟨s0, s, h1, h2, h3⟩ := later_of (C := C12 .tiering) (n := 4) Conc.anyB (ok := Conc.any) (fun _ _ _ => trivial)
    ([(3, .insert 9), (3, .tailFirst)] ++ Conc.gos 3 4 ++ Conc.insSched 0 11 ++ Conc.job1 2 2 ++ [(3, .go)]) (Conc.query 0)
    (fun s0 s => decide (s0.base.done = [(0, 9), (1, 11)] ∧
      (s0.base.thr[0]?).any (fun u : Conc.Th => decide (u.hd = none)) = true ∧ s.base.thr[0]? = some (⟨.run, some 1, some 2, 2⟩ : Conc.Th) ∧
      (snapshot (C12 .tiering) s 1 2 2).rangeCount LB.scan 5 20 = .ok 1)) (by decide)
  rw [decide_eq_true_eq] at h3
  obtain ⟨a1, a2, a3, a4⟩ := h3
  rw [Option.any_eq_true] at a2
  obtain ⟨u, hu, hun⟩ := a2
  exact ⟨s0, s, h1, h2, a1, ⟨u, hu, of_decide_eq_true hun⟩, ⟨a3, rfl, rfl, by simp⟩, a4⟩

end

/-! ### C77: k-NN queries -/

section
variable {R 𝔽 : Type} [Inhabited R] [DecidableEq R] [LinearOrder 𝔽] [AddCommGroup 𝔽] [IsOrderedAddMonoid 𝔽]

/-- If flushes copy only finished slots and the appends below the tail of the view have finished: a k-NN query on the epoch and the view a
thread holds returns the `k` nearest of the records inserted below the tail of its view. -/
theorem C77_partial {q : MaxQ R 𝔽} (hq : q.Ok) {dist : R → R → 𝔽} (hd : Metric dist) {leafSz : Nat} {g0 : Rng} {P : Par} {L : Layout}
    {sf n : Nat} {ρ : Nat → R} (hw : 0 < P.hwm) (hsf : 1 ≤ sf) {s : St R} (h : Reach ⟨P, L, vpImpl dist leafSz g0, sf, ρ, fun _ => false⟩ n Conc.tidy s)
    {i : Nat} {t : Conc.Th} {e x : Nat} (hi : Holds s.base i t e x) (hfin : ∀ p, p < t.tl → ∃ r, (p, r) ∈ s.base.done)
    (g : Shard R → Rng) (hg : ∀ sh, t.tl ≤ (g sh).max) (point : R) {k : Nat} (hk : 1 ≤ k) :
    ∃ rs : List Nat, rs.length = t.tl ∧ (∀ p r, rs[p]? = some r → (p, r) ∈ s.base.done) ∧
      ∃ res, (snapshot ⟨P, L, vpImpl dist leafSz g0, sf, ρ, fun _ => false⟩ s e x t.tl).knn q dist
          (fun sh => VP.tree dist leafSz (g sh) sh.data) point k = .ok res ∧
        KAnswer k (fun y => dist y point) (rs.map ρ) res := by
  obtain ⟨rs, h1, h2, h3, h4, h5⟩ := held (C := ⟨P, L, vpImpl dist leafSz g0, sf, ρ, fun _ => false⟩) (vp_goodAny dist leafSz g0).toGood
    (fun _ => rfl) hw hsf h hi hfin
  refine ⟨rs, h1, h2, ?_⟩
  generalize hD : snapshot ⟨P, L, vpImpl dist leafSz g0, sf, ρ, fun _ => false⟩ s e x t.tl = d at h3 h4 h5
  have hp : d.knnData.Perm (rs.map ρ) := by
    rw [← Multiset.coe_eq_coe, knnData_clean (by rw [h3]; exact insEntries_clean), h3]
    simp only [insEntries, Multiset.map_coe, List.map_map]
    congr 1
  have hsz : ∀ sh ∈ d.str.visible, sh.data.length ≤ (g sh).max := by
    intro sh hs
    have h6 : sh.data.length ≤ d.knnData.length := by
      unfold Index.knnData
      rw [List.length_append, List.length_flatten]
      have : (sh.data.map Wrapped.record).length ∈ (d.str.visible.map (fun s => s.data.map Wrapped.record)).map List.length :=
        List.mem_map_of_mem (List.mem_map_of_mem hs)
      have := le_natSum this
      rw [List.length_map] at this
      omega
    have := hp.length_eq
    rw [List.length_map, h1] at this
    have := hg sh
    omega
  obtain ⟨res, h7, h8⟩ := (knn_gets hq (safe := True) hd.symm hd.tri hk h4 (fun _ => hsz)).safe trivial
  exact ⟨res, h7, h8.1.perm hp (List.Perm.refl _), h8.2⟩

end

/-- VPTree shards behind the four-slot ring. -/
def CV (L : Layout) : Cfg Rec := ⟨Conc.P12, L, vpImpl keyDist 8 (tapeRng (5 * ·)), 2, fun r => ⟨r, r⟩, fun _ => false⟩

/-- The hypotheses of `C77_partial`. -/
example : ∃ s, Reach (CV .leveling) 4 Conc.tidy s ∧ Holds s.base 1 ⟨.run, some 1, some 2, 3⟩ 1 2 ∧ (∀ p, p < 3 → ∃ r, (p, r) ∈ s.base.done) ∧
    3 ≤ (tapeRng (5 * ·)).max ∧ s.base.cur.ep = some 2 ∧
    (snapshot (CV .leveling) s 1 2 3).knn MaxQ.std keyDist (fun s => VP.tree keyDist 8 (tapeRng (5 * ·)) s.data) ⟨13, 0⟩ 2 = .ok [⟨11, 11⟩, ⟨12, 12⟩] := by
  obtain ⟨s, h1, h2⟩ := reach_of (C := CV .leveling) (n := 4) Conc.tidyB (ok := Conc.tidy) (fun _ _ => Conc.tidyB_sound)
    (Conc.insLow 0 11 ++ Conc.insSched 0 10 ++ Conc.job1 2 2 ++ Conc.insLow 0 12 ++ Conc.query 1 ++ Conc.insSched 0 13 ++ Conc.job2 2 2)
    (fun s => decide (s.base.thr[1]? = some (⟨.run, some 1, some 2, 3⟩ : Conc.Th) ∧ (2, 12) ∈ s.base.done ∧ (1, 10) ∈ s.base.done ∧
      (0, 11) ∈ s.base.done ∧ 3 ≤ (tapeRng (5 * ·)).max ∧ s.base.cur.ep = some 2 ∧
      (snapshot (CV .leveling) s 1 2 3).knn MaxQ.std keyDist (fun s => VP.tree keyDist 8 (tapeRng (5 * ·)) s.data) ⟨13, 0⟩ 2 = .ok [⟨11, 11⟩, ⟨12, 12⟩])) (by decide)
  rw [decide_eq_true_eq] at h2
  obtain ⟨a1, a2, a3, a4, a5⟩ := h2
  refine ⟨s, h1, ⟨a1, rfl, rfl, by simp⟩, ?_, a5⟩
  intro p hp
  match p, hp with
  | 0, _ => exact ⟨_, a4⟩
  | 1, _ => exact ⟨_, a3⟩
  | 2, _ => exact ⟨_, a2⟩

/-- The insert of record 9 has returned 1; the query for the nearest neighbour of that record that begins afterwards returns record 11. -/
theorem C77_false : ∃ s0 s, Reach (CV .tiering) 4 Conc.any s0 ∧ Later (CV .tiering) Conc.any s0 s ∧ s0.base.done = [(0, 9), (1, 11)] ∧
    (∃ u, s0.base.thr[0]? = some u ∧ u.hd = none) ∧ Holds s.base 0 ⟨.run, some 1, some 2, 2⟩ 1 2 ∧
    (snapshot (CV .tiering) s 1 2 2).knn MaxQ.std keyDist (fun s => VP.tree keyDist 8 (tapeRng (5 * ·)) s.data) ⟨9, 9⟩ 1 = .ok [⟨11, 11⟩] := by
  obtain ⟨s0, s, h1, h2, h3⟩ := later_of (C := CV .tiering) (n := 4) Conc.anyB (ok := Conc.any) (fun _ _ _ => trivial)
    ([(3, .insert 9), (3, .tailFirst)] ++ Conc.gos 3 4 ++ Conc.insSched 0 11 ++ Conc.job1 2 2 ++ [(3, .go)]) (Conc.query 0)
    (fun s0 s => decide (s0.base.done = [(0, 9), (1, 11)] ∧
      (s0.base.thr[0]?).any (fun u : Conc.Th => decide (u.hd = none)) = true ∧ s.base.thr[0]? = some (⟨.run, some 1, some 2, 2⟩ : Conc.Th) ∧
      (snapshot (CV .tiering) s 1 2 2).knn MaxQ.std keyDist (fun s => VP.tree keyDist 8 (tapeRng (5 * ·)) s.data) ⟨9, 9⟩ 1 = .ok [⟨11, 11⟩])) (by decide)
  rw [decide_eq_true_eq] at h3
  obtain ⟨a1, a2, a3, a4⟩ := h3
  rw [Option.any_eq_true] at a2
  obtain ⟨u, hu, hun⟩ := a2
  exact ⟨s0, s, h1, h2, a1, ⟨u, hu, of_decide_eq_true hun⟩, ⟨a3, rfl, rfl, by simp⟩, a4⟩

end DE.Full
