import Verif.Proofs.Full
import Verif.Properties.RangeQuery

/-!
C67: range queries that run concurrently with inserts and reconstructions, on the real level structures.
-/

namespace DE.Full
open Conc (Par Slot Ch)
variable {R K : Type} [LinearOrder R] [LinearOrder K] [HasKey R K] [Inhabited R]

/-- The records with key in `[lo, hi]`. -/
def inKeys (lo hi : K) (rs : List R) : List R := rs.filter (fun r => decide (lo ≤ key r ∧ key r ≤ hi))

/-- Thread `i` holds epoch `e` and the view `[h, t.tl)`. -/
structure Holds (s : Conc.St) (i : Nat) (t : Conc.Th) (e h : Nat) : Prop where
  thr : s.thr[i]? = some t
  ep : t.ep = some e
  hd : t.hd = some h
  view : ∀ k, t.pc ≠ .gt k

omit [LinearOrder R] in
/-- The views threads hold never cover more than the ring. -/
theorem view_le {C : Cfg R} {n : Nat} {ok : Conc.St → Nat → Prop} (hw : 0 < C.P.hwm) {s : St R} (h : Reach C n ok s)
    {i : Nat} {t : Conc.Th} {e x : Nat} (hi : Holds s.base i t e x) : x ≤ t.tl ∧ t.tl ≤ x + C.P.cap := by
  have hI := h.base.inv hw
  have hle := hI.hd_le hi.thr hi.hd
  have htl : x ≤ t.tl ∧ t.tl ≤ s.base.tail := ((hI.thread hi.thr).2 x hi.hd).resolve_left (fun ⟨k, h⟩ => hi.view k h)
  have hb : s.base.tail ≤ s.base.head.idx + C.P.hwm := hI.bnd.2
  have hle2 : s.base.head.idx ≤ x + C.P.hwm := hle.2
  refine ⟨htl.1, ?_⟩
  unfold Par.cap; omega

theorem sorted_good {pq : PQ R} (hpq : pq.ByRec) (lb : LB R K) : Good (sortedImpl pq lb) (fun s => RecSorted s.data) where
  ok := sortedImpl_cleanOk pq lb
  merge := fun ss s _ h hm => (sortedImpl_closed_sorted hpq lb (v := ⟨fun _ => ⟨0, (Classical.choice inferInstance : R)⟩, 0, 0, 0, 0⟩)).merge (ss.map some) s (by
    intro x hx
    obtain ⟨y, hy, hxy⟩ := List.mem_map.mp hx
    cases hxy; exact h x hy) hm
  build := fun b s _ _ hb => (sortedImpl_closed_sorted hpq lb (v := b.view)).build s hb

theorem sorted_keeps {P : Par} {L : Layout} {pq : PQ R} (hpq : pq.ByRec) (lb : LB R K) {sf : Nat} {ρ : Nat → R} (hw : 0 < P.hwm) (hsf : 1 ≤ sf) :
    Keeps True ⟨P, L, sortedImpl pq lb, sf, ρ, fun _ => false⟩ (VGood ⟨P, L, sortedImpl pq lb, sf, ρ, fun _ => false⟩ (fun s => RecSorted s.data)) :=
  VGood.keeps (C := ⟨P, L, sortedImpl pq lb, sf, ρ, fun _ => false⟩) (sorted_good hpq lb) (fun _ => rfl) hw hsf

theorem sorted_goodAny {pq : PQ R} (hpq : pq.ByRec) (lb : LB R K) : GoodAny (sortedImpl pq lb) (fun s => RecSorted s.data) where
  toGood := sorted_good hpq lb
  any := by
    intro v l h1 h2 _ hc
    have hb : ∃ s, (sortedImpl pq lb).build v = .ok s := ⟨_, by simp only [sortedImpl, sortedFromView, h1]; rfl⟩
    obtain ⟨s, hb⟩ := hb
    refine ⟨s, hb, ?_, (sortedImpl_closed_sorted hpq lb (v := v)).build _ hb⟩
    simp only [sortedImpl, sortedFromView, bind_ok, h1] at hb
    obtain ⟨l', e, hs⟩ := hb
    cases e; cases hs
    have h3 := scanSorted_reduces (sortW l)
    rw [ents_perm (sortW_perm l)] at h3
    exact (h3.clean hc).symm

/-- Whether or not flushes wait for the records they copy. -/
theorem sorted_keepsAny {P : Par} {L : Layout} {pq : PQ R} (hpq : pq.ByRec) (lb : LB R K) {sf : Nat} {ρ : Nat → R} (hw : 0 < P.hwm) (hsf : 1 ≤ sf) :
    Keeps False ⟨P, L, sortedImpl pq lb, sf, ρ, fun _ => false⟩ (VGood ⟨P, L, sortedImpl pq lb, sf, ρ, fun _ => false⟩ (fun s => RecSorted s.data)) :=
  VGood.keepsAny (C := ⟨P, L, sortedImpl pq lb, sf, ρ, fun _ => false⟩) (sorted_goodAny hpq lb) (fun _ => rfl) hw hsf

omit [Inhabited R] in
/-- The multiset of clean entries with key in range. -/
theorem ins_filter (lo hi : K) (rs : List R) :
    ((insEntries rs).filter (inRangeE lo hi)).map Entry.record = (inKeys lo hi rs : Multiset R) := by
  unfold insEntries inKeys
  induction rs with
  | nil => rfl
  | cons r rs ih =>
    rw [List.map_cons, ← Multiset.cons_coe]
    by_cases hin : lo ≤ key r ∧ key r ≤ hi
    · have hin' : inRangeE lo hi (⟨r, false, false⟩ : Entry R) := hin
      rw [Multiset.filter_cons_of_pos _ hin', Multiset.map_cons, ih,
        List.filter_cons_of_pos (by simpa using hin), ← Multiset.cons_coe]
    · have hin' : ¬ inRangeE lo hi (⟨r, false, false⟩ : Entry R) := hin
      rw [Multiset.filter_cons_of_neg _ hin', ih, List.filter_cons_of_neg (by simpa using hin)]

/-- A range query on the structure and the view a thread holds returns the records of the slots it sees. -/
theorem query_slots {P : Par} {L : Layout} {pq pq' : PQ R} (hpq : pq.ByRec) {lb : LB R K} (hlb : lb.Sound) {sf n : Nat} {ok : Conc.St → Nat → Prop} {ρ : Nat → R}
    (hw : 0 < P.hwm) (hsf : 1 ≤ sf) {s : St R} (h : Reach ⟨P, L, sortedImpl pq lb, sf, ρ, fun _ => false⟩ n ok s)
    {i : Nat} {t : Conc.Th} {e x : Nat} (hi : Holds s.base i t e x) (lo hi' : K) :
    ∃ res, (snapshot ⟨P, L, sortedImpl pq lb, sf, ρ, fun _ => false⟩ s e x t.tl).rangeQuery pq' lb lo hi' = .ok res ∧
      res.Perm (inKeys lo hi' ((Conc.snapshot P s.base e x t.tl).map (sval ρ))) := by
  have hv := h.pinnedW (C := ⟨P, L, sortedImpl pq lb, sf, ρ, fun _ => false⟩) (sorted_keepsAny hpq lb hw hsf) hw (fun h => h.elim) hi.thr hi.ep
  have hI := h.base.inv hw
  have hle := hI.hd_le hi.thr hi.hd
  have htl : x ≤ t.tl ∧ t.tl ≤ s.base.tail := ((hI.thread hi.thr).2 x hi.hd).resolve_left (fun ⟨k, h⟩ => hi.view k h)
  have hb : s.base.tail ≤ s.base.head.idx + P.hwm := hI.bnd.2
  have hle2 : s.base.head.idx ≤ x + P.hwm := hle.2
  have hg := snapshot_gets (C := ⟨P, L, sortedImpl pq lb, sf, ρ, fun _ => false⟩) hw (s := s) (e := e) (h := x) (tl := t.tl)
    (by show t.tl ≤ x + P.cap; unfold Par.cap; omega)
  obtain ⟨res, hres⟩ := rangeQuery_gets_total (pq := pq') hlb hg (lo := lo) (hi := hi')
    (fun sh hsm => ⟨(hv.shards sh hsm).2, (hv.shards sh hsm).1.1⟩)
  refine ⟨res, hres, ?_⟩
  obtain ⟨m, rfl, -, hr, -⟩ := rangeQuery_gets hlb hg (fun sh hsm => (hv.shards sh hsm).2) hres
  have hent := snapshot_entries (C := ⟨P, L, sortedImpl pq lb, sf, ρ, fun _ => false⟩) (fun _ => rfl) (h := x) (tl := t.tl) hv
  rw [hent] at hr
  have hcl : ∀ y ∈ (insEntries ((Conc.snapshot P s.base e x t.tl).map (sval ρ))).filter (inRangeE lo hi'), y.tomb = false :=
    fun y hy => (insEntries_clean y (Multiset.mem_filter.mp hy).1).1
  obtain ⟨dr, he, hdr⟩ := hr.no_tomb hcl
  have hdr0 : dr = 0 := by
    apply Multiset.eq_zero_of_forall_notMem
    intro y hy
    have := hcl y (by rw [he, Multiset.mem_add]; exact Or.inr hy)
    rw [hdr y hy] at this; cases this
  rw [hdr0, add_zero] at he
  rw [← Multiset.coe_eq_coe, ← ins_filter, he]
  simp [ents, Function.comp_def, Wrapped.entry]

/-! ### C67 -/

/-- Every range query that runs on the epoch and the view a thread holds succeeds and returns exactly the in-range records among
those inserted at positions below the tail of its view. -/
def QueriesExact (C : Cfg R) (pq' : PQ R) (lb : LB R K) (s : St R) : Prop :=
  ∀ (i : Nat) (t : Conc.Th) (e h : Nat) (lo hi : K), Holds s.base i t e h →
    ∃ rs : List Nat, rs.length = t.tl ∧ (∀ p r, rs[p]? = some r → (p, r) ∈ s.base.claimed) ∧
      ∃ res, (snapshot C s e h t.tl).rangeQuery pq' lb lo hi = .ok res ∧ res.Perm (inKeys lo hi (rs.map C.ρ))

/-- If flushes copy only finished slots and the appends below the tail of the view have finished, the query is exact: it
returns each record inserted below the tail of its view as often as it was inserted and nothing else, at any moment while
it holds its epoch and its view, whatever the other threads do. -/
theorem C67_partial {P : Par} {L : Layout} {pq pq' : PQ R} (hpq : pq.ByRec) {lb : LB R K} (hlb : lb.Sound) {sf n : Nat} {ρ : Nat → R}
    (hw : 0 < P.hwm) (hsf : 1 ≤ sf) {s : St R} (h : Reach ⟨P, L, sortedImpl pq lb, sf, ρ, fun _ => false⟩ n Conc.tidy s)
    {i : Nat} {t : Conc.Th} {e x : Nat} (hi : Holds s.base i t e x) (hfin : ∀ p, p < t.tl → ∃ r, (p, r) ∈ s.base.done) (lo hi' : K) :
    ∃ rs : List Nat, rs.length = t.tl ∧ (∀ p r, rs[p]? = some r → (p, r) ∈ s.base.done) ∧
      ∃ res, (snapshot ⟨P, L, sortedImpl pq lb, sf, ρ, fun _ => false⟩ s e x t.tl).rangeQuery pq' lb lo hi' = .ok res ∧
        res.Perm (inKeys lo hi' (rs.map ρ)) := by
  obtain ⟨res, h1, h2⟩ := query_slots (pq' := pq') hpq hlb hw hsf h hi lo hi'
  obtain ⟨rs, h3, h4, h5⟩ := Conc.C60_exact hw h.base hi.thr hi.ep hi.hd hi.view hfin
  refine ⟨rs, h3, h4, res, h1, ?_⟩
  rw [h5] at h2
  have he : ((rs.zipIdx).map (fun y => some (y.2, y.1))).map (sval ρ) = rs.map ρ := by
    rw [List.map_map]
    conv_rhs => rw [← List.zipIdx_map_fst 0 rs, List.map_map]
    rfl
  rw [he] at h2
  exact h2

/-- A sublist of a list that has given elements at given positions. -/
theorem filterMap_range_sublist {α β : Type} (f : Nat → Option β) (g : α → β) : ∀ (l : List α), (∀ p b, f p = some b → p < l.length → ∃ a, l[p]? = some a ∧ g a = b) →
    ((List.range l.length).filterMap f).Sublist (l.map g) := by
  intro l
  induction l using List.reverseRecOn with
  | nil => intro _; simp
  | append_singleton l a ih =>
    intro h
    have h1 := ih (fun p b hp hl => by
      obtain ⟨y, hy, hg⟩ := h p b hp (by simp; omega)
      rw [List.getElem?_append_left hl] at hy
      exact ⟨y, hy, hg⟩)
    rw [List.length_append, List.length_singleton, List.range_succ, List.filterMap_append, List.map_append]
    apply h1.append
    cases hf : f l.length with
    | none => simp [hf]
    | some b =>
      obtain ⟨y, hy, hg⟩ := h _ b hf (by simp)
      rw [List.getElem?_append_right (le_refl _)] at hy
      simp at hy
      subst hy
      simp [hf, hg]

/-- Whether or not appends are in flight, a query returns every in-range record whose insert has returned 1 and whose position
is below the tail of its view, at least as often as it was inserted there: `f` lists such inserts by position. -/
theorem C67_complete_partial {P : Par} {L : Layout} {pq pq' : PQ R} (hpq : pq.ByRec) {lb : LB R K} (hlb : lb.Sound) {sf n : Nat} {ρ : Nat → R}
    (hw : 0 < P.hwm) (hsf : 1 ≤ sf) {s : St R} (h : Reach ⟨P, L, sortedImpl pq lb, sf, ρ, fun _ => false⟩ n Conc.tidy s)
    {i : Nat} {t : Conc.Th} {e x : Nat} (hi : Holds s.base i t e x) (f : Nat → Option Nat) (hf : ∀ p r, f p = some r → (p, r) ∈ s.base.done)
    (lo hi' : K) :
    ∃ res, (snapshot ⟨P, L, sortedImpl pq lb, sf, ρ, fun _ => false⟩ s e x t.tl).rangeQuery pq' lb lo hi' = .ok res ∧
      ∀ r : R, (inKeys lo hi' (((List.range t.tl).filterMap f).map ρ)).count r ≤ res.count r := by
  obtain ⟨res, h1, h2⟩ := query_slots (pq' := pq') hpq hlb hw hsf h hi lo hi'
  refine ⟨res, h1, fun r => ?_⟩
  rw [h2.count_eq]
  obtain ⟨c1, c2⟩ := Conc.C60_partial hw h.base i t e x hi.thr hi.ep hi.hd hi.view
  have hsub := filterMap_range_sublist (fun p => (f p).map ρ) (sval ρ) (Conc.snapshot P s.base e x t.tl) (by
    intro p b hp hl
    rw [Option.map_eq_some_iff] at hp
    obtain ⟨r, hr, rfl⟩ := hp
    rw [c1] at hl
    exact ⟨_, c2 p r (hf p r hr) hl, rfl⟩)
  rw [c1] at hsub
  have hm : ((List.range t.tl).filterMap f).map ρ = (List.range t.tl).filterMap (fun p => (f p).map ρ) := by
    rw [List.map_filterMap]
  rw [hm]
  exact (hsub.filter _).count_le r

/-- The reconstruction never fails on the structures: a step of the composed system fails only if the corresponding step of the
protocol does (C59, C58), unless the block to be flushed is empty. -/
theorem C67_progress {P : Par} {L : Layout} {pq : PQ R} (hpq : pq.ByRec) {lb : LB R K} {sf n : Nat} {ok : Conc.St → Nat → Prop} {ρ : Nat → R}
    (hw : 0 < P.hwm) (hsf : 1 ≤ sf) {s : St R} (h : Reach ⟨P, L, sortedImpl pq lb, sf, ρ, fun _ => false⟩ n ok s) {i : Nat} {c : Ch} {b : Conc.St}
    (hs : Conc.step P s.base i c = .ok (some b))
    (hne : ∀ t e p acc, s.base.thr[i]? = some t → t.pc = .cp e p acc → s.base.head.idx < t.tl) :
    ∃ s', step ⟨P, L, sortedImpl pq lb, sf, ρ, fun _ => false⟩ s i c = .ok (some s') ∧ s'.base = b := by
  have hF := h.finvW (C := ⟨P, L, sortedImpl pq lb, sf, ρ, fun _ => false⟩) (sorted_keepsAny hpq lb hw hsf) hw (fun h => h.elim)
  cases ht : s.base.thr[i]? with
  | none => unfold Conc.step at hs; rw [ht] at hs; cases hs
  | some t =>
    have hs' := hs
    unfold Conc.step at hs'
    rw [ht] at hs'
    obtain ⟨vs, hvs⟩ := hF.progress (C := ⟨P, L, sortedImpl pq lb, sf, ρ, fun _ => false⟩) (h.base.inv hw) (h.base.hist hw) (h.base.len hw) ht hs'
      (fun e p acc hpc => hne t e p acc ht hpc)
      (fun e acc hv h0 hl _ => by
        obtain ⟨v', hv', -⟩ := hv.jobAny (sorted_goodAny hpq lb) (fun _ => rfl) hw (hd := t.hd.getD 0) h0 hl
        exact ⟨v', hv'⟩)
    refine ⟨⟨b, vs⟩, ?_, rfl⟩
    unfold step
    rw [ht]
    show (Conc.step P s.base i c >>= _) = _
    rw [hs]
    show (structs _ s t >>= _) = _
    rw [hvs]; rfl

/-- A two-level tiering index behind the four-slot ring of `P12`; record `r` has key and value `r`. -/
def C12 (L : Layout) : Cfg Rec := ⟨Conc.P12, L, sortedImpl PQ.std LB.scan, 2, fun r => ⟨r, r⟩, fun _ => false⟩

/-- The insert of record 9 has returned 1 before the query starts, and the query does not return it. -/
theorem C67_false_lost : ∃ s, Reach (C12 .tiering) 4 Conc.any s ∧ Holds s.base 1 ⟨.run, some 1, some 2, 2⟩ 1 2 ∧
    s.base.claimed = [(1, 11), (0, 9)] ∧ (0, 9) ∈ s.base.done ∧
    (snapshot (C12 .tiering) s 1 2 2).rangeQuery PQ.std LB.scan 5 20 = .ok [⟨11, 11⟩] := by
  obtain ⟨s, h1, h2⟩ := reach_of (C := C12 .tiering) (n := 4) Conc.anyB (ok := Conc.any) (fun _ _ _ => trivial)
    ([(3, .insert 9), (3, .tailFirst)] ++ Conc.gos 3 4 ++ Conc.insSched 0 11 ++ Conc.job1 2 2 ++ [(3, .go)] ++ Conc.query 1)
    (fun s => decide (s.base.thr[1]? = some (⟨.run, some 1, some 2, 2⟩ : Conc.Th) ∧ s.base.claimed = [(1, 11), (0, 9)] ∧ (0, 9) ∈ s.base.done ∧
      (snapshot (C12 .tiering) s 1 2 2).rangeQuery PQ.std LB.scan 5 20 = .ok [⟨11, 11⟩])) (by decide)
  rw [decide_eq_true_eq] at h2
  exact ⟨s, h1, ⟨h2.1, rfl, rfl, by simp⟩, h2.2⟩

theorem C67_false : ∃ s, Reach (C12 .tiering) 4 Conc.any s ∧ ¬ QueriesExact (C12 .tiering) PQ.std LB.scan s := by
  obtain ⟨s, h1, h2, h3, -, h5⟩ := C67_false_lost
  refine ⟨s, h1, fun hq => ?_⟩
  obtain ⟨rs, l1, l2, res, r1, r2⟩ := hq 1 _ 1 2 5 20 h2
  have r1 : (snapshot (C12 .tiering) s 1 2 2).rangeQuery PQ.std LB.scan 5 20 = .ok res := r1
  rw [h5] at r1
  cases r1
  have l1 : rs.length = 2 := l1
  match rs, l1 with
  | [a, b], _ =>
    have ha := l2 0 a rfl
    rw [h3] at ha
    have ha : a = 9 := by simpa using ha
    subst ha
    have : (⟨9, 9⟩ : Rec) ∈ ([⟨11, 11⟩] : List Rec) := r2.mem_iff.mpr (by
      unfold inKeys
      rw [List.mem_filter]
      refine ⟨by simp [C12], by decide⟩)
    exact absurd this (by decide)

/-- The hypotheses of `C67_partial`: two flushes have gone through the levels, and the query holds the epoch between them, which
is no longer current, while all appends have finished. -/
example : ∃ s, Reach (C12 .leveling) 4 Conc.tidy s ∧ Holds s.base 1 ⟨.run, some 1, some 2, 3⟩ 1 2 ∧ (∀ p, p < 3 → ∃ r, (p, r) ∈ s.base.done) ∧
    s.base.cur.ep = some 2 ∧ (s.vs 2).visible.length = 1 ∧
    (snapshot (C12 .leveling) s 1 2 3).rangeQuery PQ.std LB.scan 10 12 = .ok [⟨10, 10⟩, ⟨11, 11⟩, ⟨12, 12⟩] := by
  obtain ⟨s, h1, h2⟩ := reach_of (C := C12 .leveling) (n := 4) Conc.tidyB (ok := Conc.tidy) (fun _ _ => Conc.tidyB_sound)
    (Conc.insLow 0 11 ++ Conc.insSched 0 10 ++ Conc.job1 2 2 ++ Conc.insLow 0 12 ++ Conc.query 1 ++ Conc.insSched 0 13 ++ Conc.job2 2 2)
    (fun s => decide (s.base.thr[1]? = some (⟨.run, some 1, some 2, 3⟩ : Conc.Th) ∧ (2, 12) ∈ s.base.done ∧ (1, 10) ∈ s.base.done ∧
      (0, 11) ∈ s.base.done ∧ s.base.cur.ep = some 2 ∧ (s.vs 2).visible.length = 1 ∧
      (snapshot (C12 .leveling) s 1 2 3).rangeQuery PQ.std LB.scan 10 12 = .ok [⟨10, 10⟩, ⟨11, 11⟩, ⟨12, 12⟩])) (by decide)
  rw [decide_eq_true_eq] at h2
  obtain ⟨a1, a2, a3, a4, a5⟩ := h2
  refine ⟨s, h1, ⟨a1, rfl, rfl, by simp⟩, ?_, a5⟩
  intro p hp
  match p, hp with
  | 0, _ => exact ⟨_, a4⟩
  | 1, _ => exact ⟨_, a3⟩
  | 2, _ => exact ⟨_, a2⟩

/-- The hypotheses of `C67_complete_partial`: an append below the tail of the view is still in flight. -/
example : ∃ s, Reach (C12 .bsm) 4 Conc.tidy s ∧ Holds s.base 1 ⟨.run, some 1, some 2, 4⟩ 1 2 ∧
    Conc.pcOf s.base 3 = some (.ap5 12 2) ∧ (∀ p r, (fun p => if p = 3 then some 13 else none) p = some r → (p, r) ∈ s.base.done) ∧
    (snapshot (C12 .bsm) s 1 2 4).rangeQuery PQ.std LB.scan 12 20 = .ok [⟨13, 13⟩] := by
  obtain ⟨s, h1, h2⟩ := reach_of (C := C12 .bsm) (n := 4) Conc.tidyB (ok := Conc.tidy) (fun _ _ => Conc.tidyB_sound)
    (Conc.insLow 0 11 ++ Conc.insSched 0 10 ++ Conc.job1 2 2 ++ [(3, .insert 12), (3, .tailFirst)] ++ Conc.gos 3 4 ++
      Conc.insSched 0 13 ++ Conc.query 1)
    (fun s => decide (s.base.thr[1]? = some (⟨.run, some 1, some 2, 4⟩ : Conc.Th) ∧ (3, 13) ∈ s.base.done ∧
      Conc.pcOf s.base 3 = some (.ap5 12 2) ∧ (snapshot (C12 .bsm) s 1 2 4).rangeQuery PQ.std LB.scan 12 20 = .ok [⟨13, 13⟩])) (by decide)
  rw [decide_eq_true_eq] at h2
  obtain ⟨a1, a2, a3, a4⟩ := h2
  refine ⟨s, h1, ⟨a1, rfl, rfl, by simp⟩, a3, ?_, a4⟩
  intro p r hp
  simp only at hp
  split at hp
  · rename_i h; cases hp; subst h; exact a2
  · cases hp

/-- The hypotheses of `C67_progress`: a job that has copied its two slots. -/
example : ∃ s, Reach (C12 .tiering) 4 Conc.tidy s ∧ Conc.pcOf s.base 2 = some (.cp 2 4 [some (2, 12), some (3, 13)]) ∧ s.base.head.idx = 2 := by
  obtain ⟨s, h1, h2⟩ := reach_of (C := C12 .tiering) (n := 4) Conc.tidyB (ok := Conc.tidy) (fun _ _ => Conc.tidyB_sound)
    (Conc.insLow 0 11 ++ Conc.insSched 0 10 ++ Conc.job1 2 2 ++ Conc.insLow 0 12 ++ Conc.insSched 0 13 ++ (Conc.job2 2 2).take 9)
    (fun s => decide (Conc.pcOf s.base 2 = some (.cp 2 4 [some (2, 12), some (3, 13)]) ∧ s.base.head.idx = 2)) (by decide)
  rw [decide_eq_true_eq] at h2
  exact ⟨s, h1, h2⟩

end DE.Full
