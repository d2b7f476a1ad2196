import Verif.Properties.Full
import Verif.Proofs.Static

/-!
C68: `create_static_structure` called while inserts and reconstructions run.
-/

namespace DE

/-- `copy_to_buffer` on a view of the whole ring does not notice the wrap-around: it reads past the end of the ring unless the view
starts at slot 0. -/
theorem copyOut_whole_ub {R : Type} (v : View R) (hn : v.tail = v.head + v.cap) (h0 : v.head % v.cap ≠ 0) : v.copyOut = .error .ub := by
  have h2 : v.stop = v.start := by simp [View.stop, View.start, hn]
  have h3 : v.count = v.cap := by simp [View.count, hn]
  unfold View.copyOut
  rw [h2, if_neg (Nat.lt_irrefl _), h3, if_neg]
  unfold View.start
  omega

theorem copyOut_whole {R : Type} (v : View R) (hn : v.tail = v.head + v.cap) (h0 : v.head % v.cap = 0) :
    v.copyOut = .ok ((List.range (v.tail - v.head)).map (fun i => v.data ((v.head + i) % v.cap))) := by
  have h2 : v.stop = v.start := by simp [View.stop, View.start, hn]
  have h3 : v.count = v.cap := by simp [View.count, hn]
  have h4 : v.start = 0 := h0
  unfold View.copyOut
  rw [h2, if_neg (Nat.lt_irrefl _), h3, h4, if_pos (by omega)]
  congr 1
  unfold View.slice
  rw [show v.tail - v.head = v.cap by omega]
  apply List.map_congr_left
  intro i hi
  have hi := List.mem_range.mp hi
  rw [Nat.add_mod, h0, Nat.zero_add, Nat.zero_add, Nat.mod_eq_of_lt hi, Nat.mod_eq_of_lt hi]

end DE

namespace DE.Full
open Conc (Par Slot Ch)
variable {R K : Type} [LinearOrder R] [LinearOrder K] [HasKey R K] [Inhabited R]

omit [LinearOrder R] [Inhabited R] in
theorem SOk.present {L : Layout} {hwm : Nat} {st : Struct R} (h : SOk L hwm st) :
    ∀ l ∈ st.levels, l.present = l.visible ∧ l.visible.length = l.cnt := by
  intro l hl
  obtain ⟨i, hi, rfl⟩ := List.mem_iff_getElem.mp hl
  rcases h.2 with ⟨-, -, h, -⟩ | ⟨-, h⟩
  · obtain ⟨s, hs⟩ := getElem?_of_lt (l := st.state) (i := i) (by rw [← h.len]; exact hi)
    have hl := h.lvl i _ s (List.getElem?_eq_getElem hi) hs
    refine ⟨?_, hl.cnt⟩
    unfold Level.present
    rw [hl.shards, filterMap_some_none]
  · obtain ⟨s, hs⟩ := getElem?_of_lt (l := st.state) (i := i) (by rw [← h.len]; exact hi)
    have hl := h.lvl i _ s (List.getElem?_eq_getElem hi) hs
    exact ⟨hl.present, hl.cnt⟩

/-- The shard `create_static_structure` returns holds exactly the records inserted below the tail of its view, sorted. -/
def StaticExact (C : Cfg R) (s : St R) (e x tl : Nat) : Prop :=
  ∃ rs : List Nat, rs.length = tl ∧ (∀ p r, rs[p]? = some r → (p, r) ∈ s.base.done) ∧
    ∃ m, (snapshot C s e x tl).staticStructure = .ok m ∧ (m.data.map Wrapped.record).Perm (rs.map C.ρ) ∧
      (m.data.map Wrapped.record).Pairwise (· ≤ ·) ∧ ∀ w ∈ m.data, w.isTombstone = false ∧ w.isDeleted = false

/-- C68 as long as the view does not cover the whole ring starting inside it. Missing: that case, in which the call has undefined
behaviour (`C68_overread`), and appends in flight. -/
theorem C68_partial {P : Par} {L : Layout} {pq : PQ R} (hpq : pq.ByRec) {lb : LB R K} {sf n : Nat} {ρ : Nat → R}
    (hw : 0 < P.hwm) (hsf : 1 ≤ sf) {s : St R} (h : Reach ⟨P, L, sortedImpl pq lb, sf, ρ, fun _ => false⟩ n Conc.tidy s)
    {i : Nat} {t : Conc.Th} {e x : Nat} (hi : Holds s.base i t e x) (hfin : ∀ p, p < t.tl → ∃ r, (p, r) ∈ s.base.done)
    (hne : t.tl < x + P.cap ∨ x % P.cap = 0) : StaticExact ⟨P, L, sortedImpl pq lb, sf, ρ, fun _ => false⟩ s e x t.tl := by
  have hv := h.pinned (C := ⟨P, L, sortedImpl pq lb, sf, ρ, fun _ => false⟩) (sorted_keeps hpq lb hw hsf) hw hi.thr hi.ep
  have hvl := view_le (C := ⟨P, L, sortedImpl pq lb, sf, ρ, fun _ => false⟩) hw h hi
  have hvl2 : t.tl ≤ x + P.cap := hvl.2
  obtain ⟨rs, h3, h4, h5⟩ := Conc.C60_exact hw h.base hi.thr hi.ep hi.hd hi.view hfin
  have hcap : 0 < P.cap := by unfold Par.cap; omega
  have hent := snapshot_entries (C := ⟨P, L, sortedImpl pq lb, sf, ρ, fun _ => false⟩) (fun _ => rfl) (h := x) (tl := t.tl) hv
  have hreads : (snapshot ⟨P, L, sortedImpl pq lb, sf, ρ, fun _ => false⟩ s e x t.tl).buf.view.Reads
      (snapshot ⟨P, L, sortedImpl pq lb, sf, ρ, fun _ => false⟩ s e x t.tl).buf.contents := by
    refine ⟨?_, snapshot_gets (C := ⟨P, L, sortedImpl pq lb, sf, ρ, fun _ => false⟩) hw hvl2, ?_⟩
    · by_cases hlt : t.tl < x + P.cap
      · exact copyOut_eq (snapshot ⟨P, L, sortedImpl pq lb, sf, ρ, fun _ => false⟩ s e x t.tl).buf.view hcap hvl.1 (show t.tl - x < P.cap by omega)
      · exact copyOut_whole (snapshot ⟨P, L, sortedImpl pq lb, sf, ρ, fun _ => false⟩ s e x t.tl).buf.view (show t.tl = x + P.cap by omega)
          (hne.resolve_left hlt)
    · intro w hwm
      have hwm : w ∈ (buffer ⟨P, L, sortedImpl pq lb, sf, ρ, fun _ => false⟩ (max 1 (t.tl - x)) s.base.mem x t.tl).contents := hwm
      rw [buffer_contents] at hwm
      obtain ⟨k, hk, rfl⟩ := List.mem_map.mp hwm
      apply slotRec_visible
      have hmem : s.base.mem ((x + k) % P.cap) ∈ Conc.snapshot P s.base e x t.tl := by
        unfold Conc.snapshot
        exact List.mem_append.mpr (Or.inr (List.mem_map.mpr ⟨k, hk, rfl⟩))
      rw [h5] at hmem
      obtain ⟨y, -, hy⟩ := List.mem_map.mp hmem
      rw [← hy]; simp
  have hcl : ∀ y ∈ (snapshot ⟨P, L, sortedImpl pq lb, sf, ρ, fun _ => false⟩ s e x t.tl).entries, y.clean := by
    rw [hent]; exact insEntries_clean
  have hpres := hv.ok.present
  obtain ⟨m, hm⟩ := static_total (d := snapshot ⟨P, L, sortedImpl pq lb, sf, ρ, fun _ => false⟩ s e x t.tl) (pq := pq) (lb := lb) hpres rfl
    (fun sh hsm => (hv.shards sh hsm).1) hreads (fun y hy => hcl y (by
      unfold Index.entries; rw [Multiset.mem_add]; exact Or.inl hy))
  have hsm : RecSorted m.data := static_closed' (d := snapshot ⟨P, L, sortedImpl pq lb, sf, ρ, fun _ => false⟩ s e x t.tl) hpres
    (sortedImpl_closed_sorted hpq lb) (fun sh hsm => (hv.shards sh hsm).2) hm
  have hr := (static_reduces' hpres hreads (sortedImpl_conserving pq lb) hm).clean hcl
  refine ⟨rs, h3, h4, m, hm, ?_, ?_, ?_⟩
  · rw [← Multiset.coe_eq_coe]
    have h6 : (m.data.map Wrapped.record : Multiset R) = (ents m.data).map Entry.record := by
      simp [ents, Function.comp_def, Wrapped.entry]
    have he : ((rs.zipIdx).map (fun y => some (y.2, y.1))).map (sval ρ) = rs.map ρ := by
      rw [List.map_map]
      conv_rhs => rw [← List.zipIdx_map_fst 0 rs, List.map_map]
      rfl
    rw [h6, ← hr, hent]
    show Multiset.map Entry.record (insEntries ((Conc.snapshot P s.base e x t.tl).map (sval ρ))) = (rs.map ρ : Multiset R)
    rw [h5, he]
    simp [insEntries, Function.comp_def]
  · rw [List.pairwise_map]; exact hsm
  · intro w hwm
    exact hcl w.entry (by rw [hr]; exact mem_ents.mpr ⟨w, hwm, rfl⟩)

/-- In the remaining case the call has undefined behaviour: it copies past the end of the ring. -/
theorem C68_overread {P : Par} {L : Layout} {pq : PQ R} (hpq : pq.ByRec) {lb : LB R K} {sf n : Nat} {ρ : Nat → R}
    (hw : 0 < P.hwm) (hsf : 1 ≤ sf) {s : St R} (h : Reach ⟨P, L, sortedImpl pq lb, sf, ρ, fun _ => false⟩ n Conc.tidy s)
    {i : Nat} {t : Conc.Th} {e x : Nat} (hi : Holds s.base i t e x)
    (hne : ¬ (t.tl < x + P.cap ∨ x % P.cap = 0)) :
    (snapshot ⟨P, L, sortedImpl pq lb, sf, ρ, fun _ => false⟩ s e x t.tl).staticStructure = .error .ub := by
  have hv := h.pinned (C := ⟨P, L, sortedImpl pq lb, sf, ρ, fun _ => false⟩) (sorted_keeps hpq lb hw hsf) hw hi.thr hi.ep
  have hvl := view_le (C := ⟨P, L, sortedImpl pq lb, sf, ρ, fun _ => false⟩) hw h hi
  have hvl2 : t.tl ≤ x + P.cap := hvl.2
  have hcap : 0 < P.cap := by unfold Par.cap; omega
  have hco : (snapshot ⟨P, L, sortedImpl pq lb, sf, ρ, fun _ => false⟩ s e x t.tl).buf.view.copyOut = .error .ub :=
    copyOut_whole_ub (snapshot ⟨P, L, sortedImpl pq lb, sf, ρ, fun _ => false⟩ s e x t.tl).buf.view (show t.tl = x + P.cap by omega)
      (fun h => hne (Or.inr h))
  have hpres := hv.ok.present
  obtain ⟨ss, h1, -⟩ := combined_total (I := sortedImpl pq lb) (Q := CleanShard) (clean_mergeOk (sortedImpl_cleanOk pq lb))
    (clean_merge (sortedImpl_cleanOk pq lb))
    (ls := (s.vs e).levels.reverse.filter (fun l => decide (l.recordCount > 0)))
    (fun l hl => hpres l (by simpa using (List.mem_filter.mp hl).1))
    (fun l hl => by simpa using (List.mem_filter.mp hl).2)
    (fun l hl s hs => (hv.shards s (by
      unfold Struct.visible
      rw [List.mem_flatMap]
      exact ⟨l, by simpa using (List.mem_filter.mp hl).1, hs⟩)).1)
  have hcnt : (snapshot ⟨P, L, sortedImpl pq lb, sf, ρ, fun _ => false⟩ s e x t.tl).buf.view.count > 0 := show t.tl - x > 0 by omega
  unfold Index.staticStructure
  have hb : (snapshot ⟨P, L, sortedImpl pq lb, sf, ρ, fun _ => false⟩ s e x t.tl).impl.build (snapshot ⟨P, L, sortedImpl pq lb, sf, ρ, fun _ => false⟩ s e x t.tl).buf.view = .error .ub := by
    show sortedFromView _ = _
    unfold sortedFromView
    rw [hco]; rfl
  have h1 : ((snapshot ⟨P, L, sortedImpl pq lb, sf, ρ, fun _ => false⟩ s e x t.tl).str.levels.reverse.filter (fun l => decide (l.recordCount > 0))).mapM
    (fun l => l.combined (snapshot ⟨P, L, sortedImpl pq lb, sf, ρ, fun _ => false⟩ s e x t.tl).impl) = .ok (ss.map some) := h1
  rw [h1]
  simp only [if_pos hcnt, hb, bind, Except.bind]

set_option maxRecDepth 4096 in
/-- A client pins the epoch, then two inserts, a flush and two more inserts run before it takes its view: all inserts have returned, all
flushes copied finished slots, the view covers the whole ring `[2, 6)`, and the call reads past its end. -/
theorem C68_false : ∃ s, Reach (C12 .tiering) 4 Conc.tidy s ∧ Holds s.base 1 ⟨.run, some 1, some 2, 6⟩ 1 2 ∧
    (∀ p, p < 6 → ∃ r, (p, r) ∈ s.base.done) ∧ ¬ StaticExact (C12 .tiering) s 1 2 6 := by
  obtain ⟨s, h1, h2⟩ := reach_of (C := C12 .tiering) (n := 4) Conc.tidyB (ok := Conc.tidy) (fun _ _ => Conc.tidyB_sound)
    (Conc.insLow 0 10 ++ Conc.insSched 0 11 ++ Conc.job1 2 2 ++ [(1, .query)] ++ Conc.gos 1 3 ++
      Conc.insLow 0 12 ++ Conc.insSched 0 13 ++ Conc.job2 2 2 ++ Conc.insLow 0 14 ++ Conc.insSched 0 15 ++ [(1, .getBuffer)] ++ Conc.gos 1 4)
    (fun s => decide (s.base.thr[1]? = some (⟨.run, some 1, some 2, 6⟩ : Conc.Th) ∧
      (∀ p ∈ List.range 6, (p, 10 + p) ∈ s.base.done))) (by decide)
  rw [decide_eq_true_eq] at h2
  have hh : Holds s.base 1 ⟨.run, some 1, some 2, 6⟩ 1 2 := ⟨h2.1, rfl, rfl, by simp⟩
  refine ⟨s, h1, hh, fun p hp => ⟨10 + p, h2.2 p (List.mem_range.mpr hp)⟩, ?_⟩
  have := C68_overread (P := Conc.P12) (L := .tiering) (pq := PQ.std) PQ.std_byRec (lb := LB.scan) (sf := 2) (by decide) (by decide) h1 hh (by decide)
  rintro ⟨rs, -, -, m, hm, -⟩
  have hm : (snapshot (C12 .tiering) s 1 2 6).staticStructure = .ok m := hm
  rw [show (snapshot (C12 .tiering) s 1 2 6).staticStructure = .error .ub from this] at hm
  cases hm

/-- The hypotheses of `C68_partial`: two flushes, the client holds a superseded epoch and a view longer than the high watermark. -/
example : ∃ s, Reach (C12 .leveling) 4 Conc.tidy s ∧ Holds s.base 1 ⟨.run, some 1, some 2, 5⟩ 1 2 ∧
    (∀ p, p < 5 → ∃ r, (p, r) ∈ s.base.done) ∧ s.base.cur.ep = some 2 ∧ 5 < 2 + Conc.P12.cap ∧ 2 + Conc.P12.hwm < 5 := by
  obtain ⟨s, h1, h2⟩ := reach_of (C := C12 .leveling) (n := 4) Conc.tidyB (ok := Conc.tidy) (fun _ _ => Conc.tidyB_sound)
    (Conc.insLow 0 10 ++ Conc.insSched 0 11 ++ Conc.job1 2 2 ++ [(1, .query)] ++ Conc.gos 1 3 ++
      Conc.insLow 0 12 ++ Conc.insSched 0 13 ++ Conc.job2 2 2 ++ Conc.insLow 0 14 ++ [(1, .getBuffer)] ++ Conc.gos 1 4)
    (fun s => decide (s.base.thr[1]? = some (⟨.run, some 1, some 2, 5⟩ : Conc.Th) ∧ s.base.cur.ep = some 2 ∧
      (∀ p ∈ List.range 5, (p, 10 + p) ∈ s.base.done))) (by decide)
  rw [decide_eq_true_eq] at h2
  exact ⟨s, h1, ⟨h2.1, rfl, rfl, by simp⟩, fun p hp => ⟨10 + p, h2.2.2 p (List.mem_range.mpr hp)⟩, h2.2.1, by decide, by decide⟩

end DE.Full
