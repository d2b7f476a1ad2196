import Verif.Properties.LinearTomb
import Verif.Properties.FullStatic

/-!
C68 with tombstone erases: `create_static_structure` called while inserts, erases and reconstructions run.
-/

namespace DE.Full
open Conc (Par Slot Ch)
variable {R K : Type} [LinearOrder R] [LinearOrder K] [HasKey R K] [Inhabited R]

/-- C68 with tombstone erases: if flushes copy only finished slots and the appends below the tail of the view have finished, a call that
succeeds returns a sorted shard in which, for every record, live copies minus tombstones are the inserts minus the erases claimed at one
moment since the call (`s0`: the caller has no view yet), and no record has more live copies than inserts. On BSM: if no stretch of at most
`hwm` consecutive operations cancels out completely. Missing: calls that do not succeed (`C68_overread`, `C21_false`), leftover
tombstones. -/
theorem C68_tombstones_partial {P : Par} {L : Layout} {pq : PQ R} (hpq : pq.ByRec) {lb : LB R K} {sf n : Nat} {ρ : Nat → R} {del : Nat → Bool}
    (hw : 0 < P.hwm) (hsf : 1 ≤ sf) {s0 s : St R} (h0 : Reach ⟨P, L, sortedImpl pq lb, sf, ρ, del⟩ n Conc.tidy s0)
    (hl : Later ⟨P, L, sortedImpl pq lb, sf, ρ, del⟩ Conc.tidy s0 s) {i : Nat} {u t : Conc.Th} {e x : Nat}
    (hu : s0.base.thr[i]? = some u) (hun : u.hd = none) (hi : Holds s.base i t e x) (hfin : ∀ p, p < t.tl → ∃ r, (p, r) ∈ s.base.done)
    (hL : L = .bsm → NoVoidOps ⟨P, L, sortedImpl pq lb, sf, ρ, del⟩ s.base.claimed) {m : Shard R}
    (hm : (snapshot ⟨P, L, sortedImpl pq lb, sf, ρ, del⟩ s e x t.tl).staticStructure = .ok m) :
    ∃ s1, Later ⟨P, L, sortedImpl pq lb, sf, ρ, del⟩ Conc.tidy s0 s1 ∧ Later ⟨P, L, sortedImpl pq lb, sf, ρ, del⟩ Conc.tidy s1 s ∧
      (m.data.map Wrapped.record).Pairwise (· ≤ ·) ∧ (∀ w ∈ m.data, w.isDeleted = false) ∧
      ∀ r, liveCount r (ents m.data) + delN ⟨P, L, sortedImpl pq lb, sf, ρ, del⟩ (s1.base.claimed.map Prod.snd) r =
          tombCount r (ents m.data) + insN ⟨P, L, sortedImpl pq lb, sf, ρ, del⟩ (s1.base.claimed.map Prod.snd) r ∧
        liveCount r (ents m.data) ≤ insN ⟨P, L, sortedImpl pq lb, sf, ρ, del⟩ (s1.base.claimed.map Prod.snd) r := by
  have h := hl.reach h0
  have hvl := view_le (C := ⟨P, L, sortedImpl pq lb, sf, ρ, del⟩) hw h hi
  have hvl2 : t.tl ≤ x + P.cap := hvl.2
  have hcap : 0 < P.cap := by unfold Par.cap; omega
  obtain ⟨rs, h3, h4, h5⟩ := Conc.C60_exact hw h.base hi.thr hi.ep hi.hd hi.view hfin
  have hv := h.pinned (C := ⟨P, L, sortedImpl pq lb, sf, ρ, del⟩)
    (VNet.keeps (C := ⟨P, L, sortedImpl pq lb, sf, ρ, del⟩) (sorted_net hpq lb) hw hsf) hw hi.thr hi.ep
  have hv := hv (fun hb => novoid_slots (hL hb) (fun p r hp => (h.base.hist hw).sub _ (h4 p r hp)) h5)
  obtain ⟨s1, a1, a2, hn, hg, hs⟩ := heldNet (C := ⟨P, L, sortedImpl pq lb, sf, ρ, del⟩) (sorted_net hpq lb) hw hsf h0 hl hu hun hi hfin hL
  have hne : t.tl < x + P.cap ∨ x % P.cap = 0 := by
    by_contra hne
    have hco : (snapshot ⟨P, L, sortedImpl pq lb, sf, ρ, del⟩ s e x t.tl).buf.view.copyOut = .error .ub :=
      copyOut_whole_ub (snapshot ⟨P, L, sortedImpl pq lb, sf, ρ, del⟩ s e x t.tl).buf.view (show t.tl = x + P.cap by omega)
        (fun h => hne (Or.inr h))
    have hcnt : (snapshot ⟨P, L, sortedImpl pq lb, sf, ρ, del⟩ s e x t.tl).buf.view.count > 0 := show t.tl - x > 0 by omega
    unfold Index.staticStructure at hm
    rw [bind_ok] at hm
    obtain ⟨os, -, hm⟩ := hm
    rw [if_pos hcnt] at hm
    simp only [bind_ok] at hm
    obtain ⟨s2, hb, -⟩ := hm
    have hb : sortedFromView (snapshot ⟨P, L, sortedImpl pq lb, sf, ρ, del⟩ s e x t.tl).buf.view = .ok s2 := hb
    unfold sortedFromView at hb
    rw [hco] at hb
    cases hb
  have hreads : (snapshot ⟨P, L, sortedImpl pq lb, sf, ρ, del⟩ s e x t.tl).buf.view.Reads
      (snapshot ⟨P, L, sortedImpl pq lb, sf, ρ, del⟩ s e x t.tl).buf.contents := by
    refine ⟨?_, hg, ?_⟩
    · by_cases hlt : t.tl < x + P.cap
      · exact copyOut_eq (snapshot ⟨P, L, sortedImpl pq lb, sf, ρ, del⟩ s e x t.tl).buf.view hcap hvl.1 (show t.tl - x < P.cap by omega)
      · exact copyOut_whole (snapshot ⟨P, L, sortedImpl pq lb, sf, ρ, del⟩ s e x t.tl).buf.view (show t.tl = x + P.cap by omega)
          (hne.resolve_left hlt)
    · intro w hwm
      have hwm : w ∈ (buffer ⟨P, L, sortedImpl pq lb, sf, ρ, del⟩ (max 1 (t.tl - x)) s.base.mem x t.tl).contents := hwm
      rw [buffer_contents] at hwm
      obtain ⟨k, hk, rfl⟩ := List.mem_map.mp hwm
      apply slotRec_visible
      have hmem : s.base.mem ((x + k) % P.cap) ∈ Conc.snapshot P s.base e x t.tl := by
        unfold Conc.snapshot
        exact List.mem_append.mpr (Or.inr (List.mem_map.mpr ⟨k, hk, rfl⟩))
      rw [h5] at hmem
      obtain ⟨y, -, hy⟩ := List.mem_map.mp hmem
      rw [← hy]; simp
  have hpres := hv.ok.present
  have hsm : RecSorted m.data := static_closed' (d := snapshot ⟨P, L, sortedImpl pq lb, sf, ρ, del⟩ s e x t.tl) hpres
    (sortedImpl_closed_sorted hpq lb) hs hm
  have hr := hn.trans (static_reduces' hpres hreads (sortedImpl_conserving pq lb) hm)
  refine ⟨s1, a1, a2, by rw [List.pairwise_map]; exact hsm,
    fun w hwm => static_kept (d := snapshot ⟨P, L, sortedImpl pq lb, sf, ρ, del⟩ s e x t.tl) rfl hm _ (mem_ents.mpr ⟨w, hwm, rfl⟩), fun r => ?_⟩
  have hnet := hr.net r (by
    intro y hy
    obtain ⟨a, -, rfl⟩ := List.mem_map.mp (Multiset.mem_coe.mp hy)
    simp)
  have hle := hr.liveCount_le r
  have e1 := liveCount_slots ⟨P, L, sortedImpl pq lb, sf, ρ, del⟩ (s1.base.claimed.map Prod.snd) r
  have e2 := tombCount_slots ⟨P, L, sortedImpl pq lb, sf, ρ, del⟩ (s1.base.claimed.map Prod.snd) r
  rw [e1, e2] at hnet
  rw [e1] at hle
  exact ⟨by omega, hle⟩

/-- The hypotheses of `C68_tombstones_partial`: the tombstone of record 11, in the buffer, meets its record in the levels. -/
example : ∃ s0 s, Reach (T12 .leveling) 4 Conc.tidy s0 ∧ Later (T12 .leveling) Conc.tidy s0 s ∧ s0.base.claimed.length = 2 ∧
    (∃ u, s0.base.thr[1]? = some u ∧ u.hd = none) ∧ Holds s.base 1 ⟨.run, some 1, some 2, 3⟩ 1 2 ∧ (∀ p, p < 3 → ∃ r, (p, r) ∈ s.base.done) ∧
    s.base.claimed = [(3, 13), (2, 111), (1, 10), (0, 11)] ∧
    ∃ m, (snapshot (T12 .leveling) s 1 2 3).staticStructure = .ok m ∧ m.data.map Wrapped.record = [⟨10, 10⟩] := by
  obtain ⟨s0, s, h1, h2, h3⟩ := later_of (C := T12 .leveling) (n := 4) Conc.tidyB (ok := Conc.tidy) (fun _ _ => Conc.tidyB_sound)
    (Conc.insLow 0 11 ++ Conc.insSched 0 10 ++ [(1, .query)]) (Conc.job1 2 2 ++ Conc.insLow 0 111 ++ Conc.gos 1 3 ++ [(1, .getBuffer)] ++ Conc.gos 1 5 ++ Conc.insSched 0 13)
    (fun s0 s => decide (s0.base.claimed.length = 2 ∧ (s0.base.thr[1]?).any (fun u : Conc.Th => decide (u.hd = none)) = true ∧
      s.base.thr[1]? = some (⟨.run, some 1, some 2, 3⟩ : Conc.Th) ∧ (2, 111) ∈ s.base.done ∧ (1, 10) ∈ s.base.done ∧ (0, 11) ∈ s.base.done ∧
      s.base.claimed = [(3, 13), (2, 111), (1, 10), (0, 11)] ∧
      (match (snapshot (T12 .leveling) s 1 2 3).staticStructure with | .ok m => decide (m.data.map Wrapped.record = [⟨10, 10⟩]) | .error _ => false) = true)) (by decide)
  rw [decide_eq_true_eq] at h3
  obtain ⟨a1, a2, a3, a4, a5, a6, a7, a8⟩ := h3
  rw [Option.any_eq_true] at a2
  obtain ⟨u, hu, hun⟩ := a2
  refine ⟨s0, s, h1, h2, a1, ⟨u, hu, of_decide_eq_true hun⟩, ⟨a3, rfl, rfl, by simp⟩, ?_, a7, ?_⟩
  · intro p hp
    match p, hp with
    | 0, _ => exact ⟨_, a6⟩
    | 1, _ => exact ⟨_, a5⟩
    | 2, _ => exact ⟨_, a4⟩
  · split at a8
    · rename_i m hm; exact ⟨m, hm, of_decide_eq_true a8⟩
    · cases a8

end DE.Full
