import Verif.Properties.Linearizable
import Verif.Properties.Unbiased

/-!
C92: sampling queries beside concurrent inserts and reconstructions.
-/

namespace DE.Full
open Conc (Par Slot Ch)

section
variable {R K : Type} [LinearOrder R] [LinearOrder K] [HasKey R K] [Inhabited R]

/-- C92, range samples: if flushes copy only finished slots and the appends below the tail of the view have finished, then there is one
moment between the call (`s0`: the caller has no view yet) and the end such that for every random stream the query never faults and
every sample it returns is a record in range whose insert had taken effect at that moment, never more samples than requested; and exactly the
requested number, in one round, if there is such a record and rejection sampling is off. -/
theorem C92_range_partial {P : Par} {L : Layout} {pq : PQ R} (hpq : pq.ByRec) {lb : LB R K} {sf n : Nat} {ρ : Nat → R}
    (hw : 0 < P.hwm) (hsf : 1 ≤ sf) {s0 s : St R} (h0 : Reach ⟨P, L, sortedImpl pq lb, sf, ρ, fun _ => false⟩ n Conc.tidy s0)
    (hl : Later ⟨P, L, sortedImpl pq lb, sf, ρ, fun _ => false⟩ Conc.tidy s0 s) {i : Nat} {u t : Conc.Th} {e x : Nat}
    (hu : s0.base.thr[i]? = some u) (hun : u.hd = none) (hi : Holds s.base i t e x) (hfin : ∀ p, p < t.tl → ∃ r, (p, r) ∈ s.base.done)
    {F LF : Nat} (hF : 2 ≤ F) (hLF : 1 ≤ LF) (z : K) {al : AliasFn} (hal : al.Ok) {M : Nat} (hM : t.tl ≤ M) (hM' : M < 2 ^ 63)
    {lo hi' : K} (hle : lo ≤ hi') :
    ∃ s1, Later ⟨P, L, sortedImpl pq lb, sf, ρ, fun _ => false⟩ Conc.tidy s0 s1 ∧ Later ⟨P, L, sortedImpl pq lb, sf, ρ, fun _ => false⟩ Conc.tidy s1 s ∧
      ∀ (rej : Bool) (tape : Nat → Nat) (k fuel : Nat),
        (∃ o, (snapshot ⟨P, L, sortedImpl pq lb, sf, ρ, fun _ => false⟩ s e x t.tl).irs rej al ⟨tape, M⟩ (Isam.lowerBound F LF z)
            (Isam.upperBound F LF z) lo hi' k fuel = .ok o ∧
          ∀ out, o = some out → out.length ≤ k ∧ ∀ r ∈ out, r ∈ inKeys lo hi' (s1.base.claimed.map (fun y => ρ y.2))) ∧
        (rej = false → inKeys lo hi' (s1.base.claimed.map (fun y => ρ y.2)) ≠ [] →
          ∃ out, (snapshot ⟨P, L, sortedImpl pq lb, sf, ρ, fun _ => false⟩ s e x t.tl).irs rej al ⟨tape, M⟩ (Isam.lowerBound F LF z)
            (Isam.upperBound F LF z) lo hi' k (fuel + 1) = .ok (some out) ∧ out.length = k) := by
  obtain ⟨rs, h1, h2, h3, h4, h5⟩ := held (C := ⟨P, L, sortedImpl pq lb, sf, ρ, fun _ => false⟩) (sorted_good hpq lb) (fun _ => rfl) hw hsf
    (hl.reach h0) hi hfin
  obtain ⟨s1, a1, a2, rfl⟩ := at_moment (C := ⟨P, L, sortedImpl pq lb, sf, ρ, fun _ => false⟩) hw h0 hl hu hun hi h1 h2
  refine ⟨s1, a1, a2, ?_⟩
  generalize snapshot ⟨P, L, sortedImpl pq lb, sf, ρ, fun _ => false⟩ s e x t.tl = d at h3 h4 h5
  have hcard : Multiset.card d.entries = t.tl := by
    rw [h3]; unfold insEntries; rw [Multiset.coe_card, List.length_map, List.length_map, h1]
  obtain ⟨c1, c2⟩ := parts_le (d := d)
  obtain ⟨qs, hset⟩ := irs_setup_gets (isam_exactBounds (R := R) hF hLF z) h4 lo hi'
    (fun sh hsm => ⟨KeySorted.of_rec (h5 sh hsm).2, (h5 sh hsm).1.1⟩)
  have hmem : ∀ r, Irs.Avail lo hi' d.buf.contents qs r ↔ r ∈ inKeys lo hi' (s1.base.claimed.map (fun y => ρ y.2)) := by
    intro r
    rw [hset.avail, h3]
    unfold insEntries inKeys
    simp only [Multiset.mem_coe, List.mem_map, List.mem_reverse, List.mem_filter]
    constructor
    · rintro ⟨⟨y, ⟨q, ⟨p, ⟨c, hc, rfl⟩, rfl⟩, rfl⟩, rfl⟩, g1, g2⟩
      exact ⟨⟨c, hc, rfl⟩, by simp [g1, g2]⟩
    · rintro ⟨⟨c, hc, rfl⟩, g⟩
      simp only [decide_eq_true_eq] at g
      exact ⟨⟨_, ⟨_, ⟨_, ⟨c, hc, rfl⟩, rfl⟩, rfl⟩, rfl⟩, g⟩
  intro rej tape k fuel
  have hsz : ∀ q ∈ qs, q.data.length ≤ M := by
    intro q hq
    obtain ⟨sh, hsm, he⟩ := hset.len q hq
    have := c2 sh hsm
    rw [he]; omega
  have hqs : ∀ q ∈ qs, q.Exact lo hi' ∧ (⟨tape, M⟩ : Rng).max + q.data.length < 2 ^ 64 := by
    intro q hq
    have := hsz q hq
    exact ⟨hset.exact q hq, by simp only; omega⟩
  have hsafe : Irs.Safe (⟨tape, M⟩ : Rng) lo hi' d.buf.contents qs := ⟨hle, by simp only; omega, hsz⟩
  constructor
  · obtain ⟨o, ho, hP⟩ := (Irs.loop_good (rej := rej) hal hqs fuel k 0 [] k (by simp) (by simp)).safe hsafe
    refine ⟨o, by rw [hset.eq]; exact ho, ?_⟩
    intro out he
    obtain ⟨p1, p2⟩ := hP out he
    exact ⟨p2, fun r hr => (hmem r).mp (p1 r hr)⟩
  · intro hrej hne
    obtain ⟨r, hr⟩ := List.exists_mem_of_ne_nil _ hne
    have hwp := Irs.weights_pos (rej := rej) (buf := d.buf.contents) hset.exact ((hmem r).mpr hr)
    obtain ⟨out, ho, hlen⟩ := Irs.loop_one (rej := rej) hal hqs hsafe ⟨Or.inl hrej, hwp⟩ k fuel
    exact ⟨out, by rw [hset.eq]; exact ho, hlen⟩

end

section
variable {R : Type} [LinearOrder R] [Inhabited R]

/-- C92, weighted samples: every sample is a record whose insert had taken effect at one moment during the query, for every random stream
on which the query returns. The shards may be of any kind that keeps inserted records. -/
theorem C92_weighted_partial {C : Cfg R} {Q : Shard R → Prop} (hI : Good C.impl Q) (hio : C.InsOnly) (hw : 0 < C.P.hwm) (hsf : 0 < C.sf) {n : Nat}
    {s0 s : St R} (h0 : Reach C n Conc.tidy s0) (hl : Later C Conc.tidy s0 s) {i : Nat} {u t : Conc.Th} {e x : Nat}
    (hu : s0.base.thr[i]? = some u) (hun : u.hd = none) (hi : Holds s.base i t e x) (hfin : ∀ p, p < t.tl → ∃ r, (p, r) ∈ s.base.done)
    {wt : R → Nat} {D : Nat} (hD : 0 < D) {al : AliasFn} (hal : al.Ok) :
    ∃ s1, Later C Conc.tidy s0 s1 ∧ Later C Conc.tidy s1 s ∧
      ((s1.base.claimed.map (fun y => wt (C.ρ y.2))).sum ≠ 0 →
        ∀ (g : Rng) (k fuel : Nat) (out : List R), (snapshot C s e x t.tl).wss wt D al g k fuel = .ok (some out) →
          ∀ r ∈ out, r ∈ s1.base.claimed.map (fun y => C.ρ y.2)) := by
  obtain ⟨rs, h1, h2, h3, h4, -⟩ := held hI hio hw hsf (hl.reach h0) hi hfin
  obtain ⟨s1, a1, a2, rfl⟩ := at_moment hw h0 hl hu hun hi h1 h2
  refine ⟨s1, a1, a2, ?_⟩
  generalize snapshot C s e x t.tl = d at h3 h4
  intro hne g k fuel out hq
  have hsum : d.weight wt = (s1.base.claimed.map (fun y => wt (C.ρ y.2))).sum := by
    unfold Index.weight
    rw [h3]
    unfold insEntries
    simp only [Multiset.map_coe, List.map_map, Multiset.sum_coe]
    rw [List.map_reverse, List.sum_reverse]
    rfl
  unfold Index.wss at hq
  rw [h4] at hq
  simp only [bind, Except.bind] at hq
  have hsp := split_replicate (Wss.total wt d.buf.contents :: (d.str.visible.map Shard.data).map (Wss.total wt))
  rw [List.length_cons, List.length_map] at hsp
  intro r hr
  obtain ⟨w, hwm, -, rfl⟩ := (Wss.loop_good hD hal (by rw [wss_total, hsum]; exact hne) fuel k 0 0 _ [] hsp (by simp)).elim hq out rfl r hr
  have hm : w.entry ∈ d.entries := by
    refine mem_entries.mpr ?_
    rcases hwm with hwm | ⟨q, hq, hwm⟩
    · exact Or.inl ⟨w, List.mem_of_mem_dropLast hwm, rfl⟩
    · obtain ⟨sh, hs, rfl⟩ := List.mem_map.mp hq
      exact Or.inr ⟨sh, hs, w, hwm, rfl⟩
  rw [h3] at hm
  unfold insEntries at hm
  simp only [Multiset.mem_coe, List.mem_map, List.mem_reverse] at hm
  obtain ⟨q, ⟨p, ⟨c, hc, rfl⟩, rfl⟩, he⟩ := hm
  refine List.mem_map.mpr ⟨c, hc, ?_⟩
  exact congrArg Entry.record he

end

/-- Hypotheses of the two theorems: a query that holds an epoch which is no longer current, and samples from it. -/
example : ∃ s0 s, Reach (C12 .leveling) 4 Conc.tidy s0 ∧ Later (C12 .leveling) Conc.tidy s0 s ∧
    (∃ u, s0.base.thr[1]? = some u ∧ u.hd = none) ∧ Holds s.base 1 ⟨.run, some 1, some 2, 3⟩ 1 2 ∧ (∀ p, p < 3 → ∃ r, (p, r) ∈ s.base.done) ∧
    s.base.cur.ep = some 2 ∧
    (snapshot (C12 .leveling) s 1 2 3).irs false aliasStd (tapeRng (7 * ·)) (Isam.lowerBound 2 2 0) (Isam.upperBound 2 2 0) 11 20 3 1 =
      .ok (some [⟨12, 12⟩, ⟨12, 12⟩, ⟨11, 11⟩]) ∧
    (snapshot (C12 .leveling) s 1 2 3).wss (fun r => 12 - r.key) 8 aliasStd (tapeRng (· + 2)) 2 1 = .ok (some [⟨10, 10⟩, ⟨11, 11⟩]) := by
  obtain ⟨s0, s, h1, h2, h3⟩ := later_of (C := C12 .leveling) (n := 4) Conc.tidyB (ok := Conc.tidy) (fun _ _ => Conc.tidyB_sound)
    (Conc.insLow 0 11 ++ Conc.insSched 0 10 ++ Conc.job1 2 2 ++ Conc.insLow 0 12) (Conc.query 1 ++ Conc.insSched 0 13 ++ Conc.job2 2 2)
    (fun s0 s => decide ((s0.base.thr[1]?).any (fun u : Conc.Th => decide (u.hd = none)) = true ∧
      s.base.thr[1]? = some (⟨.run, some 1, some 2, 3⟩ : Conc.Th) ∧ (2, 12) ∈ s.base.done ∧ (1, 10) ∈ s.base.done ∧
      (0, 11) ∈ s.base.done ∧ s.base.cur.ep = some 2 ∧
      (snapshot (C12 .leveling) s 1 2 3).irs false aliasStd (tapeRng (7 * ·)) (Isam.lowerBound 2 2 0) (Isam.upperBound 2 2 0) 11 20 3 1 =
        .ok (some [⟨12, 12⟩, ⟨12, 12⟩, ⟨11, 11⟩]) ∧
      (snapshot (C12 .leveling) s 1 2 3).wss (fun r => 12 - r.key) 8 aliasStd (tapeRng (· + 2)) 2 1 = .ok (some [⟨10, 10⟩, ⟨11, 11⟩]))) (by decide)
  rw [decide_eq_true_eq] at h3
  obtain ⟨a0, a1, a2, a3, a4, a5⟩ := h3
  rw [Option.any_eq_true] at a0
  obtain ⟨u, hu, hun⟩ := a0
  refine ⟨s0, s, h1, h2, ⟨u, hu, of_decide_eq_true hun⟩, ⟨a1, rfl, rfl, by simp⟩, ?_, a5⟩
  intro p hp
  match p, hp with
  | 0, _ => exact ⟨_, a4⟩
  | 1, _ => exact ⟨_, a3⟩
  | 2, _ => exact ⟨_, a2⟩

/-- Why not in every execution: a range sample that nobody inserted. Slot 0 is flushed before record 9 is written to it. -/
theorem C92_false : ∃ s0 s, Reach (C12 .tiering) 4 Conc.any s0 ∧ Later (C12 .tiering) Conc.any s0 s ∧ s0.base.done = [(0, 9), (1, 11)] ∧
    (∃ u, s0.base.thr[0]? = some u ∧ u.hd = none) ∧ Holds s.base 0 ⟨.run, some 1, some 2, 2⟩ 1 2 ∧ (∀ p, p < 2 → ∃ r, (p, r) ∈ s.base.done) ∧
    ∃ (al : AliasFn) (g : Rng), al.Ok ∧
      (snapshot (C12 .tiering) s 1 2 2).irs false al g (Isam.lowerBound 2 2 0) (Isam.upperBound 2 2 0) 0 20 1 1 = .ok (some [default]) ∧
      default ∉ s.base.claimed.map (fun y => (C12 .tiering).ρ y.2) := by
  obtain ⟨s0, s, h1, h2, h3⟩ := later_of (C := C12 .tiering) (n := 4) Conc.anyB (ok := Conc.any) (fun _ _ _ => trivial)
    ([(3, .insert 9), (3, .tailFirst)] ++ Conc.gos 3 4 ++ Conc.insSched 0 11 ++ Conc.job1 2 2 ++ [(3, .go)]) (Conc.query 0)
    (fun s0 s => decide (s0.base.done = [(0, 9), (1, 11)] ∧
      (s0.base.thr[0]?).any (fun u : Conc.Th => decide (u.hd = none)) = true ∧ s.base.thr[0]? = some (⟨.run, some 1, some 2, 2⟩ : Conc.Th) ∧
      s.base.done = [(0, 9), (1, 11)] ∧
      (snapshot (C12 .tiering) s 1 2 2).irs false aliasStd (tapeRng (· + 1)) (Isam.lowerBound 2 2 0) (Isam.upperBound 2 2 0) 0 20 1 1 = .ok (some [default]) ∧
      default ∉ s.base.claimed.map (fun y => (C12 .tiering).ρ y.2))) (by decide)
  rw [decide_eq_true_eq] at h3
  obtain ⟨a1, a2, a3, a4, a5, a6⟩ := h3
  rw [Option.any_eq_true] at a2
  obtain ⟨u, hu, hun⟩ := a2
  refine ⟨s0, s, h1, h2, a1, ⟨u, hu, of_decide_eq_true hun⟩, ⟨a3, rfl, rfl, by simp⟩, ?_, aliasStd, _, aliasStd_ok, a5, a6⟩
  intro p hp
  rw [a4]
  match p, hp with
  | 0, _ => exact ⟨9, by simp⟩
  | 1, _ => exact ⟨11, by simp⟩

end DE.Full
