import Verif.Properties.FullSampling
import Verif.Properties.SampleEnd
import Verif.Properties.StaticLaw

/-!
C122: the law of samples drawn beside concurrent inserts and reconstructions. As in C64, probabilities are counts over all random
streams; what the other threads do is fixed, and does not depend on the stream.
-/

namespace DE.Full
open Conc (Par Slot Ch)
open Finset

section
variable {R K : Type} [LinearOrder R] [LinearOrder K] [HasKey R K] [Inhabited R]

omit [LinearOrder R] [LinearOrder K] [HasKey R K] [Inhabited R] in
theorem insEntries_records (cl : List (Nat × Nat)) (ρ : Nat → R) :
    (insEntries ((cl.reverse.map Prod.snd).map ρ)).map Entry.record = ((cl.map (fun y => ρ y.2) : List R) : Multiset R) := by
  unfold insEntries
  simp only [Multiset.map_coe, List.map_map, Multiset.coe_eq_coe]
  exact ((List.reverse_perm cl).map _)

/-- C122, range samples: if flushes copy only finished slots and the appends below the tail of the view have finished, then there is one
moment between the call (`s0`: the caller has no view yet) and the end such that, if a record whose insert had taken effect at that moment
is in range:
* given that a query for `k` samples returns `m` records, these are, in any order, `m` independent uniform draws from the records in range
  whose inserts had taken effect at that moment: every quantity `g` of them that does not look at their order has the mean it has over
  ideal draws. For `m = k` there are such streams.
* the probability that the query is still running after `r + k + 1` rounds is at most `(1 - N / T) ^ (k r)`, where `T` inserts had taken
  effect at that moment and `N` of them are in range.

Missing: what `C115_partial` and `C36_probability_partial` miss, and executions in which a flush copies an unfinished slot
(`C122_false`). -/
theorem C122_range_partial {P : Par} {L : Layout} {pq : PQ R} (hpq : pq.ByRec) {lb : LB R K} {sf n : Nat} {ρ : Nat → R}
    (hw : 0 < P.hwm) (hsf : 1 ≤ sf) {s0 s : St R} (h0 : Reach ⟨P, L, sortedImpl pq lb, sf, ρ, fun _ => false⟩ n Conc.tidy s0)
    (hl : Later ⟨P, L, sortedImpl pq lb, sf, ρ, fun _ => false⟩ Conc.tidy s0 s) {i : Nat} {u t : Conc.Th} {e x : Nat}
    (hu : s0.base.thr[i]? = some u) (hun : u.hd = none) (hi : Holds s.base i t e x) (hfin : ∀ p, p < t.tl → ∃ r, (p, r) ∈ s.base.done)
    {F LF : Nat} (hF : 2 ≤ F) (hLF : 1 ≤ LF) (z : K) {al : AliasFn} (hal : al.Ok) {mx M : Nat} (hmx : t.tl ≤ mx) (hmx' : mx < 2 ^ 63)
    (hM0 : 0 < M) (hfair : ∀ ws : List Nat, 0 < ws.sum → ws.sum ∣ M → al.FairOn M ws) (hM : ∀ k, 1 ≤ k → k ≤ t.tl → k ∣ M) (lo hi' : K) :
    ∃ s1, Later ⟨P, L, sortedImpl pq lb, sf, ρ, fun _ => false⟩ Conc.tidy s0 s1 ∧ Later ⟨P, L, sortedImpl pq lb, sf, ρ, fun _ => false⟩ Conc.tidy s1 s ∧
      let all := s1.base.claimed.map (fun y => ρ y.2)
      let here := inKeys lo hi' all
      here ≠ [] → ∀ (rej : Bool) (k : Nat),
        let query := fun (fuel : Nat) (τ : Fin ((k + k) * fuel) → Fin M) => (snapshot ⟨P, L, sortedImpl pq lb, sf, ρ, fun _ => false⟩ s e x t.tl).irs rej al
          ⟨tapeOf τ, mx⟩ (Isam.lowerBound F LF z) (Isam.upperBound F LF z) lo hi' k fuel
        (∀ (fuel m : Nat) (g : Multiset R → Nat),
          (∑ τ, Irs.onRes (fun o : List R => if o.length = m then g o else 0) (query fuel τ)) * here.length ^ m =
          (∑ τ, Irs.onRes (fun o : List R => if o.length = m then 1 else 0) (query fuel τ)) *
            ∑ f : Fin m → Fin here.length, g (List.ofFn (fun j => here.get (f j)))) ∧
        (∀ fuel, 1 ≤ fuel → 0 < ∑ τ, Irs.onRes (fun o : List R => if o.length = k then 1 else 0) (query fuel τ)) ∧
        ∀ r, (∀ τ, query (r + k + 1) τ = .ok none ∨ ∃ out, query (r + k + 1) τ = .ok (some out)) ∧
          (∑ τ, if query (r + k + 1) τ = .ok none then 1 else 0) * all.length ^ (k * r) ≤
            M ^ ((k + k) * (r + k + 1)) * (all.length - here.length) ^ (k * r) := by
  obtain ⟨rs, h1, h2, h3, h4, h5⟩ := held (C := ⟨P, L, sortedImpl pq lb, sf, ρ, fun _ => false⟩) (sorted_good hpq lb) (fun _ => rfl) hw hsf
    (hl.reach h0) hi hfin
  obtain ⟨s1, a1, a2, rfl⟩ := at_moment (C := ⟨P, L, sortedImpl pq lb, sf, ρ, fun _ => false⟩) hw h0 hl hu hun hi h1 h2
  refine ⟨s1, a1, a2, ?_⟩
  generalize snapshot ⟨P, L, sortedImpl pq lb, sf, ρ, fun _ => false⟩ s e x t.tl = d at h3 h4 h5
  intro all here hne rej k query
  have hrs : d.entries.map Entry.record = (all : Multiset R) := by rw [h3]; exact insEntries_records _ _
  have hlen : all.length = t.tl := by
    rw [← h1]; simp [all]
  have heq : here = all.filter (fun r => decide (lo ≤ key r) && decide (key r ≤ hi')) := by
    simp only [here, inKeys]
    congr 1
    funext r
    simp
  obtain ⟨y, hy⟩ := List.exists_mem_of_ne_nil _ hne
  rw [heq, List.mem_filter] at hy
  simp only [Bool.and_eq_true, decide_eq_true_eq] at hy
  obtain ⟨hy, hlo, hhi⟩ := hy
  have hs : ∀ sh ∈ d.str.visible, sh.data.Pairwise (fun a b => key (K := K) a.record ≤ key b.record) ∧ sh.data ≠ [] :=
    fun sh hsm => ⟨KeySorted.of_rec (h5 sh hsm).2, (h5 sh hsm).1.1⟩
  rw [← hlen] at hmx hM
  have law := irs_law h4 hs hrs hF hLF z hal hmx hmx' hM0 hfair hM hy hlo hhi rej k
  have stop := irs_unfinished h4 hs hrs hF hLF z hal hmx hmx' hM0 hfair hM hy hlo hhi rej k
  rw [heq]
  exact ⟨fun fuel => (law fuel).1, fun fuel => (law fuel).2, stop⟩

/-- C122 read as probabilities: given that `m` records are returned, all of them lie in a set `B` with probability `(|B| / N) ^ m`, where
`N` inserts into the range had taken effect at one moment during the call and `|B|` of them are in `B`. -/
theorem C122_all_in {P : Par} {L : Layout} {pq : PQ R} (hpq : pq.ByRec) {lb : LB R K} {sf n : Nat} {ρ : Nat → R}
    (hw : 0 < P.hwm) (hsf : 1 ≤ sf) {s0 s : St R} (h0 : Reach ⟨P, L, sortedImpl pq lb, sf, ρ, fun _ => false⟩ n Conc.tidy s0)
    (hl : Later ⟨P, L, sortedImpl pq lb, sf, ρ, fun _ => false⟩ Conc.tidy s0 s) {i : Nat} {u t : Conc.Th} {e x : Nat}
    (hu : s0.base.thr[i]? = some u) (hun : u.hd = none) (hi : Holds s.base i t e x) (hfin : ∀ p, p < t.tl → ∃ r, (p, r) ∈ s.base.done)
    {F LF : Nat} (hF : 2 ≤ F) (hLF : 1 ≤ LF) (z : K) {al : AliasFn} (hal : al.Ok) {mx M : Nat} (hmx : t.tl ≤ mx) (hmx' : mx < 2 ^ 63)
    (hM0 : 0 < M) (hfair : ∀ ws : List Nat, 0 < ws.sum → ws.sum ∣ M → al.FairOn M ws) (hM : ∀ k, 1 ≤ k → k ≤ t.tl → k ∣ M) (lo hi' : K) :
    ∃ s1, Later ⟨P, L, sortedImpl pq lb, sf, ρ, fun _ => false⟩ Conc.tidy s0 s1 ∧ Later ⟨P, L, sortedImpl pq lb, sf, ρ, fun _ => false⟩ Conc.tidy s1 s ∧
      let here := inKeys lo hi' (s1.base.claimed.map (fun y => ρ y.2))
      here ≠ [] → ∀ (rej : Bool) (k fuel m : Nat) (B : R → Bool),
        let query := fun (τ : Fin ((k + k) * fuel) → Fin M) => (snapshot ⟨P, L, sortedImpl pq lb, sf, ρ, fun _ => false⟩ s e x t.tl).irs rej al
          ⟨tapeOf τ, mx⟩ (Isam.lowerBound F LF z) (Isam.upperBound F LF z) lo hi' k fuel
        (∑ τ, Irs.onRes (fun o : List R => if o.length = m ∧ o.all B then 1 else 0) (query τ)) * here.length ^ m =
          (∑ τ, Irs.onRes (fun o : List R => if o.length = m then 1 else 0) (query τ)) * here.countP B ^ m := by
  obtain ⟨s1, a1, a2, h⟩ := C122_range_partial hpq hw hsf h0 hl hu hun hi hfin hF hLF z hal hmx hmx' hM0 hfair hM lo hi'
  refine ⟨s1, a1, a2, ?_⟩
  intro here hne rej k fuel m B query
  have h := (h hne rej k).1 fuel m (fun s => if ∀ x ∈ s, B x = true then 1 else 0)
  rw [← sum_draws_all here B m]
  have e : ∀ l : List R, (if ∀ x ∈ (l : Multiset R), B x = true then 1 else 0 : Nat) = if l.all B then 1 else 0 := by
    intro l
    simp [List.all_eq_true]
  simp only [e] at h
  have e2 : (fun o : List R => if o.length = m ∧ o.all B then 1 else 0) = fun o : List R => if o.length = m then (if o.all B then 1 else 0) else 0 := by
    funext o
    by_cases h1 : o.length = m <;> simp [h1]
  rw [e2]
  exact h

end

section
variable {R : Type} [LinearOrder R] [Inhabited R]

/-- C122, weighted samples: under the same conditions, if the buffered records of the view have no weight, then a query for `k` samples
always returns `k`, and these are, in any order, independent draws in proportion to weight from the records whose inserts had taken
effect at one moment during the call. The shards may be of any kind that keeps inserted records.

Missing: what `C80_joint_partial` misses, and executions in which a flush copies an unfinished slot. -/
theorem C122_weighted_partial {C : Cfg R} {Q : Shard R → Prop} (hI : Good C.impl Q) (hio : C.InsOnly) (hw : 0 < C.P.hwm) (hsf : 0 < C.sf) {n : Nat}
    {s0 s : St R} (h0 : Reach C n Conc.tidy s0) (hl : Later C Conc.tidy s0 s) {i : Nat} {u t : Conc.Th} {e x : Nat}
    (hu : s0.base.thr[i]? = some u) (hun : u.hd = none) (hi : Holds s.base i t e x) (hfin : ∀ p, p < t.tl → ∃ r, (p, r) ∈ s.base.done)
    {wg : R → Nat} (hbuf : ∀ w ∈ (snapshot C s e x t.tl).buf.contents, wg w.record = 0) {D : Nat} {al : AliasFn} (hal : al.Ok)
    {M mx : Nat} (hM0 : 0 < M) (hfair : ∀ ws : List Nat, 0 < ws.sum → ws.sum ∣ M → al.FairOn M ws) :
    ∃ s1, Later C Conc.tidy s0 s1 ∧ Later C Conc.tidy s1 s ∧
      let all := s1.base.claimed.map (fun y => C.ρ y.2)
      0 < (all.map wg).sum → (∀ k, 1 ≤ k → k ≤ (all.map wg).sum → k ∣ M) → ∀ k fuel : Nat,
        ∃ out : (Fin (k + k) → Fin M) → List R,
          (∀ τ, (snapshot C s e x t.tl).wss wg D al ⟨tapeOf τ, mx⟩ k (fuel + 1) = .ok (some (out τ)) ∧ (out τ).length = k) ∧
          ∀ g : Multiset R → Nat, (∑ τ, g (out τ)) * (all.map wg).sum ^ k =
            M ^ (k + k) * ∑ f : Fin k → Fin all.length, (∏ j, wg (all.get (f j))) * g (List.ofFn (fun j => all.get (f j))) := by
  obtain ⟨rs, h1, h2, h3, h4, -⟩ := held hI hio hw hsf (hl.reach h0) hi hfin
  obtain ⟨s1, a1, a2, rfl⟩ := at_moment hw h0 hl hu hun hi h1 h2
  refine ⟨s1, a1, a2, ?_⟩
  generalize snapshot C s e x t.tl = d at h3 h4 hbuf
  intro all hW hM k fuel
  have hrs : d.entries.map Entry.record = (all : Multiset R) := by rw [h3]; exact insEntries_records _ _
  refine wss_joint h4 ?_ hrs hbuf hal hM0 hW hfair hM k fuel
  intro y hy
  rw [h3] at hy
  unfold insEntries at hy
  simp only [Multiset.mem_coe, List.mem_map] at hy
  obtain ⟨_, _, rfl⟩ := hy
  rfl

end

/-- Hypotheses of the theorems: a query that holds an epoch which is no longer current. Its view has one buffered record, 12, which has no
weight; 10 and 11 are in a shard. -/
example : ∃ s0 s, Reach (C12 .leveling) 4 Conc.tidy s0 ∧ Later (C12 .leveling) Conc.tidy s0 s ∧
    (∃ u, s0.base.thr[1]? = some u ∧ u.hd = none) ∧ Holds s.base 1 ⟨.run, some 1, some 2, 3⟩ 1 2 ∧ (∀ p, p < 3 → ∃ r, (p, r) ∈ s.base.done) ∧
    s.base.cur.ep = some 2 ∧ aliasStd.Ok ∧ (∀ ws : List Nat, 0 < ws.sum → ws.sum ∣ 6 → aliasStd.FairOn 6 ws) ∧ (∀ k, 1 ≤ k → k ≤ 3 → k ∣ 6) ∧
    (snapshot (C12 .leveling) s 1 2 3).buf.contents.map Wrapped.record = [⟨12, 12⟩] ∧
    (∀ w ∈ (snapshot (C12 .leveling) s 1 2 3).buf.contents, (fun r : Rec => 12 - r.key) w.record = 0) := by
  obtain ⟨s0, s, h1, h2, h3⟩ := later_of (C := C12 .leveling) (n := 4) Conc.tidyB (ok := Conc.tidy) (fun _ _ => Conc.tidyB_sound)
    (Conc.insLow 0 11 ++ Conc.insSched 0 10 ++ Conc.job1 2 2 ++ Conc.insLow 0 12) (Conc.query 1 ++ Conc.insSched 0 13 ++ Conc.job2 2 2)
    (fun s0 s => decide ((s0.base.thr[1]?).any (fun u : Conc.Th => decide (u.hd = none)) = true ∧
      s.base.thr[1]? = some (⟨.run, some 1, some 2, 3⟩ : Conc.Th) ∧ (2, 12) ∈ s.base.done ∧ (1, 10) ∈ s.base.done ∧
      (0, 11) ∈ s.base.done ∧ s.base.cur.ep = some 2 ∧
      (snapshot (C12 .leveling) s 1 2 3).buf.contents.map Wrapped.record = [⟨12, 12⟩])) (by decide)
  rw [decide_eq_true_eq] at h3
  obtain ⟨a0, a1, a2, a3, a4, a5, a6⟩ := h3
  rw [Option.any_eq_true] at a0
  obtain ⟨u, hu, hun⟩ := a0
  refine ⟨s0, s, h1, h2, ⟨u, hu, of_decide_eq_true hun⟩, ⟨a1, rfl, rfl, by simp⟩, ?_, a5, aliasStd_ok, fun ws _ h => aliasStd_fair ws h,
    by decide, a6, ?_⟩
  · intro p hp
    match p, hp with
    | 0, _ => exact ⟨_, a4⟩
    | 1, _ => exact ⟨_, a3⟩
    | 2, _ => exact ⟨_, a2⟩
  · intro w hw
    have : w.record ∈ (snapshot (C12 .leveling) s 1 2 3).buf.contents.map Wrapped.record := List.mem_map.mpr ⟨w, hw, rfl⟩
    rw [a6, List.mem_singleton] at this
    rw [this]
    rfl

/-- The number of streams of a query for one sample in [0, 20] that return `r`, with two values per draw. -/
def lawCount (s : St Rec) (r : Rec) : Nat :=
  ∑ τ : Fin 2 → Fin 2, if (snapshot (C12 .tiering) s 1 2 2).irs false aliasStd ⟨tapeOf τ, 2 ^ 32⟩
    (Isam.lowerBound 2 2 0) (Isam.upperBound 2 2 0) 0 20 1 1 = .ok (some [r]) then 1 else 0

/-- Why not in every execution: slot 0 is flushed before record 9 is written to it. Both inserts, of 9 and of 11, have returned before
the query begins, and both are in range; yet no stream of the query returns 9, and half of them return a record that nobody inserted. -/
theorem C122_false : ∃ s0 s, Reach (C12 .tiering) 4 Conc.any s0 ∧ Later (C12 .tiering) Conc.any s0 s ∧ s0.base.done = [(0, 9), (1, 11)] ∧
    (∃ u, s0.base.thr[0]? = some u ∧ u.hd = none) ∧ Holds s.base 0 ⟨.run, some 1, some 2, 2⟩ 1 2 ∧ (∀ p, p < 2 → ∃ r, (p, r) ∈ s.base.done) ∧
    lawCount s ((C12 .tiering).ρ 9) = 0 ∧ lawCount s ((C12 .tiering).ρ 11) = 2 ∧ lawCount s default = 2 ∧ default ∉ s.base.claimed.map (fun y => (C12 .tiering).ρ y.2) := by
  obtain ⟨s0, s, h1, h2, h3⟩ := later_of (C := C12 .tiering) (n := 4) Conc.anyB (ok := Conc.any) (fun _ _ _ => trivial)
    ([(3, .insert 9), (3, .tailFirst)] ++ Conc.gos 3 4 ++ Conc.insSched 0 11 ++ Conc.job1 2 2 ++ [(3, .go)]) (Conc.query 0)
    (fun s0 s => decide (s0.base.done = [(0, 9), (1, 11)] ∧
      (s0.base.thr[0]?).any (fun u : Conc.Th => decide (u.hd = none)) = true ∧ s.base.thr[0]? = some (⟨.run, some 1, some 2, 2⟩ : Conc.Th) ∧
      s.base.done = [(0, 9), (1, 11)] ∧
      lawCount s ((C12 .tiering).ρ 9) = 0 ∧ lawCount s ((C12 .tiering).ρ 11) = 2 ∧ lawCount s default = 2 ∧
      default ∉ s.base.claimed.map (fun y => (C12 .tiering).ρ y.2))) (by decide)
  rw [decide_eq_true_eq] at h3
  obtain ⟨a1, a2, a3, a4, a5⟩ := h3
  rw [Option.any_eq_true] at a2
  obtain ⟨u, hu, hun⟩ := a2
  refine ⟨s0, s, h1, h2, a1, ⟨u, hu, of_decide_eq_true hun⟩, ⟨a3, rfl, rfl, by simp⟩, ?_, a5⟩
  intro p hp
  rw [a4]
  match p, hp with
  | 0, _ => exact ⟨9, by simp⟩
  | 1, _ => exact ⟨11, by simp⟩

end DE.Full
