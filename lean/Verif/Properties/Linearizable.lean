import Verif.Properties.FullReads

/-!
C78: queries are linearizable. An insert takes effect when it claims its slot, a query when it reads the tail of the buffer.
-/

namespace DE.Conc

/-- Claimed positions stay claimed. -/
theorem step_claimed {P : Par} {s s' : St} {i : Nat} {t : Th} {c : Ch} (hs : stepT P s i t c = .ok (some s')) : s.claimed.Sublist s'.claimed := by
  by_cases h3 : ∃ r x, t.pc = .ap3 r x
  · obtain ⟨r, x, h3⟩ := h3
    unfold stepT at hs
    rw [h3] at hs
    simp only at hs
    split at hs <;> (have := ok_inj hs; subst this; first | exact List.Sublist.refl _ | exact List.sublist_cons_self _ _)
  · by_cases h5 : ∃ r p, t.pc = .ap5 r p
    · obtain ⟨r, p, h5⟩ := h5
      unfold stepT at hs
      rw [h5] at hs
      simp only at hs
      have := ok_inj hs; subst this; exact List.Sublist.refl _
    · push Not at h3 h5
      rw [(step_frame hs h3 h5).2.1]

end DE.Conc

namespace DE.Full
open Conc (Par Slot Ch)

section
variable {R : Type} [Inhabited R]

theorem Later.claimed_sub {C : Cfg R} {ok : Conc.St → Nat → Prop} {s0 s : St R} (h : Later C ok s0 s) : s0.base.claimed.Sublist s.base.claimed := by
  induction h with
  | refl => exact List.Sublist.refl _
  | step _ _ hs ih =>
    obtain ⟨t, ht, h2, -⟩ := step_some hs
    unfold Conc.step at h2
    rw [ht] at h2
    exact ih.trans (Conc.step_claimed h2)

/-- The operations below the tail of a view taken since `s0` are those claimed at some moment since `s0`, in the order in which they were
claimed. -/
theorem at_claimed {C : Cfg R} {ok : Conc.St → Nat → Prop} (hw : 0 < C.P.hwm) {n : Nat} {s0 s : St R} (h0 : Reach C n ok s0) (hl : Later C ok s0 s)
    {i : Nat} {u t : Conc.Th} {e x : Nat} (hu : s0.base.thr[i]? = some u) (hun : u.hd = none) (hi : Holds s.base i t e x)
    {rs : List Nat} (h1 : rs.length = t.tl) (h2 : ∀ p r, rs[p]? = some r → (p, r) ∈ s.base.claimed) :
    ∃ s1, Later C ok s0 s1 ∧ Later C ok s1 s ∧ s1.base.claimed.reverse.map Prod.snd = rs := by
  obtain ⟨t', ht', hk⟩ := hl.took hu hun
  rw [hi.thr] at ht'; cases ht'
  rcases hk with h | ⟨k, h⟩ | ⟨s1, a1, a2, a3⟩
  · rw [hi.hd] at h; cases h
  · exact absurd h (hi.view k)
  refine ⟨s1, a1, a2, ?_⟩
  have H := ((hl.reach h0).base.hist hw)
  have H1 := ((a1.reach h0).base.hist hw)
  have hnd : (s.base.claimed.map Prod.fst).Nodup := by
    rw [H.claims]; exact List.nodup_reverse.mpr List.nodup_range
  have hlen : s1.base.claimed.length = t.tl := by rw [a3, (a1.reach h0).base.claimed_length hw]
  apply List.ext_getElem?
  intro p
  by_cases hp : p < t.tl
  · have hp1 : p < rs.length := by omega
    have hp2 : p < s1.base.claimed.reverse.length := by rw [List.length_reverse]; omega
    have hd := h2 p _ (List.getElem?_eq_getElem hp1)
    have hc := a2.claimed_sub.mem (List.mem_reverse.mp (List.getElem_mem hp2))
    have hf : (s1.base.claimed.reverse[p]).1 = p := by
      have h5 : (s1.base.claimed.reverse.map Prod.fst)[p]? = some p := by
        rw [List.map_reverse, H1.claims, List.reverse_reverse, List.getElem?_range (by rw [← a3]; exact hp)]
      rw [List.getElem?_map, List.getElem?_eq_getElem hp2] at h5
      simpa using h5
    rw [List.getElem?_map, List.getElem?_eq_getElem hp2, List.getElem?_eq_getElem hp1, Option.map_some]
    have := List.inj_on_of_nodup_map hnd hc hd (by rw [hf])
    rw [this]
  · rw [List.getElem?_eq_none (by rw [List.length_map, List.length_reverse]; omega), List.getElem?_eq_none (by omega)]

/-- The same for finished appends. -/
theorem at_moment {C : Cfg R} {ok : Conc.St → Nat → Prop} (hw : 0 < C.P.hwm) {n : Nat} {s0 s : St R} (h0 : Reach C n ok s0) (hl : Later C ok s0 s)
    {i : Nat} {u t : Conc.Th} {e x : Nat} (hu : s0.base.thr[i]? = some u) (hun : u.hd = none) (hi : Holds s.base i t e x)
    {rs : List Nat} (h1 : rs.length = t.tl) (h2 : ∀ p r, rs[p]? = some r → (p, r) ∈ s.base.done) :
    ∃ s1, Later C ok s0 s1 ∧ Later C ok s1 s ∧ s1.base.claimed.reverse.map Prod.snd = rs :=
  at_claimed hw h0 hl hu hun hi h1 (fun p r hp => ((hl.reach h0).base.hist hw).sub _ (h2 p r hp))

end

section
variable {R K : Type} [LinearOrder R] [LinearOrder K] [HasKey R K] [Inhabited R]

/-- C78, range queries: if flushes copy only finished slots and the appends below the tail of the view have finished, a range query
returns exactly the in-range records whose inserts had taken effect at one moment between its call (`s0`: the caller has no view yet)
and its end. -/
theorem C78_range_partial {P : Par} {L : Layout} {pq pq' : PQ R} (hpq : pq.ByRec) {lb : LB R K} (hlb : lb.Sound) {sf n : Nat} {ρ : Nat → R}
    (hw : 0 < P.hwm) (hsf : 1 ≤ sf) {s0 s : St R} (h0 : Reach ⟨P, L, sortedImpl pq lb, sf, ρ, fun _ => false⟩ n Conc.tidy s0)
    (hl : Later ⟨P, L, sortedImpl pq lb, sf, ρ, fun _ => false⟩ Conc.tidy s0 s) {i : Nat} {u t : Conc.Th} {e x : Nat}
    (hu : s0.base.thr[i]? = some u) (hun : u.hd = none) (hi : Holds s.base i t e x) (hfin : ∀ p, p < t.tl → ∃ r, (p, r) ∈ s.base.done)
    (lo hi' : K) :
    ∃ s1, Later ⟨P, L, sortedImpl pq lb, sf, ρ, fun _ => false⟩ Conc.tidy s0 s1 ∧ Later ⟨P, L, sortedImpl pq lb, sf, ρ, fun _ => false⟩ Conc.tidy s1 s ∧
      ∃ res, (snapshot ⟨P, L, sortedImpl pq lb, sf, ρ, fun _ => false⟩ s e x t.tl).rangeQuery pq' lb lo hi' = .ok res ∧
        res.Perm (inKeys lo hi' (s1.base.claimed.map (fun y => ρ y.2))) := by
  obtain ⟨rs, h1, h2, res, h3, h4⟩ := C67_partial (pq' := pq') hpq hlb hw hsf (hl.reach h0) hi hfin lo hi'
  obtain ⟨s1, a1, a2, rfl⟩ := at_moment (C := ⟨P, L, sortedImpl pq lb, sf, ρ, fun _ => false⟩) hw h0 hl hu hun hi h1 h2
  refine ⟨s1, a1, a2, res, h3, h4.trans (List.Perm.filter _ ?_)⟩
  rw [List.map_map]
  exact (List.reverse_perm _).map _

/-- C78, range counts. -/
theorem C78_count_partial {P : Par} {L : Layout} {pq : PQ R} (hpq : pq.ByRec) {lb : LB R K} (hlb : lb.Sound) {sf n : Nat} {ρ : Nat → R}
    (hw : 0 < P.hwm) (hsf : 1 ≤ sf) {s0 s : St R} (h0 : Reach ⟨P, L, sortedImpl pq lb, sf, ρ, fun _ => false⟩ n Conc.tidy s0)
    (hl : Later ⟨P, L, sortedImpl pq lb, sf, ρ, fun _ => false⟩ Conc.tidy s0 s) {i : Nat} {u t : Conc.Th} {e x : Nat}
    (hu : s0.base.thr[i]? = some u) (hun : u.hd = none) (hi : Holds s.base i t e x) (hfin : ∀ p, p < t.tl → ∃ r, (p, r) ∈ s.base.done)
    (lo hi' : K) {m : Nat} (hm : (snapshot ⟨P, L, sortedImpl pq lb, sf, ρ, fun _ => false⟩ s e x t.tl).rangeCount lb lo hi' = .ok m) :
    ∃ s1, Later ⟨P, L, sortedImpl pq lb, sf, ρ, fun _ => false⟩ Conc.tidy s0 s1 ∧ Later ⟨P, L, sortedImpl pq lb, sf, ρ, fun _ => false⟩ Conc.tidy s1 s ∧
      m = (inKeys lo hi' (s1.base.claimed.map (fun y => ρ y.2))).length := by
  obtain ⟨rs, h1, h2, h3, -⟩ := C76_partial hpq hlb hw hsf (hl.reach h0) hi hfin lo hi'
  obtain ⟨s1, a1, a2, rfl⟩ := at_moment (C := ⟨P, L, sortedImpl pq lb, sf, ρ, fun _ => false⟩) hw h0 hl hu hun hi h1 h2
  refine ⟨s1, a1, a2, (h3 m hm).trans (List.Perm.length_eq (List.Perm.filter _ ?_))⟩
  rw [List.map_map]
  exact (List.reverse_perm _).map _

/-- C78, point lookups over distinct keys. -/
theorem C78_lookup_partial {P : Par} {L : Layout} {pq : PQ R} (hpq : pq.ByRec) {lb : LB R K} {f : Shard R → K → Res (Option Nat)} (hf : ExactKeyLookup f)
    {sf n : Nat} {ρ : Nat → R} (hw : 0 < P.hwm) (hsf : 1 ≤ sf) {s0 s : St R} (h0 : Reach ⟨P, L, sortedImpl pq lb, sf, ρ, fun _ => false⟩ n Conc.tidy s0)
    (hl : Later ⟨P, L, sortedImpl pq lb, sf, ρ, fun _ => false⟩ Conc.tidy s0 s) {i : Nat} {u t : Conc.Th} {e x : Nat}
    (hu : s0.base.thr[i]? = some u) (hun : u.hd = none) (hi : Holds s.base i t e x) (hfin : ∀ p, p < t.tl → ∃ r, (p, r) ∈ s.base.done)
    (hkeys : (s.base.claimed.map (fun y => key (K := K) (ρ y.2))).Nodup) (k : K) :
    ∃ s1, Later ⟨P, L, sortedImpl pq lb, sf, ρ, fun _ => false⟩ Conc.tidy s0 s1 ∧ Later ⟨P, L, sortedImpl pq lb, sf, ρ, fun _ => false⟩ Conc.tidy s1 s ∧
      (snapshot ⟨P, L, sortedImpl pq lb, sf, ρ, fun _ => false⟩ s e x t.tl).pointLookup f k =
        .ok ((s1.base.claimed.map (fun y => ρ y.2)).filter (fun r => decide (key r = k))) := by
  obtain ⟨rs, h1, h2, res, h3, -, -, h4⟩ := C75_partial hpq (lb := lb) hf hw hsf (hl.reach h0) hi hfin k
  obtain ⟨s1, a1, a2, rfl⟩ := at_moment (C := ⟨P, L, sortedImpl pq lb, sf, ρ, fun _ => false⟩) hw h0 hl hu hun hi h1 h2
  refine ⟨s1, a1, a2, ?_⟩
  have hpm : ((s1.base.claimed.reverse.map Prod.snd).map ρ).Perm (s1.base.claimed.map (fun y => ρ y.2)) := by
    rw [List.map_map]
    exact (List.reverse_perm _).map _
  have hnd : (s1.base.claimed.map (fun y => key (K := K) (ρ y.2))).Nodup := hkeys.sublist (a2.claimed_sub.map _)
  have hnd' : ((s1.base.claimed.map (fun y => ρ y.2)).map (key (K := K))).Nodup := by
    rw [List.map_map]; exact hnd
  have hnd2 : (((s1.base.claimed.reverse.map Prod.snd).map ρ).map (key (K := K))).Nodup := (hpm.map _).nodup_iff.mpr hnd'
  rw [h3, h4 hnd2]
  have hp2 := hpm.filter (fun r => decide (key (K := K) r = k))
  by_cases hex : ∃ r ∈ s1.base.claimed.map (fun y => ρ y.2), key (K := K) r = k
  · obtain ⟨r, hr, hk⟩ := hex
    rw [filter_unique hnd' hr hk] at hp2 ⊢
    rw [List.perm_singleton.mp hp2]
  · push Not at hex
    have : (s1.base.claimed.map (fun y => ρ y.2)).filter (fun r => decide (key (K := K) r = k)) = [] := by
      rw [List.filter_eq_nil_iff]
      intro r hr
      simpa using hex r hr
    rw [this] at hp2 ⊢
    rw [List.perm_nil.mp hp2]

/-- Why not in every execution: record 9 is inserted before the query begins, and no moment during the query explains its result. -/
theorem C78_false : ∃ s0 s, Reach (C12 .tiering) 4 Conc.any s0 ∧ Later (C12 .tiering) Conc.any s0 s ∧
    (∃ u, s0.base.thr[0]? = some u ∧ u.hd = none) ∧ Holds s.base 0 ⟨.run, some 1, some 2, 2⟩ 1 2 ∧
    ∃ res, (snapshot (C12 .tiering) s 1 2 2).rangeQuery PQ.std LB.scan 5 20 = .ok res ∧
      ∀ s1, Later (C12 .tiering) Conc.any s0 s1 → Later (C12 .tiering) Conc.any s1 s →
        ¬ res.Perm (inKeys 5 20 (s1.base.claimed.map (fun y => (C12 .tiering).ρ y.2))) := by
  obtain ⟨s0, s, h1, h2, h3, -, h4, h5, -, h6⟩ := C74_false
  refine ⟨s0, s, h1, h2, h4, h5, _, h6, ?_⟩
  intro s1 a1 a2 hp
  have hc : (0, 9) ∈ s1.base.claimed := by
    refine a1.claimed_sub.mem ?_
    exact (h1.base.hist (by decide)).sub _ (by rw [h3]; simp)
  have : (⟨9, 9⟩ : Rec) ∈ inKeys 5 20 (s1.base.claimed.map (fun y => (C12 .tiering).ρ y.2)) := by
    refine List.mem_filter.mpr ⟨List.mem_map.mpr ⟨(0, 9), hc, rfl⟩, by decide⟩
  rw [← hp.mem_iff] at this
  simp at this

/-- The hypotheses of `C78_range_partial`, `C78_count_partial` and `C78_lookup_partial`: the query begins while an insert is pending, a
flush and two inserts happen before it takes its view, and another insert before it reads. -/
example : ∃ s0 s, Reach (C12 .leveling) 4 Conc.tidy s0 ∧ Later (C12 .leveling) Conc.tidy s0 s ∧ s0.base.claimed.length = 2 ∧
    (∃ u, s0.base.thr[1]? = some u ∧ u.hd = none) ∧ Holds s.base 1 ⟨.run, some 1, some 2, 3⟩ 1 2 ∧ (∀ p, p < 3 → ∃ r, (p, r) ∈ s.base.done) ∧
    s.base.claimed.length = 4 ∧ (s.base.claimed.map (fun y => key (K := Nat) ((C12 .leveling).ρ y.2))).Nodup ∧
    (snapshot (C12 .leveling) s 1 2 3).rangeCount LB.scan 5 20 = .ok 3 := by
  obtain ⟨s0, s, h1, h2, h3⟩ := later_of (C := C12 .leveling) (n := 4) Conc.tidyB (ok := Conc.tidy) (fun _ _ => Conc.tidyB_sound)
    (Conc.insLow 0 11 ++ Conc.insSched 0 10 ++ [(1, .query)]) (Conc.job1 2 2 ++ Conc.insLow 0 12 ++ Conc.gos 1 3 ++ [(1, .getBuffer)] ++ Conc.gos 1 5 ++ Conc.insSched 0 13)
    (fun s0 s => decide (s0.base.claimed.length = 2 ∧ (s0.base.thr[1]?).any (fun u : Conc.Th => decide (u.hd = none)) = true ∧
      s.base.thr[1]? = some (⟨.run, some 1, some 2, 3⟩ : Conc.Th) ∧ (2, 12) ∈ s.base.done ∧ (1, 10) ∈ s.base.done ∧ (0, 11) ∈ s.base.done ∧
      s.base.claimed.length = 4 ∧ (s.base.claimed.map (fun y => key (K := Nat) ((C12 .leveling).ρ y.2))).Nodup ∧
      (snapshot (C12 .leveling) s 1 2 3).rangeCount LB.scan 5 20 = .ok 3)) (by decide)
  rw [decide_eq_true_eq] at h3
  obtain ⟨a1, a2, a3, a4, a5, a6, a7⟩ := h3
  rw [Option.any_eq_true] at a2
  obtain ⟨u, hu, hun⟩ := a2
  refine ⟨s0, s, h1, h2, a1, ⟨u, hu, of_decide_eq_true hun⟩, ⟨a3, rfl, rfl, by simp⟩, ?_, a7⟩
  intro p hp
  match p, hp with
  | 0, _ => exact ⟨_, a6⟩
  | 1, _ => exact ⟨_, a5⟩
  | 2, _ => exact ⟨_, a4⟩

end

section
variable {R 𝔽 : Type} [Inhabited R] [DecidableEq R] [LinearOrder 𝔽] [AddCommGroup 𝔽] [IsOrderedAddMonoid 𝔽]

/-- C78, k-NN queries. -/
theorem C78_knn_partial {q : MaxQ R 𝔽} (hq : q.Ok) {dist : R → R → 𝔽} (hd : Metric dist) {leafSz : Nat} {g0 : Rng} {P : Par} {L : Layout}
    {sf n : Nat} {ρ : Nat → R} (hw : 0 < P.hwm) (hsf : 1 ≤ sf) {s0 s : St R} (h0 : Reach ⟨P, L, vpImpl dist leafSz g0, sf, ρ, fun _ => false⟩ n Conc.tidy s0)
    (hl : Later ⟨P, L, vpImpl dist leafSz g0, sf, ρ, fun _ => false⟩ Conc.tidy s0 s) {i : Nat} {u t : Conc.Th} {e x : Nat}
    (hu : s0.base.thr[i]? = some u) (hun : u.hd = none) (hi : Holds s.base i t e x) (hfin : ∀ p, p < t.tl → ∃ r, (p, r) ∈ s.base.done)
    (g : Shard R → Rng) (hg : ∀ sh, t.tl ≤ (g sh).max) (point : R) {k : Nat} (hk : 1 ≤ k) :
    ∃ s1, Later ⟨P, L, vpImpl dist leafSz g0, sf, ρ, fun _ => false⟩ Conc.tidy s0 s1 ∧ Later ⟨P, L, vpImpl dist leafSz g0, sf, ρ, fun _ => false⟩ Conc.tidy s1 s ∧
      ∃ res, (snapshot ⟨P, L, vpImpl dist leafSz g0, sf, ρ, fun _ => false⟩ s e x t.tl).knn q dist
          (fun sh => VP.tree dist leafSz (g sh) sh.data) point k = .ok res ∧
        KAnswer k (fun y => dist y point) (s1.base.claimed.map (fun y => ρ y.2)) res := by
  obtain ⟨rs, h1, h2, res, h3, h4⟩ := C77_partial hq hd hw hsf (hl.reach h0) hi hfin g hg point hk
  obtain ⟨s1, a1, a2, rfl⟩ := at_moment (C := ⟨P, L, vpImpl dist leafSz g0, sf, ρ, fun _ => false⟩) hw h0 hl hu hun hi h1 h2
  refine ⟨s1, a1, a2, res, h3, h4.1.perm ?_ (List.Perm.refl _), h4.2⟩
  rw [List.map_map]
  exact (List.reverse_perm _).map _

end

/-- The hypotheses of `C78_knn_partial`. -/
example : ∃ s0 s, Reach (CV .tiering) 4 Conc.tidy s0 ∧ Later (CV .tiering) Conc.tidy s0 s ∧ s0.base.claimed.length = 2 ∧
    (∃ u, s0.base.thr[1]? = some u ∧ u.hd = none) ∧ Holds s.base 1 ⟨.run, some 1, some 2, 3⟩ 1 2 ∧ (∀ p, p < 3 → ∃ r, (p, r) ∈ s.base.done) ∧
    3 ≤ (tapeRng (5 * ·)).max ∧
    (snapshot (CV .tiering) s 1 2 3).knn MaxQ.std keyDist (fun s => VP.tree keyDist 8 (tapeRng (5 * ·)) s.data) ⟨13, 0⟩ 2 = .ok [⟨11, 11⟩, ⟨12, 12⟩] := by
  obtain ⟨s0, s, h1, h2, h3⟩ := later_of (C := CV .tiering) (n := 4) Conc.tidyB (ok := Conc.tidy) (fun _ _ => Conc.tidyB_sound)
    (Conc.insLow 0 11 ++ Conc.insSched 0 10 ++ [(1, .query)]) (Conc.job1 2 2 ++ Conc.insLow 0 12 ++ Conc.gos 1 3 ++ [(1, .getBuffer)] ++ Conc.gos 1 5 ++ Conc.insSched 0 13)
    (fun s0 s => decide (s0.base.claimed.length = 2 ∧ (s0.base.thr[1]?).any (fun u : Conc.Th => decide (u.hd = none)) = true ∧
      s.base.thr[1]? = some (⟨.run, some 1, some 2, 3⟩ : Conc.Th) ∧ (2, 12) ∈ s.base.done ∧ (1, 10) ∈ s.base.done ∧ (0, 11) ∈ s.base.done ∧
      3 ≤ (tapeRng (5 * ·)).max ∧
      (snapshot (CV .tiering) s 1 2 3).knn MaxQ.std keyDist (fun s => VP.tree keyDist 8 (tapeRng (5 * ·)) s.data) ⟨13, 0⟩ 2 = .ok [⟨11, 11⟩, ⟨12, 12⟩])) (by decide)
  rw [decide_eq_true_eq] at h3
  obtain ⟨a1, a2, a3, a4, a5, a6, a7⟩ := h3
  rw [Option.any_eq_true] at a2
  obtain ⟨u, hu, hun⟩ := a2
  refine ⟨s0, s, h1, h2, a1, ⟨u, hu, of_decide_eq_true hun⟩, ⟨a3, rfl, rfl, by simp⟩, ?_, a7⟩
  intro p hp
  match p, hp with
  | 0, _ => exact ⟨_, a6⟩
  | 1, _ => exact ⟨_, a5⟩
  | 2, _ => exact ⟨_, a4⟩

end DE.Full
