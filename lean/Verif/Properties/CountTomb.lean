import Verif.Properties.LinearTomb

/-!
C121: `get_record_count` beside inserts, tombstone erases and reconstructions. An insert or erase takes effect when it claims its slot.
-/

namespace DE.Full
open Conc (Par Slot Ch)

section
variable {R : Type} [Inhabited R] [DecidableEq R]

omit [DecidableEq R] in
/-- The slots of the version a thread has pinned are the first claimed operations. -/
theorem flushed_ops {C : Cfg R} (hw : 0 < C.P.hwm) {n : Nat} {s : St R} (h : Reach C n Conc.tidy s) {i : Nat} {t : Conc.Th} {e x : Nat}
    (hi : Holds s.base i t e x) : ∃ rs : List Nat, rs.length = t.tl ∧ (∀ p r, rs[p]? = some r → (p, r) ∈ s.base.claimed) ∧ x ≤ t.tl ∧
      s.base.estr e = ((rs.take x).zipIdx).map (fun y => some (y.2, y.1)) := by
  obtain ⟨a1, a2, a3, a4, -⟩ := Conc.snapshot_slot hw h.base hi.thr hi.ep hi.hd hi.view
  have H := h.base.hist hw
  have hcl := h.base.claimed_length hw
  have hget : ∀ p, p < s.base.claimed.length → (s.base.claimed.reverse[p]?).map Prod.fst = some p := by
    intro p hp
    rw [← List.getElem?_map, List.map_reverse, H.claims, List.reverse_reverse, List.getElem?_range (by omega)]
  refine ⟨(s.base.claimed.reverse.map Prod.snd).take t.tl, by simp; omega, ?_, a2, ?_⟩
  · intro p r hp
    rw [List.getElem?_take] at hp
    split at hp
    · rw [List.getElem?_map, Option.map_eq_some_iff] at hp
      obtain ⟨y, hy, rfl⟩ := hp
      have h5 := hget p (by omega)
      rw [hy] at h5
      have : y.1 = p := by simpa using h5
      rw [← this]
      exact List.mem_reverse.mp (List.mem_of_getElem? hy)
    · cases hp
  · apply List.ext_getElem?
    intro p
    by_cases hp : p < x
    · obtain ⟨r, h1, h2⟩ := a4 p hp
      have h5 := hget p (by omega)
      rw [Option.map_eq_some_iff] at h5
      obtain ⟨y, hy, hy1⟩ := h5
      have hr : y.2 = r := by
        have hm : (p, y.2) ∈ s.base.claimed := by rw [← hy1]; exact List.mem_reverse.mp (List.mem_of_getElem? hy)
        exact H.fun hm (H.sub _ h2)
      rw [h1, List.getElem?_map, List.getElem?_zipIdx, List.getElem?_take, if_pos hp, List.getElem?_take, if_pos (by omega), List.getElem?_map, hy]
      simp [hr]
    · rw [List.getElem?_eq_none (by omega), List.getElem?_eq_none (by simp; omega)]

/-- C121: if flushes copy only finished slots, a `get_record_count` returns, for one moment between its call (`s0`: the caller has no view yet)
and its return, the number of inserts and erases that had taken effect, less two for each of `k` pairs of an insert and an erase that have
cancelled. Appends may be in flight. On BSM: if no stretch of at most `hwm` consecutive operations cancels out completely. Missing:
executions that flush unwritten slots (`C67_false`), void blocks on BSM (`C121_false`). -/
theorem C121_partial {C : Cfg R} {Q : Shard R → Prop} (hI : GoodNet C.impl Q) (hw : 0 < C.P.hwm) (hsf : 0 < C.sf) {n : Nat} {s0 s : St R}
    (h0 : Reach C n Conc.tidy s0) (hl : Later C Conc.tidy s0 s) {i : Nat} {u t : Conc.Th} {e x : Nat} (hu : s0.base.thr[i]? = some u) (hun : u.hd = none)
    (hi : Holds s.base i t e x) (hL : C.L = .bsm → NoVoidOps C s.base.claimed) :
    ∃ s1, Later C Conc.tidy s0 s1 ∧ Later C Conc.tidy s1 s ∧ ∃ k,
      (snapshot C s e x t.tl).recordCount + 2 * k = s1.base.claimed.length ∧
      k ≤ s1.base.claimed.countP (fun y => C.del y.2 = true) ∧ k ≤ s1.base.claimed.countP (fun y => C.del y.2 = false) := by
  have h := hl.reach h0
  have hv := h.pinned (VNet.keeps hI hw hsf) hw hi.thr hi.ep
  obtain ⟨rs, h3, h4, hx, h5⟩ := flushed_ops hw h hi
  have hv := hv (fun hb => novoid_slots (rs := rs.take x) (u := s.base.estr e) (w := []) (hL hb) (fun p r hp => h4 p r (by
    rw [List.getElem?_take] at hp
    split at hp
    · exact hp
    · cases hp)) (by rw [List.append_nil, h5]))
  obtain ⟨s1, a1, a2, rfl⟩ := at_claimed hw h0 hl hu hun hi h3 h4
  refine ⟨s1, a1, a2, ?_⟩
  have hlen : s1.base.claimed.length = t.tl := by simpa using h3
  obtain ⟨cl, ct, dr, e1, e2, e3, e4, e5⟩ := hv.net
  have hdr : dr = 0 := by
    rw [Multiset.eq_zero_iff_forall_notMem]
    intro y hy
    have h1 := slotEnts_untagged C (s.base.estr e) y (by rw [e1]; simp [hy])
    have h2 : y.del = true := e5 y hy
    rw [h1] at h2; cases h2
  subst hdr
  have hcard : cl.card = ct.card := by have := congrArg Multiset.card e2; simpa using this
  have hsl : (slotEnts C (s.base.estr e)).card = x := by
    unfold slotEnts
    rw [Multiset.coe_card, List.length_map, h5]
    simp; omega
  refine ⟨ct.card, ?_, ?_, ?_⟩
  · have hs := congrArg Multiset.card e1
    rw [hsl] at hs
    simp only [Multiset.card_add, Multiset.card_zero] at hs
    have h2 : (snapshot C s e x t.tl).entries = ents (snapshot C s e x t.tl).buf.contents + sents (s.vs e).visible := rfl
    rw [C14_stored, h2, Multiset.card_add, snapshot_buf]
    unfold slotEnts
    simp only [Multiset.coe_card, List.length_map, List.length_range]
    omega
  all_goals
    rw [h5, slotEnts_zip] at e1
  · have h6 : ct.card ≤ (((s1.base.claimed.reverse.map Prod.snd).take x).map (fun a => (⟨C.ρ a, C.del a, false⟩ : Entry R))).countP (fun y => y.tomb = true) := by
      rw [← Multiset.coe_countP, e1, Multiset.countP_add, Multiset.countP_add, Multiset.countP_add]
      have : ct.countP (fun y => y.tomb = true) = ct.card := Multiset.countP_eq_card.mpr e4
      omega
    refine h6.trans ?_
    rw [List.countP_map, ← List.map_take, List.countP_map]
    refine ((List.take_sublist _ _).countP_le).trans ?_
    rw [List.countP_reverse]
    exact List.countP_mono_left (fun y _ h => by simpa using h)
  · have h6 : ct.card ≤ (((s1.base.claimed.reverse.map Prod.snd).take x).map (fun a => (⟨C.ρ a, C.del a, false⟩ : Entry R))).countP (fun y => y.tomb = false) := by
      rw [← Multiset.coe_countP, e1, Multiset.countP_add, Multiset.countP_add, Multiset.countP_add]
      have : cl.countP (fun y => y.tomb = false) = cl.card := Multiset.countP_eq_card.mpr e3
      omega
    refine h6.trans ?_
    rw [List.countP_map, ← List.map_take, List.countP_map]
    refine ((List.take_sublist _ _).countP_le).trans ?_
    rw [List.countP_reverse]
    exact List.countP_mono_left (fun y _ h => by simpa using h)

end

/-- `C121_partial` for the shard types with sorted arrays. -/
theorem C121_sorted_partial {R K : Type} [LinearOrder R] [LinearOrder K] [HasKey R K] [Inhabited R] {P : Par} {L : Layout} {pq : PQ R} (hpq : pq.ByRec)
    {lb : LB R K} {sf n : Nat} {ρ : Nat → R} {del : Nat → Bool} (hw : 0 < P.hwm) (hsf : 1 ≤ sf) {s0 s : St R}
    (h0 : Reach ⟨P, L, sortedImpl pq lb, sf, ρ, del⟩ n Conc.tidy s0) (hl : Later ⟨P, L, sortedImpl pq lb, sf, ρ, del⟩ Conc.tidy s0 s)
    {i : Nat} {u t : Conc.Th} {e x : Nat} (hu : s0.base.thr[i]? = some u) (hun : u.hd = none) (hi : Holds s.base i t e x)
    (hL : L = .bsm → NoVoidOps ⟨P, L, sortedImpl pq lb, sf, ρ, del⟩ s.base.claimed) :
    ∃ s1, Later ⟨P, L, sortedImpl pq lb, sf, ρ, del⟩ Conc.tidy s0 s1 ∧ Later ⟨P, L, sortedImpl pq lb, sf, ρ, del⟩ Conc.tidy s1 s ∧ ∃ k,
      (snapshot ⟨P, L, sortedImpl pq lb, sf, ρ, del⟩ s e x t.tl).recordCount + 2 * k = s1.base.claimed.length ∧
      k ≤ s1.base.claimed.countP (fun y => del y.2 = true) ∧ k ≤ s1.base.claimed.countP (fun y => del y.2 = false) :=
  C121_partial (C := ⟨P, L, sortedImpl pq lb, sf, ρ, del⟩) (sorted_net hpq lb) hw hsf h0 hl hu hun hi hL

set_option maxRecDepth 8192 in
/-- Why the condition on BSM: nine operations, one of them an erase, have finished before the call, nothing else happens, and
`get_record_count` returns 5. -/
theorem C121_false : ∃ s0 s, Reach (T12 .bsm) 4 Conc.tidy s0 ∧ Later (T12 .bsm) Conc.tidy s0 s ∧ s0.base.done.length = 9 ∧
    (∃ u, s0.base.thr[1]? = some u ∧ u.hd = none) ∧ Holds s.base 1 ⟨.run, some 4, some 8, 9⟩ 4 8 ∧
    (snapshot (T12 .bsm) s 4 8 9).recordCount = 5 ∧
    ∀ s1, Later (T12 .bsm) Conc.tidy s0 s1 → Later (T12 .bsm) Conc.tidy s1 s →
      ¬ ∃ k, (snapshot (T12 .bsm) s 4 8 9).recordCount + 2 * k = s1.base.claimed.length ∧
        k ≤ s1.base.claimed.countP (fun y => (T12 .bsm).del y.2 = true) := by
  obtain ⟨s0, s, h1, h2, h3⟩ := later_of (C := T12 .bsm) (n := 4) Conc.tidyB (ok := Conc.tidy) (fun _ _ => Conc.tidyB_sound)
    (voidSched.take (voidSched.length - (Conc.query 1).length)) (Conc.query 1)
    (fun s0 s => decide (s0.base.done.length = 9 ∧ (s0.base.thr[1]?).any (fun u : Conc.Th => decide (u.hd = none)) = true ∧
      s.base.thr[1]? = some (⟨.run, some 4, some 8, 9⟩ : Conc.Th) ∧
      s0.base.claimed = [(8, 8), (7, 7), (6, 6), (5, 105), (4, 5), (3, 4), (2, 3), (1, 2), (0, 1)] ∧
      s.base.claimed = [(8, 8), (7, 7), (6, 6), (5, 105), (4, 5), (3, 4), (2, 3), (1, 2), (0, 1)] ∧
      (snapshot (T12 .bsm) s 4 8 9).recordCount = 5)) (by decide)
  rw [decide_eq_true_eq] at h3
  obtain ⟨a1, a2, a3, a4, a5, a6⟩ := h3
  rw [Option.any_eq_true] at a2
  obtain ⟨u, hu, hun⟩ := a2
  refine ⟨s0, s, h1, h2, a1, ⟨u, hu, of_decide_eq_true hun⟩, ⟨a3, rfl, rfl, by simp⟩, a6, ?_⟩
  rintro s1 l1 l2 ⟨k, k1, k2⟩
  have c1 := l1.claimed_sub
  have c2 := l2.claimed_sub
  have hc : s1.base.claimed = [(8, 8), (7, 7), (6, 6), (5, 105), (4, 5), (3, 4), (2, 3), (1, 2), (0, 1)] := by
    rw [a4] at c1
    rw [a5] at c2
    exact c2.antisymm c1
  have h9 : List.countP (fun y : Nat × Nat => decide ((T12 .bsm).del y.2 = true))
    [(8, 8), (7, 7), (6, 6), (5, 105), (4, 5), (3, 4), (2, 3), (1, 2), (0, 1)] = 1 := by decide
  rw [hc, h9] at k2
  rw [hc, a6] at k1
  simp at k1
  omega

/-- The hypotheses of `C121_partial`: a flushed tombstone has met its record, the fifth append has claimed its slot but not written it. -/
example : ∃ s0 s, Reach (T12 .leveling) 4 Conc.tidy s0 ∧ Later (T12 .leveling) Conc.tidy s0 s ∧ (∃ u, s0.base.thr[1]? = some u ∧ u.hd = none) ∧
    Holds s.base 1 ⟨.run, some 2, some 4, 5⟩ 2 4 ∧ s.base.done.length = 4 ∧ s.base.claimed = [(4, 8), (3, 7), (2, 105), (1, 6), (0, 5)] ∧
    (snapshot (T12 .leveling) s 2 4 5).recordCount = 3 := by
  obtain ⟨s0, s, h1, h2, h3⟩ := later_of (C := T12 .leveling) (n := 4) Conc.tidyB (ok := Conc.tidy) (fun _ _ => Conc.tidyB_sound)
    (Conc.insLow 0 5 ++ Conc.insSched 0 6 ++ Conc.job1 2 2 ++ Conc.insLow 0 105 ++ Conc.insSched 0 7 ++ Conc.job2 2 2)
    ([(3, .insert 8), (3, .tailFirst)] ++ Conc.gos 3 4 ++ Conc.query 1)
    (fun s0 s => decide ((s0.base.thr[1]?).any (fun u : Conc.Th => decide (u.hd = none)) = true ∧
      s.base.thr[1]? = some (⟨.run, some 2, some 4, 5⟩ : Conc.Th) ∧ s.base.done.length = 4 ∧
      s.base.claimed = [(4, 8), (3, 7), (2, 105), (1, 6), (0, 5)] ∧ (snapshot (T12 .leveling) s 2 4 5).recordCount = 3)) (by decide)
  rw [decide_eq_true_eq] at h3
  obtain ⟨a2, a3, a4⟩ := h3
  rw [Option.any_eq_true] at a2
  obtain ⟨u, hu, hun⟩ := a2
  exact ⟨s0, s, h1, h2, ⟨u, hu, of_decide_eq_true hun⟩, ⟨a3, rfl, rfl, by simp⟩, a4⟩

end DE.Full
