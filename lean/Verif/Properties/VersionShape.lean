import Verif.Proofs.FullShape
import Verif.Properties.Shape
import Verif.Properties.VersionOrder
import Verif.Properties.FullUser
import Verif.Properties.FullTomb

/-!
C104: the levels of every version obey the limits of the layout beside concurrent operations. Inserts and erases with tombstones, any
number of threads, any execution (writers may have claimed slots that a flush copies before they have written them).
-/

namespace DE.Full
open Conc (Par Slot Ch)
variable {R : Type}

theorem vp_conservingAny {𝔽 : Type} [DecidableEq R] [LinearOrder 𝔽] [Zero 𝔽] (dist : R → R → 𝔽) (leafSz : Nat) (g : Rng) :
    ConservingAny (vpImpl dist leafSz g) where
  toConserving := vpImpl_conserving dist leafSz g
  any := by
    intro v l s _ h2 hs
    simp only [vpImpl, bind_ok, h2] at hs
    obtain ⟨l', e, hs⟩ := hs
    cases e; cases hs
    simp only
    rw [ents_mask]
    exact dropDel_reduces l

variable [Inhabited R]

theorem shape_of {C : Cfg R} (hI : ConservingAny C.impl) (hw : 0 < C.P.hwm) (hsf : 0 < C.sf) {n : Nat} {ok : Conc.St → Nat → Prop} {s : St R}
    (h : Reach C n ok s) {i e : Nat} (hp : Pins s i e) : VShape C (s.vs e) (s.base.estr e) := by
  obtain ⟨t, ht, he⟩ := hp
  exact h.pinnedW (VShape.keeps hI hw hsf) hw (fun h => h.elim) ht he

/-- C104, tiering: level `i` of the version a thread works on holds 1 to `scale_factor` shards and at most `hwm * scale_factor^(i+1)`
records, and the height is logarithmic in the number of slots flushed into the version. -/
theorem C104_tiering {C : Cfg R} (hL : C.L = .tiering) (hI : ConservingAny C.impl) (hw : 0 < C.P.hwm) (hsf : 0 < C.sf) {n : Nat}
    {ok : Conc.St → Nat → Prop} {s : St R} (h : Reach C n ok s) {i e : Nat} (hp : Pins s i e) :
    (∀ k l, (s.vs e).levels[k]? = some l → 1 ≤ l.cnt ∧ l.cnt ≤ C.sf ∧ l.recordCount ≤ C.P.hwm * C.sf ^ (k+1)) ∧
    (2 ≤ C.sf → (s.vs e).height ≤ Nat.log C.sf (s.base.estr e).length + 1) := by
  have hv := shape_of hI hw hsf h hp
  unfold VShape at hv
  simp only [hL] at hv
  obtain ⟨h1, h2, h3, h4⟩ := hv
  obtain ⟨h5, -⟩ := h1.inv (by simp)
  refine ⟨?_, ?_⟩
  · intro k l hl
    have ha : (s.vs e).abs[k]? = some l.visible := by simp [Struct.abs, hl]
    have hlv := h3 k l.visible ha
    obtain ⟨q, hq⟩ := getElem?_of_lt (l := (s.vs e).state) (i := k) (by rw [← h5.len]; exact lt_of_getElem? hl)
    have hcnt := (h5.lvl k l q hl hq).cnt
    refine ⟨by have := hlv.1; omega, by have := hlv.2.1; omega, ?_⟩
    rw [recordCount_eq]
    refine le_trans (recs_le hlv.2.2) ?_
    rw [pow_succ]
    calc l.visible.length * (C.P.hwm * C.sf ^ k) ≤ C.sf * (C.P.hwm * C.sf ^ k) := Nat.mul_le_mul_right _ hlv.2.1
      _ = C.P.hwm * (C.sf ^ k * C.sf) := by ring
  · intro hs2
    have hb := (weight_bounds (sf := C.sf) (s.vs e).abs (by
      intro ss hs
      obtain ⟨k, hk⟩ := List.getElem?_of_mem hs
      have := h3 k ss hk
      exact ⟨this.1, this.2.1⟩)).1
    have hh : (s.vs e).abs.length = (s.vs e).height := by simp [Struct.abs, Struct.height]
    rw [hh] at hb
    cases hd : (s.vs e).height with
    | zero => omega
    | succ m =>
      rw [hd] at hb
      have := le_trans (le_trans (pow_le_geom C.sf m) hb) h4
      have := Nat.le_log_of_pow_le hs2 this
      omega

/-- C104, leveling: every level holds at most one shard and at most the capacities of the levels up to it, and the height is
logarithmic in the number of slots flushed, measured in buffers. -/
theorem C104_leveling {C : Cfg R} (hL : C.L = .leveling) (hI : ConservingAny C.impl) (hw : 0 < C.P.hwm) (hsf : 0 < C.sf) {n : Nat}
    {ok : Conc.St → Nat → Prop} {s : St R} (h : Reach C n ok s) {i e : Nat} (hp : Pins s i e) :
    (∀ k l, (s.vs e).levels[k]? = some l → l.cnt ≤ 1 ∧ l.recordCount ≤ C.P.hwm * C.sf * geom C.sf (k+1)) ∧
    (3 ≤ (s.vs e).height → C.P.hwm * C.sf ^ ((s.vs e).height - 1) < (s.base.estr e).length) ∧
    (2 ≤ C.sf → (s.vs e).height ≤ max 2 (Nat.log C.sf ((s.base.estr e).length / C.P.hwm) + 1)) := by
  have hv := shape_of hI hw hsf h hp
  unfold VShape at hv
  simp only [hL] at hv
  obtain ⟨h1, h2, h3, h4⟩ := hv
  obtain ⟨h5, -⟩ := h1.inv (by simp)
  have hh : (s.vs e).abs.length = (s.vs e).height := by simp [Struct.abs, Struct.height]
  refine ⟨?_, ?_, ?_⟩
  · intro k l hl
    have ha : (s.vs e).abs[k]? = some l.visible := by simp [Struct.abs, hl]
    have hlv := h3 k l.visible ha
    obtain ⟨q, hq⟩ := getElem?_of_lt (l := (s.vs e).state) (i := k) (by rw [← h5.len]; exact lt_of_getElem? hl)
    have hcnt := (h5.lvl k l q hl hq).cnt
    have h1 := h5.single rfl l.visible (List.mem_of_getElem? ha)
    exact ⟨by omega, by rw [recordCount_eq, ← capSum_geom]; exact hlv⟩
  · rw [← hh]; exact h4.tall
  · intro hs2
    rw [← hh]; exact h4.log hw hs2

/-- C104, BSM: level 0 holds at most one buffer, level `k + 1` at most `2^k` buffers, and the height is logarithmic in the number of
slots flushed; also in the executions in which blocks cancel out completely. -/
theorem C104_bsm {C : Cfg R} (hL : C.L = .bsm) (hI : ConservingAny C.impl) (hw : 0 < C.P.hwm) (hsf : 0 < C.sf) {n : Nat}
    {ok : Conc.St → Nat → Prop} {s : St R} (h : Reach C n ok s) {i e : Nat} (hp : Pins s i e) :
    (∀ k l, (s.vs e).levels[k]? = some l → l.recordCount ≤ 2 ^ (k - 1) * C.P.hwm) ∧
    (s.vs e).height ≤ Nat.log 2 (s.base.estr e).length + 2 := by
  have hv := shape_of hI hw hsf h hp
  unfold VShape at hv
  simp only [hL] at hv
  obtain ⟨h1, m, h2, h3⟩ := hv
  refine ⟨?_, ?_⟩
  · intro k l hl
    have hz : (szs (s.vs e))[k]? = some l.recordCount := by rw [szs, List.getElem?_map, hl]; rfl
    cases k with
    | zero =>
      have := h3.zero l.recordCount (by rw [List.head?_eq_getElem?]; exact hz)
      simpa using this
    | succ k =>
      have := h3.succ k l.recordCount (by rw [List.getElem?_tail]; exact hz)
      simpa using this
  · have hh : (szs (s.vs e)).length = (s.vs e).height := by simp [szs, Struct.height]
    rcases Nat.lt_or_ge (s.vs e).height 2 with hlt | hge
    · omega
    · obtain ⟨q, hk⟩ : ∃ q, (s.vs e).height = q + 2 := ⟨(s.vs e).height - 2, by omega⟩
      have := h3.high q (by omega)
      have := Nat.le_log_of_pow_le (b := 2) (by omega) (show 2 ^ q ≤ (s.base.estr e).length by omega)
      omega

/-- The hypotheses of `C104_tiering`: the first flush has copied a slot that was not written yet, the second one a tombstone; two shards
in level 0. -/
example : ∃ s, Reach (T12 .tiering) 4 Conc.any s ∧ Pins s 1 2 ∧ (s.base.estr 2).length = 4 ∧
    (s.vs 2).levels.map (fun l => (l.cnt, l.recordCount)) = [(2, 4)] := by
  obtain ⟨s, h1, h2⟩ := reach_of (C := T12 .tiering) (n := 4) Conc.anyB (ok := Conc.any) (fun _ _ _ => trivial)
    ([(3, .insert 9), (3, .tailFirst)] ++ Conc.gos 3 4 ++ Conc.insSched 0 11 ++ Conc.job1 2 2 ++ [(3, .go)] ++ Conc.insLow 0 109 ++
      Conc.insSched 0 5 ++ Conc.job2 2 2 ++ Conc.query 1)
    (fun s => decide ((s.base.thr[1]?).map Conc.Th.ep = some (some 2) ∧ (s.base.estr 2).length = 4 ∧
      (s.vs 2).levels.map (fun l => (l.cnt, l.recordCount)) = [(2, 4)])) (by decide)
  rw [decide_eq_true_eq] at h2
  obtain ⟨a1, a2⟩ := h2
  rw [Option.map_eq_some_iff] at a1
  exact ⟨s, h1, a1, a2⟩

/-- The hypotheses of `C104_leveling`: the tombstone has met its record in level 0. -/
example : ∃ s, Reach (T12 .leveling) 4 Conc.any s ∧ Pins s 1 2 ∧ (s.base.estr 2).length = 4 ∧
    (s.vs 2).levels.map (fun l => (l.cnt, l.recordCount)) = [(1, 2)] := by
  obtain ⟨s, h1, h2⟩ := reach_of (C := T12 .leveling) (n := 4) Conc.anyB (ok := Conc.any) (fun _ _ _ => trivial)
    (Conc.insLow 0 5 ++ Conc.insSched 0 6 ++ Conc.job1 2 2 ++ Conc.insLow 0 105 ++ Conc.insSched 0 7 ++ Conc.job2 2 2 ++ Conc.query 1)
    (fun s => decide ((s.base.thr[1]?).map Conc.Th.ep = some (some 2) ∧ (s.base.estr 2).length = 4 ∧
      (s.vs 2).levels.map (fun l => (l.cnt, l.recordCount)) = [(1, 2)])) (by decide)
  rw [decide_eq_true_eq] at h2
  obtain ⟨a1, a2⟩ := h2
  rw [Option.map_eq_some_iff] at a1
  exact ⟨s, h1, a1, a2⟩

/-- The hypotheses of `C104_bsm`: a record is inserted and erased within one block, which leaves a level 0 without records; the next block is put beside it. -/
example : ∃ s, Reach (T12 .bsm) 4 Conc.any s ∧ Pins s 1 2 ∧ (s.base.estr 2).length = 4 ∧
    (s.vs 2).levels.map (fun l => (l.cnt, l.recordCount)) = [(2, 2)] := by
  obtain ⟨s, h1, h2⟩ := reach_of (C := T12 .bsm) (n := 4) Conc.anyB (ok := Conc.any) (fun _ _ _ => trivial)
    (Conc.insLow 0 5 ++ Conc.insSched 0 105 ++ Conc.job1 2 2 ++ Conc.insLow 0 6 ++ Conc.insSched 0 7 ++ Conc.job2 2 2 ++ Conc.query 1)
    (fun s => decide ((s.base.thr[1]?).map Conc.Th.ep = some (some 2) ∧ (s.base.estr 2).length = 4 ∧
      (s.vs 2).levels.map (fun l => (l.cnt, l.recordCount)) = [(2, 2)])) (by decide)
  rw [decide_eq_true_eq] at h2
  obtain ⟨a1, a2⟩ := h2
  rw [Option.map_eq_some_iff] at a1
  exact ⟨s, h1, a1, a2⟩

end DE.Full
