import Verif.Properties.Linearizable
import Verif.Properties.FullTomb
import Verif.Properties.KnnTomb

/-!
C90: queries beside inserts, tombstone erases and reconstructions. An insert or erase takes effect when it claims its slot, a query when
it reads the tail of the buffer.
-/

namespace DE.Full
open Conc (Par Slot Ch)

section
variable {R : Type} [Inhabited R]

/-- What a thread holds if the appends below the tail of its view have finished: what is left of the operations claimed at one moment
since `s0`. -/
theorem heldNet [DecidableEq R] {C : Cfg R} {Q : Shard R → Prop} (hI : GoodNet C.impl Q) (hw : 0 < C.P.hwm) (hsf : 0 < C.sf) {n : Nat} {s0 s : St R}
    (h0 : Reach C n Conc.tidy s0) (hl : Later C Conc.tidy s0 s) {i : Nat} {u t : Conc.Th} {e x : Nat} (hu : s0.base.thr[i]? = some u) (hun : u.hd = none)
    (hi : Holds s.base i t e x) (hfin : ∀ p, p < t.tl → ∃ r, (p, r) ∈ s.base.done) (hL : C.L = .bsm → NoVoidOps C s.base.claimed) :
    ∃ s1, Later C Conc.tidy s0 s1 ∧ Later C Conc.tidy s1 s ∧
      Reduces (fun e => e.del = true) (((s1.base.claimed.map Prod.snd).map (fun a => (⟨C.ρ a, C.del a, false⟩ : Entry R)) : List (Entry R)) : Multiset (Entry R))
        (snapshot C s e x t.tl).entries ∧
      (snapshot C s e x t.tl).buf.view.gets = .ok (snapshot C s e x t.tl).buf.contents ∧
      ∀ sh ∈ (snapshot C s e x t.tl).str.visible, Q sh := by
  have h := hl.reach h0
  have hv := h.pinned (VNet.keeps hI hw hsf) hw hi.thr hi.ep
  obtain ⟨rs, h3, h4, h5⟩ := Conc.C60_exact hw h.base hi.thr hi.ep hi.hd hi.view hfin
  have hv := hv (fun hb => novoid_slots (hL hb) (fun p r hp => (h.base.hist hw).sub _ (h4 p r hp)) h5)
  obtain ⟨s1, a1, a2, rfl⟩ := at_moment hw h0 hl hu hun hi h3 h4
  refine ⟨s1, a1, a2, ?_, snapshot_gets hw (view_le hw h hi).2, hv.shards⟩
  have hn := snapshot_net (h := x) (tl := t.tl) hv
  rw [h5, slotEnts_zip, List.map_reverse, List.map_reverse, Multiset.coe_reverse] at hn
  exact hn

/-- A structure over shards that cancel nothing holds exactly the entries of `slots`. -/
structure VKeep (C : Cfg R) (v : Struct R) (slots : List Slot) : Prop where
  ok : SOk C.L C.P.hwm v
  shards : ∀ s ∈ v.visible, UntagShard s
  ents : sents v.visible = slotEnts C slots

theorem slotEnts_untagged (C : Cfg R) (l : List Slot) : ∀ e ∈ slotEnts C l, e.del = false := by
  intro e he
  obtain ⟨sl, -, rfl⟩ := List.mem_map.mp (Multiset.mem_coe.mp he)
  cases sl <;> rfl

theorem VKeep.keeps {C : Cfg R} (hI : C.impl.KeepOk) (hw : 0 < C.P.hwm) (hsf : 0 < C.sf) : Keeps True C (VKeep C) where
  init := ⟨emptyStruct_ok hsf, by intro s hs; simp [emptyStruct, Struct.visible] at hs, rfl⟩
  copy := fun _ _ h => by rw [h.ok.copy_eq]; exact h
  job := fun v v' sl acc hd h h0 hl hs hj => by
    have hwf := block_wf hd hw hl (hs trivial)
    have he := block_ents C acc.length hd (acc := acc) (by unfold Par.cap; omega)
    have hne : (buffer C acc.length (window C.P.cap hd acc) hd (hd + acc.length)).head < (buffer C acc.length (window C.P.cap hd acc) hd (hd + acc.length)).tail := by
      simp [buffer]; exact List.length_pos_iff.mpr h0
    have hlw : (buffer C acc.length (window C.P.cap hd acc) hd (hd + acc.length)).lwm =
      (buffer C acc.length (window C.P.cap hd acc) hd (hd + acc.length)).tail - (buffer C acc.length (window C.P.cap hd acc) hd (hd + acc.length)).head := by
      simp [buffer]
    have hok : SOk C.L (buffer C acc.length (window C.P.cap hd acc) hd (hd + acc.length)).hwm v := h.ok
    have hj : Full.job C.L C.impl (buffer C acc.length (window C.P.cap hd acc) hd (hd + acc.length)).hwm v
      (buffer C acc.length (window C.P.cap hd acc) hd (hd + acc.length)).view = .ok v' := hj
    have hcap : (buffer C acc.length (window C.P.cap hd acc) hd (hd + acc.length)).hwm = C.P.hwm := rfl
    generalize buffer C acc.length (window C.P.cap hd acc) hd (hd + acc.length) = b at *
    have hg : (⟨C.L, false, C.impl, b, v⟩ : Index R).GInv := hok.ginv hwf (by omega) (by omega)
    have hat : b.atLwm = true := by simp [Buffer.atLwm, Buffer.count, hlw]
    have hd' : (⟨C.L, false, C.impl, b, v⟩ : Index R).flush = .ok ⟨C.L, false, C.impl, b.emptied, v'⟩ := by
      unfold Full.job at hj
      simp only [bind_ok] at hj
      obtain ⟨ts, h1, s1, h2, h3⟩ := hj
      have h4 : b.advanceHead b.tail = .ok b.emptied := Buffer.advanceHead_tail hne
      unfold Index.flush
      simp only [hok.copy_eq, h1, h2, bind, Except.bind]
      rw [show Struct.flushBuffer C.L C.impl s1 b.view = .ok v' from h3, show b.view.tail = b.tail from rfl]
      dsimp only
      rw [h4]
    have hbuf : ∀ e ∈ DE.ents b.contents, e.del = false := by rw [he]; exact slotEnts_untagged C acc
    obtain ⟨g1, g2, g3, -, g5, g6, g7, -⟩ := gflush_ok hg hI.clean.conserving hat hd'
    have hrel := gflush_rel keepsAll_rel hg hI.keeps hat hd'
    have hsh : ∀ s ∈ v'.visible, UntagShard s := by
      intro s hsm
      refine Derived.all (Q := UntagShard) h.shards (untag_merge hI) ?_ (g7 s hsm)
      intro s0 hs0
      obtain ⟨s1, hs1, hq1⟩ := untag_build hI hwf (atLwm_ne (by omega) hat) hbuf
      have hs0 : C.impl.build b.view = .ok s0 := hs0
      rw [hs0] at hs1; cases hs1; exact hq1
    refine ⟨?_, hsh, ?_⟩
    · rcases g1 with g1 | ⟨-, g1⟩
      · have := SOk.of_ginv g1; rw [← hcap]; exact this
      · exact absurd (UntagInv.l0 (d := ⟨C.L, false, C.impl, b.emptied, v'⟩) hsh) g1
    · have hE : (⟨C.L, false, C.impl, b, v⟩ : Index R).entries = slotEnts C acc + slotEnts C sl := by
        rw [← he, ← h.ents]; rfl
      have hE' : (⟨C.L, false, C.impl, b.emptied, v'⟩ : Index R).entries = sents v'.visible := by
        show DE.ents b.emptied.contents + sents v'.visible = _
        rw [Buffer.emptied_contents, ents_nil, zero_add]
      rw [hE, hE'] at hrel
      rw [hrel (fun x hx => by
        rcases Multiset.mem_add.mp hx with hx | hx
        · exact slotEnts_untagged C acc x hx
        · exact slotEnts_untagged C sl x hx), slotEnts_append, add_comm]

/-- What a thread holds over shards that cancel nothing: one entry for each operation claimed at one moment since `s0`. -/
theorem heldKeep {C : Cfg R} (hI : C.impl.KeepOk) (hw : 0 < C.P.hwm) (hsf : 0 < C.sf) {n : Nat} {s0 s : St R}
    (h0 : Reach C n Conc.tidy s0) (hl : Later C Conc.tidy s0 s) {i : Nat} {u t : Conc.Th} {e x : Nat} (hu : s0.base.thr[i]? = some u) (hun : u.hd = none)
    (hi : Holds s.base i t e x) (hfin : ∀ p, p < t.tl → ∃ r, (p, r) ∈ s.base.done) :
    ∃ s1, Later C Conc.tidy s0 s1 ∧ Later C Conc.tidy s1 s ∧ s1.base.claimed.length = t.tl ∧
      (snapshot C s e x t.tl).entries =
        (((s1.base.claimed.map Prod.snd).map (fun a => (⟨C.ρ a, C.del a, false⟩ : Entry R)) : List (Entry R)) : Multiset (Entry R)) ∧
      (snapshot C s e x t.tl).buf.view.gets = .ok (snapshot C s e x t.tl).buf.contents := by
  have h := hl.reach h0
  have hv := h.pinned (VKeep.keeps hI hw hsf) hw hi.thr hi.ep
  obtain ⟨rs, h3, h4, h5⟩ := Conc.C60_exact hw h.base hi.thr hi.ep hi.hd hi.view hfin
  obtain ⟨s1, a1, a2, rfl⟩ := at_moment hw h0 hl hu hun hi h3 h4
  refine ⟨s1, a1, a2, by simpa using h3, ?_, snapshot_gets hw (view_le hw h hi).2⟩
  have h2 : (snapshot C s e x t.tl).entries = ents (snapshot C s e x t.tl).buf.contents + sents (s.vs e).visible := rfl
  have h6 : slotEnts C (Conc.snapshot C.P s.base e x t.tl) = (snapshot C s e x t.tl).entries := by
    rw [h2, snapshot_buf, hv.ents, add_comm, ← slotEnts_append]
    rfl
  rw [← h6, h5, slotEnts_zip, List.map_reverse, List.map_reverse, Multiset.coe_reverse]

end

section
variable {R K : Type} [LinearOrder R] [LinearOrder K] [HasKey R K] [Inhabited R]

/-- C90, range queries: if flushes copy only finished slots and the appends below the tail of the view have finished, there is one moment
between the call (`s0`: the caller has no view yet) and the end of the query such that, with `insN` and `delN` of the operations claimed
at that moment, only in-range records are returned, each at most as often as inserted and at least as often as inserted minus erased. On BSM: if no
stretch of at most `hwm` consecutive operations cancels out completely. Missing: exactly inserted minus erased (`C90_false`), appends in
flight (`C69_false`). -/
theorem C90_range_partial {P : Par} {L : Layout} {pq pq' : PQ R} (hpq : pq.ByRec) {lb : LB R K} (hlb : lb.Sound) {sf n : Nat} {ρ : Nat → R}
    {del : Nat → Bool} (hw : 0 < P.hwm) (hsf : 1 ≤ sf) {s0 s : St R} (h0 : Reach ⟨P, L, sortedImpl pq lb, sf, ρ, del⟩ n Conc.tidy s0)
    (hl : Later ⟨P, L, sortedImpl pq lb, sf, ρ, del⟩ Conc.tidy s0 s) {i : Nat} {u t : Conc.Th} {e x : Nat}
    (hu : s0.base.thr[i]? = some u) (hun : u.hd = none) (hi : Holds s.base i t e x) (hfin : ∀ p, p < t.tl → ∃ r, (p, r) ∈ s.base.done)
    (hL : L = .bsm → NoVoidOps ⟨P, L, sortedImpl pq lb, sf, ρ, del⟩ s.base.claimed)
    {lo hi' : K} {res : List R} (hres : (snapshot ⟨P, L, sortedImpl pq lb, sf, ρ, del⟩ s e x t.tl).rangeQuery pq' lb lo hi' = .ok res) :
    ∃ s1, Later ⟨P, L, sortedImpl pq lb, sf, ρ, del⟩ Conc.tidy s0 s1 ∧ Later ⟨P, L, sortedImpl pq lb, sf, ρ, del⟩ Conc.tidy s1 s ∧
      (∀ r ∈ res, lo ≤ key r ∧ key r ≤ hi') ∧
      ∀ r, lo ≤ key r ∧ key r ≤ hi' →
        insN ⟨P, L, sortedImpl pq lb, sf, ρ, del⟩ (s1.base.claimed.map Prod.snd) r ≤
          res.count r + delN ⟨P, L, sortedImpl pq lb, sf, ρ, del⟩ (s1.base.claimed.map Prod.snd) r ∧
        res.count r ≤ insN ⟨P, L, sortedImpl pq lb, sf, ρ, del⟩ (s1.base.claimed.map Prod.snd) r := by
  obtain ⟨s1, a1, a2, hn, hg, hs⟩ := heldNet (C := ⟨P, L, sortedImpl pq lb, sf, ρ, del⟩) (sorted_net hpq lb) hw hsf h0 hl hu hun hi hfin hL
  refine ⟨s1, a1, a2, ?_⟩
  obtain ⟨m, rfl, hk, hr, -⟩ := rangeQuery_gets hlb hg hs hres
  refine ⟨?_, ?_⟩
  · intro r hr'
    obtain ⟨w, hw', rfl⟩ := List.mem_map.mp hr'
    have hin := Multiset.mem_of_le hr.le (mem_ents.mpr ⟨w, hw', rfl⟩)
    rw [Multiset.mem_filter] at hin
    exact hin.2
  · intro r hrr
    obtain ⟨c1, c2⟩ := count_range hk hr hrr
    have hnet := hn.net r (by
      intro y hy
      obtain ⟨a, -, rfl⟩ := List.mem_map.mp (Multiset.mem_coe.mp hy)
      simp)
    have hle := hn.liveCount_le r
    have e1 := liveCount_slots ⟨P, L, sortedImpl pq lb, sf, ρ, del⟩ (s1.base.claimed.map Prod.snd) r
    have e2 := tombCount_slots ⟨P, L, sortedImpl pq lb, sf, ρ, del⟩ (s1.base.claimed.map Prod.snd) r
    rw [e1, e2] at hnet
    rw [e1] at hle
    omega

/-- How many of the operations `rs` are inserts (`b = false`) or erases (`b = true`) of records with key in the range. -/
def opsIn (C : Cfg R) (b : Bool) (rs : List Nat) (lo hi : K) : Nat :=
  rs.countP (fun a => decide (C.del a = b ∧ lo ≤ key (C.ρ a) ∧ key (C.ρ a) ≤ hi))

omit [Inhabited R] in
/-- What cancelling pairs does to the number of records in a range. -/
theorem live_range {a b : Multiset (Entry R)} (h : Reduces (fun e => e.del = true) a b) (hd : ∀ x ∈ a, x.del = false) (lo hi : K) :
    b.countP (liveInE lo hi) ≤ a.countP (liveInE lo hi) ∧
    a.countP (liveInE lo hi) ≤ b.countP (liveInE lo hi) + a.countP (fun e => e.tomb = true ∧ inRangeE lo hi e) := by
  refine ⟨Multiset.countP_le_of_le _ h.le, ?_⟩
  obtain ⟨cl, ct, dr, e, hm, hc1, hc2, hc3⟩ := h
  have hdr : dr = 0 := by
    rw [Multiset.eq_zero_iff_forall_notMem]
    intro y hy
    have h1 := hd y (by rw [e]; simp [hy])
    have h2 : y.del = true := hc3 y hy
    rw [h1] at h2; cases h2
  have h1 : ct.countP (liveInE lo hi) = 0 := by
    rw [Multiset.countP_eq_zero]
    rintro y hy ⟨-, -, h⟩
    rw [hc2 y hy] at h; cases h
  have h2 : cl.countP (liveInE lo hi) ≤ ct.countP (fun e => e.tomb = true ∧ inRangeE lo hi e) := by
    have h3 : cl.countP (liveInE lo hi) ≤ (cl.map Entry.record).countP (fun r => lo ≤ key r ∧ key r ≤ hi) := by
      rw [Multiset.countP_map, ← Multiset.countP_eq_card_filter]
      clear * -
      induction cl using Multiset.induction_on with
      | empty => simp
      | cons x xs ih =>
        rw [Multiset.countP_cons, Multiset.countP_cons]
        have : (if liveInE lo hi x then 1 else 0) ≤ (if lo ≤ key x.record ∧ key x.record ≤ hi then 1 else 0) := by
          by_cases hx : liveInE lo hi x
          · rw [if_pos hx, if_pos (show lo ≤ key x.record ∧ key x.record ≤ hi from hx.1)]
          · rw [if_neg hx]; omega
        omega
    refine h3.trans ?_
    rw [hm, Multiset.countP_map, ← Multiset.countP_eq_card_filter]
    apply le_of_eq
    apply Multiset.countP_congr rfl
    intro y hy
    simp only [hc2 y hy, true_and, inRangeE]
  have h3 : ct.countP (fun e => e.tomb = true ∧ inRangeE lo hi e) ≤ a.countP (fun e => e.tomb = true ∧ inRangeE lo hi e) := by
    apply Multiset.countP_le_of_le
    rw [e]
    exact (Multiset.le_add_left _ _).trans (Multiset.le_add_right _ _)
  conv_lhs => rw [e]
  rw [Multiset.countP_add, Multiset.countP_add, Multiset.countP_add, hdr, h1]
  simp only [Multiset.countP_zero]
  omega

/-- C90, range counts: the count lies between the inserts minus the erases and the inserts, in range, of one moment during the query. -/
theorem C90_count_partial {P : Par} {L : Layout} {pq : PQ R} (hpq : pq.ByRec) {lb : LB R K} (hlb : lb.Sound) {sf n : Nat} {ρ : Nat → R}
    {del : Nat → Bool} (hw : 0 < P.hwm) (hsf : 1 ≤ sf) {s0 s : St R} (h0 : Reach ⟨P, L, sortedImpl pq lb, sf, ρ, del⟩ n Conc.tidy s0)
    (hl : Later ⟨P, L, sortedImpl pq lb, sf, ρ, del⟩ Conc.tidy s0 s) {i : Nat} {u t : Conc.Th} {e x : Nat}
    (hu : s0.base.thr[i]? = some u) (hun : u.hd = none) (hi : Holds s.base i t e x) (hfin : ∀ p, p < t.tl → ∃ r, (p, r) ∈ s.base.done)
    (hL : L = .bsm → NoVoidOps ⟨P, L, sortedImpl pq lb, sf, ρ, del⟩ s.base.claimed)
    {lo hi' : K} {m : Nat} (hm : (snapshot ⟨P, L, sortedImpl pq lb, sf, ρ, del⟩ s e x t.tl).rangeCount lb lo hi' = .ok m) :
    ∃ s1, Later ⟨P, L, sortedImpl pq lb, sf, ρ, del⟩ Conc.tidy s0 s1 ∧ Later ⟨P, L, sortedImpl pq lb, sf, ρ, del⟩ Conc.tidy s1 s ∧
      opsIn ⟨P, L, sortedImpl pq lb, sf, ρ, del⟩ false (s1.base.claimed.map Prod.snd) lo hi' ≤
        m + opsIn ⟨P, L, sortedImpl pq lb, sf, ρ, del⟩ true (s1.base.claimed.map Prod.snd) lo hi' ∧
      m ≤ opsIn ⟨P, L, sortedImpl pq lb, sf, ρ, del⟩ false (s1.base.claimed.map Prod.snd) lo hi' := by
  obtain ⟨s1, a1, a2, hn, hg, hs⟩ := heldNet (C := ⟨P, L, sortedImpl pq lb, sf, ρ, del⟩) (sorted_net hpq lb) hw hsf h0 hl hu hun hi hfin hL
  refine ⟨s1, a1, a2, ?_⟩
  rw [rangeCount_gets hlb hg hs hm]
  obtain ⟨c1, c2⟩ := live_range hn (by
    intro y hy
    obtain ⟨a, -, rfl⟩ := List.mem_map.mp (Multiset.mem_coe.mp hy)
    rfl) lo hi'
  have e1 : ∀ rs : List Nat, ((rs.map (fun a => (⟨ρ a, del a, false⟩ : Entry R)) : List (Entry R)) : Multiset (Entry R)).countP (liveInE lo hi') =
      opsIn ⟨P, L, sortedImpl pq lb, sf, ρ, del⟩ false rs lo hi' := by
    intro rs
    unfold opsIn
    rw [Multiset.coe_countP, List.countP_map]
    apply List.countP_congr
    intro a _
    simp only [Function.comp_apply, decide_eq_true_eq, liveInE, inRangeE]
    tauto
  have e2 : ∀ rs : List Nat, ((rs.map (fun a => (⟨ρ a, del a, false⟩ : Entry R)) : List (Entry R)) : Multiset (Entry R)).countP
      (fun e => e.tomb = true ∧ inRangeE lo hi' e) = opsIn ⟨P, L, sortedImpl pq lb, sf, ρ, del⟩ true rs lo hi' := by
    intro rs
    unfold opsIn
    rw [Multiset.coe_countP, List.countP_map]
    apply List.countP_congr
    intro a _
    simp only [Function.comp_apply, decide_eq_true_eq, inRangeE]
    exact decide_eq_true_iff
  rw [e1] at c1 c2
  rw [e2] at c2
  exact ⟨c2, c1⟩

/-- C90, point lookups: always defined, and at one moment during the query: if no operation names the key, nothing is returned; if all the operations
naming the key are inserts of `r`, `r` is returned; in any case only a record inserted with that key is. -/
theorem C90_lookup_partial {P : Par} {L : Layout} {pq : PQ R} (hpq : pq.ByRec) {lb : LB R K} {f : Shard R → K → Res (Option Nat)} (hf : ExactKeyLookup f)
    {sf n : Nat} {ρ : Nat → R} {del : Nat → Bool} (hw : 0 < P.hwm) (hsf : 1 ≤ sf) {s0 s : St R} (h0 : Reach ⟨P, L, sortedImpl pq lb, sf, ρ, del⟩ n Conc.tidy s0)
    (hl : Later ⟨P, L, sortedImpl pq lb, sf, ρ, del⟩ Conc.tidy s0 s) {i : Nat} {u t : Conc.Th} {e x : Nat}
    (hu : s0.base.thr[i]? = some u) (hun : u.hd = none) (hi : Holds s.base i t e x) (hfin : ∀ p, p < t.tl → ∃ r, (p, r) ∈ s.base.done)
    (hL : L = .bsm → NoVoidOps ⟨P, L, sortedImpl pq lb, sf, ρ, del⟩ s.base.claimed) (k : K) :
    ∃ s1 res, Later ⟨P, L, sortedImpl pq lb, sf, ρ, del⟩ Conc.tidy s0 s1 ∧ Later ⟨P, L, sortedImpl pq lb, sf, ρ, del⟩ Conc.tidy s1 s ∧
      (snapshot ⟨P, L, sortedImpl pq lb, sf, ρ, del⟩ s e x t.tl).pointLookup f k = .ok res ∧
      ((∀ y ∈ s1.base.claimed, key (ρ y.2) ≠ k) → res = []) ∧
      (∀ r, key r = k → (∀ y ∈ s1.base.claimed, key (ρ y.2) = k → del y.2 = false ∧ ρ y.2 = r) → (∃ y ∈ s1.base.claimed, key (ρ y.2) = k) → res = [r]) ∧
      (res = [] ∨ ∃ y ∈ s1.base.claimed, del y.2 = false ∧ key (ρ y.2) = k ∧ res = [ρ y.2]) := by
  obtain ⟨s1, a1, a2, hn, hg, -⟩ := heldNet (C := ⟨P, L, sortedImpl pq lb, sf, ρ, del⟩) (sorted_net hpq lb) hw hsf h0 hl hu hun hi hfin hL
  generalize hD : snapshot ⟨P, L, sortedImpl pq lb, sf, ρ, del⟩ s e x t.tl = d at hn hg
  have hmem : ∀ e ∈ d.entries, ∃ y ∈ s1.base.claimed, e = ⟨ρ y.2, del y.2, false⟩ := by
    intro e he
    obtain ⟨a, ha, rfl⟩ := List.mem_map.mp (Multiset.mem_coe.mp (Multiset.mem_of_le hn.le he))
    obtain ⟨y, hy, rfl⟩ := List.mem_map.mp ha
    exact ⟨y, hy, rfl⟩
  rcases pointLookup_gets hf hg k with ⟨e, he, hk, hq⟩ | ⟨hno, hq⟩
  · obtain ⟨y, hy, rfl⟩ := hmem e he
    refine ⟨s1, _, a1, a2, hq, ?_, ?_, ?_⟩
    · intro h; exact absurd hk (h y hy)
    · intro r _ hall _
      obtain ⟨h1, h2⟩ := hall y hy hk
      simp [answer, h1, h2]
    · cases hdy : del y.2 with
      | true => left; simp [answer]
      | false => right; exact ⟨y, hy, hdy, hk, by simp [answer]⟩
  · refine ⟨s1, _, a1, a2, hq, fun _ => rfl, ?_, Or.inl rfl⟩
    rintro r hr hall ⟨y, hy, hyk⟩
    exfalso
    obtain ⟨hdy, hry⟩ := hall y hy hyk
    have hnet := hn.net r (by
      intro z hz
      obtain ⟨a, -, rfl⟩ := List.mem_map.mp (Multiset.mem_coe.mp hz)
      simp)
    have z1 : liveCount r d.entries = 0 := by
      unfold liveCount
      rw [Multiset.countP_eq_zero]
      rintro z hz ⟨h1, -⟩
      exact hno z hz (by rw [h1]; exact hr)
    have z2 : tombCount r (((s1.base.claimed.map Prod.snd).map (fun a => (⟨ρ a, del a, false⟩ : Entry R)) : List (Entry R)) : Multiset (Entry R)) = 0 := by
      unfold tombCount
      rw [Multiset.countP_eq_zero]
      rintro z hz ⟨h1, h2⟩
      obtain ⟨a, ha, rfl⟩ := List.mem_map.mp (Multiset.mem_coe.mp hz)
      obtain ⟨y', hy', rfl⟩ := List.mem_map.mp ha
      have h1 : ρ y'.2 = r := h1
      have h2 : del y'.2 = true := h2
      rw [(hall y' hy' (by rw [h1]; exact hr)).1] at h2
      cases h2
    have z3 : 0 < liveCount r (((s1.base.claimed.map Prod.snd).map (fun a => (⟨ρ a, del a, false⟩ : Entry R)) : List (Entry R)) : Multiset (Entry R)) := by
      unfold liveCount
      rw [Multiset.countP_pos]
      refine ⟨⟨ρ y.2, del y.2, false⟩, Multiset.mem_coe.mpr (List.mem_map.mpr ⟨y.2, List.mem_map_of_mem hy, rfl⟩), hry, hdy⟩
    have hnet : liveCount r (((s1.base.claimed.map Prod.snd).map (fun a => (⟨ρ a, del a, false⟩ : Entry R)) : List (Entry R)) : Multiset (Entry R)) + tombCount r d.entries =
      liveCount r d.entries + tombCount r (((s1.base.claimed.map Prod.snd).map (fun a => (⟨ρ a, del a, false⟩ : Entry R)) : List (Entry R)) : Multiset (Entry R)) := by
      have := hnet; omega
    omega

/-- Why not exactly inserted minus erased: record 5 is inserted once and erased once, both calls return before the query begins, nothing else
happens, and the query returns record 5. No moment during the query explains it. -/
theorem C90_false : ∃ s0 s, Reach (T12 .tiering) 4 Conc.tidy s0 ∧ Later (T12 .tiering) Conc.tidy s0 s ∧ s0.base.done = [(1, 105), (0, 5)] ∧
    (∃ u, s0.base.thr[1]? = some u ∧ u.hd = none) ∧ Holds s.base 1 ⟨.run, some 0, some 0, 2⟩ 0 0 ∧ (∀ p, p < 2 → ∃ r, (p, r) ∈ s.base.done) ∧
    ∃ res, (snapshot (T12 .tiering) s 0 0 2).rangeQuery PQ.std LB.scan 0 50 = .ok res ∧
      ∀ s1, Later (T12 .tiering) Conc.tidy s0 s1 → Later (T12 .tiering) Conc.tidy s1 s →
        res.count ⟨5, 5⟩ ≠ insN (T12 .tiering) (s1.base.claimed.map Prod.snd) ⟨5, 5⟩ - delN (T12 .tiering) (s1.base.claimed.map Prod.snd) ⟨5, 5⟩ := by
  obtain ⟨s0, s, h1, h2, h3⟩ := later_of (C := T12 .tiering) (n := 4) Conc.tidyB (ok := Conc.tidy) (fun _ _ => Conc.tidyB_sound)
    (Conc.insLow 0 5 ++ Conc.insSched 0 105) (Conc.query 1)
    (fun s0 s => decide (s0.base.done = [(1, 105), (0, 5)] ∧ (s0.base.thr[1]?).any (fun u : Conc.Th => decide (u.hd = none)) = true ∧
      s.base.thr[1]? = some (⟨.run, some 0, some 0, 2⟩ : Conc.Th) ∧ s0.base.claimed = [(1, 105), (0, 5)] ∧ s.base.claimed = [(1, 105), (0, 5)] ∧
      s.base.done = [(1, 105), (0, 5)] ∧
      (snapshot (T12 .tiering) s 0 0 2).rangeQuery PQ.std LB.scan 0 50 = .ok [⟨5, 5⟩])) (by decide)
  rw [decide_eq_true_eq] at h3
  obtain ⟨a1, a2, a3, a4, a5, a6, a7⟩ := h3
  rw [Option.any_eq_true] at a2
  obtain ⟨u, hu, hun⟩ := a2
  refine ⟨s0, s, h1, h2, a1, ⟨u, hu, of_decide_eq_true hun⟩, ⟨a3, rfl, rfl, by simp⟩, ?_, _, a7, ?_⟩
  · intro p hp
    match p, hp with
    | 0, _ => exact ⟨_, by rw [a6]; simp; rfl⟩
    | 1, _ => exact ⟨_, by rw [a6]; simp; rfl⟩
  · intro s1 l1 l2
    have c1 := l1.claimed_sub
    have c2 := l2.claimed_sub
    have : s1.base.claimed = [(1, 105), (0, 5)] := by
      rw [a4] at c1
      rw [a5] at c2
      exact c2.antisymm c1
    rw [this]
    decide

/-- The hypotheses of `C90_range_partial`, `C90_count_partial` and `C90_lookup_partial`: a flush and an erase happen between the call and the view, an
insert after it. -/
example : ∃ s0 s, Reach (T12 .leveling) 4 Conc.tidy s0 ∧ Later (T12 .leveling) Conc.tidy s0 s ∧ s0.base.claimed.length = 2 ∧
    (∃ u, s0.base.thr[1]? = some u ∧ u.hd = none) ∧ Holds s.base 1 ⟨.run, some 1, some 2, 3⟩ 1 2 ∧ (∀ p, p < 3 → ∃ r, (p, r) ∈ s.base.done) ∧
    s.base.claimed = [(3, 13), (2, 111), (1, 10), (0, 11)] ∧
    (snapshot (T12 .leveling) s 1 2 3).rangeQuery PQ.std LB.scan 5 20 = .ok [⟨10, 10⟩] ∧
    (snapshot (T12 .leveling) s 1 2 3).rangeCount LB.scan 5 20 = .ok 2 := by
  obtain ⟨s0, s, h1, h2, h3⟩ := later_of (C := T12 .leveling) (n := 4) Conc.tidyB (ok := Conc.tidy) (fun _ _ => Conc.tidyB_sound)
    (Conc.insLow 0 11 ++ Conc.insSched 0 10 ++ [(1, .query)]) (Conc.job1 2 2 ++ Conc.insLow 0 111 ++ Conc.gos 1 3 ++ [(1, .getBuffer)] ++ Conc.gos 1 5 ++ Conc.insSched 0 13)
    (fun s0 s => decide (s0.base.claimed.length = 2 ∧ (s0.base.thr[1]?).any (fun u : Conc.Th => decide (u.hd = none)) = true ∧
      s.base.thr[1]? = some (⟨.run, some 1, some 2, 3⟩ : Conc.Th) ∧ (2, 111) ∈ s.base.done ∧ (1, 10) ∈ s.base.done ∧ (0, 11) ∈ s.base.done ∧
      s.base.claimed = [(3, 13), (2, 111), (1, 10), (0, 11)] ∧
      (snapshot (T12 .leveling) s 1 2 3).rangeQuery PQ.std LB.scan 5 20 = .ok [⟨10, 10⟩] ∧
      (snapshot (T12 .leveling) s 1 2 3).rangeCount LB.scan 5 20 = .ok 2)) (by decide)
  rw [decide_eq_true_eq] at h3
  obtain ⟨a1, a2, a3, a4, a5, a6, a7⟩ := h3
  rw [Option.any_eq_true] at a2
  obtain ⟨u, hu, hun⟩ := a2
  refine ⟨s0, s, h1, h2, a1, ⟨u, hu, of_decide_eq_true hun⟩, ⟨a3, rfl, rfl, by simp⟩, ?_, a7⟩
  intro p hp
  match p, hp with
  | 0, _ => exact ⟨_, a6⟩
  | 1, _ => exact ⟨_, a5⟩
  | 2, _ => exact ⟨_, a4⟩

end

section
variable {R 𝔽 : Type} [Inhabited R] [DecidableEq R] [LinearOrder 𝔽] [AddCommGroup 𝔽] [IsOrderedAddMonoid 𝔽]

/-- C90, k-NN queries, all layouts: the query is defined and returns the `k` nearest, farthest first, of all records *named* by the inserts and
erases claimed at one moment during the query. Missing: erases, which add a candidate (`C87_false`). -/
theorem C90_knn_partial {q : MaxQ R 𝔽} (hq : q.Ok) {dist : R → R → 𝔽} (hd : Metric dist) {leafSz : Nat} {g0 : Rng} {P : Par} {L : Layout}
    {sf n : Nat} {ρ : Nat → R} {del : Nat → Bool} (hw : 0 < P.hwm) (hsf : 1 ≤ sf) {s0 s : St R} (h0 : Reach ⟨P, L, vpImpl dist leafSz g0, sf, ρ, del⟩ n Conc.tidy s0)
    (hl : Later ⟨P, L, vpImpl dist leafSz g0, sf, ρ, del⟩ Conc.tidy s0 s) {i : Nat} {u t : Conc.Th} {e x : Nat}
    (hu : s0.base.thr[i]? = some u) (hun : u.hd = none) (hi : Holds s.base i t e x) (hfin : ∀ p, p < t.tl → ∃ r, (p, r) ∈ s.base.done)
    (g : Shard R → Rng) (hg : ∀ sh, t.tl ≤ (g sh).max) (point : R) {k : Nat} (hk : 1 ≤ k) :
    ∃ s1, Later ⟨P, L, vpImpl dist leafSz g0, sf, ρ, del⟩ Conc.tidy s0 s1 ∧ Later ⟨P, L, vpImpl dist leafSz g0, sf, ρ, del⟩ Conc.tidy s1 s ∧
      ∃ res, (snapshot ⟨P, L, vpImpl dist leafSz g0, sf, ρ, del⟩ s e x t.tl).knn q dist
          (fun sh => VP.tree dist leafSz (g sh) sh.data) point k = .ok res ∧
        KAnswer k (fun y => dist y point) (s1.base.claimed.map (fun y => ρ y.2)) res := by
  obtain ⟨s1, a1, a2, h1, h3, h4⟩ := heldKeep (C := ⟨P, L, vpImpl dist leafSz g0, sf, ρ, del⟩) (vpImpl_keepOk dist leafSz g0)
    hw hsf h0 hl hu hun hi hfin
  refine ⟨s1, a1, a2, ?_⟩
  generalize hD : snapshot ⟨P, L, vpImpl dist leafSz g0, sf, ρ, del⟩ s e x t.tl = d at h3 h4
  have hp : d.knnData.Perm (s1.base.claimed.map (fun y => ρ y.2)) := by
    rw [← Multiset.coe_eq_coe, knnData_untagged (by
      rw [h3]
      intro y hy
      obtain ⟨a, -, rfl⟩ := List.mem_map.mp (Multiset.mem_coe.mp hy)
      rfl), h3]
    simp only [Multiset.map_coe, List.map_map]
    congr 1
  have hsz : ∀ sh ∈ d.str.visible, sh.data.length ≤ (g sh).max := by
    intro sh hs
    have h6 : sh.data.length ≤ d.knnData.length := by
      unfold Index.knnData
      rw [List.length_append, List.length_flatten]
      have : (sh.data.map Wrapped.record).length ∈ (d.str.visible.map (fun s => s.data.map Wrapped.record)).map List.length :=
        List.mem_map_of_mem (List.mem_map_of_mem hs)
      have := le_natSum this
      rw [List.length_map] at this
      omega
    have := hp.length_eq
    rw [List.length_map, h1] at this
    have := hg sh
    omega
  obtain ⟨res, h7, h8⟩ := (knn_gets hq (safe := True) hd.symm hd.tri hk h4 (fun _ => hsz)).safe trivial
  exact ⟨res, h7, h8.1.perm hp (List.Perm.refl _), h8.2⟩

end

/-- VPTree shards with erases. -/
def TV (L : Layout) : Cfg Rec := ⟨Conc.P12, L, vpImpl keyDist 8 (tapeRng (5 * ·)), 2, fun a => ⟨a % 100, a % 100⟩, fun a => decide (100 ≤ a)⟩

/-- The hypotheses of `C90_knn_partial`: record 12 is erased without having been inserted, and returned. -/
example : ∃ s0 s, Reach (TV .tiering) 4 Conc.tidy s0 ∧ Later (TV .tiering) Conc.tidy s0 s ∧ s0.base.claimed.length = 2 ∧
    (∃ u, s0.base.thr[1]? = some u ∧ u.hd = none) ∧ Holds s.base 1 ⟨.run, some 1, some 2, 3⟩ 1 2 ∧ (∀ p, p < 3 → ∃ r, (p, r) ∈ s.base.done) ∧
    3 ≤ (tapeRng (5 * ·)).max ∧
    (snapshot (TV .tiering) s 1 2 3).knn MaxQ.std keyDist (fun s => VP.tree keyDist 8 (tapeRng (5 * ·)) s.data) ⟨13, 0⟩ 2 = .ok [⟨11, 11⟩, ⟨12, 12⟩] := by
  obtain ⟨s0, s, h1, h2, h3⟩ := later_of (C := TV .tiering) (n := 4) Conc.tidyB (ok := Conc.tidy) (fun _ _ => Conc.tidyB_sound)
    (Conc.insLow 0 11 ++ Conc.insSched 0 10 ++ [(1, .query)]) (Conc.job1 2 2 ++ Conc.insLow 0 112 ++ Conc.gos 1 3 ++ [(1, .getBuffer)] ++ Conc.gos 1 5 ++ Conc.insSched 0 13)
    (fun s0 s => decide (s0.base.claimed.length = 2 ∧ (s0.base.thr[1]?).any (fun u : Conc.Th => decide (u.hd = none)) = true ∧
      s.base.thr[1]? = some (⟨.run, some 1, some 2, 3⟩ : Conc.Th) ∧ (2, 112) ∈ s.base.done ∧ (1, 10) ∈ s.base.done ∧ (0, 11) ∈ s.base.done ∧
      3 ≤ (tapeRng (5 * ·)).max ∧
      (snapshot (TV .tiering) s 1 2 3).knn MaxQ.std keyDist (fun s => VP.tree keyDist 8 (tapeRng (5 * ·)) s.data) ⟨13, 0⟩ 2 = .ok [⟨11, 11⟩, ⟨12, 12⟩])) (by decide)
  rw [decide_eq_true_eq] at h3
  obtain ⟨a1, a2, a3, a4, a5, a6, a7⟩ := h3
  rw [Option.any_eq_true] at a2
  obtain ⟨u, hu, hun⟩ := a2
  refine ⟨s0, s, h1, h2, a1, ⟨u, hu, of_decide_eq_true hun⟩, ⟨a3, rfl, rfl, by simp⟩, ?_, a7⟩
  intro p hp
  match p, hp with
  | 0, _ => exact ⟨_, a6⟩
  | 1, _ => exact ⟨_, a5⟩
  | 2, _ => exact ⟨_, a4⟩

end DE.Full
