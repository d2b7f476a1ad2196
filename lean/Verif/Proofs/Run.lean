import Verif.Proofs.Index

/-!
Histories: inductions over arbitrary lists of client operations, and the sorted shards' contracts.
-/

namespace DE
variable {R : Type}

/-! ### The buffer alone, for every layout and shard class -/

/-- Buffer invariant of the serial index. -/
structure BufInv (b : Buffer R) : Prop where
  wf : b.WF
  lwm : 0 < b.lwm
  cnt : b.tail - b.head ≤ b.lwm

theorem BufInv.emptied {b : Buffer R} (h : BufInv b) : BufInv b.emptied :=
  ⟨Buffer.emptied_wf h.wf, h.lwm, by simp [Buffer.emptied]⟩

theorem flush_buf {d d' : Index R} (h : BufInv d.buf) (hat : d.buf.atLwm = true) (hf : d.flush = .ok d') :
    d'.buf = d.buf.emptied ∧ d'.L = d.L ∧ d'.tagging = d.tagging ∧ d'.impl = d.impl := by
  have hcnt : d.buf.lwm ≤ d.buf.tail - d.buf.head := by simpa [Buffer.atLwm, Buffer.count] using hat
  unfold Index.flush at hf
  simp only [bind_ok] at hf
  obtain ⟨ts, -, s1, -, s2, -, b, hb, he⟩ := hf
  rw [show d.buf.view.tail = d.buf.tail from rfl, Buffer.advanceHead_tail (by have := h.lwm; omega)] at hb
  cases he; cases hb
  exact ⟨rfl, rfl, rfl, rfl⟩

theorem BufInv.append {b : Buffer R} (h : BufInv b) (hlt : b.tail - b.head < b.lwm) (r : R) (ts : Bool) :
    (b.append r ts).2 = true ∧ BufInv (b.append r ts).1 := by
  have hh : b.tail - b.head < b.hwm := lt_of_lt_of_le hlt h.wf.lwm
  obtain ⟨a1, a2, -⟩ := Buffer.append_ok h.wf (r := r) (ts := ts) hh
  refine ⟨a1, a2, ?_, ?_⟩
  · unfold Buffer.append; rw [if_neg (by omega)]; exact h.lwm
  · unfold Buffer.append; rw [if_neg (by omega)]; simp only; have := h.lwm; omega

theorem internalAppend_buf {d d' : Index R} (h : BufInv d.buf) {r : R} {ts b : Bool}
    (hs : d.internalAppend r ts = .ok (d', b)) :
    b = true ∧ BufInv d'.buf ∧ d'.L = d.L ∧ d'.tagging = d.tagging ∧ d'.impl = d.impl := by
  unfold Index.internalAppend at hs
  by_cases hat : d.buf.atLwm = true
  · rw [if_pos hat, bind_ok] at hs
    obtain ⟨d1, f1, f2⟩ := hs
    obtain ⟨g1, g2, g3, g4⟩ := flush_buf h hat f1
    have hb : BufInv d1.buf := by rw [g1]; exact h.emptied
    obtain ⟨a1, a2⟩ := hb.append (by rw [g1]; simp [Buffer.emptied]; exact h.lwm) r ts
    cases f2
    exact ⟨a1, a2, g2, g3, g4⟩
  · rw [if_neg hat, bind_ok] at hs
    obtain ⟨d1, f1, f2⟩ := hs
    cases f1
    obtain ⟨a1, a2⟩ := h.append (by simpa [Buffer.atLwm, Buffer.count] using hat) r ts
    cases f2
    exact ⟨a1, a2, rfl, rfl, rfl⟩

theorem step_buf [DecidableEq R] {d d' : Index R} (h : BufInv d.buf) {o : Index.Op R} {b : Bool}
    (hs : d.step o = .ok (d', b)) :
    BufInv d'.buf ∧ d'.L = d.L ∧ d'.tagging = d.tagging ∧ d'.impl = d.impl ∧
    (((∃ r, o = .ins r) ∨ d.tagging = false) → b = true) := by
  cases o with
  | ins r =>
    obtain ⟨h1, h2, h3, h4, h5⟩ := internalAppend_buf h hs
    exact ⟨h2, h3, h4, h5, fun _ => h1⟩
  | del r =>
    simp only [Index.step, Index.erase] at hs
    split at hs
    · next ht =>
      rw [bind_ok] at hs
      obtain ⟨o, h1, h2⟩ := hs
      cases o with
      | some ls =>
        cases h2
        exact ⟨h, rfl, rfl, rfl, fun _ => rfl⟩
      | none =>
        simp only at h2
        cases h2
        refine ⟨?_, rfl, rfl, rfl, ?_⟩
        · unfold Buffer.deleteRecord
          split
          · exact ⟨h.wf.tag _, h.lwm, h.cnt⟩
          · exact h
        · rintro (⟨r', hr⟩ | hf)
          · cases hr
          · rw [ht] at hf; cases hf
    · obtain ⟨h1, h2, h3, h4, h5⟩ := internalAppend_buf h hs
      exact ⟨h2, h3, h4, h5, fun _ => h1⟩

theorem run_cons [DecidableEq R] {d d' : Index R} {o : Index.Op R} {os : List (Index.Op R)} {bs : List Bool} :
    d.run (o :: os) = .ok (d', bs) ↔ ∃ d1 b bs1, d.step o = .ok (d1, b) ∧ d1.run os = .ok (d', bs1) ∧ bs = b :: bs1 := by
  rw [Index.run]
  simp only [bind_ok, Prod.exists]
  constructor
  · rintro ⟨d1, b, h1, d2, bs1, h2, h3⟩
    cases h3
    exact ⟨d1, b, bs1, h1, h2, rfl⟩
  · rintro ⟨d1, b, bs1, h1, h2, rfl⟩
    exact ⟨d1, b, h1, d', bs1, h2, rfl⟩

theorem new_ok [Inhabited R] {L : Layout} {tag : Bool} {I : ShardImpl R} {lwm hwm sf : Nat} {d : Index R}
    (h : Index.new L tag I lwm hwm sf = .ok d) :
    d = { L := L, tagging := tag, impl := I
          buf := { lwm, hwm, cap := 2 * hwm, tail := 0, head := 0, data := fun _ => default, tscnt := 0 }
          str := { bufSize := hwm, sf, levels := [], state := [] } } ∧
    0 < hwm ∧ lwm ≤ hwm ∧ (L = .bsm → sf = 2) := by
  unfold Index.new Buffer.new at h
  simp only [bind_ok, assertC_ok, decide_eq_true_eq] at h
  obtain ⟨b, ⟨-, h1, -, h2, h3⟩, h4⟩ := h
  cases h3
  by_cases hL : L = .bsm
  · rw [if_pos hL] at h4
    simp only [bind_ok, assertC_ok, decide_eq_true_eq] at h4
    obtain ⟨-, h5, h6⟩ := h4
    cases h6
    exact ⟨rfl, by omega, by omega, fun _ => h5⟩
  · rw [if_neg hL] at h4
    cases h4
    exact ⟨rfl, by omega, by omega, fun h => absurd h hL⟩

theorem new_buf [Inhabited R] {L : Layout} {tag : Bool} {I : ShardImpl R} {lwm hwm sf : Nat} {d : Index R}
    (h : Index.new L tag I lwm hwm sf = .ok d) (hl : 0 < lwm) : BufInv d.buf := by
  obtain ⟨rfl, h1, h2, -⟩ := new_ok h
  exact ⟨⟨rfl, h1, h2, le_refl _, by simp, by simp [Buffer.contents]⟩, hl, by simp⟩

theorem run_buf [DecidableEq R] : ∀ (ops : List (Index.Op R)) {d d' : Index R} {bs : List Bool}, BufInv d.buf →
    d.run ops = .ok (d', bs) →
    BufInv d'.buf ∧ d'.L = d.L ∧ d'.tagging = d.tagging ∧ d'.impl = d.impl ∧ bs.length = ops.length ∧
    ∀ (i : Nat) (o : Index.Op R) (b : Bool), ops[i]? = some o → bs[i]? = some b → ((∃ r, o = .ins r) ∨ d.tagging = false) → b = true
  | [], d, d', bs, h, hr => by
    cases hr; exact ⟨h, rfl, rfl, rfl, rfl, by simp⟩
  | o :: os, d, d', bs, h, hr => by
    obtain ⟨d1, b, bs1, h1, h2, rfl⟩ := run_cons.mp hr
    obtain ⟨g1, g2, g3, g4, g5⟩ := step_buf h h1
    obtain ⟨k1, k2, k3, k4, k5, k6⟩ := run_buf os g1 h2
    refine ⟨k1, k2.trans g2, k3.trans g3, k4.trans g4, by simp [k5], ?_⟩
    intro i o' b' ho hb hc
    cases i with
    | zero => simp at ho hb; subst ho; subst hb; exact g5 hc
    | succ i =>
      exact k6 i o' b' (by simpa using ho) (by simpa using hb) (by rw [g3]; exact hc)

/-! ### The whole index (leveling and tiering) -/

theorem new_inv [Inhabited R] {L : Layout} (hL : L ≠ .bsm) {tag : Bool} {I : ShardImpl R} {lwm hwm sf : Nat} {d : Index R}
    (h : Index.new L tag I lwm hwm sf = .ok d) (hl : 0 < lwm) (hsf : 0 < sf) :
    d.Inv ∧ d.L = L ∧ d.tagging = tag ∧ d.impl = I ∧ d.entries = 0 := by
  have hb := new_buf h hl
  obtain ⟨rfl, h1, h2, -⟩ := new_ok h
  refine ⟨⟨hL, hb.wf, hb.lwm, hb.cnt, hsf, rfl, ⟨rfl, ?_⟩, ?_⟩, rfl, rfl, rfl, rfl⟩
  · intro i l s hl; simp at hl
  · intro _ s0 hs0; simp [Struct.abs] at hs0

/-- Effect of one operation on the stored entries. -/
def StepEff (tagging : Bool) (o : Index.Op R) (b : Bool) (a a' : Multiset (Entry R)) : Prop :=
  match o with
  | .ins r => b = true ∧ ∃ m, Reduces (fun e => e.del = true) a m ∧ a' = m + {⟨r, false, false⟩}
  | .del r =>
    if tagging then a' = a ∨ Tags r a a'
    else b = true ∧ ∃ m, Reduces (fun e => e.del = true) a m ∧ a' = m + {⟨r, true, false⟩}

theorem step_inv [DecidableEq R] {d d' : Index R} (h : d.Inv) (hI : d.impl.Conserving) (hl : d.impl.LookupSound)
    {o : Index.Op R} {b : Bool} (hs : d.step o = .ok (d', b)) :
    d'.Inv ∧ d'.L = d.L ∧ d'.tagging = d.tagging ∧ d'.impl = d.impl ∧ StepEff d.tagging o b d.entries d'.entries := by
  cases o with
  | ins r =>
    obtain ⟨h1, h2, h3, h4, h5, h6⟩ := internalAppend_ok h hI hs
    exact ⟨h2, h3, h4, h5, h1, h6⟩
  | del r =>
    simp only [Index.step, Index.erase] at hs
    unfold StepEff
    split at hs
    · next ht =>
      simp only [ht, if_true]
      rw [bind_ok] at hs
      obtain ⟨o, h1, h2⟩ := hs
      cases o with
      | some ls =>
        cases h2
        obtain ⟨g1, g2⟩ := taggedDelete_inv h hl h1
        exact ⟨g1, rfl, ht, rfl, Or.inr g2⟩
      | none =>
        simp only at h2
        cases h2
        obtain ⟨g1, g2⟩ := bufDelete_inv h r
        exact ⟨g1, rfl, ht, rfl, g2⟩
    · next ht =>
      have ht' : d.tagging = false := by simpa using ht
      simp only [ht', Bool.false_eq_true, if_false]
      obtain ⟨h1, h2, h3, h4, h5, h6⟩ := internalAppend_ok h hI hs
      exact ⟨h2, h3, by rw [h4, ht'], h5, h1, h6⟩

/-- Induction principle over histories. -/
theorem run_ind [DecidableEq R] (P : List (Index.Op R) → Multiset (Entry R) → Prop) {d0 : Index R} (h0 : d0.Inv)
    (hI : d0.impl.Conserving) (hl : d0.impl.LookupSound) (hP0 : P [] d0.entries)
    (hstep : ∀ ops o b a a', P ops a → StepEff d0.tagging o b a a' → P (ops ++ [o]) a') :
    ∀ (ops : List (Index.Op R)) {d : Index R} {bs : List Bool}, d0.run ops = .ok (d, bs) →
      P ops d.entries ∧ d.Inv ∧ d.L = d0.L ∧ d.tagging = d0.tagging ∧ d.impl = d0.impl := by
  suffices H : ∀ (ops pre : List (Index.Op R)) {d1 d : Index R} {bs : List Bool}, d1.Inv → d1.L = d0.L →
      d1.tagging = d0.tagging → d1.impl = d0.impl → P pre d1.entries → d1.run ops = .ok (d, bs) →
      P (pre ++ ops) d.entries ∧ d.Inv ∧ d.L = d0.L ∧ d.tagging = d0.tagging ∧ d.impl = d0.impl by
    intro ops d bs hr
    exact H ops [] h0 rfl rfl rfl hP0 hr
  intro ops
  induction ops with
  | nil =>
    intro pre d1 d bs i1 i2 i3 i4 hp hr
    cases hr
    simp only [List.append_nil]
    exact ⟨hp, i1, i2, i3, i4⟩
  | cons o os ih =>
    intro pre d1 d bs i1 i2 i3 i4 hp hr
    obtain ⟨d2, b, bs1, h1, h2, rfl⟩ := run_cons.mp hr
    obtain ⟨g1, g2, g3, g4, g5⟩ := step_inv i1 (by rw [i4]; exact hI) (by rw [i4]; exact hl) h1
    have := ih (pre ++ [o]) g1 (g2.trans i2) (g3.trans i3) (g4.trans i4)
      (hstep pre o b _ _ hp (by rw [← i3]; exact g5)) h2
    simpa using this

theorem liveCount_single [DecidableEq R] (r r' : R) (ts dl : Bool) :
    liveCount r' ({⟨r, ts, dl⟩} : Multiset (Entry R)) = if r = r' ∧ ts = false then 1 else 0 := by
  unfold liveCount
  rw [← Multiset.cons_zero, Multiset.countP_cons]; simp

theorem tombCount_single [DecidableEq R] (r r' : R) (ts dl : Bool) :
    tombCount r' ({⟨r, ts, dl⟩} : Multiset (Entry R)) = if r = r' ∧ ts = true then 1 else 0 := by
  unfold tombCount
  rw [← Multiset.cons_zero, Multiset.countP_cons]; simp

/-- Net content under tombstone deletes. -/
theorem run_net [DecidableEq R] {d0 d : Index R} (h0 : d0.Inv) (hI : d0.impl.Conserving) (hl : d0.impl.LookupSound)
    (ht : d0.tagging = false) (he : d0.entries = 0) {ops : List (Index.Op R)} {bs : List Bool}
    (hr : d0.run ops = .ok (d, bs)) :
    ((∀ x ∈ d.entries, x.del = false) ∧
      ∀ r, liveCount r d.entries + delCount r ops = tombCount r d.entries + insCount r ops) ∧ d.Inv ∧
      d.L = d0.L ∧ d.tagging = d0.tagging ∧ d.impl = d0.impl := by
  refine run_ind (fun ops m => (∀ x ∈ m, x.del = false) ∧
      ∀ r, liveCount r m + delCount r ops = tombCount r m + insCount r ops) h0 hI hl ?_ ?_ ops hr
  · rw [he]; simp [liveCount, tombCount, delCount, insCount]
  · rintro ops o b a a' ⟨p1, p2⟩ hs
    have key : ∀ r ts m, Reduces (fun e => e.del = true) a m → a' = m + {⟨r, ts, false⟩} →
        (∀ x ∈ a', x.del = false) ∧ ∀ r', liveCount r' a + tombCount r' m = liveCount r' m + tombCount r' a := by
      intro r ts m hm ha
      refine ⟨?_, ?_⟩
      · intro x hx
        rw [ha, Multiset.mem_add] at hx
        rcases hx with hx | hx
        · exact p1 x (Multiset.mem_of_le hm.le hx)
        · simp at hx; rw [hx]
      · intro r'
        exact hm.net r' (fun x hx => by simp [p1 x hx])
    cases o with
    | ins r =>
      obtain ⟨-, m, hm, ha⟩ := hs
      obtain ⟨k1, k2⟩ := key r false m hm ha
      refine ⟨k1, ?_⟩
      intro r'
      have h1 := k2 r'
      have h2 := p2 r'
      rw [ha, liveCount_add, tombCount_add, liveCount_single, tombCount_single]
      simp only [delCount, insCount, List.count_append, List.count_cons, List.count_nil] at *
      by_cases hrr : r = r'
      · subst hrr; simp; omega
      · simp [hrr]; omega
    | del r =>
      simp only [StepEff, ht, Bool.false_eq_true, if_false] at hs
      obtain ⟨-, m, hm, ha⟩ := hs
      obtain ⟨k1, k2⟩ := key r true m hm ha
      refine ⟨k1, ?_⟩
      intro r'
      have h1 := k2 r'
      have h2 := p2 r'
      rw [ha, liveCount_add, tombCount_add, liveCount_single, tombCount_single]
      simp only [delCount, insCount, List.count_append, List.count_cons, List.count_nil] at *
      by_cases hrr : r = r'
      · subst hrr; simp; omega
      · simp [hrr]; omega

end DE

namespace DE
variable {R K : Type} [LinearOrder R] [LinearOrder K] [HasKey R K]

theorem filterMap_data (ss : List (Shard R)) : (ss.map some).filterMap (·.map Shard.data) = ss.map Shard.data := by
  induction ss with
  | nil => rfl
  | cons s ss ih => simp

theorem sortedMerge_ok {pq : PQ R} {ss : List (Shard R)} {s : Shard R} (h : sortedMerge pq (ss.map some) = .ok s) :
    s.data = mergeAll pq (fun w => !w.isDeleted) (ss.map Shard.data) ∧ s.tscnt = tsCount s.data ∧
    ∀ x ∈ ss, x.data ≠ [] := by
  unfold sortedMerge at h
  split at h
  · next ha =>
    rw [filterMap_data] at h
    cases h
    refine ⟨rfl, rfl, ?_⟩
    intro x hx
    simp only [List.all_eq_true, List.mem_map] at ha
    have := ha (some x) ⟨x, hx, rfl⟩
    simpa using this
  · cases h

theorem sortedMerge_total {pq : PQ R} {ss : List (Shard R)} (h : ∀ x ∈ ss, x.data ≠ []) :
    ∃ s, sortedMerge pq (ss.map some) = .ok s := by
  unfold sortedMerge
  rw [if_pos]
  · exact ⟨_, rfl⟩
  · simp only [List.all_eq_true, List.mem_map]
    rintro o ⟨x, hx, rfl⟩
    simpa using h x hx

theorem ents_flatten_shards (ss : List (Shard R)) : ents (ss.map Shard.data).flatten = sents ss := by
  rw [ents_flatten, List.map_map]; rfl

theorem sortedImpl_conserving (pq : PQ R) (lb : LB R K) : (sortedImpl pq lb).Conserving where
  build := by
    intro v l s hv hs
    simp only [sortedImpl, sortedFromView, bind_ok, hv.1] at hs
    obtain ⟨l', e, hs⟩ := hs
    cases e; cases hs
    rw [← ents_perm (sortW_perm l)]
    exact scanSorted_reduces _
  merge := by
    intro ss s hs
    obtain ⟨h1, -, -⟩ := sortedMerge_ok (show sortedMerge pq (ss.map some) = .ok s from hs)
    rw [h1, ← ents_flatten_shards]
    exact mergeAll_reduces pq _ _ (fun w hw => by
      simp only [Bool.not_eq_false'] at hw; exact hw) _

theorem sortedImpl_lookupSound (pq : PQ R) (lb : LB R K) : (sortedImpl pq lb).LookupSound := by
  intro s r i h
  simp only [sortedImpl, sortedLookup, bind_ok] at h
  obtain ⟨idx, -, h⟩ := h
  split at h
  · cases h
  · rw [bind_ok] at h
    obtain ⟨w, hw, h⟩ := h
    split at h
    · next hr =>
      cases h
      unfold getR at hw
      split at hw
      · next a ha => cases hw; exact ⟨_, ha, hr⟩
      · cases hw
    · cases h

end DE
