import Verif.Proofs.Pair
import Verif.Proofs.Linear
import Verif.Proofs.BSMNet
import Verif.Proofs.Bits

/-!
A record inserted once and erased once afterwards: its live entry and its tombstone never share a shard.
-/

namespace DE
variable {R : Type}

/-! ### The buffer's exact content -/

/-- Buffer content of a tombstone index, slot by slot. -/
def BufExact (d : Index R) (ops : List (Index.Op R)) : Prop :=
  ∃ q, d.buf.lwm * q + (d.buf.tail - d.buf.head) = ops.length ∧ d.buf.tail = ops.length ∧
    d.buf.contents = (ops.drop (d.buf.lwm * q)).mapIdx
      (fun i o => Buffer.entryAt (opEntry o).record (opEntry o).tomb ((d.buf.lwm * q + i) % d.buf.cap))

theorem step_buf_eq [DecidableEq R] {d d' : Index R} (h : BufInv d.buf) {r : R} {ts b : Bool}
    (hs : d.internalAppend r ts = .ok (d', b)) :
    d'.buf.lwm = d.buf.lwm ∧ d'.buf.cap = d.buf.cap ∧ d'.buf.tail = d.buf.tail + 1 := by
  have happ : ∀ bf : Buffer R, bf.tail - bf.head < bf.hwm → (bf.append r ts).1.lwm = bf.lwm ∧ (bf.append r ts).1.cap = bf.cap ∧
      (bf.append r ts).1.tail = bf.tail + 1 := by
    intro bf hlt
    unfold Buffer.append
    rw [if_neg (by omega)]; exact ⟨rfl, rfl, rfl⟩
  unfold Index.internalAppend at hs
  by_cases hat : d.buf.atLwm = true
  · rw [if_pos hat, bind_ok] at hs
    obtain ⟨d1, f1, f2⟩ := hs
    obtain ⟨g1, -⟩ := flush_buf h hat f1
    have hd : d' = { d1 with buf := (d1.buf.append r ts).1 } := (congrArg Prod.fst (Except.ok.inj f2)).symm
    have := happ d1.buf (by rw [g1]; have := h.wf.hwm; simpa [Buffer.emptied] using this)
    rw [hd]; simp only
    rw [g1] at this ⊢
    exact this
  · rw [if_neg hat] at hs
    have hlt : d.buf.tail - d.buf.head < d.buf.lwm := by simpa [Buffer.atLwm, Buffer.count] using hat
    have hd : d' = { d with buf := (d.buf.append r ts).1 } := (congrArg Prod.fst (Except.ok.inj hs)).symm
    have := happ d.buf (lt_of_lt_of_le hlt h.wf.lwm)
    rw [hd]; exact this

theorem step_append [DecidableEq R] {d d' : Index R} (ht : d.tagging = false) {o : Index.Op R} {b : Bool}
    (hs : d.step o = .ok (d', b)) : d.internalAppend (opEntry o).record (opEntry o).tomb = .ok (d', b) := by
  cases o with
  | ins r => exact hs
  | del r =>
    simp only [Index.step, Index.erase, ht, Bool.false_eq_true, if_false] at hs
    exact hs

theorem bufExact_step [DecidableEq R] {d d' : Index R} (hb : BufInv d.buf) (ht : d.tagging = false) {ops : List (Index.Op R)}
    {o : Index.Op R} {b : Bool} (hs : d.step o = .ok (d', b)) (h : BufExact d ops) : BufExact d' (ops ++ [o]) := by
  have hr := step_append ht hs
  have hc := internalAppend_contents hb hr
  obtain ⟨e1, e2, e3⟩ := step_buf_eq hb hr
  obtain ⟨q, h1, h2, h3⟩ := h
  have hlen := Buffer.contents_length d'.buf
  by_cases hat : d.buf.atLwm = true
  · have hfull : d.buf.tail - d.buf.head = d.buf.lwm := by
      have := hb.cnt
      simp [Buffer.atLwm, Buffer.count] at hat
      omega
    rw [if_pos hat, List.nil_append] at hc
    have hl : d.buf.lwm * (q + 1) = ops.length := by rw [Nat.mul_succ]; omega
    refine ⟨q + 1, ?_, ?_, ?_⟩
    · rw [← hlen, hc, e1]
      simp only [List.length_append, List.length_cons, List.length_nil]
      omega
    · rw [e3, h2]; simp
    · rw [hc, e1, e2, hl, List.drop_append_of_le_length (le_refl _), List.drop_length, List.nil_append]
      simp [h2]
  · rw [if_neg hat] at hc
    refine ⟨q, ?_, ?_, ?_⟩
    · rw [← hlen, hc, e1, List.length_append, Buffer.contents_length]
      simp; omega
    · rw [e3, h2]; simp
    · rw [hc, e1, e2, h3, List.drop_append_of_le_length (by omega), List.mapIdx_concat]
      congr 3
      rw [h2, List.length_drop]
      congr 1
      omega

theorem entryAt_ts (r : R) (ts : Bool) {pos : Nat} (hp : pos < 2 ^ 29) : (Buffer.entryAt r ts pos).getTimestamp = pos := by
  unfold Buffer.entryAt
  simp only
  have hv : ∀ w : Wrapped R, w.setVisible.getTimestamp = w.getTimestamp := by
    intro w
    apply Wrapped.getTimestamp_congr
    intro i hi h3
    simp only [Wrapped.setVisible, BitVec.getElem_or, four_bit]
    have : ¬ i = 2 := by omega
    simp [this]
  rw [hv, Wrapped.setTimestamp_get _ _ hp]
  cases ts
  · simp [Wrapped.getTimestamp]
  · simp only [if_true, Wrapped.setTombstone, Wrapped.getTimestamp]
    have : ((0#32 ||| 1#32) >>> 3).toNat = 0 := by decide
    rw [this]; simp

theorem ts_lt {a b : Wrapped R} (h : a.getTimestamp < b.getTimestamp) : a.header < b.header := by
  unfold Wrapped.getTimestamp at h
  simp only [BitVec.toNat_ushiftRight, Nat.shiftRight_eq_div_pow] at h
  rw [BitVec.lt_def]
  omega

/-- Without ring wrap the entries of a buffer carry increasing timestamps. -/
theorem bufExact_ts {d : Index R} {ops : List (Index.Op R)} (hb : BufInv d.buf) (hdvd : d.buf.lwm ∣ d.buf.cap)
    (hcap : d.buf.cap ≤ 2 ^ 29) (h : BufExact d ops) :
    d.buf.contents.Pairwise (fun a b => a.getTimestamp < b.getTimestamp) := by
  obtain ⟨q, h1, h2, h3⟩ := h
  have hcp := hb.wf.cap_pos
  have hlen : (ops.drop (d.buf.lwm * q)).length = d.buf.tail - d.buf.head := by simp; omega
  obtain ⟨k, hk⟩ := hdvd
  have hpos : ∀ i, i < d.buf.lwm → (d.buf.lwm * q + i) % d.buf.cap = (d.buf.lwm * q) % d.buf.cap + i ∧
      (d.buf.lwm * q) % d.buf.cap + i < d.buf.cap := by
    intro i hi
    have e : (d.buf.lwm * q) % d.buf.cap = d.buf.lwm * (q % k) := by rw [hk, Nat.mul_mod_mul_left]
    have hk0 : 0 < k := Nat.pos_of_ne_zero (by rintro rfl; simp at hk; omega)
    have hlt : q % k + 1 ≤ k := Nat.mod_lt _ hk0
    have : d.buf.lwm * (q % k + 1) ≤ d.buf.cap := by rw [hk]; exact Nat.mul_le_mul_left _ hlt
    rw [Nat.mul_succ] at this
    have hlt2 : (d.buf.lwm * q) % d.buf.cap + i < d.buf.cap := by rw [e]; omega
    refine ⟨?_, hlt2⟩
    rw [Nat.add_mod, Nat.mod_eq_of_lt (a := i) (by omega), Nat.mod_eq_of_lt hlt2]
  rw [h3, List.pairwise_iff_getElem]
  intro i j hi hj hij
  simp only [List.length_mapIdx] at hi hj
  simp only [List.getElem_mapIdx]
  have hc := hb.cnt
  have hi' := hpos i (by omega)
  have hj' := hpos j (by omega)
  rw [entryAt_ts _ _ (by omega), entryAt_ts _ _ (by omega)]
  omega

variable [DecidableEq R]

theorem cycle_order {r : R} {ops : List (Index.Op R)} (h : SingleCycle r ops) :
    ops.Pairwise (fun a b => ¬ (a = .del r ∧ b = .ins r)) := by
  rw [List.pairwise_iff_getElem]
  rintro i j hi hj hij ⟨ha, hb⟩
  have h1 := h.2 (ops.take (i+1)) (List.take_prefix _ _)
  have h2 : 0 < delCount r (ops.take (i+1)) := by
    apply List.count_pos_iff.mpr
    rw [← ha]
    exact List.mem_take_iff_getElem.mpr ⟨i, by omega, rfl⟩
  have h3 : 0 < insCount r (ops.drop (i+1)) := by
    apply List.count_pos_iff.mpr
    rw [← hb]
    exact List.mem_drop_iff_getElem.mpr ⟨j - (i+1), by omega, by congr 1; omega⟩
  have h4 : insCount r ops = insCount r (ops.take (i+1)) + insCount r (ops.drop (i+1)) := by
    unfold insCount
    rw [← List.count_append, List.take_append_drop]
  have := h.1
  omega

theorem SingleCycle.prefix {r : R} {a b : List (Index.Op R)} (h : SingleCycle r b) (hp : a <+: b) : SingleCycle r a := by
  refine ⟨le_trans ?_ h.1, fun p hpp => h.2 p (hpp.trans hp)⟩
  exact List.Sublist.count_le _ hp.sublist

theorem SingleCycle.del {r : R} {ops : List (Index.Op R)} (h : SingleCycle r ops) : delCount r ops ≤ 1 :=
  le_trans (h.2 ops (List.prefix_refl _)) h.1

omit [DecidableEq R] in
theorem bufExact_order {d : Index R} {ops : List (Index.Op R)} {r : R}
    (hord : ops.Pairwise (fun a b => ¬ (a = .del r ∧ b = .ins r))) (h : BufExact d ops) :
    d.buf.contents.Pairwise (fun a b => ¬ (a.record = r ∧ a.isTombstone = true ∧ b.record = r ∧ b.isTombstone = false)) := by
  obtain ⟨q, h1, h2, h3⟩ := h
  have hord := List.Pairwise.sublist (List.drop_sublist (d.buf.lwm * q) ops) hord
  rw [h3, List.pairwise_iff_getElem]
  rw [List.pairwise_iff_getElem] at hord
  intro i j hi hj hij
  simp only [List.length_mapIdx] at hi hj
  simp only [List.getElem_mapIdx]
  have he : ∀ (o : Index.Op R) p, (Buffer.entryAt (opEntry o).record (opEntry o).tomb p).record = (opEntry o).record ∧
      (Buffer.entryAt (opEntry o).record (opEntry o).tomb p).isTombstone = (opEntry o).tomb := by
    intro o p
    have := entryAt_entry (opEntry o).record (opEntry o).tomb p
    exact ⟨congrArg Entry.record this, congrArg Entry.tomb this⟩
  rw [(he _ _).1, (he _ _).1, (he _ _).2, (he _ _).2]
  rintro ⟨g1, g2, g3, g4⟩
  apply hord i j hi hj hij
  constructor
  · revert g1 g2
    cases (ops.drop (d.buf.lwm * q))[i] with
    | ins x => simp [opEntry]
    | del x => simp [opEntry]
  · revert g3 g4
    cases (ops.drop (d.buf.lwm * q))[j] with
    | ins x => simp [opEntry]
    | del x => simp [opEntry]

end DE

namespace DE
variable {R : Type} [LinearOrder R]

/-! ### Building a shard -/

theorem ofRec_counts (r : R) (l : List (Wrapped R)) :
    (ofRec r l).length = liveCount r (ents l) + tombCount r (ents l) := by
  induction l with
  | nil => rfl
  | cons w l ih =>
    have e : ents (w :: l) = w.entry ::ₘ ents l := rfl
    unfold liveCount tombCount at *
    rw [e, Multiset.countP_cons, Multiset.countP_cons]
    by_cases hr : w.record = r
    · rw [ofRec_cons_eq hr, List.length_cons, ih]
      cases ht : w.isTombstone <;> simp [Wrapped.entry, hr, ht] <;> omega
    · rw [ofRec_cons_ne hr, ih]
      simp [Wrapped.entry, hr]

theorem scan_pair {r : R} {wl wt : Wrapped R} (hl : wl.isTombstone = false) (ht : wt.isTombstone = true) :
    ∀ l : List (Wrapped R), RecSorted l → ofRec r l = [wl, wt] → ∀ w ∈ scanSorted l, w.record ≠ r
  | [], _, h, _, _ => by simp [ofRec] at h
  | [b], _, h, _, _ => by
    have := congrArg List.length h
    have h2 : (ofRec r [b]).length ≤ 1 := List.length_filter_le _ _
    simp at this; omega
  | b :: c :: rest, hs, h, w, hw => by
    have hb := List.pairwise_cons.mp hs
    have hc := List.pairwise_cons.mp hb.2
    have hmem : wt ∈ b :: c :: rest ∧ wt.record = r := mem_ofRec.mp (by rw [h]; simp)
    have hnelt : wl ≠ wt := by intro e; rw [e, ht] at hl; cases hl
    rw [scanSorted] at hw
    split at hw
    · next hcan =>
      obtain ⟨c1, c2, c3⟩ := cancels_spec hcan
      by_cases hr : b.record = r
      · rw [ofRec_cons_eq hr, ofRec_cons_eq (c2 ▸ hr)] at h
        simp at h
        obtain ⟨x, hx, rfl, -⟩ := scanSorted_mem _ _ hw
        intro hxr
        have : x ∈ ofRec r rest := mem_ofRec.mpr ⟨hx, hxr⟩
        rw [h.2.2] at this; simp at this
      · rw [ofRec_cons_ne hr, ofRec_cons_ne (fun e => hr (c2.trans e))] at h
        exact scan_pair hl ht rest hc.2 h w hw
    · next hcan =>
      by_cases hr : b.record = r
      · exfalso
        rw [ofRec_cons_eq hr] at h
        simp only [List.cons.injEq] at h
        obtain ⟨rfl, h⟩ := h
        have hwt : wt ∈ c :: rest := by
          rcases List.mem_cons.mp hmem.1 with e | e
          · exact absurd e.symm hnelt
          · exact e
        have hcr : c.record = r := by
          apply le_antisymm
          · rcases List.mem_cons.mp hwt with rfl | e
            · exact le_of_eq hmem.2
            · rw [← hmem.2]; exact hc.1 wt e
          · rw [← hr]; exact hb.1 c (by simp)
        rw [ofRec_cons_eq hcr] at h
        simp only [List.cons.injEq] at h
        obtain ⟨rfl, -⟩ := h
        simp [cancels, hl, ht, hr, hcr] at hcan
      · rw [ofRec_cons_ne hr] at h
        have ih := scan_pair hl ht (c :: rest) hb.2 h
        split at hw
        · exact ih w hw
        · rcases List.mem_cons.mp hw with rfl | hw
          · exact hr
          · exact ih w hw

/-- A shard as the cycle argument needs it. -/
def ShOk (r : R) (s : Shard R) : Prop :=
  One r s.data ∧ ∀ w ∈ s.data, w.record = r → w.header = if w.isTombstone then 1#32 else 0#32

theorem mask_header (w : Wrapped R) (hd : w.isDeleted = false) : w.mask.header = if w.mask.isTombstone then 1#32 else 0#32 := by
  have h1 := w.mask.isTombstone_bit
  have hdb : w.header[1] = false := by rw [← Wrapped.isDeleted_bit]; exact hd
  have three : ∀ i (hi : i < 32), (3#32)[i]'hi = decide (i < 2) := by
    intro i hi
    have key : ∀ j : Fin 32, (3#32)[j.1]'j.2 = decide (j.1 < 2) := by decide
    exact key ⟨i, hi⟩
  rw [h1]
  ext i hi
  by_cases h0 : i = 0
  · subst h0
    cases hx : w.mask.header[0] <;> simp
  · have e1 : w.mask.header[i] = false := by
      simp only [Wrapped.mask, BitVec.getElem_and, three]
      by_cases h2 : i = 1
      · subst h2; simp [hdb]
      · simp; intro _; omega
    rw [e1]
    split
    · simp [h0]
    · simp

theorem ofRec_two {r : R} {l : List (Wrapped R)} (h1 : liveCount r (ents l) ≤ 1) (h2 : tombCount r (ents l) ≤ 1)
    (h : 1 < (ofRec r l).length) : ∃ a b, ofRec r l = [a, b] ∧ (a.isTombstone = false ∧ b.isTombstone = true ∨
      a.isTombstone = true ∧ b.isTombstone = false) := by
  have hlen := ofRec_counts r l
  obtain ⟨a, b, hab⟩ : ∃ a b, ofRec r l = [a, b] := List.length_eq_two.mp (by omega)
  refine ⟨a, b, hab, ?_⟩
  have hl : liveCount r (ents (ofRec r l)) = liveCount r (ents l) := by
    clear hab hlen h h1 h2
    induction l with
    | nil => rfl
    | cons w l ih =>
      by_cases hr : w.record = r
      · rw [ofRec_cons_eq hr, ents_cons, ents_cons, liveCount_add, liveCount_add, ih]
      · rw [ofRec_cons_ne hr, ih, ents_cons, liveCount_add]
        have : liveCount r ({w.entry} : Multiset (Entry R)) = 0 := by
          unfold liveCount
          rw [Multiset.countP_eq_zero]
          intro x hx; simp at hx; subst hx; simp [Wrapped.entry, hr]
        omega
  have hmem : ∀ x ∈ ofRec r l, x.record = r := fun x hx => (mem_ofRec.mp hx).2
  rw [hab] at hl hmem
  have e : liveCount r (ents [a, b]) = (if a.isTombstone = false then 1 else 0) + (if b.isTombstone = false then 1 else 0) := by
    have e0 : ents [a, b] = a.entry ::ₘ b.entry ::ₘ 0 := rfl
    unfold liveCount
    rw [e0, Multiset.countP_cons, Multiset.countP_cons]
    simp [Wrapped.entry, hmem a (by simp), hmem b (by simp), Nat.add_comm]
  have h3 : liveCount r (ents l) = 1 := by omega
  cases ha : a.isTombstone <;> cases hb : b.isTombstone <;> simp [ha, hb] at e ⊢ <;> omega

/-- The shard built from a buffer in which the insert precedes the erase in sort order. -/
theorem build_shok {r : R} {v : View R} {l : List (Wrapped R)} {s : Shard R} (hv : v.copyOut = .ok l)
    (h1 : liveCount r (ents l) ≤ 1) (h2 : tombCount r (ents l) ≤ 1)
    (hlt : ∀ a b, ofRec r l = [a, b] → Wrapped.lt a b ∧ a.isTombstone = false)
    (hs : sortedFromView v = .ok s) : ShOk r s := by
  obtain ⟨l', e1, e2, -⟩ := sortedFromView_ok hs
  rw [hv] at e1; cases e1
  refine ⟨⟨?_, ?_⟩, ?_⟩
  · rw [e2]; exact scanSorted_sorted _ (sortW_recSorted l)
  · rw [e2]
    by_cases hc : 1 < (ofRec r l).length
    · obtain ⟨a, b, hab, hor⟩ := ofRec_two h1 h2 hc
      obtain ⟨g1, g2⟩ := hlt a b hab
      have hbt : b.isTombstone = true := by
        rcases hor with h | h
        · exact h.2
        · rw [g2] at h; cases h.1
      have hsort : ofRec r (sortW l) = [a, b] := by
        have hp : (ofRec r (sortW l)).Perm [a, b] := by
          rw [← hab]; exact ofRec_perm (sortW_perm l)
        have hsd : (ofRec r (sortW l)).Pairwise leW := (sortW_sorted l).sublist List.filter_sublist
        obtain ⟨x, y, hxy⟩ : ∃ x y, ofRec r (sortW l) = [x, y] := List.length_eq_two.mp (by rw [hp.length_eq]; rfl)
        rw [hxy] at hp hsd ⊢
        have hle : leW x y := by simpa using hsd
        have hxm : x = a ∨ x = b := by simpa using hp.mem_iff.mp (show x ∈ [x, y] by simp)
        rcases hxm with rfl | rfl
        · have := hp.cons_inv
          simp at this; rw [this]
        · exfalso
          have hp2 : [y].Perm [a] := (hp.trans (List.Perm.swap _ _ _)).cons_inv
          simp at hp2
          subst hp2
          exact hle g1
      have hno := scan_pair g2 hbt (sortW l) (sortW_recSorted l) hsort
      have : ofRec r (scanSorted (sortW l)) = [] := by
        unfold ofRec
        rw [List.filter_eq_nil_iff]
        intro w hw; simpa using hno w hw
      rw [this]; simp
    · have hr := scanSorted_reduces (sortW l)
      have e := ofRec_counts r (scanSorted (sortW l))
      have e' := ofRec_counts r l
      have g1 := hr.liveCount_le r
      have g2 := hr.tombCount_le r
      rw [ents_perm (sortW_perm l)] at g1 g2
      omega
  · intro w hw _
    rw [e2] at hw
    obtain ⟨x, hx, rfl, hd⟩ := scanSorted_mem _ _ hw
    exact mask_header x hd

/-! ### Merging -/

/-- The bag of shards is in order for `r`. -/
structure CycM (r : R) (M : Multiset (Shard R)) : Prop where
  sh : ∀ s ∈ M, ShOk r s
  live : liveCount r (ments M) ≤ 1
  tomb : tombCount r (ments M) ≤ 1

theorem shok_lt {r : R} {a b : Wrapped R} (ha : a.record = r) (hb : b.record = r)
    (ea : a.header = if a.isTombstone then 1#32 else 0#32) (eb : b.header = if b.isTombstone then 1#32 else 0#32)
    (h1 : a.isTombstone = false) (h2 : b.isTombstone = true) : Wrapped.lt a b := by
  refine Or.inr ⟨ha.trans hb.symm, ?_⟩
  rw [ea, eb, h1, h2]; decide

theorem merge_shok {pq : PQ R} (hpq : pq.ByWrapped) {r : R} {ss : List (Shard R)} {m : Shard R}
    (hs : ∀ s ∈ ss, ShOk r s) (h1 : liveCount r (sents ss) ≤ 1) (h2 : tombCount r (sents ss) ≤ 1)
    (hm : sortedMerge pq (ss.map some) = .ok m) : ShOk r m := by
  obtain ⟨e1, -, -⟩ := sortedMerge_ok hm
  have hpr : pq.ByRec := fun t l => (hpq t l).imp (fun h => by
    by_contra hc; exact h (Or.inl (lt_of_not_ge hc)))
  have hfl : ents (ss.map Shard.data).flatten = sents ss := ents_flatten_shards ss
  have hsrc : ∀ w ∈ m.data, ∃ s ∈ ss, w ∈ s.data := by
    intro w hw
    rw [e1] at hw
    have := mergeLoop_mem pq _ _ _ w hw
    obtain ⟨c, hc, hwc⟩ := List.mem_flatten.mp this
    simp only [List.mem_map] at hc
    obtain ⟨x, hx, rfl⟩ := hc
    exact ⟨x, hx, hwc⟩
  refine ⟨⟨?_, ?_⟩, ?_⟩
  · rw [e1]
    refine mergeLoop_sorted pq hpr _ _ _ ?_
    intro c hc
    simp only [List.mem_map] at hc
    obtain ⟨x, hx, rfl⟩ := hc
    exact (hs x hx).1.1
  · by_cases hc : 1 < (ofRec r (ss.map Shard.data).flatten).length
    · obtain ⟨a, b, hab, hor⟩ := ofRec_two (by rw [hfl]; exact h1) (by rw [hfl]; exact h2) hc
      have hhead : ∀ w ∈ ofRec r (ss.map Shard.data).flatten, w.record = r ∧ w.header = if w.isTombstone then 1#32 else 0#32 := by
        intro w hw
        obtain ⟨hw, hwr⟩ := mem_ofRec.mp hw
        obtain ⟨c, hc, hwc⟩ := List.mem_flatten.mp hw
        simp only [List.mem_map] at hc
        obtain ⟨x, hx, rfl⟩ := hc
        exact ⟨hwr, (hs x hx).2 w hwc hwr⟩
      have ha := hhead a (by rw [hab]; simp)
      have hb := hhead b (by rw [hab]; simp)
      obtain ⟨wl, wt, hp, hl, ht, hlt⟩ : ∃ wl wt, (ofRec r (ss.map Shard.data).flatten).Perm [wl, wt] ∧
          wl.isTombstone = false ∧ wt.isTombstone = true ∧ Wrapped.lt wl wt := by
        rcases hor with ⟨ga, gb⟩ | ⟨ga, gb⟩
        · exact ⟨a, b, by rw [hab], ga, gb, shok_lt ha.1 hb.1 ha.2 hb.2 ga gb⟩
        · exact ⟨b, a, by rw [hab]; exact List.Perm.swap _ _ _, gb, ga, shok_lt hb.1 ha.1 hb.2 ha.2 gb ga⟩
      have hno := mergeLoop_pair hpq (fun w => !w.isDeleted) hl ht hlt _ (ss.map Shard.data) (le_refl _) hp (by
        intro c hc _
        simp only [List.mem_map] at hc
        obtain ⟨x, hx, rfl⟩ := hc
        exact (hs x hx).1)
      have : ofRec r m.data = [] := by
        unfold ofRec
        rw [List.filter_eq_nil_iff]
        intro w hw
        rw [e1] at hw
        simpa using hno w hw
      rw [this]; simp
    · have hred := mergeAll_reduces pq (fun w : Wrapped R => !w.isDeleted) (fun e => e.del = true) (fun w hw => by
        simp only [Bool.not_eq_false'] at hw; exact hw) (ss.map Shard.data)
      rw [← e1] at hred
      have e := ofRec_counts r m.data
      have e' := ofRec_counts r (ss.map Shard.data).flatten
      have g1 := hred.liveCount_le r
      have g2 := hred.tombCount_le r
      omega
  · intro w hw hwr
    obtain ⟨s, hsm, hws⟩ := hsrc w hw
    exact (hs s hsm).2 w hws hwr

theorem CycM.lin {K : Type} [LinearOrder K] [HasKey R K] {pq : PQ R} (hpq : pq.ByWrapped) {lb : LB R K} {r : R}
    {A B : Multiset (Shard R)} (h : CycM r A) (hl : Lin (sortedImpl pq lb) A B) : CycM r B := by
  induction hl with
  | refl => exact h
  | @merge ss rest m _ hm ih =>
    have hls : liveCount r (sents ss) ≤ 1 := by
      have := ih.live
      rw [ments_add, ments_coe, liveCount_add] at this; omega
    have hts : tombCount r (sents ss) ≤ 1 := by
      have := ih.tomb
      rw [ments_add, ments_coe, tombCount_add] at this; omega
    have hred := ((sortedImpl_conserving pq lb).merge ss m hm)
    have g1 := hred.liveCount_le r
    have g2 := hred.tombCount_le r
    refine ⟨?_, ?_, ?_⟩
    · intro s hs
      rw [Multiset.mem_add] at hs
      rcases hs with hs | hs
      · exact ih.sh s (Multiset.mem_add.mpr (Or.inl hs))
      · simp at hs; subst hs
        exact merge_shok hpq (fun x hx => ih.sh x (Multiset.mem_add.mpr (Or.inr (by simpa using hx)))) hls hts hm
    · have := ih.live
      rw [ments_add, ments_coe, liveCount_add] at this
      rw [ments_add, ments_single, liveCount_add]; omega
    · have := ih.tomb
      rw [ments_add, ments_coe, tombCount_add] at this
      rw [ments_add, ments_single, tombCount_add]; omega
  | @forget s rest _ hd ih =>
    refine ⟨fun x hx => ih.sh x (Multiset.mem_add.mpr (Or.inl hx)), ?_, ?_⟩
    · have := ih.live
      rw [ments_add, liveCount_add] at this; omega
    · have := ih.tomb
      rw [ments_add, tombCount_add] at this; omega

end DE
