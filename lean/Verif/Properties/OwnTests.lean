import Verif.Proofs.OwnTests
import Verif.Properties.StaticBlocks
import Verif.Properties.Shape
import Verif.Properties.Counts
import Verif.Properties.RangeQuery
import Verif.Properties.TaggingErase

/-!
C123: the assertions of the project's own index tests (tests/include/dynamic_extension.h) hold whatever the random
numbers. The tests construct `DE(100, 1000, 2)`.
-/

namespace DE
variable {R K : Type} [LinearOrder R] [LinearOrder K] [HasKey R K] [Inhabited R]

/-- The constructor call of the tests succeeds on every layout, and gives an empty index (`t_create`, 45-54). -/
theorem C123_create (L : Layout) (tag : Bool) (pq : PQ R) (lb : LB R K) :
    ∃ d0, Index.new L tag (sortedImpl pq lb) 100 1000 2 = .ok d0 ∧ d0.recordCount = 0 ∧ d0.height = 0 := by
  cases L <;> exact ⟨_, rfl, rfl, rfl⟩

omit [LinearOrder R] [LinearOrder K] [HasKey R K] [Inhabited R] in
theorem appends_inserts (tag : Bool) : ∀ rs : List R, appends tag (rs.map .ins) = rs.length
  | [] => rfl
  | r :: rs => by simp [appends, appends_inserts tag rs]

/-- `t_insert`, `t_debug_insert`, `t_insert_with_mem_merges` (57-121): inserting any records returns 1 each time, the
count is the number inserted, the height is 0 up to 100 records, and after 300 it is 2 on BSM and 1 otherwise. -/
theorem C123_inserts {L : Layout} {tag : Bool} {pq : PQ R} {lb : LB R K} {d0 : Index R}
    (hnew : Index.new L tag (sortedImpl pq lb) 100 1000 2 = .ok d0) (rs : List R) :
    ∃ d, d0.run (rs.map .ins) = .ok (d, List.replicate rs.length true) ∧ d.recordCount = rs.length ∧
      (rs.length ≤ 100 → d.height = 0) ∧ (rs.length = 300 → d.height = if L = .bsm then 2 else 1) := by
  have hio : InsertOnly (rs.map (Index.Op.ins (R := R))) := by
    intro o ho; rw [List.mem_map] at ho; obtain ⟨r, -, rfl⟩ := ho; exact ⟨r, rfl⟩
  obtain ⟨d, h1, -⟩ := (new_clean hnew (by omega) (by omega)).run _ hio
  obtain ⟨d', bs', h1', h2⟩ := C14_insert_only hnew (by omega) (by omega) hio
  rw [h1] at h1'
  obtain ⟨rfl, -⟩ := Prod.mk.inj (Except.ok.inj h1')
  rw [List.length_map] at h1 h2
  have hfl : flushes tag 100 (rs.map (Index.Op.ins (R := R))) = (rs.length - 1) / 100 := by
    unfold flushes; rw [appends_inserts]
  refine ⟨d, h1, h2, ?_, ?_⟩
  · intro hle
    have h0 : (rs.length - 1) / 100 = 0 := by omega
    rw [h0] at hfl
    cases L with
    | bsm => rw [C16_bsm_insert_only hnew (by omega) hio h1, if_pos hfl]
    | tiering =>
      have := (C16_tiering hnew (by omega) (by omega) h1).1
      rw [hfl] at this
      rcases hh : d.height with _ | h
      · rfl
      · rw [hh, geom] at this
        have := Nat.pow_pos (n := h) (show 0 < 2 by omega)
        omega
    | leveling =>
      have := (C16_leveling hnew (by omega) (by omega) h1).1
      omega
  · intro he
    have h0 : (rs.length - 1) / 100 = 2 := by omega
    rw [h0] at hfl
    cases L with
    | bsm => rw [C16_bsm_insert_only hnew (by omega) hio h1, hfl]; decide
    | tiering =>
      obtain ⟨k1, k2, -⟩ := C16_tiering hnew (by omega) (by omega) h1
      rw [hfl] at k1 k2
      rcases hh : d.height with _ | _ | h
      · rw [hh] at k2; simp [geom] at k2
      · rfl
      · rw [hh, geom, geom] at k1
        have := Nat.pow_pos (n := h) (show 0 < 2 by omega)
        rw [Nat.pow_succ] at k1
        omega
    | leveling =>
      obtain ⟨k1, k2, -⟩ := C16_leveling hnew (by omega) (by omega) h1
      rw [hfl] at k1 k2
      have := k1.mp (by omega)
      rw [if_neg (by simp)]
      by_contra hne
      have := k2 (by omega)
      omega

omit [LinearOrder R] [LinearOrder K] [HasKey R K] [Inhabited R] in
theorem inserted_inserts : ∀ rs : List R, inserted (rs.map .ins) = rs
  | [] => rfl
  | r :: rs => by simp [inserted, inserted_inserts rs]

/-- `t_range_query` (124-167). Insert any records, let `ks` be their keys in sorted order and query between `ks[idx]` and
`ks[idx + w]` (the test: `w = 250`). The query succeeds; sorted, its result has size `w + 1`, as the test asserts, exactly
if no further key equals one of the two bounds, and then the i-th key is `ks[idx + i]`, as the test asserts.
Missing: the size when a further key equals a bound (`C123_false`). -/
theorem C123_range_query_partial {L : Layout} {tag : Bool} {pq pq' : PQ R} (hpq : pq.ByRec) {lb : LB R K} (hlb : lb.Sound)
    {d0 : Index R} (hnew : Index.new L tag (sortedImpl pq lb) 100 1000 2 = .ok d0) (rs : List R) {ks : List K}
    (hk : ks.Perm (rs.map key)) (hsort : ks.Pairwise (· ≤ ·)) {idx w : Nat} (hidx : idx + w < ks.length) :
    ∃ d res, d0.run (rs.map .ins) = .ok (d, List.replicate rs.length true) ∧
      d.rangeQuery pq' lb (ks[idx]'(by omega)) ks[idx + w] = .ok res ∧
      (res.length = w + 1 ↔ (∀ x ∈ ks.take idx, x < ks[idx]'(by omega)) ∧ ∀ x ∈ ks.drop (idx + w + 1), ks[idx + w] < x) ∧
      (res.length = w + 1 → ∀ out : List R, out.Perm res → out.Pairwise (· ≤ ·) →
        out.map key = (ks.drop idx).take (w + 1)) := by
  have hio : InsertOnly (rs.map (Index.Op.ins (R := R))) := by
    intro o ho; rw [List.mem_map] at ho; obtain ⟨r, -, rfl⟩ := ho; exact ⟨r, rfl⟩
  obtain ⟨d, res, h1, h2, h3⟩ := C04_insert_only_exact (pq' := pq') hpq hlb hnew (by omega) (by omega) hio (ks[idx]'(by omega)) ks[idx + w]
  rw [List.length_map] at h1
  rw [inserted_inserts] at h3
  generalize hlo : ks[idx]'(by omega) = lo at *
  generalize hhi : ks[idx + w] = hi at *
  have hkeys : (res.map key).Perm (ks.filter (fun k => decide (lo ≤ k ∧ k ≤ hi))) := by
    refine (h3.map key).trans ?_
    refine List.Perm.trans (l₂ := (rs.map key).filter (fun k => decide (lo ≤ k ∧ k ≤ hi))) ?_ (hk.filter _).symm
    rw [List.filter_map]; exact List.Perm.refl _
  have hsplit : ks = ks.take idx ++ ((ks.drop idx).take (w + 1) ++ ks.drop (idx + w + 1)) := by
    conv_lhs => rw [← List.take_append_drop idx ks, ← List.take_append_drop (w + 1) (ks.drop idx), List.drop_drop]
    rfl
  have hmid : ∀ x ∈ (ks.drop idx).take (w + 1), lo ≤ x ∧ x ≤ hi := by
    intro x hx
    obtain ⟨i, hi', rfl⟩ := List.mem_iff_getElem.mp hx
    rw [List.getElem_take, List.getElem_drop]
    simp only [List.length_take, List.length_drop] at hi'
    have mono : ∀ a b (ha : a ≤ b) (hb : b < ks.length), ks[a]'(by omega) ≤ ks[b] := by
      intro a b ha hb
      rcases Nat.eq_or_lt_of_le ha with rfl | ha
      · exact le_refl _
      · exact List.pairwise_iff_getElem.mp hsort a b (by omega) hb ha
    rw [← hlo, ← hhi]
    exact ⟨mono _ _ (by omega) _, mono _ _ (by omega) _⟩
  have hM : ((ks.drop idx).take (w + 1)).filter (fun k => decide (lo ≤ k ∧ k ≤ hi)) = (ks.drop idx).take (w + 1) :=
    List.filter_eq_self.mpr (fun x hx => by simpa using hmid x hx)
  have hf : ks.filter (fun k => decide (lo ≤ k ∧ k ≤ hi)) = (ks.take idx).filter (fun k => decide (lo ≤ k ∧ k ≤ hi)) ++
      ((ks.drop idx).take (w + 1) ++ (ks.drop (idx + w + 1)).filter (fun k => decide (lo ≤ k ∧ k ≤ hi))) := by
    conv_lhs => rw [hsplit, List.filter_append, List.filter_append, hM]
  have hlenM : ((ks.drop idx).take (w + 1)).length = w + 1 := by
    rw [List.length_take, List.length_drop]; omega
  have hlen : res.length = ((ks.take idx).filter (fun k => decide (lo ≤ k ∧ k ≤ hi))).length + ((w + 1) +
      ((ks.drop (idx + w + 1)).filter (fun k => decide (lo ≤ k ∧ k ≤ hi))).length) := by
    have := hkeys.length_eq
    rw [List.length_map, hf, List.length_append, List.length_append, hlenM] at this
    exact this
  have hs3 := hsort
  rw [hsplit, List.pairwise_append] at hs3
  obtain ⟨-, hs4, hs5⟩ := hs3
  rw [List.pairwise_append] at hs4
  obtain ⟨hsM, -, hs6⟩ := hs4
  have hloM : lo ∈ (ks.drop idx).take (w + 1) :=
    List.mem_iff_getElem.mpr ⟨0, by rw [hlenM]; omega, by rw [List.getElem_take, List.getElem_drop]; simpa using hlo⟩
  have hhiM : hi ∈ (ks.drop idx).take (w + 1) :=
    List.mem_iff_getElem.mpr ⟨w, by rw [hlenM]; omega, by rw [List.getElem_take, List.getElem_drop]; exact hhi⟩
  have hlohi : lo ≤ hi := (hmid lo hloM).2
  have hA : (ks.take idx).filter (fun k => decide (lo ≤ k ∧ k ≤ hi)) = [] ↔ ∀ x ∈ ks.take idx, x < lo := by
    rw [List.filter_eq_nil_iff]
    refine forall₂_congr (fun x hx => ?_)
    have := hs5 x hx lo (by simp [hloM])
    rw [decide_eq_true_eq, not_and_or, not_le, not_le]
    exact ⟨fun h => h.elim id (fun h => absurd h (not_lt.mpr (this.trans hlohi))), Or.inl⟩
  have hB : (ks.drop (idx + w + 1)).filter (fun k => decide (lo ≤ k ∧ k ≤ hi)) = [] ↔ ∀ x ∈ ks.drop (idx + w + 1), hi < x := by
    rw [List.filter_eq_nil_iff]
    refine forall₂_congr (fun x hx => ?_)
    have := hs6 hi hhiM x hx
    rw [decide_eq_true_eq, not_and_or, not_le, not_le]
    exact ⟨fun h => h.elim (fun h => absurd h (not_lt.mpr (hlohi.trans this))) id, Or.inr⟩
  have hiff : res.length = w + 1 ↔ (∀ x ∈ ks.take idx, x < lo) ∧ ∀ x ∈ ks.drop (idx + w + 1), hi < x := by
    rw [← hA, ← hB, ← List.length_eq_zero_iff, ← List.length_eq_zero_iff]
    omega
  refine ⟨d, res, h1, h2, hiff, ?_⟩
  intro hl out hp hs
  obtain ⟨a, b⟩ := hiff.mp hl
  rw [hf, hA.mpr a, hB.mpr b, List.nil_append, List.append_nil] at hkeys
  refine List.Perm.eq_of_pairwise (le := (· ≤ ·)) (fun x y _ _ hxy hyx => le_antisymm hxy hyx) ?_ hsM ((hp.map key).trans hkeys)
  rw [List.pairwise_map]
  refine hs.imp (fun {x y} hxy => ?_)
  by_contra hc
  exact absurd (HasKey.key_lt _ _ (not_le.mp hc)) (not_lt.mpr hxy)

/-- The test can fail by chance: if all 10000 keys drawn are equal, a query between any two of them returns all 10000
records instead of 251. -/
theorem C123_false {L : Layout} {tag : Bool} {pq pq' : PQ R} (hpq : pq.ByRec) {lb : LB R K} (hlb : lb.Sound)
    {d0 : Index R} (hnew : Index.new L tag (sortedImpl pq lb) 100 1000 2 = .ok d0) (rs : List R) (hn : rs.length = 10000)
    {k : K} (hk : ∀ r ∈ rs, key r = k) :
    ∃ d res, d0.run (rs.map .ins) = .ok (d, List.replicate rs.length true) ∧ d.rangeQuery pq' lb k k = .ok res ∧
      res.length = 10000 := by
  have hio : InsertOnly (rs.map (Index.Op.ins (R := R))) := by
    intro o ho; rw [List.mem_map] at ho; obtain ⟨r, -, rfl⟩ := ho; exact ⟨r, rfl⟩
  obtain ⟨d, res, h1, h2, h3⟩ := C04_insert_only_exact (pq' := pq') hpq hlb hnew (by omega) (by omega) hio k k
  rw [List.length_map] at h1
  rw [inserted_inserts, List.filter_eq_self.mpr (fun r hr => by simp [hk r hr])] at h3
  exact ⟨d, res, h1, h2, by rw [h3.length_eq, hn]⟩

/-- `t_tombstone_merging_01` (170-217): whatever was inserted and erased, `validate_tombstone_proportion` holds with
tagging, and on tiering and BSM. Missing: leveling with tombstones, where it can fail (`C123_false_merging`). -/
theorem C123_tombstone_merging_partial {L : Layout} {tag : Bool} (h : L ≠ .leveling ∨ tag = true) {pq : PQ R} {lb : LB R K} {d0 d : Index R}
    (hnew : Index.new L tag (sortedImpl pq lb) 100 1000 2 = .ok d0) {its : List (R × Own.Choice R)} {bs : List Bool}
    (hrun : d0.run (Own.loop {} its).ops = .ok (d, bs)) : d.validate = true := by
  rcases h with h | rfl
  · exact C53_partial h hnew (by omega) (by omega) hrun
  · exact C53_tagging hnew (by omega) hrun

omit [Inhabited R] in
theorem own_noVoid {lwm : Nat} {ops : List (Index.Op R)} (hl : 1 ≤ lwm) (h : Own.NoVoidStretch ops) :
    NoVoidRange lwm ops ∧ NoVoidRest lwm ops := by
  constructor
  · intro i n hn hle
    refine h (ops.take (lwm * i)) _ (ops.drop (lwm * i + lwm * n)) ?_ ?_
    · rw [List.append_assoc, ← List.drop_drop, List.take_append_drop, List.take_append_drop]
    · intro h0
      have := congrArg List.length h0
      rw [Nat.mul_add] at hle
      have : 0 < lwm * n := Nat.mul_pos (by omega) hn
      simp at *; omega
  · intro q h1 h2
    refine h (ops.take (lwm * q)) _ [] (by simp) ?_
    intro h0
    have := congrArg List.length h0
    simp at this; omega

omit [LinearOrder R] [LinearOrder K] [HasKey R K] [Inhabited R] in
/-- How many records remain. -/
theorem Own.LoopInv.kept [DecidableEq R] {its : List (R × Own.Choice R)} {st : Own.LoopState R} (hinv : Own.LoopInv (its.map Prod.fst) st)
    (hdist : (its.map Prod.fst).Nodup) :
    ((its.map Prod.fst).filter (fun r => decide (r ∉ st.deleted))).length = its.length - st.deleted.length := by
  have e := List.length_eq_length_filter_add (l := its.map Prod.fst) (fun r => decide (r ∈ st.deleted))
  rw [List.length_map] at e
  have e2 : ((its.map Prod.fst).filter (fun r => decide (r ∈ st.deleted))).Perm st.deleted := by
    refine (List.perm_ext_iff_of_nodup (hdist.filter _) hinv.nd).mpr (fun x => ?_)
    rw [List.mem_filter, decide_eq_true_eq]
    exact ⟨fun h => h.2, fun h => ⟨hinv.dl x h, h⟩⟩
  rw [e2.length_eq] at e
  have e3 : (its.map Prod.fst).filter (fun r => decide (r ∉ st.deleted)) = (its.map Prod.fst).filter (fun r => !decide (r ∈ st.deleted)) := by
    congr 1; funext r; simp
  rw [e3]; omega

/-- `t_static_structure` with tombstone deletes, on every layout (262-325). Whatever distinct records are inserted and
whatever the random choices: every insert and erase returns 1, `create_static_structure` succeeds, and the shard it
returns holds exactly the records not erased, in ascending order; so its size is the number of records minus the number of
erases and its keys ascend, as the test asserts. The queue must order by `Wrapped::operator<`. -/
theorem C123_static_structure_tombstones {L : Layout} {pq : PQ R} (hpq : pq.ByWrapped) {lb : LB R K} {d0 : Index R}
    (hnew : Index.new L false (sortedImpl pq lb) 100 1000 2 = .ok d0) {its : List (R × Own.Choice R)}
    (hdist : (its.map Prod.fst).Nodup) (hc : Own.ChoicesOk {} its) :
    let st := Own.loop {} its
    ∃ d m, d0.run st.ops = .ok (d, List.replicate st.ops.length true) ∧ d.staticStructure = .ok m ∧
      m.data.length = its.length - st.deleted.length ∧ (m.data.map (fun w => key w.record)).Pairwise (· ≤ ·) ∧
      (m.data.map Wrapped.record).Perm ((its.map Prod.fst).filter (fun r => decide (r ∉ st.deleted))) ∧
      ∀ w ∈ m.data, w.isTombstone = false ∧ w.isDeleted = false := by
  intro st
  have hinv : Own.LoopInv (its.map Prod.fst) st := by
    have := (Own.LoopInv.nil (R := R)).loop (its := its) (by simpa using hdist) hc
    simpa using this
  obtain ⟨hv, hrest⟩ := own_noVoid (lwm := 100) (by omega) hinv.noVoid
  obtain ⟨d, m, h1, h2⟩ := C21_blocks_partial hnew (by omega) (by omega) hv hrest
  have hpr : pq.ByRec := fun t l => (hpq t l).imp (fun h => by
    by_contra hc; exact h (Or.inl (lt_of_not_ge hc)))
  obtain ⟨k1, k2, -⟩ := C21_net_partial hpr hnew (by omega) (by omega) (fun _ => hv.block) h1 h2
  have hone : ∀ r, liveCount r (ents m.data) = insCount r st.ops - delCount r st.ops ∧ tombCount r (ents m.data) = 0 := by
    intro r
    refine C21_single_cycle_partial hpq hnew (by omega) (by omega) (by decide) (by decide) (fun _ => hv.block) h1 ⟨?_, ?_⟩ h2
    · rw [hinv.ins]; exact List.nodup_iff_count_le_one.mp hdist r
    · intro p hp; exact hinv.pre p hp r
  have hnt : ∀ w ∈ m.data, w.isTombstone = false := by
    intro w hw
    by_contra ht
    have : 0 < tombCount w.record (ents m.data) := Multiset.countP_pos.mpr ⟨w.entry, by
      simp only [ents, Multiset.mem_coe, List.mem_map]; exact ⟨w, hw, rfl⟩, ⟨rfl, by simpa [Wrapped.entry] using ht⟩⟩
    rw [(hone _).2] at this
    omega
  have hperm : (m.data.map Wrapped.record).Perm ((its.map Prod.fst).filter (fun r => decide (r ∉ st.deleted))) := by
    rw [List.perm_iff_count]
    intro r
    have e1 : (m.data.map Wrapped.record).count r = liveCount r (ents m.data) := by
      unfold liveCount ents
      rw [Multiset.coe_countP, List.countP_map, List.count, List.countP_map]
      refine List.countP_congr (fun w hw => ?_)
      simp [Wrapped.entry, hnt w hw]
    rw [e1, (hone r).1, hinv.ins, hinv.del]
    by_cases hd : r ∈ st.deleted
    · have h1 : 1 ≤ st.deleted.count r := List.count_pos_iff.mpr hd
      have h2 := List.nodup_iff_count_le_one.mp hdist r
      have h3 : ((its.map Prod.fst).filter (fun r => decide (r ∉ st.deleted))).count r = 0 :=
        List.count_eq_zero.mpr (fun hm => by rw [List.mem_filter, decide_eq_true_eq] at hm; exact hm.2 hd)
      omega
    · rw [List.count_eq_zero.mpr hd, List.count_filter (by simpa using hd)]
      rfl
  refine ⟨d, m, h1, h2, ?_, ?_, hperm, fun w hw => ⟨hnt w hw, k2 w hw⟩⟩
  · rw [← hinv.kept hdist, ← hperm.length_eq, List.length_map]
  · rw [List.pairwise_map] at k1 ⊢
    refine k1.imp (fun {x y} hxy => ?_)
    by_contra hc
    exact absurd (HasKey.key_lt _ _ (not_le.mp hc)) (not_lt.mpr hxy)

/-- Distinct records, each erased at most once and after its insert: a tagging index (leveling, tiering) that gets through
the history returned 1 every time and holds an untagged copy of exactly the records not erased. -/
theorem tagging_once {L : Layout} (hL : L ≠ .bsm) {pq : PQ R} (hpq : pq.ByRec) {lb : LB R K} (hlb : lb.Sound) {lwm hwm sf : Nat}
    {d0 d : Index R} {ops : List (Index.Op R)} {bs : List Bool} (hnew : Index.new L true (sortedImpl pq lb) lwm hwm sf = .ok d0)
    (hlwm : 1 ≤ lwm) (hsf : 1 ≤ sf) (hpre : ∀ p, p <+: ops → ∀ r, delCount r p ≤ insCount r p) (hone : ∀ r, delCount r ops ≤ 1)
    (hrun : d0.run ops = .ok (d, bs)) :
    (∀ b ∈ bs, b = true) ∧ ∀ r, untagged r d.entries = insCount r ops - delCount r ops := by
  obtain ⟨h1, h2, h3, h4, h5⟩ := new_inv hL hnew hlwm hsf
  have hI : d0.impl.Conserving := h4 ▸ sortedImpl_conserving pq lb
  have hlk : d0.impl.LookupSound := h4 ▸ sortedImpl_lookupSound pq lb
  refine (run_prefix_ind ops (fun ops d bs => (∀ b ∈ bs, b = true) ∧ ∀ r, untagged r d.entries = insCount r ops - delCount r ops)
    (new_buf hnew hlwm) ⟨by simp, by intro r; rw [h5]; simp [untagged, insCount]⟩ ?_ hrun).1
  intro pre o d d' bs b hp hr ⟨p1, p2⟩ hb _ ht hi hs
  obtain ⟨-, hinv, -⟩ := run_ind (fun _ _ => True) h1 hI hlk trivial (fun _ _ _ _ _ _ _ => trivial) pre hr
  cases o with
  | ins x =>
    obtain ⟨-, -, -, -, hb1, m, hm, he⟩ := step_inv hinv (hi ▸ hI) (hi ▸ hlk) hs
    obtain ⟨dr, e, hdr⟩ := hm.no_tomb (tagging_no_tomb hnew hlwm hr)
    refine ⟨by intro b' hb'; rcases List.mem_append.mp hb' with h | h; exacts [p1 b' h, by simp at h; rw [h, hb1]], fun r => ?_⟩
    have hd0 : untagged r dr = 0 := by
      unfold untagged
      rw [Multiset.countP_eq_zero]
      rintro y hy ⟨-, hyd⟩
      rw [hdr y hy] at hyd; cases hyd
    have k1 := p2 r
    have k2 := hpre pre ((List.prefix_append pre [_]).trans hp) r
    have e3 : delCount r (pre ++ [.ins x]) = delCount r pre := by simp [delCount]
    have e4 : insCount r (pre ++ [.ins x]) = insCount r pre + if x = r then 1 else 0 := by simp [insCount, List.count_singleton]
    have e5 : untagged r d'.entries = untagged r m + if x = r then 1 else 0 := by
      rw [he]; unfold untagged; rw [Multiset.countP_add, countP_single]; simp
    have e6 : untagged r d.entries = untagged r m + untagged r dr := by
      rw [e]; unfold untagged; rw [Multiset.countP_add]
    omega
  | del x =>
    have hpd := hpre _ hp x
    have e1 : delCount x (pre ++ [.del x]) = delCount x pre + 1 := by simp [delCount]
    have e2 : insCount x (pre ++ [.del x]) = insCount x pre := by simp [insCount]
    have hle : delCount x (pre ++ [.del x]) ≤ 1 := (hp.sublist.count_le _).trans (hone x)
    have hmem : .ins x ∈ pre := List.count_pos_iff.mp (show 0 < insCount x pre by omega)
    have hno : .del x ∉ pre := List.count_eq_zero.mp (show delCount x pre = 0 by omega)
    have hs' : d.erase x = .ok (d', b) := hs
    have hb1 := (C12_first_erase_partial hL hpq hlb hnew hlwm hsf hr ⟨x, hmem⟩ hno hs').mpr hmem
    obtain ⟨-, q⟩ := C13_partial hL hpq hlb hnew hlwm hsf hr ⟨x, hmem⟩ hno hs'
    refine ⟨by intro b' hb'; rcases List.mem_append.mp hb' with h | h; exacts [p1 b' h, by simp at h; rw [h, hb1]], fun r => ?_⟩
    have := q r
    have := p2 r
    by_cases hx : r = x
    · subst hx
      simp [hb1] at *
      omega
    · have e3 : delCount r (pre ++ [.del x]) = delCount r pre := by simp [delCount, List.count_singleton, Ne.symm hx]
      have e4 : insCount r (pre ++ [.del x]) = insCount r pre := by simp [insCount]
      simp [hx] at *
      omega

/-- `t_static_structure` with tagging, on leveling and tiering: if the calls of the test are defined, every insert and erase
returned 1 and the shard returned by `create_static_structure` holds exactly the records not erased, in ascending order.
Missing: that the calls are defined (`C123_false_tagging`), and BSM. -/
theorem C123_static_structure_tagging_partial {L : Layout} (hL : L ≠ .bsm) {pq : PQ R} (hpq : pq.ByRec) {lb : LB R K} (hlb : lb.Sound)
    {d0 d : Index R} (hnew : Index.new L true (sortedImpl pq lb) 100 1000 2 = .ok d0) {its : List (R × Own.Choice R)}
    (hdist : (its.map Prod.fst).Nodup) (hc : Own.ChoicesOk {} its) {bs : List Bool} {m : Shard R} :
    let st := Own.loop {} its
    d0.run st.ops = .ok (d, bs) → d.staticStructure = .ok m →
      (∀ b ∈ bs, b = true) ∧ m.data.length = its.length - st.deleted.length ∧
      (m.data.map (fun w => key w.record)).Pairwise (· ≤ ·) ∧
      (m.data.map Wrapped.record).Perm ((its.map Prod.fst).filter (fun r => decide (r ∉ st.deleted))) := by
  intro st h1 h2
  have hinv : Own.LoopInv (its.map Prod.fst) st := by
    have := (Own.LoopInv.nil (R := R)).loop (its := its) (by simpa using hdist) hc
    simpa using this
  obtain ⟨k1, k2⟩ := tagging_once hL hpq hlb hnew (by omega) (by omega) hinv.pre
    (fun r => by rw [hinv.del]; exact List.nodup_iff_count_le_one.mp hinv.nd r) h1
  have k3 := C21_tagging_partial hL hnew (by omega) (by omega) h1 h2
  obtain ⟨i1, i2, i3, i4, i5⟩ := new_inv hL hnew (by omega) (by omega)
  obtain ⟨hd, -⟩ := new_ok hnew
  obtain ⟨-, hg, -, -, hi⟩ := run_ind (fun _ _ => True) i1 (i4 ▸ sortedImpl_conserving pq lb)
    (i4 ▸ sortedImpl_lookupSound pq lb) trivial (fun _ _ _ _ _ _ _ => trivial) _ h1
  rw [i4] at hi
  have hs := (run_sorted hpq (new_buf hnew (by omega)) i4 (by rw [hd]) h1).visible
  have hsm : RecSorted m.data := static_closed (Or.inl hg) (hi ▸ sortedImpl_closed_sorted hpq lb) hs h2
  have hperm : (m.data.map Wrapped.record).Perm ((its.map Prod.fst).filter (fun r => decide (r ∉ st.deleted))) := by
    rw [List.perm_iff_count]
    intro r
    have e1 : (m.data.map Wrapped.record).count r = untagged r d.entries := by
      have : (m.data.map Wrapped.record).count r = Multiset.countP (fun e => e.record = r) (ents m.data) := by
        unfold ents
        rw [Multiset.coe_countP, List.countP_map, List.count, List.countP_map]
        refine List.countP_congr (fun w _ => ?_)
        simp only [Function.comp, Wrapped.entry, beq_iff_eq]
        exact decide_eq_true_iff.symm
      rw [this, k3, Multiset.countP_filter]
      rfl
    rw [e1, k2, hinv.ins, hinv.del]
    by_cases hd : r ∈ st.deleted
    · have h1 : 1 ≤ st.deleted.count r := List.count_pos_iff.mpr hd
      have h2 := List.nodup_iff_count_le_one.mp hdist r
      have h3 : ((its.map Prod.fst).filter (fun r => decide (r ∉ st.deleted))).count r = 0 :=
        List.count_eq_zero.mpr (fun hm => by rw [List.mem_filter, decide_eq_true_eq] at hm; exact hm.2 hd)
      omega
    · rw [List.count_eq_zero.mpr hd, List.count_filter (by simpa using hd)]
      rfl
  refine ⟨k1, ?_, ?_, hperm⟩
  · rw [← hinv.kept hdist, ← hperm.length_eq, List.length_map]
  · rw [List.pairwise_map]
    have hsm : m.data.Pairwise (fun a b => a.record ≤ b.record) := hsm
    refine hsm.imp (fun {x y} hxy => ?_)
    by_contra hc
    exact absurd (HasKey.key_lt _ _ (not_le.mp hc)) (not_lt.mpr hxy)

/-- A run of the loop of `t_static_structure`: three records are inserted, and the first two erased. -/
def ownIts : List (Rec × Own.Choice Rec) :=
  [(⟨0, 0⟩, ⟨false, [], true⟩), (⟨1, 1⟩, ⟨true, [⟨0, 0⟩], true⟩), (⟨2, 2⟩, ⟨true, [⟨1, 1⟩], false⟩)]

theorem ownIts_ok : (ownIts.map Prod.fst).Nodup ∧ Own.ChoicesOk {} ownIts := by
  refine ⟨by decide, ?_⟩
  unfold ownIts
  simp only [Own.ChoicesOk]
  refine ⟨by simp, fun _ _ => ⟨by decide, by decide, by decide⟩, fun _ _ => ⟨by decide, by decide, by decide⟩, trivial⟩

/-- With tagging the loop can make `create_static_structure` undefined by chance: when every record of a level has been
erased. Shown with watermark 2 instead of 100: three records are inserted, the first two erased; every call returns 1. -/
theorem C123_false_tagging : ∃ (its : List (Rec × Own.Choice Rec)) (d0 d : Index Rec) (bs : List Bool),
    (its.map Prod.fst).Nodup ∧ Own.ChoicesOk {} its ∧ mk .tiering true 2 2 2 = .ok d0 ∧
    d0.run (Own.loop {} its).ops = .ok (d, bs) ∧ bs.all id = true ∧ d.staticStructure = .error .ub := by
  have h : probe .tiering true 2 2 2 (Own.loop {} ownIts).ops
      (fun p => .ok (p.2.all id, decide (p.1.staticStructure = .error .ub))) = .ok (true, true) := by decide
  obtain ⟨d0, d, bs, h1, h2, h3⟩ := probe_ok h
  have h3 := Except.ok.inj h3
  exact ⟨ownIts, d0, d, bs, ownIts_ok.1, ownIts_ok.2, h1, h2, congrArg Prod.fst h3, of_decide_eq_true (congrArg Prod.snd h3)⟩

/-- The hypotheses of the theorems about `t_static_structure`: a run of the loop that erases two of its three records. -/
example : (ownIts.map Prod.fst).Nodup ∧ Own.ChoicesOk {} ownIts ∧ (Own.loop {} ownIts).deleted = [⟨0, 0⟩, ⟨1, 1⟩] :=
  ⟨ownIts_ok.1, ownIts_ok.2, rfl⟩

/-- The hypotheses of `C123_range_query_partial`, and both outcomes of its condition: keys 1, 2, 2, 3 with the bounds 1
and 2 at positions 0 and 2, where no further key equals a bound, and at positions 0 and 1, where one does. -/
example : let rs : List Rec := [⟨2, 0⟩, ⟨1, 1⟩, ⟨3, 2⟩, ⟨2, 3⟩]
    let ks : List Nat := [1, 2, 2, 3]
    ks.Perm (rs.map key) ∧ ks.Pairwise (· ≤ ·) ∧ 0 + 2 < ks.length ∧
    (∀ x ∈ ks.drop 3, 2 < x) ∧ ¬ ∀ x ∈ ks.drop 2, 2 < x := by decide

end DE
