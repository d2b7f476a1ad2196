import Verif.Proofs.Unbiased
import Verif.Properties.Sampling
import Mathlib.Data.Nat.Factorial.Basic

/-!
C64: range sampling is unbiased. Probabilities are counts over all random streams of the needed length: with `M` values per
draw, an event has probability (number of streams) / `M ^ length`.
-/

namespace DE
variable {R K : Type} [LinearOrder R] [LinearOrder K] [HasKey R K] [Inhabited R]
open Finset

omit [LinearOrder R] [Inhabited R] in
theorem count_inserted [DecidableEq R] (r : R) : ∀ ops : List (Index.Op R), (inserted ops).count r = insCount r ops
  | [] => rfl
  | .ins a :: os => by
    have := count_inserted r os
    unfold insCount at this ⊢
    unfold inserted
    rw [List.count_cons, List.count_cons, this]
    by_cases h : a = r
    · subst h; simp
    · have h' : (Index.Op.ins a == Index.Op.ins r) = false := by simpa using h
      simp [h, h']
  | .del a :: os => by
    have := count_inserted r os
    unfold insCount at this ⊢
    unfold inserted
    rw [List.count_cons, this]
    have h' : (Index.Op.del a == Index.Op.ins r) = false := by simp
    simp [h']

/-- The in-range sources hold exactly the stored records in range. -/
theorem irs_stored {lb ub : LB R K} {lo hi : K} (hle : lo ≤ hi) {d : Index R} {qs : List (Irs.Local R)} (hset : IrsSetup lb ub lo hi d qs)
    {rs : List R} (h1 : d.entries.map Entry.record = (rs : Multiset R)) (rej : Bool) :
    (((Irs.sources rej lo hi d.buf.contents qs).flatten.filter (Irs.inR lo hi)).map Wrapped.record).Perm
      (rs.filter (fun r => decide (lo ≤ key r) && decide (key r ≤ hi))) ∧
    (Irs.sources rej lo hi d.buf.contents qs).flatten.length ≤ rs.length := by
  have hsl : (qs.map Irs.Local.slice).flatten = ((d.str.visible.map Shard.data).flatten).filter (Irs.inR lo hi) := by
    rw [← hset.map, List.filter_flatten, List.map_map]
    congr 1
    apply List.map_congr_left
    intro q hq
    exact (hset.exact q hq).slice hle
  have hall : ((d.buf.contents ++ (d.str.visible.map Shard.data).flatten).map Wrapped.record).Perm rs := by
    rw [← Multiset.coe_eq_coe, ← h1]
    unfold Index.entries
    have : (d.str.visible.map (fun s => ents s.data)).sum = ents (d.str.visible.map Shard.data).flatten := by
      rw [ents_flatten_shards]; rfl
    rw [this]
    unfold ents
    simp [Function.comp_def, Wrapped.entry]
  unfold Irs.sources
  rw [List.flatten_cons, hsl]
  constructor
  · have e : (Irs.bufSrc rej lo hi d.buf.contents).filter (Irs.inR lo hi) = d.buf.contents.filter (Irs.inR lo hi) := by
      unfold Irs.bufSrc; split
      · rfl
      · rw [List.filter_filter]; simp
    rw [List.filter_append, e, List.filter_filter]
    simp only [Bool.and_self]
    rw [← List.filter_append]
    have := hall.filter (fun r => decide (lo ≤ key r) && decide (key r ≤ hi))
    rw [List.filter_map] at this
    exact this
  · have hl := hall.length_eq
    rw [List.length_map, List.length_append] at hl
    rw [List.length_append, ← hl]
    have h1 : (Irs.bufSrc rej lo hi d.buf.contents).length ≤ d.buf.contents.length := by
      unfold Irs.bufSrc; split
      · exact le_refl _
      · exact List.length_filter_le _ _
    have h2 : ((d.str.visible.map Shard.data).flatten.filter (Irs.inR lo hi)).length ≤ (d.str.visible.map Shard.data).flatten.length :=
      List.length_filter_le _ _
    omega

/-- The in-range sources hold exactly the inserted records in range. -/
theorem irs_records {lb ub : LB R K} {lo hi : K} (hle : lo ≤ hi) {d : Index R} {qs : List (Irs.Local R)} (hset : IrsSetup lb ub lo hi d qs)
    {rs : List R} (he : d.entries = insEntries rs) (rej : Bool) :
    (((Irs.sources rej lo hi d.buf.contents qs).flatten.filter (Irs.inR lo hi)).map Wrapped.record).Perm
      (rs.filter (fun r => decide (lo ≤ key r) && decide (key r ≤ hi))) ∧
    (Irs.sources rej lo hi d.buf.contents qs).flatten.length ≤ rs.length :=
  irs_stored hle hset (by rw [he]; unfold insEntries; simp [Function.comp_def]) rej

omit [LinearOrder R] [Inhabited R] in
/-- A part of an index is not larger than the index. -/
theorem parts_le {d : Index R} : d.buf.contents.length ≤ Multiset.card d.entries ∧
    ∀ s ∈ d.str.visible, s.data.length ≤ Multiset.card d.entries := by
  unfold Index.entries
  rw [Multiset.card_add]
  constructor
  · unfold ents; simp
  · intro s hsm
    have : ∀ (ss : List (Shard R)), s ∈ ss → s.data.length ≤ Multiset.card (ss.map (fun s => ents s.data)).sum := by
      intro ss
      induction ss with
      | nil => simp
      | cons t ts ih =>
        intro hm
        rw [List.map_cons, List.sum_cons, Multiset.card_add]
        rcases List.mem_cons.mp hm with rfl | hm
        · unfold ents; simp
        · have := ih hm; omega
    have := this _ hsm
    omega

/-- What the counting theorems need about an index that stores the records `rs`. -/
theorem irs_fair_of {d : Index R} (hg : d.buf.view.gets = .ok d.buf.contents)
    (hs : ∀ s ∈ d.str.visible, s.data.Pairwise (fun a b => key (K := K) a.record ≤ key b.record) ∧ s.data ≠ [])
    {rs : List R} (hrs : d.entries.map Entry.record = (rs : Multiset R))
    {F LF : Nat} (hF : 2 ≤ F) (hLF : 1 ≤ LF) (z : K) {al : AliasFn} {mx M : Nat} (hmx : rs.length ≤ mx) (hmx' : mx < 2 ^ 63)
    (hfair : ∀ ws : List Nat, 0 < ws.sum → ws.sum ∣ M → al.FairOn M ws) (hM : ∀ k, 1 ≤ k → k ≤ rs.length → k ∣ M)
    (rej : Bool) {lo hi : K} {r : R} (hr : r ∈ rs) (hlo : lo ≤ key r) (hhi : key r ≤ hi) :
    ∃ qs, IrsSetup (Isam.lowerBound F LF z) (Isam.upperBound F LF z) lo hi d qs ∧
      (∀ q ∈ qs, mx + q.data.length < 2 ^ 64) ∧ Irs.Safe ⟨fun _ => 0, mx⟩ lo hi d.buf.contents qs ∧
      0 < (Irs.weights rej lo hi d.buf.contents qs).sum ∧ al.FairOn M (Irs.weights rej lo hi d.buf.contents qs) ∧
      (∀ s ∈ Irs.sources rej lo hi d.buf.contents qs, s ≠ [] → s.length ∣ M) ∧
      (((Irs.sources rej lo hi d.buf.contents qs).flatten.filter (Irs.inR lo hi)).map Wrapped.record).Perm
        (rs.filter (fun r => decide (lo ≤ key r) && decide (key r ≤ hi))) ∧
      (Irs.weights rej lo hi d.buf.contents qs).sum = (Irs.sources rej lo hi d.buf.contents qs).flatten.length ∧
      (Irs.sources rej lo hi d.buf.contents qs).flatten.length ≤ rs.length := by
  have hle : lo ≤ hi := le_trans hlo hhi
  obtain ⟨qs, hset⟩ := irs_setup_gets (isam_exactBounds (R := R) hF hLF z) hg lo hi hs
  obtain ⟨hp, hl⟩ := irs_stored hle hset hrs rej
  have hcard : Multiset.card d.entries = rs.length := by
    rw [← Multiset.card_map Entry.record, hrs, Multiset.coe_card]
  obtain ⟨c1, c2⟩ := parts_le (d := d)
  have hsz : ∀ q ∈ qs, q.data.length ≤ mx := by
    intro q hq
    obtain ⟨sh, hsm, he⟩ := hset.len q hq
    have := c2 sh hsm
    rw [he]; omega
  have hwsum : (Irs.weights rej lo hi d.buf.contents qs).sum = (Irs.sources rej lo hi d.buf.contents qs).flatten.length := by
    rw [Irs.weights_sources hle hset.exact, List.length_flatten]
  have hst : 0 < (rs.filter (fun r => decide (lo ≤ key r) && decide (key r ≤ hi))).length :=
    List.length_pos_of_mem (List.mem_filter.mpr ⟨hr, by simp [hlo, hhi]⟩)
  have hpos : 0 < (Irs.weights rej lo hi d.buf.contents qs).sum := by
    rw [← hp.length_eq, List.length_map] at hst
    have := List.length_filter_le (Irs.inR lo hi) (Irs.sources rej lo hi d.buf.contents qs).flatten
    omega
  refine ⟨qs, hset, fun q hq => ?_, ⟨hle, by simp only; omega, hsz⟩, hpos, hfair _ hpos (hM _ hpos (by omega)), ?_, hp, hwsum, hl⟩
  · have := hsz q hq; omega
  · intro s hs hne
    refine hM _ (List.length_pos_iff.mpr hne) (le_trans ?_ hl)
    rw [List.length_flatten]
    exact List.le_sum_of_mem (List.mem_map.mpr ⟨s, hs, rfl⟩)

/-- What the counting theorems need about an insert-only index. -/
theorem irs_fair_setup {L : Layout} {tag : Bool} {pq : PQ R} (hpq : pq.ByRec) {lb : LB R K} {lwm hwm sf : Nat} {d0 : Index R}
    {ops : List (Index.Op R)}
    (hnew : Index.new L tag (sortedImpl pq lb) lwm hwm sf = .ok d0) (hlwm : 1 ≤ lwm) (hsf : 1 ≤ sf) (hio : InsertOnly ops)
    {F LF : Nat} (hF : 2 ≤ F) (hLF : 1 ≤ LF) (z : K) {al : AliasFn} {mx M : Nat} (hmx : ops.length ≤ mx) (hmx' : mx < 2 ^ 63)
    (hfair : ∀ ws : List Nat, 0 < ws.sum → ws.sum ∣ M → al.FairOn M ws) (hM : ∀ k, 1 ≤ k → k ≤ ops.length → k ∣ M)
    (rej : Bool) {lo hi : K} {r : R} (hr : .ins r ∈ ops) (hlo : lo ≤ key r) (hhi : key r ≤ hi) :
    ∃ d qs, d0.run ops = .ok (d, List.replicate ops.length true) ∧ IrsSetup (Isam.lowerBound F LF z) (Isam.upperBound F LF z) lo hi d qs ∧
      (∀ q ∈ qs, mx + q.data.length < 2 ^ 64) ∧ Irs.Safe ⟨fun _ => 0, mx⟩ lo hi d.buf.contents qs ∧
      0 < (Irs.weights rej lo hi d.buf.contents qs).sum ∧ al.FairOn M (Irs.weights rej lo hi d.buf.contents qs) ∧
      (∀ s ∈ Irs.sources rej lo hi d.buf.contents qs, s ≠ [] → s.length ∣ M) ∧
      (((Irs.sources rej lo hi d.buf.contents qs).flatten.filter (Irs.inR lo hi)).map Wrapped.record).Perm
        ((inserted ops).filter (fun r => decide (lo ≤ key r) && decide (key r ≤ hi))) ∧
      (Irs.weights rej lo hi d.buf.contents qs).sum = (Irs.sources rej lo hi d.buf.contents qs).flatten.length := by
  obtain ⟨d, h1, h2, h3, -⟩ := (new_clean hnew hlwm hsf).run ops hio
  obtain ⟨-, -, -, h4, h5, -⟩ := new_ginv hnew hlwm hsf
  obtain ⟨hd, -⟩ := new_ok hnew
  have hs := (run_sorted hpq (new_buf hnew hlwm) h4 (by rw [hd]) h1).visible
  rw [h5, zero_add] at h3
  have hlen := inserted_len ops
  have hmem : r ∈ inserted ops := by
    rw [← List.count_pos_iff, count_inserted]
    exact List.count_pos_iff.mpr hr
  obtain ⟨qs, g1, g2, g3, g4, g5, g6, g7, g8, -⟩ := irs_fair_of (Buffer.view_gets h2.inv.wf)
    (fun s hsm => ⟨KeySorted.of_rec (hs s hsm), (h2.shards s hsm).1⟩)
    (by rw [h3]; unfold insEntries; simp [Function.comp_def] : d.entries.map Entry.record = (inserted ops : Multiset R))
    hF hLF z (le_trans hlen hmx) hmx' hfair (fun k k1 k2 => hM k k1 (le_trans k2 hlen)) rej hmem hlo hhi
  exact ⟨d, qs, h1, g1, g2, g3, g4, g5, g6, g7, g8⟩

/-- C64, sampling without rejection: every record inserted into the range is equally likely to be drawn, whichever shard or
buffer holds it. Over all streams of `2n` uniform draws, the query always finishes, and record `r` is returned on average `n`
times its share of the insertions in range. `M`, the number of values of a draw, is taken divisible by all numbers up to the
number of records, so that the generator can be uniform below each of them. -/
theorem C64_unbiased {L : Layout} {tag : Bool} {pq : PQ R} (hpq : pq.ByRec) {lb : LB R K} {lwm hwm sf : Nat} {d0 : Index R}
    {ops : List (Index.Op R)}
    (hnew : Index.new L tag (sortedImpl pq lb) lwm hwm sf = .ok d0) (hlwm : 1 ≤ lwm) (hsf : 1 ≤ sf) (hio : InsertOnly ops)
    {F LF : Nat} (hF : 2 ≤ F) (hLF : 1 ≤ LF) (z : K) {al : AliasFn} (hal : al.Ok) {mx M : Nat} (hmx : ops.length ≤ mx) (hmx' : mx < 2 ^ 63)
    (hM0 : 0 < M) (hfair : ∀ ws : List Nat, 0 < ws.sum → ws.sum ∣ M → al.FairOn M ws) (hM : ∀ k, 1 ≤ k → k ≤ ops.length → k ∣ M)
    {lo hi : K} {r : R} (hr : .ins r ∈ ops) (hlo : lo ≤ key r) (hhi : key r ≤ hi) (n fuel : Nat) :
    ∃ d, ∃ out : (Fin (n + n) → Fin M) → List R, d0.run ops = .ok (d, List.replicate ops.length true) ∧
      (∀ t, d.irs false al ⟨tapeOf t, mx⟩ (Isam.lowerBound F LF z) (Isam.upperBound F LF z) lo hi n (fuel + 1) = .ok (some (out t))) ∧
      (∑ t, (out t).count r) * ((inserted ops).filter (fun r => decide (lo ≤ key r) && decide (key r ≤ hi))).length =
        n * insCount r ops * M ^ (n + n) := by
  obtain ⟨d, qs, h1, hset, hqs, hsafe, hpos, hfa, hdv, hp, hwsum⟩ :=
    irs_fair_setup hpq hnew hlwm hsf hio hF hLF z hmx hmx' hfair hM false hr hlo hhi
  obtain ⟨G, hG⟩ := Irs.round_shift (rej := false) hal hset.exact hsafe hpos n
  have hround : ∀ t : Fin (n + n) → Fin M, Irs.round false al ⟨tapeOf t, mx⟩ lo hi d.buf.contents qs n 0 = .ok (G (tapeOf t), 0 + n + n) := by
    intro t
    rw [hG]
    simp only [Nat.zero_add]
  refine ⟨d, fun t => G (tapeOf t), h1, ?_, ?_⟩
  · intro t
    rw [hset.eq]
    obtain ⟨res, e1, e2⟩ := Irs.loop_one (rej := false) hal (g := ⟨tapeOf t, mx⟩)
      (fun q hq => ⟨hset.exact q hq, hqs q hq⟩) hsafe ⟨Or.inl rfl, by omega⟩ n fuel
    rw [e1]
    unfold Irs.loop at e1
    rw [hround] at e1
    simp only [bind, Except.bind, List.nil_append] at e1
    split at e1
    · next hc =>
      exfalso
      have hg := (Irs.round_good (rej := false) hal (g := ⟨tapeOf t, mx⟩) (fun q hq => ⟨hset.exact q hq, hqs q hq⟩) n 0).elim (hround t)
      have := hg.2.2 ⟨Or.inl rfl, by omega⟩
      simp only at this
      omega
    · exact e1.symm
  · have := Irs.round_unbiased (rej := false) hal hM0 hset.exact hsafe hpos hfa hdv n r (fun t => G (tapeOf t)) (fun t => ⟨_, hround t⟩)
    have e1 : (Irs.weights false lo hi d.buf.contents qs).sum =
        ((inserted ops).filter (fun r => decide (lo ≤ key r) && decide (key r ≤ hi))).length := by
      rw [hwsum, ← hp.length_eq, List.length_map]
      congr 1
      symm
      rw [List.filter_eq_self]
      intro w hw
      unfold Irs.sources Irs.bufSrc at hw
      rw [List.flatten_cons, List.mem_append] at hw
      rcases hw with hw | hw
      · exact (List.mem_filter.mp (by simpa using hw)).2
      · rw [List.mem_flatten] at hw
        obtain ⟨l, hl, hw⟩ := hw
        obtain ⟨q, hq, rfl⟩ := List.mem_map.mp hl
        rw [(hset.exact q hq).slice (le_trans hlo hhi)] at hw
        exact (List.mem_filter.mp hw).2
    rw [e1] at this
    rw [this, hp.count_eq, List.count_filter (by simp [hlo, hhi]), count_inserted]
    ring

/-- C64, sampling with rejection, the default: a query for one sample. Whatever number of rounds is allowed, all records
inserted into the range are equally likely to be the sample: the numbers of streams for which `r` and `s` are returned are
as the numbers of their insertions, and neither is 0. -/
theorem C64_rejection {L : Layout} {tag : Bool} {pq : PQ R} (hpq : pq.ByRec) {lb : LB R K} {lwm hwm sf : Nat} {d0 : Index R}
    {ops : List (Index.Op R)}
    (hnew : Index.new L tag (sortedImpl pq lb) lwm hwm sf = .ok d0) (hlwm : 1 ≤ lwm) (hsf : 1 ≤ sf) (hio : InsertOnly ops)
    {F LF : Nat} (hF : 2 ≤ F) (hLF : 1 ≤ LF) (z : K) {al : AliasFn} (hal : al.Ok) {mx M : Nat} (hmx : ops.length ≤ mx) (hmx' : mx < 2 ^ 63)
    (hM0 : 0 < M) (hfair : ∀ ws : List Nat, 0 < ws.sum → ws.sum ∣ M → al.FairOn M ws) (hM : ∀ k, 1 ≤ k → k ≤ ops.length → k ∣ M)
    {lo hi : K} {r s : R} (hr : .ins r ∈ ops) (hlo : lo ≤ key r) (hhi : key r ≤ hi) (hlo' : lo ≤ key s) (hhi' : key s ≤ hi) (fuel : Nat) :
    ∃ d, d0.run ops = .ok (d, List.replicate ops.length true) ∧
      let N := fun x : R => ∑ t : Fin ((1 + 1) * (fuel + 1)) → Fin M,
        if d.irs true al ⟨tapeOf t, mx⟩ (Isam.lowerBound F LF z) (Isam.upperBound F LF z) lo hi 1 (fuel + 1) = .ok (some [x]) then 1 else 0
      N r * insCount s ops = N s * insCount r ops ∧ 0 < N r := by
  obtain ⟨d, qs, h1, hset, hqs, hsafe, hpos, hfa, hdv, hp, hwsum⟩ :=
    irs_fair_setup hpq hnew hlwm hsf hio hF hLF z hmx hmx' hfair hM true hr hlo hhi
  refine ⟨d, h1, ?_⟩
  obtain ⟨G, hG⟩ := Irs.round_shift (rej := true) hal hset.exact hsafe hpos 1
  have hround : ∀ t : Fin (1 + 1) → Fin M, Irs.round true al ⟨tapeOf t, mx⟩ lo hi d.buf.contents qs 1 0 = .ok (G (tapeOf t), 0 + 1 + 1) := by
    intro t
    rw [hG]
    simp only [Nat.zero_add]
  have hone : ∀ x : R, lo ≤ key x → key x ≤ hi →
      (∑ t : Fin (1 + 1) → Fin M, (G (tapeOf t)).count x) * (Irs.weights true lo hi d.buf.contents qs).sum =
        M ^ (1 + 1) * insCount x ops := by
    intro x hx hx'
    rw [Irs.round_unbiased (rej := true) hal hM0 hset.exact hsafe hpos hfa hdv 1 x (fun t => G (tapeOf t)) (fun t => ⟨_, hround t⟩),
      hp.count_eq, List.count_filter (by simp [hx, hx']), count_inserted]
    ring
  have hprop : (∑ t : Fin (1 + 1) → Fin M, (G (tapeOf t)).count r) * insCount s ops =
      (∑ t : Fin (1 + 1) → Fin M, (G (tapeOf t)).count s) * insCount r ops := by
    apply Nat.eq_of_mul_eq_mul_right hpos
    calc _ = ((∑ t : Fin (1 + 1) → Fin M, (G (tapeOf t)).count r) * (Irs.weights true lo hi d.buf.contents qs).sum) * insCount s ops := by ring
      _ = ((∑ t : Fin (1 + 1) → Fin M, (G (tapeOf t)).count s) * (Irs.weights true lo hi d.buf.contents qs).sum) * insCount r ops := by
        rw [hone r hlo hhi, hone s hlo' hhi']; ring
      _ = _ := by ring
  have hbase : 0 < ∑ t : Fin (1 + 1) → Fin M, (G (tapeOf t)).count r := by
    have h := hone r hlo hhi
    have h2 : 0 < insCount r ops := by
      unfold insCount; exact List.count_pos_iff.mpr hr
    by_contra hc
    have h0 : ∑ t : Fin (1 + 1) → Fin M, (G (tapeOf t)).count r = 0 := by omega
    rw [h0, Nat.zero_mul] at h
    have : 0 < M ^ (1 + 1) * insCount r ops := Nat.mul_pos (Nat.pow_pos hM0) h2
    omega
  have hsucc := fun x f => Irs.hits_succ (M := M) hal hqs hset.exact hsafe hpos hG x f
  have hN : ∀ x : R, (∑ t : Fin ((1 + 1) * (fuel + 1)) → Fin M,
      if d.irs true al ⟨tapeOf t, mx⟩ (Isam.lowerBound F LF z) (Isam.upperBound F LF z) lo hi 1 (fuel + 1) = .ok (some [x]) then 1 else 0) =
      Irs.hits true al mx M lo hi d.buf.contents qs x (fuel + 1) := by
    intro x
    unfold Irs.hits
    simp only [hset.eq]
  simp only [hN]
  have hh : ∀ f, Irs.hits true al mx M lo hi d.buf.contents qs r f * insCount s ops =
      Irs.hits true al mx M lo hi d.buf.contents qs s f * insCount r ops := by
    intro f
    induction f with
    | zero => simp [Irs.hits, Irs.loop]
    | succ f ih =>
      rw [hsucc, hsucc]
      generalize (∑ x : Fin (1 + 1) → Fin M, if G (tapeOf x) = [] then 1 else 0) = E at *
      generalize M ^ ((1 + 1) * f) = P at *
      rw [Nat.add_mul, Nat.add_mul]
      congr 1
      · rw [Nat.mul_right_comm, hprop, Nat.mul_right_comm]
      · rw [Nat.mul_assoc, ih, Nat.mul_assoc]
  refine ⟨hh _, ?_⟩
  rw [hsucc]
  have := Nat.mul_pos hbase (Nat.pow_pos (n := (1 + 1) * fuel) hM0)
  omega

/-! ### The hypotheses are met -/

theorem sum_pickW : ∀ (ws : List Nat) (i : Nat), (∑ u ∈ range ws.sum, if pickW ws u = i then 1 else 0) = ws.getD i 0
  | [], i => by simp
  | w :: ws, i => by
    rw [List.sum_cons, Finset.sum_range_add]
    have h1 : (∑ u ∈ range w, if pickW (w :: ws) u = i then 1 else 0) = if i = 0 then w else 0 := by
      rw [Finset.sum_congr rfl (g := fun _ => if i = 0 then 1 else 0)]
      · split <;> simp
      · intro u hu
        have := Finset.mem_range.mp hu
        unfold pickW
        rw [if_pos this]
        by_cases h : i = 0 <;> simp [h, eq_comm]
    have h2 : (∑ u ∈ range ws.sum, if pickW (w :: ws) (w + u) = i then 1 else 0) = if i = 0 then 0 else ws.getD (i - 1) 0 := by
      have e : ∀ u, pickW (w :: ws) (w + u) = pickW ws u + 1 := by
        intro u
        conv_lhs => unfold pickW
        rw [if_neg (by omega)]
        congr 2; omega
      simp only [e]
      cases i with
      | zero => simp
      | succ i => simpa using sum_pickW ws i
    rw [h1, h2]
    cases i <;> simp

/-- The straightforward alias structure is fair. -/
theorem aliasStd_fair {M : Nat} (ws : List Nat) (h : ws.sum ∣ M) : aliasStd.FairOn M ws := by
  intro i
  obtain ⟨k, rfl⟩ := h
  rw [Fin.sum_univ_eq_sum_range (fun v => if aliasStd ws v = i then 1 else 0) (ws.sum * k)]
  unfold aliasStd
  rw [sum_mod (fun u => if pickW ws u = i then 1 else 0) ws.sum k, sum_pickW]
  ring

/-- The hypotheses of `C64_unbiased` and `C64_rejection`: nine records in shards and buffer, the range 3..8. -/
example : ∃ d0 : Index Rec, mk .tiering false 2 2 2 = .ok d0 ∧ InsertOnly (insSeq 1 9) ∧ aliasStd.Ok ∧
    (insSeq 1 9).length ≤ (2 ^ 32 : Nat) ∧ (2 : Nat) ^ 32 < 2 ^ 63 ∧ 0 < (insSeq 1 9).length.factorial ∧
    (∀ ws : List Nat, 0 < ws.sum → ws.sum ∣ (insSeq 1 9).length.factorial → aliasStd.FairOn (insSeq 1 9).length.factorial ws) ∧
    (∀ k, 1 ≤ k → k ≤ (insSeq 1 9).length → k ∣ (insSeq 1 9).length.factorial) ∧
    Index.Op.ins (⟨4, 4⟩ : Rec) ∈ insSeq 1 9 ∧ (3 : Nat) ≤ key (⟨4, 4⟩ : Rec) ∧ key (⟨4, 4⟩ : Rec) ≤ (8 : Nat) :=
  ⟨_, rfl, insSeq_insertOnly _ _, aliasStd_ok, by decide, by decide, Nat.factorial_pos _, fun ws _ h => aliasStd_fair ws h,
    fun _ h1 h2 => Nat.dvd_factorial h1 h2, by decide, by decide, by decide⟩

end DE
