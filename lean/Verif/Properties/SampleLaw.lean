import Verif.Proofs.SampleLaw
import Verif.Properties.Unbiased

/-!
C115: the samples of a range query are independent. As in C64, probabilities are counts over all random streams.

`Irs.onRes h` is the quantity `h` of the records returned, and 0 for a query that has not returned. The ideal is `m` independent
uniform draws from the list `rs` of the records inserted into the range: a function `f : Fin m → Fin rs.length`, all of them
equally likely.
-/

namespace DE
variable {R K : Type} [LinearOrder R] [LinearOrder K] [HasKey R K] [Inhabited R]
open Finset

/-- The records inserted into a range. -/
def inserts (ops : List (Index.Op R)) (lo hi : K) : List R := (inserted ops).filter (fun r => decide (lo ≤ key r) && decide (key r ≤ hi))

/-- The law of a range sampling query on an index that stores the records `rs`. -/
theorem irs_law {d : Index R} (hg : d.buf.view.gets = .ok d.buf.contents)
    (hs : ∀ s ∈ d.str.visible, s.data.Pairwise (fun a b => key (K := K) a.record ≤ key b.record) ∧ s.data ≠ [])
    {rs : List R} (hrs : d.entries.map Entry.record = (rs : Multiset R))
    {F LF : Nat} (hF : 2 ≤ F) (hLF : 1 ≤ LF) (z : K) {al : AliasFn} (hal : al.Ok) {mx M : Nat} (hmx : rs.length ≤ mx) (hmx' : mx < 2 ^ 63)
    (hM0 : 0 < M) (hfair : ∀ ws : List Nat, 0 < ws.sum → ws.sum ∣ M → al.FairOn M ws) (hM : ∀ k, 1 ≤ k → k ≤ rs.length → k ∣ M)
    {lo hi : K} {r : R} (hr : r ∈ rs) (hlo : lo ≤ key r) (hhi : key r ≤ hi) (rej : Bool) (n fuel : Nat) :
    let query := fun t : Fin ((n + n) * fuel) → Fin M =>
      d.irs rej al ⟨tapeOf t, mx⟩ (Isam.lowerBound F LF z) (Isam.upperBound F LF z) lo hi n fuel
    let stored := rs.filter (fun r => decide (lo ≤ key r) && decide (key r ≤ hi))
    (∀ (m : Nat) (g : Multiset R → Nat),
      (∑ t, Irs.onRes (fun o : List R => if o.length = m then g o else 0) (query t)) * stored.length ^ m =
      (∑ t, Irs.onRes (fun o : List R => if o.length = m then 1 else 0) (query t)) *
        ∑ f : Fin m → Fin stored.length, g (List.ofFn (fun j => stored.get (f j)))) ∧
    (1 ≤ fuel → 0 < ∑ t, Irs.onRes (fun o : List R => if o.length = n then 1 else 0) (query t)) := by
  intro query stored
  obtain ⟨qs, hset, hqs, hsafe, hpos, hfa, hdv, hp, hwsum, -⟩ := irs_fair_of hg hs hrs hF hLF z hmx hmx' hfair hM rej hr hlo hhi
  have hne : stored ≠ [] := List.ne_nil_of_mem (List.mem_filter.mpr ⟨hr, by simp [hlo, hhi]⟩ : r ∈ stored)
  refine ⟨fun m g => ?_, fun hf => ?_⟩
  · simp only [query, hset.eq]
    exact Irs.query_law hal hM0 hqs hset.exact hsafe hpos hfa hdv hp hne g n m fuel
  · obtain ⟨G, hG⟩ := Irs.round_shift (rej := rej) hal hset.exact hsafe hpos n
    have hround : ∀ t : Fin (n + n) → Fin M, Irs.round rej al ⟨tapeOf t, mx⟩ lo hi d.buf.contents qs n 0 = .ok (G (tapeOf t), 0 + n + n) := by
      intro t
      rw [hG]
      simp only [Nat.zero_add]
    have hcount := (Irs.round_law hal hM0 hset.exact hsafe hpos hfa hdv n (fun t => G (tapeOf t)) (fun t => ⟨_, hround t⟩) n).2 rfl (by
      have e : Irs.inCount rej lo hi d.buf.contents qs = stored.length := by
        rw [← hp.length_eq, List.length_map]; rfl
      rw [e]
      exact List.length_pos_iff.mpr hne)
    obtain ⟨x, -, hx⟩ := Finset.exists_ne_zero_of_sum_ne_zero (Nat.pos_iff_ne_zero.mp hcount)
    have hx' : (G (tapeOf x)).length = n := by
      by_contra hc
      rw [if_neg hc] at hx
      exact hx rfl
    obtain ⟨f, rfl⟩ : ∃ f, fuel = f + 1 := ⟨fuel - 1, by omega⟩
    -- any stream that begins with `x`
    have hle : n + n ≤ (n + n) * (f + 1) := by rw [Nat.mul_succ]; omega
    apply Finset.sum_pos'
    · intros; exact Nat.zero_le _
    · refine ⟨fun i => if h : i.1 < n + n then x ⟨i.1, h⟩ else ⟨0, hM0⟩, Finset.mem_univ _, ?_⟩
      set t : Fin ((n + n) * (f + 1)) → Fin M := fun i => if h : i.1 < n + n then x ⟨i.1, h⟩ else ⟨0, hM0⟩ with ht
      have hag : G (fun i => tapeOf t (0 + i)) = G (tapeOf x) := by
        apply Irs.round_local hal hset.exact hsafe hpos hG
        intro i hi
        unfold tapeOf
        rw [dif_pos (by omega), dif_pos hi, ht]
        simp [hi]
      simp only [query, hset.eq]
      unfold Irs.loop
      rw [hG, hag]
      simp [bind, Except.bind, hx', Irs.onRes]

/-- C115 for multisets: after inserts only, on every layout, with or without rejection, whatever number of rounds is allowed:
given that a query for `n` samples returns `m` records, these are, in any order, `m` independent uniform draws from the records
inserted into the range. Every quantity `g` of the samples that does not look at their order has the same mean as over ideal
draws. For `m = n` there are such streams.

Missing: `m` may be less than `n` (C35), and the order is not random (`C115_false`). -/
theorem C115_partial {L : Layout} {tag : Bool} {pq : PQ R} (hpq : pq.ByRec) {lb : LB R K} {lwm hwm sf : Nat} {d0 : Index R}
    {ops : List (Index.Op R)}
    (hnew : Index.new L tag (sortedImpl pq lb) lwm hwm sf = .ok d0) (hlwm : 1 ≤ lwm) (hsf : 1 ≤ sf) (hio : InsertOnly ops)
    {F LF : Nat} (hF : 2 ≤ F) (hLF : 1 ≤ LF) (z : K) {al : AliasFn} (hal : al.Ok) {mx M : Nat} (hmx : ops.length ≤ mx) (hmx' : mx < 2 ^ 63)
    (hM0 : 0 < M) (hfair : ∀ ws : List Nat, 0 < ws.sum → ws.sum ∣ M → al.FairOn M ws) (hM : ∀ k, 1 ≤ k → k ≤ ops.length → k ∣ M)
    {lo hi : K} {r : R} (hr : .ins r ∈ ops) (hlo : lo ≤ key r) (hhi : key r ≤ hi) (rej : Bool) :
    ∃ d, d0.run ops = .ok (d, List.replicate ops.length true) ∧ ∀ n fuel : Nat,
      let query := fun t : Fin ((n + n) * fuel) → Fin M =>
        d.irs rej al ⟨tapeOf t, mx⟩ (Isam.lowerBound F LF z) (Isam.upperBound F LF z) lo hi n fuel
      (∀ (m : Nat) (g : Multiset R → Nat),
        (∑ t, Irs.onRes (fun o : List R => if o.length = m then g o else 0) (query t)) * (inserts ops lo hi).length ^ m =
        (∑ t, Irs.onRes (fun o : List R => if o.length = m then 1 else 0) (query t)) *
          ∑ f : Fin m → Fin (inserts ops lo hi).length, g (List.ofFn (fun j => (inserts ops lo hi).get (f j)))) ∧
      (1 ≤ fuel → 0 < ∑ t, Irs.onRes (fun o : List R => if o.length = n then 1 else 0) (query t)) := by
  obtain ⟨d, h1, h2, h3, -⟩ := (new_clean hnew hlwm hsf).run ops hio
  obtain ⟨-, -, -, h4, h5, -⟩ := new_ginv hnew hlwm hsf
  obtain ⟨hd, -⟩ := new_ok hnew
  have hs := (run_sorted hpq (new_buf hnew hlwm) h4 (by rw [hd]) h1).visible
  rw [h5, zero_add] at h3
  have hlen := inserted_len ops
  have hmem : r ∈ inserted ops := by
    rw [← List.count_pos_iff, count_inserted]
    exact List.count_pos_iff.mpr hr
  exact ⟨d, h1, irs_law (Buffer.view_gets h2.inv.wf) (fun s hsm => ⟨KeySorted.of_rec (hs s hsm), (h2.shards s hsm).1⟩)
    (by rw [h3]; unfold insEntries; simp [Function.comp_def] : d.entries.map Entry.record = (inserted ops : Multiset R))
    hF hLF z hal (le_trans hlen hmx) hmx' hM0 hfair (fun k k1 k2 => hM k k1 (le_trans k2 hlen)) hmem hlo hhi rej⟩

/-- C115 after any history, with erases of either kind, as long as no empty shard is stored: given that a query returns `m` records, these
are, in any order, `m` independent uniform draws from everything that is stored in the range, where a tombstone counts as a copy of the
record it erases and a tagged record still counts.

Missing: as for `C115_partial`; and an erased record is still drawn (C35). -/
theorem C115_stored_partial {L : Layout} {tag : Bool} {pq : PQ R} (hpq : pq.ByRec) {lb : LB R K} {lwm hwm sf : Nat} {d0 d : Index R}
    {ops : List (Index.Op R)} {bs : List Bool}
    (hnew : Index.new L tag (sortedImpl pq lb) lwm hwm sf = .ok d0) (hlwm : 1 ≤ lwm) (hsf : 1 ≤ sf) (hrun : d0.run ops = .ok (d, bs))
    (hvis : ∀ s ∈ d.str.visible, s.data ≠ []) {rs : List R} (hrs : d.entries.map Entry.record = (rs : Multiset R))
    {F LF : Nat} (hF : 2 ≤ F) (hLF : 1 ≤ LF) (z : K) {al : AliasFn} (hal : al.Ok) {mx M : Nat} (hmx : rs.length ≤ mx) (hmx' : mx < 2 ^ 63)
    (hM0 : 0 < M) (hfair : ∀ ws : List Nat, 0 < ws.sum → ws.sum ∣ M → al.FairOn M ws) (hM : ∀ k, 1 ≤ k → k ≤ rs.length → k ∣ M)
    {lo hi : K} {r : R} (hr : r ∈ rs) (hlo : lo ≤ key r) (hhi : key r ≤ hi) (rej : Bool) (n fuel : Nat) :
    let query := fun t : Fin ((n + n) * fuel) → Fin M =>
      d.irs rej al ⟨tapeOf t, mx⟩ (Isam.lowerBound F LF z) (Isam.upperBound F LF z) lo hi n fuel
    let stored := rs.filter (fun r => decide (lo ≤ key r) && decide (key r ≤ hi))
    (∀ (m : Nat) (g : Multiset R → Nat),
      (∑ t, Irs.onRes (fun o : List R => if o.length = m then g o else 0) (query t)) * stored.length ^ m =
      (∑ t, Irs.onRes (fun o : List R => if o.length = m then 1 else 0) (query t)) *
        ∑ f : Fin m → Fin stored.length, g (List.ofFn (fun j => stored.get (f j)))) ∧
    (1 ≤ fuel → 0 < ∑ t, Irs.onRes (fun o : List R => if o.length = n then 1 else 0) (query t)) := by
  obtain ⟨-, -, -, h4, -, -⟩ := new_ginv hnew hlwm hsf
  obtain ⟨hd, -⟩ := new_ok hnew
  have hs := (run_sorted hpq (new_buf hnew hlwm) h4 (by rw [hd]) hrun).visible
  exact irs_law (Buffer.view_gets (run_buf ops (new_buf hnew hlwm) hrun).1.wf) (fun s hsm => ⟨KeySorted.of_rec (hs s hsm), hvis s hsm⟩)
    hrs hF hLF z hal hmx hmx' hM0 hfair hM hr hlo hhi rej n fuel

/-- C115 without rejection: a query for `n` samples always returns `n`, and they are, in any order, `n` independent uniform
draws from the records inserted into the range. -/
theorem C115_exact {L : Layout} {tag : Bool} {pq : PQ R} (hpq : pq.ByRec) {lb : LB R K} {lwm hwm sf : Nat} {d0 : Index R}
    {ops : List (Index.Op R)}
    (hnew : Index.new L tag (sortedImpl pq lb) lwm hwm sf = .ok d0) (hlwm : 1 ≤ lwm) (hsf : 1 ≤ sf) (hio : InsertOnly ops)
    {F LF : Nat} (hF : 2 ≤ F) (hLF : 1 ≤ LF) (z : K) {al : AliasFn} (hal : al.Ok) {mx M : Nat} (hmx : ops.length ≤ mx) (hmx' : mx < 2 ^ 63)
    (hM0 : 0 < M) (hfair : ∀ ws : List Nat, 0 < ws.sum → ws.sum ∣ M → al.FairOn M ws) (hM : ∀ k, 1 ≤ k → k ≤ ops.length → k ∣ M)
    {lo hi : K} {r : R} (hr : .ins r ∈ ops) (hlo : lo ≤ key r) (hhi : key r ≤ hi) (n fuel : Nat) :
    ∃ d, ∃ out : (Fin ((n + n) * (fuel + 1)) → Fin M) → List R, d0.run ops = .ok (d, List.replicate ops.length true) ∧
      (∀ t, d.irs false al ⟨tapeOf t, mx⟩ (Isam.lowerBound F LF z) (Isam.upperBound F LF z) lo hi n (fuel + 1) = .ok (some (out t)) ∧
        (out t).length = n) ∧
      ∀ g : Multiset R → Nat, (∑ t, g (out t)) * (inserts ops lo hi).length ^ n =
        M ^ ((n + n) * (fuel + 1)) * ∑ f : Fin n → Fin (inserts ops lo hi).length, g (List.ofFn (fun j => (inserts ops lo hi).get (f j))) := by
  obtain ⟨d, h1, hlaw⟩ := C115_partial hpq hnew hlwm hsf hio hF hLF z hal hmx hmx' hM0 hfair hM hr hlo hhi false
  obtain ⟨d', qs, h1', hset, hqs, hsafe, hpos, hfa, hdv, hp, hwsum⟩ :=
    irs_fair_setup hpq hnew hlwm hsf hio hF hLF z hmx hmx' hfair hM false hr hlo hhi
  rw [h1] at h1'
  cases h1'
  have hall : ∀ t : Fin ((n + n) * (fuel + 1)) → Fin M, ∃ o,
      d.irs false al ⟨tapeOf t, mx⟩ (Isam.lowerBound F LF z) (Isam.upperBound F LF z) lo hi n (fuel + 1) = .ok (some o) ∧ o.length = n := by
    intro t
    obtain ⟨res, e1, e2⟩ := Irs.loop_one (rej := false) hal (g := ⟨tapeOf t, mx⟩)
      (fun q hq => ⟨hset.exact q hq, hqs q hq⟩) hsafe ⟨Or.inl rfl, by omega⟩ n fuel
    exact ⟨res, by rw [hset.eq, e1], e2⟩
  choose out hout hlen using hall
  refine ⟨d, out, h1, fun t => ⟨hout t, hlen t⟩, fun g => ?_⟩
  have h := (hlaw n (fuel + 1)).1 n g
  simp only [hout, Irs.onRes, hlen, if_true] at h
  rw [h]
  simp

omit [LinearOrder R] [Inhabited R] in
/-- Products of independent draws. -/
theorem sum_draws_all (rs : List R) (B : R → Bool) (m : Nat) :
    (∑ f : Fin m → Fin rs.length, if (List.ofFn (fun j => rs.get (f j))).all B then 1 else 0) = rs.countP B ^ m := by
  have h : rs.countP B = ∑ i : Fin rs.length, if B (rs.get i) then 1 else 0 := by
    clear * -
    induction rs with
    | nil => rfl
    | cons a rs ih =>
      rw [List.countP_cons, ih]
      simp only [List.length_cons]
      rw [Fin.sum_univ_succ, add_comm]
      rfl
  rw [h, Fintype.sum_pow]
  apply Finset.sum_congr rfl
  intro f _
  rw [Finset.prod_ite_zero]
  simp [List.all_eq_true, List.mem_ofFn]

/-- C115 read as probabilities: given that `m` records are returned, all of them lie in a set `B` with probability
`(|B| / N) ^ m`, where `N` insertions are in range and `|B|` of them are in `B`. -/
theorem C115_all_in {L : Layout} {tag : Bool} {pq : PQ R} (hpq : pq.ByRec) {lb : LB R K} {lwm hwm sf : Nat} {d0 : Index R}
    {ops : List (Index.Op R)}
    (hnew : Index.new L tag (sortedImpl pq lb) lwm hwm sf = .ok d0) (hlwm : 1 ≤ lwm) (hsf : 1 ≤ sf) (hio : InsertOnly ops)
    {F LF : Nat} (hF : 2 ≤ F) (hLF : 1 ≤ LF) (z : K) {al : AliasFn} (hal : al.Ok) {mx M : Nat} (hmx : ops.length ≤ mx) (hmx' : mx < 2 ^ 63)
    (hM0 : 0 < M) (hfair : ∀ ws : List Nat, 0 < ws.sum → ws.sum ∣ M → al.FairOn M ws) (hM : ∀ k, 1 ≤ k → k ≤ ops.length → k ∣ M)
    {lo hi : K} {r : R} (hr : .ins r ∈ ops) (hlo : lo ≤ key r) (hhi : key r ≤ hi) (rej : Bool) :
    ∃ d, d0.run ops = .ok (d, List.replicate ops.length true) ∧ ∀ (n fuel m : Nat) (B : R → Bool),
      let query := fun t : Fin ((n + n) * fuel) → Fin M =>
        d.irs rej al ⟨tapeOf t, mx⟩ (Isam.lowerBound F LF z) (Isam.upperBound F LF z) lo hi n fuel
      (∑ t, Irs.onRes (fun o : List R => if o.length = m ∧ o.all B then 1 else 0) (query t)) * (inserts ops lo hi).length ^ m =
        (∑ t, Irs.onRes (fun o : List R => if o.length = m then 1 else 0) (query t)) * (inserts ops lo hi).countP B ^ m := by
  obtain ⟨d, h1, hlaw⟩ := C115_partial hpq hnew hlwm hsf hio hF hLF z hal hmx hmx' hM0 hfair hM hr hlo hhi rej
  refine ⟨d, h1, fun n fuel m B => ?_⟩
  have h := (hlaw n fuel).1 m (fun s => if ∀ x ∈ s, B x = true then 1 else 0)
  intro query
  rw [← sum_draws_all (inserts ops lo hi) B m]
  have e : ∀ l : List R, (if ∀ x ∈ (l : Multiset R), B x = true then 1 else 0 : Nat) = if l.all B then 1 else 0 := by
    intro l
    simp [List.all_eq_true]
  simp only [e] at h
  have e2 : (fun o : List R => if o.length = m ∧ o.all B then 1 else 0) = fun o : List R => if o.length = m then (if o.all B then 1 else 0) else 0 := by
    funext o
    by_cases h1 : o.length = m <;> simp [h1]
  rw [e2]
  exact h

omit [Inhabited R] in
theorem sum_draws_count (rs : List R) (r : R) (m : Nat) :
    (∑ f : Fin m → Fin rs.length, (List.ofFn (fun j => rs.get (f j))).count r) * rs.length = m * (rs.length ^ m * rs.count r) := by
  have h : rs.count r = ∑ i : Fin rs.length, if rs.getD i r = r then 1 else 0 := by
    clear * -
    induction rs with
    | nil => rfl
    | cons a rs ih =>
      rw [List.count_cons, ih]
      simp only [List.length_cons]
      rw [Fin.sum_univ_succ, add_comm]
      simp
  have h2 : ∀ f : Fin m → Fin rs.length, (List.ofFn (fun j => rs.get (f j))).count r = ∑ j : Fin m, if rs.getD (f j) r = r then 1 else 0 := by
    intro f
    have : ∀ (m : Nat) (u : Fin m → R), (List.ofFn u).count r = ∑ j : Fin m, if u j = r then 1 else 0 := by
      intro m
      induction m with
      | zero => intro u; simp
      | succ m ih =>
        intro u
        rw [List.ofFn_succ, List.count_cons, ih, Fin.sum_univ_succ, add_comm]
        simp
    rw [this]
    apply Finset.sum_congr rfl
    intro j _
    simp
  simp only [h2]
  rw [Finset.sum_comm, Finset.sum_mul, h]
  rw [Finset.sum_congr rfl (fun j _ => sum_marginal (fun v => if rs.getD v r = r then 1 else 0) j)]
  simp

/-- C64 for queries of any number of samples with rejection: given that `m` records are returned, every record inserted into
the range is among them `m` times its share of the insertions, on average. -/
theorem C64_rejection_many {L : Layout} {tag : Bool} {pq : PQ R} (hpq : pq.ByRec) {lb : LB R K} {lwm hwm sf : Nat} {d0 : Index R}
    {ops : List (Index.Op R)}
    (hnew : Index.new L tag (sortedImpl pq lb) lwm hwm sf = .ok d0) (hlwm : 1 ≤ lwm) (hsf : 1 ≤ sf) (hio : InsertOnly ops)
    {F LF : Nat} (hF : 2 ≤ F) (hLF : 1 ≤ LF) (z : K) {al : AliasFn} (hal : al.Ok) {mx M : Nat} (hmx : ops.length ≤ mx) (hmx' : mx < 2 ^ 63)
    (hM0 : 0 < M) (hfair : ∀ ws : List Nat, 0 < ws.sum → ws.sum ∣ M → al.FairOn M ws) (hM : ∀ k, 1 ≤ k → k ≤ ops.length → k ∣ M)
    {lo hi : K} {r : R} (hr : .ins r ∈ ops) (hlo : lo ≤ key r) (hhi : key r ≤ hi) (rej : Bool) :
    ∃ d, d0.run ops = .ok (d, List.replicate ops.length true) ∧ ∀ n fuel m : Nat,
      let query := fun t : Fin ((n + n) * fuel) → Fin M =>
        d.irs rej al ⟨tapeOf t, mx⟩ (Isam.lowerBound F LF z) (Isam.upperBound F LF z) lo hi n fuel
      (∑ t, Irs.onRes (fun o : List R => if o.length = m then o.count r else 0) (query t)) * (inserts ops lo hi).length =
        (∑ t, Irs.onRes (fun o : List R => if o.length = m then 1 else 0) (query t)) * (m * insCount r ops) := by
  obtain ⟨d, h1, hlaw⟩ := C115_partial hpq hnew hlwm hsf hio hF hLF z hal hmx hmx' hM0 hfair hM hr hlo hhi rej
  refine ⟨d, h1, fun n fuel m => ?_⟩
  have h := (hlaw n fuel).1 m (fun s => s.count r)
  intro query
  simp only [Multiset.coe_count] at h
  have hcr : (inserts ops lo hi).count r = insCount r ops := by
    unfold inserts
    rw [List.count_filter (by simp [hlo, hhi]), count_inserted]
  have hpos : 0 < (inserts ops lo hi).length := by
    have : 0 < (inserts ops lo hi).count r := by rw [hcr]; exact List.count_pos_iff.mpr hr
    exact List.length_pos_of_mem (List.count_pos_iff.mp this)
  have hd := sum_draws_count (inserts ops lo hi) r m
  rw [hcr] at hd
  apply Nat.eq_of_mul_eq_mul_right (Nat.pow_pos (n := m) hpos)
  calc _ = ((∑ t, Irs.onRes (fun o : List R => if o.length = m then o.count r else 0) (query t)) * (inserts ops lo hi).length ^ m) *
        (inserts ops lo hi).length := by ring
    _ = (∑ t, Irs.onRes (fun o : List R => if o.length = m then 1 else 0) (query t)) *
        ((∑ f : Fin m → Fin (inserts ops lo hi).length, (List.ofFn (fun j => (inserts ops lo hi).get (f j))).count r) * (inserts ops lo hi).length) := by
      rw [h]; ring
    _ = _ := by rw [hd]; ring

/-- As sequences the samples are not independent: the buffer is sampled first. With one record in a shard and one in the buffer,
a query for two samples returns the shard's before the buffer's for no stream, where independent draws would for a quarter of
them; the other order comes twice as often as it should. -/
theorem C115_false : ∃ d0 d : Index Rec, mk .tiering false 1 1 2 = .ok d0 ∧ d0.run (insSeq 1 2) = .ok (d, [true, true]) ∧
    inserts (insSeq 1 2) 1 2 = [⟨1, 1⟩, ⟨2, 2⟩] ∧
    let N := fun o : List Rec => ∑ t : Fin 4 → Fin 2,
      if d.irs false aliasStd ⟨tapeOf t, 2 ^ 32⟩ (Isam.lowerBound 2 2 0) (Isam.upperBound 2 2 0) 1 2 2 1 = .ok (some o) then 1 else 0
    N [⟨1, 1⟩, ⟨2, 2⟩] = 0 ∧ N [⟨2, 2⟩, ⟨1, 1⟩] = 8 ∧ N [⟨1, 1⟩, ⟨1, 1⟩] = 4 ∧ N [⟨2, 2⟩, ⟨2, 2⟩] = 4 :=
  ⟨_, _, rfl, rfl, by decide, by decide, by decide, by decide, by decide⟩

/-- The hypotheses of the theorems above for that index: two values per draw are enough. -/
example : ∃ d0 : Index Rec, mk .tiering false 1 1 2 = .ok d0 ∧ InsertOnly (insSeq 1 2) ∧ aliasStd.Ok ∧
    (∀ ws : List Nat, 0 < ws.sum → ws.sum ∣ 2 → aliasStd.FairOn 2 ws) ∧ (∀ k, 1 ≤ k → k ≤ (insSeq 1 2).length → k ∣ 2) ∧
    Index.Op.ins (⟨2, 2⟩ : Rec) ∈ insSeq 1 2 ∧ (1 : Nat) ≤ key (⟨2, 2⟩ : Rec) ∧ key (⟨2, 2⟩ : Rec) ≤ (2 : Nat) :=
  ⟨_, rfl, insSeq_insertOnly _ _, aliasStd_ok, fun ws _ h => aliasStd_fair ws h,
    fun k h1 h2 => by
      have h2 : k ≤ 2 := h2
      rcases (by omega : k = 1 ∨ k = 2) with rfl | rfl
      · exact ⟨2, rfl⟩
      · exact ⟨1, rfl⟩, by decide, by decide, by decide⟩

/-! ### C54: what is sampled after erases -/

/-- C54, what holds after any history with either kind of erase: the samples are independent uniform draws from everything that is
stored in the range, erased or not, and tombstones count as copies of the record they erase. `rs` are the records of all stored
entries (buffer and shards).

Missing: erased records are among them, and an erase with a tombstone makes a record more likely (`C54_false_double`). -/
theorem C54_law_partial {L : Layout} {tag : Bool} {pq : PQ R} (hpq : pq.ByRec) {lb : LB R K} {lwm hwm sf : Nat} {d0 d : Index R}
    {ops : List (Index.Op R)} {bs : List Bool}
    (hnew : Index.new L tag (sortedImpl pq lb) lwm hwm sf = .ok d0) (hlwm : 1 ≤ lwm) (hsf : 1 ≤ sf) (hrun : d0.run ops = .ok (d, bs))
    (hvis : ∀ s ∈ d.str.visible, s.data ≠ []) {rs : List R} (hrs : d.entries.map Entry.record = (rs : Multiset R))
    {F LF : Nat} (hF : 2 ≤ F) (hLF : 1 ≤ LF) (z : K) {al : AliasFn} (hal : al.Ok) {mx M : Nat} (hmx : rs.length ≤ mx) (hmx' : mx < 2 ^ 63)
    (hM0 : 0 < M) (hfair : ∀ ws : List Nat, 0 < ws.sum → ws.sum ∣ M → al.FairOn M ws) (hM : ∀ k, 1 ≤ k → k ≤ rs.length → k ∣ M)
    {lo hi : K} {r : R} (hr : r ∈ rs) (hlo : lo ≤ key r) (hhi : key r ≤ hi) (rej : Bool) (n fuel m : Nat) (g : Multiset R → Nat) :
    let query := fun t : Fin ((n + n) * fuel) → Fin M =>
      d.irs rej al ⟨tapeOf t, mx⟩ (Isam.lowerBound F LF z) (Isam.upperBound F LF z) lo hi n fuel
    let stored := rs.filter (fun r => decide (lo ≤ key r) && decide (key r ≤ hi))
    (∑ t, Irs.onRes (fun o : List R => if o.length = m then g o else 0) (query t)) * stored.length ^ m =
      (∑ t, Irs.onRes (fun o : List R => if o.length = m then 1 else 0) (query t)) *
        ∑ f : Fin m → Fin stored.length, g (List.ofFn (fun j => stored.get (f j))) := by
  intro query stored
  have hle : lo ≤ hi := le_trans hlo hhi
  obtain ⟨-, -, -, h4, -, -⟩ := new_ginv hnew hlwm hsf
  obtain ⟨hd, -⟩ := new_ok hnew
  have hs := (run_sorted hpq (new_buf hnew hlwm) h4 (by rw [hd]) hrun).visible
  have hwf := (run_buf ops (new_buf hnew hlwm) hrun).1.wf
  obtain ⟨qs, hset⟩ := irs_setup (isam_exactBounds hF hLF z) hwf lo hi (fun s hsm => ⟨KeySorted.of_rec (hs s hsm), hvis s hsm⟩)
  obtain ⟨hp, hl⟩ := irs_stored hle hset hrs rej
  have hall : d.buf.contents.length + ((d.str.visible.map Shard.data).flatten).length = rs.length := by
    have h1 := congrArg Multiset.card hrs
    rw [Multiset.card_map, Multiset.coe_card] at h1
    rw [← h1]
    unfold Index.entries
    have : (d.str.visible.map (fun s => ents s.data)).sum = ents (d.str.visible.map Shard.data).flatten := by
      rw [ents_flatten_shards]; rfl
    rw [this]
    unfold ents
    simp [Function.comp_def]
  have hqlen : ∀ q ∈ qs, q.data.length ≤ rs.length := by
    intro q hq
    obtain ⟨s, hsm, e⟩ := hset.len q hq
    have : s.data.length ≤ ((d.str.visible.map Shard.data).flatten).length := by
      rw [List.length_flatten]
      exact List.le_sum_of_mem (List.mem_map.mpr ⟨s.data, List.mem_map.mpr ⟨s, hsm, rfl⟩, rfl⟩)
    rw [e]; omega
  have hsafe : Irs.Safe ⟨fun _ => 0, mx⟩ lo hi d.buf.contents qs := ⟨hle, by simp only; omega, fun q hq => le_trans (hqlen q hq) hmx⟩
  have hne : stored ≠ [] := by
    have : r ∈ stored := List.mem_filter.mpr ⟨hr, by simp [hlo, hhi]⟩
    exact List.ne_nil_of_mem this
  have hwsum : (Irs.weights rej lo hi d.buf.contents qs).sum = (Irs.sources rej lo hi d.buf.contents qs).flatten.length := by
    rw [Irs.weights_sources hle hset.exact, List.length_flatten]
  have hpos : 0 < (Irs.weights rej lo hi d.buf.contents qs).sum := by
    rw [hwsum]
    have h1 := hp.length_eq
    have h2 : 0 < stored.length := List.length_pos_iff.mpr hne
    rw [List.length_map] at h1
    have h3 := List.length_filter_le (Irs.inR lo hi) (Irs.sources rej lo hi d.buf.contents qs).flatten
    have h4 : stored.length = (rs.filter (fun r => decide (lo ≤ key r) && decide (key r ≤ hi))).length := rfl
    omega
  have hfa := hfair _ hpos (hM _ hpos (by omega))
  have hdv : ∀ s ∈ Irs.sources rej lo hi d.buf.contents qs, s ≠ [] → s.length ∣ M := by
    intro s hsm hsne
    apply hM _ (List.length_pos_iff.mpr hsne)
    refine le_trans ?_ hl
    rw [List.length_flatten]
    exact List.le_sum_of_mem (List.mem_map.mpr ⟨s, hsm, rfl⟩)
  have key := Irs.query_law hal hM0 (fun q hq => by have := hqlen q hq; omega) hset.exact hsafe hpos hfa hdv hp hne g n m fuel
  simp only [query, hset.eq]
  exact key

/-- C54: a record with `k` stored entries (copies and tombstones) is returned `k` times its share on average. -/
theorem C54_share_partial {L : Layout} {tag : Bool} {pq : PQ R} (hpq : pq.ByRec) {lb : LB R K} {lwm hwm sf : Nat} {d0 d : Index R}
    {ops : List (Index.Op R)} {bs : List Bool}
    (hnew : Index.new L tag (sortedImpl pq lb) lwm hwm sf = .ok d0) (hlwm : 1 ≤ lwm) (hsf : 1 ≤ sf) (hrun : d0.run ops = .ok (d, bs))
    (hvis : ∀ s ∈ d.str.visible, s.data ≠ []) {rs : List R} (hrs : d.entries.map Entry.record = (rs : Multiset R))
    {F LF : Nat} (hF : 2 ≤ F) (hLF : 1 ≤ LF) (z : K) {al : AliasFn} (hal : al.Ok) {mx M : Nat} (hmx : rs.length ≤ mx) (hmx' : mx < 2 ^ 63)
    (hM0 : 0 < M) (hfair : ∀ ws : List Nat, 0 < ws.sum → ws.sum ∣ M → al.FairOn M ws) (hM : ∀ k, 1 ≤ k → k ≤ rs.length → k ∣ M)
    {lo hi : K} {r : R} (hr : r ∈ rs) (hlo : lo ≤ key r) (hhi : key r ≤ hi) (rej : Bool) (n fuel m : Nat) :
    let query := fun t : Fin ((n + n) * fuel) → Fin M =>
      d.irs rej al ⟨tapeOf t, mx⟩ (Isam.lowerBound F LF z) (Isam.upperBound F LF z) lo hi n fuel
    let stored := rs.filter (fun r => decide (lo ≤ key r) && decide (key r ≤ hi))
    (∑ t, Irs.onRes (fun o : List R => if o.length = m then o.count r else 0) (query t)) * stored.length =
      (∑ t, Irs.onRes (fun o : List R => if o.length = m then 1 else 0) (query t)) * (m * rs.count r) := by
  intro query stored
  have h := C54_law_partial hpq hnew hlwm hsf hrun hvis hrs hF hLF z hal hmx hmx' hM0 hfair hM hr hlo hhi rej n fuel m (fun s => s.count r)
  simp only [Multiset.coe_count] at h
  have hcr : stored.count r = rs.count r := List.count_filter (by simp [hlo, hhi])
  have hpos : 0 < stored.length := List.length_pos_of_mem (List.mem_filter.mpr ⟨hr, by simp [hlo, hhi]⟩ : r ∈ stored)
  have hd := sum_draws_count stored r m
  rw [hcr] at hd
  apply Nat.eq_of_mul_eq_mul_right (Nat.pow_pos (n := m) hpos)
  calc _ = ((∑ t, Irs.onRes (fun o : List R => if o.length = m then o.count r else 0) (query t)) * stored.length ^ m) * stored.length := by ring
    _ = (∑ t, Irs.onRes (fun o : List R => if o.length = m then 1 else 0) (query t)) *
        ((∑ f : Fin m → Fin stored.length, (List.ofFn (fun j => stored.get (f j))).count r) * stored.length) := by
      rw [h]; ring
    _ = _ := by rw [hd]; ring

/-- C54 is false to the point that erasing a record with a tombstone doubles its share: of two inserted records the erased one is
returned by two thirds of all streams, the other by one third. -/
theorem C54_false_double : ∃ d0 d : Index Rec, mk .tiering false 4 4 2 = .ok d0 ∧
    d0.run [.ins ⟨1, 1⟩, .ins ⟨2, 2⟩, .del ⟨1, 1⟩] = .ok (d, [true, true, true]) ∧
    let N := fun o : List Rec => ∑ t : Fin 2 → Fin 6,
      if d.irs false aliasStd ⟨tapeOf t, 2 ^ 32⟩ (Isam.lowerBound 2 2 0) (Isam.upperBound 2 2 0) 1 2 1 1 = .ok (some o) then 1 else 0
    N [⟨1, 1⟩] = 24 ∧ N [⟨2, 2⟩] = 12 :=
  ⟨_, _, rfl, rfl, by decide, by decide⟩

/-- The hypotheses of `C54_law_partial` and `C54_share_partial`: a shard, a buffered record and a buffered tombstone. -/
example : ∃ d0 d : Index Rec, mk .tiering false 2 2 2 = .ok d0 ∧
    d0.run [.ins ⟨1, 1⟩, .ins ⟨2, 2⟩, .ins ⟨3, 3⟩, .del ⟨1, 1⟩] = .ok (d, [true, true, true, true]) ∧ (∀ s ∈ d.str.visible, s.data ≠ []) ∧
    d.entries.map Entry.record = (([⟨3, 3⟩, ⟨1, 1⟩, ⟨1, 1⟩, ⟨2, 2⟩] : List Rec) : Multiset Rec) ∧ (∀ k, 1 ≤ k → k ≤ 4 → k ∣ Nat.factorial 4) :=
  ⟨_, _, rfl, rfl, by decide, by decide, fun _ h1 h2 => Nat.dvd_factorial h1 h2⟩

/-- The hypotheses of `C115_stored_partial`: a shard, a buffered record and a buffered tombstone. -/
example : ∃ d0 d : Index Rec, mk .tiering false 2 2 2 = .ok d0 ∧
    d0.run [.ins ⟨1, 1⟩, .ins ⟨2, 2⟩, .ins ⟨3, 3⟩, .del ⟨1, 1⟩] = .ok (d, [true, true, true, true]) ∧ (∀ s ∈ d.str.visible, s.data ≠ []) ∧
    d.entries.map Entry.record = (([⟨3, 3⟩, ⟨1, 1⟩, ⟨1, 1⟩, ⟨2, 2⟩] : List Rec) : Multiset Rec) ∧ (∀ k, 1 ≤ k → k ≤ 4 → k ∣ 24) :=
  ⟨_, _, rfl, rfl, by decide, by decide, by decide⟩

end DE
