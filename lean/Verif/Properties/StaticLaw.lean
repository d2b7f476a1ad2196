import Verif.Proofs.StaticLaw
import Verif.Proofs.WssLaw
import Verif.Properties.SampleLaw
import Verif.Properties.WssFair

/-!
C117: samples from a static structure are independent draws, in order. Probabilities are counts over all random streams, as for C64.

The ideal is a sum over all sequences of `n` draws, written out in the statements.
-/

namespace DE
variable {R K : Type} [LinearOrder R] [LinearOrder K] [HasKey R K] [Inhabited R]
open Finset

/-- C117, range sampling: on the static structure of any inserted records, every stream gives `n` samples, and any quantity `g` of
the sequence of samples has the mean it has over `n` independent uniform draws from the records inserted into the range. -/
theorem C117_range {L : Layout} {tag : Bool} {pq : PQ R} (hpq : pq.ByRec) {lb : LB R K} {lwm hwm sf : Nat} {d0 : Index R}
    {ops : List (Index.Op R)}
    (hnew : Index.new L tag (sortedImpl pq lb) lwm hwm sf = .ok d0) (hlwm : 1 ≤ lwm) (hsf : 1 ≤ sf) (hio : InsertOnly ops)
    {F LF : Nat} (hF : 2 ≤ F) (hLF : 1 ≤ LF) (z : K) {mx M : Nat} (hmx : ops.length ≤ mx)
    {lo hi : K} {r : R} (hr : .ins r ∈ ops) (hlo : lo ≤ key r) (hhi : key r ≤ hi) (hM : (inserts ops lo hi).length ∣ M) (n : Nat) :
    ∃ d m, ∃ out : (Fin n → Fin M) → List R, d0.run ops = .ok (d, List.replicate ops.length true) ∧ d.staticStructure = .ok m ∧
      (∀ t, irsStatic ⟨tapeOf t, mx⟩ (Isam.lowerBound F LF z) (Isam.upperBound F LF z) m lo hi n = .ok (out t) ∧ (out t).length = n) ∧
      ∀ g : List R → Nat, (∑ t, g (out t)) * (inserts ops lo hi).length ^ n =
        M ^ n * ∑ f : Fin n → Fin (inserts ops lo hi).length, g (List.ofFn (fun j => (inserts ops lo hi).get (f j))) := by
  obtain ⟨d, m, h1, h2, h3, h4, h5⟩ := C21_insert_only (lb := lb) hpq hnew hlwm hsf hio
  have hks : m.data.Pairwise (fun a b => key (K := K) a.record ≤ key b.record) := by
    rw [List.pairwise_map] at h4
    exact KeySorted.of_rec h4
  have hlen : m.data.length ≤ ops.length := by
    have := h3.length_eq
    rw [List.length_map] at this
    rw [this]
    exact inserted_len ops
  have hmem : r ∈ m.data.map Wrapped.record := by
    rw [h3.mem_iff, ← List.count_pos_iff, count_inserted]
    exact List.count_pos_iff.mpr hr
  obtain ⟨w0, hw0, rfl⟩ := List.mem_map.mp hmem
  have hne : m.data ≠ [] := List.ne_nil_of_mem hw0
  obtain ⟨l, hl1, hl2⟩ := (isam_exactBounds hF hLF z m.data hne hks lo).1
  obtain ⟨u, hu1, hu2⟩ := (isam_exactBounds hF hLF z m.data hne hks hi).2
  have hle : lo ≤ hi := le_trans hlo hhi
  set q : Irs.Local R := ⟨m.data, l, u⟩ with hqd
  have hq : q.Exact lo hi := ⟨hks, hl2, hu2⟩
  have hsl : q.slice = m.data.filter (Irs.inR lo hi) := hq.slice hle
  have hperm : (q.slice.map Wrapped.record).Perm (inserts ops lo hi) := by
    rw [hsl]
    have : (m.data.filter (Irs.inR lo hi)).map Wrapped.record =
        (m.data.map Wrapped.record).filter (fun r => decide (lo ≤ key r) && decide (key r ≤ hi)) := by
      rw [List.filter_map]; rfl
    rw [this]
    exact h3.filter _
  have hN : q.slice.length = (inserts ops lo hi).length := by rw [← hperm.length_eq, List.length_map]
  have hpos : 0 < q.slice.length := by
    apply List.length_pos_of_mem (a := w0)
    rw [hsl, List.mem_filter]
    exact ⟨hw0, by simp [Irs.inR, hlo, hhi]⟩
  have hself : q.slice.filter (Irs.inR lo hi) = q.slice := by rw [hsl, List.filter_filter]; simp
  set c : Nat → Wrapped R := fun v => q.slice[v % q.slice.length]'(Nat.mod_lt _ hpos) with hc
  have hp : ∀ v, pick (Irs.inR lo hi) q.slice v = [c v] := fun v => Irs.pick_all hself (Nat.mod_lt _ hpos)
  have hdraw : ∀ g : Rng, m.data.length ≤ g.max → Irs.localQuery g q n 0 =
      .ok ((List.range n).flatMap (fun j => pick (Irs.inR lo hi) q.slice (g.tape (0 + j))), 0 + n) :=
    fun g hg => Irs.localQuery_pure hq hle hg (fun h => by omega) 0
  refine ⟨d, m, fun t => List.ofFn (fun j => (c (t j)).record), h1, h2, fun t => ⟨?_, by simp⟩, fun g => ?_⟩
  · unfold irsStatic Irs.preproc
    rw [hl1]
    simp only [bind, Except.bind, hu1]
    rw [hdraw ⟨tapeOf t, mx⟩ (by simp only; omega)]
    simp only
    rw [flatMap_single hp t]
  · have key := tape_law (wt := fun _ => 1) (rs := q.slice.map Wrapped.record) (M := M) (W := q.slice.length) (c := fun v => (c v).record)
      (by
        intro h
        obtain ⟨k, hk⟩ := (hN ▸ hM : q.slice.length ∣ M)
        rw [hk, Fin.sum_univ_eq_sum_range (fun v => h (c v).record) (q.slice.length * k)]
        have e := sum_mod (fun u => h ((q.slice[u]?.getD w0).record)) q.slice.length k
        have e2 : ∀ v, h (c v).record = h ((q.slice[v % q.slice.length]?.getD w0).record) := by
          intro v
          rw [List.getElem?_eq_getElem (Nat.mod_lt _ hpos)]; rfl
        simp only [e2, e]
        have e3 : ∑ u ∈ range q.slice.length, h ((q.slice[u]?.getD w0).record) = ((q.slice.map Wrapped.record).map (fun r => 1 * h r)).sum := by
          rw [List.map_map, ← sum_get_map, Finset.sum_range]
          apply Finset.sum_congr rfl
          intro i _
          simp
        rw [e3]; ring) n g
    rw [hN, draws_perm _ hperm] at key
    rw [Nat.mul_comm, key]
    unfold draws
    simp

/-- C117, weighted sampling: on the static structure of any inserted records, every stream gives `n` samples, and any quantity `g` of
the sequence of samples has the mean it has over `n` independent draws from the inserted records in proportion to their weights. -/
theorem C117_weighted {L : Layout} {tag : Bool} {pq : PQ R} (hpq : pq.ByRec) {lb : LB R K} {lwm hwm sf : Nat} {d0 : Index R}
    {ops : List (Index.Op R)} (hnew : Index.new L tag (sortedImpl pq lb) lwm hwm sf = .ok d0) (hlwm : 1 ≤ lwm) (hsf : 1 ≤ sf) (hio : InsertOnly ops)
    {wt : R → Nat} {al : AliasFn} (hal : al.Ok) {M mx : Nat} (hW : 0 < ((inserted ops).map wt).sum) (hM : ((inserted ops).map wt).sum ∣ M)
    (hfair : ∀ ws : List Nat, 0 < ws.sum → ws.sum ∣ M → al.FairOn M ws) (n : Nat) :
    ∃ d m, ∃ out : (Fin n → Fin M) → List R, d0.run ops = .ok (d, List.replicate ops.length true) ∧ d.staticStructure = .ok m ∧
      (∀ t, wssStatic wt al ⟨tapeOf t, mx⟩ m n = .ok (out t) ∧ (out t).length = n) ∧
      ∀ g : List R → Nat, (∑ t, g (out t)) * ((inserted ops).map wt).sum ^ n =
        M ^ n * ∑ f : Fin n → Fin (inserted ops).length, (∏ j, wt ((inserted ops).get (f j))) * g (List.ofFn (fun j => (inserted ops).get (f j))) := by
  obtain ⟨d, m, h1, h2, h3, -, h5⟩ := C21_insert_only (lb := lb) hpq hnew hlwm hsf hio
  have htot : Wss.total wt m.data = ((inserted ops).map wt).sum := by
    rw [← (h3.map wt).sum_eq]
    unfold Wss.total
    rw [List.map_map]; rfl
  have hpos : 0 < Wss.total wt m.data := by omega
  have hf : al.FairOn M (m.data.map (fun w => wt w.record)) := hfair _ hpos (by
    rw [← htot] at hM
    exact hM)
  have hex : ∀ v, ∃ w, Wss.pickW wt al m.data v = [w] := by
    intro v
    obtain ⟨w, ha, -⟩ := hal (m.data.map (fun w => wt (Wrapped.record w))) v hpos
    have := (List.getElem?_eq_some_iff.mp ha).1
    unfold Wss.pickW
    rw [List.getElem?_eq_getElem (by simpa using this)]
    exact ⟨_, rfl⟩
  choose c hp using hex
  have hdraw : ∀ g : Rng, drawMany (Wss.drawShard wt al g m.data) n 0 =
      .ok ((List.range n).flatMap (fun j => Wss.pickW wt al m.data (g.tape (0 + j))), 0 + n) :=
    fun g => drawMany_pure (fun pos => Wss.drawShard_pure hal (fun w hw => (h5 w hw).2) hpos g pos) n 0
  refine ⟨d, m, fun t => List.ofFn (fun j => (c (t j)).record), h1, h2, fun t => ⟨?_, by simp⟩, fun g => ?_⟩
  · unfold wssStatic
    rw [hdraw]
    simp only [bind, Except.bind]
    rw [flatMap_single hp t]
  · have key := tape_law (wt := wt) (rs := m.data.map Wrapped.record) (M := M) (W := Wss.total wt m.data) (c := fun v => (c v).record)
      (by
        intro h
        have := Wss.sum_pickW (wt := wt) hal (data := m.data) (M := M) (fun _ => hf) (h := fun l => ((l.map (fun w => h w.record)).sum))
        simp only [hp, List.map_cons, List.map_nil, List.sum_cons, List.sum_nil, Nat.add_zero] at this
        rw [this, List.map_map]
        rfl) n g
    rw [htot, draws_perm _ h3] at key
    rw [Nat.mul_comm, key]
    rfl

/-- C117 read as probabilities: the sequence of samples is exactly `rs` for a share `∏ wt / W ^ n` of the streams. For two samples:
the share of a pair is the product of the shares of its members. -/
theorem C117_pair {L : Layout} {tag : Bool} {pq : PQ R} (hpq : pq.ByRec) {lb : LB R K} {lwm hwm sf : Nat} {d0 : Index R}
    {ops : List (Index.Op R)} (hnew : Index.new L tag (sortedImpl pq lb) lwm hwm sf = .ok d0) (hlwm : 1 ≤ lwm) (hsf : 1 ≤ sf) (hio : InsertOnly ops)
    {wt : R → Nat} {al : AliasFn} (hal : al.Ok) {M mx : Nat} (hW : 0 < ((inserted ops).map wt).sum) (hM : ((inserted ops).map wt).sum ∣ M)
    (hfair : ∀ ws : List Nat, 0 < ws.sum → ws.sum ∣ M → al.FairOn M ws) (a b : R) :
    ∃ d m, d0.run ops = .ok (d, List.replicate ops.length true) ∧ d.staticStructure = .ok m ∧
      (∑ t : Fin 2 → Fin M, if wssStatic wt al ⟨tapeOf t, mx⟩ m 2 = .ok [a, b] then 1 else 0) * ((inserted ops).map wt).sum ^ 2 =
        M ^ 2 * ((wt a * insCount a ops) * (wt b * insCount b ops)) := by
  obtain ⟨d, m, out, h1, h2, h3, h4⟩ := C117_weighted (mx := mx) hpq hnew hlwm hsf hio hal hW hM hfair 2
  refine ⟨d, m, h1, h2, ?_⟩
  have e : ∀ t, (if wssStatic wt al ⟨tapeOf t, mx⟩ m 2 = .ok [a, b] then 1 else 0) = if out t = [a, b] then 1 else 0 := by
    intro t
    rw [(h3 t).1]
    simp
  simp only [e]
  rw [h4 (fun l => if l = [a, b] then 1 else 0)]
  congr 1
  change draws wt (inserted ops) 2 (fun l => if l = [a, b] then 1 else 0) = _
  have hs : ∀ (x : R) (k : Nat) (l : List R), (l.map (fun r => wt r * (if r = x then k else 0))).sum = wt x * l.count x * k := by
    intro x k l
    induction l with
    | nil => simp
    | cons y l ih =>
      rw [List.map_cons, List.sum_cons, ih, List.count_cons]
      by_cases h : y = x
      · subst h; simp; ring
      · simp [h]
  have e1 : ∀ r, draws wt (inserted ops) 1 (fun l => if r :: l = [a, b] then 1 else 0) = if r = a then wt b * insCount b ops else 0 := by
    intro r
    rw [draws_succ]
    by_cases h : r = a
    · subst h
      simp only [draws_zero, List.cons.injEq, true_and, and_true, if_true]
      rw [hs, count_inserted, Nat.mul_one]
    · simp [draws_zero, h]
  rw [draws_succ]
  simp only [e1]
  rw [hs, count_inserted]

/-- The hypotheses of the theorems above: three records of which the first has weight 0. -/
example : ∃ d0 : Index Rec, mk .tiering false 2 2 2 = .ok d0 ∧ InsertOnly (insSeq 0 3) ∧ aliasStd.Ok ∧
    ((inserted (insSeq 0 3)).map (fun r => r.value)).sum = 3 ∧ 3 ∣ 6 ∧ (inserts (insSeq 0 3) 1 2).length ∣ 6 ∧
    (∀ ws : List Nat, 0 < ws.sum → ws.sum ∣ 6 → aliasStd.FairOn 6 ws) ∧ Index.Op.ins (⟨1, 1⟩ : Rec) ∈ insSeq 0 3 :=
  ⟨_, rfl, insSeq_insertOnly _ _, aliasStd_ok, by decide, by decide, by decide, fun ws _ h => aliasStd_fair ws h, by decide⟩

/-- Two samples from the static structure of three records with weights 0, 1 and 2. -/
example : probe .tiering false 2 2 2 (insSeq 0 3) (fun p => do
    let m ← p.1.staticStructure
    wssStatic (fun r => r.value) aliasStd (tapeRng (· + 2)) m 2) = .ok [⟨2, 2⟩, ⟨1, 1⟩] := by decide

/-- The law of a weighted query on an index whose buffered records have no weight and in which nothing is tagged. -/
theorem wss_joint {d : Index R} (hwf : d.buf.view.gets = .ok d.buf.contents) (hun : ∀ e ∈ d.entries, e.del = false) {rs : List R}
    (hrs : d.entries.map Entry.record = (rs : Multiset R)) {wg : R → Nat} (hbuf : ∀ w ∈ d.buf.contents, wg w.record = 0)
    {al : AliasFn} (hal : al.Ok) {M mx D : Nat} (hM0 : 0 < M) (hW : 0 < (rs.map wg).sum)
    (hfair : ∀ ws : List Nat, 0 < ws.sum → ws.sum ∣ M → al.FairOn M ws) (hM : ∀ k, 1 ≤ k → k ≤ (rs.map wg).sum → k ∣ M) (n fuel : Nat) :
      ∃ out : (Fin (n + n) → Fin M) → List R,
        (∀ t, d.wss wg D al ⟨tapeOf t, mx⟩ n (fuel + 1) = .ok (some (out t)) ∧ (out t).length = n) ∧
        ∀ g : Multiset R → Nat, (∑ t, g (out t)) * (rs.map wg).sum ^ n =
          M ^ (n + n) * ∑ f : Fin n → Fin rs.length, (∏ j, wg (rs.get (f j))) * g (List.ofFn (fun j => rs.get (f j))) := by
  obtain ⟨hb0, hwss, hperm, hsum, hout⟩ := wss_outs (D := D) hwf hun hrs hbuf hal hW n fuel
  have hpos : 0 < (wssWeights wg d).sum := by omega
  refine ⟨fun t => (srcOuts (wssPick wg al) (tapeOf t) (wssSources d) (srcSizes al (wssWeights wg d) (tapeOf t) (wssSources d).length n) n).map
    Wrapped.record, fun t => ⟨(hout ⟨tapeOf t, mx⟩).1, by rw [List.length_map]; exact (hout ⟨tapeOf t, mx⟩).2⟩, fun g => ?_⟩
  have hle : ∀ q ∈ d.str.visible.map Shard.data, Wss.total wg q ≤ (rs.map wg).sum := by
    intro q hq
    rw [← hwss, wssWeights, List.sum_cons]
    have := List.le_sum_of_mem (List.mem_map.mpr ⟨q, hq, rfl⟩ : Wss.total wg q ∈ (d.str.visible.map Shard.data).map (Wss.total wg))
    omega
  have key := two_stage_gen (al := al) (ws := wssWeights wg d) (ss := wssSources d) (c := wssPick wg al) (n := n)
    (fun w : Wrapped R => (MvPolynomial.X (R := Nat) w.record : MvPolynomial R Nat)) hM0
    (by
      intro v
      obtain ⟨w, ha, -⟩ := hal _ v hpos
      have := (List.getElem?_eq_some_iff.mp ha).1
      simpa [wssSources, wssWeights] using this)
    (hfair _ hpos (hM _ hpos (by rw [hwss])))
    (w := fun o => match o with | none => 0 | some q => Wss.total wg q)
    (E := fun o => match o with | none => 0 | some q => (q.map (fun w => (wg w.record : MvPolynomial R Nat) * MvPolynomial.X w.record)).sum)
    (by rw [wssWeights, wssSources, hb0]; simp [Function.comp_def])
    (by
      intro s hs
      match s with
      | none => simp
      | some q =>
        have hq : q ∈ d.str.visible.map Shard.data := by simpa [wssSources] using hs
        have := Wss.sum_pickWA (wt := wg) hal (fun hp => hfair _ hp (hM _ hp (hle q hq)))
          (h := fun l => wt (fun w : Wrapped R => (MvPolynomial.X (R := Nat) w.record : MvPolynomial R Nat)) l)
        refine Eq.trans this ?_
        simp [wt])
    (out := fun t => srcOuts (wssPick wg al) (tapeOf t) (wssSources d) (srcSizes al (wssWeights wg d) (tapeOf t) (wssSources d).length n) n)
    (fun t => rfl) hsum
  -- the polynomial of all stored records
  have hE : ((wssSources d).map (fun o => match o with
      | none => 0
      | some q => (q.map (fun w => (wg w.record : MvPolynomial R Nat) * MvPolynomial.X w.record)).sum)).sum =
      (rs.map (fun r => (wg r : MvPolynomial R Nat) * MvPolynomial.X r)).sum := by
    rw [← (hperm.map _).sum_eq, List.map_append, List.sum_append, List.map_map, List.map_map]
    have hz : (d.buf.contents.map ((fun r => (wg r : MvPolynomial R Nat) * MvPolynomial.X r) ∘ Wrapped.record)).sum = 0 := by
      apply List.sum_eq_zero
      intro x hx
      obtain ⟨w, hw, rfl⟩ := List.mem_map.mp hx
      simp [hbuf w hw]
    rw [hz, zero_add, wssSources, List.map_cons, List.sum_cons, zero_add, List.map_map]
    generalize d.str.visible.map Shard.data = qs
    clear * -
    induction qs with
    | nil => simp
    | cons q qs ih => rw [List.map_cons, List.sum_cons, ih, List.flatten_cons, List.map_append, List.sum_append]; rfl
  rw [hwss, hE, mul_pow, weighted_pow_list, mul_comm ((M * M : MvPolynomial R Nat) ^ n)] at key
  have e0 : ((M : MvPolynomial R Nat) * M) ^ n = ((M ^ (n + n) : Nat) : MvPolynomial R Nat) := by
    push_cast
    rw [mul_pow, pow_add]
  rw [e0, ← Nat.cast_pow] at key
  have h2 := congrArg (Irs.obs g) key
  rw [Irs.obs_mul, Irs.obs_mul, map_sum, map_sum] at h2
  have e1 : ∀ l : List (Wrapped R), wt (fun w : Wrapped R => (MvPolynomial.X (R := Nat) w.record : MvPolynomial R Nat)) l =
      wt MvPolynomial.X (l.map Wrapped.record) := by
    intro l; simp [wt, Function.comp_def]
  have e2 : ∀ (k : Nat) (l : List R), Irs.obs g ((k : MvPolynomial R Nat) * wt MvPolynomial.X l) = k * g l := by
    intro k l
    rw [mul_comm, Irs.obs_mul, Irs.obs_wt, mul_comm]
  simp only [e1, e2, Irs.obs_wt] at h2
  rw [h2, mul_comm]

/-- C80, the joint law on an index whose buffered records have no weight: every quantity `g` of the samples that does not look at their
order has the mean it has over `n` independent draws from the inserted records in proportion to their weights. Missing as in
`C80_index_partial`; and the order of the samples is not random. -/
theorem C80_joint_partial {L : Layout} {tag : Bool} {pq : PQ R} {lb : LB R K} {lwm hwm sf : Nat} {d0 : Index R}
    {ops : List (Index.Op R)} (hnew : Index.new L tag (sortedImpl pq lb) lwm hwm sf = .ok d0) (hlwm : 1 ≤ lwm) (hsf : 1 ≤ sf) (hio : InsertOnly ops)
    {wg : R → Nat} {al : AliasFn} (hal : al.Ok) {M mx D : Nat} (hM0 : 0 < M) (hW : 0 < ((inserted ops).map wg).sum)
    (hfair : ∀ ws : List Nat, 0 < ws.sum → ws.sum ∣ M → al.FairOn M ws) (hM : ∀ k, 1 ≤ k → k ≤ ((inserted ops).map wg).sum → k ∣ M) (n fuel : Nat) :
    ∃ d, d0.run ops = .ok (d, List.replicate ops.length true) ∧ ((∀ w ∈ d.buf.contents, wg w.record = 0) →
      ∃ out : (Fin (n + n) → Fin M) → List R,
        (∀ t, d.wss wg D al ⟨tapeOf t, mx⟩ n (fuel + 1) = .ok (some (out t)) ∧ (out t).length = n) ∧
        ∀ g : Multiset R → Nat, (∑ t, g (out t)) * ((inserted ops).map wg).sum ^ n =
          M ^ (n + n) * ∑ f : Fin n → Fin (inserted ops).length,
            (∏ j, wg ((inserted ops).get (f j))) * g (List.ofFn (fun j => (inserted ops).get (f j)))) := by
  obtain ⟨-, -, -, -, h5, -⟩ := new_ginv hnew hlwm hsf
  obtain ⟨d, h1, -, h3, -⟩ := (new_clean hnew hlwm hsf).run ops hio
  rw [h5, zero_add] at h3
  refine ⟨d, h1, fun hbuf => wss_joint (Buffer.view_gets (run_buf ops (new_buf hnew hlwm) h1).1.wf) ?_ ?_ hbuf hal hM0 hW hfair hM n fuel⟩
  · intro e he
    rw [h3] at he
    unfold insEntries at he
    simp only [Multiset.mem_coe, List.mem_map] at he
    obtain ⟨y, -, rfl⟩ := he
    rfl
  · rw [h3]; unfold insEntries; simp [Function.comp_def]

/-- C80 after any history, with erases of either kind, as long as nothing stored is tagged and the buffered records have no weight: the
samples are, in any order, independent draws in proportion to weight from everything that is stored, where a tombstone counts as a copy of
the record it erases. Under tombstone deletes nothing is ever tagged (C02).

Missing: a tombstone makes the record it erases more likely (`C80_false_double`). -/
theorem C80_stored_partial {L : Layout} {tag : Bool} {pq : PQ R} {lb : LB R K} {lwm hwm sf : Nat} {d0 d : Index R}
    {ops : List (Index.Op R)} {bs : List Bool} (hnew : Index.new L tag (sortedImpl pq lb) lwm hwm sf = .ok d0) (hlwm : 1 ≤ lwm)
    (hrun : d0.run ops = .ok (d, bs)) (hun : ∀ e ∈ d.entries, e.del = false) {rs : List R} (hrs : d.entries.map Entry.record = (rs : Multiset R))
    {wg : R → Nat} (hbuf : ∀ w ∈ d.buf.contents, wg w.record = 0)
    {al : AliasFn} (hal : al.Ok) {M mx D : Nat} (hM0 : 0 < M) (hW : 0 < (rs.map wg).sum)
    (hfair : ∀ ws : List Nat, 0 < ws.sum → ws.sum ∣ M → al.FairOn M ws) (hM : ∀ k, 1 ≤ k → k ≤ (rs.map wg).sum → k ∣ M) (n fuel : Nat) :
      ∃ out : (Fin (n + n) → Fin M) → List R,
        (∀ t, d.wss wg D al ⟨tapeOf t, mx⟩ n (fuel + 1) = .ok (some (out t)) ∧ (out t).length = n) ∧
        ∀ g : Multiset R → Nat, (∑ t, g (out t)) * (rs.map wg).sum ^ n =
          M ^ (n + n) * ∑ f : Fin n → Fin rs.length, (∏ j, wg (rs.get (f j))) * g (List.ofFn (fun j => rs.get (f j))) :=
  wss_joint (Buffer.view_gets (run_buf ops (new_buf hnew hlwm) hrun).1.wf) hun hrs hbuf hal hM0 hW hfair hM n fuel

/-- Erasing a record with a tombstone doubles its share of weighted samples: records 1 and 2 of weight 1 in a shard, the tombstone of
record 1 in another, a weightless record in the buffer. Two thirds of all streams return the erased record. -/
theorem C80_false_double : ∃ d0 d : Index Rec, mk .tiering false 2 2 4 = .ok d0 ∧
    d0.run [.ins ⟨1, 1⟩, .ins ⟨2, 1⟩, .del ⟨1, 1⟩, .ins ⟨9, 0⟩, .ins ⟨8, 0⟩] = .ok (d, [true, true, true, true, true]) ∧
    d.buf.contents.map Wrapped.record = [⟨8, 0⟩] ∧ (∀ e ∈ d.entries, e.del = false) ∧
    d.entries.map Entry.record = (([⟨8, 0⟩, ⟨1, 1⟩, ⟨9, 0⟩, ⟨1, 1⟩, ⟨2, 1⟩] : List Rec) : Multiset Rec) ∧
    let N := fun o : List Rec => ∑ t : Fin 2 → Fin 6,
      if d.wss (fun r => r.value) 1 aliasStd ⟨tapeOf t, 2 ^ 32⟩ 1 1 = .ok (some o) then 1 else 0
    N [⟨1, 1⟩] = 24 ∧ N [⟨2, 1⟩] = 12 :=
  ⟨_, _, rfl, rfl, by decide, by decide, by decide, by decide, by decide⟩

end DE
