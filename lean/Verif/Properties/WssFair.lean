import Verif.Proofs.WssFair
import Verif.Properties.Unbiased
import Verif.Properties.Cycle

/-!
C80: weighted sampling is fair. Probabilities are counts over all random streams, as for C64.
-/

namespace DE
variable {R : Type} [LinearOrder R] [Inhabited R] {wt : R → Nat} {al : AliasFn}
open Finset

omit [Inhabited R] in
theorem sum_weight_count (r : R) : ∀ l : List (Wrapped R),
    (l.map (fun w => wt w.record * ([w].map Wrapped.record).count r)).sum = wt r * (l.map Wrapped.record).count r
  | [] => by simp
  | w :: l => by
    rw [List.map_cons, List.sum_cons, sum_weight_count r l, List.map_cons, List.count_cons]
    by_cases h : w.record = r
    · simp [h]; ring
    · simp [h]

/-- C80, static structures: over all streams of `n` uniform draws, the query on the structure built from any inserted records always
returns, and returns record `r` on average `n` times its share of the total inserted weight. `M`, the number of values of a draw, is
divisible by all numbers up to the total weight. -/
theorem C80_static_partial {K : Type} [LinearOrder K] [HasKey R K] {L : Layout} {tag : Bool} {pq : PQ R} (hpq : pq.ByRec) {lb : LB R K} {lwm hwm sf : Nat} {d0 : Index R}
    {ops : List (Index.Op R)} (hnew : Index.new L tag (sortedImpl pq lb) lwm hwm sf = .ok d0) (hlwm : 1 ≤ lwm) (hsf : 1 ≤ sf) (hio : InsertOnly ops)
    (hal : al.Ok) {M mx : Nat} (hM0 : 0 < M) (hW : 0 < ((inserted ops).map wt).sum)
    (hfair : ∀ ws : List Nat, 0 < ws.sum → ws.sum ∣ M → al.FairOn M ws) (hM : ∀ k, 1 ≤ k → k ≤ ((inserted ops).map wt).sum → k ∣ M) (r : R) (n : Nat) :
    ∃ d m, ∃ out : (Fin n → Fin M) → List R, d0.run ops = .ok (d, List.replicate ops.length true) ∧ d.staticStructure = .ok m ∧
      (∀ t, wssStatic wt al ⟨tapeOf t, mx⟩ m n = .ok (out t)) ∧
      (∑ t, (out t).count r) * ((inserted ops).map wt).sum = n * (wt r * insCount r ops) * M ^ n := by
  obtain ⟨d, m, h1, h2, h3, -, h5⟩ := C21_insert_only (lb := lb) hpq hnew hlwm hsf hio
  have htot : Wss.total wt m.data = ((inserted ops).map wt).sum := by
    rw [← (h3.map wt).sum_eq]
    unfold Wss.total
    rw [List.map_map]; rfl
  have hpos : 0 < Wss.total wt m.data := by omega
  have hf : al.FairOn M (m.data.map (fun w => wt w.record)) :=
    hfair _ hpos (hM _ hpos (by rw [← htot]; exact le_refl _))
  have hdraw : ∀ g : Rng, drawMany (Wss.drawShard wt al g m.data) n 0 =
      .ok ((List.range n).flatMap (fun j => Wss.pickW wt al m.data (g.tape (0 + j))), 0 + n) :=
    fun g => drawMany_pure (fun pos => Wss.drawShard_pure hal (fun w hw => (h5 w hw).2) hpos g pos) n 0
  refine ⟨d, m, fun t => ((List.range n).flatMap (fun j => Wss.pickW wt al m.data (tapeOf t (0 + j)))).map Wrapped.record, h1, h2, ?_, ?_⟩
  · intro t
    unfold wssStatic
    rw [hdraw]
    rfl
  · set h : List (Wrapped R) → Nat := fun l => (l.map Wrapped.record).count r with hh
    have h0 : h [] = 0 := rfl
    have hadd : ∀ a b, h (a ++ b) = h a + h b := by intro a b; simp [hh]
    have e1 := Wss.sum_pickW (wt := wt) hal (data := m.data) (M := M) (fun _ => hf) (h := h)
    have e2 : (m.data.map (fun w => wt w.record * h [w])).sum = wt r * insCount r ops := by
      rw [show (fun w : Wrapped R => wt w.record * h [w]) = (fun w => wt w.record * ([w].map Wrapped.record).count r) from rfl,
        sum_weight_count, h3.count_eq, count_inserted]
    have e3 : (∑ t : Fin n → Fin M, h ((List.range n).flatMap (fun j => Wss.pickW wt al m.data (tapeOf t (0 + j))))) * M =
        n * (M ^ n * ∑ v : Fin M, h (Wss.pickW wt al m.data v)) := by
      simp only [h_flatMap h0 hadd]
      rw [Finset.sum_comm, Finset.sum_mul, Finset.sum_congr rfl (g := fun _ => M ^ n * ∑ v : Fin M, h (Wss.pickW wt al m.data v))]
      · rw [Finset.sum_const, Finset.card_range, smul_eq_mul]
      · intro j hj
        have hj := Finset.mem_range.mp hj
        rw [← sum_marginal (fun v => h (Wss.pickW wt al m.data v)) ⟨j, hj⟩]
        congr 1
        apply Finset.sum_congr rfl
        intro t _
        rw [Nat.zero_add]
        unfold tapeOf
        rw [dif_pos hj]
    rw [htot, e2] at e1
    apply Nat.eq_of_mul_eq_mul_right hM0
    calc _ = ((∑ t : Fin n → Fin M, h ((List.range n).flatMap (fun j => Wss.pickW wt al m.data (tapeOf t (0 + j))))) * M) *
          ((inserted ops).map wt).sum := by ring
      _ = n * M ^ n * (((inserted ops).map wt).sum * ∑ v : Fin M, h (Wss.pickW wt al m.data v)) := by rw [e3]; ring
      _ = _ := by rw [e1]; ring

/-- The sources of a weighted query: the buffer, from which nothing is drawn if its records have no weight, and the shards. -/
def wssSources (d : Index R) : List (Option (List (Wrapped R))) := none :: (d.str.visible.map Shard.data).map some

/-- A draw from one source. -/
def wssPick (wt : R → Nat) (al : AliasFn) (o : Option (List (Wrapped R))) (v : Nat) : List (Wrapped R) :=
  match o with
  | none => []
  | some q => Wss.pickW wt al q v

/-- The weights of the sources. -/
def wssWeights (wt : R → Nat) (d : Index R) : List Nat := Wss.total wt d.buf.contents :: (d.str.visible.map Shard.data).map (Wss.total wt)

/-- A weighted query on an index whose buffered records have no weight and in which nothing is tagged, as a function of the random
stream; `rs` are the records of all stored entries. -/
theorem wss_outs {d : Index R} (hwf : d.buf.view.gets = .ok d.buf.contents) (hun : ∀ e ∈ d.entries, e.del = false) {rs : List R}
    (hrs : d.entries.map Entry.record = (rs : Multiset R)) (hbuf : ∀ w ∈ d.buf.contents, wt w.record = 0)
    (hal : al.Ok) {D : Nat} (hW : 0 < (rs.map wt).sum) (n fuel : Nat) :
      Wss.total wt d.buf.contents = 0 ∧ (wssWeights wt d).sum = (rs.map wt).sum ∧
      (d.buf.contents.map Wrapped.record ++ (d.str.visible.map Shard.data).flatten.map Wrapped.record).Perm rs ∧
      (∀ f, (srcSizes al (wssWeights wt d) f (wssSources d).length n).sum = n) ∧
      ∀ g : Rng, d.wss wt D al g n (fuel + 1) = .ok (some ((srcOuts (wssPick wt al) g.tape (wssSources d)
        (srcSizes al (wssWeights wt d) g.tape (wssSources d).length n) n).map Wrapped.record)) ∧
        (srcOuts (wssPick wt al) g.tape (wssSources d) (srcSizes al (wssWeights wt d) g.tape (wssSources d).length n) n).length = n := by
  set qs := d.str.visible.map Shard.data with hqs
  have hb0 : Wss.total wt d.buf.contents = 0 := by
    unfold Wss.total
    apply List.sum_eq_zero_iff_forall_eq_nat.mpr
    intro x hx
    obtain ⟨w, hw, rfl⟩ := List.mem_map.mp hx
    exact hbuf w hw
  have hwsum : d.weight wt = (rs.map wt).sum := by
    unfold Index.weight
    have := congrArg (fun m : Multiset R => (m.map wt).sum) hrs
    simp only [Multiset.map_map, Multiset.map_coe, Multiset.sum_coe] at this
    exact this
  have hdel : ∀ q ∈ qs, ∀ w ∈ q, w.isDeleted = false := by
    intro q hq w hw
    obtain ⟨s, hs, rfl⟩ := List.mem_map.mp hq
    exact hun _ (mem_entries.mpr (Or.inr ⟨s, hs, w, hw, rfl⟩))
  set ws := Wss.total wt d.buf.contents :: qs.map (Wss.total wt) with hws
  have hwss : ws.sum = (rs.map wt).sum := by rw [hws, wss_total, hwsum]
  have hpos : 0 < ws.sum := by omega
  -- sources: the buffer, from which nothing is drawn, and the shards
  set ss : List (Option (List (Wrapped R))) := none :: qs.map some with hss
  set c : Option (List (Wrapped R)) → Nat → List (Wrapped R) := wssPick wt al with hc
  have hsl : ss.length = ws.length := by simp [hss, hws]
  have hsize : ∀ g : Rng, distribute al ws g n 0 (List.replicate (qs.length + 1) 0) = .ok (srcSizes al ws g.tape ss.length n, n) ∧
      Split ws n (srcSizes al ws g.tape ss.length n) := by
    intro g
    obtain ⟨ns, e1, e2, e3⟩ := distribute_pure (al := al) (ws := ws) g n 0 (List.replicate (qs.length + 1) 0) (by
      intro x
      obtain ⟨w, ha, -⟩ := hal _ x hpos
      have := (List.getElem?_eq_some_iff.mp ha).1
      simpa [hws] using this)
    have hns : ns = srcSizes al ws g.tape ss.length n := by
      apply List.ext_getElem
      · rw [e2]; simp [srcSizes, hss]
      · intro i hi1 hi2
        rw [e2] at hi1
        have := e3 i hi1
        rw [List.getD_eq_getElem?_getD, List.getElem?_eq_getElem (by rw [e2]; exact hi1), Option.getD_some] at this
        rw [this]
        have hz : (List.replicate (qs.length + 1) 0).getD i 0 = 0 := by
          rw [List.getD_eq_getElem?_getD, List.getElem?_eq_getElem hi1]; simp
        rw [hz]
        simp [srcSizes]
    have hsp : Split ws 0 (List.replicate (qs.length + 1) 0) := by
      have := split_replicate ws
      rw [hws, List.length_cons, List.length_map] at this
      exact this
    have := (distribute_good hal hpos g True n 0 0 _ hsp).elim e1
    rw [Nat.zero_add] at this e1
    rw [← hns]
    exact ⟨e1, this⟩
  have hloop : ∀ g : Rng, Wss.loop wt D al g d.buf.contents qs (fuel + 1) n 0 (List.replicate (qs.length + 1) 0) [] =
      .ok (some ((srcOuts c g.tape ss (srcSizes al ws g.tape ss.length n) n).map Wrapped.record)) ∧
      (srcOuts c g.tape ss (srcSizes al ws g.tape ss.length n) n).length = n := by
    intro g
    obtain ⟨e1, hl, hsum, hz⟩ := hsize g
    unfold Wss.loop
    rw [e1]
    simp only [bind, Except.bind]
    match hsz : srcSizes al ws g.tape ss.length n with
    | [] => rw [hsz] at hl; simp [hws] at hl
    | nb :: nss =>
      rw [hsz] at hl hsum hz
      have hnb : nb = 0 := by have := hz 0 (by rw [hws]; simp [hb0]); simpa using this
      subst hnb
      simp only [drawMany]
      have hz' : ∀ i : Nat, (qs.map (Wss.total wt))[i]? = some 0 → nss[i]? = some 0 := by
        intro i hi
        have := hz (i + 1) (by simpa [hws] using hi)
        simpa using this
      have hp := Wss.shardQueries_pure (wt := wt) hal (g := g) qs nss n (by simpa [hws] using hl) hdel hz'
      rw [hp]
      simp only [List.nil_append]
      have hout : srcOuts c g.tape ss (0 :: nss) n = srcOuts (Wss.pickW wt al) g.tape qs nss n := by
        have : ∀ (l : List (List (Wrapped R))) (ms : List Nat) (p : Nat), srcOuts c g.tape (l.map some) ms p = srcOuts (Wss.pickW wt al) g.tape l ms p := by
          intro l
          induction l with
          | nil => intro ms p; simp [srcOuts]
          | cons q l ih =>
            intro ms p
            cases ms with
            | nil => simp [srcOuts]
            | cons m ms => simp only [List.map_cons, srcOuts, ih]; rfl
        rw [hss]
        simp [srcOuts, this]
      have hlen : ∀ (l : List (List (Wrapped R))) (ms : List Nat) (p : Nat), ms.length = l.length →
          (∀ i : Nat, (l.map (Wss.total wt))[i]? = some 0 → ms[i]? = some 0) → (srcOuts (Wss.pickW wt al) g.tape l ms p).length = ms.sum := by
        intro l
        induction l with
        | nil => intro ms p hl _; cases ms with
          | nil => rfl
          | cons _ _ => simp at hl
        | cons q l ih =>
          intro ms p hl hz
          cases ms with
          | nil => simp at hl
          | cons m ms =>
            simp only [srcOuts, List.length_append, List.sum_cons]
            rw [ih ms (p + m) (by simpa using hl) (fun i hi => by have := hz (i+1) (by simpa using hi); simpa using this)]
            congr 1
            by_cases h0 : Wss.total wt q = 0
            · have hm : m = 0 := by have := hz 0 (by simp [h0]); simpa using this
              subst hm; rfl
            · have : ∀ v, (Wss.pickW wt al q v).length = 1 := by
                intro v
                obtain ⟨w, ha, -⟩ := hal (q.map (fun w => wt (Wrapped.record w))) v (Nat.pos_of_ne_zero h0)
                have := (List.getElem?_eq_some_iff.mp ha).1
                unfold Wss.pickW
                rw [List.getElem?_eq_getElem (by simpa using this)]
                rfl
              simp [List.length_flatMap, this]
      have hfin := hlen qs nss n (by simpa [hws] using hl) hz'
      rw [List.sum_cons] at hsum
      rw [hout, if_neg]
      · exact ⟨rfl, by omega⟩
      · rw [List.length_map, hfin]
        omega
  refine ⟨hb0, hwss, ?_, fun f => (hsize ⟨f, 0⟩).2.2.1, fun g => ?_⟩
  · rw [← Multiset.coe_eq_coe, ← hrs]
    unfold Index.entries
    have e : (d.str.visible.map (fun s => ents s.data)).sum = ents (d.str.visible.map Shard.data).flatten := by
      rw [ents_flatten_shards]; rfl
    rw [e, Multiset.map_add, ← Multiset.coe_add]
    unfold ents
    simp [Function.comp_def, Wrapped.entry, hqs]
  · rw [wss_eq hwf]
    exact hloop g

/-- A weighted query on an index whose buffered records have no weight, as a function of the random stream. -/
theorem wss_index_outs {K : Type} [LinearOrder K] [HasKey R K] {L : Layout} {tag : Bool} {pq : PQ R} {lb : LB R K} {lwm hwm sf : Nat} {d0 : Index R}
    {ops : List (Index.Op R)} (hnew : Index.new L tag (sortedImpl pq lb) lwm hwm sf = .ok d0) (hlwm : 1 ≤ lwm) (hsf : 1 ≤ sf) (hio : InsertOnly ops)
    (hal : al.Ok) {D : Nat} (hW : 0 < ((inserted ops).map wt).sum) (n fuel : Nat) :
    ∃ d, d0.run ops = .ok (d, List.replicate ops.length true) ∧ ((∀ w ∈ d.buf.contents, wt w.record = 0) →
      Wss.total wt d.buf.contents = 0 ∧ (wssWeights wt d).sum = ((inserted ops).map wt).sum ∧
      (d.buf.contents.map Wrapped.record ++ (d.str.visible.map Shard.data).flatten.map Wrapped.record).Perm (inserted ops) ∧
      (∀ f, (srcSizes al (wssWeights wt d) f (wssSources d).length n).sum = n) ∧
      ∀ g : Rng, d.wss wt D al g n (fuel + 1) = .ok (some ((srcOuts (wssPick wt al) g.tape (wssSources d)
        (srcSizes al (wssWeights wt d) g.tape (wssSources d).length n) n).map Wrapped.record)) ∧
        (srcOuts (wssPick wt al) g.tape (wssSources d) (srcSizes al (wssWeights wt d) g.tape (wssSources d).length n) n).length = n) := by
  obtain ⟨-, -, -, -, h5, -⟩ := new_ginv hnew hlwm hsf
  obtain ⟨d, h1, hclean, h3, -⟩ := (new_clean hnew hlwm hsf).run ops hio
  refine ⟨d, h1, fun hbuf => ?_⟩
  rw [h5, zero_add] at h3
  refine wss_outs (Buffer.view_gets (run_buf ops (new_buf hnew hlwm) h1).1.wf) ?_ ?_ hbuf hal hW n fuel
  · intro e he
    rw [h3] at he
    unfold insEntries at he
    simp only [Multiset.mem_coe, List.mem_map] at he
    obtain ⟨y, -, rfl⟩ := he
    rfl
  · rw [h3]; unfold insEntries; simp [Function.comp_def]

/-- C80, the index: if the buffered records have no weight, then over all streams of `2n` uniform draws the query always returns, and
returns record `r` on average `n` times its share of the total inserted weight, whichever shard holds it. Missing: buffered records with
weight, for which it is false (`C80_false`). -/
theorem C80_index_partial {K : Type} [LinearOrder K] [HasKey R K] {L : Layout} {tag : Bool} {pq : PQ R} {lb : LB R K} {lwm hwm sf : Nat} {d0 : Index R}
    {ops : List (Index.Op R)} (hnew : Index.new L tag (sortedImpl pq lb) lwm hwm sf = .ok d0) (hlwm : 1 ≤ lwm) (hsf : 1 ≤ sf) (hio : InsertOnly ops)
    (hal : al.Ok) {M mx D : Nat} (hM0 : 0 < M) (hW : 0 < ((inserted ops).map wt).sum)
    (hfair : ∀ ws : List Nat, 0 < ws.sum → ws.sum ∣ M → al.FairOn M ws) (hM : ∀ k, 1 ≤ k → k ≤ ((inserted ops).map wt).sum → k ∣ M) (r : R) (n fuel : Nat) :
    ∃ d, d0.run ops = .ok (d, List.replicate ops.length true) ∧ ((∀ w ∈ d.buf.contents, wt w.record = 0) →
      ∃ out : (Fin (n + n) → Fin M) → List R, (∀ t, d.wss wt D al ⟨tapeOf t, mx⟩ n (fuel + 1) = .ok (some (out t))) ∧
        (∑ t, (out t).count r) * ((inserted ops).map wt).sum = n * (wt r * insCount r ops) * M ^ (n + n)) := by
  obtain ⟨d, h1, hrest⟩ := wss_index_outs (D := D) hnew hlwm hsf hio hal hW n fuel
  refine ⟨d, h1, fun hbuf => ?_⟩
  obtain ⟨hb0, hwss, hperm, hsum, hout⟩ := hrest hbuf
  set qs := d.str.visible.map Shard.data with hqs
  set ws := wssWeights wt d with hws
  set ss := wssSources d with hss
  set c := wssPick wt al with hc
  have hpos : 0 < ws.sum := by omega
  refine ⟨fun t => (srcOuts c (tapeOf t) ss (srcSizes al ws (tapeOf t) ss.length n) n).map Wrapped.record, fun t => ?_, ?_⟩
  · exact (hout ⟨tapeOf t, mx⟩).1
  · set h : List (Wrapped R) → Nat := fun l => (l.map Wrapped.record).count r with hh
    have h0 : h [] = 0 := rfl
    have hadd : ∀ a b, h (a ++ b) = h a + h b := by intro a b; simp [hh]
    have hle : ∀ q ∈ qs, Wss.total wt q ≤ ((inserted ops).map wt).sum := by
      intro q hq
      rw [← hwss, hws, wssWeights, List.sum_cons, ← hqs]
      have := List.le_sum_of_mem (List.mem_map.mpr ⟨q, hq, rfl⟩ : Wss.total wt q ∈ qs.map (Wss.total wt))
      omega
    have key := two_stage (al := al) (ws := ws) (ss := ss) (c := c) h0 hadd hM0
      (hfair _ hpos (hM _ hpos (by rw [hwss])))
      (w := fun o => match o with | none => 0 | some q => Wss.total wt q)
      (E := fun o => match o with | none => 0 | some q => (q.map (fun w => wt w.record * h [w])).sum)
      (by rw [hws, hss, wssWeights, wssSources, hb0]; simp [Function.comp_def])
      (by
        intro s hs
        match s with
        | none => simp
        | some q =>
          have hq : q ∈ qs := by rw [hss, wssSources, ← hqs] at hs; simpa using hs
          exact Wss.sum_pickW hal (fun hp => hfair _ hp (hM _ hp (hle q hq))))
      (out := fun t => srcOuts c (tapeOf t) ss (srcSizes al ws (tapeOf t) ss.length n) n) (fun t => rfl)
      hsum
    rw [hwss] at key
    have hE : (ss.map (fun o => match o with | none => 0 | some q => (q.map (fun w => wt w.record * h [w])).sum)).sum = wt r * insCount r ops := by
      rw [hss, wssSources, ← hqs, List.map_cons, List.sum_cons, Nat.zero_add, List.map_map]
      have e1 : (qs.map ((fun o : Option (List (Wrapped R)) => match o with | none => 0 | some q => (q.map (fun w => wt w.record * h [w])).sum) ∘ some)).sum =
          wt r * (qs.flatten.map Wrapped.record).count r := by
        generalize qs = qs
        clear * -
        induction qs with
        | nil => simp
        | cons q qs ih =>
          rw [List.map_cons, List.sum_cons, ih, List.flatten_cons, List.map_append, List.count_append, Nat.mul_add]
          congr 1
          exact sum_weight_count r q
      rw [e1]
      have e2 : (inserted ops).count r = (d.buf.contents.map Wrapped.record).count r + (qs.flatten.map Wrapped.record).count r := by
        rw [← hperm.count_eq, List.count_append]
      rw [← count_inserted, e2, Nat.mul_add]
      have e3 : wt r * (d.buf.contents.map Wrapped.record).count r = 0 := by
        by_cases hr : r ∈ d.buf.contents.map Wrapped.record
        · obtain ⟨w, hw, rfl⟩ := List.mem_map.mp hr
          rw [hbuf w hw, Nat.zero_mul]
        · rw [List.count_eq_zero_of_not_mem hr, Nat.mul_zero]
      omega
    rw [hE] at key
    calc _ = (∑ t : Fin (n + n) → Fin M, h (srcOuts c (tapeOf t) ss (srcSizes al ws (tapeOf t) ss.length n) n)) * ((inserted ops).map wt).sum := rfl
      _ = _ := by rw [key]; ring

/-- C80 is false of an index whose buffer has weight: three records of weights 1, 8 and 1 are inserted; queries return samples, but
the third record is in none of them, whatever the random stream, the sample size and the alias structure. -/
theorem C80_false : ∃ (d0 d : Index Rec) (bs : List Bool), mk .tiering false 4 4 2 = .ok d0 ∧
    d0.run [.ins ⟨1, 1⟩, .ins ⟨2, 8⟩, .ins ⟨3, 1⟩] = .ok (d, bs) ∧
    (∃ (al : AliasFn) (g : Rng) (out : List Rec), al.Ok ∧ d.wss (fun r => r.value) 8 al g 4 2 = .ok (some out) ∧ out ≠ []) ∧
    ∀ (al : AliasFn) (g : Rng) (D n fuel : Nat) (out : List Rec), al.Ok → 0 < D → d.wss (fun r => r.value) D al g n fuel = .ok (some out) →
      out.count ⟨3, 1⟩ = 0 := by
  obtain ⟨d0, d, bs, al, g, h1, h2, h3, h4⟩ := C37_false_many
  refine ⟨d0, d, bs, h2, h3, ⟨al, g, _, h1, h4, by simp⟩, ?_⟩
  intro al' g' D n fuel out hal hD hq
  have e : d0.run [.ins ⟨1, 1⟩, .ins ⟨2, 8⟩, .ins ⟨3, 1⟩] = .ok (d, bs) → (d.buf.contents.map Wrapped.record).getLast? = some ⟨3, 1⟩ ∧
      0 < d.weight (fun r => r.value) ∧ (d.entries.map Entry.record).count ⟨3, 1⟩ = 1 := by
    cases h2
    intro h
    cases h
    exact ⟨by decide, by decide, by decide⟩
  obtain ⟨a1, a2, a3⟩ := e h3
  exact List.count_eq_zero_of_not_mem (C37_false_newest h2 (by decide) h3 hD hal a2 a1 a3 hq)

/-- The hypotheses of `C80_static_partial`, and of `C80_index_partial` with a weightless record in the buffer and shards below. -/
example : ∃ d0 d : Index Rec, mk .tiering false 2 2 2 = .ok d0 ∧ InsertOnly (insSeq 1 4 ++ [.ins ⟨9, 0⟩]) ∧ aliasStd.Ok ∧
    (let W := ((inserted (insSeq 1 4 ++ [.ins (⟨9, 0⟩ : Rec)])).map (fun r => r.value)).sum
     0 < W ∧ 0 < W.factorial ∧ (∀ ws : List Nat, 0 < ws.sum → ws.sum ∣ W.factorial → aliasStd.FairOn W.factorial ws) ∧
      ∀ k, 1 ≤ k → k ≤ W → k ∣ W.factorial) ∧
    d0.run (insSeq 1 4 ++ [.ins ⟨9, 0⟩]) = .ok (d, [true, true, true, true, true]) ∧ d.buf.contents.map Wrapped.record = [⟨9, 0⟩] ∧
    (d.str.visible.map (fun s => s.data.map Wrapped.record)).flatten = [⟨1, 1⟩, ⟨2, 2⟩, ⟨3, 3⟩, ⟨4, 4⟩] := by
  refine ⟨_, _, rfl, ?_, aliasStd_ok, ⟨by decide, Nat.factorial_pos _, fun ws _ h => aliasStd_fair ws h, fun _ h1 h2 => Nat.dvd_factorial h1 h2⟩,
    rfl, by decide, by decide⟩
  intro o ho
  simp [insSeq] at ho
  rcases ho with h | h | h | h | h <;> exact ⟨_, h⟩

end DE
