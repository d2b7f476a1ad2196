import Verif.Proofs.Sampling
import Verif.Proofs.Instances
import Verif.Properties.RangeQuery
import Verif.Properties.TaggingErase
import Verif.Properties.Search

/-!
C34 (range samples are in range), C35 (number of range samples), C36 (termination of range sampling), C37 (weighted sampling),
C54 (no erased record is sampled).
-/

namespace DE
variable {R K : Type} [LinearOrder R] [LinearOrder K] [HasKey R K] [Inhabited R]

/-- C34: after any history on any layout with any delete policy, with or without rejection sampling, for any random stream,
range (also a reversed one) and sample size, every record returned by an IRS query over ISAM trees is stored and in range.
The index and the generator have to be small enough for index arithmetic to fit 64 bits. -/
theorem C34_in_range {L : Layout} {tag : Bool} {pq : PQ R} (hpq : pq.ByRec) {lb : LB R K} {lwm hwm sf : Nat} {d0 d : Index R}
    {ops : List (Index.Op R)} {bs : List Bool}
    (hnew : Index.new L tag (sortedImpl pq lb) lwm hwm sf = .ok d0) (hlwm : 1 ≤ lwm) (hrun : d0.run ops = .ok (d, bs))
    {F LF : Nat} (hF : 2 ≤ F) (hLF : 1 ≤ LF) (z : K) {al : AliasFn} (hal : al.Ok) {g : Rng}
    (hsz : ∀ s ∈ d.str.visible, g.max + s.data.length < 2 ^ 64) {rej : Bool} {lo hi : K} {n fuel : Nat} {out : List R}
    (hq : d.irs rej al g (Isam.lowerBound F LF z) (Isam.upperBound F LF z) lo hi n fuel = .ok (some out)) :
    ∀ r ∈ out, lo ≤ key r ∧ key r ≤ hi ∧ ∃ e ∈ d.entries, e.record = r := by
  obtain ⟨hd, -⟩ := new_ok hnew
  have hb0 := new_buf hnew hlwm
  have himpl : d0.impl = sortedImpl pq lb := by rw [hd]
  have hs := (run_sorted hpq hb0 himpl (by rw [hd]) hrun).visible
  have hne := irs_nonempty hq
  obtain ⟨qs, hset⟩ := irs_setup (isam_exactBounds hF hLF z) (run_buf ops hb0 hrun).1.wf lo hi
    (fun s hsm => ⟨KeySorted.of_rec (hs s hsm), hne s hsm⟩)
  rw [hset.eq] at hq
  have hqs : ∀ q ∈ qs, q.Exact lo hi ∧ g.max + q.data.length < 2 ^ 64 := by
    intro q hqm
    obtain ⟨s, hsm, he⟩ := hset.len q hqm
    exact ⟨hset.exact q hqm, by rw [he]; exact hsz s hsm⟩
  have := ((Irs.loop_good hal hqs fuel n 0 [] n (by simp) (by simp)).elim hq out rfl).1
  intro r hr
  obtain ⟨h1, h2, h3⟩ := (hset.avail r).mp (this r hr)
  exact ⟨h2, h3, h1⟩

omit [LinearOrder R] [Inhabited R] in
theorem inserted_len : ∀ ops : List (Index.Op R), (inserted ops).length ≤ ops.length
  | [] => le_refl _
  | .ins _ :: os => by simp only [inserted, List.length_cons]; have := inserted_len os; omega
  | .del _ :: os => by simp only [inserted, List.length_cons]; have := inserted_len os; omega

/-- The index after an insert-only history, its size being within the range of the generator. -/
theorem irs_insert_only {L : Layout} {tag : Bool} {pq : PQ R} (hpq : pq.ByRec) {lb : LB R K} {lwm hwm sf : Nat} {d0 : Index R}
    {ops : List (Index.Op R)}
    (hnew : Index.new L tag (sortedImpl pq lb) lwm hwm sf = .ok d0) (hlwm : 1 ≤ lwm) (hsf : 1 ≤ sf) (hio : InsertOnly ops)
    {F LF : Nat} (hF : 2 ≤ F) (hLF : 1 ≤ LF) (z : K) {g : Rng} (hg : ops.length ≤ g.max) (hg' : g.max < 2 ^ 63) {lo hi : K} (hle : lo ≤ hi) :
    ∃ d qs, d0.run ops = .ok (d, List.replicate ops.length true) ∧ IrsSetup (Isam.lowerBound F LF z) (Isam.upperBound F LF z) lo hi d qs ∧
      (∀ q ∈ qs, q.Exact lo hi ∧ g.max + q.data.length < 2 ^ 64) ∧ Irs.Safe g lo hi d.buf.contents qs ∧
      (∀ r, (∃ e ∈ d.entries, e.record = r) ↔ .ins r ∈ ops) := by
  obtain ⟨d, h1, h2, h3, -⟩ := (new_clean hnew hlwm hsf).run ops hio
  obtain ⟨-, -, -, h4, h5, -⟩ := new_ginv hnew hlwm hsf
  obtain ⟨hd, -⟩ := new_ok hnew
  have hs := (run_sorted hpq (new_buf hnew hlwm) h4 (by rw [hd]) h1).visible
  obtain ⟨qs, hset⟩ := irs_setup (isam_exactBounds hF hLF z) h2.inv.wf lo hi
    (fun s hsm => ⟨KeySorted.of_rec (hs s hsm), (h2.shards s hsm).1⟩)
  rw [h5, zero_add] at h3
  have hcard : Multiset.card d.entries ≤ ops.length := by
    rw [h3]
    unfold insEntries
    rw [Multiset.coe_card, List.length_map]
    exact inserted_len ops
  have hbl : d.buf.contents.length ≤ ops.length := by
    refine le_trans ?_ hcard
    unfold Index.entries
    rw [Multiset.card_add]
    unfold ents
    simp
  have hsl : ∀ s ∈ d.str.visible, s.data.length ≤ ops.length := by
    intro s hsm
    refine le_trans ?_ hcard
    unfold Index.entries
    rw [Multiset.card_add]
    have : ∀ (ss : List (Shard R)), s ∈ ss → s.data.length ≤ Multiset.card (ss.map (fun s => ents s.data)).sum := by
      intro ss
      induction ss with
      | nil => simp
      | cons t ts ih =>
        intro hm
        rw [List.map_cons, List.sum_cons, Multiset.card_add]
        rcases List.mem_cons.mp hm with rfl | hm
        · unfold ents; simp
        · have := ih hm; omega
    have := this _ hsm
    omega
  refine ⟨d, qs, h1, hset, ?_, ⟨hle, by omega, ?_⟩, ?_⟩
  · intro q hqm
    obtain ⟨s, hsm, he⟩ := hset.len q hqm
    have := hsl s hsm
    exact ⟨hset.exact q hqm, by rw [he]; omega⟩
  · intro q hqm
    obtain ⟨s, hsm, he⟩ := hset.len q hqm
    have := hsl s hsm
    rw [he]; omega
  · intro r
    rw [h3]
    unfold insEntries
    simp only [Multiset.mem_coe, List.mem_map]
    constructor
    · rintro ⟨e, ⟨x, hx, rfl⟩, rfl⟩
      exact mem_inserted.mp hx
    · intro hr
      exact ⟨_, ⟨r, mem_inserted.mpr hr, rfl⟩, rfl⟩

/-- C34, insert-only histories and proper ranges: the query never faults, whatever it draws, and returns inserted records in
range, never more than requested. -/
theorem C34_insert_only {L : Layout} {tag : Bool} {pq : PQ R} (hpq : pq.ByRec) {lb : LB R K} {lwm hwm sf : Nat} {d0 : Index R}
    {ops : List (Index.Op R)}
    (hnew : Index.new L tag (sortedImpl pq lb) lwm hwm sf = .ok d0) (hlwm : 1 ≤ lwm) (hsf : 1 ≤ sf) (hio : InsertOnly ops)
    {F LF : Nat} (hF : 2 ≤ F) (hLF : 1 ≤ LF) (z : K) {al : AliasFn} (hal : al.Ok) {g : Rng} (hg : ops.length ≤ g.max) (hg' : g.max < 2 ^ 63)
    (rej : Bool) {lo hi : K} (hle : lo ≤ hi) (n fuel : Nat) :
    ∃ d o, d0.run ops = .ok (d, List.replicate ops.length true) ∧
      d.irs rej al g (Isam.lowerBound F LF z) (Isam.upperBound F LF z) lo hi n fuel = .ok o ∧
      ∀ out, o = some out → out.length ≤ n ∧ ∀ r ∈ out, .ins r ∈ ops ∧ lo ≤ key r ∧ key r ≤ hi := by
  obtain ⟨d, qs, h1, hset, hqs, hsafe, hmem⟩ := irs_insert_only hpq hnew hlwm hsf hio hF hLF z hg hg' hle
  obtain ⟨o, ho, hP⟩ := (Irs.loop_good (rej := rej) hal hqs fuel n 0 [] n (by simp) (by simp)).safe hsafe
  refine ⟨d, o, h1, by rw [hset.eq]; exact ho, ?_⟩
  intro out he
  obtain ⟨p1, p2⟩ := hP out he
  refine ⟨p2, ?_⟩
  intro r hr
  obtain ⟨a, b⟩ := (hset.avail r).mp (p1 r hr)
  exact ⟨(hmem r).mp a, b⟩

/-- C35, insert-only histories: if some inserted record is in range, and either rejection sampling is off or all buffered
records are in range, exactly the requested number of samples is returned. Missing: rejected draws. -/
theorem C35_partial {L : Layout} {tag : Bool} {pq : PQ R} (hpq : pq.ByRec) {lb : LB R K} {lwm hwm sf : Nat} {d0 : Index R}
    {ops : List (Index.Op R)}
    (hnew : Index.new L tag (sortedImpl pq lb) lwm hwm sf = .ok d0) (hlwm : 1 ≤ lwm) (hsf : 1 ≤ sf) (hio : InsertOnly ops)
    {F LF : Nat} (hF : 2 ≤ F) (hLF : 1 ≤ LF) (z : K) {al : AliasFn} (hal : al.Ok) {g : Rng} (hg : ops.length ≤ g.max) (hg' : g.max < 2 ^ 63)
    (rej : Bool) {lo hi : K} {r0 : R} (hr0 : .ins r0 ∈ ops) (hlo : lo ≤ key r0) (hhi : key r0 ≤ hi) (n fuel : Nat) :
    ∃ d, d0.run ops = .ok (d, List.replicate ops.length true) ∧
      ((rej = false ∨ ∀ w ∈ d.buf.contents, lo ≤ key w.record ∧ key w.record ≤ hi) →
      ∃ out, d.irs rej al g (Isam.lowerBound F LF z) (Isam.upperBound F LF z) lo hi n (fuel + 1) = .ok (some out) ∧ out.length = n ∧
        ∀ r ∈ out, .ins r ∈ ops ∧ lo ≤ key r ∧ key r ≤ hi) := by
  have hle := le_trans hlo hhi
  obtain ⟨d, qs, h1, hset, hqs, hsafe, hmem⟩ := irs_insert_only hpq hnew hlwm hsf hio hF hLF z hg hg' hle
  refine ⟨d, h1, fun hex => ?_⟩
  have hw := Irs.weights_pos (rej := rej) (buf := d.buf.contents) hset.exact ((hset.avail r0).mpr ⟨(hmem r0).mpr hr0, hlo, hhi⟩)
  obtain ⟨out, ho, hl⟩ := Irs.loop_one (rej := rej) hal hqs hsafe ⟨hex.imp id (fun h w hw => by
    unfold Irs.inR; simpa using h w hw), hw⟩ n fuel
  refine ⟨out, by rw [hset.eq]; exact ho, hl, ?_⟩
  have := ((Irs.loop_good hal hqs (fuel+1) n 0 [] n (by simp) (by simp)).elim ho out rfl).1
  intro r hr
  obtain ⟨a, b⟩ := (hset.avail r).mp (this r hr)
  exact ⟨(hmem r).mp a, b⟩

/-- C36: the query does not terminate when no stored record is in range: for every random stream, every positive sample
size and every number of rounds it is still running. -/
theorem C36_false {L : Layout} {tag : Bool} {pq : PQ R} (hpq : pq.ByRec) {lb : LB R K} {lwm hwm sf : Nat} {d0 : Index R}
    {ops : List (Index.Op R)}
    (hnew : Index.new L tag (sortedImpl pq lb) lwm hwm sf = .ok d0) (hlwm : 1 ≤ lwm) (hsf : 1 ≤ sf) (hio : InsertOnly ops)
    {F LF : Nat} (hF : 2 ≤ F) (hLF : 1 ≤ LF) (z : K) {al : AliasFn} (hal : al.Ok) {g : Rng} (hg : ops.length ≤ g.max) (hg' : g.max < 2 ^ 63)
    (rej : Bool) {lo hi : K} (hle : lo ≤ hi) (hout : ∀ r, .ins r ∈ ops → ¬ (lo ≤ key r ∧ key r ≤ hi)) {n : Nat} (hn : 0 < n) :
    ∃ d, d0.run ops = .ok (d, List.replicate ops.length true) ∧ ∀ fuel,
      d.irs rej al g (Isam.lowerBound F LF z) (Isam.upperBound F LF z) lo hi n fuel = .ok none := by
  obtain ⟨d, qs, h1, hset, hqs, hsafe, hmem⟩ := irs_insert_only hpq hnew hlwm hsf hio hF hLF z hg hg' hle
  refine ⟨d, h1, fun fuel => ?_⟩
  rw [hset.eq]
  apply Irs.loop_never _ hn
  intro m pos
  obtain ⟨⟨r, p⟩, e1, e2⟩ := (Irs.round_good (rej := rej) hal hqs m pos).safe hsafe
  refine ⟨p, ?_⟩
  rw [e1]
  cases r with
  | nil => rfl
  | cons x xs =>
    obtain ⟨a, b⟩ := (hset.avail x).mp (e2.1 x (by simp))
    exact absurd b (hout x ((hmem x).mp a))

/-- C36, the part that holds: the query ends after one round if nothing can be rejected, and otherwise (with `lo <= hi`) at
most `n + 1` rounds after something has been drawn: `n` is the outstanding number and `out` the samples collected at any
point of the loop. Missing: streams on which every draw is rejected; they exist whenever some buffered record is out of range. -/
theorem C36_partial {L : Layout} {tag : Bool} {pq : PQ R} (hpq : pq.ByRec) {lb : LB R K} {lwm hwm sf : Nat} {d0 : Index R}
    {ops : List (Index.Op R)}
    (hnew : Index.new L tag (sortedImpl pq lb) lwm hwm sf = .ok d0) (hlwm : 1 ≤ lwm) (hsf : 1 ≤ sf) (hio : InsertOnly ops)
    {F LF : Nat} (hF : 2 ≤ F) (hLF : 1 ≤ LF) (z : K) {al : AliasFn} (hal : al.Ok) {g : Rng} (hg : ops.length ≤ g.max) (hg' : g.max < 2 ^ 63)
    (rej : Bool) {lo hi : K} (hle : lo ≤ hi) :
    ∃ d qs, d0.run ops = .ok (d, List.replicate ops.length true) ∧
      (∀ n fuel, d.irs rej al g (Isam.lowerBound F LF z) (Isam.upperBound F LF z) lo hi n fuel =
        Irs.loop rej al g lo hi d.buf.contents qs fuel n 0 []) ∧
      (∀ n pos out fuel, out ≠ [] → n < fuel → ∃ res, Irs.loop rej al g lo hi d.buf.contents qs fuel n pos out = .ok (some res)) ∧
      ((rej = false ∨ ∀ w ∈ d.buf.contents, lo ≤ key w.record ∧ key w.record ≤ hi) →
        (∃ r, .ins r ∈ ops ∧ lo ≤ key r ∧ key r ≤ hi) → ∀ n fuel,
        ∃ res, d.irs rej al g (Isam.lowerBound F LF z) (Isam.upperBound F LF z) lo hi n (fuel + 1) = .ok (some res)) := by
  obtain ⟨d, qs, h1, hset, hqs, hsafe, hmem⟩ := irs_insert_only hpq hnew hlwm hsf hio hF hLF z hg hg' hle
  refine ⟨d, qs, h1, fun n fuel => hset.eq .., fun n pos out fuel ho hf => Irs.loop_ends hal hqs hsafe fuel n pos out ho hf, ?_⟩
  rintro hex ⟨r, hr, hlo, hhi⟩ n fuel
  obtain ⟨d', h1', h2⟩ := C35_partial hpq hnew hlwm hsf hio hF hLF z hal hg hg' rej hr hlo hhi n fuel
  rw [h1] at h1'
  cases h1'
  obtain ⟨out, h3, -⟩ := h2 hex
  exact ⟨out, h3⟩

/-! ### Witnesses for IRS -/

/-- A generator with the range of a 32 bit one. -/
def tapeRng (f : Nat → Nat) : Rng := ⟨f, 2 ^ 32 - 1⟩

theorem insSeq_insertOnly : ∀ n k, InsertOnly (insSeq n k)
  | _, 0 => by intro o ho; cases ho
  | n, k+1 => by
    intro o ho
    rcases List.mem_cons.mp ho with rfl | ho
    · exact ⟨_, rfl⟩
    · exact insSeq_insertOnly _ k o ho

/-- Six records in range over a buffer and two levels of shards: all five samples are in range. -/
example : probe .tiering false 2 2 2 (insSeq 1 9)
    (fun p => p.1.irs false aliasStd (tapeRng (7 * ·)) (Isam.lowerBound 2 2 0) (Isam.upperBound 2 2 0) 3 8 5 1) =
    .ok (some [⟨6, 6⟩, ⟨5, 5⟩, ⟨8, 8⟩, ⟨7, 7⟩, ⟨4, 4⟩]) := by decide
/-- The same with rejection sampling. -/
example : probe .tiering false 2 2 2 (insSeq 1 9)
    (fun p => p.1.irs true aliasStd (tapeRng (5 * · + 1)) (Isam.lowerBound 2 2 0) (Isam.upperBound 2 2 0) 3 8 5 9) =
    .ok (some [⟨6, 6⟩, ⟨5, 5⟩, ⟨8, 8⟩, ⟨3, 3⟩, ⟨5, 5⟩]) := by decide
example : ∃ d0 : Index Rec, mk .tiering false 2 2 2 = .ok d0 ∧ InsertOnly (insSeq 1 9) ∧ (insSeq 1 9).length ≤ (tapeRng id).max ∧
    Index.Op.ins (⟨4, 4⟩ : Rec) ∈ insSeq 1 9 := ⟨_, rfl, insSeq_insertOnly _ _, by decide, by decide⟩

/-- C35 is false with rejection sampling: four samples requested, a record in range is stored, one sample is returned. -/
theorem C35_false : ∃ (d0 d : Index Rec) (bs : List Bool) (al : AliasFn) (g : Rng), al.Ok ∧ mk .tiering false 4 4 2 = .ok d0 ∧
    d0.run [.ins ⟨1, 0⟩, .ins ⟨5, 0⟩] = .ok (d, bs) ∧
    d.irs true al g (Isam.lowerBound 2 2 0) (Isam.upperBound 2 2 0) 1 1 4 4 = .ok (some [⟨1, 0⟩]) := by
  have h : probe .tiering false 4 4 2 [.ins ⟨1, 0⟩, .ins ⟨5, 0⟩] (fun p => p.1.irs true aliasStd (tapeRng (fun i => if i = 4 then 0 else 1))
    (Isam.lowerBound 2 2 0) (Isam.upperBound 2 2 0) 1 1 4 4) = .ok (some [⟨1, 0⟩]) := by decide
  obtain ⟨d0, d, bs, h1, h2, h3⟩ := probe_ok h
  exact ⟨d0, d, bs, aliasStd, _, aliasStd_ok, h1, h2, h3⟩

/-- The hypotheses of `C36_false` are met by an empty index and by one with all records below the range. -/
example : ∃ d0 : Index Rec, mk .tiering false 2 2 2 = .ok d0 ∧ InsertOnly (insSeq 1 9) ∧
    ∀ r : Rec, Index.Op.ins r ∈ insSeq 1 9 → ¬ (10 ≤ key r ∧ key r ≤ 20) := by
  refine ⟨_, rfl, insSeq_insertOnly _ _, ?_⟩
  intro r hr h
  simp [insSeq] at hr
  rcases hr with rfl | rfl | rfl | rfl | rfl | rfl | rfl | rfl | rfl <;> exact absurd h.1 (by decide)

/-- C54 is false with tagging: the erase was acknowledged, the record is sampled. -/
theorem C54_false_tagging : ∃ (d0 d : Index Rec) (al : AliasFn) (g : Rng), al.Ok ∧ mk .tiering true 4 4 2 = .ok d0 ∧
    d0.run [.ins ⟨1, 0⟩, .del ⟨1, 0⟩] = .ok (d, [true, true]) ∧
    d.irs true al g (Isam.lowerBound 2 2 0) (Isam.upperBound 2 2 0) 1 1 1 1 = .ok (some [⟨1, 0⟩]) := by
  have h : probe .tiering true 4 4 2 [.ins ⟨1, 0⟩, .del ⟨1, 0⟩] (fun p => do
      let r ← p.1.irs true aliasStd (tapeRng id) (Isam.lowerBound 2 2 0) (Isam.upperBound 2 2 0) 1 1 1 1
      .ok (p.2, r)) = .ok ([true, true], some [⟨1, 0⟩]) := by decide
  obtain ⟨d0, d, bs, h1, h2, h3⟩ := probe_ok h
  cases hq : d.irs true aliasStd (tapeRng id) (Isam.lowerBound 2 2 0) (Isam.upperBound 2 2 0) 1 1 1 1 with
  | error e => simp only [hq, bind, Except.bind] at h3; cases h3
  | ok r =>
    simp only [hq, bind, Except.bind] at h3
    cases h3
    exact ⟨d0, d, aliasStd, _, aliasStd_ok, h1, h2, hq⟩

/-- C54 is false with tombstones. -/
theorem C54_false_tombstones : ∃ (d0 d : Index Rec) (bs : List Bool) (al : AliasFn) (g : Rng), al.Ok ∧ mk .tiering false 4 4 2 = .ok d0 ∧
    d0.run [.ins ⟨1, 0⟩, .del ⟨1, 0⟩] = .ok (d, bs) ∧
    d.irs true al g (Isam.lowerBound 2 2 0) (Isam.upperBound 2 2 0) 1 1 1 1 = .ok (some [⟨1, 0⟩]) := by
  have h : probe .tiering false 4 4 2 [.ins ⟨1, 0⟩, .del ⟨1, 0⟩] (fun p => p.1.irs true aliasStd (tapeRng id)
    (Isam.lowerBound 2 2 0) (Isam.upperBound 2 2 0) 1 1 1 1) = .ok (some [⟨1, 0⟩]) := by decide
  obtain ⟨d0, d, bs, h1, h2, h3⟩ := probe_ok h
  exact ⟨d0, d, bs, aliasStd, _, aliasStd_ok, h1, h2, h3⟩

/-! ### C37 -/

section wss
variable {R : Type} [LinearOrder R] [Inhabited R] {wt : R → Nat} {D : Nat} {al : AliasFn} {g : Rng}

/-- The total weight of all stored records. -/
def Index.weight (wt : R → Nat) (d : Index R) : Nat := (d.entries.map (fun e => wt e.record)).sum

theorem wss_total {d : Index R} :
    (Wss.total wt d.buf.contents :: (d.str.visible.map Shard.data).map (Wss.total wt)).sum = d.weight wt := by
  have h1 : ∀ l : List (Wrapped R), ((ents l).map (fun e => wt e.record)).sum = Wss.total wt l := by
    intro l
    unfold ents Wss.total
    simp [Function.comp_def, Wrapped.entry]
  have h2 : ∀ ss : List (Shard R), (((ss.map (fun s => ents s.data)).sum).map (fun e => wt e.record)).sum =
      ((ss.map Shard.data).map (Wss.total wt)).sum := by
    intro ss
    induction ss with
    | nil => simp
    | cons s ss ih =>
      simp only [List.map_cons, List.sum_cons, Multiset.map_add, Multiset.sum_add, h1, ih]
  unfold Index.weight Index.entries
  rw [Multiset.map_add, Multiset.sum_add, h1, h2, List.sum_cons]

theorem wss_eq {d : Index R} (h : d.buf.view.gets = .ok d.buf.contents) (n fuel : Nat) : d.wss wt D al g n fuel =
    Wss.loop wt D al g d.buf.contents (d.str.visible.map Shard.data) fuel n 0
      (List.replicate ((d.str.visible.map Shard.data).length + 1) 0) [] := by
  unfold Index.wss
  rw [h]
  rfl

/-- What WSS returns after any history, if it returns: stored records which are not tagged as deleted, and never the newest
record of the buffer (unless another equal record is stored). -/
theorem wss_returned {L : Layout} {tag : Bool} {I : ShardImpl R} {lwm hwm sf : Nat} {d0 d : Index R} {ops : List (Index.Op R)} {bs : List Bool}
    (hnew : Index.new L tag I lwm hwm sf = .ok d0) (hlwm : 1 ≤ lwm) (hrun : d0.run ops = .ok (d, bs))
    (hD : 0 < D) (hal : al.Ok) (hw : 0 < d.weight wt) {n fuel : Nat} {out : List R} (hq : d.wss wt D al g n fuel = .ok (some out)) :
    ∀ r ∈ out, Wss.Avail d.buf.contents (d.str.visible.map Shard.data) r := by
  have hwf := (run_buf ops (new_buf hnew hlwm) hrun).1.wf
  rw [wss_eq (Buffer.view_gets hwf)] at hq
  have hsp := split_replicate (Wss.total wt d.buf.contents :: (d.str.visible.map Shard.data).map (Wss.total wt))
  rw [List.length_cons, List.length_map] at hsp
  exact (Wss.loop_good hD hal (by rw [wss_total]; omega) fuel n 0 0 _ [] hsp (by simp)).elim hq out rfl

/-- C37, any history: every record WSS returns is stored and not tagged as deleted. -/
theorem C37_stored_partial {L : Layout} {tag : Bool} {I : ShardImpl R} {lwm hwm sf : Nat} {d0 d : Index R} {ops : List (Index.Op R)}
    {bs : List Bool} (hnew : Index.new L tag I lwm hwm sf = .ok d0) (hlwm : 1 ≤ lwm) (hrun : d0.run ops = .ok (d, bs))
    (hD : 0 < D) (hal : al.Ok) (hw : 0 < d.weight wt) {n fuel : Nat} {out : List R} (hq : d.wss wt D al g n fuel = .ok (some out)) :
    ∀ r ∈ out, ∃ e ∈ d.entries, e.record = r ∧ e.del = false := by
  intro r hr
  obtain ⟨w, hw, hd, rfl⟩ := wss_returned hnew hlwm hrun hD hal hw hq r hr
  refine ⟨w.entry, mem_entries.mpr ?_, rfl, hd⟩
  rcases hw with hw | ⟨q, hq, hw⟩
  · exact Or.inl ⟨w, List.mem_of_mem_dropLast hw, rfl⟩
  · obtain ⟨s, hs, rfl⟩ := List.mem_map.mp hq
    exact Or.inr ⟨s, hs, w, hw, rfl⟩

/-- C37, any history: exactly `n` samples in one round when nothing is tagged as deleted and the buffer has no weight, or at
least two records all of the same weight. Missing: other buffers, where a draw may be rejected. -/
theorem C37_exact_partial {L : Layout} {tag : Bool} {I : ShardImpl R} {lwm hwm sf : Nat} {d0 d : Index R} {ops : List (Index.Op R)}
    {bs : List Bool} (hnew : Index.new L tag I lwm hwm sf = .ok d0) (hlwm : 1 ≤ lwm) (hrun : d0.run ops = .ok (d, bs))
    (hD : 0 < D) (hal : al.Ok) (hw : 0 < d.weight wt) (hd : ∀ e ∈ d.entries, e.del = false)
    (hb : (∀ w ∈ d.buf.contents, wt w.record = 0) ∨
      (2 ≤ d.buf.contents.length ∧ d.buf.contents.length ≤ g.max ∧ ∃ c, ∀ w ∈ d.buf.contents, wt w.record = c)) (n fuel : Nat) :
    ∃ out, d.wss wt D al g n (fuel + 1) = .ok (some out) ∧ out.length = n := by
  have hwf := (run_buf ops (new_buf hnew hlwm) hrun).1.wf
  rw [wss_eq (Buffer.view_gets hwf)]
  have h0 : (∀ w ∈ d.buf.contents, wt w.record = 0) → Wss.total wt d.buf.contents = 0 := by
    intro hb
    unfold Wss.total
    apply List.sum_eq_zero_iff_forall_eq_nat.mpr
    intro x hx
    obtain ⟨w, hw, rfl⟩ := List.mem_map.mp hx
    exact hb w hw
  have hmax : ∀ (c : Nat) (l : List (Wrapped R)), l ≠ [] → (∀ w ∈ l, wt w.record = c) → Wss.maxWeight wt l = c := by
    intro c l
    induction l with
    | nil => simp
    | cons x l ih =>
      intro _ h
      have h1 := h x (by simp)
      unfold Wss.maxWeight at ih ⊢
      rw [List.map_cons, List.foldr_cons, h1]
      by_cases hl : l = []
      · subst hl; simp
      · rw [ih hl (fun w hw => h w (by simp [hw]))]; exact Nat.max_self c
  refine Wss.loop_one hD hal (by rw [wss_total]; omega) ?_ ?_ ?_ fuel n
  · exact hb.imp h0 (fun h => ⟨h.1, h.2.1⟩)
  · rcases hb with hb | ⟨h1, -, c, hc⟩
    · exact Or.inl (h0 hb)
    · right
      intro w hw
      refine ⟨hd w.entry (mem_entries.mpr (Or.inl ⟨w, hw, rfl⟩)), ?_⟩
      rw [hc w hw, hmax c _ (by intro e; rw [e] at h1; simp at h1) hc]
  · intro q hq w hw
    obtain ⟨s, hs, rfl⟩ := List.mem_map.mp hq
    exact hd w.entry (mem_entries.mpr (Or.inr ⟨s, hs, w, hw, rfl⟩))

/-- C37 is false: after any history, the newest record of the buffer is never drawn, for any random stream and sample size, if
it is stored only there. -/
theorem C37_false_newest {L : Layout} {tag : Bool} {I : ShardImpl R} {lwm hwm sf : Nat} {d0 d : Index R} {ops : List (Index.Op R)}
    {bs : List Bool} (hnew : Index.new L tag I lwm hwm sf = .ok d0) (hlwm : 1 ≤ lwm) (hrun : d0.run ops = .ok (d, bs))
    (hD : 0 < D) (hal : al.Ok) (hw : 0 < d.weight wt) {r : R} (hlast : (d.buf.contents.map Wrapped.record).getLast? = some r)
    (honce : (d.entries.map Entry.record).count r = 1) {n fuel : Nat} {out : List R}
    (hq : d.wss wt D al g n fuel = .ok (some out)) : r ∉ out := by
  intro hr
  obtain ⟨w, hw, -, hrec⟩ := wss_returned hnew hlwm hrun hD hal hw hq r hr
  have e1 : d.entries.map Entry.record = (d.buf.contents.map Wrapped.record : Multiset R) +
      ((d.str.visible.map (fun s => ents s.data)).sum).map Entry.record := by
    unfold Index.entries
    rw [Multiset.map_add]
    congr 1
    unfold ents
    simp [Function.comp_def, Wrapped.entry]
  rw [e1, Multiset.count_add, Multiset.coe_count] at honce
  obtain ⟨l, hl⟩ := List.getLast?_eq_some_iff.mp hlast
  rw [hl, List.count_append, List.count_singleton_self] at honce
  rcases hw with hw | ⟨q, hq, hw⟩
  · have : l = d.buf.contents.dropLast.map Wrapped.record := by
      rw [List.map_dropLast, hl, List.dropLast_concat]
    have : 0 < List.count r l := by
      rw [List.count_pos_iff, this]
      exact List.mem_map.mpr ⟨w, hw, hrec⟩
    omega
  · obtain ⟨s, hs, rfl⟩ := List.mem_map.mp hq
    have : 0 < Multiset.count r (((d.str.visible.map (fun s => ents s.data)).sum).map Entry.record) := by
      rw [Multiset.count_pos, Multiset.mem_map]
      exact ⟨w.entry, mem_sents.mpr ⟨s, hs, w, hw, rfl⟩, hrec⟩
    omega

end wss

/-- C37 is false: with one record in the index (in the buffer) every query with a positive sample size aborts in the random
number generator, for every stream. -/
theorem C37_false_single {L : Layout} {tag : Bool} {I : ShardImpl R} {lwm hwm sf : Nat} {d0 d : Index R} {bs : List Bool} {r : R}
    (hnew : Index.new L tag I lwm hwm sf = .ok d0) (hlwm : 1 ≤ lwm) (hrun : d0.run [.ins r] = .ok (d, bs)) (hcnt : d.buf.contents.length = 1)
    (hvis : d.str.visible = []) {wt : R → Nat} (hw : ∀ x, 0 < wt x) {D : Nat} {al : AliasFn} (hal : al.Ok) (g : Rng) {n : Nat} (hn : 0 < n) (fuel : Nat) :
    d.wss wt D al g n (fuel + 1) = .error .abort := by
  have hwf := (run_buf _ (new_buf hnew hlwm) hrun).1.wf
  rw [wss_eq (Buffer.view_gets hwf), hvis]
  obtain ⟨w, hwl⟩ := List.length_eq_one_iff.mp hcnt
  rw [hwl]
  have htot : Wss.total wt [w] ≠ 0 := by unfold Wss.total; simp; have := hw w.record; omega
  obtain ⟨⟨ns, p⟩, h1, h2⟩ := (distribute_good (ws := [Wss.total wt [w]]) hal (by simp; omega) g True n 0 0 [0]
    (by refine ⟨rfl, rfl, ?_⟩; intro i hi; cases i with
      | zero => rfl
      | succ i => simp at hi)).safe trivial
  simp only [List.map_nil, List.length_nil, Nat.zero_add, List.replicate_one]
  unfold Wss.loop
  simp only [List.map_nil]
  rw [h1]
  simp only [bind, Except.bind]
  simp only [Nat.zero_add] at h2
  match ns, h2 with
  | [nb], h2 =>
    have : nb = n := by have := h2.2.1; simpa using this
    subst this
    obtain ⟨m, rfl⟩ : ∃ m, nb = m + 1 := ⟨nb - 1, by omega⟩
    simp only
    unfold drawMany Wss.drawBuf Rng.below Wss.cutoff
    simp only [List.length_singleton]
    rfl
  | [], h2 => exact absurd h2.1 (by simp)
  | _ :: _ :: _, h2 => exact absurd h2.1 (by simp)

/-- One buffered record, buffer of four. -/
example : ∃ (d0 d : Index Rec) (bs : List Bool), mk .tiering false 4 4 2 = .ok d0 ∧ d0.run [.ins ⟨1, 1⟩] = .ok (d, bs) ∧
    d.buf.contents.length = 1 ∧ d.str.visible = [] := ⟨_, _, _, rfl, rfl, by decide, rfl⟩

/-- C37 is false: four samples are requested, eight are returned. The weight of a record is its value. -/
theorem C37_false_many : ∃ (d0 d : Index Rec) (bs : List Bool) (al : AliasFn) (g : Rng), al.Ok ∧ mk .tiering false 4 4 2 = .ok d0 ∧
    d0.run [.ins ⟨1, 1⟩, .ins ⟨2, 8⟩, .ins ⟨3, 1⟩] = .ok (d, bs) ∧
    d.wss (fun r => r.value) 8 al g 4 2 = .ok (some (List.replicate 8 ⟨2, 8⟩)) := by
  have h : probe .tiering false 4 4 2 [.ins ⟨1, 1⟩, .ins ⟨2, 8⟩, .ins ⟨3, 1⟩] (fun p => p.1.wss (fun r => r.value) 8 aliasStd
    (tapeRng (fun i => if i < 12 then (if i % 2 = 0 then 0 else 5) else 1)) 4 2) = .ok (some (List.replicate 8 ⟨2, 8⟩)) := by decide
  obtain ⟨d0, d, bs, h1, h2, h3⟩ := probe_ok h
  exact ⟨d0, d, bs, aliasStd, _, aliasStd_ok, h1, h2, h3⟩

/-- The newest of three buffered records: a query that returns. -/
example : ∃ (d0 d : Index Rec) (bs : List Bool), mk .tiering false 4 4 2 = .ok d0 ∧
    d0.run [.ins ⟨1, 1⟩, .ins ⟨2, 8⟩, .ins ⟨3, 1⟩] = .ok (d, bs) ∧ (d.buf.contents.map Wrapped.record).getLast? = some ⟨3, 1⟩ ∧
    0 < d.weight (fun r => r.value) ∧ (d.entries.map Entry.record).count ⟨3, 1⟩ = 1 := ⟨_, _, _, rfl, rfl, by decide, by decide, by decide⟩

/-- A shard and two buffered records, all of weight one: samples from both. -/
example : probe .tiering false 2 2 2 (insSeq 1 4) (fun p => do
    let r ← p.1.wss (fun _ => 1) 8 aliasStd (tapeRng (3 * ·)) 4 1
    .ok (p.1.buf.contents.length, r)) = .ok (2, some [⟨3, 3⟩, ⟨3, 3⟩, ⟨1, 1⟩, ⟨2, 2⟩]) := by decide

/-! ### C55: IRS on a static structure -/

/-- C55: on one (non-empty, key-sorted) ISAM shard without a buffer, exactly `n` samples are returned, all stored there and in
range, provided some record is in range. -/
theorem C55_static_partial {F LF : Nat} (hF : 2 ≤ F) (hLF : 1 ≤ LF) (z : K) {s : Shard R}
    (hs : s.data.Pairwise (fun a b => key (K := K) a.record ≤ key b.record)) {g : Rng} (hg : s.data.length ≤ g.max) (hg' : g.max < 2 ^ 63)
    {lo hi : K} (hin : ∃ w ∈ s.data, lo ≤ key w.record ∧ key w.record ≤ hi) (n : Nat) :
    ∃ out, irsStatic g (Isam.lowerBound F LF z) (Isam.upperBound F LF z) s lo hi n = .ok out ∧ out.length = n ∧
      ∀ r ∈ out, lo ≤ key r ∧ key r ≤ hi ∧ r ∈ s.data.map Wrapped.record := by
  obtain ⟨w0, hw0, h1, h2⟩ := hin
  have hne : s.data ≠ [] := List.ne_nil_of_mem hw0
  obtain ⟨l, hl1, hl2⟩ := (isam_exactBounds hF hLF z s.data hne hs lo).1
  obtain ⟨u, hu1, hu2⟩ := (isam_exactBounds hF hLF z s.data hne hs hi).2
  have hq : Irs.Local.Exact lo hi (⟨s.data, l, u⟩ : Irs.Local R) := ⟨hs, hl2, hu2⟩
  obtain ⟨⟨x, p⟩, e1, e2⟩ := (Irs.localQuery_good (g := g) (safe := True) hq (by simp only; omega)
    (fun _ => ⟨le_trans h1 h2, hg⟩) True (n := n) (fun h => absurd h (hq.pos hw0 h1 h2)) 0).safe trivial
  refine ⟨x.map Wrapped.record, ?_, by rw [List.length_map]; exact e2.2.2 trivial, ?_⟩
  · unfold irsStatic Irs.preproc
    rw [hl1]
    simp only [bind, Except.bind, hu1, e1]
  · intro r hr
    obtain ⟨w, hw, rfl⟩ := List.mem_map.mp hr
    obtain ⟨a, b, c⟩ := e2.1 w hw
    exact ⟨b, c, List.mem_map.mpr ⟨w, a, rfl⟩⟩

/-- Keys 0, 3, …, 36; three samples from the range 10 to 20. -/
example : irsStatic (tapeRng (· + 1)) (Isam.lowerBound 2 2 0) (Isam.upperBound 2 2 0) (⟨(ramp 3 13), 0⟩ : Shard Rec) 10 20 3 =
    .ok [⟨15, 0⟩, ⟨18, 0⟩, ⟨12, 0⟩] := by decide

/-- C55 is false when no record is in range: the record after the range is returned `n` times. -/
theorem C55_false : ∃ s : Shard Rec, s.data.Pairwise (fun a b => key (K := Nat) a.record ≤ key b.record) ∧
    ∀ f, irsStatic (tapeRng f) (Isam.lowerBound 2 2 0) (Isam.upperBound 2 2 0) s 10 11 2 = .ok [⟨12, 0⟩, ⟨12, 0⟩] :=
  ⟨⟨ramp 3 13, 0⟩, KeySorted.of_rec (ramp_sorted 3 13), fun f => rfl⟩

end DE
