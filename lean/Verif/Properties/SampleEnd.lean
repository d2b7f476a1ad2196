import Verif.Proofs.SampleEnd
import Verif.Properties.SampleLaw

/-!
C36, how likely it is that a range sampling query has not ended. As in C64, probabilities are counts over all random streams.
-/

namespace DE
variable {R K : Type} [LinearOrder R] [LinearOrder K] [HasKey R K] [Inhabited R]
open Finset

/-- How likely it is that a query on an index that stores the records `rs` has not ended. -/
theorem irs_unfinished {d : Index R} (hg : d.buf.view.gets = .ok d.buf.contents)
    (hs : ∀ s ∈ d.str.visible, s.data.Pairwise (fun a b => key (K := K) a.record ≤ key b.record) ∧ s.data ≠ [])
    {rs : List R} (hrs : d.entries.map Entry.record = (rs : Multiset R))
    {F LF : Nat} (hF : 2 ≤ F) (hLF : 1 ≤ LF) (z : K) {al : AliasFn} (hal : al.Ok) {mx M : Nat} (hmx : rs.length ≤ mx) (hmx' : mx < 2 ^ 63)
    (hM0 : 0 < M) (hfair : ∀ ws : List Nat, 0 < ws.sum → ws.sum ∣ M → al.FairOn M ws) (hM : ∀ k, 1 ≤ k → k ≤ rs.length → k ∣ M)
    {lo hi : K} {x : R} (hr : x ∈ rs) (hlo : lo ≤ key x) (hhi : key x ≤ hi) (rej : Bool) (n r : Nat) :
    let query := fun t : Fin ((n + n) * (r + n + 1)) → Fin M =>
      d.irs rej al ⟨tapeOf t, mx⟩ (Isam.lowerBound F LF z) (Isam.upperBound F LF z) lo hi n (r + n + 1)
    let stored := rs.filter (fun r => decide (lo ≤ key r) && decide (key r ≤ hi))
    (∀ t, query t = .ok none ∨ ∃ out, query t = .ok (some out)) ∧
    (∑ t, if query t = .ok none then 1 else 0) * rs.length ^ (n * r) ≤
      M ^ ((n + n) * (r + n + 1)) * (rs.length - stored.length) ^ (n * r) := by
  intro query stored
  obtain ⟨qs, hset, hqs, hsafe, hpos, hfa, hdv, hp, hwsum, hl⟩ := irs_fair_of hg hs hrs hF hLF z hmx hmx' hfair hM rej hr hlo hhi
  have hin : Irs.inCount rej lo hi d.buf.contents qs = stored.length := by
    have h1 := hp.length_eq
    rw [List.length_map] at h1
    exact h1
  have hNW : stored.length ≤ (Irs.weights rej lo hi d.buf.contents qs).sum := by
    rw [← hin, hwsum]
    exact List.length_filter_le _ _
  refine ⟨fun t => ?_, ?_⟩
  · simp only [query, hset.eq]
    obtain ⟨v, hv, -⟩ := (Irs.loop_good (rej := rej) hal (g := ⟨tapeOf t, mx⟩) (fun q hq => ⟨hset.exact q hq, hqs q hq⟩)
      (r + n + 1) n 0 [] n (by simp) (by simp)).safe hsafe
    rw [hv]
    cases v with
    | none => exact Or.inl rfl
    | some out => exact Or.inr ⟨out, rfl⟩
  · simp only [query, hset.eq]
    rcases Nat.eq_zero_or_pos n with rfl | hn
    · simp only [Nat.zero_mul, pow_zero, Nat.mul_one]
      refine le_trans (Finset.sum_le_sum (g := fun _ => 1) (fun t _ => by split <;> omega)) ?_
      simp
    · refine Irs.share_mono hNW (by omega) hpos ?_
      rw [← hin]
      exact Irs.loop_unfinished hal hM0 hqs hset.exact hsafe hpos hfa hdv n hn r _ (le_refl _)

/-- C36, what holds: after any history, with something stored in the range, a query for `n` samples never goes wrong, and the
probability that it has not returned after `r + n + 1` rounds is at most `(1 - N / T) ^ (n r)`, where `T` entries are stored and `N`
of them are in range. `L` is the number of random numbers looked at.

Missing: it is not 0 as soon as a buffered record is out of range (`C36_false` for the case that nothing is in range, where it is 1). -/
theorem C36_probability_partial {L : Layout} {tag : Bool} {pq : PQ R} (hpq : pq.ByRec) {lb : LB R K} {lwm hwm sf : Nat} {d0 d : Index R}
    {ops : List (Index.Op R)} {bs : List Bool}
    (hnew : Index.new L tag (sortedImpl pq lb) lwm hwm sf = .ok d0) (hlwm : 1 ≤ lwm) (hsf : 1 ≤ sf) (hrun : d0.run ops = .ok (d, bs))
    (hvis : ∀ s ∈ d.str.visible, s.data ≠ []) {rs : List R} (hrs : d.entries.map Entry.record = (rs : Multiset R))
    {F LF : Nat} (hF : 2 ≤ F) (hLF : 1 ≤ LF) (z : K) {al : AliasFn} (hal : al.Ok) {mx M : Nat} (hmx : rs.length ≤ mx) (hmx' : mx < 2 ^ 63)
    (hM0 : 0 < M) (hfair : ∀ ws : List Nat, 0 < ws.sum → ws.sum ∣ M → al.FairOn M ws) (hM : ∀ k, 1 ≤ k → k ≤ rs.length → k ∣ M)
    {lo hi : K} {x : R} (hr : x ∈ rs) (hlo : lo ≤ key x) (hhi : key x ≤ hi) (rej : Bool) (n r : Nat) :
    let query := fun t : Fin ((n + n) * (r + n + 1)) → Fin M =>
      d.irs rej al ⟨tapeOf t, mx⟩ (Isam.lowerBound F LF z) (Isam.upperBound F LF z) lo hi n (r + n + 1)
    let stored := rs.filter (fun r => decide (lo ≤ key r) && decide (key r ≤ hi))
    (∀ t, query t = .ok none ∨ ∃ out, query t = .ok (some out)) ∧
    (∑ t, if query t = .ok none then 1 else 0) * rs.length ^ (n * r) ≤
      M ^ ((n + n) * (r + n + 1)) * (rs.length - stored.length) ^ (n * r) := by
  obtain ⟨-, -, -, h4, -, -⟩ := new_ginv hnew hlwm hsf
  obtain ⟨hd, -⟩ := new_ok hnew
  have hs := (run_sorted hpq (new_buf hnew hlwm) h4 (by rw [hd]) hrun).visible
  exact irs_unfinished (Buffer.view_gets (run_buf ops (new_buf hnew hlwm) hrun).1.wf)
    (fun s hsm => ⟨KeySorted.of_rec (hs s hsm), hvis s hsm⟩) hrs hF hLF z hal hmx hmx' hM0 hfair hM hr hlo hhi rej n r

/-- C36: with something stored in the range a query ends with probability 1: for every `e` there is a number of rounds after which
less than one stream in `e` keeps it running. `T * e + n + 1` rounds are enough for `T` stored entries. -/
theorem C36_almost_surely_partial {L : Layout} {tag : Bool} {pq : PQ R} (hpq : pq.ByRec) {lb : LB R K} {lwm hwm sf : Nat} {d0 d : Index R}
    {ops : List (Index.Op R)} {bs : List Bool}
    (hnew : Index.new L tag (sortedImpl pq lb) lwm hwm sf = .ok d0) (hlwm : 1 ≤ lwm) (hsf : 1 ≤ sf) (hrun : d0.run ops = .ok (d, bs))
    (hvis : ∀ s ∈ d.str.visible, s.data ≠ []) {rs : List R} (hrs : d.entries.map Entry.record = (rs : Multiset R))
    {F LF : Nat} (hF : 2 ≤ F) (hLF : 1 ≤ LF) (z : K) {al : AliasFn} (hal : al.Ok) {mx M : Nat} (hmx : rs.length ≤ mx) (hmx' : mx < 2 ^ 63)
    (hM0 : 0 < M) (hfair : ∀ ws : List Nat, 0 < ws.sum → ws.sum ∣ M → al.FairOn M ws) (hM : ∀ k, 1 ≤ k → k ≤ rs.length → k ∣ M)
    {lo hi : K} {x : R} (hr : x ∈ rs) (hlo : lo ≤ key x) (hhi : key x ≤ hi) (rej : Bool) {n : Nat} (hn : 1 ≤ n) (e : Nat) :
    let rounds := rs.length * e + n + 1
    e * (∑ t : Fin ((n + n) * rounds) → Fin M,
      if d.irs rej al ⟨tapeOf t, mx⟩ (Isam.lowerBound F LF z) (Isam.upperBound F LF z) lo hi n rounds = .ok none then 1 else 0) ≤
        M ^ ((n + n) * rounds) := by
  intro rounds
  have h := (C36_probability_partial hpq hnew hlwm hsf hrun hvis hrs hF hLF z hal hmx hmx' hM0 hfair hM hr hlo hhi rej n (rs.length * e)).2
  have hst : x ∈ rs.filter (fun r => decide (lo ≤ key r) && decide (key r ≤ hi)) := List.mem_filter.mpr ⟨hr, by simp [hlo, hhi]⟩
  have h1 := Irs.share_small (List.length_pos_of_mem hst) (List.length_filter_le _ _) (n * (rs.length * e)) e (Nat.le_mul_of_pos_left _ hn)
  have hT : 0 < rs.length := List.length_pos_of_mem hr
  apply Nat.le_of_mul_le_mul_right (c := rs.length ^ (n * (rs.length * e))) _ (Nat.pow_pos hT)
  rw [Nat.mul_assoc]
  refine le_trans (Nat.mul_le_mul_left e h) ?_
  rw [← Nat.mul_assoc, Nat.mul_comm e, Nat.mul_assoc]
  exact Nat.mul_le_mul_left _ h1

/-- The bound cannot be 0, and the base is met: with one of two buffered records in range, half of the streams of a round return
nothing, and a query for one sample is still running after two rounds on a quarter of all streams. -/
theorem C36_false_rejection : ∃ d0 d : Index Rec, mk .tiering false 4 4 2 = .ok d0 ∧ d0.run (insSeq 1 2) = .ok (d, [true, true]) ∧
    let running := fun rounds => ∑ t : Fin (2 * rounds) → Fin 2,
      if d.irs true aliasStd ⟨tapeOf t, 2 ^ 32⟩ (Isam.lowerBound 2 2 0) (Isam.upperBound 2 2 0) 1 1 1 rounds = .ok none then 1 else 0
    running 1 = 2 ∧ running 2 = 4 :=
  ⟨_, _, rfl, rfl, by decide, by decide⟩

/-- The hypotheses of the theorems above: a shard, a buffered record and a buffered tombstone. -/
example : ∃ d0 d : Index Rec, mk .tiering false 2 2 2 = .ok d0 ∧
    d0.run [.ins ⟨1, 1⟩, .ins ⟨2, 2⟩, .ins ⟨3, 3⟩, .del ⟨1, 1⟩] = .ok (d, [true, true, true, true]) ∧ (∀ s ∈ d.str.visible, s.data ≠ []) ∧
    d.entries.map Entry.record = (([⟨3, 3⟩, ⟨1, 1⟩, ⟨1, 1⟩, ⟨2, 2⟩] : List Rec) : Multiset Rec) ∧ (∀ k, 1 ≤ k → k ≤ 4 → k ∣ Nat.factorial 4) ∧
    (∀ ws : List Nat, 0 < ws.sum → ws.sum ∣ Nat.factorial 4 → aliasStd.FairOn (Nat.factorial 4) ws) :=
  ⟨_, _, rfl, rfl, by decide, by decide, fun _ h1 h2 => Nat.dvd_factorial h1 h2, fun ws _ h => aliasStd_fair ws h⟩

end DE
