import Verif.Model.OwnSampleTests
import Verif.Properties.OwnShardTests
import Verif.Properties.Sampling

/-!
C126 (the project's own sampling tests, tests/include/irs.h and tests/include/wss.h).
-/

namespace DE
open Own
variable {R K : Type} [LinearOrder R] [LinearOrder K] [HasKey R K] [Inhabited R]

/-- The shard of a test: key-sorted, holding exactly the inserted records, none tagged. -/
theorem ownShard {xs : List R} (hx : xs ≠ []) (hx' : xs.length ≤ 2 ^ 28) :
    ∃ s, shardOf (xs.map (·, false)) = .ok s ∧ s.data.Pairwise (fun a b => key (K := K) a.record ≤ key b.record) ∧
      (s.data.map Wrapped.record).Perm xs ∧ s.data.length = xs.length ∧ s.data ≠ [] ∧ ∀ w ∈ s.data, w.isDeleted = false := by
  obtain ⟨s, a1, b1, c1, d1, -⟩ := shardOf_uniform false hx hx'
  have hl : s.data.length = xs.length := c1.length_eq ▸ (List.length_map (f := Wrapped.record) (as := s.data)).symm
  refine ⟨s, a1, KeySorted.of_rec (List.pairwise_map.mp d1), c1, hl, ?_, ?_⟩
  · intro h
    rw [h] at hl
    exact hx (List.length_eq_zero_iff.mp hl.symm)
  · intro w hw
    rw [b1] at hw
    obtain ⟨r, -, rfl⟩ := List.mem_map.mp hw
    simp [hdr, Wrapped.isDeleted]

/-- `t_irs` for any records, range, sample size and random numbers: exactly `n` samples, each an inserted record in the
range, if there is one. -/
theorem C126_irs {F LF : Nat} (hF : 2 ≤ F) (hLF : 1 ≤ LF) (z : K) {g : Rng} {xs : List R} (hx' : xs.length ≤ 2 ^ 28)
    (hg : xs.length ≤ g.max) (hg' : g.max < 2 ^ 63) {lo hi : K} (hin : ∃ r ∈ xs, lo ≤ key r ∧ key r ≤ hi) (n : Nat) :
    ∃ out, shardIrs g (Isam.lowerBound F LF z) (Isam.upperBound F LF z) xs lo hi n = .ok out ∧ out.length = n ∧
      ∀ r ∈ out, r ∈ xs ∧ lo ≤ key r ∧ key r ≤ hi := by
  obtain ⟨r0, hr0, h1, h2⟩ := hin
  obtain ⟨s, a1, a2, a3, a4, -, -⟩ := ownShard (K := K) (List.ne_nil_of_mem hr0) hx'
  obtain ⟨w, hw, rfl⟩ := List.mem_map.mp (a3.mem_iff.mpr hr0)
  obtain ⟨out, b1, b2, b3⟩ := C55_static_partial hF hLF z a2 (by rw [a4]; exact hg) hg' ⟨w, hw, h1, h2⟩ n
  refine ⟨out, ?_, b2, fun r hr => ⟨a3.mem_iff.mp (b3 r hr).2.2, (b3 r hr).1, (b3 r hr).2.1⟩⟩
  unfold shardIrs
  rw [a1]
  exact b1

/-- `t_buffer_irs` for any records, range, sample size and random numbers, with and without rejection: at most `n` samples,
each an inserted record in the range; exactly `n` without rejection if a record is in the range. -/
theorem C126_buffer_irs (rej : Bool) {al : AliasFn} (hal : al.Ok) {g : Rng} {xs : List R} (hx : xs ≠ []) (hx' : xs.length ≤ 2 ^ 28)
    (hg : xs.length ≤ g.max) (lo hi : K) (n : Nat) :
    ∃ out, bufferIrs rej al g xs lo hi n = .ok out ∧ out.length ≤ n ∧ (∀ r ∈ out, r ∈ xs ∧ lo ≤ key r ∧ key r ≤ hi) ∧
      (rej = false → (∃ r ∈ xs, lo ≤ key r ∧ key r ≤ hi) → out.length = n) := by
  obtain ⟨b, f1, f2, f3⟩ := fill_records hx hx'
  have hlen : b.contents.length = xs.length := by rw [← f3, List.length_map]
  have hd : ∃ nb p, Irs.distributeQuery rej al g lo hi b.contents [] n 0 = .ok ([nb], p) ∧ nb ≤ n ∧
      ((if rej then b.contents.length else (b.contents.filter (Irs.inR lo hi)).length) = 0 → nb = 0) ∧
      ((if rej then b.contents.length else (b.contents.filter (Irs.inR lo hi)).length) ≠ 0 → nb = n) := by
    unfold Irs.distributeQuery
    simp only [Irs.weights, List.map_nil, List.map_cons, List.sum_cons, List.sum_nil, Nat.add_zero]
    generalize (if rej then b.contents.length else (b.contents.filter (Irs.inR lo hi)).length) = v
    by_cases hv : v = 0
    · exact ⟨0, 0, by rw [if_pos hv], Nat.zero_le _, fun _ => rfl, fun h => absurd hv h⟩
    · rw [if_neg hv]
      obtain ⟨⟨ns, p⟩, h1, h2⟩ := (distribute_good (ws := [v]) hal (by simp; omega) g True n 0 0 [0] (split_zero [v])).safe trivial
      simp only [Nat.zero_add] at h2
      match ns, h1, h2 with
      | [nb], h1, h2 =>
        have : nb = n := by simpa using h2.2.1
        exact ⟨nb, p, h1, by omega, fun h => absurd h hv, fun _ => this⟩
      | [], _, h2 => exact absurd h2.1 (by simp)
      | _ :: _ :: _, _, h2 => exact absurd h2.1 (by simp)
  obtain ⟨nb, p, d1, d2, d3, d4⟩ := hd
  obtain ⟨⟨x, p'⟩, e1, e2⟩ := (Irs.bufferQuery_good (lo := lo) (hi := hi) (rej := rej) (g := g) (safe := True) (ex := rej = false) (buf := b.contents)
    (fun _ => by rw [hlen]; exact hg) (fun h => Or.inl h) d3 p).safe trivial
  have hmem : ∀ w ∈ b.contents, w.record ∈ xs := fun w hw => by rw [← f3]; exact List.mem_map_of_mem hw
  refine ⟨x.map Wrapped.record, ?_, ?_, ?_, ?_⟩
  · unfold bufferIrs
    rw [f1]
    show (do let buf ← b.view.gets; _) = _
    rw [Buffer.view_gets f2]
    show (do let (ns, pos) ← Irs.distributeQuery rej al g lo hi b.contents [] n 0; _) = _
    rw [d1]
    show (do let (r, _) ← Irs.bufferQuery rej g lo hi b.contents nb p; _) = _
    rw [e1]
    rfl
  · rw [List.length_map]
    exact le_trans e2.2.1 d2
  · intro r hr
    obtain ⟨w, hw, rfl⟩ := List.mem_map.mp hr
    exact ⟨hmem w (e2.1 w hw).1, (e2.1 w hw).2⟩
  · rintro hr ⟨r, hrx, h1, h2⟩
    rw [List.length_map]
    have hnb : nb = n := by
      apply d4
      rw [if_neg (by simp [hr])]
      rw [← f3] at hrx
      obtain ⟨w, hw, rfl⟩ := List.mem_map.mp hrx
      have : w ∈ b.contents.filter (Irs.inR lo hi) := List.mem_filter.mpr ⟨hw, by simp [Irs.inR, h1, h2]⟩
      exact Nat.ne_of_gt (List.length_pos_of_mem this)
    rw [← hnb]
    exact e2.2.2 hr

/-- `t_irs_merge` for any records, range with a record of one of the shards, sample size and random numbers: the samples of
the two shards are `n` together, each an inserted record of its shard in the range, and `combine` keeps them all. -/
theorem C126_irs_merge {F LF : Nat} (hF : 2 ≤ F) (hLF : 1 ≤ LF) (z : K) (rej : Bool) {al : AliasFn} (hal : al.Ok) {g : Rng} {xs ys : List R}
    (hx : xs ≠ []) (hy : ys ≠ []) (hx' : xs.length ≤ 2 ^ 28) (hy' : ys.length ≤ 2 ^ 28)
    (hgx : xs.length ≤ g.max) (hgy : ys.length ≤ g.max) (hg' : g.max < 2 ^ 63) {lo hi : K}
    (hin : ∃ r, (r ∈ xs ∨ r ∈ ys) ∧ lo ≤ key r ∧ key r ≤ hi) (n : Nat) :
    ∃ r1 r2, mergeIrs rej al g (Isam.lowerBound F LF z) (Isam.upperBound F LF z) xs ys lo hi n = .ok (r1, r2, r1 ++ r2) ∧
      r1.length + r2.length = n ∧ (∀ r ∈ r1, r ∈ xs ∧ lo ≤ key r ∧ key r ≤ hi) ∧ (∀ r ∈ r2, r ∈ ys ∧ lo ≤ key r ∧ key r ≤ hi) := by
  obtain ⟨r0, hr0, h1, h2⟩ := hin
  obtain ⟨s1, a1, a2, a3, a4, a5, -⟩ := ownShard (K := K) hx hx'
  obtain ⟨s2, b1, b2, b3, b4, b5, -⟩ := ownShard (K := K) hy hy'
  have hpre : ∀ {s : Shard R}, s.data.Pairwise (fun a b => key (K := K) a.record ≤ key b.record) → s.data ≠ [] →
      ∃ q, Irs.preproc (Isam.lowerBound F LF z) (Isam.upperBound F LF z) lo hi s = .ok q ∧ q.data = s.data ∧ q.Exact lo hi := by
    intro s hs hne
    obtain ⟨l, hl1, hl2⟩ := (isam_exactBounds hF hLF z s.data hne hs lo).1
    obtain ⟨u, hu1, hu2⟩ := (isam_exactBounds hF hLF z s.data hne hs hi).2
    refine ⟨⟨s.data, l, u⟩, ?_, rfl, hs, hl2, hu2⟩
    unfold Irs.preproc
    rw [hl1]
    simp only [bind, Except.bind, hu1]
  obtain ⟨q1, c1, c2, c3⟩ := hpre a2 a5
  obtain ⟨q2, d1, d2, d3⟩ := hpre b2 b5
  have hw0 : (Irs.weights rej lo hi [] [q1, q2]).sum ≠ 0 := by
    apply Irs.weights_pos (r := r0)
    · intro q hq
      rcases List.mem_cons.mp hq with rfl | hq
      · exact c3
      · rw [List.mem_singleton.mp hq]; exact d3
    · refine ⟨?_, h1, h2⟩
      rcases hr0 with hr0 | hr0
      · obtain ⟨w, hw, hwr⟩ := List.mem_map.mp (a3.mem_iff.mpr hr0)
        exact ⟨w, Or.inr ⟨q1, by simp, by rw [c2]; exact hw⟩, hwr⟩
      · obtain ⟨w, hw, hwr⟩ := List.mem_map.mp (b3.mem_iff.mpr hr0)
        exact ⟨w, Or.inr ⟨q2, by simp, by rw [d2]; exact hw⟩, hwr⟩
  obtain ⟨⟨ns, p⟩, e1, e2⟩ := (distribute_good (ws := Irs.weights rej lo hi [] [q1, q2]) hal (by omega) g True n 0 0 _
    (split_zero _)).safe trivial
  simp only [Nat.zero_add] at e2
  have e3 : Irs.distributeQuery rej al g lo hi [] [q1, q2] n 0 = .ok (ns, p) := by
    unfold Irs.distributeQuery
    rw [if_neg hw0]
    exact e1
  obtain ⟨nb, n1, n2, rfl⟩ : ∃ nb n1 n2, ns = [nb, n1, n2] := by
    have := e2.1
    match ns, this with
    | [nb, n1, n2], _ => exact ⟨nb, n1, n2, rfl⟩
    | [], h => simp [Irs.weights] at h
    | [_], h => simp [Irs.weights] at h
    | [_, _], h => simp [Irs.weights] at h
    | _ :: _ :: _ :: _ :: _, h => simp [Irs.weights] at h
  have hb : nb = 0 := by
    have := e2.2.2 0 (by simp [Irs.weights])
    simpa using this
  have hn1 : q1.weight = 0 → n1 = 0 := by
    intro h
    have := e2.2.2 1 (by simp [Irs.weights, h])
    simpa using this
  have hn2 : q2.weight = 0 → n2 = 0 := by
    intro h
    have := e2.2.2 2 (by simp [Irs.weights, h])
    simpa using this
  have hsum : n1 + n2 = n := by
    have := e2.2.1
    simp only [List.sum_cons, List.sum_nil] at this
    omega
  have hle := le_trans h1 h2
  obtain ⟨⟨x1, p1⟩, f1, f2⟩ := (Irs.localQuery_good (g := g) (safe := True) c3 (by rw [c2, a4]; omega)
    (fun _ => ⟨hle, by rw [c2, a4]; exact hgx⟩) True hn1 p).safe trivial
  obtain ⟨⟨x2, p2⟩, g1, g2⟩ := (Irs.localQuery_good (g := g) (safe := True) d3 (by rw [d2, b4]; omega)
    (fun _ => ⟨hle, by rw [d2, b4]; exact hgy⟩) True hn2 p1).safe trivial
  refine ⟨x1.map Wrapped.record, x2.map Wrapped.record, ?_, ?_, ?_, ?_⟩
  · unfold mergeIrs
    rw [a1, b1]
    show (do let q1 ← Irs.preproc (Isam.lowerBound F LF z) (Isam.upperBound F LF z) lo hi s1; _) = _
    rw [c1]
    show (do let q2 ← Irs.preproc (Isam.lowerBound F LF z) (Isam.upperBound F LF z) lo hi s2; _) = _
    rw [d1]
    show (do let (ns, pos) ← Irs.distributeQuery rej al g lo hi [] [q1, q2] n 0; _) = _
    rw [e3]
    show (do let (r1, pos) ← Irs.localQuery g q1 n1 p; _) = _
    rw [f1]
    show (do let (r2, _) ← Irs.localQuery g q2 n2 p1; _) = _
    rw [g1]
    show Except.ok _ = _
    rw [List.map_append]
  · rw [List.length_map, List.length_map, f2.2.2 trivial, g2.2.2 trivial, hsum]
  · intro r hr
    obtain ⟨w, hw, rfl⟩ := List.mem_map.mp hr
    obtain ⟨i, j⟩ := f2.1 w hw
    rw [c2] at i
    exact ⟨a3.mem_iff.mp (List.mem_map_of_mem i), j⟩
  · intro r hr
    obtain ⟨w, hw, rfl⟩ := List.mem_map.mp hr
    obtain ⟨i, j⟩ := g2.1 w hw
    rw [d2] at i
    exact ⟨b3.mem_iff.mp (List.mem_map_of_mem i), j⟩

omit [LinearOrder K] [HasKey R K] in
/-- `t_wss_query` for any records with some weight, sample size and random numbers: exactly `n` samples of inserted
records. -/
theorem C126_wss {wt : R → Nat} {al : AliasFn} (hal : al.Ok) (g : Rng) {xs : List R} (hx' : xs.length ≤ 2 ^ 28)
    (hw : 0 < (xs.map wt).sum) (n : Nat) :
    ∃ out, shardWss wt al g xs n = .ok out ∧ out.length = n ∧ ∀ r ∈ out, r ∈ xs := by
  have hx : xs ≠ [] := by rintro rfl; simp at hw
  obtain ⟨s, a1, b1, c1, -, -⟩ := shardOf_uniform false hx hx'
  have c1' : (s.data.map Wrapped.record).Perm xs := c1
  have hdel : ∀ w ∈ s.data, w.isDeleted = false := by
    intro w hw
    rw [b1] at hw
    obtain ⟨r, -, rfl⟩ := List.mem_map.mp hw
    simp [hdr, Wrapped.isDeleted]
  have htot : Wss.total wt s.data ≠ 0 := by
    have : Wss.total wt s.data = (xs.map wt).sum := by
      rw [← (c1'.map wt).sum_eq, List.map_map]
      rfl
    omega
  obtain ⟨⟨x, p⟩, e1, e2⟩ := (drawMany_good (safe := True) (fun pos => Wss.drawShard_good (g := g) hal htot (fun _ : True => hdel) pos) n 0).safe trivial
  refine ⟨x.map Wrapped.record, ?_, by rw [List.length_map]; exact e2.2.2 trivial, ?_⟩
  · unfold shardWss
    rw [a1]
    show wssStatic wt al g s n = _
    unfold wssStatic
    rw [e1]
    rfl
  · intro r hr
    obtain ⟨w, hw, rfl⟩ := List.mem_map.mp hr
    exact c1'.mem_iff.mp (List.mem_map_of_mem (e2.1 w hw).1)

omit [LinearOrder K] [HasKey R K] in
/-- The distribution of `t_buffer_wss_query`: all samples are to come from the buffer. -/
theorem wss_all {al : AliasFn} (hal : al.Ok) (g : Rng) {v : Nat} (hv : v ≠ 0) (n : Nat) :
    ∃ p, distribute al [v] g n 0 [0] = .ok ([n], p) := by
  obtain ⟨⟨ns, p⟩, h1, h2⟩ := (distribute_good (ws := [v]) hal (by simp; omega) g True n 0 0 [0] (split_zero [v])).safe trivial
  simp only [Nat.zero_add] at h2
  match ns, h1, h2 with
  | [nb], h1, h2 =>
    have : nb = n := by simpa using h2.2.1
    subst this
    exact ⟨p, h1⟩
  | [], _, h2 => exact absurd h2.1 (by simp)
  | _ :: _ :: _, _, h2 => exact absurd h2.1 (by simp)

omit [LinearOrder K] [HasKey R K] in
/-- `t_buffer_wss_query` for at least two records with some weight, any sample size and random numbers: at most `n` samples,
all of inserted records other than the newest. -/
theorem C126_buffer_wss {wt : R → Nat} {D : Nat} (hD : 0 < D) {al : AliasFn} (hal : al.Ok) {g : Rng} {xs : List R} (hx : 2 ≤ xs.length)
    (hx' : xs.length ≤ 2 ^ 28) (hg : xs.length ≤ g.max) (hw : 0 < (xs.map wt).sum) (n : Nat) :
    ∃ out, bufferWss wt D al g xs n = .ok out ∧ out.length ≤ n ∧ ∀ r ∈ out, r ∈ xs.dropLast := by
  obtain ⟨b, f1, f2, f3⟩ := fill_records (xs := xs) (by rintro rfl; simp at hx) hx'
  have hlen : b.contents.length = xs.length := by rw [← f3, List.length_map]
  have htot : Wss.total wt b.contents ≠ 0 := by
    have : Wss.total wt b.contents = (xs.map wt).sum := by
      rw [← f3, List.map_map]
      rfl
    omega
  obtain ⟨p, h1⟩ := wss_all hal g htot n
  obtain ⟨⟨x, p'⟩, e1, e2⟩ := (Wss.bufQuery_good (wt := wt) hD (g := g) (buf := b.contents) (n := n) (fun h => absurd h htot) p).safe
    (Or.inr ⟨by omega, by omega⟩)
  refine ⟨x.map Wrapped.record, ?_, by rw [List.length_map]; exact e2.2.1, ?_⟩
  · unfold bufferWss
    rw [f1]
    show (do let buf ← b.view.gets; _) = _
    rw [Buffer.view_gets f2]
    show (do let (ns, pos) ← distribute al [Wss.total wt b.contents] g n 0 [0]; _) = _
    rw [h1]
    show (do let (r, _) ← drawMany (Wss.drawBuf wt D g b.contents) n p; _) = _
    rw [e1]
    rfl
  · intro r hr
    obtain ⟨w, hw, rfl⟩ := List.mem_map.mp hr
    rw [← f3, ← List.map_dropLast]
    exact List.mem_map_of_mem (e2.1 w hw).1

omit [LinearOrder K] [HasKey R K] in
/-- With a single record the program of `t_buffer_wss_query` aborts: the cutoff is 0. -/
theorem C126_buffer_wss_one {wt : R → Nat} (D : Nat) {al : AliasFn} (hal : al.Ok) (g : Rng) {r : R} (hw : 0 < wt r) {n : Nat} (hn : 0 < n) :
    bufferWss wt D al g [r] n = .error .abort := by
  obtain ⟨b, f1, f2, f3⟩ := fill_records (xs := [r]) (by simp) (by simp)
  obtain ⟨w, hwl⟩ := List.length_eq_one_iff.mp (show b.contents.length = 1 by rw [← List.length_map (f := Wrapped.record), f3]; rfl)
  rw [hwl] at f3
  have htot : Wss.total wt b.contents ≠ 0 := by
    have : w.record = r := by simpa using f3
    rw [hwl]
    unfold Wss.total
    simp [this]
    omega
  obtain ⟨p, h1⟩ := wss_all hal g htot n
  obtain ⟨m, rfl⟩ : ∃ m, n = m + 1 := ⟨n - 1, by omega⟩
  unfold bufferWss
  rw [f1]
  show (do let buf ← b.view.gets; _) = _
  rw [Buffer.view_gets f2]
  show (do let (ns, pos) ← distribute al [Wss.total wt b.contents] g (m + 1) 0 [0]; _) = _
  rw [h1]
  show (do let (r, _) ← drawMany (Wss.drawBuf wt D g b.contents) (m + 1) p; _) = _
  rw [hwl]
  rfl

/-- The tests' own shapes: keys 3, 5, 7, 9 with a range that holds two of them. -/
example : shardIrs (tapeRng (· + 1)) (Isam.lowerBound 2 2 0) (Isam.upperBound 2 2 0) ([⟨7, 0⟩, ⟨3, 0⟩, ⟨9, 0⟩, ⟨5, 0⟩] : List Rec) 4 8 3 =
    .ok [⟨7, 0⟩, ⟨5, 0⟩, ⟨7, 0⟩] := by decide

/-- With rejection only some of the draws from a buffer are kept. -/
example : bufferIrs true aliasStd (tapeRng id) ([⟨7, 0⟩, ⟨3, 0⟩, ⟨9, 0⟩, ⟨5, 0⟩] : List Rec) 4 8 3 = .ok [⟨5, 0⟩, ⟨7, 0⟩] ∧
    bufferIrs false aliasStd (tapeRng id) ([⟨7, 0⟩, ⟨3, 0⟩, ⟨9, 0⟩, ⟨5, 0⟩] : List Rec) 4 8 3 = .ok [⟨5, 0⟩, ⟨7, 0⟩, ⟨5, 0⟩] := by decide

example : mergeIrs true aliasStd (tapeRng id) (Isam.lowerBound 2 2 0) (Isam.upperBound 2 2 0) ([⟨3, 0⟩, ⟨5, 0⟩] : List Rec) [⟨7, 0⟩, ⟨9, 0⟩] 4 8 3 =
    .ok ([⟨5, 0⟩, ⟨5, 0⟩], [⟨7, 0⟩], [⟨5, 0⟩, ⟨5, 0⟩, ⟨7, 0⟩]) := by decide

example : shardWss (fun r : Rec => r.value) aliasStd (tapeRng id) [⟨1, 2⟩, ⟨2, 4⟩] 3 = .ok [⟨1, 2⟩, ⟨1, 2⟩, ⟨2, 4⟩] ∧
    bufferWss (fun r : Rec => r.value) 8 aliasStd (tapeRng (fun i => if i = 2 then 1 else if i = 5 then 7 else 0)) [⟨1, 2⟩, ⟨2, 4⟩, ⟨3, 8⟩] 2 = .ok [⟨2, 4⟩] := by decide

end DE
