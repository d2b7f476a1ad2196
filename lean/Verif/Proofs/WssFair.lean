import Verif.Proofs.Unbiased

/-!
Counting for weighted sampling: draws in two stages, first the source, then the record.
-/

namespace DE
open Finset

section
variable {σ α : Type}

/-- What is drawn from several sources by the function `c`, `ns` samples from each, reading the tape from `pos`. -/
def srcOuts (c : σ → Nat → List α) (tape : Nat → Nat) : List σ → List Nat → Nat → List α
  | s :: ss, n :: ns, pos => (List.range n).flatMap (fun j => c s (tape (pos + j))) ++ srcOuts c tape ss ns (pos + n)
  | _, _, _ => []

theorem sum_srcOuts (c : σ → Nat → List α) {h : List α → Nat} (h0 : h [] = 0) (hadd : ∀ a b, h (a ++ b) = h a + h b) {n M : Nat} (x : Fin n → Fin M) :
    ∀ (ss : List σ) (ns : List Nat) (pos : Nat), ns.length = ss.length → pos + ns.sum ≤ n →
      (∑ y : Fin n → Fin M, h (srcOuts c (tapeOf (Fin.append x y)) ss ns (n + pos))) * M =
        M ^ n * ∑ i ∈ range ss.length, ns.getD i 0 * (ss.map (fun s => ∑ v : Fin M, h (c s v))).getD i 0
  | [], [], pos, _, _ => by simp [srcOuts, h0]
  | [], _ :: _, _, hl, _ => by simp at hl
  | _ :: _, [], _, hl, _ => by simp at hl
  | s :: ss, m :: ns, pos, hl, hp => by
    rw [List.sum_cons] at hp
    have ih := sum_srcOuts c h0 hadd x ss ns (pos + m) (by simpa using hl) (by omega)
    unfold srcOuts
    simp only [hadd, h_flatMap h0 hadd, Finset.sum_add_distrib]
    rw [Nat.add_mul]
    have e : n + pos + m = n + (pos + m) := by omega
    rw [e, ih, List.length_cons, Finset.sum_range_succ', List.map_cons]
    simp only [List.getD_cons_succ, List.getD_cons_zero]
    rw [Nat.mul_add, Nat.add_comm]
    congr 1
    rw [Finset.sum_comm, Finset.sum_mul, Finset.sum_congr rfl (g := fun _ => M ^ n * ∑ v : Fin M, h (c s v))]
    · rw [Finset.sum_const, Finset.card_range, smul_eq_mul]; ring
    · intro j hj
      have hj' := Finset.mem_range.mp hj
      rw [← sum_marginal (fun v => h (c s v)) ⟨pos + j, by omega⟩]
      congr 1
      apply Finset.sum_congr rfl
      intro y _
      rw [show n + pos + j = n + (pos + j) from by omega, tapeOf_right x y (by omega)]

/-- How many of the first `n` draws choose source `i`, for each of `m` sources. -/
def srcSizes (al : AliasFn) (ws : List Nat) (f : Nat → Nat) (m n : Nat) : List Nat :=
  (List.range m).map (fun i => ∑ j ∈ range n, if al ws (f j) = i then 1 else 0)

theorem sum_getD_map (f : σ → Nat) : ∀ ss : List σ, ∑ i ∈ range ss.length, (ss.map f).getD i 0 = (ss.map f).sum
  | [] => by simp
  | s :: ss => by
    rw [List.length_cons, Finset.sum_range_succ', List.map_cons, List.sum_cons]
    simp only [List.getD_cons_succ, List.getD_cons_zero]
    rw [sum_getD_map f ss, Nat.add_comm]

/-- Two-stage drawing: source `i` with probability `ws i / sum ws`, then a draw from it with expected value `E s / w`. -/
theorem two_stage {al : AliasFn} {ws : List Nat} {ss : List σ} {c : σ → Nat → List α} {h : List α → Nat} (h0 : h [] = 0)
    (hadd : ∀ a b, h (a ++ b) = h a + h b) {n M : Nat} (hM : 0 < M) (hfair : al.FairOn M ws) {w E : σ → Nat} (hws : ws = ss.map w)
    (hE : ∀ s ∈ ss, w s * ∑ v : Fin M, h (c s v) = M * E s)
    {out : (Fin (n + n) → Fin M) → List α} (hout : ∀ t, out t = srcOuts c (tapeOf t) ss (srcSizes al ws (tapeOf t) ss.length n) n)
    (hsz : ∀ f, (srcSizes al ws f ss.length n).sum = n) :
    (∑ t, h (out t)) * ws.sum = n * M ^ (n + n) * (ss.map E).sum := by
  set H : Nat → Nat := fun i => (ss.map (fun s => ∑ v : Fin M, h (c s v))).getD i 0 with hH
  set A : Nat → Nat := fun i => ∑ v : Fin M, if al ws v = i then 1 else 0 with hA
  have key : ∀ x : Fin n → Fin M, (∑ y : Fin n → Fin M, h (out (Fin.append x y))) * M =
      M ^ n * ∑ i ∈ Finset.range ss.length, (∑ j : Fin n, if al ws (x j) = i then 1 else 0) * H i := by
    intro x
    have hns : ∀ y : Fin n → Fin M, srcSizes al ws (tapeOf (Fin.append x y)) ss.length n =
        (List.range ss.length).map (fun i => ∑ j : Fin n, if al ws (x j) = i then 1 else 0) := by
      intro y
      unfold srcSizes
      apply List.map_congr_left
      intro i _
      rw [Finset.sum_range]
      apply Finset.sum_congr rfl
      intro j _
      rw [tapeOf_left x y j.2]
    have hM' : Nonempty (Fin n → Fin M) := ⟨fun _ => ⟨0, hM⟩⟩
    have hsum := hsz (tapeOf (Fin.append x hM'.some))
    rw [hns] at hsum
    have e := sum_srcOuts c h0 hadd x ss ((List.range ss.length).map (fun i => ∑ j : Fin n, if al ws (x j) = i then 1 else 0)) 0 (by simp) (by rw [Nat.zero_add]; exact le_of_eq hsum)
    simp only [hout, hns]
    rw [Nat.add_zero] at e
    rw [e]
    congr 1
    apply Finset.sum_congr rfl
    intro i hi
    congr 1
    rw [List.getD_eq_getElem?_getD, List.getElem?_map, List.getElem?_range (Finset.mem_range.mp hi)]
    rfl
  rw [sum_tapes_append]
  have hfirst : ∀ i, (∑ x : Fin n → Fin M, ∑ j : Fin n, if al ws (x j) = i then 1 else 0) * M = n * (M ^ n * A i) := by
    intro i
    rw [Finset.sum_comm, Finset.sum_mul]
    rw [Finset.sum_congr rfl (g := fun _ => M ^ n * A i)]
    · simp
    · intro j _
      exact sum_marginal (fun v => if al ws v = i then 1 else 0) j
  have hterm : ∀ i ∈ Finset.range ss.length, A i * H i * ws.sum = M * M * (ss.map E).getD i 0 := by
    intro i hir
    have hi' := Finset.mem_range.mp hir
    have e1 : A i * ws.sum = M * ws.getD i 0 := hfair i
    have g : ∀ f : σ → Nat, (ss.map f).getD i 0 = f ss[i] := by
      intro f
      rw [List.getD_eq_getElem?_getD, List.getElem?_map, List.getElem?_eq_getElem hi']; rfl
    have e2 : ws.getD i 0 = w ss[i] := by rw [hws, g]
    have e3 := hE ss[i] (List.getElem_mem hi')
    simp only [hH, g]
    calc A i * (∑ v : Fin M, h (c ss[i] v)) * ws.sum = (A i * ws.sum) * (∑ v : Fin M, h (c ss[i] v)) := by ring
      _ = M * (w ss[i] * ∑ v : Fin M, h (c ss[i] v)) := by rw [e1, e2]; ring
      _ = _ := by rw [e3]; ring
  have hall : (∑ x : Fin n → Fin M, ∑ y : Fin n → Fin M, h (out (Fin.append x y))) * M * M =
      M ^ n * (n * M ^ n * ∑ i ∈ Finset.range ss.length, A i * H i) := by
    rw [Finset.sum_mul]
    simp only [key]
    rw [← Finset.mul_sum, mul_assoc]
    congr 1
    rw [Finset.sum_comm, Finset.sum_mul, Finset.mul_sum]
    apply Finset.sum_congr rfl
    intro i _
    rw [← Finset.sum_mul]
    have := hfirst i
    calc _ = ((∑ x : Fin n → Fin M, ∑ j : Fin n, if al ws (x j) = i then 1 else 0) * M) * H i := by ring
      _ = _ := by rw [this]; ring
  have hfin : (∑ i ∈ Finset.range ss.length, A i * H i) * ws.sum = M * M * (ss.map E).sum := by
    rw [Finset.sum_mul, Finset.sum_congr rfl hterm, ← Finset.mul_sum, sum_getD_map]
  have hMM : 0 < M * M := Nat.mul_pos hM hM
  apply Nat.eq_of_mul_eq_mul_right hMM
  calc _ = ((∑ x : Fin n → Fin M, ∑ y : Fin n → Fin M, h (out (Fin.append x y))) * M * M) * ws.sum := by ring
    _ = M ^ n * (n * M ^ n) * ((∑ i ∈ Finset.range ss.length, A i * H i) * ws.sum) := by rw [hall]; ring
    _ = _ := by rw [hfin, pow_add]; ring

end

namespace Wss
variable {R : Type} {wt : R → Nat} {al : AliasFn}

/-- A weighted draw from the records of a shard. -/
def pickW (wt : R → Nat) (al : AliasFn) (data : List (Wrapped R)) (v : Nat) : List (Wrapped R) :=
  (data[al (data.map (fun w => wt w.record)) v]?).toList

theorem sum_single {f : Nat → Nat} : ∀ {m k : Nat}, k < m → ∑ i ∈ range m, (if k = i then 1 else 0) * f i = f k := by
  intro m k hk
  rw [Finset.sum_eq_single k]
  · simp
  · intro b _ hb; simp [Ne.symm hb]
  · intro hc; exact absurd (Finset.mem_range.mpr hk) hc

/-- Expected result of a weighted draw. -/
theorem sum_pickW (hal : al.Ok) {data : List (Wrapped R)} {M : Nat} (hfair : 0 < total wt data → al.FairOn M (data.map (fun w => wt w.record)))
    {h : List (Wrapped R) → Nat} : total wt data * ∑ v : Fin M, h (pickW wt al data v) = M * (data.map (fun w => wt w.record * h [w])).sum := by
  by_cases h0 : total wt data = 0
  · rw [h0, Nat.zero_mul]
    have hz : ∀ w ∈ data, wt w.record = 0 := by
      intro w hw
      have := List.sum_eq_zero_iff_forall_eq_nat.mp h0 (wt w.record) (List.mem_map.mpr ⟨w, hw, rfl⟩)
      exact this
    have : (data.map (fun w => wt w.record * h [w])).sum = 0 := by
      apply List.sum_eq_zero_iff_forall_eq_nat.mpr
      intro x hx
      obtain ⟨w, hw, rfl⟩ := List.mem_map.mp hx
      rw [hz w hw, Nat.zero_mul]
    rw [this, Nat.mul_zero]
  have hpos : 0 < total wt data := Nat.pos_of_ne_zero h0
  set ws := data.map (fun w => wt w.record) with hws
  have hlt : ∀ v, al ws v < data.length := by
    intro v
    obtain ⟨w, ha, -⟩ := hal ws v hpos
    have := (List.getElem?_eq_some_iff.mp ha).1
    simpa [hws] using this
  have e1 : ∀ v : Nat, h (pickW wt al data v) = ∑ i ∈ range data.length, (if al ws v = i then 1 else 0) * h (data[i]?).toList := by
    intro v
    rw [sum_single (f := fun i => h (data[i]?).toList) (hlt v)]
    rfl
  simp only [e1]
  rw [Finset.sum_comm, Finset.mul_sum]
  have e2 : ∀ i ∈ range data.length, total wt data * ∑ v : Fin M, (if al ws v = i then 1 else 0) * h (data[i]?).toList =
      M * (data.map (fun w => wt w.record * h [w])).getD i 0 := by
    intro i hi
    have hi := Finset.mem_range.mp hi
    have hf := hfair hpos i
    rw [← Finset.sum_mul]
    have hs : ws.sum = total wt data := rfl
    rw [hs] at hf
    have : ws.getD i 0 = wt (data[i]).record := by
      rw [hws, List.getD_eq_getElem?_getD, List.getElem?_map, List.getElem?_eq_getElem hi]; rfl
    rw [this] at hf
    rw [List.getD_eq_getElem?_getD, List.getElem?_map, List.getElem?_eq_getElem hi]
    simp only [Option.map_some, Option.getD_some, Option.toList_some]
    calc _ = ((∑ v : Fin M, if al ws v = i then 1 else 0) * total wt data) * h [data[i]] := by ring
      _ = _ := by rw [hf]; ring
  rw [Finset.sum_congr rfl e2, ← Finset.mul_sum, sum_getD_map]

theorem drawShard_pure (hal : al.Ok) {data : List (Wrapped R)} (hd : ∀ w ∈ data, w.isDeleted = false) (hpos : 0 < total wt data) (g : Rng) (pos : Nat) :
    drawShard wt al g data pos = .ok (pickW wt al data (g.tape pos), pos + 1) := by
  unfold drawShard pickW
  obtain ⟨w, ha, -⟩ := hal (data.map (fun w => wt (Wrapped.record w))) (g.tape pos) hpos
  have hlt : al (data.map (fun w => wt w.record)) (g.tape pos) < data.length := by
    have := (List.getElem?_eq_some_iff.mp ha).1
    simpa using this
  rw [getR_lt hlt]
  simp only [bind, Except.bind]
  rw [hd _ (List.getElem_mem hlt), List.getElem?_eq_getElem hlt]
  rfl

theorem shardQueries_pure (hal : al.Ok) {g : Rng} : ∀ (qs : List (List (Wrapped R))) (ns : List Nat) (pos : Nat), ns.length = qs.length →
    (∀ q ∈ qs, ∀ w ∈ q, w.isDeleted = false) → (∀ i : Nat, (qs.map (total wt))[i]? = some 0 → ns[i]? = some 0) →
    shardQueries wt al g qs ns pos = .ok (srcOuts (pickW wt al) g.tape qs ns pos, pos + ns.sum)
  | [], [], pos, _, _, _ => rfl
  | [], _ :: _, _, h, _, _ => by simp at h
  | _ :: _, [], _, h, _, _ => by simp at h
  | q :: qs, n :: ns, pos, hl, hd, hz => by
    unfold shardQueries
    have h1 : drawMany (drawShard wt al g q) n pos =
        .ok ((List.range n).flatMap (fun j => pickW wt al q (g.tape (pos + j))), pos + n) := by
      by_cases h0 : total wt q = 0
      · have hn : n = 0 := by have := hz 0 (by simp [h0]); simpa using this
        subst hn; rfl
      · exact drawMany_pure (fun pos => drawShard_pure hal (hd q (by simp)) (Nat.pos_of_ne_zero h0) g pos) n pos
    rw [h1]
    simp only [bind, Except.bind]
    rw [shardQueries_pure hal qs ns (pos + n) (by simpa using hl) (fun q hq => hd q (by simp [hq])) (by
      intro i hi
      have := hz (i+1) (by simpa using hi)
      simpa using this)]
    simp only [srcOuts, List.sum_cons]
    rw [Nat.add_assoc]

end Wss
end DE
