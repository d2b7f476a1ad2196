import Verif.Proofs.SampleLaw
import Verif.Proofs.WssFair

/-!
The generating function of draws in two stages, first the source, then the record.
-/

namespace DE
open Finset

section
variable {σ α A : Type} [CommSemiring A]

theorem wt_srcOuts (c : σ → Nat → List α) (e : α → A) (tape : Nat → Nat) : ∀ (ss : List σ) (ns : List Nat) (pos : Nat), ns.length = ss.length →
    wt e (srcOuts c tape ss ns pos) = ∏ j ∈ range ns.sum, wt e ((srcOf (ss.map (fun s => [s])) ns j).flatMap (fun s => c s (tape (pos + j))))
  | [], [], _, _ => by simp [srcOuts, wt]
  | [], _ :: _, _, h => by simp at h
  | _ :: _, [], _, h => by simp at h
  | s :: ss, n :: ns, pos, h => by
    rw [srcOuts, wt_append, wt_flatMap, wt_srcOuts c e tape ss ns (pos + n) (by simpa using h), List.sum_cons, List.map_cons,
      prod_srcOf (fun l j => wt e (l.flatMap (fun s => c s (tape (pos + j)))))]
    simp [Nat.add_assoc]

/-- The generating function of `n` draws in two stages. -/
theorem two_stage_gen {al : AliasFn} {ws : List Nat} {ss : List σ} {c : σ → Nat → List α} (e : α → A) {n M : Nat} (hM : 0 < M)
    (hal : ∀ v, al ws v < ss.length) (hfair : al.FairOn M ws) {w : σ → Nat} {E : σ → A} (hws : ws = ss.map w)
    (hE : ∀ s ∈ ss, (w s : A) * ∑ v : Fin M, wt e (c s v) = M * E s)
    {out : (Fin (n + n) → Fin M) → List α} (hout : ∀ t, out t = srcOuts c (tapeOf t) ss (srcSizes al ws (tapeOf t) ss.length n) n)
    (hsz : ∀ f, (srcSizes al ws f ss.length n).sum = n) :
    (∑ t, wt e (out t)) * (ws.sum : A) ^ n = (M * M * (ss.map E).sum) ^ n := by
  set H : List σ → A := fun l => ∑ v : Fin M, wt e (l.flatMap (fun s => c s v)) with hH
  set ls : List (List σ) := ss.map (fun s => [s]) with hls
  have hlsl : ls.length = ss.length := by simp [hls]
  have key : ∀ x : Fin n → Fin M, (∑ y : Fin n → Fin M, wt e (out (Fin.append x y))) = ∏ j : Fin n, H (ls.getD (al ws (x j)) []) := by
    intro x
    set ns : List Nat := (List.range ss.length).map (fun i => ∑ j : Fin n, if al ws (x j) = i then 1 else 0) with hns
    have hnl : ns.length = ss.length := by simp [hns]
    have hnl' : ns.length = ls.length := by rw [hnl, hlsl]
    have hone : ∀ y : Fin n → Fin M, srcSizes al ws (tapeOf (Fin.append x y)) ss.length n = ns := by
      intro y
      unfold srcSizes
      rw [hns]
      apply List.map_congr_left
      intro i _
      rw [Finset.sum_range]
      apply Finset.sum_congr rfl
      intro j _
      rw [tapeOf_left x y j.2]
    have hM' : Nonempty (Fin n → Fin M) := ⟨fun _ => ⟨0, hM⟩⟩
    have hsum : ns.sum = n := by rw [← hone hM'.some]; exact hsz _
    have h1 : ∀ y : Fin n → Fin M, wt e (out (Fin.append x y)) =
        ∏ j : Fin n, wt e ((srcOf ls ns j).flatMap (fun s => c s (y j))) := by
      intro y
      rw [hout, hone, wt_srcOuts c e _ ss ns n hnl, hsum, Finset.prod_range]
      apply Finset.prod_congr rfl
      intro j _
      rw [tapeOf_right x y j.2]
    rw [Finset.sum_congr rfl (fun y _ => h1 y),
      ← Fintype.prod_sum (fun (j : Fin n) (v : Fin M) => wt e ((srcOf ls ns j).flatMap (fun s => c s v)))]
    have h2 := prod_src_pow H ls ns hnl'
    rw [hsum, Finset.prod_range] at h2
    rw [h2, ← prod_pow_count (m := ls.length) (fun i => H (ls.getD i [])) (fun j => al ws (x j)) (fun j => by rw [hlsl]; exact hal _)]
    apply Finset.prod_congr rfl
    intro i hi
    congr 1
    rw [hns, List.getD_eq_getElem?_getD, List.getElem?_map, List.getElem?_range (by rw [← hlsl]; exact Finset.mem_range.mp hi)]
    rfl
  rw [sum_tapes_appendA, Finset.sum_congr rfl (fun x _ => key x), ← Fintype.sum_pow (fun v : Fin M => H (ls.getD (al ws v) [])) n, ← mul_pow]
  congr 1
  have hfib : ∑ v : Fin M, H (ls.getD (al ws v) []) = ∑ i ∈ range ss.length, ((∑ v : Fin M, if al ws v = i then 1 else 0 : Nat) : A) * H (ls.getD i []) := by
    push_cast
    simp only [Finset.sum_mul]
    refine Eq.trans ?_ Finset.sum_comm
    apply Finset.sum_congr rfl
    intro v _
    rw [Finset.sum_eq_single (al ws v)]
    · simp
    · intro i _ hi
      rw [if_neg (Ne.symm hi)]; simp
    · intro h
      exact absurd (Finset.mem_range.mpr (hal v)) h
  rw [hfib, Finset.sum_mul]
  have hterm : ∀ i ∈ range ss.length, ((∑ v : Fin M, if al ws v = i then 1 else 0 : Nat) : A) * H (ls.getD i []) * (ws.sum : A) =
      M * M * (ss.map E).getD i 0 := by
    intro i hir
    have hi' := Finset.mem_range.mp hir
    have e1 : ((∑ v : Fin M, if al ws v = i then 1 else 0 : Nat) : A) * (ws.sum : A) = M * (ws.getD i 0 : Nat) := by
      rw [← Nat.cast_mul, hfair i, Nat.cast_mul]
    have g : ∀ {B : Type} (f : σ → B) (z : B), (ss.map f).getD i z = f ss[i] := by
      intro B f z
      rw [List.getD_eq_getElem?_getD, List.getElem?_map, List.getElem?_eq_getElem hi']; rfl
    have e2 : ws.getD i 0 = w ss[i] := by rw [hws, g]
    have e3 := hE ss[i] (List.getElem_mem hi')
    have e4 : H (ls.getD i []) = ∑ v : Fin M, wt e (c ss[i] v) := by
      rw [hls, g, hH]
      simp
    rw [e4, g E]
    calc _ = (((∑ v : Fin M, if al ws v = i then 1 else 0 : Nat) : A) * (ws.sum : A)) * ∑ v : Fin M, wt e (c ss[i] v) := by ring
      _ = M * ((w ss[i] : A) * ∑ v : Fin M, wt e (c ss[i] v)) := by rw [e1, e2]; ring
      _ = _ := by rw [e3]; ring
  rw [Finset.sum_congr rfl hterm, ← Finset.mul_sum]
  congr 1
  clear * -
  induction ss with
  | nil => simp
  | cons s ss ih =>
    rw [List.length_cons, Finset.sum_range_succ', List.map_cons]
    simp only [List.getD_cons_succ, List.getD_cons_zero]
    rw [ih, List.sum_cons, add_comm]

end

namespace Wss
variable {R : Type} {wt : R → Nat} {al : AliasFn} {A : Type} [CommSemiring A]

/-- The sum over a weighted draw. -/
theorem sum_pickWA (hal : al.Ok) {data : List (Wrapped R)} {M : Nat} (hfair : 0 < total wt data → al.FairOn M (data.map (fun w => wt w.record)))
    (h : List (Wrapped R) → A) : (total wt data : A) * ∑ v : Fin M, h (pickW wt al data v) = M * (data.map (fun w => (wt w.record : A) * h [w])).sum := by
  by_cases h0 : total wt data = 0
  · rw [h0, Nat.cast_zero, zero_mul]
    have hz : ∀ w ∈ data, wt w.record = 0 := by
      intro w hw
      exact List.sum_eq_zero_iff_forall_eq_nat.mp h0 (wt w.record) (List.mem_map.mpr ⟨w, hw, rfl⟩)
    have : (data.map (fun w => (wt w.record : A) * h [w])).sum = 0 := by
      apply List.sum_eq_zero
      intro x hx
      obtain ⟨w, hw, rfl⟩ := List.mem_map.mp hx
      rw [hz w hw, Nat.cast_zero, zero_mul]
    rw [this, mul_zero]
  have hpos : 0 < total wt data := Nat.pos_of_ne_zero h0
  set ws := data.map (fun w => wt w.record) with hws
  have hlt : ∀ v, al ws v < data.length := by
    intro v
    obtain ⟨w, ha, -⟩ := hal ws v hpos
    have := (List.getElem?_eq_some_iff.mp ha).1
    simpa [hws] using this
  have e1 : ∀ v : Nat, h (pickW wt al data v) = ∑ i ∈ range data.length, ((if al ws v = i then 1 else 0 : Nat) : A) * h (data[i]?).toList := by
    intro v
    rw [Finset.sum_eq_single (al ws v)]
    · simp [pickW, hws]
    · intro b _ hb; simp [Ne.symm hb]
    · intro hc; exact absurd (Finset.mem_range.mpr (hlt v)) hc
  simp only [e1]
  rw [Finset.sum_comm, Finset.mul_sum]
  have e2 : ∀ i ∈ range data.length, (total wt data : A) * ∑ v : Fin M, ((if al ws v = i then 1 else 0 : Nat) : A) * h (data[i]?).toList =
      M * (data.map (fun w => (wt w.record : A) * h [w])).getD i 0 := by
    intro i hi
    have hi := Finset.mem_range.mp hi
    have hf := hfair hpos i
    rw [← Finset.sum_mul]
    have hs : ws.sum = total wt data := rfl
    rw [hs] at hf
    have : ws.getD i 0 = wt (data[i]).record := by
      rw [hws, List.getD_eq_getElem?_getD, List.getElem?_map, List.getElem?_eq_getElem hi]; rfl
    rw [this] at hf
    have hf' : ((∑ v : Fin M, if al ws v = i then 1 else 0 : Nat) : A) * (total wt data : A) = M * (wt (data[i]).record : A) := by
      rw [← Nat.cast_mul, hf, Nat.cast_mul]
    rw [List.getD_eq_getElem?_getD, List.getElem?_map, List.getElem?_eq_getElem hi]
    simp only [Option.map_some, Option.getD_some, Option.toList_some]
    rw [← Nat.cast_sum]
    calc _ = (((∑ v : Fin M, if al ws v = i then 1 else 0 : Nat) : A) * (total wt data : A)) * h [data[i]] := by ring
      _ = _ := by rw [hf']; ring
  rw [Finset.sum_congr rfl e2, ← Finset.mul_sum]
  congr 1
  clear * -
  induction data with
  | nil => simp
  | cons s ss ih =>
    rw [List.length_cons, Finset.sum_range_succ', List.map_cons]
    simp only [List.getD_cons_succ, List.getD_cons_zero]
    rw [ih, List.sum_cons, add_comm]

end Wss

theorem weighted_pow_list {R : Type} (wg : R → Nat) (rs : List R) (m : Nat) :
    (rs.map (fun r => (wg r : MvPolynomial R Nat) * MvPolynomial.X r)).sum ^ m =
    ∑ f : Fin m → Fin rs.length, ((∏ j, wg (rs.get (f j)) : Nat) : MvPolynomial R Nat) * wt MvPolynomial.X (List.ofFn (fun j => rs.get (f j))) := by
  have h : (rs.map (fun r => (wg r : MvPolynomial R Nat) * MvPolynomial.X r)).sum =
      ∑ i : Fin rs.length, (wg (rs.get i) : MvPolynomial R Nat) * MvPolynomial.X (rs.get i) := by
    conv_lhs => rw [← List.ofFn_get rs, List.map_ofFn, List.sum_ofFn]
    simp
  rw [h, Fintype.sum_pow]
  apply Finset.sum_congr rfl
  intro f _
  unfold wt
  rw [List.map_ofFn, List.prod_ofFn, Finset.prod_mul_distrib, Nat.cast_prod]
  rfl

end DE
