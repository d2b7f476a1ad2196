import Verif.Proofs.Unbiased
import Mathlib.Algebra.BigOperators.Ring.Finset
import Mathlib.Data.Finsupp.Multiset
import Mathlib.RingTheory.MvPolynomial.Basic
import Mathlib.Algebra.MvPolynomial.Eval
import Mathlib.Algebra.Polynomial.Coeff
import Mathlib.LinearAlgebra.Basis.Basic
import Mathlib.Data.Nat.Choose.Sum

/-!
The law of the samples of one round: the multiset of records returned over all random streams is that of `n` independent uniform
draws from everything that is drawn from, with the out-of-range ones thrown away.

The generating function of the round is computed in an arbitrary commutative semiring; coefficients of polynomials give the law.
-/

namespace DE
open Finset

section
variable {α : Type} {A : Type} [CommSemiring A]

/-- The weight of a list: the product of the weights of its members. -/
def wt (e : α → A) (l : List α) : A := (l.map e).prod

theorem wt_append (e : α → A) (a b : List α) : wt e (a ++ b) = wt e a * wt e b := by simp [wt]

theorem wt_flatMap (e : α → A) (f : Nat → List α) : ∀ n, wt e ((List.range n).flatMap f) = ∏ j ∈ range n, wt e (f j)
  | 0 => by simp [wt]
  | n + 1 => by
    rw [List.range_succ, List.flatMap_append, wt_append, wt_flatMap e f n, Finset.prod_range_succ]
    simp

/-- The source of draw number `j`. -/
def srcOf : List (List α) → List Nat → Nat → List α
  | s :: ss, n :: ns, j => if j < n then s else srcOf ss ns (j - n)
  | _, _, _ => []

theorem prod_srcOf (g : List α → Nat → A) : ∀ (ss : List (List α)) (ns : List Nat) (s : List α) (n : Nat),
    ∏ j ∈ range (n + ns.sum), g (srcOf (s :: ss) (n :: ns) j) j =
      (∏ j ∈ range n, g s j) * ∏ j ∈ range ns.sum, g (srcOf ss ns j) (n + j) := by
  intro ss ns s n
  rw [Finset.prod_range_add]
  congr 1
  · apply Finset.prod_congr rfl
    intro j hj
    rw [srcOf, if_pos (Finset.mem_range.mp hj)]
  · apply Finset.prod_congr rfl
    intro j _
    rw [srcOf, if_neg (by omega), Nat.add_sub_cancel_left]

theorem wt_pureOut (p : α → Bool) (e : α → A) (tape : Nat → Nat) : ∀ (ss : List (List α)) (ns : List Nat) (pos : Nat), ns.length = ss.length →
    wt e (pureOut p tape ss ns pos) = ∏ j ∈ range ns.sum, wt e (pick p (srcOf ss ns j) (tape (pos + j)))
  | [], [], _, _ => by simp [pureOut, wt]
  | [], _ :: _, _, h => by simp at h
  | _ :: _, [], _, h => by simp at h
  | s :: ss, n :: ns, pos, h => by
    rw [pureOut, wt_append, wt_flatMap, wt_pureOut p e tape ss ns (pos + n) (by simpa using h), List.sum_cons,
      prod_srcOf (fun s j => wt e (pick p s (tape (pos + j))))]
    simp only [Nat.add_assoc]

theorem prod_src_pow (g : List α → A) : ∀ (ss : List (List α)) (ns : List Nat), ns.length = ss.length →
    ∏ j ∈ range ns.sum, g (srcOf ss ns j) = ∏ i ∈ range ss.length, g (ss.getD i []) ^ ns.getD i 0
  | [], [], _ => by simp
  | [], _ :: _, h => by simp at h
  | _ :: _, [], h => by simp at h
  | s :: ss, n :: ns, h => by
    rw [List.sum_cons, prod_srcOf (fun s _ => g s), prod_src_pow g ss ns (by simpa using h), List.length_cons, Finset.prod_range_succ']
    simp [mul_comm]

/-- A power with a counted exponent. -/
theorem prod_pow_count {n m : Nat} (E : Nat → A) (f : Fin n → Nat) (hf : ∀ j, f j < m) :
    ∏ i ∈ range m, E i ^ (∑ j : Fin n, if f j = i then 1 else 0) = ∏ j : Fin n, E (f j) := by
  simp only [← Finset.prod_pow_eq_pow_sum]
  rw [Finset.prod_comm]
  apply Finset.prod_congr rfl
  intro j _
  rw [Finset.prod_eq_single (f j)]
  · simp
  · intro i _ hi
    rw [if_neg (Ne.symm hi), pow_zero]
  · intro h
    exact absurd (Finset.mem_range.mpr (hf j)) h

/-- The sum over one source. -/
theorem sum_get_wt (p : α → Bool) (e : α → A) : ∀ s : List α,
    ∑ u ∈ range s.length, wt e ((s[u]?).toList.filter p) = (s.map (fun x => if p x then e x else 1)).sum
  | [] => by simp
  | a :: s => by
    rw [List.length_cons, Finset.sum_range_succ']
    simp only [List.getElem?_cons_succ, List.getElem?_cons_zero]
    rw [sum_get_wt p e s, List.map_cons, List.sum_cons, add_comm]
    congr 1
    by_cases h : p a <;> simp [h, wt]

theorem sum_modA (f : Nat → A) (n : Nat) (hn : 0 < n) : ∀ k, ∑ v ∈ range (n * k), f (v % n) = k * ∑ u ∈ range n, f u
  | 0 => by simp
  | k + 1 => by
    rw [Nat.mul_succ, Finset.sum_range_add, sum_modA f n hn k, Nat.cast_succ, add_mul, one_mul]
    congr 1
    apply Finset.sum_congr rfl
    intro u hu
    rw [Nat.mul_add_mod, Nat.mod_eq_of_lt (Finset.mem_range.mp hu)]

theorem sum_pick_wt (p : α → Bool) (e : α → A) {s : List α} {M : Nat} (hd : s ≠ [] → s.length ∣ M) :
    (s.length : A) * ∑ v : Fin M, wt e (pick p s v) = M * (s.map (fun x => if p x then e x else 1)).sum := by
  by_cases hne : s = []
  · subst hne; simp
  obtain ⟨k, rfl⟩ := hd hne
  rw [Fin.sum_univ_eq_sum_range (fun v => wt e (pick p s v)) (s.length * k)]
  unfold pick
  rw [sum_modA (fun u => wt e ((s[u]?).toList.filter p)) s.length (List.length_pos_iff.mpr hne) k, sum_get_wt]
  push_cast
  ring

theorem sum_tapes_appendA {n M : Nat} (f : (Fin (n + n) → Fin M) → A) :
    ∑ t, f t = ∑ x : Fin n → Fin M, ∑ y : Fin n → Fin M, f (Fin.append x y) := by
  rw [← (Fin.appendEquiv n n).sum_comp, Fintype.sum_prod_type]
  rfl

end

namespace Irs
variable {R K : Type} [LinearOrder R] [LinearOrder K] [HasKey R K] {lo hi : K}

/-- The generating function of a round of `n` samples. -/
theorem round_gen {rej : Bool} {al : AliasFn} (hal : al.Ok) {buf : List (Wrapped R)} {qs : List (Local R)} {mx M : Nat}
    (hM : 0 < M) (hq : ∀ q ∈ qs, q.Exact lo hi) (hs : Safe ⟨fun _ => 0, mx⟩ lo hi buf qs)
    (hw : 0 < (weights rej lo hi buf qs).sum) (hfair : al.FairOn M (weights rej lo hi buf qs))
    (hdvd : ∀ s ∈ sources rej lo hi buf qs, s ≠ [] → s.length ∣ M) (n : Nat)
    (out : (Fin (n + n) → Fin M) → List R) (hout : ∀ t, ∃ p, round rej al ⟨tapeOf t, mx⟩ lo hi buf qs n 0 = .ok (out t, p))
    {A : Type} [CommSemiring A] (e : R → A) :
    (∑ t, wt e (out t)) * ((weights rej lo hi buf qs).sum : A) ^ n =
      (M * M * ((sources rej lo hi buf qs).flatten.map (fun w => if inR lo hi w then e w.record else 1)).sum) ^ n := by
  set ss := sources rej lo hi buf qs with hss
  set ws := weights rej lo hi buf qs with hws
  have hwss : ws = ss.map List.length := weights_sources hs.1 hq
  have hallt : ∀ v, al ws v < ss.length := by
    intro v
    obtain ⟨w, ha, -⟩ := hal _ v hw
    have := (List.getElem?_eq_some_iff.mp ha).1
    have e1 : ws.length = ss.length := by rw [hwss, List.length_map]
    rw [← e1]
    exact this
  set E : Nat → A := fun i => ∑ v : Fin M, wt (fun w : Wrapped R => e w.record) (pick (inR lo hi) (ss.getD i []) v) with hE
  have key : ∀ x : Fin n → Fin M, (∑ y : Fin n → Fin M, wt e (out (Fin.append x y))) = ∏ j : Fin n, E (al ws (x j)) := by
    intro x
    set ns : List Nat := (List.range ss.length).map (fun i => ∑ j : Fin n, if al ws (x j) = i then 1 else 0) with hns
    have hnl : ns.length = ss.length := by simp [hns]
    have hone : ∀ y, out (Fin.append x y) = (pureOut (inR lo hi) (tapeOf (Fin.append x y)) ss ns n).map Wrapped.record ∧ ns.sum = n := by
      intro y
      obtain ⟨p, hp⟩ := hout (Fin.append x y)
      obtain ⟨ns', e1, e2, e3, e4⟩ := round_pure (rej := rej) hal (g := ⟨tapeOf (Fin.append x y), mx⟩) hq hs hw n 0
      rw [hp] at e1
      have hnn : ns' = ns := by
        apply List.ext_getElem
        · rw [e2, hns]; simp [hss]
        · intro i hi1 hi2
          have := e4 i hi1
          rw [List.getD_eq_getElem?_getD, List.getElem?_eq_getElem hi1, Option.getD_some] at this
          have e5 : ns[i] = ∑ j : Fin n, if al ws (x j) = i then 1 else 0 := by simp [hns]
          rw [this, e5, Finset.sum_range]
          apply Finset.sum_congr rfl
          intro j _
          simp only [Nat.zero_add]
          rw [tapeOf_left x y j.2]
      rw [hnn] at e1 e3
      injection e1 with e1
      injection e1 with e1 _
      rw [Nat.zero_add] at e1
      exact ⟨e1, e3⟩
    have hM' : Nonempty (Fin n → Fin M) := ⟨fun _ => ⟨0, hM⟩⟩
    have hsum : ns.sum = n := (hone hM'.some).2
    have h1 : ∀ y : Fin n → Fin M, wt e (out (Fin.append x y)) =
        ∏ j : Fin n, wt (fun w : Wrapped R => e w.record) (pick (inR lo hi) (srcOf ss ns j) (y j)) := by
      intro y
      have : wt e (out (Fin.append x y)) = wt (fun w : Wrapped R => e w.record) (pureOut (inR lo hi) (tapeOf (Fin.append x y)) ss ns n) := by
        rw [(hone y).1]; simp [wt, Function.comp_def]
      rw [this, wt_pureOut _ _ _ _ _ _ hnl, hsum, Finset.prod_range]
      apply Finset.prod_congr rfl
      intro j _
      rw [tapeOf_right x y j.2]
    rw [Finset.sum_congr rfl (fun y _ => h1 y),
      ← Fintype.prod_sum (fun (j : Fin n) (v : Fin M) => wt (fun w : Wrapped R => e w.record) (pick (inR lo hi) (srcOf ss ns j) v))]
    have h2 := prod_src_pow (fun s => ∑ v : Fin M, wt (fun w : Wrapped R => e w.record) (pick (inR lo hi) s v)) ss ns hnl
    rw [hsum, Finset.prod_range] at h2
    rw [h2, ← prod_pow_count E (fun j => al ws (x j)) (fun j => hallt _)]
    apply Finset.prod_congr rfl
    intro i hi
    congr 1
    rw [hns, List.getD_eq_getElem?_getD, List.getElem?_map, List.getElem?_range (Finset.mem_range.mp hi)]
    rfl
  rw [sum_tapes_appendA, Finset.sum_congr rfl (fun x _ => key x), ← Fintype.sum_pow (fun v : Fin M => E (al ws v)) n, ← mul_pow]
  congr 1
  have hfib : ∑ v : Fin M, E (al ws v) = ∑ i ∈ range ss.length, ((∑ v : Fin M, if al ws v = i then 1 else 0 : Nat) : A) * E i := by
    push_cast
    simp only [Finset.sum_mul]
    refine Eq.trans ?_ Finset.sum_comm
    apply Finset.sum_congr rfl
    intro v _
    rw [Finset.sum_eq_single (al ws v)]
    · simp
    · intro i _ hi
      rw [if_neg (Ne.symm hi)]; simp
    · intro h
      exact absurd (Finset.mem_range.mpr (hallt v)) h
  rw [hfib, Finset.sum_mul]
  have hterm : ∀ i ∈ range ss.length, ((∑ v : Fin M, if al ws v = i then 1 else 0 : Nat) : A) * E i * (ws.sum : A) =
      M * M * ((ss.getD i []).map (fun w => if inR lo hi w then e w.record else 1)).sum := by
    intro i hir
    have hi' := Finset.mem_range.mp hir
    have e1 : ((∑ v : Fin M, if al ws v = i then 1 else 0 : Nat) : A) * (ws.sum : A) = M * (ws.getD i 0 : Nat) := by
      rw [← Nat.cast_mul, hfair i, Nat.cast_mul]
    have e2 : ws.getD i 0 = (ss.getD i []).length := by
      rw [hwss, List.getD_eq_getElem?_getD, List.getElem?_map, List.getD_eq_getElem?_getD, List.getElem?_eq_getElem hi']; rfl
    have e3 : ((ss.getD i []).length : A) * E i = M * ((ss.getD i []).map (fun w => if inR lo hi w then e w.record else 1)).sum := by
      apply sum_pick_wt
      apply hdvd
      rw [List.getD_eq_getElem?_getD, List.getElem?_eq_getElem hi']
      exact List.getElem_mem hi'
    calc _ = (((∑ v : Fin M, if al ws v = i then 1 else 0 : Nat) : A) * (ws.sum : A)) * E i := by ring
      _ = M * (((ss.getD i []).length : A) * E i) := by rw [e1, e2]; ring
      _ = _ := by rw [e3]; ring
  rw [Finset.sum_congr rfl hterm, ← Finset.mul_sum]
  congr 1
  clear_value ss
  clear * - 
  induction ss with
  | nil => simp
  | cons s ss ih =>
    rw [List.length_cons, Finset.sum_range_succ']
    simp only [List.getD_cons_succ, List.getD_cons_zero]
    rw [ih, List.flatten_cons, List.map_append, List.sum_append, add_comm]


theorem wt_eval {R A B : Type} [CommSemiring A] [CommSemiring B] (φ : A →+* B) (e : R → A) (l : List R) : φ (wt e l) = wt (fun r => φ (e r)) l := by
  unfold wt
  rw [map_list_prod, List.map_map]
  rfl

theorem wt_one {R A : Type} [CommSemiring A] (l : List R) : wt (fun _ => (1 : A)) l = 1 := by
  unfold wt; simp

theorem poly_cancel {R : Type} {p q : MvPolynomial R Nat} {w : Nat} (hw : w ≠ 0) (h : p * (w : MvPolynomial R Nat) = q * (w : MvPolynomial R Nat)) :
    p = q := by
  ext m
  have := congrArg (MvPolynomial.coeff m) h
  rw [← map_natCast (MvPolynomial.C (σ := R) (R := Nat)) w, mul_comm p, mul_comm q, MvPolynomial.coeff_C_mul,
    MvPolynomial.coeff_C_mul] at this
  exact Nat.eq_of_mul_eq_mul_left (Nat.pos_of_ne_zero hw) this

theorem wt_poly {R : Type} {A : Type} [CommSemiring A] (e : R → A) (l : List R) :
    wt (fun r => Polynomial.C (e r) * Polynomial.X) l = Polynomial.C (wt e l) * Polynomial.X ^ l.length := by
  induction l with
  | nil => simp [wt]
  | cons a l ih =>
    unfold wt at ih ⊢
    rw [List.map_cons, List.prod_cons, ih, List.map_cons, List.prod_cons, List.length_cons, map_mul]
    ring

/-- Everything drawn from that is in range, as a polynomial. -/
noncomputable def inPoly (rej : Bool) (lo hi : K) (buf : List (Wrapped R)) (qs : List (Local R)) : MvPolynomial R Nat :=
  ((((sources rej lo hi buf qs).flatten.filter (inR lo hi)).map Wrapped.record).map MvPolynomial.X).sum

def inCount (rej : Bool) (lo hi : K) (buf : List (Wrapped R)) (qs : List (Local R)) : Nat :=
  ((sources rej lo hi buf qs).flatten.filter (inR lo hi)).length

theorem eval_inPoly (rej : Bool) (lo hi : K) (buf : List (Wrapped R)) (qs : List (Local R)) :
    MvPolynomial.eval (fun _ => 1) (inPoly rej lo hi buf qs) = inCount rej lo hi buf qs := by
  unfold inPoly inCount
  rw [map_list_sum, List.map_map, List.map_map]
  have : ((⇑(MvPolynomial.eval fun _ => 1) ∘ (MvPolynomial.X : R → MvPolynomial R Nat)) ∘ Wrapped.record) = fun _ : Wrapped R => 1 := by
    funext w; simp
  rw [this]
  generalize (sources rej lo hi buf qs).flatten.filter (inR lo hi) = l
  induction l with
  | nil => rfl
  | cons a l ih => rw [List.map_cons, List.sum_cons, ih, List.length_cons, Nat.add_comm]

theorem sum_split {α A : Type} [CommSemiring A] (p : α → Bool) (f : α → A) (l : List α) :
    (l.map (fun x => if p x then Polynomial.C (f x) * Polynomial.X else 1)).sum =
      Polynomial.C ((l.filter p).map f).sum * Polynomial.X + Polynomial.C (((l.filter (fun x => !p x)).length : Nat) : A) := by
  induction l with
  | nil => simp
  | cons a l ih =>
    rw [List.map_cons, List.sum_cons, ih]
    by_cases h : p a
    · simp [h]; ring
    · simp [h]; ring

theorem coeff_lin {A : Type} [CommSemiring A] (a b : A) (n k : Nat) :
    ((Polynomial.C a * Polynomial.X + Polynomial.C b) ^ n).coeff k = a ^ k * b ^ (n - k) * (n.choose k : A) := by
  rw [add_pow, Polynomial.finsetSum_coeff]
  have h : ∀ j, ((Polynomial.C a * Polynomial.X) ^ j * Polynomial.C b ^ (n - j) * (n.choose j : Polynomial A)) =
      Polynomial.C (a ^ j * b ^ (n - j) * (n.choose j : A)) * Polynomial.X ^ j := by
    intro j
    rw [map_mul, map_mul, map_pow, map_pow, mul_pow, map_natCast]
    ring
  simp only [h, Polynomial.coeff_C_mul_X_pow]
  by_cases hk : k ≤ n
  · rw [Finset.sum_eq_single k]
    · simp
    · intro j _ hj
      rw [if_neg (Ne.symm hj)]
    · intro hh
      exact absurd (Finset.mem_range.mpr (by omega)) hh
  · rw [Nat.choose_eq_zero_of_lt (by omega), Finset.sum_eq_zero]
    · simp
    · intro j hj
      rw [if_neg (by have := Finset.mem_range.mp hj; omega)]

/-- The rounds that return `k` records. -/
theorem round_coeff {rej : Bool} {al : AliasFn} (hal : al.Ok) {buf : List (Wrapped R)} {qs : List (Local R)} {mx M : Nat}
    (hM : 0 < M) (hq : ∀ q ∈ qs, q.Exact lo hi) (hs : Safe ⟨fun _ => 0, mx⟩ lo hi buf qs)
    (hw : 0 < (weights rej lo hi buf qs).sum) (hfair : al.FairOn M (weights rej lo hi buf qs))
    (hdvd : ∀ s ∈ sources rej lo hi buf qs, s ≠ [] → s.length ∣ M) (n : Nat)
    (out : (Fin (n + n) → Fin M) → List R) (hout : ∀ t, ∃ p, round rej al ⟨tapeOf t, mx⟩ lo hi buf qs n 0 = .ok (out t, p)) (k : Nat) :
    ∃ b : Nat, (k = n → 0 < b) ∧ (∑ t, if (out t).length = k then wt MvPolynomial.X (out t) else 0) * ((weights rej lo hi buf qs).sum : MvPolynomial R Nat) ^ n =
      (b : MvPolynomial R Nat) * inPoly rej lo hi buf qs ^ k := by
  have h := round_gen hal hM hq hs hw hfair hdvd n out hout
    (fun r : R => Polynomial.C (MvPolynomial.X (R := Nat) r) * Polynomial.X)
  rw [sum_split (inR lo hi) (fun w : Wrapped R => MvPolynomial.X (R := Nat) w.record)] at h
  simp only [wt_poly] at h
  have h2 : Polynomial.coeff _ k = Polynomial.coeff _ k := congrArg (fun q => Polynomial.coeff q k) h
  rw [mul_pow, show ((M : Polynomial (MvPolynomial R Nat)) * M) ^ n = Polynomial.C (((M * M) ^ n : Nat) : MvPolynomial R Nat) from by
      rw [map_natCast]; push_cast; rfl, Polynomial.coeff_C_mul, coeff_lin,
    show (((weights rej lo hi buf qs).sum : Nat) : Polynomial (MvPolynomial R Nat)) ^ n =
      Polynomial.C ((((weights rej lo hi buf qs).sum : Nat) : MvPolynomial R Nat) ^ n) from by rw [map_pow, map_natCast],
    Polynomial.coeff_mul_C, Polynomial.finsetSum_coeff] at h2
  simp only [Polynomial.coeff_C_mul_X_pow] at h2
  refine ⟨(M * M) ^ n * (((sources rej lo hi buf qs).flatten.filter (fun x => !inR lo hi x)).length ^ (n - k) * n.choose k), ?_, ?_⟩
  · rintro rfl
    simp only [Nat.sub_self, pow_zero, Nat.choose_self, Nat.mul_one]
    exact Nat.pow_pos (Nat.mul_pos hM hM)
  · simp only [eq_comm (a := k)] at h2
    rw [h2]
    unfold inPoly
    rw [List.map_map]
    push_cast
    simp only [Function.comp_def]
    ring

/-- Given that a round returns `k` records, they are `k` independent uniform draws. -/
theorem round_law {rej : Bool} {al : AliasFn} (hal : al.Ok) {buf : List (Wrapped R)} {qs : List (Local R)} {mx M : Nat}
    (hM : 0 < M) (hq : ∀ q ∈ qs, q.Exact lo hi) (hs : Safe ⟨fun _ => 0, mx⟩ lo hi buf qs)
    (hw : 0 < (weights rej lo hi buf qs).sum) (hfair : al.FairOn M (weights rej lo hi buf qs))
    (hdvd : ∀ s ∈ sources rej lo hi buf qs, s ≠ [] → s.length ∣ M) (n : Nat)
    (out : (Fin (n + n) → Fin M) → List R) (hout : ∀ t, ∃ p, round rej al ⟨tapeOf t, mx⟩ lo hi buf qs n 0 = .ok (out t, p)) (k : Nat) :
    (∑ t, if (out t).length = k then wt MvPolynomial.X (out t) else 0) * (inCount rej lo hi buf qs : MvPolynomial R Nat) ^ k =
      ((∑ t, if (out t).length = k then 1 else 0 : Nat) : MvPolynomial R Nat) * inPoly rej lo hi buf qs ^ k ∧
    (k = n → 0 < inCount rej lo hi buf qs → 0 < (∑ t, if (out t).length = k then 1 else 0 : Nat)) := by
  obtain ⟨b, hb, h⟩ := round_coeff hal hM hq hs hw hfair hdvd n out hout k
  have h1 := congrArg (MvPolynomial.eval (fun _ => (1 : Nat))) h
  rw [map_mul, map_mul, map_pow, map_pow, map_natCast, map_natCast, eval_inPoly, map_sum] at h1
  have e : ∀ t, (MvPolynomial.eval (fun _ => (1 : Nat))) (if (out t).length = k then wt MvPolynomial.X (out t) else 0) =
      if (out t).length = k then 1 else 0 := by
    intro t
    split
    · rw [wt_eval]
      simp [wt_one]
    · simp
  simp only [e, Nat.cast_id] at h1
  refine ⟨?_, ?_⟩
  · apply poly_cancel (w := (weights rej lo hi buf qs).sum ^ n) (by positivity)
    have h1' : ((∑ t, if (out t).length = k then 1 else 0 : Nat) : MvPolynomial R Nat) * ((weights rej lo hi buf qs).sum : MvPolynomial R Nat) ^ n =
        b * (inCount rej lo hi buf qs : MvPolynomial R Nat) ^ k := by
      exact_mod_cast congrArg (Nat.cast (R := MvPolynomial R Nat)) h1
    rw [Nat.cast_pow]
    calc _ = ((∑ t, if (out t).length = k then wt MvPolynomial.X (out t) else 0) * ((weights rej lo hi buf qs).sum : MvPolynomial R Nat) ^ n) *
          (inCount rej lo hi buf qs : MvPolynomial R Nat) ^ k := by ring
      _ = (b * (inCount rej lo hi buf qs : MvPolynomial R Nat) ^ k) * inPoly rej lo hi buf qs ^ k := by rw [h]; ring
      _ = _ := by rw [← h1']; ring
  · intro hk hc
    have : 0 < b * inCount rej lo hi buf qs ^ k := Nat.mul_pos (hb hk) (Nat.pow_pos hc)
    rw [← h1] at this
    exact Nat.pos_of_mul_pos_right this

theorem pureOut_local {α : Type} (p : α → Bool) {t t' : Nat → Nat} {B : Nat} (h : ∀ i, i < B → t i = t' i) :
    ∀ (ss : List (List α)) (ns : List Nat) (k : Nat), k + ns.sum ≤ B → pureOut p t ss ns k = pureOut p t' ss ns k
  | [], _, _, _ => by simp [pureOut]
  | _ :: _, [], _, _ => by simp [pureOut]
  | s :: ss, n :: ns, k, hk => by
    rw [List.sum_cons] at hk
    unfold pureOut
    rw [pureOut_local p h ss ns (k + n) (by omega)]
    congr 1
    apply List.flatMap_congr
    intro j hj
    rw [h _ (by have := List.mem_range.mp hj; omega)]

/-- A round for `n` samples reads `2n` cells. -/
theorem round_local {rej : Bool} {al : AliasFn} (hal : al.Ok) {buf : List (Wrapped R)} {qs : List (Local R)} {mx : Nat}
    (hq : ∀ q ∈ qs, q.Exact lo hi) (hs : Safe ⟨fun _ => 0, mx⟩ lo hi buf qs) (hw : 0 < (weights rej lo hi buf qs).sum) {n : Nat}
    {F : (Nat → Nat) → List R}
    (hF : ∀ tape pos, round rej al ⟨tape, mx⟩ lo hi buf qs n pos = .ok (F (fun i => tape (pos + i)), pos + n + n))
    {t t' : Nat → Nat} (hx : ∀ i, i < n + n → t i = t' i) : F t = F t' := by
  obtain ⟨ns, e1, e2, e3, e4⟩ := round_pure (rej := rej) hal (g := ⟨t, mx⟩) hq hs hw n 0
  obtain ⟨ns', f1, f2, f3, f4⟩ := round_pure (rej := rej) hal (g := ⟨t', mx⟩) hq hs hw n 0
  rw [hF] at e1 f1
  have hnn : ns = ns' := by
    apply List.ext_getElem (by omega)
    intro i h1 h2
    have a1 := e4 i h1
    have a2 := f4 i h2
    rw [List.getD_eq_getElem?_getD, List.getElem?_eq_getElem h1, Option.getD_some] at a1
    rw [List.getD_eq_getElem?_getD, List.getElem?_eq_getElem h2, Option.getD_some] at a2
    rw [a1, a2]
    apply Finset.sum_congr rfl
    intro j hj
    have := Finset.mem_range.mp hj
    simp only [Nat.zero_add, hx j (by omega)]
  subst hnn
  simp only [Nat.zero_add] at e1 f1
  rw [pureOut_local _ hx _ ns n (by omega), ← f1] at e1
  injection e1 with e1
  injection e1

/-- A quantity of what a query returns; 0 if it has not returned. -/
def onRes {α A : Type} [Zero A] (h : α → A) : Res (Option α) → A
  | .ok (some o) => h o
  | _ => 0

theorem loop_len {rej : Bool} {al : AliasFn} {g : Rng} {buf : List (Wrapped R)} {qs : List (Local R)} : ∀ (fuel n pos : Nat) (out o : List R),
    loop rej al g lo hi buf qs fuel n pos out = .ok (some o) → out.length ≤ o.length
  | 0, _, _, _, _, h => by simp [loop] at h
  | fuel + 1, n, pos, out, o, h => by
    unfold loop at h
    cases hr : round rej al g lo hi buf qs n pos with
    | error e => rw [hr] at h; simp [bind, Except.bind] at h
    | ok v =>
      obtain ⟨r, p⟩ := v
      rw [hr] at h
      simp only [bind, Except.bind] at h
      split at h
      · have := loop_len fuel _ _ _ _ h
        rw [List.length_append] at this
        omega
      · injection h with h
        injection h with h
        rw [← h, List.length_append]
        omega

/-- Given that a query returns `m` further records, they are `m` independent uniform draws: the number of rounds is decided by
the number of records alone. -/
theorem loop_law {rej : Bool} {al : AliasFn} (hal : al.Ok) {buf : List (Wrapped R)} {qs : List (Local R)} {mx M : Nat}
    (hM : 0 < M) (hmx : ∀ q ∈ qs, mx + q.data.length < 2 ^ 64)
    (hq : ∀ q ∈ qs, q.Exact lo hi) (hs : Safe ⟨fun _ => 0, mx⟩ lo hi buf qs)
    (hw : 0 < (weights rej lo hi buf qs).sum) (hfair : al.FairOn M (weights rej lo hi buf qs))
    (hdvd : ∀ s ∈ sources rej lo hi buf qs, s ≠ [] → s.length ∣ M) : ∀ (fuel n l m L : Nat), (n + n) * fuel ≤ L →
    ∃ c : Nat, ∀ out : List R, out.length = l →
      (∑ t : Fin L → Fin M, onRes (fun o => if o.length = l + m then wt MvPolynomial.X o else 0)
        (loop rej al ⟨tapeOf t, mx⟩ lo hi buf qs fuel n 0 out)) * (inCount rej lo hi buf qs : MvPolynomial R Nat) ^ m =
      (c : MvPolynomial R Nat) * inPoly rej lo hi buf qs ^ m * wt MvPolynomial.X out
  | 0, n, l, m, L, _ => ⟨0, fun out _ => by simp [loop, onRes]⟩
  | fuel + 1, n, l, m, L, hL => by
    obtain ⟨F, hF⟩ := round_shift (rej := rej) hal hq hs hw n
    obtain ⟨L', rfl⟩ : ∃ L', L = (n + n) + L' := ⟨L - (n + n), by rw [Nat.mul_succ] at hL; omega⟩
    have hL' : (n + n) * fuel ≤ L' := by rw [Nat.mul_succ] at hL; omega
    have hlen : ∀ t, (F t).length ≤ n := by
      intro t
      obtain ⟨⟨o, p⟩, h1, h2⟩ := (round_good (rej := rej) hal (g := ⟨t, mx⟩) (fun q hqm => ⟨hq q hqm, hmx q hqm⟩) n 0).safe hs
      have := hF t 0
      rw [h1] at this
      injection this with this
      injection this with e _
      have hl := h2.2.1
      simp only at hl
      rw [e] at hl
      simpa using hl
    have hloc : ∀ (x : Fin (n + n) → Fin M) (y : Fin L' → Fin M), F (tapeOf (Fin.append x y)) = F (tapeOf x) := by
      intro x y
      apply round_local hal hq hs hw hF
      intro i hi
      rw [tapeOf_append_left x y hi]
      unfold tapeOf; rw [dif_pos hi]
    have hround : ∀ t : Fin (n + n) → Fin M, round rej al ⟨tapeOf t, mx⟩ lo hi buf qs n 0 = .ok (F (tapeOf t), 0 + n + n) := by
      intro t
      rw [hF]
      simp only [Nat.zero_add]
    set N := inCount rej lo hi buf qs with hN
    set Q := inPoly rej lo hi buf qs with hQ
    -- the rest of the query, by the number of records of the first round
    have hrest : ∀ k, ∃ c : Nat, (m < k → c = 0) ∧ ∀ (out : List R) (x : Fin (n + n) → Fin M), out.length = l → (F (tapeOf x)).length = k →
        (∑ y : Fin L' → Fin M, onRes (fun o => if o.length = l + m then wt MvPolynomial.X o else 0)
          (loop rej al ⟨tapeOf (Fin.append x y), mx⟩ lo hi buf qs (fuel + 1) n 0 out)) * (N : MvPolynomial R Nat) ^ m =
        (c : MvPolynomial R Nat) * Q ^ (m - k) * (N : MvPolynomial R Nat) ^ k * wt MvPolynomial.X out * wt MvPolynomial.X (F (tapeOf x)) := by
      intro k
      have hloop : ∀ (out : List R) (x : Fin (n + n) → Fin M) (y : Fin L' → Fin M), out.length = l → (F (tapeOf x)).length = k →
          loop rej al ⟨tapeOf (Fin.append x y), mx⟩ lo hi buf qs (fuel + 1) n 0 out =
          if l + k < n then loop rej al ⟨tapeOf y, mx⟩ lo hi buf qs fuel (n - (l + k)) 0 (out ++ F (tapeOf x)) else .ok (some (out ++ F (tapeOf x))) := by
        intro out x y ho hx
        conv_lhs => unfold loop
        rw [hF]
        simp only [bind, Except.bind, Nat.zero_add]
        rw [show (fun i => tapeOf (Fin.append x y) i) = tapeOf (Fin.append x y) from rfl, hloc x y, List.length_append, ho, hx,
          loop_shift (t' := tapeOf y) hal hq hs hw fuel (n - (l + k)) (n + n) 0 _ (fun i => by rw [tapeOf_append_right, Nat.zero_add])]
      by_cases hmk : m < k
      · refine ⟨0, fun _ => rfl, fun out x ho hx => ?_⟩
        rw [Finset.sum_eq_zero]
        · simp
        · intro y _
          generalize hres : loop rej al ⟨tapeOf (Fin.append x y), mx⟩ lo hi buf qs (fuel + 1) n 0 out = res
          match res, hres with
          | .error _, _ => rfl
          | .ok none, _ => rfl
          | .ok (some o), hres =>
            rw [hloop out x y ho hx] at hres
            have : l + k ≤ o.length := by
              split at hres
              · have := loop_len _ _ _ _ _ hres
                rw [List.length_append, ho, hx] at this
                exact this
              · injection hres with h
                injection h with h
                rw [← h, List.length_append, ho, hx]
            unfold onRes
            simp only
            rw [if_neg (by omega)]
      · by_cases hc : l + k < n
        · obtain ⟨c, hcc⟩ := loop_law hal hM hmx hq hs hw hfair hdvd fuel (n - (l + k)) (l + k) (m - k) L'
            (le_trans (Nat.mul_le_mul_right _ (by omega)) hL')
          refine ⟨c, fun h => absurd h hmk, fun out x ho hx => ?_⟩
          have h := hcc (out ++ F (tapeOf x)) (by rw [List.length_append, ho, hx])
          simp only [hloop out x _ ho hx, if_pos hc]
          rw [show l + k + (m - k) = l + m by omega, wt_append] at h
          calc _ = ((∑ y : Fin L' → Fin M, onRes (fun o => if o.length = l + m then wt MvPolynomial.X o else 0)
                (loop rej al ⟨tapeOf y, mx⟩ lo hi buf qs fuel (n - (l + k)) 0 (out ++ F (tapeOf x)))) * (N : MvPolynomial R Nat) ^ (m - k)) *
                (N : MvPolynomial R Nat) ^ k := by
                rw [mul_assoc, ← pow_add]; congr 2; omega
            _ = _ := by rw [h]; ring
        · refine ⟨if k = m then M ^ L' else 0, fun h => by rw [if_neg (by omega)], fun out x ho hx => ?_⟩
          simp only [hloop out x _ ho hx, if_neg hc, onRes, List.length_append, ho, hx]
          by_cases hkm : k = m
          · subst hkm
            simp [wt_append]
            ring
          · simp [hkm]
    choose c hc0 hc using hrest
    refine ⟨∑ k ∈ range (n + 1), c k * (∑ x : Fin (n + n) → Fin M, if (F (tapeOf x)).length = k then 1 else 0), fun out ho => ?_⟩
    rw [← (Fin.appendEquiv (n + n) L').sum_comp, Fintype.sum_prod_type, Finset.sum_mul]
    have h1 : ∀ x : Fin (n + n) → Fin M, (∑ y : Fin L' → Fin M, onRes (fun o => if o.length = l + m then wt MvPolynomial.X o else 0)
          (loop rej al ⟨tapeOf ((Fin.appendEquiv (n + n) L') (x, y)), mx⟩ lo hi buf qs (fuel + 1) n 0 out)) * (N : MvPolynomial R Nat) ^ m =
        ∑ k ∈ range (n + 1), (c k : MvPolynomial R Nat) * Q ^ (m - k) * (N : MvPolynomial R Nat) ^ k * wt MvPolynomial.X out *
          (if (F (tapeOf x)).length = k then wt MvPolynomial.X (F (tapeOf x)) else 0) := by
      intro x
      have h2 := hc _ out x ho rfl
      rw [Finset.sum_eq_single (F (tapeOf x)).length]
      · rw [if_pos rfl]; exact h2
      · intro k _ hk
        rw [if_neg (Ne.symm hk), mul_zero]
      · intro h
        exact absurd (Finset.mem_range.mpr (by have := hlen (tapeOf x); omega)) h
    rw [Finset.sum_congr rfl (fun x _ => h1 x), Finset.sum_comm, Nat.cast_sum, Finset.sum_mul, Finset.sum_mul]
    apply Finset.sum_congr rfl
    intro k _
    rw [← Finset.mul_sum]
    have h3 := (round_law hal hM hq hs hw hfair hdvd n (fun t => F (tapeOf t)) (fun t => ⟨_, hround t⟩) k).1
    by_cases hmk : m < k
    · rw [hc0 k hmk]; simp
    · have hp : Q ^ m = Q ^ (m - k) * Q ^ k := by rw [← pow_add]; congr 1; omega
      rw [hp, Nat.cast_mul]
      calc _ = (c k : MvPolynomial R Nat) * Q ^ (m - k) * wt MvPolynomial.X out *
            ((∑ x : Fin (n + n) → Fin M, if (F (tapeOf x)).length = k then wt MvPolynomial.X (F (tapeOf x)) else 0) * (N : MvPolynomial R Nat) ^ k) := by ring
        _ = _ := by rw [h3]; ring

/-! ### From polynomials to counts -/

/-- The polynomial of a list determines it up to order. -/
theorem wt_monomial (l : List R) : wt MvPolynomial.X l = MvPolynomial.monomial (Multiset.toFinsupp (l : Multiset R)) (1 : Nat) := by
  induction l with
  | nil => simp [wt]
  | cons a l ih =>
    have : wt MvPolynomial.X (a :: l) = MvPolynomial.X a * wt (MvPolynomial.X (R := Nat)) l := by simp [wt]
    rw [this, ih, MvPolynomial.X, MvPolynomial.monomial_mul, ← Multiset.cons_coe, ← Multiset.singleton_add, map_add,
      Multiset.toFinsupp_singleton]
    simp

/-- The linear functional that takes the polynomial of a list to a quantity of the list. -/
noncomputable def obs (g : Multiset R → Nat) : MvPolynomial R Nat →ₗ[Nat] Nat :=
  (MvPolynomial.basisMonomials R Nat).constr Nat (fun s => g (Finsupp.toMultiset s))

theorem obs_wt (g : Multiset R → Nat) (l : List R) : obs g (wt MvPolynomial.X l) = g l := by
  rw [wt_monomial]
  unfold obs
  have := (MvPolynomial.basisMonomials R Nat).constr_basis Nat (fun s => g (Finsupp.toMultiset s)) (Multiset.toFinsupp (l : Multiset R))
  rw [MvPolynomial.coe_basisMonomials] at this
  rw [this]
  simp

omit [LinearOrder R] in
theorem obs_mul (g : Multiset R → Nat) (p : MvPolynomial R Nat) (c : Nat) : obs g (p * (c : MvPolynomial R Nat)) = obs g p * c := by
  rw [mul_comm, ← nsmul_eq_mul, map_nsmul, smul_eq_mul, mul_comm]

omit [LinearOrder R] in
theorem sum_pow_list (rs : List R) (m : Nat) : (rs.map (MvPolynomial.X (R := Nat))).sum ^ m =
    ∑ f : Fin m → Fin rs.length, wt MvPolynomial.X (List.ofFn (fun j => rs.get (f j))) := by
  have h : (rs.map (MvPolynomial.X (R := Nat))).sum = ∑ i : Fin rs.length, MvPolynomial.X (rs.get i) := by
    conv_lhs => rw [← List.ofFn_get rs, List.map_ofFn, List.sum_ofFn]
    simp
  rw [h, Fintype.sum_pow]
  apply Finset.sum_congr rfl
  intro f _
  unfold wt
  rw [List.map_ofFn, List.prod_ofFn]
  rfl

/-- The law of the samples of a query. -/
theorem query_law {rej : Bool} {al : AliasFn} (hal : al.Ok) {buf : List (Wrapped R)} {qs : List (Local R)} {mx M : Nat}
    (hM : 0 < M) (hmx : ∀ q ∈ qs, mx + q.data.length < 2 ^ 64)
    (hq : ∀ q ∈ qs, q.Exact lo hi) (hs : Safe ⟨fun _ => 0, mx⟩ lo hi buf qs)
    (hw : 0 < (weights rej lo hi buf qs).sum) (hfair : al.FairOn M (weights rej lo hi buf qs))
    (hdvd : ∀ s ∈ sources rej lo hi buf qs, s ≠ [] → s.length ∣ M)
    {rs : List R} (hrs : (((sources rej lo hi buf qs).flatten.filter (inR lo hi)).map Wrapped.record).Perm rs) (hne : rs ≠ [])
    (g : Multiset R → Nat) (n m fuel : Nat) :
    (∑ t : Fin ((n + n) * fuel) → Fin M, onRes (fun o : List R => if o.length = m then g o else 0)
        (loop rej al ⟨tapeOf t, mx⟩ lo hi buf qs fuel n 0 [])) * rs.length ^ m =
      (∑ t : Fin ((n + n) * fuel) → Fin M, onRes (fun o : List R => if o.length = m then 1 else 0)
        (loop rej al ⟨tapeOf t, mx⟩ lo hi buf qs fuel n 0 [])) *
      ∑ f : Fin m → Fin rs.length, g ↑(List.ofFn (fun j => rs.get (f j))) := by
  obtain ⟨c, hc⟩ := loop_law hal hM hmx hq hs hw hfair hdvd fuel n 0 m _ (le_refl _)
  have h := hc [] rfl
  rw [show wt MvPolynomial.X ([] : List R) = (1 : MvPolynomial R Nat) from rfl, mul_one] at h
  have hN : inCount rej lo hi buf qs = rs.length := by
    rw [← hrs.length_eq, List.length_map]; rfl
  have hQ : inPoly rej lo hi buf qs = (rs.map (MvPolynomial.X (R := Nat))).sum := by
    unfold inPoly
    exact (hrs.map _).sum_eq
  rw [hN, hQ, sum_pow_list, ← Nat.cast_pow, Nat.zero_add, mul_comm (c : MvPolynomial R Nat)] at h
  have key : ∀ g : Multiset R → Nat, (∑ t : Fin ((n + n) * fuel) → Fin M, onRes (fun o : List R => if o.length = m then g o else 0)
        (loop rej al ⟨tapeOf t, mx⟩ lo hi buf qs fuel n 0 [])) * rs.length ^ m =
      (∑ f : Fin m → Fin rs.length, g ↑(List.ofFn (fun j => rs.get (f j)))) * c := by
    intro g
    have h1 := congrArg (obs g) h
    rw [obs_mul, obs_mul, map_sum, map_sum] at h1
    have e : ∀ t : Fin ((n + n) * fuel) → Fin M, obs g (onRes (fun o => if o.length = m then wt MvPolynomial.X o else 0)
        (loop rej al ⟨tapeOf t, mx⟩ lo hi buf qs fuel n 0 [])) = onRes (fun o : List R => if o.length = m then g o else 0)
        (loop rej al ⟨tapeOf t, mx⟩ lo hi buf qs fuel n 0 []) := by
      intro t
      generalize loop rej al ⟨tapeOf t, mx⟩ lo hi buf qs fuel n 0 [] = res
      match res with
      | .error _ => simp [onRes]
      | .ok none => simp [onRes]
      | .ok (some o) =>
        simp only [onRes]
        split
        · exact obs_wt g o
        · simp
    simp only [e, obs_wt] at h1
    exact h1
  have hone := key (fun _ => 1)
  have hpos : 0 < rs.length ^ m := Nat.pow_pos (List.length_pos_iff.mpr hne)
  have hcc : (∑ t : Fin ((n + n) * fuel) → Fin M, onRes (fun o : List R => if o.length = m then 1 else 0)
        (loop rej al ⟨tapeOf t, mx⟩ lo hi buf qs fuel n 0 [])) = c := by
    apply Nat.eq_of_mul_eq_mul_right hpos
    rw [hone]
    simp [mul_comm]
  rw [key g, hcc, mul_comm]

end Irs
end DE
