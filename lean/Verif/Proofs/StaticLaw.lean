import Verif.Proofs.WssFair
import Mathlib.Algebra.BigOperators.Ring.Finset

/-!
Independent draws in order: sums over all streams of a quantity of the drawn sequence.
-/

namespace DE
open Finset

section
variable {R : Type}

/-- The sum of `g` over all sequences of `n` draws from `rs`, a sequence counting with the product of the weights of its members. -/
def draws (wt : R → Nat) (rs : List R) (n : Nat) (g : List R → Nat) : Nat :=
  ∑ f : Fin n → Fin rs.length, (∏ j, wt (rs.get (f j))) * g (List.ofFn (fun j => rs.get (f j)))

theorem sum_get_map (f : R → Nat) : ∀ rs : List R, ∑ i : Fin rs.length, f (rs.get i) = (rs.map f).sum
  | [] => by simp
  | r :: rs => by
    simp only [List.length_cons]
    rw [Fin.sum_univ_succ, List.map_cons, List.sum_cons, ← sum_get_map f rs]
    rfl

theorem sum_fin_cons {M n : Nat} (F : (Fin (n + 1) → Fin M) → Nat) :
    ∑ t, F t = ∑ v : Fin M, ∑ t : Fin n → Fin M, F (Fin.cons v t) := by
  rw [← (Fin.consEquiv (fun _ : Fin (n + 1) => Fin M)).sum_comp, Fintype.sum_prod_type]
  rfl

theorem draws_succ (wt : R → Nat) (rs : List R) (n : Nat) (g : List R → Nat) :
    draws wt rs (n + 1) g = (rs.map (fun r => wt r * draws wt rs n (fun l => g (r :: l)))).sum := by
  unfold draws
  rw [sum_fin_cons, ← sum_get_map]
  apply Finset.sum_congr rfl
  intro v _
  rw [Finset.mul_sum]
  apply Finset.sum_congr rfl
  intro t _
  rw [Fin.prod_univ_succ, List.ofFn_succ]
  simp only [Fin.cons_zero, Fin.cons_succ]
  ring

theorem draws_zero (wt : R → Nat) (rs : List R) (g : List R → Nat) : draws wt rs 0 g = g [] := by
  unfold draws; simp

theorem draws_perm (wt : R → Nat) {rs rs' : List R} (h : rs.Perm rs') : ∀ (n : Nat) (g : List R → Nat), draws wt rs n g = draws wt rs' n g
  | 0, g => by rw [draws_zero, draws_zero]
  | n + 1, g => by
    rw [draws_succ, draws_succ]
    simp only [draws_perm wt h n]
    exact (h.map _).sum_eq

/-- Streams of draws that each have the right law. -/
theorem tape_law {wt : R → Nat} {rs : List R} {M W : Nat} {c : Nat → R}
    (hc : ∀ h : R → Nat, W * ∑ v : Fin M, h (c v) = M * (rs.map (fun r => wt r * h r)).sum) : ∀ (n : Nat) (g : List R → Nat),
    W ^ n * ∑ t : Fin n → Fin M, g (List.ofFn (fun j => c (t j))) = M ^ n * draws wt rs n g
  | 0, g => by rw [draws_zero]; simp
  | n + 1, g => by
    rw [sum_fin_cons, draws_succ]
    have e : ∀ v : Fin M, ∑ t : Fin n → Fin M, g (List.ofFn (fun j => c ((Fin.cons v t : Fin (n + 1) → Fin M) j))) =
        ∑ t : Fin n → Fin M, g (c v :: List.ofFn (fun j => c (t j))) := by
      intro v
      apply Finset.sum_congr rfl
      intro t _
      rw [List.ofFn_succ]
      simp only [Fin.cons_zero, Fin.cons_succ]
    simp only [e]
    have h1 := hc (fun r => ∑ t : Fin n → Fin M, g (r :: List.ofFn (fun j => c (t j))))
    calc _ = W ^ n * (W * ∑ v : Fin M, ∑ t : Fin n → Fin M, g (c v :: List.ofFn (fun j => c (t j)))) := by rw [pow_succ]; ring
      _ = M * (rs.map (fun r => wt r * (W ^ n * ∑ t : Fin n → Fin M, g (r :: List.ofFn (fun j => c (t j)))))).sum := by
        rw [h1, Nat.mul_left_comm, ← List.sum_map_mul_left]
        congr 2
        apply List.map_congr_left
        intro r _
        ring
      _ = M * (rs.map (fun r => wt r * (M ^ n * draws wt rs n (fun l => g (r :: l))))).sum := by
        congr 2
        apply List.map_congr_left
        intro r _
        rw [tape_law hc n (fun l => g (r :: l))]
      _ = _ := by
        rw [pow_succ, Nat.mul_comm (M ^ n) M, Nat.mul_assoc]
        congr 1
        rw [← List.sum_map_mul_left]
        congr 1
        apply List.map_congr_left
        intro r _
        ring

theorem flatMap_single {n M : Nat} {p : Nat → List (Wrapped R)} {c : Nat → Wrapped R} (hp : ∀ v, p v = [c v]) (t : Fin n → Fin M) :
    ((List.range n).flatMap (fun j => p (tapeOf t (0 + j)))).map Wrapped.record = List.ofFn (fun j => (c (t j)).record) := by
  simp only [hp]
  have : ∀ l : List Nat, (l.flatMap (fun j => [c (tapeOf t (0 + j))])).map Wrapped.record = l.map (fun j => (c (tapeOf t (0 + j))).record) := by
    intro l
    induction l with
    | nil => rfl
    | cons a l ih => simp only [List.flatMap_cons, List.map_append, ih]; rfl
  rw [this]
  apply List.ext_getElem
  · simp
  · intro i h1 h2
    have hi : i < n := by simpa using h1
    simp only [List.getElem_map, List.getElem_range, Nat.zero_add, List.getElem_ofFn]
    unfold tapeOf
    rw [dif_pos hi]

end
end DE
