import Verif.Model.Query
import Mathlib.Data.Nat.Basic

/-!
Concrete instances of the external parameters, used only to show that the theorems' hypotheses can be
met and for the concrete runs that refute properties.
-/

namespace DE
variable {R : Type} [LinearOrder R]

/-- Pop order: `Wrapped::operator<`, ties by version. -/
def before (a b : Wrapped R × Nat) : Bool :=
  decide (Wrapped.lt a.1 b.1) || (!decide (Wrapped.lt b.1 a.1) && decide (a.2 < b.2))

/-- Insert into a pop-ordered list. -/
def pqInsert (x : Wrapped R × Nat) : List (Wrapped R × Nat) → List (Wrapped R × Nat)
  | [] => [x]
  | y :: ys => if before x y then x :: y :: ys else y :: pqInsert x ys

/-- Insertion sort. -/
def pqSort : List (Wrapped R × Nat) → List (Wrapped R × Nat)
  | [] => []
  | x :: xs => pqInsert x (pqSort xs)

omit [LinearOrder R] in
theorem perm_swap_helper {α : Type} (x y : α) (l l' : List α) (h : l'.Perm (x :: l)) :
    (y :: l').Perm (x :: y :: l) := (h.cons y).trans (List.Perm.swap x y l)

theorem pqInsert_perm (x : Wrapped R × Nat) : ∀ l, (pqInsert x l).Perm (x :: l)
  | [] => by simp [pqInsert]
  | y :: ys => by
    rw [pqInsert]
    split
    · exact List.Perm.refl _
    · exact perm_swap_helper _ _ _ _ (pqInsert_perm x ys)

theorem pqSort_perm : ∀ l : List (Wrapped R × Nat), (pqSort l).Perm l
  | [] => List.Perm.refl _
  | x :: xs => (pqInsert_perm x _).trans ((pqSort_perm xs).cons x)

/-- A queue that pops in the order of `Wrapped::operator<`. -/
def PQ.std : PQ R where
  arrange _ l := pqSort l
  perm _ l := pqSort_perm l

/-- Pop order: record, then version. -/
def beforeV (a b : Wrapped R × Nat) : Bool :=
  decide (a.1.record < b.1.record) || (decide (a.1.record = b.1.record) && decide (a.2 < b.2))

/-- Insert into a pop-ordered list. -/
def pqInsertV (x : Wrapped R × Nat) : List (Wrapped R × Nat) → List (Wrapped R × Nat)
  | [] => [x]
  | y :: ys => if beforeV x y then x :: y :: ys else y :: pqInsertV x ys

/-- Insertion sort. -/
def pqSortV : List (Wrapped R × Nat) → List (Wrapped R × Nat)
  | [] => []
  | x :: xs => pqInsertV x (pqSortV xs)

theorem pqInsertV_perm (x : Wrapped R × Nat) : ∀ l, (pqInsertV x l).Perm (x :: l)
  | [] => by simp [pqInsertV]
  | y :: ys => by
    rw [pqInsertV]
    split
    · exact List.Perm.refl _
    · exact perm_swap_helper _ _ _ _ (pqInsertV_perm x ys)

theorem pqSortV_perm : ∀ l : List (Wrapped R × Nat), (pqSortV l).Perm l
  | [] => List.Perm.refl _
  | x :: xs => (pqInsertV_perm x _).trans ((pqSortV_perm xs).cons x)

/-- A queue that breaks ties by version. -/
def PQ.stdV : PQ R where
  arrange _ l := pqSortV l
  perm _ l := pqSortV_perm l

/-- A linear-scan `get_lower_bound`. -/
def LB.scan {K : Type} [LinearOrder K] [HasKey R K] : LB R K := fun data k => .ok (lowerBoundSpec k data)

/-- Key-value records of the witnesses. -/
abbrev Rec := Record Nat Nat

instance : Inhabited Rec := ⟨⟨0, 0⟩⟩

/-- Sorted shard with the concrete queue and search. -/
def stdImpl : ShardImpl Rec := sortedImpl PQ.std LB.scan

/-- A fresh index of the witnesses. -/
def mk (L : Layout) (tagging : Bool) (lwm hwm sf : Nat) : Res (Index Rec) := Index.new L tagging stdImpl lwm hwm sf

/-- Run a history on a fresh index and look at the result. -/
def probe {α : Type} (L : Layout) (tagging : Bool) (lwm hwm sf : Nat) (ops : List (Index.Op Rec))
    (f : Index Rec × List Bool → Res α) : Res α := do
  let d ← mk L tagging lwm hwm sf
  let p ← d.run ops
  f p

/-- Inserts of `n, n+1, ...` (`k` of them), value = key. -/
def insSeq : Nat → Nat → List (Index.Op Rec)
  | _, 0 => []
  | n, k+1 => .ins ⟨n, n⟩ :: insSeq (n+1) k

end DE
