import Verif.Spec

/-! Specification vocabulary for an index used as a set of strings. -/

namespace DE
variable {R S : Type} [LinearOrder R] [LinearOrder S] [HasKey R S]

/-- Every string is spelled by one record; it is inserted at most once and not erased before that. -/
structure OneSpelling (S : Type) [LinearOrder S] [HasKey R S] (ops : List (Index.Op R)) : Prop where
  same : ∀ r x : R, (.ins r ∈ ops ∨ .del r ∈ ops) → (.ins x ∈ ops ∨ .del x ∈ ops) → key (K := S) r = key x → r = x
  once : ∀ r, insCount r ops ≤ 1
  order : ∀ p r, p ++ [.ins r] <+: ops → .del r ∉ p

/-- What a lookup should return: the record with the string, if it was inserted and not erased. -/
def dictAnswer (ops : List (Index.Op R)) (k : S) : List R :=
  (inserted ops).filter (fun r => decide (key r = k ∧ .del r ∉ ops))

/-- Number of erases in a history. -/
def eraseCount {R : Type} : List (Index.Op R) → Nat
  | [] => 0
  | .ins _ :: os => eraseCount os
  | .del _ :: os => eraseCount os + 1

end DE
