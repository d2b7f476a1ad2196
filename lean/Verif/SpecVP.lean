import Verif.Model.VPTree
import Verif.Spec

/-!
Specification vocabulary for the VPTree and k-nearest-neighbour properties.
-/

namespace DE
variable {R 𝔽 : Type}

namespace VP
variable [LinearOrder 𝔽]

/-- The record array of a pointer array. -/
def recs (a : List (Ptr R 𝔽)) (i : Nat) : Option R := (a[i]?).map Ptr.record

/-- The positions of the pointer array a tree refers to: one per vantage point and those of the leaves. -/
def Node.indices : Node 𝔽 → List Nat
  | .null => []
  | .leaf start stop => List.range' start (stop + 1 - start)
  | .node start _ inside outside => start :: (inside.indices ++ outside.indices)

/-- Inside a vantage point distances are at most the radius, outside at least. `f` is the record array. -/
def Node.Split (dist : R → R → 𝔽) (f : Nat → Option R) : Node 𝔽 → Prop
  | .null => True
  | .leaf _ _ => True
  | .node start radius inside outside => (∃ v, f start = some v ∧ (∀ x ∈ inside.indices, ∀ y, f x = some y → dist v y ≤ radius) ∧
      (∀ x ∈ outside.indices, ∀ y, f x = some y → radius ≤ dist v y)) ∧ inside.Split dist f ∧ outside.Split dist f

/-- Leaves are non-empty and have at most `leafSz + 1` records. -/
def Node.LeafOk (leafSz : Nat) : Node 𝔽 → Prop
  | .null => True
  | .leaf start stop => start ≤ stop ∧ stop - start ≤ leafSz
  | .node _ _ inside outside => inside.LeafOk leafSz ∧ outside.LeafOk leafSz

end VP

variable [LinearOrder 𝔽]

/-- Specification: `res` is a choice of `k` records of `data` with smallest value of `f` (all of them if fewer). -/
def KNearest (k : Nat) (f : R → 𝔽) (data res : List R) : Prop :=
  ∃ rest, data.Perm (res ++ rest) ∧ res.length = min k data.length ∧ ∀ x ∈ res, ∀ y ∈ rest, f x ≤ f y

/-- What the k-NN functions return: the `k` nearest, farthest first. -/
def KAnswer (k : Nat) (f : R → 𝔽) (data res : List R) : Prop := KNearest k f data res ∧ res.Pairwise (fun a b => f b ≤ f a)

/-- `res` is a choice of `k` records of `data` (all if fewer), and no record left out is closer than one returned by more than `slack`. -/
def KApprox [Add 𝔽] (k : Nat) (f : R → 𝔽) (slack : 𝔽) (data res : List R) : Prop :=
  ∃ rest, data.Perm (res ++ rest) ∧ res.length = min k data.length ∧ ∀ x ∈ res, ∀ y ∈ rest, f x ≤ f y + slack

/-- The records a k-NN query looks at: untagged ones of the buffer and everything in the shards. -/
def Index.knnData (d : Index R) : List R :=
  (d.buf.contents.filter (fun w => !w.isDeleted)).map Wrapped.record ++ (d.str.visible.map (fun s => s.data.map Wrapped.record)).flatten

/-- A pseudo-metric: symmetric and satisfying the triangle inequality. -/
structure Metric [Add 𝔽] (dist : R → R → 𝔽) : Prop where
  symm : ∀ x y, dist x y = dist y x
  tri : ∀ x y z, dist x z ≤ dist x y + dist y z

end DE
