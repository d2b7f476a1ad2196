import Verif.Model.Dynamic

/-!
The histories the project's own index tests run, tests/include/dynamic_extension.h. Random numbers are parameters.
-/

namespace DE.Own
variable {R : Type} [DecidableEq R]

/-- The random choices of one iteration of the loops of `t_tombstone_merging_01` and `t_static_structure`,
dynamic_extension.h 190-209, 289-308: the outcome of `gsl_rng_uniform(rng) < 0.05`, the records picked by `std::sample`,
and the outcome of `gsl_rng_uniform(rng) < 0.25`. -/
structure Choice (R : Type) where
  coin : Bool
  sample : List R
  mark : Bool

/-- The sets `to_delete` and `deleted`, and the operations performed so far. -/
structure LoopState (R : Type) where
  toDelete : List R := []
  deleted : List R := []
  ops : List (Index.Op R) := []

/-- The records erased in an iteration: the body of the first `if`, dynamic_extension.h 292-303. -/
def erased (st : LoopState R) (c : Choice R) : List R :=
  if c.coin && !st.toDelete.isEmpty then c.sample else []

/-- One iteration, dynamic_extension.h 289-308: insert the record, erase a sample of `to_delete`, then perhaps put the
record into `to_delete`. -/
def iterate (st : LoopState R) (r : R) (c : Choice R) : LoopState R :=
  let dels := erased st c
  let td := st.toDelete.filter (fun x => decide (x ∉ dels))
  let dl := st.deleted ++ dels
  { toDelete := if c.mark && decide (r ∉ dl) then td ++ [r] else td
    deleted := dl
    ops := st.ops ++ .ins r :: dels.map .del }

/-- The loop over the records of the set `records`. -/
def loop : LoopState R → List (R × Choice R) → LoopState R
  | st, [] => st
  | st, (r, c) :: its => loop (iterate st r c) its

/-- What `std::sample(first, last, out, 3, g)` guarantees: three different elements of the set, all of it if it is
smaller. -/
def SampleOk (pop out : List R) : Prop := out.Nodup ∧ (∀ x ∈ out, x ∈ pop) ∧ out.length = min 3 pop.length

/-- Every sample the loop draws is one `std::sample` may return. -/
def ChoicesOk : LoopState R → List (R × Choice R) → Prop
  | _, [] => True
  | st, (r, c) :: its => (c.coin = true → st.toDelete ≠ [] → SampleOk st.toDelete c.sample) ∧ ChoicesOk (iterate st r c) its

end DE.Own
