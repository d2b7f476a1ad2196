import Verif.Model.Driver
import Verif.Spec

/-!
What a user promises about their own shard class and query class. Nothing here mentions levels, buffers or the driver: the
promises are about one shard, one list of records, or a list of partial answers.
-/

namespace DE
variable {R W P LQ BQ LR Out : Type}

/-- What EARLY_ABORT leaves of a list of local results: everything after the first non-empty one is dropped. -/
def cutAfter : List (List LR) → List (List LR)
  | [] => []
  | r :: rs => if r.isEmpty then r :: cutAfter rs else r :: rs.map (fun _ => [])

/-- A decomposable search problem and a query class for it. `spec p A out`: `out` answers the query `p` on the stored entries
`A`. `pre p A` restricts what the class promises to cope with, `good` is a property of single shards.

* `Prepared`, `PreparedB`: a local query as `local_preproc` and `local_preproc_buffer` leave it;
* `Ready`, `ReadyB`: as `distribute_query` leaves it;
* `Part p A r`: `r` is a partial answer for the entries `A` alone;
* `Before p₀ p A out`, `After p₀ p A out`: what is known of the output before and after a round, `p₀` being the parameters of
  the caller and `p` those of the round. -/
structure Decomposition (Q : QueryClass R W P LQ BQ LR Out) (good : Shard R → Prop) (pre : P → Multiset (Entry R) → Prop)
    (spec : P → Multiset (Entry R) → List Out → Prop) where
  Prepared : P → Multiset (Entry R) → LQ → Prop
  PreparedB : P → Multiset (Entry R) → BQ → Prop
  Ready : P → Multiset (Entry R) → LQ → Prop
  ReadyB : P → Multiset (Entry R) → BQ → Prop
  Part : P → Multiset (Entry R) → List LR → Prop
  Before : P → P → Multiset (Entry R) → List Out → Prop
  After : P → P → Multiset (Entry R) → List Out → Prop
  /-- Preprocessing a buffer view that reads as `l`. -/
  preprocBuffer : ∀ v l p w, v.gets = .ok l → ∃ b w', Q.preprocBuffer v p w = .ok (b, w') ∧ PreparedB p (ents l) b
  /-- Preprocessing a shard. -/
  preproc : ∀ s p w, good s → ∃ q w', Q.preproc s p w = .ok (q, w') ∧ Prepared p (ents s.data) q
  /-- Distributing the query. -/
  distribute : ∀ p A As qs b w, pre p (A + As.sum) → PreparedB p A b → List.Forall₂ (Prepared p) As qs →
    ∃ p' qs' b' w', Q.distribute p qs b w = .ok ((p', qs', b'), w') ∧ ReadyB p' A b' ∧ List.Forall₂ (Ready p') As qs' ∧
      Before p p' (A + As.sum) []
  /-- The partial answer of the buffer. -/
  localBuffer : ∀ p A b w, ReadyB p A b → ∃ r b' w', Q.localBuffer b w = .ok ((r, b'), w') ∧ Part p A r ∧ ReadyB p A b'
  /-- The partial answer of a shard. -/
  localShard : ∀ s p q w, good s → Ready p (ents s.data) q →
    ∃ r q' w', Q.localShard s q w = .ok ((r, q'), w') ∧ Part p (ents s.data) r ∧ Ready p (ents s.data) q'
  /-- Partial answers combine to an answer for the union. -/
  combine : ∀ p₀ p As rs out, pre p₀ As.sum → Before p₀ p As.sum out → List.Forall₂ (Part p) As rs →
    ∃ out', Q.combine (if Q.earlyAbort then cutAfter rs else rs) p out = .ok out' ∧ After p₀ p As.sum out'
  /-- Stopping is right, or another round can start. -/
  again : ∀ p₀ p A As out qs b w, pre p₀ (A + As.sum) → After p₀ p (A + As.sum) out → ReadyB p A b → List.Forall₂ (Ready p) As qs →
    ∃ o w', Q.again p out qs b w = .ok (o, w') ∧ (o = none → spec p₀ (A + As.sum) out) ∧
      ∀ p' qs' b', o = some (p', qs', b') → Before p₀ p' (A + As.sum) out ∧ ReadyB p' A b' ∧ List.Forall₂ (Ready p') As qs'

/-- `good` holds of every shard the class constructs and survives tagging. -/
structure ShardImpl.Keeps (I : ShardImpl R) (good : Shard R → Prop) : Prop where
  build : ∀ v s, I.build v = .ok s → good s
  merge : ∀ (os : List (Option (Shard R))) s, (∀ x, some x ∈ os → good x) → I.merge os = .ok s → good s
  tag : ∀ (s : Shard R) j, good s → good { s with data := s.data.modify j Wrapped.setDelete }

/-- A non-empty shard without tombstones and tagged records. -/
def Shard.Plain (s : Shard R) : Prop := s.data ≠ [] ∧ ∀ e ∈ ents s.data, e.tomb = false ∧ e.del = false

/-- The class never asks for another round. -/
def QueryClass.OneRound (Q : QueryClass R W P LQ BQ LR Out) : Prop :=
  ∀ p out qs b w o w', Q.again p out qs b w = .ok (o, w') → o = none

end DE
