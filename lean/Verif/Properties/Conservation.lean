import Verif.Proofs.Run
import Verif.Proofs.Instances

/-!
C02 (conservation for leveling and tiering).
-/

namespace DE
variable {R K : Type} [LinearOrder R] [LinearOrder K] [HasKey R K] [Inhabited R]

/-- C02: with tombstone deletes, for every record, stored live copies minus stored tombstones equals inserts
minus erases (written additively), after any history with any number of flushes and reconstructions, for any
priority queue behaviour; and nothing stored is tagged. -/
theorem C02_conservation {L : Layout} (hL : L = .leveling ∨ L = .tiering) {pq : PQ R} {lb : LB R K}
    {lwm hwm sf : Nat} {d0 d : Index R} {ops : List (Index.Op R)} {bs : List Bool}
    (hnew : Index.new L false (sortedImpl pq lb) lwm hwm sf = .ok d0) (hlwm : 1 ≤ lwm) (hsf : 1 ≤ sf)
    (hrun : d0.run ops = .ok (d, bs)) :
    (∀ r, liveCount r d.entries + delCount r ops = tombCount r d.entries + insCount r ops) ∧
    ∀ x ∈ d.entries, x.del = false := by
  have hL' : L ≠ .bsm := by rcases hL with rfl | rfl <;> decide
  obtain ⟨h1, h2, h3, h4, h5⟩ := new_inv hL' hnew hlwm hsf
  obtain ⟨⟨a, b⟩, -⟩ := run_net h1 (h4 ▸ sortedImpl_conserving pq lb) (h4 ▸ sortedImpl_lookupSound pq lb) h3 h5 hrun
  exact ⟨b, a⟩

/-- Non-vacuous: a history with flushes, merges, a cancellation and a repeated insert. -/
example : probe .leveling false 2 2 2 (insSeq 0 2 ++ [.del ⟨0, 0⟩] ++ insSeq 5 9 ++ [.ins ⟨5, 5⟩])
    (fun p => .ok (p.2.length, p.1.height, p.1.recordCount)) = .ok (13, 2, 11) := by decide

end DE
