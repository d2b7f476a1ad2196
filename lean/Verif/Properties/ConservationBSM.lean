import Verif.Proofs.BSMNet
import Verif.Proofs.Instances

/-!
C03 (conservation for BSM): false in general, true as long as no flushed buffer cancels out completely.
-/

namespace DE
variable {R K : Type} [LinearOrder R] [LinearOrder K] [HasKey R K] [Inhabited R]

/-- C03, restricted to histories none of whose buffer-filling blocks of `lwm` operations nets out to nothing. -/
theorem C03_partial {pq : PQ R} {lb : LB R K} {lwm hwm sf : Nat} {d0 d : Index R} {ops : List (Index.Op R)} {bs : List Bool}
    (hnew : Index.new .bsm false (sortedImpl pq lb) lwm hwm sf = .ok d0) (hlwm : 1 ≤ lwm)
    (hblk : NoVoidBlock lwm ops) (hrun : d0.run ops = .ok (d, bs)) :
    (∀ r, liveCount r d.entries + delCount r ops = tombCount r d.entries + insCount r ops) ∧
    ∀ x ∈ d.entries, x.del = false := by
  have hsf : 0 < sf := by
    obtain ⟨-, -, -, h⟩ := new_ok hnew
    have := h rfl; omega
  obtain ⟨h1, h2, h3, h4, h5, -⟩ := new_ginv hnew hlwm hsf
  obtain ⟨hd, -⟩ := new_ok hnew
  obtain ⟨a, b, -⟩ := grun_net h1 (h4 ▸ sortedImpl_conserving pq lb) (h4 ▸ sortedImpl_lookupSound pq lb) h3 h5
    (by rw [hd]; rfl) (fun _ => by rw [hd]; exact hblk) hrun
  exact ⟨b, a⟩

/-- C03 for every history when the low watermark is odd (a block of odd length cannot net out). -/
theorem C03_odd_watermark_partial {pq : PQ R} {lb : LB R K} {lwm hwm sf : Nat} {d0 d : Index R} {ops : List (Index.Op R)}
    {bs : List Bool} (hnew : Index.new .bsm false (sortedImpl pq lb) lwm hwm sf = .ok d0) (hodd : lwm % 2 = 1)
    (hrun : d0.run ops = .ok (d, bs)) :
    (∀ r, liveCount r d.entries + delCount r ops = tombCount r d.entries + insCount r ops) ∧
    ∀ x ∈ d.entries, x.del = false :=
  C03_partial hnew (by omega) (noVoid_odd hodd ops) hrun

/-- The history that loses records: the third flushed buffer is `insert 5, erase 5`. -/
def lossHist : List (Index.Op Rec) := insSeq 1 5 ++ [.del ⟨5, 5⟩, .ins ⟨6, 6⟩, .ins ⟨7, 7⟩, .ins ⟨8, 8⟩]

/-- C03 is false: after `lossHist` on a BSM index with watermarks 2 every operation returned 1, yet the inserted and
never erased record 6 is stored nowhere. -/
theorem C03_false : ∃ (d0 d : Index Rec) (bs : List Bool), mk .bsm false 2 2 2 = .ok d0 ∧ d0.run lossHist = .ok (d, bs) ∧
    bs.all id = true ∧ delCount ⟨6, 6⟩ lossHist = 0 ∧ insCount ⟨6, 6⟩ lossHist = 1 ∧
    liveCount (⟨6, 6⟩ : Rec) d.entries = 0 ∧ ¬ NoVoidBlock 2 lossHist := by
  have h : probe .bsm false 2 2 2 lossHist (fun p => .ok (p.2.all id, liveCount (⟨6, 6⟩ : Rec) p.1.entries)) =
      .ok (true, 0) := by decide
  obtain ⟨d0, d, bs, h1, h2, h3⟩ := probe_ok h
  have h3 := Except.ok.inj h3
  refine ⟨d0, d, bs, h1, h2, congrArg Prod.fst h3, by decide, by decide, congrArg Prod.snd h3, ?_⟩
  intro hn
  obtain ⟨r, hr⟩ := hn 2 (by decide)
  apply hr
  have e : (lossHist.drop (2 * 2)).take 2 = [.ins ⟨5, 5⟩, .del ⟨5, 5⟩] := by decide
  rw [e]
  by_cases h5 : (⟨5, 5⟩ : Rec) = r <;> simp [insCount, delCount, List.count_cons, h5]

/-- Non-vacuous: with an odd watermark a BSM index with cancellations runs through several merges. -/
example : probe .bsm false 3 3 2 (insSeq 1 5 ++ [.del ⟨5, 5⟩] ++ insSeq 6 13)
    (fun p => .ok (p.2.all id, p.1.height, p.1.recordCount)) = .ok (true, 4, 17) := by decide

end DE
