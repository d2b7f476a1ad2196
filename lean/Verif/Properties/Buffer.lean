import Verif.Proofs.Run
import Verif.Proofs.BufferRun
import Verif.Proofs.Instances

/-!
C01 (serial inserts succeed) and C41 (buffer views read back what was appended).
-/

namespace DE
variable {R : Type}

/-- C01: on a fresh index with `1 ≤ lwm`, in every history that runs, every insert returns 1, and with tombstone
deletes every erase does too. Any layout, shard class, scale factor. -/
theorem C01_serial_inserts_succeed [DecidableEq R] [Inhabited R] {L : Layout} {tagging : Bool} {I : ShardImpl R}
    {lwm hwm sf : Nat} {d0 d : Index R} {ops : List (Index.Op R)} {bs : List Bool}
    (hnew : Index.new L tagging I lwm hwm sf = .ok d0) (hlwm : 1 ≤ lwm) (hrun : d0.run ops = .ok (d, bs)) :
    bs.length = ops.length ∧
    (∀ (i : Nat) (r : R), ops[i]? = some (.ins r) → bs[i]? = some true) ∧
    (tagging = false → ∀ (i : Nat) (r : R), ops[i]? = some (.del r) → bs[i]? = some true) := by
  obtain ⟨rfl, -⟩ := new_ok hnew
  obtain ⟨-, -, -, -, hlen, hall⟩ := run_buf ops (new_buf hnew hlwm) hrun
  have get : ∀ (i : Nat) (o : Index.Op R), ops[i]? = some o → ((∃ r, o = .ins r) ∨ tagging = false) → bs[i]? = some true := by
    intro i o ho hc
    have hi : i < bs.length := by
      rw [hlen]
      exact (List.getElem?_eq_some_iff.mp ho).1
    have := hall i o bs[i] ho (List.getElem?_eq_getElem hi) hc
    rw [List.getElem?_eq_getElem hi, this]
  exact ⟨hlen, fun i r h => get i _ h (Or.inl ⟨r, rfl⟩), fun ht i r h => get i _ h (Or.inr ht)⟩

/-- Non-vacuous: 20 inserts and an erase, several flushes on every layout. -/
example : probe .tiering false 2 3 2 (insSeq 0 20 ++ [.del ⟨3, 3⟩]) (fun p => .ok (p.2, p.1.height)) =
    .ok (List.replicate 21 true, 3) := by decide
example : probe .leveling true 2 3 2 (insSeq 0 20 ++ [.del ⟨3, 3⟩]) (fun p => .ok (p.2, p.1.height)) =
    .ok (List.replicate 21 true, 3) := by decide
example : probe .bsm false 2 3 2 (insSeq 0 20 ++ [.del ⟨3, 3⟩]) (fun p => .ok (p.2, p.1.height)) =
    .ok (List.replicate 21 true, 5) := by decide

/-- The condition `1 ≤ lwm` is needed: with `lwm = 0` the first insert already aborts. -/
theorem C01_lwm_zero : probe .tiering false 0 3 2 (insSeq 0 1) (fun p => .ok p.2) = .error .abort := by decide

/-! ### C41 -/

/-- C41: after any history of appends and head advances (any ring position), a view reads back exactly the
queue of appended records since the head, in order, by `get` and by `copy_to_buffer`; every slot index is
inside the allocation. -/
theorem C41_view_reads_back [Inhabited R] {lwm hwm : Nat} {b0 b : Buffer R} {ops : List (BufOp R)}
    (hnew : Buffer.new lwm hwm = .ok b0) (hrun : runBuf b0 ops = .ok b) :
    ∃ l : List (Wrapped R), b.view.gets = .ok l ∧ b.view.copyOut = .ok l ∧
      l.map (fun w => (w.record, w.isTombstone)) = queueSpec hwm [] ops ∧
      b.view.count = (queueSpec hwm [] ops).length ∧
      ∀ i < b.view.count, b.view.toIdx i < b.cap := by
  unfold Buffer.new at hnew
  simp only [bind_ok, assertC_ok, decide_eq_true_eq] at hnew
  obtain ⟨-, h1, -, h2, h3⟩ := hnew
  cases h3
  obtain ⟨hwf, hq⟩ := runBuf_spec (q := []) ops
    (b := { lwm, hwm, cap := 2 * hwm, tail := 0, head := 0, data := fun _ => default, tscnt := 0 })
    ⟨rfl, by simp only; omega, h2, le_refl _, by simp, by simp [Buffer.contents]⟩ rfl hrun
  refine ⟨b.contents, Buffer.view_gets hwf, Buffer.view_copyOut hwf, hq, ?_, ?_⟩
  · rw [← hq]; simp [Buffer.contents_length, View.count, Buffer.view]
  · intro i hi
    have hi' : i < b.tail - b.head := hi
    have := hwf.cnt_lt
    rw [toIdx_eq _ hwf.cap_pos (by show i < b.cap; omega)]
    exact Nat.mod_lt _ hwf.cap_pos

/-- A wrapped-around view: 3 of 4 slots, ring of 8, after 6 consumed. -/
example : (Buffer.new 3 4 >>= fun (b : Buffer Nat) =>
    runBuf b [.app 1 false, .app 2 false, .app 3 false, .adv 3, .app 4 false, .app 5 false, .app 6 false, .adv 3,
              .app 7 false, .app 8 true, .app 9 false] >>= fun b =>
    b.view.copyOut >>= fun l => .ok (l.map (fun w => (w.record, w.isTombstone)), b.view.start, b.view.stop)) =
    .ok ([(7, false), (8, true), (9, false)], 6, 1) := by decide

end DE
