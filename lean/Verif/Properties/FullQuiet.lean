import Verif.Properties.FullReads

/-!
C73 as the project's concurrent tests use it (tests/include/concurrent_extension.h, `t_debug_insert`, `t_insert_with_mem_merges`).
-/

namespace DE.Full
open Conc (Par Slot Ch)

/-- C73 for a call that no insert overlaps: whatever the reconstructions do in the background, `get_record_count` returns exactly the number of
inserts that have returned 1. That no insert overlaps: every slot claimed by the time it returns belongs to an insert that had returned before. -/
theorem C73_quiet {R : Type} [Inhabited R] {C : Cfg R} {Q : Shard R → Prop} (hI : GoodAny C.impl Q) (hio : C.InsOnly) (hw : 0 < C.P.hwm) (hsf : 0 < C.sf)
    {n : Nat} {s0 s : St R} (h0 : Reach C n Conc.any s0) (hl : Later C Conc.any s0 s) {i : Nat} {u t : Conc.Th} {e x : Nat}
    (hu : s0.base.thr[i]? = some u) (hun : u.hd = none) (hi : Holds s.base i t e x) (hq : s.base.claimed ⊆ s0.base.done) :
    (snapshot C s e x t.tl).recordCount = s0.base.done.length := by
  obtain ⟨h1, h2⟩ := C73_bounds hI hio hw hsf h0 hl hu hun hi
  have hnd : s.base.claimed.Nodup :=
    List.Nodup.of_map Prod.fst (Conc.C42_claims hw (hl.reach h0).base).2
  have := (hnd.subperm hq).length_le
  omega

/-- Two inserts have returned; the call runs while the buffer is flushed, and takes its view after that. -/
example : ∃ s0 s, Reach (C12 .tiering) 4 Conc.any s0 ∧ Later (C12 .tiering) Conc.any s0 s ∧ (∃ u, s0.base.thr[1]? = some u ∧ u.hd = none) ∧
    s.base.claimed ⊆ s0.base.done ∧ s0.base.done.length = 2 ∧
    Holds s.base 1 ⟨.run, some 1, some 2, 2⟩ 1 2 ∧ (snapshot (C12 .tiering) s 1 2 2).recordCount = 2 := by
  obtain ⟨s0, s, h1, h2, h3⟩ := later_of (C := C12 .tiering) (n := 4) Conc.anyB (ok := Conc.any) (fun _ _ _ => trivial)
    (Conc.insLow 0 11 ++ Conc.insSched 0 10) (Conc.job1 2 2 ++ Conc.query 1)
    (fun s0 s => decide ((s0.base.thr[1]?).any (fun u : Conc.Th => decide (u.hd = none)) = true ∧ s.base.claimed ⊆ s0.base.done ∧
      s0.base.done.length = 2 ∧ s.base.thr[1]? = some (⟨.run, some 1, some 2, 2⟩ : Conc.Th) ∧
      (snapshot (C12 .tiering) s 1 2 2).recordCount = 2)) (by decide)
  rw [decide_eq_true_eq] at h3
  obtain ⟨a1, a2, a3, a4, a5⟩ := h3
  rw [Option.any_eq_true] at a1
  obtain ⟨u, hu, hun⟩ := a1
  exact ⟨s0, s, h1, h2, ⟨u, hu, of_decide_eq_true hun⟩, a2, a3, ⟨a4, rfl, rfl, by simp⟩, a5⟩

end DE.Full
