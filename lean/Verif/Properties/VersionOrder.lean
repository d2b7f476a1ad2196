import Verif.Proofs.ConcOrder
import Verif.Properties.Full

/-!
C103: versions are seen in the order in which they are published. Any layout, any shard type, inserts and erases with tombstones, any
number of threads, any execution (writers may have claimed slots they have not written yet).
-/

namespace DE.Full
open Conc (Par Slot Ch)
variable {R : Type} [Inhabited R]

/-- What a thread has pinned: the epoch whose structure `get_height` and the queries read. -/
def Pins (s : St R) (i e : Nat) : Prop := ∃ t, s.base.thr[i]? = some t ∧ t.ep = some e

/-- The thread is between two calls. -/
def Idle (s : St R) (i : Nat) : Prop := ∃ t, s.base.thr[i]? = some t ∧ t.pc = .idle

theorem Idle.free {C : Cfg R} (hw : 0 < C.P.hwm) {n : Nat} {ok : Conc.St → Nat → Prop} {s : St R} (h : Reach C n ok s) {i : Nat} {t : Conc.Th}
    (hi : s.base.thr[i]? = some t) (ht : t.pc = .idle) : t.ep = none := by
  have := ((h.base.inv hw).thread hi).1
  unfold Conc.LocPc at this
  rw [ht] at this
  exact this.1

/-- C103. A call that begins (state `s1`, thread `j` idle) after another call has pinned its epoch (state `s0`) works on a version that
is at least as new: it has at least as many levels, and everything that had been flushed into the older version has been flushed into
it. The older version has not been touched. -/
theorem C103_order {C : Cfg R} (hw : 0 < C.P.hwm) {n : Nat} {ok : Conc.St → Nat → Prop} {s0 s1 s2 : St R} (h0 : Reach C n ok s0)
    (h1 : Later C ok s0 s1) (h2 : Later C ok s1 s2) {i j e0 e : Nat} (hi : Pins s0 i e0) (hj : Idle s1 j) (hp : Pins s2 j e) :
    e0 ≤ e ∧ (s0.vs e0).height ≤ (s2.vs e).height ∧ s0.base.estr e0 <+: s2.base.estr e ∧ s2.vs e0 = s0.vs e0 := by
  obtain ⟨t0, ht0, he0⟩ := hi
  obtain ⟨t1, ht1, hid⟩ := hj
  obtain ⟨t2, ht2, he⟩ := hp
  have hr1 := h1.reach h0
  have hr2 := h2.reach hr1
  have hv0 := h0.vord hw
  have hv2 := hr2.vord hw
  have hle0 : e0 ≤ Conc.pub s0.base := hv0.ord.pin t0 (List.mem_of_getElem? ht0) e0 he0
  obtain ⟨a1, -, -⟩ := h1.fresh hw h0
  obtain ⟨-, b2, -⟩ := (h1.trans h2).fresh hw h0
  obtain ⟨-, -, c3⟩ := h2.fresh hw hr1
  obtain ⟨u, hu, hf⟩ := c3 j t1 ht1 (Idle.free hw hr1 ht1 hid) (by rw [hid]; exact fun h => h)
  rw [ht2] at hu; cases hu
  have hle : e0 ≤ e := (hle0.trans a1).trans (hf.pin e he)
  have hlt : e < s2.base.nextId := by
    obtain ⟨ph, hph⟩ := (hr2.base.inv hw).some_phase
    exact (((hr2.base.inv hw).core ph hph).alive (v := s2.base.sv) (Conc.H_pos ht2 he)).2
  obtain ⟨d1, d2⟩ := b2 e0 hle0
  refine ⟨hle, ?_, ?_, d1⟩
  · rw [← d1]; exact hv2.height e0 e hle hlt
  · rw [← d2]; exact hv2.slots e0 e hle hlt

/-- C103, after a reconstruction: once an epoch has become the current one, no call that begins later works on an older version. -/
theorem C103_published {C : Cfg R} (hw : 0 < C.P.hwm) {n : Nat} {ok : Conc.St → Nat → Prop} {s1 s2 : St R} (h1 : Reach C n ok s1)
    (h2 : Later C ok s1 s2) {j e1 e : Nat} (hc : s1.base.cur.ep = some e1) (hj : Idle s1 j) (hp : Pins s2 j e) :
    e1 ≤ e ∧ (s1.vs e1).height ≤ (s2.vs e).height ∧ s1.base.estr e1 <+: s2.base.estr e := by
  obtain ⟨t1, ht1, hid⟩ := hj
  obtain ⟨t2, ht2, he⟩ := hp
  have hr2 := h2.reach h1
  have hv1 := h1.vord hw
  have hv2 := hr2.vord hw
  have hcur := hv1.ord.cur e1 hc
  obtain ⟨-, b2, c3⟩ := h2.fresh hw h1
  obtain ⟨u, hu, hf⟩ := c3 j t1 ht1 (Idle.free hw h1 ht1 hid) (by rw [hid]; exact fun h => h)
  rw [ht2] at hu; cases hu
  have hle : e1 ≤ e := hcur ▸ hf.pin e he
  have hlt : e < s2.base.nextId := by
    obtain ⟨ph, hph⟩ := (hr2.base.inv hw).some_phase
    exact (((hr2.base.inv hw).core ph hph).alive (v := s2.base.sv) (Conc.H_pos ht2 he)).2
  obtain ⟨d1, d2⟩ := b2 e1 hcur.le
  refine ⟨hle, ?_, ?_⟩
  · rw [← d1]; exact hv2.height e1 e hle hlt
  · rw [← d2]; exact hv2.slots e1 e hle hlt

/-- The hypotheses of `C103_order`, and what it gives: the first call sees no level, the second one level. -/
example : ∃ s0 s2, Reach (C12 .tiering) 4 Conc.any s0 ∧ Later (C12 .tiering) Conc.any s0 s2 ∧ Pins s0 1 0 ∧ Idle s0 3 ∧ Pins s2 3 1 ∧ Pins s2 1 0 ∧
    (s0.vs 0).height = 0 ∧ (s2.vs 1).height = 1 ∧ s2.base.cur.ep = some 1 := by
  obtain ⟨s0, s, h1, h2, h3⟩ := later_of (C := C12 .tiering) (n := 4) Conc.anyB (ok := Conc.any) (fun _ _ _ => trivial)
    (Conc.insLow 0 11 ++ Conc.insSched 0 10 ++ Conc.query 1) (Conc.job1 2 2 ++ Conc.query 3)
    (fun s0 s => decide ((s0.base.thr[1]?).map Conc.Th.ep = some (some 0) ∧ (s0.base.thr[3]?).map Conc.Th.pc = some .idle ∧
      (s.base.thr[3]?).map Conc.Th.ep = some (some 1) ∧ (s.base.thr[1]?).map Conc.Th.ep = some (some 0) ∧
      (s0.vs 0).height = 0 ∧ (s.vs 1).height = 1 ∧ s.base.cur.ep = some 1)) (by decide)
  rw [decide_eq_true_eq] at h3
  obtain ⟨a1, a2, a3, a4, a5⟩ := h3
  rw [Option.map_eq_some_iff] at a1 a2 a3 a4
  exact ⟨s0, s, h1, h2, a1, a2, a3, a4, a5⟩

/-- Calls that overlap are not ordered: thread 3, which began its call while the epochs were exchanged, pins epoch 0 after thread 1 has
pinned epoch 1. -/
theorem C103_overlap : ∃ s0 s2, Reach (C12 .tiering) 4 Conc.any s0 ∧ Later (C12 .tiering) Conc.any s0 s2 ∧ Pins s0 1 1 ∧ ¬ Idle s0 3 ∧ ¬ Pins s0 3 0 ∧
    Pins s2 3 0 ∧ (s0.vs 1).height = 1 ∧ (s2.vs 0).height = 0 := by
  obtain ⟨s0, s, h1, h2, h3⟩ := later_of (C := C12 .tiering) (n := 4) Conc.anyB (ok := Conc.any) (fun _ _ _ => trivial)
    (Conc.insLow 0 11 ++ Conc.insSched 0 10 ++ [(2, .work)] ++ Conc.gos 2 16 ++ [(3, .query)] ++ Conc.gos 3 2 ++ Conc.gos 2 12 ++ Conc.query 1)
    (Conc.gos 3 1)
    (fun s0 s => decide ((s0.base.thr[1]?).map Conc.Th.ep = some (some 1) ∧ ((s0.base.thr[3]?).map Conc.Th.pc ≠ some .idle ∧
      (s0.base.thr[3]?).map Conc.Th.ep ≠ some (some 0)) ∧
      (s.base.thr[3]?).map Conc.Th.ep = some (some 0) ∧ (s0.vs 1).height = 1 ∧ (s.vs 0).height = 0)) (by decide)
  rw [decide_eq_true_eq] at h3
  obtain ⟨a1, ⟨a2, a3⟩, a4, a5⟩ := h3
  rw [Option.map_eq_some_iff] at a1 a4
  refine ⟨s0, s, h1, h2, a1, fun h => a2 ?_, fun h => a3 ?_, a4, a5⟩
  · rw [Option.map_eq_some_iff]; exact h
  · rw [Option.map_eq_some_iff]; exact h

end DE.Full
