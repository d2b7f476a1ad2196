import Verif.Proofs.ConcHeap
import Verif.Properties.Full
import Verif.Properties.Ownership

/-!
C119: memory safety of the concurrent index. Under every interleaving of the client operations, the queries and the reconstruction
job, with levels and shards counted and freed as `shared_ptr` does and epochs deleted when they are retired.
-/

namespace DE.CH
open Conc (upd Ch)
open Full (Cfg)
variable {R : Type} [Inhabited R] {C : Cfg R} {n : Nat} {s s' : St R}
open Rc (RHeap)
open Snap (HStruct)

/-- The state with memory `s` and the state with values `f` agree: same threads and shared variables, and every epoch that exists reads
as the structure that it has when nothing is ever shared or freed. -/
structure Agree (s : St R) (f : Full.St R) : Prop where
  base : s.base = f.base
  val : ∀ e, s.base.alive e = true → Snap.read s.x.h (s.vs e) = f.vs e

omit [Inhabited R] in
theorem Good.agree {f : Full.St R} (g : Good s f) : Agree s f := ⟨g.base.symm, g.val⟩

/-- C119, sharing and freeing are invisible: every state of an execution with memory agrees with a state of an execution on values, whose
steps have the same outcomes (faults included) and lead to states that agree again. -/
theorem C119_refines (hw : 0 < C.P.hwm) (h : Reach C n s) : ∃ f, Full.Reach C n Conc.any f ∧ Agree s f ∧ ∀ i c,
    match Full.step C f i c with
    | .ok none => step C s i c = .ok none
    | .ok (some f') => ∃ s', step C s i c = .ok (some s') ∧ Agree s' f'
    | .error e => step C s i c = .error e := by
  obtain ⟨f, hf, g⟩ := h.good hw
  refine ⟨f, hf, g.agree, fun i c => ?_⟩
  have := g.step (h.base.inv hw) i c
  cases hfs : Full.step C f i c with
  | error e => rw [hfs] at this; exact this
  | ok o =>
    cases o with
    | none => rw [hfs] at this; exact this
    | some f' =>
      rw [hfs] at this
      obtain ⟨s', e, -, g'⟩ := this
      exact ⟨s', e, g'.agree⟩

theorem Good.all (hw : 0 < C.P.hwm) {f : Full.St R} (h : Full.Reach C n Conc.any f) : ∃ s, Reach C n s ∧ Good s f := by
  induction h with
  | init => exact ⟨_, .init, good_init C n⟩
  | @step f f' i c _ _ hs ih =>
    obtain ⟨s, hr, g⟩ := ih
    have := g.step (hr.base.inv hw) i c
    rw [hs] at this
    obtain ⟨s', e, -, g'⟩ := this
    exact ⟨s', .step hr e, g'⟩

/-- C119, conversely: whatever can happen on values can happen with memory. -/
theorem C119_complete (hw : 0 < C.P.hwm) {f : Full.St R} (h : Full.Reach C n Conc.any f) : ∃ s, Reach C n s ∧ Agree s f := by
  obtain ⟨s, hr, g⟩ := Good.all hw h
  exact ⟨s, hr, g.agree⟩

/-- C119, no use after free and no double free: the only step that can be undefined is the flush of a reconstruction whose merges are
undefined on the values of its version (which is what the properties of the shards exclude). -/
theorem C119_no_ub (hw : 0 < C.P.hwm) (h : Reach C n s) {i : Nat} {c : Ch} (hs : step C s i c = .error .ub) :
    ∃ t e p acc, s.base.thr[i]? = some t ∧ t.pc = .cp e p acc ∧ ¬ p < t.tl ∧
      Full.job C.L C.impl C.P.hwm (Snap.read s.x.h (s.vs e)) (Full.blockView C (t.hd.getD 0) acc) = .error .ub := by
  obtain ⟨f, hf, g⟩ := h.good hw
  have hinv := h.base.inv hw
  have := g.step hinv i c
  have hfs : Full.step C f i c = .error .ub := by
    cases hfs : Full.step C f i c with
    | error e => rw [hfs] at this; rw [show step C s i c = _ from this] at hs; cases hs; rfl
    | ok o =>
      rw [hfs] at this
      cases o with
      | none => rw [show step C s i c = _ from this] at hs; cases hs
      | some f' => obtain ⟨s', e, -⟩ := this; rw [e] at hs; cases hs
  unfold Full.step at hfs
  rw [g.base] at hfs
  cases hi : s.base.thr[i]? with
  | none => rw [hi] at hfs; cases hfs
  | some t =>
    rw [hi] at hfs
    simp only at hfs
    cases hb : Conc.step C.P s.base i c with
    | error e =>
      rw [hb] at hfs
      cases hfs
      exact absurd hb (hinv.no_ub)
    | ok o =>
      rw [hb] at hfs
      cases o with
      | none => cases hfs
      | some b =>
        have hs' : Conc.stepT C.P s.base i t c = .ok (some b) := by
          unfold Conc.step at hb
          rw [hi] at hb
          exact hb
        simp only [Rc.okb] at hfs
        rcases Conc.stepT_heap hi hs' with ⟨r, e, hpc, hep, -⟩ | ⟨e, p, acc, hpc, hlt, ha, -⟩ | ⟨e, y, hpc, -⟩ | ⟨q1, q2, -⟩
        · unfold Full.structs at hfs
          rw [hpc, hep] at hfs
          cases hfs
        · refine ⟨t, e, p, acc, rfl, hpc, hlt, ?_⟩
          unfold Full.structs at hfs
          rw [hpc] at hfs
          simp only [if_neg hlt] at hfs
          rw [g.val e ha]
          cases hj : Full.job C.L C.impl C.P.hwm (f.vs e) (Full.blockView C (t.hd.getD 0) acc) with
          | ok S => rw [hj] at hfs; cases hfs
          | error q => rw [hj] at hfs; cases hfs; rfl
        · unfold Full.structs at hfs
          rw [hpc] at hfs
          cases hfs
        · rw [Full.structs_other q1 q2] at hfs
          cases hfs

/-- C119, what a query uses is allocated: while a thread holds an epoch, all levels and shards of its version are allocated, and the
pointers it collects lead to exactly the shards of the version. -/
theorem C119_pinned (hw : 0 < C.P.hwm) (h : Reach C n s) {i e : Nat} {t : Conc.Th} (hi : s.base.thr[i]? = some t) (he : t.ep = some e) :
    ∃ ps, Rc.visit s.x (s.vs e).levels = .ok ps ∧ (∀ p ∈ ps, s.x.src p ≠ 0) ∧
      ps.map (fun a => s.x.h.shard (some a)) = (Snap.read s.x.h (s.vs e)).visible.map some := by
  obtain ⟨f, -, g⟩ := h.good hw
  exact Rc.visit_spec g.inv (fun a ha => g.mem ((h.base.inv hw).alive hi he) ha)

/-- Thread `i` holds epoch `e`. -/
def Pins (s : St R) (i e : Nat) : Prop := ∃ t, s.base.thr[i]? = some t ∧ t.ep = some e

/-- `s'` is reached from `s` by steps of any threads, thread `i` holding epoch `e` all the time. -/
inductive While (C : Cfg R) (i e : Nat) (s : St R) : St R → Prop
  | refl : Pins s i e → While C i e s s
  | step {s' s'' : St R} {j : Nat} {c : Ch} : While C i e s s' → step C s' j c = .ok (some s'') → Pins s'' i e → While C i e s s''

theorem While.reach (h : Reach C n s) {i e : Nat} (w : While C i e s s') : Reach C n s' ∧ Pins s' i e := by
  induction w with
  | refl p => exact ⟨h, p⟩
  | step _ hs p ih => exact ⟨.step ih.1 hs, p⟩

omit [Inhabited R] in
theorem visit_same {x y : RHeap R} : ∀ {as ps qs : List Nat}, (∀ a ∈ as, y.h.lv[a]? = x.h.lv[a]?) → Rc.visit x as = .ok ps → Rc.visit y as = .ok qs → ps = qs
  | [], _, _, _, h1, h2 => by cases h1; cases h2; rfl
  | a :: as, ps, qs, h, h1, h2 => by
    unfold Rc.visit at h1 h2
    rw [DE.bind_ok] at h1 h2
    obtain ⟨l, u1, h1⟩ := h1
    obtain ⟨l', u2, h2⟩ := h2
    have hl : l = l' := by
      unfold Rc.useL at u1 u2
      split at u1
      · cases u1
      · split at u2
        · cases u2
        · have e1 := Rc.getR_some u1
          have e2 := Rc.getR_some u2
          rw [h a List.mem_cons_self, e1] at e2
          cases e2; rfl
    subst hl
    rw [DE.bind_ok] at h1 h2
    obtain ⟨_, -, h1⟩ := h1
    obtain ⟨_, -, h2⟩ := h2
    rw [DE.bind_ok] at h1 h2
    obtain ⟨r1, v1, h1⟩ := h1
    obtain ⟨r2, v2, h2⟩ := h2
    cases h1
    cases h2
    rw [visit_same (fun b hb => h b (List.mem_cons_of_mem _ hb)) v1 v2]

/-- C119, what a query uses does not change: while a thread holds an epoch, whatever the other threads and the reconstruction job do in
the meantime, its version consists of the same levels at the same addresses, it collects the same pointers, and reads the same values. -/
theorem C119_frozen (hw : 0 < C.P.hwm) (h : Reach C n s) {i e : Nat} (w : While C i e s s') :
    s'.vs e = s.vs e ∧ Rc.visit s'.x (s'.vs e).levels = Rc.visit s.x (s.vs e).levels ∧
      Snap.read s'.x.h (s'.vs e) = Snap.read s.x.h (s.vs e) := by
  have key : s'.vs e = s.vs e ∧ s.x.h.sh <+: s'.x.h.sh ∧ ∀ a ∈ (s.vs e).levels, s'.x.h.lv[a]? = s.x.h.lv[a]? := by
    induction w with
    | refl => exact ⟨rfl, List.prefix_rfl, fun _ _ => rfl⟩
    | @step s' s'' j c w hs _ ih =>
      obtain ⟨h1, h2, h3⟩ := ih
      obtain ⟨hr, t, hi, he⟩ := w.reach h
      obtain ⟨f, -, g⟩ := hr.good hw
      have := g.step (hr.base.inv hw) j c
      have hsame : Same s' s'' := by
        cases hfs : Full.step C f j c with
        | error e => rw [hfs] at this; rw [show step C s' j c = _ from this] at hs; cases hs
        | ok o =>
          rw [hfs] at this
          cases o with
          | none => rw [show step C s' j c = _ from this] at hs; cases hs
          | some f' =>
            obtain ⟨z, e1, h5, -⟩ := this
            rw [e1] at hs
            cases hs
            exact h5
      obtain ⟨k1, k2⟩ := hsame.2 e ((hr.base.inv hw).alive hi he) (Conc.H_pos hi he)
      refine ⟨k1.trans h1, h2.trans hsame.1, fun a ha => ?_⟩
      rw [k2 a (by rw [h1]; exact ha)]
      exact h3 a ha
  obtain ⟨h1, h2, h3⟩ := key
  obtain ⟨hr', t', hi', he'⟩ := w.reach h
  obtain ⟨t, hi, he⟩ : Pins s i e := by
    clear h1 h2 h3 hr' hi' he'
    induction w with
    | refl p => exact p
    | step _ _ _ ih => exact ih
  obtain ⟨ps, v1, -⟩ := C119_pinned hw h hi he
  obtain ⟨qs, v2, -⟩ := C119_pinned hw hr' hi' he'
  obtain ⟨f, -, g⟩ := h.good hw
  have ha := (h.base.inv hw).alive hi he
  refine ⟨h1, ?_, ?_⟩
  · have v3 := v2
    rw [h1] at v3
    rw [v2, v1, visit_same h3 v1 v3]
  · rw [h1]
    unfold Snap.read
    congr 1
    apply List.map_congr_left
    intro a ha'
    exact Snap.readAt_same g.wf h2 (h3 a ha')

/-- C119, nothing is kept longer than needed: in every state a shard is allocated exactly if some epoch that exists points to it, a level
likewise; and at most three epochs exist. -/
theorem C119_live (hw : 0 < C.P.hwm) (h : Reach C n s) :
    (∀ a, s.x.src a ≠ 0 ↔ ∃ e, s.base.alive e = true ∧ Rc.HStruct.PointsTo s.x.h (s.vs e) a) ∧
    (∀ a, s.x.lrc a ≠ 0 ↔ ∃ e, s.base.alive e = true ∧ a ∈ (s.vs e).levels) ∧
    ∀ l : List Nat, l.Nodup → (∀ e ∈ l, s.base.alive e = true) → l.length ≤ 3 := by
  obtain ⟨f, -, g⟩ := h.good hw
  have hlv : ∀ a, s.x.lrc a ≠ 0 ↔ ∃ e, s.base.alive e = true ∧ a ∈ (s.vs e).levels := by
    intro a
    rw [g.inv.lrc, Multiset.count_ne_zero, mem_refs]
    exact ⟨fun ⟨e, _, h⟩ => ⟨e, h⟩, fun ⟨e, h1, h2⟩ => ⟨e, g.lt e h1, h1, h2⟩⟩
  refine ⟨fun a => ?_, hlv, fun l h1 h2 => Conc.C79_three hw h.base h1 h2⟩
  rw [g.inv.src, zero_add, Multiset.count_ne_zero]
  unfold Rc.held
  rw [Multiset.mem_sum]
  constructor
  · rintro ⟨b, hb, ha⟩
    by_cases h0 : s.x.lrc b = 0
    · rw [if_pos h0] at ha; simp at ha
    · rw [if_neg h0] at ha
      obtain ⟨e, he, hbs⟩ := (hlv b).mp h0
      have hlt := Finset.mem_range.mp hb
      have hl : s.x.h.lv[b]? = some s.x.h.lv[b] := List.getElem?_eq_getElem hlt
      rw [List.getD_eq_getElem?_getD, hl] at ha
      rcases List.mem_cons.mp (Rc.mem_nn.mp ha) with q | q
      · exact ⟨e, he, b, hbs, _, hl, Or.inr q.symm⟩
      · exact ⟨e, he, b, hbs, _, hl, Or.inl q⟩
  · rintro ⟨e, he, b, hbs, l, hl, hp⟩
    refine ⟨b, Finset.mem_range.mpr (List.getElem?_eq_some_iff.mp hl).1, ?_⟩
    rw [if_neg ((hlv b).mpr ⟨e, he, hbs⟩), List.getD_eq_getElem?_getD, hl]
    apply Rc.mem_nn.mpr
    rcases hp with q | q
    · exact List.mem_cons_of_mem _ q
    · show some a ∈ l.pending :: l.shards
      rw [q]; exact List.mem_cons_self

theorem Good.del {f : Full.St R} (g : Good s f) {o : Option Nat} {b : Conc.St} (hb : Conc.delEpoch s.base o = .ok b) :
    ∃ s' f', delEpoch s o = .ok s' ∧ s'.base = b ∧ Good s' f' := by
  unfold delEpoch
  rw [hb]
  cases o with
  | none =>
    cases hb
    exact ⟨s, f, rfl, rfl, g⟩
  | some e =>
    unfold Conc.delEpoch at hb
    simp only at hb
    split at hb
    · rename_i ha
      cases hb
      obtain ⟨x, e1, -, g'⟩ := g.drop (b := { s.base with alive := upd s.base.alive e false }) ha rfl rfl (.inl rfl) (fun h => h)
      simp only [Rc.okb]
      rw [e1]
      exact ⟨_, _, rfl, rfl, g'⟩
    · cases hb

/-- C119, nothing leaks: whatever was executed before, once no thread is inside an operation the destructor runs without error and leaves
no epoch, no level and no shard allocated. -/
theorem C119_teardown (hw : 0 < C.P.hwm) (h : Reach C n s) (hidle : ∀ t ∈ s.base.thr, t.pc = .idle) :
    ∃ s', destroy s = .ok s' ∧ (∀ e, s'.base.alive e = false) ∧ ∀ a, s'.x.src a = 0 ∧ s'.x.lrc a = 0 := by
  obtain ⟨f, -, g⟩ := h.good hw
  obtain ⟨b, hb, hdead⟩ := Conc.C79_destroy hw h.base hidle
  unfold Conc.destroy at hb
  rw [DE.bind_ok] at hb
  obtain ⟨b1, e1, hb⟩ := hb
  rw [DE.bind_ok] at hb
  obtain ⟨b2, e2, e3⟩ := hb
  obtain ⟨s1, f1, d1, rfl, g1⟩ := g.del e1
  obtain ⟨s2, f2, d2, rfl, g2⟩ := g1.del e2
  obtain ⟨s3, f3, d3, rfl, g3⟩ := g2.del e3
  have hd : destroy s = .ok s3 := by
    unfold destroy
    simp only [d1, d2, Rc.okb]
    exact d3
  have hr : refs s3.base.alive s3.base.nextId s3.vs = 0 := by
    unfold refs
    exact Finset.sum_eq_zero fun e _ => by rw [hdead e]; rfl
  have hlrc : ∀ a, s3.x.lrc a = 0 := by
    intro a
    rw [g3.inv.lrc, hr, Multiset.count_zero]
  refine ⟨s3, hd, hdead, fun a => ⟨?_, hlrc a⟩⟩
  rw [g3.inv.src]
  have : Rc.held s3.x = 0 := by
    unfold Rc.held
    exact Finset.sum_eq_zero fun b _ => if_pos (hlrc b)
  rw [this, add_zero, Multiset.count_zero]

/-- Execute a schedule. -/
def run (C : Cfg R) : List (Nat × Ch) → St R → Option (St R)
  | [], s => some s
  | (i, c) :: l, s =>
    match step C s i c with
    | .ok (some s') => run C l s'
    | _ => none

theorem Reach.run (l : List (Nat × Ch)) (h : Reach C n s) (hr : run C l s = some s') : Reach C n s' := by
  induction l generalizing s with
  | nil => cases hr; exact h
  | cons x l ih =>
    obtain ⟨i, c⟩ := x
    unfold CH.run at hr
    split at hr
    · rename_i s1 h2
      exact ih (h.step h2) hr
    · cases hr

theorem reach_of (l : List (Nat × Ch)) (q : St R → Bool) (h : (CH.run C l (CH.init C n)).any q = true) : ∃ s, Reach C n s ∧ q s = true := by
  cases hr : CH.run C l (CH.init C n) with
  | none => rw [hr] at h; cases h
  | some s =>
    rw [hr] at h
    exact ⟨s, Reach.run l .init hr, h⟩

/-- Two flushes under leveling: the second one has merged the shard of the first. The first shard (0) is still allocated as long as a
query holds the epoch of the first flush, although that epoch is no longer current. -/
example : ∃ s, Reach (Full.C12 .leveling) 4 s ∧ Pins s 1 1 ∧ s.base.cur.ep = some 2 ∧ (List.range 4).map s.x.src = [1, 0, 1, 0] := by
  obtain ⟨s, h1, h2⟩ := reach_of (C := Full.C12 .leveling) (n := 4)
    (Conc.insLow 0 11 ++ Conc.insSched 0 10 ++ Conc.job1 2 2 ++ Conc.insLow 0 12 ++ Conc.query 1 ++ Conc.insSched 0 13 ++ Conc.job2 2 2)
    (fun s => decide (s.base.thr[1]? = some (⟨.run, some 1, some 2, 3⟩ : Conc.Th) ∧ s.base.cur.ep = some 2 ∧
      (List.range 4).map s.x.src = [1, 0, 1, 0])) (by decide)
  rw [decide_eq_true_eq] at h2
  exact ⟨s, h1, ⟨_, h2.1, rfl⟩, h2.2⟩

/-- Execute a schedule, giving up when thread `i` does not hold epoch `e`. -/
def runWhile (C : Cfg R) (i e : Nat) : List (Nat × Ch) → St R → Option (St R)
  | [], s => some s
  | (j, c) :: l, s =>
    match step C s j c with
    | .ok (some s') => if (s'.base.thr[i]?).bind Conc.Th.ep = some e then runWhile C i e l s' else none
    | _ => none

theorem While.run {i e : Nat} {s0 : St R} (l : List (Nat × Ch)) (h : While C i e s0 s) (hr : runWhile C i e l s = some s') :
    While C i e s0 s' := by
  induction l generalizing s with
  | nil => cases hr; exact h
  | cons x l ih =>
    obtain ⟨j, c⟩ := x
    unfold runWhile at hr
    split at hr
    · rename_i s1 h2
      split at hr
      · rename_i hp
        refine ih (.step h h2 ?_) hr
        cases ht : s1.base.thr[i]? with
        | none => rw [ht] at hp; cases hp
        | some t => rw [ht] at hp; exact ⟨t, ht, hp⟩
      · cases hr
    · cases hr

/-- The hypotheses of `C119_frozen`: a query holds the epoch of the first flush while a second flush goes through, which retires nothing
that the query needs; it reads the shard with the two records of the first flush. -/
example : ∃ s s', Reach (Full.C12 .leveling) 4 s ∧ While (Full.C12 .leveling) 1 1 s s' ∧ s.base.cur.ep = some 1 ∧ s'.base.cur.ep = some 2 ∧
    Rc.visit s'.x (s'.vs 1).levels = .ok [0] ∧ Rc.visit s'.x (s'.vs 2).levels = .ok [2] := by
  have h1 : ((CH.run (Full.C12 .leveling) (Conc.insLow 0 11 ++ Conc.insSched 0 10 ++ Conc.job1 2 2 ++ Conc.insLow 0 12 ++ Conc.query 1)
      (CH.init (Full.C12 .leveling) 4)).bind fun s => (runWhile (Full.C12 .leveling) 1 1 (Conc.insSched 0 13 ++ Conc.job2 2 2) s).map fun s' =>
      decide (s.base.thr[1]? = some (⟨.run, some 1, some 2, 3⟩ : Conc.Th) ∧ s.base.cur.ep = some 1 ∧ s'.base.cur.ep = some 2 ∧
        Rc.visit s'.x (s'.vs 1).levels = .ok [0] ∧ Rc.visit s'.x (s'.vs 2).levels = .ok [2])) = some true := by decide
  rw [Option.bind_eq_some_iff] at h1
  obtain ⟨s, hs, h1⟩ := h1
  rw [Option.map_eq_some_iff] at h1
  obtain ⟨s', hs', h1⟩ := h1
  rw [decide_eq_true_eq] at h1
  exact ⟨s, s', Reach.run _ .init hs, While.run _ (.refl ⟨_, h1.1, rfl⟩) hs', h1.2⟩

/-- The hypotheses of `C119_teardown`: after two flushes, with two epochs and two shards, all threads are idle. -/
example : ∃ s, Reach (Full.C12 .tiering) 4 s ∧ (∀ t ∈ s.base.thr, t.pc = .idle) ∧ s.base.cur.ep = some 2 ∧
    (List.range 4).map s.x.src = [2, 1, 0, 0] := by
  obtain ⟨s, h1, h2⟩ := reach_of (C := Full.C12 .tiering) (n := 4)
    (Conc.insLow 0 11 ++ Conc.insSched 0 10 ++ Conc.job1 2 2 ++ Conc.insLow 0 12 ++ Conc.insSched 0 13 ++ Conc.job2 2 2)
    (fun s => decide ((∀ t ∈ s.base.thr, t.pc = .idle) ∧ s.base.cur.ep = some 2 ∧ (List.range 4).map s.x.src = [2, 1, 0, 0])) (by decide)
  rw [decide_eq_true_eq] at h2
  exact ⟨s, h1, h2⟩

end DE.CH
