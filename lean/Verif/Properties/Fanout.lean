import Verif.Proofs.Cap
import Verif.Properties.Cost
import Verif.Properties.VersionShape

/-!
C109: how many shards a query consults, and what its searches read altogether.
-/

namespace DE
variable {R : Type}

/-- C109: any layout, delete policy and shard class, any history: a query consults no more shards than the slots of the layout. -/
theorem C109_any [DecidableEq R] {L : Layout} {tag : Bool} {I : ShardImpl R} {lwm hwm sf : Nat} [Inhabited R] {d0 d : Index R}
    {ops : List (Index.Op R)} {bs : List Bool} (hnew : Index.new L tag I lwm hwm sf = .ok d0)
    (hlwm : 1 ≤ lwm) (hsf : 1 ≤ sf) (hrun : d0.run ops = .ok (d, bs)) :
    d.str.visible.length ≤ (if L = .leveling then 1 else sf) * d.height := by
  obtain ⟨hd, -⟩ := new_ok hnew
  have h := (run_slots (new_buf hnew hlwm) (by rw [hd]) (by rw [hd]; exact hsf) hrun).shards
  have e : Struct.shardCap d0.L d0.str.sf = if L = .leveling then 1 else sf := by
    rw [hd]; unfold Struct.shardCap; cases L <;> simp
  rw [e] at h
  exact h

section
variable {K : Type} [LinearOrder R] [LinearOrder K] [HasKey R K] [Inhabited R]

/-- C109: logarithmically many shards in the number of flushes, for every history. -/
theorem C109_log {L : Layout} {tag : Bool} {pq : PQ R} {lb : LB R K} {lwm hwm sf : Nat} {d0 d : Index R}
    {ops : List (Index.Op R)} {bs : List Bool} (hnew : Index.new L tag (sortedImpl pq lb) lwm hwm sf = .ok d0)
    (hlwm : 1 ≤ lwm) (hsf : 2 ≤ sf) (hrun : d0.run ops = .ok (d, bs)) :
    match L with
    | .tiering => d.str.visible.length ≤ sf * (Nat.log sf (flushes tag lwm ops) + 1)
    | .leveling => d.str.visible.length ≤ max 2 (Nat.log sf (lwm * flushes tag lwm ops / hwm) + 1)
    | .bsm => d.str.visible.length ≤ 2 * (Nat.log 2 (flushes tag lwm ops) + 2) := by
  have h := C109_any hnew hlwm (by omega) hrun
  cases L with
  | tiering =>
    rw [if_neg (by simp)] at h
    exact le_trans h (Nat.mul_le_mul_left _ ((C16_tiering hnew hlwm (by omega) hrun).2.2 hsf))
  | leveling =>
    rw [if_pos rfl, Nat.one_mul] at h
    exact le_trans h (C16_leveling hnew hlwm hsf hrun).2.2.2
  | bsm =>
    rw [if_neg (by simp)] at h
    have hs : sf = 2 := (new_ok hnew).2.2.2 rfl
    rw [hs] at h
    exact le_trans h (Nat.mul_le_mul_left _ (C16_bsm hnew hlwm hrun))

omit [Inhabited R] in
/-- C109: what the searches of one key in all the ISAM tree shards read altogether: per shard a path of the largest tree there can be
and one leaf. `d` is any index without empty shards (the searches of those are undefined, C25). -/
theorem C109_search {F LF : Nat} (hF : 2 ≤ F) (hLF : 1 ≤ LF) (z : K) {d : Index R} (hne : ∀ s ∈ d.str.visible, s.data ≠ []) (k : K) :
    ∃ cs, d.str.visible.mapM (fun s => Isam.lowerBoundC F LF z s.data k) = .ok cs ∧
      (cs.map (·.2.nodes)).sum ≤ d.str.visible.length * (Nat.log F (d.str.recordCount / LF) + 1) ∧
      (cs.map (·.2.keys)).sum ≤ d.str.visible.length * ((Nat.log F (d.str.recordCount / LF) + 1) * (F - 1)) ∧
      (cs.map (·.2.recs)).sum ≤ d.str.visible.length * LF := by
  have hle : ∀ s ∈ d.str.visible, s.data.length ≤ d.str.recordCount := by
    intro s hs
    simp only [Struct.visible, List.mem_flatMap] at hs
    obtain ⟨l, h1, h2⟩ := hs
    have e1 : s.data.length ≤ l.recordCount := le_sum_of_mem (List.mem_map.mpr ⟨s, h2, rfl⟩)
    have e2 : l.recordCount ≤ d.str.recordCount := le_sum_of_mem (List.mem_map.mpr ⟨l, h1, rfl⟩)
    omega
  generalize d.str.recordCount = N at hle
  revert hne hle
  generalize d.str.visible = ss
  intro hne hle
  induction ss with
  | nil => exact ⟨[], rfl, by simp⟩
  | cons s ss ih =>
    obtain ⟨cs, h1, h2, h3, h4⟩ := ih (fun x hx => hne x (by simp [hx])) (fun x hx => hle x (by simp [hx]))
    obtain ⟨i, c, g1, g2, g3, g4⟩ := (C108_isam hF hLF z (hne s (by simp)) k).1
    have hlog := Nat.log_mono_right (b := F) (Nat.div_le_div_right (c := LF) (hle s (by simp)))
    have hk : c.nodes * (F - 1) ≤ (Nat.log F (N / LF) + 1) * (F - 1) := Nat.mul_le_mul_right _ (by omega)
    refine ⟨(i, c) :: cs, ?_, ?_, ?_, ?_⟩
    · rw [List.mapM_cons, g1, h1]; rfl
    · simp only [List.map_cons, List.sum_cons, List.length_cons, Nat.succ_mul]; omega
    · generalize (Nat.log F (N / LF) + 1) * (F - 1) = B at hk h3 ⊢
      simp only [List.map_cons, List.sum_cons, List.length_cons, Nat.succ_mul]; omega
    · simp only [List.map_cons, List.sum_cons, List.length_cons, Nat.succ_mul]; omega

end

/-- Thirteen records in buffers of two: every slot of two levels of tiering is used; leveling has one shard on each of three levels after
fifteen, where the bound is attained as well. -/
example : probe .tiering false 2 2 2 (insSeq 0 13) (fun p => .ok (p.1.str.visible.length, p.1.height)) = .ok (4, 2) ∧
    probe .leveling false 2 2 2 (insSeq 0 15) (fun p => .ok (p.1.str.visible.length, p.1.height)) = .ok (3, 3) := by
  decide

/-- The search of key 5 in the four shards visits six nodes and reads four records. -/
example : probe .tiering false 2 2 2 (insSeq 0 13) (fun p => (p.1.str.visible.mapM (fun s => Isam.lowerBoundC 2 1 0 s.data 5)).map
    (fun cs => ((cs.map (·.2.nodes)).sum, (cs.map (·.2.recs)).sum))) = .ok (6, 4) := by
  decide +kernel

namespace Full
open Conc (Par Slot Ch)
variable [Inhabited R]

/-- The slots of the versions beside concurrent operations. -/
theorem SCap.keeps {C : Cfg R} (hsf : 0 < C.sf) :
    Keeps False C (fun v _ => DE.SOk v ∧ SCap C.L (Struct.shardCap C.L C.sf) v) where
  init := by
    refine ⟨fun l h => by simp [emptyStruct] at h, le_refl _, ?_, fun l h => by simp [emptyStruct] at h⟩
    unfold Struct.shardCap; split <;> omega
  copy := fun _ _ h => ⟨copy_lok h.1, copy_slots h.1 h.2⟩
  job := by
    intro v v' sl acc hd h _ _ _ hj
    unfold Full.job at hj
    simp only [bind_ok] at hj
    obtain ⟨ts, -, s1, h2, h3⟩ := hj
    unfold Struct.flushBuffer at h3
    simp only [bind_ok] at h3
    obtain ⟨-, -, h3⟩ := h3
    exact ⟨flushIntoL0_lok (runTasks_lok h.1 h2) h3, flushIntoL0_slots (runTasks_slots h.2 h2) h3⟩

/-- C109 beside concurrent operations: the version a query works on has no more shards than the slots of the layout, in every execution
and with every shard class. (Executions that meet the hypotheses are shown at C104.) -/
theorem C109_concurrent {C : Cfg R} (hw : 0 < C.P.hwm) (hsf : 0 < C.sf) {n : Nat} {ok : Conc.St → Nat → Prop} {s : St R}
    (h : Reach C n ok s) {i e : Nat} (hp : Pins s i e) :
    (s.vs e).visible.length ≤ (if C.L = .leveling then 1 else C.sf) * (s.vs e).height := by
  obtain ⟨t, ht, he⟩ := hp
  have := (h.pinnedW (SCap.keeps hsf) hw (fun h => h.elim) ht he).2.shards
  have e' : Struct.shardCap C.L C.sf = if C.L = .leveling then 1 else C.sf := by
    unfold Struct.shardCap; cases C.L <;> simp
  rwa [e'] at this

/-- C109 beside concurrent operations: logarithmically many shards in the number of slots flushed into the version. -/
theorem C109_concurrent_log {C : Cfg R} (hI : ConservingAny C.impl) (hw : 0 < C.P.hwm) (hsf : 2 ≤ C.sf) {n : Nat}
    {ok : Conc.St → Nat → Prop} {s : St R} (h : Reach C n ok s) {i e : Nat} (hp : Pins s i e) :
    match C.L with
    | .tiering => (s.vs e).visible.length ≤ C.sf * (Nat.log C.sf (s.base.estr e).length + 1)
    | .leveling => (s.vs e).visible.length ≤ max 2 (Nat.log C.sf ((s.base.estr e).length / C.P.hwm) + 1)
    | .bsm => (s.vs e).visible.length ≤ C.sf * (Nat.log 2 (s.base.estr e).length + 2) := by
  have h0 := C109_concurrent hw (by omega) h hp
  cases hL : C.L with
  | tiering =>
    rw [if_neg (by simp [hL])] at h0
    exact le_trans h0 (Nat.mul_le_mul_left _ ((C104_tiering hL hI hw (by omega) h hp).2 hsf))
  | leveling =>
    rw [if_pos hL, Nat.one_mul] at h0
    exact le_trans h0 ((C104_leveling hL hI hw (by omega) h hp).2.2 hsf)
  | bsm =>
    rw [if_neg (by simp [hL])] at h0
    exact le_trans h0 (Nat.mul_le_mul_left _ (C104_bsm hL hI hw (by omega) h hp).2)

end Full
end DE
