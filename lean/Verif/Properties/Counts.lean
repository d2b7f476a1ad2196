import Verif.Proofs.Safety
import Verif.Proofs.InsertOnly
import Verif.Proofs.Instances
import Verif.Properties.RangeQuery

/-!
C14, C15: the record and tombstone counts reported by the index.
-/

namespace DE
variable {R : Type}

/-- C14: the record count is the number of stored entries, in every state. -/
theorem C14_stored (d : Index R) : d.recordCount = d.entries.card := by
  have h : ∀ ss : List (Shard R), (ss.map (·.data.length)).sum = ((ss.map (fun s => ents s.data)).sum).card := by
    intro ss
    induction ss with
    | nil => rfl
    | cons s ss ih => simp [ih, ents]
  have h2 : ∀ ls : List (Level R), (ls.map Level.recordCount).sum =
      ((ls.flatMap Level.visible).map (·.data.length)).sum := by
    intro ls
    induction ls with
    | nil => rfl
    | cons l ls ih =>
      rw [List.map_cons, List.sum_cons, ih, List.flatMap_cons, List.map_append, List.sum_append]; rfl
  unfold Index.recordCount Index.entries Struct.recordCount Struct.visible
  rw [Multiset.card_add, h2, h]
  congr 1
  rw [ents, Multiset.coe_card, List.length_map, Buffer.contents_length]; rfl

section
variable {K : Type} [LinearOrder R] [LinearOrder K] [HasKey R K] [Inhabited R]

/-- C14 for insert-only histories, on any layout: the record count is the number of inserts. -/
theorem C14_insert_only {L : Layout} {tag : Bool} {pq : PQ R} {lb : LB R K} {lwm hwm sf : Nat} {d0 : Index R}
    {ops : List (Index.Op R)} (hnew : Index.new L tag (sortedImpl pq lb) lwm hwm sf = .ok d0) (hlwm : 1 ≤ lwm)
    (hsf : 1 ≤ sf) (hio : InsertOnly ops) :
    ∃ d bs, d0.run ops = .ok (d, bs) ∧ d.recordCount = ops.length := by
  obtain ⟨d, h1, h2, h3, -⟩ := (new_clean hnew hlwm hsf).run ops hio
  obtain ⟨-, -, -, -, h5, -⟩ := new_ginv hnew hlwm hsf
  refine ⟨d, _, h1, ?_⟩
  rw [C14_stored, h3, h5, zero_add, insEntries, Multiset.coe_card, List.length_map]
  clear h1 h3
  induction ops with
  | nil => rfl
  | cons o os ih =>
    obtain ⟨r, rfl⟩ := hio o (by simp)
    simp [inserted, ih (fun o ho => hio o (by simp [ho]))]

/-- Non-vacuous: three levels, records in buffer and shards, one tombstone counted as an entry. -/
example : probe .leveling false 2 3 2 (insSeq 0 9 ++ [.del ⟨3, 3⟩])
    (fun p => .ok (p.1.height, p.1.recordCount)) = .ok (2, 10) := by decide

/-- Tombstones stored in the shards (not the buffer). -/
def shardTombs (d : Index R) : Nat := (d.str.visible.map (fun s => s.data.countP Wrapped.isTombstone)).sum

theorem closed_tscnt (pq : PQ R) (lb : LB R K) {v : View R} :
    Closed (sortedImpl pq lb) v (fun s => s.tscnt = tsCount s.data) where
  merge := by
    intro os s _ hs
    obtain ⟨ss, rfl, -, h2, -⟩ := sortedMerge_ok' (show sortedMerge pq os = .ok s from hs)
    exact h2
  build := by
    intro s hs
    obtain ⟨l, -, -, h⟩ := sortedFromView_ok (show sortedFromView v = .ok s from hs)
    exact h

omit [LinearOrder R] [Inhabited R] in
theorem tsCount_tag (s : Shard R) (j : Nat) : tsCount (s.tag j).data = tsCount s.data := by
  have : (s.tag j).data.map Wrapped.isTombstone = s.data.map Wrapped.isTombstone := by
    apply List.ext_getElem?
    intro n
    simp only [Shard.tag, List.getElem?_map, List.getElem?_modify]
    cases s.data[n]? with
    | none => rfl
    | some w =>
      by_cases hjn : j = n
      · simp only [hjn, if_true, Option.map_some]
        exact congrArg some (congrArg Entry.tomb (setDelete_entry w))
      · simp [hjn]
  unfold tsCount
  have h2 : ∀ l : List (Wrapped R), l.countP Wrapped.isTombstone = (l.map Wrapped.isTombstone).countP id := by
    intro l; rw [List.countP_map]; rfl
  rw [h2, h2, this]

/-- Number of erases in a history. -/
def erases (ops : List (Index.Op R)) : Nat := ops.countP (fun o => match o with | .ins _ => false | .del _ => true)

omit [LinearOrder R] [Inhabited R] in
theorem internalAppend_tscnt {d d' : Index R} (h : BufInv d.buf) {r : R} {ts b : Bool}
    (hs : d.internalAppend r ts = .ok (d', b)) : d'.buf.tscnt = d.buf.tscnt + (if ts then 1 else 0) := by
  have key : ∀ d1 : Index R, BufInv d1.buf → d1.buf.tail - d1.buf.head < d1.buf.lwm → d1.buf.tscnt = d.buf.tscnt →
      (Except.ok ({ d1 with buf := (d1.buf.append r ts).1 }, (d1.buf.append r ts).2) : Res (Index R × Bool)) = .ok (d', b) →
      d'.buf.tscnt = d.buf.tscnt + (if ts then 1 else 0) := by
    intro d1 h1 hlt h3 h2
    have hd : d' = { d1 with buf := (d1.buf.append r ts).1 } := (congrArg Prod.fst (Except.ok.inj h2)).symm
    rw [hd]
    have := h1.wf.lwm
    simp only [Buffer.append]
    rw [if_neg (by omega)]
    cases ts <;> simp [h3]
  unfold Index.internalAppend at hs
  by_cases hat : d.buf.atLwm = true
  · rw [if_pos hat, bind_ok] at hs
    obtain ⟨d1, h1, h2⟩ := hs
    obtain ⟨g1, -⟩ := flush_buf h hat h1
    refine key d1 (g1 ▸ h.emptied) ?_ (by rw [g1]; rfl) h2
    rw [g1]; simp [Buffer.emptied]; exact h.lwm
  · rw [if_neg hat] at hs
    refine key d h ?_ rfl hs
    simp [Buffer.atLwm, Buffer.count] at hat; exact hat

/-- C15, what the reported number is: tombstones in the shards plus *all* erases ever appended (the buffer's counter
is never reduced by a flush), on every layout and policy. Missing: under tombstone deletes this exceeds the number of
stored tombstones as soon as one was flushed (`C15_false`). -/
theorem C15_partial {L : Layout} {tag : Bool} {pq : PQ R} {lb : LB R K} {lwm hwm sf : Nat} {d0 d : Index R}
    {ops : List (Index.Op R)} {bs : List Bool} (hnew : Index.new L tag (sortedImpl pq lb) lwm hwm sf = .ok d0)
    (hlwm : 1 ≤ lwm) (hrun : d0.run ops = .ok (d, bs)) :
    d.tombstoneCount = shardTombs d + (if tag then 0 else erases ops) := by
  obtain ⟨hd, -⟩ := new_ok hnew
  have hb0 := new_buf hnew hlwm
  have hI : d0.impl = sortedImpl pq lb := by rw [hd]
  have htag : d0.tagging = tag := by rw [hd]
  obtain ⟨⟨hs, hc⟩, -⟩ := run_prefix_ind ops (fun ops d _ => SAll (fun s => s.tscnt = tsCount s.data) d.str ∧
      d.buf.tscnt = if tag then 0 else erases ops) hb0
    (by refine ⟨?_, by rw [hd]; cases tag <;> rfl⟩; intro l hl; rw [hd] at hl; simp at hl)
    (by
      intro ops o d d' bs b _ _ ⟨hP, hQ⟩ hb hL ht hi hs
      rw [hI] at hi
      refine ⟨step_all (hi ▸ closed_tscnt pq lb) (fun r _ _ s j h _ => by rw [tsCount_tag]; exact h) hP hs, ?_⟩
      have happ : erases (ops ++ [o]) = erases ops + erases [o] := by simp [erases]
      rw [happ]
      cases o with
      | ins r =>
        rw [internalAppend_tscnt hb hs, hQ]; cases tag <;> rfl
      | del r =>
        simp only [Index.step, Index.erase] at hs
        cases tag with
        | true =>
          rw [if_pos (by rw [ht, htag]), bind_ok] at hs
          obtain ⟨o, h1, h2⟩ := hs
          cases o with
          | some ls => cases h2; exact hQ
          | none =>
            simp only at h2
            have hd' : d' = { d with buf := (d.buf.deleteRecord r).1 } := (congrArg Prod.fst (Except.ok.inj h2)).symm
            rw [hd']
            have : (d.buf.deleteRecord r).1.tscnt = d.buf.tscnt := by unfold Buffer.deleteRecord; split <;> rfl
            rw [this]; exact hQ
        | false =>
          rw [if_neg (by rw [ht, htag]; simp)] at hs
          rw [internalAppend_tscnt hb hs, hQ]; rfl) hrun
  unfold Index.tombstoneCount
  rw [show d.buf.view.tscnt = d.buf.tscnt from rfl, hc, Nat.add_comm]
  congr 1
  have h2 : ∀ ls : List (Level R), (ls.map Level.tombstoneCount).sum = ((ls.flatMap Level.visible).map (·.tscnt)).sum := by
    intro ls
    induction ls with
    | nil => rfl
    | cons l ls ih =>
      rw [List.map_cons, List.sum_cons, ih, List.flatMap_cons, List.map_append, List.sum_append]; rfl
  unfold Struct.tombstoneCount shardTombs
  rw [h2]
  congr 1
  apply List.map_congr_left
  intro s hs'
  exact hs.visible s hs'

/-- C15 under tagging: the reported number of tombstones is 0. -/
theorem C15_tagging {L : Layout} {pq : PQ R} {lb : LB R K} {lwm hwm sf : Nat} {d0 d : Index R}
    {ops : List (Index.Op R)} {bs : List Bool} (hnew : Index.new L true (sortedImpl pq lb) lwm hwm sf = .ok d0)
    (hlwm : 1 ≤ lwm) (hrun : d0.run ops = .ok (d, bs)) : d.tombstoneCount = 0 := by
  rw [C15_partial hnew hlwm hrun]
  have hE := tagging_no_tomb hnew hlwm hrun
  have : shardTombs d = 0 := by
    unfold shardTombs
    apply List.sum_eq_zero
    intro n hn
    obtain ⟨s, hs, rfl⟩ := List.mem_map.mp hn
    rw [List.countP_eq_zero]
    intro w hw
    have := hE w.entry (by
      unfold Index.entries
      rw [Multiset.mem_add]
      right
      exact sents_mem.mpr ⟨s, hs, mem_ents.mpr ⟨w, hw, rfl⟩⟩)
    simpa [Wrapped.entry] using this
  rw [this]; rfl

/-- C15 under tombstone deletes, exactly how far it is off: the reported number exceeds the number of stored tombstones
by the erases whose tombstone is no longer in the buffer. -/
theorem C15_excess_partial {L : Layout} {pq : PQ R} {lb : LB R K} {lwm hwm sf : Nat} {d0 d : Index R}
    {ops : List (Index.Op R)} {bs : List Bool} (hnew : Index.new L false (sortedImpl pq lb) lwm hwm sf = .ok d0)
    (hlwm : 1 ≤ lwm) (hrun : d0.run ops = .ok (d, bs)) :
    d.tombstoneCount + (ents d.buf.contents).countP (fun e => e.tomb = true) =
      d.entries.countP (fun e => e.tomb = true) + erases ops := by
  rw [C15_partial hnew hlwm hrun]
  have h : ∀ ss : List (Shard R), ((ss.map (fun s => ents s.data)).sum).countP (fun e => e.tomb = true) =
      (ss.map (fun s => s.data.countP Wrapped.isTombstone)).sum := by
    intro ss
    induction ss with
    | nil => rfl
    | cons s ss ih =>
      rw [List.map_cons, List.sum_cons, Multiset.countP_add, ih, List.map_cons, List.sum_cons]
      congr 1
      rw [ents, Multiset.coe_countP, List.countP_map]
      apply List.countP_congr
      intro w _
      simp [Wrapped.entry]
  unfold Index.entries shardTombs
  rw [Multiset.countP_add, h]
  simp only [Bool.false_eq_true, if_false]
  omega

/-- C15 is false under tombstone deletes: a flushed tombstone is counted twice. -/
theorem C15_false : ∃ (d0 d : Index Rec) (bs : List Bool), mk .tiering false 2 2 2 = .ok d0 ∧
    d0.run [.ins ⟨1, 1⟩, .del ⟨2, 2⟩, .ins ⟨3, 3⟩] = .ok (d, bs) ∧ bs.all id = true ∧
    d.tombstoneCount = 2 ∧ d.entries.countP (fun e => e.tomb = true) = 1 := by
  have h : probe .tiering false 2 2 2 [.ins ⟨1, 1⟩, .del ⟨2, 2⟩, .ins ⟨3, 3⟩]
      (fun p => .ok (p.2.all id, p.1.tombstoneCount, p.1.entries.countP (fun e => e.tomb = true))) = .ok (true, 2, 1) := by
    decide
  obtain ⟨d0, d, bs, h1, h2, h3⟩ := probe_ok h
  have h3 := Except.ok.inj h3
  exact ⟨d0, d, bs, h1, h2, congrArg Prod.fst h3, congrArg (·.2.1) h3, congrArg (·.2.2) h3⟩

end
end DE
