import Verif.Model.Full
import Verif.Proofs.InsertOnly
import Verif.Proofs.BSMNet
import Verif.Properties.Epochs

/-!
The composed system: the structure of every epoch that a query can pin holds exactly the flushed slots.
-/

namespace DE.Full
open Conc (Par Slot Ch upd)
variable {R : Type}

/-! ### One reconstruction job, serially -/

/-- What the structure of an epoch looks like between reconstructions. -/
def SOk (L : Layout) (hwm : Nat) (st : Struct R) : Prop :=
  0 < st.sf ∧ ((L ≠ .bsm ∧ st.bufSize = hwm ∧ SInv L st ∧
      (L = .leveling → ∀ s0, st.abs[0]? = some s0 → recs s0 ≤ Struct.levelCap st.bufSize st.sf 0)) ∨ (L = .bsm ∧ BSInv st))

theorem SOk.copy_eq {L : Layout} {hwm : Nat} {st : Struct R} (h : SOk L hwm st) : st.copy = st := by
  rcases h.2 with h | h
  · exact h.2.2.1.copy_eq
  · exact h.2.toBWInv.copy_eq

theorem SOk.ginv {L : Layout} {tag : Bool} {I : ShardImpl R} {b : Buffer R} {st : Struct R} (h : SOk L b.hwm st) (hb : b.WF) (hl : 0 < b.lwm)
    (hc : b.tail - b.head ≤ b.lwm) : (⟨L, tag, I, b, st⟩ : Index R).GInv := by
  rcases h with ⟨h0, ⟨h1, h2, h3, h4⟩ | ⟨h1, h2⟩⟩
  · exact Or.inl ⟨h1, hb, hl, hc, h0, h2, h3, h4⟩
  · exact Or.inr ⟨h1, hb, hl, hc, h0, h2⟩

theorem SOk.of_ginv {d : Index R} (h : d.GInv) : SOk d.L d.buf.hwm d.str := by
  rcases h with h | h
  · exact ⟨h.sf, Or.inl ⟨h.lay, h.bs, h.str, h.lev0⟩⟩
  · exact ⟨h.sf, Or.inr ⟨h.lay, h.str⟩⟩

/-- What is needed of the shard type: clean shards can be built and merged, and `Q` is kept. -/
structure Good (I : ShardImpl R) (Q : Shard R → Prop) : Prop where
  ok : I.CleanOk
  merge : ∀ (ss : List (Shard R)) s, ss ≠ [] → (∀ x ∈ ss, Q x) → I.merge (ss.map some) = .ok s → Q s
  build : ∀ (b : Buffer R) s, b.WF → (∀ e ∈ ents b.contents, e.clean) → I.build b.view = .ok s → Q s

/-- The job succeeds, keeps the shape and adds the flushed entries. -/
theorem job_ok {L : Layout} {I : ShardImpl R} {Q : Shard R → Prop} (hI : Good I Q) {b : Buffer R} {st : Struct R}
    (h : SOk L b.hwm st) (hb : b.WF) (hl : b.lwm = b.tail - b.head) (hne : b.head < b.tail)
    (hc : ∀ e ∈ ents b.contents, e.clean) (hs : ∀ s ∈ st.visible, CleanShard s ∧ Q s) :
    ∃ st', job L I b.hwm st b.view = .ok st' ∧ SOk L b.hwm st' ∧ (∀ s ∈ st'.visible, CleanShard s ∧ Q s) ∧
      sents st'.visible = sents st.visible + ents b.contents := by
  have hg : (⟨L, false, I, b, st⟩ : Index R).GInv := h.ginv hb (by omega) (by omega)
  have hcl : CleanInv I (⟨L, false, I, b, st⟩ : Index R) := ⟨hI.ok, hg, rfl, hc, fun s hsm => (hs s hsm).1⟩
  have hat : b.atLwm = true := by simp [Buffer.atLwm, Buffer.count, hl]
  obtain ⟨d', hd'⟩ := hcl.flush hat
  obtain ⟨g1, g2, g3, -, g5, g6, g7, -⟩ := gflush_ok hg hI.ok.conserving hat hd'
  have hshards : ∀ s ∈ d'.str.visible, CleanShard s ∧ Q s := by
    intro s hsm
    refine Derived.all (Q := fun s => CleanShard s ∧ Q s) hs ?_ ?_ (g7 s hsm)
    · exact fun ss s hne hss hm => ⟨clean_merge hI.ok ss s hne (fun x hx => (hss x hx).1) hm, hI.merge ss s hne (fun x hx => (hss x hx).2) hm⟩
    · intro s0 hs0
      obtain ⟨s1, hs1, hq1⟩ := clean_build hI.ok hb (atLwm_ne (by omega) hat) hc
      have hs0' : I.build b.view = .ok s0 := hs0
      rw [hs0'] at hs1; cases hs1
      exact ⟨hq1, hI.build b s0 hb hc hs0'⟩
  have hgi : d'.GInv := by
    rcases g1 with g1 | ⟨-, g1⟩
    · exact g1
    · exact absurd (clean_l0 (fun s hsm => (hshards s hsm).1)) g1
  have hfl : job L I b.hwm st b.view = .ok d'.str := by
    unfold Index.flush at hd'
    simp only [bind_ok] at hd'
    obtain ⟨ts, h1, s1, h2, s2, h3, b2, -, he⟩ := hd'
    cases he
    unfold job
    simp only [h.copy_eq] at h1 h2
    simp only [h1, h2, bind, Except.bind]
    exact h3
  refine ⟨d'.str, hfl, ?_, hshards, ?_⟩
  · have := SOk.of_ginv hgi
    rw [g2, g3] at this
    exact this
  · have := g6.clean hcl.entries
    unfold Index.entries at this
    have he : ents d'.buf.contents = 0 := by
      rw [g2]; simp [Buffer.emptied, Buffer.contents, ents]
    rw [he, zero_add] at this
    rw [add_comm]
    exact this.symm

/-- What is needed of the shard type when there are tombstones. -/
structure GoodNet (I : ShardImpl R) (Q : Shard R → Prop) : Prop where
  conserving : I.Conserving
  merge : ∀ (ss : List (Shard R)) s, ss ≠ [] → (∀ x ∈ ss, Q x) → I.merge (ss.map some) = .ok s → Q s
  build : ∀ (b : Buffer R) s, b.WF → I.build b.view = .ok s → Q s

/-- If the job succeeds, it keeps the shape and loses entries only in pairs; under BSM, if the block does not cancel out completely. -/
theorem job_net {L : Layout} {I : ShardImpl R} {Q : Shard R → Prop} (hI : GoodNet I Q) {b : Buffer R} {st st' : Struct R}
    (h : SOk L b.hwm st) (hb : b.WF) (hl : b.lwm = b.tail - b.head) (hne : b.head < b.tail)
    (hL : L = .bsm → ¬ Reduces (fun e => e.del = true) (ents b.contents) 0)
    (hs : ∀ s ∈ st.visible, Q s) (hj : job L I b.hwm st b.view = .ok st') :
    SOk L b.hwm st' ∧ (∀ s ∈ st'.visible, Q s) ∧
      Reduces (fun e => e.del = true) (ents b.contents + sents st.visible) (sents st'.visible) := by
  have hg : (⟨L, false, I, b, st⟩ : Index R).GInv := h.ginv hb (by omega) (by omega)
  have hat : b.atLwm = true := by simp [Buffer.atLwm, Buffer.count, hl]
  have hd' : (⟨L, false, I, b, st⟩ : Index R).flush = .ok ⟨L, false, I, b.emptied, st'⟩ := by
    unfold job at hj
    simp only [bind_ok] at hj
    obtain ⟨ts, h1, s1, h2, h3⟩ := hj
    have h4 : b.advanceHead b.tail = .ok b.emptied := Buffer.advanceHead_tail hne
    unfold Index.flush
    simp only [h.copy_eq, h1, h2, bind, Except.bind]
    rw [show Struct.flushBuffer L I s1 b.view = .ok st' from h3, show b.view.tail = b.tail from rfl]
    dsimp only
    rw [h4]
  obtain ⟨g1, g2, g3, -, g5, g6, g7, -⟩ := gflush_ok hg hI.conserving hat hd'
  refine ⟨?_, ?_, ?_⟩
  · rcases g1 with g1 | ⟨hx, hl0⟩
    · have := SOk.of_ginv g1; exact this
    · have hx : L = .bsm := hx
      refine absurd ?_ hl0
      have hB : (⟨L, false, I, b, st⟩ : Index R).BInv := hg.resolve_left (fun h => h.lay hx)
      obtain ⟨s, e1, e2⟩ := bflush_l0 hB hat hd'
      rw [l0_head]
      intro ss hss y hy
      rw [e2] at hss
      cases hss
      simp at hy; subst hy
      intro h0
      have hred := hI.conserving.build _ _ _ (Buffer.view_reads hb) e1
      rw [h0] at hred
      exact hL hx hred
  · intro s hsm
    exact Derived.all (Q := Q) hs hI.merge (fun s0 hs0 => hI.build b s0 hb hs0) (g7 s hsm)
  · unfold Index.entries at g6
    have he : ents b.emptied.contents = 0 := by
      simp [Buffer.emptied, Buffer.contents, ents]
    have g6 : Reduces (fun e => e.del = true) (ents b.contents + sents st.visible) (ents b.emptied.contents + sents st'.visible) := g6
    rw [he, zero_add] at g6
    exact g6

/-! ### The ring as wrapped records -/

/-- The record a slot stands for. -/
def sval [Inhabited R] (ρ : Nat → R) : Slot → R
  | some (_, r) => ρ r
  | none => default

/-- The entry a slot stands for. -/
def sent [Inhabited R] (C : Cfg R) : Slot → Entry R
  | some (_, r) => ⟨C.ρ r, C.del r, false⟩
  | none => ⟨default, false, false⟩

variable [Inhabited R]

/-- The entries of a list of slots. -/
def slotEnts (C : Cfg R) (l : List Slot) : Multiset (Entry R) := (l.map (sent C) : List (Entry R))

theorem slotEnts_append (C : Cfg R) (a b : List Slot) : slotEnts C (a ++ b) = slotEnts C a + slotEnts C b := by
  unfold slotEnts; rw [List.map_append, Multiset.coe_add]

/-- No append is an erase. -/
def Cfg.InsOnly (C : Cfg R) : Prop := ∀ r, C.del r = false

theorem slotEnts_ins {C : Cfg R} (h : C.InsOnly) (l : List Slot) : slotEnts C l = insEntries (l.map (sval C.ρ)) := by
  unfold slotEnts insEntries
  congr 1
  rw [List.map_map]
  apply List.map_congr_left
  intro sl _
  cases sl with
  | none => rfl
  | some x => simp [sent, sval, h x.2]

theorem buffer_contents (C : Cfg R) (lwm : Nat) (mem : Nat → Slot) (h tl : Nat) :
    (buffer C lwm mem h tl).contents =
      (List.range (tl - h)).map (fun k => slotRec C ((h + k) % C.P.cap) (mem ((h + k) % C.P.cap))) := rfl

theorem window_get {cap h k : Nat} {acc : List Slot} (hk : k < cap) : window cap h acc ((h + k) % cap) = acc.getD k none := by
  unfold window
  congr 1
  have h1 : h % cap < cap := Nat.mod_lt _ (by omega)
  rw [Nat.add_mod, Nat.mod_eq_of_lt hk]
  generalize h % cap = s at *
  by_cases hc : s + k < cap
  · rw [Nat.mod_eq_of_lt hc, show s + k + cap - s = k + cap by omega, Nat.add_mod_right, Nat.mod_eq_of_lt hk]
  · rw [mod_big (x := s + k) (c := cap) (by omega) (by omega), show s + k - cap + cap - s = k by omega, Nat.mod_eq_of_lt hk]

theorem slotRec_visible (C : Cfg R) (j : Nat) {sl : Slot} (h : sl ≠ none) : (slotRec C j sl).isVisible = true := by
  cases sl with
  | none => exact absurd rfl h
  | some x => exact Buffer.setVisible_isVisible _

theorem range_map_getD {α : Type} (l : List α) (d : α) : (List.range l.length).map (fun k => l.getD k d) = l := by
  apply List.ext_getElem
  · simp
  · intro i h1 h2
    simp at h1
    simp [h1]

/-- Entries of any slot, written or not. -/
theorem slotRec_entry (C : Cfg R) (j : Nat) (sl : Slot) : (slotRec C j sl).entry = sent C sl := by
  cases sl with
  | none =>
    have h1 : (default : Wrapped R).header = 0#32 := rfl
    simp [slotRec, sent, Wrapped.entry, Wrapped.isTombstone, Wrapped.isDeleted, h1]
    rfl
  | some x => exact entryAt_entry _ _ _

/-- The entries of a window. -/
theorem block_ents (C : Cfg R) (lwm h : Nat) {acc : List Slot} (hl : acc.length ≤ C.P.cap) :
    ents (buffer C lwm (window C.P.cap h acc) h (h + acc.length)).contents = slotEnts C acc := by
  rw [buffer_contents]
  unfold ents slotEnts
  congr 1
  rw [List.map_map, Nat.add_sub_cancel_left]
  conv_rhs => rw [← range_map_getD acc none, List.map_map]
  apply List.map_congr_left
  intro k hk
  have hk := List.mem_range.mp hk
  show (slotRec C ((h + k) % C.P.cap) (window C.P.cap h acc ((h + k) % C.P.cap))).entry = _
  rw [window_get (by omega), slotRec_entry]
  rfl

theorem block_wf {C : Cfg R} (h : Nat) {acc : List Slot} (hw : 0 < C.P.hwm) (hl : acc.length ≤ C.P.hwm) (hs : ∀ sl ∈ acc, sl ≠ none) :
    (buffer C acc.length (window C.P.cap h acc) h (h + acc.length)).WF := by
  refine ⟨rfl, hw, hl, by simp [buffer], by simp [buffer, hl], ?_⟩
  intro w hw'
  rw [buffer_contents] at hw'
  obtain ⟨k, hk, rfl⟩ := List.mem_map.mp hw'
  have hk := List.mem_range.mp hk
  have hk : k < acc.length := by omega
  rw [window_get (by unfold Par.cap; omega)]
  apply slotRec_visible
  apply hs
  rw [List.getD_eq_getElem?_getD, List.getElem?_eq_getElem hk]; exact List.getElem_mem hk

omit [Inhabited R] in
theorem insEntries_clean {rs : List R} : ∀ e ∈ insEntries rs, e.clean := by
  intro e he
  unfold insEntries at he
  rw [Multiset.mem_coe, List.mem_map] at he
  obtain ⟨r, -, rfl⟩ := he
  exact ⟨rfl, rfl⟩

/-! ### The versions of the epochs -/

/-- The structure of the first epoch. -/
def emptyStruct (C : Cfg R) : Struct R := { bufSize := C.P.hwm, sf := C.sf, levels := [], state := [] }

/-- A relation between versions and slots that the steps of the program keep (if `A`: as long as flushes copy only slots that
have been written). -/
structure Keeps (A : Prop) (C : Cfg R) (VG : Struct R → List Slot → Prop) : Prop where
  init : VG (emptyStruct C) []
  copy : ∀ v sl, VG v sl → VG v.copy sl
  job : ∀ v v' sl acc hd, VG v sl → acc ≠ [] → acc.length ≤ C.P.hwm → (A → ∀ x ∈ acc, x ≠ none) →
    Full.job C.L C.impl C.P.hwm v (blockView C hd acc) = .ok v' → VG v' (sl ++ acc)

/-- The structure `v` holds exactly the records of `slots`. -/
structure VGood (C : Cfg R) (Q : Shard R → Prop) (v : Struct R) (slots : List Slot) : Prop where
  ok : SOk C.L C.P.hwm v
  shards : ∀ s ∈ v.visible, CleanShard s ∧ Q s
  ents : sents v.visible = insEntries (slots.map (sval C.ρ))

/-- The reconstruction job run on a good version. -/
theorem VGood.job {C : Cfg R} {Q : Shard R → Prop} (hI : Good C.impl Q) (hio : C.InsOnly) (hw : 0 < C.P.hwm) {v : Struct R} {slots acc : List Slot}
    (h : VGood C Q v slots) {hd : Nat} (h0 : acc ≠ []) (hl : acc.length ≤ C.P.hwm) (hs : ∀ sl ∈ acc, sl ≠ none) :
    ∃ v', Full.job C.L C.impl C.P.hwm v (blockView C hd acc) = .ok v' ∧ VGood C Q v' (slots ++ acc) := by
  have hwf := block_wf hd hw hl hs
  have he := block_ents C acc.length hd (acc := acc) (by unfold Par.cap; omega)
  rw [slotEnts_ins hio] at he
  obtain ⟨v', h1, h2, h3, h4⟩ := job_ok (L := C.L) hI (b := buffer C acc.length (window C.P.cap hd acc) hd (hd + acc.length))
    h.ok hwf (by simp [buffer]) (by simp [buffer]; exact List.length_pos_iff.mpr h0) (by rw [he]; exact insEntries_clean) h.shards
  refine ⟨v', h1, h2, h3, ?_⟩
  rw [h4, he, h.ents]
  unfold insEntries
  rw [Multiset.coe_add, List.map_append, List.map_append]

omit [Inhabited R] in
theorem emptyStruct_ok {C : Cfg R} (hsf : 0 < C.sf) : SOk C.L C.P.hwm (emptyStruct C) := by
  refine ⟨hsf, ?_⟩
  by_cases hL : C.L = .bsm
  · right
    refine ⟨hL, ⟨rfl, ?_⟩, ?_⟩
    · intro i l s hl; simp [emptyStruct] at hl
    · intro ss hss; simp [emptyStruct, Struct.abs] at hss
  · left
    refine ⟨hL, rfl, ⟨rfl, ?_⟩, ?_⟩
    · intro i l s hl; simp [emptyStruct] at hl
    · intro _ s0 hs0; simp [emptyStruct, Struct.abs] at hs0

theorem VGood.keeps {C : Cfg R} {Q : Shard R → Prop} (hI : Good C.impl Q) (hio : C.InsOnly) (hw : 0 < C.P.hwm) (hsf : 0 < C.sf) :
    Keeps True C (VGood C Q) where
  init := ⟨emptyStruct_ok hsf, by intro s hs; simp [emptyStruct, Struct.visible] at hs, rfl⟩
  copy := fun _ _ h => by rw [h.ok.copy_eq]; exact h
  job := fun v v' sl acc hd h h0 hl hs hj => by
    obtain ⟨v'', h1, h2⟩ := h.job hI hio hw (hd := hd) h0 hl (hs trivial)
    rw [h1] at hj; cases hj; exact h2

/-- A shard type whose constructor does not look at the visibility bit of what it copies. -/
structure GoodAny (I : ShardImpl R) (Q : Shard R → Prop) : Prop extends Good I Q where
  any : ∀ (v : View R) l, v.copyOut = .ok l → v.gets = .ok l → l ≠ [] → (∀ e ∈ ents l, e.clean) →
    ∃ s, I.build v = .ok s ∧ ents s.data = ents l ∧ Q s

/-- The same buffer with all its slots marked visible. -/
def shown (b : Buffer R) : Buffer R := { b with data := fun j => (b.data j).setVisible }

omit [Inhabited R] in
theorem setVisible_entry (w : Wrapped R) : w.setVisible.entry = w.entry := by
  have h1 : w.setVisible.isTombstone = w.isTombstone := by
    simp only [Wrapped.isTombstone_bit]
    unfold Wrapped.setVisible
    simp only [BitVec.getElem_or, four_bit]
    simp
  have h2 : w.setVisible.isDeleted = w.isDeleted := by
    simp only [Wrapped.isDeleted_bit]
    unfold Wrapped.setVisible
    simp only [BitVec.getElem_or, four_bit]
    simp
  have h3 : w.setVisible.record = w.record := rfl
  unfold Wrapped.entry
  rw [h1, h2, h3]

omit [Inhabited R] in
theorem shown_contents (b : Buffer R) : (shown b).contents = b.contents.map Wrapped.setVisible := by
  unfold Buffer.contents shown
  rw [List.map_map]
  rfl

omit [Inhabited R] in
theorem shown_ents (b : Buffer R) : ents (shown b).contents = ents b.contents := by
  rw [shown_contents]
  unfold ents
  rw [List.map_map]
  congr 1
  exact List.map_congr_left fun w _ => setVisible_entry w

omit [Inhabited R] in
/-- The tasks do not build shards from a view. -/
theorem runTasks_merge (L : Layout) (I : ShardImpl R) (f : View R → Res (Shard R)) (st : Struct R) (ts : List Task) :
    Struct.runTasks L { I with build := f } st ts = Struct.runTasks L I st ts := rfl

omit [Inhabited R] in
open Classical in
/-- The job on a block of which some slots may not have been written yet. -/
theorem job_any {L : Layout} {I : ShardImpl R} {Q : Shard R → Prop} (hI : GoodAny I Q) {b : Buffer R} {st : Struct R}
    (h : SOk L b.hwm st) (hcap : b.cap = 2 * b.hwm) (hw : 0 < b.hwm) (hcnt : b.tail - b.head ≤ b.hwm)
    (hl : b.lwm = b.tail - b.head) (hne : b.head < b.tail)
    (hc : ∀ e ∈ ents b.contents, e.clean) (hs : ∀ s ∈ st.visible, CleanShard s ∧ Q s) :
    ∃ st', job L I b.hwm st b.view = .ok st' ∧ SOk L b.hwm st' ∧ (∀ s ∈ st'.visible, CleanShard s ∧ Q s) ∧
      sents st'.visible = sents st.visible + ents b.contents := by
  have hwf : (shown b).WF := by
    refine ⟨hcap, hw, by rw [show (shown b).lwm = b.lwm from rfl, hl]; exact hcnt, hne.le, hcnt, ?_⟩
    intro w hw
    rw [shown_contents] at hw
    obtain ⟨x, -, rfl⟩ := List.mem_map.mp hw
    exact Buffer.setVisible_isVisible x
  have hlen : b.contents ≠ [] := by
    intro h0
    have := congrArg List.length h0
    simp [Buffer.contents_length] at this
    omega
  obtain ⟨s0, hs0, he0, hq0⟩ := hI.any b.view b.contents (copyOut_eq b.view (show 0 < b.cap by omega) hne.le (show b.tail - b.head < b.cap by omega))
    (gets_eq b.view (show 0 < b.cap by omega) (show b.tail - b.head ≤ b.cap by omega)) hlen hc
  let f : View R → Res (Shard R) := fun v => if v = (shown b).view then .ok s0 else I.build v
  have hf : f (shown b).view = .ok s0 := if_pos rfl
  have hI' : Good { I with build := f } Q := by
    refine ⟨⟨⟨?_, hI.ok.conserving.merge⟩, hI.ok.merge, ?_⟩, hI.merge, ?_⟩
    · intro v l s hv hb
      by_cases hx : v = (shown b).view
      · subst hx
        have hb : f (shown b).view = .ok s := hb
        rw [hf] at hb; cases hb
        have h1 := hv.2.1
        rw [Buffer.view_gets hwf] at h1
        cases h1
        rw [shown_ents, he0]
        exact .refl _
      · have hb : f v = .ok s := hb
        have h1 : f v = I.build v := if_neg hx
        rw [h1] at hb
        exact hI.ok.conserving.build v l s hv hb
    · intro b' hb' hne'
      by_cases hx : b'.view = (shown b).view
      · exact ⟨s0, if_pos hx⟩
      · obtain ⟨s, hs⟩ := hI.ok.build b' hb' hne'
        exact ⟨s, (if_neg hx : f b'.view = I.build b'.view).trans hs⟩
    · intro b' s hb' hc' hs'
      by_cases hx : b'.view = (shown b).view
      · have hs' : f b'.view = .ok s := hs'
        rw [hx, hf] at hs'; cases hs'; exact hq0
      · have hs' : f b'.view = .ok s := hs'
        have h1 : f b'.view = I.build b'.view := if_neg hx
        rw [h1] at hs'
        exact hI.build b' s hb' hc' hs'
  obtain ⟨st', h1, h2, h3, h4⟩ := job_ok hI' (b := shown b) (L := L) h hwf hl hne (by rw [shown_ents]; exact hc) hs
  rw [shown_ents] at h4
  refine ⟨st', ?_, h2, h3, h4⟩
  rw [← h1]
  have hfl : ∀ st1, Struct.flushBuffer L { I with build := f } st1 (shown b).view = Struct.flushBuffer L I st1 b.view := by
    intro st1
    have hcount : (shown b).view.count = b.view.count := rfl
    have happ : ∀ l : Level R, l.appendBuffer { I with build := f } (shown b).view = l.appendBuffer I b.view := by
      intro l
      unfold Level.appendBuffer
      simp only [hf, hs0]
    unfold Struct.flushBuffer Struct.flushIntoL0 Struct.newL0
    simp only [hcount, happ]
    rfl
  unfold job
  simp only [runTasks_merge, hfl]
  rfl

theorem VGood.jobAny {C : Cfg R} {Q : Shard R → Prop} (hI : GoodAny C.impl Q) (hio : C.InsOnly) (hw : 0 < C.P.hwm) {v : Struct R} {slots acc : List Slot}
    (h : VGood C Q v slots) {hd : Nat} (h0 : acc ≠ []) (hl : acc.length ≤ C.P.hwm) :
    ∃ v', Full.job C.L C.impl C.P.hwm v (blockView C hd acc) = .ok v' ∧ VGood C Q v' (slots ++ acc) := by
  have he := block_ents C acc.length hd (acc := acc) (by unfold Par.cap; omega)
  rw [slotEnts_ins hio] at he
  obtain ⟨v', h1, h2, h3, h4⟩ := job_any (L := C.L) hI (b := buffer C acc.length (window C.P.cap hd acc) hd (hd + acc.length))
    h.ok rfl hw (by simp [buffer, hl]) (by simp [buffer]) (by simp [buffer]; exact List.length_pos_iff.mpr h0)
    (by rw [he]; exact insEntries_clean) h.shards
  refine ⟨v', h1, h2, h3, ?_⟩
  rw [h4, he, h.ents]
  unfold insEntries
  rw [Multiset.coe_add, List.map_append, List.map_append]

theorem VGood.keepsAny {C : Cfg R} {Q : Shard R → Prop} (hI : GoodAny C.impl Q) (hio : C.InsOnly) (hw : 0 < C.P.hwm) (hsf : 0 < C.sf) :
    Keeps False C (VGood C Q) where
  init := ⟨emptyStruct_ok hsf, by intro s hs; simp [emptyStruct, Struct.visible] at hs, rfl⟩
  copy := fun _ _ h => by rw [h.ok.copy_eq]; exact h
  job := fun v v' sl acc hd h h0 hl _ hj => by
    obtain ⟨v'', h1, h2⟩ := h.jobAny hI hio hw (hd := hd) h0 hl
    rw [h1] at hj; cases hj; exact h2

/-- With tombstones: the structure `v` is what is left of the entries of `slots`. -/
structure VNet (C : Cfg R) (Q : Shard R → Prop) (v : Struct R) (slots : List Slot) : Prop where
  ok : SOk C.L C.P.hwm v
  shards : ∀ s ∈ v.visible, Q s
  net : Reduces (fun e => e.del = true) (slotEnts C slots) (sents v.visible)

/-- No stretch of at most `hwm` consecutive slots cancels out completely. -/
def NoVoidSlots (C : Cfg R) (slots : List Slot) : Prop :=
  ∀ a l b, slots = a ++ l ++ b → l ≠ [] → l.length ≤ C.P.hwm → ¬ Reduces (fun e => e.del = true) (slotEnts C l) 0

theorem NoVoidSlots.of_append {C : Cfg R} {u w : List Slot} (h : NoVoidSlots C (u ++ w)) : NoVoidSlots C u := by
  rintro a l b rfl h1 h2
  exact h a l (b ++ w) (by simp) h1 h2

theorem VNet.keeps {C : Cfg R} {Q : Shard R → Prop} (hI : GoodNet C.impl Q) (hw : 0 < C.P.hwm) (hsf : 0 < C.sf) :
    Keeps True C (fun v sl => (C.L = .bsm → NoVoidSlots C sl) → VNet C Q v sl) where
  init := fun _ => ⟨emptyStruct_ok hsf, by intro s hs; simp [emptyStruct, Struct.visible] at hs, .refl _⟩
  copy := fun _ _ h hn => by rw [(h hn).ok.copy_eq]; exact h hn
  job := fun v v' sl acc hd h h0 hl hs hj hn => by
    have h := h (fun hb => (hn hb).of_append)
    have hwf := block_wf hd hw hl (hs trivial)
    have he := block_ents C acc.length hd (acc := acc) (by unfold Par.cap; omega)
    obtain ⟨h2, h3, h4⟩ := job_net (L := C.L) hI (b := buffer C acc.length (window C.P.cap hd acc) hd (hd + acc.length))
      h.ok hwf (by simp [buffer]) (by simp [buffer]; exact List.length_pos_iff.mpr h0)
      (fun hb => by rw [he]; exact hn hb sl acc [] (by simp) h0 hl) h.shards hj
    refine ⟨h2, h3, ?_⟩
    rw [he] at h4
    rw [slotEnts_append, add_comm]
    exact ((Reduces.refl _).add h.net).trans h4

/-- The reconstruction has flushed an empty block and has not yet noticed it (`advance_head` aborts). -/
def hang (e : Nat) : Conc.PC → Prop
  | .rl1 (.job x) | .rlO2 (.job x) | .rlO3 (.job x) _ | .rlH2 (.job x) | .rlH3 (.job x) _ => x = e
  | .ad1 x | .rt1 x _ | .rt2 x _ _ | .rt3 x _ | .ad3 x | .ad4 x _ | .ad5 x _ | .ad6 x | .ad7 x => x = e
  | _ => False

def Hang (b : Conc.St) (e : Nat) : Prop := ∃ (j : Nat) (t : Conc.Th), b.thr[j]? = some t ∧ hang e t.pc ∧ t.tl ≤ b.head.idx

theorem hang_sect {e : Nat} {t : Conc.Th} (h : hang e t.pc) : ∃ ph, Conc.sect t = some ph := by
  obtain ⟨pc, ep, hd, tl⟩ := t
  cases pc
  all_goals first
    | exact ⟨_, rfl⟩
    | exact h.elim
    | (rename_i k; cases k <;> first | exact ⟨_, rfl⟩ | exact h.elim)
    | (rename_i k _; cases k <;> first | exact ⟨_, rfl⟩ | exact h.elim)

/-- A job in that state has reached neither the end of its copying nor is it preparing an epoch. -/
theorem Hang.alone {P : Par} {b : Conc.St} {e i : Nat} {t : Conc.Th} (hI : Conc.Inv P b) (h : Hang b e) (hi : b.thr[i]? = some t)
    {ph : Conc.Ph} (hs : Conc.sect t = some ph) : hang e t.pc := by
  obtain ⟨j, u, hu, h1, -⟩ := h
  by_cases hj : i = j
  · subst hj; rw [hi] at hu; cases hu; exact h1
  · obtain ⟨ph', h2⟩ := hang_sect h1
    have := (hI.alone hi hs).2.2 j u (Ne.symm hj) hu
    rw [this] at h2; cases h2

theorem Hang.step {P : Par} {b b' : Conc.St} {e i : Nat} {t : Conc.Th} {c : Ch} (hI : Conc.Inv P b) (h : Hang b e) (hi : b.thr[i]? = some t)
    (hs : Conc.stepT P b i t c = .ok (some b')) : Hang b' e := by
  have hlt : i < b.thr.length := (List.getElem?_eq_some_iff.mp hi).1
  obtain ⟨j, u, hu, h1, h2⟩ := h
  by_cases hj : i = j
  · subst hj; rw [hi] at hu; cases hu
    have key : ∀ {a : Conc.St} {t' : Conc.Th}, (.ok (some (a.setT i t')) : Conc.Out) = .ok (some b') → a.thr = b.thr → hang e t'.pc →
        t'.tl ≤ a.head.idx → Hang b' e := by
      intro a t' h a1 a2 a3
      have := Conc.ok_inj h; subst this
      exact ⟨i, t', List.getElem?_set_self (by rw [a1]; exact hlt), a2, a3⟩
    obtain ⟨pc, ep, hd, tl⟩ := t
    cases pc
    case ad7 =>
      simp only [Conc.stepT] at hs
      split at hs
      · rename_i h; exact absurd h.1 (Nat.not_lt.mpr h2)
      · cases hs
    case rlH3 k o =>
      cases k <;> first | exact h1.elim | skip
      simp only [Conc.stepT] at hs
      split at hs
      · rename_i h
        refine key hs rfl h1 ?_
        show tl ≤ o.idx
        rw [← h]; exact h2
      · exact key hs rfl h1 h2
    case rl1 k =>
      cases k <;> first | exact h1.elim | skip
      simp only [Conc.stepT] at hs
      split at hs <;> exact key hs rfl h1 h2
    case rlO2 k =>
      cases k <;> first | exact h1.elim | skip
      simp only [Conc.stepT] at hs
      split at hs <;> exact key hs rfl h1 h2
    case rlH2 k =>
      cases k <;> first | exact h1.elim | skip
      simp only [Conc.stepT] at hs
      split at hs <;> exact key hs rfl h1 h2
    case rlO3 k o =>
      cases k <;> first | exact h1.elim | skip
      simp only [Conc.stepT] at hs
      split at hs <;> exact key hs rfl h1 h2
    all_goals first
      | exact h1.elim
      | (simp only [Conc.stepT] at hs
         repeat' split at hs
         all_goals first
           | exact key hs rfl h1 h2
           | cases hs)
  · obtain ⟨ph, hph⟩ := hang_sect h1
    have hn := (hI.alone hu hph).2.2 i t hj hi
    have hh := Conc.step_head hs (fun x o hx => by unfold Conc.sect at hn; rw [hx] at hn; cases hn)
    have hw : Conc.wake u = u := by
      unfold Conc.wake
      rw [if_neg]
      intro hx; rw [hx] at h1; exact h1
    refine ⟨j, u, ?_, h1, by rw [hh]; exact h2⟩
    rcases Conc.step_others hs (Ne.symm hj) with h | h
    · rw [h, hu]
    · rw [h, hu, Option.map_some, hw]

/-- Only two steps touch the versions. -/
theorem step_vers {P : Par} {b b' : Conc.St} {i : Nat} {t : Conc.Th} {c : Ch} (hs : Conc.stepT P b i t c = .ok (some b'))
    (h1 : ∀ r, t.pc ≠ .crC r) (h2 : ∀ e p acc, t.pc = .cp e p acc → p < t.tl) : b'.estr = b.estr ∧ b'.nextId = b.nextId := by
  have key : ∀ {a : Conc.St} {t' : Conc.Th}, (.ok (some (a.setT i t')) : Conc.Out) = .ok (some b') → a.estr = b.estr → a.nextId = b.nextId →
      b'.estr = b.estr ∧ b'.nextId = b.nextId := by
    intro a t' h a1 a2
    have := Conc.ok_inj h; subst this
    exact ⟨a1, a2⟩
  obtain ⟨pc, ep, hd, tl⟩ := t
  cases pc
  case crC r => exact absurd rfl (h1 r)
  case cp e p acc =>
    simp only [Conc.stepT, if_pos (h2 e p acc rfl)] at hs
    exact key hs rfl rfl
  all_goals
    simp only [Conc.stepT] at hs
    repeat' split at hs
  all_goals first
    | exact key hs rfl rfl
    | cases hs

/-- Every version is good or about to be abandoned. -/
def FInv (VG : Struct R → List Slot → Prop) (s : St R) : Prop :=
  ∀ e, e < s.base.nextId → VG (s.vs e) (s.base.estr e) ∨ Hang s.base e

omit [Inhabited R] in
theorem FInv.good {P : Par} {VG : Struct R → List Slot → Prop} {s : St R} (h : FInv VG s) (hI : Conc.Inv P s.base) {i : Nat} {t : Conc.Th}
    (hi : s.base.thr[i]? = some t) {ph : Conc.Ph} (hs : Conc.sect t = some ph) (hn : ∀ e, ¬ hang e t.pc) {e : Nat}
    (he : e < s.base.nextId) : VG (s.vs e) (s.base.estr e) :=
  (h e he).resolve_right (fun hh => hn e (hh.alone hI hi hs))

theorem structs_other {C : Cfg R} {s : St R} {t : Conc.Th} (h1 : ∀ r, t.pc ≠ .crC r) (h2 : ∀ e p acc, t.pc = .cp e p acc → p < t.tl) :
    structs C s t = .ok s.vs := by
  unfold structs
  split
  · rename_i r hr; exact absurd hr (h1 r)
  · rename_i e p acc hr; rw [if_pos (h2 e p acc hr)]
  · rfl

/-- A step that fails on the structures is the flush of a non-empty block of finished slots into a good version. -/
theorem FInv.progress {C : Cfg R} {VG : Struct R → List Slot → Prop} {s : St R} (h : FInv VG s)
    (hI : Conc.Inv C.P s.base) (hH : Conc.Hist C.P s.base) {A : Prop} (hD : Conc.Dat A C.P s.base) {i : Nat} {t : Conc.Th} {c : Ch} {b : Conc.St}
    (hi : s.base.thr[i]? = some t) (hs : Conc.stepT C.P s.base i t c = .ok (some b))
    (hne : ∀ e p acc, t.pc = .cp e p acc → s.base.head.idx < t.tl)
    (hjob : ∀ e acc, VG (s.vs e) (s.base.estr e) → acc ≠ [] → acc.length ≤ C.P.hwm → (A → ∀ x ∈ acc, x ≠ none) →
      ∃ v', Full.job C.L C.impl C.P.hwm (s.vs e) (blockView C (t.hd.getD 0) acc) = .ok v') :
    ∃ vs, structs C s t = .ok vs := by
  by_cases h1 : ∃ r, t.pc = .crC r
  · obtain ⟨r, hpc⟩ := h1
    obtain ⟨pc, ep, hd, tl⟩ := t
    simp only at hpc; subst hpc
    simp only [Conc.stepT] at hs
    split at hs
    case h_2 => cases hs
    exact ⟨_, rfl⟩
  have h1 : ∀ r, t.pc ≠ .crC r := fun r hr => h1 ⟨r, hr⟩
  by_cases h2 : ∃ e p acc, t.pc = .cp e p acc ∧ ¬ p < t.tl
  · obtain ⟨e, p, acc, hpc, hp⟩ := h2
    obtain ⟨pc, ep, hd, tl⟩ := t
    simp only at hpc; subst hpc
    have hg := fun e he => h.good hI hi (e := e) rfl (fun x => by simp [hang]) he
    obtain ⟨l1, l2, l3, l4, l5⟩ : hd = some s.base.head.idx ∧ s.base.head.idx ≤ tl ∧ tl ≤ s.base.tail ∧ p ≤ tl ∧
      p = s.base.head.idx + acc.length := hH.locj _ _ hi
    obtain ⟨d1, d2⟩ : Conc.Fl A s.base e s.base.head.idx ∧ Conc.AccOk A s.base acc := hD.locd _ _ hi
    have hcore : Conc.Core C.P s.base.sv (.A1 e) := hI.phase hi rfl
    have he : e < s.base.nextId := hcore.2.1.2.2.1
    have hbnd : s.base.tail ≤ s.base.head.idx + C.P.hwm := hI.bnd.2
    have hacc : A → ∀ sl ∈ acc, sl ≠ none := by
      intro hA sl hsl
      obtain ⟨k, hk, rfl⟩ := List.mem_iff_getElem.mp hsl
      obtain ⟨r, hr, -⟩ := d2 hA k hk
      rw [List.getElem?_eq_getElem hk] at hr
      rw [Option.some.inj hr]; simp
    have hp' : ¬ p < tl := hp
    have hlt : s.base.head.idx < tl := hne e p acc rfl
    obtain ⟨v', hv⟩ := hjob e acc (hg e he) (by intro h0; subst h0; simp at l5; omega) (by omega) hacc
    unfold structs
    simp only [if_neg hp']
    have hv : Full.job C.L C.impl C.P.hwm (s.vs e) (blockView C (hd.getD 0) acc) = .ok v' := hv
    rw [hv]
    exact ⟨_, rfl⟩
  have h2 : ∀ e p acc, t.pc = .cp e p acc → p < t.tl := by
    intro e p acc hpc
    by_contra hc
    exact h2 ⟨e, p, acc, hpc, hc⟩
  exact ⟨_, structs_other h1 h2⟩

/-- What a step does to the versions. -/
theorem FInv.step {A : Prop} {C : Cfg R} {VG : Struct R → List Slot → Prop} (hK : Keeps A C VG) {s : St R} (h : FInv VG s)
    (hI : Conc.Inv C.P s.base) (hH : Conc.Hist C.P s.base) (hD : Conc.Dat A C.P s.base) {i : Nat} {t : Conc.Th} {c : Ch} {b : Conc.St}
    (hi : s.base.thr[i]? = some t) (hs : Conc.stepT C.P s.base i t c = .ok (some b)) :
    ∀ vs, structs C s t = .ok vs → FInv VG ⟨b, vs⟩ := by
  by_cases h1 : ∃ r, t.pc = .crC r
  · obtain ⟨r, hpc⟩ := h1
    obtain ⟨pc, ep, hd, tl⟩ := t
    simp only at hpc; subst hpc
    have hg := fun e he => h.good hI hi (e := e) rfl (fun x => by simp [hang]) he
    simp only [Conc.stepT] at hs
    split at hs
    case h_2 => cases hs
    rename_i e
    split at hs
    case isFalse => cases hs
    have hb := Conc.ok_inj hs
    have he : e < s.base.nextId := by
      obtain ⟨ph, hp⟩ := hI.some_phase
      exact ((hI.core ph hp).alive (v := s.base.sv) (Conc.H_pos hi rfl)).2
    have hst : structs C s ⟨.crC r, some e, hd, tl⟩ = .ok (upd s.vs s.base.nextId (s.vs e).copy) := rfl
    intro vs hvs
    rw [hst] at hvs; cases hvs
    subst hb
    intro x hx
    left
    show VG (upd s.vs s.base.nextId (s.vs e).copy x) (upd s.base.estr s.base.nextId (s.base.estr e) x)
    have hx : x < s.base.nextId + 1 := hx
    unfold upd
    split
    · exact hK.copy _ _ (hg e he)
    · exact hg x (by omega)
  have h1 : ∀ r, t.pc ≠ .crC r := fun r hr => h1 ⟨r, hr⟩
  by_cases h2 : ∃ e p acc, t.pc = .cp e p acc ∧ ¬ p < t.tl
  · obtain ⟨e, p, acc, hpc, hp⟩ := h2
    obtain ⟨pc, ep, hd, tl⟩ := t
    simp only at hpc; subst hpc
    have hg := fun e he => h.good hI hi (e := e) rfl (fun x => by simp [hang]) he
    obtain ⟨l1, l2, l3, l4, l5⟩ : hd = some s.base.head.idx ∧ s.base.head.idx ≤ tl ∧ tl ≤ s.base.tail ∧ p ≤ tl ∧
      p = s.base.head.idx + acc.length := hH.locj _ _ hi
    obtain ⟨d1, d2⟩ : Conc.Fl A s.base e s.base.head.idx ∧ Conc.AccOk A s.base acc := hD.locd _ _ hi
    have hcore : Conc.Core C.P s.base.sv (.A1 e) := hI.phase hi rfl
    have he : e < s.base.nextId := hcore.2.1.2.2.1
    have hbnd : s.base.tail ≤ s.base.head.idx + C.P.hwm := hI.bnd.2
    have hacc : A → ∀ sl ∈ acc, sl ≠ none := by
      intro hA sl hsl
      obtain ⟨k, hk, rfl⟩ := List.mem_iff_getElem.mp hsl
      obtain ⟨r, hr, -⟩ := d2 hA k hk
      rw [List.getElem?_eq_getElem hk] at hr
      rw [Option.some.inj hr]; simp
    have hp' : ¬ p < tl := hp
    simp only [Conc.stepT, if_neg hp'] at hs
    split at hs
    case isFalse => cases hs
    have hb := Conc.ok_inj hs
    subst hb
    have hst : structs C s ⟨.cp e p acc, ep, hd, tl⟩ =
        (Full.job C.L C.impl C.P.hwm (s.vs e) (blockView C (hd.getD 0) acc) >>= fun st => .ok (upd s.vs e st)) := by
      unfold structs
      simp only [if_neg hp']
    rw [hst]
    intro vs hvs
    rw [bind_ok] at hvs
    obtain ⟨v', hv, hvs⟩ := hvs
    have hvs : upd s.vs e v' = vs := Except.ok.inj hvs
    subst hvs
    intro x hx
    by_cases hne : s.base.head.idx < tl
    · have hgv := hK.job _ _ _ _ _ (hg e he) (by intro h0; subst h0; simp at l5; omega) (by omega) hacc hv
      left
      show VG (upd s.vs e v' x) (upd s.base.estr e (s.base.estr e ++ acc) x)
      unfold upd
      split
      · exact hgv
      · exact hg x hx
    · by_cases hxe : x = e
      · right
        subst hxe
        exact ⟨i, _, List.getElem?_set_self (List.getElem?_eq_some_iff.mp hi).1, rfl, by
          show tl ≤ s.base.head.idx; omega⟩
      · left
        show VG (upd s.vs e v' x) (upd s.base.estr e (s.base.estr e ++ acc) x)
        unfold upd
        rw [if_neg hxe, if_neg hxe]
        exact hg x hx
  have h2 : ∀ e p acc, t.pc = .cp e p acc → p < t.tl := by
    intro e p acc hpc
    by_contra hc
    exact h2 ⟨e, p, acc, hpc, hc⟩
  rw [structs_other h1 h2]
  intro vs hvs
  cases hvs
  obtain ⟨e1, e2⟩ := step_vers hs h1 h2
  intro e he
  have he : e < b.nextId := he
  rw [e2] at he
  rcases h e he with hg | hh
  · left; show VG (s.vs e) (b.estr e); rw [e1]; exact hg
  · right; exact hh.step hI hi hs

/-- Unfolding a step of the composed system. -/
theorem step_some {C : Cfg R} {s s' : St R} {i : Nat} {c : Ch} (h : step C s i c = .ok (some s')) :
    ∃ t, s.base.thr[i]? = some t ∧ Conc.step C.P s.base i c = .ok (some s'.base) ∧ structs C s t = .ok s'.vs := by
  unfold step at h
  split at h
  · cases h
  · rename_i t ht
    rw [bind_ok] at h
    obtain ⟨o, h1, h2⟩ := h
    cases o with
    | none => cases h2
    | some b =>
      simp only [bind_ok] at h2
      obtain ⟨vs, h3, h4⟩ := h2
      cases h4
      exact ⟨t, ht, h1, h3⟩

theorem Reach.base {C : Cfg R} {n : Nat} {ok : Conc.St → Nat → Prop} {s : St R} (h : Reach C n ok s) : Conc.Reach C.P n ok s.base := by
  induction h with
  | init => exact .init
  | step _ hk hs ih =>
    obtain ⟨t, -, h2, -⟩ := step_some hs
    exact .step ih hk h2

theorem Reach.finvW {A : Prop} {C : Cfg R} {VG : Struct R → List Slot → Prop} (hK : Keeps A C VG) (hw : 0 < C.P.hwm) {n : Nat} {s : St R}
    {ok : Conc.St → Nat → Prop} (hT : A → ∀ s i, ok s i → Conc.tidy s i) (h : Reach C n ok s) : FInv VG s := by
  induction h with
  | init => exact fun e _ => Or.inl hK.init
  | @step s s' i c hr hk hs ih =>
    obtain ⟨t, ht, h2, h3⟩ := step_some hs
    have h2' := h2
    unfold Conc.step at h2'
    rw [ht] at h2'
    exact ih.step hK (hr.base.inv hw) (hr.base.hist hw) (hr.base.datW hw hT) ht h2' _ h3

theorem Reach.finv {C : Cfg R} {VG : Struct R → List Slot → Prop} (hK : Keeps True C VG) (hw : 0 < C.P.hwm) {n : Nat} {s : St R}
    (h : Reach C n Conc.tidy s) : FInv VG s := h.finvW hK hw fun _ _ _ h => h

/-- A pinned version is good. -/
theorem Reach.pinnedW {A : Prop} {C : Cfg R} {VG : Struct R → List Slot → Prop} (hK : Keeps A C VG) (hw : 0 < C.P.hwm) {n : Nat} {s : St R}
    {ok : Conc.St → Nat → Prop} (hT : A → ∀ s i, ok s i → Conc.tidy s i) (h : Reach C n ok s) {i : Nat} {t : Conc.Th} (hi : s.base.thr[i]? = some t) {e : Nat} (he : t.ep = some e) :
    VG (s.vs e) (s.base.estr e) := by
  have hI := h.base.inv hw
  have hpos := Conc.H_pos hi he
  have hlt : e < s.base.nextId := by
    obtain ⟨ph, hp⟩ := hI.some_phase
    exact ((hI.core ph hp).alive (v := s.base.sv) hpos).2
  refine (h.finvW hK hw hT e hlt).resolve_right ?_
  rintro ⟨j, u, hu, h1, -⟩
  obtain ⟨ph, hph⟩ := hang_sect h1
  have hc := hI.phase hu hph
  have hnx : Conc.Nx s.base.sv e := by
    obtain ⟨pc, ep, hd, tl⟩ := u
    unfold Conc.sect at hph
    cases pc
    case rl1 k => cases k <;> first | exact h1.elim | (cases hph; cases h1; exact hc.2.1)
    case rlO2 k => cases k <;> first | exact h1.elim | (cases hph; cases h1; exact hc.2.1)
    case rlO3 k _ => cases k <;> first | exact h1.elim | (cases hph; cases h1; exact hc.2.1)
    case rlH2 k => cases k <;> first | exact h1.elim | (cases hph; cases h1; exact hc.2.1)
    case rlH3 k _ => cases k <;> first | exact h1.elim | (cases hph; cases h1; exact hc.2.1)
    all_goals first
      | exact h1.elim
      | (cases hph; cases h1; exact hc.2.1)
      | (cases hph; cases h1; exact hc.2.2.1)
      | (cases hph; cases h1; obtain ⟨e1, ht, -⟩ := hc; exact ht.2.2.2.2)
  have h0 : s.base.H e = 0 := hnx.2.2.2
  omega

theorem Reach.pinned {C : Cfg R} {VG : Struct R → List Slot → Prop} (hK : Keeps True C VG) (hw : 0 < C.P.hwm) {n : Nat} {s : St R}
    (h : Reach C n Conc.tidy s) {i : Nat} {t : Conc.Th} (hi : s.base.thr[i]? = some t) {e : Nat} (he : t.ep = some e) :
    VG (s.vs e) (s.base.estr e) := h.pinnedW hK hw (fun _ _ _ h => h) hi he

/-- The view of a query holds the entries of its slots. -/
theorem snapshot_buf (C : Cfg R) (s : St R) (e h tl : Nat) : ents (snapshot C s e h tl).buf.contents =
    slotEnts C ((List.range (tl - h)).map (fun k => s.base.mem ((h + k) % C.P.cap))) := by
  show ents (buffer C (max 1 (tl - h)) s.base.mem h tl).contents = _
  rw [buffer_contents]
  unfold ents slotEnts
  congr 1
  rw [List.map_map, List.map_map]
  apply List.map_congr_left
  intro k _
  exact slotRec_entry _ _ _

/-- What the index seen by a query holds: the slots of the version of its epoch and of its view. -/
theorem snapshot_entries {C : Cfg R} (hio : C.InsOnly) {Q : Shard R → Prop} {s : St R} {e h tl : Nat} (hv : VGood C Q (s.vs e) (s.base.estr e)) :
    (snapshot C s e h tl).entries = insEntries ((Conc.snapshot C.P s.base e h tl).map (sval C.ρ)) := by
  have h2 : (snapshot C s e h tl).entries = ents (snapshot C s e h tl).buf.contents + sents (s.vs e).visible := rfl
  rw [h2, snapshot_buf, hv.ents, ← slotEnts_ins hio, ← slotEnts_ins hio, add_comm, ← slotEnts_append]
  rfl

/-- The same with tombstones: what is left of them. -/
theorem snapshot_net {C : Cfg R} {Q : Shard R → Prop} {s : St R} {e h tl : Nat} (hv : VNet C Q (s.vs e) (s.base.estr e)) :
    Reduces (fun e => e.del = true) (slotEnts C (Conc.snapshot C.P s.base e h tl)) (snapshot C s e h tl).entries := by
  have h2 : (snapshot C s e h tl).entries = ents (snapshot C s e h tl).buf.contents + sents (s.vs e).visible := rfl
  rw [h2, snapshot_buf]
  unfold Conc.snapshot
  rw [slotEnts_append, add_comm]
  exact (Reduces.refl _).add hv.net

theorem snapshot_gets {C : Cfg R} (hw : 0 < C.P.hwm) {s : St R} {e h tl : Nat} (hn : tl ≤ h + C.P.cap) :
    (snapshot C s e h tl).buf.view.gets = .ok (snapshot C s e h tl).buf.contents :=
  gets_eq (snapshot C s e h tl).buf.view (show 0 < C.P.cap by unfold Par.cap; omega) (show tl - h ≤ C.P.cap by omega)

/-! ### Executing schedules -/

/-- Execute a schedule, giving up at a step that is not allowed. -/
def run (C : Cfg R) (ok : Conc.St → Nat → Bool) : List (Nat × Ch) → St R → Option (St R)
  | [], s => some s
  | (i, c) :: l, s =>
    match ok s.base i, step C s i c with
    | true, .ok (some s') => run C ok l s'
    | _, _ => none

theorem Reach.run {C : Cfg R} {n : Nat} {ok : Conc.St → Nat → Prop} {okB : Conc.St → Nat → Bool} (hok : ∀ s i, okB s i = true → ok s i)
    (l : List (Nat × Ch)) {s s' : St R} (h : Reach C n ok s) (hr : run C okB l s = some s') : Reach C n ok s' := by
  induction l generalizing s with
  | nil => cases hr; exact h
  | cons x l ih =>
    obtain ⟨i, c⟩ := x
    unfold Full.run at hr
    split at hr
    · rename_i s1 h1 h2
      exact ih (h.step (hok _ _ h1) h2) hr
    · cases hr

theorem reach_of {C : Cfg R} {n : Nat} {ok : Conc.St → Nat → Prop} (okB : Conc.St → Nat → Bool) (hok : ∀ s i, okB s i = true → ok s i)
    (l : List (Nat × Ch)) (q : St R → Bool) (h : (Full.run C okB l (Full.init C n)).any q = true) :
    ∃ s, Reach C n ok s ∧ q s = true := by
  cases hr : Full.run C okB l (Full.init C n) with
  | none => rw [hr] at h; cases h
  | some s =>
    rw [hr] at h
    exact ⟨s, Reach.run hok l .init hr, h⟩

end DE.Full
