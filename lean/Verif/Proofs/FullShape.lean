import Verif.Proofs.LevHeight
import Verif.Properties.Full

/-!
The shape of the versions beside concurrent operations: what the layouts guarantee for a serial history also holds of every version
that a thread can pin.
-/

namespace DE.Full
open Conc (Par Slot Ch)
variable {R : Type}

/-- A shard class that loses records only in pairs, also when it is built from slots that have not been written yet. -/
structure ConservingAny (I : ShardImpl R) : Prop extends I.Conserving where
  any : ∀ (v : View R) l s, v.copyOut = .ok l → v.gets = .ok l → I.build v = .ok s → Reduces (fun e => e.del = true) (ents l) (ents s.data)

section
variable {K : Type} [LinearOrder R] [LinearOrder K] [HasKey R K]

theorem sorted_conservingAny (pq : PQ R) (lb : LB R K) : ConservingAny (sortedImpl pq lb) where
  toConserving := sortedImpl_conserving pq lb
  any := by
    intro v l s h1 _ hs
    simp only [sortedImpl, sortedFromView, bind_ok, h1] at hs
    obtain ⟨l', e, hs⟩ := hs
    cases e; cases hs
    rw [← ents_perm (sortW_perm l)]
    exact scanSorted_reduces _
end

open Classical in
/-- The job on a block of which some slots may not have been written yet is the job of another class on a written block. -/
theorem job_shown {I : ShardImpl R} (hI : ConservingAny I) {b : Buffer R} (hcap : b.cap = 2 * b.hwm) (hw : 0 < b.hwm)
    (hcnt : b.tail - b.head ≤ b.hwm) (hl : b.lwm = b.tail - b.head) (hne : b.head < b.tail) :
    ∃ I' : ShardImpl R, I'.Conserving ∧ (shown b).WF ∧ ∀ L st, job L I b.hwm st b.view = job L I' b.hwm st (shown b).view := by
  have hwf : (shown b).WF := by
    refine ⟨hcap, hw, by rw [show (shown b).lwm = b.lwm from rfl, hl]; exact hcnt, hne.le, hcnt, ?_⟩
    intro w hw
    rw [shown_contents] at hw
    obtain ⟨x, -, rfl⟩ := List.mem_map.mp hw
    exact Buffer.setVisible_isVisible x
  let f : View R → Res (Shard R) := fun v => if v = (shown b).view then I.build b.view else I.build v
  have hf : f (shown b).view = I.build b.view := if_pos rfl
  refine ⟨{ I with build := f }, ⟨?_, hI.merge⟩, hwf, ?_⟩
  · intro v l s hv hb
    have hb : f v = .ok s := hb
    by_cases hx : v = (shown b).view
    · subst hx
      rw [hf] at hb
      have h1 := hv.2.1
      rw [Buffer.view_gets hwf] at h1
      cases h1
      rw [shown_ents]
      exact hI.any b.view b.contents s (copyOut_eq b.view (show 0 < b.cap by omega) hne.le (show b.tail - b.head < b.cap by omega))
        (gets_eq b.view (show 0 < b.cap by omega) (show b.tail - b.head ≤ b.cap by omega)) hb
    · have h1 : f v = I.build v := if_neg hx
      rw [h1] at hb
      exact hI.build v l s hv hb
  · intro L st
    have hfl : ∀ st1, Struct.flushBuffer L { I with build := f } st1 (shown b).view = Struct.flushBuffer L I st1 b.view := by
      intro st1
      have hcount : (shown b).view.count = b.view.count := rfl
      have happ : ∀ l : Level R, l.appendBuffer { I with build := f } (shown b).view = l.appendBuffer I b.view := by
        intro l
        unfold Level.appendBuffer
        simp only [hf]
      unfold Struct.flushBuffer Struct.flushIntoL0 Struct.newL0
      simp only [hcount, happ]
      rfl
    unfold job
    simp only [runTasks_merge, hfl]

/-- What the shape of a version is, and how many slots went into it. -/
def VShape (C : Cfg R) (v : Struct R) (slots : List Slot) : Prop :=
  match C.L with
  | .tiering => SOk .tiering C.P.hwm v ∧ v.sf = C.sf ∧ (∀ i ss, v.abs[i]? = some ss → TierLevel C.P.hwm C.sf i ss) ∧
      weight C.sf v.abs ≤ slots.length
  | .leveling => SOk .leveling C.P.hwm v ∧ v.sf = C.sf ∧ LevBound C.P.hwm C.sf v.abs ∧ LevTall C.P.hwm C.sf slots.length v.abs
  | .bsm => GBInv v ∧ ∃ n, n ≤ slots.length ∧ BCount C.P.hwm n (szs v)

theorem SOk.inv {L : Layout} {hwm : Nat} {st : Struct R} (h : SOk L hwm st) (hL : L ≠ .bsm) : SInv L st ∧ st.bufSize = hwm := by
  rcases h.2 with h | h
  · exact ⟨h.2.2.1, h.2.1⟩
  · exact absurd h.1 hL

/-- Serial shape of one job, leveling and tiering. -/
theorem job_shape {L : Layout} {I : ShardImpl R} (hI : I.Conserving) (hL : L ≠ .bsm) {b : Buffer R} {st st' : Struct R}
    (h : SOk L b.hwm st) (hb : b.WF) (hl : b.lwm = b.tail - b.head) (hne : b.head < b.tail) (hj : job L I b.hwm st b.view = .ok st') :
    SOk L b.hwm st' ∧ st'.sf = st.sf ∧
    (L = .tiering → (∀ i ss, st.abs[i]? = some ss → TierLevel b.hwm st.sf i ss) →
      (∀ i ss, st'.abs[i]? = some ss → TierLevel b.hwm st.sf i ss) ∧ weight st.sf st'.abs = weight st.sf st.abs + 1) ∧
    (L = .leveling → LevBound b.hwm st.sf st.abs → LevBound b.hwm st.sf st'.abs) ∧
    (L = .leveling → ∀ N, LevTall b.hwm st.sf N st.abs → LevTall b.hwm st.sf (N + (b.tail - b.head)) st'.abs) := by
  have hg : (⟨L, false, I, b, st⟩ : Index R).Inv := by
    rcases h with ⟨h0, ⟨h1, h2, h3, h4⟩ | ⟨h1, h2⟩⟩
    · exact ⟨h1, hb, show 0 < b.lwm by omega, show b.tail - b.head ≤ b.lwm by omega, h0, h2, h3, h4⟩
    · exact absurd h1 hL
  have hat : b.atLwm = true := by simp [Buffer.atLwm, Buffer.count, hl]
  have hd' : (⟨L, false, I, b, st⟩ : Index R).flush = .ok ⟨L, false, I, b.emptied, st'⟩ := by
    unfold job at hj
    simp only [bind_ok] at hj
    obtain ⟨ts, h1, s1, h2, h3⟩ := hj
    have h4 : b.advanceHead b.tail = .ok b.emptied := Buffer.advanceHead_tail hne
    unfold Index.flush
    simp only [h.copy_eq, h1, h2, bind, Except.bind]
    rw [show Struct.flushBuffer L I s1 b.view = .ok st' from h3, show b.view.tail = b.tail from rfl]
    dsimp only
    rw [h4]
  have hsf : st'.sf = st.sf ∧ st'.bufSize = st.bufSize := by
    obtain ⟨base, -, hor⟩ := flush_abs hg hat
    rcases hor with ⟨e, h1, -⟩ | ⟨st2, h1, -, -, h4, h5⟩
    · rw [h1] at hd'; cases hd'
    · rw [h1] at hd'
      have := congrArg Index.str (Except.ok.inj hd')
      have : st2 = st' := this
      subst this
      exact ⟨h5, h4⟩
  have hbs := (h.inv hL).2
  refine ⟨?_, hsf.1, ?_, ?_, ?_⟩
  · have := (DE.flush_ok hg hI hat hd').1
    have hw := SOk.of_ginv (d := ⟨L, false, I, b.emptied, st'⟩) (Or.inl this)
    exact hw
  · intro ht hlv
    obtain ⟨k1, -⟩ := tier_flush hg ht hI hat (n := weight st.sf st.abs) ⟨by simp only [hbs]; exact hlv, rfl⟩ hd'
    have k2 := k1.lvl
    have k3 := k1.sum
    simp only [hsf.1, hsf.2, hbs] at k2 k3
    exact ⟨k2, k3⟩
  · intro ht hlv
    obtain ⟨k1, -⟩ := lev_flush hg ht hI hat (by simp only [hbs]; exact hlv) hd'
    simp only [hsf.1, hsf.2, hbs] at k1
    exact k1
  · intro ht N hN
    have k1 := LevTall.flush hg ht hI hat (N := N) (by simp only [hbs]; exact hN) hd'
    simp only [hbs] at k1
    exact k1

variable [Inhabited R]

/-- The shape is kept, whether or not the flushed slots have been written. -/
theorem VShape.keeps {C : Cfg R} (hI : ConservingAny C.impl) (hw : 0 < C.P.hwm) (hsf : 0 < C.sf) : Keeps False C (VShape C) where
  init := by
    have h0 := emptyStruct_ok (C := C) hsf
    unfold VShape
    split
    · rename_i hL
      rw [hL] at h0
      exact ⟨h0, rfl, by intro i ss h; simp [emptyStruct, Struct.abs] at h, by simp [emptyStruct, Struct.abs, weight]⟩
    · rename_i hL
      rw [hL] at h0
      exact ⟨h0, rfl, (by intro i ss h; simp [emptyStruct, Struct.abs] at h), by simp [emptyStruct, Struct.abs, recs], by simp [emptyStruct, Struct.abs],
        by simp [emptyStruct, Struct.abs], by simp [emptyStruct, Struct.abs]⟩
    · refine ⟨⟨rfl, by intro l hl; simp [emptyStruct] at hl⟩, 0, Nat.le_refl _, ?_⟩
      exact ⟨by simp [emptyStruct, szs], by simp [emptyStruct, szs], by simp [emptyStruct, szs], by simp [emptyStruct, szs]⟩
  copy := by
    intro v sl h
    unfold VShape at h ⊢
    split
    · rename_i hL
      simp only [hL] at h
      rw [h.1.copy_eq]; exact h
    · rename_i hL
      simp only [hL] at h
      rw [h.1.copy_eq]; exact h
    · rename_i hL
      simp only [hL] at h
      obtain ⟨h1, h2⟩ := h.1.copy
      rw [h2]
      exact ⟨h1, h.2⟩
  job := by
    intro v v' sl acc hd h h0 hl _ hj
    have hpos : 0 < acc.length := List.length_pos_iff.mpr h0
    obtain ⟨I', hI', hwf, hjob⟩ := job_shown hI (b := buffer C acc.length (window C.P.cap hd acc) hd (hd + acc.length))
      rfl hw (by simp [buffer, hl]) (by simp [buffer]) (by simp [buffer]; exact hpos)
    have hj : Full.job C.L C.impl C.P.hwm v (buffer C acc.length (window C.P.cap hd acc) hd (hd + acc.length)).view = .ok v' := hj
    have hj2 := (hjob C.L v).symm.trans hj
    unfold VShape at h ⊢
    rw [List.length_append]
    split
    · rename_i hL
      simp only [hL] at h
      rw [hL] at hj2
      obtain ⟨a1, a2, a3, -⟩ := job_shape hI' (by simp) h.1 hwf (by simp [shown, buffer]) (by simp [shown, buffer]; exact hpos) hj2
      obtain ⟨b1, b2⟩ := a3 rfl (by rw [h.2.1]; exact h.2.2.1)
      rw [h.2.1] at b1 b2 a2
      refine ⟨a1, a2, b1, ?_⟩
      have := h.2.2.2
      omega
    · rename_i hL
      simp only [hL] at h
      rw [hL] at hj2
      obtain ⟨a1, a2, -, a3, a4⟩ := job_shape hI' (by simp) h.1 hwf (by simp [shown, buffer]) (by simp [shown, buffer]; exact hpos) hj2
      have b1 := a3 rfl (by rw [h.2.1]; exact h.2.2.1)
      have b2 := a4 rfl sl.length (by rw [h.2.1]; exact h.2.2.2)
      rw [h.2.1] at b1 a2 b2
      have e : (shown (buffer C acc.length (window C.P.cap hd acc) hd (hd + acc.length))).tail - (shown (buffer C acc.length (window C.P.cap hd acc) hd (hd + acc.length))).head = acc.length := by
        simp [shown, buffer]
      rw [e] at b2
      exact ⟨a1, a2, b1, b2⟩
    · rename_i hL
      simp only [hL] at h
      rw [hL] at hj2
      unfold Full.job at hj2
      simp only [bind_ok] at hj2
      obtain ⟨ts, g1, s1, g2, g3⟩ := hj2
      obtain ⟨k1, -, -, k4⟩ := gb_job hI' h.1 (lwm := C.P.hwm) (fun s hs => by
        have := build_size hI' hwf hs
        have e : (shown (buffer C acc.length (window C.P.cap hd acc) hd (hd + acc.length))).tail - (shown (buffer C acc.length (window C.P.cap hd acc) hd (hd + acc.length))).head = acc.length := by
          simp [shown, buffer]
        omega) g1 g2 g3
      obtain ⟨n, hn, hb⟩ := h.2
      exact ⟨k1, n + 1, by omega, (hb.step k4).1⟩

end DE.Full
