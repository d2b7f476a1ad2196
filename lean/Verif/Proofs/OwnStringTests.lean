import Verif.Model.OwnStringTests
import Verif.Proofs.OwnShardTests
import Verif.Proofs.ViewDelete
import Verif.Proofs.FSTrie

/-!
Buffers and shards of the project's own string shard tests.
-/

namespace DE.Own
variable {R : Type} [LinearOrder R]

/-- Tag the entries of the record `r`. -/
def tagRec (D : List R) (e : Entry R) : Entry R := if e.record ∈ D then { e with del := true } else e

theorem deleteRecord_entries {b : Buffer R} (hb : b.WF) (hne : b.head < b.tail) (hnd : (b.contents.map Wrapped.record).Nodup) (r : R) :
    (b.deleteRecord r).1.WF ∧ (b.deleteRecord r).1.head = b.head ∧ (b.deleteRecord r).1.tail = b.tail ∧
    (b.deleteRecord r).1.hwm = b.hwm ∧
    (b.deleteRecord r).1.contents.map Wrapped.entry = (b.contents.map Wrapped.entry).map (tagRec [r]) := by
  have hc : 0 < b.view.cap := hb.cap_pos
  have hlt := hb.cnt_lt
  have hn : b.view.tail - b.view.head ≤ b.view.cap := le_of_lt hlt
  unfold Buffer.deleteRecord
  cases hd : b.view.deleteSlot r with
  | none =>
    refine ⟨hb, rfl, rfl, rfl, ?_⟩
    have := deleteSlot_none hc hne hn hd
    show b.contents.map Wrapped.entry = _
    rw [List.map_map]
    apply List.map_congr_left
    intro w hw
    unfold Buffer.contents at hw
    obtain ⟨k, hk, rfl⟩ := List.mem_map.mp hw
    rw [List.mem_range] at hk
    have h2 := this (b.head + k) (by simp [Buffer.view]) (by simp only [Buffer.view]; omega)
    simp only [Buffer.view] at h2
    simp [tagRec, Wrapped.entry, h2]
  | some j =>
    obtain ⟨p, hp, hp', rfl, e, -⟩ := deleteSlot_first hc hne hn hd
    simp only [Buffer.view] at hp hp' e
    refine ⟨hb.tag _, rfl, rfl, rfl, ?_⟩
    simp only [Buffer.view]
    apply List.ext_getElem
    · simp [Buffer.contents]
    · intro k hk _
      simp only [Buffer.contents, List.length_map, List.length_range] at hk
      simp only [Buffer.contents, List.getElem_map, List.getElem_range, Buffer.write]
      by_cases hkp : b.head + k = p
      · subst hkp
        rw [if_pos rfl, setDelete_entry]
        simp [tagRec, Wrapped.entry, e]
      · have hm : (b.head + k) % b.cap ≠ p % b.cap := by
          intro hm
          apply hkp
          rcases Nat.le_total (b.head + k) p with hle | hle
          · exact mod_inj_near hle (by omega) hm
          · exact (mod_inj_near hle (by omega) hm.symm).symm
        rw [if_neg hm]
        have hr : (b.data ((b.head + k) % b.cap)).record ≠ r := by
          intro h
          apply hkp
          have h1 : (b.contents.map Wrapped.record)[k]? = some r := by
            simp [Buffer.contents, List.getElem?_range hk, h]
          have h2 : (b.contents.map Wrapped.record)[p - b.head]? = some r := by
            simp [Buffer.contents, List.getElem?_range (show p - b.head < b.tail - b.head by omega),
              show b.head + (p - b.head) = p by omega, e]
          have := (List.nodup_iff_getElem?_ne_getElem?.mp hnd)
          by_contra hne'
          rcases Nat.lt_or_ge k (p - b.head) with h3 | h3
          · exact this k (p - b.head) h3 (by simp [Buffer.contents]; omega) (h1.trans h2.symm)
          · exact this (p - b.head) k (by omega) (by simp [Buffer.contents]; omega) (h2.trans h1.symm)
        simp [tagRec, Wrapped.entry, hr]

theorem deletes_entries : ∀ (D : List R) {b : Buffer R}, b.WF → b.head < b.tail → (b.contents.map Wrapped.record).Nodup →
    (D.foldl (fun b r => (b.deleteRecord r).1) b).WF ∧ (D.foldl (fun b r => (b.deleteRecord r).1) b).head = b.head ∧
    (D.foldl (fun b r => (b.deleteRecord r).1) b).tail = b.tail ∧ (D.foldl (fun b r => (b.deleteRecord r).1) b).hwm = b.hwm ∧
    (D.foldl (fun b r => (b.deleteRecord r).1) b).contents.map Wrapped.entry = (b.contents.map Wrapped.entry).map (tagRec D)
  | [], b, hb, _, _ => ⟨hb, rfl, rfl, rfl, by
      simp only [List.foldl_nil]
      conv_lhs => rw [← List.map_id (b.contents.map Wrapped.entry)]
      exact List.map_congr_left (fun e _ => by simp [tagRec])⟩
  | r :: D, b, hb, hne, hnd => by
    obtain ⟨h1, h2, h3, h4, h5⟩ := deleteRecord_entries hb hne hnd r
    have hrec : (b.deleteRecord r).1.contents.map Wrapped.record = b.contents.map Wrapped.record := by
      have := congrArg (List.map Entry.record) h5
      simp only [List.map_map] at this
      refine this.trans (List.map_congr_left (fun w _ => ?_))
      simp only [Function.comp, tagRec]
      split <;> rfl
    obtain ⟨g1, g2, g3, g4, g5⟩ := deletes_entries D h1 (by rw [h2, h3]; exact hne) (by rw [hrec]; exact hnd)
    rw [List.foldl_cons]
    refine ⟨g1, g2.trans h2, g3.trans h3, g4.trans h4, ?_⟩
    rw [g5, h5, List.map_map]
    apply List.map_congr_left
    intro e _
    simp only [Function.comp, tagRec, List.mem_cons, List.not_mem_nil, or_false]
    by_cases ha : e.record = r <;> by_cases hb : e.record ∈ D <;> simp [ha, hb]

/-- What the buffer constructor of `FSTrie` stores. -/
theorem fstBuild_recs {lit : R → Bool} (hlit : NoLit lit) {b : Buffer R} (hb : b.WF) :
    ∃ s, fstBuild lit b.view = .ok s ∧ s.tscnt = 0 ∧
      (recs s).Perm ((b.contents.filter (fun w => !w.isDeleted)).map Wrapped.record) ∧ (recs s).Pairwise (· ≤ ·) ∧
      ∀ w ∈ s.data, w.isDeleted = false ∧ ∃ w' ∈ b.contents, w'.entry = w.entry := by
  have hf : (sortW b.contents).filter (fun w => !(w.isDeleted || !w.isVisible || lit w.record)) =
      (sortW b.contents).filter (fun w => !w.isDeleted) := by
    apply List.filter_congr
    intro w hw
    rw [hb.vis w ((sortW_perm _).mem_iff.mp hw), hlit]
    simp
  refine ⟨⟨((sortW b.contents).filter (fun w => !w.isDeleted)).map Wrapped.clearTimestamp, 0⟩, ?_, rfl, ?_, ?_, ?_⟩
  · unfold fstBuild
    rw [Buffer.view_gets hb, ← hf]
    rfl
  · simp only [recs, List.map_map]
    exact ((sortW_perm b.contents).filter _).map _
  · simp only [recs, List.map_map, List.pairwise_map]
    exact List.Pairwise.filter _ (sortW_recSorted _)
  · intro w hw
    simp only [List.mem_map, List.mem_filter] at hw
    obtain ⟨w', ⟨h1, h2⟩, rfl⟩ := hw
    have e := clearTimestamp_entry w'
    refine ⟨?_, w', (sortW_perm _).mem_iff.mp h1, e.symm⟩
    have := congrArg Entry.del e
    simp only [Wrapped.entry] at this
    rw [this]
    simpa using h2

end DE.Own
