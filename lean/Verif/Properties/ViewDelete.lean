import Verif.Proofs.ViewDelete
import Verif.Properties.Views
/-!
C128: `delete_record` on a view, and the project's own test of it (tests/mutable_buffer_tests.cpp, `t_bview_delete`).
-/
namespace DE
open VBuf
variable {R : Type} [DecidableEq R] [Inhabited R]

/-- The delete tags that `get(i)->is_deleted()` shows through a view. -/
def tagsOf (x : VBuf R) (v : VObj) : Res (List Bool) := (window x.b v).gets.map (·.map Wrapped.isDeleted)

/-- The records a view covers, of the accepted appends `L`. -/
def covered (L : List (R × Bool)) (v : VObj) : List R := ((L.drop v.head).take (v.tail - v.head)).map Prod.fst

omit [DecidableEq R] [Inhabited R] in
theorem covered_get {L : List (R × Bool)} {v : VObj} (hl : v.tail ≤ L.length) {k : Nat} (hk : v.head + k < v.tail) :
    (covered L v)[k]? = (L[v.head + k]?).map Prod.fst := by
  unfold covered
  rw [List.getElem?_map, List.getElem?_take_of_lt (by omega), List.getElem?_drop]

omit [Inhabited R] in
theorem near {x : VBuf R} {L : List (R × Bool)} (hi : Inv x L) (hh : Half x) {v : VObj} (hv : v ∈ liveViews x) :
    v.head ≤ v.tail ∧ v.tail ≤ x.b.tail ∧ x.b.tail ≤ v.head + x.b.cap ∧ 0 < x.b.cap ∧ (window x.b v).cap = x.b.cap := by
  obtain ⟨a, b⟩ := mem_liveViews.mp hv
  obtain ⟨h1, h2, h3⟩ := hi.live v a b
  have := hi.ht
  have := hi.hwm
  have := hh.cnt
  refine ⟨h1, h2, ?_, by omega, by simp [window, b]⟩
  rcases h3 with e | ⟨e, e'⟩
  · omega
  · have := hh.old e'
    omega

omit [Inhabited R] in
theorem tagsOf_eq {x : VBuf R} {L : List (R × Bool)} (hi : Inv x L) (hh : Half x) {v : VObj} (hv : v ∈ liveViews x) :
    tagsOf x v = .ok ((List.range (v.tail - v.head)).map (fun k => (x.b.data ((v.head + k) % x.b.cap)).isDeleted)) := by
  obtain ⟨h1, h2, h3, h4, h5⟩ := near hi hh hv
  unfold tagsOf
  rw [gets_eq _ (by rw [h5]; exact h4) (by rw [h5]; simp only [window]; omega), h5]
  simp [Except.map, window]

/-- C128: on a view with at least one record, `delete_record(r)` returns true exactly if the view has a record equal to `r`. Then the first
such record of the view is tagged: seen through any live view, its tag is set and every other tag is as before. Otherwise nothing changes.
Missing: views without records (`C128_false_empty`), buffers whose high watermark is more than half their capacity (`C95_false_capacity`). -/
theorem C128_partial {lwm hwm capacity : Nat} (hw : 0 < hwm) (hc : capacity = 0 ∨ 2 * hwm ≤ capacity) {x : VBuf R} {L : List (R × Bool)}
    (h : Reach LegalHalf lwm hwm capacity x L) {i : Nat} {v : VObj} (hv : x.objs[i]? = some (some v)) (ha : v.active = true)
    (hne : v.head < v.tail) (r : R) :
    ∃ y b, x.step (.tag i r) = .ok (some (y, b)) ∧ (b = true ↔ r ∈ covered L v) ∧ liveViews y = liveViews x ∧ (b = false → y = x) ∧
      (b = true → ∃ p, v.head ≤ p ∧ p < v.tail ∧ (L[p]?).map Prod.fst = some r ∧
        (∀ q, v.head ≤ q → q < p → (L[q]?).map Prod.fst ≠ some r) ∧
        ∀ u ∈ liveViews x, ∃ l, tagsOf x u = .ok l ∧ l.length = u.tail - u.head ∧
          tagsOf y u = .ok (l.mapIdx (fun k t => t || decide (u.head + k = p)))) := by
  have hi := h.inv (fun _ _ h => h.1) hw
  have hh := h.half hw hc
  have hlv : v ∈ liveViews x := mem_liveViews.mpr ⟨List.mem_of_getElem? hv, ha⟩
  obtain ⟨h1, h2, h3, h4, h5⟩ := near hi hh hlv
  have hrec : ∀ q, v.head ≤ q → q < v.tail → (L[q]?).map Prod.fst = some (x.b.data (q % x.b.cap)).record := by
    intro q hq hq'
    rw [hi.ring q (by omega) (by omega)]; rfl
  have hmem : r ∈ covered L v ↔ ∃ q, v.head ≤ q ∧ q < v.tail ∧ (x.b.data (q % x.b.cap)).record = r := by
    rw [List.mem_iff_getElem?]
    constructor
    · rintro ⟨k, hk⟩
      have hlt : k < v.tail - v.head := by
        have := (List.getElem?_eq_some_iff.mp hk).1
        unfold covered at this
        simp only [List.length_map, List.length_take] at this
        omega
      rw [covered_get (by rw [hi.len]; exact h2) (by omega), hrec _ (by omega) (by omega)] at hk
      exact ⟨_, by omega, by omega, Option.some.inj hk⟩
    · rintro ⟨q, hq, hq', e⟩
      refine ⟨q - v.head, ?_⟩
      rw [covered_get (by rw [hi.len]; exact h2) (by omega), show v.head + (q - v.head) = q by omega, hrec q hq hq', e]
  have hs : x.step (.tag i r) = match (window x.b v).deleteSlot r with
      | some j => .ok (some ({ x with b := { x.b with data := Buffer.write x.b.data j (x.b.data j).setDelete } }, true))
      | none => .ok (some (x, false)) := by
    simp only [VBuf.step, obj_ok hv, bind, Except.bind]
    cases (window x.b v).deleteSlot r <;> rfl
  have hcp : 0 < (window x.b v).cap := by rw [h5]; exact h4
  have hn : (window x.b v).tail - (window x.b v).head ≤ (window x.b v).cap := by rw [h5]; simp only [window]; omega
  cases hd : (window x.b v).deleteSlot r with
  | none =>
    rw [hd] at hs
    refine ⟨x, false, hs, ⟨fun h => (by cases h), fun hm => ?_⟩, rfl, fun _ => rfl, fun h => (by cases h)⟩
    obtain ⟨q, hq, hq', e⟩ := hmem.mp hm
    have := deleteSlot_none hcp hne hn hd q hq hq'
    rw [h5] at this
    exact absurd e this
  | some j =>
    rw [hd] at hs
    obtain ⟨p, hp, hp', rfl, e, hf⟩ := deleteSlot_first hcp hne hn hd
    simp only [h5] at hs e hf
    change v.head ≤ p at hp
    change p < v.tail at hp'
    refine ⟨_, true, hs, ⟨fun _ => hmem.mpr ⟨p, hp, hp', e⟩, fun _ => rfl⟩, rfl, fun h => (by cases h), fun _ => ⟨p, hp, hp', ?_, ?_, ?_⟩⟩
    · rw [hrec p hp hp']; exact congrArg some e
    · intro q hq hq'
      rw [hrec q hq (by omega)]
      exact fun h => hf q hq hq' (Option.some.inj h)
    · intro u hu
      refine ⟨_, tagsOf_eq hi hh hu, by simp, ?_⟩
      have hty := tagsOf_eq (x := { x with b := { x.b with data := Buffer.write x.b.data (p % x.b.cap) (x.b.data (p % x.b.cap)).setDelete } })
        (tag_inv hi (p % x.b.cap)) ⟨hh.hwm, hh.cnt, hh.old⟩ (v := u) hu
      refine hty.trans (congrArg Except.ok ?_)
      obtain ⟨u1, u2, u3, -, -⟩ := near hi hh hu
      apply List.ext_getElem
      · simp
      · intro k hk _
        simp only [List.length_map, List.length_range] at hk
        simp only [List.getElem_map, List.getElem_range, List.getElem_mapIdx, Buffer.write]
        by_cases hkp : u.head + k = p
        · rw [if_pos (by rw [hkp]), decide_eq_true hkp, Bool.or_true]
          exact congrArg Entry.del (setDelete_entry _)
        · rw [decide_eq_false hkp, Bool.or_false, if_neg]
          intro hm
          apply hkp
          rcases Nat.le_total (u.head + k) p with hle | hle
          · exact mod_inj_near hle (by omega) hm
          · exact (mod_inj_near hle (by omega) hm.symm).symm

/-- `delete_record` for a list of records on view object `i`, with the return values. -/
def deletes (x : VBuf R) (i : Nat) (D : List R) : Res (Option (VBuf R × List Bool)) := x.run (D.map (.tag i))

/-- C128, the project's test for any buffer, view and records: if the records of a view are distinct, then after any list of `delete_record` calls
through it, each call has returned whether the record is in the view, and exactly the records of the list are tagged in addition. Missing:
as for `C128_partial`. -/
theorem C128_list_partial {lwm hwm capacity : Nat} (hw : 0 < hwm) (hc : capacity = 0 ∨ 2 * hwm ≤ capacity) {L : List (R × Bool)}
    {i : Nat} {v : VObj} (ha : v.active = true) (hne : v.head < v.tail) (hnd : (covered L v).Nodup) (D : List R) :
    ∀ {x : VBuf R}, Reach LegalHalf lwm hwm capacity x L → x.objs[i]? = some (some v) →
    ∃ y l, deletes x i D = .ok (some (y, D.map (fun r => decide (r ∈ covered L v)))) ∧ tagsOf x v = .ok l ∧
      tagsOf y v = .ok (List.zipWith (fun t r => t || decide (r ∈ D)) l (covered L v)) := by
  induction D with
  | nil =>
    intro x h hv
    have hi := h.inv (fun _ _ h => h.1) hw
    have hh := h.half hw hc
    have hlv : v ∈ liveViews x := mem_liveViews.mpr ⟨List.mem_of_getElem? hv, ha⟩
    obtain ⟨h1, h2, -⟩ := near hi hh hlv
    refine ⟨x, _, rfl, tagsOf_eq hi hh hlv, ?_⟩
    rw [tagsOf_eq hi hh hlv]
    refine congrArg Except.ok ?_
    apply List.ext_getElem
    · have := hi.len
      simp [covered]; omega
    · intro k _ _; simp
  | cons r D ih =>
    intro x h hv
    have hi := h.inv (fun _ _ h => h.1) hw
    have hh := h.half hw hc
    have hlv : v ∈ liveViews x := mem_liveViews.mpr ⟨List.mem_of_getElem? hv, ha⟩
    obtain ⟨h1, h2, -⟩ := near hi hh hlv
    have hlen : (covered L v).length = v.tail - v.head := by
      have := hi.len
      simp [covered]; omega
    obtain ⟨y, b, hs, hb, hlive, hf, ht⟩ := C128_partial hw hc h hv ha hne r
    have hr : Reach LegalHalf lwm hwm capacity y L :=
      Reach.step h (o := .tag i r) (b := b) ⟨⟨v, hv⟩, fun n h => by cases h⟩ hs
    have hyv : y.objs[i]? = some (some v) := by
      simp only [VBuf.step, obj_ok hv, bind, Except.bind] at hs
      split at hs <;> (cases hs; exact hv)
    obtain ⟨z, l, hz, hl, hzl⟩ := ih hr hyv
    have hbd : b = decide (r ∈ covered L v) := by
      rw [Bool.eq_iff_iff, hb, decide_eq_true_iff]
    refine ⟨z, _, ?_, tagsOf_eq hi hh hlv, ?_⟩
    · unfold deletes at hz ⊢
      simp only [List.map_cons, VBuf.run, hs, bind, Except.bind]
      rw [hz]
      simp only [hbd]
    · rw [hzl]
      refine congrArg Except.ok ?_
      cases b with
      | false =>
        have := hf rfl
        subst this
        rw [tagsOf_eq hi hh hlv] at hl
        cases hl
        apply List.ext_getElem
        · simp
        · intro k hk _
          simp only [List.length_zipWith, List.length_map, List.length_range] at hk
          simp only [List.getElem_zipWith, List.mem_cons]
          have : (covered L v)[k] ≠ r := by
            intro e
            have : r ∈ covered L v := e ▸ List.getElem_mem _
            rw [← hb] at this
            cases this
          simp [this]
      | true =>
        obtain ⟨p, hp, hp', e, -, hu⟩ := ht rfl
        obtain ⟨l', e1, e2, e3⟩ := hu v hlv
        rw [tagsOf_eq hi hh hlv] at e1
        cases e1
        rw [e3] at hl
        cases hl
        apply List.ext_getElem
        · simp
        · intro k hk _
          simp only [List.length_zipWith, List.length_mapIdx, List.length_map, List.length_range] at hk
          simp only [List.getElem_zipWith, List.getElem_mapIdx, List.mem_cons]
          have hpk : (covered L v)[p - v.head]? = some r := by
            rw [covered_get (by rw [hi.len]; exact h2) (by omega), show v.head + (p - v.head) = p by omega]; exact e
          have : (v.head + k = p) ↔ (covered L v)[k] = r := by
            constructor
            · rintro rfl
              rw [Nat.add_sub_cancel_left, List.getElem?_eq_getElem (by omega)] at hpk
              exact Option.some.inj hpk
            · intro ek
              have h3 : (covered L v)[k]? = some r := by rw [List.getElem?_eq_getElem (by omega), ek]
              have := (List.getElem?_inj (by omega) hnd).mp (h3.trans hpk.symm)
              omega
          by_cases hc1 : (covered L v)[k] = r
          · rw [decide_eq_true (this.mpr hc1)]; simp [hc1]
          · rw [decide_eq_false (fun h => hc1 (this.mp h))]; simp [hc1]

/-- C128 fails for a view without records: its wrapped start and end are equal, so `delete_record` searches the whole ring (BufferView.h 85-97),
finds a record that has left the buffer and returns true. -/
theorem C128_false_empty : ∃ (x : VBuf Nat) (L : List (Nat × Bool)) (v : VObj) (y : VBuf Nat), Reach Legal 1 2 0 x L ∧
    x.objs[0]? = some (some v) ∧ v.active = true ∧ covered L v = [] ∧ x.step (.tag 0 7) = .ok (some (y, true)) := by
  obtain ⟨x0, hx0⟩ : ∃ x0 : VBuf Nat, VBuf.new 1 2 0 = .ok x0 := ⟨_, rfl⟩
  cases hr : runLegal x0 [] [.append 7 false, .advance 1, .view] with
  | none => cases hx0; cases hr
  | some y =>
    have hre := reach_run _ (.new hx0) hr
    cases hx0
    cases hr
    exact ⟨_, _, ⟨1, 1, true⟩, _, hre, rfl, rfl, rfl, rfl⟩

/-- What `delete_record` on a view without records does instead, once the ring has been filled: it returns true exactly if `r` is among the last
`capacity` accepted appends, in the buffer or not. -/
theorem C128_empty {lwm hwm capacity : Nat} (hw : 0 < hwm) {x : VBuf R} {L : List (R × Bool)} (h : Reach Legal lwm hwm capacity x L)
    {i : Nat} {v : VObj} (hv : x.objs[i]? = some (some v)) (ha : v.active = true) (he : v.head = v.tail) (hf : x.b.cap ≤ L.length) (r : R) :
    ∃ y b, x.step (.tag i r) = .ok (some (y, b)) ∧ (b = true ↔ r ∈ (L.drop (L.length - x.b.cap)).map Prod.fst) := by
  have hi := h.inv (fun _ _ h => h) hw
  have hcp : 0 < x.b.cap := by have := hi.hwm; omega
  have hs : v.head % x.b.cap < x.b.cap := Nat.mod_lt _ hcp
  have hd : (window x.b v).deleteSlot r = (List.range' (v.head % x.b.cap) (x.b.cap - v.head % x.b.cap) ++ List.range' 0 (v.head % x.b.cap)).find?
      (fun i => decide ((x.b.data i).record = r)) := by
    unfold View.deleteSlot View.start View.stop
    simp only [window, ha, if_true, ← he, lt_irrefl, if_false]
    rw [findSlot_range', findSlot_range', List.find?_append]
    cases List.find? (fun i => decide ((x.b.data i).record = r)) (List.range' (v.head % x.b.cap) (x.b.cap - v.head % x.b.cap)) <;> rfl
  have hm : (∃ j, (window x.b v).deleteSlot r = some j) ↔ r ∈ (L.drop (L.length - x.b.cap)).map Prod.fst := by
    rw [hd, ← Option.isSome_iff_exists, List.find?_isSome]
    simp only [List.mem_append, List.mem_range'_1, decide_eq_true_eq, List.mem_map]
    have hlen := hi.len
    constructor
    · rintro ⟨j, hj, e⟩
      have hj' : j < x.b.cap := by omega
      obtain ⟨p, h1, h2, h3⟩ : ∃ p, x.b.tail - x.b.cap ≤ p ∧ p < x.b.tail ∧ p % x.b.cap = j := by
        have hm : (x.b.tail - x.b.cap) % x.b.cap < x.b.cap := Nat.mod_lt _ hcp
        have hda := Nat.div_add_mod (x.b.tail - x.b.cap) x.b.cap
        by_cases hle : (x.b.tail - x.b.cap) % x.b.cap ≤ j
        · refine ⟨x.b.cap * ((x.b.tail - x.b.cap) / x.b.cap) + j, by omega, by omega, ?_⟩
          rw [Nat.mul_add_mod]; exact Nat.mod_eq_of_lt hj'
        · refine ⟨x.b.cap * ((x.b.tail - x.b.cap) / x.b.cap) + (x.b.cap + j), by omega, by omega, ?_⟩
          rw [Nat.mul_add_mod, Nat.add_mod_left]; exact Nat.mod_eq_of_lt hj'
      have hh := hi.ring p h2 (by omega)
      unfold VBuf.Holds at hh
      rw [h3] at hh
      refine ⟨((x.b.data j).record, (x.b.data j).isTombstone), List.mem_of_getElem? (i := p - (L.length - x.b.cap)) ?_, e⟩
      rw [List.getElem?_drop, show L.length - x.b.cap + (p - (L.length - x.b.cap)) = p by omega]
      exact hh
    · rintro ⟨a, ham, rfl⟩
      obtain ⟨k, hk⟩ := List.mem_iff_getElem?.mp ham
      rw [List.getElem?_drop] at hk
      have hlt := (List.getElem?_eq_some_iff.mp hk).1
      have hh := hi.ring (L.length - x.b.cap + k) (by omega) (by omega)
      unfold VBuf.Holds at hh
      rw [hk] at hh
      have hmod : (L.length - x.b.cap + k) % x.b.cap < x.b.cap := Nat.mod_lt _ hcp
      exact ⟨(L.length - x.b.cap + k) % x.b.cap, by omega, (congrArg Prod.fst (Option.some.inj hh)).symm⟩
  cases hds : (window x.b v).deleteSlot r with
  | none =>
    refine ⟨x, false, by simp [VBuf.step, obj_ok hv, bind, Except.bind, hds], ⟨fun h => (by cases h), fun h => ?_⟩⟩
    obtain ⟨j, hj⟩ := hm.mpr h
    rw [hds] at hj; cases hj
  | some j => exact ⟨_, true, by simp [VBuf.step, obj_ok hv, bind, Except.bind, hds]; rfl, ⟨fun _ => hm.mp ⟨j, hds⟩, fun _ => rfl⟩⟩

/-- A full ring and a view without records: 2 left the buffer and is still found. -/
example : (match VBuf.new 1 2 0 with
    | .error _ => none
    | .ok x =>
      match runLegal x [] [.append 1 false, .append 2 false, .advance 2, .append 3 false, .append 4 false, .advance 4, .view] with
      | none => none
      | some (y, L) =>
        match y.step (.tag 0 2) with
        | .ok (some (_, b)) => some (b, y.b.cap, L.map Prod.fst, (liveViews y).map (fun v => (v.head, v.tail)))
        | _ => none) = some (true, 4, [1, 2, 3, 4], [(4, 4)]) := by rfl

/-- The hypotheses are met by a view that wraps around the end of the ring; 5 is in it and is tagged, 2 is not in it. -/
example : (match VBuf.new 1 2 0 with
    | .error _ => none
    | .ok x =>
      match runLegal x [] [.append 1 false, .append 2 false, .advance 2, .append 3 false, .append 4 false, .advance 3, .append 5 false, .view] with
      | none => none
      | some (y, L) =>
        match deletes y 0 [5, 2, 5] with
        | .ok (some (z, bs)) => some (L, bs, (liveViews z).map (fun v => (v.head, v.tail, tagsOf z v)))
        | _ => none) =
    some ([(1, false), (2, false), (3, false), (4, false), (5, false)], [true, false, true], [(3, 5, .ok [false, true])]) := by rfl

end DE
