import Verif.Proofs.Views
import Verif.Proofs.Tagging
/-! `delete_record` on a view, over the positions of the view instead of the slots of the ring. -/
namespace DE
variable {R : Type} [DecidableEq R]

theorem findSlot_range' (data : Nat → Wrapped R) (r : R) : ∀ (n lo : Nat),
    View.findSlot data r lo n = (List.range' lo n).find? (fun i => decide ((data i).record = r))
  | 0, _ => rfl
  | n+1, lo => by
    rw [View.findSlot, List.range'_succ, List.find?_cons]
    by_cases h : (data lo).record = r
    · simp [h]
    · simp only [h, decide_false, if_false]
      exact findSlot_range' data r n (lo+1)

/-- The slots of a view in the order of its positions. -/
theorem slots_eq {h t c : Nat} (hc : 0 < c) (h1 : h < t) (h2 : t - h ≤ c) :
    (List.range (t - h)).map (fun k => (h + k) % c) =
      if h % c < t % c then List.range' (h % c) (t % c - h % c) else List.range' (h % c) (c - h % c) ++ List.range' 0 (t % c) := by
  have hs : h % c < c := Nat.mod_lt _ hc
  have hx : ∀ k, (h + k) % c = (h % c + k) % c := fun k => by rw [Nat.mod_add_mod]
  have ht : t % c = (h % c + (t - h)) % c := by rw [← hx]; congr 1; omega
  simp only [hx, ht]
  have hn : 0 < t - h := by omega
  generalize h % c = s at *
  generalize t - h = n at *
  by_cases hw : s + n < c
  · rw [Nat.mod_eq_of_lt hw, if_pos (by omega)]
    apply List.ext_getElem
    · simp
    · intro k hk _
      simp only [List.length_map, List.length_range] at hk
      simp only [List.getElem_map, List.getElem_range, List.getElem_range', one_mul]
      exact Nat.mod_eq_of_lt (by omega)
  · rw [mod_big (by omega) (by omega), if_neg (by omega)]
    apply List.ext_getElem
    · simp; omega
    · intro k hk _
      simp only [List.length_map, List.length_range] at hk
      simp only [List.getElem_map, List.getElem_range, List.getElem_append, List.length_range', List.getElem_range', one_mul]
      split
      · exact Nat.mod_eq_of_lt (by omega)
      · rw [mod_big (by omega) (by omega)]; omega

theorem deleteSlot_find (v : View R) (hc : 0 < v.cap) (h1 : v.head < v.tail) (h2 : v.tail - v.head ≤ v.cap) (r : R) :
    v.deleteSlot r =
      ((List.range (v.tail - v.head)).map (fun k => (v.head + k) % v.cap)).find? (fun i => decide ((v.data i).record = r)) := by
  rw [slots_eq hc h1 h2]
  unfold View.deleteSlot View.start View.stop
  split
  · exact findSlot_range' ..
  · rw [findSlot_range', findSlot_range', List.find?_append]
    cases List.find? (fun i => decide ((v.data i).record = r)) (List.range' (v.head % v.cap) (v.cap - v.head % v.cap)) <;> rfl

theorem mod_inj_near {p q c : Nat} (h1 : p ≤ q) (h2 : q < p + c) (h : p % c = q % c) : p = q := by
  have := Nat.sub_mod_eq_zero_of_mod_eq h.symm
  rw [Nat.mod_eq_of_lt (by omega)] at this
  omega

/-- The first position of a window whose record is `r`. -/
theorem deleteSlot_none {v : View R} (hc : 0 < v.cap) (h1 : v.head < v.tail) (h2 : v.tail - v.head ≤ v.cap) {r : R}
    (h : v.deleteSlot r = none) : ∀ p, v.head ≤ p → p < v.tail → (v.data (p % v.cap)).record ≠ r := by
  rw [deleteSlot_find v hc h1 h2, List.find?_eq_none] at h
  intro p hp hp'
  have := h (p % v.cap) (List.mem_map.mpr ⟨p - v.head, List.mem_range.mpr (by omega), by congr 1; omega⟩)
  simpa using this

theorem deleteSlot_first {v : View R} (hc : 0 < v.cap) (h1 : v.head < v.tail) (h2 : v.tail - v.head ≤ v.cap) {r : R} {j : Nat}
    (h : v.deleteSlot r = some j) : ∃ p, v.head ≤ p ∧ p < v.tail ∧ j = p % v.cap ∧ (v.data (p % v.cap)).record = r ∧
      ∀ q, v.head ≤ q → q < p → (v.data (q % v.cap)).record ≠ r := by
  rw [deleteSlot_find v hc h1 h2, List.find?_map, Option.map_eq_some_iff] at h
  obtain ⟨k, hk, rfl⟩ := h
  rw [List.find?_eq_some_iff_getElem] at hk
  obtain ⟨e, i, hi, e2, e3⟩ := hk
  simp only [List.length_range] at hi
  simp only [List.getElem_range] at e2
  subst e2
  refine ⟨v.head + i, by omega, by omega, rfl, by simpa using e, ?_⟩
  intro q hq hq'
  have := e3 (q - v.head) (by omega)
  simp only [List.getElem_range, Function.comp, Bool.not_eq_true', decide_eq_false_iff_not] at this
  rwa [show v.head + (q - v.head) = q by omega] at this

end DE
