import Verif.Proofs.Merge
import Verif.Proofs.Bits

namespace DE
variable {R : Type}

/-! ### Except helpers -/

theorem mapM_ok {α β : Type} {f : α → Res β} {g : α → β} : ∀ {l : List α},
    (∀ x ∈ l, f x = .ok (g x)) → l.mapM f = .ok (l.map g)
  | [], _ => rfl
  | a :: l, h => by
    have ih := mapM_ok (f := f) (g := g) (l := l) (fun x hx => h x (by simp [hx]))
    rw [List.mapM_cons, h a (by simp), ih]; rfl

theorem bind_ok {α β : Type} {x : Res α} {f : α → Res β} {b : β} :
    (x >>= f) = .ok b ↔ ∃ a, x = .ok a ∧ f a = .ok b := by
  cases x with
  | error e => constructor
               · intro h; cases h
               · rintro ⟨a, h, -⟩; cases h
  | ok a => constructor
            · intro h; exact ⟨a, rfl, h⟩
            · rintro ⟨a', h, g⟩; cases h; exact g

theorem assertC_ok {b : Bool} {u : Unit} : assertC b = .ok u ↔ b = true := by
  unfold assertC; cases b <;> simp

/-! ### Ring arithmetic -/

/-- The well-formedness invariant of the buffer. -/
structure Buffer.WF (b : Buffer R) : Prop where
  cap : b.cap = 2 * b.hwm
  hwm : 0 < b.hwm
  lwm : b.lwm ≤ b.hwm
  ht : b.head ≤ b.tail
  cnt : b.tail - b.head ≤ b.hwm
  vis : ∀ w ∈ b.contents, w.isVisible = true

theorem mod_big {x c : Nat} (h : c ≤ x) (h2 : x < 2 * c) : x % c = x - c := by
  rw [Nat.mod_eq_sub_mod h, Nat.mod_eq_of_lt (by omega)]

theorem toIdx_eq (v : View R) (hc : 0 < v.cap) {i : Nat} (hi : i < v.cap) :
    v.toIdx i = (v.head + i) % v.cap := by
  unfold View.toIdx View.start
  have hlt : v.head % v.cap < v.cap := Nat.mod_lt _ hc
  rw [Nat.add_mod, Nat.mod_eq_of_lt hi]
  generalize v.head % v.cap = s at *
  split
  · next h => rw [mod_big h (by omega)]; omega
  · next h => rw [Nat.mod_eq_of_lt (by omega)]

theorem toIdx_lt (v : View R) (hc : 0 < v.cap) {i : Nat} (hi : i < v.cap) : v.toIdx i < v.cap := by
  rw [toIdx_eq v hc hi]; exact Nat.mod_lt _ hc

/-- Reading a view record by record. -/
theorem gets_eq (v : View R) (hc : 0 < v.cap) (hn : v.tail - v.head ≤ v.cap) :
    v.gets = .ok ((List.range (v.tail - v.head)).map (fun i => v.data ((v.head + i) % v.cap))) := by
  unfold View.gets View.count
  apply mapM_ok
  intro i hi
  have hi' : i < v.cap := by have := List.mem_range.mp hi; omega
  unfold View.get
  rw [if_pos (toIdx_lt v hc hi'), toIdx_eq v hc hi']

/-- Copying a view out. -/
theorem copyOut_eq (v : View R) (hc : 0 < v.cap) (hht : v.head ≤ v.tail) (hn : v.tail - v.head < v.cap) :
    v.copyOut = .ok ((List.range (v.tail - v.head)).map (fun i => v.data ((v.head + i) % v.cap))) := by
  unfold View.copyOut View.start View.stop View.count View.slice
  have h1 : v.head % v.cap < v.cap := Nat.mod_lt _ hc
  have htail : v.tail % v.cap = (v.head % v.cap + (v.tail - v.head)) % v.cap := by
    conv_lhs => rw [show v.tail = v.head + (v.tail - v.head) by omega]
    rw [Nat.add_mod, Nat.mod_eq_of_lt hn]
  have hidx : ∀ i, i < v.cap → (v.head + i) % v.cap = (v.head % v.cap + i) % v.cap := by
    intro i hi; rw [Nat.add_mod, Nat.mod_eq_of_lt hi]
  generalize v.head % v.cap = s at *
  generalize hcnt : v.tail - v.head = n at *
  split
  · next h =>
    have hge : v.cap ≤ s + n := by
      by_contra hlt
      have := Nat.mod_eq_of_lt (a := s + n) (b := v.cap) (by omega); omega
    rw [mod_big hge (by omega)] at htail
    congr 1
    apply List.ext_getElem
    · simp; omega
    · intro i hi1 hi2
      simp at hi1 hi2
      rw [List.getElem_append]
      split
      · next hlt =>
        simp at hlt ⊢
        rw [hidx i (by omega), Nat.mod_eq_of_lt (a := s + i) (by omega)]
      · next hlt =>
        simp at hlt ⊢
        rw [hidx i (by omega), mod_big (by omega) (by omega)]
        congr 1; omega
  · next h =>
    have hlt : s + n < v.cap ∨ n = 0 := by
      by_contra hge
      have := mod_big (x := s + n) (c := v.cap) (by omega) (by omega); omega
    rw [if_pos (by omega)]
    congr 1
    apply List.map_congr_left
    intro i hi
    have hi := List.mem_range.mp hi
    rw [hidx i (by omega), Nat.mod_eq_of_lt (a := s + i) (by omega)]

/-- Both ways of reading a view give `l`, and every record of `l` carries the visible flag. -/
def View.Reads (v : View R) (l : List (Wrapped R)) : Prop :=
  v.copyOut = .ok l ∧ v.gets = .ok l ∧ ∀ w ∈ l, w.isVisible = true

namespace Buffer

theorem WF.cap_pos {b : Buffer R} (h : b.WF) : 0 < b.cap := by have := h.cap; have := h.hwm; omega
theorem WF.cnt_lt {b : Buffer R} (h : b.WF) : b.tail - b.head < b.cap := by
  have := h.cap; have := h.hwm; have := h.cnt; omega

theorem view_gets {b : Buffer R} (h : b.WF) : b.view.gets = .ok b.contents :=
  gets_eq b.view h.cap_pos (le_of_lt h.cnt_lt)

theorem view_copyOut {b : Buffer R} (h : b.WF) : b.view.copyOut = .ok b.contents :=
  copyOut_eq b.view h.cap_pos h.ht h.cnt_lt

theorem view_reads {b : Buffer R} (h : b.WF) : View.Reads b.view b.contents := ⟨view_copyOut h, view_gets h, h.vis⟩

theorem contents_length (b : Buffer R) : b.contents.length = b.tail - b.head := by
  simp [contents]

theorem mod_ne {c a i j : Nat} (hi : i < j) (hj : j - i < c) : (a + i) % c ≠ (a + j) % c := by
  intro h
  have hd : c ∣ (a + j) - (a + i) := Nat.dvd_of_mod_eq_zero (Nat.sub_mod_eq_zero_of_mod_eq h.symm)
  have := Nat.le_of_dvd (by omega) hd
  omega

theorem setVisible_isVisible (w : Wrapped R) : w.setVisible.isVisible = true := by
  rw [Wrapped.isVisible_bit]
  unfold Wrapped.setVisible
  simp only [BitVec.getElem_or, four_bit]
  simp

theorem setDelete_isVisible (w : Wrapped R) : w.setDelete.isVisible = w.isVisible := by
  simp only [Wrapped.isVisible_bit]
  unfold Wrapped.setDelete
  simp only [BitVec.getElem_or, two_bit]
  simp

/-- Tagging a slot keeps the buffer well formed. -/
theorem WF.tag {b : Buffer R} (h : b.WF) (i : Nat) :
    ({ b with data := write b.data i (b.data i).setDelete } : Buffer R).WF := by
  refine ⟨h.cap, h.hwm, h.lwm, h.ht, h.cnt, ?_⟩
  intro w hw
  simp only [contents, List.mem_map] at hw
  obtain ⟨j, hj, rfl⟩ := hw
  have := h.vis (b.data ((b.head + j) % b.cap)) (List.mem_map.mpr ⟨j, hj, rfl⟩)
  unfold write
  split
  · next e => rw [setDelete_isVisible, ← e]; exact this
  · exact this

theorem append_full {b : Buffer R} {r : R} {ts : Bool} (h : b.hwm ≤ b.tail - b.head) :
    b.append r ts = (b, false) := by
  unfold append; rw [if_pos h]

theorem append_ok {b : Buffer R} (hb : b.WF) {r : R} {ts : Bool} (h : b.tail - b.head < b.hwm) :
    (b.append r ts).2 = true ∧ (b.append r ts).1.WF ∧
    (b.append r ts).1.contents = b.contents ++ [entryAt r ts (b.tail % b.cap)] := by
  have hlt := hb.cnt_lt
  unfold append
  rw [if_neg (by omega)]
  refine (fun P => ⟨rfl, ⟨hb.cap, hb.hwm, hb.lwm, ?_, ?_, ?_⟩, P⟩) ?_
  · have hht := hb.ht
    unfold contents
    simp only
    rw [show b.tail + 1 - b.head = (b.tail - b.head) + 1 by omega, List.range_succ, List.map_append]
    congr 1
    · apply List.map_congr_left
      intro i hi
      have hi := List.mem_range.mp hi
      unfold write
      rw [if_neg]
      have := mod_ne (c := b.cap) (a := b.head) (i := i) (j := b.tail - b.head) hi (by omega)
      rwa [show b.head + (b.tail - b.head) = b.tail by omega] at this
    · simp only [List.map_cons, List.map_nil]
      rw [show b.head + (b.tail - b.head) = b.tail by omega]
      simp [write]
  · have := hb.ht; simp; omega
  · have := hb.ht; simp; omega
  · rw [P]
    intro w hw
    rcases List.mem_append.mp hw with hw | hw
    · exact hb.vis w hw
    · rw [List.mem_singleton.mp hw]
      exact setVisible_isVisible _

theorem advanceHead_tail {b : Buffer R} (h : b.head < b.tail) :
    b.advanceHead b.tail = .ok { b with head := b.tail } := by
  unfold advanceHead assertC
  simp [h]; rfl

end Buffer
end DE
