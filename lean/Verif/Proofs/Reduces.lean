import Verif.Spec

namespace DE
variable {R : Type}

theorem ents_nil : ents ([] : List (Wrapped R)) = 0 := rfl

theorem ents_cons (w : Wrapped R) (l : List (Wrapped R)) : ents (w :: l) = {w.entry} + ents l := by
  simp [ents]

theorem ents_append (a b : List (Wrapped R)) : ents (a ++ b) = ents a + ents b := by
  simp [ents]

theorem ents_perm {a b : List (Wrapped R)} (h : a.Perm b) : ents a = ents b := by
  unfold ents
  exact Multiset.coe_eq_coe.mpr (h.map _)

theorem ents_flatten (ls : List (List (Wrapped R))) : ents ls.flatten = (ls.map ents).sum := by
  induction ls with
  | nil => rfl
  | cons a l ih => simp [ents_append, ih]

theorem mem_ents {x : Entry R} {l : List (Wrapped R)} : x ∈ ents l ↔ ∃ w ∈ l, w.entry = x := by
  simp [ents]

theorem card_ents (l : List (Wrapped R)) : Multiset.card (ents l) = l.length := by
  simp [ents]

namespace Reduces
variable {drop : Entry R → Prop} {a b c a' b' : Multiset (Entry R)}

theorem refl (a : Multiset (Entry R)) : Reduces drop a a :=
  ⟨0, 0, 0, by simp, rfl, by simp, by simp, by simp⟩

theorem trans (h : Reduces drop a b) (g : Reduces drop b c) : Reduces drop a c := by
  obtain ⟨cl, ct, dr, e, m, h1, h2, h3⟩ := h
  obtain ⟨cl', ct', dr', e', m', h1', h2', h3'⟩ := g
  refine ⟨cl + cl', ct + ct', dr + dr', ?_, by simp [m, m'], ?_, ?_, ?_⟩
  · rw [e, e']; abel
  · intro x hx; rcases Multiset.mem_add.mp hx with h | h
    exacts [h1 x h, h1' x h]
  · intro x hx; rcases Multiset.mem_add.mp hx with h | h
    exacts [h2 x h, h2' x h]
  · intro x hx; rcases Multiset.mem_add.mp hx with h | h
    exacts [h3 x h, h3' x h]

theorem add (h : Reduces drop a b) (g : Reduces drop a' b') : Reduces drop (a + a') (b + b') := by
  obtain ⟨cl, ct, dr, e, m, h1, h2, h3⟩ := h
  obtain ⟨cl', ct', dr', e', m', h1', h2', h3'⟩ := g
  refine ⟨cl + cl', ct + ct', dr + dr', ?_, by simp [m, m'], ?_, ?_, ?_⟩
  · rw [e, e']; abel
  · intro x hx; rcases Multiset.mem_add.mp hx with h | h
    exacts [h1 x h, h1' x h]
  · intro x hx; rcases Multiset.mem_add.mp hx with h | h
    exacts [h2 x h, h2' x h]
  · intro x hx; rcases Multiset.mem_add.mp hx with h | h
    exacts [h3 x h, h3' x h]

theorem of_eq (h : a = b) : Reduces drop a b := h ▸ refl a

/-- cancel a live record with a tombstone -/
theorem cancel {x y : Entry R} (hr : x.record = y.record) (hx : x.tomb = false) (hy : y.tomb = true) :
    Reduces drop ({x} + ({y} + a)) a :=
  ⟨{x}, {y}, 0, by abel, by simp [hr], by simpa using hx, by simpa using hy, by simp⟩

theorem dropOne {x : Entry R} (hx : drop x) : Reduces drop ({x} + a) a :=
  ⟨0, 0, {x}, by abel, rfl, by simp, by simp, by simpa using hx⟩

theorem le (h : Reduces drop a b) : b ≤ a := by
  obtain ⟨cl, ct, dr, e, -⟩ := h
  rw [e, add_assoc, add_assoc]; exact Multiset.le_add_right _ _

theorem mono {drop' : Entry R → Prop} (hd : ∀ x ∈ a, drop x → drop' x) (h : Reduces drop a b) :
    Reduces drop' a b := by
  obtain ⟨cl, ct, dr, e, m, h1, h2, h3⟩ := h
  exact ⟨cl, ct, dr, e, m, h1, h2, fun x hx => hd x (by rw [e]; simp [hx]) (h3 x hx)⟩

theorem liveCount_le [DecidableEq R] (r : R) (h : Reduces drop a b) : liveCount r b ≤ liveCount r a :=
  Multiset.countP_le_of_le _ h.le

theorem tombCount_le [DecidableEq R] (r : R) (h : Reduces drop a b) : tombCount r b ≤ tombCount r a :=
  Multiset.countP_le_of_le _ h.le

end Reduces

theorem liveCount_add [DecidableEq R] (r : R) (a b : Multiset (Entry R)) :
    liveCount r (a + b) = liveCount r a + liveCount r b := Multiset.countP_add _ _ _
theorem tombCount_add [DecidableEq R] (r : R) (a b : Multiset (Entry R)) :
    tombCount r (a + b) = tombCount r a + tombCount r b := Multiset.countP_add _ _ _

theorem liveCount_zero_of_tomb [DecidableEq R] (r : R) {a : Multiset (Entry R)}
    (h : ∀ x ∈ a, x.tomb = true) : liveCount r a = 0 := by
  unfold liveCount; rw [Multiset.countP_eq_zero]; rintro x hx ⟨-, h'⟩; simp [h x hx] at h'
theorem tombCount_zero_of_live [DecidableEq R] (r : R) {a : Multiset (Entry R)}
    (h : ∀ x ∈ a, x.tomb = false) : tombCount r a = 0 := by
  unfold tombCount; rw [Multiset.countP_eq_zero]; rintro x hx ⟨-, h'⟩; simp [h x hx] at h'

theorem liveCount_eq_count [DecidableEq R] (r : R) {a : Multiset (Entry R)}
    (h : ∀ x ∈ a, x.tomb = false) : liveCount r a = (a.map Entry.record).count r := by
  unfold liveCount
  rw [Multiset.count_map, ← Multiset.countP_eq_card_filter]
  exact Multiset.countP_congr rfl (fun x hx => by simp [h x hx, eq_comm])
theorem tombCount_eq_count [DecidableEq R] (r : R) {a : Multiset (Entry R)}
    (h : ∀ x ∈ a, x.tomb = true) : tombCount r a = (a.map Entry.record).count r := by
  unfold tombCount
  rw [Multiset.count_map, ← Multiset.countP_eq_card_filter]
  exact Multiset.countP_congr rfl (fun x hx => by simp [h x hx, eq_comm])

/-- The conservation law: if nothing can be dropped, live minus tombstones is preserved. -/
theorem Reduces.net [DecidableEq R] {drop : Entry R → Prop} {a b : Multiset (Entry R)} (r : R)
    (h : Reduces drop a b) (hd : ∀ x ∈ a, ¬ drop x) :
    liveCount r a + tombCount r b = liveCount r b + tombCount r a := by
  obtain ⟨cl, ct, dr, e, m, h1, h2, h3⟩ := h
  have hdr : dr = 0 := by
    apply Multiset.eq_zero_of_forall_notMem
    intro x hx
    exact hd x (by rw [e]; simp [hx]) (h3 x hx)
  subst hdr
  have : liveCount r cl = tombCount r ct := by
    rw [liveCount_eq_count r h1, tombCount_eq_count r h2, m]
  rw [e]
  simp only [liveCount_add, tombCount_add, liveCount_zero_of_tomb r h2, tombCount_zero_of_live r h1]
  have z1 : liveCount r (0 : Multiset (Entry R)) = 0 := rfl
  have z2 : tombCount r (0 : Multiset (Entry R)) = 0 := rfl
  omega

/-- Without tombstones the reduction only drops. -/
theorem Reduces.no_tomb {drop : Entry R → Prop} {a b : Multiset (Entry R)}
    (h : Reduces drop a b) (ht : ∀ x ∈ a, x.tomb = false) :
    ∃ dr, a = b + dr ∧ ∀ x ∈ dr, drop x := by
  obtain ⟨cl, ct, dr, e, m, h1, h2, h3⟩ := h
  have hct : ct = 0 := by
    apply Multiset.eq_zero_of_forall_notMem
    intro x hx
    have := ht x (by rw [e]; simp [hx])
    simp [h2 x hx] at this
  subst hct
  have hcl : cl = 0 := by
    rw [Multiset.map_zero, Multiset.map_eq_zero] at m; exact m
  subst hcl
  exact ⟨dr, by simpa using e, h3⟩

end DE
