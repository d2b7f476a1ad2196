import Verif.Proofs.Safety

/-!
A live record and its only tombstone, held by such a cursors, always cancel in a merge whose queue orders by
`Wrapped::operator<`.
-/

namespace DE
variable {R : Type} [LinearOrder R]

/-- Entries of a record. -/
def ofRec (r : R) (l : List (Wrapped R)) : List (Wrapped R) := l.filter (fun w => decide (w.record = r))

theorem mem_ofRec {r : R} {l : List (Wrapped R)} {w : Wrapped R} : w ∈ ofRec r l ↔ w ∈ l ∧ w.record = r := by
  simp [ofRec]

theorem ofRec_perm {r : R} {a b : List (Wrapped R)} (h : a.Perm b) : (ofRec r a).Perm (ofRec r b) := h.filter _

theorem ofRec_cons_ne {r : R} {w : Wrapped R} {l : List (Wrapped R)} (h : w.record ≠ r) : ofRec r (w :: l) = ofRec r l := by
  simp [ofRec, h]

theorem ofRec_cons_eq {r : R} {w : Wrapped R} {l : List (Wrapped R)} (h : w.record = r) : ofRec r (w :: l) = w :: ofRec r l := by
  simp [ofRec, h]

/-- A sorted cursor holding at most one entry of `r`. -/
def One (r : R) (l : List (Wrapped R)) : Prop := RecSorted l ∧ (ofRec r l).length ≤ 1

theorem One.tail {r : R} {l : List (Wrapped R)} (h : One r l) : One r l.tail := by
  refine ⟨List.Pairwise.sublist (List.tail_sublist l) h.1, le_trans ?_ h.2⟩
  exact ((List.tail_sublist l).filter _).length_le

/-- If such a cursor holds `w` with record `r`, its head is `w` or smaller. -/
theorem one_head {r : R} {z w : Wrapped R} {tl : List (Wrapped R)} (h : One r (z :: tl)) (hw : w ∈ z :: tl)
    (hr : w.record = r) : z = w ∨ z.record < w.record := by
  rcases List.mem_cons.mp hw with rfl | hw
  · exact Or.inl rfl
  · right
    refine lt_of_le_of_ne ((List.pairwise_cons.mp h.1).1 w hw) ?_
    intro he
    have h2 := h.2
    rw [ofRec_cons_eq (he.trans hr)] at h2
    have : ofRec r tl = [] := by
      apply List.eq_nil_of_length_eq_zero
      simp at h2; rw [h2]; rfl
    have hm : w ∈ ofRec r tl := mem_ofRec.mpr ⟨hw, hr⟩
    rw [this] at hm; simp at hm

theorem lt_of_rec {a b : Wrapped R} (h : a.record < b.record) : Wrapped.lt a b := Or.inl h

theorem mem_cursor {w : Wrapped R} {cs : List (List (Wrapped R))} (h : w ∈ cs.flatten) :
    ∃ c ∈ cs, ∃ z tl j, c = z :: tl ∧ w ∈ c ∧ cs[j]? = some c ∧ (z, j) ∈ heads 0 cs := by
  obtain ⟨c, hc, hw⟩ := List.mem_flatten.mp h
  obtain ⟨j, hj⟩ := List.mem_iff_getElem?.mp hc
  cases c with
  | nil => simp at hw
  | cons z tl =>
    refine ⟨_, hc, z, tl, j, rfl, hw, hj, ?_⟩
    have := mem_heads (i := 0) hj
    simpa using this

/-- If the front of the queue has record `r` and `w` with record `r` sits in a such a cursor, then `w` is
that cursor's head. -/
theorem head_of_front {pq : PQ R} (hpq : pq.ByWrapped) {n : Nat} {cs : List (List (Wrapped R))} {r : R} {now : Wrapped R} {i : Nat}
    {rest : List (Wrapped R × Nat)} (hr : now.record = r) (hfr : pq.arrange n (heads 0 cs) = (now, i) :: rest)
    (hst : ∀ c ∈ cs, (∃ x ∈ c, x.record = r) → One r c) {w : Wrapped R} (hw : w ∈ cs.flatten) (hwr : w.record = r) :
    ∃ j, (w, j) ∈ heads 0 cs := by
  obtain ⟨c, hc, z, tl, j, rfl, hwc, -, hz⟩ := mem_cursor hw
  have hs := hst _ hc ⟨w, hwc, hwr⟩
  rcases one_head hs hwc hwr with rfl | hlt
  · exact ⟨j, hz⟩
  · exfalso
    have hmem : (z, j) ∈ pq.arrange n (heads 0 cs) := (arrange_mem pq).mpr hz
    have hpw := hpq n (heads 0 cs)
    rw [hfr] at hmem hpw
    rcases List.mem_cons.mp hmem with he | hmem
    · cases he; rw [hr, hwr] at hlt; exact lt_irrefl _ hlt
    · exact (List.pairwise_cons.mp hpw).1 _ hmem (lt_of_rec (by simp only; rw [hr, ← hwr]; exact hlt))

theorem ofRec_advance {cs : List (List (Wrapped R))} {i : Nat} {now : Wrapped R} (h : (now, i) ∈ heads 0 cs) (r : R) :
    (ofRec r cs.flatten).Perm (ofRec r (now :: (advance cs i).flatten)) := ofRec_perm (advance_perm h)

theorem advance_strict {cs : List (List (Wrapped R))} {i : Nat} {r : R}
    (hst : ∀ c ∈ cs, (∃ x ∈ c, x.record = r) → One r c) : ∀ c ∈ advance cs i, (∃ x ∈ c, x.record = r) → One r c := by
  intro c hc hx
  obtain ⟨c', hc', rfl | rfl⟩ := mem_advance hc
  · exact hst _ hc' hx
  · obtain ⟨x, hx, hxr⟩ := hx
    exact (hst _ hc' ⟨x, List.mem_of_mem_tail hx, hxr⟩).tail

/-- The pair lemma. -/
theorem mergeLoop_pair {pq : PQ R} (hpq : pq.ByWrapped) (keep : Wrapped R → Bool) {r : R} {wl wt : Wrapped R}
    (hl : wl.isTombstone = false) (ht : wt.isTombstone = true) (hlt : Wrapped.lt wl wt) :
    ∀ n (cs : List (List (Wrapped R))), cs.flatten.length ≤ n → (ofRec r cs.flatten).Perm [wl, wt] →
      (∀ c ∈ cs, (∃ x ∈ c, x.record = r) → One r c) → ∀ w ∈ mergeLoop pq keep n cs, w.record ≠ r
  | 0, cs, hn, hp, _, w, hw => by simp [mergeLoop] at hw
  | n+1, cs, hn, hp, hst, w, hw => by
    have hmem : ∀ x ∈ cs.flatten, x.record = r → x = wl ∨ x = wt := by
      intro x hx hxr
      have := hp.mem_iff.mp (mem_ofRec.mpr ⟨hx, hxr⟩)
      simpa using this
    have hwl : wl ∈ cs.flatten ∧ wl.record = r := mem_ofRec.mp (hp.mem_iff.mpr (by simp))
    have hwt : wt ∈ cs.flatten ∧ wt.record = r := mem_ofRec.mp (hp.mem_iff.mpr (by simp))
    have hnelt : wl ≠ wt := by intro h; rw [h, ht] at hl; cases hl
    rcases mergeLoop_cases pq keep n cs with ⟨h1, h2⟩ | ⟨now, i, hm, ⟨rest, hfr⟩, h2, hnc⟩ |
      ⟨now, i, next, j, hm, hx, hij, hc, -, h2⟩
    · rw [h1] at hwl; simp at hwl
    · have hperm := advance_perm hm
      by_cases hr : now.record = r
      · exfalso
        have hpw := hpq n (heads 0 cs)
        rw [hfr] at hpw
        have hnow := hmem now (hperm.mem_iff.mpr (by simp)) hr
        obtain ⟨jl, hjl⟩ := head_of_front hpq hr hfr hst hwl.1 hwl.2
        obtain ⟨jt, hjt⟩ := head_of_front hpq hr hfr hst hwt.1 hwt.2
        have hjl' : (wl, jl) ∈ (now, i) :: rest := by rw [← hfr]; exact (arrange_mem pq).mpr hjl
        have hjt' : (wt, jt) ∈ (now, i) :: rest := by rw [← hfr]; exact (arrange_mem pq).mpr hjt
        rcases hnow with rfl | rfl
        · -- now = wl
          rcases List.mem_cons.mp hjt' with he | hjt'
          · cases he; exact hnelt rfl
          · cases rest with
            | nil => simp at hjt'
            | cons y ys =>
              obtain ⟨next, j⟩ := y
              have hpw2 := List.pairwise_cons.mp hpw
              have hpw3 := List.pairwise_cons.mp hpw2.2
              have hnext : (next, j) ∈ heads 0 cs := by
                rw [← arrange_mem pq (t := n), hfr]; simp
              have hnr : next.record = r := by
                have h1 : ¬ Wrapped.lt next now := hpw2.1 _ (List.mem_cons_self ..)
                have h2 : ¬ next.record < r := fun h => h1 (lt_of_rec (by rw [hr]; exact h))
                rcases List.mem_cons.mp hjt' with he | hjt'
                · cases he; exact hwt.2
                · have h3 : ¬ Wrapped.lt wt next := hpw3.1 _ hjt'
                  have h4 : ¬ r < next.record := fun h => h3 (lt_of_rec (by rw [hwt.2]; exact h))
                  exact le_antisymm (not_lt.mp h4) (not_lt.mp h2)
              have hidx : i ≠ j := by
                have := heads_pairwise 0 cs
                have hpp := (pq.perm n (heads 0 cs)).pairwise_iff (R := fun a b => a.2 ≠ b.2) (fun {a b} h => h.symm) |>.mpr this
                rw [hfr] at hpp
                exact (List.pairwise_cons.mp hpp).1 (next, j) (by simp)
              have hnext2 := advance_perm (advance_head_other hidx hnext)
              have hpp : (ofRec r cs.flatten).Perm (ofRec r (now :: next :: (advance (advance cs i) j).flatten)) :=
                ofRec_perm (hperm.trans (hnext2.cons now))
              rw [ofRec_cons_eq hr, ofRec_cons_eq hnr] at hpp
              have h5 := (hp.symm.trans hpp).symm
              have h6 := List.Perm.cons_inv h5
              have h7 : next = wt := by
                have := h6.mem_iff.mp (List.mem_cons_self ..)
                simpa using this
              have h8 := hnc next j ys hfr
              rw [h7] at h8
              simp [cancels, hl, ht, hr, hwt.2] at h8
        · -- now = wt
          rcases List.mem_cons.mp hjl' with he | hjl'
          · cases he; exact hnelt rfl
          · exact (List.pairwise_cons.mp hpw).1 _ hjl' hlt
      · rw [h2] at hw
        rcases List.mem_append.mp hw with hw | hw
        · split at hw
          · simp at hw; rw [hw]; exact hr
          · simp at hw
        · have hlen := hperm.length_eq
          have hp' : (ofRec r (advance cs i).flatten).Perm [wl, wt] := by
            have := ofRec_perm (r := r) hperm
            rw [ofRec_cons_ne hr] at this
            exact this.symm.trans hp
          exact mergeLoop_pair hpq keep hl ht hlt n _ (by rw [List.length_cons] at hlen; omega) hp' (advance_strict hst) w hw
    · obtain ⟨hc1, hc2, hc3⟩ := cancels_spec hc
      have hperm := advance_perm hm
      have hperm2 := advance_perm (advance_head_other hij hx)
      have hpp := hperm.trans (hperm2.cons now)
      rw [h2] at hw
      by_cases hr : now.record = r
      · have hf := ofRec_perm (r := r) hpp
        rw [ofRec_cons_eq hr, ofRec_cons_eq (hc2 ▸ hr)] at hf
        have hlen := (hp.symm.trans hf).length_eq
        simp at hlen
        have hw' := mergeLoop_mem pq keep _ _ w hw
        intro hwr
        have : w ∈ ofRec r (advance (advance cs i) j).flatten := mem_ofRec.mpr ⟨hw', hwr⟩
        rw [hlen] at this
        simp at this
      · have hr2 : next.record ≠ r := hc2 ▸ hr
        have hlen := hpp.length_eq
        have hp' : (ofRec r (advance (advance cs i) j).flatten).Perm [wl, wt] := by
          have := ofRec_perm (r := r) hpp
          rw [ofRec_cons_ne hr, ofRec_cons_ne hr2] at this
          exact this.symm.trans hp
        exact mergeLoop_pair hpq keep hl ht hlt n _ (by rw [List.length_cons, List.length_cons] at hlen; omega) hp' (advance_strict (advance_strict hst)) w hw

end DE
