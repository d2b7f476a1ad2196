import Verif.Model.Instances
import Verif.Proofs.Merge

namespace DE
variable {R : Type} [LinearOrder R]

theorem pqInsert_sorted (x : Wrapped R × Nat) : ∀ l, l.Pairwise (fun a b => leW a.1 b.1) →
    (pqInsert x l).Pairwise (fun a b => leW a.1 b.1)
  | [], _ => by simp [pqInsert]
  | y :: ys, h => by
    rw [pqInsert]
    have hy := List.pairwise_cons.mp h
    split
    · next hb =>
      have hxy : leW x.1 y.1 := by
        simp only [before, Bool.or_eq_true, decide_eq_true_eq, Bool.and_eq_true, Bool.not_eq_true',
          decide_eq_false_iff_not] at hb
        rcases hb with hb | hb
        · exact lt_asymmW hb
        · exact hb.1
      refine List.pairwise_cons.mpr ⟨?_, h⟩
      intro z hz
      rcases List.mem_cons.mp hz with rfl | hz
      · exact hxy
      · exact leW_trans hxy (hy.1 z hz)
    · next hb =>
      have hyx : leW y.1 x.1 := by
        intro hlt
        apply hb
        simp [before, hlt]
      refine List.pairwise_cons.mpr ⟨?_, pqInsert_sorted x ys hy.2⟩
      intro z hz
      rcases List.mem_cons.mp ((pqInsert_perm x ys).mem_iff.mp hz) with rfl | hz
      · exact hyx
      · exact hy.1 z hz

theorem pqSort_sorted : ∀ l : List (Wrapped R × Nat), (pqSort l).Pairwise (fun a b => leW a.1 b.1)
  | [] => by simp [pqSort]
  | x :: xs => pqInsert_sorted x _ (pqSort_sorted xs)

theorem PQ.std_byWrapped : (PQ.std : PQ R).ByWrapped := fun _ l => pqSort_sorted l

theorem PQ.ByWrapped.byRec {pq : PQ R} (h : pq.ByWrapped) : pq.ByRec :=
  fun t l => (h t l).imp (fun hab => leW_rec hab)

theorem PQ.std_byRec : (PQ.std : PQ R).ByRec := PQ.std_byWrapped.byRec

theorem pqInsertV_sorted (x : Wrapped R × Nat) : ∀ l,
    l.Pairwise (fun a b => a.1.record < b.1.record ∨ (a.1.record = b.1.record ∧ a.2 ≤ b.2)) →
    (pqInsertV x l).Pairwise (fun a b => a.1.record < b.1.record ∨ (a.1.record = b.1.record ∧ a.2 ≤ b.2))
  | [], _ => by simp [pqInsertV]
  | y :: ys, h => by
    rw [pqInsertV]
    have hy := List.pairwise_cons.mp h
    split
    · next hb =>
      have hxy : x.1.record < y.1.record ∨ (x.1.record = y.1.record ∧ x.2 ≤ y.2) := by
        simp only [beforeV, Bool.or_eq_true, decide_eq_true_eq, Bool.and_eq_true] at hb
        rcases hb with hb | hb
        · exact Or.inl hb
        · exact Or.inr ⟨hb.1, le_of_lt hb.2⟩
      refine List.pairwise_cons.mpr ⟨?_, h⟩
      intro z hz
      rcases List.mem_cons.mp hz with rfl | hz
      · exact hxy
      · rcases hy.1 z hz with h1 | h1 <;> rcases hxy with h2 | h2
        · exact Or.inl (lt_trans h2 h1)
        · exact Or.inl (h2.1 ▸ h1)
        · exact Or.inl (h1.1 ▸ h2)
        · exact Or.inr ⟨h2.1.trans h1.1, le_trans h2.2 h1.2⟩
    · next hb =>
      have hyx : y.1.record < x.1.record ∨ (y.1.record = x.1.record ∧ y.2 ≤ x.2) := by
        simp only [beforeV, Bool.or_eq_true, decide_eq_true_eq, Bool.and_eq_true, not_or, not_and, not_lt] at hb
        rcases lt_or_eq_of_le hb.1 with h1 | h1
        · exact Or.inl h1
        · exact Or.inr ⟨h1, hb.2 h1.symm⟩
      refine List.pairwise_cons.mpr ⟨?_, pqInsertV_sorted x ys hy.2⟩
      intro z hz
      rcases List.mem_cons.mp ((pqInsertV_perm x ys).mem_iff.mp hz) with rfl | hz
      · exact hyx
      · exact hy.1 z hz

theorem pqSortV_sorted : ∀ l : List (Wrapped R × Nat),
    (pqSortV l).Pairwise (fun a b => a.1.record < b.1.record ∨ (a.1.record = b.1.record ∧ a.2 ≤ b.2))
  | [] => by simp [pqSortV]
  | x :: xs => pqInsertV_sorted x _ (pqSortV_sorted xs)

theorem PQ.stdV_byVersion : (PQ.stdV : PQ R).ByVersion := fun _ l => pqSortV_sorted l

theorem PQ.ByVersion.byRec {pq : PQ R} (h : pq.ByVersion) : pq.ByRec :=
  fun t l => (h t l).imp (fun hab => by
    rcases hab with h | h
    · exact le_of_lt h
    · exact le_of_eq h.1)

theorem LB.scan_sound {K : Type} [LinearOrder K] [HasKey R K] : (LB.scan : LB R K).Sound :=
  fun _ _ _ k => ⟨_, rfl, le_refl _, fun h => h⟩

/-- A probe that succeeds gives an actual run. -/
theorem probe_ok {α : Type} {L : Layout} {tagging : Bool} {lwm hwm sf : Nat} {ops : List (Index.Op Rec)}
    {f : Index Rec × List Bool → Res α} {a : α} (h : probe L tagging lwm hwm sf ops f = .ok a) :
    ∃ d0 d bs, mk L tagging lwm hwm sf = .ok d0 ∧ d0.run ops = .ok (d, bs) ∧ f (d, bs) = .ok a := by
  unfold probe at h
  cases hm : mk L tagging lwm hwm sf with
  | error e => rw [hm] at h; cases h
  | ok d0 =>
    rw [hm] at h
    simp only [bind, Except.bind] at h
    cases hr : d0.run ops with
    | error e => rw [hr] at h; cases h
    | ok p =>
      rw [hr] at h
      exact ⟨d0, p.1, p.2, rfl, hr, h⟩

/-- A fresh index exists and the history fails on it. -/
theorem probe_err {L : Layout} {tagging : Bool} {lwm hwm sf : Nat} {ops : List (Index.Op Rec)} {e : Fault} {d0 : Index Rec}
    (hm : mk L tagging lwm hwm sf = .ok d0) (h : probe L tagging lwm hwm sf ops (fun p => .ok p.2) = .error e) :
    d0.run ops = .error e := by
  unfold probe at h
  rw [hm] at h
  simp only [bind, Except.bind] at h
  cases hr : d0.run ops with
  | error e' => rw [hr] at h; cases h; rfl
  | ok p => rw [hr] at h; cases h

end DE
