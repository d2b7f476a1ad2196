import Verif.Properties.OwnTests

/-!
C123, `t_tombstone_merging_01` with leveling and tombstone deletes: the random choices of the loop can make `validate_tombstone_proportion`
fail.
-/

namespace DE

/-- A run of the loop: 180 iterations that only put their record into `to_delete`, then 64 that erase the record of the iteration before and
the two oldest ones. -/
def mergingIts : List (Rec × Own.Choice Rec) :=
  (List.range 180).map (fun i => (⟨i, i⟩, ⟨false, [], true⟩)) ++
  (List.range 64).map (fun j => (⟨180 + j, 180 + j⟩, ⟨true, [⟨179 + j, 179 + j⟩, ⟨2 * j, 2 * j⟩, ⟨2 * j + 1, 2 * j + 1⟩], true⟩))

instance decChoices : ∀ (st : Own.LoopState Rec) (its : List (Rec × Own.Choice Rec)), Decidable (Own.ChoicesOk st its)
  | _, [] => .isTrue trivial
  | st, (r, c) :: its =>
    have := decChoices (Own.iterate st r c) its
    have : Decidable (Own.SampleOk st.toDelete c.sample) := by unfold Own.SampleOk; infer_instance
    inferInstanceAs (Decidable ((c.coin = true → st.toDelete ≠ [] → Own.SampleOk st.toDelete c.sample) ∧ _))

/-- With leveling and tombstone deletes the assertion of `t_tombstone_merging_01` can fail by chance, although every insert and erase returned
1. Shown with the watermarks 1 and 10 instead of 100 and 1000: the records inserted last are cancelled by their tombstones on the way down, so
a level fills up with tombstones of old records, 98 of them at a capacity of 80. -/
theorem C123_false_merging : ∃ (its : List (Rec × Own.Choice Rec)) (d0 d : Index Rec) (bs : List Bool),
    (its.map Prod.fst).Nodup ∧ Own.ChoicesOk {} its ∧ mk .leveling false 1 10 2 = .ok d0 ∧
    d0.run (Own.loop {} its).ops = .ok (d, bs) ∧ bs.all id = true ∧ d.validate = false := by
  have h : probe .leveling false 1 10 2 (Own.loop {} mergingIts).ops (fun p => .ok (p.2.all id, p.1.validate)) = .ok (true, false) := by
    decide +kernel
  obtain ⟨d0, d, bs, h1, h2, h3⟩ := probe_ok h
  have h3 := Except.ok.inj h3
  exact ⟨mergingIts, d0, d, bs, by decide +kernel, by decide +kernel, h1, h2, congrArg Prod.fst h3, congrArg Prod.snd h3⟩

end DE
