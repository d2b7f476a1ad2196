import Verif.Proofs.Torn

/-!
C105: what is read from a slot of the buffer is a record that was appended, never a mixture of two.

`FReach P M n ftidy F`: state `F` occurs in some execution with `n` threads in which slots are written and read word by word,
whatever the scheduler does, except that a flush never starts to copy a slot whose append has not finished.
-/

namespace DE.Torn
open Conc
variable {D : Nat} {P : Par} {M : Code D} {n : Nat} {F F' : FSt D} {i j : Nat}

/-- What was read is record `r` as it was appended: all its words, and the tombstone flag. -/
def Whole (M : Code D) (w : Cell D) (r : Nat) : Prop :=
  w.record = M.code r ∧ w.isTombstone = M.tomb r ∧ w.isDeleted = false ∧ w.isVisible = true

theorem enc_whole (r p : Nat) : Whole M (enc P M r p) r := by
  refine ⟨?_, ?_, ?_, enc_isVisible r p⟩
  · unfold enc Code.wrec
    split <;> rfl
  · unfold enc Code.wrec
    rw [Wrapped.isTombstone_bit]
    split <;> rename_i h <;> simp [Wrapped.setVisible, Wrapped.setTimestamp, Wrapped.setTombstone, h]
  · unfold enc Code.wrec
    rw [Wrapped.isDeleted_bit]
    split <;> rename_i h <;> simp [Wrapped.setVisible, Wrapped.setTimestamp, Wrapped.setTombstone]

/-! ### Executing schedules -/

/-- Decision procedure for `ftidy`. -/
def ftidyB (F : FSt D) (i : Nat) (c : FCh D) : Bool :=
  match c, F.co.thr[i]? with
  | .look p, some t =>
    match t.pc with
    | .cp _ _ _ => F.co.done.any (fun x => x.1 == p)
    | _ => true
  | _, _ => true

theorem ftidyB_sound {c : FCh D} (h : ftidyB F i c = true) : ftidy F i c := by
  rintro p rfl t e q acc hi hpc
  unfold ftidyB at h
  rw [hi] at h
  simp only [hpc] at h
  rw [List.any_eq_true] at h
  obtain ⟨⟨q, r⟩, hm, hq⟩ := h
  have : q = p := by simpa using hq
  subst this
  exact ⟨r, hm⟩

/-- Execute a schedule, giving up at a step that is not allowed. -/
def frun (P : Par) (M : Code D) : List (Nat × FCh D) → FSt D → Option (FSt D)
  | [], F => some F
  | (i, c) :: l, F =>
    match ftidyB F i c, fstep P M F i c with
    | true, .ok (some F') => frun P M l F'
    | _, _ => none

theorem FReach.run (l : List (Nat × FCh D)) (h : FReach P M n ftidy F) (hr : frun P M l F = some F') : FReach P M n ftidy F' := by
  induction l generalizing F with
  | nil => cases hr; exact h
  | cons x l ih =>
    obtain ⟨i, c⟩ := x
    unfold frun at hr
    split at hr
    · rename_i F1 h1 h2
      exact ih (h.step (ftidyB_sound h1) h2) hr
    · cases hr

/-- A state satisfying a test is reached by a schedule. -/
theorem freach_of (l : List (Nat × FCh D)) (q : FSt D → Bool) (h : (frun P M l (init D P n)).any q = true) :
    ∃ F, FReach P M n ftidy F ∧ q F = true := by
  cases hr : frun P M l (init D P n) with
  | none => rw [hr] at h; cases h
  | some F =>
    rw [hr] at h
    exact ⟨F, FReach.run l .init hr, h⟩

/-- Steps of `Conc.lean`. -/
def cos (l : List (Nat × Ch)) : List (Nat × FCh 2) := l.map fun x => (x.1, .co x.2)
/-- The writes of an append. -/
def writes (i : Nat) : List (Nat × FCh 2) := [(i, .put none), (i, .put (some 0)), (i, .put (some 1)), (i, .stamp), (i, .co .go)]
/-- The reads of a position, header first. -/
def reads (i p : Nat) : List (Nat × FCh 2) := [(i, .look p), (i, .get none), (i, .get (some 0)), (i, .get (some 1))]
/-- An insert below the low watermark up to the write of its slot; the same at the low watermark. -/
def claim (i r : Nat) : List (Nat × FCh 2) := cos ([(i, .insert r), (i, .tailFirst)] ++ gos i 4)
def claimSched (i r : Nat) : List (Nat × FCh 2) := cos ([(i, .insert r), (i, .tailFirst)] ++ gos i 14)
/-- A reconstruction that flushes the positions `p` and `p + 1`, and publishes its version in `m` steps. -/
def flush (i p m : Nat) : List (Nat × FCh 2) :=
  cos ((i, .work) :: gos i 6) ++ reads i p ++ cos (gos i 1) ++ reads i (p + 1) ++ cos (gos i m)

/-- Records of two words; the odd ones are tombstones. -/
def M2 : Code 2 := ⟨fun r k => 10 * r + k.val, fun r => r % 2 == 1⟩

/-! ### C105 -/

/-- A query looking at a slot that is being written for the second time gets one word of the new record and one of the old
one, under a header that says the record is visible. -/
theorem C105_false : ∃ F, FReach P12 M2 3 ftidy F ∧ ∃ i d, d ∈ F.seen i ∧ d.val.isVisible = true ∧ ∀ r, d.val.record ≠ M2.code r := by
  obtain ⟨F, h1, h2⟩ := freach_of (P := P12) (M := M2) (n := 3)
    (claim 0 10 ++ writes 0 ++ claimSched 0 11 ++ writes 0 ++ flush 2 0 21 ++ claim 0 12 ++ writes 0 ++ claimSched 0 13 ++ writes 0 ++
      flush 2 2 24 ++ claim 0 14 ++ [(0, .put (some 0))] ++ cos (query 1) ++ reads 1 4 ++ [(1, .done)])
    (fun F => (F.seen 1).any fun d => d.val.isVisible && decide (d.val.record 0 = 140 ∧ d.val.record 1 = 101)) (by decide)
  refine ⟨F, h1, 1, ?_⟩
  rw [List.any_eq_true] at h2
  obtain ⟨d, hd, hv⟩ := h2
  rw [Bool.and_eq_true, decide_eq_true_eq] at hv
  refine ⟨d, hd, hv.1, fun r hr => ?_⟩
  have e0 : 10 * r + 0 = 140 := by rw [← hv.2.1, hr]; rfl
  have e1 : 10 * r + 1 = 101 := by rw [← hv.2.2, hr]; rfl
  omega

/-- Every execution is one of `Conc.lean`, if a slot is taken to be written by the last of the writes. -/
theorem C105_steps (h : FReach P M n fany F) : Reach P n any F.co := by
  induction h with
  | init => exact .init
  | @step F F' i c _ _ hs ih =>
    have same : F'.co = F.co → Reach P n any F'.co := fun e => e ▸ ih
    unfold fstep at hs
    split at hs
    · cases hs
    split at hs
    · split at hs
      · cases hs
      · split at hs
        · rename_i hs'
          cases hs
          exact ih.step trivial hs'
        · cases hs
        · cases hs
    all_goals
      try simp only at hs
      repeat' split at hs
    all_goals first
      | (cases hs; exact ih)
      | cases hs

/-- A read that began after the append of its position had finished returns that record, however reads and writes
interleave. -/
theorem C105_finished_partial (hw : 0 < P.hwm) (h : FReach P M n ftidy F) {d : Rd D} (hd : d ∈ F.seen i) (hf : d.fin = true) :
    ∃ r, (d.pos, r) ∈ F.co.done ∧ Whole M d.val r := by
  obtain ⟨r, hr, hv⟩ := ((h.inv hw).seen i d hd).2 (.inl hf)
  exact ⟨r, hr, hv ▸ enc_whole r d.pos⟩

/-- While the ring is filled for the first time, a reader that loads the header first and finds the visible bit set gets the
whole record. -/
theorem C105_visible_partial (hw : 0 < P.hwm) (h : FReach P M n ftidy F) {d : Rd D} (hd : d ∈ F.seen i) (hp : d.pos < P.cap)
    (hl : d.got.getLast? = some none) (hv : d.val.isVisible = true) : ∃ r, (d.pos, r) ∈ F.co.done ∧ Whole M d.val r := by
  obtain ⟨r, hr, hv⟩ := ((h.inv hw).seen i d hd).2 (.inr ⟨hp, hl, hv⟩)
  exact ⟨r, hr, hv ▸ enc_whole r d.pos⟩

/-- While such a read is going on, no thread is writing the slot: the accesses do not race. -/
theorem C105_race_partial (hw : 0 < P.hwm) (h : FReach P M n ftidy F) {d : Rd D} (hd : F.rd i = some d) (hf : d.fin = true) {t : Th}
    {r p : Nat} (hj : F.co.thr[j]? = some t) (ht : t.pc = .ap5 r p) : p % P.cap ≠ d.pos % P.cap := by
  have hI := h.inv hw
  obtain ⟨u, x, hu, hx, hle, hlt, hpc, hg⟩ := hI.rd i d hd
  obtain ⟨r', hr', _⟩ := hg (.inl hf)
  refine (view_slot hw hI.reach hu hx ?_ hle hlt hr').2 j t r p hj ht
  rcases hpc with hpc | ⟨_, _, hpc, _⟩ <;> rw [hpc] <;> simp

/-- Two appends never write the same slot at the same time. -/
theorem C105_writers_partial (hw : 0 < P.hwm) (h : FReach P M n ftidy F) {t u : Th} {r r' p p' : Nat} (hi : F.co.thr[i]? = some t)
    (ht : t.pc = .ap5 r p) (hj : F.co.thr[j]? = some u) (hu : u.pc = .ap5 r' p') (hne : i ≠ j) : p % P.cap ≠ p' % P.cap :=
  fun e => hne (writers hw (h.inv hw).reach hi ht hj hu e)

/-- What a flush has copied are the records appended at the positions from the head on, one after the other, each of them
whole. -/
theorem C105_flush_partial (hw : 0 < P.hwm) (h : FReach P M n ftidy F) {t : Th} {e p : Nat} {acc : List Slot}
    (hi : F.co.thr[i]? = some t) (ht : t.pc = .cp e p acc) :
    F.co.head.idx + (F.seen i).length = p ∧
      ∀ k, k < (F.seen i).length → ∃ d r, (F.seen i)[k]? = some d ∧ (F.co.head.idx + k, r) ∈ F.co.done ∧ Whole M d.val r := by
  have hI := h.inv hw
  have hfl := hI.flush i t e p acc hi ht
  have hlen : (F.seen i).length = acc.length := by simpa using congrArg List.length hfl
  have hj := (hI.reach.hist hw).locj i t hi
  unfold LocJ at hj
  rw [ht] at hj
  have hd := (hI.reach.dat hw).locd i t hi
  unfold LocD at hd
  rw [ht] at hd
  refine ⟨by rw [hlen]; exact hj.2.2.2.2.symm, fun k hk => ?_⟩
  obtain ⟨r, hr, hdn⟩ := hd.2 trivial k (hlen ▸ hk)
  refine ⟨(F.seen i)[k], r, List.getElem?_eq_getElem hk, hdn, ?_⟩
  have e1 : ((F.seen i).map (fun d => d.val))[k]? = some (enc P M r (F.co.head.idx + k)) := by
    rw [hfl, List.getElem?_map, hr]; rfl
  rw [List.getElem?_map, List.getElem?_eq_getElem hk] at e1
  have e2 : ((F.seen i)[k]).val = enc P M r (F.co.head.idx + k) := Option.some.inj e1
  rw [e2]
  exact enc_whole _ _

/-- The hypotheses are met: a query reads a record of a finished append while another append is writing the next slot. -/
example : ∃ F, FReach P12 M2 3 ftidy F ∧ ∃ d, d ∈ F.seen 1 ∧ d.fin = true ∧ d.pos = 4 ∧
    ∃ t, F.co.thr[2]? = some t ∧ t.pc = .ap5 15 5 := by
  obtain ⟨F, h1, h2⟩ := freach_of (P := P12) (M := M2) (n := 3)
    (claim 0 10 ++ writes 0 ++ claimSched 0 11 ++ writes 0 ++ flush 2 0 21 ++ claim 0 12 ++ writes 0 ++ claimSched 0 13 ++ writes 0 ++
      flush 2 2 24 ++ claim 0 14 ++ writes 0 ++ cos (query 1) ++ [(1, .look 4), (1, .get (some 1))] ++ claimSched 2 15 ++
      [(2, .put (some 1)), (1, .get none), (1, .get (some 0)), (1, .done)])
    (fun F => ((F.seen 1).any fun d => d.fin && decide (d.pos = 4)) && decide (pcOf F.co 2 = some (.ap5 15 5))) (by decide)
  refine ⟨F, h1, ?_⟩
  rw [Bool.and_eq_true, List.any_eq_true, decide_eq_true_eq] at h2
  obtain ⟨⟨d, hd, hv⟩, ht⟩ := h2
  rw [Bool.and_eq_true, decide_eq_true_eq] at hv
  refine ⟨d, hd, hv.1, hv.2, ?_⟩
  unfold pcOf at ht
  rw [Option.map_eq_some_iff] at ht
  exact ht

/-- The hypotheses are met: a query of the first round that began before the append had finished, and saw the visible bit. -/
example : ∃ F, FReach P12 M2 3 ftidy F ∧ ∃ d, d ∈ F.seen 1 ∧ d.fin = false ∧ d.pos < P12.cap ∧ d.got.getLast? = some none ∧
    d.val.isVisible = true := by
  obtain ⟨F, h1, h2⟩ := freach_of (P := P12) (M := M2) (n := 3)
    (claim 0 11 ++ cos (query 1) ++ [(0, .put none), (0, .put (some 1)), (1, .look 0), (0, .put (some 0)), (0, .stamp), (0, .co .go),
      (1, .get none), (1, .get (some 0)), (1, .get (some 1)), (1, .done)])
    (fun F => ((F.seen 1).any fun d => !d.fin && d.val.isVisible && decide (d.pos = 0 ∧ d.got.getLast? = some none))) (by decide)
  refine ⟨F, h1, ?_⟩
  rw [List.any_eq_true] at h2
  obtain ⟨d, hd, hv⟩ := h2
  rw [Bool.and_eq_true, Bool.and_eq_true, decide_eq_true_eq] at hv
  exact ⟨d, hd, by simpa using hv.1.1, by rw [hv.2.1]; decide, hv.2.2, hv.1.2⟩

/-- The hypotheses are met: a flush that has copied one record and is reading the second, of a slot used for the second
time. -/
example : ∃ F, FReach P12 M2 3 ftidy F ∧ ∃ t e acc, F.co.thr[2]? = some t ∧ t.pc = .cp e 5 acc ∧ (F.seen 2).length = 1 ∧
    ∃ d, F.rd 2 = some d ∧ d.fin = true := by
  obtain ⟨F, h1, h2⟩ := freach_of (P := P12) (M := M2) (n := 3)
    (claim 0 10 ++ writes 0 ++ claimSched 0 11 ++ writes 0 ++ flush 2 0 21 ++ claim 0 12 ++ writes 0 ++ claimSched 0 13 ++ writes 0 ++
      flush 2 2 24 ++ claim 0 14 ++ writes 0 ++ claimSched 0 15 ++ writes 0 ++ cos ((2, .work) :: gos 2 6) ++ reads 2 4 ++
      cos (gos 2 1) ++ [(2, .look 5), (2, .get none)])
    (fun F => decide (pcOf F.co 2 = some (.cp 3 5 [some (4, 14)]) ∧ (F.seen 2).length = 1) && (F.rd 2).any (fun d => d.fin)) (by decide)
  refine ⟨F, h1, ?_⟩
  rw [Bool.and_eq_true, decide_eq_true_eq] at h2
  obtain ⟨⟨ht, hl⟩, hr⟩ := h2
  unfold pcOf at ht
  rw [Option.map_eq_some_iff] at ht
  obtain ⟨t, ht, hp⟩ := ht
  refine ⟨t, 3, _, ht, hp, hl, ?_⟩
  cases hd : F.rd 2 with
  | none => rw [hd] at hr; cases hr
  | some d => rw [hd] at hr; exact ⟨d, rfl, hr⟩

end DE.Torn
