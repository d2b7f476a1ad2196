import Verif.Proofs.Work
import Verif.Properties.Shape

/-!
C106: the copying done by reconstructions, over a whole history.
-/

namespace DE
variable {R : Type}

theorem abs_height (d : Index R) : d.str.abs.length = d.height := by simp [Struct.abs, Index.height, Struct.height]

section
variable [Inhabited R]

/-- C106: counting changes nothing: the index with the counting class and the index with the plain class give the same
results, buffers and levels, shard by shard and record by record, and fail alike. -/
theorem C106_counting_is_invisible [DecidableEq R] {L : Layout} {tag : Bool} {I : ShardImpl R} (hI : I.Blind) {lwm hwm sf : Nat}
    {d0 c0 : Index R} (hd : Index.new L tag I lwm hwm sf = .ok d0) (hc : Index.new L tag I.counted lwm hwm sf = .ok c0)
    (ops : List (Index.Op R)) :
    (∀ d bs, d0.run ops = .ok (d, bs) → ∃ c, c0.run ops = .ok (c, bs) ∧ c.buf = d.buf ∧ c.height = d.height ∧
      c.str.levels.map (fun l => (l.cnt, l.shards.map (Option.map Shard.data))) =
      d.str.levels.map (fun l => (l.cnt, l.shards.map (Option.map Shard.data)))) ∧
    (∀ f, d0.run ops = .error f → c0.run ops = .error f) := by
  have e0 : c0.bare = d0.bare := by
    have := new_counted (L := L) (tag := tag) (I := I) (lwm := lwm) (hwm := hwm) (sf := sf)
    rw [hd, hc] at this
    exact Except.ok.inj this
  have i1 : d0.impl = I := by obtain ⟨rfl, -⟩ := new_ok hd; rfl
  have i2 : c0.impl = I.counted := by obtain ⟨rfl, -⟩ := new_ok hc; rfl
  have r1 := run_bare ops (d := d0) (by rw [i1]; exact hI)
  have r2 := run_bare ops (d := c0) (by rw [i2]; exact hI.counted)
  rw [e0, r1] at r2
  refine ⟨?_, ?_⟩
  · intro d bs h
    rw [h] at r2
    cases hc : c0.run ops with
    | error f => rw [hc] at r2; cases r2
    | ok p =>
      obtain ⟨c, bs'⟩ := p
      rw [hc] at r2
      have e := Except.ok.inj r2
      simp only [Prod.map, Prod.mk.injEq, id] at e
      obtain ⟨e1, rfl⟩ := e
      have el : c.str.levels.map Level.bare = d.str.levels.map Level.bare := (congrArg (fun x : Index R => x.str.levels) e1).symm
      refine ⟨c, rfl, (congrArg Index.buf e1).symm, ?_, ?_⟩
      · have := congrArg List.length el
        simpa [Index.height, Struct.height] using this
      · have aux : ∀ l : Level R, (l.cnt, l.shards.map (Option.map Shard.data)) =
            (l.bare.cnt, l.bare.shards.map (Option.map Shard.data)) := by
          intro l
          simp only [Level.bare, List.map_map, Prod.mk.injEq, true_and]
          apply List.map_congr_left
          intro s _
          cases s <;> rfl
        have key : ∀ ls : List (Level R), ls.map (fun l => (l.cnt, l.shards.map (Option.map Shard.data))) =
            (ls.map Level.bare).map (fun l => (l.cnt, l.shards.map (Option.map Shard.data))) := by
          intro ls
          rw [List.map_map]
          exact List.map_congr_left fun l _ => aux l
        rw [key, el, ← key]
  · intro f h
    rw [h] at r2
    cases hc : c0.run ops with
    | error f' => rw [hc] at r2; cases r2; rfl
    | ok p => rw [hc] at r2; cases r2

variable [DecidableEq R]

/-- C106, tiering: every flushed record is copied at least once, and on average at most once per level. -/
theorem C106_tiering {tag : Bool} {I : ShardImpl R} (hI : I.Conserving) (hl : I.LookupSound) {lwm hwm sf : Nat} {c0 c : Index R}
    {ops : List (Index.Op R)} {bs : List Bool} (hnew : Index.new .tiering tag I.counted lwm hwm sf = .ok c0)
    (hlwm : 1 ≤ lwm) (hsf : 1 ≤ sf) (hrun : c0.run ops = .ok (c, bs)) :
    lwm * flushes tag lwm ops ≤ c.work ∧ c.work ≤ c.height * (lwm * flushes tag lwm ops) := by
  obtain ⟨i1, i2, i3, i4, -⟩ := new_inv (by simp) hnew hlwm hsf
  obtain ⟨hd, -⟩ := new_ok hnew
  have e1 : c0.buf.lwm = lwm := by rw [hd]
  have h1 := run_works_ge i1 i4 hI hl (by rw [hd]) hrun
  rw [work_abs]
  rw [e1, i3] at h1
  refine ⟨h1, ?_⟩
  have hh := abs_height c
  cases hc : c.height with
  | zero =>
    rw [hc] at hh
    rw [List.eq_nil_of_length_eq_zero hh]; simp [aworks]
  | succ h =>
    have := tier_run_total i1 i2 i4 hI hl (by rw [hd]) (by rw [hd]) hrun (hh := h) (by omega)
    rw [e1, i3] at this
    omega

/-- C106, leveling with scale factor at least 2: a flush costs on average the records of the buffer times twice the scale
factor for every level below the first, and at most a full level 0 besides. -/
theorem C106_leveling {tag : Bool} {I : ShardImpl R} (hI : I.Conserving) (hl : I.LookupSound) {lwm hwm sf : Nat} {c0 c : Index R}
    {ops : List (Index.Op R)} {bs : List Bool} (hnew : Index.new .leveling tag I.counted lwm hwm sf = .ok c0)
    (hlwm : 1 ≤ lwm) (hsf : 2 ≤ sf) (hrun : c0.run ops = .ok (c, bs)) :
    lwm * flushes tag lwm ops ≤ c.work ∧
    c.work ≤ ((2 * sf * (c.height - 1) + 1) * lwm + hwm * sf) * flushes tag lwm ops := by
  obtain ⟨i1, i2, i3, i4, -⟩ := new_inv (by simp) hnew hlwm (by omega)
  obtain ⟨hd, -⟩ := new_ok hnew
  have e1 : c0.buf.lwm = lwm := by rw [hd]
  have e2 : c0.str.sf = sf := by rw [hd]
  have e3 : c0.str.bufSize = hwm := by rw [hd]
  have h1 := run_works_ge i1 i4 hI hl (by rw [hd]) hrun
  rw [work_abs]
  rw [e1, i3] at h1
  refine ⟨h1, ?_⟩
  have hh := abs_height c
  have := lev_run_total i1 i2 i4 hI hl (by rw [e2]; exact hsf) (by rw [hd]) (by rw [hd]) hrun (hh := c.height - 1) (by omega)
  rw [e1, e2, e3, i3] at this
  omega

/-- C106, Bentley-Saxe with an insert-only history: on average at most one copy per level. -/
theorem C106_bsm {tag : Bool} {I : ShardImpl R} (hI : I.CleanOk) {lwm hwm sf : Nat} {c0 c : Index R}
    {ops : List (Index.Op R)} {bs : List Bool} (hnew : Index.new .bsm tag I.counted lwm hwm sf = .ok c0)
    (hlwm : 1 ≤ lwm) (hio : InsertOnly ops) (hrun : c0.run ops = .ok (c, bs)) :
    c.work ≤ c.height * (lwm * flushes tag lwm ops) := by
  obtain ⟨hd, -, -, hsf⟩ := new_ok hnew
  have hclean := new_cleanI hI.counted hnew hlwm (by have := hsf rfl; omega)
  have hL : c0.L = .bsm := by rw [hd]
  have e1 : c0.buf.lwm = lwm := by rw [hd]
  have e2 : c0.tagging = tag := by rw [hd]
  have hhead := (run_flush_ind (fun _ _ => True) (new_buf hnew hlwm) (by rw [hd]) trivial (by intros; trivial) (by intros; trivial)
    (by intros; trivial) (by intros; trivial) hrun).2.2
  rw [e1, e2] at hhead
  rw [work_abs, ← hhead]
  have hh := abs_height c
  cases hc : c.height with
  | zero =>
    rw [hc] at hh
    rw [List.eq_nil_of_length_eq_zero hh]; simp [aworks]
  | succ h =>
    have := bsm_run_total hI.conserving ops hclean hL hio (by
      intro hh _
      rw [hd]; simp [Struct.abs, aworks, rest]) hrun h (by omega)
    omega

end

/-! ### With the height bounds of C16 -/

section
variable {K : Type} [LinearOrder R] [LinearOrder K] [HasKey R K] [Inhabited R]

theorem counted_plain {L : Layout} {tag : Bool} {pq : PQ R} {lb : LB R K} {lwm hwm sf : Nat} {c0 c : Index R}
    {ops : List (Index.Op R)} {bs : List Bool} (hnew : Index.new L tag (sortedImpl pq lb).counted lwm hwm sf = .ok c0)
    (hrun : c0.run ops = .ok (c, bs)) :
    ∃ d0 d, Index.new L tag (sortedImpl pq lb) lwm hwm sf = .ok d0 ∧ d0.run ops = .ok (d, bs) ∧ c.height = d.height := by
  have := new_counted (L := L) (tag := tag) (I := sortedImpl pq lb) (lwm := lwm) (hwm := hwm) (sf := sf)
  rw [hnew] at this
  cases hd : Index.new L tag (sortedImpl pq lb) lwm hwm sf with
  | error e => rw [hd] at this; cases this
  | ok d0 =>
    obtain ⟨h1, h2⟩ := C106_counting_is_invisible (sortedImpl_blind pq lb) hd hnew ops
    cases hr : d0.run ops with
    | error f => rw [h2 f hr] at hrun; cases hrun
    | ok p =>
      obtain ⟨d, bs'⟩ := p
      obtain ⟨c', g1, -, g3, -⟩ := h1 d bs' hr
      rw [hrun] at g1
      cases g1
      exact ⟨d0, d, rfl, hr, g3⟩

/-- C106, tiering: `n` flushes copy at most `n * lwm * (log n + 1)` records. -/
theorem C106_tiering_log {tag : Bool} {pq : PQ R} {lb : LB R K} {lwm hwm sf : Nat} {c0 c : Index R}
    {ops : List (Index.Op R)} {bs : List Bool} (hnew : Index.new .tiering tag (sortedImpl pq lb).counted lwm hwm sf = .ok c0)
    (hlwm : 1 ≤ lwm) (hsf : 2 ≤ sf) (hrun : c0.run ops = .ok (c, bs)) :
    c.work ≤ (Nat.log sf (flushes tag lwm ops) + 1) * (lwm * flushes tag lwm ops) := by
  obtain ⟨d0, d, h1, h2, h3⟩ := counted_plain hnew hrun
  have := (C16_tiering h1 hlwm (by omega) h2).2.2 hsf
  refine le_trans (C106_tiering (sortedImpl_conserving pq lb) (sortedImpl_lookupSound pq lb) hnew hlwm (by omega) hrun).2 ?_
  exact Nat.mul_le_mul_right _ (by omega)

/-- C106, leveling: `n` flushes copy at most `n` times a logarithmic multiple of the watermarks. -/
theorem C106_leveling_log {tag : Bool} {pq : PQ R} {lb : LB R K} {lwm hwm sf : Nat} {c0 c : Index R}
    {ops : List (Index.Op R)} {bs : List Bool} (hnew : Index.new .leveling tag (sortedImpl pq lb).counted lwm hwm sf = .ok c0)
    (hlwm : 1 ≤ lwm) (hsf : 2 ≤ sf) (hrun : c0.run ops = .ok (c, bs)) :
    c.work ≤ ((2 * sf * max 1 (Nat.log sf (lwm * flushes tag lwm ops / hwm)) + 1) * lwm + hwm * sf) * flushes tag lwm ops := by
  obtain ⟨d0, d, h1, h2, h3⟩ := counted_plain hnew hrun
  have := (C16_leveling h1 hlwm hsf h2).2.2.2
  refine le_trans (C106_leveling (sortedImpl_conserving pq lb) (sortedImpl_lookupSound pq lb) hnew hlwm hsf hrun).2 ?_
  refine Nat.mul_le_mul_right _ (Nat.add_le_add_right (Nat.mul_le_mul_right _ (Nat.add_le_add_right (Nat.mul_le_mul_left _ ?_) _)) _)
  omega

/-- C106, Bentley-Saxe, insert-only: `n` flushes copy at most `n * lwm * (log n + 2)` records. -/
theorem C106_bsm_log {tag : Bool} {pq : PQ R} {lb : LB R K} {lwm hwm sf : Nat} {c0 c : Index R}
    {ops : List (Index.Op R)} {bs : List Bool} (hnew : Index.new .bsm tag (sortedImpl pq lb).counted lwm hwm sf = .ok c0)
    (hlwm : 1 ≤ lwm) (hio : InsertOnly ops) (hrun : c0.run ops = .ok (c, bs)) :
    c.work ≤ (Nat.log 2 (flushes tag lwm ops) + 2) * (lwm * flushes tag lwm ops) := by
  obtain ⟨d0, d, h1, h2, h3⟩ := counted_plain hnew hrun
  have := C16_bsm h1 hlwm h2
  refine le_trans (C106_bsm (sortedImpl_cleanOk pq lb) hnew hlwm hio hrun) ?_
  exact Nat.mul_le_mul_right _ (by omega)

end

/-! ### Witnesses -/

/-- Run a history with the counting class. -/
def probeWork (L : Layout) (tagging : Bool) (lwm hwm sf : Nat) (ops : List (Index.Op Rec)) : Res (Nat × Nat × Nat) := do
  let c ← Index.new L tagging stdImpl.counted lwm hwm sf
  let p ← c.run ops
  .ok (p.1.work, p.1.height, lwm * flushes tagging lwm ops)

example : probeWork .tiering false 2 2 2 (insSeq 0 31) = .ok (98, 4, 30) := by decide
example : probeWork .leveling false 2 2 2 (insSeq 0 31) = .ok (98, 4, 30) := by decide
example : probeWork .bsm false 2 2 2 (insSeq 0 31) = .ok (92, 5, 30) := by decide
example : probeWork .tiering true 2 3 2 (insSeq 0 9 ++ [.del ⟨3, 3⟩] ++ insSeq 9 12) = .ok (44, 3, 20) := by decide

end DE
