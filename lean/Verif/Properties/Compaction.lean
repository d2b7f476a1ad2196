import Verif.Model.Compaction
import Verif.Properties.Shape

/-!
C88: enforcing the tombstone proportion.
-/

namespace DE
variable {R : Type}

theorem firstViolation_spec (st : Struct R) : ∀ (ls : List (Level R)) (k : Nat), st.validateFrom k ls = false →
    ∃ v l, st.firstViolation k ls = some (k + v) ∧ ls[v]? = some l ∧ Struct.levelCap st.bufSize st.sf (k + v) < l.tombstoneCount
  | [], k, h => by simp [Struct.validateFrom] at h
  | l :: ls, k, h => by
    rw [Struct.validateFrom] at h
    rw [Struct.firstViolation]
    by_cases hc : l.tombstoneCount ≤ Struct.levelCap st.bufSize st.sf k
    · rw [if_pos hc]
      simp only [hc, decide_true, Bool.true_and] at h
      obtain ⟨v, l', h1, h2, h3⟩ := firstViolation_spec st ls (k+1) h
      refine ⟨v+1, l', ?_, by simpa using h2, ?_⟩
      · rw [h1, Nat.add_right_comm, Nat.add_assoc]
      · rwa [show k + (v + 1) = k + 1 + v by omega]
    · rw [if_neg hc]
      exact ⟨0, l, rfl, rfl, by simpa using hc⟩

theorem findTarget_gt {L : Layout} {n : Nat} {state : List LState} : ∀ (m i : Nat) {b : Nat},
    Struct.findTarget L n state i m = some b → i ≤ b
  | 0, i, b, h => by cases h
  | m+1, i, b, h => by
    rw [Struct.findTarget] at h
    split at h
    · cases h; exact le_refl _
    · have := findTarget_gt m (i+1) h; omega

theorem compactionLoop_succ {L : Layout} {st : Struct R} {sc : List LState} {n : Nat} {ts : List Task}
    (h : Struct.compactionLoop L st sc (n+1) = .ok ts) :
    ∃ cnt rest, Struct.compactionLoop L st sc n = .ok rest ∧ ts = { sources := [0], target := n+1, reccnt := cnt } :: rest := by
  rw [Struct.compactionLoop] at h
  rw [bind_ok] at h
  obtain ⟨l, -, h⟩ := h
  simp only [Nat.sub_self] at h
  split at h
  · simp only [bind_ok] at h
    obtain ⟨t, -, cnt, -, rest, h1, he⟩ := h
    exact ⟨cnt, rest, h1, (Except.ok.inj he).symm⟩
  · simp only [bind_ok] at h
    obtain ⟨cnt, -, rest, h1, he⟩ := h
    exact ⟨cnt, rest, h1, (Except.ok.inj he).symm⟩

/-- A leveling reconstruction out of level 0. -/
theorem reconstruct_from0 {I : ShardImpl R} {st st' : Struct R} {base : Nat} (h : Struct.reconstruct .leveling I st base 0 = .ok st')
    {v : Nat} {l : Level R} (hv : st.levels[v]? = some l) (h0 : v ≠ 0) (hb : v ≠ base) :
    st'.levels[v]? = some l ∧ st'.levels[0]? = some (Level.new 0 1) := by
  unfold Struct.reconstruct at h
  simp only [bind_ok] at h
  obtain ⟨lb, -, li, -, nb, -, he⟩ := h
  cases he
  have hlt := lt_of_getElem? hv
  have hv' : ∀ b : Bool, (if base ≥ st.levels.length then
      { st with levels := st.levels ++ [Level.new base (Struct.shardCap .leveling st.sf)]
                state := st.state ++ [{ reccnt := 0, reccap := Struct.levelCap st.bufSize st.sf base
                                        shardcnt := 0, shardcap := Struct.shardCap .leveling st.sf }] }
    else st).levels[v]? = some l := by
    intro _
    split
    · simp only; rw [List.getElem?_append_left hlt]; exact hv
    · exact hv
  refine ⟨?_, ?_⟩
  · simp only
    rw [List.getElem?_set_ne (fun h => h0 h.symm), List.getElem?_set_ne (fun h => hb h.symm)]
    exact hv' true
  · simp only
    rw [List.getElem?_set_self]
    · rfl
    · rw [List.length_set]
      exact lt_of_le_of_lt (Nat.zero_le _) (lt_of_getElem? (hv' true))

section
variable {K : Type} [LinearOrder R] [LinearOrder K] [HasKey R K]

/-- Merging a shard with the empty level 0 fails. -/
theorem reconstruct_empty0 {pq : PQ R} {lb : LB R K} {st : Struct R} {v : Nat} {l : Level R} (hv : st.levels[v]? = some l)
    (hc : 0 < l.cnt) (h0 : st.levels[0]? = some (Level.new 0 1)) :
    ∃ e, Struct.reconstruct .leveling (sortedImpl pq lb) st v 0 = .error e := by
  have hlt := lt_of_getElem? hv
  cases hr : Struct.reconstruct .leveling (sortedImpl pq lb) st v 0 with
  | error e => exact ⟨e, rfl⟩
  | ok st' =>
    exfalso
    unfold Struct.reconstruct at hr
    simp only [bind_ok, if_neg (show ¬ v ≥ st.levels.length by omega)] at hr
    obtain ⟨lb', h1, li, h2, nb, h3, -⟩ := hr
    unfold getR at h1 h2
    rw [hv] at h1
    rw [h0] at h2
    cases h1; cases h2
    simp only [Struct.newBase, if_pos hc, Level.reconstruct2, bind_ok] at h3
    obtain ⟨-, -, s0, -, s1, h4, m, h5, -⟩ := h3
    have : s1 = none := by
      simp [getR, Level.new] at h4
      exact h4.symm
    subst this
    simp [sortedImpl, sortedMerge] at h5

/-- Once level 0 is empty, the tasks down to a populated level fail. -/
theorem compaction_fails {pq : PQ R} {lb : LB R K} {st0 : Struct R} {sc : List LState} {v : Nat} (hv0 : v ≠ 0) {l : Level R}
    (hc : 0 < l.cnt) : ∀ (n : Nat) {ts : List Task} {st : Struct R}, Struct.compactionLoop .leveling st0 sc n = .ok ts → v ≤ n →
    st.levels[v]? = some l → (n = v → st.levels[0]? = some (Level.new 0 1)) →
    ∃ e, Struct.runTasks .leveling (sortedImpl pq lb) st ts = .error e
  | 0, _, _, _, hn, _, _ => absurd (Nat.le_zero.mp hn) hv0
  | n+1, ts, st, h, hn, hl, h0 => by
    obtain ⟨cnt, rest, h1, rfl⟩ := compactionLoop_succ h
    simp only [Struct.runTasks, List.foldlM_cons]
    have hg : (getR [0] 0 : Res Nat) = .ok 0 := rfl
    simp only [hg, bind, Except.bind]
    by_cases hnv : v = n + 1
    · subst hnv
      obtain ⟨e, he⟩ := reconstruct_empty0 (pq := pq) (lb := lb) hl hc (h0 rfl)
      rw [he]; exact ⟨e, rfl⟩
    · cases hr : Struct.reconstruct .leveling (sortedImpl pq lb) st (n+1) 0 with
      | error e => exact ⟨e, rfl⟩
      | ok st' =>
        obtain ⟨g1, g2⟩ := reconstruct_from0 hr hl hv0 hnv
        exact compaction_fails hv0 hc n h1 (by omega) g1 (fun _ => g2)

variable [Inhabited R]

/-- Partial C88: on a tiering or BSM index, and on any index with tagging deletes, enforcing the proportion finishes at once and
changes nothing, and the proportion holds. Missing: leveling with tombstone deletes (`C88_leveling_fails`). -/
theorem C88_partial {L : Layout} {tag : Bool} (hL : L ≠ .leveling ∨ tag = true) {pq : PQ R} {lb : LB R K} {lwm hwm sf : Nat}
    {d0 d : Index R} {ops : List (Index.Op R)} {bs : List Bool} (hnew : Index.new L tag (sortedImpl pq lb) lwm hwm sf = .ok d0)
    (hlwm : 1 ≤ lwm) (hsf : 1 ≤ sf) (hrun : d0.run ops = .ok (d, bs)) (n : Nat) :
    d.enforce (n+1) = .ok (some d) ∧ d.validate = true := by
  have hv : d.validate = true := by
    rcases hL with hL | rfl
    · exact C53_partial hL hnew hlwm hsf hrun
    · exact C53_tagging hnew hlwm hrun
  refine ⟨?_, hv⟩
  unfold Index.enforce Struct.enforce Struct.getCompactionTasks
  rw [show d.str.validate = true from hv]
  rfl

/-- C88 under leveling: in every reachable state, enforcing the proportion does nothing if it holds and fails, with undefined behaviour
or a failed assertion, whenever it is violated. -/
theorem C88_leveling_fails {tag : Bool} {pq : PQ R} {lb : LB R K} {lwm hwm sf : Nat} {d0 d : Index R}
    {ops : List (Index.Op R)} {bs : List Bool} (hnew : Index.new .leveling tag (sortedImpl pq lb) lwm hwm sf = .ok d0)
    (hlwm : 1 ≤ lwm) (hsf : 1 ≤ sf) (hrun : d0.run ops = .ok (d, bs)) (n : Nat) :
    (d.validate = true → d.enforce (n+1) = .ok (some d)) ∧ (d.validate = false → ∃ e, d.enforce (n+1) = .error e) := by
  refine ⟨?_, ?_⟩
  · intro hv
    unfold Index.enforce Struct.enforce Struct.getCompactionTasks
    rw [show d.str.validate = true from hv]
    rfl
  · intro hv
    obtain ⟨i1, i2, i3, i4, -⟩ := new_inv (by simp) hnew hlwm hsf
    obtain ⟨hd, -⟩ := new_ok hnew
    obtain ⟨k1, -, -, -⟩ := lev_run_inv i1 i2 (by rw [i4]; exact sortedImpl_conserving pq lb)
      (by rw [i4]; exact sortedImpl_lookupSound pq lb) (by rw [hd]) (by rw [hd]) hrun
    obtain ⟨-, hLd, -, himpl, -⟩ := run_buf ops (new_buf hnew hlwm) hrun
    have hL : d.L = .leveling := by rw [hLd, i2]
    have hI : d.impl = sortedImpl pq lb := himpl.trans i4
    obtain ⟨v, l, hf, hl, ht⟩ := firstViolation_spec d.str d.str.levels 0 hv
    rw [Nat.zero_add] at hf ht
    have hts := run_tscnt hnew hlwm hrun l (mem_of_getElem? hl)
    obtain ⟨s, hs⟩ := getElem?_of_lt (l := d.str.state) (i := v) (by rw [← k1.str.len]; exact lt_of_getElem? hl)
    have hlv := k1.str.lvl v l s hl hs
    have hc : 0 < l.cnt := by
      rw [← hlv.cnt]
      rcases Nat.eq_zero_or_pos l.visible.length with h | h
      · rw [List.length_eq_zero_iff] at h
        simp [Level.tombstoneCount, h] at ht
      · exact h
    have hv0 : v ≠ 0 := by
      rintro rfl
      have := k1.lev0 hL l.visible (by simp [Struct.abs, hl])
      rw [← recordCount_eq] at this
      omega
    cases hr : d.enforce (n+1) with
    | error e => exact ⟨e, rfl⟩
    | ok x =>
      exfalso
      unfold Index.enforce Struct.enforce Struct.getCompactionTasks at hr
      simp only [bind_ok] at hr
      obtain ⟨x1, ⟨ts, ht, h3⟩, -⟩ := hr
      rw [show d.str.validate = false from hv, if_neg (by simp), hf] at ht
      simp only [bind_ok, hL] at ht
      obtain ⟨tgt, hg, ht⟩ := ht
      have key : ∀ sc base, v < base → Struct.compactionLoop .leveling d.str sc base = .ok ts → False := by
        intro sc base hlt hcl
        obtain ⟨e, he⟩ := compaction_fails (pq := pq) (lb := lb) hv0 hc base hcl (by omega) hl (fun h => by omega)
        have hne : ts.length > 0 := by
          obtain ⟨b, rfl⟩ : ∃ b, base = b + 1 := ⟨base - 1, by omega⟩
          obtain ⟨_, _, -, rfl⟩ := compactionLoop_succ hcl
          simp
        rw [if_pos hne, bind_ok] at h3
        obtain ⟨st', h4, -⟩ := h3
        rw [hL, hI, he] at h4
        cases h4
      cases tgt with
      | none =>
        exact key _ _ (by
          simp only [Struct.grow]; exact lt_of_getElem? hl) ht
      | some b =>
        refine key d.str.state b ?_ ht
        unfold Struct.findReconstructionTarget at hg
        rw [if_neg (by omega), bind_ok] at hg
        obtain ⟨s', -, hg⟩ := hg
        have := findTarget_gt _ _ (Except.ok.inj hg)
        omega

end

/-- C88 is false: 23 erases under leveling put 18 tombstones into level 2, whose capacity is 16; enforcing the proportion is undefined
behaviour. -/
theorem C88_false : ∃ (d0 d : Index Rec) (bs : List Bool), mk .leveling false 1 2 2 = .ok d0 ∧
    d0.run (delSeq 0 23) = .ok (d, bs) ∧ d.validate = false ∧ d.enforce 1 = .error .ub := by
  have h : probe .leveling false 1 2 2 (delSeq 0 23) (fun p => .ok (p.1.validate, match p.1.enforce 1 with | .error .ub => true | _ => false)) =
    .ok (false, true) := by decide
  obtain ⟨d0, d, bs, h1, h2, h3⟩ := probe_ok h
  have h3 := Except.ok.inj h3
  refine ⟨d0, d, bs, h1, h2, congrArg Prod.fst h3, ?_⟩
  have h4 := congrArg Prod.snd h3
  simp only at h4
  split at h4
  · assumption
  · cases h4

/-- `C88_partial` on a tiering index with three levels and tombstones. -/
example : probe .tiering false 2 2 2 (delSeq 0 17) (fun p => .ok (p.1.height, p.1.str.tombstoneCount, p.1.validate)) = .ok (3, 16, true) := by
  decide

end DE
