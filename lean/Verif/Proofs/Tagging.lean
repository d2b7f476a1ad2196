import Verif.Proofs.Closure
import Verif.Proofs.Safety
import Verif.Proofs.Query
import Verif.Proofs.InsertOnly

/-!
Tagging deletes: what `erase` finds and what it changes.
-/

namespace DE
variable {R : Type}

/-! ### Only the first `cnt` slots of a level hold shards -/

/-- No shard beyond the shard count. -/
def LOk (l : Level R) : Prop := l.cnt ≤ l.shards.length ∧ ∀ s, some s ∉ l.shards.drop l.cnt
/-- Every level is `LOk`. -/
def SOk (st : Struct R) : Prop := ∀ l ∈ st.levels, LOk l

theorem LOk.vis {l : Level R} (h : LOk l) {s : Shard R} : s ∈ l.visible ↔ some s ∈ l.shards := by
  simp only [Level.visible, List.mem_filterMap, id, exists_eq_right]
  constructor
  · exact List.mem_of_mem_take
  · intro hs
    rw [← List.take_append_drop l.cnt l.shards] at hs
    rcases List.mem_append.mp hs with hs | hs
    · exact hs
    · exact absurd hs (h.2 s)

theorem lok_new {no cap : Nat} : LOk (Level.new no cap : Level R) := by
  refine ⟨by simp [Level.new], ?_⟩
  intro s hs; simp [Level.new] at hs

theorem lok_one {no : Nat} {m : Shard R} {p : Option (Shard R)} :
    LOk ({ no := no, cnt := 1, shards := [some m], pending := p } : Level R) := by
  refine ⟨by simp, ?_⟩
  intro s hs; simp at hs

theorem lok_set {l : Level R} {m : Shard R} (h : LOk l) (hlt : l.cnt ≠ l.shards.length) :
    LOk ({ no := l.no, cnt := l.cnt + 1, shards := l.shards.set l.cnt (some m), pending := l.pending } : Level R) := by
  have := h.1
  refine ⟨by simp; omega, ?_⟩
  intro s hs
  simp only at hs
  rw [List.drop_set_of_lt (by omega)] at hs
  refine h.2 s ?_
  rw [← List.drop_drop] at hs
  exact List.mem_of_mem_drop hs

variable {I : ShardImpl R} {v : View R}

theorem reconstruct2_lok {a b l : Level R} (h : Level.reconstruct2 I a b = .ok l) : LOk l := by
  unfold Level.reconstruct2 at h
  simp only [bind_ok] at h
  obtain ⟨-, -, s0, h0, s1, h1, m, hm, he⟩ := h
  cases he
  exact lok_one

theorem reconstructMany_lok {ls : List (Level R)} {i : Nat} {l : Level R}
    (h : Level.reconstructMany I ls i = .ok l) : LOk l := by
  unfold Level.reconstructMany at h
  simp only [bind_ok] at h
  obtain ⟨m, hm, he⟩ := h
  cases he
  exact lok_one

theorem appendLevel_lok {a b l : Level R} (ha : LOk a) (h : Level.appendLevel I a b = .ok l) : LOk l := by
  unfold Level.appendLevel at h
  split at h
  · cases h; exact ha
  · rw [bind_ok] at h
    obtain ⟨m, hm, he⟩ := h
    split at he
    · cases he; exact ⟨ha.1, ha.2⟩
    · next hne => cases he; exact lok_set ha hne

theorem appendBuffer_lok {a l : Level R} (ha : LOk a) (h : Level.appendBuffer I a v = .ok l) : LOk l := by
  unfold Level.appendBuffer at h
  split at h
  · simp only [bind_ok] at h
    obtain ⟨-, -, m, hm, he⟩ := h
    cases he
    exact ⟨ha.1, ha.2⟩
  · next hne =>
    simp only [bind_ok] at h
    obtain ⟨m, hm, he⟩ := h
    cases he
    exact lok_set ha hne

theorem finalize_lok {a l : Level R} (ha : LOk a) (h : a.finalize = .ok l) : LOk l := by
  unfold Level.finalize at h
  split at h
  · cases h; exact ha
  · next p hp =>
    split at h
    · cases h
    · next hz =>
      cases h
      refine ⟨by simp; omega, ?_⟩
      intro s hs
      simp only at hs
      rw [List.drop_set_of_lt (by omega)] at hs
      simp at hs

theorem newBase_lok {L : Layout} {a b l : Level R} (ha : LOk a) (hb : LOk b)
    (h : Struct.newBase L I a b = .ok l) : LOk l := by
  have hgen : (Level.appendLevel I a b >>= fun l => l.finalize) = .ok l → LOk l := by
    intro h
    rw [bind_ok] at h
    obtain ⟨m, h1, h2⟩ := h
    exact finalize_lok (appendLevel_lok ha h1) h2
  cases L with
  | leveling =>
    simp only [Struct.newBase] at h
    split at h
    · exact reconstruct2_lok h
    · cases h; exact hb
  | tiering => exact hgen h
  | bsm => exact hgen h

theorem reconstruct_lok {L : Layout} {st st' : Struct R} {b i : Nat} (ha : SOk st)
    (h : Struct.reconstruct L I st b i = .ok st') : SOk st' := by
  unfold Struct.reconstruct at h
  have hgen : ∀ st1 : Struct R, SOk st1 → (do
      let lb ← DE.getR st1.levels b
      let li ← DE.getR st1.levels i
      let nb ← Struct.newBase L I lb li
      (.ok { st1 with
        levels := (st1.levels.set b nb).set i (Level.new i (Struct.shardCap L st.sf))
        state := (st1.state.set b
            { reccnt := nb.recordCount, reccap := Struct.levelCap st1.bufSize st1.sf b
              shardcnt := nb.cnt, shardcap := Struct.shardCap L st.sf }).set i
            { reccnt := 0, reccap := Struct.levelCap st1.bufSize st1.sf i, shardcnt := 0, shardcap := Struct.shardCap L st.sf } } :
        Res (Struct R))) = .ok st' → SOk st' := by
    intro st1 h1 h
    simp only [bind_ok] at h
    obtain ⟨lb, e1, li, e2, nb, e3, e4⟩ := h
    cases e4
    intro l hl
    rcases mem_set2 hl with hl | rfl | rfl
    · exact h1 l hl
    · exact newBase_lok (h1 _ (getR_mem e1)) (h1 _ (getR_mem e2)) e3
    · exact lok_new
  refine hgen _ ?_ h
  split
  · intro l hl
    rcases List.mem_append.mp hl with hl | hl
    · exact ha l hl
    · simp at hl; subst hl; exact lok_new
  · exact ha

theorem reconstructBSM_lok {st st' : Struct R} {t : Task} (ha : SOk st)
    (h : Struct.reconstructBSM I st t = .ok st') : SOk st' := by
  unfold Struct.reconstructBSM at h
  simp only [bind_ok] at h
  obtain ⟨srcs, e1, nl, e2, e3⟩ := h
  have hnl := reconstructMany_lok e2
  have hfold : ∀ (ss : List Nat) (st0 : Struct R), SOk st0 → SOk (ss.foldl (fun st s =>
      { st with levels := st.levels.set s (Level.new s 1)
                state := st.state.set s { reccnt := 0, reccap := Struct.levelCap st.bufSize st.sf t.target
                                          shardcnt := 0, shardcap := 1 } }) st0) := by
    intro ss
    induction ss with
    | nil => intro st0 h0; exact h0
    | cons s ss ih =>
      intro st0 h0
      refine ih _ ?_
      intro l hl
      rcases List.mem_or_eq_of_mem_set hl with hl | rfl
      · exact h0 l hl
      · exact lok_new
  cases e3
  refine hfold _ _ ?_
  split
  · intro l hl
    rcases List.mem_append.mp hl with hl | hl
    · exact ha l hl
    · simp at hl; subst hl; exact hnl
  · intro l hl
    rcases List.mem_or_eq_of_mem_set hl with hl | rfl
    · exact ha l hl
    · exact hnl

theorem runTasks_lok {L : Layout} {ts : List Task} {st st' : Struct R} (ha : SOk st)
    (h : Struct.runTasks L I st ts = .ok st') : SOk st' := by
  have hgen : ∀ (ts : List Task) (st st' : Struct R), SOk st → ts.foldlM (fun st t => do
      let src ← DE.getR t.sources 0
      Struct.reconstruct L I st t.target src) st = .ok st' → SOk st' := by
    intro ts
    induction ts with
    | nil => intro st st' ha h; cases h; exact ha
    | cons t ts ih =>
      intro st st' ha h
      rw [List.foldlM_cons, bind_ok] at h
      obtain ⟨st1, h1, h2⟩ := h
      rw [bind_ok] at h1
      obtain ⟨src, h0, h1⟩ := h1
      exact ih _ _ (reconstruct_lok ha h1) h2
  cases L with
  | leveling => exact hgen ts st st' ha h
  | tiering => exact hgen ts st st' ha h
  | bsm =>
    cases ts with
    | nil => cases h; exact ha
    | cons t ts => exact reconstructBSM_lok ha h

theorem newL0_lok {L : Layout} {a l : Level R} (ha : LOk a) (h : Struct.newL0 L I a v = .ok l) : LOk l := by
  cases L with
  | leveling =>
    simp only [Struct.newL0, bind_ok] at h
    obtain ⟨tmp, h1, h2⟩ := h
    have ht := appendBuffer_lok lok_new h1
    split at h2
    · exact reconstruct2_lok h2
    · cases h2; exact ht
  | tiering => exact appendBuffer_lok ha h
  | bsm => exact appendBuffer_lok ha h

theorem flushIntoL0_lok {L : Layout} {st st' : Struct R} (ha : SOk st)
    (h : Struct.flushIntoL0 L I st v = .ok st') : SOk st' := by
  unfold Struct.flushIntoL0 at h
  have hgen : ∀ st1 : Struct R, SOk st1 → (do
      let old ← DE.getR st1.levels 0
      let nl ← Struct.newL0 L I old v
      let s0 ← DE.getR st1.state 0
      (.ok { st1 with levels := st1.levels.set 0 nl
                      state := st1.state.set 0 { s0 with reccnt := nl.recordCount, shardcnt := nl.cnt } } : Res (Struct R)))
        = .ok st' → SOk st' := by
    intro st1 h1 h
    simp only [bind_ok] at h
    obtain ⟨old, e1, nl, e2, s0, -, e4⟩ := h
    cases e4
    intro l hl
    rcases List.mem_or_eq_of_mem_set hl with hl | rfl
    · exact h1 l hl
    · exact newL0_lok (h1 _ (getR_mem e1)) e2
  refine hgen _ ?_ h
  split
  · intro l hl
    rcases List.mem_append.mp hl with hl | hl
    · exact ha l hl
    · simp at hl; subst hl; exact lok_new
  · exact ha

theorem copy_lok {st : Struct R} (ha : SOk st) : SOk st.copy := by
  intro l hl
  simp only [Struct.copy, List.mem_map] at hl
  obtain ⟨l0, h0, rfl⟩ := hl
  have := (ha l0 h0).1
  refine ⟨by simp [Level.clone]; omega, ?_⟩
  intro s hs
  simp only [Level.clone] at hs
  rw [List.drop_append_of_le_length (by simp; omega)] at hs
  rw [List.drop_take] at hs
  simp at hs

theorem flush_lok {d d' : Index R} (ha : SOk d.str) (h : d.flush = .ok d') : SOk d'.str := by
  unfold Index.flush at h
  simp only [bind_ok] at h
  obtain ⟨ts, -, s1, h1, s2, h2, b, -, he⟩ := h
  cases he
  unfold Struct.flushBuffer at h2
  simp only [bind_ok] at h2
  obtain ⟨-, -, h2⟩ := h2
  exact flushIntoL0_lok (runTasks_lok (copy_lok ha) h1) h2

theorem internalAppend_lok {d d' : Index R} (ha : SOk d.str) {r : R} {ts b : Bool}
    (h : d.internalAppend r ts = .ok (d', b)) : SOk d'.str := by
  unfold Index.internalAppend at h
  have key : ∀ d1 : Index R, SOk d1.str →
      (Except.ok ({ d1 with buf := (d1.buf.append r ts).1 }, (d1.buf.append r ts).2) : Res (Index R × Bool)) = .ok (d', b) →
      SOk d'.str := by
    intro d1 h1 h2
    have hd : d' = { d1 with buf := (d1.buf.append r ts).1 } := (congrArg Prod.fst (Except.ok.inj h2)).symm
    rw [hd]; exact h1
  split at h
  · rw [bind_ok] at h
    obtain ⟨d1, h1, h2⟩ := h
    exact key d1 (flush_lok ha h1) h2
  · exact key d ha h

/-- What a successful tag in a level does. -/
theorem deleteRecord_some {l l' : Level R} (h : LOk l) {r : R} (hd : l.deleteRecord I r = .ok (some l')) :
    LOk l' ∧ ∃ p s q j, l.visible = p ++ s :: q ∧ I.lookup s r = .ok (some j) ∧ l'.visible = p ++ s.tag j :: q ∧
      l'.cnt = l.cnt ∧ l'.no = l.no := by
  unfold Level.deleteRecord at hd
  split at hd
  · cases hd
  · rw [bind_ok] at hd
    obtain ⟨o, h1, h2⟩ := hd
    cases o with
    | none => cases h2
    | some ss' =>
      cases h2
      obtain ⟨pre, s, post, j, e1, e2, e3, -⟩ := deleteIn_some h1
      have hlen : pre.length < l.cnt := by
        by_contra hge
        refine h.2 s ?_
        rw [e1, List.drop_append_of_le_length (by omega)]; simp
      have hcnt := h.1
      rw [e1] at hcnt
      obtain ⟨k, hk⟩ : ∃ k, l.cnt = pre.length + (k + 1) := ⟨l.cnt - pre.length - 1, by omega⟩
      have hv : ∀ (x : Option (Shard R)), (pre ++ x :: post).take l.cnt = pre ++ x :: post.take k := by
        intro x; rw [hk, List.take_length_add_append, List.take_succ_cons]
      have hdp : ∀ (x : Option (Shard R)), (pre ++ x :: post).drop l.cnt = post.drop k := by
        intro x; rw [hk, List.drop_length_add_append, List.drop_succ_cons]
      refine ⟨⟨?_, ?_⟩, pre.filterMap id, s, (post.take k).filterMap id, j, ?_, e2, ?_, rfl, rfl⟩
      · rw [e3]; simpa using hcnt
      · intro x hx
        refine h.2 x ?_
        simp only [e3] at hx
        rw [hdp] at hx
        rw [e1, hdp]; exact hx
      · unfold Level.visible; rw [e1, hv]; simp
      · unfold Level.visible; simp only [e3]; rw [hv]; simp [Shard.tag]

theorem deleteRecord_none {l : Level R} (h : LOk l) {r : R} (hd : l.deleteRecord I r = .ok none) :
    ∀ s ∈ l.visible, I.lookup s r = .ok none := by
  unfold Level.deleteRecord at hd
  split at hd
  · next h0 => intro s hs; simp [Level.visible, h0] at hs
  · rw [bind_ok] at hd
    obtain ⟨o, h1, h2⟩ := hd
    cases o with
    | some ss => cases h2
    | none => intro s hs; exact deleteIn_none h1 s (h.vis.mp hs)

theorem tagged_lok {r : R} {ls ls' : List (Level R)} (ha : ∀ l ∈ ls, LOk l)
    (h : Struct.taggedDeleteIn I r ls = .ok (some ls')) : ∀ l ∈ ls', LOk l := by
  obtain ⟨i, l, l', e1, e2, e3, -⟩ := taggedDelete_some h
  subst e3
  intro x hx
  rcases List.mem_or_eq_of_mem_set hx with hx | rfl
  · exact ha x hx
  · exact (deleteRecord_some (ha l (mem_of_getElem? e1)) e2).1

theorem step_lok [DecidableEq R] {d d' : Index R} {o : Index.Op R} {b : Bool} (ha : SOk d.str)
    (h : d.step o = .ok (d', b)) : SOk d'.str := by
  cases o with
  | ins r => exact internalAppend_lok ha h
  | del r =>
    simp only [Index.step, Index.erase] at h
    split at h
    · rw [bind_ok] at h
      obtain ⟨o, h1, h2⟩ := h
      cases o with
      | some ls => cases h2; exact tagged_lok ha h1
      | none => cases h2; exact ha
    · exact internalAppend_lok ha h

theorem run_lok [DecidableEq R] {d0 d : Index R} (h0 : BufInv d0.buf) (hl : d0.str.levels = [])
    {ops : List (Index.Op R)} {bs : List Bool} (hr : d0.run ops = .ok (d, bs)) : SOk d.str := by
  refine (run_prefix_ind ops (fun _ d _ => SOk d.str) h0 ?_ ?_ hr).1
  · intro l h; rw [hl] at h; simp at h
  · intro ops o d d' bs b _ _ hP _ _ _ _ hs
    exact step_lok hP hs

/-! ### Lookups in sorted shards find every stored record -/

section
variable {K : Type} [LinearOrder R] [LinearOrder K] [HasKey R K]

omit [LinearOrder K] [HasKey R K] in
theorem skipLess_le (r : R) : ∀ l : List (Wrapped R), skipLess r l ≤ l.length
  | [] => by simp [skipLess]
  | w :: ws => by rw [skipLess]; split <;> simp; exact skipLess_le r ws

omit [LinearOrder K] [HasKey R K] in
theorem skipLess_mem {r : R} : ∀ {l : List (Wrapped R)}, RecSorted l → (∃ w ∈ l, w.record = r) →
    ∃ w, l[skipLess r l]? = some w ∧ w.record = r
  | [], _, h => by simp at h
  | w :: ws, hs, h => by
    rw [skipLess]
    have hs' := List.pairwise_cons.mp hs
    split
    · next hlt =>
      obtain ⟨x, hx, hxr⟩ := h
      have hx' : x ∈ ws := by
        rcases List.mem_cons.mp hx with rfl | hx
        · exact absurd hlt (by rw [hxr]; exact lt_irrefl _)
        · exact hx
      obtain ⟨y, h1, h2⟩ := skipLess_mem hs'.2 ⟨x, hx', hxr⟩
      exact ⟨y, by simpa using h1, h2⟩
    · next hlt =>
      refine ⟨w, rfl, ?_⟩
      obtain ⟨x, hx, hxr⟩ := h
      rcases List.mem_cons.mp hx with rfl | hx
      · exact hxr
      · exact le_antisymm (hxr ▸ hs'.1 x hx) (not_lt.mp hlt)

theorem lbs_before (k : K) : ∀ (l : List (Wrapped R)) (i : Nat) (w : Wrapped R), i < lowerBoundSpec k l → l[i]? = some w →
    key w.record < k
  | [], i, w, h, hw => by simp at hw
  | x :: xs, i, w, h, hw => by
    rw [lowerBoundSpec] at h
    split at h
    · next hlt =>
      cases i with
      | zero => simp at hw; subst hw; exact hlt
      | succ i => exact lbs_before k xs i w (by omega) (by simpa using hw)
    · omega

/-- `point_lookup` of a sorted shard with a sound search: if the record is stored, it is found. -/
theorem sortedLookup_found {lb : LB R K} (hlb : lb.Sound) {s : Shard R} (hs : RecSorted s.data) {r : R}
    (hm : ∃ w ∈ s.data, w.record = r) : ∃ j w, sortedLookup lb s r = .ok (some j) ∧ s.data[j]? = some w ∧ w.record = r := by
  obtain ⟨w, hw, hwr⟩ := hm
  obtain ⟨i, h1, h2, h3⟩ := hlb s.data (List.ne_nil_of_mem hw) hs (key r)
  obtain ⟨n, hn, hnw⟩ := List.mem_iff_getElem.mp hw
  have hni : lowerBoundSpec (key r) s.data ≤ n := by
    by_contra hc
    have := lbs_before (key r) s.data n w (by omega) (by rw [List.getElem?_eq_getElem hn, hnw])
    rw [hwr] at this
    exact absurd this (lt_irrefl _)
  have hin : w ∈ s.data.drop i := by
    rw [List.mem_iff_getElem]
    refine ⟨n - i, by simp; omega, ?_⟩
    rw [List.getElem_drop, ← hnw]
    congr 1
    omega
  obtain ⟨x, hx, hxr⟩ := skipLess_mem (l := s.data.drop i) (hs.sublist (List.drop_sublist _ _)) ⟨w, hin, hwr⟩
  rw [List.getElem?_drop] at hx
  refine ⟨i + skipLess r (s.data.drop i), x, ?_, hx, hxr⟩
  unfold sortedLookup
  rw [h1]
  simp only [bind, Except.bind]
  rw [if_neg (by omega)]
  simp [getR, hx, hxr]

end

/-! ### The buffer -/

theorem findSlot_found [DecidableEq R] {data : Nat → Wrapped R} {r : R} : ∀ {n lo j : Nat}, lo ≤ j → j < lo + n →
    (data j).record = r → ∃ i, View.findSlot data r lo n = some i
  | 0, lo, j, h1, h2, _ => by omega
  | n+1, lo, j, h1, h2, h3 => by
    rw [View.findSlot]
    split
    · exact ⟨_, rfl⟩
    · next hne =>
      have : lo ≠ j := fun h => hne (by rw [h]; exact h3)
      exact findSlot_found (by omega) (by omega) h3


theorem deleteSlot_eq [DecidableEq R] (b : Buffer R) (r : R) : b.view.deleteSlot r =
    if b.head % b.cap < b.tail % b.cap then View.findSlot b.data r (b.head % b.cap) (b.tail % b.cap - b.head % b.cap)
    else match View.findSlot b.data r (b.head % b.cap) (b.cap - b.head % b.cap) with
      | some i => some i
      | none => View.findSlot b.data r 0 (b.tail % b.cap) := rfl

theorem deleteSlot_found [DecidableEq R] {b : Buffer R} (hb : b.WF) {r : R} (hm : ∃ w ∈ b.contents, w.record = r) :
    ∃ i, b.view.deleteSlot r = some i := by
  obtain ⟨w, hw, hwr⟩ := hm
  simp only [Buffer.contents, List.mem_map, List.mem_range] at hw
  obtain ⟨j, hj, rfl⟩ := hw
  have hc := hb.cap_pos
  have hlt := hb.cnt_lt
  have h1 : b.head % b.cap < b.cap := Nat.mod_lt _ hc
  have ht : b.tail % b.cap = (b.head % b.cap + (b.tail - b.head)) % b.cap := by
    conv_lhs => rw [show b.tail = b.head + (b.tail - b.head) by have := hb.ht; omega]
    rw [Nat.add_mod, Nat.mod_eq_of_lt hlt]
  have hx : (b.head + j) % b.cap = (b.head % b.cap + j) % b.cap := by
    rw [Nat.add_mod, Nat.mod_eq_of_lt (show j < b.cap by omega)]
  rw [hx] at hwr
  rw [deleteSlot_eq, ht]
  generalize b.head % b.cap = s at *
  generalize b.tail - b.head = n at *
  by_cases hwrap : s + n < b.cap
  · rw [Nat.mod_eq_of_lt hwrap, if_pos (by omega)]
    rw [Nat.mod_eq_of_lt (by omega)] at hwr
    exact findSlot_found (j := s + j) (by omega) (by omega) hwr
  · rw [mod_big (by omega) (by omega), if_neg (by omega)]
    by_cases hsj : s + j < b.cap
    · rw [Nat.mod_eq_of_lt hsj] at hwr
      obtain ⟨i, hi⟩ := findSlot_found (data := b.data) (r := r) (n := b.cap - s) (lo := s) (j := s + j) (by omega) (by omega) hwr
      rw [hi]; exact ⟨i, rfl⟩
    · rw [mod_big (by omega) (by omega)] at hwr
      split
      · exact ⟨_, rfl⟩
      · exact findSlot_found (j := s + j - b.cap) (by omega) (by omega) hwr

theorem deleteSlot_window [DecidableEq R] {b : Buffer R} (hb : b.WF) (hne : b.head < b.tail) {r : R} {i : Nat}
    (h : b.view.deleteSlot r = some i) :
    (b.data i).record = r ∧ ∃ j, j < b.tail - b.head ∧ (b.head + j) % b.cap = i := by
  have hc := hb.cap_pos
  have hlt := hb.cnt_lt
  have h1 : b.head % b.cap < b.cap := Nat.mod_lt _ hc
  have ht : b.tail % b.cap = (b.head % b.cap + (b.tail - b.head)) % b.cap := by
    conv_lhs => rw [show b.tail = b.head + (b.tail - b.head) by omega]
    rw [Nat.add_mod, Nat.mod_eq_of_lt hlt]
  have hx : ∀ j, j < b.cap → (b.head + j) % b.cap = (b.head % b.cap + j) % b.cap := by
    intro j hj
    rw [Nat.add_mod, Nat.mod_eq_of_lt hj]
  rw [deleteSlot_eq, ht] at h
  have hn : 0 < b.tail - b.head := by omega
  generalize b.head % b.cap = s at *
  generalize b.tail - b.head = n at *
  by_cases hwrap : s + n < b.cap
  · rw [Nat.mod_eq_of_lt hwrap, if_pos (by omega)] at h
    obtain ⟨e1, e2, e3, -⟩ := findSlot_some h
    refine ⟨e3, i - s, by omega, ?_⟩
    rw [hx _ (by omega), Nat.mod_eq_of_lt (by omega)]; omega
  · rw [mod_big (by omega) (by omega), if_neg (by omega)] at h
    split at h
    · next i' hi =>
      cases h
      obtain ⟨e1, e2, e3, -⟩ := findSlot_some hi
      refine ⟨e3, i - s, by omega, ?_⟩
      rw [hx _ (by omega), Nat.mod_eq_of_lt (by omega)]; omega
    · obtain ⟨e1, e2, e3, -⟩ := findSlot_some h
      refine ⟨e3, b.cap - s + i, by omega, ?_⟩
      rw [hx _ (by omega), mod_big (by omega) (by omega)]; omega

theorem sents_pick {p q : List (Shard R)} {s s' : Shard R} {r : R} (h : Tags r (ents s.data) (ents s'.data)) :
    Tags r (sents (p ++ s :: q)) (sents (p ++ s' :: q)) := by
  obtain ⟨rest, t, dl, h1, h2⟩ := h
  have e : ∀ x : Shard R, sents (p ++ x :: q) = sents p + sents q + ents x.data := by
    intro x
    rw [sents_append, show sents (x :: q) = ents x.data + sents q from rfl]; abel
  refine ⟨sents p + sents q + rest, t, dl, ?_, ?_⟩
  · rw [e, h1]; abel
  · rw [e, h2]; abel

theorem taggedDelete_tags_on {r : R} {I : ShardImpl R} {st : Struct R} (hl : ∀ s ∈ st.visible, ∀ j,
    I.lookup s r = .ok (some j) → ∃ w, s.data[j]? = some w ∧ w.record = r) (hok : SOk st)
    {ls' : List (Level R)} (h : Struct.taggedDeleteIn I r st.levels = .ok (some ls')) :
    Tags r (sents st.visible) (sents ({ st with levels := ls' } : Struct R).visible) := by
  obtain ⟨i, l, l', e1, e2, e3, -⟩ := taggedDelete_some h
  subst e3
  obtain ⟨-, p, s, q, j, f1, f2, f3, -⟩ := deleteRecord_some (hok l (mem_of_getElem? e1)) e2
  have hi := lt_of_getElem? e1
  have hd : st.levels = st.levels.take i ++ l :: st.levels.drop (i+1) := by
    conv_lhs => rw [← List.take_append_drop i st.levels, List.drop_eq_getElem_cons hi]
    rw [List.getElem?_eq_getElem hi] at e1
    cases e1; rfl
  have hd' : st.levels.set i l' = st.levels.take i ++ l' :: st.levels.drop (i+1) :=
    List.set_eq_take_append_cons_drop.trans (by rw [if_pos hi])
  unfold Struct.visible
  simp only
  rw [hd']
  conv in (st.levels) => rw [hd]
  simp only [List.flatMap_append, List.flatMap_cons, f1, f3]
  obtain ⟨w, g1, g2⟩ := hl s (List.mem_flatMap.mpr ⟨l, mem_of_getElem? e1, by rw [f1]; simp⟩) j f2
  have := tag_tags g1 g2
  rw [sents_append, sents_append (List.flatMap _ _), sents_append _ (List.flatMap _ _), sents_append _ (List.flatMap _ _)]
  refine Tags.add ?_ _
  rw [add_comm, add_comm (sents (p ++ s.tag j :: q))]
  exact Tags.add (sents_pick this) _

theorem taggedDelete_tags {r : R} {I : ShardImpl R} (hl : I.LookupSound) {st : Struct R} (hok : SOk st)
    {ls' : List (Level R)} (h : Struct.taggedDeleteIn I r st.levels = .ok (some ls')) :
    Tags r (sents st.visible) (sents ({ st with levels := ls' } : Struct R).visible) :=
  taggedDelete_tags_on (fun s _ j => hl s r j) hok h

/-- Return value and effect of a tagging erase, for shards whose lookup of the record is right. -/
theorem erase_tagging_on [DecidableEq R] {d d' : Index R} {r : R} {b : Bool}
    (hb : d.buf.WF) (hok : SOk d.str)
    (hsnd : ∀ s ∈ d.str.visible, ∀ j, d.impl.lookup s r = .ok (some j) → ∃ w, s.data[j]? = some w ∧ w.record = r)
    (hcmp : ∀ s ∈ d.str.visible, d.impl.lookup s r = .ok none → ∀ w ∈ s.data, w.record ≠ r)
    (ht : d.tagging = true) (h : d.erase r = .ok (d', b)) :
    ((∃ e ∈ d.entries, e.record = r) → b = true ∧ Tags r d.entries d'.entries) ∧
    ((¬ ∃ e ∈ d.entries, e.record = r) → d'.entries = d.entries ∧ (d.buf.head < d.buf.tail → b = false)) := by
  simp only [Index.erase] at h
  rw [if_pos ht, bind_ok] at h
  obtain ⟨o, h1, h2⟩ := h
  cases o with
  | some ls =>
    have hT := taggedDelete_tags_on hsnd hok h1
    cases h2
    have hT' : Tags r d.entries ({ d with str := { d.str with levels := ls } } : Index R).entries := by
      have := hT.add (ents d.buf.contents)
      exact this
    refine ⟨fun _ => ⟨rfl, hT'⟩, fun hno => ?_⟩
    obtain ⟨rest, t, dl, e1, -⟩ := hT'
    exact absurd ⟨⟨r, t, dl⟩, by rw [e1]; simp, rfl⟩ hno
  | none =>
    simp only at h2
    have hd : d' = { d with buf := (d.buf.deleteRecord r).1 } := (congrArg Prod.fst (Except.ok.inj h2)).symm
    have hbb : b = (d.buf.deleteRecord r).2 := (congrArg Prod.snd (Except.ok.inj h2)).symm
    have hnone : ∀ s ∈ d.str.visible, ∀ w ∈ s.data, w.record ≠ r := by
      intro s hsv w hw hwr
      have hsv0 := hsv
      simp only [Struct.visible, List.mem_flatMap] at hsv
      obtain ⟨l, hl, hsl⟩ := hsv
      exact hcmp s hsv0 (deleteRecord_none (hok l hl) (taggedDelete_none h1 l hl) s hsl) w hw hwr
    have hbuf : (∃ e ∈ d.entries, e.record = r) ↔ ∃ w ∈ d.buf.contents, w.record = r := by
      constructor
      · rintro ⟨e, he, her⟩
        unfold Index.entries at he
        rw [Multiset.mem_add] at he
        rcases he with he | he
        · obtain ⟨w, hw, rfl⟩ := mem_ents.mp he
          exact ⟨w, hw, her⟩
        · obtain ⟨s, hsv, he⟩ := sents_mem.mp (show e ∈ sents d.str.visible from he)
          obtain ⟨w, hw, rfl⟩ := mem_ents.mp he
          exact absurd her (hnone s hsv w hw)
      · rintro ⟨w, hw, hwr⟩
        refine ⟨w.entry, ?_, hwr⟩
        unfold Index.entries
        rw [Multiset.mem_add]
        exact Or.inl (mem_ents.mpr ⟨w, hw, rfl⟩)
    refine ⟨fun hex => ?_, fun hno => ?_⟩
    · have hex := hbuf.mp hex
      obtain ⟨i, hi⟩ := deleteSlot_found hb hex
      have hne : d.buf.head < d.buf.tail := by
        obtain ⟨w, hw, -⟩ := hex
        have := List.length_pos_of_mem hw
        rw [Buffer.contents_length] at this
        omega
      obtain ⟨g1, j, g2, g3⟩ := deleteSlot_window hb hne hi
      have hdr : d.buf.deleteRecord r =
          ({ d.buf with data := Buffer.write d.buf.data i (d.buf.data i).setDelete }, true) := by
        unfold Buffer.deleteRecord; rw [hi]
      rw [hbb, hd, hdr]
      refine ⟨rfl, ?_⟩
      have := (write_in hb g1 g2 g3).add (sents d.str.visible)
      rw [add_comm (sents _), add_comm (sents _)] at this
      exact this
    · refine ⟨?_, ?_⟩
      · rw [hd]
        rcases bufDelete_contents hb r with hc | hc
        · show ents (d.buf.deleteRecord r).1.contents + _ = _
          rw [hc]; rfl
        · obtain ⟨rest, t, dl, e1, -⟩ := hc
          exfalso
          apply hno
          refine ⟨⟨r, t, dl⟩, ?_, rfl⟩
          unfold Index.entries
          rw [Multiset.mem_add, e1]
          left; simp
      · intro hne
        cases hsl : d.buf.view.deleteSlot r with
        | none => rw [hbb]; unfold Buffer.deleteRecord; rw [hsl]
        | some i =>
          obtain ⟨g1, j, g2, g3⟩ := deleteSlot_window hb hne hsl
          exfalso
          apply hno
          rw [hbuf]
          refine ⟨d.buf.data i, ?_, g1⟩
          simp only [Buffer.contents, List.mem_map, List.mem_range]
          exact ⟨j, g2, by rw [g3]⟩

section
variable {K : Type} [LinearOrder R] [LinearOrder K] [HasKey R K]

/-- Return value and effect of a tagging erase. -/
theorem erase_tagging {pq : PQ R} {lb : LB R K} (hlb : lb.Sound) {d d' : Index R} {r : R} {b : Bool}
    (hb : d.buf.WF) (hok : SOk d.str) (hs : ∀ s ∈ d.str.visible, RecSorted s.data) (hI : d.impl = sortedImpl pq lb)
    (ht : d.tagging = true) (h : d.erase r = .ok (d', b)) :
    ((∃ e ∈ d.entries, e.record = r) → b = true ∧ Tags r d.entries d'.entries) ∧
    ((¬ ∃ e ∈ d.entries, e.record = r) → d'.entries = d.entries ∧ (d.buf.head < d.buf.tail → b = false)) := by
  refine erase_tagging_on hb hok (fun s _ j hj => ?_) (fun s hsv hn w hw hwr => ?_) ht h
  · rw [hI] at hj
    exact sortedImpl_lookupSound pq lb s r j hj
  · obtain ⟨j, x, g1, -⟩ := sortedLookup_found hlb (hs s hsv) ⟨w, hw, hwr⟩
    rw [hI, show (sortedImpl pq lb).lookup s r = sortedLookup lb s r from rfl, g1] at hn
    cases hn

end

end DE
