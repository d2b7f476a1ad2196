import Verif.Proofs.ShapeRun
import Verif.Proofs.BSM

/-!
The BSM structure as a counter, for every history (including those with void blocks).
-/

namespace DE
variable {R : Type}

/-! ### The counter alone -/

/-- One flush, on the list of level sizes. `c` is the size of the new level 0, `m` that of the merged level. -/
inductive FStep (bs : Nat) : List Nat → List Nat → Prop where
  | first (c : Nat) (hc : c ≤ bs) : FStep bs [] [c]
  | void (c : Nat) (t : List Nat) (hc : c ≤ bs) : FStep bs (0 :: t) (c :: t)
  | carry (c m z : Nat) (p q : List Nat) (hc : c ≤ bs) (hz : z ≠ 0) (hp : ∀ x ∈ p, x ≠ 0) (hq : ∀ x, q.head? = some x → x = 0)
      (hm : m ≤ z + p.sum) : FStep bs (z :: (p ++ q)) (c :: (List.replicate p.length 0 ++ m :: q.tail))

/-- The number whose binary digits say which levels hold records. -/
def bits : List Nat → Nat
  | [] => 0
  | x :: t => (if x = 0 then 0 else 1) + 2 * bits t

theorem bits_full : ∀ (p q : List Nat), (∀ x ∈ p, x ≠ 0) → bits (p ++ q) + 1 = 2 ^ p.length * (bits q + 1)
  | [], q, _ => by simp
  | x :: p, q, h => by
    have := bits_full p q (fun x hx => h x (by simp [hx]))
    simp only [List.cons_append, bits, if_neg (h x (by simp)), List.length_cons, pow_succ]
    calc 1 + 2 * bits (p ++ q) + 1 = 2 * (bits (p ++ q) + 1) := by ring
      _ = _ := by rw [this]; ring

theorem bits_zero : ∀ (k : Nat) (q : List Nat), bits (List.replicate k 0 ++ q) = 2 ^ k * bits q
  | 0, q => by simp
  | k+1, q => by
    simp only [List.replicate_succ, List.cons_append, bits, if_true, bits_zero k q, pow_succ]; ring

/-- Invariant of the counter after `n` flushes. -/
structure BCount (bs n : Nat) (z : List Nat) : Prop where
  zero : ∀ x, z.head? = some x → x ≤ bs
  succ : ∀ (i x : Nat), z.tail[i]? = some x → x ≤ 2 ^ i * bs
  low : z ≠ [] → bits z.tail < n
  high : ∀ h, z.length = h + 2 → 2 ^ h < n

theorem sum_take_bound {bs : Nat} : ∀ (p q : List Nat) (k : Nat), (∀ (i x : Nat), (p ++ q)[i]? = some x → x ≤ 2 ^ (k+i) * bs) →
    p.sum + 2 ^ k * bs ≤ 2 ^ (k + p.length) * bs
  | [], q, k, h => by simp
  | x :: p, q, k, h => by
    have h0 := h 0 x rfl
    have := sum_take_bound p q (k+1) (fun i y hi => by
      have := h (i+1) y (by simpa using hi)
      rwa [show k + 1 + i = k + (i + 1) by omega])
    simp only [List.sum_cons, List.length_cons]
    rw [show k + (p.length + 1) = k + 1 + p.length by omega]
    rw [pow_succ] at this
    simp only [Nat.add_zero] at h0
    have e : 2 ^ k * 2 * bs = 2 ^ k * bs + 2 ^ k * bs := by ring
    omega

theorem BCount.step {bs n : Nat} {z z' : List Nat} (h : BCount bs n z) (hs : FStep bs z z') :
    BCount bs (n+1) z' ∧ z.length ≤ z'.length := by
  cases hs with
  | first c hc =>
    refine ⟨⟨?_, ?_, ?_, ?_⟩, by simp⟩
    · intro x hx; simp at hx; omega
    · intro i x hx; simp at hx
    · intro _; simp [bits]
    · intro k hk; simp at hk
  | void c t hc =>
    refine ⟨⟨?_, ?_, ?_, ?_⟩, by simp⟩
    · intro x hx; simp at hx; omega
    · exact h.succ
    · intro _; have := h.low (by simp); simp only [List.tail_cons] at this ⊢; omega
    · intro k hk
      have := h.high k (by simpa using hk); omega
  | carry c m z p q hc hz hp hq hm =>
    have hsucc : ∀ (i x : Nat), (p ++ q)[i]? = some x → x ≤ 2 ^ i * bs := h.succ
    have hz' : z ≤ bs := h.zero z rfl
    have hlow : bits (p ++ q) < n := h.low (by simp)
    have hmb : m ≤ 2 ^ p.length * bs := by
      have := sum_take_bound p q 0 (fun i x hx => by simpa using hsucc i x hx)
      simp only [Nat.zero_add, pow_zero, Nat.one_mul] at this
      omega
    have hbq : bits q = 2 * bits q.tail := by
      cases q with
      | nil => rfl
      | cons x q => simp [bits, hq x rfl]
    have hfull := bits_full p q hp
    refine ⟨⟨?_, ?_, ?_, ?_⟩, ?_⟩
    · intro x hx; simp at hx; omega
    · intro i x hx
      simp only [List.tail_cons] at hx
      rcases Nat.lt_trichotomy i p.length with hi | hi | hi
      · rw [List.getElem?_append_left (by simpa using hi)] at hx
        rw [List.getElem?_replicate] at hx
        rw [if_pos hi] at hx
        simp at hx; omega
      · rw [List.getElem?_append_right (by simp [hi])] at hx
        simp [hi] at hx
        rw [← hx, hi]; exact hmb
      · rw [List.getElem?_append_right (by simp; omega)] at hx
        simp only [List.length_replicate] at hx
        obtain ⟨j, hj⟩ : ∃ j, i = p.length + 1 + j := ⟨i - (p.length + 1), by omega⟩
        subst hj
        rw [show p.length + 1 + j - p.length = j + 1 by omega, List.getElem?_cons_succ, List.getElem?_tail] at hx
        refine hsucc _ x ?_
        rw [List.getElem?_append_right (by omega), show p.length + 1 + j - p.length = j + 1 by omega]
        exact hx
    · intro _
      simp only [List.tail_cons]
      rw [bits_zero]
      simp only [bits]
      have hle : 2 ^ p.length * ((if m = 0 then 0 else 1) + 2 * bits q.tail) ≤ 2 ^ p.length * (bits q + 1) := by
        apply Nat.mul_le_mul_left
        rw [hbq]; split <;> omega
      omega
    · intro k hk
      by_cases hqe : q = []
      · subst hqe
        simp at hk
        subst hk
        simp [bits] at hfull hlow
        omega
      · have hlen : 0 < q.length := List.length_pos_iff.mpr hqe
        have := h.high k (by simp at hk ⊢; omega)
        omega
    · simp; omega

/-! ### The model performs that step -/

/-- Level sizes. -/
def szs (st : Struct R) : List Nat := st.levels.map Level.recordCount

/-- Bookkeeping of every BSM index: the state's record counts are the levels'. -/
structure GBInv (st : Struct R) : Prop where
  state : st.state.map LState.reccnt = szs st
  lok : SOk st

theorem GBInv.len {st : Struct R} (h : GBInv st) : st.state.length = st.levels.length := by
  simpa [szs] using congrArg List.length h.state

theorem GBInv.can {st : Struct R} (h : GBInv st) (idx n : Nat) :
    Struct.canReconstructWith .bsm idx n st.state = true ↔ (szs st)[idx]? = some 0 := by
  unfold Struct.canReconstructWith
  rw [← h.state, List.getElem?_map]
  cases st.state[idx]? with
  | none => simp
  | some s => simp

theorem LOk.count {l : Level R} (h : LOk l) : recs l.present = l.recordCount := by
  unfold Level.recordCount Level.visible Level.present recs
  conv_lhs => rw [← List.take_append_drop l.cnt l.shards]
  rw [List.filterMap_append]
  have : (l.shards.drop l.cnt).filterMap id = [] := by
    rw [List.filterMap_eq_nil_iff]
    intro o ho
    cases o with
    | none => rfl
    | some s => exact absurd ho (h.2 s)
  rw [this, List.append_nil]

theorem clone_count {l : Level R} (h : LOk l) : l.clone.recordCount = l.recordCount := by
  unfold Level.recordCount Level.visible Level.clone
  simp only
  rw [List.take_append_of_le_length (by simp; exact h.1), List.take_take, Nat.min_self]

theorem GBInv.copy {st : Struct R} (h : GBInv st) : GBInv st.copy ∧ szs st.copy = szs st := by
  have e : szs st.copy = szs st := by
    unfold szs Struct.copy
    simp only [List.map_map]
    apply List.map_congr_left
    intro l hl
    exact clone_count (h.lok l hl)
  exact ⟨⟨by rw [e]; exact h.state, copy_lok h.lok⟩, e⟩

theorem gplan {st : Struct R} (h : GBInv st) {n : Nat} {ts : List Task}
    (hg : Struct.getReconstructionTasks .bsm st n = .ok ts) :
    (ts = [] ∧ ∀ x, (szs st).head? = some x → x = 0) ∨
    ∃ base k, ts = [{ sources := downTo base, target := base, reccnt := k }] ∧ 0 < base ∧ base ≤ st.levels.length ∧
      (∀ j, j < base → (szs st)[j]? ≠ some 0) ∧ (base < st.levels.length → (szs st)[base]? = some 0) := by
  have hlen := h.len
  have hszl : (szs st).length = st.levels.length := by simp [szs]
  unfold Struct.getReconstructionTasks at hg
  by_cases hc : Struct.canReconstructWith .bsm 0 n st.state = true
  · rw [if_pos hc, bind_ok] at hg
    obtain ⟨x, e1, e2⟩ := hg
    cases e1
    simp only [bind_ok] at e2
    obtain ⟨-, -, e2⟩ := e2
    cases e2
    left
    refine ⟨rfl, ?_⟩
    rw [h.can] at hc
    intro x hx
    rw [List.head?_eq_getElem?, hc] at hx
    cases hx; rfl
  · rw [if_neg hc, bind_ok] at hg
    obtain ⟨x, e1, e2⟩ := hg
    simp only [bind_ok] at e2
    obtain ⟨-, -, e2⟩ := e2
    have e2 := Except.ok.inj e2
    unfold Struct.tasksFromLevel at e1
    rw [bind_ok] at e1
    obtain ⟨tgt, f1, f2⟩ := e1
    by_cases hz : st.state.length = 0
    · left
      unfold Struct.findReconstructionTarget at f1
      rw [if_pos ⟨rfl, hz⟩] at f1
      cases f1
      have hl0 : st.levels.length = 0 := by omega
      simp only [Struct.grow, hl0, if_true] at f2
      have f2 := Except.ok.inj f2
      rw [← f2] at e2
      refine ⟨e2.symm, ?_⟩
      intro x hx
      rw [List.head?_eq_getElem?, List.getElem?_eq_none (by omega)] at hx
      cases hx
    · right
      unfold Struct.findReconstructionTarget at f1
      rw [if_neg (by omega), bind_ok] at f1
      obtain ⟨s0, -, f1⟩ := f1
      have f1 := Except.ok.inj f1
      have h0 : (szs st)[0]? ≠ some 0 := fun e => hc ((h.can 0 n).mpr e)
      have hfin : ∀ (sc : List LState) (base : Nat), base < sc.length → 0 < base →
          ((if base = 0 then (.ok ([], sc) : Res (List Task × List LState))
            else do
              let (srcs, n, scratch) ← Struct.bsmLoop 0 base sc [] 0
              let s ← getR scratch base
              .ok ([{ sources := srcs, target := base, reccnt := n }],
                scratch.set base { s with reccnt := n, shardcnt := 1 })) = .ok x) →
          ∃ k, x.1 = [{ sources := downTo base, target := base, reccnt := k }] := by
        intro sc base hb hpos hx
        rw [if_neg (by omega)] at hx
        obtain ⟨k, sc', l1, l2⟩ := bsmLoop_ok base sc [] 0 (by omega)
        rw [l1, bind_ok] at hx
        obtain ⟨y, y1, y2⟩ := hx
        cases y1
        simp only [bind_ok] at y2
        obtain ⟨s, -, y2⟩ := y2
        refine ⟨k, ?_⟩
        rw [← Except.ok.inj y2]; rfl
      cases tgt with
      | some b =>
        obtain ⟨q1, q2, q3, q4⟩ := findTarget_some f1
        simp only at f2
        obtain ⟨k, hk⟩ := hfin st.state b (by omega) (by omega) f2
        refine ⟨b, k, by rw [← e2, hk], by omega, by omega, ?_, ?_⟩
        · intro j hj
          by_cases hj0 : j = 0
          · subst hj0; exact h0
          · intro e
            have := q4 j (by omega) hj
            rw [(h.can j s0.reccnt).mpr e] at this
            cases this
        · intro _; exact (h.can b s0.reccnt).mp q3
      | none =>
        have q4 := findTarget_none f1
        simp only [Struct.grow] at f2
        obtain ⟨k, hk⟩ := hfin _ st.levels.length (by simp; omega) (by omega) f2
        refine ⟨st.levels.length, k, by rw [← e2, hk], by omega, le_refl _, ?_, by omega⟩
        intro j hj
        by_cases hj0 : j = 0
        · subst hj0; exact h0
        · intro e
          have := q4 j (by omega) (by omega)
          rw [(h.can j s0.reccnt).mpr e] at this
          cases this

theorem mapM_getR_szs {st : Struct R} (hl : SOk st) : ∀ (base : Nat) {srcs : List (Level R)}, base ≤ st.levels.length →
    (downTo base).mapM (getR st.levels) = (.ok srcs : Res _) →
    recs (srcs.flatMap Level.present) = ((szs st).take base).sum
  | 0, srcs, _, h => by
    simp [downTo, pure, Except.pure] at h; subst h; simp [recs]
  | k+1, srcs, hk, h => by
    rw [downTo, List.mapM_cons] at h
    rw [bind_ok] at h
    obtain ⟨l, h1, h2⟩ := h
    rw [bind_ok] at h2
    obtain ⟨ls, h2, h3⟩ := h2
    cases h3
    have hlk := getR_ok h1
    rw [List.flatMap_cons, recs_append, mapM_getR_szs hl k (by omega) h2, (hl l (mem_of_getElem? hlk)).count]
    have : (szs st)[k]? = some l.recordCount := by simp [szs, hlk]
    rw [List.take_add_one, this]
    simp; omega

theorem recordCount_one (no c : Nat) (m : Shard R) :
    ({ no := no, cnt := c + 1, shards := [some m], pending := none } : Level R).recordCount = m.data.length := by
  simp [Level.recordCount, Level.visible]

theorem reconstructBSM_szs {I : ShardImpl R} (hI : I.Conserving) {st st' : Struct R} (h : GBInv st) {base k : Nat} (hpos : 0 < base)
    (hle : base ≤ st.levels.length)
    (hr : Struct.reconstructBSM I st { sources := downTo base, target := base, reccnt := k } = .ok st') :
    GBInv st' ∧ st'.bufSize = st.bufSize ∧ st'.sf = st.sf ∧ ∃ m, m ≤ ((szs st).take base).sum ∧
      szs st' = List.replicate base 0 ++ m :: (szs st).drop (base+1) := by
  have hlok := reconstructBSM_lok h.lok hr
  have hlen := h.len
  unfold Struct.reconstructBSM at hr
  simp only [bind_ok] at hr
  obtain ⟨srcs, e1, nl, e2, e3⟩ := hr
  have hrec := mapM_getR_szs h.lok base hle e1
  unfold Level.reconstructMany at e2
  rw [bind_ok] at e2
  obtain ⟨m, hm, e2⟩ := e2
  have e2 := (Except.ok.inj e2).symm
  have hnl : nl.recordCount = m.data.length := by rw [e2]; exact recordCount_one _ 0 m
  have hmle : m.data.length ≤ ((szs st).take base).sum := by
    rw [← hrec]; exact merge_size hI hm
  obtain ⟨st1, hst1, b1, b2, b3, hl1, hs1⟩ : ∃ st1 : Struct R,
      (if base ≥ st.levels.length then
        { st with state := st.state ++ [{ reccnt := nl.recordCount, reccap := Struct.levelCap st.bufSize st.sf base
                                          shardcnt := 1, shardcap := 1 }]
                  levels := st.levels ++ [nl] }
      else { st with state := st.state.set base { reccnt := nl.recordCount, reccap := Struct.levelCap st.bufSize st.sf base
                                                  shardcnt := 1, shardcap := 1 }
                     levels := st.levels.set base nl }) = st1 ∧
      st1.bufSize = st.bufSize ∧ st1.sf = st.sf ∧ st1.levels.length = st1.state.length ∧
      (∀ i : Nat, st1.levels[i]? = if i = base then some nl else st.levels[i]?) ∧
      (∀ i : Nat, (st1.state[i]?).map LState.reccnt = if i = base then some nl.recordCount else (st.state[i]?).map LState.reccnt) := by
    refine ⟨_, rfl, ?_, ?_, ?_, ?_, ?_⟩
    · split <;> rfl
    · split <;> rfl
    · split <;> simp [hlen]
    · intro i
      split
      · next hge =>
        have hb : base = st.levels.length := by omega
        simp only
        by_cases hi : i = base
        · rw [if_pos hi, hi, hb]; simp
        · rw [if_neg hi]
          rcases Nat.lt_or_ge i st.levels.length with hlt | hge'
          · rw [List.getElem?_append_left hlt]
          · rw [List.getElem?_eq_none (by simp; omega), List.getElem?_eq_none hge']
      · next hlt =>
        simp only
        by_cases hi : i = base
        · rw [if_pos hi, hi, List.getElem?_set_self (by omega)]
        · rw [if_neg hi, List.getElem?_set_ne (fun e => hi e.symm)]
    · intro i
      split
      · next hge =>
        have hb : base = st.state.length := by omega
        simp only
        by_cases hi : i = base
        · rw [if_pos hi, hi, hb]; simp
        · rw [if_neg hi]
          rcases Nat.lt_or_ge i st.state.length with hlt | hge'
          · rw [List.getElem?_append_left hlt]
          · rw [List.getElem?_eq_none (by simp; omega), List.getElem?_eq_none hge']
      · next hlt =>
        simp only
        by_cases hi : i = base
        · rw [if_pos hi, hi, List.getElem?_set_self (by omega)]; rfl
        · rw [if_neg hi, List.getElem?_set_ne (fun e => hi e.symm)]
  rw [hst1] at e3
  obtain ⟨g1, g2, g5, g6, g3, g4⟩ := foldl_sources (bs := st.bufSize) (sf := st.sf) (tgt := base) (downTo base) st1 b1 b2
  have e3 := (Except.ok.inj e3).symm
  rw [← e3] at g1 g2 g3 g4 g5 g6
  have hsz : szs st' = List.replicate base 0 ++ m.data.length :: (szs st).drop (base+1) := by
    apply List.ext_getElem?
    intro i
    unfold szs
    rw [List.getElem?_map, g3, hl1]
    simp only [mem_downTo]
    by_cases hi : i < base
    · have hne : i ≠ base := by omega
      obtain ⟨l, hl⟩ := getElem?_of_lt (l := st.levels) (i := i) (by omega)
      rw [List.getElem?_append_left (by simpa using hi), List.getElem?_replicate, if_pos hi, if_pos hi, if_neg hne, hl]
      simp [Level.recordCount, Level.visible, Level.new]
    · rw [if_neg hi, List.getElem?_append_right (by simp; omega)]
      by_cases hi2 : i = base
      · subst hi2
        simp [hnl]
      · rw [if_neg hi2]
        obtain ⟨j, hj⟩ : ∃ j, i = base + 1 + j := ⟨i - (base + 1), by omega⟩
        subst hj
        simp only [List.length_replicate]
        rw [show base + 1 + j - base = j + 1 by omega, List.getElem?_cons_succ, List.getElem?_drop, List.getElem?_map]
  refine ⟨⟨?_, hlok⟩, g1, g2, m.data.length, hmle, hsz⟩
  rw [hsz]
  apply List.ext_getElem?
  intro i
  rw [List.getElem?_map, g4]
  simp only [mem_downTo]
  have hst : (st.state[i]?).map LState.reccnt = (szs st)[i]? := by rw [← h.state, List.getElem?_map]
  by_cases hi : i < base
  · rw [List.getElem?_append_left (by simpa using hi), List.getElem?_replicate, if_pos hi, if_pos hi]
    have := hs1 i
    rw [if_neg (by omega)] at this
    obtain ⟨s, hs⟩ := getElem?_of_lt (l := st.state) (i := i) (by omega)
    rw [hs] at this
    cases hx : st1.state[i]? with
    | none => rw [hx] at this; cases this
    | some s1 => rfl
  · rw [if_neg hi, hs1, List.getElem?_append_right (by simp; omega)]
    by_cases hi2 : i = base
    · subst hi2
      simp [hnl]
    · rw [if_neg hi2, hst]
      obtain ⟨j, hj⟩ : ∃ j, i = base + 1 + j := ⟨i - (base + 1), by omega⟩
      subst hj
      simp only [List.length_replicate]
      rw [show base + 1 + j - base = j + 1 by omega, List.getElem?_cons_succ, List.getElem?_drop]

theorem appendBuffer_count {I : ShardImpl R} {a l : Level R} {v : View R} (ha : LOk a) (h : Level.appendBuffer I a v = .ok l) :
    l.recordCount = a.recordCount ∨ ∃ s, I.build v = .ok s ∧ l.recordCount = a.recordCount + s.data.length := by
  unfold Level.appendBuffer at h
  split at h
  · simp only [bind_ok] at h
    obtain ⟨-, -, m, hm, he⟩ := h
    cases he
    left; rfl
  · next hne =>
    simp only [bind_ok] at h
    obtain ⟨m, hm, he⟩ := h
    cases he
    right
    refine ⟨m, hm, ?_⟩
    have hlt : a.cnt < a.shards.length := by have := ha.1; omega
    unfold Level.recordCount Level.visible
    simp only
    rw [List.take_add_one, List.getElem?_set_self hlt, List.take_set_of_le (le_refl _)]
    simp

theorem flushBuffer_szs {I : ShardImpl R} {st st' : Struct R} (h : GBInv st) {v : View R}
    (hr : Struct.flushBuffer .bsm I st v = .ok st') :
    GBInv st' ∧ st'.bufSize = st.bufSize ∧ st'.sf = st.sf ∧ (∀ x, (szs st).head? = some x → x = 0) ∧
      ∃ c, (c = 0 ∨ ∃ s, I.build v = .ok s ∧ c = s.data.length) ∧ szs st' = c :: (szs st).tail := by
  have hlen := h.len
  unfold Struct.flushBuffer at hr
  simp only [bind_ok, assertC_ok] at hr
  obtain ⟨-, h1, hr⟩ := hr
  have hlok := flushIntoL0_lok h.lok hr
  have hzero : ∀ x, (szs st).head? = some x → x = 0 := by
    intro x hx
    by_cases hz : st.state.length = 0
    · rw [List.head?_eq_getElem?, List.getElem?_eq_none (by rw [szs, List.length_map]; omega)] at hx
      cases hx
    · rw [if_neg hz, h.can] at h1
      rw [List.head?_eq_getElem?, h1] at hx
      cases hx; rfl
  have hgen : ∀ st1 : Struct R, GBInv st1 → st1.bufSize = st.bufSize → st1.sf = st.sf → (szs st1).head? = some 0 → (szs st1).tail = (szs st).tail → (do
      let old ← DE.getR st1.levels 0
      let nl ← Struct.newL0 .bsm I old v
      let s0 ← DE.getR st1.state 0
      (.ok { st1 with levels := st1.levels.set 0 nl
                      state := st1.state.set 0 { s0 with reccnt := nl.recordCount, shardcnt := nl.cnt } } : Res (Struct R)))
        = .ok st' → st'.state.map LState.reccnt = szs st' ∧ st'.bufSize = st.bufSize ∧ st'.sf = st.sf ∧
          ∃ c, (c = 0 ∨ ∃ s, I.build v = .ok s ∧ c = s.data.length) ∧ szs st' = c :: (szs st).tail := by
    intro st1 i1 b1 b2 i2 i3 hr
    simp only [bind_ok] at hr
    obtain ⟨old, e1, nl, e2, s0, e3, e4⟩ := hr
    cases e4
    have hold := getR_ok e1
    have hs0 := getR_ok e3
    have hcnt : old.recordCount = 0 := by
      have : (szs st1)[0]? = some old.recordCount := by simp only [szs, List.getElem?_map, hold]; rfl
      rw [List.head?_eq_getElem?, this] at i2
      exact Option.some.inj i2
    have e2' : Level.appendBuffer I old v = .ok nl := e2
    have hst := i1.state
    cases hls : st1.levels with
    | nil => rw [hls] at hold; simp at hold
    | cons l0 ls =>
      cases hss : st1.state with
      | nil => rw [hss] at hs0; simp at hs0
      | cons t0 ts =>
        simp only [szs, hls, hss, List.map_cons, List.cons.injEq] at hst
        simp only [szs, hls, List.map_cons, List.tail_cons] at i3
        refine ⟨?_, b1, b2, nl.recordCount, ?_, ?_⟩
        · simp [szs, hst.2]
        · rcases appendBuffer_count (i1.lok old (mem_of_getElem? hold)) e2' with h | ⟨s, h, h'⟩
          · left; omega
          · right; exact ⟨s, h, by omega⟩
        · simp only [szs, List.set_cons_zero, List.map_cons, List.cons.injEq, true_and]
          exact i3
  unfold Struct.flushIntoL0 at hr
  have hmain := hgen _ ?_ ?_ ?_ ?_ ?_ hr
  · obtain ⟨a, b, b', c⟩ := hmain
    exact ⟨⟨a, hlok⟩, b, b', hzero, c⟩
  · split
    · next hz =>
      have hl0 : st.levels = [] := List.eq_nil_of_length_eq_zero hz
      have hs0 : st.state = [] := List.eq_nil_of_length_eq_zero (by omega)
      refine ⟨?_, ?_⟩
      · simp [szs, hl0, hs0, Level.recordCount, Level.visible, Level.new]
      · intro l hl
        simp [hl0] at hl; subst hl; exact lok_new
    · exact h
  · split <;> rfl
  · split <;> rfl
  · split
    · next hz =>
      have hl0 : st.levels = [] := List.eq_nil_of_length_eq_zero hz
      simp [szs, hl0, Level.recordCount, Level.visible, Level.new]
    · next hz =>
      cases hs : szs st with
      | nil => simp [szs] at hs; simp [hs] at hz
      | cons x t => rw [hs] at hzero; simp [hzero x rfl]
  · split
    · next hz =>
      have hl0 : st.levels = [] := List.eq_nil_of_length_eq_zero hz
      simp [szs, hl0]
    · rfl

/-- The reconstruction tasks and the flush, as a step of the counter. -/
theorem gb_job {I : ShardImpl R} (hI : I.Conserving) {st s1 st' : Struct R} (h : GBInv st) {n lwm : Nat} {ts : List Task} {v : View R}
    (hsize : ∀ s, I.build v = .ok s → s.data.length ≤ lwm) (g1 : Struct.getReconstructionTasks .bsm st n = .ok ts)
    (g2 : Struct.runTasks .bsm I st ts = .ok s1) (g3 : Struct.flushBuffer .bsm I s1 v = .ok st') :
    GBInv st' ∧ st'.bufSize = st.bufSize ∧ st'.sf = st.sf ∧ FStep lwm (szs st) (szs st') := by
  rcases gplan h g1 with ⟨rfl, hz⟩ | ⟨base, k, rfl, hpos, hle, hfull, hfree⟩
  · cases g2
    obtain ⟨q1, q2, q2', q3, c, hcc, hsz⟩ := flushBuffer_szs h g3
    refine ⟨q1, q2, q2', ?_⟩
    have hcb : c ≤ lwm := by
      rcases hcc with rfl | ⟨s, hs, rfl⟩
      · omega
      · exact hsize s hs
    rw [hsz]
    cases hzs : szs st with
    | nil => exact FStep.first c hcb
    | cons x t =>
      rw [hzs] at hz
      have := hz x rfl
      subst this
      exact FStep.void c t hcb
  · obtain ⟨p1, p2, p2', m, hm, hp3⟩ := reconstructBSM_szs hI h hpos hle g2
    obtain ⟨q1, q2, q2', q3, c, hcc, hsz⟩ := flushBuffer_szs p1 g3
    refine ⟨q1, q2.trans p2, q2'.trans p2', ?_⟩
    have hcb : c ≤ lwm := by
      rcases hcc with rfl | ⟨s, hs, rfl⟩
      · omega
      · exact hsize s hs
    rw [hsz, hp3]
    have hll : st.levels.length = (szs st).length := by simp [szs]
    rw [hll] at hle hfree
    obtain ⟨b', rfl⟩ : ∃ b', base = b' + 1 := ⟨base - 1, by omega⟩
    cases hzs : szs st with
    | nil => rw [hzs] at hle; simp at hle
    | cons x t =>
      rw [hzs] at hfull hfree hm hle
      have hx : x ≠ 0 := fun e => hfull 0 (by omega) (by simp [e])
      have hbt : b' ≤ t.length := by simpa using hle
      have := FStep.carry (bs := lwm) c m x (t.take b') (t.drop b') hcb hx ?_ ?_ (by simpa using hm)
      · rw [List.take_append_drop] at this
        have e1 : (t.take b').length = b' := by simp [hbt]
        rw [e1, List.tail_drop] at this
        simpa [List.replicate_succ] using this
      · intro y hy
        obtain ⟨j, hj⟩ := List.getElem?_of_mem hy
        have hjl := lt_of_getElem? hj
        rw [List.length_take] at hjl
        intro e
        refine hfull (j+1) (by omega) ?_
        rw [List.getElem?_cons_succ]
        rw [List.getElem?_take_of_lt (by omega)] at hj
        rw [hj, e]
      · intro y hy
        rw [List.head?_drop] at hy
        have := hfree (by simpa using lt_of_getElem? hy)
        rw [List.getElem?_cons_succ, hy] at this
        exact Option.some.inj this

theorem gb_flush {d d' : Index R} (hL : d.L = .bsm) (hb : BufInv d.buf) (hI : d.impl.Conserving) (h : GBInv d.str)
    (hf : d.flush = .ok d') : GBInv d'.str ∧ d'.str.bufSize = d.str.bufSize ∧ d'.str.sf = d.str.sf ∧
      FStep d.buf.lwm (szs d.str) (szs d'.str) := by
  unfold Index.flush at hf
  simp only [bind_ok] at hf
  obtain ⟨ts, g1, s1, g2, s2, g3, b, -, he⟩ := hf
  rw [hL] at g1 g2 g3
  cases he
  obtain ⟨hc, hce⟩ := h.copy
  have := gb_job hI hc (lwm := d.buf.lwm) (fun s hs => by
    have := build_size hI hb.wf hs
    have := hb.cnt
    omega) g1 g2 g3
  rw [hce] at this
  exact this

/-- The counter when nothing was cancelled: `n` flushes of `w` records each. -/
def Exact (w n : Nat) (z : List Nat) : Prop :=
  (z = [] ∧ n = 0) ∨ ∃ t, z = w :: t ∧ bits t + 1 = n ∧ (∀ (i x : Nat), t[i]? = some x → x = 0 ∨ x = 2 ^ i * w) ∧
    t.getLast? ≠ some 0

theorem exact_sum {w : Nat} : ∀ (p : List Nat) (k : Nat), (∀ x ∈ p, x ≠ 0) →
    (∀ (i x : Nat), p[i]? = some x → x = 0 ∨ x = 2 ^ (k+i) * w) → p.sum + 2 ^ k * w = 2 ^ (k + p.length) * w
  | [], k, _, _ => by simp
  | x :: p, k, hn, h => by
    have h0 := (h 0 x rfl).resolve_left (hn x (by simp))
    have := exact_sum p (k+1) (fun y hy => hn y (by simp [hy])) (fun i y hi => by
      have := h (i+1) y (by simpa using hi)
      rwa [show k + 1 + i = k + (i + 1) by omega])
    simp only [List.sum_cons, List.length_cons]
    rw [show k + (p.length + 1) = k + 1 + p.length by omega]
    rw [pow_succ] at this
    simp only [Nat.add_zero] at h0
    have e : 2 ^ k * 2 * w = 2 ^ k * w + 2 ^ k * w := by ring
    omega

theorem fstep_sum {bs : Nat} {z z' : List Nat} (hs : FStep bs z z') : z'.sum ≤ z.sum + bs := by
  cases hs with
  | first c hc => simpa using hc
  | void c t hc => simp; omega
  | carry c m z p q hc hz hp hq hm =>
    have : q.tail.sum = q.sum := by
      cases q with
      | nil => rfl
      | cons x q => simp [hq x rfl]
    simp [this]; omega

theorem Exact.step {w n : Nat} (hw : 0 < w) {z z' : List Nat} (h : Exact w n z) (hs : FStep w z z') (hsum : z'.sum = z.sum + w) :
    Exact w (n+1) z' := by
  right
  cases hs with
  | first c hc =>
    simp at hsum
    rcases h with ⟨-, rfl⟩ | ⟨t, ht, -⟩
    · exact ⟨[], by rw [hsum], rfl, by simp, by simp⟩
    · cases ht
  | void c t hc =>
    rcases h with ⟨ht, -⟩ | ⟨t', ht, -⟩
    · cases ht
    · have := (List.cons.inj ht).1; omega
  | carry c m z p q hc hz hp hq hm =>
    rcases h with ⟨ht, -⟩ | ⟨t, ht, h1, h2, h3⟩
    · cases ht
    obtain ⟨rfl, rfl⟩ := List.cons.inj ht
    have hqs : q.tail.sum = q.sum := by
      cases q with
      | nil => rfl
      | cons x q => simp [hq x rfl]
    have hrep : (List.replicate p.length 0).sum = 0 := by simp
    simp only [List.sum_cons, List.sum_append, hqs, hrep] at hsum
    have hcz : c = z := by omega
    have hmz : m = z + p.sum := by omega
    have hps := exact_sum (w := z) p 0 hp (fun i x hx => by
      have := h2 i x (by rw [List.getElem?_append_left (lt_of_getElem? hx)]; exact hx)
      simpa using this)
    simp only [Nat.zero_add, pow_zero, Nat.one_mul] at hps
    have hm2 : m = 2 ^ p.length * z := by omega
    have hbq : bits q = 2 * bits q.tail := by
      cases q with
      | nil => rfl
      | cons x q => simp [bits, hq x rfl]
    have hfull := bits_full p q hp
    refine ⟨_, by rw [hcz], ?_, ?_, ?_⟩
    · rw [bits_zero]
      simp only [bits]
      rw [if_neg (by omega), ← h1, hfull, hbq]
      ring
    · intro i x hx
      rcases Nat.lt_trichotomy i p.length with hi | hi | hi
      · rw [List.getElem?_append_left (by simpa using hi)] at hx
        rw [List.getElem?_replicate] at hx
        rw [if_pos hi] at hx
        simp at hx; omega
      · rw [List.getElem?_append_right (by simp [hi])] at hx
        simp [hi] at hx
        rw [← hx, hi]; right; exact hm2
      · rw [List.getElem?_append_right (by simp; omega)] at hx
        simp only [List.length_replicate] at hx
        obtain ⟨j, hj⟩ : ∃ j, i = p.length + 1 + j := ⟨i - (p.length + 1), by omega⟩
        subst hj
        rw [show p.length + 1 + j - p.length = j + 1 by omega, List.getElem?_cons_succ, List.getElem?_tail] at hx
        refine h2 _ x ?_
        rw [List.getElem?_append_right (by omega), show p.length + 1 + j - p.length = j + 1 by omega]
        exact hx
    · rw [List.getLast?_append_of_ne_nil _ (by simp)]
      cases q with
      | nil => simp; omega
      | cons x q =>
        cases q with
        | nil => simp; omega
        | cons y q =>
          rw [List.getLast?_append_of_ne_nil _ (by simp)] at h3
          simpa [List.getLast?_cons_cons] using h3

/-- The counter along a history, every BSM history. -/
theorem gb_run [DecidableEq R] {d0 : Index R} (h0 : BufInv d0.buf) (hL : d0.L = .bsm) (hI : d0.impl.Conserving)
    (ht0 : d0.buf.tail = 0) (hlev : d0.str.levels = []) (hst : d0.str.state = []) {ops : List (Index.Op R)} {d : Index R}
    {bs : List Bool} (hr : d0.run ops = .ok (d, bs)) :
    (GBInv d.str ∧ d.buf.lwm = d0.buf.lwm ∧ d.str.bufSize = d0.str.bufSize ∧ d.str.sf = d0.str.sf ∧
      BCount d0.buf.lwm (flushes d0.tagging d0.buf.lwm ops) (szs d.str) ∧
      (szs d.str).sum ≤ d0.buf.lwm * flushes d0.tagging d0.buf.lwm ops ∧
      ((szs d.str).sum = d0.buf.lwm * flushes d0.tagging d0.buf.lwm ops →
        Exact d0.buf.lwm (flushes d0.tagging d0.buf.lwm ops) (szs d.str))) ∧ d.buf.tail = appends d0.tagging ops ∧
      d.buf.head = d0.buf.lwm * flushes d0.tagging d0.buf.lwm ops := by
  refine run_flush_ind (fun d n => GBInv d.str ∧ d.buf.lwm = d0.buf.lwm ∧ d.str.bufSize = d0.str.bufSize ∧ d.str.sf = d0.str.sf ∧
    BCount d0.buf.lwm n (szs d.str) ∧ (szs d.str).sum ≤ d0.buf.lwm * n ∧
      ((szs d.str).sum = d0.buf.lwm * n → Exact d0.buf.lwm n (szs d.str))) h0 ht0 ?_ ?_ ?_ ?_ ?_ hr
  · refine ⟨⟨by simp [szs, hlev, hst], ?_⟩, rfl, rfl, rfl, ?_⟩
    · intro l hl; rw [hlev] at hl; simp at hl
    · have : szs d0.str = [] := by simp [szs, hlev]
      rw [this]
      exact ⟨⟨by simp, by simp, by simp, by simp⟩, by simp, fun _ => Or.inl ⟨rfl, rfl⟩⟩
  · rintro d d' n hb e1 e2 e3 hat ⟨i1, i2, i3, i4, i5, i6, i7⟩ hf
    obtain ⟨f1, f2, f3, f4⟩ := gb_flush (e1.trans hL) hb (by rw [e3]; exact hI) i1 hf
    rw [i2] at f4
    have hbe := (flush_buf hb hat hf).1
    have hsum := fstep_sum f4
    have hmul : d0.buf.lwm * (n+1) = d0.buf.lwm * n + d0.buf.lwm := Nat.mul_succ _ _
    refine ⟨f1, by rw [hbe]; exact i2, f2.trans i3, f3.trans i4, (i5.step f4).1, by omega, ?_⟩
    intro he
    exact (i7 (by omega)).step h0.lwm f4 (by omega)
  · rintro d n r ts hb hlt ⟨i1, i2, i3⟩
    refine ⟨i1, ?_, i3⟩
    simp only [Buffer.append]; split <;> exact i2
  · rintro d n r ls hb e3 ⟨i1, i2, i3, i4, i5⟩ hs
    have hsz : szs ({ d.str with levels := ls } : Struct R) = szs d.str := by
      obtain ⟨k, l, l', q1, q2, q3, -⟩ := taggedDelete_some hs
      subst q3
      unfold szs
      apply List.ext_getElem?
      intro i
      rw [List.getElem?_map, List.getElem?_map]
      simp only
      by_cases hik : k = i
      · subst hik
        rw [List.getElem?_set_self (lt_of_getElem? q1), q1]
        simp only [Option.map_some, Level.recordCount, deleteRecord_sizes q2]
      · rw [List.getElem?_set_ne hik]
    refine ⟨⟨by rw [hsz]; exact i1.state, ?_⟩, i2, i3, i4, by simp only; rw [hsz]; exact i5⟩
    have := step_lok (d := { d with tagging := true }) (o := .del r) (b := true)
      (d' := { d with tagging := true, str := { d.str with levels := ls } }) i1.lok (by
        simp only [Index.step, Index.erase, if_true, hs, bind, Except.bind])
    exact this
  · rintro d n r hb ⟨i1, i2, i3⟩
    refine ⟨i1, ?_, i3⟩
    simp only [Buffer.deleteRecord]; split <;> exact i2

/-! ### The height never decreases -/

theorem reconstruct_height {L : Layout} {I : ShardImpl R} {st st' : Struct R} {b i : Nat}
    (h : Struct.reconstruct L I st b i = .ok st') : st.levels.length ≤ st'.levels.length := by
  unfold Struct.reconstruct at h
  simp only [bind_ok] at h
  obtain ⟨lb, -, li, -, nb, -, e⟩ := h
  cases e
  simp only [List.length_set]
  split <;> simp

theorem reconstructBSM_height {I : ShardImpl R} {st st' : Struct R} {t : Task}
    (h : Struct.reconstructBSM I st t = .ok st') : st.levels.length ≤ st'.levels.length := by
  unfold Struct.reconstructBSM at h
  simp only [bind_ok] at h
  obtain ⟨srcs, -, nl, -, e3⟩ := h
  have hfold : ∀ (ss : List Nat) (st0 : Struct R), st0.levels.length ≤ (ss.foldl (fun st s =>
      { st with levels := st.levels.set s (Level.new s 1)
                state := st.state.set s { reccnt := 0, reccap := Struct.levelCap st.bufSize st.sf t.target
                                          shardcnt := 0, shardcap := 1 } }) st0).levels.length := by
    intro ss
    induction ss with
    | nil => intro st0; simp
    | cons s ss ih =>
      intro st0
      refine le_trans ?_ (ih _)
      simp
  cases e3
  refine le_trans ?_ (hfold _ _)
  split <;> simp

theorem runTasks_height {L : Layout} {I : ShardImpl R} {ts : List Task} {st st' : Struct R}
    (h : Struct.runTasks L I st ts = .ok st') : st.levels.length ≤ st'.levels.length := by
  have hgen : ∀ (ts : List Task) (st st' : Struct R), ts.foldlM (fun st t => do
      let src ← DE.getR t.sources 0
      Struct.reconstruct L I st t.target src) st = .ok st' → st.levels.length ≤ st'.levels.length := by
    intro ts
    induction ts with
    | nil => intro st st' h; cases h; exact le_refl _
    | cons t ts ih =>
      intro st st' h
      rw [List.foldlM_cons, bind_ok] at h
      obtain ⟨st1, h1, h2⟩ := h
      rw [bind_ok] at h1
      obtain ⟨src, h0, h1⟩ := h1
      exact le_trans (reconstruct_height h1) (ih _ _ h2)
  cases L with
  | leveling => exact hgen ts st st' h
  | tiering => exact hgen ts st st' h
  | bsm =>
    cases ts with
    | nil => cases h; exact le_refl _
    | cons t ts => exact reconstructBSM_height h

theorem flush_height {d d' : Index R} (h : d.flush = .ok d') : d.height ≤ d'.height := by
  unfold Index.flush at h
  simp only [bind_ok] at h
  obtain ⟨ts, -, s1, h1, s2, h2, b, -, he⟩ := h
  cases he
  unfold Struct.flushBuffer Struct.flushIntoL0 at h2
  simp only [bind_ok] at h2
  obtain ⟨-, -, old, -, nl, -, s0, -, e⟩ := h2
  cases e
  have := runTasks_height h1
  simp only [Struct.copy, List.length_map] at this
  simp only [Index.height, Struct.height, List.length_set]
  refine le_trans this ?_
  split <;> simp

theorem step_height [DecidableEq R] {d d' : Index R} {o : Index.Op R} {b : Bool} (h : d.step o = .ok (d', b)) : d.height ≤ d'.height := by
  have app : ∀ r ts, d.internalAppend r ts = .ok (d', b) → d.height ≤ d'.height := by
    intro r ts h
    unfold Index.internalAppend at h
    by_cases hat : d.buf.atLwm = true
    · rw [if_pos hat, bind_ok] at h
      obtain ⟨d1, f1, f2⟩ := h
      obtain rfl : d' = { d1 with buf := (d1.buf.append r ts).1 } := (congrArg Prod.fst (Except.ok.inj f2)).symm
      have := flush_height f1
      exact this
    · rw [if_neg hat, bind_ok] at h
      obtain ⟨d1, f1, f2⟩ := h
      cases f1
      obtain rfl : d' = { d with buf := (d.buf.append r ts).1 } := (congrArg Prod.fst (Except.ok.inj f2)).symm
      exact le_refl _
  cases o with
  | ins r => exact app r false h
  | del r =>
    simp only [Index.step, Index.erase] at h
    split at h
    · rw [bind_ok] at h
      obtain ⟨o, h1, h2⟩ := h
      cases o with
      | some ls => cases h2; exact le_of_eq (taggedDelete_len h1).symm
      | none => simp only at h2; cases h2; exact le_refl _
    · exact app r true h

theorem run_height [DecidableEq R] : ∀ (ops : List (Index.Op R)) {d d' : Index R} {bs : List Bool}, d.run ops = .ok (d', bs) →
    d.height ≤ d'.height
  | [], d, d', bs, h => by cases h; exact le_refl _
  | o :: os, d, d', bs, h => by
    obtain ⟨d1, b, bs1, h1, h2, rfl⟩ := run_cons.mp h
    exact le_trans (step_height h1) (run_height os h2)

end DE
