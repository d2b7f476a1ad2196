import Verif.Proofs.Shape
import Verif.Proofs.Tagging

/-!
Counting flushes along a history, and the shape invariants of whole histories.
-/

namespace DE
variable {R : Type}

theorem appends_append (tag : Bool) (a b : List (Index.Op R)) : appends tag (a ++ b) = appends tag a + appends tag b := by
  induction a with
  | nil => simp [appends]
  | cons o a ih => cases o <;> simp only [List.cons_append, appends, ih] <;> omega

/-- Induction over histories counting flushes: `J d n` for the state after `n` flushes. -/
theorem run_flush_ind [DecidableEq R] (J : Index R → Nat → Prop) {d0 : Index R} (h0 : BufInv d0.buf)
    (ht0 : d0.buf.tail = 0) (hJ0 : J d0 0)
    (hflush : ∀ (d d' : Index R) (n : Nat), BufInv d.buf → d.L = d0.L → d.tagging = d0.tagging → d.impl = d0.impl → d.buf.atLwm = true →
      J d n → d.flush = .ok d' → J d' (n+1))
    (happ : ∀ (d : Index R) (n : Nat) (r : R) (ts : Bool), BufInv d.buf → d.buf.tail - d.buf.head < d.buf.lwm → J d n →
      J { d with buf := (d.buf.append r ts).1 } n)
    (htag : ∀ (d : Index R) (n : Nat) (r : R) (ls : List (Level R)), BufInv d.buf → d.impl = d0.impl → J d n →
      Struct.taggedDeleteIn d.impl r d.str.levels = .ok (some ls) → J { d with str := { d.str with levels := ls } } n)
    (hdel : ∀ (d : Index R) (n : Nat) (r : R), BufInv d.buf → J d n → J { d with buf := (d.buf.deleteRecord r).1 } n)
    {ops : List (Index.Op R)} {d : Index R} {bs : List Bool} (hr : d0.run ops = .ok (d, bs)) :
    J d (flushes d0.tagging d0.buf.lwm ops) ∧ d.buf.tail = appends d0.tagging ops ∧
      d.buf.head = d0.buf.lwm * flushes d0.tagging d0.buf.lwm ops := by
  have hlw := h0.lwm
  have hP := (run_prefix_ind ops (fun ops d _ => d.buf.lwm = d0.buf.lwm ∧ d.buf.tail = appends d0.tagging ops ∧
      ∃ n, d.buf.head = d0.buf.lwm * n ∧ (0 < d.buf.tail → d.buf.head < d.buf.tail) ∧ J d n) h0 ?_ ?_ hr)
  · obtain ⟨⟨hl, htl, n, hh, hp, hJ⟩, hb, -⟩ := hP
    have : flushes d0.tagging d0.buf.lwm ops = n := by
      unfold flushes
      rw [← htl]
      have hc := hb.cnt
      have hht := hb.wf.ht
      rw [hl] at hc
      by_cases hz : d.buf.tail = 0
      · have : d0.buf.lwm * n = 0 := by omega
        have : n = 0 := by
          rcases Nat.mul_eq_zero.mp this with h | h
          · omega
          · exact h
        rw [hz, this]; simp
      · have := hp (by omega)
        rw [Nat.div_eq_iff (by omega)]
        have e : n * d0.buf.lwm = d0.buf.lwm * n := Nat.mul_comm _ _
        constructor <;> omega
    rw [this]; exact ⟨hJ, htl, hh⟩
  · have := h0.wf.ht
    exact ⟨rfl, by simp [ht0, appends], 0, by simp; omega, by omega, hJ0⟩
  · rintro ops o d d' bs b _ _ ⟨hl, htl, n, hh, hp, hJ⟩ hb hL htg hI hs
    have app : ∀ r ts, d.internalAppend r ts = .ok (d', b) →
        d'.buf.lwm = d0.buf.lwm ∧ d'.buf.tail = appends d0.tagging ops + 1 ∧
        ∃ n, d'.buf.head = d0.buf.lwm * n ∧ (0 < d'.buf.tail → d'.buf.head < d'.buf.tail) ∧ J d' n := by
      intro r ts hs
      unfold Index.internalAppend at hs
      by_cases hat : d.buf.atLwm = true
      · rw [if_pos hat, bind_ok] at hs
        obtain ⟨d1, f1, f2⟩ := hs
        obtain ⟨g1, g2, g3, g4⟩ := flush_buf hb hat f1
        have hJ1 := hflush d d1 n hb hL htg hI hat hJ f1
        have hb1 : BufInv d1.buf := by rw [g1]; exact hb.emptied
        have hlt : d1.buf.tail - d1.buf.head < d1.buf.lwm := by
          have := hb1.lwm
          rw [g1] at this ⊢; simp only [Buffer.emptied] at this ⊢; omega
        have hJ2 := happ d1 n.succ r ts hb1 hlt hJ1
        obtain rfl : d' = { d1 with buf := (d1.buf.append r ts).1 } := (congrArg Prod.fst (Except.ok.inj f2)).symm
        have hw := hb1.wf.lwm
        have e : (d1.buf.append r ts).1.lwm = d1.buf.lwm ∧ (d1.buf.append r ts).1.tail = d1.buf.tail + 1 ∧
            (d1.buf.append r ts).1.head = d1.buf.head := by
          unfold Buffer.append; rw [if_neg (by omega)]; exact ⟨rfl, rfl, rfl⟩
        have g : d1.buf.lwm = d.buf.lwm ∧ d1.buf.tail = d.buf.tail ∧ d1.buf.head = d.buf.tail := by
          rw [g1]; exact ⟨rfl, rfl, rfl⟩
        refine ⟨by simp only; omega, by simp only; omega, n+1, ?_, ?_, hJ2⟩
        · simp only
          have hc := hb.cnt
          have : d.buf.lwm ≤ d.buf.tail - d.buf.head := by simpa [Buffer.atLwm, Buffer.count] using hat
          have := hb.wf.ht
          rw [Nat.mul_succ]
          omega
        · simp only; omega
      · rw [if_neg hat, bind_ok] at hs
        obtain ⟨d1, f1, f2⟩ := hs
        cases f1
        obtain rfl : d' = { d with buf := (d.buf.append r ts).1 } := (congrArg Prod.fst (Except.ok.inj f2)).symm
        have hlt : d.buf.tail - d.buf.head < d.buf.lwm := by simpa [Buffer.atLwm, Buffer.count] using hat
        have hw := hb.wf.lwm
        have e : (d.buf.append r ts).1.lwm = d.buf.lwm ∧ (d.buf.append r ts).1.tail = d.buf.tail + 1 ∧
            (d.buf.append r ts).1.head = d.buf.head := by
          unfold Buffer.append; rw [if_neg (by omega)]; exact ⟨rfl, rfl, rfl⟩
        have := hb.wf.ht
        refine ⟨by simp only; omega, by simp only; omega, n, by simp only; omega, by simp only; omega, happ d n r ts hb hlt hJ⟩
    rw [appends_append]
    cases o with
    | ins r => simpa [appends] using app r false hs
    | del r =>
      simp only [Index.step, Index.erase] at hs
      split at hs
      · next htr =>
        have e : appends d0.tagging [Index.Op.del r] = 0 := by simp [appends, ← htg, htr]
        rw [e]
        rw [bind_ok] at hs
        obtain ⟨o, h1, h2⟩ := hs
        cases o with
        | some ls =>
          cases h2
          exact ⟨hl, htl, n, hh, hp, htag d n r ls hb hI hJ h1⟩
        | none =>
          simp only at h2
          cases h2
          have e : (d.buf.deleteRecord r).1.lwm = d.buf.lwm ∧ (d.buf.deleteRecord r).1.tail = d.buf.tail ∧
              (d.buf.deleteRecord r).1.head = d.buf.head := by
            unfold Buffer.deleteRecord
            split <;> exact ⟨rfl, rfl, rfl⟩
          refine ⟨by simp only; omega, by simp only; omega, n, by simp only; omega, by simp only; omega, hdel d n r hb hJ⟩
      · next htr =>
        have e : appends d0.tagging [Index.Op.del r] = 1 := by simp [appends, ← htg, htr]
        rw [e]
        exact app r true hs

/-! ### Tagging keeps every size -/

/-- Sizes of the shards, null pointers kept. -/
def sizes (ss : List (Option (Shard R))) : List (Option Nat) := ss.map (Option.map (fun s => s.data.length))

theorem deleteIn_sizes {I : ShardImpl R} {r : R} {ss ss' : List (Option (Shard R))}
    (h : Level.deleteIn I r ss = .ok (some ss')) : sizes ss' = sizes ss := by
  obtain ⟨pre, s, post, i, e1, e2, e3, -⟩ := deleteIn_some h
  subst e1; subst e3
  simp [sizes]

theorem visible_sizes (l : Level R) : l.visible.map (fun s => s.data.length) = ((sizes l.shards).take l.cnt).filterMap id := by
  unfold Level.visible sizes
  rw [← List.map_take]
  generalize l.shards.take l.cnt = ss
  induction ss with
  | nil => rfl
  | cons a ss ih =>
    cases a with
    | none => rw [List.filterMap_cons_none rfl, List.map_cons, List.filterMap_cons_none rfl]; exact ih
    | some a => exact congrArg (a.data.length :: ·) ih

theorem deleteRecord_sizes {I : ShardImpl R} {r : R} {l l' : Level R} (h : l.deleteRecord I r = .ok (some l')) :
    l'.visible.map (fun s => s.data.length) = l.visible.map (fun s => s.data.length) := by
  unfold Level.deleteRecord at h
  split at h
  · cases h
  · rw [bind_ok] at h
    obtain ⟨o, h1, h2⟩ := h
    cases o with
    | none => cases h2
    | some ss =>
      cases h2
      rw [visible_sizes, visible_sizes]
      simp only [deleteIn_sizes h1]

theorem taggedDelete_sizes {st : Struct R} {I : ShardImpl R} {r : R} {ls : List (Level R)}
    (h : Struct.taggedDeleteIn I r st.levels = .ok (some ls)) {i : Nat} {ss : List (Shard R)}
    (hi : ({ st with levels := ls } : Struct R).abs[i]? = some ss) :
    ∃ ss0, st.abs[i]? = some ss0 ∧ ss.map (fun s => s.data.length) = ss0.map (fun s => s.data.length) := by
  obtain ⟨k, l, l', e1, e2, e3, -⟩ := taggedDelete_some h
  subst e3
  simp only [Struct.abs, List.getElem?_map] at hi ⊢
  by_cases hik : k = i
  · subst hik
    rw [List.getElem?_set_self (lt_of_getElem? e1)] at hi
    simp only [Option.map_some, Option.some.injEq] at hi
    subst hi
    exact ⟨l.visible, by rw [e1]; rfl, deleteRecord_sizes e2⟩
  · rw [List.getElem?_set_ne hik] at hi
    exact ⟨ss, hi, rfl⟩

theorem taggedDelete_len {st : Struct R} {I : ShardImpl R} {r : R} {ls : List (Level R)}
    (h : Struct.taggedDeleteIn I r st.levels = .ok (some ls)) : ls.length = st.levels.length := by
  obtain ⟨k, l, l', e1, e2, e3, -⟩ := taggedDelete_some h
  rw [e3, List.length_set]

theorem recs_sizes {a b : List (Shard R)} (h : a.map (fun s => s.data.length) = b.map (fun s => s.data.length)) : recs a = recs b := by
  unfold recs; rw [h]

theorem weight_cong (sf : Nat) : ∀ {A B : List (List (Shard R))}, A.length = B.length →
    (∀ (i : Nat) (a b : List (Shard R)), A[i]? = some a → B[i]? = some b → a.length = b.length) → weight sf A = weight sf B
  | [], [], _, _ => rfl
  | [], b :: B, h, _ => by simp at h
  | a :: A, [], h, _ => by simp at h
  | a :: A, b :: B, h, hh => by
    simp only [weight]
    rw [hh 0 a b rfl rfl, weight_cong sf (by simpa using h) (fun i a' b' ha hb => hh (i+1) a' b' (by simpa using ha) (by simpa using hb))]

/-! ### Whole histories -/

/-- The tiering counter along a history. -/
theorem tier_run_inv [DecidableEq R] {d0 : Index R} (h0 : d0.Inv) (hL : d0.L = .tiering) (hI : d0.impl.Conserving)
    (hl : d0.impl.LookupSound) (ht0 : d0.buf.tail = 0) (hlev : d0.str.levels = []) {ops : List (Index.Op R)} {d : Index R}
    {bs : List Bool} (hr : d0.run ops = .ok (d, bs)) :
    d.Inv ∧ d.str.sf = d0.str.sf ∧ d.str.bufSize = d0.str.bufSize ∧ TierInv d (flushes d0.tagging d0.buf.lwm ops) := by
  have hbuf : BufInv d0.buf := ⟨h0.wf, h0.lwm, h0.cnt⟩
  refine (run_flush_ind (fun d n => d.Inv ∧ d.str.sf = d0.str.sf ∧ d.str.bufSize = d0.str.bufSize ∧ TierInv d n) hbuf ht0 ?_ ?_ ?_ ?_ ?_ hr).1
  · refine ⟨h0, rfl, rfl, ⟨?_, ?_⟩⟩
    · intro i ss h; simp [Struct.abs, hlev] at h
    · simp [Struct.abs, hlev, weight]
  · rintro d d' n hb e1 e2 e3 hat ⟨i1, i2, i3, i4⟩ hf
    have hI' : d.impl.Conserving := by rw [e3]; exact hI
    obtain ⟨j1, -⟩ := flush_ok i1 hI' hat hf
    obtain ⟨j2, -⟩ := tier_flush i1 (e1.trans hL) hI' hat i4 hf
    obtain ⟨base, -, hor⟩ := flush_abs i1 hat
    rcases hor with ⟨e, h1, -⟩ | ⟨st', h1, -, -, h4, h5⟩
    · rw [h1] at hf; cases hf
    · rw [h1] at hf; cases hf
      exact ⟨j1, h5.trans i2, h4.trans i3, j2⟩
  · rintro d n r ts hb hlt ⟨i1, i2, i3, i4⟩
    exact ⟨(append_index i1 hlt r ts).2.1, i2, i3, ⟨i4.lvl, i4.sum⟩⟩
  · rintro d n r ls hb e3 ⟨i1, i2, i3, i4⟩ hs
    refine ⟨(taggedDelete_inv i1 (by rw [e3]; exact hl) hs).1, i2, i3, ⟨?_, ?_⟩⟩
    · intro i ss hi
      obtain ⟨ss0, q1, q2⟩ := taggedDelete_sizes hs hi
      obtain ⟨a, b, c⟩ := i4.lvl i ss0 q1
      have e : ss.length = ss0.length := by simpa using congrArg List.length q2
      refine ⟨by omega, by simp only; omega, ?_⟩
      intro s hs'
      have : s.data.length ∈ ss0.map (fun s => s.data.length) := by
        rw [← q2]; exact List.mem_map.mpr ⟨s, hs', rfl⟩
      obtain ⟨s0, h1, h2⟩ := List.mem_map.mp this
      have := c s0 h1
      simp only; omega
    · rw [← i4.sum]
      simp only
      apply weight_cong
      · simp [Struct.abs, taggedDelete_len hs]
      · intro i a b ha hb'
        obtain ⟨ss0, q1, q2⟩ := taggedDelete_sizes hs ha
        rw [q1] at hb'; cases hb'
        simpa using congrArg List.length q2
  · rintro d n r hb ⟨i1, i2, i3, i4⟩
    exact ⟨(bufDelete_inv i1 r).1, i2, i3, ⟨i4.lvl, i4.sum⟩⟩

/-- The leveling record bound along a history. -/
theorem lev_run_inv [DecidableEq R] {d0 : Index R} (h0 : d0.Inv) (hL : d0.L = .leveling) (hI : d0.impl.Conserving)
    (hl : d0.impl.LookupSound) (ht0 : d0.buf.tail = 0) (hlev : d0.str.levels = []) {ops : List (Index.Op R)} {d : Index R}
    {bs : List Bool} (hr : d0.run ops = .ok (d, bs)) :
    d.Inv ∧ d.str.sf = d0.str.sf ∧ d.str.bufSize = d0.str.bufSize ∧ LevBound d0.str.bufSize d0.str.sf d.str.abs := by
  have hbuf : BufInv d0.buf := ⟨h0.wf, h0.lwm, h0.cnt⟩
  refine (run_flush_ind (fun d n => d.Inv ∧ d.str.sf = d0.str.sf ∧ d.str.bufSize = d0.str.bufSize ∧
    LevBound d0.str.bufSize d0.str.sf d.str.abs) hbuf ht0 ?_ ?_ ?_ ?_ ?_ hr).1
  · refine ⟨h0, rfl, rfl, ?_⟩
    · intro i ss h; simp [Struct.abs, hlev] at h
  · rintro d d' n hb e1 e2 e3 hat ⟨i1, i2, i3, i4⟩ hf
    have hI' : d.impl.Conserving := by rw [e3]; exact hI
    obtain ⟨j1, -⟩ := flush_ok i1 hI' hat hf
    obtain ⟨j2, -⟩ := lev_flush i1 (e1.trans hL) hI' hat (by rw [i2, i3]; exact i4) hf
    obtain ⟨base, -, hor⟩ := flush_abs i1 hat
    rcases hor with ⟨e, h1, -⟩ | ⟨st', h1, -, -, h4, h5⟩
    · rw [h1] at hf; cases hf
    · rw [h1] at hf; cases hf
      simp only at j2
      rw [h4, h5, i2, i3] at j2
      exact ⟨j1, h5.trans i2, h4.trans i3, j2⟩
  · rintro d n r ts hb hlt ⟨i1, i2, i3, i4⟩
    exact ⟨(append_index i1 hlt r ts).2.1, i2, i3, i4⟩
  · rintro d n r ls hb e3 ⟨i1, i2, i3, i4⟩ hs
    refine ⟨(taggedDelete_inv i1 (by rw [e3]; exact hl) hs).1, i2, i3, ?_⟩
    intro i ss hi
    obtain ⟨ss0, q1, q2⟩ := taggedDelete_sizes hs hi
    rw [recs_sizes q2]
    exact i4 i ss0 q1
  · rintro d n r hb ⟨i1, i2, i3, i4⟩
    exact ⟨(bufDelete_inv i1 r).1, i2, i3, i4⟩

end DE
