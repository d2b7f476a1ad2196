import Verif.Proofs.Bare
import Verif.Proofs.LevHeight
import Verif.Proofs.InsertOnly

/-!
Amortised accounting of the reconstruction work: the work done plus the work still to come is paid for by the flushes.
-/

namespace DE
variable {R : Type}

/-! ### The counted class -/

/-- Odometers of a list of shards. -/
def works (ss : List (Shard R)) : Nat := (ss.map (·.tscnt)).sum

theorem works_append (a b : List (Shard R)) : works (a ++ b) = works a + works b := by simp [works]
theorem works_single (s : Shard R) : works [s] = s.tscnt := by simp [works]

theorem counted_merge {I : ShardImpl R} {ss : List (Shard R)} {m : Shard R} (h : I.counted.merge (ss.map some) = .ok m) :
    ∃ m0, I.merge (ss.map some) = .ok m0 ∧ m.data = m0.data ∧ m.tscnt = recs ss + works ss := by
  unfold ShardImpl.counted at h
  simp only at h
  cases hm : I.merge (ss.map some) with
  | error e => rw [hm] at h; cases h
  | ok m0 =>
    rw [hm] at h
    cases h
    refine ⟨m0, rfl, rfl, ?_⟩
    have e : (ss.map some).filterMap id = ss := by simp
    simp only [e]
    clear e hm
    unfold recs works
    induction ss with
    | nil => rfl
    | cons s ss ih => simp only [List.map_cons, List.sum_cons]; omega

theorem counted_build {I : ShardImpl R} {v : View R} {s : Shard R} (h : I.counted.build v = .ok s) :
    ∃ s0, I.build v = .ok s0 ∧ s.data = s0.data ∧ s.tscnt = v.count := by
  unfold ShardImpl.counted at h
  simp only at h
  cases hm : I.build v with
  | error e => rw [hm] at h; cases h
  | ok m0 => rw [hm] at h; cases h; exact ⟨m0, rfl, rfl, rfl⟩

theorem ShardImpl.Conserving.counted {I : ShardImpl R} (h : I.Conserving) : I.counted.Conserving where
  build v l s hv hs := by
    obtain ⟨s0, h1, h2, -⟩ := counted_build hs
    rw [h2]; exact h.build v l s0 hv h1
  merge ss s hs := by
    obtain ⟨s0, h1, h2, -⟩ := counted_merge hs
    rw [h2]; exact h.merge ss s0 h1

theorem ShardImpl.LookupSound.counted {I : ShardImpl R} (h : I.LookupSound) : I.counted.LookupSound := h

theorem ShardImpl.CleanOk.counted {I : ShardImpl R} (h : I.CleanOk) : I.counted.CleanOk where
  conserving := h.conserving.counted
  merge ss h1 h2 := by
    obtain ⟨s, hs⟩ := h.merge ss h1 h2
    exact ⟨_, by simp only [ShardImpl.counted, hs, Except.map]; rfl⟩
  build b h1 h2 := by
    obtain ⟨s, hs⟩ := h.build b h1 h2
    exact ⟨_, by simp only [ShardImpl.counted, hs, Except.map]; rfl⟩

/-! ### Work done and work to come -/

/-- Work done, by levels. -/
def aworks (A : List (List (Shard R))) : Nat := (A.map works).sum

/-- Work to come: records times levels still below them, with `h` levels below the first. -/
def rest : Nat → List (List (Shard R)) → Nat
  | _, [] => 0
  | h, a :: A => h * recs a + rest (h - 1) A

theorem work_abs (d : Index R) : d.work = aworks d.str.abs := by
  unfold Index.work Struct.tombstoneCount aworks Struct.abs
  rw [List.map_map]; rfl

theorem aworks_flatten (A : List (List (Shard R))) : aworks A = works A.flatten := by
  induction A with
  | nil => rfl
  | cons a A ih =>
    rw [List.flatten_cons, works_append, ← ih]; simp [aworks]

theorem rest_append (A B : List (List (Shard R))) : ∀ h, rest h (A ++ B) = rest h A + rest (h - A.length) B := by
  induction A with
  | nil => intro h; simp [rest]
  | cons a A ih =>
    intro h
    rw [List.cons_append, rest, rest, ih, List.length_cons, Nat.sub_sub, Nat.add_comm 1]; omega

theorem rest_nil (A : List (List (Shard R))) (h : Nat) : rest h (A ++ [[]]) = rest h A := by
  rw [rest_append]; simp [rest, recs]

theorem rest_set : ∀ {A : List (List (Shard R))} {k : Nat} {x y : List (Shard R)} (h : Nat), A[k]? = some x →
    rest h (A.set k y) + (h - k) * recs x = rest h A + (h - k) * recs y
  | [], k, x, y, h, hx => by simp at hx
  | a :: A, 0, x, y, h, hx => by
    simp at hx; subst hx; simp [rest]; omega
  | a :: A, k+1, x, y, h, hx => by
    have := rest_set (A := A) (k := k) (x := x) (y := y) (h - 1) (by simpa using hx)
    rw [Nat.sub_sub, Nat.add_comm 1] at this
    simp only [List.set_cons_succ, rest]; omega

theorem aworks_set {A : List (List (Shard R))} {k : Nat} {x y : List (Shard R)} (hx : A[k]? = some x) :
    aworks (A.set k y) + works x = aworks A + works y := by
  obtain ⟨r, h1, h2⟩ := sum_set works hx
  unfold aworks
  rw [h1, h2]; omega

theorem aworks_nil (A : List (List (Shard R))) : aworks (A ++ [[]]) = aworks A := by simp [aworks, works]

theorem rest_congr : ∀ {A B : List (List (Shard R))} (h : Nat), A.map recs = B.map recs → rest h A = rest h B
  | [], [], _, _ => rfl
  | [], _ :: _, _, e => by simp at e
  | _ :: _, [], _, e => by simp at e
  | a :: A, b :: B, h, e => by
    simp only [List.map_cons, List.cons.injEq] at e
    rw [rest, rest, e.1, rest_congr (h - 1) e.2]

/-- What a move does to the work done and the work to come. -/
theorem step_work {L : Layout} {I : ShardImpl R} {A A' : List (List (Shard R))} {k : Nat} (hk : k < A.length)
    (h : absStep L I A k = .ok A') :
    ∃ dst src nd, A[k]? = some src ∧ absComb L I dst src = .ok nd ∧ (dst = [] ∧ A.length = k + 1 ∨ A[k+1]? = some dst) ∧
      aworks A' + works dst + works src = aworks A + works nd ∧
      ∀ h, rest h A' + (h - k) * recs src + (h - (k+1)) * recs dst = rest h A + (h - (k+1)) * recs nd := by
  obtain ⟨B, dst, src, nd, hB, hd, hs1, hs, hn, he, hBl, hor⟩ := absStep_ok hk h
  have hs2 : (B.set (k+1) nd)[k]? = some src := by rw [List.getElem?_set_ne (by omega)]; exact hs1
  have hBw : aworks B = aworks A := by
    rw [hB]; split
    · exact aworks_nil A
    · rfl
  have hBr : ∀ h, rest h B = rest h A := by
    intro h
    rw [hB]; split
    · exact rest_nil A h
    · rfl
  refine ⟨dst, src, nd, hs, hn, hor, ?_, ?_⟩
  · have g1 := aworks_set (y := nd) hd
    have g2 := aworks_set (y := ([] : List (Shard R))) hs2
    rw [← he] at g2
    have : works ([] : List (Shard R)) = 0 := rfl
    omega
  · intro h
    have g1 := rest_set (y := nd) h hd
    have g2 := rest_set (y := ([] : List (Shard R))) h hs2
    rw [← he] at g2
    have : recs ([] : List (Shard R)) = 0 := rfl
    rw [this, Nat.mul_zero] at g2
    have := hBr h
    omega

/-- The new level 0. -/
theorem l0_work {L : Layout} {I : ShardImpl R} {A A' : List (List (Shard R))} {v : View R} (h : absL0 L I A v = .ok A') :
    ∃ old nn, absNew0 L I old v = .ok nn ∧ (old = [] ∧ A = [] ∨ A[0]? = some old) ∧ (withL0 A)[0]? = some old ∧
      aworks A' + works old = aworks A + works nn ∧
      ∀ h, rest h A' + h * recs old = rest h A + h * recs nn := by
  obtain ⟨old, nn, ho, hn, he, hor⟩ := absL0_ok h
  have e1 : aworks (withL0 A) = aworks A := by
    unfold withL0; split
    · exact aworks_nil A
    · rfl
  have e2 : ∀ h, rest h (withL0 A) = rest h A := by
    intro h; unfold withL0; split
    · exact rest_nil A h
    · rfl
  refine ⟨old, nn, hn, hor, ho, ?_, ?_⟩
  · rw [he, ← e1]; exact aworks_set ho
  · intro h
    rw [he, ← e2 h]
    simpa using rest_set (y := nn) h ho

/-! ### Tiering -/

theorem tier_run_work {I : ShardImpl R} (hI : I.Conserving) {sf hh : Nat} : ∀ (base : Nat) {A A' : List (List (Shard R))},
    RunPre .tiering sf A base → base ≤ hh → absRun .tiering I.counted base A = .ok A' →
    aworks A' + rest hh A' ≤ aworks A + rest hh A
  | 0, A, A', _, _, h => by cases h; exact le_refl _
  | k+1, A, A', hp, hb, h => by
    rw [absRun, bind_ok] at h
    obtain ⟨A1, e1, e2⟩ := h
    obtain ⟨src0, hsrc, hne⟩ := hp.1 k (by omega)
    obtain ⟨dst, src, nd, q1, q2, -, q4, q5⟩ := step_work (lt_of_getElem? hsrc) e1
    obtain rfl : src = src0 := Option.some.inj (q1.symm.trans hsrc)
    have ih := tier_run_work (hh := hh) hI k (hp.next e1) (by omega) e2
    rcases absComb_cases (by simp) q2 (by simp) hne with ⟨hc, -⟩ | ⟨hc, -⟩ | ⟨-, m, hm, rfl⟩
    · cases hc
    · cases hc
    have hsz := merge_size hI.counted hm
    obtain ⟨-, -, -, hw⟩ := counted_merge hm
    have q5 := q5 hh
    rw [works_append, works_single, hw] at q4
    rw [recs_append, show recs [m] = m.data.length by simp [recs]] at q5
    obtain ⟨j, rfl⟩ : ∃ j, hh = k + 1 + j := ⟨hh - (k+1), by omega⟩
    rw [show k + 1 + j - k = j + 1 by omega, show k + 1 + j - (k + 1) = j by omega, Nat.mul_add, Nat.add_mul] at q5
    have := Nat.mul_le_mul_left j hsz
    omega

theorem tier_flush_work {I : ShardImpl R} {d d' : Index R} (h : d.Inv) (hL : d.L = .tiering) (him : d.impl = I.counted) (hI : I.Conserving)
    (hat : d.buf.atLwm = true) (hf : d.flush = .ok d') {hh : Nat} (hH : d'.str.abs.length ≤ hh + 1) :
    aworks d'.str.abs + rest hh d'.str.abs ≤ aworks d.str.abs + rest hh d.str.abs + (hh + 1) * (d.buf.tail - d.buf.head) := by
  obtain ⟨base, ⟨hplan, hpre⟩, hor⟩ := flush_abs h hat
  rcases hor with ⟨e, h1, -⟩ | ⟨st', h1, h2, h3, h4, h5⟩
  · rw [h1] at hf; cases hf
  rw [h1] at hf
  cases hf
  rw [bind_ok] at h2
  obtain ⟨A1, g1, g2⟩ := h2
  rw [hL, him] at g1 g2
  rw [hL] at hpre hplan
  have hbl : base ≤ d.str.abs.length := by
    rcases hplan with ⟨hb, -⟩ | ⟨hpos, hbl, -⟩
    · omega
    · exact hbl
  have hlen := absRun_length base hbl g1
  obtain ⟨old, nn, p1, -, -, p2, p3⟩ := l0_work g2
  have hA1 : A1.length ≤ st'.abs.length := by
    obtain ⟨_, _, _, _, he, _⟩ := absL0_ok g2
    rw [he, List.length_set]; unfold withL0; split <;> simp
  have hbh : base ≤ hh := by
    by_cases hb : base = 0
    · omega
    · rw [if_neg hb] at hlen; simp only at hH; omega
  have hr := tier_run_work hI base hpre hbh g1
  obtain ⟨s, hs, hc⟩ := absNew0_cases (by simp) p1 (by simp)
  rcases hc with ⟨hc, -⟩ | ⟨hc, -⟩ | ⟨-, rfl⟩
  · cases hc
  · cases hc
  obtain ⟨s0, b1, b2, b3⟩ := counted_build hs
  have hsz : s.data.length ≤ d.buf.tail - d.buf.head := build_size hI.counted h.wf hs
  have p3 := p3 hh
  rw [works_append, works_single, b3] at p2
  rw [recs_append, show recs [s] = s.data.length by simp [recs], Nat.mul_add] at p3
  have hm := Nat.mul_le_mul_left hh hsz
  have e : d.buf.view.count = d.buf.tail - d.buf.head := rfl
  rw [Nat.add_mul]
  simp only
  omega

/-! ### Leveling -/

/-- A chain of moves into empty levels copies nothing. -/
theorem lev_chain_work {I : ShardImpl R} {sf hh : Nat} : ∀ (base : Nat) {A A' : List (List (Shard R))} {s0 : List (Shard R)},
    RunPre .leveling sf A base → Single .leveling A → A[0]? = some s0 → (∀ ss, A[base]? = some ss → 0 < base → ss = []) → base ≤ hh →
    absRun .leveling I base A = .ok A' →
    aworks A' = aworks A ∧ rest hh A' + (if base = 0 then 0 else recs s0) ≤ rest hh A
  | 0, A, A', _, _, _, _, _, _, h => by cases h; simp
  | k+1, A, A', s0, hp, h1, h0, he, hb, h => by
    rw [absRun, bind_ok] at h
    obtain ⟨A1, e1, e2⟩ := h
    obtain ⟨src0, hsrc, hne⟩ := hp.1 k (by omega)
    have hk := lt_of_getElem? hsrc
    obtain ⟨dst, src, nd, q1, q2, q3, q4, q5⟩ := step_work hk e1
    obtain rfl : src = src0 := Option.some.inj (q1.symm.trans hsrc)
    have hd : dst = [] := by
      rcases q3 with ⟨rfl, -⟩ | q3
      · rfl
      · exact he dst q3 (by omega)
    subst hd
    have hnd : nd = src := by
      simp only [absComb] at q2
      cases src <;> (simp at q2; first | exact q2 | exact q2.symm)
    subst hnd
    have q5 := q5 hh
    obtain ⟨j, rfl⟩ : ∃ j, hh = k + 1 + j := ⟨hh - (k+1), by omega⟩
    rw [show recs ([] : List (Shard R)) = 0 from rfl, show k + 1 + j - k = j + 1 by omega, show k + 1 + j - (k + 1) = j by omega, Nat.add_mul] at q5
    have q6 : aworks A1 = aworks A := by
      have : works ([] : List (Shard R)) = 0 := rfl
      omega
    clear q4
    by_cases hk0 : k = 0
    · subst hk0
      cases e2
      rw [h0] at q1; cases q1
      refine ⟨q6, ?_⟩
      simp only [Nat.add_one_ne_zero, if_false]
      omega
    · have h0' : A1[0]? = some s0 := by rw [absStep_other hk e1 (by omega) (by omega)]; exact h0
      have ih := lev_chain_work (hh := k + 1 + j) k (hp.next e1) (h1.step (by simp) hp.step e1) h0' (fun ss hss _ => by
        rw [absStep_src hk e1] at hss; cases hss; rfl) (by omega) e2
      rw [if_neg hk0] at ih
      rw [if_neg (by omega)]
      exact ⟨ih.1.trans q6, by omega⟩

/-- The moves of a flush under leveling: one merge, paid for by the records that move down. -/
theorem lev_run_work {I : ShardImpl R} (hI : I.Conserving) {bs sf h base : Nat} {A A' : List (List (Shard R))} (hsf : 2 ≤ sf)
    (hplan : PlanSpec .leveling bs sf A bs base) (hp : RunPre .leveling sf A base) (h1 : Single .leveling A) (hb : base ≤ h)
    (hr : absRun .leveling I.counted base A = .ok A') :
    aworks A' + 2 * sf * rest h A' ≤ aworks A + 2 * sf * rest h A := by
  cases base with
  | zero => cases hr; exact le_refl _
  | succ k =>
    rw [absRun, bind_ok] at hr
    obtain ⟨A1, e1, e2⟩ := hr
    obtain ⟨src0, hsrc, hne⟩ := hp.1 k (by omega)
    have hk := lt_of_getElem? hsrc
    obtain ⟨dst, src, nd, q1, q2, q3, q4, q5⟩ := step_work hk e1
    obtain rfl : src = src0 := Option.some.inj (q1.symm.trans hsrc)
    obtain ⟨hb0, -⟩ | ⟨-, hle, hc0, s0, hs0, hno, hyes⟩ := hplan
    · omega
    -- records that move down
    obtain ⟨hw, hrs⟩ : aworks A' = aworks A1 ∧ rest h A' + (if k = 0 then 0 else recs s0) ≤ rest h A1 := by
      by_cases hk0 : k = 0
      · subst hk0; cases e2; simp
      · have h0' : A1[0]? = some s0 := by rw [absStep_other hk e1 (by omega) (by omega)]; exact hs0
        exact lev_chain_work k (hp.next e1) (h1.step (by simp) hp.step e1) h0' (fun ss hss _ => by
          rw [absStep_src hk e1] at hss; cases hss; rfl) (by omega) e2
    have q5 := q5 h
    obtain ⟨j, rfl⟩ : ∃ j, h = k + 1 + j := ⟨h - (k+1), by omega⟩
    rw [show k + 1 + j - k = j + 1 by omega, show k + 1 + j - (k + 1) = j by omega, Nat.add_mul] at q5
    have hdl : dst.length ≤ 1 ∧ src.length ≤ 1 := by
      refine ⟨?_, h1 rfl _ (mem_of_getElem? q1)⟩
      rcases q3 with ⟨rfl, -⟩ | q3
      · simp
      · exact h1 rfl _ (mem_of_getElem? q3)
    rcases absComb_cases (by simp) q2 (fun _ => hdl) hne with ⟨-, rfl, rfl⟩ | ⟨-, m, hm, rfl, hdne⟩ | ⟨hc, -⟩
    · -- into an empty level
      rw [show recs ([] : List (Shard R)) = 0 from rfl] at q5
      have : works ([] : List (Shard R)) = 0 := rfl
      have hr : rest (k + 1 + j) A' ≤ rest (k + 1 + j) A := by omega
      have := Nat.mul_le_mul_left (2 * sf) hr
      omega
    · have hd : A[k+1]? = some dst := by
        rcases q3 with ⟨rfl, -⟩ | q3
        · exact absurd rfl hdne
        · exact q3
      have hsz := merge_size hI.counted hm
      obtain ⟨-, -, -, hmw⟩ := counted_merge hm
      rw [works_single, hmw, works_append, recs_append] at q4
      rw [recs_append] at hsz
      rw [show recs [m] = m.data.length by simp [recs]] at q5
      have hcan := hyes (lt_of_getElem? hd)
      simp only [absCan, hd, decide_eq_true_eq] at hcan
      unfold Struct.levelCap at hcan
      have hmj := Nat.mul_le_mul_left j hsz
      rw [Nat.mul_add] at hmj
      have hdown : rest (k + 1 + j) A' + (recs src + if k = 0 then 0 else recs s0) ≤ rest (k + 1 + j) A := by omega
      have hcost : recs dst + recs src ≤ 2 * sf * (recs src + if k = 0 then 0 else recs s0) := by
        by_cases hk0 : k = 0
        · subst hk0
          obtain rfl : s0 = src := Option.some.inj (hs0.symm.trans q1)
          simp only [absCan, hs0, decide_eq_false_iff_not] at hc0
          unfold Struct.levelCap at hc0
          rw [if_pos rfl, Nat.add_zero]
          have e1 : bs * sf ^ (0 + 1) = bs * sf := by ring
          have e2 : bs * sf ^ (0 + 1 + 1) = bs * sf * sf := by ring
          rw [e1] at hc0
          rw [e2] at hcan
          have h2 : bs * 2 ≤ bs * sf := Nat.mul_le_mul_left bs hsf
          have h3 : bs * sf ≤ 2 * recs s0 := by omega
          have h4 := Nat.mul_le_mul_right sf h3
          have e3 : 2 * sf * recs s0 = 2 * recs s0 * sf := by ring
          omega
        · rw [if_neg hk0]
          have := hno k (by omega) (by omega)
          simp only [absCan, q1, decide_eq_false_iff_not] at this
          unfold Struct.levelCap at this
          have h3 : bs * sf ^ (k+1) ≤ recs src + recs s0 := by omega
          have h4 := Nat.mul_le_mul_right sf h3
          have e2 : bs * sf ^ (k + 1 + 1) = bs * sf ^ (k+1) * sf := by ring
          rw [e2] at hcan
          have h5 : recs src + recs s0 ≤ (recs src + recs s0) * sf := Nat.le_mul_of_pos_right _ (by omega)
          have e3 : 2 * sf * (recs src + recs s0) = (recs src + recs s0) * sf + (recs src + recs s0) * sf := by ring
          omega
      have := Nat.mul_le_mul_left (2 * sf) hdown
      rw [Nat.mul_add] at this
      omega
    · cases hc

theorem lev_flush_work {I : ShardImpl R} {d d' : Index R} (h : d.Inv) (hL : d.L = .leveling) (him : d.impl = I.counted) (hI : I.Conserving)
    (hsf : 2 ≤ d.str.sf) (hat : d.buf.atLwm = true) (hf : d.flush = .ok d') {hh : Nat} (hH : d'.str.abs.length ≤ hh + 1) :
    aworks d'.str.abs + 2 * d.str.sf * rest hh d'.str.abs ≤ aworks d.str.abs + 2 * d.str.sf * rest hh d.str.abs +
      (2 * d.str.sf * hh + 1) * (d.buf.tail - d.buf.head) + d.str.bufSize * d.str.sf := by
  obtain ⟨base, hfs, hor⟩ := flush_abs h hat
  obtain ⟨hplan, hpre⟩ := hfs
  rcases hor with ⟨e, h1, -⟩ | ⟨st', h1, h2, h3, h4, h5⟩
  · rw [h1] at hf; cases hf
  have hs1 : Single .leveling d.str.abs := hL ▸ h.str.single
  rw [h1] at hf
  cases hf
  rw [bind_ok] at h2
  obtain ⟨A1, g1, g2⟩ := h2
  have hcan := FlushSpec.can h ⟨hplan, hpre⟩ g1 (n := d.buf.view.count) (by have := h.wf.cnt; rw [h.bs]; exact this)
  rw [hL, him] at g1 g2
  rw [hL] at hpre hplan hcan
  have hbl : base ≤ d.str.abs.length := by
    rcases hplan with ⟨hb, -⟩ | ⟨hpos, hbl, -⟩
    · omega
    · exact hbl
  have hlen := absRun_length base hbl g1
  have hA1 : A1.length ≤ st'.abs.length := by
    obtain ⟨_, _, _, _, he, _⟩ := absL0_ok g2
    rw [he, List.length_set]; unfold withL0; split <;> simp
  have hbh : base ≤ hh := by
    by_cases hb : base = 0
    · omega
    · rw [if_neg hb] at hlen; simp only at hH; omega
  have hr := lev_run_work hI hsf hplan hpre hs1 hbh g1
  have hS1 := (absRun_reduces (by simp) hI.counted base hpre hs1 g1).2
  obtain ⟨old, nn, p1, p2, p3, p4, p5⟩ := l0_work g2
  have hol : old.length ≤ 1 := by
    rcases p2 with ⟨rfl, -⟩ | p2
    · simp
    · exact hS1 rfl _ (mem_of_getElem? p2)
  simp only [absCan, p3, decide_eq_true_eq] at hcan
  unfold Struct.levelCap at hcan
  obtain ⟨s, hs, hc⟩ := absNew0_cases (by simp) p1 (fun _ => hol)
  obtain ⟨s0, b1, b2, b3⟩ := counted_build hs
  have hsz : s.data.length ≤ d.buf.tail - d.buf.head := build_size hI.counted h.wf hs
  have e : d.buf.view.count = d.buf.tail - d.buf.head := rfl
  have ecap : d.str.bufSize * d.str.sf ^ (0 + 1) = d.str.bufSize * d.str.sf := by ring
  rw [ecap, e] at hcan
  rw [e] at b3
  generalize d.buf.tail - d.buf.head = c at *
  -- the new level 0: records and odometers
  obtain ⟨w1, w2⟩ : works nn ≤ works old + c + d.str.bufSize * d.str.sf ∧ recs nn ≤ recs old + c := by
    rcases hc with ⟨-, rfl, rfl⟩ | ⟨-, m, hm, rfl, -⟩ | ⟨hc, -⟩
    · rw [works_single, show recs [s] = s.data.length by simp [recs]]; omega
    · have hmsz := merge_size hI.counted hm
      obtain ⟨-, -, -, hmw⟩ := counted_merge hm
      rw [works_append, works_single, recs_append, show recs [s] = s.data.length by simp [recs]] at hmw
      rw [recs_append, show recs [s] = s.data.length by simp [recs]] at hmsz
      rw [works_single, show recs [m] = m.data.length by simp [recs]]
      omega
    · cases hc
  have p5 := p5 hh
  have hm := Nat.mul_le_mul_left hh w2
  rw [Nat.mul_add] at hm
  have hrest : rest hh st'.abs ≤ rest hh A1 + hh * c := by omega
  have hm2 := Nat.mul_le_mul_left (2 * d.str.sf) hrest
  rw [Nat.mul_add, ← Nat.mul_assoc] at hm2
  rw [Nat.add_mul]
  simp only
  omega

/-! ### Bentley-Saxe -/

theorem rest_ge : ∀ (A : List (List (Shard R))) {h j : Nat}, A.length + j ≤ h + 1 → j * recs A.flatten ≤ rest h A
  | [], h, j, _ => by simp [recs]
  | a :: A, h, j, hl => by
    rw [List.length_cons] at hl
    rw [List.flatten_cons, recs_append, Nat.mul_add, rest]
    have h1 : j * recs a ≤ h * recs a := Nat.mul_le_mul_right _ (by omega)
    cases h with
    | zero =>
      obtain rfl : j = 0 := by omega
      omega
    | succ h =>
      have := rest_ge A (h := h) (j := j) (by omega)
      rw [Nat.add_sub_cancel]
      omega

theorem rest_replicate (n h : Nat) : rest h (List.replicate n ([] : List (Shard R))) = 0 := by
  induction n generalizing h with
  | zero => rfl
  | succ n ih => rw [List.replicate_succ, rest, ih]; simp [recs]

theorem aworks_append (A B : List (List (Shard R))) : aworks (A ++ B) = aworks A + aworks B := by simp [aworks]

theorem works_perm {a b : List (Shard R)} (h : a.Perm b) : works a = works b := (h.map _).sum_eq
theorem recs_perm {a b : List (Shard R)} (h : a.Perm b) : recs a = recs b := (h.map _).sum_eq

theorem bsm_flush_work {I : ShardImpl R} {d d' : Index R} (h : d.BInv) (him : d.impl = I.counted) (hI : I.Conserving)
    (hne : ∀ s ∈ d.str.visible, s.data ≠ []) (hat : d.buf.atLwm = true) (hf : d.flush = .ok d') {hh : Nat}
    (hH : d'.str.abs.length ≤ hh + 1) :
    aworks d'.str.abs + rest hh d'.str.abs ≤ aworks d.str.abs + rest hh d.str.abs + (hh + 1) * (d.buf.tail - d.buf.head) := by
  obtain ⟨base, hbase, hor⟩ := bflush_abs h hat
  rcases hor with ⟨e, h1, -⟩ | ⟨st', h1, h2, -, -⟩
  · rw [h1] at hf; cases hf
  rw [h1] at hf
  cases hf
  simp only at hH ⊢
  unfold absB at h2
  rw [bind_ok] at h2
  obtain ⟨A1, g1, g2⟩ := h2
  rw [bind_ok] at g2
  obtain ⟨s, hs, g3⟩ := g2
  rw [him] at g1 hs
  simp only [Except.ok.injEq] at g3
  obtain ⟨s0, b1, b2, b3⟩ := counted_build hs
  have hsz : s.data.length ≤ d.buf.tail - d.buf.head := build_size hI.counted h.wf hs
  have e : d.buf.view.count = d.buf.tail - d.buf.head := rfl
  rw [e] at b3
  have hm := Nat.mul_le_mul_left hh hsz
  have hlen : A1.length = st'.abs.length := by rw [← g3]; simp
  -- the middle structure
  obtain ⟨hA0, hmid⟩ : A1[0]? = some [] ∧ aworks A1 + rest hh A1 ≤ aworks d.str.abs + rest hh d.str.abs := by
    cases hA : d.str.abs with
    | nil =>
      rw [hA] at g1
      cases g1
      simp [aworks, rest, works, recs]
    | cons a A =>
      rw [hA] at g1
      have hb := hbase (by rw [hA]; simp)
      simp only [absBMid] at g1
      rw [← hA] at g1 ⊢
      rw [bind_ok] at g1
      obtain ⟨m, hm1, hm2⟩ := g1
      cases hm2
      have hpos := hb.pos
      refine ⟨by rw [bsmMid_get, if_pos hpos], ?_⟩
      have hbl : (bsmMid d.str.abs base m).length = base + 1 + (d.str.abs.length - (base + 1)) := by
        simp [bsmMid]; omega
      have hbh : base ≤ hh := by omega
      -- the target holds nothing
      have hdrop : aworks (d.str.abs.drop base) = aworks (d.str.abs.drop (base+1)) ∧
          rest (hh - base) (d.str.abs.drop base) = rest (hh - base - 1) (d.str.abs.drop (base+1)) := by
        by_cases hlt : base < d.str.abs.length
        · have hz := hb.free hlt
          rw [List.drop_eq_getElem_cons hlt]
          have hx : d.str.abs[base] = [] := by
            have hg : d.str.abs[base]? = some d.str.abs[base] := List.getElem?_eq_getElem hlt
            simp only [absZero, hg, decide_eq_true_eq] at hz
            cases hc : d.str.abs[base] with
            | nil => rfl
            | cons x xs =>
              exfalso
              have hx : x ∈ d.str.visible := by
                rw [visible_abs, List.mem_flatten]
                exact ⟨_, List.getElem_mem hlt, by rw [hc]; simp⟩
              have := hne x hx
              rw [hc, recs_cons] at hz
              have : x.data.length ≠ 0 := by simpa using this
              omega
          rw [hx]
          exact ⟨by simp [aworks, works], by simp [rest, recs]⟩
        · rw [List.drop_eq_nil_of_le (by omega), List.drop_eq_nil_of_le (by omega)]
          exact ⟨rfl, by simp [rest]⟩
      have hsplit : d.str.abs = d.str.abs.take base ++ d.str.abs.drop base := (List.take_append_drop _ _).symm
      have htl : (d.str.abs.take base).length = base := by
        rw [List.length_take]; have := hb.le; omega
      have hperm : (d.str.abs.take base).reverse.flatten.Perm (d.str.abs.take base).flatten := (List.reverse_perm _).flatten
      have hmsz := merge_size hI.counted hm1
      obtain ⟨-, -, -, hmw⟩ := counted_merge hm1
      rw [recs_perm hperm] at hmsz
      rw [recs_perm hperm, works_perm hperm] at hmw
      have hge := rest_ge (d.str.abs.take base) (h := hh) (j := hh - base + 1) (by omega)
      have w1 : aworks d.str.abs = works (d.str.abs.take base).flatten + aworks (d.str.abs.drop (base+1)) := by
        conv_lhs => rw [hsplit]
        rw [aworks_append, hdrop.1, aworks_flatten (d.str.abs.take base)]
      have w2 : rest hh d.str.abs = rest hh (d.str.abs.take base) + rest (hh - base - 1) (d.str.abs.drop (base+1)) := by
        conv_lhs => rw [hsplit]
        rw [rest_append, htl, hdrop.2]
      have w3 : aworks (bsmMid d.str.abs base m) = m.tscnt + aworks (d.str.abs.drop (base+1)) := by
        unfold bsmMid
        rw [aworks_append]
        simp [aworks, works]
      have w4 : rest hh (bsmMid d.str.abs base m) = (hh - base) * m.data.length + rest (hh - base - 1) (d.str.abs.drop (base+1)) := by
        unfold bsmMid
        rw [rest_append, rest_replicate, List.length_replicate, rest, show recs [m] = m.data.length by simp [recs]]
        omega
      rw [Nat.add_mul] at hge
      have := Nat.mul_le_mul_left (hh - base) hmsz
      omega
  have r1 := aworks_set (y := [s]) hA0
  have r2 := rest_set (y := [s]) hh hA0
  rw [g3, works_single, b3] at r1
  rw [g3, show recs [s] = s.data.length by simp [recs], show recs ([] : List (Shard R)) = 0 from rfl, Nat.sub_zero] at r2
  have : works ([] : List (Shard R)) = 0 := rfl
  rw [Nat.add_mul]
  omega

/-! ### Whole histories -/

theorem deleteRecord_works {I : ShardImpl R} {r : R} {l l' : Level R} (h : l.deleteRecord I r = .ok (some l')) :
    works l'.visible = works l.visible := by
  have aux : ∀ (ss : List (Option (Shard R))), works (ss.filterMap id) = ((ss.map (Option.map (·.tscnt))).filterMap id).sum := by
    intro ss
    unfold works
    induction ss with
    | nil => rfl
    | cons a ss ih =>
      cases a with
      | none => simpa using ih
      | some a => simpa using ih
  unfold Level.deleteRecord at h
  split at h
  · cases h
  · rw [bind_ok] at h
    obtain ⟨o, h1, h2⟩ := h
    cases o with
    | none => cases h2
    | some ss =>
      cases h2
      obtain ⟨pre, s, post, i, e1, e2, e3, -⟩ := deleteIn_some h1
      unfold Level.visible
      simp only [aux, List.map_take]
      rw [e1, e3]
      simp

theorem taggedDelete_works {st : Struct R} {I : ShardImpl R} {r : R} {ls : List (Level R)}
    (h : Struct.taggedDeleteIn I r st.levels = .ok (some ls)) : aworks ({ st with levels := ls } : Struct R).abs = aworks st.abs := by
  obtain ⟨k, l, l', e1, e2, e3, -⟩ := taggedDelete_some h
  subst e3
  have hA : st.abs[k]? = some l.visible := by simp [Struct.abs, e1]
  have habs : ({ st with levels := st.levels.set k l' } : Struct R).abs = st.abs.set k l'.visible := by
    simp [Struct.abs, List.map_set]
  rw [habs]
  have := aworks_set (y := l'.visible) hA
  rw [deleteRecord_works e2] at this
  omega

theorem taggedDelete_recs {st : Struct R} {I : ShardImpl R} {r : R} {ls : List (Level R)}
    (h : Struct.taggedDeleteIn I r st.levels = .ok (some ls)) :
    ({ st with levels := ls } : Struct R).abs.length = st.abs.length ∧ ({ st with levels := ls } : Struct R).abs.map recs = st.abs.map recs := by
  have hlen : ({ st with levels := ls } : Struct R).abs.length = st.abs.length := by simp [Struct.abs, taggedDelete_len h]
  refine ⟨hlen, ?_⟩
  apply List.ext_getElem?
  intro i
  rw [List.getElem?_map, List.getElem?_map]
  cases hx : ({ st with levels := ls } : Struct R).abs[i]? with
  | none =>
    rw [List.getElem?_eq_none_iff, hlen, ← List.getElem?_eq_none_iff] at hx
    rw [hx]
  | some ss =>
    obtain ⟨ss0, q1, q2⟩ := taggedDelete_sizes h hx
    rw [q1]; simp [recs_sizes q2]

/-- Flushing at the low watermark takes a whole watermark of records. -/
theorem Index.Inv.full {d : Index R} (h : d.Inv) (hat : d.buf.atLwm = true) : d.buf.tail - d.buf.head = d.buf.lwm := by
  have h1 : d.buf.lwm ≤ d.buf.tail - d.buf.head := by simpa [Buffer.atLwm, Buffer.count] using hat
  have := h.cnt
  omega

theorem tier_run_total [DecidableEq R] {I : ShardImpl R} {d0 : Index R} (h0 : d0.Inv) (hL : d0.L = .tiering) (him : d0.impl = I.counted)
    (hI : I.Conserving) (hl : I.LookupSound) (ht0 : d0.buf.tail = 0) (hlev : d0.str.levels = []) {ops : List (Index.Op R)} {d : Index R}
    {bs : List Bool} (hr : d0.run ops = .ok (d, bs)) {hh : Nat} (hH : d.str.abs.length ≤ hh + 1) :
    aworks d.str.abs + rest hh d.str.abs ≤ (hh + 1) * (d0.buf.lwm * flushes d0.tagging d0.buf.lwm ops) := by
  have hbuf : BufInv d0.buf := ⟨h0.wf, h0.lwm, h0.cnt⟩
  refine (run_flush_ind (fun d n => d.Inv ∧ d.buf.lwm = d0.buf.lwm ∧ ∀ hh, d.str.abs.length ≤ hh + 1 →
    aworks d.str.abs + rest hh d.str.abs ≤ (hh + 1) * (d0.buf.lwm * n)) hbuf ht0 ?_ ?_ ?_ ?_ ?_ hr).1.2.2 hh hH
  · refine ⟨h0, rfl, fun hh _ => ?_⟩
    simp [Struct.abs, hlev, aworks, rest]
  · rintro d d' n hb e1 e2 e3 hat ⟨i1, i2, i3⟩ hf
    have hI' : d.impl.Conserving := by rw [e3, him]; exact hI.counted
    obtain ⟨j1, -⟩ := flush_ok i1 hI' hat hf
    refine ⟨j1, ?_, fun hh hH => ?_⟩
    · obtain ⟨base, -, hor⟩ := flush_abs i1 hat
      rcases hor with ⟨e, h1, -⟩ | ⟨st', h1, -⟩
      · rw [h1] at hf; cases hf
      · rw [h1] at hf; cases hf; exact i2
    · have := tier_flush_work i1 (e1.trans hL) (e3.trans him) hI hat hf hH
      have hle : d.str.abs.length ≤ hh + 1 := by
        obtain ⟨base, ⟨hplan, -⟩, hor⟩ := flush_abs i1 hat
        rcases hor with ⟨e, h1, -⟩ | ⟨st', h1, h2, -⟩
        · rw [h1] at hf; cases hf
        · rw [h1] at hf; cases hf
          rw [bind_ok] at h2
          obtain ⟨A1, g1, g2⟩ := h2
          have hbl : base ≤ d.str.abs.length := by
            rcases hplan with ⟨hb, -⟩ | ⟨hpos, hbl, -⟩
            · omega
            · exact hbl
          have hlen := absRun_length base hbl g1
          have hA1 : A1.length ≤ st'.abs.length := by
            obtain ⟨_, _, _, _, he, _⟩ := absL0_ok g2
            rw [he, List.length_set]; unfold withL0; split <;> simp
          simp only at hH
          split at hlen <;> omega
      have := i3 hh hle
      rw [i1.full hat, i2] at *
      rw [Nat.mul_succ, Nat.mul_add]
      omega
  · rintro d n r ts hb hlt ⟨i1, i2, i3⟩
    refine ⟨(append_index i1 hlt r ts).2.1, ?_, i3⟩
    rw [← i2]; simp only [Buffer.append]; split <;> rfl
  · rintro d n r ls hb e3 ⟨i1, i2, i3⟩ hs
    obtain ⟨q1, q2⟩ := taggedDelete_recs hs
    refine ⟨(taggedDelete_inv i1 (by rw [e3, him]; exact hl) hs).1, i2, fun hh hH => ?_⟩
    show aworks ({ d.str with levels := ls } : Struct R).abs + rest hh ({ d.str with levels := ls } : Struct R).abs ≤ _
    rw [taggedDelete_works hs, rest_congr hh q2]
    exact i3 hh (by rw [← q1]; exact hH)
  · rintro d n r hb ⟨i1, i2, i3⟩
    refine ⟨(bufDelete_inv i1 r).1, ?_, i3⟩
    rw [← i2]; simp only [Buffer.deleteRecord]; split <;> rfl

theorem lev_run_total [DecidableEq R] {I : ShardImpl R} {d0 : Index R} (h0 : d0.Inv) (hL : d0.L = .leveling) (him : d0.impl = I.counted)
    (hI : I.Conserving) (hl : I.LookupSound) (hsf : 2 ≤ d0.str.sf) (ht0 : d0.buf.tail = 0) (hlev : d0.str.levels = [])
    {ops : List (Index.Op R)} {d : Index R} {bs : List Bool} (hr : d0.run ops = .ok (d, bs)) {hh : Nat} (hH : d.str.abs.length ≤ hh + 1) :
    aworks d.str.abs + 2 * d0.str.sf * rest hh d.str.abs ≤
      ((2 * d0.str.sf * hh + 1) * d0.buf.lwm + d0.str.bufSize * d0.str.sf) * flushes d0.tagging d0.buf.lwm ops := by
  have hbuf : BufInv d0.buf := ⟨h0.wf, h0.lwm, h0.cnt⟩
  refine (run_flush_ind (fun d n => d.Inv ∧ d.buf.lwm = d0.buf.lwm ∧ d.str.sf = d0.str.sf ∧ d.str.bufSize = d0.str.bufSize ∧
    ∀ hh, d.str.abs.length ≤ hh + 1 → aworks d.str.abs + 2 * d0.str.sf * rest hh d.str.abs ≤
      ((2 * d0.str.sf * hh + 1) * d0.buf.lwm + d0.str.bufSize * d0.str.sf) * n) hbuf ht0 ?_ ?_ ?_ ?_ ?_ hr).1.2.2.2.2 hh hH
  · refine ⟨h0, rfl, rfl, rfl, fun hh _ => ?_⟩
    simp [Struct.abs, hlev, aworks, rest]
  · rintro d d' n hb e1 e2 e3 hat ⟨i1, i2, i4, i5, i3⟩ hf
    have hI' : d.impl.Conserving := by rw [e3, him]; exact hI.counted
    obtain ⟨j1, -⟩ := flush_ok i1 hI' hat hf
    have hfe : d'.buf.lwm = d0.buf.lwm ∧ d'.str.sf = d0.str.sf ∧ d'.str.bufSize = d0.str.bufSize ∧ d.str.abs.length ≤ d'.str.abs.length := by
      obtain ⟨base, ⟨hplan, -⟩, hor⟩ := flush_abs i1 hat
      rcases hor with ⟨e, h1, -⟩ | ⟨st', h1, h2, -, h4, h5⟩
      · rw [h1] at hf; cases hf
      · rw [h1] at hf; cases hf
        rw [bind_ok] at h2
        obtain ⟨A1, g1, g2⟩ := h2
        have hbl : base ≤ d.str.abs.length := by
          rcases hplan with ⟨hb, -⟩ | ⟨hpos, hbl, -⟩
          · omega
          · exact hbl
        have hlen := absRun_length base hbl g1
        have hA1 : A1.length ≤ st'.abs.length := by
          obtain ⟨_, _, _, _, he, _⟩ := absL0_ok g2
          rw [he, List.length_set]; unfold withL0; split <;> simp
        refine ⟨i2, h5.trans i4, h4.trans i5, ?_⟩
        simp only
        split at hlen <;> omega
    refine ⟨j1, hfe.1, hfe.2.1, hfe.2.2.1, fun hh hH => ?_⟩
    have hw := lev_flush_work i1 (e1.trans hL) (e3.trans him) hI (by rw [i4]; exact hsf) hat hf hH
    have := i3 hh (le_trans hfe.2.2.2 hH)
    rw [i1.full hat, i2, i4, i5] at hw
    rw [Nat.mul_succ]
    omega
  · rintro d n r ts hb hlt ⟨i1, i2, i4, i5, i3⟩
    refine ⟨(append_index i1 hlt r ts).2.1, ?_, i4, i5, i3⟩
    rw [← i2]; simp only [Buffer.append]; split <;> rfl
  · rintro d n r ls hb e3 ⟨i1, i2, i4, i5, i3⟩ hs
    obtain ⟨q1, q2⟩ := taggedDelete_recs hs
    refine ⟨(taggedDelete_inv i1 (by rw [e3, him]; exact hl) hs).1, i2, i4, i5, fun hh hH => ?_⟩
    show aworks ({ d.str with levels := ls } : Struct R).abs + 2 * d0.str.sf * rest hh ({ d.str with levels := ls } : Struct R).abs ≤ _
    rw [taggedDelete_works hs, rest_congr hh q2]
    exact i3 hh (by rw [← q1]; exact hH)
  · rintro d n r hb ⟨i1, i2, i4, i5, i3⟩
    refine ⟨(bufDelete_inv i1 r).1, ?_, i4, i5, i3⟩
    rw [← i2]; simp only [Buffer.deleteRecord]; split <;> rfl

/-- Insert-only histories under Bentley-Saxe. -/
theorem bsm_run_total [DecidableEq R] {I : ShardImpl R} (hI : I.Conserving) : ∀ (ops : List (Index.Op R)) {d0 : Index R}, CleanInv I.counted d0 →
    d0.L = .bsm → InsertOnly ops → (∀ hh, d0.str.abs.length ≤ hh + 1 → aworks d0.str.abs + rest hh d0.str.abs ≤ (hh + 1) * d0.buf.head) →
    ∀ {d : Index R} {bs : List Bool}, d0.run ops = .ok (d, bs) →
    ∀ hh, d.str.abs.length ≤ hh + 1 → aworks d.str.abs + rest hh d.str.abs ≤ (hh + 1) * d.buf.head
  | [], d0, _, _, _, hw, d, bs, hr => by cases hr; exact hw
  | o :: os, d0, h, hL, hio, hw, d, bs, hr => by
    obtain ⟨r, rfl⟩ := hio o (by simp)
    obtain ⟨d1, h1, h2, -, h4, -⟩ := h.insert r
    have hbi : d0.BInv := by
      rcases h.inv with hi | hi
      · exact absurd hL hi.lay
      · exact hi
    have hw1 : ∀ hh, d1.str.abs.length ≤ hh + 1 → aworks d1.str.abs + rest hh d1.str.abs ≤ (hh + 1) * d1.buf.head := by
      have happ : ∀ (b : Buffer R), (b.append r false).1.head = b.head := by
        intro b; simp only [Buffer.append]; split <;> rfl
      unfold Index.insert Index.internalAppend at h1
      by_cases hat : d0.buf.atLwm = true
      · rw [if_pos hat, bind_ok] at h1
        obtain ⟨d2, f1, f2⟩ := h1
        have hb := fun hh => bsm_flush_work (hh := hh) hbi h.impl hI (fun s hs => (h.shards s hs).1) hat f1
        have hmono : d0.str.abs.length ≤ d2.str.abs.length ∧ d2.buf.head = d0.buf.tail := by
          obtain ⟨base, hbase, hor⟩ := bflush_abs hbi hat
          rcases hor with ⟨e, g1, -⟩ | ⟨st', g1, g2, -, -⟩
          · rw [g1] at f1; cases f1
          rw [g1] at f1
          cases f1
          refine ⟨?_, rfl⟩
          unfold absB at g2
          rw [bind_ok] at g2
          obtain ⟨A1, g3, g4⟩ := g2
          rw [bind_ok] at g4
          obtain ⟨s, -, g5⟩ := g4
          simp only [Except.ok.injEq] at g5
          simp only
          rw [← g5, List.length_set]
          cases hA : d0.str.abs with
          | nil => simp
          | cons a A =>
            rw [hA] at g3
            simp only [absBMid] at g3
            rw [bind_ok] at g3
            obtain ⟨m, -, hm2⟩ := g3
            cases hm2
            simp [bsmMid]; omega
        obtain rfl : d1 = { d2 with buf := (d2.buf.append r false).1 } := (congrArg Prod.fst (Except.ok.inj f2)).symm
        intro hh hH
        simp only at hH ⊢
        rw [happ, hmono.2]
        have q1 := hb hh hH
        have q2 := hw hh (le_trans hmono.1 hH)
        have hht := hbi.wf.ht
        have e : (hh + 1) * d0.buf.tail = (hh + 1) * d0.buf.head + (hh + 1) * (d0.buf.tail - d0.buf.head) := by
          rw [← Nat.mul_add]; congr 1; omega
        omega
      · rw [if_neg hat] at h1
        obtain rfl : d1 = { d0 with buf := (d0.buf.append r false).1 } := (congrArg Prod.fst (Except.ok.inj h1)).symm
        intro hh hH
        simp only at hH ⊢
        rw [happ]
        exact hw hh hH
    rw [Index.run] at hr
    simp only [Index.step, h1] at hr
    rw [show ∀ (f : Index R × Bool → Res (Index R × List Bool)), ((Except.ok (d1, true) : Res _) >>= f) = f (d1, true) from fun f => rfl] at hr
    simp only [bind_ok] at hr
    obtain ⟨⟨d2, bs2⟩, hr1, hr2⟩ := hr
    cases hr2
    exact bsm_run_total hI os h2 (h4.trans hL) (fun o ho => hio o (by simp [ho])) hw1 hr1

/-! ### Nothing done is forgotten -/

theorem comb_works {L : Layout} (hL : L ≠ .bsm) {I : ShardImpl R} {dst src nd : List (Shard R)} (h : absComb L I.counted dst src = .ok nd)
    (hs : L = .leveling → dst.length ≤ 1 ∧ src.length ≤ 1) (hne : src ≠ []) : works dst + works src ≤ works nd := by
  rcases absComb_cases hL h hs hne with ⟨-, rfl, rfl⟩ | ⟨-, m, hm, rfl, -⟩ | ⟨-, m, hm, rfl⟩
  · have : works ([] : List (Shard R)) = 0 := rfl
    omega
  · obtain ⟨-, -, -, hw⟩ := counted_merge hm
    rw [works_append] at hw
    rw [works_single]; omega
  · obtain ⟨-, -, -, hw⟩ := counted_merge hm
    rw [works_append, works_single]; omega

theorem run_works {L : Layout} (hL : L ≠ .bsm) {I : ShardImpl R} {sf : Nat} : ∀ (base : Nat) {A A' : List (List (Shard R))},
    RunPre L sf A base → Single L A → absRun L I.counted base A = .ok A' → aworks A ≤ aworks A' ∧ Single L A'
  | 0, A, A', _, h1, h => by cases h; exact ⟨le_refl _, h1⟩
  | k+1, A, A', hp, h1, h => by
    rw [absRun, bind_ok] at h
    obtain ⟨A1, e1, e2⟩ := h
    obtain ⟨src0, hsrc, hne⟩ := hp.1 k (by omega)
    obtain ⟨dst, src, nd, q1, q2, q3, q4, -⟩ := step_work (lt_of_getElem? hsrc) e1
    obtain rfl : src = src0 := Option.some.inj (q1.symm.trans hsrc)
    have hw := comb_works hL q2 (fun hlv => by
      refine ⟨?_, h1 hlv _ (mem_of_getElem? q1)⟩
      rcases q3 with ⟨rfl, -⟩ | q3
      · simp
      · exact h1 hlv _ (mem_of_getElem? q3)) hne
    have ih := run_works hL k (hp.next e1) (h1.step hL hp.step e1) e2
    exact ⟨by omega, ih.2⟩

theorem flush_works {I : ShardImpl R} {d d' : Index R} (h : d.Inv) (him : d.impl = I.counted)
    (hat : d.buf.atLwm = true) (hf : d.flush = .ok d') : aworks d.str.abs + (d.buf.tail - d.buf.head) ≤ aworks d'.str.abs := by
  obtain ⟨base, ⟨hplan, hpre⟩, hor⟩ := flush_abs h hat
  rcases hor with ⟨e, h1, -⟩ | ⟨st', h1, h2, -⟩
  · rw [h1] at hf; cases hf
  rw [h1] at hf
  cases hf
  rw [bind_ok] at h2
  obtain ⟨A1, g1, g2⟩ := h2
  rw [him] at g1 g2
  obtain ⟨hr, hS⟩ := run_works h.lay base hpre h.str.single g1
  obtain ⟨old, nn, p1, p2, -, p4, -⟩ := l0_work g2
  obtain ⟨s, hs, hc⟩ := absNew0_cases h.lay p1 (fun hlv => by
    rcases p2 with ⟨rfl, -⟩ | p2
    · simp
    · exact hS hlv _ (mem_of_getElem? p2))
  obtain ⟨s0, b1, b2, b3⟩ := counted_build hs
  have e : d.buf.view.count = d.buf.tail - d.buf.head := rfl
  rw [e] at b3
  have : works old + (d.buf.tail - d.buf.head) ≤ works nn := by
    rcases hc with ⟨-, rfl, rfl⟩ | ⟨-, m, hm, rfl, -⟩ | ⟨-, rfl⟩
    · rw [works_single]
      have : works ([] : List (Shard R)) = 0 := rfl
      omega
    · obtain ⟨-, -, -, hmw⟩ := counted_merge hm
      rw [works_append, works_single] at hmw
      rw [works_single]; omega
    · rw [works_append, works_single]; omega
  simp only
  omega

theorem run_works_ge [DecidableEq R] {I : ShardImpl R} {d0 : Index R} (h0 : d0.Inv) (him : d0.impl = I.counted)
    (hI : I.Conserving) (hl : I.LookupSound) (ht0 : d0.buf.tail = 0) {ops : List (Index.Op R)} {d : Index R}
    {bs : List Bool} (hr : d0.run ops = .ok (d, bs)) : d0.buf.lwm * flushes d0.tagging d0.buf.lwm ops ≤ aworks d.str.abs := by
  have hbuf : BufInv d0.buf := ⟨h0.wf, h0.lwm, h0.cnt⟩
  refine (run_flush_ind (fun d n => d.Inv ∧ d.buf.lwm = d0.buf.lwm ∧ d0.buf.lwm * n ≤ aworks d.str.abs) hbuf ht0 ?_ ?_ ?_ ?_ ?_ hr).1.2.2
  · exact ⟨h0, rfl, by simp⟩
  · rintro d d' n hb e1 e2 e3 hat ⟨i1, i2, i3⟩ hf
    have hI' : d.impl.Conserving := by rw [e3, him]; exact hI.counted
    obtain ⟨j1, -⟩ := flush_ok i1 hI' hat hf
    refine ⟨j1, ?_, ?_⟩
    · obtain ⟨base, -, hor⟩ := flush_abs i1 hat
      rcases hor with ⟨e, h1, -⟩ | ⟨st', h1, -⟩
      · rw [h1] at hf; cases hf
      · rw [h1] at hf; cases hf; exact i2
    · have := flush_works i1 (e3.trans him) hat hf
      rw [i1.full hat, i2] at this
      rw [Nat.mul_succ]; omega
  · rintro d n r ts hb hlt ⟨i1, i2, i3⟩
    refine ⟨(append_index i1 hlt r ts).2.1, ?_, i3⟩
    rw [← i2]; simp only [Buffer.append]; split <;> rfl
  · rintro d n r ls hb e3 ⟨i1, i2, i3⟩ hs
    refine ⟨(taggedDelete_inv i1 (by rw [e3, him]; exact hl) hs).1, i2, ?_⟩
    show _ ≤ aworks ({ d.str with levels := ls } : Struct R).abs
    rw [taggedDelete_works hs]; exact i3
  · rintro d n r hb ⟨i1, i2, i3⟩
    refine ⟨(bufDelete_inv i1 r).1, ?_, i3⟩
    rw [← i2]; simp only [Buffer.deleteRecord]; split <;> rfl

end DE
