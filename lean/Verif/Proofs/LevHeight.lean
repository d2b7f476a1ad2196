import Verif.Proofs.BSMShape
import Verif.Proofs.Serial

/-!
Leveling: a level is added only when the records of level 0 and of the last level exceed the capacity of the last level.
-/

namespace DE
variable {R : Type}

theorem absRun_length {L : Layout} {I : ShardImpl R} : ∀ (base : Nat) {A A' : List (List (Shard R))}, base ≤ A.length →
    absRun L I base A = .ok A' → A'.length = if base = 0 then A.length else max A.length (base + 1)
  | 0, A, A', _, h => by cases h; rfl
  | k+1, A, A', hb, h => by
    rw [absRun, bind_ok] at h
    obtain ⟨A1, e1, e2⟩ := h
    have h1 := absStep_length (by omega) e1
    have h2 := absRun_length k (by omega) e2
    rw [if_neg (by omega), h2]
    split <;> omega

theorem recs_flatten (A : List (List (Shard R))) : recs A.flatten = (A.map recs).sum := by
  induction A with
  | nil => rfl
  | cons a A ih => rw [List.flatten_cons, recs_append, ih]; rfl

theorem recs_mem {A : List (List (Shard R))} {b : List (Shard R)} (h : b ∈ A) : recs b ≤ recs A.flatten := by
  induction A with
  | nil => cases h
  | cons a A ih =>
    rw [List.flatten_cons, recs_append]
    rcases List.mem_cons.mp h with rfl | h
    · omega
    · have := ih h; omega

theorem recs_two {A : List (List (Shard R))} {i j : Nat} {a b : List (Shard R)} (hij : i < j) (ha : A[i]? = some a) (hb : A[j]? = some b) :
    recs a + recs b ≤ recs A.flatten := by
  induction A generalizing i j with
  | nil => simp at ha
  | cons c A ih =>
    obtain ⟨j, rfl⟩ : ∃ j', j = j' + 1 := ⟨j - 1, by omega⟩
    rw [List.flatten_cons, recs_append]
    have hb' : A[j]? = some b := by simpa using hb
    cases i with
    | zero =>
      simp at ha; subst ha
      have := recs_mem (List.mem_of_getElem? hb')
      omega
    | succ i =>
      have := ih (Nat.lt_of_succ_lt_succ hij) (by simpa using ha) hb'
      omega

/-- One flush under leveling adds at most one level, a second level only when level 0 may not take another full buffer,
and a third or later level only when the records exceed the capacity. -/
theorem lev_grow {d d' : Index R} (h : d.Inv) (hL : d.L = .leveling) (hat : d.buf.atLwm = true) (hf : d.flush = .ok d') :
    1 ≤ d'.str.abs.length ∧
    ((d'.str.abs.length ≤ max 2 d.str.abs.length ∧ (d'.str.abs.length ≤ max 1 d.str.abs.length ∨
      d.str.bufSize * d.str.sf < recs d.str.abs.flatten + d.str.bufSize)) ∨
    (d'.str.abs.length = d.str.abs.length + 1 ∧ d.str.bufSize * d.str.sf ^ d.str.abs.length < recs d.str.abs.flatten)) := by
  obtain ⟨base, ⟨hplan, hpre⟩, hor⟩ := flush_abs h hat
  rcases hor with ⟨e, h1, -⟩ | ⟨st', h1, h2, h3, h4, h5⟩
  · rw [h1] at hf; cases hf
  rw [h1] at hf
  cases hf
  rw [bind_ok] at h2
  obtain ⟨A1, g1, g2⟩ := h2
  rw [hL] at g1 g2 hplan
  obtain ⟨old, nn, ho, hn, he, -⟩ := absL0_ok g2
  have hst : st'.abs = (withL0 A1).set 0 nn := he
  have hlen : st'.abs.length = max 1 A1.length := by
    rw [hst, List.length_set]
    unfold withL0; split
    · next h0 => simp [h0]
    · omega
  simp only
  refine ⟨by omega, ?_⟩
  rcases hplan with ⟨rfl, -⟩ | ⟨hpos, hle, hc0, s0, hs0, hno, -⟩
  · have := absRun_length 0 (by omega) g1
    simp at this
    left; exact ⟨by omega, Or.inl (by omega)⟩
  · have hl := absRun_length base hle g1
    rw [if_neg (by omega)] at hl
    by_cases hb : base < d.str.abs.length
    · left; exact ⟨by omega, Or.inl (by omega)⟩
    · by_cases h1 : base = 1
      · left
        refine ⟨by omega, Or.inr ?_⟩
        simp only [absCan, hs0] at hc0
        have hc0 := of_decide_eq_false hc0
        unfold Struct.levelCap at hc0
        have := recs_mem (List.mem_of_getElem? hs0)
        rw [Nat.zero_add, Nat.pow_one] at hc0
        omega
      · right
        refine ⟨by omega, ?_⟩
        obtain ⟨ss, hss⟩ := getElem?_of_lt (l := d.str.abs) (i := base - 1) (by omega)
        have := hno (base - 1) (by omega) (by omega)
        simp only [absCan, hss] at this
        have this := of_decide_eq_false this
        unfold Struct.levelCap at this
        have h2 := recs_two (by omega) hs0 hss
        rw [show base - 1 + 1 = d.str.abs.length by omega] at this
        omega

/-- One flush adds at most the records of the buffer. -/
theorem flush_recs {d d' : Index R} (h : d.Inv) (hI : d.impl.Conserving) (hat : d.buf.atLwm = true) (hf : d.flush = .ok d') :
    recs d'.str.abs.flatten ≤ recs d.str.abs.flatten + (d.buf.tail - d.buf.head) := by
  obtain ⟨-, -, -, -, -, g6⟩ := flush_ok h hI hat hf
  have this : Multiset.card (ents d'.buf.contents + sents d'.str.visible) ≤ Multiset.card (ents d.buf.contents + sents d.str.visible) := g6.card_le
  rw [Multiset.card_add, Multiset.card_add, card_sents, card_sents, visible_abs, visible_abs] at this
  have e : Multiset.card (ents d.buf.contents) = d.buf.tail - d.buf.head := by
    simp [ents, Buffer.contents_length]
  omega

/-- Records and height of a leveling structure into which `N` records went. -/
structure LevTall (bs sf N : Nat) (A : List (List (Shard R))) : Prop where
  recs : recs A.flatten ≤ N
  tall : 3 ≤ A.length → bs * sf ^ (A.length - 1) < N
  two : 2 ≤ A.length → bs * sf < N + bs
  one : 0 < N ↔ 1 ≤ A.length

theorem LevTall.flush {d d' : Index R} (h : d.Inv) (hL : d.L = .leveling) (hI : d.impl.Conserving) (hat : d.buf.atLwm = true)
    {N : Nat} (ht : LevTall d.str.bufSize d.str.sf N d.str.abs) (hf : d.flush = .ok d') :
    LevTall d.str.bufSize d.str.sf (N + (d.buf.tail - d.buf.head)) d'.str.abs := by
  have hr := flush_recs h hI hat hf
  have := ht.recs
  refine ⟨by omega, fun h3 => ?_, fun h2 => ?_, ⟨fun _ => (lev_grow h hL hat hf).1, fun _ => ?_⟩⟩
  rotate_left
  · have hmono := flush_height hf
    have e1 : d.height = d.str.abs.length := by simp [Index.height, Struct.height, Struct.abs]
    have e2 : d'.height = d'.str.abs.length := by simp [Index.height, Struct.height, Struct.abs]
    by_cases hd2 : 2 ≤ d.str.abs.length
    · have := ht.two hd2; omega
    · rcases (lev_grow h hL hat hf).2 with ⟨-, hg | hg⟩ | ⟨hg, hg'⟩
      · omega
      · omega
      · rw [show d.str.abs.length = 1 by omega, Nat.pow_one] at hg'
        omega
  · have h1 : d.buf.lwm ≤ d.buf.tail - d.buf.head := by simpa [Buffer.atLwm, Buffer.count] using hat
    have := h.lwm
    omega
  rcases (lev_grow h hL hat hf).2 with ⟨hg, -⟩ | ⟨hg, hg'⟩
  · obtain ⟨base, -, hor⟩ := flush_abs h hat
    have hmono := flush_height hf
    have e1 : d.height = d.str.abs.length := by simp [Index.height, Struct.height, Struct.abs]
    have e2 : d'.height = d'.str.abs.length := by simp [Index.height, Struct.height, Struct.abs]
    have e : d'.str.abs.length = d.str.abs.length := by omega
    have := ht.tall (by omega)
    rw [e]; omega
  · rw [hg, Nat.add_sub_cancel]; omega

/-- Records and height along a history. -/
theorem lev_run_tall [DecidableEq R] {d0 : Index R} (h0 : d0.Inv) (hL : d0.L = .leveling) (hI : d0.impl.Conserving)
    (hl : d0.impl.LookupSound) (ht0 : d0.buf.tail = 0) (hlev : d0.str.levels = []) {ops : List (Index.Op R)} {d : Index R}
    {bs : List Bool} (hr : d0.run ops = .ok (d, bs)) :
    LevTall d0.str.bufSize d0.str.sf (d0.buf.lwm * flushes d0.tagging d0.buf.lwm ops) d.str.abs := by
  have hbuf : BufInv d0.buf := ⟨h0.wf, h0.lwm, h0.cnt⟩
  refine (run_flush_ind (fun d n => d.Inv ∧ d.str.sf = d0.str.sf ∧ d.str.bufSize = d0.str.bufSize ∧ d.buf.lwm = d0.buf.lwm ∧
    LevTall d0.str.bufSize d0.str.sf (d0.buf.lwm * n) d.str.abs) hbuf ht0 ?_ ?_ ?_ ?_ ?_ hr).1.2.2.2.2
  · refine ⟨h0, rfl, rfl, rfl, ?_, ?_, ?_, ?_⟩
    · simp [Struct.abs, hlev, recs]
    · simp [Struct.abs, hlev]
    · simp [Struct.abs, hlev]
    · simp [Struct.abs, hlev]
  · rintro d d' n hb e1 e2 e3 hat ⟨i1, i2, i3, i5, i4⟩ hf
    have hI' : d.impl.Conserving := by rw [e3]; exact hI
    obtain ⟨j1, j3, -⟩ := flush_ok i1 hI' hat hf
    have j2 := LevTall.flush i1 (e1.trans hL) hI' hat (by rw [i2, i3]; exact i4) hf
    have hcnt : d.buf.tail - d.buf.head = d0.buf.lwm := by
      have h1 : d.buf.lwm ≤ d.buf.tail - d.buf.head := by simpa [Buffer.atLwm, Buffer.count] using hat
      have := i1.cnt
      omega
    obtain ⟨base, -, hor⟩ := flush_abs i1 hat
    rcases hor with ⟨e, h1, -⟩ | ⟨st', h1, -, -, h4, h5⟩
    · rw [h1] at hf; cases hf
    · rw [h1] at hf; cases hf
      rw [i2, i3, hcnt] at j2
      exact ⟨j1, h5.trans i2, h4.trans i3, i5, by rw [Nat.mul_succ]; exact j2⟩
  · rintro d n r ts hb hlt ⟨i1, i2, i3, i5, i4⟩
    refine ⟨(append_index i1 hlt r ts).2.1, i2, i3, ?_, i4⟩
    rw [← i5]; simp only [Buffer.append]; split <;> rfl
  · rintro d n r ls hb e3 ⟨i1, i2, i3, i5, i4⟩ hs
    refine ⟨(taggedDelete_inv i1 (by rw [e3]; exact hl) hs).1, i2, i3, i5, ?_⟩
    have hlen : ({ d.str with levels := ls } : Struct R).abs.length = d.str.abs.length := by simp [Struct.abs, taggedDelete_len hs]
    have hrec : ({ d.str with levels := ls } : Struct R).abs.map recs = d.str.abs.map recs := by
      apply List.ext_getElem?
      intro i
      rw [List.getElem?_map, List.getElem?_map]
      cases hx : ({ d.str with levels := ls } : Struct R).abs[i]? with
      | none =>
        rw [List.getElem?_eq_none_iff, hlen, ← List.getElem?_eq_none_iff] at hx
        rw [hx]
      | some ss =>
        obtain ⟨ss0, q1, q2⟩ := taggedDelete_sizes hs hx
        rw [q1]; simp [recs_sizes q2]
    refine ⟨?_, ?_, ?_, ?_⟩
    · show recs ({ d.str with levels := ls } : Struct R).abs.flatten ≤ _
      rw [recs_flatten, hrec, ← recs_flatten]; exact i4.recs
    · show 3 ≤ ({ d.str with levels := ls } : Struct R).abs.length → _ * _ ^ (({ d.str with levels := ls } : Struct R).abs.length - 1) < _
      rw [hlen]; exact i4.tall
    · show 2 ≤ ({ d.str with levels := ls } : Struct R).abs.length → _
      rw [hlen]; exact i4.two
    · show _ ↔ 1 ≤ ({ d.str with levels := ls } : Struct R).abs.length
      rw [hlen]; exact i4.one
  · rintro d n r hb ⟨i1, i2, i3, i5, i4⟩
    refine ⟨(bufDelete_inv i1 r).1, i2, i3, ?_, i4⟩
    rw [← i5]; simp only [Buffer.deleteRecord]; split <;> rfl

end DE
