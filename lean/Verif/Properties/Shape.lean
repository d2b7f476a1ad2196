import Verif.Proofs.LevHeight
import Verif.Proofs.Instances
import Verif.Properties.Counts
import Mathlib.Data.Nat.Log
import Mathlib.Data.Nat.Size

/-!
C16, C17, C18, C19, C53: height, level capacities, tombstone proportion.
-/

namespace DE
variable {R : Type}

/-! ### Arithmetic -/

theorem geom_succ (b : Nat) : ∀ h, geom b (h+1) = 1 + b * geom b h
  | 0 => by simp [geom]
  | h+1 => by
    have := geom_succ b h
    have e1 : geom b (h+1+1) = geom b (h+1) + b ^ (h+1) := rfl
    have e2 : geom b (h+1) = geom b h + b ^ h := rfl
    have e : b ^ (h+1) = b * b ^ h := by rw [pow_succ]; ring
    rw [e1, e, this]
    rw [this] at e2
    rw [e2, Nat.mul_add, ← Nat.add_assoc, e2]

theorem capSum_geom (bs sf : Nat) : ∀ i, capSum bs sf i = bs * sf * geom sf (i+1)
  | 0 => by simp [capSum, Struct.levelCap, geom]
  | i+1 => by
    have e1 : geom sf (i+1+1) = geom sf (i+1) + sf ^ (i+1) := rfl
    rw [capSum, capSum_geom bs sf i, Struct.levelCap, e1, pow_succ]; ring

theorem weight_bounds {sf : Nat} : ∀ (A : List (List (Shard R))), (∀ ss ∈ A, 1 ≤ ss.length ∧ ss.length ≤ sf) →
    geom sf A.length ≤ weight sf A ∧ weight sf A ≤ sf * geom sf A.length
  | [], _ => by simp [geom, weight]
  | a :: A, h => by
    obtain ⟨h1, h2⟩ := weight_bounds A (fun ss hs => h ss (by simp [hs]))
    have ha := h a (by simp)
    rw [List.length_cons, geom_succ, weight]
    have e1 := Nat.mul_le_mul_left sf h1
    have e2 := Nat.mul_le_mul_left sf h2
    refine ⟨by omega, ?_⟩
    rw [Nat.mul_add, Nat.mul_one]
    omega

theorem pow_le_geom (b h : Nat) : b ^ h ≤ geom b (h+1) := by rw [geom]; omega

theorem bits_size : ∀ (t : List Nat), t.getLast? ≠ some 0 → Nat.size (bits t) = t.length
  | [], _ => by simp [bits]
  | [x], h => by
    have : x ≠ 0 := by simpa using h
    simp [bits, this]
  | x :: y :: t, h => by
    have ih := bits_size (y :: t) (by simpa [List.getLast?_cons_cons] using h)
    have hne : bits (y :: t) ≠ 0 := by
      intro h0
      rw [h0] at ih
      simp at ih
    rw [List.length_cons, ← ih]
    have e : bits (x :: y :: t) = Nat.bit (decide (x ≠ 0)) (bits (y :: t)) := by
      rw [Nat.bit_val]
      rw [bits]
      by_cases hx : x = 0
      · simp [hx]
      · simp [hx, Nat.add_comm]
    rw [e, Nat.size_bit]
    rw [Nat.bit_val]; omega

theorem bits_testBit : ∀ (t : List Nat) (i : Nat), (bits t).testBit i = decide (t[i]?.getD 0 ≠ 0)
  | [], i => by simp [bits]
  | x :: t, 0 => by
    rw [bits, Nat.testBit_zero]
    by_cases hx : x = 0
    · simp [hx]
    · simp [hx]
  | x :: t, i+1 => by
    rw [bits, Nat.testBit_succ]
    have : ((if x = 0 then 0 else 1) + 2 * bits t) / 2 = bits t := by split <;> omega
    rw [this, bits_testBit t i, List.getElem?_cons_succ]

/-! ### C16 -/

/-- C16: the height never decreases; any layout, delete policy and shard class. -/
theorem C16_height_monotone [DecidableEq R] {d0 d1 d2 : Index R} {ops1 ops2 : List (Index.Op R)} {bs1 bs2 : List Bool}
    (_h1 : d0.run ops1 = .ok (d1, bs1)) (h2 : d1.run ops2 = .ok (d2, bs2)) : d1.height ≤ d2.height :=
  run_height ops2 h2

section
variable {K : Type} [LinearOrder R] [LinearOrder K] [HasKey R K] [Inhabited R]

/-- C16, tiering: after `n` flushes the height is the number of digits of `n` written with digits `1..scale_factor`. -/
theorem C16_tiering {tag : Bool} {pq : PQ R} {lb : LB R K} {lwm hwm sf : Nat} {d0 d : Index R}
    {ops : List (Index.Op R)} {bs : List Bool} (hnew : Index.new .tiering tag (sortedImpl pq lb) lwm hwm sf = .ok d0)
    (hlwm : 1 ≤ lwm) (hsf : 1 ≤ sf) (hrun : d0.run ops = .ok (d, bs)) :
    geom sf d.height ≤ flushes tag lwm ops ∧ flushes tag lwm ops ≤ sf * geom sf d.height ∧
    (2 ≤ sf → d.height ≤ Nat.log sf (flushes tag lwm ops) + 1) := by
  obtain ⟨i1, i2, i3, i4, -⟩ := new_inv (by simp) hnew hlwm hsf
  obtain ⟨hd, -⟩ := new_ok hnew
  obtain ⟨-, k2, -, k4⟩ := tier_run_inv i1 i2 (by rw [i4]; exact sortedImpl_conserving pq lb)
    (by rw [i4]; exact sortedImpl_lookupSound pq lb) (by rw [hd]) (by rw [hd]) hrun
  have e1 : d0.buf.lwm = lwm := by rw [hd]
  have e2 : d0.str.sf = sf := by rw [hd]
  rw [i3, e1] at k4
  rw [e2] at k2
  have hb := weight_bounds (sf := sf) d.str.abs (by
    intro ss hs
    obtain ⟨i, hi⟩ := List.getElem?_of_mem hs
    have := k4.lvl i ss hi
    rw [k2] at this
    exact ⟨this.1, this.2.1⟩)
  have hw := k4.sum
  rw [k2] at hw
  rw [hw] at hb
  have hh : d.str.abs.length = d.height := by simp [Struct.abs, Index.height, Struct.height]
  rw [hh] at hb
  refine ⟨hb.1, hb.2, ?_⟩
  intro h2
  cases hd' : d.height with
  | zero => omega
  | succ h =>
    rw [hd'] at hb
    have := le_trans (pow_le_geom sf h) hb.1
    have := Nat.le_log_of_pow_le h2 this
    omega

omit [LinearOrder R] [Inhabited R] in
theorem LevTall.log {bs sf N : Nat} {A : List (List (Shard R))} (h : LevTall bs sf N A) (hb : 1 ≤ bs) (hsf : 2 ≤ sf) :
    A.length ≤ max 2 (Nat.log sf (N / bs) + 1) := by
  rcases Nat.lt_or_ge A.length 3 with h3 | h3
  · omega
  · have h1 := h.tall h3
    have h2 : sf ^ (A.length - 1) ≤ N / bs := by
      rw [Nat.le_div_iff_mul_le hb, Nat.mul_comm]; omega
    have := Nat.le_log_of_pow_le hsf h2
    omega

/-- C16, leveling: the height is logarithmic in the number of records flushed, measured in buffers. There is a level as
soon as something was flushed, and a second one only once level 0 may not take another full buffer. -/
theorem C16_leveling {tag : Bool} {pq : PQ R} {lb : LB R K} {lwm hwm sf : Nat} {d0 d : Index R}
    {ops : List (Index.Op R)} {bs : List Bool} (hnew : Index.new .leveling tag (sortedImpl pq lb) lwm hwm sf = .ok d0)
    (hlwm : 1 ≤ lwm) (hsf : 2 ≤ sf) (hrun : d0.run ops = .ok (d, bs)) :
    (0 < flushes tag lwm ops ↔ 1 ≤ d.height) ∧ (2 ≤ d.height → hwm * (sf - 1) < lwm * flushes tag lwm ops) ∧
    (3 ≤ d.height → hwm * sf ^ (d.height - 1) < lwm * flushes tag lwm ops) ∧
    d.height ≤ max 2 (Nat.log sf (lwm * flushes tag lwm ops / hwm) + 1) := by
  obtain ⟨i1, i2, i3, i4, -⟩ := new_inv (by simp) hnew hlwm (by omega)
  obtain ⟨hd, -⟩ := new_ok hnew
  have k := lev_run_tall i1 i2 (by rw [i4]; exact sortedImpl_conserving pq lb)
    (by rw [i4]; exact sortedImpl_lookupSound pq lb) (by rw [hd]) (by rw [hd]) hrun
  have e1 : d0.buf.lwm = lwm := by rw [hd]
  have e2 : d0.str.sf = sf := by rw [hd]
  have e3 : d0.str.bufSize = hwm := by rw [hd]
  rw [e1, e2, e3, i3] at k
  have hw : 1 ≤ hwm := by have := i1.wf.hwm; rw [hd] at this; exact this
  have hh : d.str.abs.length = d.height := by simp [Struct.abs, Index.height, Struct.height]
  have k1 := k.tall
  have k2 := k.log hw hsf
  have k3 := k.two
  have k4 := k.one
  rw [hh] at k1 k2 k3 k4
  refine ⟨⟨fun h => k4.mp (Nat.mul_pos hlwm h), fun h => Nat.pos_of_mul_pos_left (k4.mpr h)⟩, fun h => ?_, k1, k2⟩
  have := k3 h
  have : hwm ≤ hwm * sf := Nat.le_mul_of_pos_right _ (by omega)
  rw [Nat.mul_sub, Nat.mul_one]; omega

example : probe .leveling false 2 2 2 (insSeq 0 31) (fun p => .ok (p.1.height, flushes false 2 (insSeq 0 31))) = .ok (4, 15) := by
  decide

/-- C16, BSM: the height is logarithmic in the number of flushes, for every history. -/
theorem C16_bsm {tag : Bool} {pq : PQ R} {lb : LB R K} {lwm hwm sf : Nat} {d0 d : Index R}
    {ops : List (Index.Op R)} {bs : List Bool} (hnew : Index.new .bsm tag (sortedImpl pq lb) lwm hwm sf = .ok d0)
    (hlwm : 1 ≤ lwm) (hrun : d0.run ops = .ok (d, bs)) :
    d.height ≤ Nat.log 2 (flushes tag lwm ops) + 2 := by
  obtain ⟨hd, -⟩ := new_ok hnew
  obtain ⟨⟨-, -, -, -, h5, -⟩, -⟩ := gb_run (new_buf hnew hlwm) (by rw [hd]) (by rw [hd]; exact sortedImpl_conserving pq lb)
    (by rw [hd]) (by rw [hd]) (by rw [hd]) hrun
  have e1 : d0.buf.lwm = lwm := by rw [hd]
  have e2 : d0.tagging = tag := by rw [hd]
  rw [e1, e2] at h5
  have hh : (szs d.str).length = d.height := by simp [szs, Index.height, Struct.height]
  rcases Nat.lt_or_ge d.height 2 with hlt | hge
  · omega
  · obtain ⟨h, hk⟩ : ∃ h, d.height = h + 2 := ⟨d.height - 2, by omega⟩
    have := h5.high h (by omega)
    have := Nat.le_log_of_pow_le (by omega) (Nat.le_of_lt this)
    omega

theorem bsm_exact {tag : Bool} {pq : PQ R} {lb : LB R K} {lwm hwm sf : Nat} {d0 d : Index R}
    {ops : List (Index.Op R)} {bs : List Bool} (hnew : Index.new .bsm tag (sortedImpl pq lb) lwm hwm sf = .ok d0)
    (hlwm : 1 ≤ lwm) (hio : InsertOnly ops) (hrun : d0.run ops = .ok (d, bs)) :
    Exact lwm (flushes tag lwm ops) (szs d.str) := by
  obtain ⟨hd, -, -, hsf2⟩ := new_ok hnew
  have hsf := hsf2 rfl
  obtain ⟨⟨-, -, -, -, -, -, h7⟩, h8, h9⟩ := gb_run (new_buf hnew hlwm) (by rw [hd]) (by rw [hd]; exact sortedImpl_conserving pq lb)
    (by rw [hd]) (by rw [hd]) (by rw [hd]) hrun
  have e1 : d0.buf.lwm = lwm := by rw [hd]
  have e2 : d0.tagging = tag := by rw [hd]
  rw [e1, e2] at h7
  rw [e1, e2] at h9
  rw [e2] at h8
  apply h7
  obtain ⟨d', bs', g1, g2⟩ := C14_insert_only hnew hlwm (by omega) hio
  rw [hrun] at g1
  cases g1
  have hbuf := (run_buf ops (new_buf hnew hlwm) hrun).1
  have happ : appends tag ops = ops.length := by
    clear * - hio
    induction ops with
    | nil => rfl
    | cons o os ih =>
      obtain ⟨r, rfl⟩ := hio o (by simp)
      simp [appends, ih (fun o ho => hio o (by simp [ho]))]
  have hrc : d.recordCount = (d.buf.tail - d.buf.head) + (szs d.str).sum := rfl
  have := hbuf.wf.ht
  omega

/-- C16, BSM with an insert-only history: exactly one level plus the binary digits of `n - 1`. -/
theorem C16_bsm_insert_only {tag : Bool} {pq : PQ R} {lb : LB R K} {lwm hwm sf : Nat} {d0 d : Index R}
    {ops : List (Index.Op R)} {bs : List Bool} (hnew : Index.new .bsm tag (sortedImpl pq lb) lwm hwm sf = .ok d0)
    (hlwm : 1 ≤ lwm) (hio : InsertOnly ops) (hrun : d0.run ops = .ok (d, bs)) :
    d.height = if flushes tag lwm ops = 0 then 0 else Nat.size (flushes tag lwm ops - 1) + 1 := by
  have hh : (szs d.str).length = d.height := by simp [szs, Index.height, Struct.height]
  rcases bsm_exact hnew hlwm hio hrun with ⟨h1, h2⟩ | ⟨t, h1, h2, -, h4⟩
  · rw [if_pos h2, ← hh, h1]; rfl
  · rw [if_neg (by omega), ← hh, h1, List.length_cons, ← bits_size t h4, ← h2]; rfl

example : probe .tiering false 2 2 2 (insSeq 0 15) (fun p => .ok (p.1.height, flushes false 2 (insSeq 0 15))) = .ok (3, 7) := by
  decide
example : probe .bsm false 2 2 2 (insSeq 0 17) (fun p => .ok (p.1.height, flushes false 2 (insSeq 0 17))) = .ok (4, 8) := by
  decide

/-! ### C17, C18 -/

/-- C17: under tiering level `i` holds at most `scale_factor` shards and `hwm * scale_factor^(i+1)` records. -/
theorem C17_tiering_capacity {tag : Bool} {pq : PQ R} {lb : LB R K} {lwm hwm sf : Nat} {d0 d : Index R}
    {ops : List (Index.Op R)} {bs : List Bool} (hnew : Index.new .tiering tag (sortedImpl pq lb) lwm hwm sf = .ok d0)
    (hlwm : 1 ≤ lwm) (hsf : 1 ≤ sf) (hrun : d0.run ops = .ok (d, bs)) {i : Nat} {l : Level R}
    (hl : d.str.levels[i]? = some l) : l.cnt ≤ sf ∧ l.recordCount ≤ hwm * sf ^ (i+1) := by
  obtain ⟨i1, i2, i3, i4, -⟩ := new_inv (by simp) hnew hlwm hsf
  obtain ⟨hd, -⟩ := new_ok hnew
  obtain ⟨k1, k2, k3, k4⟩ := tier_run_inv i1 i2 (by rw [i4]; exact sortedImpl_conserving pq lb)
    (by rw [i4]; exact sortedImpl_lookupSound pq lb) (by rw [hd]) (by rw [hd]) hrun
  have ha : d.str.abs[i]? = some l.visible := by simp [Struct.abs, hl]
  have hlv := k4.lvl i l.visible ha
  rw [k2, k3] at hlv
  have e2 : d0.str.sf = sf := by rw [hd]
  have e3 : d0.str.bufSize = hwm := by rw [hd]
  rw [e2, e3] at hlv
  obtain ⟨s, hs⟩ := getElem?_of_lt (l := d.str.state) (i := i) (by rw [← k1.str.len]; exact lt_of_getElem? hl)
  have hcnt := (k1.str.lvl i l s hl hs).cnt
  refine ⟨by have := hlv.2.1; omega, ?_⟩
  rw [recordCount_eq]
  refine le_trans (recs_le hlv.2.2) ?_
  rw [pow_succ]
  calc l.visible.length * (hwm * sf ^ i) ≤ sf * (hwm * sf ^ i) := Nat.mul_le_mul_right _ hlv.2.1
    _ = hwm * (sf ^ i * sf) := by ring

example : probe .tiering false 2 2 2 (insSeq 0 13) (fun p => .ok (p.1.str.levels.map Level.cnt, p.1.str.levels.map Level.recordCount))
    = .ok ([2, 2], [4, 8]) := by decide

/-- C18: the bound that holds under leveling: level `i` holds at most the sum of the capacities of levels `0..i`, and
level 0 at most its capacity. Missing: the capacity of level `i` itself (`C18_false`). -/
theorem C18_partial {tag : Bool} {pq : PQ R} {lb : LB R K} {lwm hwm sf : Nat} {d0 d : Index R}
    {ops : List (Index.Op R)} {bs : List Bool} (hnew : Index.new .leveling tag (sortedImpl pq lb) lwm hwm sf = .ok d0)
    (hlwm : 1 ≤ lwm) (hsf : 1 ≤ sf) (hrun : d0.run ops = .ok (d, bs)) {i : Nat} {l : Level R}
    (hl : d.str.levels[i]? = some l) :
    l.recordCount ≤ hwm * sf * geom sf (i+1) ∧ (i = 0 → l.recordCount ≤ hwm * sf ^ (i+1)) := by
  obtain ⟨i1, i2, i3, i4, -⟩ := new_inv (by simp) hnew hlwm hsf
  obtain ⟨hd, -⟩ := new_ok hnew
  obtain ⟨k1, k2, k3, k4⟩ := lev_run_inv i1 i2 (by rw [i4]; exact sortedImpl_conserving pq lb)
    (by rw [i4]; exact sortedImpl_lookupSound pq lb) (by rw [hd]) (by rw [hd]) hrun
  have ha : d.str.abs[i]? = some l.visible := by simp [Struct.abs, hl]
  have hlv := k4 i l.visible ha
  have e2 : d0.str.sf = sf := by rw [hd]
  have e3 : d0.str.bufSize = hwm := by rw [hd]
  rw [e2, e3, ← recordCount_eq] at hlv
  refine ⟨by rw [← capSum_geom]; exact hlv, ?_⟩
  rintro rfl
  exact hlv

/-- C18 is false: 23 inserts put 18 records into level 2, whose capacity is 16. -/
theorem C18_false : ∃ (d0 d : Index Rec) (bs : List Bool) (l : Level Rec), mk .leveling false 1 2 2 = .ok d0 ∧
    d0.run (insSeq 0 23) = .ok (d, bs) ∧ d.str.levels[2]? = some l ∧ l.recordCount = 18 ∧ 2 * 2 ^ (2 + 1) = 16 := by
  have h : probe .leveling false 1 2 2 (insSeq 0 23)
      (fun p => .ok (p.1.str.levels[2]?.map Level.recordCount)) = .ok (some 18) := by decide
  obtain ⟨d0, d, bs, h1, h2, h3⟩ := probe_ok h
  have h3 := Except.ok.inj h3
  cases hl : d.str.levels[2]? with
  | none => simp only [hl] at h3; cases h3
  | some l =>
    simp only [hl, Option.map_some, Option.some.injEq] at h3
    exact ⟨d0, d, bs, l, h1, h2, hl, h3, rfl⟩

/-! ### C19 -/

/-- C19: an insert-only BSM index is a binary counter. After `n > 0` flushes level 0 holds one buffer-full, and level
`i + 1` holds `2^i` buffers worth iff bit `i` of `n - 1` is set (an absent level holds nothing). -/
theorem C19_binary_counter {tag : Bool} {pq : PQ R} {lb : LB R K} {lwm hwm sf : Nat} {d0 d : Index R}
    {ops : List (Index.Op R)} {bs : List Bool} (hnew : Index.new .bsm tag (sortedImpl pq lb) lwm hwm sf = .ok d0)
    (hlwm : 1 ≤ lwm) (hio : InsertOnly ops) (hrun : d0.run ops = .ok (d, bs)) (hn : 0 < flushes tag lwm ops) :
    (d.str.levels[0]?).map Level.recordCount = some lwm ∧
    ∀ i, ((d.str.levels[i+1]?).map Level.recordCount).getD 0 =
      if (flushes tag lwm ops - 1).testBit i then 2 ^ i * lwm else 0 := by
  have hz : ∀ i : Nat, (d.str.levels[i]?).map Level.recordCount = (szs d.str)[i]? := by
    intro i; rw [szs, List.getElem?_map]
  rcases bsm_exact hnew hlwm hio hrun with ⟨-, h2⟩ | ⟨t, h1, h2, h3, -⟩
  · omega
  · refine ⟨by rw [hz, h1]; rfl, ?_⟩
    intro i
    rw [hz, h1, List.getElem?_cons_succ, ← h2, Nat.add_sub_cancel, bits_testBit]
    cases hx : t[i]? with
    | none => simp
    | some x =>
      rcases h3 i x hx with hx0 | hx0
      · simp [hx0]
      · simp only [Option.getD_some]
        by_cases hz0 : x = 0
        · simp [hz0]
        · simp [hz0, ← hx0]

example : probe .bsm false 3 4 2 (insSeq 0 20) (fun p => .ok (flushes false 3 (insSeq 0 20), p.1.str.levels.map Level.recordCount))
    = .ok (6, [3, 3, 0, 12]) := by decide

/-- C19, every BSM history (erases and void blocks included): no level exceeds its share. -/
theorem C19_bound {tag : Bool} {pq : PQ R} {lb : LB R K} {lwm hwm sf : Nat} {d0 d : Index R}
    {ops : List (Index.Op R)} {bs : List Bool} (hnew : Index.new .bsm tag (sortedImpl pq lb) lwm hwm sf = .ok d0)
    (hlwm : 1 ≤ lwm) (hrun : d0.run ops = .ok (d, bs)) {i : Nat} {l : Level R} (hl : d.str.levels[i]? = some l) :
    l.recordCount ≤ 2 ^ (i - 1) * lwm := by
  obtain ⟨hd, -⟩ := new_ok hnew
  obtain ⟨⟨-, -, -, -, h5, -⟩, -⟩ := gb_run (new_buf hnew hlwm) (by rw [hd]) (by rw [hd]; exact sortedImpl_conserving pq lb)
    (by rw [hd]) (by rw [hd]) (by rw [hd]) hrun
  have e1 : d0.buf.lwm = lwm := by rw [hd]
  rw [e1] at h5
  have hz : (szs d.str)[i]? = some l.recordCount := by rw [szs, List.getElem?_map, hl]; rfl
  cases i with
  | zero =>
    have := h5.zero l.recordCount (by rw [List.head?_eq_getElem?]; exact hz)
    simpa using this
  | succ i =>
    have := h5.succ i l.recordCount (by rw [List.getElem?_tail]; exact hz)
    simpa using this

/-! ### C53 -/

theorem le_sum_of_mem : ∀ {l : List Nat} {a : Nat}, a ∈ l → a ≤ l.sum
  | x :: l, a, h => by
    rw [List.sum_cons]
    rcases List.mem_cons.mp h with rfl | h
    · omega
    · have := le_sum_of_mem h; omega

omit [LinearOrder R] [Inhabited R] in
/-- `validate_tombstone_proportion` unfolded. -/
theorem validateFrom_iff (st : Struct R) : ∀ (ls : List (Level R)) (k : Nat),
    (st.validateFrom k ls = true ↔ ∀ i l, ls[i]? = some l → l.tombstoneCount ≤ Struct.levelCap st.bufSize st.sf (k + i))
  | [], k => by simp [Struct.validateFrom]
  | l :: ls, k => by
    rw [Struct.validateFrom, Bool.and_eq_true, decide_eq_true_eq, validateFrom_iff st ls (k+1)]
    constructor
    · rintro ⟨h1, h2⟩ i l' hl
      cases i with
      | zero => simp at hl; subst hl; exact h1
      | succ i =>
        have := h2 i l' (by simpa using hl)
        rwa [show k + (i + 1) = k + 1 + i by omega]
    · intro h
      refine ⟨h 0 l rfl, ?_⟩
      intro i l' hl
      have := h (i+1) l' (by simpa using hl)
      rwa [show k + 1 + i = k + (i + 1) by omega]

theorem run_tscnt {L : Layout} {tag : Bool} {pq : PQ R} {lb : LB R K} {lwm hwm sf : Nat} {d0 d : Index R}
    {ops : List (Index.Op R)} {bs : List Bool} (hnew : Index.new L tag (sortedImpl pq lb) lwm hwm sf = .ok d0)
    (hlwm : 1 ≤ lwm) (hrun : d0.run ops = .ok (d, bs)) : ∀ l ∈ d.str.levels, l.tombstoneCount ≤ l.recordCount := by
  obtain ⟨hd, -⟩ := new_ok hnew
  have hI : d0.impl = sortedImpl pq lb := by rw [hd]
  obtain ⟨hs, -⟩ := run_prefix_ind ops (fun ops d _ => SAll (fun s => s.tscnt = tsCount s.data) d.str) (new_buf hnew hlwm)
    (by intro l hl; rw [hd] at hl; simp at hl)
    (by
      intro ops o d d' bs b _ _ hP hb hL ht hi hs
      rw [hI] at hi
      refine step_all (by rw [hi]; exact closed_tscnt pq lb) ?_ hP hs
      intro r _ _ s j hq _
      rw [tsCount_tag]; exact hq) hrun
  intro l hl
  unfold Level.tombstoneCount Level.recordCount
  have := (hs l hl).visible
  revert this
  generalize l.visible = ss
  intro this
  induction ss with
  | nil => simp
  | cons s ss ih =>
    have h1 := this s (by simp)
    have h2 := ih (fun x hx => this x (by simp [hx]))
    have h3 : tsCount s.data ≤ s.data.length := List.countP_le_length
    simp only [List.map_cons, List.sum_cons]
    omega

/-- C53 for tiering and BSM: the check succeeds in every reachable state. -/
theorem C53_partial {L : Layout} (hL : L ≠ .leveling) {tag : Bool} {pq : PQ R} {lb : LB R K} {lwm hwm sf : Nat} {d0 d : Index R}
    {ops : List (Index.Op R)} {bs : List Bool} (hnew : Index.new L tag (sortedImpl pq lb) lwm hwm sf = .ok d0)
    (hlwm : 1 ≤ lwm) (hsf : 1 ≤ sf) (hrun : d0.run ops = .ok (d, bs)) : d.validate = true := by
  obtain ⟨hd, -, hlh, hb2⟩ := new_ok hnew
  have e2 : d0.str.sf = sf := by rw [hd]
  have e3 : d0.str.bufSize = hwm := by rw [hd]
  unfold Index.validate Struct.validate
  rw [validateFrom_iff]
  intro i l hl
  rw [Nat.zero_add]
  refine le_trans (run_tscnt hnew hlwm hrun l (mem_of_getElem? hl)) ?_
  cases L with
  | leveling => exact absurd rfl hL
  | tiering =>
    obtain ⟨i1, i2, i3, i4, -⟩ := new_inv (by simp) hnew hlwm hsf
    obtain ⟨-, k2, k3, -⟩ := tier_run_inv i1 i2 (by rw [i4]; exact sortedImpl_conserving pq lb)
      (by rw [i4]; exact sortedImpl_lookupSound pq lb) (by rw [hd]) (by rw [hd]) hrun
    rw [k2, k3, e2, e3]
    exact (C17_tiering_capacity hnew hlwm hsf hrun hl).2
  | bsm =>
    obtain ⟨⟨-, -, h3, h4, -⟩, -⟩ := gb_run (new_buf hnew hlwm) (by rw [hd]) (by rw [hd]; exact sortedImpl_conserving pq lb)
      (by rw [hd]) (by rw [hd]) (by rw [hd]) hrun
    rw [h3, h4, e2, e3, hb2 rfl]
    refine le_trans (C19_bound hnew hlwm hrun hl) ?_
    unfold Struct.levelCap
    rw [Nat.mul_comm]
    exact Nat.mul_le_mul hlh (Nat.pow_le_pow_right (by omega) (by omega))

/-- C53 for a tagging index: no tombstones, the check succeeds on every layout. -/
theorem C53_tagging {L : Layout} {pq : PQ R} {lb : LB R K} {lwm hwm sf : Nat} {d0 d : Index R}
    {ops : List (Index.Op R)} {bs : List Bool} (hnew : Index.new L true (sortedImpl pq lb) lwm hwm sf = .ok d0)
    (hlwm : 1 ≤ lwm) (hrun : d0.run ops = .ok (d, bs)) : d.validate = true := by
  have h0 := C15_tagging hnew hlwm hrun
  unfold Index.validate Struct.validate
  rw [validateFrom_iff]
  intro i l hl
  have : l.tombstoneCount = 0 := by
    unfold Index.tombstoneCount Struct.tombstoneCount at h0
    have h1 := le_sum_of_mem (List.mem_map.mpr ⟨l, mem_of_getElem? hl, rfl⟩ : l.tombstoneCount ∈ d.str.levels.map Level.tombstoneCount)
    omega
  omega

end

/-- `n` erases of records never inserted. -/
def delSeq : Nat → Nat → List (Index.Op Rec)
  | _, 0 => []
  | n, k+1 => .del ⟨n, n⟩ :: delSeq (n+1) k

/-- C53 is false under leveling with tombstone deletes. -/
theorem C53_false : ∃ (d0 d : Index Rec) (bs : List Bool), mk .leveling false 1 2 2 = .ok d0 ∧
    d0.run (delSeq 0 23) = .ok (d, bs) ∧ d.validate = false := by
  have h : probe .leveling false 1 2 2 (delSeq 0 23) (fun p => .ok p.1.validate) = .ok false := by decide
  obtain ⟨d0, d, bs, h1, h2, h3⟩ := probe_ok h
  exact ⟨d0, d, bs, h1, h2, Except.ok.inj h3⟩

end DE
