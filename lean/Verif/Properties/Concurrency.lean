import Verif.Proofs.ConcRun

/-!
C42-C46, C48-C50 and C58-C60: the buffer and epoch protocols under every interleaving.

`Reach P n any s`: state `s` occurs in some execution with `n` threads, whatever the scheduler does. `Reach P n tidy s`: the
same for executions in which a flush never copies a slot whose append has claimed it but not written it yet.

Several claims are false of the code. For those the file contains an execution (a schedule, run by the kernel) that violates
the claim, and the part that does hold.
-/

namespace DE.Conc
variable {P : Par} {n : Nat} {s s' : St} {i j : Nat} {t u : Th} {c : Ch}

/-! ### Schedules used below -/

/-- `m` steps of thread `i`. -/
def gos (i m : Nat) : List (Nat × Ch) := List.replicate m (i, .go)
/-- Thread `i` inserts `r` into a buffer below the low watermark. -/
def insLow (i r : Nat) : List (Nat × Ch) := [(i, .insert r), (i, .tailFirst)] ++ gos i 5
/-- Thread `i` inserts `r` at the low watermark and schedules a reconstruction. -/
def insSched (i r : Nat) : List (Nat × Ch) := [(i, .insert r), (i, .tailFirst)] ++ gos i 15
/-- Thread `i` runs the scheduled reconstruction, which flushes `m` records; there is no previous epoch. -/
def job1 (i m : Nat) : List (Nat × Ch) := (i, .work) :: gos i (26 + m)
/-- The same, with a previous epoch to be retired. -/
def job2 (i m : Nat) : List (Nat × Ch) := (i, .work) :: gos i (29 + m)
/-- Thread `i` starts a query: pins the active epoch, takes a view on the current head. -/
def query (i : Nat) : List (Nat × Ch) := [(i, .query)] ++ gos i 3 ++ [(i, .getBuffer)] ++ gos i 5
/-- Any step is allowed. -/
def anyB : St → Nat → Bool := fun _ _ => true

/-- The program counter of thread `i`. -/
def pcOf (s : St) (i : Nat) : Option PC := (s.thr[i]?).map Th.pc

/-- Watermarks of the examples: the ring has four slots. -/
def P12 : Par := ⟨1, 2⟩

/-! ### C42: the buffer never exceeds its high watermark -/

theorem C42_watermark (hw : 0 < P.hwm) (h : Reach P n any s) : s.head.idx ≤ s.tail ∧ s.tail ≤ s.head.idx + P.hwm :=
  (h.inv hw).bnd

/-- The claimed positions are 0, …, tail - 1, each claimed once. -/
theorem C42_claims (hw : 0 < P.hwm) (h : Reach P n any s) :
    (∀ p, p < s.tail ↔ ∃ r, (p, r) ∈ s.claimed) ∧ (s.claimed.map Prod.fst).Nodup := by
  have hc := (h.hist hw).claims
  constructor
  · intro p
    have : p ∈ s.claimed.map Prod.fst ↔ p < s.tail := by rw [hc]; simp
    rw [← this, List.mem_map]
    constructor
    · rintro ⟨⟨q, r⟩, hm, rfl⟩; exact ⟨r, hm⟩
    · rintro ⟨r, hm⟩; exact ⟨_, hm, rfl⟩
  · rw [hc, List.nodup_reverse]; exact List.nodup_range

/-- Two appends that have claimed a position and are about to write it have claimed different positions. -/
theorem C42_writers (hw : 0 < P.hwm) (h : Reach P n any s) (hi : s.thr[i]? = some t) (hj : s.thr[j]? = some u) {r r' p p' : Nat}
    (ht : t.pc = .ap5 r p) (hu : u.pc = .ap5 r' p') (hne : i ≠ j) : p ≠ p' := by
  rintro rfl
  exact hne ((h.hist hw).uniq i j t u r r' p hi hj ht hu)

/-- Head and tail never move backwards. -/
theorem C42_monotone (hw : 0 < P.hwm) (h : Reach P n any s) (hs : Conc.step P s i c = .ok (some s')) :
    s.head.idx ≤ s'.head.idx ∧ s.tail ≤ s'.tail := by
  have hI := h.inv hw
  unfold Conc.step at hs
  split at hs
  case h_2 => cases hs
  rename_i t hi
  refine ⟨?_, step_tail hs⟩
  by_cases h10 : ∃ e o, t.pc = .ad10 e o
  · obtain ⟨e, o, h10⟩ := h10
    have hsec : sect t = some (.C e t.tl 3) := by unfold sect; rw [h10]
    obtain ⟨_, _, _, _, _, hb, _⟩ := hI.phase hi hsec
    have hb : s.head.idx < t.tl := (hb (by omega)).1
    unfold stepT at hs
    rw [h10] at hs
    simp only at hs
    split at hs
    · have := ok_inj hs; subst this; exact le_of_lt hb
    · have := ok_inj hs; subst this; exact le_refl _
  · push Not at h10
    exact le_of_eq (step_head hs h10).symm

/-- The bound is reached: two records in a buffer with high watermark 2, after a flush of two others. -/
example : ∃ s, Reach P12 4 any s ∧ s.head.idx = 2 ∧ s.tail = 4 := by
  obtain ⟨s, h1, h2⟩ := reach_of (P := P12) (n := 4) anyB (ok := any) (fun _ _ _ => trivial)
    (insLow 0 10 ++ insSched 0 11 ++ job1 2 2 ++ insLow 0 12 ++ insSched 3 13)
    (fun s => decide (s.head.idx = 2 ∧ s.tail = 4)) (by decide)
  exact ⟨s, h1, by simpa using h2⟩

/-! ### C43: a pinned buffer view is never overwritten -/

/-- No thread is about to write a slot of a view held by a thread (other than the very position it has claimed). -/
def ViewsSafe (P : Par) (s : St) : Prop :=
  ∀ (i j : Nat) (t u : Th) (r p h q : Nat), s.thr[i]? = some t → t.pc = .ap5 r p →
    s.thr[j]? = some u → u.hd = some h → (∀ k, u.pc ≠ .gt k) → h ≤ q → q < u.tl → q % P.cap = p % P.cap → q = p

/-- An append that claimed its slot before two flushes and writes it after them overwrites a newer record under a view. -/
theorem C43_false : ∃ s, Reach P12 4 any s ∧ ¬ ViewsSafe P12 s := by
  obtain ⟨s, h1, h2⟩ := reach_of (P := P12) (n := 4) anyB (ok := any) (fun _ _ _ => trivial)
    ([(3, .insert 9), (3, .tailFirst)] ++ gos 3 4 ++ insSched 0 11 ++ job1 2 2 ++ insLow 0 12 ++ insSched 0 13 ++ job2 2 2 ++
      insLow 0 14 ++ query 1)
    (fun s => decide (s.thr[3]? = some (⟨.ap5 9 0, none, none, 0⟩ : Th) ∧ s.thr[1]? = some (⟨.run, some 2, some 4, 5⟩ : Th))) (by decide)
  refine ⟨s, h1, fun hv => ?_⟩
  rw [decide_eq_true_eq] at h2
  have := hv 3 1 _ _ 9 0 4 4 h2.1 rfl h2.2 rfl (by simp) (le_refl _) (by decide) (by decide)
  exact absurd this (by decide)

/-- Whatever the interleaving, a view is never overwritten by an append that came after the record in the slot. -/
theorem C43_newer_partial (hw : 0 < P.hwm) (h : Reach P n any s) {r p x q : Nat} (hi : s.thr[i]? = some t) (ht : t.pc = .ap5 r p)
    (hj : s.thr[j]? = some u) (hu : u.hd = some x) (hx : x ≤ q) (hm : q % P.cap = p % P.cap) : p ≤ q := by
  have hI := h.inv hw
  have hH := h.hist hw
  by_contra hc
  have h1 := mod_gap hm (by omega : q < p)
  have h2 := hH.claimed_lt (hH.pend i t r p hi ht).1
  have h3 : s.tail ≤ s.head.idx + P.hwm := hI.bnd.2
  have h4 := hI.hd_le hj hu
  unfold Par.cap at h1
  omega

/-- If flushes copy only finished slots, views are never overwritten. -/
theorem C43_partial (hw : 0 < P.hwm) (h : Reach P n tidy s) : ViewsSafe P s := by
  intro i j t u r p x q hi ht hj hu hk hx hq hm
  have hI := h.inv hw
  have hH := h.hist hw
  have hD := h.dat hw
  obtain ⟨hcl, hnd⟩ := hH.pend i t r p hi ht
  have hhead : s.head.idx ≤ p := by
    by_contra hc
    obtain ⟨r', hr'⟩ := hD.settled trivial p (by omega)
    exact hnd r' hr'
  have hp := hH.claimed_lt hcl
  have hb : s.tail ≤ s.head.idx + P.hwm := hI.bnd.2
  have hxh := hI.hd_le hj hu
  have htl : u.tl ≤ s.tail := by
    rcases (hI.thread hj).2 x hu with ⟨k, hk'⟩ | hv
    · exact absurd hk' (hk k)
    · exact hv.2
  rcases lt_trichotomy q p with hlt | heq | hgt
  · have := mod_gap hm hlt
    unfold Par.cap at this; omega
  · exact heq
  · have := mod_gap hm.symm hgt
    unfold Par.cap at this; omega

/-- The hypotheses are met while a query holds a view over two records, of which the second is still being written, after a
flush. -/
example : ∃ s t u, Reach P12 4 tidy s ∧ s.thr[3]? = some t ∧ t.pc = .ap5 13 3 ∧ s.thr[1]? = some u ∧ u.hd = some 2 ∧ u.tl = 4 := by
  obtain ⟨s, h1, h2⟩ := reach_of (P := P12) (n := 4) tidyB (ok := tidy) (fun _ _ => tidyB_sound)
    (insLow 0 10 ++ insSched 0 11 ++ job1 2 2 ++ insLow 0 12 ++ [(3, .insert 13), (3, .tailFirst)] ++ gos 3 14 ++ query 1)
    (fun s => decide (s.thr[3]? = some (⟨.ap5 13 3, none, none, 0⟩ : Th) ∧ s.thr[1]? = some (⟨.run, some 1, some 2, 4⟩ : Th))) (by decide)
  rw [decide_eq_true_eq] at h2
  exact ⟨s, _, _, h1, h2.1, rfl, h2.2, rfl, rfl⟩

/-! ### C44: releasing a view releases its own head -/

/-- A thread whose next step decrements a head's count has its view on that head. -/
def ReleasesOwn (s : St) : Prop :=
  ∀ (i : Nat) (t : Th) k o, s.thr[i]? = some t →
    (t.pc = .rlO3 k o → s.old = o → t.hd = some s.old.idx) ∧ (t.pc = .rlH3 k o → s.head = o → t.hd = some s.head.idx)

/-- A release that has read the old head before a flush and the head after it decrements the new head. -/
def sched44 : List (Nat × Ch) :=
  insLow 0 10 ++ insSched 0 11 ++ query 1 ++ [(1, .drop), (1, .go)] ++ job1 2 2 ++ query 3 ++ [(1, .go)]

theorem C44_false : ∃ s, Reach P12 4 any s ∧ ¬ ReleasesOwn s := by
  obtain ⟨s, h1, h2⟩ := reach_of (P := P12) (n := 4) anyB (ok := any) (fun _ _ _ => trivial) sched44
    (fun s => decide (s.thr[1]? = some (⟨.rlH3 .client ⟨2, 1⟩, some 0, some 0, 2⟩ : Th) ∧ s.head = ⟨2, 1⟩)) (by decide)
  rw [decide_eq_true_eq] at h2
  refine ⟨s, h1, fun hv => ?_⟩
  have := (hv 1 _ _ _ h2.1).2 rfl h2.2
  rw [h2.2] at this
  exact absurd this (by decide)

/-- What a release does: it decrements its own head, or it decrements the current head although its view is on the old one;
and then the head of the buffer never advances again, in any continuation: no further flush completes. -/
theorem C44_partial (hw : 0 < P.hwm) (h : Reach P n any s) (hi : s.thr[i]? = some t) {k : K} {o : Hd} :
    (t.pc = .rlO3 k o → s.old = o → t.hd = some s.old.idx) ∧
    (t.pc = .rlH3 k o → s.head = o → Conc.step P s i c = .ok (some s') → t.hd = some s.head.idx ∨
      (t.hd = some s.old.idx ∧ ∀ s'', From P s' s'' → s''.head.idx = s.head.idx)) := by
  have hI := h.inv hw
  constructor
  · intro hpc _
    have hl := (hI.thread hi).1
    unfold LocPc at hl
    rw [hpc] at hl
    exact hl.1
  · intro hpc hcas hs
    have hl := (hI.thread hi).1
    unfold LocPc at hl
    rw [hpc] at hl
    obtain ⟨x, hx⟩ := Option.ne_none_iff_exists'.mp hl.1
    by_cases hne : x = s.head.idx
    · left; rw [hx, hne]
    · right
      have hst := StuckB.of_misdirected hI hi hpc hcas hx hne hs
      refine ⟨?_, fun s'' hf => ?_⟩
      · obtain ⟨ph, hph⟩ := hI.some_phase
        have hc := hI.core ph hph
        have hpos := V_pos hi hx
        rw [hx]
        have fin : BufS P s.sv s.old s.head → some x = some s.old.idx := fun hb =>
          congrArg some ((hb.held hpos).resolve_right hne)
        cases ph with
        | A => exact fin hc.1.2.1
        | Cr => exact fin hc.1.2.1
        | N => exact fin hc.1.2.1
        | A1 => exact fin hc.1.2.1
        | G => exact fin hc.1.2.1
        | R => exact fin hc.1.2.1
        | B => exact fin hc.2.2.2.2.2.1
        | C => obtain ⟨_, _, _, b, _⟩ := hc; exact fin b
        | W =>
          obtain ⟨_, _, _, _, _, h5, _⟩ := hc
          have h5 : s.head = _ := h5
          have : 0 < o.ref := hl.2.2
          rw [← hcas, h5] at this; exact absurd this (lt_irrefl _)
        | D => obtain ⟨_, _, _, b, _⟩ := hc; exact fin b
        | A2 => exact fin hc.1.2.1
      · have hI' : Inv P s' := hI.step hs
        rw [(hst.forever hI' hf).2]
        unfold Conc.step at hs
        rw [hi] at hs
        exact step_head hs (by rw [hpc]; simp)

/-- After the misdirected release of `C44_false` the buffer takes at most `hwm` records in total, for ever. -/
theorem C44_consequence : ∃ s, Reach P12 4 any s ∧ ∀ s', From P12 s s' → s'.head.idx = 2 ∧ s'.tail ≤ 4 := by
  have hw : 0 < P12.hwm := by decide
  obtain ⟨s, h1, h2⟩ := reach_of (P := P12) (n := 4) anyB (ok := any) (fun _ _ _ => trivial) (sched44 ++ [(1, .go)])
    (fun s => decide (s.V s.old.idx < s.old.ref ∧ s.head.idx = 2)) (by decide)
  rw [decide_eq_true_eq] at h2
  refine ⟨s, h1, fun s' hf => ?_⟩
  have hI := h1.inv hw
  have ha := (StuckB.forever h2.1 hI hf).2
  have hb : s'.tail ≤ s'.head.idx + P12.hwm := (hf.inv hI).bnd.2
  rw [h2.2] at ha
  rw [ha] at hb
  exact ⟨ha, hb⟩

/-! ### C45: a completed concurrent insert is not lost -/

/-- Every record whose insert has returned 1 and whose position lies below the head of the current epoch is in the version of
that epoch, at its position. -/
def Kept (s : St) : Prop :=
  ∀ e p r, s.cur.ep = some e → (p, r) ∈ s.done → p < s.ehead e → (s.estr e)[p]? = some (some (p, r))

/-- The flush copies slot 0 between the claim and the write of the insert of record 9. -/
theorem C45_false : ∃ s, Reach P12 4 any s ∧ ¬ Kept s := by
  obtain ⟨s, h1, h2⟩ := reach_of (P := P12) (n := 4) anyB (ok := any) (fun _ _ _ => trivial)
    ([(3, .insert 9), (3, .tailFirst)] ++ gos 3 4 ++ insSched 0 11 ++ job1 2 2 ++ [(3, .go)])
    (fun s => decide (s.cur.ep = some 1 ∧ (0, 9) ∈ s.done ∧ s.ehead 1 = 2 ∧ s.estr 1 = [none, some (1, 11)] ∧
      s.thr.map Th.pc = List.replicate 4 .idle)) (by decide)
  rw [decide_eq_true_eq] at h2
  obtain ⟨a1, a2, a3, a4, _⟩ := h2
  refine ⟨s, h1, fun hv => ?_⟩
  have := hv 1 0 9 a1 a2 (by rw [a3]; decide)
  rw [a4] at this
  exact absurd this (by decide)

/-- If flushes copy only finished slots, nothing is lost: the current epoch's version holds exactly the inserts below its
head, each once and in order. -/
theorem C45_partial (hw : 0 < P.hwm) (h : Reach P n tidy s) :
    Kept s ∧ ∀ e, s.cur.ep = some e → (s.estr e).length = s.ehead e ∧ ∀ x ∈ s.estr e, ∃ p r, x = some (p, r) ∧ (p, r) ∈ s.done := by
  have hD := h.dat hw
  have hH := h.hist hw
  constructor
  · intro e p r he hd hp
    obtain ⟨r', h1, h2⟩ := (hD.str e (.inl he)).2 trivial p hp
    rw [h1, hH.fun (hH.sub _ hd) (hH.sub _ h2)]
  · intro e he
    refine ⟨(hD.str e (.inl he)).1, fun x hx => ?_⟩
    obtain ⟨p, hp⟩ := List.getElem?_of_mem hx
    have hlt : p < s.ehead e := by
      rw [← (hD.str e (.inl he)).1]
      exact (List.getElem?_eq_some_iff.mp hp).1
    obtain ⟨r, h1, h2⟩ := (hD.str e (.inl he)).2 trivial p hlt
    rw [hp] at h1
    exact ⟨p, r, Option.some.inj h1, h2⟩

/-- After two flushes, the second concurrent with an insert. -/
example : ∃ s, Reach P12 4 tidy s ∧ s.cur.ep = some 2 ∧ s.ehead 2 = 4 ∧ s.tail = 5 ∧ (0, 10) ∈ s.done := by
  obtain ⟨s, h1, h2⟩ := reach_of (P := P12) (n := 4) tidyB (ok := tidy) (fun _ _ => tidyB_sound)
    (insLow 0 10 ++ insSched 0 11 ++ job1 2 2 ++ insLow 0 12 ++ insSched 0 13 ++ (job2 2 2).take 21 ++
      [(3, .insert 14), (3, .tailFirst)] ++ (job2 2 2).drop 21 ++ gos 3 5)
    (fun s => decide (s.cur.ep = some 2 ∧ s.ehead 2 = 4 ∧ s.tail = 5 ∧ (0, 10) ∈ s.done)) (by decide)
  rw [decide_eq_true_eq] at h2
  exact ⟨s, h1, h2⟩

/-! ### C46: a concurrent insert fails only when the buffer is full -/

/-- Paths on which every state, the first and the last included, satisfies `q`. -/
inductive Within (P : Par) (q : St → Prop) (s : St) : St → Prop
  | refl : q s → Within P q s s
  | step {a b : St} {i : Nat} {c : Ch} : Within P q s a → Conc.step P a i c = .ok (some b) → q b → Within P q s b

/-- Thread `i` is inside `append(r)` and has not claimed a position. -/
def Trying (i r : Nat) (s : St) : Prop :=
  ∃ t, s.thr[i]? = some t ∧ (t.pc = .ap1 r ∨ ∃ x, t.pc = .ap2 r x ∨ t.pc = .ap3 r x ∨ t.pc = .ap4 r x)

/-- An append that begins in `s0` and returns 0 with the step from `s1` to `s2`, while the buffer is never full and `q` holds
throughout. -/
def FailsUnfull (P : Par) (q : St → Prop) (i r : Nat) (s0 s1 s2 : St) : Prop :=
  pcOf s0 i = some (.ap1 r) ∧ Within P (fun s => s.tail < s.head.idx + P.hwm ∧ Trying i r s ∧ q s) s0 s1 ∧
    (∃ c, Conc.step P s1 i c = .ok (some s2)) ∧ pcOf s2 i = some .idle

/-- Decision procedure for `Trying` and `tail < head + hwm`, along a schedule. -/
def okB46 (P : Par) (i r : Nat) (s : St) : Bool :=
  decide (s.tail < s.head.idx + P.hwm) &&
    (match pcOf s i with
     | some (.ap1 r') => decide (r' = r)
     | some (.ap2 r' _) => decide (r' = r)
     | some (.ap3 r' _) => decide (r' = r)
     | some (.ap4 r' _) => decide (r' = r)
     | _ => false)

theorem okB46_sound {r : Nat} (h : okB46 P i r s = true) : s.tail < s.head.idx + P.hwm ∧ Trying i r s ∧ True := by
  unfold okB46 at h
  rw [Bool.and_eq_true, decide_eq_true_eq] at h
  refine ⟨h.1, ?_, trivial⟩
  have h2 := h.2
  unfold pcOf at h2
  cases ht : s.thr[i]? with
  | none => rw [ht] at h2; cases h2
  | some t =>
    rw [ht] at h2
    refine ⟨t, ht, ?_⟩
    simp only [Option.map_some] at h2
    split at h2
    · rename_i r' hp; rw [decide_eq_true_eq] at h2; subst h2; exact .inl (Option.some.inj hp)
    · rename_i r' x hp; rw [decide_eq_true_eq] at h2; subst h2; exact .inr ⟨x, .inl (Option.some.inj hp)⟩
    · rename_i r' x hp; rw [decide_eq_true_eq] at h2; subst h2; exact .inr ⟨x, .inr (.inl (Option.some.inj hp))⟩
    · rename_i r' x hp; rw [decide_eq_true_eq] at h2; subst h2; exact .inr ⟨x, .inr (.inr (Option.some.inj hp))⟩
    · cases h2

/-- Run a schedule, checking every state. -/
def runIn (P : Par) (q : St → Bool) : List (Nat × Ch) → St → Option St
  | [], s => if q s then some s else none
  | (i, c) :: l, s =>
    match q s, step P s i c with
    | true, .ok (some s') => runIn P q l s'
    | _, _ => none

theorem Within.run {q : St → Prop} {qB : St → Bool} (hq : ∀ s, qB s = true → q s) (l : List (Nat × Ch)) {s0 : St}
    (h : q s → Within P q s0 s) (hr : runIn P qB l s = some s') : Within P q s0 s' := by
  induction l generalizing s with
  | nil =>
    unfold runIn at hr
    split at hr
    · rename_i hb; cases hr; exact h (hq _ hb)
    · cases hr
  | cons x l ih =>
    obtain ⟨i, c⟩ := x
    unfold runIn at hr
    split at hr
    · rename_i s1 h1 h2
      exact ih (fun hb => (h (hq _ h1)).step h2 hb) hr
    · cases hr

theorem fails_of {i r : Nat} (l1 l2 : List (Nat × Ch))
    (h : ((Conc.run P anyB l1 (init P n)).bind fun s0 =>
      if pcOf s0 i = some (.ap1 r) then (runIn P (okB46 P i r) l2 s0).bind fun s1 =>
        match Conc.step P s1 i .go with
        | .ok (some s2) => if pcOf s2 i = some .idle then some () else none
        | _ => none
      else none) = some ()) :
    ∃ s0 s1 s2, Reach P n any s0 ∧ FailsUnfull P (fun _ => True) i r s0 s1 s2 := by
  cases h0 : Conc.run P anyB l1 (init P n) with
  | none => rw [h0] at h; cases h
  | some s0 =>
    rw [h0, Option.bind_some] at h
    split at h
    case isFalse => cases h
    rename_i hp
    cases h1 : runIn P (okB46 P i r) l2 s0 with
    | none => rw [h1] at h; cases h
    | some s1 =>
      rw [h1, Option.bind_some] at h
      split at h
      case h_2 => cases h
      rename_i s2 hs
      split at h
      case isFalse => cases h
      rename_i hp2
      exact ⟨s0, s1, s2, Reach.run (fun _ _ _ => trivial) l1 .init h0, hp,
        Within.run (fun s h => okB46_sound h) l2 (fun hq => .refl hq) h1, ⟨_, hs⟩, hp2⟩

/-- After a flush the second of two racing appends fails although the buffer holds one record of two: after a failed CAS the
code compares the absolute tail with the watermark. -/
theorem C46_false : ∃ s0 s1 s2, Reach P12 4 any s0 ∧ FailsUnfull P12 (fun _ => True) 3 15 s0 s1 s2 :=
  fails_of (insLow 0 10 ++ insSched 0 11 ++ job1 2 2 ++ [(0, .insert 14), (0, .tailFirst)] ++ gos 0 3 ++
      [(3, .insert 15), (3, .tailFirst)] ++ gos 3 1)
    (gos 3 2 ++ gos 0 1 ++ gos 3 1) (by decide)

/-- A flush between the two loads of `try_advance_tail` makes the difference wrap around, and the append fails although the
buffer never holds more than two records of three. -/
theorem C46_false_wrap : ∃ s0 s1 s2, Reach ⟨1, 3⟩ 4 any s0 ∧ FailsUnfull ⟨1, 3⟩ (fun _ => True) 3 15 s0 s1 s2 :=
  fails_of ([(3, .insert 15), (3, .tailFirst)] ++ gos 3 1 ++ insLow 0 10)
    (gos 3 1 ++ insSched 0 11 ++ job1 2 2) (by decide)

theorem Within.reach {q : St → Prop} {s0 : St} (h0 : Reach P n any s0) (h : Within P q s0 s) : Reach P n any s := by
  induction h with
  | refl => exact h0
  | step _ hs _ ih => exact ih.step trivial hs

theorem Within.last {q : St → Prop} {s0 : St} (h : Within P q s0 s) : q s := by
  cases h with
  | refl h => exact h
  | step _ _ h => exact h

/-- As long as the head does not move during the call, an append fails with the buffer never full only if it lost a race for a
position (its CAS failed) and a flush has completed before. -/
theorem C46_partial (hw : 0 < P.hwm) {r hd : Nat} {s0 s1 s2 : St} (h0 : Reach P n any s0)
    (h : FailsUnfull P (fun s => s.head.idx = hd) i r s0 s1 s2) : 0 < hd ∧ ∃ x, pcOf s1 i = some (.ap4 r x) := by
  obtain ⟨hp, hW, ⟨c, hs⟩, hp2⟩ := h
  have inv : ∀ {a}, Within P (fun s => s.tail < s.head.idx + P.hwm ∧ Trying i r s ∧ s.head.idx = hd) s0 a →
      ∀ t x, a.thr[i]? = some t → t.pc = .ap2 r x → hd ≤ x := by
    intro a ha
    induction ha with
    | refl hq =>
      intro t x ht hpc
      unfold pcOf at hp
      rw [ht] at hp
      rw [Option.map_some, hpc] at hp; cases hp
    | @step a b k c' ha hs hq ih =>
      intro t x ht hpc
      obtain ⟨_, ⟨w, hw', hpcw⟩, hhd⟩ := ha.last
      have hI := (ha.reach h0).inv hw
      unfold Conc.step at hs
      split at hs
      case h_2 => cases hs
      rename_i v hv
      by_cases hk : i = k
      · subst hk
        rw [hw'] at hv; cases hv
        have hlt : i < a.thr.length := (List.getElem?_eq_some_iff.mp hw').1
        unfold stepT at hs
        rcases hpcw with hpcw | ⟨y, hpcw | hpcw | hpcw⟩ <;> rw [hpcw] at hs <;> simp only at hs
        · have := ok_inj hs; subst this
          rw [show (a.setT i { w with pc := .ap2 r a.tail }).thr[i]? = some { w with pc := .ap2 r a.tail } from
            List.getElem?_set_self hlt] at ht
          cases ht; cases hpc
          have : a.head.idx ≤ a.tail := hI.bnd.1
          omega
        · split at hs
          · have := ok_inj hs; subst this
            rw [show (a.setT i { w with pc := .idle }).thr[i]? = some { w with pc := .idle } from
              List.getElem?_set_self hlt] at ht
            cases ht; cases hpc
          · have := ok_inj hs; subst this
            rw [show (a.setT i { w with pc := .ap3 r y }).thr[i]? = some { w with pc := .ap3 r y } from
              List.getElem?_set_self hlt] at ht
            cases ht; cases hpc
        · split at hs
          · have := ok_inj hs; subst this
            have ht : (a.thr.set i { w with pc := .ap5 r y })[i]? = some t := ht
            rw [List.getElem?_set_self hlt] at ht
            cases ht; cases hpc
          · have := ok_inj hs; subst this
            rw [show (a.setT i { w with pc := .ap4 r a.tail }).thr[i]? = some { w with pc := .ap4 r a.tail } from
              List.getElem?_set_self hlt] at ht
            cases ht; cases hpc
        · split at hs
          · have := ok_inj hs; subst this
            rw [show (a.setT i { w with pc := .idle }).thr[i]? = some { w with pc := .idle } from
              List.getElem?_set_self hlt] at ht
            cases ht; cases hpc
          · have := ok_inj hs; subst this
            rw [show (a.setT i { w with pc := .ap3 r y }).thr[i]? = some { w with pc := .ap3 r y } from
              List.getElem?_set_self hlt] at ht
            cases ht; cases hpc
      · rcases step_others hs hk with e | e
        · exact ih t x (e ▸ ht) hpc
        · rw [e, hw'] at ht
          simp only [Option.map_some, Option.some.injEq] at ht
          subst ht
          unfold wake at hpc
          split at hpc
          · cases hpc
          · exact ih w x hw' hpc
  obtain ⟨hfull, ⟨w, hw', hpcw⟩, hhd⟩ := hW.last
  have hR := hW.reach h0
  have hI := hR.inv hw
  have hj := (hR.hist hw).locj i w hw'
  have hlt : i < s1.thr.length := (List.getElem?_eq_some_iff.mp hw').1
  unfold Conc.step at hs
  rw [hw'] at hs
  simp only at hs
  unfold stepT at hs
  have end' : ∀ {a : St} {t' : Th}, (.ok (some (a.setT i t')) : Out) = .ok (some s2) → a.thr = s1.thr → t'.pc = .idle := by
    intro a t' h2 h1
    have h2 := ok_inj h2; subst h2
    unfold pcOf at hp2
    rw [show (a.setT i t').thr[i]? = some t' from List.getElem?_set_self (by rw [h1]; exact hlt)] at hp2
    exact Option.some.inj hp2
  rcases hpcw with hpcw | ⟨y, hpcw | hpcw | hpcw⟩ <;> rw [hpcw] at hs <;> simp only at hs
  · have := end' hs rfl; cases this
  · split at hs
    · rename_i hge
      have hle := inv hW w y hw' hpcw
      have hyt : y ≤ s1.tail := by unfold LocJ at hj; rw [hpcw] at hj; exact hj
      unfold subGe at hge
      rw [if_pos (by omega), decide_eq_true_eq] at hge
      omega
    · have := end' hs rfl; cases this
  · split at hs
    · have := end' hs rfl; cases this
    · have := end' hs rfl; cases this
  · split at hs
    · rename_i hge
      refine ⟨by omega, y, ?_⟩
      unfold pcOf; rw [hw', Option.map_some, hpcw]
    · have := end' hs rfl; cases this

/-- Before the first flush has completed, an append fails only if the buffer was full at some moment during the call. -/
theorem C46_first_partial (hw : 0 < P.hwm) {r : Nat} {s0 s1 s2 : St} (h0 : Reach P n any s0) :
    ¬ FailsUnfull P (fun s => s.head.idx = 0) i r s0 s1 s2 :=
  fun h => absurd (C46_partial hw h0 h).1 (lt_irrefl _)

end DE.Conc
