import Verif.Model.Torn
import Verif.Proofs.Buffer
import Verif.Properties.Concurrency

/-!
The invariant of the word-by-word slot accesses.
-/

namespace DE.Torn
open Conc
variable {D : Nat} {P : Par} {M : Code D} {n : Nat} {F F' : FSt D} {i j : Nat}

/-- What the slot of a finished append holds. -/
def enc (P : Par) (M : Code D) (r p : Nat) : Cell D := ((M.wrec r).setTimestamp (p % P.cap)).setVisible

/-- The words of a slot of `Conc.lean`. -/
def encSlot (P : Par) (M : Code D) : Slot → Cell D
  | none => zero D
  | some (p, r) => enc P M r p

/-- Two slots agree on a part. -/
def Agree (a : Part D) (x y : Cell D) : Prop :=
  match a with
  | none => x.header = y.header
  | some k => x.record k = y.record k

theorem Agree.refl (a : Part D) (x : Cell D) : Agree a x x := by cases a <;> exact rfl

theorem Agree.trans {a : Part D} {x y z : Cell D} (h : Agree a x y) (g : Agree a y z) : Agree a x z := by
  cases a <;> exact Eq.trans h g

theorem agree_put_self (a : Part D) (x y : Cell D) : Agree a (x.put a y) y := by
  cases a
  · exact rfl
  · show (if _ = _ then _ else _) = _
    rw [if_pos rfl]

theorem agree_put_ne {a b : Part D} (h : b ≠ a) (x y : Cell D) : Agree b (x.put a y) x := by
  cases a <;> cases b
  · exact absurd rfl h
  · exact rfl
  · exact rfl
  · show (if _ = _ then _ else _) = _
    rw [if_neg (fun e => h (congrArg some e))]

theorem agree_all {x y : Cell D} (h : ∀ a, Agree a x y) : x = y := by
  obtain ⟨hx, rx⟩ := x
  obtain ⟨hy, ry⟩ := y
  have h1 : hx = hy := h none
  have h2 : rx = ry := funext fun k => h (some k)
  rw [h1, h2]

theorem full_mem {l : List (Part D)} (h : full l = true) (a : Part D) : a ∈ l := by
  unfold full at h
  rw [Bool.and_eq_true, decide_eq_true_eq, List.all_eq_true] at h
  cases a with
  | none => exact h.1
  | some k => exact of_decide_eq_true (h.2 k (List.mem_finRange k))

/-! ### Visibility of headers -/

theorem setTimestamp_isVisible {R : Type} (w : Wrapped R) (p : Nat) : (w.setTimestamp p).isVisible = w.isVisible := by
  simp only [Wrapped.isVisible_bit]
  simp [Wrapped.setTimestamp]

theorem wrec_isVisible (r : Nat) : (M.wrec r).isVisible = false := by
  unfold Code.wrec
  split <;> simp [Wrapped.isVisible, Wrapped.setTombstone]

theorem enc_isVisible (r p : Nat) : (enc P M r p).isVisible = true := Buffer.setVisible_isVisible _

theorem vis_header {R : Type} {x y : Wrapped R} (h : x.header = y.header) : x.isVisible = y.isVisible := by
  unfold Wrapped.isVisible
  rw [h]

/-! ### Positions and slots -/

section coarse
variable {s s' : St} {t u : Th} {r r' p p' : Nat}

theorem pend_bnd (hw : 0 < P.hwm) (h : Reach P n tidy s) (hi : s.thr[i]? = some t) (ht : t.pc = .ap5 r p) :
    s.head.idx ≤ p ∧ p < s.tail := by
  have hH := h.hist hw
  obtain ⟨hcl, hnd⟩ := hH.pend i t r p hi ht
  refine ⟨?_, hH.claimed_lt hcl⟩
  by_contra hc
  obtain ⟨r', hr'⟩ := (h.dat hw).settled trivial p (by omega)
  exact hnd r' hr'

/-- Two appends never write the same slot at the same time. -/
theorem writers (hw : 0 < P.hwm) (h : Reach P n tidy s) (hi : s.thr[i]? = some t) (ht : t.pc = .ap5 r p)
    (hj : s.thr[j]? = some u) (hu : u.pc = .ap5 r' p') (hm : p % P.cap = p' % P.cap) : i = j := by
  have h1 := pend_bnd hw h hi ht
  have h2 := pend_bnd hw h hj hu
  have hb : s.tail ≤ s.head.idx + P.hwm := (h.inv hw).bnd.2
  have hp : p = p' := by
    rcases lt_trichotomy p p' with hlt | heq | hgt
    · have := mod_gap hm hlt; unfold Par.cap at this; omega
    · exact heq
    · have := mod_gap hm.symm hgt; unfold Par.cap at this; omega
  subst hp
  exact (h.hist hw).uniq i j t u r r' p hi hj ht hu

/-- A finished position of a view: its slot holds its record, and nobody is about to write it. -/
theorem view_slot (hw : 0 < P.hwm) (h : Reach P n tidy s) (hj : s.thr[j]? = some u) {x : Nat} (hu : u.hd = some x)
    (hk : ∀ k, u.pc ≠ .gt k) (hx : x ≤ p) (hp : p < u.tl) (hd : (p, r) ∈ s.done) :
    s.mem (p % P.cap) = some (p, r) ∧
      ∀ (i : Nat) (t : Th) r' p', s.thr[i]? = some t → t.pc = .ap5 r' p' → p' % P.cap ≠ p % P.cap := by
  have hI := h.inv hw
  have hH := h.hist hw
  constructor
  · refine (h.dat hw).slot trivial hH hd ?_
    have h1 : s.tail ≤ s.head.idx + P.hwm := hI.bnd.2
    have h2 := hI.hd_le hj hu
    unfold Par.cap
    omega
  · intro i t r' p' hi ht hm
    have := C43_partial hw h i j t u r' p' x p hi ht hj hu hk hx hp hm.symm
    subst this
    exact (hH.pend i t r' p hi ht).2 r hd

/-- In the first round a slot that some append has finished belongs to that round. -/
theorem first_round (hw : 0 < P.hwm) (h : Reach P n tidy s) (hj : s.thr[j]? = some u) {x : Nat} (hu : u.hd = some x)
    (hx : x ≤ p) (hp : p < P.cap) (hm : s.mem (p % P.cap) = some (p', r)) : p' = p := by
  have hI := h.inv hw
  have hH := h.hist hw
  obtain ⟨hd, hmod⟩ := hH.memd _ p' r hm
  have hlt := hH.claimed_lt (hH.sub _ hd)
  have h1 : s.tail ≤ s.head.idx + P.hwm := hI.bnd.2
  have h2 := hI.hd_le hj hu
  rcases lt_trichotomy p' p with hlt' | heq | hgt
  · have := mod_gap hmod hlt'; omega
  · exact heq
  · have := mod_gap hmod.symm hgt; unfold Par.cap at this; omega

end coarse

/-! ### The invariant -/

/-- The words of a slot while an append is writing it. -/
def Mix (P : Par) (M : Code D) (w : Wr D) (r p : Nat) (old x : Cell D) : Prop :=
  if w.stamped then full w.put = true ∧ x = (M.wrec r).setTimestamp (p % P.cap)
  else ∀ a, Agree a x (if a ∈ w.put then M.wrec r else old)

/-- A read that began after the append of the position had finished; or a read, in the first round of the ring, that loaded
the header first and found the slot visible. -/
def Rd.good (P : Par) (d : Rd D) : Prop :=
  d.fin = true ∨ (d.pos < P.cap ∧ d.got.getLast? = some none ∧ d.val.isVisible = true)

structure FInv (P : Par) (M : Code D) (n : Nat) (F : FSt D) : Prop where
  reach : Reach P n tidy F.co
  wr0 : ∀ i : Nat, (∀ (t : Th) r p, F.co.thr[i]? = some t → t.pc ≠ .ap5 r p) → F.wr i = ⟨[], false⟩
  quiet : ∀ j : Nat, (∀ (i : Nat) (t : Th) r p, F.co.thr[i]? = some t → t.pc = .ap5 r p → p % P.cap ≠ j) →
    F.fm j = encSlot P M (F.co.mem j)
  busy : ∀ (i : Nat) (t : Th) r p, F.co.thr[i]? = some t → t.pc = .ap5 r p →
    Mix P M (F.wr i) r p (encSlot P M (F.co.mem (p % P.cap))) (F.fm (p % P.cap))
  rd : ∀ (i : Nat) d, F.rd i = some d → ∃ (t : Th) (h : Nat), F.co.thr[i]? = some t ∧ t.hd = some h ∧ h ≤ d.pos ∧ d.pos < t.tl ∧
    (t.pc = .run ∨ ∃ e acc, t.pc = .cp e d.pos acc ∧ d.fin = true) ∧
    (d.good P → ∃ r, (d.pos, r) ∈ F.co.done ∧ ∀ a ∈ d.got, Agree a d.val (enc P M r d.pos))
  seen : ∀ (i : Nat) d, d ∈ F.seen i → full d.got = true ∧ (d.good P → ∃ r, (d.pos, r) ∈ F.co.done ∧ d.val = enc P M r d.pos)
  flush : ∀ (i : Nat) (t : Th) e p acc, F.co.thr[i]? = some t → t.pc = .cp e p acc →
    (F.seen i).map (fun d => d.val) = acc.map (encSlot P M)

theorem FInv.init (P : Par) (M : Code D) (n : Nat) : FInv P M n (init D P n) := by
  have hidle : ∀ (i : Nat) (t : Th), (Conc.init P n).thr[i]? = some t → t = {} := by
    intro i t h
    have : t ∈ List.replicate n ({} : Th) := List.mem_of_getElem? h
    exact (List.mem_replicate.mp this).2
  refine ⟨.init, fun _ _ => rfl, fun _ _ => rfl, ?_, ?_, ?_, ?_⟩
  · intro i t r p h hp
    have := hidle i t h; subst this; cases hp
  · intro i d h; cases h
  · intro i d h; cases h
  · intro i t e p acc h hp
    have := hidle i t h; subst this; cases hp

/-- The writes of one thread do not move the others: change of a slot that only thread `i` writes. -/
theorem FInv.write (h : FInv P M n F) (hw : 0 < P.hwm) {t : Th} {r p : Nat} (hi : F.co.thr[i]? = some t) (ht : t.pc = .ap5 r p)
    {x : Cell D} {w : Wr D} (hx : Mix P M w r p (encSlot P M (F.co.mem (p % P.cap))) x) :
    FInv P M n { F with fm := upd F.fm (p % P.cap) x, wr := upd F.wr i w } := by
  refine ⟨h.reach, ?_, ?_, ?_, h.rd, h.seen, h.flush⟩
  · intro k hk
    show upd F.wr i w k = _
    unfold upd
    split
    · rename_i e; subst e; exact absurd ht (hk t r p hi)
    · exact h.wr0 k hk
  · intro k hk
    show upd F.fm (p % P.cap) x k = _
    unfold upd
    rw [if_neg (fun e => hk i t r p hi ht e.symm)]
    exact h.quiet k hk
  · intro k u r' p' hu hp'
    show Mix P M (upd F.wr i w k) r' p' _ (upd F.fm (p % P.cap) x (p' % P.cap))
    by_cases hk : k = i
    · subst hk
      have e1 : t = u := Option.some.inj (hi.symm.trans hu)
      subst e1
      have e2 : PC.ap5 r p = PC.ap5 r' p' := ht.symm.trans hp'
      cases e2
      unfold upd
      rw [if_pos rfl, if_pos rfl]
      exact hx
    · unfold upd
      rw [if_neg hk, if_neg (fun e => hk (writers hw h.reach hi ht hu hp' e.symm).symm)]
      exact h.busy k u r' p' hu hp'

/-- What the view of a read contains at a finished position. -/
theorem FInv.cell (h : FInv P M n F) (hw : 0 < P.hwm) {t : Th} {x p r : Nat} (hi : F.co.thr[i]? = some t) (hx : t.hd = some x)
    (hk : ∀ k, t.pc ≠ .gt k) (hle : x ≤ p) (hlt : p < t.tl) (hd : (p, r) ∈ F.co.done) : F.fm (p % P.cap) = enc P M r p := by
  obtain ⟨h1, h2⟩ := view_slot hw h.reach hi hx hk hle hlt hd
  rw [h.quiet _ h2, h1]
  rfl

/-- A slot whose header is visible has been written completely by some append. -/
theorem FInv.vis (h : FInv P M n F) {k : Nat} (hv : (F.fm k).isVisible = true) : ∃ p r, F.co.mem k = some (p, r) := by
  have key : (encSlot P M (F.co.mem k)).isVisible = true → ∃ p r, F.co.mem k = some (p, r) := by
    intro g
    cases hm : F.co.mem k with
    | none => rw [hm] at g; simp [encSlot, zero, Wrapped.isVisible] at g
    | some q => exact ⟨q.1, q.2, rfl⟩
  by_cases hq : ∀ (i : Nat) (t : Th) r p, F.co.thr[i]? = some t → t.pc = .ap5 r p → p % P.cap ≠ k
  · rw [h.quiet k hq] at hv
    exact key hv
  · push Not at hq
    obtain ⟨i, t, r, p, hi, ht, rfl⟩ := hq
    have hb := h.busy i t r p hi ht
    unfold Mix at hb
    split at hb
    · rw [hb.2, setTimestamp_isVisible, wrec_isVisible] at hv; cases hv
    · have h0 := hb none
      split at h0
      · have e : (F.fm (p % P.cap)).header = (M.wrec r).header := h0
        rw [vis_header e, wrec_isVisible] at hv; cases hv
      · exact key ((vis_header h0).symm.trans hv)

/-- A read of one more part. -/
theorem FInv.get (h : FInv P M n F) (hw : 0 < P.hwm) {d : Rd D} (hd : F.rd i = some d) {a : Part D} (ha : a ∉ d.got) :
    FInv P M n { F with rd := upd F.rd i (some { d with got := a :: d.got, val := d.val.put a (F.fm (d.pos % P.cap)) }) } := by
  refine ⟨h.reach, h.wr0, h.quiet, h.busy, ?_, h.seen, h.flush⟩
  intro k d' hk
  have hk' : upd F.rd i (some { d with got := a :: d.got, val := d.val.put a (F.fm (d.pos % P.cap)) }) k = some d' := hk
  unfold upd at hk'
  split at hk'
  · rename_i e
    subst e
    cases hk'
    obtain ⟨t, x, hi, hx, hle, hlt, hpc, hg⟩ := h.rd k d hd
    refine ⟨t, x, hi, hx, hle, hlt, hpc, ?_⟩
    have hgt : ∀ k, t.pc ≠ .gt k := by
      rcases hpc with hpc | ⟨e, acc, hpc, _⟩ <;> rw [hpc] <;> simp
    have fwd : (∃ r, (d.pos, r) ∈ F.co.done ∧ ∀ b ∈ d.got, Agree b d.val (enc P M r d.pos)) →
        ∃ r, (d.pos, r) ∈ F.co.done ∧ ∀ b ∈ a :: d.got, Agree b (d.val.put a (F.fm (d.pos % P.cap))) (enc P M r d.pos) := by
      rintro ⟨r, hr, hb⟩
      refine ⟨r, hr, fun b hb' => ?_⟩
      rcases List.mem_cons.mp hb' with rfl | hb'
      · exact (agree_put_self _ _ _).trans (h.cell hw hi hx hgt hle hlt hr ▸ Agree.refl _ _)
      · have hne : b ≠ a := fun e => ha (e ▸ hb')
        exact (agree_put_ne hne _ _).trans (hb b hb')
    rintro (hf | ⟨hp, hl, hv⟩)
    · exact fwd (hg (.inl hf))
    · by_cases hemp : d.got = []
      · have hl' : (a :: d.got).getLast? = some none := hl
        rw [hemp] at hl'
        have ha0 : a = none := by simpa using hl'
        subst ha0
        have hv' : (F.fm (d.pos % P.cap)).isVisible = true := hv
        obtain ⟨p', r, hm⟩ := h.vis hv'
        have := first_round hw h.reach hi hx hle hp hm
        subst this
        refine fwd ⟨r, ((h.reach.hist hw).memd _ _ _ hm).1, fun b hb => ?_⟩
        rw [hemp] at hb; cases hb
      · have hl' : (a :: d.got).getLast? = some none := hl
        have hl2 : d.got.getLast? = some none := by
          obtain ⟨y, l, e⟩ := List.exists_cons_of_ne_nil hemp
          rw [e] at hl' ⊢
          simpa [List.getLast?_cons_cons] using hl'
        have hmem : (none : Part D) ∈ d.got := List.mem_of_getLast? hl2
        refine fwd (hg (.inr ⟨hp, hl2, ?_⟩))
        have hne : (none : Part D) ≠ a := fun e => ha (e ▸ hmem)
        rw [← vis_header (agree_put_ne hne d.val (F.fm (d.pos % P.cap)))]
        exact hv
  · exact h.rd k d' hk'

/-- The start of a read. -/
theorem FInv.look (h : FInv P M n F) {t : Th} {x p : Nat} {b : Bool} (hi : F.co.thr[i]? = some t) (hx : t.hd = some x)
    (hle : x ≤ p) (hlt : p < t.tl) (hpc : t.pc = .run ∨ ∃ e acc, t.pc = .cp e p acc ∧ b = true)
    (hb : b = true → ∃ r, (p, r) ∈ F.co.done) : FInv P M n { F with rd := upd F.rd i (some ⟨p, b, [], zero D⟩) } := by
  refine ⟨h.reach, h.wr0, h.quiet, h.busy, ?_, h.seen, h.flush⟩
  intro k d hk
  have hk' : upd F.rd i (some ⟨p, b, [], zero D⟩) k = some d := hk
  unfold upd at hk'
  split at hk'
  · rename_i e
    subst e
    cases hk'
    refine ⟨t, x, hi, hx, hle, hlt, hpc, ?_⟩
    rintro (hf | ⟨_, hl, _⟩)
    · obtain ⟨r, hr⟩ := hb hf
      exact ⟨r, hr, fun a ha => by cases ha⟩
    · cases hl
  · exact h.rd k d hk'

/-- A complete read. -/
theorem FInv.whole (h : FInv P M n F) {d : Rd D} (hd : F.rd i = some d) (hf : full d.got = true) (hg : d.good P) :
    ∃ r, (d.pos, r) ∈ F.co.done ∧ d.val = enc P M r d.pos := by
  obtain ⟨t, x, _, _, _, _, _, g⟩ := h.rd i d hd
  obtain ⟨r, hr, ha⟩ := g hg
  exact ⟨r, hr, agree_all fun a => ha a (full_mem hf a)⟩

/-- The end of the read of a query. -/
theorem FInv.done (h : FInv P M n F) {t : Th} {d : Rd D} (hi : F.co.thr[i]? = some t) (hpc : t.pc = .run) (hd : F.rd i = some d)
    (hf : full d.got = true) : FInv P M n { F with rd := upd F.rd i none, seen := upd F.seen i (F.seen i ++ [d]) } := by
  refine ⟨h.reach, h.wr0, h.quiet, h.busy, ?_, ?_, ?_⟩
  · intro k d' hk
    have hk' : upd F.rd i none k = some d' := hk
    unfold upd at hk'
    split at hk'
    · cases hk'
    · exact h.rd k d' hk'
  · intro k d' hk
    have hk' : d' ∈ upd F.seen i (F.seen i ++ [d]) k := hk
    unfold upd at hk'
    split at hk'
    · rename_i e
      subst e
      rcases List.mem_append.mp hk' with hk' | hk'
      · exact h.seen _ d' hk'
      · rw [List.mem_singleton.mp hk']
        exact ⟨hf, h.whole hd hf⟩
    · exact h.seen k d' hk'
  · intro k u e p acc hu hp
    show ((upd F.seen i (F.seen i ++ [d])) k).map _ = _
    unfold upd
    split
    · rename_i e'
      subst e'
      have : t = u := Option.some.inj (hi.symm.trans hu)
      subst this
      rw [hpc] at hp; cases hp
    · exact h.flush k u e p acc hu hp

/-! ### The steps of `Conc.lean` -/

/-- The program counter is neither at the write of a slot nor in the loop of the flush. -/
def plain (pc : PC) : Prop := (∀ r p, pc ≠ .ap5 r p) ∧ ∀ e p acc, pc ≠ .cp e p acc

theorem plain_gaRet (k : K) : plain (gaRet k) := by cases k <;> simp [plain, gaRet]
theorem plain_ejRet (k : K) : plain (ejRet k) := by cases k <;> simp [plain, ejRet]
theorem plain_rlRet (k : K) : plain (rlRet k) := by cases k <;> simp [plain, rlRet]

/-- The steps that do not concern the slots. -/
theorem step_plain {s s' : St} {t : Th} {c : Ch} (hs : stepT P s i t c = .ok (some s')) (h3 : ∀ r x, t.pc ≠ .ap3 r x)
    (h5 : ∀ r p, t.pc ≠ .ap5 r p) (hc : ∀ e p acc, t.pc ≠ .cp e p acc) (hg : ∀ k, t.pc ≠ .gt k) :
    s'.done = s.done ∧ s'.mem = s.mem ∧
      ∃ t', (s'.thr = s.thr.set i t' ∨ s'.thr = (s.thr.map wake).set i t') ∧ plain t'.pc := by
  obtain ⟨pc, ep, hd, tl⟩ := t
  have key : ∀ {a : St} {t' : Th}, (.ok (some (a.setT i t')) : Out) = .ok (some s') →
      a.done = s.done → a.mem = s.mem → (a.thr = s.thr ∨ a.thr = s.thr.map wake) → plain t'.pc →
      s'.done = s.done ∧ s'.mem = s.mem ∧
      ∃ t', (s'.thr = s.thr.set i t' ∨ s'.thr = (s.thr.map wake).set i t') ∧ plain t'.pc := by
    intro a t' h a3 a4 a5 a6
    have := ok_inj h; subst this
    refine ⟨a3, a4, t', ?_, a6⟩
    rcases a5 with a5 | a5
    · left; show a.thr.set i t' = _; rw [a5]
    · right; show a.thr.set i t' = _; rw [a5]
  cases pc <;> simp only [stepT] at hs
  case ap3 => exact absurd rfl (h3 _ _)
  case ap5 => exact absurd rfl (h5 _ _)
  case cp => exact absurd rfl (hc _ _ _)
  case gt => exact absurd rfl (hg _)
  all_goals (try split at hs)
  all_goals (try split at hs)
  all_goals (try split at hs)
  all_goals first
    | exact key hs rfl rfl (.inl rfl) (plain_gaRet _)
    | exact key hs rfl rfl (.inl rfl) (plain_ejRet _)
    | exact key hs rfl rfl (.inl rfl) (plain_rlRet _)
    | exact key hs rfl rfl (.inl rfl) (by simp [plain])
    | exact key hs rfl rfl (.inr rfl) (by simp [plain])
    | exact absurd hs (by simp)

/-- A step of `Conc.lean` that does not write a slot. -/
theorem FInv.move (h : FInv P M n F) (hw : 0 < P.hwm) {s' : St} {t t' : Th} {c : Ch} {rd' : Nat → Option (Rd D)}
    {seen' : Nat → List (Rd D)} (hi : F.co.thr[i]? = some t) (hs : stepT P F.co i t c = .ok (some s')) (hR : Reach P n tidy s')
    (h5 : ∀ r p, t.pc ≠ .ap5 r p) (hmem : s'.mem = F.co.mem) (hdone : s'.done = F.co.done) (hi' : s'.thr[i]? = some t')
    (hrd : ∀ k, k ≠ i → rd' k = F.rd k) (hri : rd' i = none) (hsk : ∀ k, k ≠ i → seen' k = F.seen k)
    (hsi : ∀ d, d ∈ seen' i → full d.got = true ∧ (d.good P → ∃ r, (d.pos, r) ∈ F.co.done ∧ d.val = enc P M r d.pos))
    (hfl : ∀ e p acc, t'.pc = .cp e p acc → (seen' i).map (fun d => d.val) = acc.map (encSlot P M)) :
    FInv P M n { F with co := s', rd := rd', seen := seen' } := by
  have hback : ∀ (k : Nat) (u : Th) r p, k ≠ i → s'.thr[k]? = some u → u.pc = .ap5 r p → ∃ u', F.co.thr[k]? = some u' ∧ u'.pc = .ap5 r p :=
    fun k u r p hk hu hp => (step_ap5 hs hk).mp ⟨u, hu, hp⟩
  have hforw : ∀ (k : Nat) (u : Th) r p, F.co.thr[k]? = some u → u.pc = .ap5 r p → ∃ u', s'.thr[k]? = some u' ∧ u'.pc = .ap5 r p := by
    intro k u r p hu hp
    have hk : k ≠ i := by
      rintro rfl
      have := Option.some.inj (hi.symm.trans hu); subst this
      exact h5 r p hp
    exact (step_ap5 hs hk).mpr ⟨u, hu, hp⟩
  refine ⟨hR, ?_, ?_, ?_, ?_, ?_, ?_⟩
  · intro k hk
    refine h.wr0 k fun u r p hu hp => ?_
    obtain ⟨u', hu', hp'⟩ := hforw k u r p hu hp
    exact hk u' r p hu' hp'
  · intro k hk
    show F.fm k = encSlot P M (s'.mem k)
    rw [hmem]
    refine h.quiet k fun m u r p hu hp => ?_
    obtain ⟨u', hu', hp'⟩ := hforw m u r p hu hp
    exact hk m u' r p hu' hp'
  · intro k u r p hu hp
    show Mix P M (F.wr k) r p (encSlot P M (s'.mem (p % P.cap))) (F.fm (p % P.cap))
    rw [hmem]
    by_cases hk : k = i
    · subst hk
      rw [h.wr0 k fun u' r' p' hu' hp' => by
        have := Option.some.inj (hi.symm.trans hu'); subst this
        exact h5 r' p' hp']
      unfold Mix
      rw [if_neg (by simp)]
      intro a
      rw [if_neg (by simp)]
      rw [h.quiet (p % P.cap) fun m u' r' p' hu' hp' e => by
        obtain ⟨u2, hu2, hp2⟩ := hforw m u' r' p' hu' hp'
        have := writers hw hR hu2 hp2 hu hp e
        subst this
        have := Option.some.inj (hi.symm.trans hu'); subst this
        exact h5 r' p' hp']
      exact Agree.refl _ _
    · obtain ⟨u', hu', hp'⟩ := hback k u r p hk hu hp
      exact h.busy k u' r p hu' hp'
  · intro k d hd
    have hd' : rd' k = some d := hd
    by_cases hk : k = i
    · subst hk; rw [hri] at hd'; cases hd'
    · rw [hrd k hk] at hd'
      obtain ⟨u, x, hu, hx, hle, hlt, hpc, hg⟩ := h.rd k d hd'
      refine ⟨u, x, ?_, hx, hle, hlt, hpc, ?_⟩
      · show s'.thr[k]? = some u
        have hwk : wake u = u := by
          unfold wake
          rw [if_neg]
          rcases hpc with hpc | ⟨e, acc, hpc, _⟩ <;> rw [hpc] <;> simp
        rcases step_others hs hk with e | e
        · rw [e, hu]
        · rw [e, hu]; show some (wake u) = _; rw [hwk]
      · show d.good P → ∃ r, (d.pos, r) ∈ s'.done ∧ _
        rw [hdone]; exact hg
  · intro k d hd
    show full d.got = true ∧ (d.good P → ∃ r, (d.pos, r) ∈ s'.done ∧ _)
    rw [hdone]
    have hd' : d ∈ seen' k := hd
    by_cases hk : k = i
    · subst hk; exact hsi d hd'
    · rw [hsk k hk] at hd'; exact h.seen k d hd'
  · intro k u e p acc hu hp
    show (seen' k).map _ = _
    by_cases hk : k = i
    · subst hk
      have := Option.some.inj (hi'.symm.trans hu); subst this
      exact hfl e p acc hp
    · rw [hsk k hk]
      have hu1 : s'.thr[k]? = some u := hu
      rcases step_others hs hk with g | g
      · exact h.flush k u e p acc (g ▸ hu1) hp
      · rw [g, Option.map_eq_some_iff] at hu1
        obtain ⟨v, hv, rfl⟩ := hu1
        refine h.flush k v e p acc hv ?_
        unfold wake at hp
        split at hp
        · cases hp
        · exact hp

/-- The last write of an append. -/
theorem FInv.last (h : FInv P M n F) (hw : 0 < P.hwm) {s' : St} {t : Th} {c : Ch} {r p : Nat} (hi : F.co.thr[i]? = some t)
    (ht : t.pc = .ap5 r p) (hs : stepT P F.co i t c = .ok (some s')) (hR : Reach P n tidy s') (hst : (F.wr i).stamped = true) :
    FInv P M n { F with co := s', fm := upd F.fm (p % P.cap) (F.fm (p % P.cap)).setVisible, wr := upd F.wr i ⟨[], false⟩ } := by
  have hb := h.busy i t r p hi ht
  unfold Mix at hb
  rw [if_pos hst] at hb
  unfold stepT at hs
  rw [ht] at hs
  simp only at hs
  have hs' := ok_inj hs
  have hmem : s'.mem = upd F.co.mem (p % P.cap) (some (p, r)) := by rw [← hs']; rfl
  have hdone : s'.done = (p, r) :: F.co.done := by rw [← hs']; rfl
  have hthr : ∀ k : Nat, s'.thr[k]? = if i = k then some { t with pc := .idle } else F.co.thr[k]? := by
    intro k; rw [← hs']; exact setT_get hi _ k
  have hoth : ∀ k : Nat, k ≠ i → s'.thr[k]? = F.co.thr[k]? := fun k hk => by rw [hthr, if_neg (Ne.symm hk)]
  have hself : ∀ u : Th, s'.thr[i]? = some u → u.pc = .idle := by
    intro u hu
    rw [hthr, if_pos rfl] at hu
    cases hu; rfl
  have hne : ∀ (k : Nat) (u : Th), s'.thr[k]? = some u → u.pc ≠ .idle → k ≠ i := by
    rintro k u hu hp rfl
    exact hp (hself u hu)
  refine ⟨hR, ?_, ?_, ?_, ?_, ?_, ?_⟩
  · intro k hk
    show upd F.wr i _ k = _
    unfold upd
    split
    · rfl
    · rename_i e
      exact h.wr0 k fun u r' p' hu hp => hk u r' p' ((hoth k e).trans hu) hp
  · intro k hk
    show upd F.fm _ _ k = encSlot P M (s'.mem k)
    rw [hmem]
    unfold upd
    split
    · rw [hb.2]; rfl
    · rename_i e
      refine h.quiet k fun m u r' p' hu hp hm => ?_
      by_cases hmi : m = i
      · subst hmi
        have := Option.some.inj (hi.symm.trans hu); subst this
        have e2 : PC.ap5 r p = PC.ap5 r' p' := ht.symm.trans hp
        cases e2
        exact e hm.symm
      · exact hk m u r' p' ((hoth m hmi).trans hu) hp hm
  · intro k u r' p' hu hp
    have hk := hne k u hu (by rw [hp]; simp)
    have hu' := (hoth k hk).symm.trans hu
    have hsl : p' % P.cap ≠ p % P.cap := fun e => hk (writers hw h.reach hu' hp hi ht e)
    show Mix P M (upd F.wr i _ k) r' p' (encSlot P M (s'.mem (p' % P.cap))) (upd F.fm _ _ (p' % P.cap))
    rw [hmem]
    unfold upd
    rw [if_neg hk, if_neg hsl, if_neg hsl]
    exact h.busy k u r' p' hu' hp
  · intro k d hd
    obtain ⟨u, x, hu, hx, hle, hlt, hpc, hg⟩ := h.rd k d hd
    have hk : k ≠ i := by
      rintro rfl
      have := Option.some.inj (hi.symm.trans hu); subst this
      rcases hpc with hpc | ⟨e, acc, hpc, _⟩ <;> rw [ht] at hpc <;> cases hpc
    refine ⟨u, x, (hoth k hk).trans hu, hx, hle, hlt, hpc, fun g => ?_⟩
    obtain ⟨r', hr', ha⟩ := hg g
    exact ⟨r', by show _ ∈ s'.done; rw [hdone]; exact List.mem_cons_of_mem _ hr', ha⟩
  · intro k d hd
    refine ⟨(h.seen k d hd).1, fun g => ?_⟩
    obtain ⟨r', hr', ha⟩ := (h.seen k d hd).2 g
    exact ⟨r', by show _ ∈ s'.done; rw [hdone]; exact List.mem_cons_of_mem _ hr', ha⟩
  · intro k u e q acc hu hp
    have hk := hne k u hu (by rw [hp]; simp)
    exact h.flush k u e q acc ((hoth k hk).symm.trans hu) hp

/-- The steps of `Conc.lean`. -/
theorem FInv.co (h : FInv P M n F) (hw : 0 < P.hwm) {s' : St} {t : Th} {c : Ch} {F1 : FSt D} (hi : F.co.thr[i]? = some t)
    (hf : finish P F i t = some F1) (hs : stepT P F.co i t c = .ok (some s')) : FInv P M n { F1 with co := s' } := by
  have hT : tidy F.co i := by
    intro u e p acc hu hp hlt
    have := Option.some.inj (hi.symm.trans hu); subst this
    unfold finish at hf
    rw [hp] at hf
    simp only at hf
    split at hf
    · rename_i d hd
      split at hf
      · rename_i hc
        obtain ⟨u, x, hu', _, _, _, hpc, hg⟩ := h.rd i d hd
        have := Option.some.inj (hi.symm.trans hu'); subst this
        rcases hpc with hpc | ⟨e', acc', _, hfin⟩
        · rw [hp] at hpc; cases hpc
        · obtain ⟨r, hr, _⟩ := hg (.inl hfin)
          exact ⟨r, hc.2.1 ▸ hr⟩
      · cases hf
    · rw [if_pos hlt] at hf; cases hf
  have hR : Reach P n tidy s' := h.reach.step hT (by unfold Conc.step; rw [hi]; exact hs)
  by_cases h5 : ∃ r p, t.pc = .ap5 r p
  · obtain ⟨r, p, ht⟩ := h5
    unfold finish at hf
    rw [ht] at hf
    simp only at hf
    split at hf
    · rename_i hst
      cases hf
      exact h.last hw hi ht hs hR hst
    · cases hf
  have h5' : ∀ r p, t.pc ≠ .ap5 r p := fun r p e => h5 ⟨r, p, e⟩
  by_cases hcp : ∃ e p acc, t.pc = .cp e p acc
  · obtain ⟨e, p, acc, ht⟩ := hcp
    have hfl := h.flush i t e p acc hi ht
    unfold finish at hf
    rw [ht] at hf
    simp only at hf
    have hs0 := hs
    unfold stepT at hs0
    rw [ht] at hs0
    simp only at hs0
    split at hf
    · rename_i d hd
      split at hf
      · rename_i hc
        cases hf
        obtain ⟨hlt, hpos, hfull⟩ := hc
        rw [if_pos hlt] at hs0
        have e' := ok_inj hs0
        obtain ⟨u, x, hu', hx, hle, hlt', hpc, hg⟩ := h.rd i d hd
        have := Option.some.inj (hi.symm.trans hu'); subst this
        have hgood : d.good P := by
          rcases hpc with hpc | ⟨_, _, _, hfin⟩
          · rw [ht] at hpc; cases hpc
          · exact .inl hfin
        obtain ⟨r, hr, hv⟩ := h.whole hd hfull hgood
        have hmem : F.co.mem (p % P.cap) = some (p, r) := by
          have := (view_slot hw h.reach hi hx (by rw [ht]; simp) hle hlt' hr).1
          rwa [hpos] at this
        refine h.move hw hi hs hR h5' (by rw [← e']; rfl) (by rw [← e']; rfl)
          (t' := { t with pc := .cp e (p + 1) (acc ++ [F.co.mem (p % P.cap)]) }) (rd' := upd F.rd i none)
          (seen' := upd F.seen i (F.seen i ++ [d])) ?_ ?_ ?_ ?_ ?_ ?_
        · rw [← e', setT_get hi, if_pos rfl]
        · intro k hk; unfold upd; rw [if_neg hk]
        · unfold upd; rw [if_pos rfl]
        · intro k hk; unfold upd; rw [if_neg hk]
        · intro d' hd'
          unfold upd at hd'
          rw [if_pos rfl] at hd'
          rcases List.mem_append.mp hd' with hd' | hd'
          · exact h.seen i d' hd'
          · rw [List.mem_singleton.mp hd']
            exact ⟨hfull, h.whole hd hfull⟩
        · intro e2 p2 acc2 h2
          cases h2
          unfold upd
          rw [if_pos rfl, List.map_append, List.map_append, hfl, hmem]
          show _ ++ [d.val] = _ ++ [enc P M r p]
          rw [hv, hpos]
      · cases hf
    · rename_i hd
      split at hf
      · cases hf
      · rename_i hlt
        cases hf
        rw [if_neg hlt] at hs0
        split at hs0
        · have e' := ok_inj hs0
          refine h.move hw hi hs hR h5' (by rw [← e']; rfl) (by rw [← e']; rfl) (t' := { t with pc := .rl1 (.job e) }) ?_
            (fun _ _ => rfl) hd (fun _ _ => rfl) (h.seen i) (by intro _ _ _ g; cases g)
          rw [← e']
          exact (setT_get (s := { F.co with estr := _ }) hi _ _).trans (if_pos rfl)
        · cases hs0
  have hcp' : ∀ e p acc, t.pc ≠ .cp e p acc := fun e p acc g => hcp ⟨e, p, acc, g⟩
  have hrdn : (∀ k, t.pc ≠ .gt k) → F.rd i = none ∧ F1 = F := by
    intro hg
    unfold finish at hf
    split at hf
    · rename_i g; exact absurd g (h5' _ _)
    · rename_i g; exact absurd g (hcp' _ _ _)
    · rename_i g; exact absurd g (hg _)
    · split at hf
      · rename_i g
        cases hf
        exact ⟨Option.isNone_iff_eq_none.mp g, rfl⟩
      · cases hf
  by_cases hg : ∃ k, t.pc = .gt k
  · obtain ⟨k, ht⟩ := hg
    have hrd : F.rd i = none := by
      cases hd : F.rd i with
      | none => rfl
      | some d =>
        obtain ⟨u, x, hu', _, _, _, hpc, _⟩ := h.rd i d hd
        have := Option.some.inj (hi.symm.trans hu'); subst this
        rcases hpc with hpc | ⟨_, _, hpc, _⟩ <;> rw [ht] at hpc <;> cases hpc
    unfold finish at hf
    rw [ht] at hf
    cases hf
    have hs0 := hs
    unfold stepT at hs0
    rw [ht] at hs0
    simp only at hs0
    have e' := ok_inj hs0
    refine h.move hw hi hs hR h5' (by rw [← e']; rfl) (by rw [← e']; rfl)
      (t' := { t with pc := gtRet (t.hd.getD 0) k, tl := F.co.tail }) (rd' := F.rd) (seen' := upd F.seen i []) ?_ (fun _ _ => rfl) hrd ?_ ?_ ?_
    · rw [← e', setT_get hi, if_pos rfl]
    · intro m hm; unfold upd; rw [if_neg hm]
    · intro d hd; unfold upd at hd; rw [if_pos rfl] at hd; cases hd
    · intro e p acc g
      unfold upd
      rw [if_pos rfl]
      cases k with
      | job e2 => cases g; rfl
      | client => cases g
      | create r => cases g
  have hg' : ∀ k, t.pc ≠ .gt k := fun k g => hg ⟨k, g⟩
  obtain ⟨hrd, rfl⟩ := hrdn hg'
  by_cases h3 : ∃ r x, t.pc = .ap3 r x
  · obtain ⟨r, x, ht⟩ := h3
    have hs0 := hs
    unfold stepT at hs0
    rw [ht] at hs0
    simp only at hs0
    split at hs0
    · have e' := ok_inj hs0
      refine h.move hw hi hs hR h5' (by rw [← e']; rfl) (by rw [← e']; rfl) (t' := { t with pc := .ap5 r x }) ?_
        (fun _ _ => rfl) hrd (fun _ _ => rfl) (h.seen i) (by intro _ _ _ g; cases g)
      rw [← e']
      exact (setT_get (s := { F1.co with tail := _, claimed := _ }) hi _ _).trans (if_pos rfl)
    · have e' := ok_inj hs0
      refine h.move hw hi hs hR h5' (by rw [← e']; rfl) (by rw [← e']; rfl) (t' := { t with pc := .ap4 r F1.co.tail }) ?_
        (fun _ _ => rfl) hrd (fun _ _ => rfl) (h.seen i) (by intro _ _ _ g; cases g)
      rw [← e', setT_get hi, if_pos rfl]
  · have h3' : ∀ r x, t.pc ≠ .ap3 r x := fun r x g => h3 ⟨r, x, g⟩
    obtain ⟨hdone, hmem, t', ht', hpl⟩ := step_plain hs h3' h5' hcp' hg'
    refine h.move hw hi hs hR h5' hmem hdone (t' := t') ?_ (fun _ _ => rfl) hrd (fun _ _ => rfl) (h.seen i)
      (fun e p acc g => absurd g (hpl.2 e p acc))
    have hlt := (List.getElem?_eq_some_iff.mp hi).1
    rcases ht' with g | g
    · rw [g, List.getElem?_set, if_pos rfl, if_pos hlt]
    · rw [g, List.getElem?_set, if_pos rfl, if_pos (by rw [List.length_map]; exact hlt)]

/-- Every step. -/
theorem FInv.step (h : FInv P M n F) (hw : 0 < P.hwm) {c : FCh D} (ht : ftidy F i c) (hs : fstep P M F i c = .ok (some F')) :
    FInv P M n F' := by
  unfold fstep at hs
  split at hs
  · cases hs
  rename_i t hi
  split at hs
  · -- a step of `Conc.lean`
    rename_i c0
    split at hs
    · cases hs
    · rename_i F1 hf
      split at hs
      · rename_i s' hs'
        cases hs
        unfold Conc.step at hs'
        rw [hi] at hs'
        exact h.co hw hi hf hs'
      · cases hs
      · cases hs
  · -- a store
    rename_i a
    split at hs
    · rename_i r p hpc
      split at hs
      · cases hs
      · rename_i ha
        cases hs
        refine h.write hw hi hpc ?_
        have hb := h.busy i t r p hi hpc
        unfold Mix at hb ⊢
        show if (F.wr i).stamped = true then _ else _
        split
        · rename_i hst
          rw [if_pos hst] at hb
          exact absurd (full_mem hb.1 a) ha
        · rename_i hst
          rw [if_neg hst] at hb
          intro b
          by_cases hba : b = a
          · subst hba
            rw [if_pos List.mem_cons_self]
            exact agree_put_self _ _ _
          · refine (agree_put_ne hba _ _).trans ?_
            have := hb b
            by_cases hm : b ∈ (F.wr i).put
            · rw [if_pos (List.mem_cons_of_mem _ hm)]
              rwa [if_pos hm] at this
            · rw [if_neg (fun g => hm ((List.mem_cons.mp g).resolve_left hba))]
              rwa [if_neg hm] at this
    · cases hs
  · -- the timestamp
    split at hs
    · rename_i r p hpc
      split at hs
      · rename_i hc
        cases hs
        refine h.write hw hi hpc ?_
        have hb := h.busy i t r p hi hpc
        unfold Mix at hb ⊢
        rw [if_neg (by rw [hc.2]; simp)] at hb
        rw [if_pos rfl]
        refine ⟨hc.1, ?_⟩
        have : F.fm (p % P.cap) = M.wrec r := agree_all fun a => by
          have := hb a
          rwa [if_pos (full_mem hc.1 a)] at this
        rw [this]
      · cases hs
    · cases hs
  · -- the start of a read
    rename_i p
    simp only at hs
    split at hs
    · rename_i x hpc hx hrd
      split at hs
      · rename_i hc
        cases hs
        refine h.look hi hx hc.1 hc.2 (.inl hpc) fun g => ?_
        rw [List.any_eq_true] at g
        obtain ⟨⟨q, r⟩, hm, hq⟩ := g
        have : q = p := by simpa using hq
        subst this
        exact ⟨r, hm⟩
      · cases hs
    · rename_i e q acc hpc hrd
      split at hs
      · rename_i hc
        cases hs
        obtain ⟨rfl, hlt⟩ := hc
        obtain ⟨r, hr⟩ := ht q rfl t e q acc hi hpc
        have hj := (h.reach.hist hw).locj i t hi
        unfold LocJ at hj
        rw [hpc] at hj
        refine h.look hi hj.1 (by omega) hlt (.inr ⟨e, acc, hpc, ?_⟩) fun _ => ⟨r, hr⟩
        rw [List.any_eq_true]
        exact ⟨(q, r), hr, by simp⟩
      · cases hs
    · cases hs
  · -- a load
    rename_i a
    split at hs
    · rename_i d hd
      split at hs
      · cases hs
      · rename_i ha
        cases hs
        exact h.get hw hd ha
    · cases hs
  · -- the end of a read
    split at hs
    · rename_i d hpc hd
      split at hs
      · rename_i hf
        cases hs
        exact h.done hi hpc hd hf
      · cases hs
    · cases hs

theorem FReach.inv (hw : 0 < P.hwm) (h : FReach P M n ftidy F) : FInv P M n F := by
  induction h with
  | init => exact FInv.init P M n
  | step _ ht hs ih => exact ih.step hw ht hs

end DE.Torn
