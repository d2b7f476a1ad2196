import Verif.Proofs.Index
import Verif.Model.Views
/-!
Invariants of a buffer used through view objects by one thread.
-/
namespace DE
variable {R : Type}
namespace VBuf

/-- The object holds a reference and satisfies `p`. -/
def sel (p : VObj → Bool) : Option VObj → Bool
  | some o => o.active && p o
  | none => false

/-- How many objects hold a reference and satisfy `p`. -/
def cnt (p : VObj → Bool) (l : List (Option VObj)) : Nat := l.countP (sel p)

/-- Calls that respect the rules of the interface: the objects used exist, a view is asked for at the current or the previous head,
the head moves forward to at most the tail, and the watermarks stay in their order. -/
def Legal (x : VBuf R) : Op R → Prop
  | .append _ _ => True
  | .view => True
  | .viewAt g => g = x.b.head ∨ (g = x.oldIdx ∧ g < x.b.head)
  | .move i => ∃ o, x.objs[i]? = some (some o)
  | .destroy i => ∃ o, x.objs[i]? = some (some o)
  | .tag i _ => ∃ o, x.objs[i]? = some (some o)
  | .advance n => x.b.head < n ∧ n ≤ x.b.tail
  | .setLow n => n < x.b.hwm
  | .setHigh n => x.b.lwm < n ∧ n < x.b.cap

/-- What is recorded: the accepted appends. -/
def logOf (L : List (R × Bool)) : Op R → Bool → List (R × Bool)
  | .append r ts, true => L ++ [(r, ts)]
  | _, _ => L

/-- States reached by calls allowed by `ok`, with the accepted appends in order. -/
inductive Reach [DecidableEq R] [Inhabited R] (ok : VBuf R → Op R → Prop) (lwm hwm capacity : Nat) : VBuf R → List (R × Bool) → Prop
  | new {x} (h : VBuf.new lwm hwm capacity = .ok x) : Reach ok lwm hwm capacity x []
  | step {x y L o b} : Reach ok lwm hwm capacity x L → ok x o → x.step o = .ok (some (y, b)) →
      Reach ok lwm hwm capacity y (logOf L o b)

/-- The slot of position `p` holds the `p`-th accepted append. -/
def Holds (b : Buffer R) (L : List (R × Bool)) (p : Nat) : Prop :=
  L[p]? = some ((b.data (p % b.cap)).record, (b.data (p % b.cap)).isTombstone)

structure Inv (x : VBuf R) (L : List (R × Bool)) : Prop where
  len : L.length = x.b.tail
  ring : ∀ p < x.b.tail, x.b.tail ≤ p + x.b.cap → Holds x.b L p
  ht : x.b.head ≤ x.b.tail
  hwm : x.b.hwm < x.b.cap
  old : x.oldIdx < x.b.head ∨ (x.b.head = 0 ∧ 0 < x.oldIdx)
  live : ∀ o, some o ∈ x.objs → o.active = true →
    o.head ≤ o.tail ∧ o.tail ≤ x.b.tail ∧ (o.head = x.b.head ∨ (o.head = x.oldIdx ∧ x.oldIdx < x.b.head))
  dead : ∀ o, some o ∈ x.objs → o.active = false → o.head = 0 ∧ o.tail = 0
  href : x.headRef = cnt (fun o => decide (o.head = x.b.head)) x.objs
  oref : x.oldRef = cnt (fun o => decide (o.head < x.b.head)) x.objs

theorem cnt_append (p : VObj → Bool) (l : List (Option VObj)) (o : Option VObj) :
    cnt p (l ++ [o]) = cnt p l + (if sel p o then 1 else 0) := by
  simp [cnt, List.countP_append, List.countP_cons]

theorem cnt_set (p : VObj → Bool) (l : List (Option VObj)) (i : Nat) (o v : Option VObj) (h : l[i]? = some o) :
    cnt p (l.set i v) + (if sel p o then 1 else 0) = cnt p l + (if sel p v then 1 else 0) := by
  induction l generalizing i with
  | nil => simp at h
  | cons a l ih =>
    cases i with
    | zero =>
      simp only [List.getElem?_cons_zero, Option.some.injEq] at h
      subst h
      simp only [cnt, List.set_cons_zero, List.countP_cons]
      omega
    | succ i =>
      have := ih i (by simpa using h)
      simp only [cnt, List.set_cons_succ, List.countP_cons] at this ⊢
      omega

theorem cnt_congr {p q : VObj → Bool} {l : List (Option VObj)} (h : ∀ o, some o ∈ l → o.active = true → p o = q o) :
    cnt p l = cnt q l := by
  unfold cnt
  apply List.countP_congr
  intro o ho
  cases o with
  | none => simp [sel]
  | some o =>
    by_cases ha : o.active = true
    · simp [sel, h o ho ha]
    · simp [sel, ha]

theorem cnt_zero {p : VObj → Bool} {l : List (Option VObj)} : cnt p l = 0 ↔ ∀ o, some o ∈ l → o.active = true → p o = false := by
  unfold cnt
  rw [List.countP_eq_zero]
  constructor
  · intro h o ho ha
    have := h (some o) ho
    simpa [sel, ha] using this
  · intro h o ho
    cases o with
    | none => simp [sel]
    | some o =>
      by_cases ha : o.active = true
      · simp [sel, h o ho ha]
      · simp [sel, ha]

theorem mem_append_some {l : List (Option VObj)} {o : VObj} {v : Option VObj} (h : some o ∈ l ++ [v]) : some o ∈ l ∨ v = some o := by
  rcases List.mem_append.mp h with h | h
  · exact Or.inl h
  · exact Or.inr (List.mem_singleton.mp h).symm

theorem obj_ok {x : VBuf R} {i : Nat} {o : VObj} (h : x.objs[i]? = some (some o)) : x.obj i = .ok o := by
  simp [obj, h]

theorem Inv.init [Inhabited R] {lwm hwm capacity : Nat} {x : VBuf R} (hw : 0 < hwm) (h : VBuf.new lwm hwm capacity = .ok x) :
    Inv x [] := by
  unfold VBuf.new at h
  simp only [bind_ok, assertC_ok, decide_eq_true_eq] at h
  obtain ⟨_, hc, _, _, h⟩ := h
  cases h
  exact ⟨rfl, fun p hp => absurd hp (Nat.not_lt_zero _), le_refl _, hc, Or.inr ⟨rfl, hw⟩, by simp, by simp, rfl, rfl⟩

theorem getView_ok {x : VBuf R} {L : List (R × Bool)} {g : Nat} (h : Inv x L)
    (hg : g = x.b.head ∨ (g = x.oldIdx ∧ g < x.b.head)) :
    ∃ y, x.getView g = some y ∧ Inv y L ∧ y.b = x.b ∧ y.objs = x.objs ++ [some ⟨g, x.b.tail, true⟩] := by
  have hne : x.oldIdx ≠ x.b.head := by rcases h.old with e | ⟨e, e'⟩ <;> omega
  have live : ∀ o, some o ∈ x.objs ++ [some (⟨g, x.b.tail, true⟩ : VObj)] → o.active = true →
    o.head ≤ o.tail ∧ o.tail ≤ x.b.tail ∧ (o.head = x.b.head ∨ (o.head = x.oldIdx ∧ x.oldIdx < x.b.head)) := by
    intro o ho ha
    rcases mem_append_some ho with ho | ho
    · exact h.live o ho ha
    · cases ho
      have := h.ht
      refine ⟨?_, le_refl _, ?_⟩
      · rcases hg with hg | ⟨_, hg⟩ <;> simp only <;> omega
      · rcases hg with hg | ⟨hg, hg'⟩
        · exact Or.inl hg
        · exact Or.inr ⟨hg, hg ▸ hg'⟩
  have dead : ∀ o, some o ∈ x.objs ++ [some (⟨g, x.b.tail, true⟩ : VObj)] → o.active = false → o.head = 0 ∧ o.tail = 0 := by
    intro o ho ha
    rcases mem_append_some ho with ho | ho
    · exact h.dead o ho ha
    · cases ho; cases ha
  rcases hg with rfl | ⟨rfl, hlt⟩
  · refine ⟨{ x with headRef := x.headRef + 1, objs := x.objs ++ [some ⟨x.b.head, x.b.tail, true⟩] }, by
      simp only [getView, getHead, if_neg hne, if_true], ⟨h.len, h.ring, h.ht, h.hwm, h.old, live, dead, ?_, ?_⟩, rfl, rfl⟩
    · simp only [cnt_append, sel]; rw [h.href]; simp
    · simp only [cnt_append, sel]; rw [h.oref]; simp
  · refine ⟨{ x with oldRef := x.oldRef + 1, objs := x.objs ++ [some ⟨x.oldIdx, x.b.tail, true⟩] }, by
      simp only [getView, getHead, if_true], ⟨h.len, h.ring, h.ht, h.hwm, h.old, live, dead, ?_, ?_⟩, rfl, rfl⟩
    · simp only [cnt_append, sel]; rw [h.href]; simp [hne]
    · simp only [cnt_append, sel]; rw [h.oref]; simp [hlt]

theorem getView_old {x y : VBuf R} {g : Nat} (h : x.getView g = some y) : y.oldIdx = x.oldIdx := by
  unfold getView getHead at h
  split at h
  · cases h
  · next e =>
    split at e
    · cases e; cases h; rfl
    · split at e
      · cases e; cases h; rfl
      · cases e

theorem destroy_old {x y : VBuf R} {i : Nat} {o : VObj} (h : x.destroy i o = some y) : y.oldIdx = x.oldIdx := by
  unfold destroy release at h
  simp only at h
  repeat' split at h
  all_goals first | (cases h; done) | (cases h; rfl)

theorem Inv.setObj {x : VBuf R} {L : List (R × Bool)} (h : Inv x L) {i : Nat} {v : Option VObj}
    (hv : ∀ o, v = some o → o = ⟨0, 0, false⟩) :
    (∀ o, some o ∈ x.objs.set i v → o.active = true → some o ∈ x.objs) ∧
    (∀ o, some o ∈ x.objs.set i v → o.active = false → o.head = 0 ∧ o.tail = 0) := by
  constructor
  · intro o ho ha
    rcases List.mem_or_eq_of_mem_set ho with ho | ho
    · exact ho
    · rw [hv o ho.symm] at ha; cases ha
  · intro o ho ha
    rcases List.mem_or_eq_of_mem_set ho with ho | ho
    · exact h.dead o ho ha
    · rw [hv o ho.symm]; exact ⟨rfl, rfl⟩

theorem sel_moved (p : VObj → Bool) : sel p (some ⟨0, 0, false⟩) = false := rfl

theorem move_inv {x : VBuf R} {L : List (R × Bool)} (h : Inv x L) {i : Nat} {o : VObj} (ho : x.objs[i]? = some (some o)) :
    Inv (x.move i o) L := by
  obtain ⟨h1, h2⟩ := h.setObj (i := i) (v := some ⟨0, 0, false⟩) (fun o h => (Option.some.inj h).symm)
  have hm : some o ∈ x.objs := List.mem_of_getElem? ho
  have key : ∀ p : VObj → Bool, cnt p (x.objs.set i (some ⟨0, 0, false⟩) ++ [some o]) = cnt p x.objs := by
    intro p
    rw [cnt_append]
    have := cnt_set p x.objs i (some o) (some ⟨0, 0, false⟩) ho
    rw [sel_moved] at this
    simpa using this
  refine ⟨h.len, h.ring, h.ht, h.hwm, h.old, ?_, ?_, ?_, ?_⟩
  · intro u hu ha
    rcases mem_append_some hu with hu | hu
    · exact h.live u (h1 u hu ha) ha
    · cases hu; exact h.live _ hm ha
  · intro u hu ha
    rcases mem_append_some hu with hu | hu
    · exact h2 u hu ha
    · cases hu; exact h.dead _ hm ha
  · exact h.href.trans (key _).symm
  · exact h.oref.trans (key _).symm

theorem destroy_ok {x : VBuf R} {L : List (R × Bool)} (h : Inv x L) {i : Nat} {o : VObj} (ho : x.objs[i]? = some (some o)) :
    ∃ y, x.destroy i o = some y ∧ Inv y L ∧ y.b = x.b ∧ y.objs = x.objs.set i none := by
  obtain ⟨h1, h2⟩ := h.setObj (i := i) (v := none) (fun o h => by cases h)
  have hm : some o ∈ x.objs := List.mem_of_getElem? ho
  have hne : x.oldIdx ≠ x.b.head := by rcases h.old with e | ⟨e, e'⟩ <;> omega
  have key : ∀ p : VObj → Bool, cnt p (x.objs.set i none) + (if sel p (some o) then 1 else 0) = cnt p x.objs := by
    intro p
    simpa [sel] using cnt_set p x.objs i (some o) none ho
  have hl := key (fun o => decide (o.head = x.b.head))
  have hol := key (fun o => decide (o.head < x.b.head))
  have live : ∀ u, some u ∈ x.objs.set i none → u.active = true →
    u.head ≤ u.tail ∧ u.tail ≤ x.b.tail ∧ (u.head = x.b.head ∨ (u.head = x.oldIdx ∧ x.oldIdx < x.b.head)) :=
    fun u hu ha => h.live u (h1 u hu ha) ha
  by_cases ha : o.active = true
  · rcases h.live o hm ha with ⟨_, _, e | ⟨e, e'⟩⟩
    · simp only [sel, ha, e, Bool.true_and, decide_true, if_true, lt_irrefl, decide_false] at hl hol
      have hr := h.href
      have hor := h.oref
      refine ⟨{ x with headRef := x.headRef - 1, objs := x.objs.set i none }, by
        simp only [destroy, ha, if_true, release, e]
        rw [if_neg hne, if_neg (by omega)], ⟨h.len, h.ring, h.ht, h.hwm, h.old, live, h2, ?_, ?_⟩, rfl, rfl⟩
      · simp only; omega
      · simp only; simpa using hor.trans hol.symm
    · have hlt : o.head < x.b.head := e ▸ e'
      have hnh : ¬ o.head = x.b.head := by omega
      simp only [sel, ha, hlt, hnh, Bool.true_and, decide_true, if_true, decide_false] at hl hol
      have hr := h.href
      have hor := h.oref
      refine ⟨{ x with oldRef := x.oldRef - 1, objs := x.objs.set i none }, by
        simp only [destroy, ha, if_true, release, e]
        rw [if_neg (by omega)], ⟨h.len, h.ring, h.ht, h.hwm, h.old, live, h2, ?_, ?_⟩, rfl, rfl⟩
      · simp only; simpa using hr.trans hl.symm
      · simp only; omega
  · have hf : o.active = false := by simpa using ha
    simp only [sel, hf, Bool.false_and] at hl hol
    refine ⟨{ x with objs := x.objs.set i none }, by simp only [destroy, hf]; rfl, ⟨h.len, h.ring, h.ht, h.hwm, h.old, live, h2, ?_, ?_⟩, rfl, rfl⟩
    · simpa using h.href.trans hl.symm
    · simpa using h.oref.trans hol.symm

theorem append_inv {x : VBuf R} {L : List (R × Bool)} (h : Inv x L) (r : R) (ts : Bool) :
    Inv { x with b := (x.b.append r ts).1 } (logOf L (.append r ts) (x.b.append r ts).2) ∧
    (x.b.append r ts).2 = decide (x.b.tail - x.b.head < x.b.hwm) ∧ (x.b.append r ts).1.head = x.b.head ∧
    x.b.tail ≤ (x.b.append r ts).1.tail ∧ (x.b.append r ts).1.cap = x.b.cap ∧ (x.b.append r ts).1.hwm = x.b.hwm ∧
    ((x.b.append r ts).1.tail = x.b.tail ∨ ((x.b.append r ts).1.tail = x.b.tail + 1 ∧ x.b.tail - x.b.head < x.b.hwm)) := by
  have hh := h.hwm
  have hht := h.ht
  unfold Buffer.append
  split
  · next hf => exact ⟨h, by simp; omega, rfl, le_refl _, rfl, rfl, Or.inl rfl⟩
  · next hf =>
    refine ⟨⟨?_, ?_, Nat.le_succ_of_le h.ht, h.hwm, h.old, ?_, h.dead, h.href, h.oref⟩, by simp; omega, rfl, Nat.le_succ _, rfl, rfl,
      Or.inr ⟨rfl, by omega⟩⟩
    · simp [logOf, h.len]
    · intro p hp hc
      simp only at hp hc
      simp only [Holds, logOf, Buffer.write]
      by_cases he : p = x.b.tail
      · subst he
        rw [if_pos rfl, ← h.len, List.getElem?_concat_length]
        have he := entryAt_entry r ts (L.length % x.b.cap)
        have e1 : (Buffer.entryAt r ts (L.length % x.b.cap)).record = r := congrArg Entry.record he
        have e2 : (Buffer.entryAt r ts (L.length % x.b.cap)).isTombstone = ts := congrArg Entry.tomb he
        rw [e1, e2]
      · have hp' : p < x.b.tail := by omega
        have hne : ¬ p % x.b.cap = x.b.tail % x.b.cap := by
          have := Buffer.mod_ne (c := x.b.cap) (a := p) (i := 0) (j := x.b.tail - p) (by omega) (by omega)
          rwa [Nat.add_zero, show p + (x.b.tail - p) = x.b.tail by omega] at this
        rw [if_neg hne, List.getElem?_append_left (by rw [h.len]; exact hp')]
        exact h.ring p hp' (by omega)
    · intro o ho ha
      obtain ⟨a, b, c⟩ := h.live o ho ha
      exact ⟨a, Nat.le_succ_of_le b, c⟩

theorem Inv.congr_b {x : VBuf R} {L : List (R × Bool)} (h : Inv x L) {b : Buffer R} (ht : b.tail = x.b.tail) (hh : b.head = x.b.head)
    (hc : b.cap = x.b.cap) (hw : b.hwm < b.cap)
    (hd : ∀ j, (b.data j).record = (x.b.data j).record ∧ (b.data j).isTombstone = (x.b.data j).isTombstone) :
    Inv { x with b := b } L := by
  refine ⟨by rw [h.len, ht], ?_, by simp only; rw [ht, hh]; exact h.ht, hw, by simp only; rw [hh]; exact h.old, ?_, h.dead, ?_, ?_⟩
  · intro p hp hcp
    simp only [Holds]
    rw [(hd _).1, (hd _).2, hc]
    exact h.ring p (by rw [← ht]; exact hp) (by rw [← ht, ← hc]; exact hcp)
  · intro o ho ha
    simp only
    rw [ht, hh]
    exact h.live o ho ha
  · simp only; rw [hh]; exact h.href
  · simp only; rw [hh]; exact h.oref

theorem setDelete_tomb (w : Wrapped R) : w.setDelete.isTombstone = w.isTombstone := congrArg Entry.tomb (setDelete_entry w)

theorem tag_inv {x : VBuf R} {L : List (R × Bool)} (h : Inv x L) (j : Nat) :
    Inv { x with b := { x.b with data := Buffer.write x.b.data j (x.b.data j).setDelete } } L := by
  refine h.congr_b rfl rfl rfl h.hwm (fun k => ?_)
  simp only [Buffer.write]
  split
  · next e => subst e; exact ⟨rfl, setDelete_tomb _⟩
  · exact ⟨rfl, rfl⟩

theorem advance_ok {x : VBuf R} {L : List (R × Bool)} (h : Inv x L) {n : Nat} (h1 : x.b.head < n) (h2 : n ≤ x.b.tail) :
    (x.oldRef > 0 ∧ x.advance n = .ok (x, false)) ∨
    (x.oldRef = 0 ∧ ∃ y, x.advance n = .ok (y, true) ∧ Inv y L ∧ y.b = { x.b with head := n } ∧ y.objs = x.objs ∧
      y.oldIdx = x.b.head) := by
  have ha : x.b.advanceHead n = .ok { x.b with head := n } := by
    unfold Buffer.advanceHead assertC
    simp [h1, h2]; rfl
  rcases Nat.eq_zero_or_pos x.oldRef with h0 | h0
  · right
    refine ⟨h0, { x with b := { x.b with head := n }, headRef := 0, oldIdx := x.b.head, oldRef := x.headRef }, ?_, ?_, rfl, rfl, rfl⟩
    · unfold advance
      rw [ha]
      simp only [bind, Except.bind]
      rw [if_neg (by omega)]
    · have hold : ∀ o, some o ∈ x.objs → o.active = true → o.head = x.b.head := by
        intro o ho ho'
        have hz := cnt_zero.mp (h.oref.symm.trans h0) o ho ho'
        simp only [decide_eq_false_iff_not] at hz
        rcases (h.live o ho ho').2.2 with e | ⟨e, e'⟩
        · exact e
        · omega
      refine ⟨h.len, h.ring, h2, h.hwm, Or.inl h1, ?_, h.dead, ?_, ?_⟩
      · intro o ho ho'
        have := hold o ho ho'
        obtain ⟨a, b, _⟩ := h.live o ho ho'
        exact ⟨a, b, Or.inr ⟨this, h1⟩⟩
      · symm
        rw [cnt_zero]
        intro o ho ho'
        have := hold o ho ho'
        simp only [decide_eq_false_iff_not]
        omega
      · simp only
        rw [h.href]
        apply cnt_congr
        intro o ho ho'
        have := hold o ho ho'
        simp only [decide_eq_decide]
        omega
  · left
    refine ⟨h0, ?_⟩
    unfold advance
    rw [ha]
    simp only [bind, Except.bind]
    rw [if_pos h0]

/-- Every legal call ends and keeps the invariant. -/
theorem Inv.step [DecidableEq R] {x : VBuf R} {L : List (R × Bool)} (h : Inv x L) {o : Op R} (hl : Legal x o) :
    ∃ y b, x.step o = .ok (some (y, b)) ∧ Inv y (logOf L o b) := by
  cases o with
  | append r ts => exact ⟨_, _, rfl, (append_inv h r ts).1⟩
  | view =>
    obtain ⟨y, hy, hi, _⟩ := getView_ok h (Or.inl rfl)
    exact ⟨y, true, by simp [VBuf.step, hy], hi⟩
  | viewAt g =>
    obtain ⟨y, hy, hi, _⟩ := getView_ok h hl
    exact ⟨y, true, by simp [VBuf.step, hy], hi⟩
  | move i =>
    obtain ⟨o, ho⟩ := hl
    exact ⟨_, true, by simp [VBuf.step, obj_ok ho, bind, Except.bind], move_inv h ho⟩
  | destroy i =>
    obtain ⟨o, ho⟩ := hl
    obtain ⟨y, hy, hi, _⟩ := destroy_ok h ho
    exact ⟨y, true, by simp [VBuf.step, obj_ok ho, bind, Except.bind, hy], hi⟩
  | tag i r =>
    obtain ⟨o, ho⟩ := hl
    simp only [VBuf.step, obj_ok ho, bind, Except.bind]
    split
    · exact ⟨_, true, rfl, tag_inv h _⟩
    · exact ⟨_, false, rfl, h⟩
  | advance n =>
    rcases advance_ok h hl.1 hl.2 with ⟨_, e⟩ | ⟨_, y, e, hi, _⟩
    · exact ⟨x, false, by simp [VBuf.step, e, bind, Except.bind], h⟩
    · exact ⟨y, true, by simp [VBuf.step, e, bind, Except.bind], hi⟩
  | setLow n =>
    exact ⟨{ x with b := { x.b with lwm := n } }, true, by simp [VBuf.step, assertC, show n < x.b.hwm from hl, bind, Except.bind],
      h.congr_b rfl rfl rfl h.hwm (fun _ => ⟨rfl, rfl⟩)⟩
  | setHigh n =>
    exact ⟨{ x with b := { x.b with hwm := n } }, true, by simp [VBuf.step, assertC, hl.1, hl.2, bind, Except.bind],
      h.congr_b rfl rfl rfl hl.2 (fun _ => ⟨rfl, rfl⟩)⟩

theorem Reach.inv [DecidableEq R] [Inhabited R] {ok : VBuf R → Op R → Prop} (hok : ∀ x o, ok x o → Legal x o) {lwm hwm capacity : Nat}
    (hw : 0 < hwm) {x : VBuf R} {L : List (R × Bool)} (h : Reach ok lwm hwm capacity x L) : Inv x L := by
  induction h with
  | new h => exact Inv.init hw h
  | step _ hl hs ih =>
    obtain ⟨y, b, e, hi⟩ := ih.step (hok _ _ hl)
    rw [hs] at e
    cases e
    exact hi

/-- The high watermark is at most half the capacity. -/
structure Half (x : VBuf R) : Prop where
  hwm : 2 * x.b.hwm ≤ x.b.cap
  cnt : 2 * (x.b.tail - x.b.head) ≤ x.b.cap
  old : x.oldIdx < x.b.head → 2 * (x.b.head - x.oldIdx) ≤ x.b.cap

/-- Legal calls that keep the high watermark at most half the capacity. -/
def LegalHalf (x : VBuf R) (o : Op R) : Prop := Legal x o ∧ ∀ n, o = .setHigh n → 2 * n ≤ x.b.cap

theorem Half.step [DecidableEq R] {x y : VBuf R} {L : List (R × Bool)} (h : Inv x L) (hh : Half x) {o : Op R} {b : Bool}
    (hl : LegalHalf x o) (hs : x.step o = .ok (some (y, b))) : Half y := by
  obtain ⟨hl, hn⟩ := hl
  cases o with
  | append r ts =>
    cases hs
    obtain ⟨_, _, e1, e2, e3, e4, e5⟩ := append_inv h r ts
    have := h.ht
    have := hh.hwm
    have := hh.cnt
    refine ⟨?_, ?_, ?_⟩
    · simp only [e3, e4]; exact hh.hwm
    · simp only [e1, e3]; rcases e5 with e5 | ⟨e5, e6⟩ <;> rw [e5] <;> omega
    · simp only [e1, e3]; exact hh.old
  | view =>
    obtain ⟨z, hz, _, hb, _⟩ := getView_ok h (Or.inl rfl)
    simp only [VBuf.step, hz] at hs
    cases hs
    have := getView_old hz
    exact ⟨by rw [hb]; exact hh.hwm, by rw [hb]; exact hh.cnt, by rw [hb, this]; exact hh.old⟩
  | viewAt g =>
    obtain ⟨z, hz, _, hb, _⟩ := getView_ok h hl
    simp only [VBuf.step, hz] at hs
    cases hs
    have := getView_old hz
    exact ⟨by rw [hb]; exact hh.hwm, by rw [hb]; exact hh.cnt, by rw [hb, this]; exact hh.old⟩
  | move i =>
    obtain ⟨o, ho⟩ := hl
    simp only [VBuf.step, obj_ok ho, bind, Except.bind] at hs
    cases hs
    exact ⟨hh.hwm, hh.cnt, hh.old⟩
  | destroy i =>
    obtain ⟨o, ho⟩ := hl
    obtain ⟨z, hz, _, hb, _⟩ := destroy_ok h ho
    simp only [VBuf.step, obj_ok ho, bind, Except.bind, hz] at hs
    cases hs
    have := destroy_old hz
    exact ⟨by rw [hb]; exact hh.hwm, by rw [hb]; exact hh.cnt, by rw [hb, this]; exact hh.old⟩
  | tag i r =>
    obtain ⟨o, ho⟩ := hl
    simp only [VBuf.step, obj_ok ho, bind, Except.bind] at hs
    split at hs <;> cases hs
    · exact ⟨hh.hwm, hh.cnt, hh.old⟩
    · exact hh
  | advance n =>
    rcases advance_ok h hl.1 hl.2 with ⟨_, e⟩ | ⟨_, z, e, _, hb, _, ho⟩
    · simp only [VBuf.step, e, bind, Except.bind] at hs
      cases hs
      exact hh
    · simp only [VBuf.step, e, bind, Except.bind] at hs
      cases hs
      obtain ⟨h1, h2⟩ := hl
      have := hh.cnt
      refine ⟨by rw [hb]; exact hh.hwm, ?_, ?_⟩
      · rw [hb]; simp only; omega
      · rw [hb, ho]; simp only; omega
  | setLow n =>
    simp only [VBuf.step, bind_ok, assertC_ok] at hs
    obtain ⟨_, _, hs⟩ := hs
    cases hs
    exact ⟨hh.hwm, hh.cnt, hh.old⟩
  | setHigh n =>
    simp only [VBuf.step, bind_ok, assertC_ok] at hs
    obtain ⟨_, _, _, _, hs⟩ := hs
    cases hs
    exact ⟨hn n rfl, hh.cnt, hh.old⟩

theorem Reach.half [DecidableEq R] [Inhabited R] {lwm hwm capacity : Nat} (hw : 0 < hwm) (hc : capacity = 0 ∨ 2 * hwm ≤ capacity)
    {x : VBuf R} {L : List (R × Bool)} (h : Reach LegalHalf lwm hwm capacity x L) : Half x := by
  induction h with
  | new h =>
    unfold VBuf.new at h
    simp only [bind_ok, assertC_ok, decide_eq_true_eq] at h
    obtain ⟨_, _, _, _, h⟩ := h
    cases h
    refine ⟨?_, by simp, by simp⟩
    simp only
    split <;> omega
  | step h hl hs ih => exact Half.step (h.inv (fun _ _ h => h.1) hw) ih hl hs

/-- What a live view reads. -/
theorem Inv.reads {x : VBuf R} {L : List (R × Bool)} (h : Inv x L) {o : VObj} (ho : some o ∈ x.objs) (ha : o.active = true)
    (hc : x.b.tail ≤ o.head + x.b.cap) :
    ∃ l, (window x.b o).gets = .ok l ∧ l.map (fun w => (w.record, w.isTombstone)) = (L.drop o.head).take (o.tail - o.head) := by
  obtain ⟨h1, h2, _⟩ := h.live o ho ha
  have hcp : 0 < x.b.cap := by have := h.hwm; omega
  have hcap : (window x.b o).cap = x.b.cap := by simp [window, ha]
  have hg := gets_eq (window x.b o) (by rw [hcap]; exact hcp) (by rw [hcap]; simp only [window]; omega)
  refine ⟨_, hg, ?_⟩
  rw [hcap]
  simp only [window, List.map_map]
  apply List.ext_getElem?
  intro i
  by_cases hi : i < o.tail - o.head
  · rw [List.getElem?_map, List.getElem?_range hi, List.getElem?_take_of_lt hi, List.getElem?_drop]
    have := h.ring (o.head + i) (by omega) (by omega)
    rw [Holds] at this
    rw [this]
    rfl
  · rw [List.getElem?_eq_none (by simp; omega), List.getElem?_eq_none (by simp; omega)]

end VBuf
end DE
