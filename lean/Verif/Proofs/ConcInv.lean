import Verif.Proofs.ConcAct

/-!
The invariant of the concurrent model and the lemmas used to carry it through one step.
-/

namespace DE.Conc
variable {P : Par}

/-- The phase of the thread that runs the reconstruction (or prepares it); `none` for all others. -/
def sect (t : Th) : Option Ph :=
  match t.pc with
  | .crA _ => some .A
  | .ga1 (.create _) | .gaP2 (.create _) | .gaP3 (.create _) _ | .gaC2 (.create _) | .gaC3 (.create _) _ => some .A
  | .crC _ => some (.Cr (t.ep.getD 0))
  | .ej1 (.create _) | .ejP2 (.create _) | .ejP3 (.create _) _ | .ejC2 (.create _) | .ejC3 (.create _) _ => some .N
  | .crS _ => some .N
  | .jb e => some (.A1 e)
  | .gh1 (.job e) g | .ghO2 (.job e) g | .ghO3 (.job e) g _ | .ghB (.job e) g | .ghH2 (.job e) g | .ghH3 (.job e) g _ => some (.G e g)
  | .gt (.job e) => some (.A1 e)
  | .cp e _ _ => some (.A1 e)
  | .rl1 (.job e) | .rlO2 (.job e) | .rlO3 (.job e) _ | .rlH2 (.job e) | .rlH3 (.job e) _ => some (.A1 e)
  | .ad1 e => some (.A1 e)
  | .rt1 e _ | .rt2 e _ _ => some (.A1 e)
  | .rt3 e x => some (.R e (some x))
  | .ad3 e | .ad4 e _ => some (.R e none)
  | .ad5 e c => some (.B e c)
  | .ad6 e => some (.C e t.tl 0)
  | .ad7 e => some (.C e t.tl 1)
  | .ad8 e => some (.C e t.tl 2)
  | .ad9 e | .ad10 e _ => some (.C e t.tl 3)
  | .ad11 e c => some (.W e t.tl c)
  | .ad12 e => some (.D e t.tl)
  | .ad13 => some .A2
  | .ad14 | .ad15 | .ad16 | .ad17 => some .A
  | _ => none

/-- Nothing pinned. -/
def Free (t : Th) : Prop := t.ep = none ∧ t.hd = none

/-- What is known about a thread at each program counter. -/
def LocPc (P : Par) (v : Sv) (t : Th) : Prop :=
  match t.pc with
  | .ap3 _ x => Free t ∧ x < v.head.idx + P.hwm
  | .ap4 _ x => Free t ∧ x ≤ v.tail
  | .ap5 _ p => Free t ∧ p < v.tail
  | .ga1 k | .gaC2 k => Free t ∧ ∀ e, k ≠ .job e
  | .gaP2 k => Free t ∧ k = .client
  | .gaP3 k o => Free t ∧ k = .client ∧ o.ep ≠ none
  | .gaC3 k o => Free t ∧ (∀ e, k ≠ .job e) ∧ o.ep ≠ none
  | .crC _ => t.ep ≠ none ∧ t.hd = none
  | .run => True
  | .ej1 k | .ejC2 k => t.ep ≠ none ∧ (k = .client ∨ t.hd = none) ∧ ∀ e, k ≠ .job e
  | .ejP2 k => t.ep ≠ none ∧ (k = .client ∨ t.hd = none) ∧ (∀ e, k ≠ .job e) ∧ v.prev.ep = t.ep
  | .ejP3 k o => t.ep ≠ none ∧ (k = .client ∨ t.hd = none) ∧ (∀ e, k ≠ .job e) ∧ v.prev.ep = t.ep ∧ o.ep = t.ep ∧ 0 < o.ref
  | .ejC3 k o => t.ep ≠ none ∧ (k = .client ∨ t.hd = none) ∧ (∀ e, k ≠ .job e) ∧ o.ep ≠ none ∧ 0 < o.ref
  | .gh1 k g | .ghO2 k g | .ghB k g | .ghH2 k g =>
      t.hd = none ∧ ((k = .client ∧ ∃ e, t.ep = some e ∧ v.ehead e = g) ∨ (∃ e, k = .job e) ∧ t.ep = none)
  | .ghO3 k g c | .ghH3 k g c =>
      t.hd = none ∧ ((k = .client ∧ ∃ e, t.ep = some e ∧ v.ehead e = g) ∨ (∃ e, k = .job e) ∧ t.ep = none) ∧ c.idx = g
  | .gt k => t.hd ≠ none ∧ (k = .client ∨ (∃ e, k = .job e) ∧ t.ep = none)
  | .cp _ p _ => t.ep = none ∧ (∃ h, t.hd = some h ∧ h ≤ p)
  | .rl1 k | .rlH2 k => t.hd ≠ none ∧ (k = .client ∨ (∃ e, k = .job e) ∧ t.ep = none)
  | .rlO2 k => t.hd = some v.old.idx ∧ (k = .client ∨ (∃ e, k = .job e) ∧ t.ep = none)
  | .rlO3 k c => t.hd = some v.old.idx ∧ (k = .client ∨ (∃ e, k = .job e) ∧ t.ep = none) ∧ c.idx = v.old.idx ∧ 0 < c.ref
  | .rlH3 k c => t.hd ≠ none ∧ (k = .client ∨ (∃ e, k = .job e) ∧ t.ep = none) ∧ 0 < c.ref
  | .rt2 _ x o => Free t ∧ o = ⟨some x, 0⟩
  | _ => Free t

/-- A complete view lies below the tail. -/
def LocVw (v : Sv) (t : Th) : Prop := ∀ h, t.hd = some h → (∃ k, t.pc = .gt k) ∨ (h ≤ t.tl ∧ t.tl ≤ v.tail)

/-- What is known about a thread. -/
def Loc (P : Par) (v : Sv) (t : Th) : Prop := LocPc P v t ∧ LocVw v t

/-- The reconstruction in flight, if any, is in phase `ph`. -/
def IsPh (s : St) (ph : Ph) : Prop :=
  (s.flag = false ∧ ph = .A) ∨ (∃ e, e ∈ s.jobs ∧ ph = .A1 e) ∨ (∃ t, t ∈ s.thr ∧ sect t = some ph)

/-- One reconstruction at a time. -/
def Mutex (s : St) : Prop := s.thr.countP (fun t => (sect t).isSome) + s.jobs.length = if s.flag then 1 else 0

/-- The watermark bound. -/
def Bnd (P : Par) (v : Sv) : Prop := v.head.idx ≤ v.tail ∧ v.tail ≤ v.head.idx + P.hwm

/-- The invariant. -/
structure Inv (P : Par) (s : St) : Prop where
  mutex : Mutex s
  loc : ∀ t ∈ s.thr, Loc P s.sv t
  core : ∀ ph, IsPh s ph → Core P s.sv ph
  bnd : Bnd P s.sv

/-! ### Counting after replacing one thread -/

theorem countP_set {α : Type} (p : α → Bool) : ∀ (l : List α) (i : Nat) (a b : α), l[i]? = some a →
    (l.set i b).countP p + (if p a then 1 else 0) = l.countP p + (if p b then 1 else 0)
  | [], _, _, _, h => by simp at h
  | x :: l, 0, a, b, h => by
    simp at h; subst h
    simp only [List.set_cons_zero, List.countP_cons]; omega
  | x :: l, i+1, a, b, h => by
    simp at h
    have := countP_set p l i a b h
    simp only [List.set_cons_succ, List.countP_cons]; omega

theorem H_pos {s : St} {i : Nat} {t : Th} (hi : s.thr[i]? = some t) {e : Nat} (he : t.ep = some e) : 0 < s.H e :=
  List.countP_pos_iff.mpr ⟨t, List.mem_of_getElem? hi, by simp [he]⟩
theorem V_pos {s : St} {i : Nat} {t : Th} (hi : s.thr[i]? = some t) {e : Nat} (he : t.hd = some e) : 0 < s.V e :=
  List.countP_pos_iff.mpr ⟨t, List.mem_of_getElem? hi, by simp [he]⟩

section set
variable {s : St} {i : Nat} {t t' : Th}

theorem H_set_same (hi : s.thr[i]? = some t) (he : t'.ep = t.ep) : (s.setT i t').H = s.H := by
  funext e
  have := countP_set (fun t => decide (t.ep = some e)) s.thr i t t' hi
  simp only [he] at this
  show (s.thr.set i t').countP _ = s.thr.countP _
  omega

theorem V_set_same (hi : s.thr[i]? = some t) (he : t'.hd = t.hd) : (s.setT i t').V = s.V := by
  funext e
  have := countP_set (fun t => decide (t.hd = some e)) s.thr i t t' hi
  simp only [he] at this
  show (s.thr.set i t').countP _ = s.thr.countP _
  omega

theorem H_set_pin (hi : s.thr[i]? = some t) (hn : t.ep = none) {e : Nat} (he : t'.ep = some e) :
    (s.setT i t').H = upd s.H e (s.H e + 1) := by
  funext x
  have := countP_set (fun t => decide (t.ep = some x)) s.thr i t t' hi
  simp only [he, hn] at this
  show (s.thr.set i t').countP _ = _
  by_cases hx : x = e
  · subst hx; rw [upd_self]; simp at this; exact this
  · rw [upd_ne _ _ hx]
    have : decide (some e = some x) = false := by simp; exact fun h => hx h.symm
    simp_all [St.H]

theorem V_set_pin (hi : s.thr[i]? = some t) (hn : t.hd = none) {e : Nat} (he : t'.hd = some e) :
    (s.setT i t').V = upd s.V e (s.V e + 1) := by
  funext x
  have := countP_set (fun t => decide (t.hd = some x)) s.thr i t t' hi
  simp only [he, hn] at this
  show (s.thr.set i t').countP _ = _
  by_cases hx : x = e
  · subst hx; rw [upd_self]; simp at this; exact this
  · rw [upd_ne _ _ hx]
    have : decide (some e = some x) = false := by simp; exact fun h => hx h.symm
    simp_all [St.V]

theorem H_set_unpin (hi : s.thr[i]? = some t) {e : Nat} (he : t.ep = some e) (hn : t'.ep = none) :
    (s.setT i t').H = upd s.H e (s.H e - 1) := by
  funext x
  have := countP_set (fun t => decide (t.ep = some x)) s.thr i t t' hi
  simp only [he, hn] at this
  show (s.thr.set i t').countP _ = _
  by_cases hx : x = e
  · subst hx; rw [upd_self]; simp at this; simp [St.H]; omega
  · rw [upd_ne _ _ hx]
    have : decide (some e = some x) = false := by simp; exact fun h => hx h.symm
    simp_all [St.H]

theorem V_set_unpin (hi : s.thr[i]? = some t) {e : Nat} (he : t.hd = some e) (hn : t'.hd = none) :
    (s.setT i t').V = upd s.V e (s.V e - 1) := by
  funext x
  have := countP_set (fun t => decide (t.hd = some x)) s.thr i t t' hi
  simp only [he, hn] at this
  show (s.thr.set i t').countP _ = _
  by_cases hx : x = e
  · subst hx; rw [upd_self]; simp at this; simp [St.V]; omega
  · rw [upd_ne _ _ hx]
    have : decide (some e = some x) = false := by simp; exact fun h => hx h.symm
    simp_all [St.V]

end set

/-! ### Other threads are not disturbed -/

/-- What a step may change, from the point of view of a thread that does not move. -/
structure Stable (v v' : Sv) : Prop where
  tail : v.tail ≤ v'.tail
  head : v.head.idx ≤ v'.head.idx
  ehead : ∀ e, 0 < v.H e → v'.ehead e = v.ehead e
  old : ∀ h, 0 < v.V h → v.old.idx = h → v'.old.idx = h
  prev : ∀ e, 0 < v.H e → v.prev.ep = some e → v'.prev.ep = some e

theorem Stable.refl (v : Sv) : Stable v v := ⟨le_refl _, le_refl _, fun _ _ => rfl, fun _ _ h => h, fun _ _ h => h⟩

theorem Stable.loc {v v' : Sv} (h : Stable v v') {t : Th} (hH : ∀ e, t.ep = some e → 0 < v.H e)
    (hV : ∀ e, t.hd = some e → 0 < v.V e) (hl : Loc P v t) : Loc P v' t := by
  have hgh : ∀ {g : Nat}, (∃ e, t.ep = some e ∧ v.ehead e = g) → ∃ e, t.ep = some e ∧ v'.ehead e = g := by
    rintro g ⟨e, he, hg⟩
    exact ⟨e, he, (h.ehead e (hH e he)).trans hg⟩
  have hpr : t.ep ≠ none → v.prev.ep = t.ep → v'.prev.ep = t.ep := by
    intro hn hp
    obtain ⟨e, he⟩ := Option.ne_none_iff_exists'.mp hn
    rw [he] at hp ⊢
    exact h.prev e (hH e he) hp
  have hol : t.hd = some v.old.idx → v'.old.idx = v.old.idx := fun hh => h.old _ (hV _ hh) rfl
  refine ⟨?_, ?_⟩
  · have hl := hl.1
    unfold LocPc at hl ⊢
    revert hl
    cases t.pc <;> dsimp only <;> intro hl
    case ap3 => exact ⟨hl.1, lt_of_lt_of_le hl.2 (Nat.add_le_add_right h.head _)⟩
    case ap4 => exact ⟨hl.1, le_trans hl.2 h.tail⟩
    case ap5 => exact ⟨hl.1, lt_of_lt_of_le hl.2 h.tail⟩
    case ejP2 => exact ⟨hl.1, hl.2.1, hl.2.2.1, hpr hl.1 hl.2.2.2⟩
    case ejP3 => exact ⟨hl.1, hl.2.1, hl.2.2.1, hpr hl.1 hl.2.2.2.1, hl.2.2.2.2⟩
    case gh1 => exact ⟨hl.1, hl.2.imp (fun x => ⟨x.1, hgh x.2⟩) id⟩
    case ghO2 => exact ⟨hl.1, hl.2.imp (fun x => ⟨x.1, hgh x.2⟩) id⟩
    case ghB => exact ⟨hl.1, hl.2.imp (fun x => ⟨x.1, hgh x.2⟩) id⟩
    case ghH2 => exact ⟨hl.1, hl.2.imp (fun x => ⟨x.1, hgh x.2⟩) id⟩
    case ghO3 => exact ⟨hl.1, hl.2.1.imp (fun x => ⟨x.1, hgh x.2⟩) id, hl.2.2⟩
    case ghH3 => exact ⟨hl.1, hl.2.1.imp (fun x => ⟨x.1, hgh x.2⟩) id, hl.2.2⟩
    case rlO2 => rw [hol hl.1]; exact hl
    case rlO3 => rw [hol hl.1]; exact hl
    all_goals exact hl
  · intro x hx
    exact (hl.2 x hx).imp id (fun y => ⟨y.1, le_trans y.2 h.tail⟩)

/-! ### One step -/

theorem mem_set_cases {α : Type} {l : List α} {i : Nat} {a x : α} (h : x ∈ l.set i a) :
    x = a ∨ ∃ j, j ≠ i ∧ l[j]? = some x := by
  obtain ⟨j, hj⟩ := List.getElem?_of_mem h
  by_cases e : i = j
  · subst e
    have : i < l.length := by
      have := (List.getElem?_eq_some_iff.mp hj).1; simpa using this
    rw [List.getElem?_set_self this] at hj
    exact .inl (Option.some.inj hj).symm
  · rw [List.getElem?_set_ne e] at hj
    exact .inr ⟨j, fun h => e h.symm, hj⟩

theorem Inv.thread {s : St} (h : Inv P s) {i : Nat} {t : Th} (hi : s.thr[i]? = some t) : Loc P s.sv t :=
  h.loc t (List.mem_of_getElem? hi)

theorem Inv.phase {s : St} (h : Inv P s) {i : Nat} {t : Th} (hi : s.thr[i]? = some t) {ph : Ph} (hp : sect t = some ph) :
    Core P s.sv ph := h.core ph (.inr (.inr ⟨t, List.mem_of_getElem? hi, hp⟩))

/-- There is always a phase. -/
theorem Inv.some_phase {s : St} (h : Inv P s) : ∃ ph, IsPh s ph := by
  have hm := h.mutex
  unfold Mutex at hm
  cases hf : s.flag with
  | false => exact ⟨.A, .inl ⟨hf, rfl⟩⟩
  | true =>
    rw [hf] at hm
    cases hj : s.jobs with
    | cons e _ => exact ⟨.A1 e, .inr (.inl ⟨e, by simp [hj], rfl⟩)⟩
    | nil =>
      rw [hj] at hm
      simp only [List.length_nil, ite_true] at hm
      have : 0 < s.thr.countP (fun t => (sect t).isSome) := by omega
      obtain ⟨t, ht, hs⟩ := List.countP_pos_iff.mp this
      obtain ⟨ph, hp⟩ := Option.isSome_iff_exists.mp hs
      exact ⟨ph, .inr (.inr ⟨t, ht, hp⟩)⟩

/-- The thread running the reconstruction is alone. -/
theorem Inv.alone {s : St} (h : Inv P s) {i : Nat} {t : Th} (hi : s.thr[i]? = some t) {ph : Ph} (hp : sect t = some ph) :
    s.flag = true ∧ s.jobs = [] ∧ ∀ j u, j ≠ i → s.thr[j]? = some u → sect u = none := by
  have hm := h.mutex
  unfold Mutex at hm
  have h1 : 0 < s.thr.countP (fun t => (sect t).isSome) :=
    List.countP_pos_iff.mpr ⟨t, List.mem_of_getElem? hi, by simp [hp]⟩
  have hf : s.flag = true := by
    by_contra hf
    have hf : s.flag = false := by simpa using hf
    rw [hf] at hm
    simp only [Bool.false_eq_true, ite_false] at hm
    omega
  rw [hf] at hm
  simp only [ite_true] at hm
  refine ⟨hf, List.length_eq_zero_iff.mp (by omega), fun j u hj hu => ?_⟩
  by_contra hs
  have h2 := countP_set (fun t => (sect t).isSome) s.thr i t {} hi
  have h3 : 0 < (s.thr.set i {}).countP (fun t => (sect t).isSome) := by
    refine List.countP_pos_iff.mpr ⟨u, ?_, Option.isSome_iff_ne_none.mpr hs⟩
    refine List.mem_of_getElem? (i := j) ?_
    rw [List.getElem?_set_ne (Ne.symm hj)]; exact hu
  have h4 : (sect ({} : Th)).isSome = false := rfl
  simp only [hp, Option.isSome_some, ite_true, h4, Bool.false_eq_true, ite_false] at h2
  omega

/-- A thread moves without changing its role. `s₂` is the state with the shared changes made, `t'` the thread's new local state. -/
theorem Inv.move {s s₂ : St} (h : Inv P s) {i : Nat} {t t' : Th} (hi : s.thr[i]? = some t)
    (hthr : s₂.thr = s.thr) (hflag : s₂.flag = s.flag) (hjobs : s₂.jobs = s.jobs)
    (hst : Stable s.sv (s₂.setT i t').sv) (hloc : Loc P (s₂.setT i t').sv t')
    (hbnd : Bnd P (s₂.setT i t').sv)
    (hsect : (sect t').isSome = (sect t).isSome)
    (hcore : ∀ ph ph', (sect t = none ∧ ph = ph' ∨ sect t = some ph ∧ sect t' = some ph') → Core P s.sv ph →
      Core P (s₂.setT i t').sv ph') :
    Inv P (s₂.setT i t') := by
  refine ⟨?_, ?_, ?_, hbnd⟩
  · have hm := h.mutex
    unfold Mutex at hm ⊢
    have := countP_set (fun t => (sect t).isSome) s.thr i t t' hi
    rw [hsect] at this
    show (s₂.thr.set i t').countP _ + s₂.jobs.length = if s₂.flag then 1 else 0
    rw [hthr, hjobs, hflag, ← hm]; omega
  · intro u hu
    have hu : u ∈ s.thr.set i t' := hthr ▸ hu
    rcases mem_set_cases hu with rfl | ⟨j, hj, hju⟩
    · exact hloc
    · exact hst.loc (fun e he => H_pos hju he) (fun e he => V_pos hju he) (h.thread hju)
  · intro ph hph
    cases hs : sect t with
    | none =>
      have hs' : sect t' = none := by
        cases h' : sect t' with
        | none => rfl
        | some x => rw [hs, h'] at hsect; simp at hsect
      refine hcore ph ph (.inl ⟨hs, rfl⟩) (h.core ph ?_)
      rcases hph with ⟨hf, e⟩ | ⟨e, he, hp⟩ | ⟨u, hu, hp⟩
      · exact .inl ⟨hflag ▸ hf, e⟩
      · exact .inr (.inl ⟨e, hjobs ▸ he, hp⟩)
      · have hu : u ∈ s.thr.set i t' := hthr ▸ hu
        rcases mem_set_cases hu with rfl | ⟨j, hj, hju⟩
        · rw [hs'] at hp; cases hp
        · exact .inr (.inr ⟨u, List.mem_of_getElem? hju, hp⟩)
    | some ph0 =>
      obtain ⟨hf0, hj0, ha⟩ := h.alone hi hs
      rcases hph with ⟨hf, e⟩ | ⟨e, he, hp⟩ | ⟨u, hu, hp⟩
      · have : s₂.flag = false := hf
        rw [hflag, hf0] at this; cases this
      · have : e ∈ s₂.jobs := he
        rw [hjobs, hj0] at this; cases this
      · have hu : u ∈ s.thr.set i t' := hthr ▸ hu
        rcases mem_set_cases hu with rfl | ⟨j, hj, hju⟩
        · exact hcore ph0 ph (.inr ⟨hs, hp⟩) (h.phase hi hs)
        · rw [ha j u hj hju] at hp; cases hp

/-- A thread moves without touching the shared state and the pins. -/
theorem Inv.go {s : St} (h : Inv P s) {i : Nat} {t t' : Th} (hi : s.thr[i]? = some t) (he : t'.ep = t.ep) (hd : t'.hd = t.hd)
    (hloc : Loc P s.sv t') (hsect : sect t' = sect t) : Inv P (s.setT i t') := by
  have hv : (s.setT i t').sv = s.sv := by
    unfold St.sv
    rw [H_set_same hi he, V_set_same hi hd]; rfl
  refine h.move hi rfl rfl rfl (hv ▸ Stable.refl _) (hv ▸ hloc) (hv ▸ h.bnd) (by rw [hsect]) ?_
  intro ph ph' hp hc
  rw [hv]
  rcases hp with ⟨_, rfl⟩ | ⟨h1, h2⟩
  · exact hc
  · rw [hsect, h1] at h2; cases h2; exact hc

/-- The reconstruction moves to another phase without touching the shared state and the pins. -/
theorem Inv.goPh {s : St} (h : Inv P s) {i : Nat} {t t' : Th} (hi : s.thr[i]? = some t) (he : t'.ep = t.ep) (hd : t'.hd = t.hd)
    (hloc : Loc P s.sv t') {ph ph' : Ph} (h1 : sect t = some ph) (h2 : sect t' = some ph') (hc : Core P s.sv ph → Core P s.sv ph') :
    Inv P (s.setT i t') := by
  have hv : (s.setT i t').sv = s.sv := by
    unfold St.sv
    rw [H_set_same hi he, V_set_same hi hd]; rfl
  refine h.move hi rfl rfl rfl (hv ▸ Stable.refl _) (hv ▸ hloc) (hv ▸ h.bnd) (by rw [h1, h2]; rfl) ?_
  intro p p' hp hcp
  rw [hv]
  rcases hp with ⟨hn, _⟩ | ⟨h3, h4⟩
  · rw [h1] at hn; cases hn
  · rw [h1] at h3; rw [h2] at h4; cases h3; cases h4; exact hc hcp

/-- A thread moves and changes the shared state, keeping its phase, if it has one. -/
theorem Inv.act {s s₂ : St} (h : Inv P s) {i : Nat} {t t' : Th} (hi : s.thr[i]? = some t)
    (hthr : s₂.thr = s.thr) (hflag : s₂.flag = s.flag) (hjobs : s₂.jobs = s.jobs) {v' : Sv} (hv : (s₂.setT i t').sv = v')
    (hst : Stable s.sv v') (hloc : Loc P v' t') (hbnd : Bnd P v') (hsect : sect t' = sect t)
    (hcore : ∀ ph, (∀ x, sect t = some x → x = ph) → Core P s.sv ph → Core P v' ph) : Inv P (s₂.setT i t') := by
  subst hv
  refine h.move hi hthr hflag hjobs hst hloc hbnd (by rw [hsect]) ?_
  intro ph ph' hp hc
  rcases hp with ⟨h1, rfl⟩ | ⟨h1, h2⟩
  · exact hcore ph (fun x hx => by rw [h1] at hx; cases hx) hc
  · rw [hsect, h1] at h2; cases h2; exact hcore ph (fun x hx => by rw [h1] at hx; exact (Option.some.inj hx).symm) hc

/-- The reconstruction moves to another phase and changes the shared state. -/
theorem Inv.actPh {s s₂ : St} (h : Inv P s) {i : Nat} {t t' : Th} (hi : s.thr[i]? = some t)
    (hthr : s₂.thr = s.thr) (hflag : s₂.flag = s.flag) (hjobs : s₂.jobs = s.jobs) {v' : Sv} (hv : (s₂.setT i t').sv = v')
    (hst : Stable s.sv v') (hloc : Loc P v' t') (hbnd : Bnd P v') {ph ph' : Ph} (h1 : sect t = some ph) (h2 : sect t' = some ph')
    (hcore : Core P s.sv ph → Core P v' ph') : Inv P (s₂.setT i t') := by
  subst hv
  refine h.move hi hthr hflag hjobs hst hloc hbnd (by rw [h1, h2]; rfl) ?_
  intro p p' hp hcp
  rcases hp with ⟨hn, _⟩ | ⟨h3, h4⟩
  · rw [h1] at hn; cases hn
  · rw [h1] at h3; rw [h2] at h4; cases h3; cases h4; exact hcore hcp

end DE.Conc
