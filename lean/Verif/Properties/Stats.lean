import Verif.Model.Stats

/-!
C82: the scheduler statistics are exact.
-/

namespace DE.Stats
variable {n : Nat} {s s' : St} {i : Nat} {c : Nat × Nat}

/-- The lengths logged with type `ty`. -/
def lengths (s : St) (ty : Nat) : List Nat := (s.calls.filter (fun c => c.2 = ty)).map Prod.fst

/-- Any step. -/
def any : St → Nat → Nat × Nat → Prop := fun _ _ _ => True

/-- No call begins while another one of the same type is in progress. -/
def apart : St → Nat → Nat × Nat → Prop := fun s i c =>
  s.thr[i]? = some .idle → ∀ p ∈ s.thr, match p with
    | .idle => True
    | .a1 _ ty | .a2 _ ty | .a3 _ ty | .a4 _ ty => ty ≠ c.2

/-- Not yet counted. -/
def pendC (ty : Nat) : PC → Nat
  | .a1 _ t => if t = ty then 1 else 0
  | _ => 0
/-- Length not yet added. -/
def pendT (ty : Nat) : PC → Nat
  | .a1 len t | .a2 len t => if t = ty then len else 0
  | _ => 0

theorem sum_set {g : PC → Nat} {l : List PC} {i : Nat} {p q : PC} (hi : l[i]? = some p) : ((l.set i q).map g).sum + g p = (l.map g).sum + g q := by
  induction l generalizing i with
  | nil => simp at hi
  | cons a l ih =>
    cases i with
    | zero => simp at hi; subst hi; simp; omega
    | succ i =>
      have := ih (i := i) (by simpa using hi)
      simp only [List.set_cons_succ, List.map_cons, List.sum_cons]; omega

theorem counts {ok : St → Nat → Nat × Nat → Prop} (h : Reach n ok s) (ty : Nat) :
    ((s.st ty).cnt + (s.thr.map (pendC ty)).sum) % 2 ^ 64 = (lengths s ty).length % 2 ^ 64 ∧
    ((s.st ty).total + (s.thr.map (pendT ty)).sum) % 2 ^ 64 = (lengths s ty).sum % 2 ^ 64 := by
  induction h with
  | init =>
    have h0 : ∀ g : PC → Nat, g .idle = 0 → ((List.replicate n PC.idle).map g).sum = 0 := by
      intro g hg; simp [List.map_replicate, hg]
    have z1 := h0 (pendC ty) rfl
    have z2 := h0 (pendT ty) rfl
    show (0 + ((List.replicate n PC.idle).map (pendC ty)).sum) % _ = _ ∧ (0 + ((List.replicate n PC.idle).map (pendT ty)).sum) % _ = _
    rw [z1, z2]; exact ⟨rfl, rfl⟩
  | @step s s' i c _ _ hs ih =>
    obtain ⟨ih1, ih2⟩ := ih
    unfold step at hs
    split at hs
    · cases hs
    · rename_i hi
      split at hs <;> cases hs
      have e1 := sum_set (g := pendC ty) (q := .a1 c.1 c.2) hi
      have e2 := sum_set (g := pendT ty) (q := .a1 c.1 c.2) hi
      simp only [St.setT, lengths, List.filter_cons, pendC, pendT] at e1 e2 ih1 ih2 ⊢
      by_cases hc : c.2 = ty
      · simp only [hc, decide_true, if_true, List.map_cons, List.length_cons, List.sum_cons] at e1 e2 ⊢
        constructor <;> omega
      · simp only [hc, decide_false, if_false, Bool.false_eq_true] at e1 e2 ⊢
        constructor <;> omega
    · rename_i len t hi
      cases hs
      have e1 := sum_set (g := pendC ty) (q := .a2 len t) hi
      have e2 := sum_set (g := pendT ty) (q := .a2 len t) hi
      simp only [St.setT, St.setS, lengths, pendC, pendT] at e1 e2 ih1 ih2 ⊢
      by_cases hc : ty = t
      · subst hc; simp only [if_true] at e1 e2 ⊢
        constructor <;> omega
      · rw [if_neg hc]; simp only [Ne.symm hc, if_false] at e1 e2 ⊢
        constructor <;> omega
    · rename_i len t hi
      cases hs
      have e1 := sum_set (g := pendC ty) (q := .a3 len t) hi
      have e2 := sum_set (g := pendT ty) (q := .a3 len t) hi
      simp only [St.setT, St.setS, lengths, pendC, pendT] at e1 e2 ih1 ih2 ⊢
      by_cases hc : ty = t
      · subst hc; simp only [if_true] at e1 e2 ⊢
        constructor <;> omega
      · rw [if_neg hc]; simp only [Ne.symm hc, if_false] at e1 e2 ⊢
        constructor <;> omega
    · rename_i len t hi
      cases hs
      have e1 := sum_set (g := pendC ty) (q := if len > (s.st t).largest then .a4 len t else .idle) hi
      have e2 := sum_set (g := pendT ty) (q := if len > (s.st t).largest then .a4 len t else .idle) hi
      have p1 : pendC ty (if len > (s.st t).largest then .a4 len t else .idle) = 0 := by split <;> rfl
      have p2 : pendT ty (if len > (s.st t).largest then .a4 len t else .idle) = 0 := by split <;> rfl
      rw [p1] at e1
      rw [p2] at e2
      have p3 : pendC ty (.a3 len t) = 0 := rfl
      have p4 : pendT ty (.a3 len t) = 0 := rfl
      simp only [St.setT, lengths] at e1 e2 ih1 ih2 ⊢
      constructor <;> omega
    · rename_i len t hi
      cases hs
      have e1 := sum_set (g := pendC ty) (q := .idle) hi
      have e2 := sum_set (g := pendT ty) (q := .idle) hi
      have p3 : pendC ty (.a4 len t) = 0 := rfl
      have p4 : pendT ty (.a4 len t) = 0 := rfl
      have p5 : pendC ty .idle = 0 := rfl
      have p6 : pendT ty .idle = 0 := rfl
      simp only [St.setT, St.setS, lengths] at e1 e2 ih1 ih2 ⊢
      by_cases hc : ty = t
      · subst hc; simp only [if_true] at e1 e2 ⊢
        constructor <;> omega
      · rw [if_neg hc]
        constructor <;> omega

/-- C82, counts and totals: in every interleaving, once no call is in progress, the job count is the number of calls and the total
time the sum of the logged lengths (as 64-bit numbers). -/
theorem C82_counts (h : Reach n any s) (hidle : ∀ p ∈ s.thr, p = .idle) (ty : Nat) :
    (s.st ty).cnt % 2 ^ 64 = (lengths s ty).length % 2 ^ 64 ∧ (s.st ty).total % 2 ^ 64 = (lengths s ty).sum % 2 ^ 64 := by
  have hz : ∀ g : PC → Nat, g .idle = 0 → (s.thr.map g).sum = 0 := by
    intro g hg
    clear h
    generalize s.thr = l at hidle
    induction l with
    | nil => rfl
    | cons a l ih =>
      rw [List.map_cons, List.sum_cons, hidle a (by simp), hg, ih (fun p hp => hidle p (by simp [hp]))]
  have := counts h ty
  rw [hz _ rfl, hz _ rfl] at this
  simpa using this

/-- The call a thread is in. -/
def callOf : PC → Option (Nat × Nat)
  | .idle => none
  | .a1 len ty | .a2 len ty | .a3 len ty | .a4 len ty => some (len, ty)

/-- What a step does to the calls in progress and to the largest time. -/
theorem step_cases (hs : step s i c = .ok (some s')) : ∃ p q, s.thr[i]? = some p ∧ s'.thr = s.thr.set i q ∧
    ((p = .idle ∧ callOf q = some c ∧ (∀ l t, q ≠ .a4 l t) ∧ s'.calls = c :: s.calls ∧ ∀ ty, (s'.st ty).largest = (s.st ty).largest) ∨
     (s'.calls = s.calls ∧ ∃ len ty, callOf p = some (len, ty) ∧
       ((callOf q = some (len, ty) ∧ (∀ l t, q = .a4 l t → (s.st ty).largest < len) ∧ ∀ y, (s'.st y).largest = (s.st y).largest) ∨
        (q = .idle ∧ (∀ l t, p ≠ .a4 l t) ∧ len ≤ (s.st ty).largest ∧ ∀ y, (s'.st y).largest = (s.st y).largest) ∨
        (p = .a4 len ty ∧ q = .idle ∧ ∀ y, (s'.st y).largest = if y = ty then len else (s.st y).largest)))) := by
  have e : ∀ (t : Nat) (x : Stat), x.largest = (s.st t).largest → ∀ y, (if y = t then x else s.st y).largest = (s.st y).largest := by
    intro t x hx y
    split
    · rename_i h; rw [h, hx]
    · rfl
  unfold step at hs
  split at hs
  · cases hs
  · rename_i hi
    split at hs <;> cases hs
    exact ⟨_, _, hi, rfl, .inl ⟨rfl, rfl, by simp, rfl, fun _ => rfl⟩⟩
  · rename_i len t hi
    cases hs
    exact ⟨_, _, hi, rfl, .inr ⟨rfl, len, t, rfl, .inl ⟨rfl, by simp, e t _ rfl⟩⟩⟩
  · rename_i len t hi
    cases hs
    exact ⟨_, _, hi, rfl, .inr ⟨rfl, len, t, rfl, .inl ⟨rfl, by simp, e t _ rfl⟩⟩⟩
  · rename_i len t hi
    cases hs
    refine ⟨_, _, hi, rfl, .inr ⟨rfl, len, t, rfl, ?_⟩⟩
    by_cases hl : len > (s.st t).largest
    · rw [if_pos hl]; exact .inl ⟨rfl, fun _ _ _ => hl, fun _ => rfl⟩
    · rw [if_neg hl]; exact .inr (.inl ⟨rfl, by simp, by omega, fun _ => rfl⟩)
  · rename_i len t hi
    cases hs
    refine ⟨_, _, hi, rfl, .inr ⟨rfl, len, t, rfl, .inr (.inr ⟨rfl, rfl, fun y => ?_⟩)⟩⟩
    show (if y = t then _ else _ : Stat).largest = _
    split <;> rfl

theorem mem_lengths {l ty : Nat} : l ∈ lengths s ty ↔ (l, ty) ∈ s.calls := by
  unfold lengths
  rw [List.mem_map]
  constructor
  · rintro ⟨⟨a, b⟩, h, rfl⟩
    rw [List.mem_filter] at h
    have : b = ty := by simpa using h.2
    rw [← this]; exact h.1
  · intro h; exact ⟨(l, ty), List.mem_filter.mpr ⟨h, by simp⟩, rfl⟩

theorem of_set {l : List PC} {i : Nat} {q r : PC} (h : r ∈ l.set i q) : r = q ∨ r ∈ l := by
  rcases List.mem_or_eq_of_mem_set h with h | h
  · exact .inr h
  · exact .inl h

theorem logged {ok : St → Nat → Nat × Nat → Prop} (h : Reach n ok s) :
    (∀ p ∈ s.thr, ∀ x, callOf p = some x → x ∈ s.calls) ∧ ∀ ty, (s.st ty).largest = 0 ∨ ((s.st ty).largest, ty) ∈ s.calls := by
  induction h with
  | init => exact ⟨(fun p hp x hx => by rw [(List.mem_replicate.mp hp).2] at hx; cases hx), fun _ => .inl rfl⟩
  | step _ _ hs ih =>
    obtain ⟨ih1, ih2⟩ := ih
    obtain ⟨p, q, h1, h2, h3⟩ := step_cases hs
    have hp := List.mem_of_getElem? h1
    rw [h2]
    rcases h3 with ⟨-, k2, -, k4, k5⟩ | ⟨k1, len, ty, k2, k3⟩
    · rw [k4]
      constructor
      · intro r hr x hx
        rcases of_set hr with rfl | hr
        · rw [k2] at hx; cases hx; simp
        · exact List.mem_cons_of_mem _ (ih1 r hr x hx)
      · intro ty
        rw [k5]
        exact (ih2 ty).imp id (List.mem_cons_of_mem _)
    · rw [k1]
      have hc := ih1 p hp _ k2
      constructor
      · intro r hr x hx
        rcases of_set hr with rfl | hr
        · rcases k3 with ⟨k3, -⟩ | ⟨k3, -⟩ | ⟨-, k3, -⟩
          · rw [k3] at hx; cases hx; exact hc
          · rw [k3] at hx; cases hx
          · rw [k3] at hx; cases hx
        · exact ih1 r hr x hx
      · intro y
        rcases k3 with ⟨-, -, k3⟩ | ⟨-, -, -, k3⟩ | ⟨-, -, k3⟩
        · rw [k3]; exact ih2 y
        · rw [k3]; exact ih2 y
        · rw [k3]
          split
          · rename_i hy; subst hy; exact .inr hc
          · exact ih2 y

/-- C82, largest time, every interleaving: never more than the true maximum, and (unless it is 0) one of the logged lengths. -/
theorem C82_largest_partial (h : Reach n any s) (ty : Nat) : (s.st ty).largest = 0 ∨ (s.st ty).largest ∈ lengths s ty := by
  rw [mem_lengths]; exact (logged h).2 ty

theorem apart_inv (h : Reach n apart s) :
    (∀ (i j : Nat) p q x y, s.thr[i]? = some p → s.thr[j]? = some q → callOf p = some x → callOf q = some y → x.2 = y.2 → i = j) ∧
    (∀ l t, .a4 l t ∈ s.thr → (s.st t).largest < l) ∧
    ∀ x ∈ s.calls, x.1 ≤ (s.st x.2).largest ∨ ∃ p ∈ s.thr, callOf p = some x := by
  induction h with
  | init =>
    refine ⟨fun i j p q x y hp _ hx => ?_, fun l t h => ?_, fun x hx => by cases hx⟩
    · have := List.mem_of_getElem? hp
      rw [(List.mem_replicate.mp this).2] at hx; cases hx
    · cases (List.mem_replicate.mp h).2
  | @step s s' i c _ hok hs ih =>
    obtain ⟨ih1, ih2, ih3⟩ := ih
    obtain ⟨p, q, h1, h2, h3⟩ := step_cases hs
    have hlt := (List.getElem?_eq_some_iff.mp h1).1
    have hself : (s.thr.set i q)[i]? = some q := List.getElem?_set_self hlt
    have hq : q ∈ s.thr.set i q := List.mem_of_getElem? hself
    have get : ∀ {j r}, (s.thr.set i q)[j]? = some r → (j = i ∧ r = q) ∨ (j ≠ i ∧ s.thr[j]? = some r) := by
      intro j r h
      by_cases hj : j = i
      · subst hj; rw [hself] at h; exact .inl ⟨rfl, (Option.some.inj h).symm⟩
      · rw [List.getElem?_set_ne (Ne.symm hj)] at h; exact .inr ⟨hj, h⟩
    have put : ∀ {r}, r ∈ s.thr → r ≠ p → r ∈ s.thr.set i q := by
      intro r hr hne
      obtain ⟨j, hj⟩ := List.mem_iff_getElem?.mp hr
      refine List.mem_iff_getElem?.mpr ⟨j, ?_⟩
      have : j ≠ i := by rintro rfl; rw [h1] at hj; cases hj; exact hne rfl
      rw [List.getElem?_set_ne (Ne.symm this)]; exact hj
    rw [h2]
    rcases h3 with ⟨k1, k2, k3, k4, k5⟩ | ⟨k1, len, ty, k2, k3⟩
    · subst k1
      have hfree : ∀ r ∈ s.thr, ∀ x, callOf r = some x → x.2 ≠ c.2 := by
        intro r hr x hx
        have := hok h1 r hr
        cases r <;> simp only [callOf] at hx <;> cases hx <;> exact this
      refine ⟨?_, ?_, ?_⟩
      · intro a b r r' x y ha hb hx hy hxy
        rcases get ha with ⟨a1, a2⟩ | ⟨a1, a2⟩ <;> rcases get hb with ⟨b1, b2⟩ | ⟨b1, b2⟩
        · rw [a1, b1]
        · subst a2; rw [k2] at hx; cases hx
          exact absurd hxy.symm (hfree _ (List.mem_of_getElem? b2) _ hy)
        · subst b2; rw [k2] at hy; cases hy
          exact absurd hxy (hfree _ (List.mem_of_getElem? a2) _ hx)
        · exact ih1 _ _ _ _ _ _ a2 b2 hx hy hxy
      · intro l t h
        rw [k5]
        rcases of_set h with h | h
        · exact absurd h.symm (k3 l t)
        · exact ih2 l t h
      · intro x hx
        rw [k4] at hx
        rw [k5]
        rcases List.mem_cons.mp hx with rfl | hx
        · exact .inr ⟨q, hq, k2⟩
        · rcases ih3 x hx with h | ⟨r, hr, hrx⟩
          · exact .inl h
          · exact .inr ⟨r, put hr (by rintro rfl; cases hrx), hrx⟩
    · have huniq : ∀ r ∈ s.thr, ∀ x, callOf r = some x → x.2 = ty → r = p := by
        intro r hr x hx hxt
        obtain ⟨j, hj⟩ := List.mem_iff_getElem?.mp hr
        have := ih1 j i r p x (len, ty) hj h1 hx k2 hxt
        subst this; rw [h1] at hj; exact (Option.some.inj hj).symm
      have hcall : ∀ x, callOf q = some x → x = (len, ty) := by
        intro x hx
        rcases k3 with ⟨k3, -⟩ | ⟨k3, -⟩ | ⟨-, k3, -⟩
        · rw [k3] at hx; cases hx; rfl
        · rw [k3] at hx; cases hx
        · rw [k3] at hx; cases hx
      refine ⟨?_, ?_, ?_⟩
      · intro a b r r' x y ha hb hx hy hxy
        rcases get ha with ⟨a1, a2⟩ | ⟨a1, a2⟩ <;> rcases get hb with ⟨b1, b2⟩ | ⟨b1, b2⟩
        · rw [a1, b1]
        · subst a2
          have := hcall x hx; subst this
          exact a1.trans (ih1 i b p r' (len, ty) y h1 b2 k2 hy hxy)
        · subst b2
          have := hcall y hy; subst this
          exact (ih1 a i r p x (len, ty) a2 h1 hx k2 hxy).trans b1.symm
        · exact ih1 _ _ _ _ _ _ a2 b2 hx hy hxy
      · intro l t h
        obtain ⟨j, hj⟩ := List.mem_iff_getElem?.mp h
        rcases get hj with ⟨-, h⟩ | ⟨hne, h⟩
        · have hlt' := hcall (l, t) (by rw [← h]; rfl)
          cases hlt'
          rcases k3 with ⟨-, k4, k5⟩ | ⟨k3, -⟩ | ⟨-, k3, -⟩
          · rw [k5]; exact k4 _ _ h.symm
          · rw [k3] at h; cases h
          · rw [k3] at h; cases h
        · have hm := List.mem_of_getElem? h
          rcases k3 with ⟨-, -, k5⟩ | ⟨-, -, -, k5⟩ | ⟨k3, -, k5⟩
          · rw [k5]; exact ih2 l t hm
          · rw [k5]; exact ih2 l t hm
          · rw [k5]
            split
            · rename_i ht; subst ht
              exact absurd (ih1 j i _ p (l, t) (len, t) h h1 rfl k2 rfl) hne
            · exact ih2 l t hm
      · intro x hx
        rw [k1] at hx
        rcases ih3 x hx with h | ⟨r, hr, hrx⟩
        · left
          rcases k3 with ⟨-, -, k5⟩ | ⟨-, -, -, k5⟩ | ⟨k3, -, k5⟩
          · rw [k5]; exact h
          · rw [k5]; exact h
          · rw [k5]
            split
            · rename_i ht
              have := ih2 len ty (k3 ▸ List.mem_of_getElem? h1)
              rw [ht] at h; omega
            · exact h
        · by_cases hrp : r = p
          · subst hrp
            rw [k2] at hrx; cases hrx
            rcases k3 with ⟨k3, -⟩ | ⟨-, -, k4, k5⟩ | ⟨-, -, k5⟩
            · exact .inr ⟨q, hq, k3⟩
            · left; rw [k5]; exact k4
            · left; rw [k5, if_pos rfl]; exact Nat.le_refl len
          · exact .inr ⟨r, put hr hrp, hrx⟩

/-- C82, largest time, calls of one type not overlapping: exactly the maximum of the logged lengths. -/
theorem C82_largest_apart_partial (h : Reach n apart s) (hidle : ∀ p ∈ s.thr, p = .idle) (ty : Nat) :
    (∀ l ∈ lengths s ty, l ≤ (s.st ty).largest) ∧ ((s.st ty).largest = 0 ∨ (s.st ty).largest ∈ lengths s ty) := by
  refine ⟨fun l hl => ?_, by rw [mem_lengths]; exact (logged h).2 ty⟩
  rcases (apart_inv h).2.2 (l, ty) (mem_lengths.mp hl) with h1 | ⟨p, hp, h1⟩
  · exact h1
  · rw [hidle p hp] at h1; cases h1

/-- Execute a schedule, giving up at a step that is not allowed. -/
def run (ok : St → Nat → Nat × Nat → Bool) : List (Nat × (Nat × Nat)) → St → Option St
  | [], s => some s
  | (i, c) :: l, s =>
    match ok s i c, step s i c with
    | true, .ok (some s') => run ok l s'
    | _, _ => none

theorem run_reach {okB : St → Nat → Nat × Nat → Bool} {ok : St → Nat → Nat × Nat → Prop} (hok : ∀ s i c, okB s i c = true → ok s i c)
    (l : List (Nat × (Nat × Nat))) : ∀ {s s' : St}, Reach n ok s → run okB l s = some s' → Reach n ok s' := by
  induction l with
  | nil => intro s s' h hr; cases hr; exact h
  | cons a l ih =>
    intro s s' h hr
    unfold run at hr
    split at hr
    · rename_i s1 h0 h1
      exact ih (h.step (hok _ _ _ h0) h1) hr
    · cases hr

/-- Decides a stronger form of `apart`. -/
def apartB (s : St) (i : Nat) (c : Nat × Nat) : Bool :=
  s.thr[i]? != some .idle || s.thr.all (fun p => match p with
    | .idle => true
    | .a1 _ ty | .a2 _ ty | .a3 _ ty | .a4 _ ty => ty != c.2)

theorem apartB_sound (s : St) (i : Nat) (c : Nat × Nat) (h : apartB s i c = true) : apart s i c := by
  intro hi p hp
  unfold apartB at h
  rw [hi, Bool.or_eq_true, List.all_eq_true] at h
  rcases h with h | h
  · simp at h
  · have := h p hp
    cases p <;> simp_all

/-- C82 is false of the largest time: two queries of 5 and 9 time units finish together, both read the maximum 0, 9 is stored, then 5:
the reported maximum is 5. -/
theorem C82_false : ∃ s, Reach 2 any s ∧ (∀ p ∈ s.thr, p = .idle) ∧ lengths s 1 = [9, 5] ∧ (s.st 1).largest = 5 := by
  have h : (run (fun _ _ _ => true) [(0, (5, 1)), (1, (9, 1)), (0, (0, 0)), (0, (0, 0)), (1, (0, 0)), (1, (0, 0)), (0, (0, 0)), (1, (0, 0)), (1, (0, 0)), (0, (0, 0))] (init 2)).any
      (fun s => decide (s.thr = [.idle, .idle] ∧ s.calls = [(9, 1), (5, 1)] ∧ (s.st 1).largest = 5)) = true := by decide
  rw [Option.any_eq_true] at h
  obtain ⟨s, h1, h2⟩ := h
  rw [decide_eq_true_eq] at h2
  obtain ⟨a, b, d⟩ := h2
  refine ⟨s, run_reach (fun _ _ _ _ => trivial) _ .init h1, ?_, ?_, d⟩
  · rw [a]; simp
  · unfold lengths; rw [b]; rfl

/-- The hypotheses of `C82_largest_apart_partial`: a query of 9 and one of 5, a reconstruction of 100 logged at the same time as the first. -/
example : ∃ s, Reach 2 apart s ∧ (∀ p ∈ s.thr, p = .idle) ∧ lengths s 1 = [5, 9] ∧ lengths s 2 = [100] ∧ (s.st 1).largest = 9 ∧ (s.st 2).largest = 100 := by
  have h : (run apartB [(0, (9, 1)), (1, (100, 2)), (0, (0, 0)), (1, (0, 0)), (0, (0, 0)), (1, (0, 0)), (0, (0, 0)), (1, (0, 0)), (0, (0, 0)), (1, (0, 0)),
      (0, (5, 1)), (0, (0, 0)), (0, (0, 0)), (0, (0, 0))] (init 2)).any
      (fun s => decide (s.thr = [.idle, .idle] ∧ s.calls = [(5, 1), (100, 2), (9, 1)] ∧ (s.st 1).largest = 9 ∧ (s.st 2).largest = 100)) = true := by decide
  rw [Option.any_eq_true] at h
  obtain ⟨s, h1, h2⟩ := h
  rw [decide_eq_true_eq] at h2
  obtain ⟨a, b, d⟩ := h2
  refine ⟨s, run_reach apartB_sound _ .init h1, ?_, ?_, ?_, d⟩
  · rw [a]; simp
  · unfold lengths; rw [b]; rfl
  · unfold lengths; rw [b]; rfl

end DE.Stats
