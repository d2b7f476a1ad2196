import Verif.Model.Ownership
import Mathlib.Algebra.BigOperators.Group.Finset.Basic
import Mathlib.Algebra.BigOperators.Intervals
import Mathlib.Algebra.Order.Group.Multiset
import Mathlib.Tactic.Abel

/-!
Reference counts are exact: the number kept for each object is the number of pointers to it.
-/

namespace DE.Rc
variable {R : Type} {L : Layout} {I : ShardImpl R}
open Snap

/-- The non-null pointers of a list. -/
def nn (l : List (Option Nat)) : Multiset Nat := (l.filterMap id : List Nat)

@[simp] theorem nn_nil : nn [] = 0 := rfl
@[simp] theorem nn_none (l : List (Option Nat)) : nn (none :: l) = nn l := rfl
@[simp] theorem nn_some (a : Nat) (l : List (Option Nat)) : nn (some a :: l) = a ::ₘ nn l := rfl

theorem nn_append (l m : List (Option Nat)) : nn (l ++ m) = nn l + nn m := by
  unfold nn; rw [List.filterMap_append, Multiset.coe_add]

theorem nn_cons (o : Option Nat) (l : List (Option Nat)) : nn (o :: l) = nn [o] + nn l := nn_append [o] l

theorem nn_replicate (n : Nat) : nn (List.replicate n none) = 0 := by
  induction n with
  | zero => rfl
  | succ n ih => rw [List.replicate_succ, nn_none, ih]

theorem mem_nn {l : List (Option Nat)} {a : Nat} : a ∈ nn l ↔ some a ∈ l := by
  unfold nn
  rw [Multiset.mem_coe, List.mem_filterMap]
  constructor
  · rintro ⟨o, ho, e⟩
    cases o with
    | none => cases e
    | some b => cases e; exact ho
  · exact fun h => ⟨some a, h, rfl⟩

theorem nn_set (l : List (Option Nat)) (i : Nat) (hi : i < l.length) (a : Nat) :
    nn (l.set i (some a)) + nn [(l[i]?).join] = a ::ₘ nn l := by
  induction l generalizing i with
  | nil => simp at hi
  | cons o l ih =>
    cases i with
    | zero =>
      rw [List.set_cons_zero, nn_some, nn_cons o l, List.getElem?_cons_zero]
      simp [add_comm]
    | succ i =>
      rw [List.set_cons_succ, nn_cons o, nn_cons o l, List.getElem?_cons_succ, add_assoc, ih i (by simpa using hi)]
      simp

/-- The pointers a level owns. -/
def ptrs (l : HLevel) : Multiset Nat := nn (l.pending :: l.shards)

/-- The pointers owned by the levels that are alive. -/
def held (x : RHeap R) : Multiset Nat :=
  ∑ a ∈ Finset.range x.h.lv.length, if x.lrc a = 0 then 0 else ptrs (x.h.lv.getD a (HLevel.new 0 0))

/-- `Ls` and `Ss` are the references to levels and shards held outside of the heap. -/
structure Inv (x : RHeap R) (Ls Ss : Multiset Nat) : Prop where
  lrc : ∀ a, x.lrc a = Ls.count a
  lvLt : ∀ a ∈ Ls, a < x.h.lv.length
  src : ∀ a, x.src a = (Ss + held x).count a
  shLt : ∀ a ∈ Ss + held x, a < x.h.sh.length
  cnt : ∀ l ∈ x.h.lv, l.cnt ≤ l.shards.length

variable {x : RHeap R} {Ls Ss : Multiset Nat}

theorem Inv.congr (i : Inv x Ls Ss) {Ls' Ss' : Multiset Nat} (h1 : Ls = Ls') (h2 : Ss = Ss') : Inv x Ls' Ss' := h1 ▸ h2 ▸ i

theorem Inv.lrc_pos (i : Inv x Ls Ss) {a : Nat} (h : a ∈ Ls) : x.lrc a ≠ 0 := by
  rw [i.lrc]; exact Multiset.count_ne_zero.mpr h

theorem Inv.src_pos (i : Inv x Ls Ss) {a : Nat} (h : a ∈ Ss + held x) : x.src a ≠ 0 := by
  rw [i.src]; exact Multiset.count_ne_zero.mpr h

theorem Inv.useL_eq (i : Inv x Ls Ss) {a : Nat} (h : a ∈ Ls) : useL x a = getR x.h.lv a := by
  unfold useL; rw [if_neg (i.lrc_pos h)]

theorem Inv.level (i : Inv x Ls Ss) {a : Nat} (h : a ∈ Ls) : ∃ l, x.h.lv[a]? = some l ∧ useL x a = .ok l := by
  rw [i.useL_eq h]
  have := i.lvLt a h
  refine ⟨x.h.lv[a], List.getElem?_eq_getElem this, ?_⟩
  unfold getR; rw [List.getElem?_eq_getElem this]

theorem Inv.held_mem (i : Inv x Ls Ss) {a : Nat} {l : HLevel} (h : a ∈ Ls) (hl : x.h.lv[a]? = some l) {s : Nat} (hs : s ∈ ptrs l) :
    s ∈ held x := by
  unfold held
  rw [Multiset.mem_sum]
  refine ⟨a, Finset.mem_range.mpr (i.lvLt a h), ?_⟩
  rw [if_neg (i.lrc_pos h), List.getD_eq_getElem?_getD, hl]
  exact hs

theorem Inv.useSs_eq (i : Inv x Ls Ss) : ∀ {l : List (Option Nat)}, (∀ a, some a ∈ l → a ∈ Ss + held x) → useSs x l = .ok ()
  | [], _ => rfl
  | none :: l, h => by
    show useSs x l = _
    exact i.useSs_eq (fun a ha => h a (List.mem_cons_of_mem _ ha))
  | some b :: l, h => by
    unfold useSs useS
    rw [if_neg (i.src_pos (h b List.mem_cons_self))]
    exact i.useSs_eq (fun a ha => h a (List.mem_cons_of_mem _ ha))

/-- Using the shards of a level that is alive. -/
theorem Inv.use_level (i : Inv x Ls Ss) {a : Nat} {l : HLevel} (h : a ∈ Ls) (hl : x.h.lv[a]? = some l) {o : List (Option Nat)}
    (ho : ∀ s, some s ∈ o → some s ∈ l.shards) : useSs x o = .ok () := by
  apply i.useSs_eq
  intro s hs
  rw [Multiset.mem_add]
  refine Or.inr (i.held_mem h hl ?_)
  unfold ptrs
  rw [mem_nn]
  exact List.mem_cons_of_mem _ (ho s hs)

theorem put_self (f : Nat → Nat) (a n : Nat) : put f a n a = n := by simp [put]
theorem put_ne (f : Nat → Nat) {a b : Nat} (n : Nat) (h : b ≠ a) : put f a n b = f b := by simp [put, h]

theorem Inv.newShard (i : Inv x Ls Ss) (s : Shard R) : Inv (newShard x s).1 Ls (x.h.sh.length ::ₘ Ss) := by
  have hh : held (Rc.newShard x s).1 = held x := rfl
  refine ⟨i.lrc, i.lvLt, ?_, ?_, i.cnt⟩
  · intro a
    rw [hh, Multiset.cons_add, Multiset.count_cons, ← i.src]
    show put x.src x.h.sh.length 1 a = _
    by_cases e : a = x.h.sh.length
    · subst e
      rw [put_self, if_pos rfl]
      have : x.src x.h.sh.length = 0 := by
        rw [i.src, Multiset.count_eq_zero]
        intro hm
        exact absurd (i.shLt _ hm) (lt_irrefl _)
      omega
    · rw [put_ne _ _ e, if_neg e]; rfl
  · intro a ha
    rw [hh, Multiset.cons_add, Multiset.mem_cons] at ha
    show a < (x.h.sh ++ [s]).length
    rw [List.length_append, List.length_singleton]
    rcases ha with rfl | ha
    · exact Nat.lt_succ_self _
    · exact Nat.lt_succ_of_lt (i.shLt a ha)

theorem Inv.newLevel {l : HLevel} (i : Inv x Ls (ptrs l + Ss)) (hc : l.cnt ≤ l.shards.length) : Inv (newLevel x l).1 (x.h.lv.length ::ₘ Ls) Ss := by
  have h0 : x.lrc x.h.lv.length = 0 := by
    rw [i.lrc, Multiset.count_eq_zero]
    intro hm
    exact absurd (i.lvLt _ hm) (lt_irrefl _)
  have hh : held (Rc.newLevel x l).1 = held x + ptrs l := by
    unfold held
    show ∑ a ∈ Finset.range (x.h.lv ++ [l]).length, (if put x.lrc x.h.lv.length 1 a = 0 then 0 else ptrs ((x.h.lv ++ [l]).getD a _)) = _
    rw [List.length_append, List.length_singleton, Finset.sum_range_succ]
    congr 1
    · apply Finset.sum_congr rfl
      intro a ha
      have ha := Finset.mem_range.mp ha
      rw [put_ne _ _ (by omega)]
      rw [List.getD_eq_getElem?_getD, List.getD_eq_getElem?_getD, List.getElem?_append_left ha]
    · rw [put_self, if_neg (by omega), List.getD_eq_getElem?_getD, List.getElem?_append_right (le_refl _)]
      simp
  refine ⟨?_, ?_, ?_, ?_, ?_⟩
  · intro a
    show put x.lrc x.h.lv.length 1 a = _
    rw [Multiset.count_cons, ← i.lrc]
    by_cases e : a = x.h.lv.length
    · subst e; rw [put_self, if_pos rfl, h0]
    · rw [put_ne _ _ e, if_neg e]; rfl
  · intro a ha
    show a < (x.h.lv ++ [l]).length
    rw [List.length_append, List.length_singleton]
    rcases Multiset.mem_cons.mp ha with rfl | ha
    · exact Nat.lt_succ_self _
    · exact Nat.lt_succ_of_lt (i.lvLt a ha)
  · intro a
    rw [hh]
    show x.src a = _
    rw [i.src]
    congr 1
    rw [add_comm (ptrs l), add_assoc, add_comm (ptrs l)]
  · intro a ha
    rw [hh] at ha
    refine i.shLt a ?_
    rw [add_comm (ptrs l), add_assoc, add_comm (ptrs l)]
    exact ha
  · intro m hm
    rcases List.mem_append.mp (show m ∈ x.h.lv ++ [l] from hm) with h | h
    · exact i.cnt m h
    · rw [List.mem_singleton.mp h]; exact hc

theorem Inv.incS (i : Inv x Ls Ss) {a : Nat} (ha : a ∈ Ss + held x) :
    ∃ y, incS x a = .ok y ∧ y.h = x.h ∧ Inv y Ls (a ::ₘ Ss) := by
  unfold Rc.incS
  rw [if_neg (i.src_pos ha)]
  refine ⟨_, rfl, rfl, i.lrc, i.lvLt, ?_, ?_, i.cnt⟩
  · intro b
    show put x.src a (x.src a + 1) b = (a ::ₘ Ss + held x).count b
    rw [Multiset.cons_add, Multiset.count_cons, ← i.src]
    by_cases e : b = a
    · subst e; rw [put_self, if_pos rfl]
    · rw [put_ne _ _ e, if_neg e]; rfl
  · intro b hb
    have hb : b ∈ a ::ₘ Ss + held x := hb
    rw [Multiset.cons_add, Multiset.mem_cons] at hb
    rcases hb with rfl | hb
    · exact i.shLt _ ha
    · exact i.shLt _ hb

theorem Inv.decS {a : Nat} (i : Inv x Ls (a ::ₘ Ss)) : ∃ y, decS x a = .ok y ∧ y.h = x.h ∧ Inv y Ls Ss := by
  have hs := i.src a
  rw [Multiset.cons_add, Multiset.count_cons, if_pos rfl] at hs
  unfold Rc.decS
  rw [if_neg (by omega)]
  refine ⟨_, rfl, rfl, i.lrc, i.lvLt, ?_, ?_, i.cnt⟩
  · intro b
    show put x.src a (x.src a - 1) b = (Ss + held x).count b
    by_cases e : b = a
    · subst e; rw [put_self]; omega
    · rw [put_ne _ _ e, i.src, Multiset.cons_add, Multiset.count_cons, if_neg e]; rfl
  · intro b hb
    have hb : b ∈ Ss + held x := hb
    exact i.shLt b (by rw [Multiset.cons_add]; exact Multiset.mem_cons_of_mem hb)

theorem Inv.decSs : ∀ {l : List (Option Nat)} {x : RHeap R}, Inv x Ls (nn l + Ss) → ∃ y, decSs x l = .ok y ∧ y.h = x.h ∧ Inv y Ls Ss
  | [], x, i => ⟨x, rfl, rfl, i.congr rfl (by simp)⟩
  | none :: l, x, i => by
    obtain ⟨y, e, h, j⟩ := Inv.decSs (l := l) (x := x) i
    exact ⟨y, e, h, j⟩
  | some a :: l, x, i => by
    obtain ⟨y, e, h, j⟩ := (i.congr rfl (by rw [nn_some, Multiset.cons_add])).decS
    obtain ⟨z, e', h', k⟩ := Inv.decSs (l := l) j
    refine ⟨z, ?_, h'.trans h, k⟩
    unfold Rc.decSs; rw [e]; exact e'

theorem Inv.incSs : ∀ {l : List (Option Nat)} {x : RHeap R} {Ss : Multiset Nat}, Inv x Ls Ss → (∀ a, some a ∈ l → a ∈ held x) →
    ∃ y, incSs x l = .ok y ∧ y.h = x.h ∧ Inv y Ls (nn l + Ss)
  | [], x, _, i, _ => ⟨x, rfl, rfl, i.congr rfl (by simp)⟩
  | none :: l, x, _, i, h => Inv.incSs (l := l) i (fun a ha => h a (List.mem_cons_of_mem _ ha))
  | some a :: l, x, Ss, i, hm => by
    obtain ⟨y, e, h, j⟩ := i.incS (Multiset.mem_add.mpr (Or.inr (hm a List.mem_cons_self)))
    have hy : held y = held x := by
      unfold Rc.incS at e
      split at e
      · cases e
      · cases e; rfl
    obtain ⟨z, e', h', k⟩ := Inv.incSs (l := l) j (fun b hb => hy ▸ hm b (List.mem_cons_of_mem _ hb))
    refine ⟨z, ?_, h'.trans h, k.congr rfl (by rw [nn_some, Multiset.cons_add, Multiset.add_cons])⟩
    unfold Rc.incSs; rw [e]; exact e'

theorem sum_change (n a : Nat) (ha : a < n) (f g : Nat → Multiset Nat) (h : ∀ b, b ≠ a → f b = g b) :
    (∑ b ∈ Finset.range n, f b) + g a = (∑ b ∈ Finset.range n, g b) + f a := by
  have hm := Finset.mem_range.mpr ha
  rw [← Finset.add_sum_erase _ f hm, ← Finset.add_sum_erase _ g hm,
    Finset.sum_congr rfl (fun b hb => h b (Finset.ne_of_mem_erase hb))]
  rw [add_assoc, add_comm (f a), add_comm _ (g a)]

theorem Inv.incL (i : Inv x Ls Ss) {a : Nat} (ha : a ∈ Ls) : ∃ y, incL x a = .ok y ∧ y.h = x.h ∧ Inv y (a ::ₘ Ls) Ss := by
  unfold Rc.incL
  rw [if_neg (i.lrc_pos ha)]
  have hh : held ({ x with lrc := put x.lrc a (x.lrc a + 1) } : RHeap R) = held x := by
    unfold held
    apply Finset.sum_congr rfl
    intro b _
    show (if put x.lrc a (x.lrc a + 1) b = 0 then 0 else _) = _
    by_cases e : b = a
    · subst e; rw [put_self, if_neg (by omega), if_neg (i.lrc_pos ha)]
    · rw [put_ne _ _ e]
  refine ⟨_, rfl, rfl, ?_, ?_, ?_, ?_, i.cnt⟩
  · intro b
    show put x.lrc a (x.lrc a + 1) b = _
    rw [Multiset.count_cons, ← i.lrc]
    by_cases e : b = a
    · subst e; rw [put_self, if_pos rfl]
    · rw [put_ne _ _ e, if_neg e]; rfl
  · intro b hb
    rcases Multiset.mem_cons.mp hb with rfl | hb
    · exact i.lvLt _ ha
    · exact i.lvLt _ hb
  · intro b; rw [hh]; exact i.src b
  · intro b hb; rw [hh] at hb; exact i.shLt b hb

theorem Inv.decL {a : Nat} (i : Inv x (a ::ₘ Ls) Ss) : ∃ y, decL x a = .ok y ∧ y.h = x.h ∧ Inv y Ls Ss := by
  have hm : a ∈ a ::ₘ Ls := Multiset.mem_cons_self a Ls
  obtain ⟨l, hl, hu⟩ := i.level hm
  have hc := i.lrc a
  rw [Multiset.count_cons, if_pos rfl] at hc
  unfold Rc.decL
  rw [hu]
  have hlrc : ∀ b, put x.lrc a (x.lrc a - 1) b = Ls.count b := by
    intro b
    by_cases e : b = a
    · subst e; rw [put_self]; omega
    · rw [put_ne _ _ e, i.lrc, Multiset.count_cons, if_neg e]; rfl
  have hlt : ∀ b ∈ Ls, b < x.h.lv.length := fun b hb => i.lvLt b (Multiset.mem_cons_of_mem hb)
  have hch := sum_change x.h.lv.length a (i.lvLt a hm)
    (fun b => if x.lrc b = 0 then 0 else ptrs (x.h.lv.getD b (HLevel.new 0 0)))
    (fun b => if put x.lrc a (x.lrc a - 1) b = 0 then 0 else ptrs (x.h.lv.getD b (HLevel.new 0 0)))
    (fun b hb => by simp only [put_ne _ _ hb])
  simp only [put_self] at hch
  have hget : x.h.lv.getD a (HLevel.new 0 0) = l := by rw [List.getD_eq_getElem?_getD, hl]; rfl
  rw [if_neg (i.lrc_pos hm), hget] at hch
  by_cases h1 : x.lrc a = 1
  · rw [if_pos (by omega), add_zero] at hch
    have hh : held x = held ({ x with lrc := put x.lrc a (x.lrc a - 1) } : RHeap R) + ptrs l := hch
    have j : Inv ({ x with lrc := put x.lrc a (x.lrc a - 1) } : RHeap R) Ls (nn (l.pending :: l.shards) + Ss) := by
      refine ⟨hlrc, hlt, ?_, ?_, i.cnt⟩
      · intro b
        show x.src b = _
        rw [i.src, hh]
        congr 1
        show _ = ptrs l + Ss + _
        rw [add_comm (held _), ← add_assoc, add_comm Ss]
      · intro b hb
        refine i.shLt b ?_
        rw [hh, add_comm (held _), ← add_assoc, add_comm Ss]
        exact hb
    obtain ⟨y, e, h, k⟩ := j.decSs
    refine ⟨y, ?_, h, k⟩
    show (if x.lrc a = 1 then _ else _) = _
    rw [if_pos h1]; exact e
  · rw [if_neg (by omega)] at hch
    have hh : held ({ x with lrc := put x.lrc a (x.lrc a - 1) } : RHeap R) = held x := (add_right_cancel hch).symm
    refine ⟨{ x with lrc := put x.lrc a (x.lrc a - 1) }, ?_, rfl, hlrc, hlt, ?_, ?_, i.cnt⟩
    · show (if x.lrc a = 1 then _ else _) = _
      rw [if_neg h1]
    · intro b; rw [hh]; exact i.src b
    · intro b hb; rw [hh] at hb; exact i.shLt b hb

theorem Inv.decLs : ∀ {l : List Nat} {x : RHeap R}, Inv x ((l : Multiset Nat) + Ls) Ss → ∃ y, decLs x l = .ok y ∧ y.h = x.h ∧ Inv y Ls Ss
  | [], x, i => ⟨x, rfl, rfl, i.congr (by simp) rfl⟩
  | a :: l, x, i => by
    obtain ⟨y, e, h, j⟩ := (i.congr (Ls' := a ::ₘ ((l : Multiset Nat) + Ls)) (by rw [← Multiset.cons_coe, Multiset.cons_add]) rfl).decL
    obtain ⟨z, e', h', k⟩ := Inv.decLs (l := l) j
    refine ⟨z, ?_, h'.trans h, k⟩
    unfold Rc.decLs; rw [e]; exact e'

theorem Inv.setLevel (i : Inv x Ls Ss) {a : Nat} {l l' : HLevel} (ha : a ∈ Ls) (hl : x.h.lv[a]? = some l) {Ss' : Multiset Nat}
    (hp : ptrs l' + Ss' = ptrs l + Ss) (hc : l'.cnt ≤ l'.shards.length) : Inv (setLevel x a l') Ls Ss' := by
  have hlt := i.lvLt a ha
  have hch := sum_change x.h.lv.length a hlt
    (fun b => if x.lrc b = 0 then 0 else ptrs (x.h.lv.getD b (HLevel.new 0 0)))
    (fun b => if x.lrc b = 0 then 0 else ptrs ((x.h.lv.set a l').getD b (HLevel.new 0 0)))
    (fun b hb => by
      simp only [List.getD_eq_getElem?_getD]
      rw [List.getElem?_set_ne (fun h => hb h.symm)])
  have g1 : x.h.lv.getD a (HLevel.new 0 0) = l := by rw [List.getD_eq_getElem?_getD, hl]; rfl
  have g2 : (x.h.lv.set a l').getD a (HLevel.new 0 0) = l' := by
    rw [List.getD_eq_getElem?_getD, List.getElem?_set_self hlt]; rfl
  simp only [if_neg (i.lrc_pos ha), g1, g2] at hch
  have hh : held x + ptrs l' = held (Rc.setLevel x a l') + ptrs l := by
    refine hch.trans ?_
    unfold held
    show _ = (∑ b ∈ Finset.range (x.h.lv.set a l').length, _) + _
    rw [List.length_set]; rfl
  have hall : Ss' + held (Rc.setLevel x a l') = Ss + held x := by
    apply add_left_cancel (a := ptrs l' + ptrs l)
    calc ptrs l' + ptrs l + (Ss' + held (Rc.setLevel x a l')) = (ptrs l' + Ss') + (held (Rc.setLevel x a l') + ptrs l) := by abel
      _ = (ptrs l + Ss) + (held x + ptrs l') := by rw [hp, hh]
      _ = _ := by abel
  refine ⟨i.lrc, ?_, ?_, ?_, ?_⟩
  · intro b hb
    show b < (x.h.lv.set a l').length
    rw [List.length_set]; exact i.lvLt b hb
  · intro b; rw [hall]; exact i.src b
  · intro b hb; rw [hall] at hb; exact i.shLt b hb
  · intro m hm
    rcases List.mem_or_eq_of_mem_set (show m ∈ x.h.lv.set a l' from hm) with h | rfl
    · exact i.cnt m h
    · exact hc

end DE.Rc
