import Verif.Proofs.Ownership

/-!
The operations with reference counts do what the operations without them do, use nothing freed, and keep the counts exact.
-/

namespace DE.Rc
variable {R : Type} {L : Layout} {I : ShardImpl R}
open Snap

/-- `A` (with counts) has the outcome of `B` (without), and `Q` holds afterwards. -/
def Sim {α : Type} (A : Res (RHeap R × α)) (B : Res (Heap R × α)) (Q : RHeap R → α → Prop) : Prop :=
  match B with
  | .ok p => ∃ y, A = .ok (y, p.2) ∧ y.h = p.1 ∧ Q y p.2
  | .error e => A = .error e

/-- The same without a result. -/
def Sim1 (A : Res (RHeap R)) (B : Res (Heap R)) (Q : RHeap R → Prop) : Prop :=
  match B with
  | .ok h => ∃ y, A = .ok y ∧ y.h = h ∧ Q y
  | .error e => A = .error e

theorem Sim.bind {α β : Type} {A : Res (RHeap R × α)} {B : Res (Heap R × α)} {Q : RHeap R → α → Prop}
    {f : RHeap R × α → Res (RHeap R × β)} {g : Heap R × α → Res (Heap R × β)} {Q' : RHeap R → β → Prop} (s : Sim A B Q)
    (h : ∀ y a, Q y a → Sim (f (y, a)) (g (y.h, a)) Q') : Sim (A >>= f) (B >>= g) Q' := by
  cases B with
  | error e => rw [show A = .error e from s]; rfl
  | ok p =>
    obtain ⟨y, e, eh, q⟩ := s
    rw [e]
    have := h y p.2 q
    rw [eh] at this
    exact this

theorem Sim.mono {α : Type} {A : Res (RHeap R × α)} {B : Res (Heap R × α)} {Q Q' : RHeap R → α → Prop} (s : Sim A B Q)
    (h : ∀ y a, Q y a → Q' y a) : Sim A B Q' := by
  cases B with
  | error e => exact s
  | ok p => obtain ⟨y, e, eh, q⟩ := s; exact ⟨y, e, eh, h _ _ q⟩

theorem Sim1.bind {β : Type} {A : Res (RHeap R)} {B : Res (Heap R)} {Q : RHeap R → Prop}
    {f : RHeap R → Res (RHeap R × β)} {g : Heap R → Res (Heap R × β)} {Q' : RHeap R → β → Prop} (s : Sim1 A B Q)
    (h : ∀ y, Q y → Sim (f y) (g y.h) Q') : Sim (A >>= f) (B >>= g) Q' := by
  cases B with
  | error e => rw [show A = .error e from s]; rfl
  | ok p =>
    obtain ⟨y, e, eh, q⟩ := s
    rw [e]
    have := h y q
    rw [eh] at this
    exact this

theorem Sim.same {α β : Type} {r : Res α} {f : α → Res (RHeap R × β)} {g : α → Res (Heap R × β)} {Q : RHeap R → β → Prop}
    (h : ∀ v, r = .ok v → Sim (f v) (g v) Q) : Sim (r >>= f) (r >>= g) Q := by
  cases r with
  | error e => rfl
  | ok v => exact h v rfl

theorem Sim1.same {α : Type} {r : Res α} {f : α → Res (RHeap R)} {g : α → Res (Heap R)} {Q : RHeap R → Prop}
    (h : ∀ v, r = .ok v → Sim1 (f v) (g v) Q) : Sim1 (r >>= f) (r >>= g) Q := by
  cases r with
  | error e => rfl
  | ok v => exact h v rfl

theorem okb {α β : Type} (a : α) (f : α → Res β) : ((.ok a : Res α) >>= f) = f a := rfl

variable {x : RHeap R} {Ls Ss : Multiset Nat}

theorem getR_some {α : Type} {l : List α} {i : Nat} {v : α} (h : getR l i = .ok v) : l[i]? = some v := by
  unfold getR at h
  split at h
  · cases h; assumption
  · cases h

theorem getR_of_some {α : Type} {l : List α} {i : Nat} {v : α} (h : l[i]? = some v) : getR l i = .ok v := by
  unfold getR; rw [h]

theorem Inv.ofUse (i : Inv x Ls Ss) {a : Nat} (h : a ∈ Ls) {l : HLevel} (hl : x.h.lv[a]? = some l) : useL x a = .ok l := by
  rw [i.useL_eq h, getR_of_some hl]

/-- A fresh level that holds one fresh shard. -/
theorem fresh_level (i : Inv x Ls Ss) (m : Shard R) (no : Nat) :
    let y := newShard x m
    let z := newLevel y.1 { no := no, cnt := 1, shards := [some y.2], pending := none }
    z.1.h = ((x.h.newShard m).1.newLevel { no := no, cnt := 1, shards := [some (x.h.newShard m).2], pending := none }).1 ∧
    z.2 = x.h.lv.length ∧ Inv z.1 (x.h.lv.length ::ₘ Ls) Ss :=
  ⟨rfl, rfl, Inv.newLevel ((i.newShard m).congr rfl (by rfl)) (by simp)⟩

theorem sim_reconstruct2 (i : Inv x Ls Ss) {ab an : Nat} (hb : ab ∈ Ls) (hn : an ∈ Ls) {lb ln : HLevel} (eb : x.h.lv[ab]? = some lb)
    (en : x.h.lv[an]? = some ln) :
    Sim (reconstruct2 I x lb ln) (Snap.reconstruct2 I x.h lb ln)
      (fun y a => Inv y (a ::ₘ Ls) Ss) := by
  unfold reconstruct2 Snap.reconstruct2
  refine Sim.same fun _ _ => Sim.same fun s0 e0 => Sim.same fun s1 e1 => ?_
  rw [i.useSs_eq (l := [s0, s1])]
  · rw [okb]
    refine Sim.same fun m _ => ?_
    obtain ⟨h1, h2, h3⟩ := fresh_level i m lb.no
    exact ⟨_, rfl, rfl, h3⟩
  · intro a ha
    rcases List.mem_cons.mp ha with h | h
    · exact Multiset.mem_add.mpr (Or.inr (i.held_mem hb eb (mem_nn.mpr (List.mem_cons_of_mem _ (h ▸ List.mem_of_getElem? (getR_some e0))))))
    · rw [List.mem_singleton] at h
      exact Multiset.mem_add.mpr (Or.inr (i.held_mem hn en (mem_nn.mpr (List.mem_cons_of_mem _ (h ▸ List.mem_of_getElem? (getR_some e1))))))

theorem sim_reconstructMany (i : Inv x Ls Ss) {levels : List HLevel} (hl : ∀ l ∈ levels, ∃ a ∈ Ls, x.h.lv[a]? = some l) (idx : Nat) :
    Sim (reconstructMany I x levels idx) (Snap.reconstructMany I x.h levels idx)
      (fun y a => Inv y (a ::ₘ Ls) Ss) := by
  unfold reconstructMany Snap.reconstructMany
  rw [i.useSs_eq]
  · rw [okb]
    refine Sim.same fun m _ => ?_
    obtain ⟨h1, h2, h3⟩ := fresh_level i m idx
    exact ⟨_, rfl, rfl, h3⟩
  · intro s hs
    obtain ⟨l, hlm, hsl⟩ := List.mem_flatMap.mp hs
    obtain ⟨a, ha, e⟩ := hl l hlm
    exact Multiset.mem_add.mpr (Or.inr (i.held_mem ha e (mem_nn.mpr (List.mem_cons_of_mem _ hsl))))

/-- Putting a fresh shard into a level that is not full. -/
theorem append_slot (i : Inv x Ls Ss) {a : Nat} (ha : a ∈ Ls) {l : HLevel} (hl : x.h.lv[a]? = some l) (hc : l.cnt < l.shards.length)
    (m : Shard R) : ∃ z, decSs (newShard x m).1 [(l.shards[l.cnt]?).join] = .ok z ∧ z.h = (x.h.newShard m).1 ∧
      Inv (setLevel z a { l with shards := l.shards.set l.cnt (some x.h.sh.length), cnt := l.cnt + 1 }) Ls Ss := by
  have i1 := i.newShard m
  -- swap the pointers first, then release the old one
  have hset := nn_set l.shards l.cnt hc x.h.sh.length
  have hcn : l.cnt + 1 ≤ (l.shards.set l.cnt (some x.h.sh.length)).length := by rw [List.length_set]; exact hc
  cases ho : (l.shards[l.cnt]?).join with
  | none =>
    refine ⟨_, rfl, rfl, ?_⟩
    refine i1.setLevel ha hl ?_ hcn
    rw [ho] at hset
    show nn (l.pending :: l.shards.set _ _) + Ss = nn (l.pending :: l.shards) + _
    rw [nn_cons, nn_cons l.pending l.shards]
    have h2 : nn (l.shards.set l.cnt (some x.h.sh.length)) = x.h.sh.length ::ₘ nn l.shards := by simpa using hset
    rw [h2]
    simp only [Multiset.add_cons, Multiset.cons_add]
  | some b =>
    rw [ho] at hset
    have i2 : Inv (setLevel (newShard x m).1 a { l with shards := l.shards.set l.cnt (some x.h.sh.length), cnt := l.cnt + 1 }) Ls
        (nn [some b] + Ss) := by
      refine i1.setLevel ha hl ?_ hcn
      show nn (l.pending :: l.shards.set _ _) + _ = nn (l.pending :: l.shards) + _
      rw [nn_cons, nn_cons l.pending l.shards]
      calc nn [l.pending] + nn (l.shards.set l.cnt (some x.h.sh.length)) + (nn [some b] + Ss) =
          nn [l.pending] + (nn (l.shards.set l.cnt (some x.h.sh.length)) + nn [some b]) + Ss := by abel
        _ = _ := by rw [hset]; simp only [Multiset.add_cons, Multiset.cons_add]
    obtain ⟨y, e, eh, k⟩ := i2.decSs
    refine ⟨{ y with h := (x.h.newShard m).1 }, ?_, rfl, ?_⟩
    · unfold decSs decS at e ⊢
      have e' : (if (newShard x m).1.src b = 0 then (.error .ub : Res (RHeap R)) else .ok { setLevel (newShard x m).1 a
        { l with shards := l.shards.set l.cnt (some x.h.sh.length), cnt := l.cnt + 1 } with
          src := put (newShard x m).1.src b ((newShard x m).1.src b - 1) }) >>= (fun x => decSs x []) = .ok y := e
      by_cases h0 : (newShard x m).1.src b = 0
      · rw [if_pos h0] at e'; cases e'
      · rw [if_neg h0] at e' ⊢
        cases e'
        rfl
    · have : (setLevel ({ y with h := (x.h.newShard m).1 } : RHeap R) a
          { l with shards := l.shards.set l.cnt (some x.h.sh.length), cnt := l.cnt + 1 }) = y := by
        unfold setLevel
        show ({ y with h := (setLevel (newShard x m).1 a _).h } : RHeap R) = y
        rw [← eh]
      rw [this]; exact k

theorem set_same {l : List HLevel} {a : Nat} {v : HLevel} (h : l[a]? = some v) : l.set a v = l := by
  apply List.ext_getElem?
  intro j
  by_cases e : a = j
  · subst e; rw [List.getElem?_set_self (List.getElem?_eq_some_iff.mp h).1, h]
  · rw [List.getElem?_set_ne e]

theorem lv_set {h : Heap R} {a : Nat} {l l' : HLevel} (hl : h.lv[a]? = some l) : (h.setLevel a l').lv[a]? = some l' := by
  unfold Heap.setLevel
  simp only
  rw [List.getElem?_set_self (List.getElem?_eq_some_iff.mp hl).1]

theorem sim_appendBuffer (i : Inv x Ls Ss) {a : Nat} (ha : a ∈ Ls) (v : View R) :
    Sim1 (appendBuffer I x a v) (Snap.appendBuffer I x.h a v) (fun y => Inv y Ls Ss) := by
  obtain ⟨l, hl, hu⟩ := i.level ha
  unfold appendBuffer Snap.appendBuffer
  rw [hu, getR_of_some hl, okb, okb]
  by_cases hf : l.cnt = l.shards.length
  · simp only [if_pos hf]
    refine Sim1.same fun _ hp => Sim1.same fun s _ => ?_
    refine ⟨_, rfl, rfl, ?_⟩
    refine (i.newShard s).setLevel ha hl ?_ (i.cnt l (List.mem_of_getElem? hl))
    have hp : l.pending = none := by
      by_contra h
      unfold assertC at hp
      cases hq : l.pending with
      | none => exact h hq
      | some p => rw [hq] at hp; simp at hp
    show nn (some x.h.sh.length :: l.shards) + Ss = nn (l.pending :: l.shards) + _
    rw [hp]; simp
  · simp only [if_neg hf]
    refine Sim1.same fun s _ => ?_
    obtain ⟨z, e, eh, k⟩ := append_slot i ha hl (lt_of_le_of_ne (i.cnt l (List.mem_of_getElem? hl)) hf) s
    show Sim1 (decSs (newShard x s).1 [(l.shards[l.cnt]?).join] >>= _) _ _
    rw [e]
    refine ⟨_, rfl, ?_, k⟩
    show Heap.setLevel z.h _ _ = _
    rw [eh]; rfl

/-- Releasing shards does not look at the levels. -/
theorem decSs_frame : ∀ {l : List (Option Nat)} {x x' y : RHeap R}, x'.src = x.src → x'.lrc = x.lrc → decSs x' l = .ok y →
    ∃ z, decSs x l = .ok z ∧ z.h = x.h ∧ z = { y with h := z.h }
  | [], x, x', y, e1, e2, h => by
    cases h
    exact ⟨x, rfl, rfl, by cases x; cases x'; cases e1; cases e2; rfl⟩
  | none :: l, x, x', y, e1, e2, h => decSs_frame (l := l) e1 e2 h
  | some a :: l, x, x', y, e1, e2, h => by
    unfold decSs decS at h ⊢
    rw [e1] at h
    by_cases h0 : x.src a = 0
    · rw [if_pos h0] at h; cases h
    · rw [if_neg h0, okb] at h ⊢
      exact decSs_frame (l := l) (x := { x with src := put x.src a (x.src a - 1) }) (x' := { x' with src := put x.src a (x.src a - 1) })
        rfl e2 h

theorem sim_appendLevel (i : Inv x Ls Ss) {a b : Nat} (ha : a ∈ Ls) (hb : b ∈ Ls) {l li : HLevel} (hl : x.h.lv[a]? = some l)
    (hp : l.pending = none) (hi : x.h.lv[b]? = some li) :
    Sim1 (appendLevel I x a li) (Snap.appendLevel I x.h a li) (fun y => Inv y Ls Ss ∧ ∃ l', y.h.lv = x.h.lv.set a l') := by
  unfold appendLevel Snap.appendLevel
  by_cases h0 : li.cnt = 0
  · rw [if_pos h0, if_pos h0]
    exact ⟨x, rfl, rfl, i, l, (set_same hl).symm⟩
  · rw [if_neg h0, if_neg h0, i.use_level hb hi (fun s hs => hs), okb]
    refine Sim1.same fun m _ => ?_
    rw [i.ofUse ha hl, getR_of_some hl, okb, okb]
    by_cases hf : l.cnt = l.shards.length
    · simp only [if_pos hf]
      refine ⟨_, rfl, rfl, ?_, _, rfl⟩
      refine (i.newShard m).setLevel ha hl ?_ (i.cnt l (List.mem_of_getElem? hl))
      show nn (some x.h.sh.length :: l.shards) + Ss = nn (l.pending :: l.shards) + _
      rw [hp]; simp
    · simp only [if_neg hf]
      obtain ⟨z, e, eh, k⟩ := append_slot i ha hl (lt_of_le_of_ne (i.cnt l (List.mem_of_getElem? hl)) hf) m
      show Sim1 (decSs (newShard x m).1 [(l.shards[l.cnt]?).join] >>= _) _ _
      rw [e]
      refine ⟨_, rfl, ?_, k, { l with shards := l.shards.set l.cnt (some x.h.sh.length), cnt := l.cnt + 1 }, ?_⟩
      · show Heap.setLevel z.h _ _ = _
        rw [eh]; rfl
      · show (Heap.setLevel z.h _ _).lv = _
        rw [eh]; rfl

theorem sim_finalize (i : Inv x Ls Ss) {a : Nat} (ha : a ∈ Ls) :
    Sim1 (finalize x a) (Snap.finalize x.h a) (fun y => Inv y Ls Ss ∧ ∃ l', y.h.lv = x.h.lv.set a l' ∧ l'.pending = none) := by
  obtain ⟨l, hl, hu⟩ := i.level ha
  unfold finalize Snap.finalize
  rw [hu, getR_of_some hl, okb, okb]
  cases hp : l.pending with
  | none => exact ⟨x, rfl, rfl, i, l, (set_same hl).symm, hp⟩
  | some p =>
    simp only
    by_cases h0 : l.shards.length = 0
    · rw [if_pos h0, if_pos h0]; rfl
    · rw [if_neg h0, if_neg h0]
      set l' : HLevel := { l with shards := (List.replicate l.shards.length none).set 0 (some p), cnt := 1, pending := none } with hl'
      have i2 : Inv (setLevel x a l') Ls (nn l.shards + Ss) := by
        refine i.setLevel ha hl ?_ (by rw [hl']; simp only [List.length_set, List.length_replicate]; omega)
        have h1 := nn_set (List.replicate l.shards.length none) 0 (by simpa using Nat.pos_of_ne_zero h0) p
        have h2 : nn ((List.replicate l.shards.length (none : Option Nat)).set 0 (some p)) = {p} := by
          rw [nn_replicate] at h1
          have : ((List.replicate l.shards.length (none : Option Nat))[0]?).join = none := by
            cases hn : l.shards.length with
            | zero => exact absurd hn h0
            | succ n => rfl
          rw [this] at h1
          simpa using h1
        show nn (none :: (List.replicate l.shards.length none).set 0 (some p)) + (nn l.shards + Ss) = nn (l.pending :: l.shards) + Ss
        rw [hp, nn_none, h2, nn_some, ← add_assoc, Multiset.singleton_add]
      obtain ⟨y, e, eh, k⟩ := i2.decSs
      obtain ⟨z, e', eh', ez⟩ := decSs_frame (x := x) (x' := setLevel x a l') (l := l.shards) rfl rfl e
      rw [e']
      refine ⟨_, rfl, ?_, ?_, l', ?_, rfl⟩
      · show z.h.setLevel a l' = _
        rw [eh']
      · have : setLevel z a l' = y := by
          rw [ez]
          unfold setLevel
          simp only
          rw [eh']
          show ({ h := (setLevel x a l').h, src := y.src, lrc := y.lrc } : RHeap R) = y
          rw [← eh]
        rw [this]; exact k
      · show (z.h.setLevel a l').lv = _
        rw [eh']; rfl

/-- No level of the list has a pending shard. -/
def NoPend (h : Heap R) (as : List Nat) : Prop := ∀ a ∈ as, ∀ l, h.lv[a]? = some l → l.pending = none

theorem ptrs_clone (l : HLevel) : ptrs (clone l) = nn (l.shards.take l.cnt) := by
  unfold ptrs clone
  simp only [nn_none]
  rw [nn_append, nn_replicate, add_zero]

theorem sim_cloneAll : ∀ {as : List Nat} {x : RHeap R} {Ls : Multiset Nat}, Inv x Ls Ss → (∀ a ∈ as, a ∈ Ls) →
    Sim (cloneAll x as) (Snap.cloneAll x.h as) (fun y bs => Inv y ((bs : Multiset Nat) + Ls) Ss ∧ NoPend y.h bs ∧
      ∃ t, y.h.lv = x.h.lv ++ t)
  | [], x, Ls, i, _ => ⟨x, rfl, rfl, i.congr (by simp) rfl, fun a ha => by simp at ha, [], by simp⟩
  | a :: as, x, Ls, i, hm => by
    have ha := hm a List.mem_cons_self
    obtain ⟨l, hl, hu⟩ := i.level ha
    unfold cloneAll Snap.cloneAll
    rw [hu, getR_of_some hl, okb, okb]
    have hc := i.cnt l (List.mem_of_getElem? hl)
    obtain ⟨y, e, eh, j⟩ := i.incSs (l := l.shards.take l.cnt) (fun s hs =>
      i.held_mem ha hl (mem_nn.mpr (List.mem_cons_of_mem _ (List.mem_of_mem_take hs))))
    rw [e, okb]
    have k : Inv (newLevel y (clone l)).1 (y.h.lv.length ::ₘ Ls) Ss := by
      apply Inv.newLevel
      · rw [ptrs_clone]; exact j
      · simp only [clone, List.length_append, List.length_take, List.length_replicate]
        omega
    have ih := sim_cloneAll (as := as) k (fun b hb => Multiset.mem_cons_of_mem (hm b (List.mem_cons_of_mem _ hb)))
    have ehl : (newLevel y (clone l)).1.h = (x.h.newLevel (clone l)).1 := by
      show (y.h.newLevel (clone l)).1 = _
      rw [eh]
    show Sim (cloneAll (newLevel y (clone l)).1 as >>= _) (Snap.cloneAll (x.h.newLevel (clone l)).1 as >>= _) _
    rw [← ehl]
    refine Sim.bind ih ?_
    rintro z bs ⟨q1, q2, t, q3⟩
    have e3 : z.h.lv = x.h.lv ++ (clone l :: t) := by
      rw [q3]
      show (y.h.lv ++ [clone l]) ++ t = _
      rw [eh]; simp
    refine ⟨z, ?_, rfl, ?_, ?_, _, e3⟩
    · show Except.ok (z, y.h.lv.length :: bs) = Except.ok (z, x.h.lv.length :: bs)
      rw [eh]
    · refine q1.congr ?_ rfl
      show (bs : Multiset Nat) + (y.h.lv.length ::ₘ Ls) = ((x.h.lv.length :: bs : List Nat) : Multiset Nat) + Ls
      rw [eh, ← Multiset.cons_coe, Multiset.add_cons, Multiset.cons_add]
    · intro b hb
      have hb : b ∈ x.h.lv.length :: bs := hb
      rcases List.mem_cons.mp hb with rfl | hb
      · intro l' hl'
        rw [e3, List.getElem?_append_right (le_refl _)] at hl'
        simp at hl'
        rw [← hl']; rfl
      · exact q2 b hb

theorem sim_copy (i : Inv x Ls Ss) {st : HStruct} (hm : ∀ a ∈ st.levels, a ∈ Ls) :
    Sim (copy x st) (Snap.copy x.h st) (fun y w => Inv y ((w.levels : Multiset Nat) + Ls) Ss ∧ NoPend y.h w.levels) := by
  unfold copy Snap.copy
  refine Sim.bind (sim_cloneAll i hm) ?_
  rintro y bs ⟨q1, q2, -⟩
  exact ⟨y, rfl, rfl, q1, q2⟩

theorem sim_newBase (L : Layout) (I : ShardImpl R) {ab ai : Nat} (i : Inv x (ab ::ₘ Ls) Ss) (hi : ai ∈ ab ::ₘ Ls)
    (hp : L ≠ .leveling → ∀ l, x.h.lv[ab]? = some l → l.pending = none) :
    Sim (newBase L I x ab ai) (Snap.newBase L I x.h ab ai) (fun y nb => Inv y (nb ::ₘ Ls) Ss ∧
      (L ≠ .leveling → nb = ab ∧ ∃ l', y.h.lv = x.h.lv.set ab l' ∧ l'.pending = none)) := by
  have hb : ab ∈ ab ::ₘ Ls := Multiset.mem_cons_self _ _
  obtain ⟨lb, hlb, hub⟩ := i.level hb
  obtain ⟨li, hli, hui⟩ := i.level hi
  have inplace : L ≠ .leveling → Sim (do let x ← appendLevel I x ab li; let x ← finalize x ab; .ok (x, ab))
      (do let h ← Snap.appendLevel I x.h ab li; let h ← Snap.finalize h ab; .ok (h, ab)) (fun y nb => Inv y (nb ::ₘ Ls) Ss ∧
      (L ≠ .leveling → nb = ab ∧ ∃ l', y.h.lv = x.h.lv.set ab l' ∧ l'.pending = none)) := by
    intro hL
    refine Sim1.bind (sim_appendLevel i hb hi hlb (hp hL lb hlb) hli) ?_
    rintro y ⟨j, l1, e1⟩
    refine Sim1.bind (sim_finalize j hb) ?_
    rintro z ⟨k, l2, e2, hn⟩
    exact ⟨z, rfl, rfl, k, fun _ => ⟨rfl, l2, by rw [e2, e1, List.set_set], hn⟩⟩
  unfold newBase Snap.newBase
  rw [hub, hui, getR_of_some hlb, getR_of_some hli, okb, okb, okb, okb]
  cases L with
  | leveling =>
    simp only
    by_cases h0 : lb.cnt > 0
    · rw [if_pos h0, if_pos h0]
      have s := sim_reconstruct2 (I := I) i hb hi hlb hli
      cases hr : Snap.reconstruct2 I x.h lb li with
      | error e =>
        rw [hr] at s
        rw [show reconstruct2 I x lb li = .error e from s]; rfl
      | ok p =>
        rw [hr] at s
        obtain ⟨y, e, eh, j⟩ := s
        rw [e, okb]
        obtain ⟨z, e', eh', k⟩ := (j.congr (Ls' := ab ::ₘ (p.2 ::ₘ Ls)) (Multiset.cons_swap _ _ _) rfl).decL
        refine ⟨z, ?_, eh'.trans eh, k, fun h => absurd rfl h⟩
        show (decL y ab >>= _) = _
        rw [e']; rfl
    · rw [if_neg h0, if_neg h0]
      obtain ⟨y, e, eh, j⟩ := i.incL hi
      obtain ⟨z, e', eh', k⟩ := (j.congr (Ls' := ab ::ₘ (ai ::ₘ Ls)) (Multiset.cons_swap _ _ _) rfl).decL
      refine ⟨z, ?_, eh'.trans eh, k, fun h => absurd rfl h⟩
      rw [e, okb, e']; rfl
  | tiering => exact inplace (by decide)
  | bsm => exact inplace (by decide)

theorem set_perm {l : List Nat} {i a b : Nat} (h : l[i]? = some a) (Ls : Multiset Nat) :
    a ::ₘ ((l.set i b : List Nat) : Multiset Nat) + Ls = b ::ₘ (l : Multiset Nat) + Ls := by
  congr 1
  have hi := (List.getElem?_eq_some_iff.mp h).1
  induction l generalizing i with
  | nil => simp at hi
  | cons c l ih =>
    cases i with
    | zero =>
      simp at h
      subst h
      show c ::ₘ ((b :: l : List Nat) : Multiset Nat) = _
      rw [← Multiset.cons_coe, ← Multiset.cons_coe, Multiset.cons_swap]
    | succ i =>
      rw [List.getElem?_cons_succ] at h
      rw [List.set_cons_succ, ← Multiset.cons_coe, ← Multiset.cons_coe, Multiset.cons_swap, ih h (by simpa using hi), Multiset.cons_swap]

theorem mem_of_get {l : List Nat} {i a : Nat} (h : l[i]? = some a) (Ls : Multiset Nat) : a ∈ (l : Multiset Nat) + Ls :=
  Multiset.mem_add.mpr (Or.inl (Multiset.mem_coe.mpr (List.mem_of_getElem? h)))

/-- Replacing one level pointer of a version: the rest of the references. -/
theorem split_get {l : List Nat} {i a : Nat} (h : l[i]? = some a) (Ls : Multiset Nat) :
    ∃ M, (l : Multiset Nat) + Ls = a ::ₘ M ∧ ∀ b, ((l.set i b : List Nat) : Multiset Nat) + Ls = b ::ₘ M := by
  obtain ⟨M, hM⟩ := Multiset.exists_cons_of_mem (mem_of_get h Ls)
  refine ⟨M, hM, fun b => ?_⟩
  have := set_perm (b := b) h Ls
  rw [Multiset.cons_add, Multiset.cons_add, hM] at this
  rw [Multiset.cons_swap] at this
  exact (Multiset.cons_inj_right a).mp this

/-- `new InternalLevel` without shards. -/
theorem Inv.newEmpty (i : Inv x Ls Ss) (no cap : Nat) : Inv (Rc.newLevel x (HLevel.new no cap)).1 (x.h.lv.length ::ₘ Ls) Ss := by
  apply Inv.newLevel
  · refine i.congr rfl ?_
    unfold ptrs HLevel.new
    rw [nn_none, nn_replicate, zero_add]
  · simp [HLevel.new]

/-- What is kept for the version being built. -/
def Keep (L : Layout) (Ls Ss : Multiset Nat) (y : RHeap R) (w : HStruct) : Prop :=
  Inv y ((w.levels : Multiset Nat) + Ls) Ss ∧ (L ≠ .leveling → NoPend y.h w.levels)

theorem noPend_new {h : Heap R} {as : List Nat} (hn : NoPend h as) (no cap : Nat) (hlt : ∀ a ∈ as, a < h.lv.length) :
    NoPend (h.newLevel (HLevel.new no cap)).1 (as ++ [h.lv.length]) := by
  intro a ha l hl
  have hl : (h.lv ++ [HLevel.new no cap])[a]? = some l := hl
  rcases List.mem_append.mp ha with ha | ha
  · rw [List.getElem?_append_left (hlt a ha)] at hl
    exact hn a ha l hl
  · rw [List.mem_singleton.mp ha, List.getElem?_append_right (le_refl _)] at hl
    simp at hl
    rw [← hl]; rfl

/-- A new empty level at the bottom. -/
theorem Keep.grow {st : HStruct} (k : Keep L Ls Ss x st) (no cap : Nat) (s : List LState) :
    Keep L Ls Ss (newLevel x (HLevel.new no cap)).1 { st with levels := st.levels ++ [x.h.lv.length], state := s } := by
  obtain ⟨i, hn⟩ := k
  refine ⟨(i.newEmpty no cap).congr ?_ rfl, fun hL => noPend_new (hn hL) no cap (fun a ha => ?_)⟩
  · rw [← Multiset.coe_add, Multiset.coe_singleton, ← Multiset.cons_add, ← Multiset.singleton_add]
    abel
  · exact i.lvLt a (Multiset.mem_add.mpr (Or.inl (Multiset.mem_coe.mpr ha)))

/-- The part of `reconstruct` after the bottom level exists. -/
theorem sim_reconstruct_core (L : Layout) (I : ShardImpl R) {st : HStruct} (k : Keep L Ls Ss x st) (base incoming cap : Nat)
    (f : Nat → Heap R → HStruct → HStruct) (hf : ∀ nb h w, (f nb h w).levels = w.levels) :
    Sim (do
        let ab ← getR st.levels base
        let ai ← getR st.levels incoming
        let (x, nb) ← newBase L I x ab ai
        let (x, ni) := newLevel x (HLevel.new incoming cap)
        let old ← getR (st.levels.set base nb) incoming
        let x ← decL x old
        .ok (x, f nb x.h { st with levels := (st.levels.set base nb).set incoming ni }))
      (do
        let ab ← getR st.levels base
        let ai ← getR st.levels incoming
        let (h, nb) ← Snap.newBase L I x.h ab ai
        let (h, ni) := h.newLevel (HLevel.new incoming cap)
        .ok (h, f nb h { st with levels := (st.levels.set base nb).set incoming ni }))
      (Keep L Ls Ss) := by
  obtain ⟨i, hn⟩ := k
  refine Sim.same fun ab hab => Sim.same fun ai hai => ?_
  have gab := getR_some hab
  have gai := getR_some hai
  obtain ⟨M, hM, hset⟩ := split_get gab Ls
  refine Sim.bind (sim_newBase L I (i.congr hM rfl) (hM ▸ mem_of_get gai Ls)
    (fun hL l hl => hn hL ab (List.mem_of_getElem? gab) l hl)) ?_
  rintro y nb ⟨j, hj⟩
  obtain ⟨old, hold⟩ : ∃ old, (st.levels.set base nb)[incoming]? = some old := by
    have : incoming < (st.levels.set base nb).length := by
      rw [List.length_set]; exact (List.getElem?_eq_some_iff.mp gai).1
    exact ⟨_, List.getElem?_eq_getElem this⟩
  show Sim (getR (st.levels.set base nb) incoming >>= _) _ _
  rw [getR_of_some hold, okb]
  have j1 : Inv y (((st.levels.set base nb : List Nat) : Multiset Nat) + Ls) Ss := j.congr (hset nb).symm rfl
  obtain ⟨M', hM', hset'⟩ := split_get hold Ls
  have j2 := j1.newEmpty incoming cap
  obtain ⟨z, e, eh, kz⟩ := (j2.congr (Ls' := old ::ₘ (y.h.lv.length ::ₘ M')) (by rw [hM', Multiset.cons_swap]) rfl).decL
  refine ⟨z, ?_, eh, ?_, ?_⟩
  · show (decL (newLevel y (HLevel.new incoming cap)).1 old >>= _) = _
    rw [e, okb, eh]; rfl
  · show Inv z (((f nb _ _).levels : Multiset Nat) + Ls) Ss
    rw [hf]
    exact kz.congr (hset' _).symm rfl
  · intro hL
    show NoPend z.h (f nb _ _).levels
    rw [hf, eh]
    obtain ⟨rfl, l', el, hp⟩ := hj hL
    intro a ha l hl
    have hl : (y.h.lv ++ [HLevel.new incoming cap])[a]? = some l := hl
    rcases List.mem_or_eq_of_mem_set ha with ha | rfl
    · have hlt : a < y.h.lv.length := j1.lvLt a (Multiset.mem_add.mpr (Or.inl (Multiset.mem_coe.mpr ha)))
      rw [List.getElem?_append_left hlt, el] at hl
      have hlt' : a < x.h.lv.length := by rw [el, List.length_set] at hlt; exact hlt
      by_cases ea : a = nb
      · subst ea
        rw [List.getElem?_set_self hlt'] at hl
        cases hl; exact hp
      · rw [List.getElem?_set_ne (fun h => ea h.symm)] at hl
        have ham : a ∈ st.levels := by
          rcases List.mem_or_eq_of_mem_set ha with h | h
          · exact h
          · exact absurd h ea
        exact hn hL a ham l hl
    · show l.pending = none
      have hl : (y.h.lv ++ [HLevel.new incoming cap])[y.h.lv.length]? = some l := hl
      rw [List.getElem?_append_right (le_refl _)] at hl
      simp at hl
      rw [← hl]; rfl

/-- The new state vector, ExtensionStructure.h 502-506. -/
def recState (cap base incoming : Nat) (nb : Nat) (h : Heap R) (w : HStruct) : HStruct :=
  let s1 := w.state.set base ⟨(readAt h nb).recordCount, Struct.levelCap w.bufSize w.sf base, (readAt h nb).cnt, cap⟩
  let s2 := s1.set incoming ⟨0, Struct.levelCap w.bufSize w.sf incoming, 0, cap⟩
  { w with state := s2 }

theorem sim_reconstruct (L : Layout) (I : ShardImpl R) {st : HStruct} (k : Keep L Ls Ss x st) (base incoming : Nat) :
    Sim (reconstruct L I x st base incoming) (Snap.reconstruct L I x.h st base incoming) (Keep L Ls Ss) := by
  unfold reconstruct Snap.reconstruct
  by_cases hb : base ≥ st.levels.length
  · simp only [if_pos hb]
    exact sim_reconstruct_core L I (k.grow base (Struct.shardCap L st.sf)
      (st.state ++ [⟨0, Struct.levelCap st.bufSize st.sf base, 0, Struct.shardCap L st.sf⟩]))
      base incoming (Struct.shardCap L st.sf) (recState (Struct.shardCap L st.sf) base incoming) (fun _ _ _ => rfl)
  · simp only [if_neg hb]
    exact sim_reconstruct_core L I k base incoming (Struct.shardCap L st.sf)
      (recState (Struct.shardCap L st.sf) base incoming) (fun _ _ _ => rfl)

/-! ### BSM -/

theorem useLs_eq : ∀ {as : List Nat} {Ls : Multiset Nat}, Inv x Ls Ss → (∀ a ∈ as, a ∈ Ls) →
    ∃ ls, useLs x as = .ok ls ∧ as.mapM (getR x.h.lv) = .ok ls ∧ ∀ l ∈ ls, ∃ a ∈ Ls, x.h.lv[a]? = some l
  | [], Ls, _, _ => ⟨[], rfl, rfl, fun l hl => by simp at hl⟩
  | a :: as, Ls, i, hm => by
    have ha := hm a List.mem_cons_self
    obtain ⟨l, hl, hu⟩ := i.level ha
    obtain ⟨ls, e1, e2, e3⟩ := useLs_eq (as := as) i (fun b hb => hm b (List.mem_cons_of_mem _ hb))
    refine ⟨l :: ls, ?_, ?_, ?_⟩
    · unfold useLs; rw [hu, okb, e1]; rfl
    · rw [List.mapM_cons, getR_of_some hl]
      show (as.mapM (getR x.h.lv) >>= _) = _
      rw [e2]; rfl
    · intro m hm'
      rcases List.mem_cons.mp hm' with rfl | h
      · exact ⟨a, ha, hl⟩
      · exact e3 m h

theorem sim_emptySources (target : Nat) : ∀ {ss : List Nat} {x : RHeap R} {st : HStruct},
    Inv x ((st.levels : Multiset Nat) + Ls) Ss → (∀ s ∈ ss, s < st.levels.length) →
    Sim (emptySources target x st ss) (.ok (Snap.emptySources target x.h st ss)) (fun y w => Inv y ((w.levels : Multiset Nat) + Ls) Ss)
  | [], x, st, i, _ => ⟨x, rfl, rfl, i⟩
  | s :: ss, x, st, i, hs => by
    have hlt := hs s List.mem_cons_self
    have hold : st.levels[s]? = some st.levels[s] := List.getElem?_eq_getElem hlt
    obtain ⟨M, hM, hset⟩ := split_get hold Ls
    obtain ⟨z, e, eh, kz⟩ := ((i.newEmpty s 1).congr (Ls' := st.levels[s] ::ₘ (x.h.lv.length ::ₘ M))
      (by rw [hM, Multiset.cons_swap]) rfl).decL
    have ih := sim_emptySources target (ss := ss) (x := z)
      (st := { st with levels := st.levels.set s x.h.lv.length
                       state := st.state.set s { reccnt := 0, reccap := Struct.levelCap st.bufSize st.sf target
                                                 shardcnt := 0, shardcap := 1 } })
      (kz.congr (hset _).symm rfl) (fun t ht => by
        show t < (st.levels.set s _).length
        rw [List.length_set]; exact hs t (List.mem_cons_of_mem _ ht))
    unfold emptySources Snap.emptySources
    show Sim (getR st.levels s >>= _) _ _
    rw [getR_of_some hold, okb]
    show Sim (decL (newLevel x (HLevel.new s 1)).1 st.levels[s] >>= _) _ _
    rw [e, okb]
    rw [eh] at ih
    exact ih

theorem mapM_mem {l : List Nat} : ∀ {is as : List Nat}, is.mapM (getR l) = .ok as → (∀ a ∈ as, a ∈ l) ∧ ∀ i ∈ is, i < l.length
  | [], as, h => by
    cases h
    exact ⟨fun a ha => by simp at ha, fun i hi => by simp at hi⟩
  | i :: is, as, h => by
    rw [List.mapM_cons] at h
    cases h1 : getR l i with
    | error e => rw [h1] at h; cases h
    | ok a =>
      rw [h1, okb] at h
      cases h2 : is.mapM (getR l) with
      | error e => rw [h2] at h; cases h
      | ok bs =>
        rw [h2] at h
        cases h
        obtain ⟨q1, q2⟩ := mapM_mem h2
        have g := getR_some h1
        refine ⟨fun b hb => ?_, fun j hj => ?_⟩
        · rcases List.mem_cons.mp hb with rfl | hb
          · exact List.mem_of_getElem? g
          · exact q1 b hb
        · rcases List.mem_cons.mp hj with rfl | hj
          · exact (List.getElem?_eq_some_iff.mp g).1
          · exact q2 j hj

theorem sim_reconstructBSM (I : ShardImpl R) {st : HStruct} (i : Inv x ((st.levels : Multiset Nat) + Ls) Ss) (t : Task) :
    Sim (reconstructBSM I x st t) (Snap.reconstructBSM I x.h st t) (fun y w => Inv y ((w.levels : Multiset Nat) + Ls) Ss) := by
  unfold reconstructBSM Snap.reconstructBSM
  refine Sim.same fun as has => ?_
  obtain ⟨q1, q2⟩ := mapM_mem has
  obtain ⟨ls, e1, e2, e3⟩ := useLs_eq i (fun a ha => Multiset.mem_add.mpr (Or.inl (Multiset.mem_coe.mpr (q1 a ha))))
  rw [e1, e2, okb, okb]
  refine Sim.bind (sim_reconstructMany i e3 t.target) ?_
  intro y a j
  simp only
  by_cases hb : t.target ≥ st.levels.length
  · rw [if_pos hb, if_pos hb]
    apply sim_emptySources
    · refine j.congr ?_ rfl
      show _ = ((st.levels ++ [a] : List Nat) : Multiset Nat) + Ls
      rw [← Multiset.coe_add, Multiset.coe_singleton, ← Multiset.cons_add, ← Multiset.singleton_add]
      abel
    · intro s hs
      show s < (st.levels ++ [a]).length
      rw [List.length_append]
      have := q2 s hs
      omega
  · rw [if_neg hb, if_neg hb]
    have hold : st.levels[t.target]? = some (st.levels[t.target]'(by omega)) := List.getElem?_eq_getElem (by omega)
    obtain ⟨M, hM, hset⟩ := split_get hold Ls
    obtain ⟨z, e, eh, kz⟩ := (j.congr (Ls' := (st.levels[t.target]'(by omega)) ::ₘ (a ::ₘ M)) (by rw [hM, Multiset.cons_swap]) rfl).decL
    rw [getR_of_some hold, okb, e, okb, ← eh]
    apply sim_emptySources
    · exact kz.congr (hset _).symm rfl
    · intro s hs
      show s < (st.levels.set _ _).length
      rw [List.length_set]; exact q2 s hs

/-! ### Flushing -/

theorem sim_newL0 (L : Layout) (I : ShardImpl R) {a0 : Nat} (i : Inv x (a0 ::ₘ Ls) Ss) (v : View R) :
    Sim (newL0 L I x a0 v) (Snap.newL0 L I x.h a0 v) (fun y nl => Inv y (nl ::ₘ Ls) Ss) := by
  have h0 : a0 ∈ a0 ::ₘ Ls := Multiset.mem_cons_self _ _
  obtain ⟨old, hl, hu⟩ := i.level h0
  have inplace : Sim (do let x ← appendBuffer I x a0 v; .ok (x, a0)) (do let h ← Snap.appendBuffer I x.h a0 v; .ok (h, a0))
      (fun y nl => Inv y (nl ::ₘ Ls) Ss) := by
    refine Sim1.bind (sim_appendBuffer i h0 v) ?_
    intro y j
    exact ⟨y, rfl, rfl, j⟩
  unfold newL0 Snap.newL0
  rw [hu, getR_of_some hl, okb, okb]
  cases L with
  | tiering => exact inplace
  | bsm => exact inplace
  | leveling =>
    simp only
    have j := i.newEmpty 0 1
    have hlt : a0 < x.h.lv.length := i.lvLt a0 h0
    show Sim (appendBuffer I (newLevel x (HLevel.new 0 1)).1 x.h.lv.length v >>= _)
      (Snap.appendBuffer I (newLevel x (HLevel.new 0 1)).1.h x.h.lv.length v >>= _) _
    have s := sim_appendBuffer (I := I) j (Multiset.mem_cons_self _ _) v
    cases hr : Snap.appendBuffer I (newLevel x (HLevel.new 0 1)).1.h x.h.lv.length v with
    | error e =>
      rw [hr] at s
      rw [show appendBuffer I (newLevel x (HLevel.new 0 1)).1 x.h.lv.length v = .error e from s]; rfl
    | ok h1 =>
      rw [hr] at s
      obtain ⟨y, e, eh, k⟩ := s
      rw [e, okb, okb]
      obtain ⟨lt, hlt', hut⟩ := k.level (Multiset.mem_cons_self x.h.lv.length _)
      subst eh
      -- the old level is unchanged
      have hold : y.h.lv[a0]? = some old := by
        have e1 : (newLevel x (HLevel.new 0 1)).1.h.lv[a0]? = some old := by
          show (x.h.lv ++ [HLevel.new 0 1])[a0]? = some old
          rw [List.getElem?_append_left hlt]; exact hl
        unfold Snap.appendBuffer at hr
        have e2 : getR (newLevel x (HLevel.new 0 1)).1.h.lv x.h.lv.length = .ok (HLevel.new 0 1) := by
          apply getR_of_some
          show (x.h.lv ++ [HLevel.new 0 1])[x.h.lv.length]? = _
          rw [List.getElem?_append_right (le_refl _)]; simp
        rw [e2, okb] at hr
        have hne : ¬ (HLevel.new 0 1).cnt = (HLevel.new 0 1).shards.length := by decide
        rw [if_neg hne] at hr
        cases hbld : I.build v with
        | error e => rw [hbld] at hr; cases hr
        | ok sd =>
          rw [hbld, okb] at hr
          have hr' := Except.ok.inj hr
          rw [← hr']
          show ((newLevel x (HLevel.new 0 1)).1.h.lv.set x.h.lv.length _)[a0]? = _
          rw [List.getElem?_set_ne (by omega)]; exact e1
      have n1 : (newLevel x (HLevel.new 0 1)).2 = x.h.lv.length := rfl
      have n2 : (x.h.newLevel (HLevel.new 0 1)).2 = x.h.lv.length := rfl
      rw [n1, n2, hut, getR_of_some hlt', okb, okb]
      by_cases hc : old.cnt > 0
      · rw [if_pos hc, if_pos hc]
        have s := sim_reconstruct2 (I := I) k (Multiset.mem_cons_of_mem h0) (Multiset.mem_cons_self _ _) hold hlt'
        cases hr2 : Snap.reconstruct2 I y.h old lt with
        | error e =>
          rw [hr2] at s
          rw [show reconstruct2 I y old lt = .error e from s]; rfl
        | ok p =>
          rw [hr2] at s
          obtain ⟨z, ez, ezh, kz⟩ := s
          rw [ez, okb]
          obtain ⟨z1, e1, eh1, k1⟩ := (kz.congr (Ls' := a0 ::ₘ (x.h.lv.length ::ₘ (p.2 ::ₘ Ls)))
            (by rw [Multiset.cons_swap x.h.lv.length a0, Multiset.cons_swap p.2 a0, Multiset.cons_swap p.2]) rfl).decL
          obtain ⟨z2, e2, eh2, k2⟩ := k1.decL
          refine ⟨z2, ?_, by rw [eh2, eh1, ezh], k2⟩
          show (decL z a0 >>= _) = _
          rw [e1, okb, e2]; rfl
      · rw [if_neg hc, if_neg hc]
        obtain ⟨z1, e1, eh1, k1⟩ := (k.congr (Ls' := a0 ::ₘ (x.h.lv.length ::ₘ Ls)) (Multiset.cons_swap _ _ _) rfl).decL
        refine ⟨z1, ?_, eh1, k1⟩
        rw [e1]; rfl

theorem sim_flush_core (L : Layout) (I : ShardImpl R) {st : HStruct} (i : Inv x ((st.levels : Multiset Nat) + Ls) Ss) (v : View R) :
    Sim (do
        let a0 ← getR st.levels 0
        let (x, nl) ← newL0 L I x a0 v
        let s0 ← getR st.state 0
        .ok (x, ({ st with levels := st.levels.set 0 nl
                           state := st.state.set 0 { s0 with reccnt := (readAt x.h nl).recordCount, shardcnt := (readAt x.h nl).cnt } } : HStruct)))
      (do
        let a0 ← getR st.levels 0
        let (h, nl) ← Snap.newL0 L I x.h a0 v
        let s0 ← getR st.state 0
        .ok (h, ({ st with levels := st.levels.set 0 nl
                           state := st.state.set 0 { s0 with reccnt := (readAt h nl).recordCount, shardcnt := (readAt h nl).cnt } } : HStruct)))
      (fun y w => Inv y ((w.levels : Multiset Nat) + Ls) Ss) := by
  refine Sim.same fun a0 h0 => ?_
  obtain ⟨M, hM, hset⟩ := split_get (getR_some h0) Ls
  refine Sim.bind (sim_newL0 L I (i.congr hM rfl) v) ?_
  intro y nl j
  refine Sim.same fun s0 _ => ?_
  exact ⟨y, rfl, rfl, j.congr (hset nl).symm rfl⟩

theorem sim_flushIntoL0 (L : Layout) (I : ShardImpl R) {st : HStruct} (i : Inv x ((st.levels : Multiset Nat) + Ls) Ss) (v : View R) :
    Sim (flushIntoL0 L I x st v) (Snap.flushIntoL0 L I x.h st v) (fun y w => Inv y ((w.levels : Multiset Nat) + Ls) Ss) := by
  unfold flushIntoL0 Snap.flushIntoL0
  by_cases hb : st.levels.length = 0
  · simp only [if_pos hb]
    exact sim_flush_core L I (st := { st with levels := st.levels ++ [x.h.lv.length], state := st.state ++
      [⟨0, Struct.levelCap st.bufSize st.sf 0, 0, Struct.shardCap L st.sf⟩] })
      ((i.newEmpty 0 (Struct.shardCap L st.sf)).congr (by
        show _ = ((st.levels ++ [x.h.lv.length] : List Nat) : Multiset Nat) + Ls
        rw [← Multiset.coe_add, Multiset.coe_singleton, ← Multiset.cons_add, ← Multiset.singleton_add]
        abel) rfl) v
  · simp only [if_neg hb]
    exact sim_flush_core L I i v

theorem sim_flushBuffer (L : Layout) (I : ShardImpl R) {st : HStruct} (i : Inv x ((st.levels : Multiset Nat) + Ls) Ss) (v : View R) :
    Sim (flushBuffer L I x st v) (Snap.flushBuffer L I x.h st v) (fun y w => Inv y ((w.levels : Multiset Nat) + Ls) Ss) := by
  unfold flushBuffer Snap.flushBuffer
  exact Sim.same fun _ _ => sim_flushIntoL0 L I i v

theorem sim_fold (L : Layout) (I : ShardImpl R) : ∀ {ts : List Task} {x : RHeap R} {st : HStruct}, Keep L Ls Ss x st →
    Sim (ts.foldlM (fun (y : RHeap R × HStruct) t => do
        let src ← getR t.sources 0
        reconstruct L I y.1 y.2 t.target src) (x, st))
      (ts.foldlM (fun (y : Heap R × HStruct) t => do
        let src ← getR t.sources 0
        Snap.reconstruct L I y.1 y.2 t.target src) (x.h, st))
      (Keep L Ls Ss)
  | [], x, st, k => ⟨x, rfl, rfl, k⟩
  | t :: ts, x, st, k => by
    rw [List.foldlM_cons, List.foldlM_cons]
    refine Sim.bind (Q := Keep L Ls Ss) (Sim.same fun src _ => sim_reconstruct L I k t.target src) ?_
    intro y w k'
    exact sim_fold L I k'

theorem sim_runTasks (L : Layout) (I : ShardImpl R) {st : HStruct} (k : Keep L Ls Ss x st) (ts : List Task) :
    Sim (runTasks L I x st ts) (Snap.runTasks L I x.h st ts) (fun y w => Inv y ((w.levels : Multiset Nat) + Ls) Ss) := by
  cases L with
  | bsm =>
    cases ts with
    | nil => exact ⟨x, rfl, rfl, k.1⟩
    | cons t ts => exact sim_reconstructBSM I k.1 t
  | leveling => exact (sim_fold .leveling I k).mono fun _ _ h => h.1
  | tiering => exact (sim_fold .tiering I k).mono fun _ _ h => h.1

/-- A whole reconstruction: same outcome, nothing freed is used, counts stay exact. -/
theorem sim_next (L : Layout) (I : ShardImpl R) {st : HStruct} (i : Inv x Ls Ss) (hm : ∀ a ∈ st.levels, a ∈ Ls) (hwm : Nat) (v : View R) :
    Sim (next L I x st hwm v) (Snap.next L I x.h st hwm v) (fun y w => Inv y ((w.levels : Multiset Nat) + Ls) Ss) := by
  unfold next Snap.next
  refine Sim.bind (sim_copy i hm) ?_
  rintro y w ⟨q1, q2⟩
  refine Sim.same fun ts _ => ?_
  refine Sim.bind (sim_runTasks L I ⟨q1, fun _ => q2⟩ ts) ?_
  intro z u q
  exact sim_flushBuffer L I q v

end DE.Rc
