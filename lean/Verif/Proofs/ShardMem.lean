import Verif.Model.ShardMem
import Verif.Proofs.Buffer

/-!
What constructors and destructors do to the set of allocated blocks.
-/

namespace DE.SM
variable {m m' m'' : Mem}

/-- The block of a pointer, with the way it was allocated. -/
def Ptr.blocks (k : Kind) : Ptr → List (Nat × Kind)
  | .blk a => [(a, k)]
  | _ => []

def Tree.blocks : Tree → List (Nat × Kind)
  | .null => []
  | .node a i o => (i.blocks ++ o.blocks) ++ [(a, .new)]

/-- The blocks of an object, in the order of the destructor. -/
def Obj.blocks : Obj → List (Nat × Kind)
  | .alias d al b => d.blocks .malloc ++ (al.blocks .new ++ b.blocks .new)
  | .isam d nd b => d.blocks .malloc ++ (nd.blocks .malloc ++ b.blocks .new)
  | .pgm d b => d.blocks .malloc ++ b.blocks .new
  | .ts d b => d.blocks .malloc ++ b.blocks .new
  | .fst d t => d.blocks .newArr ++ t.blocks .new
  | .louds d l => d.blocks .newArr ++ l.blocks .new
  | .vp d p t => d.blocks .malloc ++ (t.blocks ++ p.blocks .newArr)
  | .buffer d f => d.blocks .newArr ++ f.blocks .new

/-- No pointer member is indeterminate; the tries exist. -/
def Obj.Set : Obj → Prop
  | .alias d al b => d ≠ .uninit ∧ al ≠ .uninit ∧ b ≠ .uninit
  | .isam d nd b => d ≠ .uninit ∧ nd ≠ .uninit ∧ b ≠ .uninit
  | .pgm d b => d ≠ .uninit ∧ b ≠ .uninit
  | .ts d b => d ≠ .uninit ∧ b ≠ .uninit
  | .fst d t => d ≠ .uninit ∧ ∃ a, t = .blk a
  | .louds d l => d ≠ .uninit ∧ ∃ a, l = .blk a
  | .vp d p _ => d ≠ .uninit ∧ p ≠ .uninit
  | .buffer d f => d ≠ .uninit ∧ f ≠ .uninit

abbrev addrs (bs : List (Nat × Kind)) : List Nat := bs.map Prod.fst

/-- These blocks are allocated, and different. -/
def Holds (m : Mem) (bs : List (Nat × Kind)) : Prop := (addrs bs).Nodup ∧ ∀ p ∈ bs, m.live p.1 = some p.2

/-- `m'` is `m` without these blocks. -/
def Without (m : Mem) (bs : List (Nat × Kind)) (m' : Mem) : Prop :=
  m'.next = m.next ∧ ∀ a, m'.live a = if a ∈ addrs bs then none else m.live a

theorem Without.nil : Without m [] m := ⟨rfl, fun a => by simp⟩

theorem Without.trans {b c : List (Nat × Kind)} (h1 : Without m b m') (h2 : Without m' c m'') : Without m (b ++ c) m'' := by
  refine ⟨h2.1.trans h1.1, fun a => ?_⟩
  rw [h2.2, h1.2]
  by_cases hb : a ∈ addrs b <;> by_cases hc : a ∈ addrs c <;> simp [addrs] at hb hc ⊢ <;> simp [hb, hc]

theorem Holds.left {b c : List (Nat × Kind)} (h : Holds m (b ++ c)) : Holds m b := by
  obtain ⟨h1, h2⟩ := h
  unfold addrs at h1
  rw [List.map_append, List.nodup_append] at h1
  exact ⟨h1.1, fun p hp => h2 p (List.mem_append_left _ hp)⟩

theorem Holds.rest {b c : List (Nat × Kind)} (h : Holds m (b ++ c)) (w : Without m b m') : Holds m' c := by
  obtain ⟨h1, h2⟩ := h
  unfold addrs at h1
  rw [List.map_append, List.nodup_append] at h1
  refine ⟨h1.2.1, fun p hp => ?_⟩
  rw [w.2, if_neg, h2 p (List.mem_append_right _ hp)]
  intro hc
  exact h1.2.2 _ hc _ (List.mem_map.mpr ⟨p, hp, rfl⟩) rfl

theorem release_ok {k : Kind} {p : Ptr} (hp : p ≠ .uninit) (h : Holds m (p.blocks k)) : ∃ m', release m k p = .ok m' ∧ Without m (p.blocks k) m' := by
  cases p with
  | uninit => exact absurd rfl hp
  | null => exact ⟨m, rfl, Without.nil⟩
  | blk a =>
    have := h.2 (a, k) (by simp [Ptr.blocks])
    refine ⟨{ m with live := fun b => if b = a then none else m.live b }, ?_, rfl, fun b => ?_⟩
    · unfold release; exact if_pos this
    · simp [Ptr.blocks, addrs]

/-- Two releases in a row. -/
theorem chain {b c : List (Nat × Kind)} {r : Res Mem} {f : Mem → Res Mem} (h : Holds m (b ++ c)) (h1 : Holds m b → ∃ m', r = .ok m' ∧ Without m b m')
    (h2 : ∀ m', Holds m' c → ∃ m'', f m' = .ok m'' ∧ Without m' c m'') : ∃ m'', (r >>= f) = .ok m'' ∧ Without m (b ++ c) m'' := by
  obtain ⟨m', e1, w1⟩ := h1 h.left
  obtain ⟨m'', e2, w2⟩ := h2 m' (h.rest w1)
  exact ⟨m'', by rw [e1]; exact e2, w1.trans w2⟩

theorem deleteTree_ok : ∀ {t : Tree} {m : Mem}, Holds m t.blocks → ∃ m', deleteTree m t = .ok m' ∧ Without m t.blocks m'
  | .null, m, _ => ⟨m, rfl, Without.nil⟩
  | .node a i o, m, h => by
    have ha := h.2 (a, .new) (by simp [Tree.blocks])
    unfold deleteTree
    rw [if_pos ha]
    have h' : Holds m (i.blocks ++ (o.blocks ++ [(a, .new)])) := by
      have := h
      unfold Tree.blocks at this
      rwa [List.append_assoc] at this
    have := chain (f := fun m => (do let m ← deleteTree m o; release m .new (.blk a))) h' (fun h => deleteTree_ok h) fun m' h'' =>
      chain h'' (fun h => deleteTree_ok h) fun m'' h3 => release_ok (p := .blk a) (k := .new) (by simp) h3
    unfold Tree.blocks
    rw [List.append_assoc]
    exact this

/-- A destructor releases exactly the blocks of the object. -/
theorem dtor_ok {o : Obj} (hs : o.Set) (h : Holds m o.blocks) : ∃ m', dtor m o = .ok m' ∧ Without m o.blocks m' := by
  cases o with
  | «alias» d al b => exact chain h (release_ok hs.1) fun _ h => chain h (release_ok hs.2.1) fun _ h => release_ok hs.2.2 h
  | isam d nd b => exact chain h (release_ok hs.1) fun _ h => chain h (release_ok hs.2.1) fun _ h => release_ok hs.2.2 h
  | pgm d b => exact chain h (release_ok hs.1) fun _ h => release_ok hs.2 h
  | ts d b => exact chain h (release_ok hs.1) fun _ h => release_ok hs.2 h
  | fst d t =>
    obtain ⟨a, rfl⟩ := hs.2
    exact chain h (release_ok hs.1) fun _ h => release_ok (by simp) h
  | louds d l =>
    obtain ⟨a, rfl⟩ := hs.2
    exact chain h (release_ok hs.1) fun _ h => release_ok (by simp) h
  | vp d p t => exact chain h (release_ok hs.1) fun _ h => chain h deleteTree_ok fun _ h => release_ok hs.2 h
  | buffer d f => exact chain h (release_ok hs.1) fun _ h => release_ok hs.2 h

/-- Addresses from `next` on are free. -/
def Fresh (m : Mem) : Prop := ∀ a, m.next ≤ a → m.live a = none

/-- `m'` is `m` with these new blocks. -/
structure Adds (m : Mem) (bs : List (Nat × Kind)) (m' : Mem) : Prop where
  le : m.next ≤ m'.next
  new : ∀ p ∈ bs, m.next ≤ p.1 ∧ p.1 < m'.next
  nd : (addrs bs).Nodup
  live : ∀ p ∈ bs, m'.live p.1 = some p.2
  same : ∀ a, a ∉ addrs bs → m'.live a = m.live a

theorem Adds.nil : Adds m [] m := ⟨le_refl _, by simp, by simp [addrs], by simp, fun _ _ => rfl⟩

theorem Adds.fresh {bs : List (Nat × Kind)} (h : Adds m bs m') (hf : Fresh m) : Fresh m' := by
  intro a ha
  rw [h.same, hf a (le_trans h.le ha)]
  intro hm
  obtain ⟨p, hp, rfl⟩ := List.mem_map.mp hm
  have := (h.new p hp).2
  omega

theorem Adds.trans {b c : List (Nat × Kind)} (h1 : Adds m b m') (h2 : Adds m' c m'') : Adds m (b ++ c) m'' := by
  have hd : ∀ p ∈ b, p.1 ∉ addrs c := by
    intro p hp hm
    obtain ⟨q, hq, e⟩ := List.mem_map.mp hm
    have := (h1.new p hp).2
    have := (h2.new q hq).1
    omega
  refine ⟨le_trans h1.le h2.le, ?_, ?_, ?_, ?_⟩
  · intro p hp
    rcases List.mem_append.mp hp with h | h
    · exact ⟨(h1.new p h).1, lt_of_lt_of_le (h1.new p h).2 h2.le⟩
    · exact ⟨le_trans h1.le (h2.new p h).1, (h2.new p h).2⟩
  · unfold addrs
    rw [List.map_append, List.nodup_append]
    refine ⟨h1.nd, h2.nd, ?_⟩
    rintro a ha _ hb rfl
    obtain ⟨p, hp, rfl⟩ := List.mem_map.mp ha
    exact hd p hp hb
  · intro p hp
    rcases List.mem_append.mp hp with h | h
    · rw [h2.same _ (hd p h)]; exact h1.live p h
    · exact h2.live p h
  · intro a ha
    unfold addrs at ha
    rw [List.map_append, List.mem_append, not_or] at ha
    rw [h2.same _ ha.2, h1.same _ ha.1]

theorem Adds.perm {b c : List (Nat × Kind)} (h : Adds m b m') (e : b.Perm c) : Adds m c m' :=
  ⟨h.le, fun p hp => h.new p (e.mem_iff.mpr hp), (e.map _).nodup_iff.mp h.nd, fun p hp => h.live p (e.mem_iff.mpr hp),
    fun a ha => h.same a (fun hm => ha ((e.map _).mem_iff.mp hm))⟩

/-- Temporary blocks. -/
theorem Adds.without {b c : List (Nat × Kind)} (hf : Fresh m) (h : Adds m (b ++ c) m') (w : Without m' b m'') : Adds m c m'' := by
  have hnd := h.nd
  unfold addrs at hnd
  rw [List.map_append, List.nodup_append] at hnd
  have hd : ∀ p ∈ c, p.1 ∉ addrs b := fun p hp hb => hnd.2.2 _ hb _ (List.mem_map.mpr ⟨p, hp, rfl⟩) rfl
  refine ⟨by rw [w.1]; exact h.le, fun p hp => ?_, hnd.2.1, fun p hp => ?_, fun a ha => ?_⟩
  · rw [w.1]; exact h.new p (List.mem_append_right _ hp)
  · rw [w.2, if_neg (hd p hp)]; exact h.live p (List.mem_append_right _ hp)
  · rw [w.2]
    by_cases hb : a ∈ addrs b
    · rw [if_pos hb]
      obtain ⟨p, hp, rfl⟩ := List.mem_map.mp hb
      exact (hf _ (h.new p (List.mem_append_left _ hp)).1).symm
    · rw [if_neg hb]
      apply h.same
      unfold addrs
      rw [List.map_append, List.mem_append, not_or]
      exact ⟨hb, ha⟩

theorem alloc_adds (k : Kind) : Adds m [(m.next, k)] (alloc m k).1 where
  le := Nat.le_succ _
  new := by simp [alloc]
  nd := by simp [addrs]
  live := by simp [alloc]
  same := by intro a ha; simp [addrs] at ha; simp [alloc, ha]

theorem temp_ok (hf : Fresh m) (buf : Bool) (k : Kind) : ∃ m', temp m buf k = .ok m' ∧ Adds m [] m' := by
  cases buf with
  | false => exact ⟨m, rfl, Adds.nil⟩
  | true =>
    have ha : Adds m ([(m.next, k)] ++ []) (alloc m k).1 := by simpa using alloc_adds (m := m) k
    obtain ⟨m', e, w⟩ := release_ok (m := (alloc m k).1) (p := .blk m.next) (k := k) (by simp) ⟨by simp [Ptr.blocks, addrs], by simp [Ptr.blocks, alloc]⟩
    exact ⟨m', e, ha.without hf w⟩

theorem ifAny_adds (n : Nat) (k : Kind) {p : Ptr} (hp : p.blocks k = []) : Adds m ((ifAny m n k p).2.blocks k) (ifAny m n k p).1 := by
  unfold ifAny
  split
  · exact alloc_adds k
  · show Adds m (p.blocks k) m
    rw [hp]; exact Adds.nil

theorem ifAny_null (n : Nat) (k : Kind) : (ifAny m n k .null).2 ≠ .uninit := by
  unfold ifAny; split <;> simp

theorem allocTree_adds {𝔽 : Type} : ∀ (t : VP.Node 𝔽) {m : Mem}, Adds m (allocTree m t).2.blocks (allocTree m t).1
  | .null, m => Adds.nil
  | .leaf _ _, m => alloc_adds .new
  | .node _ _ i o, m => by
    have h1 : Adds m [(m.next, .new)] (alloc m .new).1 := alloc_adds .new
    have h2 := allocTree_adds i (m := (alloc m .new).1)
    have h3 := allocTree_adds o (m := (allocTree (alloc m .new).1 i).1)
    exact (h1.trans (h2.trans h3)).perm List.perm_append_comm

/-- Everything but an `FSTrie` without records. -/
def Spec.Ok {𝔽 : Type} : Spec 𝔽 → Prop
  | .fst _ n => 0 < n
  | _ => True

/-- A constructor adds exactly the blocks of the new object. -/
theorem ctor_ok {𝔽 : Type} (hf : Fresh m) (sp : Spec 𝔽) : ∃ m' o, ctor m sp = .ok (m', o) ∧ Adds m o.blocks m' ∧ (sp.Ok → o.Set) := by
  cases sp with
  | «alias» buf n =>
    have h1 : Adds m [(m.next, .new)] (alloc m .new).1 := alloc_adds .new
    have h2 := alloc_adds (m := (alloc m .new).1) .malloc
    obtain ⟨m3, e3, h3⟩ := temp_ok (h2.fresh (h1.fresh hf)) buf .malloc
    have h4 := ifAny_adds (m := m3) n .new (p := .null) rfl
    refine ⟨?M1, ?O1, ?_, ?_, ?_⟩
    on_goal 3 => unfold ctor; simp only [e3, bind, Except.bind]; rfl
    on_goal 2 => exact fun _ => ⟨by simp, ifAny_null _ _, by simp⟩
    refine (h1.trans (h2.trans (h3.trans h4))).perm ?_
    show List.Perm ([_] ++ ([_] ++ ([] ++ _))) ([_] ++ (_ ++ [_]))
    simp only [List.nil_append]
    refine (List.perm_append_comm (l₁ := [_])).trans ?_
    rw [List.append_assoc]
    exact List.Perm.refl _
  | isam buf n =>
    have h1 : Adds m [(m.next, .malloc)] (alloc m .malloc).1 := alloc_adds .malloc
    obtain ⟨m3, e3, h3⟩ := temp_ok (h1.fresh hf) buf .malloc
    have h4 := ifAny_adds (m := m3) n .malloc (p := .null) rfl
    refine ⟨?M2, ?O2, ?_, ?_, ?_⟩
    on_goal 3 => unfold ctor; simp only [e3, bind, Except.bind]; rfl
    on_goal 2 => exact fun _ => ⟨by simp, ifAny_null _ _, by simp⟩
    have := h1.trans (h3.trans h4)
    refine this.perm ?_
    show List.Perm ([_] ++ ([] ++ _)) ([_] ++ (_ ++ []))
    simp only [List.nil_append, List.append_nil]
    exact List.Perm.refl _
  | pgm buf n =>
    have h1 : Adds m [(m.next, .malloc)] (alloc m .malloc).1 := alloc_adds .malloc
    obtain ⟨m3, e3, h3⟩ := temp_ok (h1.fresh hf) buf .malloc
    refine ⟨?M3, ?O3, ?_, ?_, ?_⟩
    on_goal 3 => unfold ctor; simp only [e3, bind, Except.bind]; rfl
    on_goal 2 => exact fun _ => ⟨by simp, by simp⟩
    exact h1.trans h3
  | ts buf n =>
    have h1 : Adds m [(m.next, .malloc)] (alloc m .malloc).1 := alloc_adds .malloc
    obtain ⟨m3, e3, h3⟩ := temp_ok (h1.fresh hf) buf .malloc
    refine ⟨?M4, ?O4, ?_, ?_, ?_⟩
    on_goal 3 => unfold ctor; simp only [e3, bind, Except.bind]; rfl
    on_goal 2 => exact fun _ => ⟨by simp, by simp⟩
    exact h1.trans h3
  | fst buf n =>
    have h1 : Adds m [(m.next, .newArr)] (alloc m .newArr).1 := alloc_adds .newArr
    have hset : ∀ {m : Mem}, 0 < n → ∃ a, (ifAny m n .new .uninit).2 = .blk a := by
      intro m hn; unfold ifAny; rw [if_pos hn]; exact ⟨_, rfl⟩
    cases buf with
    | false =>
      have h2 := ifAny_adds (m := (alloc m .newArr).1) n .new (p := .uninit) rfl
      refine ⟨?M5, ?O5, ?_, ?_, ?_⟩
      on_goal 3 => unfold ctor; simp only [bind, Except.bind, Bool.false_eq_true, if_false]; rfl
      · exact h1.trans h2
      · exact fun h => ⟨by simp, hset h⟩
    | true =>
      have h2 := alloc_adds (m := (alloc m .newArr).1) .newArr
      have h3 := ifAny_adds (m := (alloc (alloc m .newArr).1 .newArr).1) n .new (p := .uninit) rfl
      have h23 := h2.trans h3
      obtain ⟨m4, e4, w⟩ := release_ok (m := (ifAny (alloc (alloc m .newArr).1 .newArr).1 n .new .uninit).1) (p := .blk (alloc m .newArr).1.next) (k := .newArr)
        (by simp) ⟨by simp [Ptr.blocks, addrs], fun p hp => h23.live p (List.mem_append_left _ hp)⟩
      have h4 := h23.without (h1.fresh hf) w
      refine ⟨m4, .fst (.blk m.next) (ifAny (alloc (alloc m .newArr).1 .newArr).1 n .new .uninit).2, ?_, ?_, ?_⟩
      · unfold ctor
        simp only [if_true]
        have e4' : release (ifAny (alloc (alloc m .newArr).1 .newArr).1 n .new .uninit).1 .newArr (.blk (alloc (alloc m .newArr).1 .newArr).2) = .ok m4 := e4
        simp only [e4', bind, Except.bind]
        rfl
      · exact h1.trans h4
      · exact fun h => ⟨by simp, hset h⟩
  | louds buf n =>
    have h1 : Adds m [(m.next, .newArr)] (alloc m .newArr).1 := alloc_adds .newArr
    have h2 := alloc_adds (m := (alloc m .newArr).1) .new
    obtain ⟨m3, e3, h3⟩ := temp_ok (h2.fresh (h1.fresh hf)) buf .newArr
    refine ⟨?M6, ?O6, ?_, ?_, ?_⟩
    on_goal 3 => unfold ctor; simp only [e3, bind, Except.bind]; rfl
    on_goal 2 => exact fun _ => ⟨by simp, _, rfl⟩
    exact h1.trans (h2.trans h3)
  | vp root =>
    have h1 : Adds m [(m.next, .malloc)] (alloc m .malloc).1 := alloc_adds .malloc
    have h2 := alloc_adds (m := (alloc m .malloc).1) .newArr
    have h3 := allocTree_adds root (m := (alloc (alloc m .malloc).1 .newArr).1)
    refine ⟨_, _, rfl, ?_, fun _ => ⟨by simp, by simp⟩⟩
    refine (h1.trans (h2.trans h3)).perm ?_
    exact List.Perm.append_left _ List.perm_append_comm
  | buffer =>
    have h1 : Adds m [(m.next, .newArr)] (alloc m .newArr).1 := alloc_adds .newArr
    have h2 := alloc_adds (m := (alloc m .newArr).1) .new
    exact ⟨_, _, rfl, h1.trans h2, fun _ => ⟨by simp, by simp⟩⟩

variable {𝔽 : Type}

/-- All objects but `FSTrie`s without records. -/
def Op.Ok : Op 𝔽 → Prop
  | .build sp => sp.Ok
  | .destroy _ => True

/-- The blocks of all objects. -/
def allBlocks (os : List Obj) : List (Nat × Kind) := os.flatMap Obj.blocks

structure Good (w : World) : Prop where
  fresh : Fresh w.m
  set : ∀ o ∈ w.objs, o.Set
  nd : (addrs (allBlocks w.objs)).Nodup
  live : ∀ a k, w.m.live a = some k ↔ (a, k) ∈ allBlocks w.objs

theorem Good.empty : Good World.empty := ⟨fun _ _ => rfl, by simp [World.empty], by simp [World.empty, allBlocks], by simp [World.empty, allBlocks]⟩

theorem Good.build {w : World} (g : Good w) {sp : Spec 𝔽} (hs : sp.Ok) : ∃ w', w.step (.build sp) = .ok w' ∧ Good w' := by
  obtain ⟨m', o, e, h, hset⟩ := ctor_ok g.fresh sp
  refine ⟨⟨m', o :: w.objs⟩, by unfold World.step; simp only [e, bind, Except.bind], h.fresh g.fresh, ?_, ?_, ?_⟩
  · intro x hx
    rcases List.mem_cons.mp hx with rfl | hx
    · exact hset hs
    · exact g.set x hx
  · show (addrs (o.blocks ++ allBlocks w.objs)).Nodup
    unfold addrs
    rw [List.map_append, List.nodup_append]
    refine ⟨h.nd, g.nd, ?_⟩
    rintro a ha _ hb rfl
    obtain ⟨p, hp, rfl⟩ := List.mem_map.mp ha
    obtain ⟨q, hq, e⟩ := List.mem_map.mp hb
    have h1 := (h.new p hp).1
    have h2 := (g.live q.1 q.2).mpr hq
    rw [g.fresh q.1 (by omega)] at h2
    cases h2
  · intro a k
    show m'.live a = some k ↔ (a, k) ∈ o.blocks ++ allBlocks w.objs
    rw [List.mem_append]
    by_cases ha : a ∈ addrs o.blocks
    · obtain ⟨p, hp, rfl⟩ := List.mem_map.mp ha
      have h1 := h.live p hp
      have hn : ∀ k, (p.1, k) ∉ allBlocks w.objs := by
        intro k hk
        have h2 := (g.live p.1 k).mpr hk
        rw [g.fresh _ (h.new p hp).1] at h2
        cases h2
      constructor
      · intro h2
        rw [h1] at h2
        obtain rfl := Option.some.inj h2
        exact Or.inl hp
      · rintro (h2 | h2)
        · exact h.live _ h2
        · exact absurd h2 (hn k)
    · rw [h.same a ha, g.live]
      constructor
      · exact Or.inr
      · rintro (h2 | h2)
        · exact absurd (List.mem_map.mpr ⟨_, h2, rfl⟩) ha
        · exact h2

theorem allBlocks_perm {os : List Obj} {i : Nat} {o : Obj} (h : os[i]? = some o) :
    (allBlocks os).Perm (o.blocks ++ allBlocks (os.eraseIdx i)) := by
  have : os.Perm (o :: os.eraseIdx i) := by
    obtain ⟨hi, rfl⟩ := List.getElem?_eq_some_iff.mp h
    exact (List.getElem_cons_eraseIdx_perm hi).symm
  exact this.flatMap_right _

theorem Good.held {w : World} (g : Good w) {i : Nat} {o : Obj} (h : w.objs[i]? = some o) : Holds w.m (o.blocks ++ allBlocks (w.objs.eraseIdx i)) := by
  have hp := allBlocks_perm h
  exact ⟨(hp.map _).nodup_iff.mp g.nd, fun p hp' => (g.live p.1 p.2).mpr (hp.mem_iff.mpr hp')⟩

theorem Good.destroy {w : World} (g : Good w) (i : Nat) : ∃ w', w.step (.destroy i : Op 𝔽) = .ok w' ∧ Good w' := by
  cases h : w.objs[i]? with
  | none => exact ⟨w, by simp only [World.step, h], g⟩
  | some o =>
    have hh := g.held h
    obtain ⟨m', e, hw⟩ := dtor_ok (g.set o (List.mem_of_getElem? h)) hh.left
    have hp := allBlocks_perm h
    have hr := hh.rest hw
    refine ⟨⟨m', w.objs.eraseIdx i⟩, by simp only [World.step, h, e, bind, Except.bind], ?_, ?_, hr.1, ?_⟩
    · intro a ha
      have ha : w.m.next ≤ a := by rw [← hw.1]; exact ha
      show m'.live a = none
      rw [hw.2, g.fresh a ha]
      split <;> rfl
    · exact fun x hx => g.set x (List.mem_of_mem_eraseIdx hx)
    · intro a k
      constructor
      · intro h1
        have h1 : m'.live a = some k := h1
        rw [hw.2] at h1
        by_cases ha : a ∈ addrs o.blocks
        · rw [if_pos ha] at h1; cases h1
        · rw [if_neg ha, g.live, hp.mem_iff, List.mem_append] at h1
          rcases h1 with h1 | h1
          · exact absurd (List.mem_map.mpr ⟨_, h1, rfl⟩) ha
          · exact h1
      · exact fun h1 => hr.2 _ h1

theorem Good.run {w : World} (g : Good w) : ∀ {ops : List (Op 𝔽)}, (∀ op ∈ ops, op.Ok) → ∃ w', w.run ops = .ok w' ∧ Good w' := by
  intro ops
  induction ops generalizing w with
  | nil => exact fun _ => ⟨w, rfl, g⟩
  | cons op ops ih =>
    intro h
    have h1 : ∃ w', w.step op = .ok w' ∧ Good w' := by
      cases op with
      | build sp => exact g.build (h _ (List.mem_cons_self ..))
      | destroy i => exact g.destroy i
    obtain ⟨w1, e1, g1⟩ := h1
    obtain ⟨w2, e2, g2⟩ := ih g1 (fun op hop => h op (List.mem_cons_of_mem _ hop))
    exact ⟨w2, by unfold World.run; rw [e1]; exact e2, g2⟩

end DE.SM
