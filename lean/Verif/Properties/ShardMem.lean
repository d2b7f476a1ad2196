import Verif.Proofs.ShardMem
import Verif.Properties.FSTagging

/-!
C120: the memory of shards and buffers.
-/

namespace DE.SM
variable {𝔽 : Type}

/-- C120, as long as no `FSTrie` without records is built: objects of all classes are constructed and destroyed in any order and
number without undefined behaviour. At every moment exactly the blocks in the members of existing objects are allocated, each by the
function its destructor expects and each in one object only; the memory usage of every object can be asked for. -/
theorem C120_partial {ops : List (Op 𝔽)} (h : ∀ op ∈ ops, op.Ok) : ∃ w, World.empty.run ops = .ok w ∧
    (∀ a k, w.m.live a = some k ↔ ∃ o ∈ w.objs, (a, k) ∈ o.blocks) ∧ (addrs (w.objs.flatMap Obj.blocks)).Nodup ∧
    (∀ o ∈ w.objs, usage w.m o = .ok ()) ∧ (w.objs = [] → ∀ a, w.m.live a = none) := by
  obtain ⟨w, e, g⟩ := Good.empty.run h
  have hl : ∀ a k, w.m.live a = some k ↔ ∃ o ∈ w.objs, (a, k) ∈ o.blocks := by
    intro a k
    rw [g.live]
    unfold allBlocks
    rw [List.mem_flatMap]
  refine ⟨w, e, hl, g.nd, ?_, ?_⟩
  · intro o ho
    have hs := g.set o ho
    cases o with
    | fst d t =>
      obtain ⟨a, rfl⟩ := hs.2
      have := (hl a .new).mpr ⟨_, ho, by simp [Obj.blocks, Ptr.blocks]⟩
      simp [usage, deref, this]
    | louds d l =>
      obtain ⟨a, rfl⟩ := hs.2
      have := (hl a .new).mpr ⟨_, ho, by simp [Obj.blocks, Ptr.blocks]⟩
      simp [usage, deref, this]
    | _ => rfl
  · intro h0 a
    cases hx : w.m.live a with
    | none => rfl
    | some k =>
      obtain ⟨o, ho, _⟩ := (hl a k).mp hx
      rw [h0] at ho
      cases ho

/-- Non-vacuous: one object of every class, a `VPTree` of three nodes among them, destroyed in another order; then nothing is left. -/
example : (World.empty.run ([.build (.alias true 3), .build (.isam false 2), .build (.pgm true 1), .build (.ts false 0), .build (.fst true 2),
    .build (.louds true 0), .build (.vp (.node 0 (1 : Nat) (.leaf 1 1) (.leaf 2 3))), .build .buffer,
    .destroy 3, .destroy 0, .destroy 5, .destroy 0, .destroy 3, .destroy 1, .destroy 1, .destroy 0] : List (Op Nat))).map
      (fun w => (w.objs, w.m.next, (List.range w.m.next).map w.m.live)) = .ok ([], 22, List.replicate 22 none) := by decide

/-- An `FSTrie` without records can be constructed, but neither destroyed nor asked for its memory usage. -/
theorem C120_false_fst (buf : Bool) (m : Mem) : ∃ m' o, ctor m (.fst buf 0 : Spec 𝔽) = .ok (m', o) ∧
    dtor m' o = .error .ub ∧ usage m' o = .error .ub := by
  cases buf with
  | false => exact ⟨_, .fst (.blk m.next) .uninit, rfl, by simp [dtor, release, bind, Except.bind], rfl⟩
  | true =>
    refine ⟨?M, ?O, ?_, ?_, ?_⟩
    on_goal 3 =>
      simp only [ctor, alloc, ifAny, release, bind, Except.bind, if_true, lt_irrefl, if_false]
      rfl
    · simp [dtor, release, bind, Except.bind]
    · rfl

/-- C120 is false: the history of `C111_false_empty` builds such an `FSTrie`. -/
theorem C120_false : ∃ (d0 d : Index Rec) (bs : List Bool),
    Index.new .tiering true (fstImpl PQ.std Trie.scan noLit) 2 2 2 = .ok d0 ∧
    d0.run [.ins ⟨1, 1⟩, .ins ⟨2, 2⟩, .del ⟨1, 1⟩, .del ⟨2, 2⟩, .ins ⟨3, 3⟩] = .ok (d, bs) ∧
    ∃ s ∈ d.str.visible, ∀ m, ∃ m' o, ctor m (.fst true s.data.length : Spec Nat) = .ok (m', o) ∧
      dtor m' o = .error .ub ∧ usage m' o = .error .ub := by
  have h : fstProbe noLit .tiering true 2 2 2 [.ins ⟨1, 1⟩, .ins ⟨2, 2⟩, .del ⟨1, 1⟩, .del ⟨2, 2⟩, .ins ⟨3, 3⟩]
    (fun p => .ok (p.1.str.visible.map (fun s => s.data))) = .ok [[]] := by decide
  obtain ⟨d0, d, bs, h1, h2, h3⟩ := fstProbe_ok h
  refine ⟨d0, d, bs, h1, h2, ?_⟩
  have h3 : d.str.visible.map (fun s => s.data) = [[]] := Except.ok.inj h3
  obtain ⟨s, hs, e⟩ := List.mem_map.mp (by rw [h3]; exact List.mem_singleton.mpr rfl : [] ∈ d.str.visible.map (fun s => s.data))
  refine ⟨s, hs, fun m => ?_⟩
  rw [e]
  exact C120_false_fst true m

/-- The same without tagging: a record and its tombstone cancel when two levels are merged. -/
theorem C120_false_tombstone : ∃ (d0 d : Index Rec) (bs : List Bool),
    Index.new .leveling false (fstImpl PQ.std Trie.scan noLit) 1 1 2 = .ok d0 ∧
    d0.run [.ins ⟨1, 1⟩, .del ⟨1, 1⟩, .ins ⟨2, 2⟩] = .ok (d, bs) ∧
    ∃ s ∈ d.str.visible, ∀ m, ∃ m' o, ctor m (.fst false s.data.length : Spec Nat) = .ok (m', o) ∧
      dtor m' o = .error .ub ∧ usage m' o = .error .ub := by
  have h : fstProbe noLit .leveling false 1 1 2 [.ins ⟨1, 1⟩, .del ⟨1, 1⟩, .ins ⟨2, 2⟩]
    (fun p => .ok (p.1.str.visible.map (fun s => s.data))) = .ok [[]] := by decide
  obtain ⟨d0, d, bs, h1, h2, h3⟩ := fstProbe_ok h
  refine ⟨d0, d, bs, h1, h2, ?_⟩
  have h3 : d.str.visible.map (fun s => s.data) = [[]] := Except.ok.inj h3
  obtain ⟨s, hs, e⟩ := List.mem_map.mp (by rw [h3]; exact List.mem_singleton.mpr rfl : [] ∈ d.str.visible.map (fun s => s.data))
  refine ⟨s, hs, fun m => ?_⟩
  rw [e]
  exact C120_false_fst false m

end DE.SM
