import Verif.Proofs.OwnershipStatic
import Verif.Properties.Snapshot

/-!
C118: shards and levels are freed exactly when nothing needs them any more. Reconstructions, version retirement (done by the
reconstruction job itself, one job at a time: C49), static structures and tagged deletes in any order, on any of the versions that exist.
Which versions may be retired while queries run is C48 and C79.
-/

namespace DE.Rc
variable {R : Type} {L : Layout} {I : ShardImpl R}
open Snap

/-- The heap, the versions that exist, and the shards made by `create_static_structure` that the caller has not deleted. -/
structure World (R : Type) where
  x : RHeap R
  vs : List HStruct
  outs : List Nat

/-- What happens to the heap. -/
inductive Step (L : Layout) (I : ShardImpl R) : World R → World R → Prop
  | next {w : World R} {st u : HStruct} {hwm : Nat} {v : View R} {y : RHeap R} : st ∈ w.vs → next L I w.x st hwm v = .ok (y, u) →
      Step L I w ⟨y, u :: w.vs, w.outs⟩
  | drop {w : World R} {st : HStruct} {a b : List HStruct} {y : RHeap R} : w.vs = a ++ st :: b → destroy w.x st = .ok y →
      Step L I w ⟨y, a ++ b, w.outs⟩
  | static {w : World R} {d : Index R} {st : HStruct} {y : RHeap R} {f : Nat} : st ∈ w.vs → d.impl = I → d.str = read w.x.h st →
      createStatic I w.x st d.buf.view = .ok (y, f) → Step L I w ⟨y, w.vs, f :: w.outs⟩
  | free {w : World R} {a b : List Nat} {f : Nat} {y : RHeap R} : w.outs = a ++ f :: b → decS w.x f = .ok y →
      Step L I w ⟨y, w.vs, a ++ b⟩
  | tag {w : World R} {st : HStruct} {r : R} {h : Heap R} {t : Bool} : st ∈ w.vs → taggedDelete I w.x.h st r = .ok (h, t) →
      Step L I w ⟨{ w.x with h := h }, w.vs, w.outs⟩

/-- A new index: one empty version (DynamicExtension.h 81-97), nothing allocated. -/
def World.init (hwm sf : Nat) : World R := ⟨⟨⟨[], []⟩, fun _ => 0, fun _ => 0⟩, [⟨hwm, sf, [], []⟩], []⟩

/-- Executions. -/
inductive Reach (L : Layout) (I : ShardImpl R) (hwm sf : Nat) : World R → Prop
  | init : Reach L I hwm sf (World.init hwm sf)
  | step {w w' : World R} : Reach L I hwm sf w → Step L I w w' → Reach L I hwm sf w'

/-- The version has a pointer to the shard: in a slot of one of its levels, or as a pending shard. -/
def HStruct.PointsTo (h : Heap R) (st : HStruct) (a : Nat) : Prop :=
  ∃ b ∈ st.levels, ∃ l, h.lv[b]? = some l ∧ (some a ∈ l.shards ∨ l.pending = some a)

/-- The level pointers of a list of versions. -/
def levelRefs (vs : List HStruct) : Multiset Nat := ((vs.map HStruct.levels).flatten : List Nat)

theorem levelRefs_cons (st : HStruct) (vs : List HStruct) : levelRefs (st :: vs) = (st.levels : Multiset Nat) + levelRefs vs := by
  unfold levelRefs; simp

theorem levelRefs_mid (st : HStruct) (a b : List HStruct) : levelRefs (a ++ st :: b) = (st.levels : Multiset Nat) + levelRefs (a ++ b) := by
  unfold levelRefs
  simp only [List.map_append, List.map_cons, List.flatten_append, List.flatten_cons, ← Multiset.coe_add]
  abel

theorem mem_levelRefs {st : HStruct} {vs : List HStruct} (h : st ∈ vs) {a : Nat} (ha : a ∈ st.levels) : a ∈ levelRefs vs := by
  unfold levelRefs
  rw [Multiset.mem_coe, List.mem_flatten]
  exact ⟨st.levels, List.mem_map.mpr ⟨st, h, rfl⟩, ha⟩

/-- The invariant of an execution. -/
structure Good (w : World R) : Prop where
  inv : Inv w.x (levelRefs w.vs) (w.outs : Multiset Nat)
  wf : WfH w.x.h

theorem Good.lt {w : World R} (g : Good w) {st : HStruct} (h : st ∈ w.vs) : ∀ a ∈ st.levels, a < w.x.h.lv.length :=
  fun _ ha => g.inv.lvLt _ (mem_levelRefs h ha)

/-- Reconstructions do what the value model says, and leave the other versions as they are. -/
theorem Good.next {w : World R} (g : Good w) {st : HStruct} (h : st ∈ w.vs) (L : Layout) (I : ShardImpl R) (hwm : Nat) (v : View R) :
    match nextVal L I (read w.x.h st) hwm v with
    | .ok S => ∃ y u, next L I w.x st hwm v = .ok (y, u) ∧ read y.h u = S ∧ (∀ o ∈ w.vs, read y.h o = read w.x.h o) ∧
        Good ⟨y, u :: w.vs, w.outs⟩
    | .error e => Rc.next L I w.x st hwm v = .error e := by
  have s1 := Rc.sim_next L I g.inv (fun a ha => mem_levelRefs h ha) hwm v
  have s2 := Snap.sim_next L I g.wf (g.lt h) hwm v
  cases hn : Snap.next L I w.x.h st hwm v with
  | error e =>
    rw [hn] at s1 s2
    cases hv : nextVal L I (Snap.read w.x.h st) hwm v with
    | error e' =>
      rw [hv] at s2
      rw [show e = e' from s2] at s1
      exact s1
    | ok S => rw [hv] at s2; exact s2.elim
  | ok p =>
    rw [hn] at s1 s2
    cases hv : nextVal L I (Snap.read w.x.h st) hwm v with
    | error e' => rw [hv] at s2; exact s2.elim
    | ok S =>
      rw [hv] at s2
      obtain ⟨y, e, eh, j⟩ := s1
      have r : Res' w.x.h.lv.length w.x.h p S := s2
      refine ⟨y, p.2, e, by rw [eh]; exact r.val, fun o ho => ?_, ?_, ?_⟩
      · rw [eh]; exact read_frame g.wf r.frame (g.lt ho)
      · exact j.congr (levelRefs_cons _ _).symm rfl
      · show WfH y.h
        rw [eh]; exact r.own.wf

theorem Good.drop {w : World R} (g : Good w) {st : HStruct} {a b : List HStruct} (h : w.vs = a ++ st :: b) :
    ∃ y, destroy w.x st = .ok y ∧ y.h = w.x.h ∧ Good ⟨y, a ++ b, w.outs⟩ := by
  obtain ⟨y, e, eh, j⟩ := (g.inv.congr (Ls' := (st.levels : Multiset Nat) + levelRefs (a ++ b)) (by rw [h, levelRefs_mid]) rfl).decLs
  exact ⟨y, e, eh, j, by show WfH y.h; rw [eh]; exact g.wf⟩

theorem Good.free {w : World R} (g : Good w) {f : Nat} {a b : List Nat} (h : w.outs = a ++ f :: b) :
    ∃ y, decS w.x f = .ok y ∧ y.h = w.x.h ∧ Good ⟨y, w.vs, a ++ b⟩ := by
  obtain ⟨y, e, eh, j⟩ := (g.inv.congr (Ss' := f ::ₘ ((a ++ b : List Nat) : Multiset Nat)) rfl (by
    rw [h, Multiset.cons_coe, Multiset.coe_eq_coe]; exact List.perm_middle)).decS
  exact ⟨y, e, eh, j, by show WfH y.h; rw [eh]; exact g.wf⟩

theorem WfH.more {h h' : Heap R} (w : WfH h) (e : h'.lv = h.lv) {t : List (Shard R)} (et : h'.sh = h.sh ++ t) : WfH h' := by
  intro a l hl
  rw [e] at hl
  have := w a l hl
  refine ⟨fun s hs => ?_, fun s hs => ?_⟩
  · rw [et, List.length_append]; exact Nat.lt_add_right _ (this.1 s hs)
  · rw [et, List.length_append]; exact Nat.lt_add_right _ (this.2 s hs)

theorem Good.step {w w' : World R} (g : Good w) (s : Step L I w w') : Good w' := by
  cases s with
  | @next st u hwm v y h e =>
    have := g.next h L I hwm v
    cases hv : nextVal L I (Snap.read w.x.h st) hwm v with
    | error e' => rw [hv] at this; rw [this] at e; cases e
    | ok S =>
      rw [hv] at this
      obtain ⟨y', u', e', -, -, g'⟩ := this
      rw [e] at e'
      cases e'
      exact g'
  | @drop st a b y h e =>
    obtain ⟨y', e', -, g'⟩ := g.drop h
    rw [e] at e'; cases e'; exact g'
  | @static d st y f h hi hd e =>
    have := createStatic_spec d g.inv (fun a ha => mem_levelRefs h ha) hd
    rw [hi] at this
    cases hv : d.staticStructure with
    | error e' => rw [hv] at this; rw [this] at e; cases e
    | ok S =>
      rw [hv] at this
      obtain ⟨y', f', e', elv, ⟨t, et⟩, -, -, j⟩ := this
      rw [e] at e'
      cases e'
      exact ⟨j, WfH.more g.wf elv et⟩
  | @free a b f y h e =>
    obtain ⟨y', e', -, g'⟩ := g.free h
    rw [e] at e'; cases e'; exact g'
  | @tag st r h t hst ht =>
    have te := taggedDelete_tagEq ht
    have hheld : held ({ w.x with h := h } : RHeap R) = held w.x := by unfold held; simp only [te.1]
    refine ⟨⟨g.inv.lrc, ?_, ?_, ?_, ?_⟩, te.wf g.wf⟩
    · show ∀ a ∈ _, a < h.lv.length
      rw [te.1]; exact g.inv.lvLt
    · intro a; rw [hheld]; exact g.inv.src a
    · intro a ha
      rw [hheld] at ha
      show a < h.sh.length
      rw [te.length]; exact g.inv.shLt a ha
    · show ∀ l ∈ h.lv, _
      rw [te.1]; exact g.inv.cnt

theorem Reach.good {hwm sf : Nat} {w : World R} (h : Reach L I hwm sf w) : Good w := by
  induction h with
  | init =>
    refine ⟨⟨fun a => ?_, fun a ha => ?_, fun a => ?_, fun a ha => ?_, fun l hl => ?_⟩, fun a l hl => ?_⟩
    · simp [World.init, levelRefs]
    · simp [World.init, levelRefs] at ha
    · simp [World.init, held]
    · simp [World.init, held] at ha
    · simp [World.init] at hl
    · simp [World.init] at hl
  | step _ s ih => exact ih.step s

/-- C118, nothing is freed too early (1): a reconstruction, whichever version it starts from and whatever has been freed, does exactly what
it would do if nothing were ever freed and nothing shared (`nextVal`, the value model); in particular freeing adds no undefined behaviour.
All other versions read as before. -/
theorem C118_reconstruction {hwm sf : Nat} {w : World R} (h : Reach L I hwm sf w) {st : HStruct} (hst : st ∈ w.vs) (n : Nat) (v : View R) :
    match nextVal L I (read w.x.h st) n v with
    | .ok S => ∃ y u, next L I w.x st n v = .ok (y, u) ∧ read y.h u = S ∧ ∀ o ∈ w.vs, read y.h o = read w.x.h o
    | .error e => next L I w.x st n v = .error e := by
  have := h.good.next hst L I n v
  cases hv : nextVal L I (read w.x.h st) n v with
  | error e => rw [hv] at this; exact this
  | ok S =>
    rw [hv] at this
    obtain ⟨y, u, h1, h2, h3, -⟩ := this
    exact ⟨y, u, h1, h2, h3⟩

/-- C118, nothing is freed too early (2): a query on a version that exists collects pointers to exactly the shards of the version, and all
of them are allocated. -/
theorem C118_query {hwm sf : Nat} {w : World R} (h : Reach L I hwm sf w) {st : HStruct} (hst : st ∈ w.vs) :
    ∃ ps, visit w.x st.levels = .ok ps ∧ (∀ p ∈ ps, w.x.src p ≠ 0) ∧
      ps.map (fun a => w.x.h.shard (some a)) = (read w.x.h st).visible.map some :=
  visit_spec h.good.inv (fun _ ha => mem_levelRefs hst ha)

/-- C118, nothing is freed twice: a version can be destroyed at any time, in any order, and the other versions read as before. -/
theorem C118_destroy {hwm sf : Nat} {w : World R} (h : Reach L I hwm sf w) {st : HStruct} (hst : st ∈ w.vs) :
    ∃ y, destroy w.x st = .ok y ∧ ∀ o ∈ w.vs, read y.h o = read w.x.h o := by
  obtain ⟨a, b, e⟩ := List.append_of_mem hst
  obtain ⟨y, e1, e2, -⟩ := h.good.drop e
  exact ⟨y, e1, fun o _ => by rw [e2]⟩

/-- C118: `create_static_structure` does what it does on values, hands out a new shard, and the number of references to every other
shard is as before: its temporary shards are gone. -/
theorem C118_static {hwm sf : Nat} {w : World R} {d : Index R} (h : Reach L d.impl hwm sf w) {st : HStruct} (hst : st ∈ w.vs)
    (hd : d.str = read w.x.h st) :
    match d.staticStructure with
    | .ok s => ∃ y f, createStatic d.impl w.x st d.buf.view = .ok (y, f) ∧ y.h.sh[f]? = some s ∧ w.x.src f = 0 ∧ y.src f = 1 ∧
        (∀ a, a ≠ f → y.src a = w.x.src a) ∧ ∀ o ∈ w.vs, read y.h o = read w.x.h o
    | .error e => createStatic d.impl w.x st d.buf.view = .error e := by
  have g := h.good
  have := createStatic_spec d g.inv (fun a ha => mem_levelRefs hst ha) hd
  cases hv : d.staticStructure with
  | error e => rw [hv] at this; exact this
  | ok s =>
    rw [hv] at this
    obtain ⟨y, f, e1, elv, ⟨t, et⟩, hf, hs, j⟩ := this
    have hl : y.lrc = w.x.lrc := funext fun a => by rw [j.lrc, g.inv.lrc]
    have hheld : held y = held w.x := by unfold held; rw [elv, hl]
    have h0 : w.x.src f = 0 := by
      by_contra hne
      rw [g.inv.src] at hne
      exact absurd (g.inv.shLt f (Multiset.count_ne_zero.mp hne)) (by omega)
    refine ⟨y, f, e1, hs, h0, ?_, ?_, ?_⟩
    · rw [j.src, Multiset.cons_add, Multiset.count_cons_self, hheld, ← g.inv.src, h0]
    · intro a ha
      rw [j.src, Multiset.cons_add, Multiset.count_cons_of_ne ha, hheld, ← g.inv.src]
    · intro o ho
      have hyh : y.h = { w.x.h with sh := w.x.h.sh ++ t } := by
        cases hh : y.h with
        | mk sh lv => rw [hh] at elv et; cases elv; cases et; rfl
      rw [hyh]
      unfold Snap.read
      congr 1
      apply List.map_congr_left
      intro a ha
      obtain ⟨l, hl, -⟩ := g.inv.level (mem_levelRefs ho ha)
      unfold readAt
      rw [hl]
      exact readLevel_append (g.inv.wfL (mem_levelRefs ho ha) hl)

/-- C118, nothing leaks: a shard is allocated exactly as long as some version points to it or the caller of `create_static_structure` owns
it; a level exactly as long as some version points to it. -/
theorem C118_live {hwm sf : Nat} {w : World R} (h : Reach L I hwm sf w) (a : Nat) :
    (w.x.src a ≠ 0 ↔ a ∈ w.outs ∨ ∃ st ∈ w.vs, HStruct.PointsTo w.x.h st a) ∧
    (w.x.lrc a ≠ 0 ↔ ∃ st ∈ w.vs, a ∈ st.levels) := by
  have g := h.good
  have hlv : ∀ b, w.x.lrc b ≠ 0 ↔ ∃ st ∈ w.vs, b ∈ st.levels := by
    intro b
    rw [g.inv.lrc, Multiset.count_ne_zero]
    unfold levelRefs
    rw [Multiset.mem_coe, List.mem_flatten]
    constructor
    · rintro ⟨l, hl, hb⟩
      obtain ⟨st, hst, rfl⟩ := List.mem_map.mp hl
      exact ⟨st, hst, hb⟩
    · rintro ⟨st, hst, hb⟩
      exact ⟨_, List.mem_map.mpr ⟨st, hst, rfl⟩, hb⟩
  refine ⟨?_, hlv a⟩
  rw [g.inv.src, Multiset.count_ne_zero, Multiset.mem_add, Multiset.mem_coe]
  apply or_congr Iff.rfl
  unfold held
  rw [Multiset.mem_sum]
  constructor
  · rintro ⟨b, hb, ha⟩
    by_cases h0 : w.x.lrc b = 0
    · rw [if_pos h0] at ha; simp at ha
    · rw [if_neg h0] at ha
      obtain ⟨st, hst, hbs⟩ := (hlv b).mp h0
      have hlt := Finset.mem_range.mp hb
      have hl : w.x.h.lv[b]? = some w.x.h.lv[b] := List.getElem?_eq_getElem hlt
      rw [List.getD_eq_getElem?_getD, hl] at ha
      rcases List.mem_cons.mp (mem_nn.mp ha) with e | e
      · exact ⟨st, hst, b, hbs, _, hl, Or.inr e.symm⟩
      · exact ⟨st, hst, b, hbs, _, hl, Or.inl e⟩
  · rintro ⟨st, hst, b, hbs, l, hl, hp⟩
    refine ⟨b, Finset.mem_range.mpr (List.getElem?_eq_some_iff.mp hl).1, ?_⟩
    rw [if_neg ((hlv b).mpr ⟨st, hst, hbs⟩), List.getD_eq_getElem?_getD, hl]
    apply mem_nn.mpr
    rcases hp with e | e
    · exact List.mem_cons_of_mem _ e
    · show some a ∈ l.pending :: l.shards
      rw [e]; exact List.mem_cons_self

/-- C118, nothing leaks at the end: when all versions have been destroyed and the caller has deleted what it owns, nothing is allocated. -/
theorem C118_empty {hwm sf : Nat} {w : World R} (h : Reach L I hwm sf w) (hv : w.vs = []) (ho : w.outs = []) (a : Nat) :
    w.x.src a = 0 ∧ w.x.lrc a = 0 := by
  obtain ⟨h1, h2⟩ := C118_live h a
  rw [hv, ho] at h1
  rw [hv] at h2
  simp at h1 h2
  exact ⟨h1, h2⟩

/-- Commands, to write executions down: make a version from the newest one, destroy the oldest one, make a static structure of the newest
one, delete the last static structure. -/
inductive Cmd (R : Type) where
  | next (v : View R)
  | drop
  | static (d : Index R)
  | free

/-- Execute a command. -/
def exec1 [DecidableEq R] (L : Layout) (I : ShardImpl R) (hwm : Nat) (w : World R) : Cmd R → Option (World R)
  | .next v =>
    match w.vs with
    | st :: _ => match next L I w.x st hwm v with | .ok (y, u) => some ⟨y, u :: w.vs, w.outs⟩ | .error _ => none
    | [] => none
  | .drop =>
    match w.vs.reverse with
    | st :: b => match destroy w.x st with | .ok y => some ⟨y, b.reverse, w.outs⟩ | .error _ => none
    | [] => none
  | .static d =>
    match w.vs with
    | st :: _ =>
      if d.str = read w.x.h st then
        match createStatic I w.x st d.buf.view with | .ok (y, f) => some ⟨y, w.vs, f :: w.outs⟩ | .error _ => none
      else none
    | [] => none
  | .free =>
    match w.outs with
    | f :: b => match decS w.x f with | .ok y => some ⟨y, w.vs, b⟩ | .error _ => none
    | [] => none

theorem exec1_step [DecidableEq R] {hwm : Nat} {w w' : World R} {c : Cmd R} (hc : ∀ d, c = .static d → d.impl = I)
    (h : exec1 L I hwm w c = some w') : Step L I w w' := by
  cases c with
  | next v =>
    unfold exec1 at h
    simp only at h
    split at h
    · rename_i st b hv
      split at h
      · rename_i y u e
        cases h
        exact .next (by rw [hv]; exact List.mem_cons_self) e
      · cases h
    · cases h
  | drop =>
    unfold exec1 at h
    simp only at h
    split at h
    · rename_i st b hv
      split at h
      · rename_i y e
        cases h
        have hv' : w.vs = b.reverse ++ st :: [] := by
          have := congrArg List.reverse hv
          rw [List.reverse_reverse, List.reverse_cons] at this
          exact this
        have := Step.drop (L := L) (I := I) hv' e
        rw [List.append_nil] at this
        exact this
      · cases h
    · cases h
  | static d =>
    unfold exec1 at h
    simp only at h
    split at h
    · rename_i st b hv
      split at h
      · rename_i hd
        split at h
        · rename_i y f e
          cases h
          exact .static (by rw [hv]; exact List.mem_cons_self) (hc d rfl) hd e
        · cases h
      · cases h
    · cases h
  | free =>
    unfold exec1 at h
    simp only at h
    split at h
    · rename_i f b hv
      split at h
      · rename_i y e
        cases h
        exact Step.free (a := []) (by rw [hv]; rfl) e
      · cases h
    · cases h

/-- Execute commands. -/
def execs [DecidableEq R] (L : Layout) (I : ShardImpl R) (hwm : Nat) : World R → List (Cmd R) → Option (World R)
  | w, [] => some w
  | w, c :: cs => match exec1 L I hwm w c with | some w' => execs L I hwm w' cs | none => none

theorem execs_reach [DecidableEq R] {hwm n sf : Nat} (cs : List (Cmd R)) (hc : ∀ c ∈ cs, ∀ d, c = .static d → d.impl = I) : ∀ {w w' : World R},
    Reach L I n sf w → execs L I hwm w cs = some w' → Reach L I n sf w' := by
  induction cs with
  | nil => intro w w' hr h; cases h; exact hr
  | cons c cs ih =>
    intro w w' hr h
    unfold execs at h
    split at h
    · rename_i w1 h1
      exact ih (fun c' h' => hc c' (List.mem_cons_of_mem _ h')) (hr.step (exec1_step (hc c List.mem_cons_self) h1)) h
    · cases h

/-- The hypotheses are met non-trivially: three reconstructions under tiering; the first two shards are shared by versions and
have been merged into the third one. Before and after the three older versions are destroyed, the reference counts are: -/
example : ∃ w w' : World Rec, Reach .tiering stdImpl 1 2 w ∧ Reach .tiering stdImpl 1 2 w' ∧ w.vs.length = 4 ∧ w'.vs.length = 1 ∧
    (List.range 5).map w.x.src = [2, 1, 1, 1, 0] ∧ (List.range 5).map w'.x.src = [0, 0, 1, 1, 0] := by
  refine ⟨_, _, execs_reach (hwm := 1) [.next (viewOf [live 1]), .next (viewOf [live 2]), .next (viewOf [live 3])] ?_ .init rfl,
    execs_reach (hwm := 1) [.next (viewOf [live 1]), .next (viewOf [live 2]), .next (viewOf [live 3]), .drop, .drop, .drop] ?_ .init rfl,
    rfl, rfl, by decide, by decide⟩ <;> (intro c hc d e; subst e; simp at hc)

/-- The model sees memory errors: after all versions have been destroyed, using one of them is undefined. -/
example : ∃ (w : World Rec) (y : RHeap Rec) (st : HStruct), Reach .tiering stdImpl 1 2 w ∧ w.vs = [st] ∧ destroy w.x st = .ok y ∧
    visit y st.levels = .error .ub ∧ destroy y st = .error .ub ∧ next .tiering stdImpl y st 1 (viewOf [live 2]) = .error .ub := by
  refine ⟨_, _, _, execs_reach (hwm := 1) [.next (viewOf [live 1]), .drop] ?_ .init rfl, rfl, rfl, rfl, rfl, rfl⟩
  intro c hc d e; subst e; simp at hc

end DE.Rc
