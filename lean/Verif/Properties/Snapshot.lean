import Verif.Proofs.Snapshot
import Verif.Model.Instances

/-!
C51: the version a query runs on is a stable snapshot. C61: tagged deletes during a reconstruction.
-/

namespace DE.Snap
variable {R : Type} {L : Layout} {I : ShardImpl R}

/-- The heap, all versions made so far (newest first), and the version being built, if any. -/
structure World (R : Type) where
  h : Heap R
  vs : List HStruct
  work : Option HStruct

/-- What can happen: the steps of the reconstruction job in any order and number, and (`tag = true`) a tagged delete through any
version, at any moment in between. -/
inductive Step (L : Layout) (I : ShardImpl R) : Bool → World R → World R → Prop
  | copy {h : Heap R} {st : HStruct} {vs : List HStruct} {x : Heap R × HStruct} : copy h st = .ok x →
      Step L I false ⟨h, st :: vs, none⟩ ⟨x.1, st :: vs, some x.2⟩
  | tasks {h : Heap R} {vs : List HStruct} {w : HStruct} {ts : List Task} {x : Heap R × HStruct} : Proper L ts →
      runTasks L I h w ts = .ok x → Step L I false ⟨h, vs, some w⟩ ⟨x.1, vs, some x.2⟩
  | flush {h : Heap R} {vs : List HStruct} {w : HStruct} {v : View R} {x : Heap R × HStruct} :
      flushBuffer L I h w v = .ok x → Step L I false ⟨h, vs, some w⟩ ⟨x.1, vs, some x.2⟩
  | publish {h : Heap R} {vs : List HStruct} {w : HStruct} : Step L I false ⟨h, vs, some w⟩ ⟨h, w :: vs, none⟩
  | tag {h h' : Heap R} {vs : List HStruct} {work : Option HStruct} {o : HStruct} {r : R} {b : Bool} : o ∈ vs →
      taggedDelete I h o r = .ok (h', b) → Step L I true ⟨h, vs, work⟩ ⟨h', vs, work⟩

/-- Executions; `tag` says whether tagged deletes may occur. -/
inductive Path (L : Layout) (I : ShardImpl R) (tag : Bool) (s : World R) : World R → Prop
  | refl : Path L I tag s s
  | step {a b : World R} {t : Bool} : Path L I tag s a → (t = true → tag = true) → Step L I t a b → Path L I tag s b

/-- The initial world of an index: a single empty version (DynamicExtension.h 81-97). -/
def init (hwm sf : Nat) : World R := ⟨⟨[], []⟩, [⟨hwm, sf, [], []⟩], none⟩

/-- Invariant: pointers are valid, and the version being built shares no level object with the others. -/
structure Ok (s : World R) : Prop where
  wf : WfH s.h
  sep : ∃ n, n ≤ s.h.lv.length ∧ (∀ o ∈ s.vs, ∀ a ∈ o.levels, a < n) ∧ ∀ w, s.work = some w → Own n s.h w

/-- A record without its delete tag. -/
def untagW (w : Wrapped R) : Wrapped R := { w with header := w.header &&& ~~~2#32 }
/-- A shard without delete tags. -/
def untagS (s : Shard R) : Shard R := { s with data := s.data.map untagW }
/-- A level without delete tags. -/
def untagL (l : Level R) : Level R := { l with shards := l.shards.map (Option.map untagS), pending := l.pending.map untagS }
/-- A version without delete tags. -/
def untag (s : Struct R) : Struct R := { s with levels := s.levels.map untagL }

theorem untagW_setDelete (w : Wrapped R) : untagW w.setDelete = untagW w := by
  unfold untagW Wrapped.setDelete
  congr 1
  simp only
  have e : (w.header ||| 2#32) &&& ~~~2#32 = w.header &&& ~~~2#32 := by
    ext i hi
    simp only [BitVec.getElem_and, BitVec.getElem_or, BitVec.getElem_not]
    cases w.header[i] <;> cases (2#32)[i] <;> rfl
  exact e

/-- Two heaps that differ only in delete tags of shards. -/
def TagEq (h h' : Heap R) : Prop := h'.lv = h.lv ∧ h'.sh.map untagS = h.sh.map untagS

theorem TagEq.shard {h h' : Heap R} (e : TagEq h h') (o : Option Nat) :
    (h'.shard o).map untagS = (h.shard o).map untagS := by
  cases o with
  | none => rfl
  | some a =>
    show (h'.sh[a]?).map untagS = (h.sh[a]?).map untagS
    rw [← List.getElem?_map, ← List.getElem?_map, e.2]

theorem TagEq.read {h h' : Heap R} (e : TagEq h h') (o : HStruct) : untag (read h' o) = untag (read h o) := by
  unfold untag Snap.read
  simp only [List.map_map]
  congr 1
  apply List.map_congr_left
  intro a _
  show untagL (readAt h' a) = untagL (readAt h a)
  unfold readAt
  rw [e.1]
  cases h.lv[a]? with
  | none => rfl
  | some l =>
    unfold readLevel untagL
    simp only [List.map_map]
    congr 1
    · exact List.map_congr_left (fun o _ => e.shard o)
    · exact e.shard _

theorem TagEq.length {h h' : Heap R} (e : TagEq h h') : h'.sh.length = h.sh.length := by
  have := congrArg List.length e.2
  simpa using this

theorem TagEq.wf {h h' : Heap R} (e : TagEq h h') (w : WfH h) : WfH h' := by
  intro a l hl
  rw [e.1] at hl
  have := w a l hl
  unfold WfL
  rw [e.length]; exact this

theorem taggedDelete_eq {h h' : Heap R} {o : HStruct} {r : R} {b : Bool} (ht : taggedDelete I h o r = .ok (h', b)) :
    (h' = h ∧ b = false ∧ findTag I h r o.levels = .ok none) ∨ (b = true ∧ ∃ a i, findTag I h r o.levels = .ok (some (a, i)) ∧
      h' = { h with sh := h.sh.modify a (fun s => { s with data := s.data.modify i Wrapped.setDelete }) }) := by
  unfold taggedDelete at ht
  cases hf : findTag I h r o.levels with
  | error => rw [hf] at ht; cases ht
  | ok x =>
    rw [hf] at ht
    cases x with
    | none =>
      have e : (Except.ok (h, false) : Res _) = .ok (h', b) := ht
      cases e; exact .inl ⟨rfl, rfl, rfl⟩
    | some x =>
      obtain ⟨a, i⟩ := x
      have e : (Except.ok ({ h with sh := h.sh.modify a (fun s => { s with data := s.data.modify i Wrapped.setDelete }) }, true) : Res _)
        = .ok (h', b) := ht
      cases e; exact .inr ⟨rfl, a, i, rfl, rfl⟩

theorem map_modify_same {α β : Type} (f : α → β) (g : α → α) (hg : ∀ x, f (g x) = f x) (l : List α) (i : Nat) :
    (l.modify i g).map f = l.map f := by
  apply List.ext_getElem?
  intro j
  rw [List.getElem?_map, List.getElem?_map, List.getElem?_modify]
  cases l[j]? with
  | none => rfl
  | some x =>
    by_cases hij : i = j
    · simp [hij, hg]
    · simp [hij]

theorem taggedDelete_tagEq {h h' : Heap R} {o : HStruct} {r : R} {b : Bool} (ht : taggedDelete I h o r = .ok (h', b)) :
    TagEq h h' := by
  rcases taggedDelete_eq ht with ⟨rfl, _, _⟩ | ⟨_, a, i, _, rfl⟩
  · exact ⟨rfl, rfl⟩
  · refine ⟨rfl, ?_⟩
    apply map_modify_same
    intro s
    unfold untagS
    simp only
    rw [map_modify_same untagW _ untagW_setDelete]

/-- What a step does to the version being built: it stays separate, and below `n` nothing changes. -/
theorem Ok.step {s s' : World R} {t : Bool} (ok : Ok s) (hs : Step L I t s s') :
    Ok s' ∧ (t = false → ∀ o ∈ s.vs, read s'.h o = read s.h o) ∧ ∀ o ∈ s.vs, untag (read s'.h o) = untag (read s.h o) := by
  have fin : Ok s' ∧ (∀ o ∈ s.vs, read s'.h o = read s.h o) →
      Ok s' ∧ (t = false → ∀ o ∈ s.vs, read s'.h o = read s.h o) ∧ ∀ o ∈ s.vs, untag (read s'.h o) = untag (read s.h o) :=
    fun ⟨a, b⟩ => ⟨a, fun _ => b, fun o ho => by rw [b o ho]⟩
  obtain ⟨n, hn, hv, hw⟩ := ok.sep
  cases hs with
  | @copy h st vs x hc =>
    apply fin
    have hst : ∀ a ∈ st.levels, a < h.lv.length := fun a ha => lt_of_lt_of_le (hv st List.mem_cons_self a ha) hn
    obtain ⟨y, e, r⟩ := copy_spec ok.wf hst
    have : x = y := by rw [hc] at e; cases e; rfl
    subst this
    refine ⟨⟨r.own.wf, h.lv.length, r.own.le, fun o ho a ha => lt_of_lt_of_le (hv o ho a ha) hn, ?_⟩, ?_⟩
    · intro w e; cases e; exact r.own
    · intro o ho
      exact read_frame ok.wf r.frame (fun a ha => lt_of_lt_of_le (hv o ho a ha) hn)
  | @tasks h vs w ts x hp hr =>
    apply fin
    have sim := sim_runTasks L I (hw w rfl) hp
    rw [hr] at sim
    cases hy : Struct.runTasks L I (Snap.read h w) ts with
    | error => rw [hy] at sim; exact sim.elim
    | ok S =>
      rw [hy] at sim
      have r : Res' n h x S := sim
      exact ⟨⟨r.own.wf, n, r.own.le, hv, fun w' e => by cases e; exact r.own⟩,
        fun o ho => read_frame ok.wf r.frame (hv o ho)⟩
  | @flush h vs w v x hr =>
    apply fin
    have sim := sim_flushBuffer L I (hw w rfl) v
    rw [hr] at sim
    cases hy : Struct.flushBuffer L I (Snap.read h w) v with
    | error => rw [hy] at sim; exact sim.elim
    | ok S =>
      rw [hy] at sim
      have r : Res' n h x S := sim
      exact ⟨⟨r.own.wf, n, r.own.le, hv, fun w' e => by cases e; exact r.own⟩,
        fun o ho => read_frame ok.wf r.frame (hv o ho)⟩
  | @publish h vs w =>
    apply fin
    refine ⟨⟨ok.wf, h.lv.length, le_refl _, ?_, fun w' e => by cases e⟩, fun o _ => rfl⟩
    intro o ho a ha
    rcases List.mem_cons.mp ho with rfl | ho
    · exact ((hw o rfl).lt a ha).2
    · exact lt_of_lt_of_le (hv o ho a ha) hn
  | @tag h h' vs work o r b _ ht =>
    have e := taggedDelete_tagEq ht
    refine ⟨⟨e.wf ok.wf, n, ?_, hv, ?_⟩, fun h => (by cases h), fun o _ => e.read o⟩
    · show n ≤ h'.lv.length
      rw [e.1]; exact hn
    · intro w hw'
      have := hw w hw'
      refine ⟨e.wf ok.wf, ?_, ?_, this.inj⟩
      · show n ≤ h'.lv.length
        rw [e.1]; exact hn
      · intro a ha
        show n ≤ a ∧ a < h'.lv.length
        rw [e.1]; exact this.lt a ha

theorem Ok.init {hwm sf : Nat} : Ok (init hwm sf : World R) := by
  refine ⟨fun a l h => by simp [Snap.init] at h, 0, Nat.zero_le _, ?_, fun w e => by cases e⟩
  intro o ho a ha
  rw [show o = ⟨hwm, sf, [], []⟩ from List.mem_singleton.mp ho] at ha
  exact (List.not_mem_nil ha).elim

theorem Path.ok {tag : Bool} {s s' : World R} (h : Path L I tag s s') (h0 : Ok s) : Ok s' := by
  induction h with
  | refl => exact h0
  | step _ _ hs ih => exact (ih.step hs).1

theorem Path.mem {tag : Bool} {s s' : World R} (h : Path L I tag s s') {o : HStruct} (ho : o ∈ s.vs) : o ∈ s'.vs := by
  induction h with
  | refl => exact ho
  | step _ _ hs ih => cases hs <;> first | exact ih | exact List.mem_cons_of_mem _ ih

/-- In every reachable world, whatever reconstruction work follows (any number of versions, at any stage), every version already
made holds exactly the levels and shards it held. -/
theorem C51_stable {hwm sf : Nat} {tag : Bool} {s s' : World R} (h : Path L I tag (init hwm sf) s) (h' : Path L I false s s')
    {o : HStruct} (ho : o ∈ s.vs) : o ∈ s'.vs ∧ read s'.h o = read s.h o := by
  refine ⟨h'.mem ho, ?_⟩
  have h0 := h.ok Ok.init
  induction h' with
  | refl => rfl
  | @step a b t hp ht hs ih =>
    have hf : t = false := by cases t with
      | false => rfl
      | true => exact absurd (ht rfl) (by simp)
    rw [((hp.ok h0).step hs).2.1 hf o (hp.mem ho), ih]

/-- With tagged deletes in between, only delete tags change. -/
theorem C51_tags {hwm sf : Nat} {tag : Bool} {s s' : World R} (h : Path L I tag (init hwm sf) s) (h' : Path L I true s s')
    {o : HStruct} (ho : o ∈ s.vs) : untag (read s'.h o) = untag (read s.h o) := by
  have h0 := h.ok Ok.init
  induction h' with
  | refl => rfl
  | @step a b t hp ht hs ih => rw [((hp.ok h0).step hs).2.2 o (hp.mem ho), ih]

/-- The new version made by a whole reconstruction holds what the value model says: sharing is not observable. -/
theorem C51_value {hwm sf : Nat} {tag : Bool} {s : World R} (h : Path L I tag (init hwm sf) s) {o : HStruct} (ho : o ∈ s.vs)
    {v : View R} {x : Heap R × HStruct} (hx : next L I s.h o hwm v = .ok x) :
    nextVal L I (read s.h o) hwm v = .ok (read x.1 x.2) := by
  have ok := h.ok Ok.init
  obtain ⟨n, hn, hv, _⟩ := ok.sep
  have sim := sim_next L I ok.wf (fun a ha => lt_of_lt_of_le (hv o ho a ha) hn) hwm v
  rw [hx] at sim
  cases hy : nextVal L I (Snap.read s.h o) hwm v with
  | error => rw [hy] at sim; exact sim.elim
  | ok S =>
    rw [hy] at sim
    have r : Res' s.h.lv.length s.h x S := sim
    rw [r.val]

/-- And it fails in the same way. -/
theorem C51_error {hwm sf : Nat} {tag : Bool} {s : World R} (h : Path L I tag (init hwm sf) s) {o : HStruct} (ho : o ∈ s.vs)
    {v : View R} {e : Fault} (hx : next L I s.h o hwm v = .error e) : nextVal L I (read s.h o) hwm v = .error e := by
  have ok := h.ok Ok.init
  obtain ⟨n, hn, hv, _⟩ := ok.sep
  have sim := sim_next L I ok.wf (fun a ha => lt_of_lt_of_le (hv o ho a ha) hn) hwm v
  rw [hx] at sim
  cases hy : nextVal L I (Snap.read s.h o) hwm v with
  | error e' => rw [hy] at sim; rw [show e = e' from sim]
  | ok S => rw [hy] at sim; exact sim.elim

/-- A whole reconstruction is a path. -/
theorem path_next {h : Heap R} {st : HStruct} {vs : List HStruct} {hwm : Nat} {v : View R} {x : Heap R × HStruct} {tag : Bool}
    (hx : next L I h st hwm v = .ok x) : Path L I tag ⟨h, st :: vs, none⟩ ⟨x.1, x.2 :: st :: vs, none⟩ := by
  unfold next at hx
  cases hc : copy h st with
  | error => rw [hc] at hx; cases hx
  | ok y =>
    rw [hc] at hx
    cases ht : Struct.getReconstructionTasks L (Snap.read y.1 y.2) hwm with
    | error =>
      have hx' : (do let tasks ← Struct.getReconstructionTasks L (Snap.read y.1 y.2) hwm
                     let z ← runTasks L I y.1 y.2 tasks
                     flushBuffer L I z.1 z.2 v : Res _) = .ok x := hx
      rw [ht] at hx'; cases hx'
    | ok ts =>
      have hx' : (do let tasks ← Struct.getReconstructionTasks L (Snap.read y.1 y.2) hwm
                     let z ← runTasks L I y.1 y.2 tasks
                     flushBuffer L I z.1 z.2 v : Res _) = .ok x := hx
      rw [ht] at hx'
      cases hr : runTasks L I y.1 y.2 ts with
      | error =>
        have e : (do let z ← runTasks L I y.1 y.2 ts; flushBuffer L I z.1 z.2 v : Res _) = .ok x := hx'
        rw [hr] at e; cases e
      | ok z =>
        have e : (do let z ← runTasks L I y.1 y.2 ts; flushBuffer L I z.1 z.2 v : Res _) = .ok x := hx'
        rw [hr] at e
        have no : ∀ {p : Prop}, (false = true → p) := fun h => by cases h
        exact ((((Path.refl.step no (.copy hc)).step no (.tasks (tasks_proper ht) hr)).step no (.flush e)).step no .publish)

/-- A view holding the given records. -/
def viewOf (l : List (Wrapped Rec)) : View Rec := { data := fun i => l.getD i default, cap := l.length + 1, head := 0, tail := l.length, tscnt := 0 }

/-- A live record of the witnesses. -/
def live (k : Nat) : Wrapped Rec := ⟨0#32, ⟨k, k⟩⟩

/-- Three reconstructions under tiering, scale factor 2: the versions after each of them. -/
def three : Res (Heap Rec × List HStruct) := do
  let (h, v1) ← next .tiering stdImpl ⟨[], []⟩ ⟨1, 2, [], []⟩ 1 (viewOf [live 1])
  let (h, v2) ← next .tiering stdImpl h v1 1 (viewOf [live 2])
  let (h, v3) ← next .tiering stdImpl h v2 1 (viewOf [live 3])
  .ok (h, [v3, v2, v1])

/-- The hypotheses are met non-trivially: the third reconstruction merges the two shards of the second version, which the
second version still holds. -/
example : ∃ h v3 v2 v1, three = .ok (h, [v3, v2, v1]) ∧ ((read h v2).visible.map (fun s => s.data.map (·.record.key))) = [[1], [2]] ∧
    ((read h v3).visible.map (fun s => s.data.map (·.record.key))) = [[3], [1, 2]] := by
  refine ⟨_, _, _, _, rfl, by decide, by decide⟩

/-! ### C61: a tagged delete during a reconstruction -/

/-- The version shows the record: a live entry of it is visible. -/
def Shows (S : Struct R) (r : R) : Prop :=
  ∃ s ∈ S.visible, ∃ w ∈ s.data, w.record = r ∧ w.isDeleted = false ∧ w.isTombstone = false

/-- The shard objects a version refers to. -/
def addrs (h : Heap R) (o : HStruct) : List Nat :=
  o.levels.flatMap (fun a => match h.lv[a]? with | some l => l.shards.filterMap id ++ l.pending.toList | none => [])

instance [DecidableEq R] (S : Struct R) (r : R) : Decidable (Shows S r) := by unfold Shows; infer_instance

/-- Commands of a reconstruction, to write executions down. -/
inductive Cmd (R : Type) where
  | copy
  | tasks (ts : List Task)
  | flush (v : View R)
  | publish

/-- Execute one command. -/
def exec1 (L : Layout) (I : ShardImpl R) (s : World R) : Cmd R → Option (World R)
  | .copy =>
    match s.vs, s.work with
    | st :: _, none => match Snap.copy s.h st with | .ok x => some ⟨x.1, s.vs, some x.2⟩ | .error _ => none
    | _, _ => none
  | .tasks ts =>
    match s.work with
    | some w =>
      if ∀ t ∈ ts, t.sources[0]? ≠ some t.target then
        match runTasks L I s.h w ts with | .ok x => some ⟨x.1, s.vs, some x.2⟩ | .error _ => none
      else none
    | none => none
  | .flush v =>
    match s.work with
    | some w => match flushBuffer L I s.h w v with | .ok x => some ⟨x.1, s.vs, some x.2⟩ | .error _ => none
    | none => none
  | .publish =>
    match s.work with
    | some w => some ⟨s.h, w :: s.vs, none⟩
    | none => none

/-- Execute a list of commands. -/
def execs (L : Layout) (I : ShardImpl R) : World R → List (Cmd R) → Option (World R)
  | s, [] => some s
  | s, c :: cs => match exec1 L I s c with | some s' => execs L I s' cs | none => none

theorem exec1_step {s s' : World R} {c : Cmd R} (h : exec1 L I s c = some s') : Step L I false s s' := by
  obtain ⟨hp, vs, work⟩ := s
  cases c with
  | copy =>
    cases vs with
    | nil => cases work <;> cases h
    | cons st vs =>
      cases work with
      | some w => cases h
      | none =>
        have h1 : (match Snap.copy hp st with | .ok x => some (⟨x.1, st :: vs, some x.2⟩ : World R) | .error _ => none) = some s' := h
        split at h1
        · rename_i x hx; cases h1; exact .copy hx
        · cases h1
  | tasks ts =>
    cases work with
    | none => cases h
    | some w =>
      have h1 : (if ∀ t ∈ ts, t.sources[0]? ≠ some t.target then
        match runTasks L I hp w ts with | .ok x => some (⟨x.1, vs, some x.2⟩ : World R) | .error _ => none
        else none) = some s' := h
      split at h1
      · rename_i hpr
        split at h1
        · rename_i x hx; cases h1; exact .tasks (.inr hpr) hx
        · cases h1
      · cases h1
  | flush v =>
    cases work with
    | none => cases h
    | some w =>
      have h1 : (match flushBuffer L I hp w v with | .ok x => some (⟨x.1, vs, some x.2⟩ : World R) | .error _ => none) = some s' := h
      split at h1
      · rename_i x hx; cases h1; exact .flush hx
      · cases h1
  | publish =>
    cases work with
    | none => cases h
    | some w => cases h; exact .publish

theorem execs_path {tag : Bool} {s0 : World R} (cs : List (Cmd R)) : ∀ {s s' : World R}, Path L I tag s0 s →
    execs L I s cs = some s' → Path L I tag s0 s' := by
  induction cs with
  | nil => intro s s' hp h; cases h; exact hp
  | cons c cs ih =>
    intro s s' hp h
    unfold execs at h
    split at h
    · rename_i s1 h1
      exact ih (hp.step (fun h => by cases h) (exec1_step h1)) h
    · cases h

/-- Two records are flushed; then the next version is built, merging both shards, but not published. -/
def during : List (Cmd Rec) :=
  [.copy, .flush (viewOf [live 1]), .publish, .copy, .flush (viewOf [live 2]), .publish,
   .copy, .tasks [{ sources := [0], target := 1, reccnt := 2 }], .flush (viewOf [live 3])]

/-- While the next version is being built, an erase of record 1 through the current version succeeds and takes effect there;
when the next version is published, the record is back. -/
theorem C61_false : ∃ (s : World Rec) (o w : HStruct) (h' : Heap Rec), Path .tiering stdImpl false (init 1 2) s ∧
    s.vs.head? = some o ∧ s.work = some w ∧ taggedDelete stdImpl s.h o ⟨1, 1⟩ = .ok (h', true) ∧
    ¬ Shows (read h' o) ⟨1, 1⟩ ∧ Step .tiering stdImpl false ⟨h', s.vs, s.work⟩ ⟨h', w :: s.vs, none⟩ ∧
    Shows (read h' w) ⟨1, 1⟩ := by
  have key : (match execs .tiering stdImpl (init 1 2) during with
    | some s => match s.vs, s.work with
      | o :: _, some w => match taggedDelete stdImpl s.h o ⟨1, 1⟩ with
        | .ok (h', b) => b && !decide (Shows (read h' o) ⟨1, 1⟩) && decide (Shows (read h' w) ⟨1, 1⟩)
        | .error _ => false
      | _, _ => false
    | none => false) = true := by decide
  split at key
  · rename_i s hs
    split at key
    · rename_i o vs' w hv hw
      split at key
      · rename_i h' b ht
        simp only [Bool.and_eq_true, Bool.not_eq_true', decide_eq_false_iff_not, decide_eq_true_eq] at key
        obtain ⟨⟨hb, h1⟩, h2⟩ := key
        subst hb
        refine ⟨s, o, w, h', execs_path _ .refl hs, by rw [hv]; rfl, hw, ht, h1, ?_, h2⟩
        rw [hw]; exact .publish
      · cases key
    · cases key
  · cases key

theorem findIn_mem {h : Heap R} {r : R} {a i : Nat} : ∀ {ss : List (Option Nat)}, findIn I h r ss = .ok (some (a, i)) →
    some a ∈ ss ∧ ∃ s, h.sh[a]? = some s ∧ I.lookup s r = .ok (some i)
  | [], e => by cases e
  | none :: ss, e => by
    obtain ⟨h1, h2⟩ := findIn_mem (ss := ss) e
    exact ⟨List.mem_cons_of_mem _ h1, h2⟩
  | some b :: ss, e => by
    unfold findIn at e
    cases hg : getR h.sh b with
    | error => rw [hg] at e; cases e
    | ok s =>
      have e1 : (do match ← I.lookup s r with | some i => .ok (some (b, i)) | none => findIn I h r ss : Res _) = .ok (some (a, i)) := by
        rw [hg] at e; exact e
      cases hl : I.lookup s r with
      | error => rw [hl] at e1; cases e1
      | ok x =>
        rw [hl] at e1
        cases x with
        | some j =>
          have e2 : (Except.ok (some (b, j)) : Res _) = .ok (some (a, i)) := e1
          cases e2
          exact ⟨List.mem_cons_self, s, getR_ok.mp hg, hl⟩
        | none =>
          have e2 : findIn I h r ss = .ok (some (a, i)) := e1
          obtain ⟨h1, h2⟩ := findIn_mem e2
          exact ⟨List.mem_cons_of_mem _ h1, h2⟩

theorem findTag_mem {h : Heap R} {r : R} {a i : Nat} : ∀ {as : List Nat}, findTag I h r as = .ok (some (a, i)) →
    (∃ b ∈ as, ∃ l, h.lv[b]? = some l ∧ some a ∈ l.shards) ∧ ∃ s, h.sh[a]? = some s ∧ I.lookup s r = .ok (some i)
  | [], e => by cases e
  | b :: as, e => by
    unfold findTag at e
    cases hg : getR h.lv b with
    | error => rw [hg] at e; cases e
    | ok l =>
      have e1 : (do match ← (if l.cnt = 0 then .ok none else findIn I h r l.shards : Res _) with
          | some x => .ok (some x) | none => findTag I h r as : Res _) = .ok (some (a, i)) := by rw [hg] at e; exact e
      cases hf : (if l.cnt = 0 then .ok none else findIn I h r l.shards : Res _) with
      | error => rw [hf] at e1; cases e1
      | ok x =>
        rw [hf] at e1
        cases x with
        | some y =>
          have e2 : (Except.ok (some y) : Res _) = .ok (some (a, i)) := e1
          cases e2
          split at hf
          · cases hf
          · obtain ⟨h1, h2⟩ := findIn_mem hf
            exact ⟨⟨b, List.mem_cons_self, l, getR_ok.mp hg, h1⟩, h2⟩
        | none =>
          have e2 : findTag I h r as = .ok (some (a, i)) := e1
          obtain ⟨⟨b', h1, h2⟩, h3⟩ := findTag_mem e2
          exact ⟨⟨b', List.mem_cons_of_mem _ h1, h2⟩, h3⟩

/-- What holds: an erase that returns 1 tags the record its lookup finds in a shard object of the version it was issued through.
All versions that refer to this shard, old or being built, have the record tagged; all others are unchanged. -/
theorem C61_partial {h h' : Heap R} {o : HStruct} {r : R} (ht : taggedDelete I h o r = .ok (h', true)) :
    ∃ a i s, a ∈ addrs h o ∧ h.sh[a]? = some s ∧ I.lookup s r = .ok (some i) ∧
      h'.sh[a]? = some { s with data := s.data.modify i Wrapped.setDelete } ∧ (∀ o', addrs h' o' = addrs h o') ∧
      ∀ o', a ∉ addrs h o' → read h' o' = read h o' := by
  rcases taggedDelete_eq ht with ⟨_, hb, _⟩ | ⟨_, a, i, hf, rfl⟩
  · cases hb
  · obtain ⟨⟨b, hb, l, hl, hm⟩, s, hs, hlk⟩ := findTag_mem hf
    refine ⟨a, i, s, ?_, hs, hlk, ?_, fun o' => rfl, ?_⟩
    · unfold addrs
      refine List.mem_flatMap.mpr ⟨b, hb, ?_⟩
      rw [hl]
      exact List.mem_append_left _ (List.mem_filterMap.mpr ⟨some a, hm, rfl⟩)
    · show (h.sh.modify a _)[a]? = _
      rw [List.getElem?_modify, hs]; simp
    · intro o' ho'
      unfold Snap.read
      congr 1
      apply List.map_congr_left
      intro b hb
      cases hl : h.lv[b]? with
      | none =>
        rw [show readAt h b = Level.new 0 0 by unfold readAt; rw [hl]]
        unfold readAt
        show (match h.lv[b]? with | some l => readLevel _ l | none => _) = _
        rw [hl]
      | some l =>
        rw [readAt_some hl]
        refine Eq.trans (readAt_some (l := l) hl) ?_
        have same : ∀ c, (some c ∈ l.shards ∨ l.pending = some c) →
            (h.sh.modify a (fun s => { s with data := s.data.modify i Wrapped.setDelete }))[c]? = h.sh[c]? := by
          intro c hc
          have hca : a ≠ c := by
            intro e
            apply ho'
            unfold addrs
            refine List.mem_flatMap.mpr ⟨b, hb, ?_⟩
            rw [hl, e]
            rcases hc with hc | hc
            · exact List.mem_append_left _ (List.mem_filterMap.mpr ⟨some c, hc, rfl⟩)
            · exact List.mem_append_right _ (by rw [hc]; simp)
          rw [List.getElem?_modify]; simp [hca]
        unfold readLevel
        congr 1
        · apply List.map_congr_left
          intro p hpm
          cases p with
          | none => rfl
          | some c => exact same c (.inl hpm)
        · cases hp : l.pending with
          | none => rfl
          | some c => exact same c (.inr hp)

end DE.Snap
