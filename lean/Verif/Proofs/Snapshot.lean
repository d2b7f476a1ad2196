import Verif.Model.Snapshot
import Mathlib.Tactic.Common
import Mathlib.Order.Nat

/-!
The heap model of versions refines the value model, and making a version leaves all others unchanged.
-/

namespace DE.Snap
variable {R α β γ δ : Type}

/-- Two computations agree: both succeed with related results, or both fail in the same way. -/
def Sim (Q : α → β → Prop) : Res α → Res β → Prop
  | .ok a, .ok b => Q a b
  | .error e, .error e' => e = e'
  | _, _ => False

theorem Sim.bind {Q : α → β → Prop} {T : γ → δ → Prop} {x : Res α} {y : Res β} {f : α → Res γ} {g : β → Res δ}
    (h : Sim Q x y) (hf : ∀ a b, Q a b → Sim T (f a) (g b)) : Sim T (x >>= f) (y >>= g) := by
  cases x <;> cases y
  · exact h
  · exact h.elim
  · exact h.elim
  · exact hf _ _ h

theorem Sim.same {x : Res α} {f : α → Res γ} {g : α → Res δ} {T : γ → δ → Prop}
    (hf : ∀ a, x = .ok a → Sim T (f a) (g a)) : Sim T (x >>= f) (x >>= g) := by
  cases x with
  | error => exact rfl
  | ok a => exact hf a rfl

theorem Sim.map {x : Res α} {y : Res β} {φ : α → β} (hy : y = x.map φ) {f : α → Res γ} {g : β → Res δ} {T : γ → δ → Prop}
    (hf : ∀ a, x = .ok a → Sim T (f a) (g (φ a))) : Sim T (x >>= f) (y >>= g) := by
  subst hy
  cases x with
  | error => exact rfl
  | ok a => exact hf a rfl

theorem getR_map (f : α → β) (l : List α) (i : Nat) : getR (l.map f) i = (getR l i).map f := by
  unfold getR
  rw [List.getElem?_map]
  cases l[i]? <;> rfl

theorem getR_ok {l : List α} {i : Nat} {a : α} : getR l i = .ok a ↔ l[i]? = some a := by
  unfold getR
  cases l[i]? <;> simp

/-! ### Well-formed heaps and frames -/

/-- The shard pointers of a level are valid. -/
def WfL (h : Heap R) (l : HLevel) : Prop :=
  (∀ a, some a ∈ l.shards → a < h.sh.length) ∧ (∀ a, l.pending = some a → a < h.sh.length)

/-- All shard pointers are valid. -/
def WfH (h : Heap R) : Prop := ∀ (a : Nat) (l : HLevel), h.lv[a]? = some l → WfL h l

/-- No two entries are equal. -/
def Inj (l : List Nat) : Prop := ∀ (i j a : Nat), l[i]? = some a → l[j]? = some a → i = j

/-- From `h` to `h'` no level other than `a` has been changed, and no shard. -/
structure Upd (a : Nat) (h h' : Heap R) : Prop where
  sh : h.sh <+: h'.sh
  len : h.lv.length ≤ h'.lv.length
  lv : ∀ b, b < h.lv.length → b ≠ a → h'.lv[b]? = h.lv[b]?

/-- From `h` to `h'` no level below `n` has been changed, and no shard. -/
structure Frame (n : Nat) (h h' : Heap R) : Prop where
  sh : h.sh <+: h'.sh
  len : h.lv.length ≤ h'.lv.length
  lv : ∀ b, b < n → h'.lv[b]? = h.lv[b]?

theorem Frame.refl {n : Nat} {h : Heap R} : Frame n h h := ⟨List.prefix_rfl, le_refl _, fun _ _ => rfl⟩

theorem Frame.trans {n : Nat} {h h' h'' : Heap R} (a : Frame n h h') (b : Frame n h' h'') : Frame n h h'' :=
  ⟨a.sh.trans b.sh, a.len.trans b.len, fun k hk => (b.lv k hk).trans (a.lv k hk)⟩

theorem Upd.frame {n a : Nat} {h h' : Heap R} (u : Upd a h h') (hn : n ≤ a) (hl : n ≤ h.lv.length) : Frame n h h' :=
  ⟨u.sh, u.len, fun b hb => u.lv b (by omega) (by omega)⟩

theorem Upd.refl {a : Nat} {h : Heap R} : Upd a h h := ⟨List.prefix_rfl, le_refl _, fun _ _ _ => rfl⟩

theorem Upd.trans {a : Nat} {h h' h'' : Heap R} (u : Upd a h h') (w : Upd a h' h'') : Upd a h h'' :=
  ⟨u.sh.trans w.sh, u.len.trans w.len, fun b hb hne => (w.lv b (by have := u.len; omega) hne).trans (u.lv b hb hne)⟩

/-- A change to a level allocated since `h` is no change to the levels of `h`. -/
theorem Upd.trans_fresh {a b : Nat} {h h' h'' : Heap R} (u : Upd a h h') (w : Upd b h' h'') (hb : h.lv.length ≤ b) :
    Upd a h h'' :=
  ⟨u.sh.trans w.sh, u.len.trans w.len,
    fun c hc hne => (w.lv c (by have := u.len; omega) (by omega)).trans (u.lv c hc hne)⟩

theorem pre_get {l l' : List α} (h : l <+: l') {i : Nat} (hi : i < l.length) : l'[i]? = l[i]? := by
  obtain ⟨t, rfl⟩ := h
  exact List.getElem?_append_left hi

theorem shard_pre {h h' : Heap R} (hp : h.sh <+: h'.sh) {o : Option Nat} (ho : ∀ a, o = some a → a < h.sh.length) :
    h'.shard o = h.shard o := by
  cases o with
  | none => rfl
  | some a => exact pre_get hp (ho a rfl)

theorem WfL.mono {h h' : Heap R} {l : HLevel} (w : WfL h l) (hp : h.sh <+: h'.sh) : WfL h' l :=
  ⟨fun a ha => lt_of_lt_of_le (w.1 a ha) hp.length_le, fun a ha => lt_of_lt_of_le (w.2 a ha) hp.length_le⟩

theorem readLevel_pre {h h' : Heap R} {l : HLevel} (w : WfL h l) (hp : h.sh <+: h'.sh) : readLevel h' l = readLevel h l := by
  unfold readLevel
  congr 1
  · apply List.map_congr_left
    intro o ho
    exact shard_pre hp (fun a ha => w.1 a (ha ▸ ho))
  · exact shard_pre hp w.2

theorem readAt_same {h h' : Heap R} (w : WfH h) (hp : h.sh <+: h'.sh) {a : Nat} (ha : h'.lv[a]? = h.lv[a]?) :
    readAt h' a = readAt h a := by
  unfold readAt
  rw [ha]
  cases hl : h.lv[a]? with
  | none => rfl
  | some l => exact readLevel_pre (w a l hl) hp

theorem readAt_some {h : Heap R} {a : Nat} {l : HLevel} (hl : h.lv[a]? = some l) : readAt h a = readLevel h l := by
  unfold readAt; rw [hl]

/-- What a version holds does not depend on the levels allocated or changed at addresses it does not use. -/
theorem read_frame {n : Nat} {h h' : Heap R} {st : HStruct} (w : WfH h) (hf : Frame n h h') (hs : ∀ a ∈ st.levels, a < n) :
    read h' st = read h st := by
  unfold read
  congr 1
  exact List.map_congr_left (fun a ha => readAt_same w hf.sh (hf.lv a (hs a ha)))

/-! ### Allocation -/

theorem upd_newShard {h : Heap R} {s : Shard R} {a : Nat} : Upd a h (h.newShard s).1 :=
  ⟨List.prefix_append _ _, le_refl _, fun _ _ _ => rfl⟩

theorem upd_newLevel {h : Heap R} {l : HLevel} {a : Nat} : Upd a h (h.newLevel l).1 :=
  ⟨List.prefix_rfl, by simp [Heap.newLevel], fun b hb _ => List.getElem?_append_left hb⟩

theorem upd_setLevel {h : Heap R} {l : HLevel} {a : Nat} : Upd a h (h.setLevel a l) :=
  ⟨List.prefix_rfl, by simp [Heap.setLevel], fun b _ hne => List.getElem?_set_ne (Ne.symm hne)⟩

theorem get_newLevel {h : Heap R} {l : HLevel} : (h.newLevel l).1.lv[(h.newLevel l).2]? = some l := by
  simp [Heap.newLevel]

theorem get_newShard {h : Heap R} {s : Shard R} : (h.newShard s).1.shard (some (h.newShard s).2) = some s := by
  simp [Heap.newShard, Heap.shard]

theorem WfH.newShard {h : Heap R} (w : WfH h) {s : Shard R} : WfH (h.newShard s).1 :=
  fun a l hl => (w a l hl).mono (List.prefix_append _ _)

theorem WfH.newLevel {h : Heap R} (w : WfH h) {l : HLevel} (hl : WfL h l) : WfH (h.newLevel l).1 := by
  intro a l' ha
  by_cases hlt : a < h.lv.length
  · exact w a l' (by rwa [Heap.newLevel, List.getElem?_append_left hlt] at ha)
  · rw [Heap.newLevel, List.getElem?_append_right (by omega)] at ha
    have h0 : a - h.lv.length = 0 := by
      by_contra h0
      rw [List.getElem?_eq_none (by simp; omega)] at ha; cases ha
    rw [h0] at ha
    have : l = l' := by simpa using ha
    exact this ▸ hl

theorem WfH.setLevel {h : Heap R} (w : WfH h) {a : Nat} {l : HLevel} (hl : WfL h l) : WfH (h.setLevel a l) := by
  intro b l' hb
  unfold Heap.setLevel at hb
  by_cases hba : a = b
  · subst hba
    rw [List.getElem?_set] at hb
    simp only [if_true] at hb
    split at hb
    · cases hb; exact hl
    · cases hb
  · exact w b l' (by rwa [List.getElem?_set_ne hba] at hb)

theorem WfL.new {h : Heap R} {no cap : Nat} : WfL h (HLevel.new no cap) :=
  ⟨fun a ha => (by simp [HLevel.new] at ha), fun a ha => (by cases ha)⟩

theorem readLevel_new {h : Heap R} {no cap : Nat} : readLevel h (HLevel.new no cap) = Level.new no cap := by
  simp [readLevel, HLevel.new, Level.new, Heap.shard]

theorem present_read {h : Heap R} {l : HLevel} (w : WfL h l) : present h l = (readLevel h l).present.map some := by
  have key : ∀ (ss : List (Option Nat)), (∀ a, some a ∈ ss → a < h.sh.length) →
      (ss.filter Option.isSome).map h.shard = ((ss.map h.shard).filterMap id).map some := by
    intro ss
    induction ss with
    | nil => intro _; rfl
    | cons o ss ih =>
      intro hw
      have ih := ih (fun a ha => hw a (List.mem_cons_of_mem _ ha))
      cases o with
      | none => simpa [Heap.shard] using ih
      | some a =>
        have ha := hw a List.mem_cons_self
        have : h.shard (some a) = some h.sh[a] := List.getElem?_eq_getElem ha
        simp only [List.filter_cons, Option.isSome_some, if_true, List.map_cons, this, List.filterMap_cons, id_eq, ih]
  exact key l.shards w.1

/-! ### Operations on levels -/

/-- The outcome of an operation that may change level `a` of `h` and yields the level at address `x.2`, with value `lv`. -/
structure Post (a ai : Nat) (h : Heap R) (x : Heap R × Nat) (lv : Level R) : Prop where
  wf : WfH x.1
  upd : Upd a h x.1
  lt : x.2 < x.1.lv.length
  val : readAt x.1 x.2 = lv
  at' : x.2 = a ∨ x.2 = ai ∨ h.lv.length ≤ x.2

/-- A new level with a single new shard. -/
theorem Post.single {h : Heap R} (w : WfH h) {a ai no : Nat} {m : Shard R} :
    Post a ai h ((h.newShard m).1.newLevel { no := no, cnt := 1, shards := [some (h.newShard m).2], pending := none })
      { no := no, cnt := 1, shards := [some m], pending := none } := by
  have wl : WfL (h.newShard m).1 { no := no, cnt := 1, shards := [some (h.newShard m).2], pending := none } :=
    ⟨fun b hb => by simp at hb; subst hb; simp [Heap.newShard], fun b hb => by cases hb⟩
  refine ⟨w.newShard.newLevel wl, upd_newShard.trans upd_newLevel, by simp [Heap.newLevel], ?_, .inr (.inr ?_)⟩
  · rw [readAt_some get_newLevel]
    simp only [readLevel, List.map_cons, List.map_nil]
    have : ((h.newShard m).1.newLevel ⟨no, 1, [some (h.newShard m).2], none⟩).1.shard (some (h.newShard m).2) = some m :=
      get_newShard
    rw [this]; rfl
  · simp [Heap.newLevel, Heap.newShard]

theorem sim_reconstruct2 (I : ShardImpl R) {h : Heap R} (w : WfH h) {a ai : Nat} {base new' : HLevel} :
    Sim (Post a ai h) (reconstruct2 I h base new') (Level.reconstruct2 I (readLevel h base) (readLevel h new')) := by
  unfold reconstruct2 Level.reconstruct2
  refine Sim.same fun _ _ => ?_
  refine Sim.map (getR_map h.shard base.shards 0) fun s0 _ => ?_
  refine Sim.map (getR_map h.shard new'.shards 0) fun s1 _ => ?_
  refine Sim.same fun m _ => ?_
  exact Post.single w

theorem sim_reconstructMany (I : ShardImpl R) {h : Heap R} (w : WfH h) {a ai idx : Nat} {ls : List HLevel}
    (hl : ∀ l ∈ ls, WfL h l) :
    Sim (Post a ai h) (reconstructMany I h ls idx) (Level.reconstructMany I (ls.map (readLevel h)) idx) := by
  unfold reconstructMany Level.reconstructMany
  have : (List.flatMap Level.present (ls.map (readLevel h))).map some = ls.flatMap (present h) := by
    induction ls with
    | nil => rfl
    | cons l ls ih =>
      simp only [List.map_cons, List.flatMap_cons, List.map_append]
      rw [ih (fun l hm => hl l (List.mem_cons_of_mem _ hm)), present_read (hl l List.mem_cons_self)]
  rw [this]
  exact Sim.same fun m _ => Post.single w

/-- The outcome of an operation that changes the level at `a` to one of value `lv`. -/
structure Mut (a : Nat) (h h' : Heap R) (lv : Level R) : Prop where
  wf : WfH h'
  upd : Upd a h h'
  lt : a < h'.lv.length
  val : readAt h' a = lv

theorem map_set' (f : α → β) (l : List α) (i : Nat) (a : α) : (l.set i a).map f = (l.map f).set i (f a) := List.map_set

/-- Adding a new shard to the level at `a`. -/
theorem Mut.put {h : Heap R} (w : WfH h) {a : Nat} {l : HLevel} (hl : h.lv[a]? = some l) {m : Shard R} :
    Mut a h ((h.newShard m).1.setLevel a { l with shards := l.shards.set l.cnt (some (h.newShard m).2), cnt := l.cnt + 1 })
      { readLevel h l with shards := (readLevel h l).shards.set l.cnt (some m), cnt := l.cnt + 1 } := by
  have wl := w a l hl
  have hlt : a < h.lv.length := (List.getElem?_eq_some_iff.mp hl).1
  have wl' : WfL (h.newShard m).1 { l with shards := l.shards.set l.cnt (some (h.newShard m).2), cnt := l.cnt + 1 } := by
    refine ⟨fun b hb => ?_, fun b hb => ?_⟩
    · rcases List.mem_or_eq_of_mem_set hb with hb | hb
      · have := wl.1 b hb; simp [Heap.newShard]; omega
      · cases hb; simp [Heap.newShard]
    · have := wl.2 b hb; simp [Heap.newShard]; omega
  refine ⟨w.newShard.setLevel wl', upd_newShard.trans upd_setLevel, by simpa [Heap.setLevel, Heap.newShard] using hlt, ?_⟩
  have hg : ((h.newShard m).1.setLevel a { l with shards := l.shards.set l.cnt (some (h.newShard m).2), cnt := l.cnt + 1 }).lv[a]?
      = some { l with shards := l.shards.set l.cnt (some (h.newShard m).2), cnt := l.cnt + 1 } :=
    List.getElem?_set_self hlt
  rw [readAt_some hg]
  have e := readLevel_pre (h' := (h.newShard m).1) wl (List.prefix_append _ _)
  have es : l.shards.map (h.newShard m).1.shard = l.shards.map h.shard := congrArg Level.shards e
  have ep : (h.newShard m).1.shard l.pending = h.shard l.pending := congrArg Level.pending e
  unfold readLevel
  rw [map_set']
  have hs : ((h.newShard m).1.setLevel a { l with shards := l.shards.set l.cnt (some (h.newShard m).2), cnt := l.cnt + 1 }).shard
    = (h.newShard m).1.shard := rfl
  simp only [hs]
  rw [es, ep, get_newShard]

/-- Storing a new shard as the pending shard of the level at `a`. -/
theorem Mut.pend {h : Heap R} (w : WfH h) {a : Nat} {l : HLevel} (hl : h.lv[a]? = some l) {m : Shard R} :
    Mut a h ((h.newShard m).1.setLevel a { l with pending := some (h.newShard m).2 })
      { readLevel h l with pending := some m } := by
  have wl := w a l hl
  have hlt : a < h.lv.length := (List.getElem?_eq_some_iff.mp hl).1
  have wl' : WfL (h.newShard m).1 { l with pending := some (h.newShard m).2 } := by
    refine ⟨fun b hb => ?_, fun b hb => ?_⟩
    · have := wl.1 b hb; simp [Heap.newShard]; omega
    · cases hb; simp [Heap.newShard]
  refine ⟨w.newShard.setLevel wl', upd_newShard.trans upd_setLevel, by simpa [Heap.setLevel, Heap.newShard] using hlt, ?_⟩
  have hg : ((h.newShard m).1.setLevel a { l with pending := some (h.newShard m).2 }).lv[a]?
      = some { l with pending := some (h.newShard m).2 } := List.getElem?_set_self hlt
  rw [readAt_some hg]
  have e := readLevel_pre (h' := (h.newShard m).1) wl (List.prefix_append _ _)
  have es : l.shards.map (h.newShard m).1.shard = l.shards.map h.shard := congrArg Level.shards e
  unfold readLevel
  have hs : ((h.newShard m).1.setLevel a { l with pending := some (h.newShard m).2 }).shard = (h.newShard m).1.shard := rfl
  simp only [hs]
  rw [es, get_newShard]

theorem sim_appendLevel (I : ShardImpl R) {h : Heap R} (w : WfH h) {a : Nat} {l li : HLevel} (hl : h.lv[a]? = some l)
    (hli : WfL h li) :
    Sim (fun h' lv => Mut a h h' lv) (appendLevel I h a li) (Level.appendLevel I (readLevel h l) (readLevel h li)) := by
  unfold appendLevel Level.appendLevel
  have hc : (readLevel h li).cnt = li.cnt := rfl
  rw [hc]
  by_cases h0 : li.cnt = 0
  · rw [if_pos h0, if_pos h0]
    exact ⟨w, .refl, (List.getElem?_eq_some_iff.mp hl).1, readAt_some hl⟩
  · rw [if_neg h0, if_neg h0, ← present_read hli]
    refine Sim.same fun m _ => ?_
    have hg : getR h.lv a = .ok l := getR_ok.mpr hl
    rw [hg]
    show Sim _ (if l.cnt = l.shards.length then _ else _) _
    have hln : (readLevel h l).shards.length = l.shards.length := List.length_map _
    have hcn : (readLevel h l).cnt = l.cnt := rfl
    rw [hln, hcn]
    by_cases hf : l.cnt = l.shards.length
    · rw [if_pos hf, if_pos hf]; exact Mut.pend w hl
    · rw [if_neg hf, if_neg hf]; exact Mut.put w hl

theorem sim_appendBuffer (I : ShardImpl R) {h : Heap R} (w : WfH h) {a : Nat} {l : HLevel} (hl : h.lv[a]? = some l) (v : View R) :
    Sim (fun h' lv => Mut a h h' lv) (appendBuffer I h a v) (Level.appendBuffer I (readLevel h l) v) := by
  unfold appendBuffer Level.appendBuffer
  have hg : getR h.lv a = .ok l := getR_ok.mpr hl
  rw [hg]
  show Sim _ (if l.cnt = l.shards.length then _ else _) _
  have hln : (readLevel h l).shards.length = l.shards.length := List.length_map _
  have hcn : (readLevel h l).cnt = l.cnt := rfl
  rw [hln, hcn]
  have hp : (readLevel h l).pending.isNone = l.pending.isNone := by
    unfold readLevel
    cases hq : l.pending with
    | none => rfl
    | some p =>
      have := (w a l hl).2 p hq
      have e : h.shard (some p) = some h.sh[p] := List.getElem?_eq_getElem this
      simp only [e]; rfl
  rw [hp]
  by_cases hf : l.cnt = l.shards.length
  · rw [if_pos hf, if_pos hf]
    exact Sim.same fun _ _ => Sim.same fun m _ => Mut.pend w hl
  · rw [if_neg hf, if_neg hf]
    exact Sim.same fun m _ => Mut.put w hl

theorem sim_finalize {h : Heap R} (w : WfH h) {a : Nat} {l : HLevel} (hl : h.lv[a]? = some l) :
    Sim (fun h' lv => Mut a h h' lv) (finalize h a) (Level.finalize (readLevel h l)) := by
  unfold finalize Level.finalize
  have hg : getR h.lv a = .ok l := getR_ok.mpr hl
  have hlt : a < h.lv.length := (List.getElem?_eq_some_iff.mp hl).1
  have wl := w a l hl
  rw [hg]
  show Sim _ (match l.pending with | none => _ | some p => _) _
  have hln : (readLevel h l).shards.length = l.shards.length := List.length_map _
  cases hq : l.pending with
  | none =>
    have : (readLevel h l).pending = none := by unfold readLevel; rw [hq]; rfl
    rw [this]
    exact ⟨w, .refl, hlt, readAt_some hl⟩
  | some p =>
    obtain ⟨m, e⟩ : ∃ m, h.shard (some p) = some m := ⟨_, List.getElem?_eq_getElem (wl.2 p hq)⟩
    have : (readLevel h l).pending = some m := by unfold readLevel; rw [hq]; exact e
    rw [this]
    simp only [hln]
    by_cases h0 : l.shards.length = 0
    · rw [if_pos h0, if_pos h0]; exact rfl
    · rw [if_neg h0, if_neg h0]
      have wl' : WfL h { l with shards := (List.replicate l.shards.length none).set 0 (some p), cnt := 1, pending := none } := by
        refine ⟨fun b hb => ?_, fun b hb => by cases hb⟩
        rcases List.mem_or_eq_of_mem_set hb with hb | hb
        · simp at hb
        · cases hb; exact wl.2 _ hq
      refine ⟨w.setLevel wl', upd_setLevel, by simpa [Heap.setLevel] using hlt, ?_⟩
      rw [readAt_some (List.getElem?_set_self hlt)]
      unfold readLevel
      rw [map_set', List.map_replicate]
      have hs : (h.setLevel a { l with shards := (List.replicate l.shards.length none).set 0 (some p), cnt := 1, pending := none }).shard
        = h.shard := rfl
      simp only [hs]
      rw [e]; rfl

/-! ### Operations on versions -/

/-- A version all of whose levels are its own, at addresses from `n` on. -/
structure Own (n : Nat) (h : Heap R) (st : HStruct) : Prop where
  wf : WfH h
  le : n ≤ h.lv.length
  lt : ∀ a ∈ st.levels, n ≤ a ∧ a < h.lv.length
  inj : Inj st.levels

/-- The outcome of an operation on a version: the new one is again its own, nothing below `n` has changed, and its value is `S`. -/
structure Res' (n : Nat) (h : Heap R) (x : Heap R × HStruct) (S : Struct R) : Prop where
  own : Own n x.1 x.2
  frame : Frame n h x.1
  val : read x.1 x.2 = S

theorem mem_get {l : List Nat} {i a : Nat} (h : l[i]? = some a) : a ∈ l := List.mem_of_getElem? h

theorem set_congr {l l' : List α} {i : Nat} {x : α} (hl : l.length = l'.length) (h : ∀ j, j ≠ i → l[j]? = l'[j]?) :
    l.set i x = l'.set i x := by
  apply List.ext_getElem?
  intro j
  by_cases hj : i = j
  · subst hj
    by_cases hlt : i < l.length
    · rw [List.getElem?_set_self hlt, List.getElem?_set_self (hl ▸ hlt)]
    · rw [List.getElem?_eq_none (by simp; omega), List.getElem?_eq_none (by simp; omega)]
  · rw [List.getElem?_set_ne hj, List.getElem?_set_ne hj, h j (Ne.symm hj)]

/-- After a change to the level at `ab`, which is level `base` of the version, the other levels read as before. -/
theorem map_read_set {a base n : Nat} {h h' : Heap R} {st : HStruct} (o : Own n h st) (u : Upd a h h')
    (ha : st.levels[base]? = some a) (x : Level R) :
    (st.levels.map (readAt h')).set base x = (st.levels.map (readAt h)).set base x := by
  apply set_congr (by simp)
  intro j hj
  rw [List.getElem?_map, List.getElem?_map]
  cases hb : st.levels[j]? with
  | none => rfl
  | some b =>
    have hne : b ≠ a := fun h => hj (o.inj j base b hb (h ▸ ha))
    simp only [Option.map_some]
    rw [readAt_same o.wf u.sh (u.lv b (o.lt b (mem_get hb)).2 hne)]

/-- Adding a fresh level at the end. -/
theorem Own.push {n : Nat} {h : Heap R} {st : HStruct} (o : Own n h st) {l : HLevel} (hl : WfL h l) (s : LState) :
    Res' n h ((h.newLevel l).1, { st with levels := st.levels ++ [(h.newLevel l).2], state := st.state ++ [s] })
      { read h st with levels := (read h st).levels ++ [readLevel h l], state := st.state ++ [s] } := by
  have u : Upd h.lv.length h (h.newLevel l).1 := upd_newLevel
  refine ⟨⟨o.wf.newLevel hl, by have := o.le; have := u.len; dsimp only; omega, ?_, ?_⟩, u.frame o.le o.le, ?_⟩
  · intro a ha
    rcases List.mem_append.mp ha with ha | ha
    · have := o.lt a ha; have := u.len; dsimp only; omega
    · rw [List.mem_singleton.mp ha]; have := o.le; simp [Heap.newLevel]; exact this
  · intro i j a hi hj
    have key : ∀ i, (st.levels ++ [(h.newLevel l).2])[i]? = some a → (st.levels[i]? = some a ∧ a < h.lv.length) ∨ (i = st.levels.length ∧ a = h.lv.length) := by
      intro i hi
      by_cases hlt : i < st.levels.length
      · rw [List.getElem?_append_left hlt] at hi
        exact .inl ⟨hi, (o.lt a (mem_get hi)).2⟩
      · rw [List.getElem?_append_right (by omega)] at hi
        have h0 : i - st.levels.length = 0 := by
          by_contra h0
          rw [List.getElem?_eq_none (by simp; omega)] at hi; cases hi
        rw [h0] at hi
        right
        refine ⟨by omega, ?_⟩
        have : (h.newLevel l).2 = a := by simpa using hi
        exact this.symm
    rcases key i hi with ⟨h1, h2⟩ | ⟨h1, h2⟩ <;> rcases key j hj with ⟨h3, h4⟩ | ⟨h3, h4⟩
    · exact o.inj i j a h1 h3
    · omega
    · omega
    · omega
  · unfold read
    simp only [List.map_append, List.map_cons, List.map_nil]
    rw [readAt_some get_newLevel]
    have h1 : st.levels.map (readAt (h.newLevel l).1) = st.levels.map (readAt h) := by
      apply List.map_congr_left
      intro a ha
      have := (o.lt a ha).2
      exact readAt_same o.wf u.sh (u.lv a this (by omega))
    rw [h1]; rfl

/-- Replacing level `s` by a fresh one. -/
theorem Own.replace {n : Nat} {h : Heap R} {st : HStruct} (o : Own n h st) {l : HLevel} (hl : WfL h l) (s : Nat)
    (S' : List LState) :
    Res' n h ((h.newLevel l).1, { st with levels := st.levels.set s (h.newLevel l).2, state := S' })
      { read h st with levels := (read h st).levels.set s (readLevel h l), state := S' } := by
  have u : Upd h.lv.length h (h.newLevel l).1 := upd_newLevel
  have hin : ∀ a, a ∈ st.levels.set s (h.newLevel l).2 → a ∈ st.levels ∨ a = h.lv.length :=
    fun a ha => List.mem_or_eq_of_mem_set ha
  refine ⟨⟨o.wf.newLevel hl, by have := o.le; have := u.len; dsimp only; omega, ?_, ?_⟩, u.frame o.le o.le, ?_⟩
  · intro a ha
    rcases hin a ha with ha | ha
    · have := o.lt a ha; have := u.len; dsimp only; omega
    · rw [ha]; have := o.le; simp [Heap.newLevel]; exact this
  · intro i j a hi hj
    have key : ∀ i, (st.levels.set s (h.newLevel l).2)[i]? = some a → (i ≠ s ∧ st.levels[i]? = some a ∧ a < h.lv.length) ∨ (i = s ∧ a = h.lv.length) := by
      intro i hi
      by_cases his : s = i
      · subst his
        rw [List.getElem?_set] at hi
        simp only [if_true] at hi
        split at hi
        · cases hi; exact .inr ⟨rfl, rfl⟩
        · cases hi
      · rw [List.getElem?_set_ne his] at hi
        exact .inl ⟨Ne.symm his, hi, (o.lt a (mem_get hi)).2⟩
    rcases key i hi with ⟨h0, h1, h2⟩ | ⟨h1, h2⟩ <;> rcases key j hj with ⟨h5, h3, h4⟩ | ⟨h3, h4⟩
    · exact o.inj i j a h1 h3
    · omega
    · omega
    · omega
  · unfold read
    simp only [map_set']
    rw [readAt_some get_newLevel]
    have h1 : st.levels.map (readAt (h.newLevel l).1) = st.levels.map (readAt h) := by
      apply List.map_congr_left
      intro a ha
      have := (o.lt a ha).2
      exact readAt_same o.wf u.sh (u.lv a this (by omega))
    rw [h1]; rfl

/-- Storing the outcome of a level operation as level `base`. -/
theorem Own.store {n a ai base : Nat} {h : Heap R} {st : HStruct} (o : Own n h st) (ha : st.levels[base]? = some a)
    {x : Heap R × Nat} {lv : Level R} (p : Post a ai h x lv) (hai : x.2 = ai → ai = a ∨ ai ∉ st.levels) (hn : n ≤ x.2) (S' : List LState) :
    Res' n h (x.1, { st with levels := st.levels.set base x.2, state := S' })
      { read h st with levels := (read h st).levels.set base lv, state := S' } := by
  have hin : ∀ b, b ∈ st.levels.set base x.2 → b ∈ st.levels ∨ b = x.2 := fun b hb => List.mem_or_eq_of_mem_set hb
  have hna := (o.lt a (mem_get ha)).1
  refine ⟨⟨p.wf, by have := o.le; have := p.upd.len; dsimp only; omega, ?_, ?_⟩, p.upd.frame hna o.le, ?_⟩
  · intro b hb
    rcases hin b hb with hb | hb
    · have := o.lt b hb; have := p.upd.len; dsimp only; omega
    · rw [hb]; exact ⟨hn, p.lt⟩
  · intro i j b hi hj
    have key : ∀ i, (st.levels.set base x.2)[i]? = some b → (i ≠ base ∧ st.levels[i]? = some b ∧ b ≠ x.2) ∨ (i = base ∧ b = x.2) := by
      intro i hi
      by_cases his : base = i
      · subst his
        rw [List.getElem?_set] at hi
        simp only [if_true] at hi
        split at hi
        · cases hi; exact .inr ⟨rfl, rfl⟩
        · cases hi
      · rw [List.getElem?_set_ne his] at hi
        refine .inl ⟨Ne.symm his, hi, fun hbx => ?_⟩
        have hb := o.lt b (mem_get hi)
        have hnota : b ≠ a := fun hba => his (o.inj base i b (hba ▸ ha) hi)
        rcases p.at' with h1 | h1 | h1
        · exact hnota (hbx.trans h1)
        · rcases hai h1 with h2 | h2
          · exact hnota (hbx.trans (h1.trans h2))
          · exact h2 (h1 ▸ hbx ▸ mem_get hi)
        · omega
    rcases key i hi with ⟨h0, h1, h2⟩ | ⟨h1, h2⟩ <;> rcases key j hj with ⟨h5, h3, h4⟩ | ⟨h3, h4⟩
    · exact o.inj i j b h1 h3
    · exact absurd h4 h2
    · exact absurd h2 h4
    · omega
  · unfold read
    simp only [map_set']
    rw [p.val, map_read_set o p.upd ha]

theorem Res'.trans {n : Nat} {h : Heap R} {x y : Heap R × HStruct} {S T : Struct R} (r : Res' n h x S) (q : Res' n x.1 y T) :
    Res' n h y T := ⟨q.own, r.frame.trans q.frame, q.val⟩

theorem getR_read {h : Heap R} {st : HStruct} {i : Nat} : getR (read h st).levels i = (getR st.levels i).map (readAt h) :=
  getR_map _ _ _

theorem Post.of_mut {a ai : Nat} {h h' : Heap R} {lv : Level R} (m : Mut a h h' lv) : Post a ai h (h', a) lv :=
  ⟨m.wf, m.upd, m.lt, m.val, .inl rfl⟩

theorem sim_newL0 (L : Layout) (I : ShardImpl R) {h : Heap R} (w : WfH h) {a : Nat} {l : HLevel} (hl : h.lv[a]? = some l) (v : View R) :
    Sim (fun x lv => Post a a h x lv) (newL0 L I h a v) (Struct.newL0 L I (readAt h a) v) := by
  unfold newL0 Struct.newL0
  rw [getR_ok.mpr hl, readAt_some hl]
  have tier : Sim (fun x lv => Post a a h x lv) (do let h' ← appendBuffer I h a v; .ok (h', a)) (Level.appendBuffer I (readLevel h l) v) := by
    have := sim_appendBuffer I w hl v
    cases hx : appendBuffer I h a v <;> cases hy : Level.appendBuffer I (readLevel h l) v <;> rw [hx, hy] at this
    · exact this
    · exact this.elim
    · exact this.elim
    · exact Post.of_mut this
  cases L with
  | tiering => exact tier
  | bsm => exact tier
  | leveling =>
    show Sim _ (appendBuffer I (h.newLevel (HLevel.new 0 1)).1 (h.newLevel (HLevel.new 0 1)).2 v >>= _) _
    have w' : WfH (h.newLevel (HLevel.new 0 1)).1 := w.newLevel WfL.new
    have hb := sim_appendBuffer I w' get_newLevel v
    rw [readLevel_new] at hb
    refine Sim.bind hb ?_
    intro h' tmp m
    obtain ⟨lt, hlt⟩ : ∃ lt, h'.lv[h.lv.length]? = some lt := ⟨_, List.getElem?_eq_getElem m.lt⟩
    rw [getR_ok.mpr hlt]
    have e1 : tmp = readLevel h' lt := m.val.symm.trans (readAt_some hlt)
    have ul : Upd a h h' := (upd_newLevel (a := a)).trans_fresh m.upd (by simp [Heap.newLevel])
    have e2 : readLevel h l = readLevel h' l := (readLevel_pre (w a l hl) ul.sh).symm
    show Sim _ (if l.cnt > 0 then _ else _) (if l.cnt > 0 then _ else _)
    by_cases hc : l.cnt > 0
    · rw [if_pos hc, if_pos hc, e1, e2]
      have hr := sim_reconstruct2 I m.wf (a := a) (ai := h'.lv.length) (base := l) (new' := lt)
      cases hx : reconstruct2 I h' l lt <;> cases hy : Level.reconstruct2 I (readLevel h' l) (readLevel h' lt) <;> rw [hx, hy] at hr
      · exact hr
      · exact hr.elim
      · exact hr.elim
      · rename_i x lv
        have hr : Post a h'.lv.length h' x lv := hr
        refine ⟨hr.wf, ul.trans hr.upd, hr.lt, hr.val, ?_⟩
        have := ul.len
        rcases hr.at' with h1 | h1 | h1
        · exact .inl h1
        · exact .inr (.inr (by omega))
        · exact .inr (.inr (by omega))
    · rw [if_neg hc, if_neg hc, e1]
      exact ⟨m.wf, ul, m.lt, readAt_some hlt, .inr (.inr (le_refl _))⟩

theorem sim_newBase (L : Layout) (I : ShardImpl R) {h : Heap R} (w : WfH h) {ab ai : Nat} {lb li : HLevel}
    (hb : h.lv[ab]? = some lb) (hi : h.lv[ai]? = some li) :
    Sim (fun x lv => Post ab ai h x lv) (newBase L I h ab ai) (Struct.newBase L I (readAt h ab) (readAt h ai)) := by
  unfold newBase Struct.newBase
  rw [getR_ok.mpr hb, getR_ok.mpr hi, readAt_some hb, readAt_some hi]
  have tier : Sim (fun x lv => Post ab ai h x lv) (do let h ← appendLevel I h ab li; let h ← finalize h ab; .ok (h, ab))
      (do let l ← Level.appendLevel I (readLevel h lb) (readLevel h li); Level.finalize l) := by
    refine Sim.bind (sim_appendLevel I w hb (w ai li hi)) ?_
    intro h' lv m
    obtain ⟨l', hl'⟩ : ∃ l', h'.lv[ab]? = some l' := ⟨_, List.getElem?_eq_getElem m.lt⟩
    have e : lv = readLevel h' l' := by rw [← m.val, readAt_some hl']
    have hf := sim_finalize m.wf hl'
    rw [e]
    cases hx : finalize h' ab <;> cases hy : Level.finalize (readLevel h' l') <;> rw [hx, hy] at hf
    · exact hf
    · exact hf.elim
    · exact hf.elim
    · rename_i x lv
      have hf : Mut ab h' x lv := hf
      exact Post.of_mut ⟨hf.wf, m.upd.trans hf.upd, hf.lt, hf.val⟩
  cases L with
  | tiering => exact tier
  | bsm => exact tier
  | leveling =>
    show Sim _ (if lb.cnt > 0 then _ else _) (if lb.cnt > 0 then _ else _)
    by_cases hc : lb.cnt > 0
    · rw [if_pos hc, if_pos hc]; exact sim_reconstruct2 I w
    · rw [if_neg hc, if_neg hc]
      exact ⟨w, .refl, (List.getElem?_eq_some_iff.mp hi).1, readAt_some hi, .inr (.inl rfl)⟩

theorem Own.get {n : Nat} {h : Heap R} {st : HStruct} (o : Own n h st) {i a : Nat} (ha : st.levels[i]? = some a) :
    n ≤ a ∧ ∃ l, h.lv[a]? = some l :=
  ⟨(o.lt a (mem_get ha)).1, _, List.getElem?_eq_getElem (o.lt a (mem_get ha)).2⟩

theorem sim_flushIntoL0 (L : Layout) (I : ShardImpl R) {n : Nat} {h : Heap R} {st : HStruct} (o : Own n h st) (v : View R) :
    Sim (Res' n h) (flushIntoL0 L I h st v) (Struct.flushIntoL0 L I (read h st) v) := by
  have main : ∀ (h1 : Heap R) (st1 : HStruct), Own n h1 st1 → Frame n h h1 →
      Sim (Res' n h) (do
          let a0 ← getR st1.levels 0
          let (h, nl) ← newL0 L I h1 a0 v
          let s0 ← getR st1.state 0
          .ok (h, { st1 with levels := st1.levels.set 0 nl
                             state := st1.state.set 0 { s0 with reccnt := (readAt h nl).recordCount, shardcnt := (readAt h nl).cnt } }))
        (do
          let old ← getR (read h1 st1).levels 0
          let nl ← Struct.newL0 L I old v
          let s0 ← getR (read h1 st1).state 0
          .ok { read h1 st1 with levels := (read h1 st1).levels.set 0 nl
                                 state := (read h1 st1).state.set 0 { s0 with reccnt := nl.recordCount, shardcnt := nl.cnt } }) := by
    intro h1 st1 o1 f1
    refine Sim.map getR_read fun a0 ha0 => ?_
    have ha0 := getR_ok.mp ha0
    obtain ⟨hn, l, hl⟩ := o1.get ha0
    refine Sim.bind (sim_newL0 L I o1.wf hl v) ?_
    intro x nl p
    refine Sim.same fun s0 _ => ?_
    have hnx : n ≤ x.2 := by
      rcases p.at' with h1 | h1 | h1
      · omega
      · omega
      · have := o1.le; omega
    have := o1.store ha0 p (fun _ => .inl rfl) hnx (st1.state.set 0 { s0 with reccnt := nl.recordCount, shardcnt := nl.cnt })
    have hv : readAt x.1 x.2 = nl := p.val
    show Res' n h (x.1, { st1 with levels := st1.levels.set 0 x.2, state := st1.state.set 0 { s0 with reccnt := (readAt x.1 x.2).recordCount, shardcnt := (readAt x.1 x.2).cnt } }) _
    rw [hv]
    exact ⟨this.own, f1.trans this.frame, this.val⟩
  unfold flushIntoL0 Struct.flushIntoL0
  have hlen : (read h st).levels.length = st.levels.length := List.length_map _
  rw [hlen]
  by_cases h0 : st.levels.length = 0
  · simp only [if_pos h0]
    have hp := o.push (l := HLevel.new 0 (Struct.shardCap L st.sf)) WfL.new
      { reccnt := 0, reccap := Struct.levelCap st.bufSize st.sf 0, shardcnt := 0, shardcap := Struct.shardCap L st.sf }
    have := main _ _ hp.own hp.frame
    rw [hp.val, readLevel_new] at this
    exact this
  · simp only [if_neg h0]
    exact main h st o .refl

theorem sim_flushBuffer (L : Layout) (I : ShardImpl R) {n : Nat} {h : Heap R} {st : HStruct} (o : Own n h st) (v : View R) :
    Sim (Res' n h) (flushBuffer L I h st v) (Struct.flushBuffer L I (read h st) v) := by
  unfold flushBuffer Struct.flushBuffer
  exact Sim.same fun _ _ => sim_flushIntoL0 L I o v

theorem sim_reconstruct (L : Layout) (I : ShardImpl R) {n base incoming : Nat} {h : Heap R} {st : HStruct} (o : Own n h st)
    (hne : base ≠ incoming) :
    Sim (Res' n h) (reconstruct L I h st base incoming) (Struct.reconstruct L I (read h st) base incoming) := by
  have main : ∀ (h1 : Heap R) (st1 : HStruct), Own n h1 st1 → Frame n h h1 → st1.sf = st.sf → st1.bufSize = st.bufSize →
      Sim (Res' n h) (do
          let ab ← getR st1.levels base
          let ai ← getR st1.levels incoming
          let (h, nb) ← newBase L I h1 ab ai
          let (h, ni) := h.newLevel (HLevel.new incoming (Struct.shardCap L st.sf))
          .ok (h, { st1 with
            levels := (st1.levels.set base nb).set incoming ni
            state := (st1.state.set base
                { reccnt := (readAt h nb).recordCount, reccap := Struct.levelCap st1.bufSize st1.sf base
                  shardcnt := (readAt h nb).cnt, shardcap := Struct.shardCap L st.sf }).set incoming
                { reccnt := 0, reccap := Struct.levelCap st1.bufSize st1.sf incoming, shardcnt := 0, shardcap := Struct.shardCap L st.sf } }))
        (do
          let lb ← getR (read h1 st1).levels base
          let li ← getR (read h1 st1).levels incoming
          let nb ← Struct.newBase L I lb li
          .ok { read h1 st1 with
            levels := ((read h1 st1).levels.set base nb).set incoming (Level.new incoming (Struct.shardCap L st.sf))
            state := ((read h1 st1).state.set base
                { reccnt := nb.recordCount, reccap := Struct.levelCap st1.bufSize st1.sf base
                  shardcnt := nb.cnt, shardcap := Struct.shardCap L st.sf }).set incoming
                { reccnt := 0, reccap := Struct.levelCap st1.bufSize st1.sf incoming, shardcnt := 0, shardcap := Struct.shardCap L st.sf } }) := by
    intro h1 st1 o1 f1 esf ebs
    refine Sim.map getR_read fun ab hab => ?_
    refine Sim.map getR_read fun ai hai => ?_
    have hab := getR_ok.mp hab
    have hai := getR_ok.mp hai
    obtain ⟨hnb, lb, hlb⟩ := o1.get hab
    obtain ⟨hni, li, hli⟩ := o1.get hai
    refine Sim.bind (sim_newBase L I o1.wf hlb hli) ?_
    intro x nb p
    have hnx : n ≤ x.2 := by
      rcases p.at' with h1 | h1 | h1
      · omega
      · omega
      · have := o1.le; omega
    have hv : readAt x.1 x.2 = nb := p.val
    have hxl := p.lt
    -- the new incoming level, then the new base
    have un : Upd x.1.lv.length x.1 (x.1.newLevel (HLevel.new incoming (Struct.shardCap L st.sf))).1 := upd_newLevel
    have wfn := p.wf.newLevel (l := HLevel.new incoming (Struct.shardCap L st.sf)) WfL.new
    have hv' : readAt (x.1.newLevel (HLevel.new incoming (Struct.shardCap L st.sf))).1 x.2 = nb := by
      rw [← hv]; exact readAt_same p.wf un.sh (un.lv _ hxl (by omega))
    show Res' n h ((x.1.newLevel (HLevel.new incoming (Struct.shardCap L st.sf))).1, _) _
    have hne' : ab ≠ ai := fun e => hne (o1.inj base incoming ab hab (e ▸ hai))
    have hlvn : ∀ b, b < h1.lv.length → b ≠ ab → (x.1.newLevel (HLevel.new incoming (Struct.shardCap L st.sf))).1.lv[b]? = h1.lv[b]? := by
      intro b hb hba
      rw [un.lv b (by have := p.upd.len; omega) (by have := p.upd.len; omega)]
      exact p.upd.lv b hb hba
    refine ⟨⟨wfn, by have := o1.le; have := p.upd.len; have := un.len; dsimp only; omega, ?_, ?_⟩, ?_, ?_⟩
    · intro b hb
      rcases List.mem_or_eq_of_mem_set hb with hb | hb
      · rcases List.mem_or_eq_of_mem_set hb with hb | hb
        · have := o1.lt b hb; have := p.upd.len; have := un.len; dsimp only; omega
        · rw [hb]; have := un.len; dsimp only; omega
      · rw [hb]; have := o1.le; have := p.upd.len; simp [Heap.newLevel]; omega
    · intro i j b hi hj
      have key : ∀ i, ((st1.levels.set base x.2).set incoming (x.1.newLevel (HLevel.new incoming (Struct.shardCap L st.sf))).2)[i]? = some b →
          (i ≠ base ∧ i ≠ incoming ∧ st1.levels[i]? = some b ∧ b ≠ x.2 ∧ b < x.1.lv.length) ∨
          (i = base ∧ b = x.2) ∨ (i = incoming ∧ b = x.1.lv.length) := by
        intro i hi
        by_cases hii : incoming = i
        · subst hii
          rw [List.getElem?_set] at hi
          simp only [if_true] at hi
          split at hi
          · cases hi; exact .inr (.inr ⟨rfl, rfl⟩)
          · cases hi
        · rw [List.getElem?_set_ne hii] at hi
          by_cases hib : base = i
          · subst hib
            rw [List.getElem?_set] at hi
            simp only [if_true] at hi
            split at hi
            · cases hi; exact .inr (.inl ⟨rfl, rfl⟩)
            · cases hi
          · rw [List.getElem?_set_ne hib] at hi
            have hb := o1.lt b (mem_get hi)
            refine .inl ⟨Ne.symm hib, Ne.symm hii, hi, fun hbx => ?_, by have := p.upd.len; omega⟩
            rcases p.at' with h1 | h1 | h1
            · exact hib (o1.inj base i b ((hbx.trans h1) ▸ hab) hi)
            · exact hii (o1.inj incoming i b ((hbx.trans h1) ▸ hai) hi)
            · omega
      rcases key i hi with ⟨a1, a2, a3, a4, a5⟩ | ⟨a1, a2⟩ | ⟨a1, a2⟩ <;>
        rcases key j hj with ⟨b1, b2, b3, b4, b5⟩ | ⟨b1, b2⟩ | ⟨b1, b2⟩
      · exact o1.inj i j b a3 b3
      · exact absurd b2 a4
      · omega
      · exact absurd a2 b4
      · omega
      · omega
      · omega
      · omega
      · omega
    · have hnb' := hnb
      exact f1.trans ((p.upd.frame hnb o1.le).trans (un.frame (by have := o1.le; have := p.upd.len; omega) (by have := o1.le; have := p.upd.len; omega)))
    · unfold read
      have hv2 : readAt { sh := x.1.sh, lv := x.1.lv ++ [HLevel.new incoming (Struct.shardCap L st.sf)] } x.2 = nb := hv'
      have hni' : readAt (x.1.newLevel (HLevel.new incoming (Struct.shardCap L st.sf))).1 x.1.lv.length
          = Level.new incoming (Struct.shardCap L st.sf) := (readAt_some get_newLevel).trans readLevel_new
      simp only [map_set', hv', hv2, hni']
      have : (st1.levels.map (readAt (x.1.newLevel (HLevel.new incoming (Struct.shardCap L st.sf))).1)).set base nb
          = (st1.levels.map (readAt h1)).set base nb :=
        map_read_set o1 ⟨p.upd.sh.trans un.sh, p.upd.len.trans un.len, hlvn⟩ hab nb
      rw [this]
  unfold reconstruct Struct.reconstruct
  have hlen : (read h st).levels.length = st.levels.length := List.length_map _
  rw [hlen]
  by_cases h0 : base ≥ st.levels.length
  · simp only [if_pos h0]
    have hp := o.push (l := HLevel.new base (Struct.shardCap L st.sf)) WfL.new
      { reccnt := 0, reccap := Struct.levelCap st.bufSize st.sf base, shardcnt := 0, shardcap := Struct.shardCap L st.sf }
    have := main _ _ hp.own hp.frame rfl rfl
    rw [hp.val, readLevel_new] at this
    exact this
  · simp only [if_neg h0]
    exact main h st o .refl rfl rfl

/-! ### BSM -/

theorem mapM_getR_map (f : α → β) (l : List α) (is : List Nat) :
    is.mapM (getR (l.map f)) = (is.mapM (getR l)).map (List.map f) := by
  induction is with
  | nil => rfl
  | cons i is ih =>
    rw [List.mapM_cons, List.mapM_cons, getR_map, ih]
    cases getR l i with
    | error => rfl
    | ok a => cases is.mapM (getR l) <;> rfl

theorem mapM_getR_mem {l : List α} {is : List Nat} {as : List α} (h : is.mapM (getR l) = .ok as) : ∀ a ∈ as, a ∈ l := by
  induction is generalizing as with
  | nil =>
    have : as = [] := by
      have h' : (Except.ok [] : Res (List α)) = .ok as := h
      cases h'; rfl
    subst this
    exact fun a ha => (List.not_mem_nil ha).elim
  | cons i is ih =>
    rw [List.mapM_cons] at h
    cases hg : getR l i with
    | error => rw [hg] at h; cases h
    | ok b =>
      rw [hg] at h
      cases hm : is.mapM (getR l) with
      | error => rw [hm] at h; cases h
      | ok bs =>
        rw [hm] at h
        have h' : (Except.ok (b :: bs) : Res (List α)) = .ok as := h
        cases h'
        intro a ha
        rcases List.mem_cons.mp ha with rfl | ha
        · exact List.mem_of_getElem? (getR_ok.mp hg)
        · exact ih hm a ha

theorem mapM_levels {h : Heap R} (as : List Nat) (has : ∀ a ∈ as, a < h.lv.length) :
    ∃ ls, as.mapM (getR h.lv) = .ok ls ∧ ls.map (readLevel h) = as.map (readAt h) ∧ ∀ l ∈ ls, l ∈ h.lv := by
  induction as with
  | nil => exact ⟨[], rfl, rfl, fun l hl => (List.not_mem_nil hl).elim⟩
  | cons a as ih =>
    obtain ⟨ls, h1, h2, h3⟩ := ih (fun b hb => has b (List.mem_cons_of_mem _ hb))
    have ha : h.lv[a]? = some (h.lv[a]'(has a List.mem_cons_self)) := List.getElem?_eq_getElem _
    refine ⟨h.lv[a]'(has a List.mem_cons_self) :: ls, ?_, ?_, ?_⟩
    · rw [List.mapM_cons, getR_ok.mpr ha, h1]; rfl
    · rw [List.map_cons, List.map_cons, h2, readAt_some ha]
    · intro l hl
      rcases List.mem_cons.mp hl with rfl | hl
      · exact List.getElem_mem _
      · exact h3 l hl

/-- Adding the outcome of a level operation at the end. -/
theorem Own.pushPost {n : Nat} {h : Heap R} {st : HStruct} (o : Own n h st) {x : Heap R × Nat} {lv : Level R}
    (p : Post h.lv.length h.lv.length h x lv) (S' : List LState) :
    Res' n h (x.1, { st with levels := st.levels ++ [x.2], state := S' })
      { read h st with levels := (read h st).levels ++ [lv], state := S' } := by
  have hx : h.lv.length ≤ x.2 := by
    rcases p.at' with h | h | h <;> omega
  have hlen := p.upd.len
  have hlt := p.lt
  have hle := o.le
  refine ⟨⟨p.wf, by dsimp only; omega, ?_, ?_⟩, p.upd.frame o.le o.le, ?_⟩
  · intro a ha
    rcases List.mem_append.mp ha with ha | ha
    · have := o.lt a ha; dsimp only; omega
    · rw [List.mem_singleton.mp ha]; dsimp only; omega
  · intro i j a hi hj
    have key : ∀ i, (st.levels ++ [x.2])[i]? = some a → (st.levels[i]? = some a ∧ a < h.lv.length) ∨ (i = st.levels.length ∧ a = x.2) := by
      intro i hi
      by_cases hlt : i < st.levels.length
      · rw [List.getElem?_append_left hlt] at hi
        exact .inl ⟨hi, (o.lt a (mem_get hi)).2⟩
      · rw [List.getElem?_append_right (by omega)] at hi
        have h0 : i - st.levels.length = 0 := by
          by_contra h0
          rw [List.getElem?_eq_none (by simp; omega)] at hi; cases hi
        rw [h0] at hi
        right
        refine ⟨by omega, ?_⟩
        have : x.2 = a := by simpa using hi
        exact this.symm
    rcases key i hi with ⟨h1, h2⟩ | ⟨h1, h2⟩ <;> rcases key j hj with ⟨h3, h4⟩ | ⟨h3, h4⟩
    · exact o.inj i j a h1 h3
    · omega
    · omega
    · omega
  · unfold read
    simp only [List.map_append, List.map_cons, List.map_nil]
    rw [p.val]
    have h1 : st.levels.map (readAt x.1) = st.levels.map (readAt h) := by
      apply List.map_congr_left
      intro a ha
      have := (o.lt a ha).2
      exact readAt_same o.wf p.upd.sh (p.upd.lv a this (by omega))
    rw [h1]

theorem emptySources_res {target n : Nat} (ss : List Nat) : ∀ {h : Heap R} {st : HStruct}, Own n h st →
    Res' n h (emptySources target h st ss) (ss.foldl (fun st s =>
      { st with levels := st.levels.set s (Level.new s 1)
                state := st.state.set s { reccnt := 0, reccap := Struct.levelCap st.bufSize st.sf target
                                          shardcnt := 0, shardcap := 1 } }) (read h st)) := by
  induction ss with
  | nil => intro h st o; exact ⟨o, .refl, rfl⟩
  | cons s ss ih =>
    intro h st o
    have r := o.replace (l := HLevel.new s 1) WfL.new s
      (st.state.set s { reccnt := 0, reccap := Struct.levelCap st.bufSize st.sf target, shardcnt := 0, shardcap := 1 })
    have q := ih r.own
    rw [r.val, readLevel_new] at q
    exact r.trans q

theorem sim_reconstructBSM (I : ShardImpl R) {n : Nat} {h : Heap R} {st : HStruct} (o : Own n h st) (t : Task) :
    Sim (Res' n h) (reconstructBSM I h st t) (Struct.reconstructBSM I (read h st) t) := by
  unfold reconstructBSM Struct.reconstructBSM
  refine Sim.map (mapM_getR_map (readAt h) st.levels t.sources) fun as has => ?_
  obtain ⟨ls, h1, h2, h3⟩ := mapM_levels (h := h) as (fun a ha => (o.lt a (mapM_getR_mem has a ha)).2)
  rw [h1]
  have hwl : ∀ l ∈ ls, WfL h l := fun l hl => by
    obtain ⟨i, hi⟩ := List.mem_iff_getElem?.mp (h3 l hl)
    exact o.wf i l hi
  show Sim _ (reconstructMany I h ls t.target >>= _) _
  rw [← h2]
  have hlen : (read h st).levels.length = st.levels.length := List.length_map _
  by_cases hT : t.target ≥ st.levels.length
  · refine Sim.bind (sim_reconstructMany I o.wf (a := h.lv.length) (ai := h.lv.length) hwl) ?_
    intro x nl p
    simp only [hlen, if_pos hT, p.val]
    have r := o.pushPost p (st.state ++ [{ reccnt := nl.recordCount, reccap := Struct.levelCap st.bufSize st.sf t.target
                                           shardcnt := 1, shardcap := 1 }])
    have q := emptySources_res (target := t.target) t.sources r.own
    rw [r.val] at q
    exact r.trans q
  · obtain ⟨ab, hab⟩ : ∃ ab, st.levels[t.target]? = some ab := ⟨_, List.getElem?_eq_getElem (by omega)⟩
    refine Sim.bind (sim_reconstructMany I o.wf (a := ab) (ai := ab) hwl) ?_
    intro x nl p
    simp only [hlen, if_neg hT, p.val]
    have hnx : n ≤ x.2 := by
      have := (o.lt ab (mem_get hab)).1
      rcases p.at' with h1 | h1 | h1
      · omega
      · omega
      · have := o.le; omega
    have r := o.store hab p (fun _ => .inl rfl) hnx (st.state.set t.target
      { reccnt := nl.recordCount, reccap := Struct.levelCap st.bufSize st.sf t.target, shardcnt := 1, shardcap := 1 })
    have q := emptySources_res (target := t.target) t.sources r.own
    rw [r.val] at q
    exact r.trans q

/-! ### A whole reconstruction -/

/-- No task merges a level into itself. -/
def Proper (L : Layout) (ts : List Task) : Prop := L = .bsm ∨ ∀ t ∈ ts, t.sources[0]? ≠ some t.target

theorem sim_runTasks (L : Layout) (I : ShardImpl R) {n : Nat} {h : Heap R} {st : HStruct} (o : Own n h st) {ts : List Task}
    (hp : Proper L ts) : Sim (Res' n h) (runTasks L I h st ts) (Struct.runTasks L I (read h st) ts) := by
  have loop : ∀ (L' : Layout) (ts : List Task), (∀ t ∈ ts, t.sources[0]? ≠ some t.target) → ∀ (h1 : Heap R) (st1 : HStruct),
      Own n h1 st1 → Frame n h h1 →
      Sim (Res' n h) (ts.foldlM (fun (x : Heap R × HStruct) t => do
          let src ← getR t.sources 0
          reconstruct L' I x.1 x.2 t.target src) (h1, st1))
        (ts.foldlM (fun st t => do
          let src ← getR t.sources 0
          Struct.reconstruct L' I st t.target src) (read h1 st1)) := by
    intro L' ts
    induction ts with
    | nil => intro _ h1 st1 o1 f1; exact ⟨o1, f1, rfl⟩
    | cons t ts ih =>
      intro hne h1 st1 o1 f1
      rw [List.foldlM_cons, List.foldlM_cons]
      have hs : Sim (Res' n h1) (do let src ← getR t.sources 0; reconstruct L' I h1 st1 t.target src)
          (do let src ← getR t.sources 0; Struct.reconstruct L' I (read h1 st1) t.target src) := by
        refine Sim.same fun src hsrc => sim_reconstruct L' I o1 ?_
        intro e
        exact hne t List.mem_cons_self (by rw [getR_ok.mp hsrc, e])
      refine Sim.bind hs ?_
      intro x S r
      have := ih (fun t ht => hne t (List.mem_cons_of_mem _ ht)) x.1 x.2 r.own (f1.trans r.frame)
      rw [r.val] at this
      exact this
  unfold runTasks Struct.runTasks
  cases L with
  | bsm =>
    cases ts with
    | nil => exact ⟨o, .refl, rfl⟩
    | cons t _ => exact sim_reconstructBSM I o t
  | leveling => exact loop _ ts (hp.resolve_left (by simp)) h st o .refl
  | tiering => exact loop _ ts (hp.resolve_left (by simp)) h st o .refl

theorem tasksLoop_proper (L : Layout) (source : Nat) : ∀ (i : Nat) (sc : List LState) (acc : List Task) {r},
    (∀ t ∈ acc, t.sources[0]? ≠ some t.target) → Struct.tasksLoop L source i sc acc = .ok r →
    ∀ t ∈ r.1, t.sources[0]? ≠ some t.target := by
  intro i
  induction i with
  | zero =>
    intro sc acc r ha h
    have h' : (Except.ok (acc, sc) : Res _) = .ok r := h
    cases h'; exact ha
  | succ i ih =>
    intro sc acc r ha h
    unfold Struct.tasksLoop at h
    split at h
    · cases h1 : getR sc i with
      | error => rw [h1] at h; cases h
      | ok s1 =>
        cases h2 : getR sc (i+1) with
        | error => rw [h1, h2] at h; cases h
        | ok s2 =>
          rw [h1, h2] at h
          refine ih _ _ ?_ h
          intro t ht
          rcases List.mem_append.mp ht with ht | ht
          · exact ha t ht
          · rw [List.mem_singleton.mp ht]; simp
    · have h' : (Except.ok (acc, sc) : Res _) = .ok r := h
      cases h'; exact ha

theorem tasks_proper {L : Layout} {S : Struct R} {k : Nat} {ts : List Task} (h : Struct.getReconstructionTasks L S k = .ok ts) :
    Proper L ts := by
  by_cases hb : L = .bsm
  · exact .inl hb
  · right
    unfold Struct.getReconstructionTasks at h
    split at h
    · have e : (do let _ ← getR S.state 0; .ok ([] : List Task) : Res _) = .ok ts := h
      cases hg : getR S.state 0 with
      | error => rw [hg] at e; cases e
      | ok =>
        rw [hg] at e
        have e' : (Except.ok [] : Res (List Task)) = .ok ts := e
        cases e'
        exact fun t ht => (List.not_mem_nil ht).elim
    · cases hx : Struct.tasksFromLevel L S 0 S.state with
      | error => rw [hx] at h; cases h
      | ok r =>
        rw [hx] at h
        have e : (do let _ ← getR r.2 0; .ok r.1 : Res _) = .ok ts := h
        have ets : r.1 = ts := by
          cases hg : getR r.2 0 with
          | error => rw [hg] at e; cases e
          | ok =>
            rw [hg] at e
            have e' : (Except.ok r.1 : Res (List Task)) = .ok ts := e
            cases e'; rfl
        subst ets
        unfold Struct.tasksFromLevel at hx
        cases hf : Struct.findReconstructionTarget L 0 S.state with
        | error => rw [hf] at hx; cases hx
        | ok tg =>
          rw [hf] at hx
          cases L with
          | bsm => exact absurd rfl hb
          | leveling => exact tasksLoop_proper _ _ _ _ _ (fun t ht => (List.not_mem_nil ht).elim) hx
          | tiering => exact tasksLoop_proper _ _ _ _ _ (fun t ht => (List.not_mem_nil ht).elim) hx

/-! ### Copies -/

theorem WfL.clone {h : Heap R} {l : HLevel} (w : WfL h l) : WfL h (clone l) := by
  refine ⟨fun a ha => ?_, fun a ha => by cases ha⟩
  rcases List.mem_append.mp ha with ha | ha
  · exact w.1 a (List.mem_of_mem_take ha)
  · simp at ha

theorem readLevel_clone {h : Heap R} {l : HLevel} : readLevel h (clone l) = (readLevel h l).clone := by
  unfold readLevel clone Level.clone
  simp [Heap.shard]

theorem cloneAll_spec (as : List Nat) : ∀ {h : Heap R}, WfH h → (∀ a ∈ as, a < h.lv.length) →
    ∃ h' bs, cloneAll h as = .ok (h', bs) ∧ WfH h' ∧ h'.sh = h.sh ∧ h.lv.length ≤ h'.lv.length ∧
      (∀ b, b < h.lv.length → h'.lv[b]? = h.lv[b]?) ∧ (∀ b ∈ bs, h.lv.length ≤ b ∧ b < h'.lv.length) ∧ Inj bs ∧
      bs.map (readAt h') = as.map (fun a => (readAt h a).clone) := by
  induction as with
  | nil =>
    intro h w _
    exact ⟨h, [], rfl, w, rfl, le_refl _, fun _ _ => rfl, fun b hb => (List.not_mem_nil hb).elim, fun i j a hi => by simp at hi, rfl⟩
  | cons a as ih =>
    intro h w has
    obtain ⟨l, hl⟩ : ∃ l, h.lv[a]? = some l := ⟨_, List.getElem?_eq_getElem (has a List.mem_cons_self)⟩
    have w1 : WfH (h.newLevel (clone l)).1 := w.newLevel (w a l hl).clone
    have hlen : (h.newLevel (clone l)).1.lv.length = h.lv.length + 1 := by simp [Heap.newLevel]
    obtain ⟨h', bs, e, w', hsh, hle, hsame, hbs, hinj, hval⟩ := ih w1 (fun b hb => by
      have := has b (List.mem_cons_of_mem _ hb); omega)
    have hnl : ∀ b, b < h.lv.length → (h.newLevel (clone l)).1.lv[b]? = h.lv[b]? := fun b hb => List.getElem?_append_left hb
    refine ⟨h', h.lv.length :: bs, ?_, w', hsh, by omega, ?_, ?_, ?_, ?_⟩
    · unfold cloneAll
      rw [getR_ok.mpr hl]
      show (do let (h', bs) ← cloneAll (h.newLevel (clone l)).1 as; .ok (h', (h.newLevel (clone l)).2 :: bs) : Res _) = _
      rw [e]; rfl
    · intro b hb
      rw [hsame b (by omega), hnl b hb]
    · intro b hb
      rcases List.mem_cons.mp hb with rfl | hb
      · omega
      · have := hbs b hb; omega
    · intro i j b hi hj
      cases i with
      | zero =>
        cases j with
        | zero => rfl
        | succ j =>
          have h1 : h.lv.length = b := by simpa using hi
          have h2 : bs[j]? = some b := by simpa using hj
          have := hbs b (mem_get h2); omega
      | succ i =>
        have h2 : bs[i]? = some b := by simpa using hi
        cases j with
        | zero =>
          have h1 : h.lv.length = b := by simpa using hj
          have := hbs b (mem_get h2); omega
        | succ j =>
          have h3 : bs[j]? = some b := by simpa using hj
          rw [hinj i j b h2 h3]
    · rw [List.map_cons, List.map_cons, hval]
      congr 1
      · have hg : h'.lv[h.lv.length]? = some (clone l) := by
          rw [hsame _ (by omega)]; exact get_newLevel
        rw [readAt_some hg, readAt_some hl, ← readLevel_clone]
        unfold readLevel Heap.shard
        rw [hsh]; rfl
      · apply List.map_congr_left
        intro b hb
        have hb' := has b (List.mem_cons_of_mem _ hb)
        have e := readAt_same (h := h) (h' := (h.newLevel (clone l)).1) w List.prefix_rfl (hnl b hb')
        simp only [e]

/-- A copy is a version of its own with the same value (up to `clone`), and nothing else has changed. -/
theorem copy_spec {h : Heap R} {st : HStruct} (w : WfH h) (hs : ∀ a ∈ st.levels, a < h.lv.length) :
    ∃ x, copy h st = .ok x ∧ Res' h.lv.length h x (read h st).copy := by
  obtain ⟨h', bs, e, w', hsh, hle, hsame, hbs, hinj, hval⟩ := cloneAll_spec st.levels w hs
  refine ⟨(h', { st with levels := bs }), ?_, ⟨w', hle, hbs, hinj⟩, ⟨?_, hle, hsame⟩, ?_⟩
  · unfold copy; rw [e]; rfl
  · rw [hsh]; exact List.prefix_rfl
  · unfold read Struct.copy
    simp only [hval, List.map_map]
    rfl

/-- Making the next version: the heap computation agrees with the one on values, the new version is its own, and all levels
and shards that existed before are unchanged. -/
theorem sim_next (L : Layout) (I : ShardImpl R) {h : Heap R} {st : HStruct} (w : WfH h) (hs : ∀ a ∈ st.levels, a < h.lv.length)
    (hwm : Nat) (v : View R) :
    Sim (Res' h.lv.length h) (next L I h st hwm v) (nextVal L I (read h st) hwm v) := by
  obtain ⟨x, e, r⟩ := copy_spec w hs
  unfold next nextVal
  rw [e]
  show Sim _ (Struct.getReconstructionTasks L (read x.1 x.2) hwm >>= _) (Struct.getReconstructionTasks L (read h st).copy hwm >>= _)
  rw [r.val]
  refine Sim.same fun ts hts => ?_
  have q := sim_runTasks L I r.own (tasks_proper hts)
  rw [r.val] at q
  refine Sim.bind q ?_
  intro y S ry
  have z := sim_flushBuffer L I ry.own v
  rw [ry.val] at z
  cases hx : flushBuffer L I y.1 y.2 v <;> cases hy : Struct.flushBuffer L I S v <;> rw [hx, hy] at z
  · show Sim _ (flushBuffer L I y.1 y.2 v) _; rw [hx]; exact z
  · exact z.elim
  · exact z.elim
  · show Sim _ (flushBuffer L I y.1 y.2 v) _; rw [hx]; exact r.trans (ry.trans z)

end DE.Snap
