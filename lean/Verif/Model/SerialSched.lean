import Verif.Model.Full

/-!
The index used by one thread with the `SerialScheduler`: `schedule_job` runs the job in the calling thread before it returns
(SerialScheduler.h 31-38), so `insert` and `erase` contain the whole reconstruction. In the transition system of `Conc.lean` this is
one particular execution with two threads: thread 0 is the caller, thread 1 stands for the caller while it is inside the job. The
epochs have real level structures as in `Full.lean`; in addition every slot of the ring has a delete bit, which tagging erases set
(tagging requires this scheduler, DynamicExtension.h 169-170).

Simplifications. As in `Full.lean`. The delete bits of the slots a job has copied are read at the end of the copying (no other thread
can change them meanwhile). The versions of different epochs share their shards; here a tagging erase changes the version of the
current epoch only, the previous one is never read again.
-/

namespace DE.SerialRun
variable {R : Type}
open Conc (Par Ch Slot Th PC upd)
open Full (Cfg slotRec window)

/-- Shared state, the structure of each epoch, and the delete bit of each slot of the ring. -/
structure St (R : Type) where
  base : Conc.St
  vs : Nat → Struct R
  tags : Nat → Bool

/-- The next step: a job in progress goes on, else a scheduled job starts, else the caller goes on; `none` if the call has returned.
`hf`: whether the head is loaded before the tail in `is_at_low_watermark` (MutableBuffer.h 100, unspecified order). -/
def next (hf : Bool) (s : Conc.St) : Option (Nat × Ch) :=
  match s.thr with
  | [t, u] =>
    if u.pc ≠ .idle then some (1, .go)
    else if s.jobs ≠ [] then some (1, .work)
    else match t.pc with
      | .idle => none
      | .ins _ => some (0, if hf then .headFirst else .tailFirst)
      | _ => some (0, .go)
  | _ => none

variable [Inhabited R]

/-- The constructors: as in `Full.init`, no slot is tagged (value-initialised ring, MutableBuffer.h 43-46). -/
def init (C : Cfg R) (n : Nat) : St R := ⟨(Full.init C n).base, (Full.init C n).vs, fun _ => false⟩

/-- The ring as wrapped records, with the delete bits (`set_delete`, Record.h 71). -/
def ring (C : Cfg R) (mem : Nat → Slot) (tags : Nat → Bool) : Nat → Wrapped R :=
  fun j => if tags j then (slotRec C j (mem j)).setDelete else slotRec C j (mem j)

/-- The buffer as seen through a view `[h, tl)`. -/
def buffer (C : Cfg R) (lwm : Nat) (mem : Nat → Slot) (tags : Nat → Bool) (h tl : Nat) : Buffer R :=
  { lwm, hwm := C.P.hwm, cap := C.P.cap, tail := tl, head := h, data := ring C mem tags, tscnt := 0 }

/-- The view whose slots the reconstruction has copied. -/
def blockView (C : Cfg R) (tags : Nat → Bool) (h : Nat) (acc : List Slot) : View R :=
  (buffer C 0 (window C.P.cap h acc) tags h (h + acc.length)).view

/-- The structures after a step of a thread with local state `t`, as in `Full.structs`. -/
def structs (C : Cfg R) (s : St R) (t : Th) : Res (Nat → Struct R) :=
  match t.pc with
  | .crC _ =>
    match t.ep with
    | some e => .ok (upd s.vs s.base.nextId (s.vs e).copy)
    | none => .error .ub
  | .cp e p acc =>
    if p < t.tl then .ok s.vs
    else do
      let st ← Full.job C.L C.impl C.P.hwm (s.vs e) (blockView C s.tags (t.hd.getD 0) acc)
      .ok (upd s.vs e st)
  | _ => .ok s.vs

/-- The delete bits after a step: an append overwrites the header of its slot (MutableBuffer.h 77-86). -/
def wipe (P : Par) (tags : Nat → Bool) (t : Th) : Nat → Bool :=
  match t.pc with
  | .ap5 _ p => upd tags (p % P.cap) false
  | _ => tags

/-- One step of the composed system. -/
def step (C : Cfg R) (s : St R) (i : Nat) (c : Ch) : Res (Option (St R)) :=
  match s.base.thr[i]? with
  | none => .ok none
  | some t => do
    match ← Conc.step C.P s.base i c with
    | none => .ok none
    | some b =>
      let vs ← structs C s t
      .ok (some ⟨b, vs, wipe C.P s.tags t⟩)

/-- One step in a build with `SchedType = SerialScheduler`: `retire_epoch` additionally asserts that the epoch to retire has no
references (DynamicExtension.h 536-544). -/
def sstep (C : Cfg R) (s : St R) (i : Nat) (c : Ch) : Res (Option (St R)) :=
  match s.base.thr[i]? with
  | some ⟨.rt1 _ x, _, _, _⟩ => if s.base.prev.ep = some x ∧ s.base.prev.ref ≠ 0 then .error .abort else step C s i c
  | _ => step C s i c

/-- Execution until the call has returned; `none`: not within this many steps, or blocked. -/
def drive (C : Cfg R) (hf : Bool) : Nat → St R → Res (Option (St R))
  | 0, _ => .ok none
  | n+1, s =>
    match next hf s.base with
    | none => .ok (some s)
    | some (i, c) => do
      match ← sstep C s i c with
      | none => .ok none
      | some s' => drive C hf n s'

/-- One call of `insert`, or of `erase` with tombstones (DynamicExtension.h 133, 159-194), with the value it returns: whether a slot
was claimed. -/
def call (C : Cfg R) (hf : Bool) (fuel : Nat) (s : St R) (r : Nat) : Res (Option (St R × Bool)) := do
  match ← sstep C s 0 (.insert r) with
  | none => .ok none
  | some s1 =>
    match ← drive C hf fuel s1 with
    | none => .ok none
    | some s2 => .ok (some (s2, decide (s.base.claimed.length < s2.base.claimed.length)))

/-- A query up to the point where it holds its epoch and its view (DynamicExtension.h 609-616; 699-709: the job runs in the calling thread). -/
def openQuery : List (Nat × Ch) :=
  [(0, .query), (0, .go), (0, .go), (0, .go), (0, .getBuffer), (0, .go), (0, .go), (0, .go), (0, .go), (0, .go)]

/-- `end_job` (DynamicExtension.h 755-793). -/
def endSteps : List (Nat × Ch) := [(0, .endJob), (0, .go), (0, .go), (0, .go)]

/-- The destructor of the view (MutableBuffer.h 254-279), and the return. -/
def dropSteps : List (Nat × Ch) := [(0, .drop), (0, .go), (0, .go), (0, .go), (0, .finish)]

/-- The rest of a query (DynamicExtension.h 666-680): end of the job, release of the view. -/
def closeQuery : List (Nat × Ch) := endSteps ++ dropSteps

/-- Execute a given sequence of steps. -/
def exec (C : Cfg R) : List (Nat × Ch) → St R → Res (Option (St R))
  | [], s => .ok (some s)
  | (i, c) :: l, s => do
    match ← sstep C s i c with
    | none => .ok none
    | some s' => exec C l s'

/-- What one thread can do with the index: `insert`/`erase` of record number `r`, a query, `await_next_epoch` (DynamicExtension.h 352-357). -/
inductive Act where
  | call (r : Nat)
  | query
  | await
deriving DecidableEq, Repr

/-- A result: the return value of an `insert` or `erase`, or of a query. -/
inductive Ans (β : Type) where
  | ret (b : Bool)
  | result (x : β)
  | none
deriving DecidableEq, Repr

/-- The epoch and the view the thread holds. -/
def held (s : St R) : Option (Nat × Nat × Nat) := do
  let t ← s.base.thr[0]?
  let e ← t.ep
  let h ← t.hd
  some (e, h, t.tl)

/-- The thread enters a subroutine: its program counter becomes `pc`. -/
def enter (s : St R) (pc : PC) : St R :=
  match s.base.thr[0]? with
  | some t => { s with base := s.base.setT 0 { t with pc := pc } }
  | none => s

/-- `BufferView::delete_record` (BufferView.h 77-102) on a view `[h, tl)`: the slot found, if any, is tagged. -/
def tagSlot [DecidableEq R] (C : Cfg R) (s : St R) (h tl : Nat) (r : R) : St R × Bool :=
  match (buffer C 0 s.base.mem s.tags h tl).view.deleteSlot r with
  | some j => ({ s with tags := upd s.tags j true }, true)
  | none => (s, false)

/-- `erase` with tagging (DynamicExtension.h 168-187): a view at the present head (MutableBuffer.h 132-138), then the active epoch;
`tagged_delete` on its structure; `end_job`; if nothing was found `delete_record` on the view; the view is destroyed. -/
def tagErase [DecidableEq R] (C : Cfg R) (s : St R) (r : R) : Res (Option (St R × Bool)) := do
  match ← exec C [(0, .go), (0, .go), (0, .go), (0, .go), (0, .go)] (enter s (.gh1 .client s.base.head.idx)) with
  | none => .ok none
  | some s1 =>
    match ← exec C [(0, .go), (0, .go), (0, .go)] (enter s1 (.ga1 .client)) with
    | none => .ok none
    | some s2 =>
      match held s2 with
      | none => .error .ub
      | some (e, h, tl) =>
        if s2.base.alive e then
          match ← Struct.taggedDeleteIn C.impl r (s2.vs e).levels with
          | some ls =>
            match ← exec C closeQuery { s2 with vs := upd s2.vs e { s2.vs e with levels := ls } } with
            | none => .ok none
            | some s3 => .ok (some (s3, true))
          | none =>
            match ← exec C endSteps s2 with
            | none => .ok none
            | some s3 =>
              let (s4, ok) := tagSlot C s3 h tl r
              match ← exec C dropSteps s4 with
              | none => .ok none
              | some s5 => .ok (some (s5, ok))
        else .error .ub

/-- What a query works on (DynamicExtension.h 630-673): the structure of its epoch and its view of the buffer. -/
def snapshot (C : Cfg R) (tg : Bool) (s : St R) (e h tl : Nat) : Index R :=
  { L := C.L, tagging := tg, impl := C.impl, buf := buffer C (max 1 (tl - h)) s.base.mem s.tags h tl, str := s.vs e }

/-- One action of the thread; `tg`: the delete policy is tagging. `Q` is the evaluation of the query on the structure and the view the
thread holds (DynamicExtension.h 630-673). -/
def act {β : Type} [DecidableEq R] (C : Cfg R) (tg hf : Bool) (fuel : Nat) (Q : Index R → β) (s : St R) : Act → Res (Option (St R × Ans β))
  | .call r => do
    match ← (if tg && C.del r then tagErase C s (C.ρ r) else call C hf fuel s r) with
    | none => .ok none
    | some (s, b) => .ok (some (s, .ret b))
  | .query => do
    match ← exec C openQuery s with
    | none => .ok none
    | some s1 =>
      match held s1 with
      | some (e, h, tl) =>
        match ← exec C closeQuery s1 with
        | none => .ok none
        | some s2 => .ok (some (s2, .result (Q (snapshot C tg s1 e h tl))))
      | none => .error .ub
  | .await => do
    match ← exec C [(0, .await), (0, .go)] s with
    | none => .ok none
    | some s => .ok (some (s, .none))

/-- A sequence of actions with their results. -/
def session {β : Type} [DecidableEq R] (C : Cfg R) (tg hf : Bool) (fuel : Nat) (Q : Index R → β) :
    St R → List Act → Res (Option (St R × List (Ans β)))
  | s, [] => .ok (some (s, []))
  | s, o :: os => do
    match ← act C tg hf fuel Q s o with
    | none => .ok none
    | some (s, x) =>
      match ← session C tg hf fuel Q s os with
      | none => .ok none
      | some (s, xs) => .ok (some (s, x :: xs))

end DE.SerialRun
