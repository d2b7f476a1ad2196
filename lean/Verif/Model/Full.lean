import Verif.Model.Conc
import Verif.Model.Dynamic

/-!
The concurrent model (`Conc.lean`) with the real level structures (`Structure.lean`) instead of a list of slots: every epoch
owns an `ExtensionStructure`, `create_new_epoch` clones the one of the current epoch, and the reconstruction job runs the
reconstruction tasks on the structure of the next epoch and flushes the slots it has copied from the ring into it.

Simplifications. As in `Conc.lean`; the reconstruction tasks, which touch only the structure of the next epoch (no other thread
has a reference to it before the epoch is published), are executed in the same step as the flush. `ρ` says which record a number
of `Conc.lean` stands for, `del` whether its append is an `erase` with tombstones (DynamicExtension.h 168-193, which calls
`internal_append(rec, true)`) or an `insert`.
-/

namespace DE.Full
variable {R : Type}
open Conc (Par Slot Ch upd)

/-- The reconstruction tasks (planned for a full buffer, DynamicExtension.h 686-688) and the flush, DynamicExtension.h 557-590,
on the structure of the next epoch. -/
def job (L : Layout) (I : ShardImpl R) (hwm : Nat) (st : Struct R) (v : View R) : Res (Struct R) := do
  let tasks ← Struct.getReconstructionTasks L st hwm
  let st ← Struct.runTasks L I st tasks
  Struct.flushBuffer L I st v

/-- What the program is configured with. -/
structure Cfg (R : Type) where
  P : Par
  L : Layout
  impl : ShardImpl R
  sf : Nat
  ρ : Nat → R
  del : Nat → Bool

variable [Inhabited R]

/-- What a slot holds after the append of record `r` wrote it (MutableBuffer.h 77-86), or initially. -/
def slotRec (C : Cfg R) (pos : Nat) : Slot → Wrapped R
  | some (_, r) => Buffer.entryAt (C.ρ r) (C.del r) pos
  | none => default

/-- The ring as wrapped records. -/
def ring (C : Cfg R) (mem : Nat → Slot) : Nat → Wrapped R := fun j => slotRec C j (mem j)

/-- The slots of a window starting at position `h`, given the list of their contents. -/
def window (cap h : Nat) (acc : List Slot) : Nat → Slot := fun j => acc.getD ((j + cap - h % cap) % cap) none

/-- The buffer as seen through a view `[h, tl)`. -/
def buffer (C : Cfg R) (lwm : Nat) (mem : Nat → Slot) (h tl : Nat) : Buffer R :=
  { lwm, hwm := C.P.hwm, cap := C.P.cap, tail := tl, head := h, data := ring C mem, tscnt := 0 }

/-- The view whose slots the reconstruction has copied (`copy_to_buffer` in the shard constructors, BufferView.h 119-133). -/
def blockView (C : Cfg R) (h : Nat) (acc : List Slot) : View R :=
  (buffer C 0 (window C.P.cap h acc) h (h + acc.length)).view

/-- Shared state, and the structure of each epoch. -/
structure St (R : Type) where
  base : Conc.St
  vs : Nat → Struct R

/-- The constructor, DynamicExtension.h 81-97: the first epoch has an empty structure. -/
def init (C : Cfg R) (n : Nat) : St R :=
  ⟨Conc.init C.P n, fun _ => { bufSize := C.P.hwm, sf := C.sf, levels := [], state := [] }⟩

/-- The structures after a step of a thread with local state `t`: `create_new_epoch` (498-514) stores a clone
(Version and ExtensionStructure::copy), the last step of copying the view runs the tasks and the flush. -/
def structs (C : Cfg R) (s : St R) (t : Conc.Th) : Res (Nat → Struct R) :=
  match t.pc with
  | .crC _ =>
    match t.ep with
    | some e => .ok (upd s.vs s.base.nextId (s.vs e).copy)
    | none => .error .ub
  | .cp e p acc =>
    if p < t.tl then .ok s.vs
    else do
      let st ← job C.L C.impl C.P.hwm (s.vs e) (blockView C (t.hd.getD 0) acc)
      .ok (upd s.vs e st)
  | _ => .ok s.vs

/-- One step of the composed system. -/
def step (C : Cfg R) (s : St R) (i : Nat) (c : Ch) : Res (Option (St R)) :=
  match s.base.thr[i]? with
  | none => .ok none
  | some t => do
    match ← Conc.step C.P s.base i c with
    | none => .ok none
    | some b =>
      let vs ← structs C s t
      .ok (some ⟨b, vs⟩)

/-- The states reachable by executions all of whose steps are allowed by `ok`. -/
inductive Reach (C : Cfg R) (n : Nat) (ok : Conc.St → Nat → Prop) : St R → Prop
  | init : Reach C n ok (init C n)
  | step {s s' : St R} {i : Nat} {c : Ch} : Reach C n ok s → ok s.base i → step C s i c = .ok (some s') → Reach C n ok s'

/-- What a query works on (DynamicExtension.h 630-673): the structure of its epoch and its view of the buffer. -/
def snapshot (C : Cfg R) (s : St R) (e h tl : Nat) : Index R :=
  { L := C.L, tagging := false, impl := C.impl, buf := buffer C (max 1 (tl - h)) s.base.mem h tl, str := s.vs e }

end DE.Full
