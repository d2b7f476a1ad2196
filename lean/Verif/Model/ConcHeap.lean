import Verif.Model.Full
import Verif.Model.Ownership
import Verif.Model.Teardown

/-!
The concurrent model with memory: the protocol of `Conc.lean`, where every epoch owns a version whose levels and shards live on the heap
of `Ownership.lean`, counted and freed as `shared_ptr` does. Using anything freed is undefined behaviour.

Simplifications. As in `Full.lean` and `Ownership.lean`. The counters of `shared_ptr` are atomic and no other thread looks at them, so
copying, building and destroying a version is one step each. A query looks at all its shards in one step, which it may do any
number of times while it runs.
-/

namespace DE.CH
variable {R : Type} [Inhabited R]
open Conc (upd Ch)
open Full (Cfg)
open Rc (RHeap)

/-- The reconstruction tasks and the flush, DynamicExtension.h 557-590, on the version of the next epoch (`Full.job` on values). -/
def job (L : Layout) (I : ShardImpl R) (hwm : Nat) (x : RHeap R) (st : Snap.HStruct) (v : View R) : Res (RHeap R × Snap.HStruct) := do
  let tasks ← Struct.getReconstructionTasks L (Snap.read x.h st) hwm
  let (x, st) ← Rc.runTasks L I x st tasks
  Rc.flushBuffer L I x st v

/-- Shared state, the heap, and the version of each epoch (`m_structure`, Epoch.h 116). -/
structure St (R : Type) where
  base : Conc.St
  x : RHeap R
  vs : Nat → Snap.HStruct

/-- The constructor, DynamicExtension.h 81-97: the first epoch has an empty version. -/
def init (C : Cfg R) (n : Nat) : St R :=
  ⟨Conc.init C.P n, ⟨⟨[], []⟩, fun _ => 0, fun _ => 0⟩, fun _ => ⟨C.P.hwm, C.sf, [], []⟩⟩

/-- What a step of a thread with local state `t` does to the heap: `create_new_epoch` copies the current version (498-514, Epoch.h 71-84),
the end of copying the view runs the tasks and the flush (557-590), `delete epoch` destroys the version (554, Epoch.h 40-47), and a query
dereferences all its shards (630-660). -/
def heap (C : Cfg R) (s : St R) (t : Conc.Th) (c : Ch) : Res (RHeap R × (Nat → Snap.HStruct)) :=
  match t.pc with
  | .crC _ =>
    match t.ep with
    | some e => do
      let (x, st) ← Rc.copy s.x (s.vs e)
      .ok (x, upd s.vs s.base.nextId st)
    | none => .error .ub
  | .cp e p acc =>
    if p < t.tl then .ok (s.x, s.vs)
    else do
      let (x, st) ← job C.L C.impl C.P.hwm s.x (s.vs e) (Full.blockView C (t.hd.getD 0) acc)
      .ok (x, upd s.vs e st)
  | .rt3 _ y => do
    let x ← Rc.destroy s.x (s.vs y)
    .ok (x, s.vs)
  | .run =>
    match c, t.ep with
    | .use, some e => do
      let _ ← Rc.visit s.x (s.vs e).levels
      .ok (s.x, s.vs)
    | _, _ => .ok (s.x, s.vs)
  | _ => .ok (s.x, s.vs)

/-- One step. -/
def step (C : Cfg R) (s : St R) (i : Nat) (c : Ch) : Res (Option (St R)) :=
  match s.base.thr[i]? with
  | none => .ok none
  | some t => do
    match ← Conc.step C.P s.base i c with
    | none => .ok none
    | some b =>
      let (x, vs) ← heap C s t c
      .ok (some ⟨b, x, vs⟩)

/-- Executions. -/
inductive Reach (C : Cfg R) (n : Nat) : St R → Prop
  | init : Reach C n (init C n)
  | step {s s' : St R} {i : Nat} {c : Ch} : Reach C n s → step C s i c = .ok (some s') → Reach C n s'

/-- `delete` of an epoch in the destructor, with its version. -/
def delEpoch (s : St R) (o : Option Nat) : Res (St R) := do
  let b ← Conc.delEpoch s.base o
  match o with
  | none => .ok { s with base := b }
  | some e => do
    let x ← Rc.destroy s.x (s.vs e)
    .ok { s with base := b, x := x }

/-- `~DynamicExtension`, DynamicExtension.h 114-116. -/
def destroy (s : St R) : Res (St R) := do
  let s ← delEpoch s s.base.next
  let s ← delEpoch s s.base.cur.ep
  delEpoch s s.base.prev.ep

end DE.CH
