import Verif.Model.Conc
import Mathlib.Data.List.FinRange

/-!
The slot accesses of `include/framework/structure/MutableBuffer.h` word by word, on top of the transition system of `Conc.lean`.
There a slot is written and read in one step; here `m_data[pos] = wrec` stores the header and the words of the record one by
one and in any order, `set_timestamp` and `set_visible` are further steps, and a reader loads the words one by one and in any
order.

State: the state of `Conc.lean`, the words of the ring, how far each thread has got with its write and its read, and what it
has read from the slots of its view so far. Every step of `Conc.lean` is a step here; the step `ap5` is the last of the
write (`set_visible`), the step `cp` is the end of the read of a slot.

Simplifications. A record consists of `D` words; `code r` gives those of record number `r`, and `tomb r` says whether it was
appended as a tombstone. A load or store of one word is atomic (in C++ the overlapping accesses are data races). `|=` on the
header is one step, and no query tags records as deleted meanwhile. The compiler does not reorder the stores of `m_data[pos] =
wrec`, of `set_timestamp` and of `set_visible` beyond the order of the three statements.
-/

namespace DE.Torn
open Conc

/-- What the numbers of the records stand for: `D` words, and whether the append was one of a tombstone. -/
structure Code (D : Nat) where
  code : Nat → Fin D → Nat
  tomb : Nat → Bool

/-- A ring slot: header and record words, Record.h 67-69. -/
abbrev Cell (D : Nat) := Wrapped (Fin D → Nat)

/-- Part of a slot: the header or one word of the record. -/
abbrev Part (D : Nat) := Option (Fin D)

/-- Copy one part of a slot. -/
def Cell.put {D : Nat} (x : Cell D) (a : Part D) (y : Cell D) : Cell D :=
  match a with
  | none => { x with header := y.header }
  | some k => { x with record := fun l => if l = k then y.record k else x.record l }

/-- `wrec`, MutableBuffer.h 67-71. -/
def Code.wrec {D : Nat} (M : Code D) (r : Nat) : Cell D :=
  let w : Cell D := ⟨0#32, M.code r⟩
  if M.tomb r then w.setTombstone else w

/-- The zeroed slot of the constructor, MutableBuffer.h 45. -/
def zero (D : Nat) : Cell D := ⟨0#32, fun _ => 0⟩

/-- Progress of a write: the parts of `m_data[pos] = wrec` already stored, and whether the timestamp has been set. -/
structure Wr (D : Nat) where
  put : List (Part D)
  stamped : Bool

/-- A read in progress: the position, whether the append of that position had finished when the read began (a history
variable), the parts read so far (the last one first) and their values. -/
structure Rd (D : Nat) where
  pos : Nat
  fin : Bool
  got : List (Part D)
  val : Cell D

/-- All parts are in the list. -/
def full {D : Nat} (l : List (Part D)) : Bool := decide (none ∈ l) && (List.finRange D).all (fun k => decide (some k ∈ l))

/-- The state. -/
structure FSt (D : Nat) where
  co : St
  fm : Nat → Cell D
  wr : Nat → Wr D
  rd : Nat → Option (Rd D)
  seen : Nat → List (Rd D)

/-- The constructor, MutableBuffer.h 43-54. -/
def init (D : Nat) (P : Par) (n : Nat) : FSt D where
  co := Conc.init P n
  fm := fun _ => zero D
  wr := fun _ => ⟨[], false⟩
  rd := fun _ => none
  seen := fun _ => []

/-- Choices: a step of `Conc.lean`, or a step of a write or a read of a slot. -/
inductive FCh (D : Nat) where
  | co (c : Ch)
  | put (a : Part D)
  | stamp
  | look (p : Nat)
  | get (a : Part D)
  | done

variable {D : Nat}

/-- The part of a step of `Conc.lean` that concerns the words: the last write of an append is `set_visible`
(MutableBuffer.h 86); the flush goes on to the next slot after having read all of the present one; a new view starts with
nothing read; a thread does nothing else while reading. -/
def finish (P : Par) (F : FSt D) (i : Nat) (t : Th) : Option (FSt D) :=
  match t.pc with
  | .ap5 _ p =>
    if (F.wr i).stamped then
      some { F with fm := upd F.fm (p % P.cap) (F.fm (p % P.cap)).setVisible, wr := upd F.wr i ⟨[], false⟩ }
    else none
  | .cp _ p _ =>
    match F.rd i with
    | some d =>
      if p < t.tl ∧ d.pos = p ∧ full d.got = true then some { F with rd := upd F.rd i none, seen := upd F.seen i (F.seen i ++ [d]) }
      else none
    | none => if p < t.tl then none else some F
  | .gt _ => some { F with seen := upd F.seen i [] }
  | _ => if (F.rd i).isNone then some F else none

/-- One step of thread `i`. -/
def fstep (P : Par) (M : Code D) (F : FSt D) (i : Nat) (c : FCh D) : Res (Option (FSt D)) :=
  match F.co.thr[i]? with
  | none => .ok none
  | some t =>
    match c with
    | .co c =>
      match finish P F i t with
      | none => .ok none
      | some F' =>
        match step P F.co i c with
        | .ok (some s') => .ok (some { F' with co := s' })
        | .ok none => .ok none
        | .error e => .error e
    -- MutableBuffer.h 77: `m_data[pos] = wrec`
    | .put a =>
      match t.pc with
      | .ap5 r p =>
        if a ∈ (F.wr i).put then .ok none
        else .ok (some { F with fm := upd F.fm (p % P.cap) ((F.fm (p % P.cap)).put a (M.wrec r)),
                                wr := upd F.wr i ⟨a :: (F.wr i).put, (F.wr i).stamped⟩ })
      | _ => .ok none
    -- MutableBuffer.h 78: `set_timestamp(pos)`
    | .stamp =>
      match t.pc with
      | .ap5 _ p =>
        if full (F.wr i).put = true ∧ (F.wr i).stamped = false then
          .ok (some { F with fm := upd F.fm (p % P.cap) ((F.fm (p % P.cap)).setTimestamp (p % P.cap)),
                             wr := upd F.wr i ⟨(F.wr i).put, true⟩ })
        else .ok none
      | _ => .ok none
    -- a query looks at a position of its view (BufferView.h 115-117), the flush at the next position to copy
    | .look p =>
      let d : Rd D := ⟨p, F.co.done.any (fun x => x.1 == p), [], zero D⟩
      match t.pc, t.hd, F.rd i with
      | .run, some h, none => if h ≤ p ∧ p < t.tl then .ok (some { F with rd := upd F.rd i (some d) }) else .ok none
      | .cp _ q _, _, none => if q = p ∧ p < t.tl then .ok (some { F with rd := upd F.rd i (some d) }) else .ok none
      | _, _, _ => .ok none
    | .get a =>
      match F.rd i with
      | some d =>
        if a ∈ d.got then .ok none
        else .ok (some { F with rd := upd F.rd i (some { d with got := a :: d.got, val := d.val.put a (F.fm (d.pos % P.cap)) }) })
      | none => .ok none
    | .done =>
      match t.pc, F.rd i with
      | .run, some d =>
        if full d.got = true then .ok (some { F with rd := upd F.rd i none, seen := upd F.seen i (F.seen i ++ [d]) }) else .ok none
      | _, _ => .ok none

/-- The states reachable by executions all of whose steps are allowed by `ok`. -/
inductive FReach (P : Par) (M : Code D) (n : Nat) (ok : FSt D → Nat → FCh D → Prop) : FSt D → Prop
  | init : FReach P M n ok (init D P n)
  | step {F F' : FSt D} {i : Nat} {c : FCh D} : FReach P M n ok F → ok F i c → fstep P M F i c = .ok (some F') → FReach P M n ok F'

/-- No restriction on the execution. -/
def fany : FSt D → Nat → FCh D → Prop := fun _ _ _ => True

/-- The flush starts to copy only slots whose appends have finished. -/
def ftidy (F : FSt D) (i : Nat) (c : FCh D) : Prop :=
  ∀ p, c = .look p → ∀ (t : Th) e q acc, F.co.thr[i]? = some t → t.pc = .cp e q acc → ∃ r, (p, r) ∈ F.co.done

end DE.Torn
