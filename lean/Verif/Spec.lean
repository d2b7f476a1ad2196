import Verif.Model.Query
import Mathlib.Data.Multiset.Filter
import Mathlib.Algebra.BigOperators.Group.Multiset.Basic
import Mathlib.Algebra.Order.Group.Multiset
import Mathlib.Tactic.Abel

/-!
Specification vocabulary, independent of the model's helper functions: what is stored, and what a
history asked for.
-/

namespace DE
variable {R : Type}

/-- What a stored wrapped record means to a user: the record, whether it is a tombstone and whether
it is tagged as deleted. -/
structure Entry (R : Type) where
  record : R
  tomb : Bool
  del : Bool
deriving DecidableEq, Repr

/-- Meaning of a wrapped record. -/
def Wrapped.entry (w : Wrapped R) : Entry R := ⟨w.record, w.isTombstone, w.isDeleted⟩

/-- Bag of entries of an array. -/
def ents (l : List (Wrapped R)) : Multiset (Entry R) := (l.map Wrapped.entry : List (Entry R))

/-- `b` arises from `a` by removing pairs (live record, equal tombstone) and entries satisfying `drop`. -/
def Reduces (drop : Entry R → Prop) (a b : Multiset (Entry R)) : Prop :=
  ∃ cl ct dr : Multiset (Entry R), a = b + cl + ct + dr ∧
    cl.map Entry.record = ct.map Entry.record ∧
    (∀ x ∈ cl, x.tomb = false) ∧ (∀ x ∈ ct, x.tomb = true) ∧ (∀ x ∈ dr, drop x)

/-- Number of live (non-tombstone) entries of record `r`. -/
def liveCount [DecidableEq R] (r : R) (m : Multiset (Entry R)) : Nat :=
  m.countP (fun e => e.record = r ∧ e.tomb = false)
/-- Number of tombstones of record `r`. -/
def tombCount [DecidableEq R] (r : R) (m : Multiset (Entry R)) : Nat :=
  m.countP (fun e => e.record = r ∧ e.tomb = true)

/-- Ring slots of the buffer occupied by a view, in order of insertion. -/
def Buffer.contents (b : Buffer R) : List (Wrapped R) :=
  (List.range (b.tail - b.head)).map (fun i => b.data ((b.head + i) % b.cap))

/-- Everything stored in the index: buffer content and the content of every shard a query visits. -/
def Index.entries (d : Index R) : Multiset (Entry R) :=
  ents d.buf.contents + (d.str.visible.map (fun s => ents s.data)).sum

/-- Number of inserts of `r` in a history. -/
def insCount [DecidableEq R] (r : R) (ops : List (Index.Op R)) : Nat := ops.count (.ins r)
/-- Number of erases of `r` in a history. -/
def delCount [DecidableEq R] (r : R) (ops : List (Index.Op R)) : Nat := ops.count (.del r)

/-- No block of `lwm` consecutive operations (the operations that fill the buffer between two flushes when every
operation appends one entry) nets out to nothing: in each block some record has different numbers of inserts and
erases. -/
def NoVoidBlock [DecidableEq R] (lwm : Nat) (ops : List (Index.Op R)) : Prop :=
  ∀ j, lwm * (j + 1) ≤ ops.length →
    ∃ r, insCount r ((ops.drop (lwm * j)).take lwm) ≠ delCount r ((ops.drop (lwm * j)).take lwm)

/-- Shard `s` holds the net effect of the interval `blk` of a history, a positive multiple of `lwm` operations: nothing
in it is tagged, and for every record, live copies minus tombstones is inserts minus erases. -/
def Holds [DecidableEq R] (lwm : Nat) (s : Shard R) (blk : List (Index.Op R)) : Prop :=
  blk ≠ [] ∧ lwm ∣ blk.length ∧ (∀ e ∈ ents s.data, e.del = false) ∧
    ∀ r, liveCount r (ents s.data) + delCount r blk = tombCount r (ents s.data) + insCount r blk

/-- No run of whole blocks of `lwm` operations nets out to nothing. -/
def NoVoidRange [DecidableEq R] (lwm : Nat) (ops : List (Index.Op R)) : Prop :=
  ∀ i n, 0 < n → lwm * (i + n) ≤ ops.length →
    ∃ r, insCount r ((ops.drop (lwm * i)).take (lwm * n)) ≠ delCount r ((ops.drop (lwm * i)).take (lwm * n))

/-- The history contains no erase. -/
def InsertOnly (ops : List (Index.Op R)) : Prop := ∀ o ∈ ops, ∃ r, o = .ins r

/-- The records inserted by a history, in order. -/
def inserted : List (Index.Op R) → List R
  | [] => []
  | .ins r :: os => r :: inserted os
  | .del _ :: os => inserted os

/-- `r` is inserted at most once and never erased before it was inserted: at most one insert/erase
cycle. Other records are unrestricted. -/
def SingleCycle [DecidableEq R] (r : R) (ops : List (Index.Op R)) : Prop :=
  insCount r ops ≤ 1 ∧ ∀ p, p <+: ops → delCount r p ≤ insCount r p

/-- Operations on a bare buffer: append a record, advance the head by `n`. -/
inductive BufOp (R : Type) where
  | app (r : R) (ts : Bool)
  | adv (n : Nat)

/-- Run buffer operations. -/
def runBuf (b : Buffer R) : List (BufOp R) → Res (Buffer R)
  | [] => .ok b
  | .app r ts :: os => runBuf (b.append r ts).1 os
  | .adv n :: os => do
    let b ← b.advanceHead (b.head + n)
    runBuf b os

/-- Specification: a bounded queue. An append to a full queue is refused. -/
def queueSpec (hwm : Nat) (q : List (R × Bool)) : List (BufOp R) → List (R × Bool)
  | [] => q
  | .app r ts :: os => queueSpec hwm (if q.length < hwm then q ++ [(r, ts)] else q) os
  | .adv n :: os => queueSpec hwm (q.drop n) os

/-! ### Flush counting -/

/-- Number of operations of a history that append to the buffer: all of them, except that a tagging index
appends nothing on erase. -/
def appends (tag : Bool) : List (Index.Op R) → Nat
  | [] => 0
  | .ins _ :: ops => appends tag ops + 1
  | .del _ :: ops => appends tag ops + (if tag then 0 else 1)

/-- Number of flushes after a history: the buffer is flushed by the append that finds `lwm` records in it. -/
def flushes (tag : Bool) (lwm : Nat) (ops : List (Index.Op R)) : Nat := (appends tag ops - 1) / lwm

/-- `1 + b + … + b^(h-1)`. -/
def geom (b : Nat) : Nat → Nat
  | 0 => 0
  | h+1 => geom b h + b ^ h

/-- Specification: `i` is the position of the first element with property `p`, or the length if there is none. -/
def IsFirst {α : Type} (p : α → Prop) (l : List α) (i : Nat) : Prop :=
  i ≤ l.length ∧ (∀ x ∈ l.take i, ¬ p x) ∧ (∀ x, l[i]? = some x → p x)

end DE
