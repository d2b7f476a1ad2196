import Verif.Model.Buffer
import Mathlib.Logic.Function.Basic

/-!
Threads that only append to one `MutableBuffer`, as in `t_multithreaded_insert` (tests/mutable_buffer_tests.cpp 159-196), with the
atomic operations of `append` and `try_advance_tail` as the steps of an arbitrary interleaving.

Simplified: the atomics are sequentially consistent (their default); the slot a thread has claimed is written by its plain
assignments one at a time; the positions fit `int32_t` (see `Tail32.lean`); the tombstone filter is left out (see `BufferApi.lean`).
-/

namespace DE.Mt

/-- Where a thread is in `append`, MutableBuffer.h 61-89 and `try_advance_tail`, 232-250; the argument is `old_value`. -/
inductive PC where
  /-- about to load the tail, 233 (or between two calls) -/
  | idle
  /-- about to load the head and compare, 236 -/
  | check (old : Nat)
  /-- about to run `compare_exchange_strong`, 240 -/
  | cas (old : Nat)
  /-- after a failed exchange, about to load the tail and compare, 242 -/
  | recheck (old : Nat)
  /-- position claimed, about to assign the slot, 76 -/
  | write (old : Nat)
  /-- about to set the timestamp, 77 -/
  | stamp (old : Nat)
  /-- about to add to the tombstone count, 79-80 -/
  | count (old : Nat)
  /-- about to set the visible flag, 85 -/
  | reveal (old : Nat)
deriving DecidableEq, Repr

/-- A thread: the appends still to do (the first being in progress unless `idle`) and the results of the finished ones. -/
structure Th (R : Type) where
  pc : PC
  todo : List (R × Bool)
  done : List Bool

/-- The shared buffer and the threads. -/
structure St (R : Type) where
  b : Buffer R
  thr : Nat → Th R

variable {R : Type}

/-- `append` returns. -/
def Th.ret (t : Th R) (v : Bool) : Th R := ⟨.idle, t.todo.tail, t.done ++ [v]⟩
/-- The next operation. -/
def Th.goto (t : Th R) (pc : PC) : Th R := { t with pc := pc }

/-- The value assigned to the slot, MutableBuffer.h 67-71. -/
def raw (x : R × Bool) : Wrapped R := if x.2 then (⟨0#32, x.1⟩ : Wrapped R).setTombstone else ⟨0#32, x.1⟩

/-- One operation of a thread appending `x`: the new buffer and the new thread. -/
def opT (b : Buffer R) (t : Th R) (x : R × Bool) : Buffer R × Th R :=
  match t.pc with
  | .idle => (b, t.goto (.check b.tail))
  | .check old => if old - b.head ≥ b.hwm then (b, t.ret false) else (b, t.goto (.cas old))
  | .cas old => if b.tail = old then ({ b with tail := old + 1 }, t.goto (.write old)) else (b, t.goto (.recheck b.tail))
  | .recheck old => if b.tail ≥ b.hwm then (b, t.ret false) else (b, t.goto (.cas old))
  | .write old => ({ b with data := Buffer.write b.data (old % b.cap) (raw x) }, t.goto (.stamp old))
  | .stamp old => ({ b with data := Buffer.write b.data (old % b.cap) ((b.data (old % b.cap)).setTimestamp (old % b.cap)) }, t.goto (.count old))
  | .count old => ({ b with tscnt := if x.2 then b.tscnt + 1 else b.tscnt }, t.goto (.reveal old))
  | .reveal old => ({ b with data := Buffer.write b.data (old % b.cap) (b.data (old % b.cap)).setVisible }, t.ret true)

/-- A step of thread `i`; a thread with nothing left to do has none. -/
def step (s : St R) (i : Nat) : Option (St R) :=
  match (s.thr i).todo with
  | [] => none
  | x :: _ => some ⟨(opT s.b (s.thr i) x).1, Function.update s.thr i (opT s.b (s.thr i) x).2⟩

/-- `n` steps of the threads below `T`, in any order. -/
inductive Run (T : Nat) (s : St R) : Nat → St R → Prop
  | zero : Run T s 0 s
  | succ {n : Nat} {i : Nat} {s' s'' : St R} : Run T s n s' → i < T → step s' i = some s'' → Run T s (n+1) s''

/-- The threads of the test started on a buffer: thread `i` appends the records `ls i`, in order. -/
def start (b : Buffer R) (ls : Nat → List (R × Bool)) : St R := ⟨b, fun i => ⟨.idle, ls i, []⟩⟩

/-- Run a given schedule, for examples. -/
def exec (s : St R) : List Nat → Option (St R)
  | [] => some s
  | i :: is => (step s i).bind (fun s => exec s is)

end DE.Mt
