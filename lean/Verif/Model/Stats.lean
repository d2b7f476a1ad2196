import Verif.Model.Record

/-!
The scheduler's timing statistics, statistics.h: worker threads log the running time of each finished job (Task.h 79-84) with a query
type of 1 and a reconstruction type of 2. Every access to an atomic is one step; atomics start at 0 (C++20).
-/

namespace DE.Stats

/-- `m_type_x_cnt`, `m_type_x_total_time`, `m_type_x_largest_time`, statistics.h 97-104. -/
structure Stat where
  cnt : Nat := 0
  total : Nat := 0
  largest : Nat := 0
deriving DecidableEq, Repr

/-- Where a thread is in `log_time_data(length, type)`, statistics.h 53-71. -/
inductive PC where
  | idle
  | a1 (len ty : Nat)        -- fetch_add on the count
  | a2 (len ty : Nat)        -- fetch_add on the total
  | a3 (len ty : Nat)        -- `length > m_type_x_largest_time`
  | a4 (len ty : Nat)        -- store
deriving DecidableEq, Repr

/-- Shared statistics by type, the threads, and (for specification only) the calls made so far, the newest first. -/
structure St where
  st : Nat → Stat
  thr : List PC
  calls : List (Nat × Nat)

/-- All zero. -/
def init (n : Nat) : St := { st := fun _ => {}, thr := List.replicate n .idle, calls := [] }

/-- Change of the statistics of one type. -/
def St.setS (s : St) (ty : Nat) (x : Stat) : St := { s with st := fun y => if y = ty then x else s.st y }
/-- Thread `i` moves. -/
def St.setT (s : St) (i : Nat) (p : PC) : St := { s with thr := s.thr.set i p }

/-- One step of thread `i`; an idle thread calls `log_time_data(call)`. Counters are unsigned 64-bit numbers. -/
def step (s : St) (i : Nat) (call : Nat × Nat) : Res (Option St) :=
  match s.thr[i]? with
  | none => .ok none
  | some .idle =>
    if call.2 = 1 ∨ call.2 = 2 then .ok (some ({ s with calls := call :: s.calls }.setT i (.a1 call.1 call.2))) else .error .abort
  | some (.a1 len ty) => .ok (some ((s.setS ty { s.st ty with cnt := ((s.st ty).cnt + 1) % 2 ^ 64 }).setT i (.a2 len ty)))
  | some (.a2 len ty) => .ok (some ((s.setS ty { s.st ty with total := ((s.st ty).total + len) % 2 ^ 64 }).setT i (.a3 len ty)))
  | some (.a3 len ty) => .ok (some (s.setT i (if len > (s.st ty).largest then .a4 len ty else .idle)))
  | some (.a4 len ty) => .ok (some ((s.setS ty { s.st ty with largest := len }).setT i .idle))

/-- Reachable states; `ok` restricts the steps. -/
inductive Reach (n : Nat) (ok : St → Nat → Nat × Nat → Prop) : St → Prop
  | init : Reach n ok (init n)
  | step {s s' : St} {i : Nat} {c : Nat × Nat} : Reach n ok s → ok s i c → step s i c = .ok (some s') → Reach n ok s'

end DE.Stats
