/-!
The schedulers: FIFOScheduler.h, Task.h 45-86, SerialScheduler.h.

External code: the task queue `psudb::LockedPriorityQueue<Task>` (source absent, `external/psudb-common` is empty) is a parameter
`pop` about which the theorems assume a contract; `ctpl::thread_pool` (source absent) is a FIFO queue from which worker threads take
jobs, `stop(true)` returns when the queue is empty and no worker runs anything, afterwards `n_idle()` is 0. `n_idle()` may report any
number up to the number of workers that run nothing. Mutex and condition variable follow the C++ rules; spurious wake-ups are steps.
Simplified: the counter is unbounded; statistics are left out; `schedule_job` is one step, which is possible while nobody holds
`m_cv_lock` (it holds the lock from beginning to end); `stop` is one step.
-/

namespace DE.Sched

/-- Task.h 45-58; `job` stands for the function, its argument, size and type. -/
structure Task where
  ts : Nat
  job : Nat
  deriving DecidableEq, Repr

/-- `operator<`, Task.h 60-62. -/
def Task.lt (a b : Task) : Bool := decide (a.ts < b.ts)

/-- Where the scheduler thread is in `run`, FIFOScheduler.h 112-121. -/
inductive SPc
  /-- about to lock `m_cv_lock` (114) -/
  | enter
  /-- asleep in `m_cv.wait` (115); the lock is free -/
  | wait
  /-- woken up, about to take the lock again (115) -/
  | woken
  /-- in the `while` loop (117-119), holding the lock -/
  | loop
  /-- about to test `m_shutdown` (120) -/
  | test
  | done
  deriving DecidableEq, Repr

/-- Where the wake-up thread is in `periodic_wakeup`, 97-102. -/
inductive WPc
  | sleep | notify | test | done
  deriving DecidableEq, Repr

/-- Where the destroying thread is: `shutdown` 67-71, then the joins of the destructor 47-54. -/
inductive MPc
  | live | stop | notify | joinSched | joinWake | gone
  deriving DecidableEq, Repr

/-- The scheduler object and its threads, FIFOScheduler.h 75-95. -/
structure St where
  /-- `m_counter` -/
  ctr : Nat := 0
  /-- contents of `m_task_queue` -/
  queue : List Task := []
  /-- queue of the thread pool, first to be taken first -/
  pool : List Task := []
  /-- jobs that workers run at the moment -/
  running : List Task := []
  /-- number of worker threads, `m_thrd_cnt` -/
  threads : Nat
  /-- `m_shutdown` -/
  flag : Bool := false
  sched : SPc := .enter
  wake : WPc := .sleep
  main : MPc := .live
  /-- ghost: jobs passed to `schedule_job`, in this order -/
  submitted : List Nat := []
  /-- ghost: jobs a worker started, in this order -/
  started : List Nat := []
  deriving DecidableEq, Repr

/-- The steps of the system. -/
inductive Ev
  /-- `schedule_job`, 56-65 -/
  | submit (job : Nat)
  /-- a worker takes a job from the pool's queue -/
  | start
  /-- a worker ends the `i`-th running job, Task.h 72 -/
  | finish (i : Nat)
  /-- a step of the scheduler thread; in the loop the argument says whether `n_idle() > 0` was reported -/
  | sched (idle : Bool)
  /-- spurious wake-up of the scheduler thread -/
  | spurious
  /-- a step of the wake-up thread -/
  | wake
  /-- a step of the destroying thread -/
  | main
  deriving DecidableEq, Repr

/-- The threads asleep on `m_cv` are woken; only the scheduler thread ever waits. -/
def notifyAll (s : St) : St := if s.sched = .wait then { s with sched := .woken } else s

/-- `m_task_queue.pop()` as a parameter: the task handed out and the remaining contents. -/
abbrev Pop := List Task → Option (Task × List Task)

/-- `schedule_job`, 56-65: needs the lock. -/
def submit (s : St) (job : Nat) : Option St :=
  if s.sched = .loop ∨ s.main = .gone then none
  else some (notifyAll { s with ctr := s.ctr + 1, queue := ⟨s.ctr, job⟩ :: s.queue, submitted := s.submitted ++ [job] })

/-- One step of `run`, 112-121, with `schedule_next`, 104-110. -/
def schedStep (pop : Pop) (s : St) (idle : Bool) : Option St :=
  match s.sched with
  | .enter => some { s with sched := .wait }
  | .wait => none
  | .woken => some { s with sched := .loop }
  | .loop =>
    if s.queue.length > 0 ∧ idle = true then
      if s.running.length < s.threads then
        match pop s.queue with
        | some (t, q) => some { s with queue := q, pool := s.pool ++ [t] }
        | none => none
      else none
    else some { s with sched := .test }
  | .test => some { s with sched := if s.flag then .done else .enter }
  | .done => none

/-- One step of `periodic_wakeup`, 97-102. -/
def wakeStep (s : St) : Option St :=
  match s.wake with
  | .sleep => some { s with wake := .notify }
  | .notify => some { notifyAll s with wake := .test }
  | .test => some { s with wake := if s.flag then .done else .sleep }
  | .done => none

/-- One step of the destroying thread: `shutdown` 68-70, the joins 52-53. -/
def mainStep (s : St) : Option St :=
  match s.main with
  | .live => some { s with flag := true, main := .stop }
  | .stop => if s.pool = [] ∧ s.running = [] then some { s with threads := 0, main := .notify } else none
  | .notify => some { notifyAll s with main := .joinSched }
  | .joinSched => if s.sched = .done then some { s with main := .joinWake } else none
  | .joinWake => if s.wake = .done then some { s with main := .gone } else none
  | .gone => none

/-- One step of the whole system. -/
def step (pop : Pop) (s : St) : Ev → Option St
  | .submit j => submit s j
  | .start =>
    match s.pool with
    | t :: p => if s.running.length < s.threads then
        some { s with pool := p, running := t :: s.running, started := s.started ++ [t.job] } else none
    | [] => none
  | .finish i => if i < s.running.length then some { s with running := s.running.eraseIdx i } else none
  | .sched b => schedStep pop s b
  | .spurious => if s.sched = .wait then some { s with sched := .woken } else none
  | .wake => wakeStep s
  | .main => mainStep s

/-- Runs a schedule. -/
def runEvs (pop : Pop) (s : St) : List Ev → Option St
  | [] => some s
  | e :: es => match step pop s e with
    | some s' => runEvs pop s' es
    | none => none

/-- The constructor, 38-45; without thread count 8 workers. -/
def init (thread_cnt : Nat) : St := { threads := if thread_cnt = 0 then 8 else thread_cnt }

/-- `SerialScheduler::schedule_job`, SerialScheduler.h 31-38: the job runs before the call returns. State: `m_counter` and the jobs
run so far. -/
def serialJob (s : Nat × List Nat) (job : Nat) : Nat × List Nat := (s.1 + 1, s.2 ++ [job])

end DE.Sched
