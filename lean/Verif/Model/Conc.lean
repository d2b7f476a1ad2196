import Verif.Model.Record

/-!
Concurrent model of the head/tail protocol of `include/framework/structure/MutableBuffer.h` together with the epoch protocol
of `include/framework/DynamicExtension.h` and `include/framework/scheduling/Epoch.h`, as a transition system: any number of
threads, one step per atomic load, store or compare-and-swap (sequentially consistent, as the code uses the default memory
order everywhere).

What a thread can do: run `internal_append`, run a job that pins the active epoch and takes and drops a buffer view (every
query and every `get_…` function of the interface is of this form; the epoch and the view may be released in either order,
`async_query` releases the epoch first), execute a scheduled reconstruction, or call `await_next_epoch`.

Simplifications. Epochs are numbered and numbers are not reused (an allocator may reuse addresses). The version of an epoch
is reduced to the list of buffer slots flushed into it (the levels are modelled in `Structure.lean`). The three writes of a
slot in `append` are one step (`Torn.lean` has them word by word). Records are numbers; tombstone flag, tombstone counter and Bloom filter are left out.
Counters are unbounded (see `Tail32.lean` for the 32-bit truncation). `claimed` and `done` are history variables: they are
never read by the code.
-/

namespace DE.Conc

/-- Buffer parameters: watermarks; the ring has `2 * hwm` slots (MutableBuffer.h 43-46, the framework always uses the default
capacity, DynamicExtension.h 86). -/
structure Par where
  lwm : Nat
  hwm : Nat

/-- Ring capacity. -/
def Par.cap (P : Par) : Nat := 2 * P.hwm

/-- `buffer_head`, MutableBuffer.h 36-39. -/
structure Hd where
  idx : Nat
  ref : Nat
deriving DecidableEq, Repr

/-- `epoch_ptr`, DynamicExtension.h 53-56; null is `none`. -/
structure EP where
  ep : Option Nat
  ref : Nat
deriving DecidableEq, Repr

/-- What a ring slot holds: position and record of the append that wrote it last; `none` is the value-initialised record. -/
abbrev Slot := Option (Nat × Nat)

/-- Who called a shared subroutine: `create_new_epoch` inside the append of record `r`, a job of a client, or the
reconstruction of epoch `e`. -/
inductive K where
  | create (r : Nat)
  | client
  | job (e : Nat)
deriving DecidableEq, Repr

/-- Program counters; each names the next atomic action. -/
inductive PC where
  | idle
  -- internal_append, DynamicExtension.h 711-722
  | ins (r : Nat)                 -- is_at_low_watermark: first of the two loads (their order is unspecified)
  | insT (r t : Nat)              -- tail loaded, head to be loaded
  | insH (r h : Nat)              -- head loaded, tail to be loaded
  | casF (r : Nat)                -- CAS m_reconstruction_scheduled
  | crA (r : Nat)                 -- create_new_epoch 498-514: assert(next == null)
  | crC (r : Nat)                 -- clone and store to m_next_epoch
  | crS (r : Nat)                 -- schedule_job
  -- append, MutableBuffer.h 61-89
  | ap1 (r : Nat)                 -- try_advance_tail 233: load tail
  | ap2 (r t : Nat)               -- 236: load head and test
  | ap3 (r t : Nat)               -- 240: CAS tail
  | ap4 (r t : Nat)               -- 242: test after a failed CAS (`t` is the reloaded value)
  | ap5 (r p : Nat)               -- 77-86: write the slot
  -- get_active_epoch, DynamicExtension.h 431-461
  | ga1 (k : K) | gaP2 (k : K) | gaP3 (k : K) (old : EP) | gaC2 (k : K) | gaC3 (k : K) (old : EP)
  -- between the calls of a client job
  | run
  -- end_job, DynamicExtension.h 755-793
  | ej1 (k : K) | ejP2 (k : K) | ejP3 (k : K) (old : EP) | ejC2 (k : K) | ejC3 (k : K) (old : EP)
  -- get_head, MutableBuffer.h 177-196, and the load of the tail in get_buffer_view 124-130
  | gh1 (k : K) (g : Nat) | ghO2 (k : K) (g : Nat) | ghO3 (k : K) (g : Nat) (c : Hd)
  | ghB (k : K) (g : Nat) | ghH2 (k : K) (g : Nat) | ghH3 (k : K) (g : Nat) (c : Hd) | gt (k : K)
  -- release_head_reference, MutableBuffer.h 254-279
  | rl1 (k : K) | rlO2 (k : K) | rlO3 (k : K) (c : Hd) | rlH2 (k : K) | rlH3 (k : K) (c : Hd)
  -- reconstruction, DynamicExtension.h 557-607
  | jb (e : Nat)                            -- get_buffer
  | cp (e p : Nat) (acc : List Slot)        -- flush_buffer: copying slot `p`
  -- advance_epoch 463-492 with retire_epoch 516-555 and advance_head, MutableBuffer.h 145-171
  | ad1 (e : Nat)                           -- load previous
  | rt1 (e x : Nat)                         -- retire_epoch: load previous and test
  | rt2 (e x : Nat) (old : EP)              -- CAS previous to null
  | rt3 (e x : Nat)                         -- delete
  | ad3 (e : Nat)                           -- load current
  | ad4 (e : Nat) (c : EP)                  -- CAS current to null
  | ad5 (e : Nat) (c : EP)                  -- store previous
  | ad6 (e : Nat)                           -- advance_buffer_head: set m_buffer_head
  | ad7 (e : Nat)                           -- advance_head: the two asserts
  | ad8 (e : Nat)                           -- load old head, refuse if referenced
  | ad9 (e : Nat)                           -- load head
  | ad10 (e : Nat) (c : Hd)                 -- CAS head
  | ad11 (e : Nat) (c : Hd)                 -- store old head
  | ad12 (e : Nat)                          -- store current
  | ad13 | ad14 | ad15 | ad16 | ad17        -- store next; lock; notify_all; unlock; store the flag
  -- await_next_epoch 352-357
  | aw1 | aw2 | aw3 | aw4 | aw5 | aw6       -- load next; lock; wait; asleep; re-lock after a wake-up; unlock
deriving DecidableEq, Repr

/-- A thread: program counter, the epoch it has pinned, the head it has pinned, and the tail of its view. -/
structure Th where
  pc : PC := .idle
  ep : Option Nat := none
  hd : Option Nat := none
  tl : Nat := 0
deriving DecidableEq, Repr

/-- The shared state. -/
structure St where
  tail : Nat
  head : Hd
  old : Hd
  cur : EP
  prev : EP
  next : Option Nat
  flag : Bool
  jobs : List Nat
  lock : Option Nat
  mem : Nat → Slot
  ehead : Nat → Nat
  estr : Nat → List Slot
  alive : Nat → Bool
  nextId : Nat
  thr : List Th
  claimed : List (Nat × Nat)
  done : List (Nat × Nat)

/-- The constructors, MutableBuffer.h 43-54 and DynamicExtension.h 81-97, with `n` idle threads. `m_reconstruction_scheduled`
has no initialiser; since C++20 that means `false`. -/
def init (P : Par) (n : Nat) : St where
  tail := 0
  head := ⟨0, 0⟩
  old := ⟨P.hwm, 0⟩
  cur := ⟨some 0, 0⟩
  prev := ⟨none, 0⟩
  next := none
  flag := false
  jobs := []
  lock := none
  mem := fun _ => none
  ehead := fun _ => 0
  estr := fun _ => []
  alive := fun e => e == 0
  nextId := 1
  thr := List.replicate n {}
  claimed := []
  done := []

/-- Function update. -/
def upd {α : Type} (f : Nat → α) (i : Nat) (v : α) : Nat → α := fun j => if j = i then v else f j

/-- `a - b >= w` for `size_t` operands: the difference wraps around if `a < b`, and is then larger than any watermark (as long
as the counters differ by less than 2^64 - w). -/
def subGe (a b w : Nat) : Bool := if b ≤ a then decide (a - b ≥ w) else true

/-- What the scheduler chooses: which operation an idle thread or a client job performs next. -/
inductive Ch where
  | go                  -- the next action of the running operation
  | insert (r : Nat)
  | query               -- start a client job
  | work                -- take a scheduled reconstruction
  | await
  | tailFirst | headFirst
  | getBuffer | endJob | drop | use | finish
  | spurious            -- wake-up without notification (allowed by the standard)
deriving DecidableEq, Repr

/-- Replace thread `i`. -/
def St.setT (s : St) (i : Nat) (t : Th) : St := { s with thr := s.thr.set i t }

/-- `notify_all`: a sleeping thread may go on. -/
def wake (u : Th) : Th := if u.pc = .aw4 then { u with pc := .aw5 } else u

/-- Where `get_active_epoch` returns to. -/
def gaRet : K → PC
  | .create r => .crC r
  | _ => .run
/-- Where `end_job` returns to. -/
def ejRet : K → PC
  | .create r => .crS r
  | _ => .run
/-- Where `get_buffer_view` returns to; the reconstruction starts copying at the head `h` of its view. -/
def gtRet (h : Nat) : K → PC
  | .job e => .cp e h []
  | _ => .run
/-- Where the destructor of the view returns to. -/
def rlRet : K → PC
  | .job e => .ad1 e
  | _ => .run

/-- Result of a step. -/
abbrev Out := Res (Option St)

/-- One step of thread `i` (whose local state is `t`). `none` means the thread cannot move (or the choice does not apply). -/
def stepT (P : Par) (s : St) (i : Nat) (t : Th) (c : Ch) : Out :=
  let go (pc : PC) : Out := .ok (some (s.setT i { t with pc := pc }))
  match t.pc with
  | .idle =>
    match c with
    | .insert r => go (.ins r)
    | .query => go (.ga1 .client)
    | .work =>
      match s.jobs with
      | e :: rest => .ok (some ({ s with jobs := rest }.setT i { t with pc := .jb e }))
      | [] => .ok none
    | .await => go .aw1
    | _ => .ok none
  -- internal_append
  | .ins r =>
    match c with
    | .tailFirst => go (.insT r s.tail)
    | .headFirst => go (.insH r s.head.idx)
    | _ => .ok none
  | .insT r tl => go (if subGe tl s.head.idx P.lwm then .casF r else .ap1 r)
  | .insH r h => go (if subGe s.tail h P.lwm then .casF r else .ap1 r)
  | .casF r =>
    if s.flag then go (.ap1 r) else .ok (some ({ s with flag := true }.setT i { t with pc := .crA r }))
  | .crA r => if s.next = none then go (.ga1 (.create r)) else .error .abort
  | .crC r =>
    match t.ep with
    | some e =>
      if s.alive e then
        let n := s.nextId
        .ok (some ({ s with next := some n, nextId := n + 1, ehead := upd s.ehead n (s.ehead e), estr := upd s.estr n (s.estr e)
                            alive := upd s.alive n true }.setT i { t with pc := .ej1 (.create r) }))
      else .error .ub
    | none => .error .ub
  | .crS r =>
    match s.next with
    | some e => .ok (some ({ s with jobs := s.jobs ++ [e] }.setT i { t with pc := .ap1 r }))
    | none => .error .ub
  -- append
  | .ap1 r => go (.ap2 r s.tail)
  | .ap2 r tl => if subGe tl s.head.idx P.hwm then go .idle else go (.ap3 r tl)
  | .ap3 r tl =>
    if s.tail = tl then
      .ok (some ({ s with tail := tl + 1, claimed := (tl, r) :: s.claimed }.setT i { t with pc := .ap5 r tl }))
    else go (.ap4 r s.tail)
  | .ap4 r tl => if s.tail ≥ P.hwm then go .idle else go (.ap3 r tl)
  | .ap5 r p =>
    .ok (some ({ s with mem := upd s.mem (p % P.cap) (some (p, r)), done := (p, r) :: s.done }.setT i { t with pc := .idle }))
  -- get_active_epoch
  | .ga1 k => go (if s.cur.ep = none then .gaP2 k else .gaC2 k)
  | .gaP2 k => go (if s.prev.ep = none then .ga1 k else .gaP3 k s.prev)
  | .gaP3 k old =>
    if s.prev = old then
      .ok (some ({ s with prev := ⟨old.ep, old.ref + 1⟩ }.setT i { t with pc := gaRet k, ep := old.ep }))
    else go (.ga1 k)
  | .gaC2 k => go (if s.cur.ep = none then .ga1 k else .gaC3 k s.cur)
  | .gaC3 k old =>
    if s.cur = old then
      .ok (some ({ s with cur := ⟨old.ep, old.ref + 1⟩ }.setT i { t with pc := gaRet k, ep := old.ep }))
    else go (.ga1 k)
  -- client job
  | .run =>
    match c with
    | .getBuffer =>
      match t.ep, t.hd with
      | some e, none => if s.alive e then go (.gh1 .client (s.ehead e)) else .error .ub
      | _, _ => .ok none
    | .endJob =>
      match t.ep with
      | some _ => go (.ej1 .client)
      | none => .ok none
    | .drop =>
      match t.hd with
      | some _ => go (.rl1 .client)
      | none => .ok none
    | .use =>
      match t.ep with
      | some e => if s.alive e then go .run else .error .ub
      | none => .ok none
    | .finish => if t.ep = none ∧ t.hd = none then go .idle else .ok none
    | _ => .ok none
  -- end_job
  | .ej1 k => go (if s.prev.ep = t.ep then .ejP2 k else .ejC2 k)
  | .ejP2 k => if s.prev.ep = none then go (.ej1 k) else if s.prev.ref > 0 then go (.ejP3 k s.prev) else .error .abort
  | .ejP3 k old =>
    if s.prev = old then
      .ok (some ({ s with prev := ⟨old.ep, old.ref - 1⟩ }.setT i { t with pc := ejRet k, ep := none }))
    else go (.ej1 k)
  | .ejC2 k => if s.cur.ep = none then go (.ej1 k) else if s.cur.ref > 0 then go (.ejC3 k s.cur) else .error .abort
  | .ejC3 k old =>
    if s.cur = old then
      .ok (some ({ s with cur := ⟨old.ep, old.ref - 1⟩ }.setT i { t with pc := ejRet k, ep := none }))
    else go (.ej1 k)
  -- get_head; `cur_hd.head_idx = target_head` makes the CAS fail if the head has moved on
  | .gh1 k g => go (if s.old.idx = g then .ghO2 k g else .ghB k g)
  | .ghO2 k g => go (.ghO3 k g ⟨g, s.old.ref⟩)
  | .ghO3 k g c =>
    if s.old = c then
      .ok (some ({ s with old := ⟨c.idx, c.ref + 1⟩ }.setT i { t with pc := .gt k, hd := some c.idx }))
    else go (.gh1 k g)
  | .ghB k g => go (if s.head.idx = g then .ghH2 k g else .gh1 k g)
  | .ghH2 k g => go (.ghH3 k g ⟨g, s.head.ref⟩)
  | .ghH3 k g c =>
    if s.head = c then
      .ok (some ({ s with head := ⟨c.idx, c.ref + 1⟩ }.setT i { t with pc := .gt k, hd := some c.idx }))
    else go (.gh1 k g)
  | .gt k => .ok (some (s.setT i { t with pc := gtRet (t.hd.getD 0) k, tl := s.tail }))
  -- release_head_reference
  | .rl1 k => go (if some s.old.idx = t.hd then .rlO2 k else .rlH2 k)
  | .rlO2 k => go (if s.old.ref = 0 then .rl1 k else .rlO3 k s.old)
  | .rlO3 k c =>
    if s.old = c then
      .ok (some ({ s with old := ⟨c.idx, c.ref - 1⟩ }.setT i { t with pc := rlRet k, hd := none }))
    else go (.rl1 k)
  | .rlH2 k => go (if s.head.ref = 0 then .rl1 k else .rlH3 k s.head)
  | .rlH3 k c =>
    if s.head = c then
      .ok (some ({ s with head := ⟨c.idx, c.ref - 1⟩ }.setT i { t with pc := rlRet k, hd := none }))
    else go (.rl1 k)
  -- reconstruction
  | .jb e => if s.alive e then go (.gh1 (.job e) (s.ehead e)) else .error .ub
  | .cp e p acc =>
    if p < t.tl then go (.cp e (p + 1) (acc ++ [s.mem (p % P.cap)]))
    else if s.alive e then
      .ok (some ({ s with estr := upd s.estr e (s.estr e ++ acc) }.setT i { t with pc := .rl1 (.job e) }))
    else .error .ub
  | .ad1 e =>
    match s.prev.ep with
    | none => go (.ad3 e)
    | some x => go (.rt1 e x)
  | .rt1 e x => go (if s.prev.ep = some x ∧ s.prev.ref = 0 then .rt2 e x s.prev else .rt1 e x)
  | .rt2 e x old =>
    if s.prev = old then .ok (some ({ s with prev := ⟨none, 0⟩ }.setT i { t with pc := .rt3 e x })) else go (.rt1 e x)
  | .rt3 e x => if s.alive x then .ok (some ({ s with alive := upd s.alive x false }.setT i { t with pc := .ad3 e })) else .error .ub
  | .ad3 e => go (.ad4 e s.cur)
  | .ad4 e c =>
    if s.cur = c then .ok (some ({ s with cur := ⟨none, 0⟩ }.setT i { t with pc := .ad5 e c })) else go (.ad3 e)
  | .ad5 e c => .ok (some ({ s with prev := c }.setT i { t with pc := .ad6 e }))
  | .ad6 e =>
    match s.next with
    | some x => if s.alive x then .ok (some ({ s with ehead := upd s.ehead x t.tl }.setT i { t with pc := .ad7 e })) else .error .ub
    | none => .error .ub
  | .ad7 e => if t.tl > s.head.idx ∧ t.tl ≤ s.tail then go (.ad8 e) else .error .abort
  | .ad8 e => go (if s.old.ref > 0 then .ad6 e else .ad9 e)
  | .ad9 e => go (.ad10 e s.head)
  | .ad10 e c =>
    if s.head = c then .ok (some ({ s with head := ⟨t.tl, 0⟩ }.setT i { t with pc := .ad11 e c })) else go (.ad9 e)
  | .ad11 e c => .ok (some ({ s with old := c }.setT i { t with pc := .ad12 e }))
  | .ad12 _ => .ok (some ({ s with cur := ⟨s.next, 0⟩ }.setT i { t with pc := .ad13 }))
  | .ad13 => .ok (some ({ s with next := none }.setT i { t with pc := .ad14 }))
  | .ad14 => if s.lock = none then .ok (some ({ s with lock := some i }.setT i { t with pc := .ad15 })) else .ok none
  | .ad15 =>
    .ok (some ({ s with thr := s.thr.map wake }.setT i { t with pc := .ad16 }))
  | .ad16 => .ok (some ({ s with lock := none }.setT i { t with pc := .ad17 }))
  | .ad17 => .ok (some ({ s with flag := false }.setT i { t with pc := .idle }))
  -- await_next_epoch
  | .aw1 => go (if s.next = none then .idle else .aw2)
  | .aw2 => if s.lock = none then .ok (some ({ s with lock := some i }.setT i { t with pc := .aw3 })) else .ok none
  | .aw3 => .ok (some ({ s with lock := none }.setT i { t with pc := .aw4 }))
  | .aw4 => if c = .spurious then go .aw5 else .ok none
  | .aw5 => if s.lock = none then .ok (some ({ s with lock := some i }.setT i { t with pc := .aw6 })) else .ok none
  | .aw6 => .ok (some ({ s with lock := none }.setT i { t with pc := .aw1 }))

/-- One step of the system. -/
def step (P : Par) (s : St) (i : Nat) (c : Ch) : Out :=
  match s.thr[i]? with
  | some t => stepT P s i t c
  | none => .ok none

/-- The states reachable by executions all of whose steps are allowed by `ok`. -/
inductive Reach (P : Par) (n : Nat) (ok : St → Nat → Prop) : St → Prop
  | init : Reach P n ok (init P n)
  | step {s s' : St} {i : Nat} {c : Ch} : Reach P n ok s → ok s i → step P s i c = .ok (some s') → Reach P n ok s'

/-- No restriction on the execution. -/
def any : St → Nat → Prop := fun _ _ => True

/-- Execute a schedule (a list of thread and choice); a disabled step gives `none`. -/
def exec (P : Par) : List (Nat × Ch) → St → Res (Option St)
  | [], s => .ok (some s)
  | (i, c) :: l, s =>
    match step P s i c with
    | .ok (some s') => exec P l s'
    | r => r

end DE.Conc
