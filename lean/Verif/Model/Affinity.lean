import Verif.Model.Record

/-!
Model of `SetThreadAffinity`, DynamicExtension.h 725-749, which every reconstruction calls first (560) unless the scheduler is
`SerialScheduler`. The operating system's answer to `sched_setaffinity` is ignored by the code and not modelled; `CPU_SET` leaves the
mask empty for a number that does not fit (glibc).
-/

namespace DE

/-- `m_next_core.fetch_add(1) % m_core_cnt`, DynamicExtension.h 730: the 32-bit `int` is converted to `size_t` (sign extension), a
remainder by zero is undefined. `n` is `m_core_cnt`, the constructor's `thread_cnt` (87). -/
def nextCore (n : Nat) (c : BitVec 32) : Res Nat :=
  if n = 0 then .error .ub else .ok ((c.signExtend 64).toNat % n)

/-- The core set in the mask, DynamicExtension.h 734-748. The conversion of the remainder to `int` keeps its value as `n ≤ 2^31`. -/
def pinnedCore (n : Nat) (c : BitVec 32) : Res Nat := do
  let core ← nextCore n c
  .ok (if core % 2 = 0 then core + 0 else (core - 1) + n)

/-- `m_next_core` when the `k`-th reconstruction (from 0) reads it: an atomic `int` wraps (87, 388, 730). -/
def coreCounter (k : Nat) : BitVec 32 := BitVec.ofNat 32 k

/-- The core of the `k`-th reconstruction of an index with `thread_cnt = n`. -/
def jobCore (n k : Nat) : Res Nat := pinnedCore n (coreCounter k)

end DE
