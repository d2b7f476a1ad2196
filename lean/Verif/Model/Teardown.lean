import Verif.Model.Conc

/-!
Destruction of the index: `~DynamicExtension`, DynamicExtension.h 105-120, and `~Epoch`, Epoch.h 37-45. The destructor first waits for a
pending transition (`await_next_epoch`) and shuts the scheduler down (which ends the worker threads); both are part of the transition
systems `Conc` and `Scheduler`. What is left are the three `delete`s of epochs.
-/

namespace DE.Conc

/-- `delete epoch`: nothing for a null pointer, undefined for an epoch that has been deleted. An epoch is the only owner of its structure
(Epoch.h 32-35 and 69-73: one reference each), so `~Epoch` deletes the structure with it; `m_structure` is never null in the framework. -/
def delEpoch (s : St) : Option Nat → Res St
  | none => .ok s
  | some e => if s.alive e then .ok { s with alive := upd s.alive e false } else .error .ub

/-- DynamicExtension.h 114-116. -/
def destroy (s : St) : Res St := do
  let s ← delEpoch s s.next
  let s ← delEpoch s s.cur.ep
  delEpoch s s.prev.ep

end DE.Conc
