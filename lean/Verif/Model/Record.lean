import Mathlib.Order.Defs.LinearOrder
import Mathlib.Order.Basic

/-!
Model of `include/framework/interface/Record.h`.
-/

namespace DE

/-- Faults of the modelled program. `ub` = undefined behaviour (out-of-bounds or null access,
unsigned underflow used as an index, popping an empty queue), `abort` = a failed `assert`
(the default build keeps asserts enabled). -/
inductive Fault where
  | ub
  | abort
deriving DecidableEq, Repr

/-- Result of a modelled C++ function. -/
abbrev Res (α : Type) := Except Fault α

/-- `assert(b)` -/
def assertC (b : Bool) : Res Unit := if b then .ok () else .error .abort

/-- `Record<K,V>`, Record.h 104-115. -/
structure Record (K V : Type) where
  key : K
  value : V
deriving DecidableEq, Repr

/-- `Record::operator<`, Record.h 108-110: lexicographic on (key, value). -/
def Record.cppLt {K V : Type} [LinearOrder K] [LinearOrder V] (a b : Record K V) : Prop :=
  a.key < b.key ∨ (a.key = b.key ∧ a.value < b.value)

instance {K V : Type} [LinearOrder K] [LinearOrder V] (a b : Record K V) :
    Decidable (Record.cppLt a b) := by unfold Record.cppLt; infer_instance

/-- The linear order whose strict part is `Record::operator<` and whose equality is
`Record::operator==` (Record.h 112-114: both fields equal). -/
instance {K V : Type} [LinearOrder K] [LinearOrder V] : LinearOrder (Record K V) where
  le a b := a.key < b.key ∨ (a.key = b.key ∧ a.value ≤ b.value)
  lt a b := Record.cppLt a b
  le_refl a := Or.inr ⟨rfl, le_refl _⟩
  le_trans a b c := by
    rintro (h | ⟨h, h'⟩) (g | ⟨g, g'⟩)
    · exact Or.inl (lt_trans h g)
    · exact Or.inl (g ▸ h)
    · exact Or.inl (h ▸ g)
    · exact Or.inr ⟨h.trans g, le_trans h' g'⟩
  lt_iff_le_not_ge a b := by
    unfold Record.cppLt
    constructor
    · rintro (h | ⟨h, h'⟩)
      · refine ⟨Or.inl h, ?_⟩
        rintro (g | ⟨g, _⟩)
        · exact lt_asymm h g
        · exact (ne_of_lt h) g.symm
      · refine ⟨Or.inr ⟨h, le_of_lt h'⟩, ?_⟩
        rintro (g | ⟨_, g⟩)
        · exact (ne_of_lt g) h.symm
        · exact absurd h' (not_lt.mpr g)
    · rintro ⟨h | ⟨h, h'⟩, g⟩
      · exact Or.inl h
      · refine Or.inr ⟨h, ?_⟩
        rcases lt_or_ge a.value b.value with x | x
        · exact x
        · exact absurd (Or.inr ⟨h.symm, x⟩) g
  le_antisymm a b := by
    rintro (h | ⟨h, h'⟩) (g | ⟨g, g'⟩)
    · exact absurd g (lt_asymm h)
    · exact absurd g.symm (ne_of_lt h)
    · exact absurd h.symm (ne_of_lt g)
    · cases a; cases b; simp_all; exact le_antisymm h' g'
  le_total a b := by
    rcases lt_trichotomy a.key b.key with h | h | h
    · exact Or.inl (Or.inl h)
    · rcases le_total a.value b.value with g | g
      · exact Or.inl (Or.inr ⟨h, g⟩)
      · exact Or.inr (Or.inr ⟨h.symm, g⟩)
    · exact Or.inr (Or.inl h)
  toDecidableLE := fun a b => by
    show Decidable (a.key < b.key ∨ (a.key = b.key ∧ a.value ≤ b.value))
    infer_instance
  toDecidableLT := fun a b => by
    show Decidable (Record.cppLt a b)
    infer_instance
  toDecidableEq := inferInstance

/-- A record type whose records carry a key compatible with `operator<`: a smaller key makes a
smaller record. This is all the sorted shards rely on (`KVPInterface`, Record.h 37-41). -/
class HasKey (R : Type) (K : outParam Type) [LinearOrder R] [LinearOrder K] where
  key : R → K
  key_lt : ∀ a b : R, key a < key b → a < b

export HasKey (key)

instance {K V : Type} [LinearOrder K] [LinearOrder V] : HasKey (Record K V) K where
  key := Record.key
  key_lt _ _ h := Or.inl h

/-- `Wrapped<R>`, Record.h 67-69: a 32-bit header and the record. -/
structure Wrapped (R : Type) where
  header : BitVec 32
  record : R
deriving DecidableEq, Repr

namespace Wrapped
variable {R : Type}

/-- `new Wrapped<R>[n]()` value-initialises: header 0, default record. -/
instance [Inhabited R] : Inhabited (Wrapped R) := ⟨⟨0#32, default⟩⟩

/-- `set_delete`, Record.h 71 -/
def setDelete (w : Wrapped R) : Wrapped R := { w with header := w.header ||| 2#32 }
/-- `is_deleted`, Record.h 73 -/
def isDeleted (w : Wrapped R) : Bool := w.header &&& 2#32 != 0#32
/-- `set_visible`, Record.h 75 -/
def setVisible (w : Wrapped R) : Wrapped R := { w with header := w.header ||| 4#32 }
/-- `is_visible`, Record.h 77 -/
def isVisible (w : Wrapped R) : Bool := w.header &&& 4#32 != 0#32
/-- `set_timestamp`, Record.h 79 (the argument is converted to 32 bits). -/
def setTimestamp (w : Wrapped R) (ts : Nat) : Wrapped R :=
  { w with header := w.header ||| (BitVec.ofNat 32 ts <<< 3) }
/-- `get_timestamp`, Record.h 81 -/
def getTimestamp (w : Wrapped R) : Nat := (w.header >>> 3).toNat
/-- `clear_timestamp`, Record.h 83 -/
def clearTimestamp (w : Wrapped R) : Wrapped R := { w with header := w.header &&& 7#32 }
/-- `set_tombstone`, Record.h 85-91. `set_tombstone(false)` zeroes the whole header. -/
def setTombstone (w : Wrapped R) (val : Bool := true) : Wrapped R :=
  if val then { w with header := w.header ||| 1#32 } else { w with header := w.header &&& 0#32 }
/-- `is_tombstone`, Record.h 93 -/
def isTombstone (w : Wrapped R) : Bool := w.header &&& 1#32 != 0#32

/-- `Wrapped::operator<`, Record.h 95-97. -/
def lt [LinearOrder R] (a b : Wrapped R) : Prop :=
  a.record < b.record ∨ (a.record = b.record ∧ a.header < b.header)

instance [LinearOrder R] (a b : Wrapped R) : Decidable (lt a b) := by
  unfold lt; infer_instance

/-- `Wrapped::operator==`, Record.h 99-101: compares the records only. -/
def eqv [DecidableEq R] (a b : Wrapped R) : Bool := decide (a.record = b.record)

/-- `header &= 3` as done when a record leaves the buffer (SortedMerge.h 126, PGM/TrieSpline
buffer constructors). -/
def mask (w : Wrapped R) : Wrapped R := { w with header := w.header &&& 3#32 }

end Wrapped
end DE
