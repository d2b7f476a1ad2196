import Verif.Model.ISAM
import Verif.Model.Learned

/-!
The searches of the shards with what they read counted: the same loops as in `ISAM.lean` and `Learned.lean`, every function returning
beside its result the number of nodes, keys or records it has looked at. An instrument for C108, not part of the code; the erasure
theorems (`C108_counting_is_invisible`) tie the results to the plain searches.
-/

namespace DE

/-- What a search has read. -/
structure Cost where
  /-- internal nodes visited -/
  nodes : Nat
  /-- separator keys compared -/
  keys : Nat
  /-- records compared -/
  recs : Nat
deriving DecidableEq, Repr

namespace Isam
variable {R K : Type}

/-- The `for` loop choosing a child, ISAMTree.h 131-136, with the keys compared (`||` skips the key when the next child is null). -/
def pickC (z : K) (go : K → Bool) (nd : Node K) : Nat → Nat → Option Ptr × Nat
  | _, 0 => (none, 0)
  | i, n+1 =>
    if nd.childAt (i+1) = none then (nd.childAt i, 0)
    else if go (nd.keyAt z i) then (nd.childAt i, 1)
    else
      let r := pickC z go nd (i+1) n
      (r.1, r.2 + 1)

/-- The descent, ISAMTree.h 128-141, with the nodes visited and the keys compared. -/
def descendC (F : Nat) (z : K) (go : K → Bool) (arena : List (Node K)) : Nat → Ptr → Res (Nat × Nat × Nat)
  | _, .leaf p => .ok (p, 0, 0)
  | 0, .node _ => .error .ub
  | fuel+1, .node m => do
    let nd ← getR arena m
    let r := pickC z go nd 0 (F - 1)
    match r.1 with
    | some p => do
      let x ← descendC F z go arena fuel p
      .ok (x.1, x.2.1 + 1, x.2.2 + r.2)
    | none =>
      match nd.childAt (F - 1) with
      | some p => do
        let x ← descendC F z go arena fuel p
        .ok (x.1, x.2.1 + 1, x.2.2 + r.2)
      | none => .error .ub

/-- The final scan, ISAMTree.h 143-147: records skipped and records compared. -/
def skipWhileC (p : Wrapped R → Bool) : List (Wrapped R) → Nat × Nat
  | [] => (0, 0)
  | w :: ws =>
    if p w then
      let r := skipWhileC p ws
      (r.1 + 1, r.2 + 1)
    else (0, 1)

/-- A search from the root, ISAMTree.h 127-171. -/
def searchC [LinearOrder R] [LinearOrder K] [HasKey R K] (F LF : Nat) (z : K) (go : K → Bool) (p : Wrapped R → Bool)
    (data : List (Wrapped R)) : Res (Nat × Cost) :=
  if data.length = 0 then .error .ub
  else do
    let t := buildTree F LF z data
    let x ← descendC F z go t.1 (t.1.length + 1) (.node t.2)
    let s := skipWhileC p (data.drop x.1)
    .ok (x.1 + s.1, ⟨x.2.1, x.2.2, s.2⟩)

end Isam

variable {R K : Type} [LinearOrder R] [LinearOrder K] [HasKey R K]

/-- `get_lower_bound`, ISAMTree.h 127-147, counted. -/
def Isam.lowerBoundC (F LF : Nat) (z : K) (data : List (Wrapped R)) (k : K) : Res (Nat × Cost) :=
  Isam.searchC F LF z (fun x => decide (k ≤ x)) (fun w => decide (key w.record < k)) data
/-- `get_upper_bound`, ISAMTree.h 149-169, counted. -/
def Isam.upperBoundC (F LF : Nat) (z : K) (data : List (Wrapped R)) (k : K) : Res (Nat × Cost) :=
  Isam.searchC F LF z (fun x => decide (k < x)) (fun w => decide (key w.record ≤ k)) data

/-- The scan of the window, PGM.h 246-248 and TrieSpline.h 300-302, with the records compared. -/
def linScanC (data : List (Wrapped R)) (k : K) (stop : Nat) : Nat → Nat → Res (Nat × Nat)
  | 0, idx => .ok (idx, 0)
  | fuel+1, idx =>
    if idx < stop then do
      let w ← getR data idx
      if key w.record < k then do
        let x ← linScanC data k stop fuel (idx+1)
        .ok (x.1, x.2 + 1)
      else .ok (idx, 1)
    else .ok (idx, 0)

/-- The binary search, PGM.h 254-261, TrieSpline.h 308-315 and Alias.h 169-177, with the records compared. -/
def binSearchC (data : List (Wrapped R)) (k : K) : Nat → Nat → Nat → Res (Nat × Nat)
  | 0, lo, _ => .ok (lo, 0)
  | fuel+1, lo, hi =>
    if lo < hi then do
      let mid := (lo + hi) / 2
      let w ← getR data mid
      let x ← if k > key w.record then binSearchC data k fuel (mid+1) hi else binSearchC data k fuel lo mid
      .ok (x.1, x.2 + 1)
    else .ok (lo, 0)

/-- Window, scan or binary search; PGM.h 235-263, TrieSpline.h 289-316; with the records compared. -/
def windowSearchC (data : List (Wrapped R)) (k : K) (b : Bound) : Res (Option Nat × Nat) :=
  if b.lo ≥ data.length then .ok (none, 0)
  else if b.lo ≤ b.hi ∧ b.hi - b.lo < 256 then do
    let x ← linScanC data k b.hi (b.hi - b.lo) b.lo
    .ok (some x.1, x.2)
  else do
    let x ← binSearchC data k (b.hi - b.lo) b.lo b.hi
    .ok (some x.1, x.2)

/-- `get_lower_bound`, PGM.h 234-287, with the records compared. -/
def pgmLBC (ix : Learned K) (data : List (Wrapped R)) (k : K) : Res (Nat × Nat) :=
  if data.length = 0 then .error .ub
  else do
    let x ← windowSearchC data k (ix (keysOf data) k)
    match x.1 with
    | none => .ok (data.length, x.2)
    | some idx =>
      if idx = data.length then .ok (idx, x.2)
      else do
        let w ← getR data idx
        let back ← if key w.record > k ∧ idx > 0 then do
            let p ← getR data (idx-1)
            .ok (decide (key p.record ≤ k), 1)
          else .ok (false, 0)
        if back.1 then .ok (idx-1, x.2 + 1 + back.2)
        else if key w.record ≥ k then .ok (idx, x.2 + 1 + back.2) else .ok (data.length, x.2 + 1 + back.2)

/-- The linear search for small shards, TrieSpline.h 278-287, with the records compared. -/
def smallLBC (k : K) : List (Wrapped R) → Nat × Nat
  | [] => (0, 0)
  | w :: ws =>
    if key w.record ≥ k then (0, 1)
    else
      let r := smallLBC k ws
      (r.1 + 1, r.2 + 1)

/-- `get_lower_bound`, TrieSpline.h 277-327, with the records compared. -/
def tsLBC (ix : Learned K) (data : List (Wrapped R)) (k : K) : Res (Nat × Nat) :=
  if data.length < 50 then .ok (smallLBC k data)
  else if ¬ data.length > 50 then .error .ub
  else do
    let x ← windowSearchC data k (ix (keysOf data) k)
    match x.1 with
    | none => .ok (data.length, x.2)
    | some idx =>
      if idx = data.length then .ok (data.length, x.2)
      else do
        let w ← getR data idx
        let back ← if key w.record > k ∧ idx > 0 then do
            let p ← getR data (idx-1)
            .ok (decide (key p.record ≤ k), 1)
          else .ok (false, 0)
        if back.1 then .ok (idx-1, x.2 + 1 + back.2) else .ok (idx, x.2 + 1 + back.2)

/-- `get_lower_bound`, Alias.h 165-180, with the records compared. -/
def aliasLBC (data : List (Wrapped R)) (k : K) : Res (Nat × Nat) :=
  if data.length = 0 then .error .ub else binSearchC data k (data.length - 1) 0 (data.length - 1)

end DE
