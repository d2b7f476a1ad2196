import Verif.Proofs.Bits
import Verif.Model.RecordVariants
import Mathlib.Data.Nat.Basic

/-!
C39 (header flags) and C40 (record orders).
-/

namespace DE
variable {R : Type}

/-- C39, what holds: every header operation except `set_tombstone(false)` changes only its own field,
for all headers; a timestamp below `2^29` is OR-ed into the old one, so it reads back on a fresh or cleared header.
Missing: `set_tombstone(false)` (see `C39_false`). -/
theorem C39_partial (w : Wrapped R) :
    -- set_delete
    (w.setDelete.isDeleted = true ∧ w.setDelete.isTombstone = w.isTombstone ∧
      w.setDelete.isVisible = w.isVisible ∧ w.setDelete.getTimestamp = w.getTimestamp ∧
      w.setDelete.record = w.record) ∧
    -- set_visible
    (w.setVisible.isVisible = true ∧ w.setVisible.isTombstone = w.isTombstone ∧
      w.setVisible.isDeleted = w.isDeleted ∧ w.setVisible.getTimestamp = w.getTimestamp ∧
      w.setVisible.record = w.record) ∧
    -- set_tombstone()
    (w.setTombstone.isTombstone = true ∧ w.setTombstone.isDeleted = w.isDeleted ∧
      w.setTombstone.isVisible = w.isVisible ∧ w.setTombstone.getTimestamp = w.getTimestamp ∧
      w.setTombstone.record = w.record) ∧
    -- clear_timestamp
    (w.clearTimestamp.getTimestamp = 0 ∧ w.clearTimestamp.isTombstone = w.isTombstone ∧
      w.clearTimestamp.isDeleted = w.isDeleted ∧ w.clearTimestamp.isVisible = w.isVisible ∧
      w.clearTimestamp.record = w.record) ∧
    -- set_timestamp
    (∀ ts, (w.setTimestamp ts).isTombstone = w.isTombstone ∧ (w.setTimestamp ts).isDeleted = w.isDeleted ∧
      (w.setTimestamp ts).isVisible = w.isVisible ∧ (w.setTimestamp ts).record = w.record ∧
      (ts < 2 ^ 29 → w.getTimestamp = 0 → (w.setTimestamp ts).getTimestamp = ts) ∧
      (ts < 2 ^ 29 → (w.clearTimestamp.setTimestamp ts).getTimestamp = ts)) := by
  have hclr : w.clearTimestamp.getTimestamp = 0 := by
    show ((w.header &&& 7#32) >>> 3).toNat = 0
    have : (w.header &&& 7#32) >>> 3 = 0#32 := by
      ext i hi
      simp only [BitVec.getElem_ushiftRight, BitVec.getElem_zero]
      by_cases h3 : 3 + i < 32
      · rw [BitVec.getLsbD_eq_getElem h3, BitVec.getElem_and, seven_bit]
        simp
      · rw [BitVec.getLsbD_of_ge _ _ (by omega)]
    rw [this]; rfl
  simp only [Wrapped.isTombstone_bit, Wrapped.isDeleted_bit, Wrapped.isVisible_bit]
  refine ⟨⟨?_, ?_, ?_, ?_, rfl⟩, ⟨?_, ?_, ?_, ?_, rfl⟩, ⟨?_, ?_, ?_, ?_, rfl⟩, ⟨hclr, ?_, ?_, ?_, rfl⟩, ?_⟩
  · simp [Wrapped.setDelete]
  · simp [Wrapped.setDelete]
  · simp [Wrapped.setDelete]
  · refine Wrapped.getTimestamp_congr (fun i hi h3 => ?_)
    simp only [Wrapped.setDelete, BitVec.getElem_or, two_bit]
    simp; omega
  · simp [Wrapped.setVisible]
  · simp [Wrapped.setVisible]
  · simp [Wrapped.setVisible]
  · refine Wrapped.getTimestamp_congr (fun i hi h3 => ?_)
    simp only [Wrapped.setVisible, BitVec.getElem_or, four_bit]
    simp; omega
  · simp [Wrapped.setTombstone]
  · simp [Wrapped.setTombstone]
  · simp [Wrapped.setTombstone]
  · refine Wrapped.getTimestamp_congr (fun i hi h3 => ?_)
    simp only [Wrapped.setTombstone, if_true, BitVec.getElem_or, one_bit]
    simp; omega
  · simp [Wrapped.clearTimestamp]
  · simp [Wrapped.clearTimestamp]
  · simp [Wrapped.clearTimestamp]
  · intro ts
    refine ⟨?_, ?_, ?_, rfl, ?_, ?_⟩
    · simp [Wrapped.setTimestamp]
    · simp [Wrapped.setTimestamp]
    · simp [Wrapped.setTimestamp]
    · intro hts h0
      rw [Wrapped.setTimestamp_get w ts hts, h0, Nat.zero_or]
    · intro hts
      rw [Wrapped.setTimestamp_get _ ts hts, hclr, Nat.zero_or]

/-- The timestamp hypothesis can be met on a header with all three flags set. -/
example : (⟨7#32, ()⟩ : Wrapped Unit).getTimestamp = 0 ∧ (12345 : Nat) < 2 ^ 29 := by decide

/-- C39 is false in full: `set_tombstone(false)` also clears the deleted flag, the visible flag and the
timestamp; and `set_timestamp` over an existing timestamp does not read back. -/
theorem C39_false :
    (∃ w : Wrapped Unit, w.isTombstone = true ∧ w.isDeleted = true ∧ w.isVisible = true ∧ w.getTimestamp = 5 ∧
      (w.setTombstone false).isDeleted = false ∧ (w.setTombstone false).isVisible = false ∧
      (w.setTombstone false).getTimestamp = 0) ∧
    (∃ w : Wrapped Unit, (w.setTimestamp 2).getTimestamp ≠ 2) :=
  ⟨⟨⟨47#32, ()⟩, by decide⟩, ⟨⟨8#32, ()⟩, by decide⟩⟩

/-! ### C40 -/

/-- A Boolean comparison is a strict weak order whose "neither smaller" is the given equality: exactly one
of `a < b`, `a == b`, `b < a` holds, and `<` is transitive; `==` is an equivalence. -/
structure StrictWeak {α : Type} (lt eq : α → α → Prop) : Prop where
  irrefl : ∀ a, ¬ lt a a
  trans : ∀ a b c, lt a b → lt b c → lt a c
  tri : ∀ a b, lt a b ∨ eq a b ∨ lt b a
  eq_iff : ∀ a b, eq a b ↔ (¬ lt a b ∧ ¬ lt b a)
  eq_trans : ∀ a b c, eq a b → eq b c → eq a c

/-- A lexicographic refinement of a linear order by a strict weak order. -/
theorem StrictWeak.of_key {α κ : Type} [LinearOrder κ] (f : α → κ) :
    StrictWeak (fun a b : α => f a < f b) (fun a b => f a = f b) where
  irrefl a := lt_irrefl _
  trans a b c h g := lt_trans h g
  tri a b := lt_trichotomy _ _
  eq_iff a b := ⟨fun h => ⟨not_lt.mpr (le_of_eq h.symm), not_lt.mpr (le_of_eq h)⟩,
    fun h => le_antisymm (not_lt.mp h.2) (not_lt.mp h.1)⟩
  eq_trans a b c h g := h.trans g

/-- C40: `Record::operator<` is a strict total order with equality `operator==` (both fields equal). -/
theorem C40_record {K V : Type} [LinearOrder K] [LinearOrder V] :
    StrictWeak (Record.cppLt (K := K) (V := V)) (fun a b => a.key = b.key ∧ a.value = b.value) := by
  have h := StrictWeak.of_key (α := Record K V) (κ := Record K V) id
  have e : ∀ a b : Record K V, (a.key = b.key ∧ a.value = b.value) ↔ a = b := by
    intro a b; cases a; cases b; simp
  refine ⟨h.irrefl, h.trans, ?_, ?_, ?_⟩
  · intro a b; rw [e]; exact h.tri a b
  · intro a b; rw [e]; exact h.eq_iff a b
  · intro a b c; rw [e, e, e]; exact h.eq_trans a b c

/-- C40: `WeightedRecord` compares by (key, value); records differing only in weight are equal. -/
theorem C40_weighted {K V W : Type} [LinearOrder K] [LinearOrder V] :
    StrictWeak (fun a b : WeightedRecord K V W => a.cppLt b = true) (fun a b => a.cppEq b = true) ∧
    ∀ (k : K) (v : V) (w w' : W), (⟨k, v, w⟩ : WeightedRecord K V W).cppEq ⟨k, v, w'⟩ = true := by
  have h := StrictWeak.of_key (α := WeightedRecord K V W) (κ := Record K V) (fun r => ⟨r.key, r.value⟩)
  have e1 : ∀ a b : WeightedRecord K V W, (a.cppLt b = true) ↔ ((⟨a.key, a.value⟩ : Record K V) < ⟨b.key, b.value⟩) := by
    intro a b
    show (decide _ = true) ↔ Record.cppLt _ _
    rw [decide_eq_true_eq]; rfl
  have e2 : ∀ a b : WeightedRecord K V W, (a.cppEq b = true) ↔ ((⟨a.key, a.value⟩ : Record K V) = ⟨b.key, b.value⟩) := by
    intro a b
    simp [WeightedRecord.cppEq]
  refine ⟨⟨?_, ?_, ?_, ?_, ?_⟩, ?_⟩
  · intro a; rw [e1]; exact h.irrefl a
  · intro a b c; rw [e1, e1, e1]; exact h.trans a b c
  · intro a b; rw [e1, e1, e2]; exact h.tri a b
  · intro a b; rw [e1, e1, e2]; exact h.eq_iff a b
  · intro a b c; rw [e2, e2, e2]; exact h.eq_trans a b c
  · intros; simp [WeightedRecord.cppEq]

/-- C40: `Wrapped::operator<` is a strict total order on (record, header): sorting a buffer is determined.
Missing: its equality is not `Wrapped::operator==`, see `C40_wrapped_eq_false`. -/
theorem C40_wrapped_partial [LinearOrder R] :
    StrictWeak (Wrapped.lt (R := R)) (fun a b => a = b) ∧
    -- it refines the record order
    (∀ a b : Wrapped R, a.record < b.record → Wrapped.lt a b) ∧
    -- within one record an insert (even header) at an earlier slot precedes a later tombstone, and
    -- without timestamps the live entry precedes the tombstone
    (∀ (r : R) (h g : BitVec 32), Wrapped.lt ⟨h, r⟩ ⟨g, r⟩ ↔ h.toNat < g.toNat) := by
  have hlt : ∀ a b : Wrapped R, Wrapped.lt a b ↔
      (⟨a.record, a.header.toNat⟩ : Record R Nat) < ⟨b.record, b.header.toNat⟩ := fun a b => Iff.rfl
  have heq : ∀ a b : Wrapped R, a = b ↔ (⟨a.record, a.header.toNat⟩ : Record R Nat) = ⟨b.record, b.header.toNat⟩ := by
    intro a b
    cases a; cases b
    simp only [Wrapped.mk.injEq, Record.mk.injEq, BitVec.toNat_inj]
    exact And.comm
  have h := StrictWeak.of_key (α := Wrapped R) (κ := Record R Nat) (fun w => ⟨w.record, w.header.toNat⟩)
  refine ⟨⟨?_, ?_, ?_, ?_, ?_⟩, fun a b h => Or.inl h, ?_⟩
  · intro a; rw [hlt]; exact h.irrefl a
  · intro a b c; rw [hlt, hlt, hlt]; exact h.trans a b c
  · intro a b; rw [hlt, hlt, heq]; exact h.tri a b
  · intro a b; rw [hlt, hlt, heq]; exact h.eq_iff a b
  · intro a b c; exact Eq.trans
  · intro r h g
    constructor
    · rintro (h1 | ⟨-, h1⟩)
      · exact absurd h1 (lt_irrefl _)
      · exact h1
    · intro h1; exact Or.inr ⟨rfl, h1⟩

/-- The spec of C-string comparison: lexicographic on the bytes, a proper prefix is smaller. -/
def bytesLt : List Nat → List Nat → Prop
  | _, [] => False
  | [], _ :: _ => True
  | a :: as, b :: bs => a < b ∨ (a = b ∧ bytesLt as bs)

theorem strncmp_spec : ∀ (a b : List Nat) (n : Nat), (∀ x ∈ a, x ≠ 0) → (∀ x ∈ b, x ≠ 0) →
    min a.length b.length < n →
    (strncmp (a ++ [0]) (b ++ [0]) n < 0 ↔ bytesLt a b) ∧ (strncmp (a ++ [0]) (b ++ [0]) n = 0 ↔ a = b)
  | [], [], n+1, _, _, _ => by simp [strncmp, bytesLt]
  | [], b :: bs, n+1, _, hb, _ => by
    have : b ≠ 0 := hb b (by simp)
    have h0 : 0 < b := Nat.pos_of_ne_zero this
    simp [strncmp, bytesLt, h0]
  | a :: as, [], n+1, ha, _, _ => by
    have : a ≠ 0 := ha a (by simp)
    have h0 : 0 < a := Nat.pos_of_ne_zero this
    simp [strncmp, bytesLt, h0]
  | a :: as, b :: bs, n+1, ha, hb, hn => by
    have ih := strncmp_spec as bs n (fun x hx => ha x (by simp [hx])) (fun x hx => hb x (by simp [hx])) (by simpa using hn)
    have ha0 : a ≠ 0 := ha a (by simp)
    simp only [List.cons_append, strncmp]
    rcases lt_trichotomy a b with h | h | h
    · have : a ≠ b := ne_of_lt h
      simp [h, bytesLt, this]
    · subst h; simp [bytesLt, ha0, ih.1, ih.2]
    · have h1 : ¬ a < b := not_lt.mpr (le_of_lt h)
      have h2 : a ≠ b := (ne_of_lt h).symm
      simp [h, h1, bytesLt, h2]
  | a, b, 0, _, _, h => absurd h (by omega)

theorem bytesLt_strictWeak : StrictWeak bytesLt (fun a b => a = b) := by
  have irr : ∀ a, ¬ bytesLt a a := by
    intro a
    induction a with
    | nil => simp [bytesLt]
    | cons a as ih => simp [bytesLt, ih]
  have tr : ∀ a b c, bytesLt a b → bytesLt b c → bytesLt a c := by
    intro a
    induction a with
    | nil => intro b c h g; cases b <;> cases c <;> simp_all [bytesLt]
    | cons a as ih =>
      intro b c h g
      cases b with
      | nil => simp [bytesLt] at h
      | cons b bs =>
        cases c with
        | nil => simp [bytesLt] at g
        | cons c cs =>
          simp only [bytesLt] at h g ⊢
          rcases h with h | ⟨rfl, h⟩ <;> rcases g with g | ⟨rfl, g⟩
          · exact Or.inl (lt_trans h g)
          · exact Or.inl h
          · exact Or.inl g
          · exact Or.inr ⟨rfl, ih _ _ h g⟩
  have tri : ∀ a b, bytesLt a b ∨ a = b ∨ bytesLt b a := by
    intro a
    induction a with
    | nil => intro b; cases b <;> simp [bytesLt]
    | cons a as ih =>
      intro b
      cases b with
      | nil => simp [bytesLt]
      | cons b bs =>
        simp only [bytesLt, List.cons.injEq]
        rcases lt_trichotomy a b with h | h | h
        · exact Or.inl (Or.inl h)
        · subst h
          rcases ih bs with h | h | h
          · exact Or.inl (Or.inr ⟨rfl, h⟩)
          · exact Or.inr (Or.inl ⟨rfl, h⟩)
          · exact Or.inr (Or.inr (Or.inr ⟨rfl, h⟩))
        · exact Or.inr (Or.inr (Or.inl h))
  refine ⟨irr, tr, tri, ?_, fun a b c => Eq.trans⟩
  intro a b
  constructor
  · rintro rfl; exact ⟨irr a, irr a⟩
  · rintro ⟨h, g⟩
    rcases tri a b with x | x | x
    · exact absurd x h
    · exact x
    · exact absurd x g

/-- A string record as the library expects it: the memory holds the key's bytes and a terminator, `len` is
the key's length. -/
structure StrRecord.Holds {V : Type} (r : StrRecord V) (s : List Nat) : Prop where
  mem : r.mem = s ++ [0]
  len : r.len = s.length
  nz : ∀ x ∈ s, x ≠ 0

/-- C40: string records compare exactly like their NUL-terminated keys, which is a strict total order. -/
theorem C40_string {V : Type} {a b : StrRecord V} {s t : List Nat} (ha : a.Holds s) (hb : b.Holds t) :
    (a.cppLt b = true ↔ bytesLt s t) ∧ (a.cppEq b = true ↔ s = t) ∧ StrictWeak bytesLt (fun a b => a = b) := by
  have h := strncmp_spec s t (min s.length t.length + 1) ha.nz hb.nz (by omega)
  unfold StrRecord.cppLt StrRecord.cppEq
  rw [ha.mem, hb.mem, ha.len, hb.len, decide_eq_true_eq, decide_eq_true_eq]
  exact ⟨h.1, h.2, bytesLt_strictWeak⟩

example : (⟨[97, 98, 0], 7, 2⟩ : StrRecord Nat).Holds [97, 98] := ⟨rfl, rfl, by simp⟩

/-- C40: point records (`CosinePoint`, `EuclidPoint`) of one dimension are strictly totally ordered. -/
theorem C40_point {V : Type} [LinearOrder V] (D : Nat) :
    StrictWeak (fun a b : {l : List V // l.length = D} => pointLt a.1 b.1 = true)
      (fun a b => pointEq a.1 b.1 = true) := by
  have eqv : ∀ a b : List V, a.length = b.length → (pointEq a b = true ↔ a = b) := by
    intro a
    induction a with
    | nil => intro b h; cases b with
      | nil => simp [pointEq]
      | cons => simp at h
    | cons a as ih =>
      intro b h
      cases b with
      | nil => simp at h
      | cons b bs =>
        simp only [pointEq, List.cons.injEq]
        by_cases e : a = b
        · subst e; simpa using ih bs (by simpa using h)
        · simp [e]
  have irr : ∀ a : List V, ¬ pointLt a a = true := by
    intro a
    induction a with
    | nil => simp [pointLt]
    | cons a as ih => simpa [pointLt] using ih
  have lt_cons : ∀ (a b : V) (as bs : List V), pointLt (a :: as) (b :: bs) = true ↔
      a < b ∨ (a = b ∧ pointLt as bs = true) := by
    intro a b as bs
    simp only [pointLt]
    rcases lt_trichotomy a b with h | h | h
    · simp [h]
    · subst h; simp
    · simp [h, not_lt.mpr (le_of_lt h), (ne_of_lt h).symm]
  have tr : ∀ a b c : List V, pointLt a b = true → pointLt b c = true → pointLt a c = true := by
    intro a
    induction a with
    | nil => intro b c h g; simp [pointLt] at h
    | cons a as ih =>
      intro b c h g
      cases b with
      | nil => simp [pointLt] at h
      | cons b bs =>
        cases c with
        | nil => simp [pointLt] at g
        | cons c cs =>
          rw [lt_cons] at h g ⊢
          rcases h with h | ⟨rfl, h⟩ <;> rcases g with g | ⟨rfl, g⟩
          · exact Or.inl (lt_trans h g)
          · exact Or.inl h
          · exact Or.inl g
          · exact Or.inr ⟨rfl, ih _ _ h g⟩
  have tri : ∀ a b : List V, a.length = b.length → pointLt a b = true ∨ a = b ∨ pointLt b a = true := by
    intro a
    induction a with
    | nil => intro b h; cases b with
      | nil => simp
      | cons => simp at h
    | cons a as ih =>
      intro b h
      cases b with
      | nil => simp at h
      | cons b bs =>
        simp only [lt_cons, List.cons.injEq]
        rcases lt_trichotomy a b with g | g | g
        · exact Or.inl (Or.inl g)
        · subst g
          rcases ih bs (by simpa using h) with h | h | h
          · exact Or.inl (Or.inr ⟨rfl, h⟩)
          · exact Or.inr (Or.inl ⟨rfl, h⟩)
          · exact Or.inr (Or.inr (Or.inr ⟨rfl, h⟩))
        · exact Or.inr (Or.inr (Or.inl g))
  have hl : ∀ a b : {l : List V // l.length = D}, a.1.length = b.1.length := fun a b => a.2.trans b.2.symm
  refine ⟨fun a => irr _, fun a b c => tr _ _ _, ?_, ?_, ?_⟩
  · intro a b; rw [eqv _ _ (hl a b)]; exact tri _ _ (hl a b)
  · intro a b
    rw [eqv _ _ (hl a b)]
    constructor
    · intro h; rw [h]; exact ⟨irr _, irr _⟩
    · rintro ⟨h, g⟩
      rcases tri _ _ (hl a b) with x | x | x
      · exact absurd x h
      · exact x
      · exact absurd x g
  · intro a b c
    rw [eqv _ _ (hl a b), eqv _ _ (hl b c), eqv _ _ (hl a c)]
    exact Eq.trans

/-- C40, a defect: `Wrapped::operator==` is not the equality of `Wrapped::operator<`: two wrapped records can
be `==` and `<` at once (they differ in the header). -/
theorem C40_wrapped_eq_false : ¬ StrictWeak (Wrapped.lt (R := Nat)) (fun a b => a.eqv b = true) := by
  intro h
  have := (h.eq_iff ⟨0#32, 1⟩ ⟨1#32, 1⟩).mp (by decide)
  exact absurd this.1 (by decide)

end DE
