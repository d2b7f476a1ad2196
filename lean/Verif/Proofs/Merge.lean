import Verif.Proofs.Reduces

namespace DE
variable {R : Type}

/-! ### Cursors -/

theorem heads_mem {w : Wrapped R} {j : Nat} : ∀ {i : Nat} {cs : List (List (Wrapped R))},
    (w, j) ∈ heads i cs → ∃ tl, i ≤ j ∧ cs[j - i]? = some (w :: tl)
  | _, [], h => by simp [heads] at h
  | i, [] :: cs, h => by
    obtain ⟨tl, hle, hc⟩ := heads_mem (i := i+1) (cs := cs) (by simpa [heads] using h)
    refine ⟨tl, by omega, ?_⟩
    rw [show j - i = (j - (i+1)) + 1 by omega]; simpa using hc
  | i, (x :: xs) :: cs, h => by
    simp only [heads, List.mem_cons, Prod.mk.injEq] at h
    rcases h with ⟨rfl, rfl⟩ | h
    · exact ⟨xs, le_refl _, by simp⟩
    · obtain ⟨tl, hle, hc⟩ := heads_mem (i := i+1) (cs := cs) h
      refine ⟨tl, by omega, ?_⟩
      rw [show j - i = (j - (i+1)) + 1 by omega]; simpa using hc

theorem heads_ge {x : Wrapped R × Nat} {i : Nat} {cs : List (List (Wrapped R))}
    (h : x ∈ heads i cs) : i ≤ x.2 := by
  obtain ⟨_, h, _⟩ := heads_mem (w := x.1) (j := x.2) h; exact h

theorem mem_heads {w : Wrapped R} {tl : List (Wrapped R)} : ∀ {i j : Nat} {cs : List (List (Wrapped R))},
    cs[j]? = some (w :: tl) → (w, i + j) ∈ heads i cs
  | i, j, [], h => by simp at h
  | i, 0, [] :: cs, h => by simp at h
  | i, j+1, [] :: cs, h => by
    have := mem_heads (i := i+1) (j := j) (cs := cs) (by simpa using h)
    rw [show i + (j+1) = i + 1 + j by omega]; simpa [heads] using this
  | i, 0, (x :: xs) :: cs, h => by
    simp at h; simp [heads, h.1]
  | i, j+1, (x :: xs) :: cs, h => by
    have := mem_heads (i := i+1) (j := j) (cs := cs) (by simpa using h)
    rw [show i + (j+1) = i + 1 + j by omega]; simp [heads, this]

theorem heads_pairwise : ∀ (i : Nat) (cs : List (List (Wrapped R))),
    (heads i cs).Pairwise (fun a b => a.2 ≠ b.2)
  | _, [] => by simp [heads]
  | i, [] :: cs => by simpa [heads] using heads_pairwise (i+1) cs
  | i, (x :: xs) :: cs => by
    simp only [heads, List.pairwise_cons]
    refine ⟨?_, heads_pairwise (i+1) cs⟩
    intro a ha
    have := heads_ge ha
    simp; omega

theorem heads_nil {i : Nat} {cs : List (List (Wrapped R))} (h : heads i cs = []) : cs.flatten = [] := by
  induction cs generalizing i with
  | nil => rfl
  | cons c cs ih =>
    cases c with
    | nil => simpa [heads] using ih (i := i+1) (by simpa [heads] using h)
    | cons x xs => simp [heads] at h

theorem modify_flatten_perm {w : Wrapped R} {tl : List (Wrapped R)} : ∀ {j : Nat} {cs : List (List (Wrapped R))},
    cs[j]? = some (w :: tl) → cs.flatten.Perm (w :: (cs.modify j List.tail).flatten)
  | _, [], h => by simp at h
  | 0, c :: cs, h => by
    simp at h; subst h; simp
  | j+1, c :: cs, h => by
    have := modify_flatten_perm (j := j) (cs := cs) (by simpa using h)
    simp only [List.flatten_cons, List.modify_succ_cons]
    exact ((List.Perm.append_left c this).trans List.perm_middle)

theorem advance_perm {w : Wrapped R} {j : Nat} {cs : List (List (Wrapped R))}
    (h : (w, j) ∈ heads 0 cs) : cs.flatten.Perm (w :: (advance cs j).flatten) := by
  obtain ⟨tl, _, hc⟩ := heads_mem h
  exact modify_flatten_perm (by simpa using hc)

theorem advance_head_other {w : Wrapped R} {i j : Nat} {cs : List (List (Wrapped R))}
    (hij : i ≠ j) (h : (w, j) ∈ heads 0 cs) : (w, j) ∈ heads 0 (advance cs i) := by
  obtain ⟨tl, _, hc⟩ := heads_mem h
  have : (advance cs i)[j]? = some (w :: tl) := by
    unfold advance
    rw [List.getElem?_modify]
    simp only [Nat.sub_zero] at hc
    simp [hij, hc]
  simpa using mem_heads (i := 0) this

/-- Every cursor of the advanced vector is a suffix of an old one. -/
theorem mem_advance {c : List (Wrapped R)} {j : Nat} {cs : List (List (Wrapped R))}
    (h : c ∈ advance cs j) : ∃ c' ∈ cs, c = c' ∨ c = c'.tail := by
  unfold advance at h
  obtain ⟨n, hn⟩ := List.mem_iff_getElem?.mp h
  rw [List.getElem?_modify] at hn
  cases hc : cs[n]? with
  | none => simp [hc] at hn
  | some c' =>
    refine ⟨c', List.mem_of_getElem? hc, ?_⟩
    rw [hc] at hn
    by_cases hj : j = n
    · right; simpa [hj, eq_comm] using hn
    · left; simpa [hj, eq_comm] using hn

/-! ### The queue -/

theorem arrange_mem (pq : PQ R) {t : Nat} {l : List (Wrapped R × Nat)} {x : Wrapped R × Nat} :
    x ∈ pq.arrange t l ↔ x ∈ l := (pq.perm t l).mem_iff

theorem arrange_nil (pq : PQ R) {t : Nat} {l : List (Wrapped R × Nat)} (h : pq.arrange t l = []) : l = [] := by
  have := pq.perm t l; rw [h] at this; exact this.nil_eq.symm

/-! ### The merge loop -/
variable [DecidableEq R]

/-- Case analysis of one iteration. -/
theorem mergeLoop_cases (pq : PQ R) (keep : Wrapped R → Bool) (n : Nat) (cs : List (List (Wrapped R))) :
    (cs.flatten = [] ∧ mergeLoop pq keep (n+1) cs = []) ∨
    (∃ now i, (now, i) ∈ heads 0 cs ∧ (∃ rest, pq.arrange n (heads 0 cs) = (now, i) :: rest) ∧
      mergeLoop pq keep (n+1) cs =
        (if keep now then [now] else []) ++ mergeLoop pq keep n (advance cs i) ∧
      (∀ next j rest, pq.arrange n (heads 0 cs) = (now, i) :: (next, j) :: rest → cancels now next = false)) ∨
    (∃ now i next j, (now, i) ∈ heads 0 cs ∧ (next, j) ∈ heads 0 cs ∧ i ≠ j ∧ cancels now next = true ∧
      (∃ rest, pq.arrange n (heads 0 cs) = (now, i) :: (next, j) :: rest) ∧
      mergeLoop pq keep (n+1) cs = mergeLoop pq keep n (advance (advance cs i) j)) := by
  rw [mergeLoop]
  split
  · next h => left; exact ⟨heads_nil (arrange_nil pq h), rfl⟩
  · next now h =>
    right; left
    refine ⟨now.1, now.2, ?_, ⟨[], h⟩, rfl, ?_⟩
    · exact (arrange_mem pq (t := n)).mp (by rw [h]; simp)
    · intro next j rest h'; rw [h] at h'; simp at h'
  · next now next rest h =>
    have hn : now ∈ heads 0 cs := (arrange_mem pq (t := n)).mp (by rw [h]; simp)
    have hx : next ∈ heads 0 cs := (arrange_mem pq (t := n)).mp (by rw [h]; simp)
    split
    · next hc =>
      right; right
      refine ⟨now.1, now.2, next.1, next.2, hn, hx, ?_, hc, ⟨rest, h⟩, rfl⟩
      have hp := ((pq.perm n (heads 0 cs)).pairwise_iff
        (R := fun a b : Wrapped R × Nat => a.2 ≠ b.2) (fun hab => hab.symm)).mpr (heads_pairwise 0 cs)
      rw [h] at hp
      exact (List.pairwise_cons.mp hp).1 next (by simp)
    · next hc =>
      right; left
      refine ⟨now.1, now.2, hn, ⟨_, h⟩, rfl, ?_⟩
      intro next' j rest' h'
      rw [h] at h'
      simp only [List.cons.injEq] at h'
      have e : next.1 = next' := by rw [h'.2.1]
      rw [← e]; simpa using hc

theorem cancels_spec {now next : Wrapped R} (h : cancels now next = true) :
    now.isTombstone = false ∧ now.record = next.record ∧ next.isTombstone = true := by
  simp [cancels] at h; exact ⟨h.1.1, h.1.2, h.2⟩

/-- The fundamental law of the merge loop, for every queue behaviour. -/
theorem mergeLoop_reduces (pq : PQ R) (keep : Wrapped R → Bool) (drop : Entry R → Prop)
    (hk : ∀ w : Wrapped R, keep w = false → drop w.entry) :
    ∀ n cs, cs.flatten.length ≤ n →
      Reduces drop (ents cs.flatten) (ents (mergeLoop pq keep n cs))
  | 0, cs, h => by
    have : cs.flatten = [] := List.eq_nil_of_length_eq_zero (by omega)
    rw [this]; exact Reduces.refl _
  | n+1, cs, h => by
    rcases mergeLoop_cases pq keep n cs with ⟨h1, h2⟩ | ⟨now, i, hm, -, h2, -⟩ |
      ⟨now, i, next, j, hm, hx, hij, hc, -, h2⟩
    · rw [h1, h2]; exact Reduces.refl _
    · have hp := advance_perm hm
      have hl : (advance cs i).flatten.length ≤ n := by
        have := hp.length_eq; rw [List.length_cons] at this; omega
      have ih := mergeLoop_reduces pq keep drop hk n (advance cs i) hl
      rw [h2, ents_perm hp, ents_cons, ents_append]
      by_cases hkn : keep now = true
      · simp only [hkn, if_true, ents_cons, ents_nil, add_zero]
        exact (Reduces.refl _).add ih
      · rw [if_neg hkn, ents_nil, zero_add]
        exact (Reduces.dropOne (hk now (by simpa using hkn))).trans ih
    · have hp := advance_perm hm
      have hp2 := advance_perm (advance_head_other hij hx)
      have hl : (advance (advance cs i) j).flatten.length ≤ n := by
        have := hp.length_eq; have := hp2.length_eq; rw [List.length_cons] at *; omega
      have ih := mergeLoop_reduces pq keep drop hk n _ hl
      rw [h2, ents_perm hp, ents_cons, ents_perm hp2, ents_cons]
      obtain ⟨c1, c2, c3⟩ := cancels_spec hc
      exact (Reduces.cancel (x := now.entry) (y := next.entry) c2 c1 c3).trans ih

theorem mergeAll_reduces (pq : PQ R) (keep : Wrapped R → Bool) (drop : Entry R → Prop)
    (hk : ∀ w : Wrapped R, keep w = false → drop w.entry) (cs : List (List (Wrapped R))) :
    Reduces drop (ents cs.flatten) (ents (mergeAll pq keep cs)) :=
  mergeLoop_reduces pq keep drop hk _ cs (le_refl _)

theorem mergeLoop_keep (pq : PQ R) (keep : Wrapped R → Bool) :
    ∀ n cs, ∀ w ∈ mergeLoop pq keep n cs, keep w = true
  | 0, cs, w, h => by simp [mergeLoop] at h
  | n+1, cs, w, h => by
    rcases mergeLoop_cases pq keep n cs with ⟨h1, h2⟩ | ⟨now, i, hm, -, h2, -⟩ |
      ⟨now, i, next, j, hm, hx, hij, hc, -, h2⟩
    · rw [h2] at h; simp at h
    · rw [h2, List.mem_append] at h
      rcases h with h | h
      · by_cases hkn : keep now = true
        · simp [hkn] at h; rw [h]; exact hkn
        · simp [hkn] at h
      · exact mergeLoop_keep pq keep n _ w h
    · rw [h2] at h; exact mergeLoop_keep pq keep n _ w h

/-- Without tags and tombstones the merge loop is a permutation. -/
theorem mergeLoop_perm (pq : PQ R) (keep : Wrapped R → Bool) : ∀ n cs, cs.flatten.length ≤ n →
    (∀ c ∈ cs, ∀ w ∈ c, keep w = true ∧ w.isTombstone = false) → (mergeLoop pq keep n cs).Perm cs.flatten
  | 0, cs, h, _ => by
    have : cs.flatten = [] := List.eq_nil_of_length_eq_zero (by omega)
    rw [this]; simp [mergeLoop]
  | n+1, cs, h, hk => by
    have hfl : ∀ w ∈ cs.flatten, keep w = true ∧ w.isTombstone = false := by
      intro w hw
      obtain ⟨c, hc, hwc⟩ := List.mem_flatten.mp hw
      exact hk c hc w hwc
    have hin : ∀ (w : Wrapped R) (i : Nat), (w, i) ∈ heads 0 cs → w ∈ cs.flatten := by
      intro w i hm
      exact (advance_perm hm).mem_iff.mpr (by simp)
    rcases mergeLoop_cases pq keep n cs with ⟨h1, h2⟩ | ⟨now, i, hm, -, h2, -⟩ |
      ⟨now, i, next, j, hm, hx, hij, hc, -, h2⟩
    · rw [h2, h1]
    · have hp := advance_perm hm
      rw [h2, (hfl now (hin now i hm)).1]
      simp only [if_true, List.singleton_append]
      refine List.Perm.trans ?_ hp.symm
      refine List.Perm.cons now (mergeLoop_perm pq keep n _ ?_ ?_)
      · have := hp.length_eq; rw [List.length_cons] at this; omega
      · intro c hc w hw
        obtain ⟨c', hc', rfl | rfl⟩ := mem_advance hc
        · exact hk _ hc' w hw
        · exact hk _ hc' w (List.mem_of_mem_tail hw)
    · have := (cancels_spec hc).2.2
      rw [(hfl next (hin next j hx)).2] at this
      cases this

theorem mergeLoop_mem (pq : PQ R) (keep : Wrapped R → Bool) :
    ∀ n cs, ∀ w ∈ mergeLoop pq keep n cs, w ∈ cs.flatten
  | 0, cs, w, h => by simp [mergeLoop] at h
  | n+1, cs, w, h => by
    rcases mergeLoop_cases pq keep n cs with ⟨h1, h2⟩ | ⟨now, i, hm, -, h2, -⟩ |
      ⟨now, i, next, j, hm, hx, hij, hc, -, h2⟩
    · rw [h2] at h; simp at h
    · have hp := advance_perm hm
      rw [h2, List.mem_append] at h
      rw [hp.mem_iff]
      rcases h with h | h
      · by_cases hkn : keep now = true
        · simp [hkn] at h; simp [h]
        · simp [hkn] at h
      · exact List.mem_cons_of_mem _ (mergeLoop_mem pq keep n _ w h)
    · have hp := advance_perm hm
      have hp2 := advance_perm (advance_head_other hij hx)
      rw [h2] at h
      rw [hp.mem_iff, List.mem_cons, hp2.mem_iff]
      exact Or.inr (List.mem_cons_of_mem _ (mergeLoop_mem pq keep n _ w h))

end DE

namespace DE
variable {R : Type} [LinearOrder R]

/-- An array is sorted by record. -/
def RecSorted (l : List (Wrapped R)) : Prop := l.Pairwise (fun a b => a.record ≤ b.record)

theorem RecSorted.tail {l : List (Wrapped R)} (h : RecSorted l) : RecSorted l.tail :=
  List.Pairwise.sublist (List.tail_sublist l) h

theorem advance_sorted {cs : List (List (Wrapped R))} {j : Nat} (h : ∀ c ∈ cs, RecSorted c) :
    ∀ c ∈ advance cs j, RecSorted c := by
  intro c hc
  obtain ⟨c', hc', rfl | rfl⟩ := mem_advance hc
  · exact h _ hc'
  · exact (h _ hc').tail

/-- In a sorted-cursor state the record at the front of the queue is a minimum of everything left. -/
theorem front_min (pq : PQ R) (hpq : pq.ByRec) {n : Nat} {cs : List (List (Wrapped R))}
    (hs : ∀ c ∈ cs, RecSorted c) {now : Wrapped R} {i : Nat} {rest : List (Wrapped R × Nat)}
    (h : pq.arrange n (heads 0 cs) = (now, i) :: rest) : ∀ x ∈ cs.flatten, now.record ≤ x.record := by
  intro x hx
  obtain ⟨c, hc, hxc⟩ := List.mem_flatten.mp hx
  obtain ⟨j, hj⟩ := List.mem_iff_getElem?.mp hc
  cases c with
  | nil => simp at hxc
  | cons y ys =>
    have hy : (y, j) ∈ heads 0 cs := by simpa using mem_heads (i := 0) hj
    have hyx : y.record ≤ x.record := by
      rcases List.mem_cons.mp hxc with rfl | hxy
      · exact le_refl _
      · exact (List.pairwise_cons.mp (hs _ hc)).1 x hxy
    have hs' := hpq n (heads 0 cs)
    rw [h] at hs'
    have hy' : (y, j) ∈ (now, i) :: rest := by rw [← h]; exact (arrange_mem pq).mpr hy
    rcases List.mem_cons.mp hy' with e | e
    · cases e; exact hyx
    · exact le_trans ((List.pairwise_cons.mp hs').1 _ e) hyx

theorem mergeLoop_sorted (pq : PQ R) (hpq : pq.ByRec) (keep : Wrapped R → Bool) :
    ∀ n cs, (∀ c ∈ cs, RecSorted c) → RecSorted (mergeLoop pq keep n cs)
  | 0, cs, _ => by simp [mergeLoop, RecSorted]
  | n+1, cs, hs => by
    rcases mergeLoop_cases pq keep n cs with ⟨h1, h2⟩ | ⟨now, i, hm, ⟨rest, hr⟩, h2, -⟩ |
      ⟨now, i, next, j, hm, hx, hij, hc, -, h2⟩
    · rw [h2]; simp [RecSorted]
    · have ih := mergeLoop_sorted pq hpq keep n _ (advance_sorted (j := i) hs)
      rw [h2]
      by_cases hkn : keep now = true
      · simp only [hkn, if_true, List.singleton_append]
        refine List.pairwise_cons.mpr ⟨?_, ih⟩
        intro x hx
        have hx' := mergeLoop_mem pq keep n _ x hx
        exact front_min pq hpq hs hr x
          ((advance_perm hm).mem_iff.mpr (List.mem_cons_of_mem _ hx'))
      · simpa [hkn] using ih
    · rw [h2]
      exact mergeLoop_sorted pq hpq keep n _ (advance_sorted (advance_sorted hs))

/-! ### Sorting and scanning a buffer view -/

theorem insertW_perm (w : Wrapped R) : ∀ l, (insertW w l).Perm (w :: l)
  | [] => by simp [insertW]
  | x :: xs => by
    rw [insertW]
    split
    · exact ((insertW_perm w xs).cons x).trans (List.Perm.swap w x xs)
    · exact List.Perm.refl _

theorem sortW_perm : ∀ l : List (Wrapped R), (sortW l).Perm l
  | [] => List.Perm.refl _
  | w :: ws => (insertW_perm w _).trans ((sortW_perm ws).cons w)

theorem lt_asymmW {a b : Wrapped R} (h : Wrapped.lt a b) : ¬ Wrapped.lt b a := by
  rintro (g | ⟨g, g'⟩) <;> rcases h with h | ⟨h, h'⟩
  · exact lt_asymm h g
  · exact absurd g (by rw [h]; exact lt_irrefl _)
  · exact absurd h (by rw [g]; exact lt_irrefl _)
  · exact absurd (BitVec.lt_def.mp h') (by have := BitVec.lt_def.mp g'; omega)

/-- negation of `<` -/
def leW (a b : Wrapped R) : Prop := ¬ Wrapped.lt b a

theorem leW_iff {a b : Wrapped R} :
    leW a b ↔ a.record < b.record ∨ (a.record = b.record ∧ a.header.toNat ≤ b.header.toNat) := by
  unfold leW Wrapped.lt
  rw [BitVec.lt_def]
  constructor
  · intro h
    rcases lt_trichotomy a.record b.record with g | g | g
    · exact Or.inl g
    · right; refine ⟨g, ?_⟩
      by_contra hc
      exact h (Or.inr ⟨g.symm, by omega⟩)
    · exact absurd (Or.inl g) h
  · rintro (h | ⟨h, h'⟩) (g | ⟨g, g'⟩)
    · exact lt_asymm h g
    · rw [g] at h; exact lt_irrefl _ h
    · rw [h] at g; exact lt_irrefl _ g
    · omega

theorem leW_trans {a b c : Wrapped R} (h : leW a b) (g : leW b c) : leW a c := by
  rw [leW_iff] at *
  rcases h with h | ⟨h, h'⟩ <;> rcases g with g | ⟨g, g'⟩
  · exact Or.inl (lt_trans h g)
  · exact Or.inl (g ▸ h)
  · exact Or.inl (h ▸ g)
  · exact Or.inr ⟨h.trans g, le_trans h' g'⟩

theorem insertW_sorted (w : Wrapped R) : ∀ l, l.Pairwise leW → (insertW w l).Pairwise leW
  | [], _ => by simp [insertW]
  | x :: xs, h => by
    rw [insertW]
    have hx := List.pairwise_cons.mp h
    split
    · next hlt =>
      refine List.pairwise_cons.mpr ⟨?_, insertW_sorted w xs hx.2⟩
      intro y hy
      rcases List.mem_cons.mp ((insertW_perm w xs).mem_iff.mp hy) with rfl | hy
      · exact lt_asymmW hlt
      · exact hx.1 y hy
    · next hlt =>
      refine List.pairwise_cons.mpr ⟨?_, h⟩
      intro y hy
      rcases List.mem_cons.mp hy with rfl | hy
      · exact hlt
      · exact leW_trans hlt (hx.1 y hy)

theorem sortW_sorted : ∀ l : List (Wrapped R), (sortW l).Pairwise leW
  | [] => by simp [sortW]
  | w :: ws => insertW_sorted w _ (sortW_sorted ws)

theorem leW_rec {a b : Wrapped R} (h : leW a b) : a.record ≤ b.record := by
  rcases leW_iff.mp h with h | ⟨h, -⟩
  · exact le_of_lt h
  · exact le_of_eq h

end DE

namespace DE
variable {R : Type}

theorem mask_entry (w : Wrapped R) : w.mask.entry = w.entry := by
  unfold Wrapped.mask Wrapped.entry Wrapped.isTombstone Wrapped.isDeleted
  have h1 : w.header &&& 3#32 &&& 1#32 = w.header &&& 1#32 := by
    rw [BitVec.and_assoc]; rfl
  have h2 : w.header &&& 3#32 &&& 2#32 = w.header &&& 2#32 := by
    rw [BitVec.and_assoc]; rfl
  simp [h1, h2]

/-- The scan only drops tagged entries and cancels pairs. -/
theorem scanSorted_reduces [DecidableEq R] : ∀ l : List (Wrapped R),
    Reduces (fun e => e.del = true) (ents l) (ents (scanSorted l))
  | [] => Reduces.refl _
  | [b] => by
    rw [scanSorted]
    split
    · next h => exact Reduces.dropOne (a := 0) h
    · exact Reduces.of_eq (by simp [ents, mask_entry])
  | b :: c :: rest => by
    rw [scanSorted]
    split
    · next h =>
      obtain ⟨c1, c2, c3⟩ := cancels_spec h
      rw [ents_cons, ents_cons]
      exact (Reduces.cancel (x := b.entry) (y := c.entry) c2 c1 c3).trans (scanSorted_reduces rest)
    · split
      · next h =>
        rw [ents_cons]
        exact (Reduces.dropOne (x := b.entry) h).trans (scanSorted_reduces (c :: rest))
      · rw [ents_cons b, ents_cons b.mask, mask_entry]
        exact (Reduces.refl _).add (scanSorted_reduces (c :: rest))

theorem scanSorted_mem [DecidableEq R] : ∀ (l : List (Wrapped R)) (w : Wrapped R),
    w ∈ scanSorted l → ∃ x ∈ l, w = x.mask ∧ x.isDeleted = false
  | [], w, h => by simp [scanSorted] at h
  | [b], w, h => by
    rw [scanSorted] at h
    split at h
    · simp at h
    · next hd => simp at h; exact ⟨b, by simp, h, by simpa using hd⟩
  | b :: c :: rest, w, h => by
    rw [scanSorted] at h
    split at h
    · obtain ⟨x, hx, e⟩ := scanSorted_mem rest w h
      exact ⟨x, by simp [hx], e⟩
    · split at h
      · obtain ⟨x, hx, e⟩ := scanSorted_mem (c :: rest) w h
        exact ⟨x, by simp at hx ⊢; tauto, e⟩
      · next hd =>
        rcases List.mem_cons.mp h with rfl | h
        · exact ⟨b, by simp, rfl, by simpa using hd⟩
        · obtain ⟨x, hx, e⟩ := scanSorted_mem (c :: rest) w h
          exact ⟨x, by simp at hx ⊢; tauto, e⟩

theorem scanSorted_sorted [LinearOrder R] : ∀ l : List (Wrapped R), RecSorted l → RecSorted (scanSorted l)
  | [], _ => by simp [scanSorted, RecSorted]
  | [b], _ => by
    rw [scanSorted]; split <;> simp [RecSorted]
  | b :: c :: rest, h => by
    have hb := List.pairwise_cons.mp h
    have hc := List.pairwise_cons.mp hb.2
    rw [scanSorted]
    split
    · exact scanSorted_sorted rest hc.2
    · split
      · exact scanSorted_sorted (c :: rest) hb.2
      · refine List.pairwise_cons.mpr ⟨?_, scanSorted_sorted (c :: rest) hb.2⟩
        intro y hy
        obtain ⟨x, hx, rfl, -⟩ := scanSorted_mem _ _ hy
        exact hb.1 x hx

end DE
