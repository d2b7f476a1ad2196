import Verif.Proofs.Cycle

/-!
Histories of a bare buffer.
-/

namespace DE
variable {R : Type}

theorem contents_adv {b b' : Buffer R} {n : Nat} (hb : b.WF) (h : b.advanceHead (b.head + n) = .ok b') :
    b'.WF ∧ b'.contents = b.contents.drop n ∧ b'.hwm = b.hwm ∧ b'.cap = b.cap := by
  unfold Buffer.advanceHead at h
  simp only [bind_ok, assertC_ok, decide_eq_true_eq] at h
  obtain ⟨-, h1, -, h2, h3⟩ := h
  cases h3
  have := hb.ht
  have := hb.cnt
  refine (fun P => ⟨⟨hb.cap, hb.hwm, hb.lwm, h2, by simp only; omega,
    fun w hw => hb.vis w (List.mem_of_mem_drop (P ▸ hw))⟩, P, rfl, rfl⟩) ?_
  unfold Buffer.contents
  simp only
  apply List.ext_getElem
  · simp; omega
  · intro i h1 h2
    simp only [List.getElem_map, List.getElem_range, List.getElem_drop]
    congr 2
    omega

theorem runBuf_spec : ∀ (ops : List (BufOp R)) {b b' : Buffer R} {q : List (R × Bool)}, b.WF →
    b.contents.map (fun w => (w.record, w.isTombstone)) = q → runBuf b ops = .ok b' →
    b'.WF ∧ b'.contents.map (fun w => (w.record, w.isTombstone)) = queueSpec b.hwm q ops
  | [], b, b', q, hb, hq, h => by cases h; exact ⟨hb, hq⟩
  | .app r ts :: os, b, b', q, hb, hq, h => by
    have hlen : q.length = b.tail - b.head := by rw [← hq]; simp [Buffer.contents_length]
    rw [queueSpec]
    rw [runBuf] at h
    by_cases hf : b.hwm ≤ b.tail - b.head
    · rw [Buffer.append_full hf] at h
      rw [if_neg (by omega)]
      exact runBuf_spec os hb hq h
    · obtain ⟨-, h2, h3⟩ := Buffer.append_ok hb (r := r) (ts := ts) (by omega)
      rw [if_pos (by omega)]
      have hh : (b.append r ts).1.hwm = b.hwm := by
        unfold Buffer.append; rw [if_neg (by omega)]
      rw [← hh]
      refine runBuf_spec os h2 ?_ h
      rw [h3, List.map_append, hq]
      have he := entryAt_entry r ts (b.tail % b.cap)
      unfold Wrapped.entry at he
      simp only [Entry.mk.injEq] at he
      simp [he.1, he.2.1]
  | .adv n :: os, b, b', q, hb, hq, h => by
    rw [queueSpec]
    rw [runBuf, bind_ok] at h
    obtain ⟨b1, h1, h2⟩ := h
    obtain ⟨g1, g2, g3, -⟩ := contents_adv hb h1
    rw [← g3]
    exact runBuf_spec os g1 (by rw [g2, List.map_drop, hq]) h2

/-- Every entry of the buffer carries its slot number as timestamp. -/
def SlotTs (b : Buffer R) : Prop := ∀ i < b.tail - b.head, (b.data ((b.head + i) % b.cap)).getTimestamp = (b.head + i) % b.cap

theorem runBuf_ts : ∀ (ops : List (BufOp R)) {b b' : Buffer R}, b.WF → b.cap ≤ 2 ^ 29 → SlotTs b → runBuf b ops = .ok b' →
    SlotTs b' ∧ b'.cap = b.cap
  | [], b, b', _, _, ht, h => by cases h; exact ⟨ht, rfl⟩
  | .app r ts :: os, b, b', hb, hc, ht, h => by
    rw [runBuf] at h
    by_cases hf : b.hwm ≤ b.tail - b.head
    · rw [Buffer.append_full hf] at h
      exact runBuf_ts os hb hc ht h
    · obtain ⟨-, h2, -⟩ := Buffer.append_ok hb (r := r) (ts := ts) (by omega)
      have hcap : (b.append r ts).1.cap = b.cap := by unfold Buffer.append; rw [if_neg (by omega)]
      have := runBuf_ts os h2 (by rw [hcap]; exact hc) ?_ h
      · exact ⟨this.1, this.2.trans hcap⟩
      · have e : (b.append r ts).1 = { b with tail := b.tail + 1
                                              data := Buffer.write b.data (b.tail % b.cap) (Buffer.entryAt r ts (b.tail % b.cap))
                                              tscnt := if ts then b.tscnt + 1 else b.tscnt } := by
          unfold Buffer.append; rw [if_neg (by omega)]
        rw [e]
        intro i hi
        simp only at hi ⊢
        have hlt : b.tail % b.cap < b.cap := Nat.mod_lt _ hb.cap_pos
        unfold Buffer.write
        split
        · next he => rw [entryAt_ts _ _ (by omega), he]
        · next he =>
          refine ht i ?_
          have := hb.ht
          rcases Nat.lt_or_ge i (b.tail - b.head) with h' | h'
          · exact h'
          · exact absurd (congrArg (· % b.cap) (show b.head + i = b.tail by omega)) he
  | .adv n :: os, b, b', hb, hc, ht, h => by
    rw [runBuf, bind_ok] at h
    obtain ⟨b1, h1, h2⟩ := h
    obtain ⟨g1, g2, g3, g4⟩ := contents_adv hb h1
    have := runBuf_ts os g1 (by rw [g4]; exact hc) ?_ h2
    · exact ⟨this.1, this.2.trans g4⟩
    · unfold Buffer.advanceHead at h1
      simp only [bind_ok, assertC_ok, decide_eq_true_eq] at h1
      obtain ⟨-, h1, -, h2, h3⟩ := h1
      cases h3
      intro i hi
      simp only at hi ⊢
      rw [Nat.add_assoc]
      exact ht (n + i) (by omega)

/-- Without wrap the timestamps increase along the buffer. -/
theorem slotTs_pairwise {b : Buffer R} (hb : b.WF) (ht : SlotTs b) (hw : b.head % b.cap + (b.tail - b.head) ≤ b.cap) :
    b.contents.Pairwise (fun a b => a.getTimestamp < b.getTimestamp) := by
  have hpos : ∀ i, i < b.tail - b.head → (b.head + i) % b.cap = b.head % b.cap + i := by
    intro i hi
    rw [Nat.add_mod, Nat.mod_eq_of_lt (a := i) (by omega), Nat.mod_eq_of_lt (by omega)]
  unfold Buffer.contents
  rw [List.pairwise_iff_getElem]
  intro i j hi hj hij
  simp only [List.length_map, List.length_range] at hi hj
  simp only [List.getElem_map, List.getElem_range]
  rw [ht i hi, ht j hj, hpos i hi, hpos j hj]
  omega

end DE

namespace DE
variable {R : Type} [LinearOrder R]

/-- Entries alternate between live and tombstone, starting with live and ending with tombstone. -/
inductive Alt : List (Wrapped R) → Prop
  | nil : Alt []
  | cons {a b : Wrapped R} {l : List (Wrapped R)} : a.isTombstone = false → b.isTombstone = true → Alt l → Alt (a :: b :: l)

theorem scan_alt {r : R} : ∀ l : List (Wrapped R), RecSorted l → Alt (ofRec r l) → ∀ w ∈ scanSorted l, w.record ≠ r
  | [], _, _, w, hw => by simp [scanSorted] at hw
  | [b], _, h, w, hw => by
    obtain ⟨x, hx, rfl, -⟩ := scanSorted_mem _ _ hw
    have : x = b := by simpa using hx
    subst this
    intro (hr : x.record = r)
    rw [ofRec_cons_eq hr] at h
    have : ofRec r ([] : List (Wrapped R)) = [] := rfl
    rw [this] at h
    cases h
  | b :: c :: rest, hs, h, w, hw => by
    have hb := List.pairwise_cons.mp hs
    have hc := List.pairwise_cons.mp hb.2
    rw [scanSorted] at hw
    split at hw
    · next hcan =>
      obtain ⟨c1, c2, c3⟩ := cancels_spec hcan
      refine scan_alt rest hc.2 ?_ w hw
      by_cases hr : b.record = r
      · rw [ofRec_cons_eq hr, ofRec_cons_eq (c2 ▸ hr)] at h
        cases h; assumption
      · rw [ofRec_cons_ne hr, ofRec_cons_ne (fun e => hr (c2.trans e))] at h
        exact h
    · next hcan =>
      by_cases hr : b.record = r
      · exfalso
        rw [ofRec_cons_eq hr] at h
        generalize hq : ofRec r (c :: rest) = q at h
        cases h with
        | @cons _ b' l' h1 h2 h3 =>
        have hm : b' ∈ c :: rest ∧ b'.record = r := mem_ofRec.mp (by rw [hq]; simp)
        have hcr : c.record = r := by
          apply le_antisymm
          · rcases List.mem_cons.mp hm.1 with rfl | e
            · exact le_of_eq hm.2
            · rw [← hm.2]; exact hc.1 b' e
          · rw [← hr]; exact hb.1 c (by simp)
        rw [ofRec_cons_eq hcr] at hq
        simp only [List.cons.injEq] at hq
        rw [← hq.1] at h2
        simp [cancels, h1, h2, hr, hcr] at hcan
      · rw [ofRec_cons_ne hr] at h
        have ih := scan_alt (c :: rest) hb.2 h
        split at hw
        · exact ih w hw
        · rcases List.mem_cons.mp hw with rfl | hw
          · exact hr
          · exact ih w hw

/-- Sorting keeps entries of one record in timestamp order. -/
theorem sortW_ofRec {r : R} {l : List (Wrapped R)} (h : l.Pairwise (fun a b => a.getTimestamp < b.getTimestamp)) :
    ofRec r (sortW l) = ofRec r l := by
  have hp : (ofRec r (sortW l)).Perm (ofRec r l) := ofRec_perm (sortW_perm l)
  have h1 : (ofRec r (sortW l)).Pairwise leW := (sortW_sorted l).sublist List.filter_sublist
  have h2 : (ofRec r l).Pairwise leW := by
    have h3 : (ofRec r l).Pairwise (fun a b => a.getTimestamp < b.getTimestamp) := h.sublist List.filter_sublist
    refine h3.imp_of_mem ?_
    intro a b ha hb hlt
    have ea := (mem_ofRec.mp ha).2
    have eb := (mem_ofRec.mp hb).2
    have := ts_lt hlt
    rw [BitVec.lt_def] at this
    exact leW_iff.mpr (Or.inr ⟨ea.trans eb.symm, by omega⟩)
  refine hp.eq_of_pairwise ?_ h1 h2
  intro a b _ _ hab hba
  rcases leW_iff.mp hab with h | ⟨h, h'⟩
  · rcases leW_iff.mp hba with g | ⟨g, -⟩
    · exact absurd h (lt_asymm g)
    · rw [g] at h; exact absurd h (lt_irrefl _)
  · rcases leW_iff.mp hba with g | ⟨-, g'⟩
    · rw [h] at g; exact absurd g (lt_irrefl _)
    · cases a; cases b
      simp only at h h' g'
      subst h
      congr 1
      exact BitVec.eq_of_toNat_eq (by omega)

theorem build_alt {r : R} {v : View R} {l : List (Wrapped R)} {s : Shard R} (hv : v.copyOut = .ok l)
    (ht : l.Pairwise (fun a b => a.getTimestamp < b.getTimestamp)) (ha : Alt (ofRec r l))
    (hs : sortedFromView v = .ok s) : ∀ w ∈ s.data, w.record ≠ r := by
  obtain ⟨l', e1, e2, -⟩ := sortedFromView_ok hs
  rw [hv] at e1; cases e1
  rw [e2]
  exact scan_alt _ (sortW_recSorted l) (by rw [sortW_ofRec ht]; exact ha)

end DE
