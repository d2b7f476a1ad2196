import Verif.Proofs.FSTagging
import Verif.Properties.FSTrie

/-!
C111: a tagging index of tries as a set of strings.
-/

namespace DE
variable {R S P : Type} [LinearOrder R] [LinearOrder S] [HasKey R S] [Inhabited R]

/-- C111, any layout, histories with fewer erases than the low watermark in which every string is spelled by one record and
inserted at most once, before it is erased. Nothing fails; a lookup through the inserted pointer returns the record with the
string if it was inserted and not erased and nothing otherwise; the next erase of a stored string returns 1. -/
theorem C111_partial [DecidableEq P] {L : Layout} {pq : PQ R} (hpq : pq.ByRec) {t : Trie S} (ht : t.Exact)
    {lit : R → Bool} (hlit : NoLit lit) {addr : R → P} {lwm hwm sf : Nat} {d0 : Index R} {ops : List (Index.Op R)}
    (hnew : Index.new L true (fstImpl pq t lit) lwm hwm sf = .ok d0) (hlwm : 1 ≤ lwm) (hsf : 1 ≤ sf)
    (hh : OneSpelling S ops) (he : eraseCount ops < lwm) :
    ∃ d bs, d0.run ops = .ok (d, bs) ∧
      (∀ (p : P) (k : S), (∀ r, .ins r ∈ ops → (addr r = p ↔ key r = k)) →
        d.strLookup t addr p k = .ok (dictAnswer ops k)) ∧
      (∀ r, .ins r ∈ ops → .del r ∉ ops → ∃ d', d.erase r = .ok (d', true)) := by
  obtain ⟨h0, hR0, -⟩ := new_ft hnew hlwm hsf
  obtain ⟨d, bs, h1, h2, h3⟩ := ft_total hpq hlit ht h0 hR0 _ ops rfl hh he
  refine ⟨d, bs, h1, fun p k hp => (h2.lookup hh ht hp).2 (fun s hs => (h3.vis s hs).ne he), fun r hi hd => ?_⟩
  have hh' : OneSpelling S (ops ++ [.del r]) := by
    have hm : ∀ x, (.ins x ∈ ops ++ [.del r] ∨ .del x ∈ ops ++ [.del r]) → (.ins x ∈ ops ∨ .del x ∈ ops) := by
      intro x hx
      by_cases hxr : x = r
      · subst hxr; exact Or.inl hi
      · simpa [hxr] using hx
    refine ⟨fun a b ha hb => hh.same a b (hm a ha) (hm b hb), fun x => ?_, fun p x hp => ?_⟩
    · have := hh.once x
      unfold insCount at *
      simpa [List.count_append, List.count_cons] using this
    · rcases List.prefix_concat_iff.mp hp with hp | hp
      · have := congrArg List.getLast? hp
        simp at this
      · exact hh.order p x hp
  obtain ⟨d', b, h4⟩ := h2.progress hlit ht h3 he hh'
  refine ⟨d', ?_⟩
  obtain rfl := h2.erase_true ht hh' hi hd h4
  exact h4

/-- C111, leveling and tiering, however many erases: a lookup that returns at all returns the right answer, and it does return
if every shard holds a record. -/
theorem C111_returns_partial [DecidableEq P] {L : Layout} (hL : L ≠ .bsm) {pq : PQ R} (hpq : pq.ByRec) {t : Trie S} (ht : t.Exact)
    {lit : R → Bool} (hlit : NoLit lit) {addr : R → P} {lwm hwm sf : Nat} {d0 d : Index R} {ops : List (Index.Op R)}
    {bs : List Bool} (hnew : Index.new L true (fstImpl pq t lit) lwm hwm sf = .ok d0) (hlwm : 1 ≤ lwm) (hsf : 1 ≤ sf)
    (hh : OneSpelling S ops) (hrun : d0.run ops = .ok (d, bs)) (p : P) (k : S)
    (hp : ∀ r, .ins r ∈ ops → (addr r = p ↔ key r = k)) :
    (∀ res, d.strLookup t addr p k = .ok res → res = dictAnswer ops k) ∧
    ((∀ s ∈ d.str.visible, s.data ≠ []) → d.strLookup t addr p k = .ok (dictAnswer ops k)) := by
  obtain ⟨h0, -, h1⟩ := new_ft hnew hlwm hsf
  exact (ft_run hpq hlit ht h0 (by rw [h1]; exact hL) hh hrun).lookup hh ht hp

/-- Eight strings, one of them erased in the buffer and one in a shard. -/
def dictHist : List (Index.Op Rec) := insSeq 0 4 ++ [.del ⟨3, 3⟩] ++ insSeq 4 4 ++ [.del ⟨1, 1⟩]

/-- Non-vacuous: the history meets the hypotheses; a stored, two erased and an absent string. -/
example : OneSpelling Nat dictHist ∧ eraseCount dictHist < 3 ∧
    fstProbe noLit .leveling true 3 3 2 dictHist
      (fun p => do .ok [← p.1.strLookup Trie.scan Record.value 0 0, ← p.1.strLookup Trie.scan Record.value 3 3,
        ← p.1.strLookup Trie.scan Record.value 1 1, ← p.1.strLookup Trie.scan Record.value 9 9]) =
      .ok [[⟨0, 0⟩], [], [], []] := by
  refine ⟨⟨?_, ?_, ?_⟩, by decide, by decide⟩
  · have hm : ∀ o ∈ dictHist, (match o with
      | .ins r => decide (r.value = r.key)
      | .del r => decide (r.value = r.key)) = true := by decide
    have hm' : ∀ r : Rec, (.ins r ∈ dictHist ∨ .del r ∈ dictHist) → r.value = r.key := by
      rintro r (h | h)
      · exact of_decide_eq_true (hm _ h)
      · exact of_decide_eq_true (hm _ h)
    intro r x hr hx hk
    have h1 := hm' r hr
    have h2 := hm' x hx
    have hk : r.key = x.key := hk
    cases r; cases x
    simp_all
  · intro r
    by_cases h : .ins r ∈ dictHist
    · have : ∀ o ∈ dictHist, dictHist.count o ≤ 1 := by decide
      exact this _ h
    · unfold insCount
      rw [List.count_eq_zero_of_not_mem h]; omega
  · intro p r hp
    have hq : ∀ n ≤ dictHist.length, (match (dictHist.take n).getLast? with
      | some (.ins r) => decide (.del r ∉ (dictHist.take n).dropLast)
      | _ => true) = true := by decide
    have := hq _ hp.length_le
    rw [← List.prefix_iff_eq_take.mp hp] at this
    simpa using this

/-- C111 is false: erasing all records of a buffer makes the next flush build a shard without a trie, and a lookup reads an
uninitialised pointer. -/
theorem C111_false_empty : ∃ (d0 d : Index Rec) (bs : List Bool),
    Index.new .tiering true (fstImpl PQ.std Trie.scan noLit) 2 2 2 = .ok d0 ∧
    d0.run [.ins ⟨1, 1⟩, .ins ⟨2, 2⟩, .del ⟨1, 1⟩, .del ⟨2, 2⟩, .ins ⟨3, 3⟩] = .ok (d, bs) ∧
    d.strLookup Trie.scan Record.value 1 1 = .error .ub := by
  have h : fstProbe noLit .tiering true 2 2 2 [.ins ⟨1, 1⟩, .ins ⟨2, 2⟩, .del ⟨1, 1⟩, .del ⟨2, 2⟩, .ins ⟨3, 3⟩]
    (fun p => .ok (match p.1.strLookup Trie.scan Record.value 1 1 with | .error .ub => true | _ => false)) = .ok true := by decide
  obtain ⟨d0, d, bs, h1, h2, h3⟩ := fstProbe_ok h
  refine ⟨d0, d, bs, h1, h2, ?_⟩
  have h3 := Except.ok.inj h3
  split at h3
  · assumption
  · cases h3

/-- C111 is false for a string inserted again after its erase: the tagged record hides the new one. -/
theorem C111_false_again : ∃ (d0 d : Index Rec) (bs : List Bool),
    Index.new .tiering true (fstImpl PQ.std Trie.scan noLit) 4 4 2 = .ok d0 ∧
    d0.run [.ins ⟨7, 7⟩, .del ⟨7, 7⟩, .ins ⟨7, 7⟩] = .ok (d, bs) ∧ bs = [true, true, true] ∧
    d.strLookup Trie.scan Record.value 7 7 = .ok [] := by
  have h : fstProbe noLit .tiering true 4 4 2 [.ins ⟨7, 7⟩, .del ⟨7, 7⟩, .ins ⟨7, 7⟩]
    (fun p => do .ok (p.2, ← p.1.strLookup Trie.scan Record.value 7 7)) = .ok ([true, true, true], []) := by decide
  obtain ⟨d0, d, bs, h1, h2, h3⟩ := fstProbe_ok h
  simp only [bind_ok] at h3
  obtain ⟨a, h4, h6⟩ := h3
  cases h6
  exact ⟨d0, d, _, h1, h2, rfl, h4⟩

end DE
