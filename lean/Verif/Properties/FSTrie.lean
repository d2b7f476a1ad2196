import Verif.Proofs.FSTrie
import Verif.Properties.Search

/-!
C65, C66: point lookups over the trie shard (FSTrie.h) with string keys.
-/

namespace DE
variable {R S P : Type} [LinearOrder R] [LinearOrder S] [HasKey R S] [Inhabited R]

/-- C66, insert-only histories with distinct keys, any layout and delete policy: no operation fails, and every shard a lookup
asks is non-empty and handed a strictly increasing list of keys to its trie. -/
theorem C66_partial {L : Layout} {tag : Bool} {pq : PQ R} (hpq : pq.ByRec) {t : Trie S} {lit : R → Bool} (hlit : NoLit lit)
    {lwm hwm sf : Nat} {d0 : Index R} {ops : List (Index.Op R)}
    (hnew : Index.new L tag (fstImpl pq t lit) lwm hwm sf = .ok d0) (hlwm : 1 ≤ lwm) (hsf : 1 ≤ sf)
    (hio : InsertOnly ops) (hnd : ((inserted ops).map (key (K := S))).Nodup) :
    ∃ d, d0.run ops = .ok (d, List.replicate ops.length true) ∧
      ∀ s ∈ d.str.visible, s.data ≠ [] ∧ (trieKeys s.data : List S).Pairwise (· < ·) := by
  obtain ⟨d, h1, h2, h3, -⟩ := (new_cleanI (fstImpl_cleanOk pq t hlit) hnew hlwm hsf).run ops hio
  obtain ⟨-, -, -, h4, h5, -⟩ := new_ginv hnew hlwm hsf
  rw [h5, zero_add] at h3
  refine ⟨d, h1, ?_⟩
  intro s hs
  obtain ⟨hd, -⟩ := new_ok hnew
  refine ⟨(h2.shards s hs).1, keys_strict ((fst_run_sorted hpq (new_buf hnew hlwm) h4 (by rw [hd]) h1).visible s hs)
    (shard_keys_nodup hs ?_)⟩
  rw [h3]
  unfold insEntries
  rw [Multiset.map_coe, List.map_map, Multiset.coe_nodup]
  exact hnd

/-- C65, insert-only histories with distinct keys, any layout and delete policy: if the search key is the address under which
the record with that content was inserted (no inserted record has exactly one of address `p` and content `k`), the lookup
returns the record with content `k` if there is one and nothing otherwise. -/
theorem C65_partial [DecidableEq P] {L : Layout} {tag : Bool} {pq : PQ R} (hpq : pq.ByRec) {t : Trie S} (ht : t.Exact)
    {lit : R → Bool} (hlit : NoLit lit) {addr : R → P} {lwm hwm sf : Nat} {d0 : Index R} {ops : List (Index.Op R)}
    (hnew : Index.new L tag (fstImpl pq t lit) lwm hwm sf = .ok d0) (hlwm : 1 ≤ lwm) (hsf : 1 ≤ sf)
    (hio : InsertOnly ops) (hnd : ((inserted ops).map (key (K := S))).Nodup) (p : P) (k : S)
    (hp : ∀ r, .ins r ∈ ops → (addr r = p ↔ key r = k)) :
    ∃ d, d0.run ops = .ok (d, List.replicate ops.length true) ∧
      d.strLookup t addr p k = .ok ((inserted ops).filter (fun r => decide (key r = k))) := by
  obtain ⟨d, h1, hsh⟩ := C66_partial hpq hlit hnew hlwm hsf hio hnd
  obtain ⟨d', h1', h2, h3, -⟩ := (new_cleanI (fstImpl_cleanOk pq t hlit) hnew hlwm hsf).run ops hio
  rw [h1] at h1'
  cases h1'
  obtain ⟨-, -, -, -, h5, -⟩ := new_ginv hnew hlwm hsf
  rw [h5, zero_add] at h3
  have hmem : ∀ e : Entry R, e ∈ d.entries ↔ .ins e.record ∈ ops ∧ e.del = false ∧ e.tomb = false := by
    intro e
    rw [h3]
    unfold insEntries
    rw [Multiset.mem_coe, List.mem_map]
    constructor
    · rintro ⟨r, hr, rfl⟩
      exact ⟨mem_inserted.mp hr, rfl, rfl⟩
    · rintro ⟨hr, hdl, ht⟩
      refine ⟨e.record, mem_inserted.mpr hr, ?_⟩
      cases e; simp_all
  have hfound : ∀ w : Wrapped R, w.entry ∈ d.entries → key (K := S) w.record = k →
      plCombine [w] = (inserted ops).filter (fun r => decide (key r = k)) := by
    intro w hw hk
    obtain ⟨g1, g2, g3⟩ := (hmem _).mp hw
    rw [plCombine_answer]
    unfold answer
    rw [g2, g3]
    exact (filter_unique hnd (mem_inserted.mpr g1) hk).symm
  refine ⟨d, h1, ?_⟩
  unfold Index.strLookup
  rw [Buffer.view_gets h2.inv.wf]
  simp only [bind, Except.bind]
  cases hfind : d.buf.contents.find? (fun w => decide (addr w.record = p)) with
  | some w =>
    have hw : w.entry ∈ d.entries := mem_entries.mpr (Or.inl ⟨w, List.mem_of_find?_eq_some hfind, rfl⟩)
    have ha : addr w.record = p := by simpa using List.find?_some hfind
    simp only
    rw [hfound w hw ((hp _ ((hmem _).mp hw).1).mp ha)]
  | none =>
    have h0 : ∀ w ∈ d.buf.contents, key (K := S) w.record ≠ k := by
      intro w hw hk
      have hin := ((hmem w.entry).mp (mem_entries.mpr (Or.inl ⟨w, hw, rfl⟩))).1
      have := List.find?_eq_none.mp hfind w hw
      simp only [decide_eq_true_eq] at this
      exact this ((hp _ hin).mpr hk)
    rcases plShards_on (f := fstLookup t) k d.str.visible
      (fun s hs => fstLookup_exact ht (hsh s hs).1 (hsh s hs).2 k) with ⟨w, g1, g2, s, g3, g4⟩ | ⟨g1, g2⟩
    · simp only [g1]
      rw [hfound w (mem_entries.mpr (Or.inr ⟨s, g3, w, g4, rfl⟩)) g2]
    · simp only [g1]
      congr 1
      symm
      show List.filter _ _ = []
      rw [List.filter_eq_nil_iff]
      intro r hr
      simp only [decide_eq_true_eq]
      intro hk
      have := (hmem ⟨r, false, false⟩).mpr ⟨mem_inserted.mp hr, rfl, rfl⟩
      rcases mem_entries.mp this with ⟨w, hw, hwe⟩ | ⟨s, hs, w, hw, hwe⟩
      · have hwr : w.record = r := congrArg Entry.record hwe
        exact h0 w hw (by rw [hwr]; exact hk)
      · have hwr : w.record = r := congrArg Entry.record hwe
        exact g2 s hs w hw (by rw [hwr]; exact hk)

/-! ### Concrete tries -/

/-- A trie by linear search; meets the contract. -/
def Trie.scan : Trie S := fun ks k => .ok (ks.findIdx? (fun x => decide (x = k)))

omit [LinearOrder R] [HasKey R S] [Inhabited R] in
theorem Trie.scan_exact : (Trie.scan : Trie S).Exact := by
  intro ks _ _ k
  unfold Trie.scan
  cases h : ks.findIdx? (fun x => decide (x = k)) with
  | none =>
    right
    refine ⟨rfl, fun hk => ?_⟩
    have := List.findIdx?_eq_none_iff.mp h k hk
    simp at this
  | some i =>
    left
    obtain ⟨hi, h1, -⟩ := List.findIdx?_eq_some_iff_getElem.mp h
    exact ⟨i, rfl, by rw [List.getElem?_eq_getElem hi]; simpa using h1⟩

/-- String records for the concrete runs: `key` is the content, `value` the address; `lit` tells which addresses equal the
empty literal. -/
def fstProbe {α : Type} (lit : Rec → Bool) (L : Layout) (tagging : Bool) (lwm hwm sf : Nat) (ops : List (Index.Op Rec))
    (f : Index Rec × List Bool → Res α) : Res α := do
  let d ← Index.new L tagging (fstImpl PQ.std Trie.scan lit) lwm hwm sf
  let p ← d.run ops
  f p

theorem fstProbe_ok {α : Type} {lit : Rec → Bool} {L : Layout} {tagging : Bool} {lwm hwm sf : Nat} {ops : List (Index.Op Rec)}
    {f : Index Rec × List Bool → Res α} {a : α} (h : fstProbe lit L tagging lwm hwm sf ops f = .ok a) :
    ∃ d0 d bs, Index.new L tagging (fstImpl PQ.std Trie.scan lit) lwm hwm sf = .ok d0 ∧ d0.run ops = .ok (d, bs) ∧ f (d, bs) = .ok a := by
  unfold fstProbe at h
  simp only [bind_ok] at h
  obtain ⟨d0, h1, ⟨d, bs⟩, h2, h3⟩ := h
  exact ⟨d0, d, bs, h1, h2, h3⟩

/-- No address is that of the literal. -/
def noLit : Rec → Bool := fun _ => false

/-- Non-vacuous: lookups answered from a merged shard, from the buffer, and for a key that is absent; the keys are distinct. -/
example : ((inserted (insSeq 0 7)).map (key (K := Nat))).Nodup ∧
    fstProbe noLit .leveling false 2 2 2 (insSeq 0 7)
      (fun p => do .ok [← p.1.strLookup Trie.scan Record.value 1 1, ← p.1.strLookup Trie.scan Record.value 6 6,
        ← p.1.strLookup Trie.scan Record.value 9 9]) = .ok [[⟨1, 1⟩], [⟨6, 6⟩], []] := by decide

/-- C65 is false through another pointer: the record with the content is in the buffer and is not found. -/
theorem C65_false_pointer : ∃ (d0 d : Index Rec) (bs : List Bool),
    Index.new .tiering false (fstImpl PQ.std Trie.scan noLit) 4 4 2 = .ok d0 ∧ d0.run [.ins ⟨7, 100⟩] = .ok (d, bs) ∧
    d.strLookup Trie.scan Record.value 101 7 = .ok [] ∧ d.strLookup Trie.scan Record.value 100 7 = .ok [⟨7, 100⟩] := by
  have h : fstProbe noLit .tiering false 4 4 2 [.ins ⟨7, 100⟩] (fun p => do
    .ok (← p.1.strLookup Trie.scan Record.value 101 7, ← p.1.strLookup Trie.scan Record.value 100 7)) =
    .ok ([], [⟨7, 100⟩]) := by decide
  obtain ⟨d0, d, bs, h1, h2, h3⟩ := fstProbe_ok h
  simp only [bind_ok] at h3
  obtain ⟨a, h4, b, h5, h6⟩ := h3
  cases h6
  exact ⟨d0, d, bs, h1, h2, h4, h5⟩

/-- C65 is false for a record whose key is the literal `""`: it is lost when the buffer is flushed. -/
theorem C65_false_literal : ∃ (d0 d : Index Rec) (bs : List Bool),
    Index.new .tiering false (fstImpl PQ.std Trie.scan (fun r => decide (r.value = 99))) 2 2 2 = .ok d0 ∧
    d0.run [.ins ⟨0, 99⟩, .ins ⟨1, 100⟩, .ins ⟨2, 101⟩] = .ok (d, bs) ∧ bs = [true, true, true] ∧
    d.strLookup Trie.scan Record.value 99 0 = .ok [] := by
  have h : fstProbe (fun r => decide (r.value = 99)) .tiering false 2 2 2 [.ins ⟨0, 99⟩, .ins ⟨1, 100⟩, .ins ⟨2, 101⟩]
    (fun p => do .ok (p.2, ← p.1.strLookup Trie.scan Record.value 99 0)) = .ok ([true, true, true], []) := by decide
  obtain ⟨d0, d, bs, h1, h2, h3⟩ := fstProbe_ok h
  simp only [bind_ok] at h3
  obtain ⟨a, h4, h6⟩ := h3
  cases h6
  exact ⟨d0, d, _, h1, h2, rfl, h4⟩

/-- C66 is false: inserting and erasing one key within one buffer hands the trie the same key twice, since the constructor
does not cancel. -/
theorem C66_false_duplicate : ∃ (d0 d : Index Rec) (bs : List Bool),
    Index.new .tiering false (fstImpl PQ.std Trie.scan noLit) 2 2 2 = .ok d0 ∧
    d0.run [.ins ⟨7, 100⟩, .del ⟨7, 100⟩, .ins ⟨8, 101⟩] = .ok (d, bs) ∧
    d.str.visible.map (fun s => (trieKeys s.data : List Nat)) = [[7, 7]] := by
  have h : fstProbe noLit .tiering false 2 2 2 [.ins ⟨7, 100⟩, .del ⟨7, 100⟩, .ins ⟨8, 101⟩]
    (fun p => .ok (p.1.str.visible.map (fun s => (trieKeys s.data : List Nat)))) = .ok [[7, 7]] := by decide
  obtain ⟨d0, d, bs, h1, h2, h3⟩ := fstProbe_ok h
  exact ⟨d0, d, bs, h1, h2, Except.ok.inj h3⟩

/-- C66 is false: when a merge cancels everything the shard has no trie, and a lookup reads an uninitialised pointer. -/
theorem C66_false_empty : ∃ (d0 d : Index Rec) (bs : List Bool),
    Index.new .leveling false (fstImpl PQ.std Trie.scan noLit) 1 1 2 = .ok d0 ∧
    d0.run [.ins ⟨7, 100⟩, .del ⟨7, 100⟩, .ins ⟨8, 101⟩] = .ok (d, bs) ∧
    d.strLookup Trie.scan Record.value 100 7 = .error .ub := by
  have h : fstProbe noLit .leveling false 1 1 2 [.ins ⟨7, 100⟩, .del ⟨7, 100⟩, .ins ⟨8, 101⟩]
    (fun p => .ok (match p.1.strLookup Trie.scan Record.value 100 7 with | .error .ub => true | _ => false)) = .ok true := by decide
  obtain ⟨d0, d, bs, h1, h2, h3⟩ := fstProbe_ok h
  refine ⟨d0, d, bs, h1, h2, ?_⟩
  have h3 := Except.ok.inj h3
  split at h3
  · assumption
  · cases h3

end DE
