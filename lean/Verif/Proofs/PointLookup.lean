import Verif.Proofs.Query
import Verif.Proofs.InsertOnly
import Verif.Proofs.Tagging

/-! The point lookup query in terms of the stored entries. -/

namespace DE
variable {R K : Type} [LinearOrder R] [LinearOrder K] [HasKey R K]

/-- Contract of a shard's lookup by key: it finds some record with the key iff there is one. -/
def ExactKeyLookup (f : Shard R → K → Res (Option Nat)) : Prop :=
  ∀ s k, (∃ i w, f s k = .ok (some i) ∧ s.data[i]? = some w ∧ key w.record = k) ∨
    (f s k = .ok none ∧ ∀ w ∈ s.data, key w.record ≠ k)

/-- What a lookup says about an entry. -/
def answer (e : Entry R) : List R := if e.del || e.tomb then [] else [e.record]

theorem plCombine_answer (w : Wrapped R) (ws : List (Wrapped R)) : plCombine (w :: ws) = answer w.entry := rfl

theorem plShards_spec {f : Shard R → K → Res (Option Nat)} (hf : ExactKeyLookup f) (k : K) : ∀ (ss : List (Shard R)),
    (∃ w, plShards f k ss = .ok [w] ∧ key w.record = k ∧ ∃ s ∈ ss, w ∈ s.data) ∨
    (plShards f k ss = .ok [] ∧ ∀ s ∈ ss, ∀ w ∈ s.data, key w.record ≠ k)
  | [] => Or.inr ⟨rfl, by simp⟩
  | s :: ss => by
    rw [plShards]
    rcases hf s k with ⟨i, w, h1, h2, h3⟩ | ⟨h1, h2⟩
    · left
      refine ⟨w, ?_, h3, s, List.mem_cons_self, mem_of_getElem? h2⟩
      unfold plLocal getR
      simp only [h1, h2, bind, Except.bind]
    · have e : plLocal f s k = .ok [] := by
        unfold plLocal; simp only [h1, bind, Except.bind]
      rw [e]
      simp only [bind, Except.bind]
      rcases plShards_spec hf k ss with ⟨w, g1, g2, s', g3, g4⟩ | ⟨g1, g2⟩
      · exact Or.inl ⟨w, g1, g2, s', List.mem_cons_of_mem _ g3, g4⟩
      · refine Or.inr ⟨g1, ?_⟩
        intro s' hs'
        rcases List.mem_cons.mp hs' with rfl | hs'
        · exact h2
        · exact g2 s' hs'

omit [LinearOrder R] in
theorem mem_ents_iff {l : List (Wrapped R)} {e : Entry R} : e ∈ ents l ↔ ∃ w ∈ l, w.entry = e := by
  unfold ents
  rw [Multiset.mem_coe, List.mem_map]

omit [LinearOrder R] in
theorem mem_sents {e : Entry R} : ∀ {ss : List (Shard R)}, e ∈ (ss.map (fun s => ents s.data)).sum ↔ ∃ s ∈ ss, ∃ w ∈ s.data, w.entry = e
  | [] => by simp
  | s :: ss => by
    rw [List.map_cons, List.sum_cons, Multiset.mem_add, mem_ents_iff, mem_sents]
    simp

omit [LinearOrder R] in
theorem mem_entries {d : Index R} {e : Entry R} : e ∈ d.entries ↔ (∃ w ∈ d.buf.contents, w.entry = e) ∨
    ∃ s ∈ d.str.visible, ∃ w ∈ s.data, w.entry = e := by
  unfold Index.entries
  rw [Multiset.mem_add, mem_ents_iff, mem_sents]

/-- The lookup is defined and answers from one stored entry with the key, if there is any. -/
theorem pointLookup_gets {f : Shard R → K → Res (Option Nat)} (hf : ExactKeyLookup f) {d : Index R}
    (hb : d.buf.view.gets = .ok d.buf.contents) (k : K) :
    (∃ e ∈ d.entries, key e.record = k ∧ d.pointLookup f k = .ok (answer e)) ∨
    ((∀ e ∈ d.entries, key e.record ≠ k) ∧ d.pointLookup f k = .ok []) := by
  unfold Index.pointLookup plBuffer
  rw [hb]
  simp only [bind, Except.bind]
  cases hfind : d.buf.contents.find? (fun w => decide (key w.record = k)) with
  | some w =>
    left
    have h1 := List.find?_some hfind
    have h1 : key w.record = k := by simpa using h1
    exact ⟨w.entry, mem_entries.mpr (Or.inl ⟨w, List.mem_of_find?_eq_some hfind, rfl⟩), h1, rfl⟩
  | none =>
    have h0 : ∀ w ∈ d.buf.contents, key w.record ≠ k := by
      intro w hw
      have := List.find?_eq_none.mp hfind w hw
      simpa using this
    rcases plShards_spec hf k d.str.visible with ⟨w, g1, g2, s, g3, g4⟩ | ⟨g1, g2⟩
    · left
      refine ⟨w.entry, mem_entries.mpr (Or.inr ⟨s, g3, w, g4, rfl⟩), g2, ?_⟩
      simp only [g1]; rfl
    · right
      refine ⟨?_, by simp only [g1]; rfl⟩
      intro e he
      rcases mem_entries.mp he with ⟨w, hw, rfl⟩ | ⟨s, hs, w, hw, rfl⟩
      · exact h0 w hw
      · exact g2 s hs w hw

theorem pointLookup_spec {f : Shard R → K → Res (Option Nat)} (hf : ExactKeyLookup f) {d : Index R} (hb : d.buf.WF) (k : K) :
    (∃ e ∈ d.entries, key e.record = k ∧ d.pointLookup f k = .ok (answer e)) ∨
    ((∀ e ∈ d.entries, key e.record ≠ k) ∧ d.pointLookup f k = .ok []) :=
  pointLookup_gets hf (Buffer.view_gets hb) k

omit [LinearOrder R] in
theorem mem_inserted {r : R} : ∀ {ops : List (Index.Op R)}, r ∈ inserted ops ↔ .ins r ∈ ops
  | [] => by simp [inserted]
  | .ins x :: ops => by simp [inserted, mem_inserted]
  | .del x :: ops => by simp [inserted, mem_inserted]

theorem filter_unique {k : K} : ∀ {l : List R} {r : R}, (l.map (key (K := K))).Nodup → r ∈ l → key r = k →
    l.filter (fun r => decide (key r = k)) = [r]
  | x :: xs, r, hnd, hr, hk => by
    rw [List.map_cons, List.nodup_cons] at hnd
    rcases List.mem_cons.mp hr with rfl | hr
    · rw [List.filter_cons_of_pos (by simpa using hk)]
      congr 1
      rw [List.filter_eq_nil_iff]
      intro y hy
      simp only [decide_eq_true_eq]
      intro hky
      exact hnd.1 (by rw [hk, ← hky]; exact List.mem_map_of_mem hy)
    · have : key x ≠ k := fun h => hnd.1 (by rw [h, ← hk]; exact List.mem_map_of_mem hr)
      rw [List.filter_cons_of_neg (by simpa using this)]
      exact filter_unique hnd.2 hr hk

end DE
