import Verif.Model.LevelCheck
import Verif.Properties.Search
import Verif.Properties.LearnedBuild

/-! ## C86: the tombstone check of a level -/

namespace DE
variable {R K F : Type} [LinearOrder R] [LinearOrder K] [HasKey R K]

/-- The specification: one of the level's shards from number `stop` on holds a tombstone of `r`. -/
def HasTomb (l : Level R) (stop : Nat) (r : R) : Prop :=
  ∃ i s, stop ≤ i ∧ i < l.cnt ∧ l.shards[i]? = some (some s) ∧ ∃ w ∈ s.data, w.record = r ∧ w.isTombstone = true

/-- A shard does not hold both live and tombstone entries of `r`. -/
def Unmixed (s : Shard R) (r : R) : Prop :=
  ∀ w ∈ s.data, ∀ w' ∈ s.data, w.record = r → w'.record = r → w.isTombstone = w'.isTombstone

/-- What the check needs from a filtered lookup on a shard: what it returns is an entry of the record, and it returns
something if the shard holds a tombstone of it. -/
def LookOk (look : FilteredLookup R) (s : Shard R) : Prop :=
  ∀ r, (∀ i, look s r = .ok (some i) → ∃ w, s.data[i]? = some w ∧ w.record = r) ∧
    ((∃ w ∈ s.data, w.record = r ∧ w.isTombstone = true) → ∃ i, look s r = .ok (some i))

theorem sortedLookup_some {lb : LB R K} {s : Shard R} {r : R} {i : Nat} (h : sortedLookup lb s r = .ok (some i)) :
    ∃ w, s.data[i]? = some w ∧ w.record = r := by
  unfold sortedLookup at h
  cases hl : lb s.data (key r) with
  | error e => rw [hl] at h; cases h
  | ok idx =>
    rw [hl] at h
    simp only [bind, Except.bind] at h
    split at h
    · cases h
    · cases hg : getR s.data (idx + skipLess r (s.data.drop idx)) with
      | error e => rw [hg] at h; cases h
      | ok w =>
        rw [hg] at h
        simp only at h
        split at h
        · next hr =>
          cases h
          refine ⟨w, ?_, hr⟩
          unfold getR at hg
          split at hg
          · next ho => cases hg; exact ho
          · cases hg
        · cases h

theorem aliasLookup_some {s : Shard R} {r : R} {i : Nat} (h : aliasLookup (K := K) s r = .ok (some i)) :
    ∃ w, s.data[i]? = some w ∧ w.record = r := by
  unfold aliasLookup at h
  cases hl : aliasLB s.data (key (K := K) r) with
  | error e => rw [hl] at h; cases h
  | ok idx =>
    rw [hl] at h
    simp only [bind, Except.bind] at h
    split at h
    · cases h
    · cases hg : getR s.data (idx + skipLess r ((s.data.take (s.data.length - 1)).drop idx)) with
      | error e => rw [hg] at h; cases h
      | ok w =>
        rw [hg] at h
        simp only at h
        split at h
        · next hr =>
          cases h
          refine ⟨w, ?_, hr⟩
          unfold getR at hg
          split at hg
          · next ho => cases hg; exact ho
          · cases hg
        · cases h

/-- The filtered lookups of PGM, TrieSpline and Alias are usable on the shards the framework builds. -/
theorem C86_lookups {ix : Learned K} (hv : ix.Valid) {B : BFilter R F} (hB : B.NoFalseNeg) {s : Shard R} (hne : s.data ≠ [])
    (hs : s.data.Pairwise (fun a b => a.record ≤ b.record)) :
    LookOk (plainFiltered (pgmLB ix)) s ∧ (s.data.length ≠ 50 → LookOk (plainFiltered (tsLB ix)) s) ∧
      LookOk (aliasFiltered K B) s := by
  refine ⟨fun r => ⟨fun i h => sortedLookup_some h, ?_⟩, fun h50 r => ⟨fun i h => sortedLookup_some h, ?_⟩,
    fun r => ⟨fun i h => ?_, ?_⟩⟩
  · rintro ⟨w, hw, hr, -⟩
    obtain ⟨i, -, h, -⟩ := (C28_pgm_partial hv hne hs r).1 ⟨w, hw, hr⟩
    exact ⟨i, h⟩
  · rintro ⟨w, hw, hr, -⟩
    obtain ⟨i, -, h, -⟩ := (C28_triespline_partial hv h50 hs r).1 ⟨w, hw, hr⟩
    exact ⟨i, h⟩
  · unfold aliasFiltered at h
    split at h
    · exact aliasLookup_some h
    · cases h
  · rintro ⟨w, hw, hr, ht⟩
    obtain ⟨i, -, h, -⟩ := (C27_alias (K := K) hne hs).2.1 r ⟨w, hw, hr⟩
    refine ⟨i, ?_⟩
    unfold aliasFiltered
    rw [if_pos]
    · exact h
    · refine hB _ r ?_
      simp only [List.mem_map, List.mem_filter]
      exact ⟨w, ⟨hw, ht⟩, hr⟩

theorem checkFrom_spec {look : FilteredLookup R} {l : Level R} {stop : Nat} {r : R}
    (hl : ∀ i s, stop ≤ i → l.shards[i]? = some (some s) → LookOk look s) : ∀ {n : Nat} {b : Bool},
    l.checkFrom look stop r n = .ok b →
    (b = true → ∃ i s, stop ≤ i ∧ i < n ∧ l.shards[i]? = some (some s) ∧ ∃ w ∈ s.data, w.record = r ∧ w.isTombstone = true) ∧
    (b = false → ∀ i s, stop ≤ i → i < n → l.shards[i]? = some (some s) → Unmixed s r →
      ∀ w ∈ s.data, w.record = r → w.isTombstone = false)
  | 0, b, h => by
    cases h
    exact ⟨by simp, fun _ i s _ hi => by omega⟩
  | n+1, b, h => by
    rw [Level.checkFrom] at h
    split at h
    · next hlt =>
      cases h
      exact ⟨by simp, fun _ i s h1 h2 => by omega⟩
    · next hge =>
      have step : ∀ {b}, l.checkFrom look stop r n = .ok b →
          (∀ s, l.shards[n]? = some (some s) → Unmixed s r → ∀ w ∈ s.data, w.record = r → w.isTombstone = false) →
          (b = true → ∃ i s, stop ≤ i ∧ i < n + 1 ∧ l.shards[i]? = some (some s) ∧
            ∃ w ∈ s.data, w.record = r ∧ w.isTombstone = true) ∧
          (b = false → ∀ i s, stop ≤ i → i < n + 1 → l.shards[i]? = some (some s) → Unmixed s r →
            ∀ w ∈ s.data, w.record = r → w.isTombstone = false) := by
        intro b hb hn
        obtain ⟨q1, q2⟩ := checkFrom_spec hl hb
        refine ⟨fun e => ?_, fun e i s h1 h2 h3 h4 => ?_⟩
        · obtain ⟨i, s, a1, a2, a3⟩ := q1 e
          exact ⟨i, s, a1, by omega, a3⟩
        · rcases Nat.lt_succ_iff_lt_or_eq.mp h2 with h2 | rfl
          · exact q2 e i s h1 h2 h3 h4
          · exact hn s h3 h4
      cases hg : l.shards[n]? with
      | none => simp [getR, hg, bind, Except.bind] at h
      | some o =>
        cases o with
        | none =>
          simp only [getR, hg, bind, Except.bind] at h
          exact step h (fun s hs => by rw [hg] at hs; cases hs)
        | some s =>
          simp only [getR, hg, bind, Except.bind] at h
          have hok := hl n s (by omega) hg r
          cases hk : look s r with
          | error e => rw [hk] at h; cases h
          | ok o =>
            rw [hk] at h
            cases o with
            | none =>
              refine step h ?_
              intro s' hs' hu w hw hr
              rw [hg] at hs'; cases hs'
              by_contra ht
              obtain ⟨i, hi⟩ := hok.2 ⟨w, hw, hr, by simpa using ht⟩
              rw [hk] at hi; cases hi
            | some j =>
              obtain ⟨w, hw, hr⟩ := hok.1 j hk
              have hmem : w ∈ s.data := List.mem_of_getElem? hw
              simp only [hw] at h
              split at h
              · next ht =>
                cases h
                exact ⟨fun _ => ⟨n, s, by omega, by omega, hg, w, hmem, hr, ht⟩, by simp⟩
              · next ht =>
                refine step h ?_
                intro s' hs' hu w' hw' hr'
                rw [hg] at hs'; cases hs'
                rw [hu w' hw' w hmem hr' hr]; simpa using ht

/-- C86 as far as it is true: if the check returns, `true` is always right; `false` is right if no shard holds both live
and tombstone entries of the record. Missing: mixed shards (`C86_false`), and ISAMTree (`C86_isam_ub`). -/
theorem C86_level_partial {look : FilteredLookup R} {l : Level R} {stop : Nat} {r : R}
    (hl : ∀ i s, stop ≤ i → l.shards[i]? = some (some s) → LookOk look s) {b : Bool}
    (h : l.checkTombstone look stop r = .ok b) :
    (b = true → HasTomb l stop r) ∧
    ((∀ i s, stop ≤ i → i < l.cnt → l.shards[i]? = some (some s) → Unmixed s r) → (b = true ↔ HasTomb l stop r)) := by
  unfold Level.checkTombstone at h
  have main : (b = true → HasTomb l stop r) ∧ (b = false → ∀ i s, stop ≤ i → i < l.cnt → l.shards[i]? = some (some s) →
      Unmixed s r → ∀ w ∈ s.data, w.record = r → w.isTombstone = false) := by
    split at h
    · next hc => cases h; exact ⟨by simp, fun _ i s _ hi => by omega⟩
    · exact checkFrom_spec hl h
  refine ⟨main.1, fun hu => ⟨main.1, ?_⟩⟩
  rintro ⟨i, s, h1, h2, h3, w, hw, hr, ht⟩
  by_contra hb
  rw [main.2 (by simpa using hb) i s h1 h2 h3 (hu i s h1 h2 h3) w hw hr] at ht
  cases ht

/-- C86 is false for ISAMTree: on any level whose last shard is within the range the check dereferences a null filter. -/
theorem C86_isam_ub {l : Level R} {stop : Nat} {s : Shard R} (r : R) (hc : stop < l.cnt)
    (hs : l.shards[l.cnt - 1]? = some (some s)) : l.checkTombstone isamFiltered stop r = .error .ub := by
  unfold Level.checkTombstone
  rw [if_neg (by omega)]
  obtain ⟨n, hn⟩ : ∃ n, l.cnt = n + 1 := ⟨l.cnt - 1, by omega⟩
  rw [hn] at hs hc ⊢
  rw [Level.checkFrom, if_neg (by omega)]
  simp only [Nat.add_sub_cancel] at hs
  simp [getR, hs, isamFiltered, bind, Except.bind]

/-- The level after flushing one buffer, built as by `append_buffer`. -/
def flushedLevel (ops : List (Rec × Bool)) : Res (Level Rec) := do
  let b ← fillBuf 4 6 ops
  (Level.new 0 2).appendBuffer (sortedImpl PQ.std (pgmLB (K := Nat) (fun ks _ => ⟨0, ks.length⟩))) b.view

/-- A filter without collisions. -/
def listFilter : BFilter Rec (List Rec) := ⟨[], fun f r => r :: f, fun f r => decide (r ∈ f)⟩

/-- C86 is false for the other classes: a record inserted twice and erased twice leaves a live copy followed by a tombstone
in the flushed shard; the lookup stops at the live copy and the check answers `false`. -/
theorem C86_false : ∃ l : Level Rec, flushedLevel [(⟨1, 1⟩, false), (⟨1, 1⟩, false), (⟨1, 1⟩, true), (⟨1, 1⟩, true)] = .ok l ∧
    HasTomb l 0 ⟨1, 1⟩ ∧
    l.checkTombstone (plainFiltered (pgmLB (K := Nat) (fun ks _ => ⟨0, ks.length⟩))) 0 ⟨1, 1⟩ = .ok false ∧
    l.checkTombstone (plainFiltered (tsLB (K := Nat) (fun ks _ => ⟨0, ks.length⟩))) 0 ⟨1, 1⟩ = .ok false ∧
    l.checkTombstone (aliasFiltered Nat listFilter) 0 ⟨1, 1⟩ = .ok false := by
  refine ⟨⟨0, 1, [some ⟨[⟨0, ⟨1, 1⟩⟩, ⟨1, ⟨1, 1⟩⟩], 1⟩, none], none⟩, by decide, ?_, by decide, by decide, by decide⟩
  exact ⟨0, ⟨[⟨0, ⟨1, 1⟩⟩, ⟨1, ⟨1, 1⟩⟩], 1⟩, by decide, by decide, rfl, ⟨1, ⟨1, 1⟩⟩, by decide, rfl, by decide⟩

/-- A level on which the check is right: the tombstone of key 2 was flushed, key 5 is live. -/
example : (do
    let l ← flushedLevel [(⟨5, 0⟩, false), (⟨2, 0⟩, true), (⟨8, 0⟩, false)]
    let a ← l.checkTombstone (plainFiltered (pgmLB (K := Nat) (fun ks _ => ⟨0, ks.length⟩))) 0 ⟨2, 0⟩
    let b ← l.checkTombstone (aliasFiltered Nat listFilter) 0 ⟨5, 0⟩
    let c ← l.checkTombstone (aliasFiltered Nat listFilter) 0 ⟨2, 0⟩
    .ok [a, b, c]) = .ok [true, false, true] := by decide
example : listFilter.NoFalseNeg := by
  intro l r hr
  have : ∀ (l acc : List Rec), (l.foldl listFilter.insert acc) = l.reverse ++ acc := by
    intro l
    induction l with
    | nil => intro acc; rfl
    | cons x xs ih => intro acc; rw [List.foldl_cons, ih]; simp [listFilter]
  rw [this]
  simp [listFilter, hr]

end DE
