import Verif.Proofs.Buffer

/-!
Abstraction of the structure to the list of levels, each a list of shards, for leveling and tiering,
and the refinement between the two.
-/

namespace DE
variable {R : Type}

/-- records in a list of shards -/
def recs (ss : List (Shard R)) : Nat := (ss.map (·.data.length)).sum

/-- Abstract form of "can sustain". -/
def absCan (L : Layout) (bs sf : Nat) (A : List (List (Shard R))) (idx n : Nat) : Bool :=
  match A[idx]? with
  | none => false
  | some ss =>
    match L with
    | .leveling => decide (recs ss + n ≤ Struct.levelCap bs sf idx)
    | .bsm => decide (recs ss = 0)
    | .tiering => decide (ss.length < sf)

/-- What one level must look like (leveling and tiering). -/
structure LInv (L : Layout) (bs sf i : Nat) (l : Level R) (s : LState) : Prop where
  shards : l.shards = l.visible.map some ++ List.replicate (Struct.shardCap L sf - l.cnt) none
  cnt : l.visible.length = l.cnt
  le : l.cnt ≤ Struct.shardCap L sf
  pending : l.pending = none
  no : L = .leveling → l.visible ≠ [] → l.no = 0
  state : s = { reccnt := l.recordCount, reccap := Struct.levelCap bs sf i
                shardcnt := l.cnt, shardcap := Struct.shardCap L sf }

/-- What the structure must look like (leveling and tiering). -/
structure SInv (L : Layout) (st : Struct R) : Prop where
  len : st.levels.length = st.state.length
  lvl : ∀ i l s, st.levels[i]? = some l → st.state[i]? = some s → LInv L st.bufSize st.sf i l s

/-- The visible shards by level. -/
def Struct.abs (st : Struct R) : List (List (Shard R)) := st.levels.map Level.visible

theorem visible_new (no cap : Nat) : (Level.new no cap : Level R).visible = [] := by
  simp [Level.new, Level.visible]

theorem recordCount_eq (l : Level R) : l.recordCount = recs l.visible := rfl

theorem linv_new (L : Layout) (bs sf i no : Nat) :
    LInv L bs sf i (Level.new no (Struct.shardCap L sf) : Level R)
      { reccnt := 0, reccap := Struct.levelCap bs sf i, shardcnt := 0, shardcap := Struct.shardCap L sf } where
  shards := by rw [visible_new]; simp [Level.new]
  cnt := by rw [visible_new]; simp [Level.new]
  le := by simp [Level.new]
  pending := rfl
  no := by intro _ h; rw [visible_new] at h; exact absurd rfl h
  state := by rw [recordCount_eq, visible_new]; simp [Level.new, recs]

theorem filterMap_some_none (vis : List (Shard R)) (k : Nat) :
    (vis.map some ++ List.replicate k none).filterMap id = vis := by
  induction vis with
  | nil => simp
  | cons a l ih => simpa using ih

theorem visible_of {vis : List (Shard R)} {k no : Nat} {p : Option (Shard R)} :
    ({ no := no, cnt := vis.length, shards := vis.map some ++ List.replicate k none, pending := p } :
      Level R).visible = vis := by
  unfold Level.visible
  simp only
  rw [List.take_append_of_le_length (by simp), List.take_of_length_le (by simp)]
  simpa using filterMap_some_none vis 0

theorem LInv.present {L : Layout} {bs sf i : Nat} {l : Level R} {s : LState} (h : LInv L bs sf i l s) :
    l.present = l.visible := by
  unfold Level.present
  rw [h.shards, filterMap_some_none]

theorem SInv.can {L : Layout} {st : Struct R} (h : SInv L st) (idx n : Nat) :
    Struct.canReconstructWith L idx n st.state = absCan L st.bufSize st.sf st.abs idx n := by
  unfold Struct.canReconstructWith absCan Struct.abs
  rw [List.getElem?_map]
  cases hl : st.levels[idx]? with
  | none =>
    have : st.state[idx]? = none := by
      rw [List.getElem?_eq_none_iff] at *; rw [← h.len]; exact hl
    simp [this]
  | some l =>
    have hi : idx < st.levels.length := by
      by_contra hc; rw [List.getElem?_eq_none (by omega)] at hl; cases hl
    obtain ⟨s, hs⟩ : ∃ s, st.state[idx]? = some s := ⟨_, List.getElem?_eq_getElem (by rw [← h.len]; exact hi)⟩
    rw [hs]
    have hi := h.lvl idx l s hl hs
    have h1 := hi.state
    have h2 := hi.cnt
    clear hi
    cases L <;> simp [h1, h2, recordCount_eq, Struct.shardCap]

/-- Abstract form of combining a source level into a target level. -/
def absComb (L : Layout) (I : ShardImpl R) (dst src : List (Shard R)) : Res (List (Shard R)) :=
  match L with
  | .leveling =>
    match dst, src with
    | d :: _, s :: _ => do
      let m ← I.merge [some d, some s]
      .ok [m]
    | _, _ => .ok src
  | _ => do
    let m ← I.merge (src.map some)
    .ok (dst ++ [m])

/-- Abstract form of moving level `k` into level `k+1`. -/
def absStep (L : Layout) (I : ShardImpl R) (A : List (List (Shard R))) (k : Nat) : Res (List (List (Shard R))) := do
  let A := if k + 1 ≥ A.length then A ++ [[]] else A
  let dst ← getR A (k+1)
  let src ← getR A k
  let nd ← absComb L I dst src
  .ok ((A.set (k+1) nd).set k [])

/-- Abstract form of the chain of moves `k-1 → k, ..., 0 → 1`. -/
def absRun (L : Layout) (I : ShardImpl R) : Nat → List (List (Shard R)) → Res (List (List (Shard R)))
  | 0, A => .ok A
  | k+1, A => do
    let A ← absStep L I A k
    absRun L I k A

/-- concrete chain of moves -/
def runDown (L : Layout) (I : ShardImpl R) : Nat → Struct R → Res (Struct R)
  | 0, st => .ok st
  | k+1, st => do
    let st ← Struct.reconstruct L I st (k+1) k
    runDown L I k st

theorem SInv.push {L : Layout} {st : Struct R} (h : SInv L st) :
    SInv L { st with levels := st.levels ++ [Level.new st.levels.length (Struct.shardCap L st.sf)]
                     state := st.state ++ [{ reccnt := 0, reccap := Struct.levelCap st.bufSize st.sf st.levels.length
                                             shardcnt := 0, shardcap := Struct.shardCap L st.sf }] } where
  len := by simp [h.len]
  lvl := by
    intro i l s hl hs
    simp only at hl hs ⊢
    rw [List.getElem?_append] at hl hs
    rw [← h.len] at hs
    split at hl
    · next hi =>
      rw [if_pos hi] at hs
      exact h.lvl i l s hl hs
    · next hi =>
      rw [if_neg hi] at hs
      have : i = st.levels.length := by
        by_contra hne
        rw [List.getElem?_eq_none (by simp; omega)] at hl; cases hl
      subst this
      simp at hl hs
      rw [← hl, ← hs]
      exact linv_new _ _ _ _ _

/-- Writing a level and its state keeps the invariant. -/
theorem SInv.set {L : Layout} {st : Struct R} (h : SInv L st) {j : Nat} {nl : Level R} {ns : LState}
    (hj : LInv L st.bufSize st.sf j nl ns) :
    SInv L { st with levels := st.levels.set j nl, state := st.state.set j ns } where
  len := by simp [h.len]
  lvl := by
    intro i l s hl hs
    simp only at hl hs ⊢
    rw [List.getElem?_set] at hl hs
    split at hl
    · next hij =>
      subst hij
      rw [if_pos rfl] at hs
      split at hl
      · split at hs
        · cases hl; cases hs; exact hj
        · cases hs
      · cases hl
    · next hij =>
      rw [if_neg hij] at hs
      exact h.lvl i l s hl hs

theorem getElem?_of_lt {α : Type} {l : List α} {i : Nat} (h : i < l.length) : ∃ a, l[i]? = some a :=
  ⟨_, List.getElem?_eq_getElem h⟩

/-- The new level produced by appending a shard. -/
theorem linv_append {L : Layout} {bs sf i : Nat} {l : Level R} {s : LState} (h : LInv L bs sf i l s)
    (hroom : l.cnt < Struct.shardCap L sf) (hL : L ≠ .leveling) (m : Shard R) :
    let nl : Level R := { l with shards := l.shards.set l.cnt (some m), cnt := l.cnt + 1 }
    nl.visible = l.visible ++ [m] ∧
    LInv L bs sf i nl { reccnt := nl.recordCount, reccap := Struct.levelCap bs sf i
                        shardcnt := nl.cnt, shardcap := Struct.shardCap L sf } := by
  intro nl
  have hsh : nl.shards = (l.visible ++ [m]).map some ++
      List.replicate (Struct.shardCap L sf - (l.cnt + 1)) none := by
    show l.shards.set l.cnt (some m) = _
    rw [h.shards, List.set_append_right _ _ (by simp [h.cnt])]
    simp only [List.length_map, h.cnt, Nat.sub_self]
    rw [show Struct.shardCap L sf - l.cnt = (Struct.shardCap L sf - (l.cnt + 1)) + 1 by omega,
      List.replicate_succ]
    simp
  have hv : nl.visible = l.visible ++ [m] := by
    have : nl = { no := l.no, cnt := (l.visible ++ [m]).length
                  shards := (l.visible ++ [m]).map some ++
                    List.replicate (Struct.shardCap L sf - (l.cnt + 1)) none
                  pending := l.pending } := by
      rw [← hsh]; simp [nl, h.cnt]
    rw [this]; exact visible_of
  refine ⟨hv, ?_, ?_, ?_, h.pending, ?_, rfl⟩
  · rw [hv]; exact hsh
  · rw [hv]; simp [nl, h.cnt]
  · show l.cnt + 1 ≤ _; omega
  · intro h'; exact absurd h' hL

/-- The single-shard level of leveling. -/
theorem linv_single {bs sf i : Nat} (m : Shard R) :
    let nl : Level R := { no := 0, cnt := 1, shards := [some m], pending := none }
    nl.visible = [m] ∧
    LInv .leveling bs sf i nl { reccnt := nl.recordCount, reccap := Struct.levelCap bs sf i
                                shardcnt := 1, shardcap := 1 } := by
  intro nl
  have hv : nl.visible = [m] := rfl
  exact ⟨hv, rfl, rfl, le_refl _, rfl, fun _ _ => rfl, rfl⟩

theorem LInv.leveling_nonempty {bs sf i : Nat} {l : Level R} {s : LState} (h : LInv .leveling bs sf i l s)
    (hne : l.visible ≠ []) : ∃ d, l.visible = [d] ∧ l.cnt = 1 ∧ l.shards = [some d] ∧ l.no = 0 := by
  have hl := h.le
  have hc := h.cnt
  simp only [Struct.shardCap] at hl
  match hv : l.visible with
  | [] => exact absurd hv hne
  | [d] =>
    have h1 : l.cnt = 1 := by rw [← hc, hv]; rfl
    refine ⟨d, rfl, h1, ?_, h.no rfl hne⟩
    have := h.shards; rw [hv, h1] at this; simpa [Struct.shardCap] using this
  | d :: e :: r => rw [hv] at hc; simp at hc; omega

/-- Any leveling level can be re-indexed (a level is moved down by pointer). -/
theorem LInv.move {L : Layout} {bs sf i j : Nat} {l : Level R} {s : LState} (h : LInv L bs sf i l s) :
    LInv L bs sf j l { reccnt := l.recordCount, reccap := Struct.levelCap bs sf j
                       shardcnt := l.cnt, shardcap := Struct.shardCap L sf } :=
  ⟨h.shards, h.cnt, h.le, h.pending, h.no, rfl⟩

/-- A move is allowed: the source is non-empty and, for tiering, the target has a free slot. -/
def StepPre (L : Layout) (sf : Nat) (A : List (List (Shard R))) (k : Nat) : Prop :=
  (∃ src, A[k]? = some src ∧ src ≠ []) ∧
  (L = .tiering → 0 < sf ∧ ∀ dst, A[k+1]? = some dst → dst.length < sf)

/-- Refinement of one move. -/
theorem reconstruct_abs {L : Layout} (hL : L ≠ .bsm) (I : ShardImpl R) {st : Struct R} (h : SInv L st) {k : Nat}
    (hp : StepPre L st.sf st.abs k) :
    (∃ e, Struct.reconstruct L I st (k+1) k = .error e ∧ absStep L I st.abs k = .error e) ∨
    (∃ st', Struct.reconstruct L I st (k+1) k = .ok st' ∧ absStep L I st.abs k = .ok st'.abs ∧
      SInv L st' ∧ st'.bufSize = st.bufSize ∧ st'.sf = st.sf) := by
  obtain ⟨⟨src, hsrc, hne⟩, hroom⟩ := hp
  have hklen : k < st.levels.length := by
    by_contra hc
    rw [List.getElem?_eq_none (by simp [Struct.abs]; omega)] at hsrc; cases hsrc
  -- the structure after possibly growing
  obtain ⟨st1, hst1, hinv1, habs1, hbs1, hsf1, hlen1⟩ : ∃ st1 : Struct R,
      (if k + 1 ≥ st.levels.length then
        { st with levels := st.levels ++ [Level.new (k+1) (Struct.shardCap L st.sf)]
                  state := st.state ++ [{ reccnt := 0, reccap := Struct.levelCap st.bufSize st.sf (k+1)
                                          shardcnt := 0, shardcap := Struct.shardCap L st.sf }] }
       else st) = st1 ∧ SInv L st1 ∧
      st1.abs = (if k + 1 ≥ st.abs.length then st.abs ++ [[]] else st.abs) ∧
      st1.bufSize = st.bufSize ∧ st1.sf = st.sf ∧ k + 1 < st1.levels.length := by
    by_cases hg : k + 1 ≥ st.levels.length
    · have hk : k + 1 = st.levels.length := by omega
      refine ⟨_, rfl, ?_, ?_, ?_, ?_, ?_⟩
      · rw [if_pos hg, hk]; exact h.push
      · rw [if_pos hg, if_pos (by simpa [Struct.abs] using hg)]
        simp [Struct.abs, visible_new]
      · rw [if_pos hg]
      · rw [if_pos hg]
      · rw [if_pos hg]; simp; omega
    · refine ⟨st, by rw [if_neg hg], h, ?_, rfl, rfl, by omega⟩
      rw [if_neg (by simpa [Struct.abs] using hg)]
  -- relevant levels
  obtain ⟨lb, hlb⟩ := getElem?_of_lt hlen1
  obtain ⟨li, hli⟩ := getElem?_of_lt (l := st1.levels) (i := k) (by omega)
  obtain ⟨sb, hsb⟩ := getElem?_of_lt (l := st1.state) (i := k+1) (by rw [← hinv1.len]; omega)
  obtain ⟨si, hsi⟩ := getElem?_of_lt (l := st1.state) (i := k) (by rw [← hinv1.len]; omega)
  have ib := hinv1.lvl _ _ _ hlb hsb
  have ii := hinv1.lvl _ _ _ hli hsi
  have hAb : st1.abs[k+1]? = some lb.visible := by simp [Struct.abs, hlb]
  have hAi : st1.abs[k]? = some li.visible := by simp [Struct.abs, hli]
  have hsrcv : li.visible = src := by
    rw [habs1] at hAi
    split at hAi
    · rw [List.getElem?_append_left (by simpa [Struct.abs] using hklen), hsrc] at hAi
      exact (Option.some.inj hAi).symm
    · rw [hsrc] at hAi; exact (Option.some.inj hAi).symm
  have hroom' : L = .tiering → lb.cnt < st.sf := by
    intro hT
    rw [← ib.cnt]
    obtain ⟨hsf, hr⟩ := hroom hT
    by_cases hd : ∃ dst, st.abs[k+1]? = some dst
    · obtain ⟨dst, hd⟩ := hd
      have : lb.visible = dst := by
        rw [habs1] at hAb
        split at hAb
        · rw [List.getElem?_append_left] at hAb
          · rw [hd] at hAb; exact (Option.some.inj hAb).symm
          · by_contra hc; rw [List.getElem?_eq_none (by omega)] at hd; cases hd
        · rw [hd] at hAb; exact (Option.some.inj hAb).symm
      rw [this]; exact hr dst hd
    · have hnone : st.abs[k+1]? = none := by
        cases hx : st.abs[k+1]? with
        | none => rfl
        | some d => exact absurd ⟨d, hx⟩ hd
      have hge := List.getElem?_eq_none_iff.mp hnone
      rw [habs1, if_pos hge] at hAb
      have hlenA : st.abs.length = k + 1 := by
        have : st.abs.length = st.levels.length := by simp [Struct.abs]
        omega
      rw [List.getElem?_append_right (by omega), hlenA] at hAb
      simp at hAb
      rw [hAb]; simpa using hsf
  -- shape of the abstract step
  have habsStep : absStep L I st.abs k = (do
      let nd ← absComb L I lb.visible li.visible
      .ok ((st1.abs.set (k+1) nd).set k [])) := by
    unfold absStep
    rw [← habs1]
    simp only [getR, hAb, hAi]
    rfl
  have hrec : Struct.reconstruct L I st (k+1) k = (do
      let nb ← Struct.newBase L I lb li
      .ok { st1 with
        levels := (st1.levels.set (k+1) nb).set k (Level.new k (Struct.shardCap L st.sf))
        state := (st1.state.set (k+1)
            { reccnt := nb.recordCount, reccap := Struct.levelCap st.bufSize st.sf (k+1)
              shardcnt := nb.cnt, shardcap := Struct.shardCap L st.sf }).set k
            { reccnt := 0, reccap := Struct.levelCap st.bufSize st.sf k, shardcnt := 0
              shardcap := Struct.shardCap L st.sf } }) := by
    unfold Struct.reconstruct
    simp only
    rw [hst1]
    simp only [getR, hlb, hli, hbs1, hsf1]
    rfl
  -- how to conclude from the new target level
  have finish : ∀ nb : Level R,
      LInv L st.bufSize st.sf (k+1) nb
        { reccnt := nb.recordCount, reccap := Struct.levelCap st.bufSize st.sf (k+1)
          shardcnt := nb.cnt, shardcap := Struct.shardCap L st.sf } →
      let st' : Struct R := { st1 with
        levels := (st1.levels.set (k+1) nb).set k (Level.new k (Struct.shardCap L st.sf))
        state := (st1.state.set (k+1)
            { reccnt := nb.recordCount, reccap := Struct.levelCap st.bufSize st.sf (k+1)
              shardcnt := nb.cnt, shardcap := Struct.shardCap L st.sf }).set k
            { reccnt := 0, reccap := Struct.levelCap st.bufSize st.sf k, shardcnt := 0
              shardcap := Struct.shardCap L st.sf } }
      st'.abs = (st1.abs.set (k+1) nb.visible).set k [] ∧ SInv L st' ∧
        st'.bufSize = st.bufSize ∧ st'.sf = st.sf := by
    intro nb hnb st'
    refine ⟨?_, ?_, hbs1, hsf1⟩
    · simp [st', Struct.abs, List.map_set, visible_new]
    · have h1 := hinv1.set (j := k+1) (nl := nb)
        (ns := { reccnt := nb.recordCount, reccap := Struct.levelCap st.bufSize st.sf (k+1)
                 shardcnt := nb.cnt, shardcap := Struct.shardCap L st.sf })
        (by rw [hbs1, hsf1]; exact hnb)
      exact h1.set (j := k) (nl := Level.new k (Struct.shardCap L st.sf))
        (ns := { reccnt := 0, reccap := Struct.levelCap st.bufSize st.sf k, shardcnt := 0
                 shardcap := Struct.shardCap L st.sf })
        (by simp only; rw [hbs1, hsf1]; exact linv_new _ _ _ _ _)
  rw [habsStep, hrec]
  rw [hbs1, hsf1] at ib ii
  suffices hs : (∃ e, Struct.newBase L I lb li = .error e ∧ absComb L I lb.visible li.visible = .error e) ∨
      (∃ nb, Struct.newBase L I lb li = .ok nb ∧ absComb L I lb.visible li.visible = .ok nb.visible ∧
        LInv L st.bufSize st.sf (k+1) nb
          { reccnt := nb.recordCount, reccap := Struct.levelCap st.bufSize st.sf (k+1)
            shardcnt := nb.cnt, shardcap := Struct.shardCap L st.sf }) by
    rcases hs with ⟨e, h1, h2⟩ | ⟨nb, h1, h2, h3⟩
    · left; exact ⟨e, by rw [h1]; rfl, by rw [h2]; rfl⟩
    · right
      obtain ⟨f1, f2⟩ := finish nb h3
      exact ⟨_, by rw [h1]; rfl, by rw [h2, f1]; rfl, f2⟩
  cases L with
  | bsm => exact absurd rfl hL
  | leveling =>
    simp only [Struct.newBase, absComb]
    have hine : li.visible ≠ [] := by rw [hsrcv]; exact hne
    obtain ⟨s0, hiv, hicnt, hish, hino⟩ := ii.leveling_nonempty hine
    by_cases hb0 : lb.visible = []
    · have hc0 : lb.cnt = 0 := by rw [← ib.cnt, hb0]; rfl
      right
      rw [if_neg (by omega), hb0]
      exact ⟨li, rfl, rfl, ii.move⟩
    · obtain ⟨d0, hbv, hbcnt, hbsh, hbno⟩ := ib.leveling_nonempty hb0
      rw [if_pos (by omega)]
      unfold Level.reconstruct2
      rw [hbv, hiv, hbsh, hish, hbno, hino]
      simp only [getR, assertC]
      cases hm : I.merge [some d0, some s0] with
      | error e => left; exact ⟨e, by simp [bind, Except.bind, hm], by simp [bind, Except.bind]⟩
      | ok m =>
        right
        have hf := linv_single (R := R) (bs := st.bufSize) (sf := st.sf) (i := k+1) m
        refine ⟨_, by simp [bind, Except.bind, hm], ?_, hf.2⟩
        rw [hf.1]; simp [bind, Except.bind]
  | tiering =>
    simp only [Struct.newBase, absComb]
    have hic : li.cnt ≠ 0 := by rw [← ii.cnt, hsrcv]; simpa using hne
    have hbl : lb.shards.length = st.sf := by
      rw [ib.shards]; simp [Struct.shardCap, ib.cnt]
      have := hroom' rfl; omega
    unfold Level.appendLevel
    rw [if_neg hic, ii.present]
    cases hm : I.merge (li.visible.map some) with
    | error e => left; exact ⟨e, by simp [bind, Except.bind], by simp [bind, Except.bind]⟩
    | ok m =>
      right
      have hne' : lb.cnt ≠ lb.shards.length := by have := hroom' rfl; omega
      have hf := linv_append ib (hroom' rfl) (by simp) m
      refine ⟨_, by simp [bind, Except.bind, hne', Level.finalize, ib.pending], ?_, hf.2⟩
      rw [hf.1]; simp [bind, Except.bind]

end DE
