import Verif.Proofs.Flush
import Verif.Proofs.Reduces

/-!
What flushes preserve: any shard predicate, the bag of entries up to cancellation, record counts.
-/

namespace DE
variable {R : Type}

theorem sum_set {M α : Type} [AddCommMonoid M] (f : α → M) : ∀ {A : List α} {k : Nat} {x : α}, A[k]? = some x →
    ∃ rest, (A.map f).sum = rest + f x ∧ ∀ y, ((A.set k y).map f).sum = rest + f y
  | [], k, x, h => by simp at h
  | a :: A, 0, x, h => by
    simp at h; subst h
    exact ⟨(A.map f).sum, by simp [add_comm], fun y => by simp [add_comm]⟩
  | a :: A, k+1, x, h => by
    obtain ⟨rest, h1, h2⟩ := sum_set f (A := A) (k := k) (x := x) (by simpa using h)
    refine ⟨f a + rest, by simp [h1, add_assoc], fun y => by simp [-List.map_set, h2, add_assoc]⟩

theorem sum_set2 {M α : Type} [AddCommMonoid M] (f : α → M) {A : List α} {k j : Nat} {x y : α} (hkj : k ≠ j)
    (hx : A[k]? = some x) (hy : A[j]? = some y) :
    ∃ rest, (A.map f).sum = rest + f x + f y ∧ ∀ x' y', (((A.set k x').set j y').map f).sum = rest + f x' + f y' := by
  obtain ⟨r1, h1, h2⟩ := sum_set f hx
  -- isolate `f y` in a version of `A` independent of `x'`
  induction A generalizing k j r1 with
  | nil => simp at hx
  | cons a A ih =>
    cases k with
    | zero =>
      cases j with
      | zero => exact absurd rfl hkj
      | succ j =>
        simp at hx; subst hx
        obtain ⟨r, g1, g2⟩ := sum_set f (A := A) (k := j) (x := y) (by simpa using hy)
        exact ⟨r, by simp [g1, add_comm, add_left_comm], fun x' y' => by simp [-List.map_set, g2, add_comm, add_left_comm]⟩
    | succ k =>
      cases j with
      | zero =>
        simp at hy; subst hy
        obtain ⟨r, g1, g2⟩ := sum_set f (A := A) (k := k) (x := x) (by simpa using hx)
        exact ⟨r, by simp [g1, add_comm], fun x' y' => by simp [-List.map_set, g2, add_comm]⟩
      | succ j =>
        have hx' : A[k]? = some x := by simpa using hx
        obtain ⟨r0, e1, e2⟩ := sum_set f hx'
        obtain ⟨r, g1, g2⟩ := ih (k := k) (j := j) (by omega) hx' (by simpa using hy) r0 e1 e2
        exact ⟨f a + r, by simp [g1, add_assoc], fun x' y' => by simp [-List.map_set, g2, add_assoc]⟩

/-- bag of entries of a list of shards -/
def sents (ss : List (Shard R)) : Multiset (Entry R) := (ss.map (fun s => ents s.data)).sum

/-- bag of entries of all levels -/
def aents (A : List (List (Shard R))) : Multiset (Entry R) := (A.map sents).sum

theorem sents_nil : sents ([] : List (Shard R)) = 0 := rfl
theorem sents_append (a b : List (Shard R)) : sents (a ++ b) = sents a + sents b := by simp [sents]
theorem sents_single (s : Shard R) : sents [s] = ents s.data := by simp [sents]
theorem card_sents (ss : List (Shard R)) : Multiset.card (sents ss) = recs ss := by
  induction ss with
  | nil => rfl
  | cons s ss ih =>
    have : sents (s :: ss) = ents s.data + sents ss := by simp [sents]
    rw [this, Multiset.card_add, card_ents, ih]; simp [recs]

/-- Contract of a shard class: its constructors keep the net content (dropping tagged records and
cancelling pairs) and count tombstones correctly. -/
structure ShardImpl.Conserving (I : ShardImpl R) : Prop where
  build : ∀ v l s, v.Reads l → I.build v = .ok s →
    Reduces (fun e => e.del = true) (ents l) (ents s.data)
  merge : ∀ (ss : List (Shard R)) s, I.merge (ss.map some) = .ok s →
    Reduces (fun e => e.del = true) (sents ss) (ents s.data)

/-- Levels of leveling hold at most one shard. -/
def Single (L : Layout) (A : List (List (Shard R))) : Prop := L = .leveling → ∀ ss ∈ A, ss.length ≤ 1

theorem SInv.single {L : Layout} {st : Struct R} (h : SInv L st) : Single L st.abs := by
  intro hL ss hss
  subst hL
  simp only [Struct.abs, List.mem_map] at hss
  obtain ⟨l, hl, rfl⟩ := hss
  obtain ⟨i, hi, rfl⟩ := List.mem_iff_getElem.mp hl
  obtain ⟨s, hs⟩ := getElem?_of_lt (l := st.state) (i := i) (by rw [← h.len]; exact hi)
  have := h.lvl i _ s (List.getElem?_eq_getElem hi) hs
  rw [this.cnt]; exact this.le

/-- What a combination of two levels can be. -/
theorem absComb_cases {L : Layout} (hL : L ≠ .bsm) {I : ShardImpl R} {dst src nd : List (Shard R)}
    (h : absComb L I dst src = .ok nd) (h1 : L = .leveling → dst.length ≤ 1 ∧ src.length ≤ 1) (hs : src ≠ []) :
    (L = .leveling ∧ dst = [] ∧ nd = src) ∨
    (L = .leveling ∧ ∃ m, I.merge ((dst ++ src).map some) = .ok m ∧ nd = [m] ∧ dst ≠ []) ∨
    (L = .tiering ∧ ∃ m, I.merge (src.map some) = .ok m ∧ nd = dst ++ [m]) := by
  cases L with
  | bsm => exact absurd rfl hL
  | leveling =>
    obtain ⟨hd, hsl⟩ := h1 rfl
    match src, hs, hsl with
    | [s], _, _ =>
      match dst, hd with
      | [], _ => left; simp [absComb] at h; exact ⟨rfl, rfl, h.symm⟩
      | [d], _ =>
        right; left
        simp only [absComb, bind_ok] at h
        obtain ⟨m, hm, he⟩ := h
        exact ⟨rfl, m, by simpa using hm, (Except.ok.inj he).symm, by simp⟩
      | _ :: _ :: _, hd => simp at hd
    | _ :: _ :: _, _, h => simp at h
  | tiering =>
    right; right
    simp only [absComb, bind_ok] at h
    obtain ⟨m, hm, he⟩ := h
    exact ⟨rfl, m, hm, (Except.ok.inj he).symm⟩

theorem absComb_reduces {L : Layout} (hL : L ≠ .bsm) {I : ShardImpl R} (hI : I.Conserving) {dst src nd : List (Shard R)}
    (h : absComb L I dst src = .ok nd) (h1 : L = .leveling → dst.length ≤ 1 ∧ src.length ≤ 1) (hs : src ≠ []) :
    Reduces (fun e => e.del = true) (sents dst + sents src) (sents nd) := by
  rcases absComb_cases hL h h1 hs with ⟨-, rfl, rfl⟩ | ⟨-, m, hm, rfl, -⟩ | ⟨-, m, hm, rfl⟩
  · exact Reduces.of_eq (by simp [sents_nil])
  · have := (hI.merge _ _ hm)
    rw [sents_append] at this; rw [sents_single]; exact this
  · rw [sents_append, sents_single]
    exact (Reduces.refl _).add (hI.merge _ _ hm)

theorem absNew0_cases {L : Layout} (hL : L ≠ .bsm) {I : ShardImpl R} {old n : List (Shard R)} {v : View R}
    (h : absNew0 L I old v = .ok n) (h1 : L = .leveling → old.length ≤ 1) :
    ∃ s, I.build v = .ok s ∧
    ((L = .leveling ∧ old = [] ∧ n = [s]) ∨
     (L = .leveling ∧ ∃ m, I.merge ((old ++ [s]).map some) = .ok m ∧ n = [m] ∧ old ≠ []) ∨
     (L = .tiering ∧ n = old ++ [s])) := by
  unfold absNew0 at h
  rw [bind_ok] at h
  obtain ⟨s, hs, h⟩ := h
  refine ⟨s, hs, ?_⟩
  cases L with
  | bsm => exact absurd rfl hL
  | leveling =>
    match old, h1 rfl with
    | [], _ => left; exact ⟨rfl, rfl, (Except.ok.inj h).symm⟩
    | [d], _ =>
      right; left
      simp only [bind_ok] at h
      obtain ⟨m, hm, he⟩ := h
      exact ⟨rfl, m, by simpa using hm, (Except.ok.inj he).symm, by simp⟩
    | _ :: _ :: _, hd => simp at hd
  | tiering => right; right; exact ⟨rfl, (Except.ok.inj h).symm⟩

theorem absNew0_reduces {L : Layout} (hL : L ≠ .bsm) {I : ShardImpl R} (hI : I.Conserving) {old n : List (Shard R)}
    {v : View R} {l : List (Wrapped R)} (hv : v.Reads l)
    (h : absNew0 L I old v = .ok n) (h1 : L = .leveling → old.length ≤ 1) :
    Reduces (fun e => e.del = true) (sents old + ents l) (sents n) := by
  obtain ⟨s, hs, hc⟩ := absNew0_cases hL h h1
  have hb := hI.build v l s hv hs
  rcases hc with ⟨-, rfl, rfl⟩ | ⟨-, m, hm, rfl, -⟩ | ⟨-, rfl⟩
  · rw [sents_nil, sents_single, zero_add]; exact hb
  · have := (hI.merge _ _ hm)
    rw [sents_append, sents_single] at this; rw [sents_single]
    exact ((Reduces.refl _).add hb).trans this
  · rw [sents_append, sents_single]; exact (Reduces.refl _).add hb

theorem mem_of_getElem? {α : Type} {l : List α} {i : Nat} {a : α} (h : l[i]? = some a) : a ∈ l :=
  List.mem_of_getElem? h

/-- Everything a single move does, in one place. -/
theorem absStep_facts {L : Layout} {I : ShardImpl R} {sf : Nat} {A A' : List (List (Shard R))} {k : Nat}
    (hp : StepPre L sf A k) (h : absStep L I A k = .ok A') (h1 : Single L A) :
    ∃ dst src nd, A[k]? = some src ∧ src ≠ [] ∧ absComb L I dst src = .ok nd ∧
      (dst = [] ∧ A.length = k + 1 ∨ A[k+1]? = some dst) ∧
      (L = .leveling → dst.length ≤ 1 ∧ src.length ≤ 1) ∧
      A'[k+1]? = some nd ∧ A'[k]? = some [] ∧ (∀ j, j ≠ k → j ≠ k+1 → A'[j]? = A[j]?) ∧
      (∀ {M : Type} [AddCommMonoid M] (f : List (Shard R) → M), f [] = 0 →
        ∃ rest, (A.map f).sum = rest + f dst + f src ∧ (A'.map f).sum = rest + f nd) := by
  obtain ⟨⟨src', hsrc', hne⟩, hroom⟩ := hp
  have hk := lt_of_getElem? hsrc'
  obtain ⟨A1, dst, src, nd, hA1, hd, hs1, hs, hn, he, hlen, hor⟩ := absStep_ok hk h
  obtain rfl : src = src' := Option.some.inj (hs.symm.trans hsrc')
  have hdl : L = .leveling → dst.length ≤ 1 ∧ src.length ≤ 1 := by
    intro hL
    refine ⟨?_, h1 hL _ (mem_of_getElem? hs)⟩
    rcases hor with ⟨rfl, _⟩ | hor
    · simp
    · exact h1 hL _ (mem_of_getElem? hor)
  refine ⟨dst, src, nd, hs, hne, hn, hor, hdl, ?_, ?_, ?_, ?_⟩
  · rw [he, List.getElem?_set_ne (by omega), List.getElem?_set_self hlen]
  · exact absStep_src hk h
  · intro j hj1 hj2; exact absStep_other hk h hj1 hj2
  · intro M _ f hf
    obtain ⟨rest, g1, g2⟩ := sum_set2 f (show k+1 ≠ k by omega) hd hs1
    refine ⟨rest, ?_, ?_⟩
    · rw [← g1, hA1]
      split
      · simp [hf]
      · rfl
    · rw [he, g2, hf, add_zero]

theorem Single.step {L : Layout} (hL : L ≠ .bsm) {I : ShardImpl R} {sf : Nat} {A A' : List (List (Shard R))} {k : Nat}
    (hp : StepPre L sf A k) (h : absStep L I A k = .ok A') (h1 : Single L A) : Single L A' := by
  intro hlv ss hss
  obtain ⟨dst, src, nd, hs, hne, hn, hor, hdl, g1, g2, g3, -⟩ := absStep_facts hp h h1
  obtain ⟨i, hi, rfl⟩ := List.mem_iff_getElem.mp hss
  have hi' := List.getElem?_eq_getElem hi
  by_cases hik : i = k
  · subst hik; rw [g2] at hi'; rw [← Option.some.inj hi']; simp
  · by_cases hik1 : i = k+1
    · subst hik1
      rw [g1] at hi'; rw [← Option.some.inj hi']
      rcases absComb_cases hL hn hdl hne with ⟨-, -, rfl⟩ | ⟨-, m, -, rfl, -⟩ | ⟨hT, -⟩
      · exact (hdl hlv).2
      · simp
      · rw [hlv] at hT; cases hT
    · rw [g3 i hik hik1] at hi'
      exact h1 hlv _ (mem_of_getElem? hi')

theorem absRun_reduces {L : Layout} (hL : L ≠ .bsm) {I : ShardImpl R} (hI : I.Conserving) {sf : Nat} :
    ∀ (base : Nat) {A A' : List (List (Shard R))}, RunPre L sf A base → Single L A →
      absRun L I base A = .ok A' →
      Reduces (fun e => e.del = true) (aents A) (aents A') ∧ Single L A'
  | 0, A, A', _, h1, h => by cases h; exact ⟨Reduces.refl _, h1⟩
  | k+1, A, A', hp, h1, h => by
    rw [absRun, bind_ok] at h
    obtain ⟨A1, e1, e2⟩ := h
    obtain ⟨dst, src, nd, hs, hne, hn, hor, hdl, -, -, -, hsum⟩ := absStep_facts hp.step e1 h1
    obtain ⟨rest, s1, s2⟩ := hsum sents sents_nil
    obtain ⟨r1, r2⟩ := absRun_reduces hL hI k (hp.next e1) (h1.step hL hp.step e1) e2
    refine ⟨Reduces.trans ?_ r1, r2⟩
    unfold aents
    rw [s1, s2, add_assoc]
    exact (Reduces.refl _).add (absComb_reduces hL hI hn hdl hne)

theorem absL0_ok {L : Layout} {I : ShardImpl R} {A A' : List (List (Shard R))} {v : View R}
    (h : absL0 L I A v = .ok A') :
    ∃ old n, (withL0 A)[0]? = some old ∧ absNew0 L I old v = .ok n ∧ A' = (withL0 A).set 0 n ∧
      (old = [] ∧ A = [] ∨ A[0]? = some old) := by
  unfold absL0 at h
  simp only [bind_ok] at h
  obtain ⟨old, ho, n, hn, he⟩ := h
  have ho' : (withL0 A)[0]? = some old := by
    unfold getR at ho; split at ho
    · cases ho; assumption
    · cases ho
  refine ⟨old, n, ho', hn, (Except.ok.inj he).symm, ?_⟩
  unfold withL0 at ho'
  split at ho'
  · next h0 =>
    have : A = [] := List.eq_nil_of_length_eq_zero h0
    subst this
    simp at ho'; left; exact ⟨ho', rfl⟩
  · right; exact ho'

theorem withL0_sum {M : Type} [AddCommMonoid M] (f : List (Shard R) → M) (hf : f [] = 0) (A : List (List (Shard R))) :
    ((withL0 A).map f).sum = (A.map f).sum := by
  unfold withL0; split <;> simp [hf]

theorem absL0_reduces {L : Layout} (hL : L ≠ .bsm) {I : ShardImpl R} (hI : I.Conserving) {A A' : List (List (Shard R))}
    {v : View R} {l : List (Wrapped R)} (hv : v.Reads l) (h1 : Single L A) (h : absL0 L I A v = .ok A') :
    Reduces (fun e => e.del = true) (aents A + ents l) (aents A') := by
  obtain ⟨old, n, ho, hn, rfl, hor⟩ := absL0_ok h
  have hol : L = .leveling → old.length ≤ 1 := by
    intro hlv
    rcases hor with ⟨rfl, -⟩ | hor
    · simp
    · exact h1 hlv _ (mem_of_getElem? hor)
  obtain ⟨rest, s1, s2⟩ := sum_set sents ho
  unfold aents
  rw [← withL0_sum sents sents_nil, s1, s2, add_assoc]
  exact (Reduces.refl _).add (absNew0_reduces hL hI hv hn hol)

/-! ### Shard predicates -/

/-- every shard satisfies `Q` -/
def AllShards (Q : Shard R → Prop) (A : List (List (Shard R))) : Prop := ∀ ss ∈ A, ∀ s ∈ ss, Q s

theorem AllShards.getElem {Q : Shard R → Prop} {A : List (List (Shard R))} (h : AllShards Q A) {i : Nat} {ss : List (Shard R)}
    (hi : A[i]? = some ss) : ∀ s ∈ ss, Q s := h ss (mem_of_getElem? hi)

theorem AllShards.of_get {Q : Shard R → Prop} {A : List (List (Shard R))}
    (h : ∀ (i : Nat) (ss : List (Shard R)), A[i]? = some ss → ∀ s ∈ ss, Q s) : AllShards Q A := by
  intro ss hss
  obtain ⟨i, hi, rfl⟩ := List.mem_iff_getElem.mp hss
  exact h i _ (List.getElem?_eq_getElem hi)

theorem absComb_all {L : Layout} (hL : L ≠ .bsm) {I : ShardImpl R} {Q : Shard R → Prop}
    (hm : ∀ (ss : List (Shard R)) s, ss ≠ [] → (∀ x ∈ ss, Q x) → I.merge (ss.map some) = .ok s → Q s)
    {dst src nd : List (Shard R)} (hd : ∀ s ∈ dst, Q s) (hsr : ∀ s ∈ src, Q s)
    (h : absComb L I dst src = .ok nd) (h1 : L = .leveling → dst.length ≤ 1 ∧ src.length ≤ 1) (hs : src ≠ []) :
    ∀ s ∈ nd, Q s := by
  rcases absComb_cases hL h h1 hs with ⟨-, rfl, rfl⟩ | ⟨-, m, hmm, rfl, -⟩ | ⟨-, m, hmm, rfl⟩
  · exact hsr
  · intro s hss
    simp at hss; subst hss
    refine hm _ _ (by simp [hs]) ?_ hmm
    intro x hx; rcases List.mem_append.mp hx with hx | hx
    · exact hd x hx
    · exact hsr x hx
  · intro s hss
    rcases List.mem_append.mp hss with hx | hx
    · exact hd s hx
    · simp at hx; subst hx; exact hm _ _ hs hsr hmm

theorem absStep_all {L : Layout} (hL : L ≠ .bsm) {I : ShardImpl R} {Q : Shard R → Prop}
    (hm : ∀ (ss : List (Shard R)) s, ss ≠ [] → (∀ x ∈ ss, Q x) → I.merge (ss.map some) = .ok s → Q s)
    {sf : Nat} {A A' : List (List (Shard R))} {k : Nat} (hp : StepPre L sf A k) (h1 : Single L A)
    (hQ : AllShards Q A) (h : absStep L I A k = .ok A') : AllShards Q A' := by
  obtain ⟨dst, src, nd, hs, hne, hn, hor, hdl, g1, g2, g3, -⟩ := absStep_facts hp h h1
  apply AllShards.of_get
  intro i ss hi
  by_cases hik : i = k
  · subst hik; rw [g2] at hi; cases hi; simp
  · by_cases hik1 : i = k+1
    · subst hik1; rw [g1] at hi; cases hi
      refine absComb_all hL hm ?_ (hQ.getElem hs) hn hdl hne
      rcases hor with ⟨rfl, -⟩ | hor
      · simp
      · exact hQ.getElem hor
    · rw [g3 i hik hik1] at hi; exact hQ.getElem hi

theorem absRun_all {L : Layout} (hL : L ≠ .bsm) {I : ShardImpl R} {Q : Shard R → Prop}
    (hm : ∀ (ss : List (Shard R)) s, ss ≠ [] → (∀ x ∈ ss, Q x) → I.merge (ss.map some) = .ok s → Q s)
    {sf : Nat} : ∀ (base : Nat) {A A' : List (List (Shard R))}, RunPre L sf A base → Single L A →
      AllShards Q A → absRun L I base A = .ok A' → AllShards Q A' ∧ Single L A'
  | 0, A, A', _, h1, hQ, h => by cases h; exact ⟨hQ, h1⟩
  | k+1, A, A', hp, h1, hQ, h => by
    rw [absRun, bind_ok] at h
    obtain ⟨A1, e1, e2⟩ := h
    exact absRun_all hL hm k (hp.next e1) (h1.step hL hp.step e1) (absStep_all hL hm hp.step h1 hQ e1) e2

theorem absL0_all {L : Layout} (hL : L ≠ .bsm) {I : ShardImpl R} {Q : Shard R → Prop}
    (hm : ∀ (ss : List (Shard R)) s, ss ≠ [] → (∀ x ∈ ss, Q x) → I.merge (ss.map some) = .ok s → Q s)
    {A A' : List (List (Shard R))} {v : View R} (hb : ∀ s, I.build v = .ok s → Q s) (h1 : Single L A)
    (hQ : AllShards Q A) (h : absL0 L I A v = .ok A') : AllShards Q A' := by
  obtain ⟨old, n, ho, hn, rfl, hor⟩ := absL0_ok h
  have hol : L = .leveling → old.length ≤ 1 := by
    intro hlv
    rcases hor with ⟨rfl, -⟩ | hor
    · simp
    · exact h1 hlv _ (mem_of_getElem? hor)
  have hQ' : AllShards Q (withL0 A) := by
    unfold withL0; split
    · intro ss hss
      rcases List.mem_append.mp hss with h | h
      · exact hQ ss h
      · simp at h; subst h; simp
    · exact hQ
  have hnQ : ∀ s ∈ n, Q s := by
    obtain ⟨s, hs, hc⟩ := absNew0_cases hL hn hol
    rcases hc with ⟨-, -, rfl⟩ | ⟨-, m, hmm, rfl, hne⟩ | ⟨-, rfl⟩
    · intro x hx; simp at hx; subst hx; exact hb _ hs
    · intro x hx; simp at hx; subst hx
      refine hm _ _ (by simp) ?_ hmm
      intro y hy; rcases List.mem_append.mp hy with hy | hy
      · exact hQ'.getElem ho y hy
      · simp at hy; subst hy; exact hb _ hs
    · intro x hx; rcases List.mem_append.mp hx with hx | hx
      · exact hQ'.getElem ho x hx
      · simp at hx; subst hx; exact hb _ hs
  intro ss hss
  rcases List.mem_or_eq_of_mem_set hss with h | h
  · exact hQ' ss h
  · subst h; exact hnQ

/-! ### Progress -/

/-- Merging non-empty lists of `Q` shards is defined. -/
def MergeOk (I : ShardImpl R) (Q : Shard R → Prop) : Prop :=
  ∀ ss : List (Shard R), ss ≠ [] → (∀ x ∈ ss, Q x) → ∃ s, I.merge (ss.map some) = .ok s

theorem absComb_progress {L : Layout} {I : ShardImpl R} {Q : Shard R → Prop}
    (hm : MergeOk I Q) {dst src : List (Shard R)} (hd : ∀ s ∈ dst, Q s) (hsr : ∀ s ∈ src, Q s) (hs : src ≠ []) :
    ∃ nd, absComb L I dst src = .ok nd := by
  have gen : ∃ nd, (do let m ← I.merge (src.map some); .ok (dst ++ [m]) : Res _) = .ok nd := by
    obtain ⟨m, hm⟩ := hm src hs hsr
    exact ⟨_, by rw [hm]; rfl⟩
  cases L with
  | bsm => exact gen
  | leveling =>
    match src, hs with
    | s :: src, _ =>
      match dst with
      | [] => exact ⟨_, rfl⟩
      | d :: dst =>
        obtain ⟨m, hmm⟩ := hm [d, s] (by simp) (by
          intro x hx; simp at hx
          rcases hx with rfl | rfl
          · exact hd _ (by simp)
          · exact hsr _ (by simp))
        exact ⟨[m], by simp only [absComb]; simp only [List.map_cons, List.map_nil] at hmm; rw [hmm]; rfl⟩
  | tiering => exact gen

theorem absStep_progress {L : Layout} {I : ShardImpl R} {Q : Shard R → Prop}
    (hm : MergeOk I Q) {sf : Nat} {A : List (List (Shard R))} {k : Nat} (hp : StepPre L sf A k)
    (hQ : AllShards Q A) : ∃ A', absStep L I A k = .ok A' := by
  obtain ⟨⟨src, hsrc, hne⟩, -⟩ := hp
  have hk := lt_of_getElem? hsrc
  unfold absStep
  have hQ1 : AllShards Q (if k + 1 ≥ A.length then A ++ [[]] else A) := by
    split
    · intro ss hss
      rcases List.mem_append.mp hss with h | h
      · exact hQ ss h
      · simp at h; subst h; simp
    · exact hQ
  have hs1 : (if k + 1 ≥ A.length then A ++ [[]] else A)[k]? = some src := by
    split
    · rw [List.getElem?_append_left hk]; exact hsrc
    · exact hsrc
  obtain ⟨dst, hd⟩ := getElem?_of_lt (l := if k + 1 ≥ A.length then A ++ [[]] else A) (i := k+1) (by
    split
    · simp; omega
    · omega)
  obtain ⟨nd, hn⟩ := absComb_progress (L := L) hm (hQ1.getElem hd) (hQ.getElem hsrc) hne
  exact ⟨_, by simp only [getR, hd, hs1]; show (absComb L I dst src >>= _) = _; rw [hn]; rfl⟩

theorem absRun_progress {L : Layout} (hL : L ≠ .bsm) {I : ShardImpl R} {Q : Shard R → Prop} (hm : MergeOk I Q)
    (hq : ∀ (ss : List (Shard R)) s, ss ≠ [] → (∀ x ∈ ss, Q x) → I.merge (ss.map some) = .ok s → Q s)
    {sf : Nat} : ∀ (base : Nat) {A : List (List (Shard R))}, RunPre L sf A base → Single L A →
      AllShards Q A → ∃ A', absRun L I base A = .ok A'
  | 0, A, _, _, _ => ⟨A, rfl⟩
  | k+1, A, hp, h1, hQ => by
    obtain ⟨A1, e1⟩ := absStep_progress hm hp.step hQ
    obtain ⟨A2, e2⟩ := absRun_progress hL hm hq k (hp.next e1) (h1.step hL hp.step e1)
      (absStep_all hL hq hp.step h1 hQ e1)
    exact ⟨A2, by rw [absRun, e1]; exact e2⟩

theorem absL0_progress {L : Layout} {I : ShardImpl R} {Q : Shard R → Prop} (hm : MergeOk I Q)
    {A : List (List (Shard R))} {v : View R} (hb : ∃ s, I.build v = .ok s ∧ Q s) (hQ : AllShards Q A) :
    ∃ A', absL0 L I A v = .ok A' := by
  obtain ⟨s, hs, hsQ⟩ := hb
  have hQ' : AllShards Q (withL0 A) := by
    unfold withL0; split
    · intro ss hss
      rcases List.mem_append.mp hss with h | h
      · exact hQ ss h
      · simp at h; subst h; simp
    · exact hQ
  obtain ⟨old, ho⟩ := getElem?_of_lt (l := withL0 A) (i := 0) (by
    unfold withL0; split
    · simp
    · omega)
  have hn : ∃ n, absNew0 L I old v = .ok n := by
    unfold absNew0
    rw [hs]
    cases L with
    | bsm => exact ⟨_, rfl⟩
    | leveling =>
      match old, ho with
      | [], _ => exact ⟨_, rfl⟩
      | d :: old, ho =>
        obtain ⟨m, hmm⟩ := hm [d, s] (by simp) (by
          intro x hx; simp at hx
          rcases hx with rfl | rfl
          · exact hQ'.getElem ho _ (by simp)
          · exact hsQ)
        simp only [List.map_cons, List.map_nil] at hmm
        exact ⟨[m], by show (I.merge [some d, some s] >>= _) = _; rw [hmm]; rfl⟩
    | tiering => exact ⟨_, rfl⟩
  obtain ⟨n, hn⟩ := hn
  exact ⟨_, by unfold absL0; simp only [getR, ho]; show (absNew0 L I old v >>= _) = _; rw [hn]; rfl⟩

end DE
