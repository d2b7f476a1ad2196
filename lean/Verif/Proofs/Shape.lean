import Verif.Proofs.Run
import Verif.Proofs.Safety
import Mathlib.Tactic.Ring

/-!
Shape of the structure along a history: number and size of the shards per level (leveling and tiering).
-/

namespace DE
variable {R : Type}

/-! ### Sizes only shrink -/

theorem Reduces.card_le {drop : Entry R → Prop} {a b : Multiset (Entry R)} (h : Reduces drop a b) : b.card ≤ a.card := by
  obtain ⟨cl, ct, dr, e, -⟩ := h
  rw [e]; simp only [Multiset.card_add]; omega

theorem merge_size {I : ShardImpl R} (hI : I.Conserving) {ss : List (Shard R)} {m : Shard R}
    (h : I.merge (ss.map some) = .ok m) : m.data.length ≤ recs ss := by
  have := (hI.merge ss m h).card_le
  rw [card_sents] at this
  simpa [ents] using this

theorem build_size {I : ShardImpl R} (hI : I.Conserving) {b : Buffer R} (hb : b.WF) {m : Shard R}
    (h : I.build b.view = .ok m) : m.data.length ≤ b.tail - b.head := by
  have := (hI.build _ _ m (Buffer.view_reads hb) h).card_le
  simpa [ents, Buffer.contents_length] using this

theorem recs_append (a b : List (Shard R)) : recs (a ++ b) = recs a + recs b := by simp [recs]
theorem recs_cons (s : Shard R) (b : List (Shard R)) : recs (s :: b) = s.data.length + recs b := by simp [recs]
theorem recs_le {ss : List (Shard R)} {n : Nat} (h : ∀ s ∈ ss, s.data.length ≤ n) : recs ss ≤ ss.length * n := by
  induction ss with
  | nil => simp [recs]
  | cons s ss ih =>
    rw [recs_cons, List.length_cons, Nat.add_mul, Nat.one_mul]
    have := h s (by simp)
    have := ih (fun s hs => h s (by simp [hs]))
    omega

/-! ### Tiering: a counter -/

/-- Flushes represented by the shards: a shard of level `i` stands for `sf^i` buffers. -/
def weight (sf : Nat) : List (List (Shard R)) → Nat
  | [] => 0
  | a :: A => a.length + sf * weight sf A

theorem weight_append (sf : Nat) (A B : List (List (Shard R))) :
    weight sf (A ++ B) = weight sf A + sf ^ A.length * weight sf B := by
  induction A with
  | nil => simp [weight]
  | cons a A ih => simp only [List.cons_append, weight, ih, List.length_cons, pow_succ]; ring

theorem weight_set (sf : Nat) : ∀ {A : List (List (Shard R))} {k : Nat} {x y : List (Shard R)}, A[k]? = some x →
    weight sf (A.set k y) + sf ^ k * x.length = weight sf A + sf ^ k * y.length
  | [], k, x, y, h => by simp at h
  | a :: A, 0, x, y, h => by
    simp at h; subst h; simp [weight]; omega
  | a :: A, k+1, x, y, h => by
    have := weight_set sf (A := A) (k := k) (x := x) (y := y) (by simpa using h)
    simp only [List.set_cons_succ, weight, pow_succ]
    have h2 : sf * (weight sf (A.set k y) + sf ^ k * x.length) = sf * (weight sf A + sf ^ k * y.length) := by rw [this]
    calc a.length + sf * weight sf (A.set k y) + sf ^ k * sf * x.length
        = a.length + sf * (weight sf (A.set k y) + sf ^ k * x.length) := by ring
      _ = a.length + sf * (weight sf A + sf ^ k * y.length) := by rw [h2]
      _ = _ := by ring

/-- Tiering: level `i` holds `1..sf` shards of at most `bs * sf^i` records. -/
def TierLevel (bs sf i : Nat) (ss : List (Shard R)) : Prop :=
  1 ≤ ss.length ∧ ss.length ≤ sf ∧ ∀ s ∈ ss, s.data.length ≤ bs * sf ^ i

/-- Tiering levels, except that level `k` may be missing shards. -/
def TierBut (bs sf k : Nat) (A : List (List (Shard R))) : Prop :=
  ∀ i ss, A[i]? = some ss → ss.length ≤ sf ∧ (i ≠ k → 1 ≤ ss.length) ∧ ∀ s ∈ ss, s.data.length ≤ bs * sf ^ i

theorem tier_run {I : ShardImpl R} (hI : I.Conserving) {bs sf : Nat} : ∀ (base : Nat) {A A' : List (List (Shard R))},
    RunPre .tiering sf A base → (∀ j ss, j < base → A[j]? = some ss → ss.length = sf) → base ≤ A.length →
    TierBut bs sf base A → absRun .tiering I base A = .ok A' →
    weight sf A' = weight sf A ∧ TierBut bs sf 0 A' ∧ A'.length = (if 0 < base then max A.length (base+1) else A.length)
  | 0, A, A', _, _, _, ht, h => by
    cases h
    exact ⟨rfl, ht, by simp⟩
  | k+1, A, A', hp, hfull, hlen, ht, h => by
    rw [absRun, bind_ok] at h
    obtain ⟨A1, e1, e2⟩ := h
    obtain ⟨src, hsrc, hne⟩ := hp.1 k (by omega)
    have hk := lt_of_getElem? hsrc
    have hroom := (hp.2 rfl).2
    obtain ⟨B, dst, src', nd, hB, hd, hs1, hs, hn, he, hBl, hor⟩ := absStep_ok hk e1
    obtain rfl : src' = src := Option.some.inj (hs.symm.trans hsrc)
    have hsl : src'.length = sf := hfull k src' (by omega) hs
    rcases absComb_cases (by simp) hn (by simp) hne with ⟨hc, -⟩ | ⟨hc, -⟩ | ⟨-, m, hm, hnd⟩
    · cases hc
    · cases hc
    have hdl : dst.length < sf := by
      rcases hor with ⟨rfl, -⟩ | hor
      · rw [List.length_nil]; rw [← hsl]; exact List.length_pos_iff.mpr hne
      · exact hroom dst hor
    have hmsz : m.data.length ≤ bs * sf ^ (k+1) := by
      refine le_trans (merge_size hI hm) ?_
      refine le_trans (recs_le (fun s hs' => (ht k src' hs).2.2 s hs')) ?_
      rw [hsl, pow_succ]; apply le_of_eq; ring
    have hdsz : ∀ s ∈ dst, s.data.length ≤ bs * sf ^ (k+1) := by
      rcases hor with ⟨rfl, -⟩ | hor
      · simp
      · exact (ht _ _ hor).2.2
    have hw1 : weight sf A1 = weight sf A := by
      have hwB : weight sf B = weight sf A := by
        rw [hB]; split
        · rw [weight_append]; simp [weight]
        · rfl
      have g1 := weight_set sf (y := nd) hd
      have hs2 : (B.set (k+1) nd)[k]? = some src' := by rw [List.getElem?_set_ne (by omega)]; exact hs1
      have g2 := weight_set sf (y := ([] : List (Shard R))) hs2
      rw [← he] at g2
      rw [hnd, List.length_append, List.length_singleton] at g1
      rw [hsl, List.length_nil] at g2
      rw [← hwB]
      have : sf ^ (k+1) * (dst.length + 1) = sf ^ (k+1) * dst.length + sf ^ k * sf := by rw [pow_succ]; ring
      rw [hnd] at g2
      simp only [Nat.mul_zero] at g2
      omega
    have hA1len : A1.length = max A.length (k+2) := absStep_length hk e1
    have ht1 : TierBut bs sf k A1 := by
      intro i ss hi
      by_cases hik : i = k
      · subst hik
        rw [absStep_src hk e1] at hi
        cases hi
        exact ⟨by simp, fun h => absurd rfl h, by simp⟩
      · by_cases hik1 : i = k+1
        · subst hik1
          rw [he, List.getElem?_set_ne (by omega), List.getElem?_set_self hBl] at hi
          cases hi
          rw [hnd]
          refine ⟨by simp; omega, fun _ => by simp, ?_⟩
          intro s hs'
          rcases List.mem_append.mp hs' with hs' | hs'
          · exact hdsz s hs'
          · simp at hs'; rw [hs']; exact hmsz
        · rw [absStep_other hk e1 hik hik1] at hi
          obtain ⟨a, b, c⟩ := ht i ss hi
          exact ⟨a, fun _ => b hik1, c⟩
    obtain ⟨f1, f2, f3⟩ := tier_run hI k (hp.next e1)
      (fun j ss hj hjs => hfull j ss (by omega) (by rw [← absStep_other hk e1 (by omega) (by omega)]; exact hjs))
      (by rw [hA1len]; omega) ht1 e2
    refine ⟨f1.trans hw1, f2, ?_⟩
    rw [f3, if_pos (show 0 < k + 1 by omega), hA1len]
    split <;> omega

/-- Everything about the shape of a tiering index. -/
structure TierInv (d : Index R) (n : Nat) : Prop where
  lvl : ∀ i ss, d.str.abs[i]? = some ss → TierLevel d.str.bufSize d.str.sf i ss
  sum : weight d.str.sf d.str.abs = n

theorem tier_flush {d d' : Index R} (h : d.Inv) (hL : d.L = .tiering) (hI : d.impl.Conserving) (hat : d.buf.atLwm = true)
    {n : Nat} (ht : TierInv d n) (hf : d.flush = .ok d') : TierInv d' (n+1) ∧ d.str.abs.length ≤ d'.str.abs.length := by
  obtain ⟨base, ⟨hplan, hpre⟩, hor⟩ := flush_abs h hat
  rcases hor with ⟨e, h1, -⟩ | ⟨st', h1, h2, h3, h4, h5⟩
  · rw [h1] at hf; cases hf
  · rw [h1] at hf
    cases hf
    rw [bind_ok] at h2
    obtain ⟨A1, g1, g2⟩ := h2
    rw [hL] at g1 g2 hpre hplan
    have hfull : ∀ j ss, j < base → d.str.abs[j]? = some ss → ss.length = d.str.sf := by
      intro j ss hj hjs
      have hle := (ht.lvl j ss hjs).2.1
      rcases hplan with ⟨hb, -⟩ | ⟨hpos, hbl, hc0, s0, hs0, hno, -⟩
      · omega
      · by_cases hj0 : j = 0
        · subst hj0
          simp only [absCan, hjs, decide_eq_false_iff_not] at hc0
          omega
        · have := hno j (by omega) hj
          simp only [absCan, hjs, decide_eq_false_iff_not] at this
          omega
    have hbl : base ≤ d.str.abs.length := by
      rcases hplan with ⟨hb, -⟩ | ⟨hpos, hbl, -⟩
      · omega
      · exact hbl
    obtain ⟨w1, w2, w3⟩ := tier_run hI (bs := d.str.bufSize) base hpre hfull hbl
      (fun i ss hi => ⟨(ht.lvl i ss hi).2.1, fun _ => (ht.lvl i ss hi).1, (ht.lvl i ss hi).2.2⟩) g1
    have hcan := FlushSpec.can h ⟨by rw [hL]; exact hplan, by rw [hL]; exact hpre⟩ (by rw [hL]; exact g1) (le_refl d.str.bufSize)
    rw [hL] at hcan
    obtain ⟨old, nn, ho, hn, he, hor⟩ := absL0_ok g2
    obtain ⟨s, hs, hc⟩ := absNew0_cases (by simp) hn (by simp)
    rcases hc with ⟨hc, -⟩ | ⟨hc, -⟩ | ⟨-, hnn⟩
    · cases hc
    · cases hc
    simp only [absCan, ho, decide_eq_true_eq] at hcan
    have hssz : s.data.length ≤ d.str.bufSize := by
      have := build_size hI h.wf hs
      have := h.wf.cnt
      rw [h.bs]; omega
    have holdsz : ∀ x ∈ old, x.data.length ≤ d.str.bufSize := by
      intro x hx
      rcases hor with ⟨rfl, -⟩ | hor
      · simp at hx
      · have := (w2 0 old hor).2.2 x hx
        simpa using this
    have hst : st'.abs = (withL0 A1).set 0 nn := he
    refine ⟨⟨?_, ?_⟩, ?_⟩
    · intro i ss hi
      simp only at hi ⊢
      rw [h4, h5]
      rw [hst] at hi
      cases i with
      | zero =>
        rw [List.getElem?_set_self (lt_of_getElem? ho)] at hi
        cases hi
        rw [hnn]
        refine ⟨by simp, by simp; omega, ?_⟩
        intro x hx
        rcases List.mem_append.mp hx with hx | hx
        · simpa using holdsz x hx
        · simp at hx; rw [hx]; simpa using hssz
      | succ i =>
        rw [List.getElem?_set_ne (by omega)] at hi
        have hi' : A1[i+1]? = some ss := by
          unfold withL0 at hi
          split at hi
          · next h0 =>
            rw [List.getElem?_append_right (by omega), h0] at hi
            simp at hi
          · exact hi
        obtain ⟨a, b, c⟩ := w2 (i+1) ss hi'
        exact ⟨b (by omega), a, c⟩
    · simp only
      rw [h5, hst]
      have := weight_set d.str.sf (y := nn) ho
      rw [hnn, List.length_append, List.length_singleton] at this
      have hw : weight d.str.sf (withL0 A1) = weight d.str.sf A1 := by
        unfold withL0; split
        · rw [weight_append]; simp [weight]
        · rfl
      rw [hw, w1, ht.sum] at this
      rw [hnn]
      simp only [pow_zero, Nat.one_mul] at this
      omega
    · simp only
      rw [hst, List.length_set]
      have : A1.length ≤ (withL0 A1).length := by unfold withL0; split <;> simp
      have : d.str.abs.length ≤ A1.length := by rw [w3]; split <;> omega
      omega

/-! ### Leveling: level `i` stays below the sum of the capacities up to `i` -/

/-- Sum of the capacities of levels `0..i`. -/
def capSum (bs sf : Nat) : Nat → Nat
  | 0 => Struct.levelCap bs sf 0
  | i+1 => capSum bs sf i + Struct.levelCap bs sf (i+1)

/-- Leveling record bound. -/
def LevBound (bs sf : Nat) (A : List (List (Shard R))) : Prop :=
  ∀ i ss, A[i]? = some ss → recs ss ≤ capSum bs sf i

theorem lev_run {I : ShardImpl R} (hI : I.Conserving) {bs sf : Nat} : ∀ (base : Nat) {A A' : List (List (Shard R))},
    RunPre .leveling sf A base → Single .leveling A → LevBound bs sf A →
    (∀ k dst src, base = k + 1 → A[k+1]? = some dst → A[k]? = some src → recs dst + recs src ≤ capSum bs sf (k+1)) →
    absRun .leveling I base A = .ok A' → LevBound bs sf A' ∧ A.length ≤ A'.length
  | 0, A, A', _, _, hb, _, h => by cases h; exact ⟨hb, le_refl _⟩
  | k+1, A, A', hp, h1, hb, hsum, h => by
    rw [absRun, bind_ok] at h
    obtain ⟨A1, e1, e2⟩ := h
    obtain ⟨dst, src, nd, hs, hne, hn, hor, hdl, q1, q2, q3, -⟩ := absStep_facts hp.step e1 h1
    have hk := lt_of_getElem? hs
    have hndsz : recs nd ≤ recs dst + recs src := by
      rcases absComb_cases (by simp) hn hdl hne with ⟨-, rfl, rfl⟩ | ⟨-, m, hm, rfl, -⟩ | ⟨hc, -⟩
      · omega
      · have := merge_size hI hm
        rw [recs_append] at this
        simpa [recs] using this
      · cases hc
    have hnd : recs nd ≤ capSum bs sf (k+1) := by
      refine le_trans hndsz ?_
      rcases hor with ⟨rfl, -⟩ | hor
      · have := hb k src hs
        simp only [capSum]
        have : recs ([] : List (Shard R)) = 0 := rfl
        omega
      · exact hsum k dst src rfl hor hs
    have hb1 : LevBound bs sf A1 := by
      intro i ss hi
      by_cases hik : i = k
      · subst hik; rw [q2] at hi; cases hi; simp [recs]
      · by_cases hik1 : i = k+1
        · subst hik1; rw [q1] at hi; cases hi; exact hnd
        · rw [q3 i hik hik1] at hi; exact hb i ss hi
    obtain ⟨f1, f2⟩ := lev_run hI k (hp.next e1) (h1.step (by simp) hp.step e1) hb1 (by
        intro j dst' src' hj hd' hs'
        subst hj
        rw [q2] at hd'; cases hd'
        have := hb1 j src' hs'
        simp only [capSum]
        have : recs ([] : List (Shard R)) = 0 := rfl
        omega) e2
    refine ⟨f1, le_trans ?_ f2⟩
    rw [absStep_length hk e1]; omega

theorem lev_flush {d d' : Index R} (h : d.Inv) (hL : d.L = .leveling) (hI : d.impl.Conserving) (hat : d.buf.atLwm = true)
    (hb : LevBound d.str.bufSize d.str.sf d.str.abs) (hf : d.flush = .ok d') :
    LevBound d'.str.bufSize d'.str.sf d'.str.abs ∧ d.str.abs.length ≤ d'.str.abs.length := by
  obtain ⟨base, ⟨hplan, hpre⟩, hor⟩ := flush_abs h hat
  rcases hor with ⟨e, h1, -⟩ | ⟨st', h1, h2, h3, h4, h5⟩
  · rw [h1] at hf; cases hf
  · have hs1 : Single .leveling d.str.abs := hL ▸ h.str.single
    rw [h1] at hf
    cases hf
    rw [bind_ok] at h2
    obtain ⟨A1, g1, g2⟩ := h2
    have hcan := FlushSpec.can h ⟨hplan, hpre⟩ g1 (le_refl d.str.bufSize)
    rw [hL] at g1 g2 hpre hplan hcan
    have hsum : ∀ k dst src, base = k + 1 → d.str.abs[k+1]? = some dst → d.str.abs[k]? = some src →
        recs dst + recs src ≤ capSum d.str.bufSize d.str.sf (k+1) := by
      intro k dst src hk hd hs
      subst hk
      rcases hplan with ⟨hb, -⟩ | ⟨-, -, -, s0, hs0, -, hyes⟩
      · omega
      · have := hyes (lt_of_getElem? hd)
        simp only [absCan, hd, decide_eq_true_eq] at this
        have := hb k src hs
        simp only [capSum]
        omega
    obtain ⟨f1, f2⟩ := lev_run hI base hpre hs1 hb hsum g1
    have hS1 := (absRun_reduces (by simp) hI base hpre hs1 g1).2
    obtain ⟨old, nn, ho, hn, he, hor⟩ := absL0_ok g2
    have hol : old.length ≤ 1 := by
      rcases hor with ⟨rfl, -⟩ | hor
      · simp
      · exact hS1 rfl _ (mem_of_getElem? hor)
    simp only [absCan, ho, decide_eq_true_eq] at hcan
    have hnsz : recs nn ≤ recs old + d.str.bufSize := by
      obtain ⟨s, hs, hc⟩ := absNew0_cases (by simp) hn (fun _ => hol)
      have hssz : s.data.length ≤ d.str.bufSize := by
        have := build_size hI h.wf hs
        have := h.wf.cnt
        rw [h.bs]; omega
      rcases hc with ⟨-, rfl, rfl⟩ | ⟨-, m, hm, rfl, -⟩ | ⟨hc, -⟩
      · simp [recs]; omega
      · have := merge_size hI hm
        rw [recs_append] at this
        simp [recs] at this ⊢
        omega
      · cases hc
    have hst : st'.abs = (withL0 A1).set 0 nn := he
    refine ⟨?_, ?_⟩
    · intro i ss hi
      simp only at hi ⊢
      rw [h4, h5]
      rw [hst] at hi
      cases i with
      | zero =>
        rw [List.getElem?_set_self (lt_of_getElem? ho)] at hi
        cases hi
        simp only [capSum]; omega
      | succ i =>
        rw [List.getElem?_set_ne (by omega)] at hi
        have hi' : A1[i+1]? = some ss := by
          unfold withL0 at hi
          split at hi
          · next h0 =>
            rw [List.getElem?_append_right (by omega), h0] at hi
            simp at hi
          · exact hi
        exact f1 _ _ hi'
    · simp only
      rw [hst, List.length_set]
      have : A1.length ≤ (withL0 A1).length := by unfold withL0; split <;> simp
      omega

end DE
