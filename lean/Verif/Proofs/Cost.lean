import Verif.Model.Cost
import Verif.Proofs.Learned
import Mathlib.Data.Nat.Log

/-! The counted searches return what the plain ones return, and bounds on the counts. -/

namespace DE

/-- Forgetting the counts. -/
def Res.fst {α β : Type} : Res (α × β) → Res α
  | .ok x => .ok x.1
  | .error e => .error e

theorem Res.fst_ok {α β : Type} {r : Res (α × β)} {a : α} (h : r.fst = .ok a) : ∃ b, r = .ok (a, b) := by
  cases r with
  | error e => simp [Res.fst] at h
  | ok x => exact ⟨x.2, by simp only [Res.fst, Except.ok.injEq] at h; rw [← h]⟩

namespace Isam
variable {R K : Type}

theorem pickC_fst (z : K) (go : K → Bool) (nd : Node K) : ∀ n i, (pickC z go nd i n).1 = pick z go nd i n
  | 0, i => rfl
  | n+1, i => by
    rw [pickC, pick]
    by_cases h1 : nd.childAt (i+1) = none
    · rw [if_pos h1, if_pos (Or.inl h1)]
    · rw [if_neg h1]
      by_cases h2 : go (nd.keyAt z i) = true
      · rw [if_pos h2, if_pos (Or.inr h2)]
      · rw [if_neg h2, if_neg (by tauto)]
        exact pickC_fst z go nd n (i+1)

theorem pickC_le (z : K) (go : K → Bool) (nd : Node K) : ∀ n i, (pickC z go nd i n).2 ≤ n
  | 0, i => le_refl _
  | n+1, i => by
    have := pickC_le z go nd n (i+1)
    rw [pickC]
    split
    · exact Nat.zero_le _
    · split
      · exact Nat.le_add_left 1 n
      · exact Nat.add_le_add_right this 1

theorem descendC_fst (F : Nat) (z : K) (go : K → Bool) (arena : List (Node K)) : ∀ fuel p,
    (descendC F z go arena fuel p).fst = descend F z go arena fuel p
  | 0, .leaf p => rfl
  | _+1, .leaf p => rfl
  | 0, .node m => rfl
  | fuel+1, .node m => by
    have ih := descendC_fst F z go arena fuel
    rw [descendC, descend]
    cases hg : getR arena m with
    | error e => rfl
    | ok nd =>
      simp only [bind, Except.bind]
      rw [pickC_fst]
      cases hp : pick z go nd 0 (F - 1) with
      | some p =>
        simp only
        rw [← ih p]
        cases descendC F z go arena fuel p <;> rfl
      | none =>
        simp only
        cases hc : nd.childAt (F - 1) with
        | none => rfl
        | some p =>
          simp only
          rw [← ih p]
          cases descendC F z go arena fuel p <;> rfl

/-- Keys compared: less than the fanout per node. -/
theorem descendC_keys (F : Nat) (z : K) (go : K → Bool) (arena : List (Node K)) : ∀ fuel p x,
    descendC F z go arena fuel p = .ok x → x.2.2 ≤ x.2.1 * (F - 1)
  | 0, .leaf p, x, h => by obtain rfl := Except.ok.inj h; simp
  | _+1, .leaf p, x, h => by obtain rfl := Except.ok.inj h; simp
  | 0, .node m, x, h => by cases h
  | fuel+1, .node m, x, h => by
    have ih := descendC_keys F z go arena fuel
    rw [descendC] at h
    cases hg : getR arena m with
    | error e => rw [hg] at h; cases h
    | ok nd =>
      rw [hg] at h
      simp only [bind, Except.bind] at h
      have hle := pickC_le z go nd (F - 1) 0
      cases hp : (pickC z go nd 0 (F - 1)).1 with
      | some p =>
        rw [hp] at h
        simp only at h
        cases hd : descendC F z go arena fuel p with
        | error e => rw [hd] at h; cases h
        | ok y =>
          rw [hd] at h
          obtain rfl := Except.ok.inj h
          have := ih p y hd
          simp only
          rw [Nat.add_mul]; omega
      | none =>
        rw [hp] at h
        simp only at h
        cases hc : nd.childAt (F - 1) with
        | none => rw [hc] at h; cases h
        | some p =>
          rw [hc] at h
          simp only at h
          cases hd : descendC F z go arena fuel p with
          | error e => rw [hd] at h; cases h
          | ok y =>
            rw [hd] at h
            obtain rfl := Except.ok.inj h
            have := ih p y hd
            simp only
            rw [Nat.add_mul]; omega

theorem skipWhileC_fst (p : Wrapped R → Bool) : ∀ l, (skipWhileC p l).1 = skipWhile p l
  | [] => rfl
  | w :: ws => by
    rw [skipWhileC, skipWhile]
    by_cases h : p w = true
    · rw [if_pos h, if_pos h]; simp only; rw [skipWhileC_fst p ws]
    · rw [if_neg h, if_neg h]

theorem skipWhileC_snd (p : Wrapped R → Bool) : ∀ l, (skipWhileC p l).2 = min (skipWhile p l + 1) l.length
  | [] => by simp [skipWhileC, skipWhile]
  | w :: ws => by
    have ih := skipWhileC_snd p ws
    rw [skipWhileC, skipWhile]
    by_cases h : p w = true
    · rw [if_pos h, if_pos h]; simp only [List.length_cons]; omega
    · rw [if_neg h, if_neg h]; simp

variable [LinearOrder R] [LinearOrder K] [HasKey R K]

theorem searchC_fst (F LF : Nat) (z : K) (go : K → Bool) (p : Wrapped R → Bool) (data : List (Wrapped R)) :
    (searchC F LF z go p data).fst = search F LF z go p data := by
  unfold searchC search
  by_cases h : data.length = 0
  · rw [if_pos h, if_pos h]; rfl
  · rw [if_neg h, if_neg h]
    simp only
    rw [← descendC_fst]
    cases descendC F z go (buildTree F LF z data).1 ((buildTree F LF z data).1.length + 1) (.node (buildTree F LF z data).2) with
    | error e => rfl
    | ok x =>
      simp only [bind, Except.bind, Res.fst]
      rw [skipWhileC_fst]

variable {F LF : Nat} {z : K} {data : List (Wrapped R)}

/-- The nodes visited are as many as the tree is high. -/
theorem descendC_nodes {go : K → Bool} {arena : List (Node K)} :
    ∀ (h fuel : Nat) {p : Ptr} {b e : Nat} {x : Nat × Nat × Nat}, Cov F LF z data arena h p b e →
      descendC F z go arena fuel p = .ok x → x.2.1 = h
  | 0, fuel, .leaf y, b, e, x, hc, hd => by
    have : x = (y, 0, 0) := by cases fuel <;> exact (Except.ok.inj hd).symm
    rw [this]
  | h+1, fuel+1, .node m, b, e, x, hc, hd => by
    obtain ⟨nd, h1, h2, h3, h4, -⟩ := hc
    have key : ∀ i p, nd.childAt i = some p → ∀ y, descendC F z go arena fuel p = .ok y → y.2.1 = h := by
      intro i p hp y hy
      obtain ⟨b', e', hcov⟩ := chain_mem h4 (List.mem_of_getElem? hp)
      exact descendC_nodes h fuel hcov hy
    have hpick : ∀ n i p, pick z go nd i n = some p → ∃ j, nd.childAt j = some p := by
      intro n
      induction n with
      | zero => intro i p hp; cases hp
      | succ n ih =>
        intro i p hp
        rw [pick] at hp
        split at hp
        · exact ⟨i, hp⟩
        · exact ih _ _ hp
    rw [descendC] at hd
    have hg : getR arena m = .ok nd := by unfold getR; rw [h1]
    rw [hg] at hd
    simp only [bind, Except.bind] at hd
    rw [pickC_fst] at hd
    cases hp : pick z go nd 0 (F - 1) with
    | some p =>
      rw [hp] at hd
      simp only at hd
      obtain ⟨j, hj⟩ := hpick _ _ _ hp
      cases hy : descendC F z go arena fuel p with
      | error e => rw [hy] at hd; cases hd
      | ok y =>
        rw [hy] at hd
        obtain rfl := Except.ok.inj hd
        have := key j p hj y hy
        simp only; omega
    | none =>
      rw [hp] at hd
      simp only at hd
      cases hc : nd.childAt (F - 1) with
      | none => rw [hc] at hd; cases hd
      | some p =>
        rw [hc] at hd
        simp only at hd
        cases hy : descendC F z go arena fuel p with
        | error e => rw [hy] at hd; cases hd
        | ok y =>
          rw [hy] at hd
          obtain rfl := Except.ok.inj hd
          have := key _ p hc y hy
          simp only; omega
  | 0, fuel, .node m, b, e, x, hc, _ => by simp [Cov] at hc
  | h+1, fuel, .leaf y, b, e, x, hc, _ => by simp [Cov] at hc
  | h+1, 0, .node m, b, e, x, hc, hd => by cases hd
where
  chain_mem {C : Ptr → Nat → Nat → Prop} : ∀ {ks : List K} {ps : List Ptr} {b e : Nat} {p : Ptr}, Chain z data C ks ps b e → p ∈ ps →
      ∃ b' e', C p b' e'
    | [], [], b, e, p, _, hp => by simp at hp
    | k :: ks, q :: ps, b, e, p, h, hp => by
      obtain ⟨m, h1, -, -, -, h5⟩ := h
      rcases List.mem_cons.mp hp with rfl | hp
      · exact ⟨_, _, h1⟩
      · exact chain_mem h5 hp
    | [], _ :: _, b, e, p, h, _ => by simp [Chain] at h
    | _ :: _, [], b, e, p, h, _ => by simp [Chain] at h

/-- What a search from the root costs. -/
theorem searchC_cost (hF : 2 ≤ F) (hLF : 1 ≤ LF) (hne : data ≠ []) {go : K → Bool} {p : Wrapped R → Bool}
    (hgo : ∀ (m : Nat) (h : m < data.length), go (key data[m].record) = true → p data[m] = false) :
    ∃ i c, searchC F LF z go p data = .ok (i, c) ∧ c.keys ≤ c.nodes * (F - 1) ∧ 1 ≤ c.recs ∧ c.recs ≤ LF ∧
      (c.nodes = 1 ∨ 1 < c.nodes ∧ F ^ (c.nodes - 1) * LF < data.length) := by
  obtain ⟨h, h1, h3, h2, -, -⟩ := buildTree_cov (z := z) hF hLF hne
  obtain ⟨pos, q1, q2, -, e, e1, e2, e3, e4⟩ := descend_spec (P := fun _ => True) (go := go) (by omega) (fun _ _ _ _ _ _ => trivial)
    h ((buildTree F LF z data).1.length + 1) h2 h1 (fun _ _ => trivial) (Or.inl rfl)
  rw [← descendC_fst] at q1
  obtain ⟨x, hx⟩ := Res.fst_ok q1
  have hn := descendC_nodes h _ h2 hx
  have hk := descendC_keys _ _ _ _ _ _ _ hx
  obtain ⟨s1, s2, s3⟩ := skipWhile_spec p (data.drop pos)
  rw [List.length_drop] at s1
  have hr : (skipWhileC p (data.drop pos)).2 ≤ LF := by
    rw [skipWhileC_snd, List.length_drop]
    rcases e4 with e4 | e4
    · omega
    · have : skipWhile p (data.drop pos) ≤ e - 1 - pos := by
        by_contra hlt
        have := s2 (e - 1 - pos) (by rw [List.length_drop]; omega) (by omega)
        rw [List.getElem_drop] at this
        rw [keyOf_eq (by omega)] at e4
        have h4 := hgo (e-1) (by omega) e4
        simp only [show pos + (e - 1 - pos) = e - 1 by omega] at this
        rw [this] at h4
        cases h4
      omega
  refine ⟨pos + (skipWhileC p (data.drop pos)).1, ⟨x.1, x.2, (skipWhileC p (data.drop pos)).2⟩, ?_, ?_, ?_, ?_, ?_⟩
  · unfold searchC
    have : data.length ≠ 0 := by simpa using hne
    rw [if_neg this]
    simp only
    rw [hx]
    rfl
  · exact hk
  · simp only
    rw [skipWhileC_snd, List.length_drop]; omega
  · exact hr
  · simp only at hn ⊢
    rw [hn]; exact h3

end Isam

variable {R K : Type} [LinearOrder R] [LinearOrder K] [HasKey R K]

theorem linScanC_fst (data : List (Wrapped R)) (k : K) (stop : Nat) : ∀ fuel idx,
    (linScanC data k stop fuel idx).fst = linScan data k stop fuel idx
  | 0, idx => rfl
  | fuel+1, idx => by
    have ih := linScanC_fst data k stop fuel (idx+1)
    rw [linScanC, linScan]
    split
    · cases hg : getR data idx with
      | error e => rfl
      | ok w =>
        simp only [bind, Except.bind]
        split
        · rw [← ih]
          cases linScanC data k stop fuel (idx+1) <;> rfl
        · rfl
    · rfl

theorem linScanC_le (data : List (Wrapped R)) (k : K) (stop : Nat) : ∀ fuel idx x, linScanC data k stop fuel idx = .ok x → x.2 ≤ stop - idx
  | 0, idx, x, h => by obtain rfl := Except.ok.inj h; exact Nat.zero_le _
  | fuel+1, idx, x, h => by
    have ih := linScanC_le data k stop fuel (idx+1)
    rw [linScanC] at h
    split at h
    · cases hg : getR data idx with
      | error e => rw [hg] at h; cases h
      | ok w =>
        rw [hg] at h
        simp only [bind, Except.bind] at h
        split at h
        · cases hy : linScanC data k stop fuel (idx+1) with
          | error e => rw [hy] at h; cases h
          | ok y =>
            rw [hy] at h
            obtain rfl := Except.ok.inj h
            have := ih y hy
            simp only; omega
        · obtain rfl := Except.ok.inj h
          simp only; omega
    · obtain rfl := Except.ok.inj h
      exact Nat.zero_le _

theorem binSearchC_fst (data : List (Wrapped R)) (k : K) : ∀ fuel lo hi,
    (binSearchC data k fuel lo hi).fst = binSearch data k fuel lo hi
  | 0, lo, hi => rfl
  | fuel+1, lo, hi => by
    have ih := binSearchC_fst data k fuel
    rw [binSearchC, binSearch]
    split
    · simp only
      cases hg : getR data ((lo + hi) / 2) with
      | error e => rfl
      | ok w =>
        simp only [bind, Except.bind]
        split
        · rw [← ih]
          cases binSearchC data k fuel ((lo + hi) / 2 + 1) hi <;> rfl
        · rw [← ih]
          cases binSearchC data k fuel lo ((lo + hi) / 2) <;> rfl
    · rfl

theorem binSearchC_le (data : List (Wrapped R)) (k : K) : ∀ fuel lo hi x, binSearchC data k fuel lo hi = .ok x →
    x.2 = 0 ∨ 1 ≤ x.2 ∧ 2 ^ (x.2 - 1) ≤ hi - lo
  | 0, lo, hi, x, h => by obtain rfl := Except.ok.inj h; exact Or.inl rfl
  | fuel+1, lo, hi, x, h => by
    have ih := binSearchC_le data k fuel
    rw [binSearchC] at h
    split at h
    · simp only at h
      cases hg : getR data ((lo + hi) / 2) with
      | error e => rw [hg] at h; cases h
      | ok w =>
        rw [hg] at h
        simp only [bind, Except.bind] at h
        have fin : ∀ y : Nat × Nat, ∀ len, (y.2 = 0 ∨ 1 ≤ y.2 ∧ 2 ^ (y.2 - 1) ≤ len) → 2 * len ≤ hi - lo →
            x = (y.1, y.2 + 1) → x.2 = 0 ∨ 1 ≤ x.2 ∧ 2 ^ (x.2 - 1) ≤ hi - lo := by
          rintro y len hy hl rfl
          right
          refine ⟨by simp, ?_⟩
          simp only [Nat.add_sub_cancel]
          rcases hy with hy | ⟨hy, hp⟩
          · rw [hy]; simp; omega
          · rw [show y.2 = y.2 - 1 + 1 by omega, Nat.pow_succ]; omega
        split at h
        · cases hy : binSearchC data k fuel ((lo + hi) / 2 + 1) hi with
          | error e => rw [hy] at h; cases h
          | ok y =>
            rw [hy] at h
            exact fin y _ (ih _ _ _ hy) (by omega) (Except.ok.inj h).symm
        · cases hy : binSearchC data k fuel lo ((lo + hi) / 2) with
          | error e => rw [hy] at h; cases h
          | ok y =>
            rw [hy] at h
            exact fin y _ (ih _ _ _ hy) (by omega) (Except.ok.inj h).symm
    · obtain rfl := Except.ok.inj h
      exact Or.inl rfl

/-- Probes of a binary search as a logarithm. -/
theorem probes_log {p len : Nat} (h : p = 0 ∨ 1 ≤ p ∧ 2 ^ (p - 1) ≤ len) : p ≤ Nat.log 2 len + 1 := by
  rcases h with h | ⟨h1, h2⟩
  · omega
  · have := Nat.le_log_of_pow_le (by omega) h2
    omega

theorem windowSearchC_fst (data : List (Wrapped R)) (k : K) (b : Bound) :
    (windowSearchC data k b).fst = windowSearch data k b := by
  unfold windowSearchC windowSearch
  split
  · rfl
  · split
    · rw [← linScanC_fst]
      cases linScanC data k b.hi (b.hi - b.lo) b.lo <;> rfl
    · rw [← binSearchC_fst]
      cases binSearchC data k (b.hi - b.lo) b.lo b.hi <;> rfl

theorem windowSearchC_le {data : List (Wrapped R)} {k : K} {b : Bound} {x : Option Nat × Nat} (h : windowSearchC data k b = .ok x) :
    x.2 ≤ max 255 (Nat.log 2 (b.hi - b.lo) + 1) := by
  unfold windowSearchC at h
  split at h
  · obtain rfl := Except.ok.inj h; exact Nat.zero_le _
  · split at h
    · cases hy : linScanC data k b.hi (b.hi - b.lo) b.lo with
      | error e => rw [hy] at h; cases h
      | ok y =>
        rw [hy] at h
        obtain rfl := Except.ok.inj h
        have := linScanC_le _ _ _ _ _ _ hy
        simp only; omega
    · cases hy : binSearchC data k (b.hi - b.lo) b.lo b.hi with
      | error e => rw [hy] at h; cases h
      | ok y =>
        rw [hy] at h
        obtain rfl := Except.ok.inj h
        have := probes_log (binSearchC_le _ _ _ _ _ _ hy)
        simp only; omega

theorem smallLBC_fst (k : K) : ∀ data : List (Wrapped R), (smallLBC k data).1 = smallLB k data
  | [] => rfl
  | w :: ws => by
    rw [smallLBC, smallLB]
    split
    · rfl
    · simp only; rw [smallLBC_fst k ws]

theorem smallLBC_le (k : K) : ∀ data : List (Wrapped R), (smallLBC k data).2 ≤ data.length
  | [] => le_refl _
  | w :: ws => by
    have := smallLBC_le k ws
    rw [smallLBC]
    split
    · simp
    · simp only [List.length_cons]; omega

/-- Records skipped after the search of a point lookup: those of the key, and at most one before. -/
theorem skipLess_count {data : List (Wrapped R)} {r : R} {i : Nat} (hs : KeySorted K data) (hi : lowerBoundSpec (key (K := K) r) data ≤ i + 1) :
    skipLess r (data.drop i) ≤ (data.filter (fun w => decide (key (K := K) w.record = key r))).length + 1 := by
  obtain ⟨h1, h2, -⟩ := skipLess_spec r (data.drop i)
  rw [List.length_drop] at h1
  set n := skipLess r (data.drop i) with hn
  have hsub : ((data.drop (i+1)).take (n-1)).filter (fun w => decide (key (K := K) w.record = key r)) = (data.drop (i+1)).take (n-1) := by
    rw [List.filter_eq_self]
    intro w hw
    obtain ⟨j, hj, rfl⟩ := List.getElem_of_mem hw
    rw [List.length_take, List.length_drop] at hj
    rw [List.getElem_take, List.getElem_drop]
    have ha := h2 (j+1) (by rw [List.length_drop]; omega) (by omega)
    rw [List.getElem_drop] at ha
    simp only [show i + (j + 1) = i + 1 + j by omega] at ha
    have hb := lbs_ge (key (K := K) r) hs (i := i + 1 + j) (by omega) (by omega)
    exact decide_eq_true (le_antisymm (key_mono (le_of_lt ha)) hb)
  have hle : (data.drop (i+1)).take (n-1) |>.Sublist data := (List.take_sublist _ _).trans (List.drop_sublist _ _)
  have := (hle.filter (fun w => decide (key (K := K) w.record = key r))).length_le
  rw [hsub, List.length_take, List.length_drop] at this
  omega

end DE
