import Verif.Model.Sampling
import Verif.Proofs.PointLookup
import Verif.Proofs.Learned

namespace DE

/-- A computation with result in `P`; it may abort, but not when `safe`, and it never has undefined behaviour. -/
def Good {α : Type} (safe : Prop) (r : Res α) (P : α → Prop) : Prop :=
  (∃ a, r = .ok a ∧ P a) ∨ (r = .error .abort ∧ ¬ safe)

theorem Good.ok {α : Type} {safe : Prop} {a : α} {P : α → Prop} (h : P a) : Good safe (.ok a) P := Or.inl ⟨a, rfl, h⟩

theorem Good.bind {α β : Type} {safe : Prop} {r : Res α} {f : α → Res β} {P : α → Prop} {Q : β → Prop}
    (h : Good safe r P) (hf : ∀ a, P a → Good safe (f a) Q) : Good safe (r >>= f) Q := by
  rcases h with ⟨a, rfl, ha⟩ | ⟨rfl, hs⟩
  · exact hf a ha
  · exact Or.inr ⟨rfl, hs⟩

theorem Good.mono {α : Type} {safe : Prop} {r : Res α} {P Q : α → Prop} (h : Good safe r P) (hpq : ∀ a, P a → Q a) :
    Good safe r Q := by
  rcases h with ⟨a, rfl, ha⟩ | h
  · exact Or.inl ⟨a, rfl, hpq a ha⟩
  · exact Or.inr h

theorem Good.elim {α : Type} {safe : Prop} {r : Res α} {P : α → Prop} (h : Good safe r P) {a : α} (hr : r = .ok a) : P a := by
  rcases h with ⟨b, hb, hp⟩ | ⟨hb, -⟩
  · rw [hr] at hb; cases hb; exact hp
  · rw [hr] at hb; cases hb

theorem Good.safe {α : Type} {safe : Prop} {r : Res α} {P : α → Prop} (h : Good safe r P) (hs : safe) : ∃ a, r = .ok a ∧ P a := by
  rcases h with h | ⟨-, hn⟩
  · exact h
  · exact absurd hs hn

/-- `xs` has at most `n` elements, all in `P`, and exactly `n` when `ex`. -/
def Bunch {α : Type} (P : α → Prop) (ex : Prop) (n : Nat) (xs : List α) : Prop :=
  (∀ x ∈ xs, P x) ∧ xs.length ≤ n ∧ (ex → xs.length = n)

theorem Bunch.nil {α : Type} {P : α → Prop} {ex : Prop} : Bunch P ex 0 [] := ⟨by simp, le_refl _, fun _ => rfl⟩

theorem Bunch.append {α : Type} {P : α → Prop} {ex : Prop} {m n : Nat} {xs ys : List α} (h : Bunch P ex m xs) (h' : Bunch P ex n ys) :
    Bunch P ex (m + n) (xs ++ ys) := by
  refine ⟨?_, ?_, ?_⟩
  · intro x hx
    rcases List.mem_append.mp hx with hx | hx
    · exact h.1 x hx
    · exact h'.1 x hx
  · rw [List.length_append]; have := h.2.1; have := h'.2.1; omega
  · intro he
    rw [List.length_append, h.2.2 he, h'.2.2 he]

theorem drawMany_good {α : Type} {safe ex : Prop} {P : α → Prop} {f : Nat → Res (List α × Nat)}
    (hf : ∀ pos, Good safe (f pos) (fun x => Bunch P ex 1 x.1)) :
    ∀ n pos, Good safe (drawMany f n pos) (fun x => Bunch P ex n x.1)
  | 0, pos => Good.ok Bunch.nil
  | n+1, pos => by
    unfold drawMany
    refine (hf pos).bind ?_
    rintro ⟨x, p⟩ hx
    refine (drawMany_good hf n p).bind ?_
    rintro ⟨xs, p'⟩ hxs
    refine Good.ok ?_
    rw [Nat.add_comm]
    exact Bunch.append hx hxs

theorem sum_modify : ∀ (l : List Nat) (i : Nat), i < l.length → (l.modify i (· + 1)).sum = l.sum + 1
  | [], i, h => by simp at h
  | a :: l, 0, _ => by simp [List.modify_zero_cons]; omega
  | a :: l, i+1, h => by
    rw [List.modify_succ_cons, List.sum_cons, List.sum_cons, sum_modify l i (by simpa using h)]; omega

/-- Sample sizes: one per source, adding up, and none for a source of weight 0. -/
def Split (ws : List Nat) (n : Nat) (ns : List Nat) : Prop :=
  ns.length = ws.length ∧ ns.sum = n ∧ ∀ (i : Nat), ws[i]? = some 0 → ns[i]? = some 0

theorem distribute_good {al : AliasFn} (hal : al.Ok) {ws : List Nat} (hw : 0 < ws.sum) (g : Rng) (safe : Prop) :
    ∀ (n pos m : Nat) (acc : List Nat), Split ws m acc →
      Good safe (distribute al ws g n pos acc) (fun x => Split ws (m + n) x.1)
  | 0, pos, m, acc, h => Good.ok h
  | n+1, pos, m, acc, h => by
    unfold distribute
    obtain ⟨w, h1, h2⟩ := hal ws (g.tape pos) hw
    have hlt : al ws (g.tape pos) < acc.length := by
      rw [h.1]
      exact (List.getElem?_eq_some_iff.mp h1).1
    simp only [if_pos hlt]
    have h3 : Split ws (m + 1) (acc.modify (al ws (g.tape pos)) (· + 1)) := by
      refine ⟨by rw [List.length_modify]; exact h.1, by rw [sum_modify _ _ hlt, h.2.1], ?_⟩
      intro i hi
      have hne : al ws (g.tape pos) ≠ i := by
        intro e
        rw [e, hi] at h1
        cases h1; omega
      rw [List.getElem?_modify_ne _ _ hne]
      exact h.2.2 i hi
    have := distribute_good hal hw g safe n (pos+1) (m+1) _ h3
    rw [show m + (n+1) = m + 1 + n from by omega]
    exact this

theorem split_zero (ws : List Nat) : Split ws 0 (ws.map (fun _ => 0)) := by
  refine ⟨by simp, by induction ws <;> simp_all, ?_⟩
  intro i hi
  rw [List.getElem?_map, hi]; rfl

theorem split_replicate (ws : List Nat) : Split ws 0 (List.replicate ws.length 0) := by
  rw [← List.map_const']; exact split_zero ws

theorem below_good {g : Rng} {n : Nat} (pos : Nat) {safe : Prop} (h0 : n ≠ 0) (hs : safe → n ≤ g.max) :
    Good safe (g.below n pos) (fun x => x.1 < n ∧ n ≤ g.max) := by
  unfold Rng.below
  by_cases h : n = 0 ∨ n > g.max
  · rw [if_pos h]
    exact Or.inr ⟨rfl, fun hh => by have := hs hh; omega⟩
  · rw [if_neg h]
    refine Good.ok ⟨?_, ?_⟩
    · exact Nat.mod_lt _ (by omega)
    · omega

theorem getR_good {α : Type} {l : List α} {i : Nat} {safe : Prop} (h : i < l.length) : Good safe (getR l i) (fun x => l[i]? = some x) := by
  rw [getR_lt h]
  exact Good.ok (List.getElem?_eq_getElem h)

namespace Irs
variable {R K : Type} [LinearOrder R] [LinearOrder K] [HasKey R K]

/-- The bounds of a local query are exact. -/
def Local.Exact (lo hi : K) (q : Local R) : Prop :=
  q.data.Pairwise (fun a b => key (K := K) a.record ≤ key b.record) ∧
  IsFirst (fun w : Wrapped R => lo ≤ key w.record) q.data q.lower ∧ IsFirst (fun w : Wrapped R => hi < key w.record) q.data q.upper

theorem isFirst_lt {α : Type} {p : α → Prop} {l : List α} {i j : Nat} (h : IsFirst p l i) (hj : j < i) (hjl : j < l.length) : ¬ p l[j] := by
  apply h.2.1
  rw [List.mem_iff_getElem]
  exact ⟨j, by rw [List.length_take]; omega, by rw [List.getElem_take]⟩

theorem Local.Exact.range {lo hi : K} {q : Local R} (h : q.Exact lo hi) {i : Nat} {w : Wrapped R} (h1 : q.lower ≤ i) (h2 : i < q.upper)
    (hw : q.data[i]? = some w) : w ∈ q.data ∧ lo ≤ key w.record ∧ key w.record ≤ hi := by
  obtain ⟨hs, hl, hu⟩ := h
  obtain ⟨hlt, rfl⟩ := List.getElem?_eq_some_iff.mp hw
  refine ⟨List.getElem_mem hlt, ?_, ?_⟩
  · have hll : q.lower < q.data.length := by omega
    have := hl.2.2 _ (List.getElem?_eq_getElem hll)
    exact le_trans this (KeySorted.get hs h1 hlt)
  · exact not_lt.mp (isFirst_lt hu h2 hlt)

/-- In a proper range the lower bound is not after the upper bound. -/
theorem Local.Exact.ordered {lo hi : K} {q : Local R} (h : q.Exact lo hi) (hle : lo ≤ hi) : q.lower ≤ q.upper := by
  obtain ⟨hs, hl, hu⟩ := h
  by_contra hc
  have h1 : q.upper < q.data.length := by have := hl.1; omega
  have h2 := hu.2.2 _ (List.getElem?_eq_getElem h1)
  have h3 := isFirst_lt hl (show q.upper < q.lower by omega) h1
  exact h3 (le_trans hle (le_of_lt h2))

theorem Local.Exact.weight {lo hi : K} {q : Local R} (h : q.Exact lo hi) (hle : lo ≤ hi) : q.weight = q.upper - q.lower := by
  have h1 := h.ordered hle
  have h2 := h.2.2.1
  unfold Local.weight Local.span
  rw [if_pos h1]
  split <;> omega

theorem Local.Exact.pos {lo hi : K} {q : Local R} (h : q.Exact lo hi) {w : Wrapped R} (hw : w ∈ q.data)
    (h1 : lo ≤ key w.record) (h2 : key w.record ≤ hi) : q.weight ≠ 0 := by
  rw [h.weight (le_trans h1 h2)]
  obtain ⟨hs, hl, hu⟩ := h
  obtain ⟨j, hj, rfl⟩ := List.getElem_of_mem hw
  have a1 : q.lower ≤ j := by
    by_contra hc
    exact isFirst_lt hl (show j < q.lower by omega) hj h1
  have a2 : j < q.upper := by
    by_contra hc
    have hul : q.upper < q.data.length := by omega
    have := hu.2.2 _ (List.getElem?_eq_getElem hul)
    have h3 := KeySorted.get hs (show q.upper ≤ j by omega) hj
    exact absurd (lt_of_lt_of_le this (le_trans h3 h2)) (lt_irrefl _)
  omega

/-- The size assumptions under which no draw is refused by the generator. -/
def Safe (g : Rng) (lo hi : K) (buf : List (Wrapped R)) (qs : List (Local R)) : Prop :=
  lo ≤ hi ∧ buf.length ≤ g.max ∧ ∀ q ∈ qs, q.data.length ≤ g.max

variable {lo hi : K}

theorem localQuery_good {g : Rng} {safe : Prop} {q : Local R} (hq : q.Exact lo hi) (hmax : g.max + q.data.length < 2 ^ 64)
    (hsafe : safe → lo ≤ hi ∧ q.data.length ≤ g.max) (ex : Prop) {n : Nat} (hn : q.weight = 0 → n = 0) (pos : Nat) :
    Good safe (localQuery g q n pos)
      (fun x => Bunch (fun w => w ∈ q.data ∧ lo ≤ key w.record ∧ key w.record ≤ hi) ex n x.1) := by
  unfold localQuery
  by_cases h0 : n = 0
  · rw [if_pos (Or.inl h0), h0]; exact Good.ok Bunch.nil
  · by_cases h1 : q.lower = q.data.length
    · exact absurd (hn (by unfold Local.weight; rw [if_pos h1])) h0
    · rw [if_neg (by omega)]
      apply drawMany_good
      intro pos
      have hw : q.span ≠ 0 := by
        intro e
        exact h0 (hn (by unfold Local.weight; rw [if_neg h1, e]))
      have hll := hq.2.1.1
      have huu := hq.2.2.1
      unfold drawShard
      rw [if_pos (by omega)]
      refine (below_good pos hw ?_).bind ?_
      · intro hs
        obtain ⟨ha, hb⟩ := hsafe hs
        have := hq.ordered ha
        unfold Local.span
        rw [if_pos this]; omega
      · rintro ⟨i, p⟩ ⟨hi1, hi2⟩
        simp only at hi1
        have hsp : q.span = q.upper - q.lower := by
          unfold Local.span at hi2 ⊢
          split
          · rfl
          · next hc => rw [if_neg hc] at hi2; omega
        rw [hsp] at hi1
        refine (getR_good (show q.lower + i < q.data.length by omega)).bind ?_
        intro w hw
        refine Good.ok ⟨?_, by simp, fun _ => by simp⟩
        intro x hx
        simp only [List.mem_singleton] at hx
        subst hx
        exact hq.range (by omega) (by omega) hw

theorem shardQueries_good {g : Rng} {safe ex : Prop} : ∀ (qs : List (Local R)) (ns : List Nat) (pos : Nat), ns.length = qs.length →
    (∀ q ∈ qs, q.Exact lo hi ∧ g.max + q.data.length < 2 ^ 64 ∧ (safe → lo ≤ hi ∧ q.data.length ≤ g.max)) →
    (∀ (i : Nat), (qs.map Local.weight)[i]? = some 0 → ns[i]? = some 0) →
    Good safe (shardQueries g qs ns pos)
      (fun x => Bunch (fun w => (∃ q ∈ qs, w ∈ q.data) ∧ lo ≤ key w.record ∧ key w.record ≤ hi) ex ns.sum x.1)
  | [], [], pos, _, _, _ => Good.ok Bunch.nil
  | [], _ :: _, _, h, _, _ => by simp at h
  | _ :: _, [], _, h, _, _ => by simp at h
  | q :: qs, n :: ns, pos, hl, hq, hz => by
    unfold shardQueries
    obtain ⟨h1, h2, h3⟩ := hq q (by simp)
    refine (localQuery_good h1 h2 h3 ex (n := n) ?_ pos).bind ?_
    · intro h
      have := hz 0 (by simp [h])
      simpa using this
    · rintro ⟨x, p⟩ hx
      refine (shardQueries_good (ex := ex) qs ns p (by simpa using hl) (fun q hqm => hq q (by simp [hqm])) ?_).bind ?_
      · intro i hi
        have := hz (i+1) (by simpa using hi)
        simpa using this
      · rintro ⟨xs, p'⟩ hxs
        refine Good.ok ?_
        rw [List.sum_cons]
        refine Bunch.append (m := n) ⟨?_, hx.2⟩ ⟨?_, hxs.2⟩
        · intro w hw
          exact ⟨⟨q, by simp, (hx.1 w hw).1⟩, (hx.1 w hw).2⟩
        · intro w hw
          obtain ⟨⟨q', hq', hm⟩, hr⟩ := hxs.1 w hw
          exact ⟨⟨q', by simp [hq'], hm⟩, hr⟩

theorem bufferQuery_good {rej : Bool} {g : Rng} {safe ex : Prop} {buf : List (Wrapped R)} (hsafe : safe → buf.length ≤ g.max)
    (hex : ex → rej = false ∨ ∀ w ∈ buf, inR lo hi w = true) {n : Nat}
    (hn : (if rej then buf.length else (buf.filter (inR lo hi)).length) = 0 → n = 0) (pos : Nat) :
    Good safe (bufferQuery rej g lo hi buf n pos)
      (fun x => Bunch (fun w => w ∈ buf ∧ lo ≤ key w.record ∧ key w.record ≤ hi) ex n x.1) := by
  unfold bufferQuery
  by_cases h0 : n = 0
  · subst h0
    split <;> exact Good.ok Bunch.nil
  cases rej with
  | true =>
    rw [if_pos rfl]
    apply drawMany_good
    intro pos
    unfold drawReject
    refine (below_good pos (fun e => h0 (hn (by simpa using e))) hsafe).bind ?_
    rintro ⟨i, p⟩ ⟨hi1, -⟩
    refine (getR_good hi1).bind ?_
    intro w hw
    have hmem := List.mem_of_getElem? hw
    refine Good.ok ?_
    by_cases hin : inR lo hi w = true
    · rw [if_pos hin]
      refine ⟨?_, by simp, fun _ => by simp⟩
      intro x hx
      simp only [List.mem_singleton] at hx
      subst hx
      unfold inR at hin
      exact ⟨hmem, by simpa using hin⟩
    · rw [if_neg hin]
      refine ⟨by simp, by simp, fun he => ?_⟩
      rcases hex he with h | h
      · cases h
      · exact absurd (h w hmem) hin
  | false =>
    rw [if_neg (by simp)]
    apply drawMany_good
    intro pos
    unfold drawRec
    refine (below_good pos (fun e => h0 (hn (by simpa using e))) (fun hs => le_trans (List.length_filter_le _ _) (hsafe hs))).bind ?_
    rintro ⟨i, p⟩ ⟨hi1, -⟩
    refine (getR_good hi1).bind ?_
    intro w hw
    have hmem := List.mem_of_getElem? hw
    refine Good.ok ⟨?_, by simp, fun _ => by simp⟩
    intro x hx
    simp only [List.mem_singleton] at hx
    subst hx
    obtain ⟨hm, hin⟩ := List.mem_filter.mp hmem
    unfold inR at hin
    exact ⟨hm, by simpa using hin⟩

/-- A record a round may return. -/
def Avail (lo hi : K) (buf : List (Wrapped R)) (qs : List (Local R)) (r : R) : Prop :=
  (∃ w, (w ∈ buf ∨ ∃ q ∈ qs, w ∈ q.data) ∧ w.record = r) ∧ lo ≤ key r ∧ key r ≤ hi

theorem round_good {rej : Bool} {al : AliasFn} (hal : al.Ok) {g : Rng} {buf : List (Wrapped R)} {qs : List (Local R)}
    (hq : ∀ q ∈ qs, q.Exact lo hi ∧ g.max + q.data.length < 2 ^ 64) (n pos : Nat) :
    Good (Safe g lo hi buf qs) (round rej al g lo hi buf qs n pos)
      (fun x => Bunch (Avail lo hi buf qs)
        ((rej = false ∨ ∀ w ∈ buf, inR lo hi w = true) ∧ (weights rej lo hi buf qs).sum ≠ 0) n x.1) := by
  unfold round distributeQuery
  by_cases h0 : (weights rej lo hi buf qs).sum = 0
  · simp only [if_pos h0]
    have hw0 : ∀ x ∈ weights rej lo hi buf qs, x = 0 := List.sum_eq_zero_iff_forall_eq_nat.mp h0
    have hb : ∀ p, bufferQuery rej g lo hi buf 0 p = .ok ([], p) := by
      intro p; unfold bufferQuery; split <;> rfl
    have hs : ∀ (qs : List (Local R)) p, shardQueries g qs (qs.map (fun _ => 0)) p = .ok ([], p) := by
      intro qs
      induction qs with
      | nil => intro p; rfl
      | cons q qs ih =>
        intro p
        rw [List.map_cons]
        unfold shardQueries localQuery
        rw [if_pos (Or.inl rfl)]
        simp only [bind, Except.bind]
        rw [ih]; rfl
    have : (weights rej lo hi buf qs).map (fun _ => 0) = 0 :: qs.map (fun _ => 0) := by
      unfold weights; rw [List.map_cons, List.map_map]; rfl
    rw [this]
    simp only [bind, Except.bind, hb, hs]
    refine Good.ok ⟨by simp, by simp, ?_⟩
    rintro ⟨-, h⟩; exact absurd h0 h
  · simp only [if_neg h0]
    refine (distribute_good hal (by omega) g _ n pos 0 _ (split_zero _)).bind ?_
    rintro ⟨ns, p⟩ hns
    rw [Nat.zero_add] at hns
    simp only at hns
    match ns, hns with
    | [], hns => exact absurd hns.1 (by unfold weights; simp)
    | nb :: ns, hns =>
      simp only
      have hlen : ns.length = qs.length := by
        have := hns.1
        unfold weights at this; simpa using this
      have hsum : nb + ns.sum = n := by have := hns.2.1; simpa using this
      refine (bufferQuery_good (safe := Safe g lo hi buf qs)
        (ex := (rej = false ∨ ∀ w ∈ buf, inR lo hi w = true) ∧ (weights rej lo hi buf qs).sum ≠ 0)
        (fun hs => hs.2.1) (fun h => h.1) (n := nb) ?_ p).bind ?_
      · intro h
        have := hns.2.2 0 (by unfold weights; simp only [List.getElem?_cons_zero]; rw [h])
        simpa using this
      · rintro ⟨b, p'⟩ hb
        refine (shardQueries_good
          (ex := (rej = false ∨ ∀ w ∈ buf, inR lo hi w = true) ∧ (weights rej lo hi buf qs).sum ≠ 0) qs ns p' hlen
          (fun q hqm => ⟨(hq q hqm).1, (hq q hqm).2, fun hs => ⟨hs.1, hs.2.2 q hqm⟩⟩) ?_).bind ?_
        · intro i hi
          have := hns.2.2 (i+1) (by unfold weights; simpa using hi)
          simpa using this
        · rintro ⟨s, p''⟩ hs
          refine Good.ok ?_
          have h1 := Bunch.append (P := fun w => (w ∈ buf ∨ ∃ q ∈ qs, w ∈ q.data) ∧ lo ≤ key w.record ∧ key w.record ≤ hi)
            ⟨fun w hw => ⟨Or.inl (hb.1 w hw).1, (hb.1 w hw).2⟩, hb.2⟩ ⟨fun w hw => ⟨Or.inr (hs.1 w hw).1, (hs.1 w hw).2⟩, hs.2⟩
          rw [hsum] at h1
          refine ⟨?_, by simpa using h1.2.1, fun he => by simpa using h1.2.2 he⟩
          intro r hr
          obtain ⟨w, hw, rfl⟩ := List.mem_map.mp hr
          obtain ⟨ha, hb⟩ := h1.1 w hw
          exact ⟨⟨w, ha, rfl⟩, hb⟩

/-- What the whole loop returns: available records, never more than requested, exactly as many when nothing can be rejected. -/
theorem loop_good {rej : Bool} {al : AliasFn} (hal : al.Ok) {g : Rng} {buf : List (Wrapped R)} {qs : List (Local R)}
    (hq : ∀ q ∈ qs, q.Exact lo hi ∧ g.max + q.data.length < 2 ^ 64) : ∀ (fuel n pos : Nat) (out : List R) (N : Nat),
    (∀ r ∈ out, Avail lo hi buf qs r) → n + out.length ≤ N →
    Good (Safe g lo hi buf qs) (loop rej al g lo hi buf qs fuel n pos out)
      (fun x => ∀ res, x = some res → (∀ r ∈ res, Avail lo hi buf qs r) ∧ res.length ≤ N)
  | 0, n, pos, out, N, _, _ => Good.ok (by intro res h; cases h)
  | fuel+1, n, pos, out, N, ho, hN => by
    unfold loop
    refine (round_good hal hq n pos).bind ?_
    rintro ⟨r, p⟩ hr
    simp only
    have ho' : ∀ x ∈ out ++ r, Avail lo hi buf qs x := by
      intro x hx
      rcases List.mem_append.mp hx with hx | hx
      · exact ho x hx
      · exact hr.1 x hx
    have hr2 : r.length ≤ n := hr.2.1
    have hl : (out ++ r).length = out.length + r.length := List.length_append
    split
    · refine loop_good hal hq fuel _ p (out ++ r) N ho' ?_
      omega
    · refine Good.ok ?_
      intro res h
      cases h
      exact ⟨ho', by omega⟩

/-- One round suffices when nothing can be rejected. -/
theorem loop_one {rej : Bool} {al : AliasFn} (hal : al.Ok) {g : Rng} {buf : List (Wrapped R)} {qs : List (Local R)}
    (hq : ∀ q ∈ qs, q.Exact lo hi ∧ g.max + q.data.length < 2 ^ 64) (hs : Safe g lo hi buf qs)
    (hex : (rej = false ∨ ∀ w ∈ buf, inR lo hi w = true) ∧ (weights rej lo hi buf qs).sum ≠ 0) (n fuel : Nat) :
    ∃ res, loop rej al g lo hi buf qs (fuel+1) n 0 [] = .ok (some res) ∧ res.length = n := by
  obtain ⟨⟨r, p⟩, h1, h2⟩ := (round_good (rej := rej) hal hq n 0).safe hs
  unfold loop
  rw [h1]
  simp only [bind, Except.bind, List.nil_append]
  have h3 : r.length = n := h2.2.2 hex
  rw [if_neg (by omega)]
  exact ⟨r, rfl, h3⟩

/-- Once something has been drawn the loop ends: the outstanding number falls in every round. -/
theorem loop_ends {rej : Bool} {al : AliasFn} (hal : al.Ok) {g : Rng} {buf : List (Wrapped R)} {qs : List (Local R)}
    (hq : ∀ q ∈ qs, q.Exact lo hi ∧ g.max + q.data.length < 2 ^ 64) (hs : Safe g lo hi buf qs) :
    ∀ (fuel n pos : Nat) (out : List R), out ≠ [] → n < fuel →
      ∃ res, loop rej al g lo hi buf qs fuel n pos out = .ok (some res)
  | 0, n, _, _, _, h => by omega
  | fuel+1, n, pos, out, ho, hn => by
    obtain ⟨⟨r, p⟩, h1, -⟩ := (round_good (rej := rej) hal hq n pos).safe hs
    unfold loop
    rw [h1]
    simp only [bind, Except.bind]
    split
    · next h =>
      have hl : 0 < out.length := List.length_pos_iff.mpr ho
      refine loop_ends hal hq hs fuel _ p _ (by simp [ho]) ?_
      rw [List.length_append] at h ⊢
      omega
    · exact ⟨_, rfl⟩

/-- If nothing can be drawn the loop never ends. -/
theorem loop_never {rej : Bool} {al : AliasFn} {g : Rng} {buf : List (Wrapped R)} {qs : List (Local R)}
    (hr : ∀ n pos, ∃ p, round rej al g lo hi buf qs n pos = .ok ([], p)) {n : Nat} (hn : 0 < n) : ∀ (fuel pos : Nat),
    loop rej al g lo hi buf qs fuel n pos [] = .ok none
  | 0, pos => rfl
  | fuel+1, pos => by
    obtain ⟨p, h1⟩ := hr n pos
    unfold loop
    rw [h1]
    simp only [bind, Except.bind, List.nil_append, List.length_nil, Nat.sub_zero]
    rw [if_pos hn]
    exact loop_never hr hn fuel p

theorem weights_pos {rej : Bool} {buf : List (Wrapped R)} {qs : List (Local R)} (hq : ∀ q ∈ qs, q.Exact lo hi) {r : R}
    (hr : Avail lo hi buf qs r) : (weights rej lo hi buf qs).sum ≠ 0 := by
  obtain ⟨⟨w, hw, rfl⟩, h1, h2⟩ := hr
  intro h0
  have hz := List.sum_eq_zero_iff_forall_eq_nat.mp h0
  unfold weights at hz
  rcases hw with hw | ⟨q, hqm, hw⟩
  · have := hz _ (List.mem_cons_self ..)
    cases rej
    · simp only [Bool.false_eq_true, if_false, List.length_eq_zero_iff, List.filter_eq_nil_iff] at this
      exact this w hw (by unfold inR; simp [h1, h2])
    · simp only [if_true, List.length_eq_zero_iff] at this
      rw [this] at hw; cases hw
  · exact (hq q hqm).pos hw h1 h2 (hz _ (List.mem_cons_of_mem _ (List.mem_map.mpr ⟨q, hqm, rfl⟩)))

/-- The local query built for a non-empty shard of an exact index structure. -/
def ExactBounds (lb ub : LB R K) : Prop := ∀ data : List (Wrapped R), data ≠ [] →
  data.Pairwise (fun a b => key (K := K) a.record ≤ key b.record) → ∀ k,
  (∃ i, lb data k = .ok i ∧ IsFirst (fun w => k ≤ key w.record) data i) ∧
  (∃ i, ub data k = .ok i ∧ IsFirst (fun w => k < key w.record) data i)

theorem preproc_spec {lb ub : LB R K} (hb : ExactBounds lb ub) {ss : List (Shard R)} (lo hi : K)
    (hs : ∀ s ∈ ss, s.data.Pairwise (fun a b => key (K := K) a.record ≤ key b.record) ∧ s.data ≠ []) :
    ∃ qs, ss.mapM (preproc lb ub lo hi) = .ok qs ∧ (∀ q ∈ qs, q.Exact lo hi) ∧ qs.map Local.data = ss.map Shard.data := by
  induction ss with
  | nil => exact ⟨[], rfl, by simp, rfl⟩
  | cons s ss ih =>
    obtain ⟨qs, h1, h2, h3⟩ := ih (fun s hsm => hs s (by simp [hsm]))
    obtain ⟨hso, hne⟩ := hs s (by simp)
    obtain ⟨l, hl1, hl2⟩ := (hb s.data hne hso lo).1
    obtain ⟨u, hu1, hu2⟩ := (hb s.data hne hso hi).2
    refine ⟨⟨s.data, l, u⟩ :: qs, ?_, ?_, ?_⟩
    · rw [List.mapM_cons, h1]
      unfold preproc
      rw [hl1]
      simp only [bind, Except.bind, hu1, pure, Except.pure]
    · intro q hq
      rcases List.mem_cons.mp hq with rfl | hq
      · exact ⟨hso, hl2, hu2⟩
      · exact h2 q hq
    · simp [h3]

end Irs
end DE

namespace DE
variable {R K : Type} [LinearOrder R] [LinearOrder K] [HasKey R K]

theorem isam_exactBounds {F LF : Nat} (hF : 2 ≤ F) (hLF : 1 ≤ LF) (z : K) :
    Irs.ExactBounds (Isam.lowerBound (R := R) F LF z) (Isam.upperBound F LF z) := by
  intro data hne hs k
  constructor
  · obtain ⟨i, h1, h2, h3, h4⟩ := Isam.search_spec (z := z) hF hLF hne (go := fun x => decide (k ≤ x))
      (p := fun w => decide (key w.record < k)) (data := data) (by
        intro m hm hg i hi
        have : key (data[i]'(by omega)).record ≤ key (K := K) data[m].record := KeySorted.get hs hi hm
        simp only [decide_eq_false_iff_not, not_le, decide_eq_true_eq] at *
        exact lt_of_le_of_lt this hg)
    exact ⟨i, h1, isFirst_of h2 (fun j hj hlt => by simpa using h3 j hj hlt) (fun h => by simpa using h4 h)⟩
  · obtain ⟨i, h1, h2, h3, h4⟩ := Isam.search_spec (z := z) hF hLF hne (go := fun x => decide (k < x))
      (p := fun w => decide (key w.record ≤ k)) (data := data) (by
        intro m hm hg i hi
        have : key (data[i]'(by omega)).record ≤ key (K := K) data[m].record := KeySorted.get hs hi hm
        simp only [decide_eq_false_iff_not, not_lt, decide_eq_true_eq] at *
        exact le_trans this hg)
    exact ⟨i, h1, isFirst_of h2 (fun j hj hlt => by simpa using h3 j hj hlt) (fun h => by simpa using h4 h)⟩

/-- The local queries of an index whose shards are sorted and not empty. -/
structure IrsSetup (lb ub : LB R K) (lo hi : K) (d : Index R) (qs : List (Irs.Local R)) : Prop where
  eq : ∀ rej al g n fuel, d.irs rej al g lb ub lo hi n fuel = Irs.loop rej al g lo hi d.buf.contents qs fuel n 0 []
  exact : ∀ q ∈ qs, q.Exact lo hi
  len : ∀ q ∈ qs, ∃ s ∈ d.str.visible, q.data = s.data
  avail : ∀ r, Irs.Avail lo hi d.buf.contents qs r ↔ (∃ e ∈ d.entries, e.record = r) ∧ lo ≤ key r ∧ key r ≤ hi
  map : qs.map Irs.Local.data = d.str.visible.map Shard.data

theorem irs_setup_gets {lb ub : LB R K} (hb : Irs.ExactBounds lb ub) {d : Index R} (hg : d.buf.view.gets = .ok d.buf.contents) (lo hi : K)
    (hs : ∀ s ∈ d.str.visible, s.data.Pairwise (fun a b => key (K := K) a.record ≤ key b.record) ∧ s.data ≠ []) :
    ∃ qs, IrsSetup lb ub lo hi d qs := by
  obtain ⟨qs, h1, h2, h3⟩ := Irs.preproc_spec hb lo hi hs
  refine ⟨qs, ?_, h2, ?_, ?_, h3⟩
  · intro rej al g n fuel
    unfold Index.irs
    rw [hg]
    simp only [bind, Except.bind, h1]
  · intro q hq
    have : q.data ∈ qs.map Irs.Local.data := List.mem_map.mpr ⟨q, hq, rfl⟩
    rw [h3, List.mem_map] at this
    obtain ⟨s, hs, h⟩ := this
    exact ⟨s, hs, h.symm⟩
  · intro r
    have hmem : ∀ w, (∃ q ∈ qs, w ∈ q.data) ↔ ∃ s ∈ d.str.visible, w ∈ s.data := by
      intro w
      have e1 : (∃ q ∈ qs, w ∈ q.data) ↔ ∃ l ∈ qs.map Irs.Local.data, w ∈ l := by simp
      have e2 : (∃ s ∈ d.str.visible, w ∈ s.data) ↔ ∃ l ∈ d.str.visible.map Shard.data, w ∈ l := by simp
      rw [e1, e2, h3]
    unfold Irs.Avail
    apply and_congr _ Iff.rfl
    constructor
    · rintro ⟨w, hw, rfl⟩
      refine ⟨w.entry, mem_entries.mpr ?_, rfl⟩
      rcases hw with hw | hw
      · exact Or.inl ⟨w, hw, rfl⟩
      · obtain ⟨s, hs, hw⟩ := (hmem w).mp hw
        exact Or.inr ⟨s, hs, w, hw, rfl⟩
    · rintro ⟨e, he, rfl⟩
      rcases mem_entries.mp he with ⟨w, hw, rfl⟩ | ⟨s, hs, w, hw, rfl⟩
      · exact ⟨w, Or.inl hw, rfl⟩
      · exact ⟨w, Or.inr ((hmem w).mpr ⟨s, hs, hw⟩), rfl⟩

theorem irs_setup {lb ub : LB R K} (hb : Irs.ExactBounds lb ub) {d : Index R} (hwf : d.buf.WF) (lo hi : K)
    (hs : ∀ s ∈ d.str.visible, s.data.Pairwise (fun a b => key (K := K) a.record ≤ key b.record) ∧ s.data ≠ []) :
    ∃ qs, IrsSetup lb ub lo hi d qs := irs_setup_gets hb (Buffer.view_gets hwf) lo hi hs

theorem irs_nonempty {F LF : Nat} {z : K} {ub : LB R K} {rej : Bool} {al : AliasFn} {g : Rng} {d : Index R} {lo hi : K} {n fuel : Nat}
    {o : Option (List R)} (h : d.irs rej al g (Isam.lowerBound F LF z) ub lo hi n fuel = .ok o) : ∀ s ∈ d.str.visible, s.data ≠ [] := by
  unfold Index.irs at h
  cases hg : d.buf.view.gets with
  | error e => rw [hg] at h; cases h
  | ok buf =>
    rw [hg] at h
    simp only [bind, Except.bind] at h
    cases hm : d.str.visible.mapM (Irs.preproc (Isam.lowerBound F LF z) ub lo hi) with
    | error e => rw [hm] at h; cases h
    | ok qs =>
      clear h
      have : ∀ (ss : List (Shard R)) qs, ss.mapM (Irs.preproc (Isam.lowerBound F LF z) ub lo hi) = .ok qs → ∀ s ∈ ss, s.data ≠ [] := by
        intro ss
        induction ss with
        | nil => simp
        | cons s ss ih =>
          intro qs hq t ht
          rw [List.mapM_cons] at hq
          by_cases hne : s.data = []
          · exfalso
            have : Irs.preproc (Isam.lowerBound F LF z) ub lo hi s = .error .ub := by
              unfold Irs.preproc; rw [hne]; rfl
            rw [this] at hq; cases hq
          · rcases List.mem_cons.mp ht with rfl | ht
            · exact hne
            · cases hp : Irs.preproc (Isam.lowerBound F LF z) ub lo hi s with
              | error e => rw [hp] at hq; cases hq
              | ok q =>
                rw [hp] at hq
                simp only [bind, Except.bind] at hq
                cases hm : ss.mapM (Irs.preproc (Isam.lowerBound F LF z) ub lo hi) with
                | error e => rw [hm] at hq; cases hq
                | ok qs' => exact ih qs' hm t ht
      exact this _ _ hm

/-- A correct alias structure: the position of a number below the total. -/
def pickW : List Nat → Nat → Nat
  | [], _ => 0
  | w :: ws, x => if x < w then 0 else pickW ws (x - w) + 1

def aliasStd : AliasFn := fun ws x => pickW ws (x % ws.sum)

theorem pickW_ok : ∀ (ws : List Nat) (x : Nat), x < ws.sum → ∃ w, ws[pickW ws x]? = some w ∧ 0 < w
  | [], x, h => by simp at h
  | w :: ws, x, h => by
    unfold pickW
    split
    · next hx => exact ⟨w, rfl, by omega⟩
    · next hx =>
      rw [List.sum_cons] at h
      obtain ⟨v, h1, h2⟩ := pickW_ok ws (x - w) (by omega)
      exact ⟨v, by simpa using h1, h2⟩

theorem aliasStd_ok : aliasStd.Ok := fun ws x h => pickW_ok ws _ (Nat.mod_lt _ h)

end DE

namespace DE.Wss
open DE
variable {R : Type}

/-- The draws of the buffer are accepted by the generator: at least two records, or no weight in the buffer. -/
def Safe (wt : R → Nat) (g : Rng) (buf : List (Wrapped R)) : Prop :=
  total wt buf = 0 ∨ (2 ≤ buf.length ∧ buf.length ≤ g.max)

theorem drawShard_good {wt : R → Nat} {al : AliasFn} (hal : al.Ok) {g : Rng} {data : List (Wrapped R)} (hw : total wt data ≠ 0)
    {safe ex : Prop} (hex : ex → ∀ w ∈ data, w.isDeleted = false) (pos : Nat) :
    Good safe (drawShard wt al g data pos) (fun x => Bunch (fun w => w ∈ data ∧ w.isDeleted = false) ex 1 x.1) := by
  unfold drawShard
  obtain ⟨v, h1, -⟩ := hal (data.map (fun w => wt w.record)) (g.tape pos) (by unfold total at hw; omega)
  have hlt := (List.getElem?_eq_some_iff.mp h1).1
  rw [List.length_map] at hlt
  refine (getR_good hlt).bind ?_
  intro w hw
  have hm := List.mem_of_getElem? hw
  refine Good.ok ?_
  cases hd : w.isDeleted with
  | true =>
    refine ⟨by simp, by simp, fun he => ?_⟩
    rw [hex he w hm] at hd; cases hd
  | false =>
    refine ⟨?_, by simp, fun _ => by simp⟩
    intro x hx
    simp at hx
    subst hx
    exact ⟨hm, hd⟩

theorem shardQueries_good {wt : R → Nat} {al : AliasFn} (hal : al.Ok) {g : Rng} {safe ex : Prop} :
    ∀ (qs : List (List (Wrapped R))) (ns : List Nat) (pos : Nat), ns.length = qs.length →
    (ex → ∀ q ∈ qs, ∀ w ∈ q, w.isDeleted = false) → (∀ (i : Nat), (qs.map (total wt))[i]? = some 0 → ns[i]? = some 0) →
    Good safe (shardQueries wt al g qs ns pos)
      (fun x => Bunch (fun w => (∃ q ∈ qs, w ∈ q) ∧ w.isDeleted = false) ex ns.sum x.1)
  | [], [], pos, _, _, _ => Good.ok Bunch.nil
  | [], _ :: _, _, h, _, _ => by simp at h
  | _ :: _, [], _, h, _, _ => by simp at h
  | q :: qs, n :: ns, pos, hl, hex, hz => by
    unfold shardQueries
    have h1 : Good safe (drawMany (drawShard wt al g q) n pos) (fun x => Bunch (fun w => w ∈ q ∧ w.isDeleted = false) ex n x.1) := by
      by_cases h0 : total wt q = 0
      · have : n = 0 := by
          have := hz 0 (by simp [h0])
          simpa using this
        subst this
        exact Good.ok Bunch.nil
      · exact drawMany_good (fun pos => drawShard_good hal h0 (fun he => hex he q (by simp)) pos) n pos
    refine h1.bind ?_
    rintro ⟨x, p⟩ hx
    refine (shardQueries_good (ex := ex) hal qs ns p (by simpa using hl) (fun he q hq => hex he q (by simp [hq])) ?_).bind ?_
    · intro i hi
      have := hz (i+1) (by simpa using hi)
      simpa using this
    · rintro ⟨xs, p'⟩ hxs
      refine Good.ok ?_
      rw [List.sum_cons]
      refine Bunch.append (m := n) ⟨?_, hx.2⟩ ⟨?_, hxs.2⟩
      · intro w hw
        exact ⟨⟨q, by simp, (hx.1 w hw).1⟩, (hx.1 w hw).2⟩
      · intro w hw
        obtain ⟨⟨q', hq', hm⟩, hr⟩ := hxs.1 w hw
        exact ⟨⟨q', by simp [hq'], hm⟩, hr⟩

/-- No draw from the buffer can be rejected: it has no weight, or all its records have the same weight and none is tagged. -/
def Even (wt : R → Nat) (buf : List (Wrapped R)) : Prop :=
  total wt buf = 0 ∨ ∀ w ∈ buf, w.isDeleted = false ∧ wt w.record = maxWeight wt buf

/-- The buffer draws: never the last record. -/
theorem bufQuery_good {wt : R → Nat} {D : Nat} (hD : 0 < D) {g : Rng} {buf : List (Wrapped R)} {n : Nat} (hn : total wt buf = 0 → n = 0) (pos : Nat) :
    Good (Safe wt g buf) (drawMany (drawBuf wt D g buf) n pos)
      (fun x => Bunch (fun w => w ∈ buf.dropLast ∧ w.isDeleted = false) (Even wt buf) n x.1) := by
  by_cases h0 : total wt buf = 0
  · rw [hn h0]; exact Good.ok Bunch.nil
  · refine drawMany_good ?_ n pos
    intro pos
    unfold drawBuf
    have hne : buf.length ≠ 0 := by
      intro e
      rw [List.length_eq_zero_iff] at e
      exact h0 (by rw [e]; rfl)
    have hc : cutoff buf = buf.length - 1 := by unfold cutoff; rw [if_neg hne]
    rw [hc]
    have hb : Good (Safe wt g buf) (g.below (buf.length - 1) pos) (fun x => x.1 < buf.length - 1) := by
      by_cases h1 : buf.length - 1 = 0
      · unfold Rng.below
        rw [if_pos (Or.inl h1)]
        refine Or.inr ⟨rfl, ?_⟩
        rintro (h | ⟨h, -⟩)
        · exact h0 h
        · omega
      · refine (below_good pos h1 ?_).mono (fun a h => h.1)
        rintro (h | ⟨-, h⟩)
        · exact absurd h h0
        · omega
    refine hb.bind ?_
    rintro ⟨i, p⟩ hi
    simp only at hi
    refine (getR_good (show i < buf.length by omega)).bind ?_
    intro w hw
    have hm : w ∈ buf.dropLast := by
      rw [List.mem_iff_getElem]
      obtain ⟨h1, h2⟩ := List.getElem?_eq_some_iff.mp hw
      refine ⟨i, by rw [List.length_dropLast]; omega, ?_⟩
      rw [List.getElem_dropLast]; exact h2
    refine Good.ok ?_
    split
    · next hok =>
      refine ⟨?_, by simp, fun _ => by simp⟩
      intro x hx
      simp at hx
      subst hx
      refine ⟨hm, ?_⟩
      simp only [Bool.and_eq_true, Bool.not_eq_true'] at hok
      exact hok.2
    · next hok =>
      refine ⟨by simp, by simp, ?_⟩
      rintro (h | h)
      · exact absurd h h0
      · exfalso
        obtain ⟨a, b⟩ := h w (List.mem_of_mem_dropLast hm)
        apply hok
        rw [a, b]
        have : g.tape p % D < D := Nat.mod_lt _ hD
        have := Nat.mul_le_mul_right (maxWeight wt buf) (le_of_lt this)
        rw [Nat.mul_comm D] at this
        simp [this]

/-- A record WSS may return. -/
def Avail (buf : List (Wrapped R)) (qs : List (List (Wrapped R))) (r : R) : Prop :=
  ∃ w, (w ∈ buf.dropLast ∨ ∃ q ∈ qs, w ∈ q) ∧ w.isDeleted = false ∧ w.record = r

theorem loop_good {wt : R → Nat} {D : Nat} (hD : 0 < D) {al : AliasFn} (hal : al.Ok) {g : Rng} {buf : List (Wrapped R)} {qs : List (List (Wrapped R))}
    (hw : (total wt buf :: qs.map (total wt)).sum ≠ 0) : ∀ (fuel n pos m : Nat) (ns : List Nat) (out : List R),
    Split (total wt buf :: qs.map (total wt)) m ns → (∀ r ∈ out, Avail buf qs r) →
    Good (Safe wt g buf) (loop wt D al g buf qs fuel n pos ns out) (fun x => ∀ res, x = some res → ∀ r ∈ res, Avail buf qs r)
  | 0, n, pos, m, ns, out, _, _ => Good.ok (by intro res h; cases h)
  | fuel+1, n, pos, m, ns, out, hsp, ho => by
    unfold loop
    refine (distribute_good hal (by omega) g _ n pos m ns hsp).bind ?_
    rintro ⟨ns, p⟩ hns
    simp only at hns
    match ns, hns with
    | [], hns => exact absurd hns.1 (by simp)
    | nb :: nss, hns =>
      simp only
      refine (bufQuery_good (wt := wt) hD (n := nb) ?_ p).bind ?_
      · intro h
        have := hns.2.2 0 (by simp [h])
        simpa using this
      · rintro ⟨b, p1⟩ hb
        refine (shardQueries_good (ex := False) hal qs nss p1 (by have := hns.1; simpa using this) (fun h => h.elim) ?_).bind ?_
        · intro i hi
          have := hns.2.2 (i+1) (by simpa using hi)
          simpa using this
        · rintro ⟨s, p2⟩ hs
          simp only
          have ho' : ∀ r ∈ out ++ (b ++ s).map Wrapped.record, Avail buf qs r := by
            intro r hr
            rcases List.mem_append.mp hr with hr | hr
            · exact ho r hr
            · obtain ⟨w, hw, rfl⟩ := List.mem_map.mp hr
              rcases List.mem_append.mp hw with hw | hw
              · exact ⟨w, Or.inl (hb.1 w hw).1, (hb.1 w hw).2, rfl⟩
              · exact ⟨w, Or.inr (hs.1 w hw).1, (hs.1 w hw).2, rfl⟩
          split
          · exact loop_good hD hal hw fuel _ p2 _ _ _ hns ho'
          · refine Good.ok ?_
            intro res h
            cases h
            exact ho'

/-- One round is enough when nothing can be rejected. -/
theorem loop_one {wt : R → Nat} {D : Nat} (hD : 0 < D) {al : AliasFn} (hal : al.Ok) {g : Rng} {buf : List (Wrapped R)} {qs : List (List (Wrapped R))}
    (hw : (total wt buf :: qs.map (total wt)).sum ≠ 0) (hs : Safe wt g buf) (hev : Even wt buf) (hd : ∀ q ∈ qs, ∀ w ∈ q, w.isDeleted = false)
    (fuel n : Nat) : ∃ res, loop wt D al g buf qs (fuel+1) n 0 (List.replicate (qs.length + 1) 0) [] = .ok (some res) ∧ res.length = n := by
  have hsp := split_replicate (total wt buf :: qs.map (total wt))
  rw [List.length_cons, List.length_map] at hsp
  obtain ⟨⟨ns, p⟩, h1, h2⟩ := (distribute_good hal (by omega) g (Safe wt g buf) n 0 0 _ hsp).safe hs
  unfold loop
  rw [h1]
  simp only [bind, Except.bind]
  simp only [Nat.zero_add] at h2
  match ns, h2 with
  | [], h2 => exact absurd h2.1 (by simp)
  | nb :: nss, h2 =>
    simp only
    obtain ⟨⟨b, p1⟩, h3, h4⟩ := (bufQuery_good (wt := wt) hD (g := g) (buf := buf) (n := nb) (by
      intro h
      have := h2.2.2 0 (by simp [h])
      simpa using this) p).safe hs
    rw [h3]
    simp only
    obtain ⟨⟨s, p2⟩, h5, h6⟩ := (shardQueries_good (wt := wt) (g := g) (safe := True) (ex := True) hal qs nss p1
      (by have := h2.1; simpa using this) (fun _ => hd) (by
        intro i hi
        have := h2.2.2 (i+1) (by simpa using hi)
        simpa using this)).safe trivial
    rw [h5]
    simp only [List.nil_append]
    have hl : ((b ++ s).map Wrapped.record).length = n := by
      have a1 : b.length = nb := h4.2.2 hev
      have a2 : s.length = nss.sum := h6.2.2 trivial
      have a3 : nb + nss.sum = n := by have := h2.2.1; simpa using this
      rw [List.length_map, List.length_append]; omega
    rw [if_neg (by omega)]
    exact ⟨_, rfl, hl⟩

end DE.Wss
