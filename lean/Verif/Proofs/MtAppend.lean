import Verif.Model.MtAppend
import Mathlib.Algebra.BigOperators.Group.Finset.Basic
import Mathlib.Algebra.BigOperators.Group.Finset.Piecewise
import Mathlib.Algebra.Order.BigOperators.Group.Finset
import Mathlib.Algebra.Group.Action.Defs

/-! Invariant of concurrent appends: the claimed positions as a sequence of thread and record. -/

namespace DE.Mt
variable {R : Type}

/-- The records of thread `i` among the claims. -/
def own (log : List (Nat × R × Bool)) (i : Nat) : List (R × Bool) := (log.filter (fun p => decide (p.1 = i))).map Prod.snd

theorem own_append (log : List (Nat × R × Bool)) (j : Nat) (x : R × Bool) (i : Nat) :
    own (log ++ [(j, x)]) i = if j = i then own log i ++ [x] else own log i := by
  unfold own
  rw [List.filter_append, List.map_append]
  by_cases h : j = i <;> simp [h]

/-- Before the claim: what thread has done and what is left. -/
def Pre (hwm : Nat) (l : List (R × Bool)) (log : List (Nat × R × Bool)) (i : Nat) (t : Th R) : Prop :=
  ∃ ref, l = own log i ++ ref ++ t.todo ∧ t.done = List.replicate (own log i).length true ++ List.replicate ref.length false ∧
    (ref ≠ [] → hwm ≤ log.length)

/-- After the claim of position `o`. -/
def Claimed (l : List (R × Bool)) (log : List (Nat × R × Bool)) (i : Nat) (t : Th R) (o : Nat) (v : (R × Bool) → Prop) : Prop :=
  ∃ x rest pre, t.todo = x :: rest ∧ own log i = pre ++ [x] ∧ l = own log i ++ rest ∧ t.done = List.replicate pre.length true ∧
    log[o]? = some (i, x) ∧ v x

/-- The state of one thread. -/
def TI (hwm : Nat) (l : List (R × Bool)) (log : List (Nat × R × Bool)) (data : Nat → Wrapped R) (i : Nat) (t : Th R) : Prop :=
  match t.pc with
  | .idle => Pre hwm l log i t
  | .check o => Pre hwm l log i t ∧ o ≤ log.length ∧ t.todo ≠ []
  | .cas o => Pre hwm l log i t ∧ o ≤ log.length ∧ o < hwm ∧ t.todo ≠ []
  | .recheck o => Pre hwm l log i t ∧ o ≤ log.length ∧ t.todo ≠ []
  | .write o => Claimed l log i t o (fun _ => True)
  | .stamp o => Claimed l log i t o (fun x => data o = raw x)
  | .count o => Claimed l log i t o (fun x => data o = (raw x).setTimestamp o)
  | .reveal o => Claimed l log i t o (fun x => data o = (raw x).setTimestamp o)

/-- The slot a thread is filling. -/
def PC.slot : PC → Option Nat
  | .write o | .stamp o | .count o | .reveal o => some o
  | _ => none

/-- A tombstone claimed but not yet counted. -/
def pend (t : Th R) : Nat :=
  match t.pc with
  | .write _ | .stamp _ | .count _ => match t.todo with
    | x :: _ => if x.2 then 1 else 0
    | [] => 0
  | _ => 0

def tombs (log : List (Nat × R × Bool)) : Nat := log.countP (fun p => p.2.2)

structure Inv (b0 : Buffer R) (T : Nat) (ls : Nat → List (R × Bool)) (s : St R) (log : List (Nat × R × Bool)) : Prop where
  lwm : s.b.lwm = b0.lwm
  hwm : s.b.hwm = b0.hwm
  cap : s.b.cap = b0.cap
  head : s.b.head = 0
  tail : s.b.tail = log.length
  le : log.length ≤ b0.hwm
  ids : ∀ p ∈ log, p.1 < T
  thr : ∀ i < T, TI b0.hwm (ls i) log s.b.data i (s.thr i)
  full : ∀ (q i : Nat) (x : R × Bool), log[q]? = some (i, x) → (s.thr i).pc.slot = some q ∨ s.b.data q = Buffer.entryAt x.1 x.2 q
  rest : ∀ q, log.length ≤ q → s.b.data q = b0.data q
  ts : s.b.tscnt + ∑ i ∈ Finset.range T, pend (s.thr i) = tombs log

theorem entryAt_raw (x : R × Bool) (o : Nat) : ((raw x).setTimestamp o).setVisible = Buffer.entryAt x.1 x.2 o := by
  unfold raw Buffer.entryAt; rfl

/-- A thread is not affected by claims of others and by writes to their slots. -/
theorem TI.other {hwm : Nat} {l : List (R × Bool)} {log : List (Nat × R × Bool)} {data data' : Nat → Wrapped R} {i : Nat} {t : Th R}
    (h : TI hwm l log data i t) (hd : ∀ (o : Nat) x, log[o]? = some (i, x) → data' o = data o) : TI hwm l log data' i t := by
  unfold TI at h ⊢
  split at h <;> rename_i e
  · exact h
  · exact h
  · exact h
  · exact h
  · exact h
  all_goals
    obtain ⟨x, rest, pre, h1, h2, h3, h4, h5, h6⟩ := h
    exact ⟨x, rest, pre, h1, h2, h3, h4, h5, by rw [hd _ _ h5]; exact h6⟩

theorem TI.claim {hwm : Nat} {l : List (R × Bool)} {log : List (Nat × R × Bool)} {data : Nat → Wrapped R} {i j : Nat} {t : Th R}
    (h : TI hwm l log data i t) (hij : j ≠ i) (x : R × Bool) : TI hwm l (log ++ [(j, x)]) data i t := by
  have ho : own (log ++ [(j, x)]) i = own log i := by rw [own_append, if_neg hij]
  have hp : Pre hwm l log i t → Pre hwm l (log ++ [(j, x)]) i t := by
    rintro ⟨ref, h1, h2, h3⟩
    refine ⟨ref, by rw [ho]; exact h1, by rw [ho]; exact h2, fun h => ?_⟩
    have := h3 h
    rw [List.length_append]
    omega
  have hc : ∀ o v, Claimed l log i t o v → Claimed l (log ++ [(j, x)]) i t o v := by
    rintro o v ⟨y, rest, pre, h1, h2, h3, h4, h5, h6⟩
    refine ⟨y, rest, pre, h1, by rw [ho]; exact h2, by rw [ho]; exact h3, h4, ?_, h6⟩
    rw [List.getElem?_append_left (List.getElem?_eq_some_iff.mp h5).1]
    exact h5
  have hl : (log ++ [(j, x)]).length = log.length + 1 := by simp
  unfold TI at h ⊢
  split at h <;> rename_i e
  · exact hp h
  · exact ⟨hp h.1, by have := h.2.1; omega, h.2.2⟩
  · exact ⟨hp h.1, by have := h.2.1; omega, h.2.2⟩
  · exact ⟨hp h.1, by have := h.2.1; omega, h.2.2⟩
  · exact hc _ _ h
  · exact hc _ _ h
  · exact hc _ _ h
  · exact hc _ _ h

theorem sum_upd (T : Nat) (f : Nat → Th R) (i : Nat) (hi : i < T) (t : Th R) (g : Th R → Nat) :
    ∑ k ∈ Finset.range T, g (Function.update f i t k) + g (f i) = ∑ k ∈ Finset.range T, g (f k) + g t := by
  have e1 := Finset.sum_erase_add (Finset.range T) (fun k => g (Function.update f i t k)) (Finset.mem_range.mpr hi)
  have e2 := Finset.sum_erase_add (Finset.range T) (fun k => g (f k)) (Finset.mem_range.mpr hi)
  have e3 : ∑ k ∈ (Finset.range T).erase i, g (Function.update f i t k) = ∑ k ∈ (Finset.range T).erase i, g (f k) :=
    Finset.sum_congr rfl (fun k hk => by rw [Function.update_of_ne (Finset.ne_of_mem_erase hk)])
  simp only [Function.update_self] at e1
  omega

/-- A step that claims nothing and writes at most the slot of its own thread. -/
theorem Inv.keep {b0 : Buffer R} {T : Nat} {ls : Nat → List (R × Bool)} {s : St R} {log : List (Nat × R × Bool)} (h : Inv b0 T ls s log)
    {i : Nat} (hi : i < T) {b : Buffer R} {t : Th R} (h1 : b.lwm = s.b.lwm ∧ b.hwm = s.b.hwm ∧ b.cap = s.b.cap ∧ b.head = s.b.head ∧ b.tail = s.b.tail)
    (hd : ∀ q, b.data q ≠ s.b.data q → ∃ x, log[q]? = some (i, x)) (ht : TI b0.hwm (ls i) log b.data i t)
    (hf : ∀ (q : Nat) (x : R × Bool), log[q]? = some (i, x) → t.pc.slot = some q ∨ b.data q = Buffer.entryAt x.1 x.2 q)
    (hp : b.tscnt + pend t = s.b.tscnt + pend (s.thr i)) : Inv b0 T ls ⟨b, Function.update s.thr i t⟩ log := by
  obtain ⟨a1, a2, a3, a4, a5⟩ := h1
  have hd' : ∀ (q k : Nat) (x : R × Bool), k ≠ i → log[q]? = some (k, x) → b.data q = s.b.data q := by
    intro q k x hk hq
    by_contra hc
    obtain ⟨y, hy⟩ := hd q hc
    rw [hq] at hy
    cases hy
    exact hk rfl
  refine ⟨a1.trans h.lwm, a2.trans h.hwm, a3.trans h.cap, a4.trans h.head, a5.trans h.tail, h.le, h.ids, ?_, ?_, ?_, ?_⟩
  · intro k hk
    show TI b0.hwm (ls k) log b.data k (Function.update s.thr i t k)
    by_cases e : k = i
    · subst e; rw [Function.update_self]; exact ht
    · rw [Function.update_of_ne e]
      exact (h.thr k hk).other (fun o x ho => hd' o k x e ho)
  · intro q k x hq
    show (Function.update s.thr i t k).pc.slot = some q ∨ b.data q = _
    by_cases e : k = i
    · subst e; rw [Function.update_self]; exact hf q x hq
    · rw [Function.update_of_ne e, hd' q k x e hq]
      exact h.full q k x hq
  · intro q hq
    show b.data q = _
    rw [← h.rest q hq]
    by_contra hc
    obtain ⟨y, hy⟩ := hd q hc
    have := (List.getElem?_eq_some_iff.mp hy).1
    omega
  · show b.tscnt + ∑ k ∈ Finset.range T, pend (Function.update s.thr i t k) = _
    have := sum_upd T s.thr i hi t pend
    have := h.ts
    omega

theorem tombs_append (log : List (Nat × R × Bool)) (i : Nat) (x : R × Bool) :
    tombs (log ++ [(i, x)]) = tombs log + if x.2 then 1 else 0 := by
  unfold tombs
  rw [List.countP_append]
  congr 1
  cases h : x.2 <;> simp [h]

theorem slot_none {pc : PC} {q : Nat} (h : pc.slot = none) : ¬ pc.slot = some q := by rw [h]; simp

/-- Every step preserves the invariant, extending the claims if it claims a position. -/
theorem Inv.step {b0 : Buffer R} (hcap : b0.hwm ≤ b0.cap) {T : Nat} {ls : Nat → List (R × Bool)} {s s' : St R} {log : List (Nat × R × Bool)}
    (h : Inv b0 T ls s log) {i : Nat} (hi : i < T) (hs : step s i = some s') : ∃ log', Inv b0 T ls s' log' := by
  unfold Mt.step at hs
  have hT := h.thr i hi
  split at hs
  · cases hs
  · next x rest htodo =>
    cases hs
    have hmod : ∀ {o : Nat} {y : Nat × R × Bool}, log[o]? = some y → o % s.b.cap = o := by
      intro o y ho
      have := (List.getElem?_eq_some_iff.mp ho).1
      have := h.le
      exact Nat.mod_eq_of_lt (by rw [h.cap]; omega)
    have hsame : s.b.lwm = s.b.lwm ∧ s.b.hwm = s.b.hwm ∧ s.b.cap = s.b.cap ∧ s.b.head = s.b.head ∧ s.b.tail = s.b.tail := ⟨rfl, rfl, rfl, rfl, rfl⟩
    have hne : (s.thr i).todo ≠ [] := by rw [htodo]; simp
    have hret : ∀ ref, ls i = own log i ++ ref ++ (s.thr i).todo →
        (s.thr i).done = List.replicate (own log i).length true ++ List.replicate ref.length false → b0.hwm ≤ log.length →
        Pre b0.hwm (ls i) log i ((s.thr i).ret false) := by
      intro ref p1 p2 p3
      refine ⟨ref ++ [x], ?_, ?_, fun _ => p3⟩
      · rw [p1, htodo]; simp [Th.ret, htodo]
      · simp [Th.ret, p2, List.replicate_add]
    have hfull : ∀ {pc : PC}, pc.slot = none → (s.thr i).pc = pc → ∀ (q : Nat) (y : R × Bool), log[q]? = some (i, y) →
        s.b.data q = Buffer.entryAt y.1 y.2 q := by
      intro pc h1 h2 q y hq
      rcases h.full q i y hq with h3 | h3
      · rw [h2, h1] at h3; cases h3
      · exact h3
    unfold opT
    unfold TI at hT
    split
    · next hpc =>
      rw [hpc] at hT
      refine ⟨log, h.keep hi hsame (fun q hq => absurd rfl hq) ⟨hT, by rw [h.tail], hne⟩
        (fun q y hq => Or.inr (hfull rfl hpc q y hq)) ?_⟩
      simp [pend, hpc, Th.goto]
    · next o hpc =>
      rw [hpc] at hT
      rw [h.head, h.hwm]
      obtain ⟨⟨ref, p1, p2, p3⟩, p4, p5⟩ := hT
      split
      · next hge =>
        refine ⟨log, h.keep hi hsame (fun q hq => absurd rfl hq) (hret ref p1 p2 (by have := h.le; omega))
          (fun q y hq => Or.inr (hfull rfl hpc q y hq)) ?_⟩
        simp [pend, hpc, Th.ret]
      · next hge =>
        refine ⟨log, h.keep hi hsame (fun q hq => absurd rfl hq) ⟨⟨ref, p1, p2, p3⟩, p4, by omega, p5⟩
          (fun q y hq => Or.inr (hfull rfl hpc q y hq)) ?_⟩
        simp [pend, hpc, Th.goto]
    · next o hpc =>
      rw [hpc] at hT
      obtain ⟨⟨ref, p1, p2, p3⟩, p4, p5, p6⟩ := hT
      split
      · next heq =>
        have ho : o = log.length := by rw [← heq, h.tail]
        have hr : ref = [] := by
          by_contra hc
          have := p3 hc
          omega
        subst hr
        have hl : (log ++ [(i, x)]).length = log.length + 1 := by simp
        have hown : own (log ++ [(i, x)]) i = own log i ++ [x] := by rw [own_append, if_pos rfl]
        have hlast : (log ++ [(i, x)])[o]? = some (i, x) := by rw [ho]; simp
        refine ⟨log ++ [(i, x)], h.lwm, h.hwm, h.cap, h.head, by rw [hl, ho], by rw [hl]; omega, ?_, ?_, ?_, ?_, ?_⟩
        · intro p hp
          rcases List.mem_append.mp hp with hp | hp
          · exact h.ids p hp
          · rw [List.mem_singleton.mp hp]; exact hi
        · intro k hk
          show TI b0.hwm (ls k) (log ++ [(i, x)]) s.b.data k (Function.update s.thr i _ k)
          by_cases e : k = i
          · subst e
            rw [Function.update_self]
            exact ⟨x, rest, own log k, htodo, hown, by rw [hown, p1, htodo]; simp, by simpa [Th.goto] using p2, hlast, trivial⟩
          · rw [Function.update_of_ne e]
            exact (h.thr k hk).claim (fun e' => e e'.symm) x
        · intro q k y hq
          show (Function.update s.thr i _ k).pc.slot = some q ∨ s.b.data q = _
          by_cases hlt : q < log.length
          · rw [List.getElem?_append_left hlt] at hq
            by_cases e : k = i
            · subst e
              exact Or.inr (hfull rfl hpc q y hq)
            · rw [Function.update_of_ne e]
              exact h.full q k y hq
          · have hql := (List.getElem?_eq_some_iff.mp hq).1
            have : q = o := by omega
            subst this
            rw [hlast] at hq
            cases hq
            rw [Function.update_self]
            exact Or.inl rfl
        · intro q hq
          exact h.rest q (by omega)
        · show s.b.tscnt + ∑ k ∈ Finset.range T, pend (Function.update s.thr i ((s.thr i).goto (.write o)) k) = _
          have e1 := sum_upd T s.thr i hi ((s.thr i).goto (.write o)) pend
          have e2 := h.ts
          have e3 : pend (s.thr i) = 0 := by simp [pend, hpc]
          have e4 : pend ((s.thr i).goto (.write o)) = if x.2 then 1 else 0 := by simp [pend, Th.goto, htodo]
          rw [tombs_append]
          omega
      · next hne' =>
        refine ⟨log, h.keep hi hsame (fun q hq => absurd rfl hq) ⟨⟨ref, p1, p2, p3⟩, by rw [h.tail], p6⟩
          (fun q y hq => Or.inr (hfull rfl hpc q y hq)) ?_⟩
        simp [pend, hpc, Th.goto]
    · next o hpc =>
      rw [hpc] at hT
      rw [h.tail, h.hwm]
      obtain ⟨⟨ref, p1, p2, p3⟩, p4, p5⟩ := hT
      split
      · next hge =>
        refine ⟨log, h.keep hi hsame (fun q hq => absurd rfl hq) (hret ref p1 p2 hge)
          (fun q y hq => Or.inr (hfull rfl hpc q y hq)) ?_⟩
        simp [pend, hpc, Th.ret]
      · next hge =>
        refine ⟨log, h.keep hi hsame (fun q hq => absurd rfl hq) ⟨⟨ref, p1, p2, p3⟩, p4, by omega, p5⟩
          (fun q y hq => Or.inr (hfull rfl hpc q y hq)) ?_⟩
        simp [pend, hpc, Th.goto]
    · next o hpc =>
      rw [hpc] at hT
      obtain ⟨y, rest', pre, q1, q2, q3, q4, q5, -⟩ := hT
      obtain ⟨rfl, rfl⟩ := List.cons.inj (htodo.symm.trans q1)
      rw [hmod q5]
      refine ⟨log, h.keep hi ⟨rfl, rfl, rfl, rfl, rfl⟩ ?_ ⟨x, rest, pre, q1, q2, q3, q4, q5, by simp [Buffer.write]⟩ ?_ ?_⟩
      · intro q hq
        by_cases e : q = o
        · subst e; exact ⟨x, q5⟩
        · simp [Buffer.write, e] at hq
      · intro q z hq
        by_cases e : q = o
        · subst e; exact Or.inl rfl
        · right
          simp only [Buffer.write, if_neg e]
          rcases h.full q i z hq with h3 | h3
          · rw [hpc] at h3; exact absurd (Option.some.inj h3).symm e
          · exact h3
      · simp [pend, hpc, Th.goto]
    · next o hpc =>
      rw [hpc] at hT
      obtain ⟨y, rest', pre, q1, q2, q3, q4, q5, q6⟩ := hT
      obtain ⟨rfl, rfl⟩ := List.cons.inj (htodo.symm.trans q1)
      rw [hmod q5]
      refine ⟨log, h.keep hi ⟨rfl, rfl, rfl, rfl, rfl⟩ ?_ ⟨x, rest, pre, q1, q2, q3, q4, q5, by simp [Buffer.write, q6]⟩ ?_ ?_⟩
      · intro q hq
        by_cases e : q = o
        · subst e; exact ⟨x, q5⟩
        · simp [Buffer.write, e] at hq
      · intro q z hq
        by_cases e : q = o
        · subst e; exact Or.inl rfl
        · right
          simp only [Buffer.write, if_neg e]
          rcases h.full q i z hq with h3 | h3
          · rw [hpc] at h3; exact absurd (Option.some.inj h3).symm e
          · exact h3
      · simp [pend, hpc, Th.goto]
    · next o hpc =>
      rw [hpc] at hT
      obtain ⟨y, rest', pre, q1, q2, q3, q4, q5, q6⟩ := hT
      obtain ⟨rfl, rfl⟩ := List.cons.inj (htodo.symm.trans q1)
      refine ⟨log, h.keep hi ⟨rfl, rfl, rfl, rfl, rfl⟩ (fun q hq => absurd rfl hq) ⟨x, rest, pre, q1, q2, q3, q4, q5, q6⟩ ?_ ?_⟩
      · intro q z hq
        rcases h.full q i z hq with h3 | h3
        · rw [hpc] at h3; exact Or.inl h3
        · exact Or.inr h3
      · simp only [pend, hpc, Th.goto, htodo]
        split <;> rfl
    · next o hpc =>
      rw [hpc] at hT
      obtain ⟨y, rest', pre, q1, q2, q3, q4, q5, q6⟩ := hT
      obtain ⟨rfl, rfl⟩ := List.cons.inj (htodo.symm.trans q1)
      rw [hmod q5]
      refine ⟨log, h.keep hi ⟨rfl, rfl, rfl, rfl, rfl⟩ ?_ ⟨[], ?_, ?_, fun hc => absurd rfl hc⟩ ?_ ?_⟩
      · intro q hq
        by_cases e : q = o
        · subst e; exact ⟨x, q5⟩
        · simp [Buffer.write, e] at hq
      · rw [q3]; simp [Th.ret, q1]
      · simp [Th.ret, q4, q2, List.replicate_add]
      · intro q z hq
        right
        by_cases e : q = o
        · subst e
          rw [q5] at hq
          cases hq
          simp only [Buffer.write, if_pos]
          rw [q6, entryAt_raw]
        · simp only [Buffer.write, if_neg e]
          rcases h.full q i z hq with h3 | h3
          · rw [hpc] at h3; exact absurd (Option.some.inj h3).symm e
          · exact h3
      · simp [pend, hpc, Th.ret]

theorem Inv.start {b0 : Buffer R} (T : Nat) (ls : Nat → List (R × Bool)) (h1 : b0.head = 0) (h2 : b0.tail = 0) (h3 : b0.tscnt = 0) :
    Inv b0 T ls (start b0 ls) [] := by
  refine ⟨rfl, rfl, rfl, h1, h2, Nat.zero_le _, by simp, ?_, by simp, fun _ _ => rfl, ?_⟩
  · intro i _
    exact ⟨[], by simp [own, Mt.start], by simp [own, Mt.start], fun h => absurd rfl h⟩
  · show b0.tscnt + ∑ i ∈ Finset.range T, 0 = 0
    simp [h3]

theorem Run.inv {b0 : Buffer R} (hcap : b0.hwm ≤ b0.cap) {T : Nat} {ls : Nat → List (R × Bool)} {s0 : St R} {l0 : List (Nat × R × Bool)}
    (h0 : Inv b0 T ls s0 l0) : ∀ {n : Nat} {s : St R}, Run T s0 n s → ∃ log, Inv b0 T ls s log := by
  intro n s h
  induction h with
  | zero => exact ⟨l0, h0⟩
  | succ _ hi hs ih =>
    obtain ⟨log, hl⟩ := ih
    exact hl.step hcap hi hs

/-! ### Termination -/

/-- An exchange that is bound to fail once more. -/
def stale (tail old : Nat) : Nat := if old < tail then 2 else 0

/-- What thread has to do at most, if nobody claims a position meanwhile. -/
def cost (tail : Nat) (t : Th R) : Nat :=
  match t.pc with
  | .idle => 8 * t.todo.length
  | .check o => 8 * t.todo.length - 1 + stale tail o
  | .cas o => 8 * t.todo.length - 2 + stale tail o
  | .recheck o => 8 * t.todo.length - 1 + stale tail o
  | .write _ => 8 * t.todo.length - 3
  | .stamp _ => 8 * t.todo.length - 4
  | .count _ => 8 * t.todo.length - 5
  | .reveal _ => 8 * t.todo.length - 6

def total (T : Nat) (s : St R) : Nat := ∑ i ∈ Finset.range T, cost s.b.tail (s.thr i) + 2 * T * (s.b.hwm - s.b.tail)

theorem cost_succ (tail : Nat) (t : Th R) : cost (tail + 1) t ≤ cost tail t + 2 := by
  unfold cost stale
  split
  all_goals (try split_ifs) <;> omega

theorem total_step {b0 : Buffer R} {T : Nat} {ls : Nat → List (R × Bool)} {s s' : St R} {log : List (Nat × R × Bool)}
    (h : Inv b0 T ls s log) {i : Nat} (hi : i < T) (hs : step s i = some s') : total T s' < total T s := by
  unfold Mt.step at hs
  have hT := h.thr i hi
  split at hs
  · cases hs
  · next x rest htodo =>
    cases hs
    have hlen : (s.thr i).todo.length = rest.length + 1 := by rw [htodo]; rfl
    have same : ∀ (b : Buffer R) (t : Th R), b.tail = s.b.tail → b.hwm = s.b.hwm → cost s.b.tail t < cost s.b.tail (s.thr i) →
        total T ⟨b, Function.update s.thr i t⟩ < total T s := by
      intro b t h1 h2 h3
      unfold total
      simp only
      rw [h1, h2]
      have := sum_upd T s.thr i hi t (cost s.b.tail)
      omega
    unfold opT
    unfold TI at hT
    split
    · next hpc => exact same _ _ rfl rfl (by simp [cost, hpc, Th.goto, hlen, stale]; omega)
    · next o hpc =>
      split
      · exact same _ _ rfl rfl (by simp [cost, hpc, Th.ret, htodo]; omega)
      · exact same _ _ rfl rfl (by simp [cost, hpc, Th.goto, hlen]; omega)
    · next o hpc =>
      rw [hpc] at hT
      obtain ⟨-, p4, p5, -⟩ := hT
      rw [← h.tail] at p4
      split
      · next heq =>
        unfold total
        simp only
        have e1 := sum_upd T s.thr i hi ((s.thr i).goto (.write o)) (cost (o + 1))
        have e2 : ∑ k ∈ (Finset.range T).erase i, cost (o + 1) (s.thr k) ≤ ∑ k ∈ (Finset.range T).erase i, (cost o (s.thr k) + 2) :=
          Finset.sum_le_sum (fun k _ => cost_succ o (s.thr k))
        rw [Finset.sum_add_distrib, Finset.sum_const, Finset.card_erase_of_mem (Finset.mem_range.mpr hi), Finset.card_range,
          smul_eq_mul] at e2
        have e3 := Finset.sum_erase_add (Finset.range T) (fun k => cost (o + 1) (s.thr k)) (Finset.mem_range.mpr hi)
        have e4 := Finset.sum_erase_add (Finset.range T) (fun k => cost o (s.thr k)) (Finset.mem_range.mpr hi)
        have e5 : cost (o + 1) ((s.thr i).goto (.write o)) = 8 * (s.thr i).todo.length - 3 := rfl
        have e6 : cost o (s.thr i) = 8 * (s.thr i).todo.length - 2 := by simp [cost, hpc, stale]
        rw [h.hwm, heq]
        have e7 : 2 * T * (b0.hwm - o) = 2 * T * (b0.hwm - (o + 1)) + 2 * T := by
          rw [← Nat.mul_succ]
          congr 1
          omega
        omega
      · next hne =>
        exact same _ _ rfl rfl (by
          have : o < s.b.tail := by omega
          simp [cost, hpc, Th.goto, hlen, stale, this]; omega)
    · next o hpc =>
      split
      · exact same _ _ rfl rfl (by simp [cost, hpc, Th.ret, htodo]; omega)
      · exact same _ _ rfl rfl (by simp [cost, hpc, Th.goto, hlen]; omega)
    · next o hpc => exact same _ _ rfl rfl (by simp [cost, hpc, Th.goto, hlen]; omega)
    · next o hpc => exact same _ _ rfl rfl (by simp [cost, hpc, Th.goto, hlen]; omega)
    · next o hpc => exact same _ _ rfl rfl (by simp [cost, hpc, Th.goto, hlen]; omega)
    · next o hpc => exact same _ _ rfl rfl (by simp [cost, hpc, Th.ret, htodo]; omega)

theorem Run.total {b0 : Buffer R} (hcap : b0.hwm ≤ b0.cap) {T : Nat} {ls : Nat → List (R × Bool)} {s0 : St R} {l0 : List (Nat × R × Bool)}
    (h0 : Inv b0 T ls s0 l0) : ∀ {n : Nat} {s : St R}, Run T s0 n s → n + Mt.total T s ≤ Mt.total T s0 := by
  intro n s h
  induction h with
  | zero => omega
  | succ hr hi hs ih =>
    obtain ⟨log, hl⟩ := hr.inv hcap h0
    have := total_step hl hi hs
    omega

/-! ### The sequential run -/

/-- Appends one after the other, with the thread each result belongs to. -/
def seq (b : Buffer R) : List (Nat × R × Bool) → Buffer R × List (Nat × Bool)
  | [] => (b, [])
  | p :: ps => let x := b.append p.2.1 p.2.2
               let r := seq x.1 ps
               (r.1, (p.1, x.2) :: r.2)

theorem seq_append (b : Buffer R) (l l' : List (Nat × R × Bool)) :
    seq b (l ++ l') = ((seq (seq b l).1 l').1, (seq b l).2 ++ (seq (seq b l).1 l').2) := by
  induction l generalizing b with
  | nil => rfl
  | cons p ps ih => simp only [List.cons_append, seq, ih]

/-- The buffer after the accepted appends. -/
def after (b0 : Buffer R) (log : List (Nat × R × Bool)) : Buffer R :=
  { b0 with tail := log.length, tscnt := tombs log,
            data := fun q => match log[q]? with
              | some p => Buffer.entryAt p.2.1 p.2.2 q
              | none => b0.data q }

theorem seq_accept {b0 : Buffer R} (hcap : b0.hwm ≤ b0.cap) (h1 : b0.head = 0) (h2 : b0.tail = 0) (h3 : b0.tscnt = 0)
    (log : List (Nat × R × Bool)) : log.length ≤ b0.hwm → seq b0 log = (after b0 log, log.map (fun p => (p.1, true))) := by
  induction log using List.reverseRecOn with
  | nil =>
    intro _
    show (b0, []) = _
    congr 1
    obtain ⟨_, _, _, _, _, _, _⟩ := b0
    simp only at h2 h3
    subst h2 h3
    rfl
  | append_singleton l p ih =>
    intro hl
    rw [List.length_append, List.length_singleton] at hl
    rw [seq_append, ih (by omega)]
    have hm : l.length % b0.cap = l.length := Nat.mod_eq_of_lt (by omega)
    have ha : (after b0 l).append p.2.1 p.2.2 = (after b0 (l ++ [p]), true) := by
      unfold Buffer.append
      rw [if_neg (by show ¬ (l.length - b0.head ≥ b0.hwm); omega)]
      simp only [after, hm, Prod.mk.injEq, and_true]
      congr 1
      · simp
      · funext q
        unfold Buffer.write
        by_cases e : q = l.length
        · subst e; simp
        · rw [if_neg e]
          by_cases hlt : q < l.length
          · rw [List.getElem?_append_left hlt]
          · have a1 : l[q]? = none := List.getElem?_eq_none (by omega)
            have a2 : (l ++ [p])[q]? = none := List.getElem?_eq_none (by rw [List.length_append, List.length_singleton]; omega)
            simp only [a1, a2]
      · obtain ⟨i, x⟩ := p
        rw [tombs_append]
        split <;> rfl
    simp only [seq, ha, List.map_append, List.map_cons, List.map_nil]

theorem seq_refuse {b : Buffer R} (h : b.tail - b.head ≥ b.hwm) (l : List (Nat × R × Bool)) : seq b l = (b, l.map (fun p => (p.1, false))) := by
  induction l with
  | nil => rfl
  | cons p ps ih =>
    have : b.append p.2.1 p.2.2 = (b, false) := by unfold Buffer.append; rw [if_pos h]
    simp only [seq, this, ih, List.map_cons]

/-- When all threads are done the buffer is the sequential one. -/
theorem Inv.done {b0 : Buffer R} {T : Nat} {ls : Nat → List (R × Bool)} {s : St R} {log : List (Nat × R × Bool)} (h : Inv b0 T ls s log)
    (h1 : b0.head = 0) (hd : ∀ i < T, (s.thr i).todo = []) : s.b = after b0 log ∧ ∀ i < T, Pre b0.hwm (ls i) log i (s.thr i) := by
  have hidle : ∀ i < T, (s.thr i).pc.slot = none ∧ Pre b0.hwm (ls i) log i (s.thr i) := by
    intro i hi
    have hT := h.thr i hi
    unfold TI at hT
    split at hT <;> rename_i hpc
    · exact ⟨by rw [hpc]; rfl, hT⟩
    · exact absurd (hd i hi) hT.2.2
    · exact absurd (hd i hi) hT.2.2.2
    · exact absurd (hd i hi) hT.2.2
    all_goals
      obtain ⟨x, rest, pre, q1, -⟩ := hT
      rw [hd i hi] at q1
      cases q1
  refine ⟨?_, fun i hi => (hidle i hi).2⟩
  have hts : s.b.tscnt = tombs log := by
    have := h.ts
    rw [Finset.sum_eq_zero] at this
    · omega
    · intro i hi
      have := (hidle i (Finset.mem_range.mp hi)).1
      unfold pend
      split <;> simp_all [PC.slot]
  have hdata : s.b.data = (after b0 log).data := by
    funext q
    unfold after
    simp only
    split
    · next p hp =>
      obtain ⟨i, x⟩ := p
      rcases h.full q i x hp with h3 | h3
      · rw [(hidle i (h.ids _ (List.mem_of_getElem? hp))).1] at h3
        cases h3
      · exact h3
    · next hn => exact h.rest q (List.getElem?_eq_none_iff.mp hn)
  have i1 := h.lwm; have i2 := h.hwm; have i3 := h.cap; have i4 := h.head; have i5 := h.tail
  have e : ∀ a b : Buffer R, a.lwm = b.lwm → a.hwm = b.hwm → a.cap = b.cap → a.tail = b.tail → a.head = b.head → a.data = b.data →
      a.tscnt = b.tscnt → a = b := by
    rintro ⟨_, _, _, _, _, _, _⟩ ⟨_, _, _, _, _, _, _⟩ h1 h2 h3 h4 h5 h6 h7
    simp only at h1 h2 h3 h4 h5 h6 h7
    subst h1 h2 h3 h4 h5 h6 h7
    rfl
  exact e _ _ i1 i2 i3 i5 (i4.trans h1.symm) hdata hts

end DE.Mt
