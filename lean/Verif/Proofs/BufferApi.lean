import Verif.Model.BufferApi
import Verif.Proofs.BufferRun
import Verif.Proofs.Index
import Verif.Spec

/-! The public buffer operations against a queue. -/

namespace DE
variable {R F : Type}

theorem sub64_eq {a b : Nat} (h : b ≤ a) (ha : a < 2 ^ 64) : sub64 a b = a - b := by
  unfold sub64
  rw [Nat.mod_eq_of_lt (a := b) (by omega)]
  omega

theorem sub64_wrap {b : Nat} (h : 0 < b) (hb : b < 2 ^ 64) : sub64 0 b = 2 ^ 64 - b := by
  unfold sub64
  rw [Nat.mod_eq_of_lt hb, Nat.mod_eq_of_lt (by omega)]
  omega

theorem FBuf.append_b (B : BFilter R F) {x : FBuf R F} (h : x.b.head ≤ x.b.tail) (hb : x.b.tail < 2 ^ 64) (r : R) (ts : Bool) :
    (x.append B r ts).1.b = (x.b.append r ts).1 ∧ (x.append B r ts).2 = (x.b.append r ts).2 ∧
    (x.append B r ts).1.filt = (if ts && (x.b.append r ts).2 then B.insert x.filt r else x.filt) := by
  unfold FBuf.append Buffer.append
  rw [sub64_eq h hb]
  split
  · simp
  · simp

theorem checkFrom_eq [DecidableEq R] (v : View R) (hc : 0 < v.cap) (r : R) : ∀ (n i : Nat), i + n ≤ v.cap →
    FBuf.checkFrom v r i n = .ok (((List.range n).map (fun j => v.data ((v.head + (i + j)) % v.cap))).any
      (fun w => decide (w.record = r) && w.isTombstone))
  | 0, i, _ => rfl
  | n+1, i, h => by
    have hg : v.get i = .ok (v.data ((v.head + i) % v.cap)) := by
      unfold View.get
      rw [toIdx_eq v hc (by omega), if_pos (Nat.mod_lt _ hc)]
    rw [FBuf.checkFrom, hg]
    simp only [bind, Except.bind]
    rw [List.range_succ_eq_map, List.map_cons, List.any_cons]
    by_cases hp : (decide ((v.data ((v.head + i) % v.cap)).record = r) && (v.data ((v.head + i) % v.cap)).isTombstone) = true
    · rw [if_pos hp]
      simp only [Nat.add_zero]
      rw [hp]; rfl
    · rw [if_neg hp, checkFrom_eq v hc r n (i+1) (by omega)]
      simp only [Nat.add_zero]
      rw [Bool.eq_false_iff.mpr hp, Bool.false_or, List.map_map]
      congr 4
      funext j
      simp only [Function.comp_apply]
      congr 2; omega

/-- `x` implements the queue `q`, and its filter covers the tombstones of the queue. -/
structure FInv (B : BFilter R F) (x : FBuf R F) (q : List (R × Bool)) : Prop where
  wf : x.b.WF
  que : x.b.contents.map (fun w => (w.record, w.isTombstone)) = q
  filt : ∃ l : List R, x.filt = l.foldl B.insert B.empty ∧ ∀ r, (r, true) ∈ q → r ∈ l

theorem FInv.len {B : BFilter R F} {x : FBuf R F} {q : List (R × Bool)} (h : FInv B x q) : q.length = x.b.tail - x.b.head := by
  rw [← h.que]; simp [Buffer.contents_length]

theorem FInv.app {B : BFilter R F} {x : FBuf R F} {q : List (R × Bool)} (h : FInv B x q) (ht : x.b.tail < 2 ^ 64) (r : R) (ts : Bool) :
    FInv B (x.append B r ts).1 (if q.length < x.b.hwm then q ++ [(r, ts)] else q) ∧
    (x.append B r ts).2 = decide (q.length < x.b.hwm) ∧ (x.append B r ts).1.b.hwm = x.b.hwm ∧
    (x.append B r ts).1.b.head = x.b.head ∧ (x.append B r ts).1.b.tail ≤ x.b.tail + 1 ∧
    (x.append B r ts).1.b.tscnt = x.b.tscnt + (if ts && decide (q.length < x.b.hwm) then 1 else 0) ∧
    (x.append B r ts).1.b.lwm = x.b.lwm := by
  obtain ⟨e1, e2, e3⟩ := FBuf.append_b B h.wf.ht ht r ts
  have hlen := h.len
  by_cases hf : x.b.hwm ≤ x.b.tail - x.b.head
  · have hn : ¬ q.length < x.b.hwm := by omega
    rw [Buffer.append_full hf] at e1 e2 e3
    rw [e1, e2, if_neg hn]
    refine ⟨⟨?_, ?_, ?_⟩, ?_, rfl, rfl, ?_, ?_, rfl⟩
    · rw [e1]; exact h.wf
    · rw [e1]; exact h.que
    · rw [e3]; simpa using h.filt
    · simp [hn]
    · simp
    · simp [hn]
  · have hn : q.length < x.b.hwm := by omega
    obtain ⟨g1, g2, g3⟩ := Buffer.append_ok h.wf (r := r) (ts := ts) (by omega)
    have hx : (x.b.append r ts).1 = { x.b with tail := x.b.tail + 1, data := Buffer.write x.b.data (x.b.tail % x.b.cap) (Buffer.entryAt r ts (x.b.tail % x.b.cap)), tscnt := if ts then x.b.tscnt + 1 else x.b.tscnt } := by
      unfold Buffer.append; rw [if_neg (by omega)]
    rw [if_pos hn]
    refine ⟨⟨?_, ?_, ?_⟩, ?_, ?_, ?_, ?_, ?_, ?_⟩
    · rw [e1]; exact g2
    · rw [e1, g3, List.map_append, h.que]
      have := entryAt_entry r ts (x.b.tail % x.b.cap)
      have a := congrArg Entry.record this
      have b := congrArg Entry.tomb this
      simp only [Wrapped.entry] at a b
      rw [List.map_singleton, a, b]
    · rw [e3, g1]
      obtain ⟨l, hl, hm⟩ := h.filt
      cases ts with
      | false =>
        refine ⟨l, by simpa using hl, fun s hs => hm s ?_⟩
        simpa using hs
      | true =>
        refine ⟨l ++ [r], by rw [List.foldl_append]; simp [hl], fun s hs => ?_⟩
        simp at hs
        rcases hs with hs | hs
        · simp [hm s hs]
        · simp [hs]
    · rw [e2, g1]; simp [hn]
    · rw [e1, hx]
    · rw [e1, hx]
    · rw [e1, hx]
    · rw [e1, hx]; cases ts <;> simp [hn]
    · rw [e1, hx]

theorem FInv.adv {B : BFilter R F} {x x' : FBuf R F} {q : List (R × Bool)} {n : Nat} (h : FInv B x q) (hx : x.advance n = .ok x') :
    FInv B x' (q.drop n) ∧ x'.b.hwm = x.b.hwm ∧ x'.b.tail = x.b.tail ∧ x'.b.tscnt = x.b.tscnt ∧ 0 < n ∧ n ≤ q.length ∧
    x'.b.head = x.b.head + n ∧ x'.b.lwm = x.b.lwm := by
  unfold FBuf.advance at hx
  rw [bind_ok] at hx
  obtain ⟨b, h1, h2⟩ := hx
  have h2 := (Except.ok.inj h2).symm
  obtain ⟨g1, g2, g3, -⟩ := contents_adv h.wf h1
  unfold Buffer.advanceHead at h1
  simp only [bind_ok, assertC_ok, decide_eq_true_eq] at h1
  obtain ⟨-, k1, -, k2, k3⟩ := h1
  have k3 := (Except.ok.inj k3).symm
  have hlen := h.len
  subst h2
  refine ⟨⟨g1, ?_, ?_⟩, g3, by rw [k3], by rw [k3], by omega, by omega, by rw [k3], by rw [k3]⟩
  · rw [g2, List.map_drop, h.que]
  · obtain ⟨l, hl, hm⟩ := h.filt
    exact ⟨l, hl, fun r hr => hm r (List.mem_of_mem_drop hr)⟩

theorem FInv.trunc {B : BFilter R F} {x : FBuf R F} {q : List (R × Bool)} (h : FInv B x q) (h0 : x.b.head = 0) :
    FInv B (x.truncate B) [] := by
  refine ⟨⟨h.wf.cap, h.wf.hwm, h.wf.lwm, ?_, ?_, ?_⟩, ?_, ⟨[], rfl, by simp⟩⟩
  · simp [FBuf.truncate, h0]
  · simp [FBuf.truncate]
  · simp [FBuf.truncate, Buffer.contents]
  · simp [FBuf.truncate, Buffer.contents]

theorem FInv.check [DecidableEq R] {B : BFilter R F} (hB : B.NoFalseNeg) {x : FBuf R F} {q : List (R × Bool)} (h : FInv B x q)
    (ht : x.b.tail < 2 ^ 64) (r : R) : x.checkTombstone B r = .ok (decide ((r, true) ∈ q)) := by
  have hany : x.b.contents.any (fun w => decide (w.record = r) && w.isTombstone) = decide ((r, true) ∈ q) := by
    rw [← h.que, Bool.eq_iff_iff]
    simp only [List.any_eq_true, Bool.and_eq_true, decide_eq_true_eq, List.mem_map, Prod.mk.injEq]
  unfold FBuf.checkTombstone
  split
  · unfold FBuf.count
    rw [sub64_eq h.wf.ht ht, checkFrom_eq x.b.view h.wf.cap_pos r _ 0 (by
      have := h.wf.cnt_lt
      show 0 + _ ≤ x.b.cap
      omega)]
    simp only [Nat.zero_add]
    exact congrArg _ hany
  · next hl =>
    congr 1
    symm
    rw [decide_eq_false_iff_not]
    intro hm
    obtain ⟨l, hf, hc⟩ := h.filt
    rw [hf] at hl
    exact hl (hB l r (hc r hm))

end DE
