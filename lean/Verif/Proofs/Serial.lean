import Verif.Proofs.BSM

/-!
All three layouts under one invariant.
-/

namespace DE
variable {R : Type}

/-- Every shard of level 0 holds at least one record. -/
def Index.L0NonEmpty (d : Index R) : Prop := ∀ l ∈ d.str.levels.head?, ∀ s ∈ l.visible, s.data ≠ []

/-- Invariant of the serial index, any layout. -/
def Index.GInv (d : Index R) : Prop := d.Inv ∨ d.BInv

/-- Shards obtainable from existing ones, and one buffer view. -/
inductive Derived (I : ShardImpl R) (v : View R) (S : Shard R → Prop) : Shard R → Prop
  | old {s : Shard R} : S s → Derived I v S s
  | build {s : Shard R} : I.build v = .ok s → Derived I v S s
  | merge {s : Shard R} (ss : List (Shard R)) : ss ≠ [] → (∀ x ∈ ss, Derived I v S x) →
      I.merge (ss.map some) = .ok s → Derived I v S s

theorem Index.GInv.wf {d : Index R} (h : d.GInv) : d.buf.WF := by
  rcases h with h | h <;> exact h.wf
theorem Index.GInv.lwm {d : Index R} (h : d.GInv) : 0 < d.buf.lwm := by
  rcases h with h | h <;> exact h.lwm
theorem Index.GInv.cnt {d : Index R} (h : d.GInv) : d.buf.tail - d.buf.head ≤ d.buf.lwm := by
  rcases h with h | h <;> exact h.cnt

theorem aents_append (A B : List (List (Shard R))) : aents (A ++ B) = aents A + aents B := by simp [aents]
theorem aents_cons (a : List (Shard R)) (B : List (List (Shard R))) : aents (a :: B) = sents a + aents B := by
  simp [aents]
theorem sents_flatten (A : List (List (Shard R))) : sents A.flatten = aents A := by
  induction A with
  | nil => rfl
  | cons a A ih => simp [sents_append, aents_cons, ih]
theorem aents_reverse (A : List (List (Shard R))) : aents A.reverse = aents A := by
  simp [aents, List.sum_reverse]

theorem aents_zero {A : List (List (Shard R))} (h : ∀ a ∈ A, a = []) : aents A = 0 := by
  induction A with
  | nil => rfl
  | cons a A ih =>
    rw [aents_cons, h a (by simp), ih (fun b hb => h b (by simp [hb]))]; rfl

theorem sents_recs_zero {ss : List (Shard R)} (h : recs ss = 0) : sents ss = 0 := by
  rw [← Multiset.card_eq_zero, card_sents, h]

theorem absZero_aents {A : List (List (Shard R))} {base : Nat} (h : base < A.length → absZero A base = true) :
    aents (A.drop base) = aents (A.drop (base+1)) := by
  by_cases hb : base < A.length
  · rw [List.drop_eq_getElem_cons hb, aents_cons]
    have := h hb
    unfold absZero at this
    rw [List.getElem?_eq_getElem hb] at this
    simp only [decide_eq_true_eq] at this
    rw [sents_recs_zero this, zero_add]
  · rw [List.drop_of_length_le (by omega), List.drop_of_length_le (by omega)]

theorem absB_ok {I : ShardImpl R} {A A' : List (List (Shard R))} {base : Nat} {v : View R}
    (h : absB I A base v = .ok A') :
    ∃ s, I.build v = .ok s ∧ ((A = [] ∧ A' = [[s]]) ∨
      (A ≠ [] ∧ ∃ m, I.merge ((A.take base).reverse.flatten.map some) = .ok m ∧ A' = (bsmMid A base m).set 0 [s])) := by
  unfold absB at h
  simp only [bind_ok] at h
  obtain ⟨A1, h1, s, h2, h3⟩ := h
  refine ⟨s, h2, ?_⟩
  cases A with
  | nil =>
    left
    simp only [absBMid] at h1
    cases h1
    exact ⟨rfl, (Except.ok.inj h3).symm⟩
  | cons a A =>
    right
    simp only [absBMid, bind_ok] at h1
    obtain ⟨m, h4, h5⟩ := h1
    cases h5
    exact ⟨by simp, m, h4, (Except.ok.inj h3).symm⟩

theorem absB_reduces {I : ShardImpl R} (hI : I.Conserving) {A A' : List (List (Shard R))} {base : Nat} {v : View R}
    {l : List (Wrapped R)} (hv : v.Reads l) (hb : A ≠ [] → BaseSpec A base) (h : absB I A base v = .ok A') :
    Reduces (fun e => e.del = true) (aents A + ents l) (aents A') := by
  obtain ⟨s, hs, hor⟩ := absB_ok h
  have hbr := (hI.build v l s hv hs)
  rcases hor with ⟨rfl, rfl⟩ | ⟨hne, m, hm, rfl⟩
  · rw [aents_cons, sents_single]
    simp only [aents, List.map_nil, List.sum_nil, zero_add, add_zero]
    exact hbr
  · have hspec := hb hne
    have h1 := (hI.merge _ _ hm)
    rw [sents_flatten, aents_reverse] at h1
    obtain ⟨b, rfl⟩ : ∃ b, base = b + 1 := ⟨base - 1, by have := hspec.pos; omega⟩
    have e1 : aents ((bsmMid A (b+1) m).set 0 [s]) = ents m.data + aents (A.drop (b+1)) + ents s.data := by
      unfold bsmMid
      rw [List.replicate_succ, List.cons_append, List.set_cons_zero, aents_cons, aents_append, aents_cons,
        aents_zero (by simp), sents_single, sents_single, absZero_aents hspec.free]
      abel
    have e2 : aents A = aents (A.take (b+1)) + aents (A.drop (b+1)) := by
      rw [← aents_append, List.take_append_drop]
    rw [e1, e2]
    exact (h1.add (Reduces.refl _)).add hbr

theorem flatten_ne_nil_of_l0 {A : List (List (Shard R))} {base : Nat} (hb : 0 < base) {a : List (Shard R)}
    (h0 : A[0]? = some a) (ha : a ≠ []) : (A.take base).reverse.flatten ≠ [] := by
  cases A with
  | nil => simp at h0
  | cons x A =>
    simp at h0; subst h0
    obtain ⟨b, rfl⟩ : ∃ b, base = b + 1 := ⟨base - 1, by omega⟩
    simp [ha]

theorem absB_all {I : ShardImpl R} {Q : Shard R → Prop}
    (hm : ∀ (ss : List (Shard R)) s, ss ≠ [] → (∀ x ∈ ss, Q x) → I.merge (ss.map some) = .ok s → Q s)
    {A A' : List (List (Shard R))} {base : Nat} {v : View R} (hb : ∀ s, I.build v = .ok s → Q s)
    (hspec : A ≠ [] → BaseSpec A base) (hl0 : ∀ ss : List (Shard R), A[0]? = some ss → ss ≠ [])
    (hQ : AllShards Q A) (h : absB I A base v = .ok A') : AllShards Q A' := by
  obtain ⟨s, hs, hor⟩ := absB_ok h
  rcases hor with ⟨rfl, rfl⟩ | ⟨hne, m, hmm, rfl⟩
  · intro ss hss x hx
    simp at hss; subst hss; simp at hx; subst hx; exact hb _ hs
  · have sp := hspec hne
    have hmQ : Q m := by
      refine hm _ _ ?_ ?_ hmm
      · cases A with
        | nil => exact absurd rfl hne
        | cons a A => exact flatten_ne_nil_of_l0 sp.pos (a := a) rfl (hl0 a rfl)
      · intro x hx
        simp only [List.mem_flatten, List.mem_reverse] at hx
        obtain ⟨ss, hss, hx⟩ := hx
        exact hQ ss (List.mem_of_mem_take hss) x hx
    intro ss hss x hx
    rcases List.mem_or_eq_of_mem_set hss with hss | rfl
    · unfold bsmMid at hss
      simp only [List.mem_append, List.mem_replicate, List.mem_cons] at hss
      rcases hss with ⟨-, rfl⟩ | rfl | hss
      · simp at hx
      · simp at hx; subst hx; exact hmQ
      · exact hQ ss (List.mem_of_mem_drop hss) x hx
    · simp at hx; subst hx; exact hb _ hs

theorem absB_progress {I : ShardImpl R} {Q : Shard R → Prop} (hm : MergeOk I Q) {A : List (List (Shard R))} {base : Nat}
    {v : View R} (hb : ∃ s, I.build v = .ok s) (hspec : A ≠ [] → BaseSpec A base)
    (hl0 : ∀ ss : List (Shard R), A[0]? = some ss → ss ≠ []) (hQ : AllShards Q A) : ∃ A', absB I A base v = .ok A' := by
  obtain ⟨s, hs⟩ := hb
  cases A with
  | nil => exact ⟨[[s]], by simp [absB, absBMid, hs, bind, Except.bind]⟩
  | cons a A =>
    have sp := hspec (by simp)
    obtain ⟨m, hmm⟩ := hm ((a :: A).take base).reverse.flatten (flatten_ne_nil_of_l0 sp.pos (a := a) rfl (hl0 a rfl)) (by
      intro x hx
      simp only [List.mem_flatten, List.mem_reverse] at hx
      obtain ⟨ss, hss, hx⟩ := hx
      exact hQ ss (List.mem_of_mem_take hss) x hx)
    exact ⟨_, by simp only [absB, absBMid, hmm, hs, bind, Except.bind]; rfl⟩

theorem visible_abs (st : Struct R) : st.visible = st.abs.flatten := by
  simp [Struct.visible, Struct.abs, List.flatMap_def]

theorem allShards_visible {Q : Shard R → Prop} {st : Struct R} : AllShards Q st.abs ↔ ∀ s ∈ st.visible, Q s := by
  rw [visible_abs]
  constructor
  · intro h s hs
    obtain ⟨ss, h1, h2⟩ := List.mem_flatten.mp hs
    exact h ss h1 s h2
  · intro h ss hss s hs
    exact h s (List.mem_flatten.mpr ⟨ss, hss, hs⟩)

theorem l0_head {d : Index R} : d.L0NonEmpty ↔ ∀ ss, d.str.abs[0]? = some ss → ∀ s ∈ ss, s.data ≠ [] := by
  unfold Index.L0NonEmpty Struct.abs
  rw [List.getElem?_map]
  cases d.str.levels with
  | nil => simp
  | cons l ls => simp

/-- One flush, any layout. -/
theorem gflush_ok {d d' : Index R} (h : d.GInv) (hI : d.impl.Conserving) (hat : d.buf.atLwm = true)
    (hf : d.flush = .ok d') :
    (d'.GInv ∨ (d.L = .bsm ∧ ¬ d'.L0NonEmpty)) ∧ d'.buf = d.buf.emptied ∧ d'.L = d.L ∧ d'.tagging = d.tagging ∧
    d'.impl = d.impl ∧ Reduces (fun e => e.del = true) d.entries d'.entries ∧
    (∀ s ∈ d'.str.visible, Derived d.impl d.buf.view (· ∈ d.str.visible) s) ∧
    (d.L = .bsm → d'.L0NonEmpty → d'.BInv) := by
  have hv := Buffer.view_reads h.wf
  have hD : AllShards (Derived d.impl d.buf.view (· ∈ d.str.visible)) d.str.abs :=
    allShards_visible.mpr (fun s hs => .old hs)
  rcases h with h | h
  · obtain ⟨g1, g2, g3, g4, g5, g6⟩ := flush_ok h hI hat hf
    refine ⟨Or.inl (Or.inl g1), g2, g3, g4, g5, g6, ?_, fun hb => absurd hb h.lay⟩
    obtain ⟨base, hspec, hor⟩ := flush_abs h hat
    rcases hor with ⟨e, h1, -⟩ | ⟨st', h1, h2, -⟩
    · rw [h1] at hf; cases hf
    · rw [h1] at hf
      have hd : d' = { d with buf := d.buf.emptied, str := st' } := (Except.ok.inj hf).symm
      rw [bind_ok] at h2
      obtain ⟨A1, e1, e2⟩ := h2
      obtain ⟨q1, s1⟩ := absRun_all h.lay (fun ss s hne hss hm => Derived.merge ss hne hss hm) base hspec.pre h.str.single hD e1
      have q2 := absL0_all h.lay (fun ss s hne hss hm => Derived.merge ss hne hss hm) (fun s hs => Derived.build hs) s1 q1 e2
      subst hd
      exact allShards_visible.mp q2
  · obtain ⟨base, hspec, hor⟩ := bflush_abs h hat
    rcases hor with ⟨e, h1, -⟩ | ⟨st', h1, h2, h3, h4⟩
    · rw [h1] at hf; cases hf
    · rw [h1] at hf
      have hd : d' = { d with buf := d.buf.emptied, str := st' } := (Except.ok.inj hf).symm
      have hl0 : ∀ ss : List (Shard R), d.str.abs[0]? = some ss → ss ≠ [] := by
        intro ss hss
        obtain ⟨s, rfl, -⟩ := h.str.l0 ss hss
        simp
      have hB : d'.L0NonEmpty → d'.BInv := by
        intro hne
        subst hd
        refine ⟨h.lay, Buffer.emptied_wf h.wf, h.lwm, by simp [Buffer.emptied], by simp only; rw [h4]; exact h.sf,
          ⟨h3, ?_⟩⟩
        intro ss hss
        obtain ⟨s, hs, hor⟩ := absB_ok h2
        have : ss = [s] := by
          simp only at hss
          rcases hor with ⟨-, e⟩ | ⟨hne', m, -, e⟩
          · rw [e] at hss; simp at hss; exact hss.symm
          · rw [e] at hss
            rw [List.getElem?_set_self (by simp [bsmMid]; omega)] at hss
            exact (Option.some.inj hss).symm
        exact ⟨s, this, l0_head.mp hne ss hss s (by rw [this]; simp)⟩
      refine ⟨?_, by rw [hd], by rw [hd], by rw [hd], by rw [hd], ?_, ?_, fun _ => hB⟩
      · by_cases hne : d'.L0NonEmpty
        · exact Or.inl (Or.inr (hB hne))
        · exact Or.inr ⟨h.lay, hne⟩
      · subst hd
        rw [Index.entries_eq, Index.entries_eq]
        simp only [Buffer.emptied_contents, ents_nil, zero_add]
        rw [add_comm]
        exact absB_reduces hI hv hspec h2
      · subst hd
        exact allShards_visible.mp (absB_all (fun ss s hne hss hm => Derived.merge ss hne hss hm)
          (fun s hs => Derived.build hs) hspec hl0 hD h2)

/-- A flush succeeds if merges and builds do. -/
theorem gflush_progress {d : Index R} (h : d.GInv) (hat : d.buf.atLwm = true) {Q : Shard R → Prop} (hm : MergeOk d.impl Q)
    (hq : ∀ (ss : List (Shard R)) s, ss ≠ [] → (∀ x ∈ ss, Q x) → d.impl.merge (ss.map some) = .ok s → Q s)
    (hb : ∃ s, d.impl.build d.buf.view = .ok s ∧ Q s) (hQ : ∀ s ∈ d.str.visible, Q s) : ∃ d', d.flush = .ok d' := by
  have hQ' := allShards_visible.mpr hQ
  rcases h with h | h
  · obtain ⟨base, hspec, hor⟩ := flush_abs h hat
    rcases hor with ⟨e, h1, h2⟩ | ⟨st', h1, -⟩
    · exfalso
      obtain ⟨A1, e1⟩ := absRun_progress h.lay hm hq base hspec.pre h.str.single hQ'
      obtain ⟨q1, -⟩ := absRun_all h.lay hq base hspec.pre h.str.single hQ' e1
      obtain ⟨A2, e2⟩ := absL0_progress (L := d.L) hm hb q1
      rw [e1] at h2
      have : absL0 d.L d.impl A1 d.buf.view = .error e := h2
      rw [e2] at this; cases this
    · exact ⟨_, h1⟩
  · obtain ⟨base, hspec, hor⟩ := bflush_abs h hat
    rcases hor with ⟨e, h1, h2⟩ | ⟨st', h1, -⟩
    · exfalso
      have hl0 : ∀ ss : List (Shard R), d.str.abs[0]? = some ss → ss ≠ [] := by
        intro ss hss
        obtain ⟨s, rfl, -⟩ := h.str.l0 ss hss
        simp
      obtain ⟨A', e1⟩ := absB_progress hm ⟨_, hb.choose_spec.1⟩ hspec hl0 hQ'
      rw [e1] at h2; cases h2
    · exact ⟨_, h1⟩

/-! ### Single operations -/

theorem bappend_index {d : Index R} (h : d.BInv) (hlt : d.buf.tail - d.buf.head < d.buf.lwm) (r : R) (ts : Bool) :
    ({ d with buf := (d.buf.append r ts).1 } : Index R).BInv := by
  have hh : d.buf.tail - d.buf.head < d.buf.hwm := lt_of_lt_of_le hlt h.wf.lwm
  obtain ⟨a1, a2, a3⟩ := Buffer.append_ok h.wf (r := r) (ts := ts) hh
  have hb : (d.buf.append r ts).1.tail = d.buf.tail + 1 ∧ (d.buf.append r ts).1.head = d.buf.head ∧
      (d.buf.append r ts).1.lwm = d.buf.lwm := by
    unfold Buffer.append; rw [if_neg (by omega)]; exact ⟨rfl, rfl, rfl⟩
  obtain ⟨b1, b2, b3⟩ := hb
  refine ⟨h.lay, a2, ?_, ?_, h.sf, h.str⟩
  · simp only; rw [b3]; exact h.lwm
  · simp only; rw [b1, b2, b3]; omega

theorem gappend_index {d : Index R} (h : d.GInv) (hlt : d.buf.tail - d.buf.head < d.buf.lwm) (r : R) (ts : Bool) :
    ({ d with buf := (d.buf.append r ts).1 } : Index R).GInv := by
  rcases h with h | h
  · exact Or.inl (append_index h hlt r ts).2.1
  · exact Or.inr (bappend_index h hlt r ts)

theorem append_entries {d : Index R} (hwf : d.buf.WF) (hlt : d.buf.tail - d.buf.head < d.buf.lwm) (r : R) (ts : Bool) :
    (d.buf.append r ts).2 = true ∧
    ({ d with buf := (d.buf.append r ts).1 } : Index R).entries = d.entries + {⟨r, ts, false⟩} ∧
    (d.buf.append r ts).1.contents = d.buf.contents ++ [Buffer.entryAt r ts (d.buf.tail % d.buf.cap)] := by
  have hh : d.buf.tail - d.buf.head < d.buf.hwm := lt_of_lt_of_le hlt hwf.lwm
  obtain ⟨a1, a2, a3⟩ := Buffer.append_ok hwf (r := r) (ts := ts) hh
  refine ⟨a1, ?_, a3⟩
  rw [Index.entries_eq, Index.entries_eq]
  simp only [a3, ents_append]
  rw [show ents [Buffer.entryAt r ts (d.buf.tail % d.buf.cap)] = {⟨r, ts, false⟩} by
    simp [ents, entryAt_entry]]
  abel

/-- An append, any layout. Either the buffer was below the watermark and only the buffer grew, or it was flushed first. -/
theorem gappend_ok {d d' : Index R} (h : d.GInv) (hI : d.impl.Conserving) {r : R} {ts b : Bool}
    (hs : d.internalAppend r ts = .ok (d', b)) :
    b = true ∧ d'.L = d.L ∧ d'.tagging = d.tagging ∧ d'.impl = d.impl ∧
    (d'.GInv ∨ (d.L = .bsm ∧ ¬ d'.L0NonEmpty)) ∧
    (∃ m, Reduces (fun e => e.del = true) d.entries m ∧ d'.entries = m + {⟨r, ts, false⟩}) ∧
    ((d.buf.atLwm = false ∧ d'.str = d.str ∧ d'.buf = (d.buf.append r ts).1 ∧
       d'.buf.contents = d.buf.contents ++ [Buffer.entryAt r ts (d.buf.tail % d.buf.cap)]) ∨
     (d.buf.atLwm = true ∧ ∃ d1, d.flush = .ok d1 ∧ d'.str = d1.str ∧ d'.buf = (d.buf.emptied.append r ts).1 ∧
       d'.buf.contents = [Buffer.entryAt r ts (d.buf.tail % d.buf.cap)])) ∧
    (∀ s ∈ d'.str.visible, Derived d.impl d.buf.view (· ∈ d.str.visible) s) ∧
    (d.L = .bsm → d'.L0NonEmpty → d'.BInv) := by
  unfold Index.internalAppend at hs
  by_cases hat : d.buf.atLwm = true
  · rw [if_pos hat, bind_ok] at hs
    obtain ⟨d1, f1, f2⟩ := hs
    obtain ⟨g1, g2, g3, g4, g5, g6, g7, g8⟩ := gflush_ok h hI hat f1
    have hlt : d1.buf.tail - d1.buf.head < d1.buf.lwm := by
      rw [g2]; simp [Buffer.emptied]; exact h.lwm
    have hwf : d1.buf.WF := by rw [g2]; exact Buffer.emptied_wf h.wf
    obtain ⟨a1, a2, a3⟩ := append_entries hwf hlt r ts
    have f3 := Except.ok.inj f2
    have f4 : d' = { d1 with buf := (d1.buf.append r ts).1 } := (congrArg Prod.fst f3).symm
    have f5 : b = (d1.buf.append r ts).2 := (congrArg Prod.snd f3).symm
    clear f2 f3
    subst f4 f5
    refine ⟨a1, g3, g4, g5, ?_, ⟨_, g6, a2⟩, Or.inr ⟨hat, d1, f1, rfl, by rw [g2], ?_⟩, g7, ?_⟩
    · rcases g1 with g1 | ⟨g1, g1'⟩
      · exact Or.inl (gappend_index g1 hlt r ts)
      · exact Or.inr ⟨g1, g1'⟩
    · simp only; rw [a3, g2, Buffer.emptied_contents]; rfl
    · intro hb hne
      exact bappend_index (g8 hb hne) hlt r ts
  · have hat' : d.buf.atLwm = false := by simpa using hat
    rw [if_neg hat, bind_ok] at hs
    obtain ⟨d1, f1, f2⟩ := hs
    cases f1
    have hlt : d.buf.tail - d.buf.head < d.buf.lwm := by
      simpa [Buffer.atLwm, Buffer.count] using hat
    obtain ⟨a1, a2, a3⟩ := append_entries h.wf hlt r ts
    have hg := gappend_index h hlt r ts
    cases f2
    refine ⟨a1, rfl, rfl, rfl, Or.inl hg, ⟨_, Reduces.refl _, a2⟩, Or.inl ⟨hat', rfl, rfl, a3⟩,
      fun s hs => .old hs, ?_⟩
    intro hb _
    rcases hg with hg | hg
    · exact absurd hb hg.lay
    · exact hg

theorem BLInv.tag {l l' : Level R} {st : LState} (h : BLInv l st)
    {I : ShardImpl R} {r : R} (hd : l.deleteRecord I r = .ok (some l')) :
    BLInv l' st ∧ ∃ p s q j, l.visible = p ++ s :: q ∧ I.lookup s r = .ok (some j) ∧
      l'.visible = p ++ s.tag j :: q ∧ ∀ x ∈ p, I.lookup x r = .ok none := by
  unfold Level.deleteRecord at hd
  split at hd
  · cases hd
  · rw [bind_ok] at hd
    obtain ⟨o, h1, h2⟩ := hd
    cases o with
    | none => cases h2
    | some ss' =>
      cases h2
      obtain ⟨k, hk⟩ := h.shards
      obtain ⟨pre, s, post, j, e1, e2, e3, e4⟩ := deleteIn_some h1
      rw [hk] at e1
      obtain ⟨p, q, f1, f2, f3⟩ := map_some_split e1
      have hss : ss' = (p ++ s.tag j :: q).map some ++ List.replicate k none := by
        rw [e3, f2, f3]; simp [Shard.tag]
      have hlen : (p ++ s.tag j :: q).length = l.cnt := by rw [← h.cnt, f1]; simp
      have hv : ({ l with shards := ss' } : Level R).visible = p ++ s.tag j :: q := by
        have : ({ l with shards := ss' } : Level R) =
            { no := l.no, cnt := (p ++ s.tag j :: q).length
              shards := (p ++ s.tag j :: q).map some ++ List.replicate k none
              pending := l.pending } := by rw [hss, hlen]
        rw [this]; exact visible_of
      refine ⟨⟨⟨k, ?_⟩, ?_, ?_, h.pending, ?_⟩, p, s, q, j, f1, e2, hv, ?_⟩
      · rw [hv]; exact hss
      · rw [hv]; exact hlen
      · rw [hv, hlen, ← h.cnt]; exact h.le
      · rw [h.state]
        simp only [recordCount_eq, hv, f1, recs, Shard.tag]
        simp
      · intro x hx
        exact e4 x (by rw [f2]; simp [hx])

/-- What tagging in the levels does, any layout. -/
theorem gtag_on {d : Index R} (h : d.GInv) {r : R} (hI : ∀ s ∈ d.str.visible, ∀ j,
    d.impl.lookup s r = .ok (some j) → ∃ w, s.data[j]? = some w ∧ w.record = r) {ls : List (Level R)}
    (hs : Struct.taggedDeleteIn d.impl r d.str.levels = .ok (some ls)) :
    ({ d with str := { d.str with levels := ls } } : Index R).GInv ∧
    Tags r d.entries ({ d with str := { d.str with levels := ls } } : Index R).entries ∧
    ∃ p s q j, d.str.visible = p ++ s :: q ∧ d.impl.lookup s r = .ok (some j) ∧
      ({ d.str with levels := ls } : Struct R).visible = p ++ s.tag j :: q := by
  obtain ⟨i, l, l', e1, e2, e3, -⟩ := taggedDelete_some hs
  have hsplit : ∀ p s q j, l.visible = p ++ s :: q → l'.visible = p ++ s.tag j :: q →
      ∃ p' q', d.str.visible = p' ++ s :: q' ∧ ({ d.str with levels := ls } : Struct R).visible = p' ++ s.tag j :: q' := by
    intro p s q j hp hp'
    have hi := lt_of_getElem? e1
    have hl : d.str.levels = d.str.levels.take i ++ l :: d.str.levels.drop (i+1) := by
      conv_lhs => rw [← List.take_append_drop i d.str.levels]
      rw [List.drop_eq_getElem_cons hi]
      rw [List.getElem?_eq_getElem hi] at e1
      rw [Option.some.inj e1]
    have hl' : ls = d.str.levels.take i ++ l' :: d.str.levels.drop (i+1) := by
      rw [e3, List.set_eq_take_append_cons_drop, if_pos hi]
    refine ⟨(d.str.levels.take i).flatMap Level.visible ++ p, q ++ (d.str.levels.drop (i+1)).flatMap Level.visible, ?_, ?_⟩
    · unfold Struct.visible
      conv_lhs => rw [hl]
      simp [hp]
    · unfold Struct.visible
      simp only
      rw [hl']
      simp [hp']
  rcases h with h | h
  · obtain ⟨st, hst⟩ := getElem?_of_lt (l := d.str.state) (i := i) (by
      rw [← h.str.len]; exact lt_of_getElem? e1)
    obtain ⟨g1, p, s, q, j, g2, g3, g4, -⟩ := (h.str.lvl i l st e1 hst).tag e2
    obtain ⟨t1, t2⟩ := taggedDelete_inv_on h hI hs
    obtain ⟨p', q', u1, u2⟩ := hsplit p s q j g2 g4
    exact ⟨Or.inl t1, t2, p', s, q', j, u1, g3, u2⟩
  · obtain ⟨st, hst⟩ := getElem?_of_lt (l := d.str.state) (i := i) (by
      rw [← h.str.len]; exact lt_of_getElem? e1)
    obtain ⟨g1, p, s, q, j, g2, g3, g4, -⟩ := (h.str.lvl i l st e1 hst).tag e2
    obtain ⟨p', q', u1, u2⟩ := hsplit p s q j g2 g4
    have habs : ({ d.str with levels := ls } : Struct R).abs = d.str.abs.set i l'.visible := by
      simp [Struct.abs, e3, List.map_set]
    have hA : d.str.abs[i]? = some l.visible := by simp [Struct.abs, e1]
    obtain ⟨w, hw, hwr⟩ := hI s (by rw [u1]; simp) j g3
    refine ⟨Or.inr ⟨h.lay, h.wf, h.lwm, h.cnt, h.sf, ⟨⟨?_, ?_⟩, ?_⟩⟩, ?_, p', s, q', j, u1, g3, u2⟩
    · simp [e3, h.str.len]
    · intro n x y hx hy
      simp only [e3, List.getElem?_set] at hx hy
      by_cases hn : i = n
      · subst hn
        simp [lt_of_getElem? e1] at hx
        subst hx
        rw [hst] at hy; cases hy
        exact g1
      · rw [if_neg hn] at hx
        exact h.str.lvl n x y hx hy
    · intro ss hss
      simp only at hss
      rw [habs] at hss
      by_cases hi : i = 0
      · subst hi
        rw [List.getElem?_set_self (lt_of_getElem? hA)] at hss
        cases hss
        obtain ⟨s1, hs1, hne⟩ := h.str.l0 _ hA
        rw [g2] at hs1
        have hp : p = [] ∧ q = [] := by
          cases p with
          | nil => simp at hs1; exact ⟨rfl, hs1.2⟩
          | cons a p => simp at hs1
        obtain ⟨rfl, rfl⟩ := hp
        simp at hs1; subst hs1
        exact ⟨s.tag j, by rw [g4]; rfl, by
          intro h0
          apply hne
          have := congrArg List.length h0
          simp [Shard.tag] at this
          exact this⟩
      · rw [List.getElem?_set_ne hi] at hss
        exact h.str.l0 _ hss
    · rw [Index.entries_eq, Index.entries_eq]
      simp only
      apply Tags.add
      obtain ⟨rest, s1, s2⟩ := sum_set sents hA
      unfold aents
      rw [habs, s1, s2]
      apply Tags.add
      rw [g2, g4, sents_append, sents_append]
      apply Tags.add
      have e : ∀ (x : Shard R), sents (x :: q) = sents q + ents x.data := by
        intro x; simp [sents, add_comm]
      rw [e, e]
      exact (tag_tags hw hwr).add _

theorem gbufDelete [DecidableEq R] {d : Index R} (h : d.GInv) (r : R) :
    ({ d with buf := (d.buf.deleteRecord r).1 } : Index R).GInv ∧
    (({ d with buf := (d.buf.deleteRecord r).1 } : Index R).entries = d.entries ∨
     Tags r d.entries ({ d with buf := (d.buf.deleteRecord r).1 } : Index R).entries) := by
  rcases h with h | h
  · obtain ⟨h1, h2⟩ := bufDelete_inv h r
    exact ⟨Or.inl h1, h2⟩
  · unfold Buffer.deleteRecord
    split
    · next i hi =>
      have hr : (d.buf.data i).record = r := by
        unfold View.deleteSlot at hi
        split at hi
        · exact (findSlot_some hi).2.2.1
        · split at hi
          · next h1 => cases hi; exact (findSlot_some h1).2.2.1
          · exact (findSlot_some hi).2.2.1
      refine ⟨Or.inr ⟨h.lay, h.wf.tag _, h.lwm, h.cnt, h.sf, h.str⟩, ?_⟩
      rw [Index.entries_eq, Index.entries_eq]
      rcases write_contents h.wf hr with hc | hc
      · left; simp only; rw [hc]
      · right
        simp only
        rw [add_comm, add_comm (ents _)]
        exact hc.add _
    · exact ⟨Or.inr h, Or.inl rfl⟩

theorem gtag {d : Index R} (h : d.GInv) (hI : d.impl.LookupSound) {r : R} {ls : List (Level R)}
    (hs : Struct.taggedDeleteIn d.impl r d.str.levels = .ok (some ls)) :
    ({ d with str := { d.str with levels := ls } } : Index R).GInv ∧
    Tags r d.entries ({ d with str := { d.str with levels := ls } } : Index R).entries ∧
    ∃ p s q j, d.str.visible = p ++ s :: q ∧ d.impl.lookup s r = .ok (some j) ∧
      ({ d.str with levels := ls } : Struct R).visible = p ++ s.tag j :: q :=
  gtag_on h (fun s _ j => hI s r j) hs

/-- What one operation does, any layout. -/
structure StepFacts [DecidableEq R] (d : Index R) (o : Index.Op R) (b : Bool) (d' : Index R) : Prop where
  L : d'.L = d.L
  tagging : d'.tagging = d.tagging
  impl : d'.impl = d.impl
  eff : StepEff d.tagging o b d.entries d'.entries
  shards : ∀ s ∈ d'.str.visible, Derived d.impl d.buf.view (· ∈ d.str.visible) s ∨
    ∃ r s0 j, o = .del r ∧ d.tagging = true ∧ s0 ∈ d.str.visible ∧ d.impl.lookup s0 r = .ok (some j) ∧ s = s0.tag j
  inv : d'.GInv ∨ (d.L = .bsm ∧ ¬ d'.L0NonEmpty)
  binv : d.L = .bsm → d'.L0NonEmpty → d'.BInv

theorem gstep_on [DecidableEq R] {d d' : Index R} (h : d.GInv) (hI : d.impl.Conserving)
    {o : Index.Op R} {b : Bool} (hl : ∀ r, o = .del r → ∀ s ∈ d.str.visible, ∀ j,
      d.impl.lookup s r = .ok (some j) → ∃ w, s.data[j]? = some w ∧ w.record = r)
    (hs : d.step o = .ok (d', b)) : StepFacts d o b d' := by
  cases o with
  | ins r =>
    obtain ⟨h1, h2, h3, h4, h5, h6, -, h8, h9⟩ := gappend_ok h hI hs
    exact ⟨h2, h3, h4, ⟨h1, h6⟩, fun s hs => Or.inl (h8 s hs), h5, h9⟩
  | del r =>
    simp only [Index.step, Index.erase] at hs
    split at hs
    · next ht =>
      rw [bind_ok] at hs
      obtain ⟨o, h1, h2⟩ := hs
      cases o with
      | some ls =>
        cases h2
        obtain ⟨g1, g2, p, s, q, j, g3, g4, g5⟩ := gtag_on h (hl r rfl) h1
        refine ⟨rfl, rfl, rfl, ?_, ?_, Or.inl g1, ?_⟩
        · unfold StepEff; simp only [ht, if_true]; exact Or.inr g2
        · intro x hx
          simp only at hx
          rw [g5] at hx
          rcases List.mem_append.mp hx with hx | hx
          · exact Or.inl (.old (by rw [g3]; simp [hx]))
          · rcases List.mem_cons.mp hx with rfl | hx
            · exact Or.inr ⟨r, s, j, rfl, ht, by rw [g3]; simp, g4, rfl⟩
            · exact Or.inl (.old (by rw [g3]; simp [hx]))
        · intro hb _
          rcases g1 with g1 | g1
          · exact absurd hb g1.lay
          · exact g1
      | none =>
        cases h2
        obtain ⟨g1, g2⟩ := gbufDelete h r
        refine ⟨rfl, rfl, rfl, ?_, fun s hs => Or.inl (.old hs), Or.inl g1, ?_⟩
        · unfold StepEff; simp only [ht, if_true]; exact g2
        · intro hb _
          rcases g1 with g1 | g1
          · exact absurd hb g1.lay
          · exact g1
    · next ht =>
      have ht' : d.tagging = false := by simpa using ht
      obtain ⟨h1, h2, h3, h4, h5, h6, -, h8, h9⟩ := gappend_ok h hI hs
      refine ⟨h2, h3, h4, ?_, fun s hs => Or.inl (h8 s hs), h5, h9⟩
      unfold StepEff; simp only [ht', Bool.false_eq_true, if_false]; exact ⟨h1, h6⟩

theorem gstep [DecidableEq R] {d d' : Index R} (h : d.GInv) (hI : d.impl.Conserving) (hl : d.impl.LookupSound)
    {o : Index.Op R} {b : Bool} (hs : d.step o = .ok (d', b)) : StepFacts d o b d' :=
  gstep_on h hI (fun r _ s _ j => hl s r j) hs

theorem new_ginv [Inhabited R] {L : Layout} {tag : Bool} {I : ShardImpl R} {lwm hwm sf : Nat} {d : Index R}
    (h : Index.new L tag I lwm hwm sf = .ok d) (hl : 0 < lwm) (hsf : 0 < sf) :
    d.GInv ∧ d.L = L ∧ d.tagging = tag ∧ d.impl = I ∧ d.entries = 0 ∧ d.str.visible = [] := by
  by_cases hL : L = .bsm
  · have hb := new_buf h hl
    obtain ⟨rfl, h1, h2, -⟩ := new_ok h
    refine ⟨Or.inr ⟨hL, hb.wf, hb.lwm, hb.cnt, hsf, ⟨⟨rfl, ?_⟩, ?_⟩⟩, rfl, rfl, rfl, rfl, rfl⟩
    · intro i l s hl; simp at hl
    · intro ss hss; simp [Struct.abs] at hss
  · obtain ⟨h1, h2, h3, h4, h5⟩ := new_inv hL h hl hsf
    obtain ⟨rfl, -⟩ := new_ok h
    exact ⟨Or.inl h1, h2, h3, h4, h5, rfl⟩

/-- Induction over a history; each step must show that a BSM index keeps a non-empty level 0. -/
theorem grun_ind [DecidableEq R] (all : List (Index.Op R)) (P : List (Index.Op R) → Index R → List Bool → Prop) {d0 : Index R}
    (h0 : d0.GInv) (hI : d0.impl.Conserving) (hl : d0.impl.LookupSound) (hP0 : P [] d0 [])
    (hstep : ∀ (ops : List (Index.Op R)) (o : Index.Op R) (d d' : Index R) (bs : List Bool) (b : Bool),
      (ops ++ [o]) <+: all → d0.run ops = .ok (d, bs) → d0.run (ops ++ [o]) = .ok (d', bs ++ [b]) → P ops d bs → d.GInv →
      d.L = d0.L → d.tagging = d0.tagging → d.impl = d0.impl → d.step o = .ok (d', b) → StepFacts d o b d' →
      P (ops ++ [o]) d' (bs ++ [b]) ∧ (d0.L = .bsm → d'.L0NonEmpty)) :
    ∀ {d : Index R} {bs : List Bool}, d0.run all = .ok (d, bs) →
      P all d bs ∧ d.GInv ∧ d.L = d0.L ∧ d.tagging = d0.tagging ∧ d.impl = d0.impl := by
  have run_snoc : ∀ (pre : List (Index.Op R)) (o : Index.Op R) (d0 d1 d2 : Index R) (bs : List Bool) (b : Bool),
      d0.run pre = .ok (d1, bs) → d1.step o = .ok (d2, b) → d0.run (pre ++ [o]) = .ok (d2, bs ++ [b]) := by
    intro pre
    induction pre with
    | nil =>
      intro o d0 d1 d2 bs b h1 h2
      cases h1
      exact run_cons.mpr ⟨d2, b, [], h2, rfl, rfl⟩
    | cons p pre ih =>
      intro o d0 d1 d2 bs b h1 h2
      obtain ⟨d3, b3, bs3, e1, e2, rfl⟩ := run_cons.mp h1
      exact run_cons.mpr ⟨d3, b3, bs3 ++ [b], e1, ih o d3 d1 d2 bs3 b e2 h2, rfl⟩
  suffices H : ∀ (ops pre : List (Index.Op R)) (d1 d : Index R) (bs1 bs : List Bool), pre ++ ops = all →
      d0.run pre = .ok (d1, bs1) → d1.GInv → d1.L = d0.L →
      d1.tagging = d0.tagging → d1.impl = d0.impl → P pre d1 bs1 → d1.run ops = .ok (d, bs) →
      P (pre ++ ops) d (bs1 ++ bs) ∧ d.GInv ∧ d.L = d0.L ∧ d.tagging = d0.tagging ∧ d.impl = d0.impl by
    intro d bs hr
    exact H all [] d0 d [] bs rfl rfl h0 rfl rfl rfl hP0 hr
  intro ops
  induction ops with
  | nil =>
    intro pre d1 d bs1 bs hall hr1 i1 i2 i3 i4 hp hr
    cases hr
    simpa using ⟨hp, i1, i2, i3, i4⟩
  | cons o os ih =>
    intro pre d1 d bs1 bs hall hr1 i1 i2 i3 i4 hp hr
    obtain ⟨d2, b, bs2, e1, e2, rfl⟩ := run_cons.mp hr
    have sf := gstep i1 (i4 ▸ hI) (i4 ▸ hl) e1
    have hpre : (pre ++ [o]) <+: all := ⟨os, by rw [← hall]; simp⟩
    have hrun2 := run_snoc pre o d0 d1 d2 bs1 b hr1 e1
    obtain ⟨q1, q2⟩ := hstep pre o d1 d2 bs1 b hpre hr1 hrun2 hp i1 i2 i3 i4 e1 sf
    have hinv : d2.GInv := by
      rcases sf.inv with h | ⟨hb, hne⟩
      · exact h
      · exact absurd (q2 (i2 ▸ hb)) hne
    have := ih (pre ++ [o]) d2 d (bs1 ++ [b]) bs2 (by rw [← hall]; simp) hrun2 hinv (sf.L.trans i2) (sf.tagging.trans i3)
      (sf.impl.trans i4) q1 e2
    simpa using this

end DE
