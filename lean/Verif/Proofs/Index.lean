import Verif.Proofs.Conserve

/-!
Client operations on the serial index (leveling and tiering).
-/

namespace DE
variable {R : Type}

theorem aents_abs (st : Struct R) : aents st.abs = (st.visible.map (fun s => ents s.data)).sum := by
  unfold aents Struct.abs Struct.visible
  induction st.levels with
  | nil => rfl
  | cons l ls ih =>
    simp only [List.map_cons, List.sum_cons, List.flatMap_cons, List.map_append, List.sum_append, ih]
    rfl

theorem Index.entries_eq (d : Index R) : d.entries = ents d.buf.contents + aents d.str.abs := by
  rw [aents_abs]; rfl

theorem Buffer.emptied_wf {b : Buffer R} (h : b.WF) : b.emptied.WF :=
  ⟨h.cap, h.hwm, h.lwm, le_refl _, by simp [emptied], by simp [contents, emptied]⟩

theorem Buffer.emptied_contents (b : Buffer R) : b.emptied.contents = [] := by
  simp [contents, emptied]

theorem flags_low (h : BitVec 32) (n : Nat) :
    (h ||| (BitVec.ofNat 32 n <<< 3) ||| 4#32) &&& 1#32 = h &&& 1#32 ∧
    (h ||| (BitVec.ofNat 32 n <<< 3) ||| 4#32) &&& 2#32 = h &&& 2#32 := by
  constructor
  · ext i hi
    simp only [BitVec.getElem_and, BitVec.getElem_or, BitVec.getElem_shiftLeft]
    by_cases h0 : i = 0
    · subst h0; simp
    · have : (1#32)[i] = false := by simp [h0]
      simp [this]
  · ext i hi
    simp only [BitVec.getElem_and, BitVec.getElem_or, BitVec.getElem_shiftLeft]
    by_cases h0 : i = 1
    · subst h0; simp
    · have : (2#32)[i] = false := by
        have key : ∀ j : Fin 32, j.1 ≠ 1 → (2#32)[j.1]'j.2 = false := by decide
        exact key ⟨i, hi⟩ h0
      simp [this]

theorem entryAt_entry (r : R) (ts : Bool) (pos : Nat) : (Buffer.entryAt r ts pos).entry = ⟨r, ts, false⟩ := by
  unfold Buffer.entryAt Wrapped.entry Wrapped.isTombstone Wrapped.isDeleted Wrapped.setVisible Wrapped.setTimestamp
    Wrapped.setTombstone
  cases ts
  · simp only [Bool.false_eq_true, if_false]
    rw [(flags_low _ _).1, (flags_low _ _).2]
    rfl
  · simp only [if_true]
    rw [(flags_low _ _).1, (flags_low _ _).2]
    rfl

theorem card_aents (A : List (List (Shard R))) : Multiset.card (aents A) = (A.map recs).sum := by
  unfold aents
  induction A with
  | nil => rfl
  | cons a A ih => simp [ih, card_sents]

/-- One flush. -/
theorem flush_ok {d d' : Index R} (h : d.Inv) (hI : d.impl.Conserving) (hat : d.buf.atLwm = true)
    (hf : d.flush = .ok d') :
    d'.Inv ∧ d'.buf = d.buf.emptied ∧ d'.L = d.L ∧ d'.tagging = d.tagging ∧ d'.impl = d.impl ∧
    Reduces (fun e => e.del = true) d.entries d'.entries := by
  obtain ⟨base, hspec, hor⟩ := flush_abs h hat
  rcases hor with ⟨e, h1, -⟩ | ⟨st', h1, h2, h3, h4, h5⟩
  · rw [h1] at hf; cases hf
  · rw [h1] at hf
    have hd : d' = { d with buf := d.buf.emptied, str := st' } := (Except.ok.inj hf).symm
    rw [bind_ok] at h2
    obtain ⟨A1, e1, e2⟩ := h2
    obtain ⟨r1, s1⟩ := absRun_reduces h.lay hI base hspec.pre h.str.single e1
    have hv := Buffer.view_reads h.wf
    have r2 := absL0_reduces h.lay hI hv s1 e2
    subst hd
    refine ⟨⟨h.lay, Buffer.emptied_wf h.wf, h.lwm, ?_, by simp only; rw [h5]; exact h.sf, ?_, h3, ?_⟩,
      rfl, rfl, rfl, rfl, ?_⟩
    · simp [Buffer.emptied]
    · simp only; rw [h4]; exact h.bs
    · intro hlv s0 hs0
      obtain ⟨old, n, ho, hn, he, -⟩ := absL0_ok e2
      simp only at hs0 ⊢
      rw [he, List.getElem?_set_self (lt_of_getElem? ho)] at hs0
      cases hs0
      have hol : d.L = .leveling → old.length ≤ 1 := by
        intro hlv
        obtain ⟨old', -, ho', -, -, hor⟩ := absL0_ok e2
        rw [ho] at ho'; cases ho'
        rcases hor with ⟨rfl, -⟩ | hor
        · simp
        · exact s1 hlv _ (mem_of_getElem? hor)
      have hr := absNew0_reduces h.lay hI hv hn hol
      have hcard := Multiset.card_le_card hr.le
      rw [Multiset.card_add, card_sents, card_sents, card_ents, Buffer.contents_length] at hcard
      have hcan := hspec.can h e1 (n := d.buf.tail - d.buf.head) (by rw [h.bs]; exact h.wf.cnt)
      simp only at hlv
      rw [hlv] at hcan
      simp [absCan, ho] at hcan
      rw [h4, h5]; omega
    · rw [Index.entries_eq, Index.entries_eq]
      simp only [Buffer.emptied_contents, ents_nil, zero_add]
      rw [add_comm]
      exact (r1.add (Reduces.refl _)).trans r2

/-- The effect of an append on an index that is below the watermark. -/
theorem append_index {d : Index R} (h : d.Inv) (hlt : d.buf.tail - d.buf.head < d.buf.lwm) (r : R) (ts : Bool) :
    (d.buf.append r ts).2 = true ∧ ({ d with buf := (d.buf.append r ts).1 } : Index R).Inv ∧
    ({ d with buf := (d.buf.append r ts).1 } : Index R).entries = d.entries + {⟨r, ts, false⟩} := by
  have hh : d.buf.tail - d.buf.head < d.buf.hwm := lt_of_lt_of_le hlt h.wf.lwm
  obtain ⟨a1, a2, a3⟩ := Buffer.append_ok h.wf (r := r) (ts := ts) hh
  have hb : (d.buf.append r ts).1.tail = d.buf.tail + 1 ∧ (d.buf.append r ts).1.head = d.buf.head ∧
      (d.buf.append r ts).1.lwm = d.buf.lwm ∧ (d.buf.append r ts).1.hwm = d.buf.hwm := by
    unfold Buffer.append; rw [if_neg (by omega)]; exact ⟨rfl, rfl, rfl, rfl⟩
  obtain ⟨b1, b2, b3, b4⟩ := hb
  refine ⟨a1, ⟨h.lay, a2, ?_, ?_, h.sf, ?_, h.str, h.lev0⟩, ?_⟩
  · simp only; rw [b3]; exact h.lwm
  · simp only; rw [b1, b2, b3]; omega
  · simp only; rw [b4]; exact h.bs
  · rw [Index.entries_eq, Index.entries_eq]
    simp only [a3, ents_append]
    rw [show ents [Buffer.entryAt r ts (d.buf.tail % d.buf.cap)] = {⟨r, ts, false⟩} by
      simp [ents, entryAt_entry]]
    abel

theorem internalAppend_ok {d d' : Index R} (h : d.Inv) (hI : d.impl.Conserving) {r : R} {ts b : Bool}
    (hs : d.internalAppend r ts = .ok (d', b)) :
    b = true ∧ d'.Inv ∧ d'.L = d.L ∧ d'.tagging = d.tagging ∧ d'.impl = d.impl ∧
    ∃ m, Reduces (fun e => e.del = true) d.entries m ∧ d'.entries = m + {⟨r, ts, false⟩} := by
  unfold Index.internalAppend at hs
  by_cases hat : d.buf.atLwm = true
  · rw [if_pos hat, bind_ok] at hs
    obtain ⟨d1, f1, f2⟩ := hs
    obtain ⟨g1, g2, g3, g4, g5, g6⟩ := flush_ok h hI hat f1
    have hlt : d1.buf.tail - d1.buf.head < d1.buf.lwm := by
      rw [g2]; simp [Buffer.emptied]; exact h.lwm
    obtain ⟨a1, a2, a3⟩ := append_index g1 hlt r ts
    cases f2
    exact ⟨a1, a2, g3, g4, g5, _, g6, a3⟩
  · rw [if_neg hat, bind_ok] at hs
    obtain ⟨d1, f1, f2⟩ := hs
    cases f1
    have hlt : d.buf.tail - d.buf.head < d.buf.lwm := by
      simpa [Buffer.atLwm, Buffer.count] using hat
    obtain ⟨a1, a2, a3⟩ := append_index h hlt r ts
    cases f2
    exact ⟨a1, a2, rfl, rfl, rfl, _, Reduces.refl _, a3⟩

/-! ### Tagging -/

theorem deleteIn_some {I : ShardImpl R} {r : R} : ∀ {ss ss' : List (Option (Shard R))},
    Level.deleteIn I r ss = .ok (some ss') →
    ∃ pre s post i, ss = pre ++ some s :: post ∧ I.lookup s r = .ok (some i) ∧
      ss' = pre ++ some { s with data := s.data.modify i Wrapped.setDelete } :: post ∧
      ∀ x, some x ∈ pre → I.lookup x r = .ok none
  | [], ss', h => by simp [Level.deleteIn] at h
  | none :: ss, ss', h => by
    rw [Level.deleteIn, bind_ok] at h
    obtain ⟨o, h1, h2⟩ := h
    cases o with
    | none => cases h2
    | some s2 =>
      cases h2
      obtain ⟨pre, s, post, i, e1, e2, e3, e4⟩ := deleteIn_some h1
      exact ⟨none :: pre, s, post, i, by rw [e1]; rfl, e2, by rw [e3]; rfl, by
        intro x hx; simp at hx; exact e4 x hx⟩
  | some s :: ss, ss', h => by
    rw [Level.deleteIn, bind_ok] at h
    obtain ⟨o, h1, h2⟩ := h
    cases o with
    | some i =>
      cases h2
      exact ⟨[], s, ss, i, rfl, h1, rfl, by simp⟩
    | none =>
      simp only [bind_ok] at h2
      obtain ⟨o2, h2, h3⟩ := h2
      cases o2 with
      | none => cases h3
      | some s2 =>
        cases h3
        obtain ⟨pre, s', post, i, e1, e2, e3, e4⟩ := deleteIn_some h2
        refine ⟨some s :: pre, s', post, i, by rw [e1]; rfl, e2, by rw [e3]; rfl, ?_⟩
        intro x hx
        simp at hx
        rcases hx with rfl | hx
        · exact h1
        · exact e4 x hx

theorem deleteIn_none {I : ShardImpl R} {r : R} : ∀ {ss : List (Option (Shard R))},
    Level.deleteIn I r ss = .ok none → ∀ x, some x ∈ ss → I.lookup x r = .ok none
  | [], h => by simp
  | none :: ss, h => by
    rw [Level.deleteIn, bind_ok] at h
    obtain ⟨o, h1, h2⟩ := h
    cases o with
    | some s2 => cases h2
    | none => intro x hx; simp at hx; exact deleteIn_none h1 x hx
  | some s :: ss, h => by
    rw [Level.deleteIn, bind_ok] at h
    obtain ⟨o, h1, h2⟩ := h
    cases o with
    | some i => cases h2
    | none =>
      simp only [bind_ok] at h2
      obtain ⟨o2, h2, h3⟩ := h2
      cases o2 with
      | some s2 => cases h3
      | none =>
        intro x hx; simp at hx
        rcases hx with rfl | hx
        · exact h1
        · exact deleteIn_none h2 x hx

/-- Tag entry `i` of a shard. -/
def Shard.tag (s : Shard R) (i : Nat) : Shard R := { s with data := s.data.modify i Wrapped.setDelete }

theorem map_some_split {vis : List (Shard R)} {k : Nat} {pre post : List (Option (Shard R))} {s : Shard R}
    (h : vis.map some ++ List.replicate k none = pre ++ some s :: post) :
    ∃ p q, vis = p ++ s :: q ∧ pre = p.map some ∧ post = q.map some ++ List.replicate k none := by
  induction vis generalizing pre with
  | nil =>
    have : some s ∈ List.replicate k (none : Option (Shard R)) := by
      have h' : List.replicate k none = pre ++ some s :: post := by simpa using h
      rw [h']; simp
    simp at this
  | cons a vis ih =>
    cases pre with
    | nil =>
      simp at h
      exact ⟨[], vis, by simp [h.1], rfl, h.2.symm⟩
    | cons b pre =>
      simp at h
      obtain ⟨p, q, h1, h2, h3⟩ := ih h.2
      exact ⟨a :: p, q, by simp [h1], by simp [h2, h.1], h3⟩

theorem LInv.tag {L : Layout} {bs sf i : Nat} {l l' : Level R} {st : LState} (h : LInv L bs sf i l st)
    {I : ShardImpl R} {r : R} (hd : l.deleteRecord I r = .ok (some l')) :
    LInv L bs sf i l' st ∧ ∃ p s q j, l.visible = p ++ s :: q ∧ I.lookup s r = .ok (some j) ∧
      l'.visible = p ++ s.tag j :: q ∧ ∀ x ∈ p, I.lookup x r = .ok none := by
  unfold Level.deleteRecord at hd
  split at hd
  · cases hd
  · rw [bind_ok] at hd
    obtain ⟨o, h1, h2⟩ := hd
    cases o with
    | none => cases h2
    | some ss' =>
      cases h2
      obtain ⟨pre, s, post, j, e1, e2, e3, e4⟩ := deleteIn_some h1
      rw [h.shards] at e1
      obtain ⟨p, q, f1, f2, f3⟩ := map_some_split e1
      have hss : ss' = (p ++ s.tag j :: q).map some ++ List.replicate (Struct.shardCap L sf - l.cnt) none := by
        rw [e3, f2, f3]; simp [Shard.tag]
      have hlen : (p ++ s.tag j :: q).length = l.cnt := by rw [← h.cnt, f1]; simp
      have hv : ({ l with shards := ss' } : Level R).visible = p ++ s.tag j :: q := by
        have : ({ l with shards := ss' } : Level R) =
            { no := l.no, cnt := (p ++ s.tag j :: q).length
              shards := (p ++ s.tag j :: q).map some ++ List.replicate (Struct.shardCap L sf - l.cnt) none
              pending := l.pending } := by rw [hss, hlen]
        rw [this]; exact visible_of
      refine ⟨⟨?_, ?_, h.le, h.pending, ?_, ?_⟩, p, s, q, j, f1, e2, hv, ?_⟩
      · rw [hv]; exact hss
      · rw [hv]; exact hlen
      · intro hL _
        exact h.no hL (by rw [f1]; simp)
      · rw [h.state]
        simp only [recordCount_eq, hv, f1, recs, Shard.tag]
        simp
      · intro x hx
        exact e4 x (by rw [f2]; simp [hx])

theorem taggedDelete_some {I : ShardImpl R} {r : R} : ∀ {ls ls' : List (Level R)},
    Struct.taggedDeleteIn I r ls = .ok (some ls') →
    ∃ i l l', ls[i]? = some l ∧ l.deleteRecord I r = .ok (some l') ∧ ls' = ls.set i l' ∧
      ∀ j l2, j < i → ls[j]? = some l2 → l2.deleteRecord I r = .ok none
  | [], ls', h => by simp [Struct.taggedDeleteIn] at h
  | l :: ls, ls', h => by
    rw [Struct.taggedDeleteIn, bind_ok] at h
    obtain ⟨o, h1, h2⟩ := h
    cases o with
    | some l' =>
      cases h2
      exact ⟨0, l, l', rfl, h1, rfl, fun j l2 hj => by omega⟩
    | none =>
      simp only [bind_ok] at h2
      obtain ⟨o2, h2, h3⟩ := h2
      cases o2 with
      | none => cases h3
      | some ls2 =>
        cases h3
        obtain ⟨i, l0, l', e1, e2, e3, e4⟩ := taggedDelete_some h2
        refine ⟨i+1, l0, l', by simpa using e1, e2, by rw [e3]; rfl, ?_⟩
        intro j l2 hj hl2
        cases j with
        | zero => simp at hl2; subst hl2; exact h1
        | succ j => exact e4 j l2 (by omega) (by simpa using hl2)

theorem taggedDelete_none {I : ShardImpl R} {r : R} : ∀ {ls : List (Level R)},
    Struct.taggedDeleteIn I r ls = .ok none → ∀ l ∈ ls, l.deleteRecord I r = .ok none
  | [], h => by simp
  | l :: ls, h => by
    rw [Struct.taggedDeleteIn, bind_ok] at h
    obtain ⟨o, h1, h2⟩ := h
    cases o with
    | some l' => cases h2
    | none =>
      simp only [bind_ok] at h2
      obtain ⟨o2, h2, h3⟩ := h2
      cases o2 with
      | some ls2 => cases h3
      | none =>
        intro x hx
        rcases List.mem_cons.mp hx with rfl | hx
        · exact h1
        · exact taggedDelete_none h2 x hx

theorem setDelete_entry (w : Wrapped R) : w.setDelete.entry = { w.entry with del := true } := by
  unfold Wrapped.setDelete Wrapped.entry Wrapped.isTombstone Wrapped.isDeleted
  have h1 : (w.header ||| 2#32) &&& 1#32 = w.header &&& 1#32 := by
    ext i hi
    simp only [BitVec.getElem_and, BitVec.getElem_or]
    by_cases h0 : i = 0
    · subst h0; simp
    · have : (1#32)[i] = false := by simp [h0]
      simp [this]
  have h2 : (w.header ||| 2#32) &&& 2#32 = 2#32 := by
    ext i hi
    simp only [BitVec.getElem_and, BitVec.getElem_or]
    cases w.header[i] <;> simp
  simp only [h1, h2, Entry.mk.injEq, true_and]
  rfl

theorem ents_modify {l : List (Wrapped R)} {i : Nat} {w : Wrapped R} (h : l[i]? = some w) :
    ∃ rest, ents l = rest + {w.entry} ∧ ents (l.modify i Wrapped.setDelete) = rest + {w.setDelete.entry} := by
  induction l generalizing i with
  | nil => simp at h
  | cons a l ih =>
    cases i with
    | zero =>
      simp at h; subst h
      exact ⟨ents l, by rw [ents_cons, add_comm], by simp [ents_cons, add_comm]⟩
    | succ i =>
      obtain ⟨rest, h1, h2⟩ := ih (i := i) (by simpa using h)
      refine ⟨{a.entry} + rest, by rw [ents_cons, h1, add_assoc], ?_⟩
      rw [List.modify_succ_cons, ents_cons, h2, add_assoc]

/-- Contract: a successful lookup points at the record. -/
def ShardImpl.LookupSound (I : ShardImpl R) : Prop :=
  ∀ s r i, I.lookup s r = .ok (some i) → ∃ w, s.data[i]? = some w ∧ w.record = r

/-- `b` is `a` with one entry of record `r` tagged. -/
def Tags (r : R) (a b : Multiset (Entry R)) : Prop :=
  ∃ rest t dl, a = rest + {⟨r, t, dl⟩} ∧ b = rest + {⟨r, t, true⟩}

theorem Tags.add {r : R} {a b : Multiset (Entry R)} (h : Tags r a b) (c : Multiset (Entry R)) :
    Tags r (c + a) (c + b) := by
  obtain ⟨rest, t, dl, h1, h2⟩ := h
  exact ⟨c + rest, t, dl, by rw [h1, add_assoc], by rw [h2, add_assoc]⟩

theorem tag_tags {s : Shard R} {r : R} {i : Nat} {w : Wrapped R} (h : s.data[i]? = some w) (hr : w.record = r) :
    Tags r (ents s.data) (ents (s.tag i).data) := by
  obtain ⟨rest, h1, h2⟩ := ents_modify h
  refine ⟨rest, w.isTombstone, w.isDeleted, ?_, ?_⟩
  · rw [h1, ← hr]; rfl
  · show ents (s.data.modify i Wrapped.setDelete) = _
    rw [h2, setDelete_entry, ← hr]; rfl

theorem taggedDelete_inv_on {d : Index R} (h : d.Inv) {r : R} (hI : ∀ s ∈ d.str.visible, ∀ j,
    d.impl.lookup s r = .ok (some j) → ∃ w, s.data[j]? = some w ∧ w.record = r) {ls : List (Level R)}
    (hs : Struct.taggedDeleteIn d.impl r d.str.levels = .ok (some ls)) :
    ({ d with str := { d.str with levels := ls } } : Index R).Inv ∧
    Tags r d.entries ({ d with str := { d.str with levels := ls } } : Index R).entries := by
  obtain ⟨i, l, l', e1, e2, e3, -⟩ := taggedDelete_some hs
  obtain ⟨st, hst⟩ := getElem?_of_lt (l := d.str.state) (i := i) (by
    rw [← h.str.len]; exact lt_of_getElem? e1)
  obtain ⟨g1, p, s, q, j, g2, g3, g4, -⟩ := (h.str.lvl i l st e1 hst).tag e2
  have hstate : d.str.state.set i st = d.str.state := by
    apply List.ext_getElem?
    intro n
    by_cases hn : i = n
    · subst hn; rw [List.getElem?_set_self (lt_of_getElem? hst), hst]
    · rw [List.getElem?_set_ne hn]
  have hinv : SInv d.L { d.str with levels := ls } := by
    have := h.str.set g1
    rw [hstate] at this; rw [e3]; exact this
  have habs : ({ d.str with levels := ls } : Struct R).abs = d.str.abs.set i l'.visible := by
    simp [Struct.abs, e3, List.map_set]
  have hA : d.str.abs[i]? = some l.visible := by simp [Struct.abs, e1]
  obtain ⟨w, hw, hwr⟩ := hI _ (List.mem_flatMap.mpr ⟨l, mem_of_getElem? e1, by rw [g2]; simp⟩) _ g3
  refine ⟨⟨h.lay, h.wf, h.lwm, h.cnt, h.sf, h.bs, hinv, ?_⟩, ?_⟩
  · intro hlv s0 hs0
    simp only at hs0 ⊢
    rw [habs] at hs0
    by_cases hi : i = 0
    · subst hi
      rw [List.getElem?_set_self (lt_of_getElem? hA)] at hs0
      cases hs0
      have := h.lev0 hlv _ hA
      rw [g2] at this
      rw [g4]
      simpa [recs, Shard.tag] using this
    · rw [List.getElem?_set_ne hi] at hs0
      exact h.lev0 hlv _ hs0
  · rw [Index.entries_eq, Index.entries_eq]
    simp only
    apply Tags.add
    obtain ⟨rest, s1, s2⟩ := sum_set sents hA
    unfold aents
    rw [habs, s1, s2]
    apply Tags.add
    rw [g2, g4, sents_append, sents_append]
    apply Tags.add
    have e : ∀ (x : Shard R), sents (x :: q) = sents q + ents x.data := by
      intro x; simp [sents, add_comm]
    rw [e, e]
    exact (tag_tags hw hwr).add _

theorem taggedDelete_inv {d : Index R} (h : d.Inv) (hI : d.impl.LookupSound) {r : R} {ls : List (Level R)}
    (hs : Struct.taggedDeleteIn d.impl r d.str.levels = .ok (some ls)) :
    ({ d with str := { d.str with levels := ls } } : Index R).Inv ∧
    Tags r d.entries ({ d with str := { d.str with levels := ls } } : Index R).entries :=
  taggedDelete_inv_on h (fun s _ j => hI s r j) hs

theorem findSlot_some [DecidableEq R] {data : Nat → Wrapped R} {r : R} : ∀ {n lo i : Nat},
    View.findSlot data r lo n = some i → lo ≤ i ∧ i < lo + n ∧ (data i).record = r ∧
      ∀ j, lo ≤ j → j < i → (data j).record ≠ r
  | 0, lo, i, h => by simp [View.findSlot] at h
  | n+1, lo, i, h => by
    rw [View.findSlot] at h
    split at h
    · next hr => cases h; exact ⟨le_refl _, by omega, hr, fun j h1 h2 => by omega⟩
    · next hr =>
      obtain ⟨h1, h2, h3, h4⟩ := findSlot_some h
      refine ⟨by omega, by omega, h3, ?_⟩
      intro j hj1 hj2
      by_cases hlo : j = lo
      · subst hlo; exact hr
      · exact h4 j (by omega) hj2

theorem findSlot_none [DecidableEq R] {data : Nat → Wrapped R} {r : R} : ∀ {n lo : Nat},
    View.findSlot data r lo n = none → ∀ j, lo ≤ j → j < lo + n → (data j).record ≠ r
  | 0, lo, h, j, h1, h2 => by omega
  | n+1, lo, h, j, h1, h2 => by
    rw [View.findSlot] at h
    split at h
    · cases h
    · next hr =>
      by_cases hlo : j = lo
      · subst hlo; exact hr
      · exact findSlot_none h j (by omega) (by omega)

/-- Tagging a slot inside the view tags exactly one entry. -/
theorem write_in {b : Buffer R} (hb : b.WF) {r : R} {i : Nat} (hr : (b.data i).record = r) {j : Nat}
    (hj : j < b.tail - b.head) (hji : (b.head + j) % b.cap = i) :
    Tags r (ents b.contents)
      (ents ({ b with data := Buffer.write b.data i (b.data i).setDelete } : Buffer R).contents) := by
  have hc : ({ b with data := Buffer.write b.data i (b.data i).setDelete } : Buffer R).contents =
      b.contents.modify j Wrapped.setDelete := by
    apply List.ext_getElem?
    intro n
    rw [List.getElem?_modify]
    unfold Buffer.contents
    simp only [List.getElem?_map]
    by_cases hn : n < b.tail - b.head
    · rw [List.getElem?_range hn]
      simp only [Option.map_some]
      by_cases hjn : j = n
      · subst hjn
        simp [Buffer.write, hji]
      · have : (b.head + n) % b.cap ≠ i := by
          rw [← hji]
          have h2 := hb.cnt_lt
          rcases Nat.lt_or_ge n j with h | h
          · exact Buffer.mod_ne h (by omega)
          · exact (Buffer.mod_ne (by omega) (by omega)).symm
        simp [Buffer.write, this, hjn]
    · rw [List.getElem?_eq_none (by simp; omega)]; rfl
  rw [hc]
  have hg : b.contents[j]? = some (b.data i) := by
    unfold Buffer.contents
    simp [List.getElem?_range hj, hji]
  obtain ⟨rest, h1, h2⟩ := ents_modify hg
  refine ⟨rest, (b.data i).isTombstone, (b.data i).isDeleted, ?_, ?_⟩
  · rw [h1, ← hr]; rfl
  · rw [h2, setDelete_entry, ← hr]; rfl

/-- Tagging a buffer slot: either the slot is outside the view, or exactly one entry is tagged. -/
theorem write_contents {b : Buffer R} (hb : b.WF) {r : R} {i : Nat} (hr : (b.data i).record = r) :
    ({ b with data := Buffer.write b.data i (b.data i).setDelete } : Buffer R).contents = b.contents ∨
    Tags r (ents b.contents)
      (ents ({ b with data := Buffer.write b.data i (b.data i).setDelete } : Buffer R).contents) := by
  by_cases hin : ∃ j, j < b.tail - b.head ∧ (b.head + j) % b.cap = i
  · right
    obtain ⟨j, hj, hji⟩ := hin
    exact write_in hb hr hj hji
  · left
    unfold Buffer.contents
    simp only
    apply List.map_congr_left
    intro j hj
    have hne : (b.head + j) % b.cap ≠ i := fun he => hin ⟨j, by simpa using hj, he⟩
    simp [Buffer.write, hne]

theorem bufDelete_inv [DecidableEq R] {d : Index R} (h : d.Inv) (r : R) :
    ({ d with buf := (d.buf.deleteRecord r).1 } : Index R).Inv ∧
    (({ d with buf := (d.buf.deleteRecord r).1 } : Index R).entries = d.entries ∨
     Tags r d.entries ({ d with buf := (d.buf.deleteRecord r).1 } : Index R).entries) := by
  unfold Buffer.deleteRecord
  split
  · next i hi =>
    have hr : (d.buf.data i).record = r := by
      unfold View.deleteSlot at hi
      split at hi
      · exact (findSlot_some hi).2.2.1
      · split at hi
        · next h1 => cases hi; exact (findSlot_some h1).2.2.1
        · exact (findSlot_some hi).2.2.1
    refine ⟨⟨h.lay, h.wf.tag _, h.lwm, h.cnt, h.sf, h.bs, h.str, h.lev0⟩, ?_⟩
    rw [Index.entries_eq, Index.entries_eq]
    rcases write_contents h.wf hr with hc | hc
    · left; simp only; rw [hc]
    · right
      simp only
      rw [add_comm, add_comm (ents _)]
      exact hc.add _
  · exact ⟨h, Or.inl rfl⟩

end DE
