import Verif.Proofs.InsertOnly

/-!
Conservation for BSM: nothing is lost as long as no flushed buffer cancels out completely.
-/

namespace DE
variable {R : Type}

/-- After a BSM flush level 0 holds exactly the shard built from the buffer. -/
theorem bflush_l0 {d d' : Index R} (h : d.BInv) (hat : d.buf.atLwm = true) (hf : d.flush = .ok d') :
    ∃ s, d.impl.build d.buf.view = .ok s ∧ d'.str.abs[0]? = some [s] := by
  obtain ⟨base, hspec, hor⟩ := bflush_abs h hat
  rcases hor with ⟨e, h1, -⟩ | ⟨st', h1, h2, h3, h4⟩
  · rw [h1] at hf; cases hf
  · rw [h1] at hf
    have hd : d' = { d with buf := d.buf.emptied, str := st' } := (Except.ok.inj hf).symm
    obtain ⟨s, hs, hor⟩ := absB_ok h2
    refine ⟨s, hs, ?_⟩
    rw [hd]
    simp only
    rcases hor with ⟨-, e⟩ | ⟨-, m, -, e⟩
    · rw [e]; rfl
    · rw [e, List.getElem?_set_self (by simp [bsmMid]; omega)]

/-- Entry appended by an operation under tombstone deletes. -/
def opEntry : Index.Op R → Entry R
  | .ins r => ⟨r, false, false⟩
  | .del r => ⟨r, true, false⟩

/-- Entries appended by a history. -/
def opEnts (ops : List (Index.Op R)) : Multiset (Entry R) := (ops.map opEntry : List (Entry R))

theorem opEnts_append (a b : List (Index.Op R)) : opEnts (a ++ b) = opEnts a + opEnts b := by
  simp [opEnts]

variable [DecidableEq R]

theorem opEnts_live (r : R) (ops : List (Index.Op R)) : liveCount r (opEnts ops) = insCount r ops := by
  induction ops with
  | nil => rfl
  | cons o ops ih =>
    have e : opEnts (o :: ops) = opEntry o ::ₘ opEnts ops := rfl
    unfold liveCount insCount at *
    rw [e, Multiset.countP_cons, ih, List.count_cons]
    cases o with
    | ins r' => simp [opEntry]
    | del r' => simp [opEntry]

theorem opEnts_tomb (r : R) (ops : List (Index.Op R)) : tombCount r (opEnts ops) = delCount r ops := by
  induction ops with
  | nil => rfl
  | cons o ops ih =>
    have e : opEnts (o :: ops) = opEntry o ::ₘ opEnts ops := rfl
    unfold tombCount delCount at *
    rw [e, Multiset.countP_cons, ih, List.count_cons]
    cases o with
    | ins r' => simp [opEntry]
    | del r' => simp [opEntry]

/-- Buffer of a tombstone index after `ops`: the operations since the last flush. -/
def BufHist (d : Index R) (ops : List (Index.Op R)) : Prop :=
  ∃ q, d.buf.lwm * q + (d.buf.tail - d.buf.head) = ops.length ∧ ents d.buf.contents = opEnts (ops.drop (d.buf.lwm * q))

omit [DecidableEq R] in
theorem step_lwm [DecidableEq R] {d d' : Index R} (h : BufInv d.buf) {o : Index.Op R} {b : Bool}
    (hs : d.step o = .ok (d', b)) : d'.buf.lwm = d.buf.lwm := by
  have happ : ∀ (bf : Buffer R) r ts, (bf.append r ts).1.lwm = bf.lwm := by
    intro bf r ts
    unfold Buffer.append
    split <;> rfl
  have hia : ∀ r ts, d.internalAppend r ts = .ok (d', b) → d'.buf.lwm = d.buf.lwm := by
    intro r ts hs
    unfold Index.internalAppend at hs
    by_cases hat : d.buf.atLwm = true
    · rw [if_pos hat, bind_ok] at hs
      obtain ⟨d1, f1, f2⟩ := hs
      obtain ⟨g1, -⟩ := flush_buf h hat f1
      have hd : d' = { d1 with buf := (d1.buf.append r ts).1 } := (congrArg Prod.fst (Except.ok.inj f2)).symm
      rw [hd]; simp only; rw [happ, g1]; rfl
    · rw [if_neg hat] at hs
      have hd : d' = { d with buf := (d.buf.append r ts).1 } := (congrArg Prod.fst (Except.ok.inj hs)).symm
      rw [hd]; simp only; rw [happ]
  cases o with
  | ins r => exact hia r false hs
  | del r =>
    simp only [Index.step, Index.erase] at hs
    split at hs
    · rw [bind_ok] at hs
      obtain ⟨o, h1, h2⟩ := hs
      cases o with
      | some ls => cases h2; rfl
      | none =>
        cases h2
        unfold Buffer.deleteRecord
        split <;> rfl
    · exact hia r true hs

/-- The buffer's history advances by one operation. -/
theorem bufHist_step {d d' : Index R} (hb : BufInv d.buf) (ht : d.tagging = false) {ops : List (Index.Op R)} {o : Index.Op R}
    {b : Bool} (hs : d.step o = .ok (d', b)) (h : BufHist d ops) : BufHist d' (ops ++ [o]) := by
  have hb' := (step_buf hb hs).1
  obtain ⟨r, ts, hr, ho⟩ : ∃ r ts, d.internalAppend r ts = .ok (d', b) ∧ opEntry o = ⟨r, ts, false⟩ := by
    cases o with
    | ins r => exact ⟨r, false, hs, rfl⟩
    | del r =>
      simp only [Index.step, Index.erase, ht, Bool.false_eq_true, if_false] at hs
      exact ⟨r, true, hs, rfl⟩
  have hc := internalAppend_contents hb hr
  have hl := step_lwm hb hs
  obtain ⟨q, h1, h2⟩ := h
  have hlen := Buffer.contents_length d'.buf
  have hop : ents [Buffer.entryAt r ts (d.buf.tail % d.buf.cap)] = opEnts [o] := by
    simp [ents, opEnts, entryAt_entry, ho]
  by_cases hat : d.buf.atLwm = true
  · have hfull : d.buf.tail - d.buf.head = d.buf.lwm := by
      have := hb.cnt
      simp [Buffer.atLwm, Buffer.count] at hat
      omega
    rw [if_pos hat, List.nil_append] at hc
    refine ⟨q + 1, ?_, ?_⟩
    · rw [← hlen, hc, hl]
      simp only [List.length_append, List.length_cons, List.length_nil]
      rw [Nat.mul_succ]; omega
    · rw [hc, hl, hop, List.drop_append_of_le_length (by rw [Nat.mul_succ]; omega),
        List.drop_of_length_le (by rw [Nat.mul_succ]; omega), List.nil_append]
  · rw [if_neg hat] at hc
    refine ⟨q, ?_, ?_⟩
    · rw [← hlen, hc, hl, List.length_append, Buffer.contents_length]
      simp; omega
    · rw [hc, hl, ents_append, hop, h2, List.drop_append_of_le_length (by omega), opEnts_append]

/-- A flush of a BSM index whose last block of operations is not void leaves a non-empty level 0. -/
theorem l0_of_block {d d' : Index R} (hI : d.impl.Conserving) (h : d.BInv) {ops : List (Index.Op R)} (hh : BufHist d ops)
    (hat : d.buf.atLwm = true) (hf : d.flush = .ok d') (hn : NoVoidBlock d.buf.lwm ops) : d'.L0NonEmpty := by
  obtain ⟨s, h1, h2⟩ := bflush_l0 h hat hf
  rw [l0_head]
  intro ss hss x hx
  rw [h2] at hss
  cases hss
  simp at hx; subst hx
  intro h0
  have hred := (hI.build _ _ _ (Buffer.view_reads h.wf) h1)
  obtain ⟨q, e1, e2⟩ := hh
  have hfull : d.buf.tail - d.buf.head = d.buf.lwm := by
    have := h.cnt
    simp [Buffer.atLwm, Buffer.count] at hat
    omega
  obtain ⟨r, hr⟩ := hn q (by rw [Nat.mul_succ]; omega)
  have htake : (ops.drop (d.buf.lwm * q)).take d.buf.lwm = ops.drop (d.buf.lwm * q) := by
    apply List.take_of_length_le
    simp; omega
  rw [htake] at hr
  rw [h0, e2] at hred
  have hnet := hred.net r (by
    intro e he
    simp only [opEnts, Multiset.mem_coe, List.mem_map] at he
    obtain ⟨o, -, rfl⟩ := he
    cases o <;> simp [opEntry])
  rw [opEnts_live, opEnts_tomb] at hnet
  simp [ents, liveCount, tombCount] at hnet
  exact hr hnet

theorem NoVoidBlock.prefix {lwm : Nat} {a b : List (Index.Op R)} (h : NoVoidBlock lwm b) (hp : a <+: b) :
    NoVoidBlock lwm a := by
  obtain ⟨t, rfl⟩ := hp
  intro j hj
  obtain ⟨r, hr⟩ := h j (by simp; omega)
  refine ⟨r, ?_⟩
  rw [List.drop_append_of_le_length (by rw [Nat.mul_succ] at hj; omega), List.take_append_of_le_length (by
    simp; rw [Nat.mul_succ] at hj; omega)] at hr
  exact hr

/-- Net content under tombstone deletes, any layout. -/
theorem grun_net {d0 d : Index R} (h0 : d0.GInv) (hI : d0.impl.Conserving) (hl : d0.impl.LookupSound)
    (ht : d0.tagging = false) (he : d0.entries = 0) (hb0 : d0.buf.tail - d0.buf.head = 0)
    {ops : List (Index.Op R)} {bs : List Bool}
    (hn : d0.L = .bsm → NoVoidBlock d0.buf.lwm ops)
    (hr : d0.run ops = .ok (d, bs)) :
    (∀ x ∈ d.entries, x.del = false) ∧
      (∀ r, liveCount r d.entries + delCount r ops = tombCount r d.entries + insCount r ops) ∧
      BufHist d ops ∧ d.GInv ∧ d.buf.lwm = d0.buf.lwm := by
  have hbe : ents d0.buf.contents = 0 := by
    have : d0.buf.contents = [] := List.eq_nil_of_length_eq_zero (by rw [Buffer.contents_length]; exact hb0)
    rw [this]; rfl
  have hfin := grun_ind ops (fun ops d _ => ((∀ x ∈ d.entries, x.del = false) ∧
      ∀ r, liveCount r d.entries + delCount r ops = tombCount r d.entries + insCount r ops) ∧ BufHist d ops ∧
      d.buf.lwm = d0.buf.lwm ∧ (d0.L = .bsm → d.L0NonEmpty)) h0 hI hl ?_ ?_ hr
  · obtain ⟨⟨⟨a, b⟩, c, e, -⟩, g, -⟩ := hfin
    exact ⟨a, b, c, g, e⟩
  · refine ⟨⟨by rw [he]; simp, by rw [he]; simp [liveCount, tombCount, delCount, insCount]⟩, ⟨0, by simp [hb0], by
      rw [hbe]; rfl⟩, rfl, ?_⟩
    intro hL
    rcases h0 with h0 | h0
    · exact absurd hL h0.lay
    · rw [l0_head]
      intro ss hss s hs
      obtain ⟨x, rfl, hx⟩ := h0.str.l0 ss hss
      simp at hs; subst hs; exact hx
  · rintro ops' o d d' bs b hpre hr1 hr2 ⟨⟨p1, p2⟩, p3, p4, p5⟩ hg hL htg him hs hsf
    have hbi : BufInv d.buf := ⟨hg.wf, hg.lwm, hg.cnt⟩
    have htf : d.tagging = false := htg.trans ht
    have hbh := bufHist_step hbi htf hs p3
    have hlwm := step_lwm hbi hs
    have hl0 : d0.L = .bsm → d'.L0NonEmpty := by
      intro hbsm
      have hbinv : d.BInv := by
        rcases hg with hg | hg
        · exact absurd (hL.trans hbsm) hg.lay
        · exact hg
      obtain ⟨r, ts, hia⟩ : ∃ r ts, d.internalAppend r ts = .ok (d', b) := by
        cases o with
        | ins r => exact ⟨r, false, hs⟩
        | del r =>
          simp only [Index.step, Index.erase, htf, Bool.false_eq_true, if_false] at hs
          exact ⟨r, true, hs⟩
      have hIc : d.impl.Conserving := him ▸ hI
      obtain ⟨-, -, -, -, -, -, h8, -⟩ := gappend_ok hg hIc hia
      rcases h8 with ⟨-, e, -⟩ | ⟨hat, d1, f1, e, -⟩
      · have := p5 hbsm
        unfold Index.L0NonEmpty at *
        rw [e]; exact this
      · have := l0_of_block hIc hbinv p3 hat f1 (p4 ▸ (hn hbsm).prefix ((List.prefix_append ops' [o]).trans hpre))
        unfold Index.L0NonEmpty at *
        rw [e]; exact this
    refine ⟨⟨?_, hbh, hlwm.trans p4, hl0⟩, hl0⟩
    obtain ⟨r, ts, ho, m, hm, ha⟩ : ∃ r ts, opEntry o = ⟨r, ts, false⟩ ∧
        ∃ m, Reduces (fun e => e.del = true) d.entries m ∧ d'.entries = m + {⟨r, ts, false⟩} := by
      have heff := hsf.eff
      cases o with
      | ins r => exact ⟨r, false, rfl, heff.2⟩
      | del r =>
        simp only [StepEff, htf, Bool.false_eq_true, if_false] at heff
        exact ⟨r, true, rfl, heff.2⟩
    refine ⟨?_, ?_⟩
    · intro x hx
      rw [ha, Multiset.mem_add] at hx
      rcases hx with hx | hx
      · exact p1 x (Multiset.mem_of_le hm.le hx)
      · simp at hx; rw [hx]
    · intro r'
      have h1 := hm.net r' (fun x hx => by simp [p1 x hx])
      have h2 := p2 r'
      have e1 : insCount r' (ops' ++ [o]) = insCount r' ops' + liveCount r' ({⟨r, ts, false⟩} : Multiset (Entry R)) := by
        rw [← opEnts_live, opEnts_append, liveCount_add, opEnts_live]
        congr 1
        simp [opEnts, ho]
      have e2 : delCount r' (ops' ++ [o]) = delCount r' ops' + tombCount r' ({⟨r, ts, false⟩} : Multiset (Entry R)) := by
        rw [← opEnts_tomb, opEnts_append, tombCount_add, opEnts_tomb]
        congr 1
        simp [opEnts, ho]
      rw [ha, liveCount_add, tombCount_add, e1, e2]
      omega

/-- A block of odd length never nets out. -/
theorem noVoid_odd {lwm : Nat} (hodd : lwm % 2 = 1) (ops : List (Index.Op R)) : NoVoidBlock lwm ops := by
  intro j hj
  by_contra hc
  have hc : ∀ r, insCount r ((ops.drop (lwm * j)).take lwm) = delCount r ((ops.drop (lwm * j)).take lwm) := by
    intro r; by_contra h; exact hc ⟨r, h⟩
  have hlen : ((ops.drop (lwm * j)).take lwm).length = lwm := by
    simp; rw [Nat.mul_succ] at hj; omega
  have even : ∀ (n : Nat) (l : List (Index.Op R)), l.length ≤ n → (∀ r, insCount r l = delCount r l) → l.length % 2 = 0 := by
    intro n
    induction n with
    | zero => intro l h _; have : l.length = 0 := by omega
              rw [this]
    | succ n ih =>
      intro l hle hl
      cases l with
      | nil => rfl
      | cons o l =>
        have pair : ∀ (a b : Index.Op R), a ∈ l → (∀ r, insCount r (b :: l.erase a) + insCount r [a] = insCount r (b :: l)) ∧
            (∀ r, delCount r (b :: l.erase a) + delCount r [a] = delCount r (b :: l)) := by
          intro a b ha
          have hp := (List.perm_cons_erase ha).cons b
          constructor
          · intro r
            unfold insCount
            rw [hp.count_eq]
            simp only [List.count_cons, List.count_nil]; omega
          · intro r
            unfold delCount
            rw [hp.count_eq]
            simp only [List.count_cons, List.count_nil]; omega
        have key : ∀ a, a ∈ l → (∀ r, insCount r [o] + insCount r [a] = delCount r [o] + delCount r [a]) →
            (o :: l).length % 2 = 0 := by
          intro a ha hbal
          have hlen := List.length_erase_of_mem ha
          have hpos : 0 < l.length := List.length_pos_of_mem ha
          have := ih (l.erase a) (by simp at hle; omega) (by
            intro r
            have h1 := (pair a o ha).1 r
            have h2 := (pair a o ha).2 r
            have h3 := hl r
            have h4 := hbal r
            have h5 : insCount r (o :: l.erase a) = insCount r [o] + insCount r (l.erase a) := by
              unfold insCount; simp only [List.count_cons, List.count_nil]; omega
            have h6 : delCount r (o :: l.erase a) = delCount r [o] + delCount r (l.erase a) := by
              unfold delCount; simp only [List.count_cons, List.count_nil]; omega
            omega)
          simp; omega
        cases o with
        | ins r =>
          have h1 := hl r
          have : 0 < delCount r l := by
            unfold insCount delCount at h1
            simp only [List.count_cons] at h1
            simp at h1
            unfold delCount; omega
          refine key (.del r) (List.count_pos_iff.mp this) ?_
          intro r'
          by_cases hr : r = r' <;> simp [insCount, delCount, List.count_cons, hr]
        | del r =>
          have h1 := hl r
          have : 0 < insCount r l := by
            unfold insCount delCount at h1
            simp only [List.count_cons] at h1
            simp at h1
            unfold insCount; omega
          refine key (.ins r) (List.count_pos_iff.mp this) ?_
          intro r'
          by_cases hr : r = r' <;> simp [insCount, delCount, List.count_cons, hr]
  have := even _ _ (le_refl _) hc
  omega

end DE
