import Verif.Proofs.Cycle
import Verif.Proofs.Stable

/-!
Every shard stands for a contiguous interval of the history; deeper levels are older.
-/

namespace DE
variable {R : Type}

/-- All shards, oldest first: deepest level first, each level in index order. -/
def chron (A : List (List (Shard R))) : List (Shard R) := A.reverse.flatten

theorem chron_abs (st : Struct R) : chron st.abs = st.levels.reverse.flatMap Level.visible := by
  simp [chron, Struct.abs, List.flatMap_def]

theorem mem_chron {A : List (List (Shard R))} {s : Shard R} : s ∈ chron A ↔ ∃ ss ∈ A, s ∈ ss := by
  simp [chron]

/-- `ys` results from `xs` by replacing neighbours by their merge (empty shards in front may be left out). -/
inductive Coarse (I : ShardImpl R) : List (Shard R) → List (Shard R) → Prop
  | nil : Coarse I [] []
  | keep {x : Shard R} {xs ys : List (Shard R)} : Coarse I xs ys → Coarse I (x :: xs) (x :: ys)
  | merge {es ss xs ys : List (Shard R)} {m : Shard R} : ss ≠ [] → (∀ e ∈ es, e.data = []) →
      I.merge (ss.map some) = .ok m → Coarse I xs ys → Coarse I (es ++ ss ++ xs) (m :: ys)

theorem Coarse.refl (I : ShardImpl R) : ∀ xs : List (Shard R), Coarse I xs xs
  | [] => .nil
  | _ :: xs => .keep (Coarse.refl I xs)

theorem Coarse.append {I : ShardImpl R} {a b c d : List (Shard R)} (h : Coarse I a b) (k : Coarse I c d) :
    Coarse I (a ++ c) (b ++ d) := by
  induction h with
  | nil => exact k
  | keep _ ih => exact .keep ih
  | merge h1 h2 h3 _ ih =>
    rw [List.append_assoc]
    exact .merge h1 h2 h3 ih

theorem Coarse.one {I : ShardImpl R} {ss : List (Shard R)} {m : Shard R} (h : ss ≠ []) (hm : I.merge (ss.map some) = .ok m) :
    Coarse I ss [m] := by
  have := Coarse.merge (es := []) h (by simp) hm (Coarse.nil (I := I))
  simpa using this

theorem comb_coarse {L : Layout} (hL : L ≠ .bsm) {I : ShardImpl R} {dst src nd : List (Shard R)}
    (h : absComb L I dst src = .ok nd) (h1 : L = .leveling → dst.length ≤ 1 ∧ src.length ≤ 1) (hs : src ≠ []) :
    Coarse I (dst ++ src) nd := by
  rcases absComb_cases hL h h1 hs with ⟨-, rfl, rfl⟩ | ⟨-, m, hm, rfl, hd⟩ | ⟨-, m, hm, rfl⟩
  · exact Coarse.refl I _
  · exact Coarse.one (by simp [hs]) hm
  · exact (Coarse.refl I dst).append (Coarse.one hs hm)

theorem step_coarse {L : Layout} (hL : L ≠ .bsm) {I : ShardImpl R} {sf : Nat} {A A' : List (List (Shard R))} {k : Nat}
    (hp : StepPre L sf A k) (h1 : Single L A) (h : absStep L I A k = .ok A') : Coarse I (chron A) (chron A') := by
  obtain ⟨⟨src', hsrc', hne⟩, -⟩ := hp
  have hk := lt_of_getElem? hsrc'
  obtain ⟨A1, dst, src, nd, hA1, hd, hs1, hs, hn, he, hlen, hor⟩ := absStep_ok hk h
  obtain rfl : src = src' := Option.some.inj (hs.symm.trans hsrc')
  have hdl : L = .leveling → dst.length ≤ 1 ∧ src.length ≤ 1 := by
    intro hlv
    refine ⟨?_, h1 hlv _ (mem_of_getElem? hs)⟩
    rcases hor with ⟨rfl, -⟩ | hor
    · simp
    · exact h1 hlv _ (mem_of_getElem? hor)
  have hc := comb_coarse hL hn hdl hne
  have e0 : chron A = chron A1 := by
    rw [hA1]; split
    · simp [chron]
    · rfl
  have e1 : A1 = A1.take k ++ src :: dst :: A1.drop (k+2) := by
    conv_lhs => rw [← List.take_append_drop k A1]
    rw [List.drop_eq_getElem_cons (by omega : k < A1.length), List.drop_eq_getElem_cons (by omega : k + 1 < A1.length)]
    rw [List.getElem?_eq_getElem (by omega)] at hd hs1
    rw [Option.some.inj hd, Option.some.inj hs1]
  have hkl : (A1.take k).length = k := by rw [List.length_take]; omega
  have e2 : A' = A1.take k ++ [] :: nd :: A1.drop (k+2) := by
    rw [he]
    conv_lhs => rw [e1]
    generalize A1.take k = p at hkl ⊢
    subst hkl
    rw [List.set_append_right _ _ (by omega), Nat.add_sub_cancel_left]
    simp
  rw [e0, e2]
  conv => arg 2; rw [e1]
  simp only [chron, List.reverse_append, List.reverse_cons, List.flatten_append, List.append_assoc, List.flatten_cons,
    List.flatten_nil, List.append_nil, List.nil_append]
  refine (Coarse.refl I _).append ?_
  rw [← List.append_assoc]
  exact hc.append (Coarse.refl I _)

theorem l0_coarse {L : Layout} (hL : L ≠ .bsm) {I : ShardImpl R} {A A' : List (List (Shard R))} {v : View R}
    (h1 : Single L A) (h : absL0 L I A v = .ok A') : ∃ s, I.build v = .ok s ∧ Coarse I (chron A ++ [s]) (chron A') := by
  unfold absL0 at h
  simp only [bind_ok] at h
  obtain ⟨old, ho, n, hn, he⟩ := h
  have he := (Except.ok.inj he).symm
  have ho' : (withL0 A)[0]? = some old := by
    unfold getR at ho; split at ho
    · next a ha => rw [ha]; exact congrArg some (Except.ok.inj ho)
    · cases ho
  have e0 : chron A = chron (withL0 A) := by
    unfold withL0; split
    · simp [chron]
    · rfl
  have hS : L = .leveling → old.length ≤ 1 := by
    intro hlv
    have := mem_of_getElem? ho'
    unfold withL0 at this
    split at this
    · rcases List.mem_append.mp this with h | h
      · exact h1 hlv _ h
      · simp at h; simp [h]
    · exact h1 hlv _ this
  obtain ⟨s, hs, hc⟩ := absNew0_cases hL hn hS
  refine ⟨s, hs, ?_⟩
  rw [e0, he]
  generalize withL0 A = B at ho'
  cases B with
  | nil => simp at ho'
  | cons b B =>
    simp at ho'; subst ho'
    simp only [List.set_cons_zero, chron, List.reverse_cons, List.flatten_append, List.append_assoc, List.flatten_cons,
      List.flatten_nil, List.append_nil]
    refine (Coarse.refl I _).append ?_
    rcases hc with ⟨-, rfl, rfl⟩ | ⟨-, m, hm, rfl, -⟩ | ⟨-, rfl⟩
    · exact Coarse.refl I _
    · exact Coarse.one (by simp) hm
    · exact Coarse.refl I _

theorem b_coarse {I : ShardImpl R} {A A' : List (List (Shard R))} {base : Nat} {v : View R}
    (hspec : A ≠ [] → BaseSpec A base) (hl0 : ∀ ss : List (Shard R), A[0]? = some ss → ss ≠ [])
    (h : absB I A base v = .ok A') :
    ∃ s, I.build v = .ok s ∧ Coarse I (chron A ++ [s]) (chron A') := by
  obtain ⟨s, hs, hor⟩ := absB_ok h
  refine ⟨s, hs, ?_⟩
  rcases hor with ⟨rfl, rfl⟩ | ⟨hne, m, hm, rfl⟩
  · simpa [chron] using Coarse.refl I [s]
  · have sp := hspec hne
    have hne' : (A.take base).reverse.flatten ≠ [] := by
      cases A with
      | nil => exact absurd rfl hne
      | cons a A => exact flatten_ne_nil_of_l0 sp.pos (a := a) rfl (hl0 a rfl)
    obtain ⟨b, rfl⟩ : ∃ b, base = b + 1 := ⟨base - 1, by have := sp.pos; omega⟩
    have e1 : chron ((bsmMid A (b+1) m).set 0 [s]) = chron (A.drop (b+2)) ++ ([m] ++ [s]) := by
      unfold bsmMid
      rw [List.replicate_succ, List.cons_append, List.set_cons_zero]
      simp [chron]
    obtain ⟨es, e2, hes⟩ : ∃ es, chron A = chron (A.drop (b+2)) ++ (es ++ (A.take (b+1)).reverse.flatten) ∧
        ∀ e ∈ es, Shard.data e = [] := by
      by_cases hb : b + 1 < A.length
      · refine ⟨A[b+1], ?_, ?_⟩
        · have : A = A.take (b+1) ++ A[b+1] :: A.drop (b+2) := by
            conv_lhs => rw [← List.take_append_drop (b+1) A]
            rw [List.drop_eq_getElem_cons hb]
          conv_lhs => rw [this]
          simp only [chron, List.reverse_append, List.reverse_cons, List.flatten_append, List.append_assoc,
            List.flatten_cons, List.flatten_nil, List.append_nil]
        · have := sp.free hb
          unfold absZero at this
          rw [List.getElem?_eq_getElem hb] at this
          simp only [decide_eq_true_eq] at this
          exact recs_zero this
      · refine ⟨[], ?_, by simp⟩
        rw [List.drop_of_length_le (by omega), List.take_of_length_le (by omega)]
        simp [chron]
    rw [e1, e2, List.append_assoc]
    refine (Coarse.refl I _).append (Coarse.append ?_ (Coarse.refl I _))
    have := Coarse.merge hne' hes hm (Coarse.nil (I := I))
    simpa using this

/-- What one flush does to the shards. -/
theorem flush_coarse {d d' : Index R} (h : d.GInv) (hat : d.buf.atLwm = true) (hf : d.flush = .ok d') :
    ∃ s B, d.impl.build d.buf.view = .ok s ∧ Relation.ReflTransGen (Coarse d.impl) (chron d.str.abs) B ∧
      Coarse d.impl (B ++ [s]) (chron d'.str.abs) := by
  rcases h with h | h
  · obtain ⟨base, hspec, hor⟩ := flush_abs h hat
    rcases hor with ⟨e, h1, -⟩ | ⟨st', h1, h2, -⟩
    · rw [h1] at hf; cases hf
    · rw [h1] at hf
      have hd : d' = { d with buf := d.buf.emptied, str := st' } := (Except.ok.inj hf).symm
      rw [bind_ok] at h2
      obtain ⟨A1, e1, e2⟩ := h2
      have run : ∀ (k : Nat) {A A' : List (List (Shard R))}, RunPre d.L d.str.sf A k → Single d.L A →
          absRun d.L d.impl k A = .ok A' → Relation.ReflTransGen (Coarse d.impl) (chron A) (chron A') ∧ Single d.L A' := by
        intro k
        induction k with
        | zero => intro A A' _ h1 h; cases h; exact ⟨.refl, h1⟩
        | succ k ih =>
          intro A A' hp h1 h
          rw [absRun, bind_ok] at h
          obtain ⟨A2, f1, f2⟩ := h
          obtain ⟨g1, g2⟩ := ih (hp.next f1) (h1.step h.lay hp.step f1) f2
          exact ⟨.head (step_coarse h.lay hp.step h1 f1) g1, g2⟩
      obtain ⟨r1, r2⟩ := run base hspec.pre h.str.single e1
      obtain ⟨s, hs, hc⟩ := l0_coarse h.lay r2 e2
      exact ⟨s, _, hs, r1, by rw [hd]; exact hc⟩
  · obtain ⟨base, hspec, hor⟩ := bflush_abs h hat
    rcases hor with ⟨e, h1, -⟩ | ⟨st', h1, h2, -⟩
    · rw [h1] at hf; cases hf
    · rw [h1] at hf
      have hd : d' = { d with buf := d.buf.emptied, str := st' } := (Except.ok.inj hf).symm
      obtain ⟨s, hs, hc⟩ := b_coarse hspec (fun ss hss => by
        obtain ⟨s, rfl, -⟩ := h.str.l0 ss hss
        simp) h2
      exact ⟨s, _, hs, .refl, by rw [hd]; exact hc⟩

/-! ### Intervals of the history -/

theorem forall₂_split {α β : Type} {P : α → β → Prop} : ∀ {a b : List α} {l : List β}, List.Forall₂ P (a ++ b) l →
    ∃ l1 l2, l = l1 ++ l2 ∧ List.Forall₂ P a l1 ∧ List.Forall₂ P b l2
  | [], b, l, h => ⟨[], l, rfl, .nil, h⟩
  | x :: a, b, l, h => by
    cases h with
    | cons h1 h2 =>
      obtain ⟨l1, l2, rfl, g1, g2⟩ := forall₂_split h2
      exact ⟨_ :: l1, l2, rfl, .cons h1 g1, g2⟩

variable [DecidableEq R]

theorem insCount_append (r : R) (a b : List (Index.Op R)) : insCount r (a ++ b) = insCount r a + insCount r b := by
  unfold insCount; simp
theorem delCount_append (r : R) (a b : List (Index.Op R)) : delCount r (a ++ b) = delCount r a + delCount r b := by
  unfold delCount; simp

theorem holds_group {lwm : Nat} {ss : List (Shard R)} {bs : List (List (Index.Op R))}
    (h : List.Forall₂ (Holds lwm) ss bs) :
    (∀ e ∈ sents ss, e.del = false) ∧ lwm ∣ bs.flatten.length ∧ (ss ≠ [] → bs.flatten ≠ []) ∧
    ∀ r, liveCount r (sents ss) + delCount r bs.flatten = tombCount r (sents ss) + insCount r bs.flatten := by
  induction h with
  | nil => simp [sents, liveCount, tombCount, delCount, insCount]
  | @cons s b ss bs h1 _ ih =>
    obtain ⟨i1, i2, i3, i4⟩ := ih
    obtain ⟨g1, g2, g3, g4⟩ := h1
    have e : sents (s :: ss) = ents s.data + sents ss := by simp [sents]
    refine ⟨?_, ?_, ?_, ?_⟩
    · intro x hx
      rw [e, Multiset.mem_add] at hx
      rcases hx with hx | hx
      · exact g3 x hx
      · exact i1 x hx
    · rw [List.flatten_cons, List.length_append]; exact Nat.dvd_add g2 i2
    · intro _; simp [g1]
    · intro r
      rw [e, liveCount_add, tombCount_add, List.flatten_cons, insCount_append, delCount_append]
      have := i4 r; have := g4 r; omega

theorem coarse_holds {I : ShardImpl R} (hI : I.Conserving) {lwm : Nat} {xs ys : List (Shard R)} (h : Coarse I xs ys) :
    ∀ {bs : List (List (Index.Op R))}, List.Forall₂ (Holds lwm) xs bs →
      ∃ cs, cs.flatten = bs.flatten ∧ List.Forall₂ (Holds lwm) ys cs := by
  induction h with
  | nil => intro bs hb; cases hb; exact ⟨[], rfl, .nil⟩
  | keep _ ih =>
    intro bs hb
    cases hb with
    | cons h1 h2 =>
      obtain ⟨cs, e, g⟩ := ih h2
      exact ⟨_ :: cs, by rw [List.flatten_cons, e, List.flatten_cons], .cons h1 g⟩
  | @merge es ss xs ys m h1 h2 h3 _ ih =>
    intro bs hb
    obtain ⟨b12, b3, rfl, g1, g2⟩ := forall₂_split hb
    obtain ⟨b1, b2, rfl, f1, f2⟩ := forall₂_split g1
    obtain ⟨cs, e, g⟩ := ih g2
    obtain ⟨i1, i2, i3, i4⟩ := holds_group f1
    obtain ⟨j1, j2, j3, j4⟩ := holds_group f2
    have hes : sents es = 0 := by
      apply Multiset.eq_zero_of_forall_notMem
      intro x hx
      obtain ⟨y, hy, hx⟩ := sents_mem.mp hx
      rw [h2 y hy] at hx
      simp [ents] at hx
    have hr := hI.merge ss m h3
    refine ⟨(b1.flatten ++ b2.flatten) :: cs, by simp [e], .cons ⟨?_, ?_, ?_, ?_⟩ g⟩
    · simp [j3 h1]
    · rw [List.length_append]; exact Nat.dvd_add i2 j2
    · intro x hx
      exact j1 x (Multiset.mem_of_le hr.le hx)
    · intro r
      have h5 := hr.net r (fun x hx => by simp [j1 x hx])
      have h6 := i4 r
      have h7 := j4 r
      rw [hes] at h6
      simp only [liveCount, tombCount, Multiset.countP_zero, Nat.zero_add] at h6
      rw [insCount_append, delCount_append, h6]
      omega

theorem coarse_star_holds {I : ShardImpl R} (hI : I.Conserving) {lwm : Nat} {xs ys : List (Shard R)}
    (h : Relation.ReflTransGen (Coarse I) xs ys) {bs : List (List (Index.Op R))} (hb : List.Forall₂ (Holds lwm) xs bs) :
    ∃ cs, cs.flatten = bs.flatten ∧ List.Forall₂ (Holds lwm) ys cs := by
  induction h with
  | refl => exact ⟨bs, rfl, hb⟩
  | tail _ h ih =>
    obtain ⟨cs, e, g⟩ := ih
    obtain ⟨cs', e', g'⟩ := coarse_holds hI h g
    exact ⟨cs', e'.trans e, g'⟩

/-- The shards stand for consecutive intervals of everything that has left the buffer. -/
def Segs (d : Index R) (ops : List (Index.Op R)) : Prop :=
  ∃ bs, bs.flatten = ops.take (ops.length - (d.buf.tail - d.buf.head)) ∧ List.Forall₂ (Holds d.buf.lwm) (chron d.str.abs) bs

theorem build_holds {d : Index R} (hI : d.impl.Conserving) (hwf : d.buf.WF) (hl : 0 < d.buf.lwm) (hcnt : d.buf.tail - d.buf.head = d.buf.lwm)
    {ops : List (Index.Op R)} (hb : BufHist d ops) {s : Shard R} (hs : d.impl.build d.buf.view = .ok s) :
    Holds d.buf.lwm s (ops.drop (ops.length - (d.buf.tail - d.buf.head))) := by
  obtain ⟨q, e1, e2⟩ := hb
  have e3 : ops.length - (d.buf.tail - d.buf.head) = d.buf.lwm * q := by omega
  rw [e3]
  have hr := hI.build _ _ _ (Buffer.view_reads hwf) hs
  rw [e2] at hr
  have hlen : (ops.drop (d.buf.lwm * q)).length = d.buf.lwm := by simp; omega
  have hnd : ∀ e ∈ opEnts (ops.drop (d.buf.lwm * q)), e.del = false := by
    intro e he
    simp only [opEnts, Multiset.mem_coe, List.mem_map] at he
    obtain ⟨o, -, rfl⟩ := he
    cases o <;> rfl
  refine ⟨?_, by rw [hlen], fun x hx => hnd x (Multiset.mem_of_le hr.le hx), ?_⟩
  · intro h0; rw [h0] at hlen; simp at hlen; omega
  · intro r
    have := hr.net r (fun x hx => by simp [hnd x hx])
    rw [opEnts_live, opEnts_tomb] at this
    omega

theorem segs_step {d d' : Index R} (h : d.GInv) (hI : d.impl.Conserving) (ht : d.tagging = false)
    {ops : List (Index.Op R)} {o : Index.Op R} {b : Bool} (hs : d.step o = .ok (d', b)) (hb : BufHist d ops)
    (hS : Segs d ops) : Segs d' (ops ++ [o]) := by
  have hbi : BufInv d.buf := ⟨h.wf, h.lwm, h.cnt⟩
  have hr := step_append ht hs
  have hl := step_lwm hbi hs
  have hc := internalAppend_contents hbi hr
  have hlen := Buffer.contents_length d'.buf
  obtain ⟨-, -, -, -, -, -, h8, -⟩ := gappend_ok h hI hr
  obtain ⟨bs, e1, e2⟩ := hS
  have hlo : d.buf.tail - d.buf.head ≤ ops.length := by
    obtain ⟨q, e, -⟩ := hb; omega
  rcases h8 with ⟨hat, e, -⟩ | ⟨hat, d1, f1, e, -⟩
  · rw [hat] at hc
    simp only [Bool.false_eq_true, if_false] at hc
    rw [hc, List.length_append, Buffer.contents_length] at hlen
    simp only [List.length_cons, List.length_nil] at hlen
    refine ⟨bs, ?_, by rw [e, hl]; exact e2⟩
    rw [e1, List.length_append, ← hlen]
    simp only [List.length_cons, List.length_nil]
    rw [List.take_append_of_le_length (by omega)]
    congr 1; omega
  · rw [hat] at hc
    simp only [if_true, List.nil_append] at hc
    rw [hc] at hlen
    simp only [List.length_cons, List.length_nil] at hlen
    have hfull : d.buf.tail - d.buf.head = d.buf.lwm := by
      have := hbi.cnt
      simp [Buffer.atLwm, Buffer.count] at hat
      omega
    obtain ⟨s, B, hbd, c1, c2⟩ := flush_coarse h hat f1
    obtain ⟨cs, g1, g2⟩ := coarse_star_holds hI c1 e2
    have hh := build_holds hI h.wf h.lwm hfull hb hbd
    have g3 : List.Forall₂ (Holds d.buf.lwm) (B ++ [s]) (cs ++ [ops.drop (ops.length - (d.buf.tail - d.buf.head))]) :=
      List.rel_append g2 (.cons hh .nil)
    obtain ⟨ds, k1, k2⟩ := coarse_holds hI c2 g3
    refine ⟨ds, ?_, by rw [e, hl]; exact k2⟩
    rw [k1, List.flatten_append, g1, e1, List.length_append, ← hlen]
    simp

theorem segs_run {d0 d : Index R} (h0 : d0.GInv) (hI : d0.impl.Conserving) (hl : d0.impl.LookupSound)
    (ht : d0.tagging = false) (he : d0.entries = 0) (hb0 : d0.buf.tail - d0.buf.head = 0) (hc0 : chron d0.str.abs = [])
    {ops : List (Index.Op R)} {bs : List Bool} (hn : d0.L = .bsm → NoVoidBlock d0.buf.lwm ops)
    (hr : d0.run ops = .ok (d, bs)) : Segs d ops := by
  refine (grun_ind ops (fun ops d _ => Segs d ops) h0 hI hl ?_ ?_ hr).1
  · exact ⟨[], by simp, by rw [hc0]; exact .nil⟩
  · intro ops' o d d' bs b hpre hr1 hr2 hS hg hL htg him hs hsf
    have n1 := grun_net h0 hI hl ht he hb0 (fun h => (hn h).prefix ((List.prefix_append ops' [o]).trans hpre)) hr1
    have n2 := grun_net h0 hI hl ht he hb0 (fun h => (hn h).prefix hpre) hr2
    refine ⟨segs_step hg (him ▸ hI) (htg.trans ht) hs n1.2.2.1 hS, ?_⟩
    intro hbsm
    have hbinv : d'.BInv := by
      rcases n2.2.2.2.1 with hg | hg
      · exact absurd (hsf.L.trans (hL.trans hbsm)) hg.lay
      · exact hg
    rw [l0_head]
    intro ss hss s hs
    obtain ⟨x, rfl, hx⟩ := hbinv.str.l0 ss hss
    simp at hs; subst hs; exact hx

end DE
