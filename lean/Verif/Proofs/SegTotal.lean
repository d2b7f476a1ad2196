import Verif.Proofs.Segments
import Verif.Proofs.Query

/-!
When no run of whole buffer blocks nets out, no shard is ever empty and no reconstruction reads an empty shard.
-/

namespace DE
variable {R K : Type} [LinearOrder R] [LinearOrder K] [HasKey R K]

/-- Each interval of the split starts at a block boundary. -/
theorem block_at {lwm : Nat} {bs : List (List (Index.Op R))} (hd : ∀ b ∈ bs, lwm ∣ b.length) {b : List (Index.Op R)}
    (hb : b ∈ bs) (hl : b ≠ []) {ops t : List (Index.Op R)} (he : bs.flatten ++ t = ops) :
    ∃ i n, 0 < n ∧ lwm * (i + n) ≤ ops.length ∧ b = (ops.drop (lwm * i)).take (lwm * n) := by
  obtain ⟨p, q, rfl⟩ := List.append_of_mem hb
  have hp : lwm ∣ p.flatten.length := by
    have : ∀ l : List (List (Index.Op R)), (∀ b ∈ l, lwm ∣ b.length) → lwm ∣ l.flatten.length := by
      intro l
      induction l with
      | nil => intro _; simp
      | cons x l ih =>
        intro h
        rw [List.flatten_cons, List.length_append]
        exact Nat.dvd_add (h x (by simp)) (ih (fun b hb => h b (by simp [hb])))
    exact this p (fun b hb => hd b (by simp [hb]))
  obtain ⟨i, hi⟩ := hp
  obtain ⟨n, hn⟩ := hd b (by simp)
  have hbl : 0 < b.length := List.length_pos_iff.mpr hl
  refine ⟨i, n, ?_, ?_, ?_⟩
  · rcases Nat.eq_zero_or_pos n with rfl | h
    · rw [Nat.mul_zero] at hn; omega
    · exact h
  · rw [← he, Nat.mul_add, ← hi, ← hn]
    simp only [List.flatten_append, List.flatten_cons, List.length_append]
    omega
  · rw [← he, ← hi, ← hn]
    simp only [List.flatten_append, List.flatten_cons, List.append_assoc]
    rw [List.drop_left, List.take_left]

theorem holds_ne {lwm : Nat} {s : Shard R} {b : List (Index.Op R)} (h : Holds lwm s b)
    (hv : ∃ r, insCount r b ≠ delCount r b) : s.data ≠ [] := by
  intro h0
  obtain ⟨r, hr⟩ := hv
  have := h.2.2.2 r
  rw [h0] at this
  simp [ents, liveCount, tombCount] at this
  exact hr this.symm

theorem segs_ne {lwm : Nat} {xs : List (Shard R)} {bs : List (List (Index.Op R))} {ops : List (Index.Op R)}
    (hv : NoVoidRange lwm ops) (h : List.Forall₂ (Holds lwm) xs bs) (hp : bs.flatten <+: ops) : ∀ x ∈ xs, x.data ≠ [] := by
  obtain ⟨t, ht⟩ := hp
  have hd : ∀ b ∈ bs, lwm ∣ b.length ∧ b ≠ [] := by
    intro b hb
    obtain ⟨i, hi, rfl⟩ := List.mem_iff_getElem.mp hb
    have := h.get (i := i) (by rw [h.length_eq]; exact hi) hi
    exact ⟨this.2.1, this.1⟩
  intro x hx
  obtain ⟨i, hi, rfl⟩ := List.mem_iff_getElem.mp hx
  have hi' : i < bs.length := by rw [← h.length_eq]; exact hi
  have hh := h.get (i := i) hi hi'
  have hb := List.getElem_mem hi'
  obtain ⟨a, n, h1, h2, h3⟩ := block_at (fun b hb => (hd b hb).1) hb (hd _ hb).2 ht
  refine holds_ne hh ?_
  have := hv a n h1 h2
  rw [← h3] at this
  exact this

/-- A flush succeeds while no interval of the history nets out. -/
theorem segs_flush {pq : PQ R} {lb : LB R K} {d : Index R} (h : d.GInv) (hi : d.impl = sortedImpl pq lb)
    (hat : d.buf.atLwm = true) {ops : List (Index.Op R)} (hv : NoVoidRange d.buf.lwm ops) (hb : BufHist d ops)
    (hS : Segs d ops) : ∃ d', d.flush = .ok d' := by
  have hI : d.impl.Conserving := by rw [hi]; exact sortedImpl_conserving pq lb
  have hm : MergeOk d.impl (fun s => s.data ≠ []) := by
    rw [hi]; intro ss _ h
    exact sortedMerge_total h
  have hfull : d.buf.tail - d.buf.head = d.buf.lwm := by
    have := h.cnt
    simp [Buffer.atLwm, Buffer.count] at hat
    omega
  obtain ⟨s, hs⟩ : ∃ s, d.impl.build d.buf.view = .ok s := by
    rw [hi]
    exact ⟨_, by simp only [sortedImpl, sortedFromView, Buffer.view_copyOut h.wf]; rfl⟩
  obtain ⟨bs, e1, e2⟩ := hS
  have hsn : s.data ≠ [] := by
    have hh := build_holds hI h.wf h.lwm hfull hb hs
    refine holds_ne hh ?_
    obtain ⟨q, e, -⟩ := hb
    have := hv q 1 (by omega) (by rw [Nat.mul_add, Nat.mul_one]; omega)
    rw [Nat.mul_one, List.take_of_length_le (by simp; omega)] at this
    rw [show ops.length - (d.buf.tail - d.buf.head) = d.buf.lwm * q by omega]
    exact this
  have hall : ∀ {A : List (List (Shard R))} {bs : List (List (Index.Op R))},
      bs.flatten = ops.take (ops.length - (d.buf.tail - d.buf.head)) → List.Forall₂ (Holds d.buf.lwm) (chron A) bs →
      AllShards (fun s => s.data ≠ []) A := by
    intro A bs e1 e2 ss hss x hx
    exact segs_ne hv e2 (by rw [e1]; exact List.take_prefix _ _) x (mem_chron.mpr ⟨ss, hss, hx⟩)
  rcases h with h | h
  · obtain ⟨base, hspec, hor⟩ := flush_abs h hat
    rcases hor with ⟨e, h1, h2⟩ | ⟨st', h1, -⟩
    · exfalso
      have run : ∀ (k : Nat) {A : List (List (Shard R))} {bs : List (List (Index.Op R))}, RunPre d.L d.str.sf A k → Single d.L A →
          bs.flatten = ops.take (ops.length - (d.buf.tail - d.buf.head)) → List.Forall₂ (Holds d.buf.lwm) (chron A) bs →
          ∃ A', absRun d.L d.impl k A = .ok A' ∧ AllShards (fun s => s.data ≠ []) A' := by
        intro k
        induction k with
        | zero => intro A bs _ _ e1 e2; exact ⟨A, rfl, hall e1 e2⟩
        | succ k ih =>
          intro A bs hp hs1 e1 e2
          obtain ⟨A1, f1⟩ := absStep_progress hm hp.step (hall e1 e2)
          obtain ⟨cs, g1, g2⟩ := coarse_holds hI (step_coarse h.lay hp.step hs1 f1) e2
          obtain ⟨A2, f2, f3⟩ := ih (hp.next f1) (hs1.step h.lay hp.step f1) (g1.trans e1) g2
          exact ⟨A2, by rw [absRun, f1]; exact f2, f3⟩
      obtain ⟨A1, f1, f2⟩ := run base hspec.pre h.str.single e1 e2
      obtain ⟨A2, f3⟩ := absL0_progress (L := d.L) hm ⟨s, hs, hsn⟩ f2
      rw [f1] at h2
      have : absL0 d.L d.impl A1 d.buf.view = .error e := h2
      rw [f3] at this; cases this
    · exact ⟨_, h1⟩
  · obtain ⟨base, hspec, hor⟩ := bflush_abs h hat
    rcases hor with ⟨e, h1, h2⟩ | ⟨st', h1, -⟩
    · exfalso
      obtain ⟨A', f1⟩ := absB_progress hm ⟨s, hs⟩ hspec (fun ss hss => by
        obtain ⟨s, rfl, -⟩ := h.str.l0 ss hss
        simp) (hall e1 e2)
      rw [f1] at h2; cases h2
    · exact ⟨_, h1⟩

theorem NoVoidRange.prefix {lwm : Nat} {a b : List (Index.Op R)} (h : NoVoidRange lwm b) (hp : a <+: b) :
    NoVoidRange lwm a := by
  obtain ⟨t, rfl⟩ := hp
  intro i n hn hl
  obtain ⟨r, hr⟩ := h i n hn (by simp; omega)
  refine ⟨r, ?_⟩
  rw [Nat.mul_add] at hl
  rw [List.drop_append_of_le_length (by omega), List.take_append_of_le_length (by simp; omega)] at hr
  exact hr

theorem NoVoidRange.block {lwm : Nat} {a : List (Index.Op R)} (h : NoVoidRange lwm a) : NoVoidBlock lwm a := by
  intro j hj
  have := h j 1 (by omega) hj
  rwa [Nat.mul_one] at this

theorem run_snoc' : ∀ (pre : List (Index.Op R)) {o : Index.Op R} {d0 d1 d2 : Index R} {bs : List Bool} {b : Bool},
    d0.run pre = .ok (d1, bs) → d1.step o = .ok (d2, b) → d0.run (pre ++ [o]) = .ok (d2, bs ++ [b])
  | [], _, _, _, d2, _, b, h1, h2 => by
    cases h1
    exact run_cons.mpr ⟨d2, b, [], h2, rfl, rfl⟩
  | p :: pre, _, _, _, _, _, b, h1, h2 => by
    obtain ⟨d3, b3, bs3, e1, e2, rfl⟩ := run_cons.mp h1
    exact run_cons.mpr ⟨d3, b3, bs3 ++ [b], e1, run_snoc' pre e2 h2, rfl⟩

/-- Every operation of a history without void ranges succeeds. -/
theorem segs_total [Inhabited R] {L : Layout} {pq : PQ R} {lb : LB R K} {lwm hwm sf : Nat} {d0 : Index R}
    (hnew : Index.new L false (sortedImpl pq lb) lwm hwm sf = .ok d0) (hlwm : 1 ≤ lwm) (hsf : 1 ≤ sf)
    {ops : List (Index.Op R)} (hv : NoVoidRange lwm ops) :
    ∃ d, d0.run ops = .ok (d, List.replicate ops.length true) ∧ d.GInv ∧ BufHist d ops ∧ Segs d ops ∧ d.buf.lwm = lwm := by
  obtain ⟨h1, h2, h3, h4, h5, h6⟩ := new_ginv hnew hlwm hsf
  obtain ⟨hd, -⟩ := new_ok hnew
  have hI : d0.impl.Conserving := h4 ▸ sortedImpl_conserving pq lb
  have hlk : d0.impl.LookupSound := h4 ▸ sortedImpl_lookupSound pq lb
  have hb0 : d0.buf.tail - d0.buf.head = 0 := by rw [hd]; rfl
  have hl0 : d0.buf.lwm = lwm := by rw [hd]
  have hc0 : chron d0.str.abs = [] := by rw [hd]; rfl
  have key : ∀ {pre : List (Index.Op R)} {d : Index R} {bs : List Bool}, pre <+: ops → d0.run pre = .ok (d, bs) →
      d.GInv ∧ BufHist d pre ∧ Segs d pre ∧ d.buf.lwm = lwm := by
    intro pre d bs hp hr
    have hn : d0.L = .bsm → NoVoidBlock d0.buf.lwm pre := fun _ => by rw [hl0]; exact (hv.prefix hp).block
    have n := grun_net h1 hI hlk h3 h5 hb0 hn hr
    exact ⟨n.2.2.2.1, n.2.2.1, segs_run h1 hI hlk h3 h5 hb0 hc0 hn hr, n.2.2.2.2.trans hl0⟩
  suffices H : ∀ pre, pre <+: ops → ∃ d, d0.run pre = .ok (d, List.replicate pre.length true) by
    obtain ⟨d, hr⟩ := H ops (List.prefix_refl _)
    exact ⟨d, hr, key (List.prefix_refl _) hr⟩
  intro pre
  induction pre using List.reverseRecOn with
  | nil => intro _; exact ⟨d0, rfl⟩
  | append_singleton pre o ih =>
    intro hp
    have hp' : pre <+: ops := (List.prefix_append pre [o]).trans hp
    obtain ⟨d, hr⟩ := ih hp'
    obtain ⟨g1, g2, g3, g4⟩ := key hp' hr
    obtain ⟨hL, him, htg⟩ : d.L = d0.L ∧ d.impl = d0.impl ∧ d.tagging = d0.tagging := by
      obtain ⟨-, a, b, c, -⟩ := run_buf pre (new_buf hnew hlwm) hr
      exact ⟨a, c, b⟩
    have hia : ∃ d', d.internalAppend (opEntry o).record (opEntry o).tomb = .ok (d', true) := by
      have hex : ∃ d' b, d.internalAppend (opEntry o).record (opEntry o).tomb = .ok (d', b) := by
        unfold Index.internalAppend
        by_cases hat : d.buf.atLwm = true
        · obtain ⟨d1, f⟩ := segs_flush g1 (him.trans h4) hat (by rw [g4]; exact hv.prefix hp') g2 g3
          rw [if_pos hat, f]; exact ⟨_, _, rfl⟩
        · rw [if_neg hat]; exact ⟨_, _, rfl⟩
      obtain ⟨d', b, hs⟩ := hex
      obtain ⟨rfl, -⟩ := gappend_ok g1 (by rw [him]; exact hI) hs
      exact ⟨d', hs⟩
    obtain ⟨d', hs⟩ := hia
    have hst : d.step o = .ok (d', true) := by
      cases o with
      | ins r => exact hs
      | del r =>
        simp only [Index.step, Index.erase, htg.trans h3, Bool.false_eq_true, if_false]
        exact hs
    refine ⟨d', ?_⟩
    have := run_snoc' pre hr hst
    simpa [List.replicate_succ'] using this

end DE
