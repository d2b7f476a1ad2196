import Verif.Model.OwnShardTests
import Verif.Proofs.BufferRun
import Verif.Proofs.LearnedBuild
import Verif.Proofs.Pair

/-!
Buffers and shards of the project's own shard tests.
-/

namespace DE.Own
variable {R K : Type} [LinearOrder R] [LinearOrder K] [HasKey R K]

theorem foldl_runBuf (items : List (R × Bool)) (b : Buffer R) :
    runBuf b (items.map (fun p => .app p.1 p.2)) = .ok (items.foldl (fun b p => (b.append p.1 p.2).1) b) := by
  induction items generalizing b with
  | nil => rfl
  | cons p ps ih => exact ih _

omit [LinearOrder R] [LinearOrder K] [HasKey R K] in
theorem foldl_contents : ∀ (items : List (R × Bool)) {b : Buffer R}, b.WF → b.tail - b.head + items.length ≤ b.hwm →
    (items.foldl (fun b p => (b.append p.1 p.2).1) b).WF ∧
    (items.foldl (fun b p => (b.append p.1 p.2).1) b).head = b.head ∧
    (items.foldl (fun b p => (b.append p.1 p.2).1) b).hwm = b.hwm ∧
    (items.foldl (fun b p => (b.append p.1 p.2).1) b).contents.map Wrapped.entry =
      b.contents.map Wrapped.entry ++ items.map (fun p => ⟨p.1, p.2, false⟩)
  | [], b, hb, _ => ⟨hb, rfl, rfl, by simp⟩
  | p :: ps, b, hb, hl => by
    simp only [List.length_cons] at hl
    have hf : b.tail - b.head < b.hwm := by omega
    obtain ⟨-, h2, h3⟩ := Buffer.append_ok hb (r := p.1) (ts := p.2) hf
    have e : (b.append p.1 p.2).1.tail = b.tail + 1 ∧ (b.append p.1 p.2).1.head = b.head ∧ (b.append p.1 p.2).1.hwm = b.hwm := by
      unfold Buffer.append; rw [if_neg (by omega)]; exact ⟨rfl, rfl, rfl⟩
    have := hb.ht
    obtain ⟨g1, g2, g3, g4⟩ := foldl_contents ps h2 (by rw [e.1, e.2.1, e.2.2]; omega)
    rw [List.foldl_cons]
    refine ⟨g1, g2.trans e.2.1, g3.trans e.2.2, ?_⟩
    rw [g4, h3]
    simp [entryAt_entry]

theorem fill_spec [Inhabited R] {items : List (R × Bool)} (h0 : items ≠ []) (h1 : items.length ≤ 2 ^ 28) :
    ∃ b, fill items = .ok b ∧ b.WF ∧ b.contents.map Wrapped.entry = items.map (fun p => ⟨p.1, p.2, false⟩) ∧
      b.contents.Pairwise (fun a b => a.getTimestamp < b.getTimestamp) := by
  have hpos := List.length_pos_iff.mpr h0
  have hnew : Buffer.new (R := R) (items.length / 2) items.length =
      .ok ⟨items.length / 2, items.length, 2 * items.length, 0, 0, fun _ => default, 0⟩ := by
    unfold Buffer.new
    rw [bind_ok]
    refine ⟨(), assertC_ok.mpr (by simp; omega), ?_⟩
    rw [bind_ok]
    exact ⟨(), assertC_ok.mpr (by simp; omega), rfl⟩
  set b0 : Buffer R := ⟨items.length / 2, items.length, 2 * items.length, 0, 0, fun _ => default, 0⟩ with hb0
  have hwf0 : b0.WF := ⟨rfl, by simp only [hb0]; omega, by simp only [hb0]; omega, le_refl _, by simp [hb0],
    by simp [Buffer.contents, hb0]⟩
  obtain ⟨g1, g2, g3, g4⟩ := foldl_contents items hwf0 (by simp [hb0])
  obtain ⟨t1, t2⟩ := runBuf_ts (items.map (fun p => .app p.1 p.2)) hwf0 (by simp only [hb0]; omega)
    (fun i hi => by simp [hb0] at hi) (foldl_runBuf items b0)
  refine ⟨_, ?_, g1, ?_, ?_⟩
  · unfold fill
    rw [bind_ok]
    exact ⟨b0, hnew, rfl⟩
  · rw [g4]; simp [Buffer.contents, hb0]
  · refine slotTs_pairwise g1 t1 ?_
    rw [g2, t2]
    have := g1.cnt
    rw [g3] at this
    rw [g2] at this
    simp only [hb0, Nat.zero_mod] at this ⊢
    omega

theorem shardOf_eq [Inhabited R] {items : List (R × Bool)} {b : Buffer R} (hf : fill items = .ok b) (hb : b.WF) :
    shardOf items = .ok ⟨scanSorted (sortW b.contents), tsCount (scanSorted (sortW b.contents))⟩ := by
  unfold shardOf sortedFromView
  rw [hf]
  show (do let l ← b.view.copyOut; _) = _
  rw [Buffer.view_copyOut hb]
  rfl

omit [LinearOrder K] [HasKey R K] in
/-- A buffer of untagged entries of one kind is stored completely. -/
theorem scanSorted_uniform (ts : Bool) : ∀ l : List (Wrapped R), (∀ w ∈ l, w.isTombstone = ts ∧ w.isDeleted = false) →
    scanSorted l = l.map Wrapped.mask
  | [], _ => rfl
  | [b], h => by rw [scanSorted]; simp [(h b (by simp)).2]
  | b :: c :: rest, h => by
    have hn : cancels b c = false := by
      have h1 := (h b (by simp)).1
      have h2 := (h c (by simp)).1
      cases ts <;> simp [cancels, h1, h2]
    rw [scanSorted, if_neg (by simp [hn]), if_neg (by simp [(h b (by simp)).2]),
      scanSorted_uniform ts (c :: rest) (fun w hw => h w (List.mem_cons_of_mem _ hw))]
    rfl

/-- The header a shard stores for an untagged entry. -/
def hdr (ts : Bool) : BitVec 32 := if ts then 1#32 else 0#32

omit [LinearOrder R] in
theorem mask_hdr {w : Wrapped R} {r : R} {ts : Bool} (h : w.entry = ⟨r, ts, false⟩) : w.mask = ⟨hdr ts, r⟩ := by
  obtain ⟨x, r'⟩ := w
  simp only [Wrapped.entry, Entry.mk.injEq, Wrapped.isTombstone, Wrapped.isDeleted] at h
  obtain ⟨rfl, h1, h2⟩ := h
  have h2' : x &&& 2#32 = 0#32 := by simpa using h2
  have e : x &&& 3#32 = x &&& 1#32 := by
    rw [show (3#32) = 1#32 ||| 2#32 by decide, BitVec.and_or_distrib_left, h2']
    simp
  unfold Wrapped.mask hdr
  simp only [e, Wrapped.mk.injEq, and_true]
  rw [BitVec.and_one_eq_setWidth_ofBool_getLsbD] at h1 ⊢
  subst h1
  cases x.getLsbD 0 <;> decide

theorem shardOf_uniform [Inhabited R] {xs : List R} (ts : Bool) (h0 : xs ≠ []) (h1 : xs.length ≤ 2 ^ 28) :
    ∃ s, shardOf (xs.map (·, ts)) = .ok s ∧ s.data = (recs s).map (fun r => ⟨hdr ts, r⟩) ∧ (recs s).Perm xs ∧
      (recs s).Pairwise (· ≤ ·) ∧ s.tscnt = (if ts then xs.length else 0) := by
  obtain ⟨b, hf, hb, hc, -⟩ := fill_spec (items := xs.map (·, ts)) (by simpa using h0) (by simpa using h1)
  have he : ∀ w ∈ sortW b.contents, w.entry = ⟨w.record, ts, false⟩ := by
    intro w hw
    have : w.entry ∈ b.contents.map Wrapped.entry := List.mem_map_of_mem ((sortW_perm _).mem_iff.mp hw)
    rw [hc, List.map_map] at this
    obtain ⟨x, -, hx⟩ := List.mem_map.mp this
    have hr : w.record = x := by have := congrArg Entry.record hx; exact this.symm
    rw [← hx, hr]; rfl
  have hs : scanSorted (sortW b.contents) = (sortW b.contents).map Wrapped.mask :=
    scanSorted_uniform ts _ (fun w hw => by have := he w hw; simp only [Wrapped.entry, Entry.mk.injEq, true_and] at this; exact this)
  have hm : (sortW b.contents).map Wrapped.mask = (sortW b.contents).map (fun w => (⟨hdr ts, w.record⟩ : Wrapped R)) :=
    List.map_congr_left (fun w hw => mask_hdr (he w hw))
  have hrec : recs (⟨scanSorted (sortW b.contents), tsCount (scanSorted (sortW b.contents))⟩ : Shard R) =
      (sortW b.contents).map Wrapped.record := by
    simp only [recs, hs, List.map_map]; rfl
  have hxs : b.contents.map Wrapped.record = xs := by
    have := congrArg (List.map Entry.record) hc
    simpa [List.map_map, Function.comp_def, Wrapped.entry] using this
  refine ⟨_, shardOf_eq hf hb, ?_, ?_, ?_, ?_⟩
  · rw [hrec, List.map_map]; simp only; rw [hs, hm]; rfl
  · rw [hrec, ← hxs]; exact (sortW_perm _).map _
  · rw [hrec, List.pairwise_map]; exact sortW_recSorted _
  · simp only
    rw [hs, hm, tsCount, List.countP_map]
    have hlen : (sortW b.contents).length = xs.length := by
      rw [(sortW_perm _).length_eq, ← hxs, List.length_map]
    cases ts
    · simp [Function.comp_def, Wrapped.isTombstone, hdr]
    · simp [Function.comp_def, Wrapped.isTombstone, hdr, hlen]

omit [LinearOrder K] [HasKey R K] in
/-- The greedy matching of `t_shard_init` succeeds on sorted inputs and any sorted arrangement of all their records. -/
theorem matchLoop_ok : ∀ (cs xs ys zs : List R), cs.Pairwise (· ≤ ·) → xs.Pairwise (· ≤ ·) → ys.Pairwise (· ≤ ·) →
    zs.Pairwise (· ≤ ·) → cs.Perm (xs ++ ys ++ zs) → matchLoop cs xs ys zs = true
  | [], _, _, _, _, _, _, _, _ => rfl
  | c :: cs, xs, ys, zs, hc, hx, hy, hz, hp => by
    have hmin : ∀ a ∈ xs ++ ys ++ zs, c ≤ a := by
      intro a ha
      rcases List.mem_cons.mp (hp.mem_iff.mpr ha) with rfl | h
      · exact le_refl _
      · exact (List.pairwise_cons.mp hc).1 a h
    have hmem : c ∈ xs ++ ys ++ zs := hp.mem_iff.mp (by simp)
    have hhead : ∀ l : List R, l.Pairwise (· ≤ ·) → (∀ a ∈ l, c ≤ a) → c ∈ l → l.head? = some c := by
      intro l hl hm hcl
      cases l with
      | nil => simp at hcl
      | cons a l =>
        rcases List.mem_cons.mp hcl with rfl | h
        · rfl
        · rw [List.head?_cons, le_antisymm ((List.pairwise_cons.mp hl).1 c h) (hm a (by simp))]
    rw [matchLoop]
    have htail : ∀ l : List R, l.head? = some c → l = c :: l.tail := by
      intro l hl
      cases l with
      | nil => simp at hl
      | cons a l => simp at hl; simp [hl]
    have hpt : ∀ l : List R, l.Pairwise (· ≤ ·) → l.tail.Pairwise (· ≤ ·) := fun l hl => hl.sublist (List.tail_sublist l)
    split
    · next h =>
      refine matchLoop_ok cs xs.tail ys zs (List.pairwise_cons.mp hc).2 (hpt _ hx) hy hz ?_
      rw [htail xs h] at hp
      exact List.Perm.cons_inv (a := c) hp
    · next h =>
      split
      · next h' =>
        refine matchLoop_ok cs xs ys.tail zs (List.pairwise_cons.mp hc).2 hx (hpt _ hy) hz ?_
        rw [htail ys h'] at hp
        refine List.Perm.cons_inv (hp.trans ?_)
        simp only [List.append_assoc, List.cons_append]
        exact List.perm_middle
      · next h' =>
        have hz' : zs.head? = some c := by
          refine hhead zs hz (fun a ha => hmin a (by simp [ha])) ?_
          rcases List.mem_append.mp hmem with hm | hm
          · rcases List.mem_append.mp hm with hm | hm
            · exact absurd (hhead xs hx (fun a ha => hmin a (by simp [ha])) hm) h
            · exact absurd (hhead ys hy (fun a ha => hmin a (by simp [ha])) hm) h'
          · exact hm
        rw [if_pos hz']
        refine matchLoop_ok cs xs ys zs.tail (List.pairwise_cons.mp hc).2 hx hy (hpt _ hz) ?_
        rw [htail zs hz'] at hp
        exact List.Perm.cons_inv (hp.trans List.perm_middle)

/-- A queue that, of two equal records in cursors 0 and 1, a live one and a tombstone, yields the live one first. -/
def LiveFirst (pq : PQ R) : Prop := ∀ t r, pq.arrange t [(⟨hdr false, r⟩, 0), (⟨hdr true, r⟩, 1)] =
  [(⟨hdr false, r⟩, 0), (⟨hdr true, r⟩, 1)]

omit [LinearOrder R] in
theorem pair_perm {α : Type} {a b : α} {l : List α} (h : l.Perm [a, b]) : l = [a, b] ∨ l = [b, a] := by
  have hl := h.length_eq
  match l, hl with
  | [x, y], _ =>
    have hx : x ∈ [a, b] := h.mem_iff.mp (by simp)
    simp at hx
    rcases hx with rfl | rfl
    · left
      have : [y].Perm [b] := List.Perm.cons_inv h
      simpa using this
    · right
      have : [y].Perm [a] := List.Perm.cons_inv (h.trans (List.Perm.swap _ _ _))
      simpa using this

omit [LinearOrder K] [HasKey R K] in
theorem liveFirst_wrapped {pq : PQ R} (h : pq.ByWrapped) : LiveFirst pq := by
  intro t r
  rcases pair_perm (pq.perm t [(⟨hdr false, r⟩, 0), (⟨hdr true, r⟩, 1)]) with e | e
  · exact e
  · exfalso
    have := h t [(⟨hdr false, r⟩, 0), (⟨hdr true, r⟩, 1)]
    rw [e] at this
    have := (List.pairwise_cons.mp this).1 _ (List.mem_singleton.mpr rfl)
    simp [Wrapped.lt, hdr] at this

omit [LinearOrder K] [HasKey R K] in
theorem liveFirst_version {pq : PQ R} (h : pq.ByVersion) : LiveFirst pq := by
  intro t r
  rcases pair_perm (pq.perm t [(⟨hdr false, r⟩, 0), (⟨hdr true, r⟩, 1)]) with e | e
  · exact e
  · exfalso
    have := h t [(⟨hdr false, r⟩, 0), (⟨hdr true, r⟩, 1)]
    rw [e] at this
    have := (List.pairwise_cons.mp this).1 _ (List.mem_singleton.mpr rfl)
    simp at this

omit [LinearOrder K] [HasKey R K] in
theorem mergeLoop_cancel {pq : PQ R} (h : LiveFirst pq) (keep : Wrapped R → Bool) : ∀ (n : Nat) (l : List R),
    mergeLoop pq keep n [l.map (fun r => ⟨hdr false, r⟩), l.map (fun r => ⟨hdr true, r⟩)] = []
  | 0, _ => rfl
  | n+1, [] => by
    rw [mergeLoop]
    have : pq.arrange n (heads 0 [([] : List R).map (fun r => (⟨hdr false, r⟩ : Wrapped R)), ([] : List R).map (fun r => ⟨hdr true, r⟩)]) = [] :=
      List.Perm.eq_nil (pq.perm n [])
    rw [this]
  | n+1, r :: l => by
    rw [mergeLoop]
    have : pq.arrange n (heads 0 [(r :: l).map (fun r => (⟨hdr false, r⟩ : Wrapped R)), (r :: l).map (fun r => ⟨hdr true, r⟩)]) =
      [(⟨hdr false, r⟩, 0), (⟨hdr true, r⟩, 1)] := h n r
    rw [this]
    simp only
    rw [if_pos (by simp [cancels, Wrapped.isTombstone, hdr])]
    exact mergeLoop_cancel h keep n l

theorem mbufferInit_spec [Inhabited R] {as ts bs : List R} (hl : (as ++ ts ++ bs).length ≤ 2 ^ 28) (hne : as ++ ts ++ bs ≠ [])
    (ht : ts.Nodup) (ha : ∀ t ∈ ts, as.count t = 1 ∧ t ∉ bs) :
    ∃ s, mbufferInit as ts bs = .ok s ∧ (recs s).Perm (as.filter (fun r => decide (r ∉ ts)) ++ bs) ∧ s.tscnt = 0 := by
  obtain ⟨b, hf, hb, hc, hts⟩ := fill_spec (items := as.map (·, false) ++ ts.map (·, true) ++ bs.map (·, false))
    (by simpa using hne) (by simpa using hl)
  have hv := Buffer.view_copyOut hb
  set s : Shard R := ⟨scanSorted (sortW b.contents), tsCount (scanSorted (sortW b.contents))⟩ with hs
  have hok : shardOf (as.map (·, false) ++ ts.map (·, true) ++ bs.map (·, false)) = .ok s := shardOf_eq hf hb
  have hok' : sortedFromView b.view = .ok s := by
    unfold shardOf at hok; rw [hf] at hok; exact hok
  have hents : ents b.contents = (((as.map (·, false) ++ ts.map (·, true) ++ bs.map (·, false)).map
      (fun p => (⟨p.1, p.2, false⟩ : Entry R)) : List (Entry R)) : Multiset (Entry R)) := by
    unfold ents; rw [hc]
  have hred : Reduces (fun e => e.del = true) (ents b.contents) (ents s.data) := by
    have := scanSorted_reduces (sortW b.contents)
    rwa [show ents (sortW b.contents) = ents b.contents from Multiset.coe_eq_coe.mpr ((sortW_perm _).map _)] at this
  have hgone : ∀ t ∈ ts, ∀ w ∈ s.data, w.record ≠ t := by
    intro t htm
    refine build_alt hv hts ?_ hok'
    have e1 : (ofRec t b.contents).map Wrapped.entry = [⟨t, false, false⟩, ⟨t, true, false⟩] := by
      have : (ofRec t b.contents).map Wrapped.entry = (b.contents.map Wrapped.entry).filter (fun e => decide (e.record = t)) := by
        unfold ofRec; rw [List.filter_map]; rfl
      rw [this, hc]
      have f1 : ∀ (l : List R) (q : Bool), ((l.map (·, q)).map (fun p => (⟨p.1, p.2, false⟩ : Entry R))).filter (fun e => decide (e.record = t)) =
          List.replicate (l.count t) ⟨t, q, false⟩ := by
        intro l q
        induction l with
        | nil => rfl
        | cons x l ih =>
          rw [List.map_cons, List.map_cons, List.filter_cons, ih, List.count_cons]
          by_cases hx : x = t
          · simp [hx, List.replicate_succ]
          · simp [hx]
      rw [List.map_append, List.map_append, List.filter_append, List.filter_append, f1, f1, f1, (ha t htm).1,
        List.count_eq_one_of_mem ht htm, List.count_eq_zero_of_not_mem (ha t htm).2]
      rfl
    generalize ofRec t b.contents = l at e1
    match l, e1 with
    | [], e1 => simp at e1
    | [x], e1 => simp at e1
    | x :: y :: z :: l, e1 => simp at e1
    | [x, y], e1 =>
      simp only [List.map_cons, List.map_nil, List.cons.injEq, Wrapped.entry, Entry.mk.injEq, and_true] at e1
      exact .cons e1.1.2.1 e1.2.2.1 .nil
  have hmem : ∀ e ∈ ents b.contents, e.del = false ∧ (e.tomb = true → e.record ∈ ts) := by
    intro e he
    rw [hents] at he
    simp only [List.map_append, List.map_map, Multiset.mem_coe, List.mem_append, List.mem_map, Function.comp] at he
    rcases he with (⟨x, hx, rfl⟩ | ⟨x, hx, rfl⟩) | ⟨x, hx, rfl⟩ <;> simp [hx]
  have hsub : ∀ e ∈ ents s.data, e ∈ ents b.contents := by
    intro e he
    obtain ⟨cl, ct, dr, e1, -⟩ := hred
    rw [e1]; simp [he]
  have hno : ∀ e ∈ ents s.data, e.tomb = false := by
    intro e he
    by_contra h
    have := (hmem e (hsub e he)).2 (by simpa using h)
    obtain ⟨w, hw, rfl⟩ := mem_ents.mp he
    exact hgone _ this w hw rfl
  refine ⟨s, hok, ?_, ?_⟩
  · rw [List.perm_iff_count]
    intro r
    have h1 : (recs s).count r = liveCount r (ents s.data) := by
      rw [liveCount_eq_count r hno]
      simp only [ents, Multiset.map_coe, Multiset.coe_count, List.map_map]
      rfl
    rw [h1, List.count_append]
    by_cases hr : r ∈ ts
    · have z : liveCount r (ents s.data) = 0 := by
        unfold liveCount
        rw [Multiset.countP_eq_zero]
        rintro e he ⟨hre, -⟩
        obtain ⟨w, hw, rfl⟩ := mem_ents.mp he
        exact hgone r hr w hw hre
      rw [z, List.count_eq_zero_of_not_mem (ha r hr).2, List.count_eq_zero_of_not_mem]
      simp [hr]
    · have hnet := hred.net r (fun e he h => by simp [(hmem e he).1] at h)
      have z1 : tombCount r (ents s.data) = 0 := tombCount_zero_of_live r hno
      have z2 : tombCount r (ents b.contents) = 0 := by
        unfold tombCount
        rw [Multiset.countP_eq_zero]
        rintro e he ⟨hre, hte⟩
        exact hr (hre ▸ (hmem e he).2 hte)
      have hlive : liveCount r (ents b.contents) = as.count r + bs.count r := by
        rw [hents]
        unfold liveCount
        have g : ∀ (l : List R) (q : Bool), ((l.map (·, q)).map (fun p => (⟨p.1, p.2, false⟩ : Entry R))).countP
            (fun e => decide (e.record = r ∧ e.tomb = false)) = if q then 0 else l.count r := by
          intro l q
          rw [List.map_map, List.countP_map]
          cases q
          · simp only [Function.comp_def, and_true, Bool.false_eq_true, if_false, List.count]
            exact List.countP_congr (fun x _ => by simp)
          · simp [Function.comp_def]
        rw [Multiset.coe_countP, List.map_append, List.map_append, List.countP_append, List.countP_append, g, g, g]
        simp
      rw [List.count_filter (by simpa using hr)]
      omega
  · show tsCount s.data = 0
    unfold tsCount
    rw [List.countP_eq_zero]
    intro w hw
    have := hno w.entry (mem_ents.mpr ⟨w, hw, rfl⟩)
    simpa [Wrapped.entry] using this

end DE.Own
