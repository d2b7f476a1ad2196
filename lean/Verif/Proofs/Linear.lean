import Verif.Proofs.Serial

/-!
A flush consumes every shard at most once: the new bag of shards arises from the old one and the freshly built shard by
replacing groups of shards by their merge (and forgetting shards without records).
-/

namespace DE
variable {R : Type}

/-- Bags of shards reachable by merging groups and forgetting empty shards. -/
inductive Lin (I : ShardImpl R) (A : Multiset (Shard R)) : Multiset (Shard R) → Prop
  | refl : Lin I A A
  | merge {ss : List (Shard R)} {rest : Multiset (Shard R)} {m : Shard R} : Lin I A (rest + (ss : Multiset (Shard R))) →
      I.merge (ss.map some) = .ok m → Lin I A (rest + {m})
  | forget {s : Shard R} {rest : Multiset (Shard R)} : Lin I A (rest + {s}) → s.data = [] → Lin I A rest

variable {I : ShardImpl R}

theorem Lin.trans {A B C : Multiset (Shard R)} (h1 : Lin I A B) (h2 : Lin I B C) : Lin I A C := by
  induction h2 with
  | refl => exact h1
  | merge _ hm ih => exact ih.merge hm
  | forget _ hd ih => exact ih.forget hd

theorem Lin.add {A B : Multiset (Shard R)} (h : Lin I A B) (C : Multiset (Shard R)) : Lin I (A + C) (B + C) := by
  induction h with
  | refl => exact .refl
  | @merge ss rest m _ hm ih =>
    rw [add_right_comm] at ih ⊢
    exact ih.merge hm
  | @forget s rest _ hd ih =>
    rw [add_right_comm] at ih
    exact ih.forget hd

/-- All shards, as a bag. -/
def bag (A : List (List (Shard R))) : Multiset (Shard R) := (A.map Multiset.ofList).sum

theorem bag_flatten (A : List (List (Shard R))) : bag A = (A.flatten : Multiset (Shard R)) := by
  induction A with
  | nil => rfl
  | cons a A ih =>
    have : bag (a :: A) = (a : Multiset (Shard R)) + bag A := by simp [bag]
    rw [this, ih, List.flatten_cons, Multiset.coe_add]

theorem bag_cons (a : List (Shard R)) (A : List (List (Shard R))) : bag (a :: A) = (a : Multiset (Shard R)) + bag A := by simp [bag]
theorem bag_append (A B : List (List (Shard R))) : bag (A ++ B) = bag A + bag B := by simp [bag]

theorem visible_bag (st : Struct R) : bag st.abs = (st.visible : Multiset (Shard R)) := by rw [bag_flatten, visible_abs]

theorem absComb_lin {L : Layout} (hL : L ≠ .bsm) {dst src nd : List (Shard R)} (h : absComb L I dst src = .ok nd)
    (h1 : L = .leveling → dst.length ≤ 1 ∧ src.length ≤ 1) (hs : src ≠ []) (rest : Multiset (Shard R)) :
    Lin I (rest + dst + src) (rest + nd) := by
  rcases absComb_cases hL h h1 hs with ⟨-, rfl, rfl⟩ | ⟨-, m, hm, rfl, -⟩ | ⟨-, m, hm, rfl⟩
  · simp; exact .refl
  · refine Lin.merge (ss := dst ++ src) ?_ hm
    rw [← Multiset.coe_add, ← add_assoc]; exact .refl
  · have := Lin.merge (I := I) (A := rest + dst + src) (rest := rest + dst) .refl hm
    rw [← Multiset.coe_add, ← add_assoc]; exact this

theorem absRun_lin {L : Layout} (hL : L ≠ .bsm) {sf : Nat} : ∀ (base : Nat) {A A' : List (List (Shard R))},
    RunPre L sf A base → Single L A → absRun L I base A = .ok A' → Lin I (bag A) (bag A') ∧ Single L A'
  | 0, A, A', _, h1, h => by cases h; exact ⟨.refl, h1⟩
  | k+1, A, A', hp, h1, h => by
    rw [absRun, bind_ok] at h
    obtain ⟨A1, e1, e2⟩ := h
    obtain ⟨dst, src, nd, hs, hne, hn, hor, hdl, -, -, -, hsum⟩ := absStep_facts hp.step e1 h1
    obtain ⟨rest, s1, s2⟩ := hsum Multiset.ofList rfl
    obtain ⟨r1, r2⟩ := absRun_lin hL k (hp.next e1) (h1.step hL hp.step e1) e2
    refine ⟨Lin.trans ?_ r1, r2⟩
    unfold bag
    rw [s1, s2]
    exact absComb_lin hL hn hdl hne rest

theorem absL0_lin {L : Layout} (hL : L ≠ .bsm) {A A' : List (List (Shard R))} {v : View R} (h1 : Single L A)
    (h : absL0 L I A v = .ok A') : ∃ s, I.build v = .ok s ∧ Lin I (bag A + {s}) (bag A') := by
  obtain ⟨old, n, ho, hn, rfl, hor⟩ := absL0_ok h
  have hol : L = .leveling → old.length ≤ 1 := by
    intro hlv
    rcases hor with ⟨rfl, -⟩ | hor
    · simp
    · exact h1 hlv _ (mem_of_getElem? hor)
  obtain ⟨rest, s1, s2⟩ := sum_set Multiset.ofList ho
  obtain ⟨s, hs, hc⟩ := absNew0_cases hL hn hol
  refine ⟨s, hs, ?_⟩
  unfold bag
  rw [← withL0_sum Multiset.ofList rfl, s1, s2]
  rcases hc with ⟨-, rfl, rfl⟩ | ⟨-, m, hm, rfl, -⟩ | ⟨-, rfl⟩
  · simp; exact .refl
  · refine Lin.merge (ss := old ++ [s]) ?_ hm
    rw [← Multiset.coe_add, ← add_assoc]; exact .refl
  · rw [← Multiset.coe_add, ← add_assoc]; exact .refl

theorem recs_zero {ss : List (Shard R)} (h : recs ss = 0) : ∀ s ∈ ss, s.data = [] := by
  induction ss with
  | nil => simp
  | cons x ss ih =>
    have e : recs (x :: ss) = x.data.length + recs ss := by simp [recs]
    rw [e] at h
    intro s hs
    rcases List.mem_cons.mp hs with rfl | hs
    · exact List.eq_nil_of_length_eq_zero (by omega)
    · exact ih (by omega) s hs

theorem lin_forget_all {ss : List (Shard R)} (h : ∀ s ∈ ss, s.data = []) (rest : Multiset (Shard R)) :
    Lin I (rest + ss) rest := by
  induction ss generalizing rest with
  | nil => simp; exact .refl
  | cons s ss ih =>
    have e : rest + ((s :: ss : List (Shard R)) : Multiset (Shard R)) = rest + {s} + ss := by
      rw [← Multiset.cons_coe, ← Multiset.singleton_add, add_assoc]
    rw [e]
    exact (ih (fun x hx => h x (by simp [hx])) (rest + {s})).forget (h s (by simp))

theorem bag_nil_levels {A : List (List (Shard R))} (h : ∀ a ∈ A, a = []) : bag A = 0 := by
  induction A with
  | nil => rfl
  | cons a A ih => rw [bag_cons, h a (by simp), ih (fun b hb => h b (by simp [hb]))]; rfl

theorem absB_lin {A A' : List (List (Shard R))} {base : Nat} {v : View R} (hb : A ≠ [] → BaseSpec A base) (h : absB I A base v = .ok A') :
    ∃ s, I.build v = .ok s ∧ Lin I (bag A + {s}) (bag A') := by
  obtain ⟨s, hs, hor⟩ := absB_ok h
  refine ⟨s, hs, ?_⟩
  rcases hor with ⟨rfl, rfl⟩ | ⟨hne, m, hm, rfl⟩
  · simp [bag]; exact .refl
  · have hspec := hb hne
    obtain ⟨b, rfl⟩ : ∃ b, base = b + 1 := ⟨base - 1, by have := hspec.pos; omega⟩
    have e1 : bag ((bsmMid A (b+1) m).set 0 [s]) = {s} + ({m} + bag (A.drop (b+1+1))) := by
      unfold bsmMid
      rw [List.replicate_succ, List.cons_append, List.set_cons_zero, bag_cons, bag_append, bag_cons,
        bag_nil_levels (A := List.replicate b []) (by simp)]
      simp
    have e2 : bag A = (((A.take (b+1)).reverse.flatten : List (Shard R)) : Multiset (Shard R)) + bag (A.drop (b+1)) := by
      have : bag A = bag (A.take (b+1)) + bag (A.drop (b+1)) := by rw [← bag_append, List.take_append_drop]
      rw [this, bag_flatten (A.take _)]
      congr 1
      rw [Multiset.coe_eq_coe]
      exact ((List.reverse_perm _).flatten).symm
    rw [e1, e2]
    have h1 : Lin I ((((A.take (b+1)).reverse.flatten : List (Shard R)) : Multiset (Shard R)) + bag (A.drop (b+1)) + {s})
        (bag (A.drop (b+1)) + {s} + {m}) := by
      refine Lin.merge ?_ hm
      rw [add_comm (bag _ + {s}), ← add_assoc]
      exact .refl
    refine h1.trans ?_
    by_cases hlen : b + 1 < A.length
    · have hz := hspec.free hlen
      unfold absZero at hz
      rw [List.getElem?_eq_getElem hlen] at hz
      simp only [decide_eq_true_eq] at hz
      rw [List.drop_eq_getElem_cons hlen, bag_cons]
      have := lin_forget_all (I := I) (recs_zero hz) ({s} + ({m} + bag (A.drop (b+1+1))))
      have e3 : ((A[b+1] : List (Shard R)) : Multiset (Shard R)) + bag (A.drop (b+1+1)) + {s} + {m} =
          {s} + ({m} + bag (A.drop (b+1+1))) + (A[b+1] : List (Shard R)) := by abel
      rw [e3]; exact this
    · rw [List.drop_of_length_le (by omega), List.drop_of_length_le (by omega)]
      have : bag ([] : List (List (Shard R))) = 0 := rfl
      rw [this]; simp; exact .refl

/-- A flush, as a linear rewriting of the bag of shards. -/
theorem gflush_lin {d d' : Index R} (h : d.GInv) (hat : d.buf.atLwm = true) (hf : d.flush = .ok d') :
    ∃ s, d.impl.build d.buf.view = .ok s ∧ Lin d.impl ((d.str.visible : Multiset (Shard R)) + {s}) d'.str.visible := by
  rcases h with h | h
  · obtain ⟨base, hspec, hor⟩ := flush_abs h hat
    rcases hor with ⟨e, h1, -⟩ | ⟨st', h1, h2, -⟩
    · rw [h1] at hf; cases hf
    · rw [h1] at hf
      have hd : d' = { d with buf := d.buf.emptied, str := st' } := (Except.ok.inj hf).symm
      rw [bind_ok] at h2
      obtain ⟨A1, e1, e2⟩ := h2
      obtain ⟨q1, s1⟩ := absRun_lin h.lay base hspec.pre h.str.single e1
      obtain ⟨s, hs, q2⟩ := absL0_lin h.lay s1 e2
      refine ⟨s, hs, ?_⟩
      rw [← visible_bag, ← visible_bag, hd]
      exact (q1.add {s}).trans q2
  · obtain ⟨base, hspec, hor⟩ := bflush_abs h hat
    rcases hor with ⟨e, h1, -⟩ | ⟨st', h1, h2, -⟩
    · rw [h1] at hf; cases hf
    · rw [h1] at hf
      have hd : d' = { d with buf := d.buf.emptied, str := st' } := (Except.ok.inj hf).symm
      obtain ⟨s, hs, q⟩ := absB_lin hspec h2
      refine ⟨s, hs, ?_⟩
      rw [← visible_bag, ← visible_bag, hd]
      exact q

/-- Bag of entries of a bag of shards. -/
def ments (M : Multiset (Shard R)) : Multiset (Entry R) := (M.map (fun s => ents s.data)).sum

theorem ments_coe (ss : List (Shard R)) : ments (ss : Multiset (Shard R)) = sents ss := by
  simp [ments, sents]

theorem ments_add (A B : Multiset (Shard R)) : ments (A + B) = ments A + ments B := by simp [ments]

theorem ments_single (s : Shard R) : ments {s} = ents s.data := by simp [ments]

end DE
