import Verif.Model.Driver
import Verif.Proofs.Query

/-! The hand-specialised queries are what the generic driver computes. -/

namespace DE
variable {R P LQ BQ LR Out : Type}

/-- Two query models agree: same results, and neither runs out of fuel. -/
def SameAs (x : Res (Option (List Out))) (y : Res (List Out)) : Prop :=
  (∀ out, x = .ok (some out) ↔ y = .ok out) ∧ x ≠ .ok none

/-- Local queries of a class without early abort: preprocessing followed by the local query, shard by shard. -/
theorem locals_round {Q : QueryClass R Unit P LQ BQ LR Out} (hE : Q.earlyAbort = false) {p : P} {loc : Shard R → Res (List LR)}
    (hl : ∀ s r, (∃ q q', Q.preproc s p () = .ok (q, ()) ∧ Q.localShard s q () = .ok ((r, q'), ())) ↔ loc s = .ok r) :
    ∀ (ss : List (Shard R)) (rs : List (List LR)),
      (∃ qs qs', Q.locals p ss () = .ok (qs, ()) ∧ Q.shardRound false ss qs () = .ok ((rs, qs'), ())) ↔ ss.mapM loc = .ok rs
  | [], rs => by
    simp only [QueryClass.locals, QueryClass.shardRound, List.mapM_nil, pure, Except.pure, Except.ok.injEq, Prod.mk.injEq, and_true]
    constructor
    · rintro ⟨qs, qs', -, h, -⟩; exact h
    · intro h; exact ⟨[], [], rfl, h, rfl⟩
  | s :: ss, rs => by
    have ih := locals_round hE hl ss
    rw [List.mapM_cons, bind_ok]
    constructor
    · rintro ⟨qs, qs', h1, h2⟩
      rw [QueryClass.locals, bind_ok] at h1
      obtain ⟨⟨q, w⟩, h3, h4⟩ := h1
      rw [bind_ok] at h4
      obtain ⟨⟨qs1, w1⟩, h5, h6⟩ := h4
      cases h6
      rw [QueryClass.shardRound, bind_ok] at h2
      obtain ⟨⟨⟨r, q'⟩, w2⟩, h7, h8⟩ := h2
      simp only [hE, Bool.false_and, bind_ok] at h8
      obtain ⟨⟨⟨rs1, qs2⟩, w3⟩, h9, h10⟩ := h8
      cases h10
      refine ⟨r, (hl s r).mp ⟨q, q', h3, h7⟩, ?_⟩
      rw [bind_ok]
      exact ⟨rs1, (ih rs1).mp ⟨qs1, qs2, h5, h9⟩, rfl⟩
    · rintro ⟨r, h1, h2⟩
      rw [bind_ok] at h2
      obtain ⟨rs1, h3, h4⟩ := h2
      cases h4
      obtain ⟨q, q', h5, h6⟩ := (hl s r).mpr h1
      obtain ⟨qs, qs', h7, h8⟩ := (ih rs1).mpr h3
      refine ⟨q :: qs, q' :: qs', ?_, ?_⟩
      · simp only [QueryClass.locals, h5, h7, bind, Except.bind]
      · simp only [QueryClass.shardRound, h6, hE, Bool.false_and, h8, bind, Except.bind]

/-- The driver for a class that neither aborts early, nor redistributes, nor repeats. -/
theorem query_simple {Q : QueryClass R Unit P LQ BQ LR Out} (hE : Q.earlyAbort = false)
    (hd : ∀ p qs b, Q.distribute p qs b () = .ok ((p, qs, b), ()))
    (ha : ∀ p out qs b, Q.again p out qs b () = .ok (none, ())) {p : P} {loc : Shard R → Res (List LR)} {buf : View R → Res (List LR)}
    (hl : ∀ s r, (∃ q q', Q.preproc s p () = .ok (q, ()) ∧ Q.localShard s q () = .ok ((r, q'), ())) ↔ loc s = .ok r)
    (hb : ∀ v r, (∃ b b', Q.preprocBuffer v p () = .ok (b, ()) ∧ Q.localBuffer b () = .ok ((r, b'), ())) ↔ buf v = .ok r)
    (d : Index R) (fuel : Nat) :
    SameAs (d.query Q (fuel+1) p ()) (do
      let b ← buf d.buf.view
      let rs ← d.str.visible.mapM loc
      Q.combine (b :: rs) p []) := by
  have key : ∀ o, d.query Q (fuel+1) p () = .ok o ↔ ∃ out, o = some out ∧ (do
      let b ← buf d.buf.view
      let rs ← d.str.visible.mapM loc
      Q.combine (b :: rs) p []) = .ok out := by
    intro o
    simp only [Index.query, QueryClass.loop, QueryClass.round, bind_ok, hd]
    constructor
    · rintro ⟨⟨b, ⟨⟩⟩, h1, ⟨qs, ⟨⟩⟩, h2, ⟨⟨p', qs', b'⟩, ⟨⟩⟩, h3, ⟨⟨rs, qs1, b1⟩, ⟨⟩⟩, ⟨⟨⟨r, b2⟩, ⟨⟩⟩, h4, ⟨⟨rs', qs2⟩, ⟨⟩⟩, h5, h6⟩, out, h7, ⟨o', ⟨⟩⟩, h8, h9⟩
      cases h3
      cases h6
      rw [ha] at h8
      cases h8
      cases h9
      rw [hE] at h5
      exact ⟨out, rfl, r, (hb _ _).mp ⟨b, _, h1, h4⟩, rs', (locals_round hE hl _ _).mp ⟨qs, _, h2, h5⟩, h7⟩
    · rintro ⟨out, rfl, r, h1, rs, h2, h3⟩
      obtain ⟨b, b', h4, h5⟩ := (hb _ _).mpr h1
      obtain ⟨qs, qs', h6, h7⟩ := (locals_round hE hl _ _).mpr h2
      refine ⟨⟨b, ()⟩, h4, ⟨qs, ()⟩, h6, ⟨⟨p, qs, b⟩, ()⟩, rfl, ⟨⟨r :: rs, qs', b'⟩, ()⟩, ⟨⟨⟨r, b'⟩, ()⟩, h5, ⟨⟨rs, qs'⟩, ()⟩, ?_, rfl⟩, out, h3, ⟨none, ()⟩, ha _ _ _ _, rfl⟩
      simpa [hE] using h7
  refine ⟨fun out => ?_, fun h => ?_⟩
  · rw [key]
    constructor
    · rintro ⟨o, h1, h2⟩; cases h1; exact h2
    · intro h; exact ⟨out, rfl, h⟩
  · obtain ⟨_, h1, -⟩ := (key none).mp h
    cases h1

section
variable {K : Type} [LinearOrder R] [LinearOrder K] [HasKey R K]

/-- `Index.rangeQuery` is the driver on `rq::Query`. -/
theorem rangeQuery_driver (pq : PQ R) (lb : LB R K) (d : Index R) (lo hi : K) (fuel : Nat) :
    SameAs (d.query (rqClass pq lb) (fuel+1) (lo, hi) ()) (d.rangeQuery pq lb lo hi) := by
  have h := query_simple (Q := rqClass pq lb) rfl (fun _ _ _ => rfl) (fun _ _ _ _ => rfl) (p := (lo, hi))
    (loc := fun s => rqLocal lb s lo hi) (buf := fun v => rqBuffer v lo hi)
    (by
      intro s r
      simp only [rqClass, rqLocal, bind_ok]
      constructor
      · rintro ⟨q, q', ⟨i, h1, h2⟩, h3⟩
        cases h2
        refine ⟨i, h1, ?_⟩
        simp only at h3 ⊢
        split_ifs at h3 ⊢ <;> (cases h3; rfl)
      · rintro ⟨i, h1, h2⟩
        refine ⟨(i, lo, hi), (i, lo, hi), ⟨i, h1, rfl⟩, ?_⟩
        simp only
        split_ifs at h2 ⊢ <;> (cases h2; rfl))
    (by
      intro v r
      simp only [rqClass, rqBuffer, bind_ok]
      constructor
      · rintro ⟨b, b', h1, l, h2, h3⟩
        cases h1; cases h3
        exact ⟨l, h2, rfl⟩
      · rintro ⟨l, h1, h2⟩
        cases h2
        exact ⟨_, _, rfl, l, h1, rfl⟩) d fuel
  simpa [rqClass, Index.rangeQuery] using h

/-- `Index.rangeCount` is the driver on `rc::Query`. -/
theorem rangeCount_driver (lb : LB R K) (d : Index R) (lo hi : K) (fuel : Nat) :
    SameAs (d.query (rcClass lb) (fuel+1) (lo, hi) ()) (do let n ← d.rangeCount lb lo hi; .ok [n]) := by
  have h := query_simple (Q := rcClass lb) rfl (fun _ _ _ => rfl) (fun _ _ _ _ => rfl) (p := (lo, hi))
    (loc := fun s => rcLocal lb s lo hi) (buf := fun v => rcBuffer v lo hi)
    (by
      intro s r
      simp only [rcClass, rcLocal, bind_ok]
      constructor
      · rintro ⟨q, q', ⟨i, h1, h2⟩, h3⟩
        cases h2
        refine ⟨i, h1, ?_⟩
        simp only at h3 ⊢
        split_ifs at h3 ⊢ <;> (cases h3; rfl)
      · rintro ⟨i, h1, h2⟩
        refine ⟨(i, lo, hi), (i, lo, hi), ⟨i, h1, rfl⟩, ?_⟩
        simp only
        split_ifs at h2 ⊢ <;> (cases h2; rfl))
    (by
      intro v r
      simp only [rcClass, bind_ok]
      constructor
      · rintro ⟨b, b', h1, l, h2, h3⟩
        cases h1; cases h3
        exact h2
      · intro h1
        exact ⟨_, _, rfl, r, h1, rfl⟩) d fuel
  simpa [rcClass, Index.rangeCount, bind_assoc] using h

/-- The shard part of the driver on `pl::Query`, before anything is found. -/
theorem plRound (f : Shard R → K → Res (Option Nat)) (k : K) : ∀ (ss : List (Shard R)) (r : List (Wrapped R)),
    (∃ rs qs', (plClass f).shardRound false ss (List.replicate ss.length k) () = .ok ((rs, qs'), ()) ∧ r = rs.flatten) ↔
      plShards f k ss = .ok r := by
  have stop : ∀ (ss : List (Shard R)) qs, (plClass f).shardRound true ss qs () = .ok ((ss.map (fun _ => []), qs), ()) := by
    intro ss
    induction ss with
    | nil => intro qs; rfl
    | cons s ss ih => intro qs; simp only [QueryClass.shardRound, ih, bind, Except.bind, List.map_cons]
  have flat : ∀ ss : List (Shard R), (ss.map (fun _ => ([] : List (Wrapped R)))).flatten = [] := by
    intro ss; induction ss <;> simp_all
  intro ss
  induction ss with
  | nil =>
    intro r
    simp only [QueryClass.shardRound, plShards, Except.ok.injEq, Prod.mk.injEq, and_true]
    constructor
    · rintro ⟨rs, qs', ⟨rfl, -⟩, rfl⟩; rfl
    · rintro rfl; exact ⟨[], _, ⟨rfl, rfl⟩, rfl⟩
  | cons s ss ih =>
    intro r
    simp only [List.length_cons, List.replicate_succ, QueryClass.shardRound, plShards, bind_ok]
    have hloc : ∀ l, plLocal f s k = .ok l → l = [] ∨ ∃ w, l = [w] := by
      intro l hl
      simp only [plLocal, bind_ok] at hl
      obtain ⟨o, -, hl⟩ := hl
      cases o with
      | none => cases hl; exact Or.inl rfl
      | some i =>
        simp only [bind_ok] at hl
        obtain ⟨w, -, hl⟩ := hl
        cases hl; exact Or.inr ⟨w, rfl⟩
    constructor
    · rintro ⟨rs, qs', ⟨⟨⟨l, q⟩, ⟨⟩⟩, h1, ⟨⟨rs1, qs1⟩, ⟨⟩⟩, h2, h3⟩, rfl⟩
      cases h3
      simp only [plClass, bind_ok] at h1
      obtain ⟨l', h4, h5⟩ := h1
      cases h5
      refine ⟨l, h4, ?_⟩
      rcases hloc l h4 with rfl | ⟨w, rfl⟩
      · simp only [List.flatten_cons, List.nil_append]
        exact (ih _).mp ⟨rs1, qs1, by simpa [plClass] using h2, rfl⟩
      · have := stop ss (List.replicate ss.length k)
        simp only [plClass, List.isEmpty_cons, Bool.not_false, Bool.and_self] at h2 this
        rw [this] at h2
        cases h2
        simp
    · rintro ⟨l, h1, h2⟩
      rcases hloc l h1 with rfl | ⟨w, rfl⟩
      · obtain ⟨rs1, qs1, h3, h4⟩ := (ih r).mpr h2
        refine ⟨[] :: rs1, k :: qs1, ⟨⟨⟨[], k⟩, ()⟩, ?_, ⟨⟨rs1, qs1⟩, ()⟩, ?_, rfl⟩, by simpa using h4⟩
        · simp only [plClass, h1, bind, Except.bind]
        · simpa [plClass] using h3
      · cases h2
        refine ⟨[w] :: ss.map (fun _ => []), _, ⟨⟨⟨[w], k⟩, ()⟩, ?_, ⟨⟨_, _⟩, ()⟩, stop ss _, rfl⟩, ?_⟩
        · simp only [plClass, h1, bind, Except.bind]
        · simp

/-- `Index.pointLookup` is the driver on `pl::Query`. -/
theorem pointLookup_driver (f : Shard R → K → Res (Option Nat)) (d : Index R) (k : K) (fuel : Nat) :
    SameAs (d.query (plClass f) (fuel+1) k ()) (d.pointLookup f k) := by
  have hloc : ∀ ss : List (Shard R), (plClass f).locals k ss () = .ok (List.replicate ss.length k, ()) := by
    intro ss
    induction ss with
    | nil => rfl
    | cons s ss ih =>
      simp only [QueryClass.locals, ih, bind, Except.bind, List.length_cons, List.replicate_succ]
      rfl
  have stop : ∀ (ss : List (Shard R)) qs, (plClass f).shardRound true ss qs () = .ok ((ss.map (fun _ => []), qs), ()) := by
    intro ss
    induction ss with
    | nil => intro qs; rfl
    | cons s ss ih => intro qs; simp only [QueryClass.shardRound, ih, bind, Except.bind, List.map_cons]
  have flat : ∀ ss : List (Shard R), (ss.map (fun _ => ([] : List (Wrapped R)))).flatten = [] := by
    intro ss; induction ss <;> simp_all
  have hb : ∀ l, plBuffer d.buf.view k = .ok l → l = [] ∨ ∃ w, l = [w] := by
    intro l hl
    simp only [plBuffer, bind_ok] at hl
    obtain ⟨o, -, hl⟩ := hl
    split at hl <;> cases hl
    · exact Or.inr ⟨_, rfl⟩
    · exact Or.inl rfl
  have key : ∀ o, d.query (plClass f) (fuel+1) k () = .ok o ↔ ∃ out, o = some out ∧ d.pointLookup f k = .ok out := by
    intro o
    simp only [Index.query, QueryClass.loop, QueryClass.round, bind_ok, hloc, Index.pointLookup]
    constructor
    · rintro ⟨⟨b, ⟨⟩⟩, h1, ⟨qs, ⟨⟩⟩, h2, ⟨⟨p', qs', b'⟩, ⟨⟩⟩, h3, ⟨⟨rs, qs1, b1⟩, ⟨⟩⟩, ⟨⟨⟨r, b2⟩, ⟨⟩⟩, h4, ⟨⟨rs', qs2⟩, ⟨⟩⟩, h5, h6⟩, out, h7, ⟨o', ⟨⟩⟩, h8, h9⟩
      cases h1; cases h2; cases h3; cases h6; cases h7; cases h8; cases h9
      simp only [plClass, bind_ok] at h4
      obtain ⟨r', h10, h11⟩ := h4
      cases h11
      refine ⟨_, rfl, r, h10, ?_⟩
      rcases hb r h10 with rfl | ⟨w, rfl⟩
      · rw [bind_ok]
        refine ⟨rs'.flatten, (plRound f k _ _).mp ⟨rs', _, by simpa [plClass] using h5, rfl⟩, by simp⟩
      · have := stop d.str.visible (List.replicate d.str.visible.length k)
        simp only [plClass, List.isEmpty_cons, Bool.not_false, Bool.and_self] at h5 this
        rw [this] at h5
        cases h5
        simp
    · rintro ⟨out, rfl, r, h1, h2⟩
      rcases hb r h1 with rfl | ⟨w, rfl⟩
      · rw [bind_ok] at h2
        obtain ⟨l, h3, h4⟩ := h2
        cases h4
        obtain ⟨rs, qs', h5, h6⟩ := (plRound f k _ _).mpr h3
        refine ⟨⟨(d.buf.view, k), ()⟩, rfl, ⟨_, ()⟩, rfl, ⟨⟨_, _, _⟩, ()⟩, rfl, ⟨⟨[] :: rs, qs', (d.buf.view, k)⟩, ()⟩, ⟨⟨⟨[], _⟩, ()⟩, ?_, ⟨⟨rs, qs'⟩, ()⟩, ?_, rfl⟩, _, rfl, ⟨none, ()⟩, rfl, ?_⟩
        · simp only [plClass, h1, bind, Except.bind]
        · simpa [plClass] using h5
        · simp [h6]
      · cases h2
        refine ⟨⟨(d.buf.view, k), ()⟩, rfl, ⟨_, ()⟩, rfl, ⟨⟨_, _, _⟩, ()⟩, rfl, ⟨⟨[w] :: d.str.visible.map (fun _ => []), _, (d.buf.view, k)⟩, ()⟩, ⟨⟨⟨[w], _⟩, ()⟩, ?_, ⟨⟨_, _⟩, ()⟩, stop _ _, rfl⟩, _, rfl, ⟨none, ()⟩, rfl, ?_⟩
        · simp only [plClass, h1, bind, Except.bind]
        · simp
  refine ⟨fun out => ?_, fun h => ?_⟩
  · rw [key]
    constructor
    · rintro ⟨o, h1, h2⟩; cases h1; exact h2
    · intro h; exact ⟨out, rfl, h⟩
  · obtain ⟨_, h1, -⟩ := (key none).mp h
    cases h1

end

/-- `Index.knn` is the driver on `knn::Query`. -/
theorem knn_driver {𝔽 : Type} [LinearOrder 𝔽] [Add 𝔽] [Sub 𝔽] (q : MaxQ R 𝔽) (dist : R → R → 𝔽) (treeOf : Shard R → Res (VP.Tree R 𝔽))
    (d : Index R) (point : R) (k : Nat) (fuel : Nat) :
    SameAs (d.query (knnClass q dist treeOf) (fuel+1) (point, k) ()) (d.knn q dist treeOf point k) := by
  have h := query_simple (Q := knnClass q dist treeOf) rfl (fun _ _ _ => rfl) (fun _ _ _ _ => rfl) (p := (point, k))
    (loc := fun s => do let t ← treeOf s; knnLocal q dist t point k) (buf := fun v => do let l ← v.gets; knnBuffer q dist l point k)
    (by
      intro s r
      simp only [knnClass, bind_ok]
      constructor
      · rintro ⟨q, q', h1, t, h2, r', h3, h4⟩
        cases h1; cases h4
        exact ⟨t, h2, h3⟩
      · rintro ⟨t, h1, h2⟩
        exact ⟨_, _, rfl, t, h1, r, h2, rfl⟩)
    (by
      intro v r
      simp only [knnClass, bind_ok]
      constructor
      · rintro ⟨b, b', h1, l, h2, r', h3, h4⟩
        cases h1; cases h4
        exact ⟨l, h2, h3⟩
      · rintro ⟨l, h1, h2⟩
        exact ⟨_, _, rfl, l, h1, r, h2, rfl⟩) d fuel
  have hid : ∀ x : Res (List R), (x >>= fun r => Except.ok r) = x := by intro x; cases x <;> rfl
  simpa [knnClass, Index.knn, bind_assoc, hid] using h

/-! ### Sampling -/

theorem distribute_length {al : AliasFn} {ws : List Nat} {g : Rng} : ∀ (n pos : Nat) (acc ns : List Nat) (w : Nat),
    distribute al ws g n pos acc = .ok (ns, w) → ns.length = acc.length
  | 0, pos, acc, ns, w, h => by cases h; rfl
  | n+1, pos, acc, ns, w, h => by
    simp only [distribute] at h
    split at h
    · have := distribute_length n _ _ _ _ h
      simpa using this
    · cases h

section
variable {K : Type} [LinearOrder R] [LinearOrder K] [HasKey R K] (rej : Bool) (al : AliasFn) (g : Rng) (lb ub : LB R K)

/-- The shard part of one round. -/
theorem irs_shardRound : ∀ (ss : List (Shard R)) (qs : List (Irs.Local R)) (ns : List Nat) (w : Nat) (x : List (Wrapped R)) (w' : Nat),
    ss.length = qs.length → ns.length = qs.length →
    ((∃ rs, (irsClass rej al g lb ub).shardRound false ss (qs.zip ns) w = .ok ((rs, qs.zip ns), w') ∧ x = rs.flatten) ↔
      Irs.shardQueries g qs ns w = .ok (x, w'))
  | [], qs, ns, w, x, w', h1, h2 => by
    have : qs = [] := List.length_eq_zero_iff.mp (by simpa using h1.symm)
    subst this
    have : ns = [] := List.length_eq_zero_iff.mp (by simpa using h2)
    subst this
    simp only [List.zip_nil_left, QueryClass.shardRound, Irs.shardQueries, Except.ok.injEq, Prod.mk.injEq, and_true]
    constructor
    · rintro ⟨rs, ⟨rfl, rfl⟩, rfl⟩; exact ⟨rfl, rfl⟩
    · rintro ⟨rfl, rfl⟩; exact ⟨[], ⟨rfl, rfl⟩, rfl⟩
  | s :: ss, qs, ns, w, x, w', h1, h2 => by
    cases qs with
    | nil => simp at h1
    | cons q qs =>
    cases ns with
    | nil => simp at h2
    | cons n ns =>
    have ih := irs_shardRound ss qs ns
    simp only [List.zip_cons_cons, QueryClass.shardRound, Irs.shardQueries, bind_ok]
    constructor
    · rintro ⟨rs, ⟨⟨⟨r, q'⟩, w1⟩, h3, ⟨⟨rs1, qs1⟩, w2⟩, h4, h5⟩, rfl⟩
      cases h5
      simp only [irsClass, bind_ok] at h3
      obtain ⟨⟨r1, w3⟩, h6, h7⟩ := h3
      cases h7
      refine ⟨⟨r1, w3⟩, h6, ⟨rs1.flatten, w2⟩, (ih w3 _ _ (by simpa using h1) (by simpa using h2)).mp ⟨rs1, h4, rfl⟩, by simp⟩
    · rintro ⟨⟨r, w1⟩, h3, ⟨y, w2⟩, h4, h5⟩
      cases h5
      obtain ⟨rs, h6, rfl⟩ := (ih w1 _ _ (by simpa using h1) (by simpa using h2)).mpr h4
      refine ⟨r :: rs, ⟨⟨⟨r, (q, n)⟩, w1⟩, ?_, ⟨⟨rs, qs.zip ns⟩, w2⟩, h6, rfl⟩, by simp⟩
      simp only [irsClass, h3, bind, Except.bind]

/-- The queries come back unchanged from a round. -/
theorem irs_shardRound_same : ∀ (ss : List (Shard R)) (qs qs' : List (Irs.Local R × Nat)) (w : Nat) (rs : List (List (Wrapped R))) (w' : Nat),
    (irsClass rej al g lb ub).shardRound false ss qs w = .ok ((rs, qs'), w') → qs' = qs
  | [], qs, qs', w, rs, w', h => by cases h; rfl
  | s :: ss, [], qs', w, rs, w', h => by cases h
  | s :: ss, q :: qs, qs', w, rs, w', h => by
    simp only [QueryClass.shardRound, bind_ok] at h
    obtain ⟨⟨⟨r, q1⟩, w1⟩, h3, ⟨⟨rs1, qs1⟩, w2⟩, h4, h5⟩ := h
    cases h5
    simp only [irsClass, bind_ok] at h3
    obtain ⟨⟨r1, w3⟩, h6, h7⟩ := h3
    cases h7
    rw [irs_shardRound_same ss qs qs1 _ _ _ h4]

theorem irs_loop (ss : List (Shard R)) (lo hi : K) (buf : List (Wrapped R)) (qs : List (Irs.Local R)) (hlen : ss.length = qs.length) :
    ∀ (fuel n pos : Nat) (out res : List R) (qs0 : List (Irs.Local R × Nat)) (n0 : Nat), qs0.map Prod.fst = qs →
    (Irs.loop rej al g lo hi buf qs fuel n pos out = .ok (some res) ↔
      ∃ p' qs' b' w', irsClass.dist rej al g (lo, hi, n) qs0 (buf, (lo, hi), n0) pos = .ok ((p', qs', b'), w') ∧
        (irsClass rej al g lb ub).loop ss fuel p' qs' b' out w' = .ok (some res))
  | 0, n, pos, out, res, qs0, n0, hq => by
    simp [Irs.loop, QueryClass.loop]
  | fuel+1, n, pos, out, res, qs0, n0, hq => by
    have ih := irs_loop ss lo hi buf qs hlen fuel
    have hdl : ∀ ns w, Irs.distributeQuery rej al g lo hi buf qs n pos = .ok (ns, w) → ns.length = qs.length + 1 := by
      intro ns w h
      simp only [Irs.distributeQuery] at h
      split at h
      · cases h; simp [Irs.weights]
      · have := distribute_length _ _ _ _ _ h
        simpa [Irs.weights] using this
    simp only [Irs.loop, Irs.round, irsClass.dist, bind_ok, hq]
    constructor
    · rintro ⟨⟨r, w9⟩, ⟨⟨ns, w1⟩, h1, h2⟩, h3⟩
      have hl := hdl _ _ h1
      cases ns with
      | nil => simp at hl
      | cons nb ns =>
      simp only [bind_ok] at h2
      obtain ⟨⟨x, w2⟩, h4, ⟨y, w3⟩, h5, h6⟩ := h2
      cases h6
      obtain ⟨rs, h7, rfl⟩ := (irs_shardRound rej al g lb ub ss qs ns w2 y w3 hlen (by simpa using hl)).mpr h5
      refine ⟨_, _, _, _, ⟨⟨nb :: ns, w1⟩, h1, rfl⟩, ?_⟩
      have hround : (irsClass rej al g lb ub).round ss (qs.zip ns) (buf, (lo, hi), nb) w1 =
          .ok ((x :: rs, qs.zip ns, (buf, (lo, hi), nb)), w3) := by
        simp only [QueryClass.round, bind_ok]
        refine ⟨⟨⟨x, (buf, (lo, hi), nb)⟩, w2⟩, ?_, ⟨⟨rs, qs.zip ns⟩, w3⟩, h7, rfl⟩
        simp only [irsClass, h4, bind, Except.bind]
      simp only [QueryClass.loop, hround, bind_ok]
      refine ⟨_, rfl, out ++ (x :: rs).flatten.map Wrapped.record, rfl, ?_⟩
      have e : (x :: rs).flatten = x ++ rs.flatten := rfl
      rw [e]
      split at h3
      · next hc =>
        obtain ⟨p', qs', b', w', g1, g2⟩ := (ih _ _ _ res (qs.zip ns) nb (by
          rw [List.map_fst_zip]; simp at hl; omega)).mp h3
        refine ⟨(some (p', qs', b'), w'), ?_, g2⟩
        simp only [irsClass, hc, if_true, g1, bind, Except.bind]
      · next hc =>
        refine ⟨(none, w3), ?_, h3⟩
        simp only [irsClass, hc, if_false]
    · rintro ⟨p', qs', b', w', ⟨⟨ns, w1⟩, h1, h2⟩, h3⟩
      have hl := hdl _ _ h1
      cases ns with
      | nil => simp at hl
      | cons nb ns =>
      cases h2
      simp only [QueryClass.loop, QueryClass.round, bind_ok] at h3
      obtain ⟨⟨⟨rs0, qs1, b1⟩, w2⟩, ⟨⟨⟨x, b2⟩, w3⟩, h4, ⟨⟨rs, qs2⟩, w4⟩, h5, h6⟩, out', h7, ⟨o, w5⟩, h8, h9⟩ := h3
      cases h6
      cases h7
      have hs := irs_shardRound_same rej al g lb ub ss _ _ _ _ _ h5
      subst hs
      simp only [irsClass, bind_ok] at h4
      obtain ⟨⟨x', w6⟩, h10, h11⟩ := h4
      cases h11
      have h12 := (irs_shardRound rej al g lb ub ss qs ns w6 rs.flatten w4 hlen (by simpa using hl)).mp ⟨rs, h5, rfl⟩
      refine ⟨⟨(x' ++ rs.flatten).map Wrapped.record, w4⟩, ⟨⟨nb :: ns, w1⟩, h1, ?_⟩, ?_⟩
      · simp only [bind_ok]
        exact ⟨⟨x', w6⟩, h10, ⟨rs.flatten, w4⟩, h12, rfl⟩
      · have e : (x' :: rs).flatten = x' ++ rs.flatten := rfl
        rw [e] at h8 h9
        simp only [irsClass] at h8
        split at h8
        · next hc =>
          rw [if_pos hc]
          rw [bind_ok] at h8
          obtain ⟨⟨⟨p1, qs3, b3⟩, w7⟩, g1, g2⟩ := h8
          cases g2
          exact (ih _ _ _ res (qs.zip ns) nb (by rw [List.map_fst_zip]; simp at hl; omega)).mpr ⟨_, _, _, _, g1, h9⟩
        · next hc =>
          rw [if_neg hc]
          cases h8
          exact h9

/-- `Index.irs` is the driver on `irs::Query`: the same samples after the same number of rounds. -/
theorem irs_driver (d : Index R) (lo hi : K) (n fuel : Nat) (out : List R) :
    d.query (irsClass rej al g lb ub) fuel (lo, hi, n) 0 = .ok (some out) ↔ d.irs rej al g lb ub lo hi n fuel = .ok (some out) := by
  have hloc : ∀ (ss : List (Shard R)) (qs : List (Irs.Local R × Nat)) (w w' : Nat),
      (irsClass rej al g lb ub).locals (lo, hi, n) ss w = .ok (qs, w') ↔
        w' = w ∧ ∃ ls, ss.mapM (Irs.preproc lb ub lo hi) = .ok ls ∧ qs = ls.map (fun q => (q, 0)) := by
    intro ss
    induction ss with
    | nil =>
      intro qs w w'
      simp only [QueryClass.locals, List.mapM_nil, pure, Except.pure, Except.ok.injEq, Prod.mk.injEq]
      constructor
      · rintro ⟨rfl, rfl⟩; exact ⟨rfl, [], rfl, rfl⟩
      · rintro ⟨rfl, ls, rfl, rfl⟩; exact ⟨rfl, rfl⟩
    | cons s ss ih =>
      intro qs w w'
      simp only [QueryClass.locals, List.mapM_cons, bind_ok]
      constructor
      · rintro ⟨⟨q, w1⟩, h1, ⟨qs1, w2⟩, h2, h3⟩
        cases h3
        simp only [irsClass, bind_ok] at h1
        obtain ⟨q', h4, h5⟩ := h1
        cases h5
        obtain ⟨rfl, ls, h6, rfl⟩ := (ih _ _ _).mp h2
        exact ⟨rfl, q' :: ls, ⟨q', h4, ls, h6, rfl⟩, rfl⟩
      · rintro ⟨rfl, ls, ⟨q, h1, ls', h2, h3⟩, rfl⟩
        cases h3
        refine ⟨((q, 0), w'), ?_, (ls'.map (fun q => (q, 0)), w'), (ih _ _ _).mpr ⟨rfl, ls', h2, rfl⟩, rfl⟩
        simp only [irsClass, h1, bind, Except.bind]
  have hml : ∀ (ss : List (Shard R)) (ls : List (Irs.Local R)), ss.mapM (Irs.preproc lb ub lo hi) = .ok ls → ss.length = ls.length := by
    intro ss
    induction ss with
    | nil => intro ls h; cases h; rfl
    | cons s ss ih =>
      intro ls h
      rw [List.mapM_cons, bind_ok] at h
      obtain ⟨q, -, h⟩ := h
      rw [bind_ok] at h
      obtain ⟨ls', h1, h2⟩ := h
      cases h2
      simp [ih ls' h1]
  simp only [Index.query, Index.irs, bind_ok]
  constructor
  · rintro ⟨⟨b, w0⟩, h1, ⟨qs, w1⟩, h2, ⟨⟨p', qs', b'⟩, w2⟩, h3, h4⟩
    simp only [irsClass, bind_ok] at h1
    obtain ⟨l, h5, h6⟩ := h1
    cases h6
    obtain ⟨rfl, ls, h7, rfl⟩ := (hloc _ _ _ _).mp h2
    exact ⟨l, h5, ls, h7, (irs_loop rej al g lb ub _ lo hi l ls (hml _ _ h7) _ _ _ _ _ (ls.map (fun q => (q, 0))) 0 (by
      simp [Function.comp_def])).mpr ⟨_, _, _, _, h3, h4⟩⟩
  · rintro ⟨l, h1, ls, h2, h3⟩
    obtain ⟨p', qs', b', w', h4, h5⟩ := (irs_loop rej al g lb ub _ lo hi l ls (hml _ _ h2) _ _ _ _ _ (ls.map (fun q => (q, 0))) 0 (by
      simp [Function.comp_def])).mp h3
    refine ⟨((l, (lo, hi), 0), 0), ?_, (_, 0), (hloc _ _ _ _).mpr ⟨rfl, ls, h2, rfl⟩, ⟨⟨p', qs', b'⟩, w'⟩, h4, h5⟩
    simp only [irsClass, h1, bind, Except.bind]

end

section
variable (wt : R → Nat) (D : Nat) (al : AliasFn) (g : Rng)

theorem wss_shardRound : ∀ (ss : List (Shard R)) (qs : List (List (Wrapped R))) (ns : List Nat) (w : Nat) (x : List (Wrapped R)) (w' : Nat),
    ss.length = qs.length → ns.length = qs.length →
    ((∃ rs, (wssClass wt D al g).shardRound false ss (qs.zip ns) w = .ok ((rs, qs.zip ns), w') ∧ x = rs.flatten) ↔
      Wss.shardQueries wt al g qs ns w = .ok (x, w'))
  | [], qs, ns, w, x, w', h1, h2 => by
    have : qs = [] := List.length_eq_zero_iff.mp (by simpa using h1.symm)
    subst this
    have : ns = [] := List.length_eq_zero_iff.mp (by simpa using h2)
    subst this
    simp only [List.zip_nil_left, QueryClass.shardRound, Wss.shardQueries, Except.ok.injEq, Prod.mk.injEq, and_true]
    constructor
    · rintro ⟨rs, ⟨rfl, rfl⟩, rfl⟩; exact ⟨rfl, rfl⟩
    · rintro ⟨rfl, rfl⟩; exact ⟨[], ⟨rfl, rfl⟩, rfl⟩
  | s :: ss, qs, ns, w, x, w', h1, h2 => by
    cases qs with
    | nil => simp at h1
    | cons q qs =>
    cases ns with
    | nil => simp at h2
    | cons n ns =>
    have ih := wss_shardRound ss qs ns
    simp only [List.zip_cons_cons, QueryClass.shardRound, Wss.shardQueries, bind_ok]
    constructor
    · rintro ⟨rs, ⟨⟨⟨r, q'⟩, w1⟩, h3, ⟨⟨rs1, qs1⟩, w2⟩, h4, h5⟩, rfl⟩
      cases h5
      simp only [wssClass, bind_ok] at h3
      obtain ⟨⟨r1, w3⟩, h6, h7⟩ := h3
      cases h7
      refine ⟨⟨r1, w3⟩, h6, ⟨rs1.flatten, w2⟩, (ih w3 _ _ (by simpa using h1) (by simpa using h2)).mp ⟨rs1, h4, rfl⟩, by simp⟩
    · rintro ⟨⟨r, w1⟩, h3, ⟨y, w2⟩, h4, h5⟩
      cases h5
      obtain ⟨rs, h6, rfl⟩ := (ih w1 _ _ (by simpa using h1) (by simpa using h2)).mpr h4
      refine ⟨r :: rs, ⟨⟨⟨r, (q, n)⟩, w1⟩, ?_, ⟨⟨rs, qs.zip ns⟩, w2⟩, h6, rfl⟩, by simp⟩
      simp only [wssClass, h3, bind, Except.bind]

theorem wss_shardRound_same : ∀ (ss : List (Shard R)) (qs qs' : List (List (Wrapped R) × Nat)) (w : Nat) (rs : List (List (Wrapped R))) (w' : Nat),
    (wssClass wt D al g).shardRound false ss qs w = .ok ((rs, qs'), w') → qs' = qs
  | [], qs, qs', w, rs, w', h => by cases h; rfl
  | s :: ss, [], qs', w, rs, w', h => by cases h
  | s :: ss, q :: qs, qs', w, rs, w', h => by
    simp only [QueryClass.shardRound, bind_ok] at h
    obtain ⟨⟨⟨r, q1⟩, w1⟩, h3, ⟨⟨rs1, qs1⟩, w2⟩, h4, h5⟩ := h
    cases h5
    simp only [wssClass, bind_ok] at h3
    obtain ⟨⟨r1, w3⟩, h6, h7⟩ := h3
    cases h7
    rw [wss_shardRound_same ss qs qs1 _ _ _ h4]

theorem wss_loop (ss : List (Shard R)) (buf : List (Wrapped R)) (qs : List (List (Wrapped R))) (hlen : ss.length = qs.length) :
    ∀ (fuel n pos : Nat) (out res : List R) (ns : List Nat) (n0 : Nat), ns.length = qs.length →
    (Wss.loop wt D al g buf qs fuel n pos (n0 :: ns) out = .ok (some res) ↔
      ∃ p' qs' b' w', wssClass.dist wt al g n (qs.zip ns) (buf, n0) pos = .ok ((p', qs', b'), w') ∧
        (wssClass wt D al g).loop ss fuel p' qs' b' out w' = .ok (some res))
  | 0, n, pos, out, res, ns, n0, hn => by
    simp [Wss.loop, QueryClass.loop]
  | fuel+1, n, pos, out, res, ns0, n0, hn => by
    have ih := wss_loop ss buf qs hlen fuel
    have e1 : (qs.zip ns0).map Prod.fst = qs := List.map_fst_zip (by omega)
    have e2 : (qs.zip ns0).map Prod.snd = ns0 := List.map_snd_zip (by omega)
    simp only [Wss.loop, wssClass.dist, bind_ok, e1, e2]
    constructor
    · rintro ⟨⟨ns, w1⟩, h1, h2⟩
      have hl := distribute_length _ _ _ _ _ h1
      cases ns with
      | nil => simp at hl
      | cons nb ns =>
      have hl' : ns.length = qs.length := by simp at hl; omega
      simp only [bind_ok] at h2
      obtain ⟨⟨x, w2⟩, h4, ⟨y, w3⟩, h5, h3⟩ := h2
      obtain ⟨rs, h7, rfl⟩ := (wss_shardRound wt D al g ss qs ns w2 y w3 hlen hl').mpr h5
      refine ⟨_, _, _, _, ⟨⟨nb :: ns, w1⟩, h1, rfl⟩, ?_⟩
      have hround : (wssClass wt D al g).round ss (qs.zip ns) (buf, nb) w1 =
          .ok ((x :: rs, qs.zip ns, (buf, nb)), w3) := by
        simp only [QueryClass.round, bind_ok]
        refine ⟨⟨⟨x, (buf, nb)⟩, w2⟩, ?_, ⟨⟨rs, qs.zip ns⟩, w3⟩, h7, rfl⟩
        simp only [wssClass, h4, bind, Except.bind]
      simp only [QueryClass.loop, hround, bind_ok]
      refine ⟨_, rfl, out ++ (x :: rs).flatten.map Wrapped.record, rfl, ?_⟩
      have e : (x :: rs).flatten = x ++ rs.flatten := rfl
      rw [e]
      split at h3
      · next hc =>
        obtain ⟨p', qs', b', w', g1, g2⟩ := (ih _ _ _ res ns nb hl').mp h3
        refine ⟨(some (p', qs', b'), w'), ?_, g2⟩
        simp only [wssClass, hc, if_true, g1, bind, Except.bind]
      · next hc =>
        refine ⟨(none, w3), ?_, h3⟩
        simp only [wssClass, hc, if_false]
    · rintro ⟨p', qs', b', w', ⟨⟨ns, w1⟩, h1, h2⟩, h3⟩
      have hl := distribute_length _ _ _ _ _ h1
      cases ns with
      | nil => simp at hl
      | cons nb ns =>
      have hl' : ns.length = qs.length := by simp at hl; omega
      cases h2
      simp only [QueryClass.loop, QueryClass.round, bind_ok] at h3
      obtain ⟨⟨⟨rs0, qs1, b1⟩, w2⟩, ⟨⟨⟨x, b2⟩, w3⟩, h4, ⟨⟨rs, qs2⟩, w4⟩, h5, h6⟩, out', h7, ⟨o, w5⟩, h8, h9⟩ := h3
      cases h6
      cases h7
      have hs := wss_shardRound_same wt D al g ss _ _ _ _ _ h5
      subst hs
      simp only [wssClass, bind_ok] at h4
      obtain ⟨⟨x', w6⟩, h10, h11⟩ := h4
      cases h11
      have h12 := (wss_shardRound wt D al g ss qs ns w6 rs.flatten w4 hlen hl').mp ⟨rs, h5, rfl⟩
      refine ⟨⟨nb :: ns, w1⟩, h1, ?_⟩
      simp only [bind_ok]
      refine ⟨⟨x', w6⟩, h10, ⟨rs.flatten, w4⟩, h12, ?_⟩
      have e : (x' :: rs).flatten = x' ++ rs.flatten := rfl
      rw [e] at h8 h9
      simp only [wssClass] at h8
      split at h8
      · next hc =>
        rw [if_pos hc]
        rw [bind_ok] at h8
        obtain ⟨⟨⟨p1, qs3, b3⟩, w7⟩, g1, g2⟩ := h8
        cases g2
        exact (ih _ _ _ res ns nb hl').mpr ⟨_, _, _, _, g1, h9⟩
      · next hc =>
        rw [if_neg hc]
        cases h8
        exact h9

/-- `Index.wss` is the driver on `wss::Query`. -/
theorem wss_driver (d : Index R) (n fuel : Nat) (out : List R) :
    d.query (wssClass wt D al g) fuel n 0 = .ok (some out) ↔ d.wss wt D al g n fuel = .ok (some out) := by
  have hloc : ∀ (ss : List (Shard R)) (w : Nat), (wssClass wt D al g).locals n ss w =
      .ok ((ss.map Shard.data).zip (List.replicate ss.length 0), w) := by
    intro ss
    induction ss with
    | nil => intro w; rfl
    | cons s ss ih =>
      intro w
      rw [QueryClass.locals]
      have : (wssClass wt D al g).preproc s n w = .ok ((s.data, 0), w) := rfl
      simp only [this, ih, bind, Except.bind, List.map_cons, List.length_cons, List.replicate_succ, List.zip_cons_cons]
  have e : List.replicate (d.str.visible.map Shard.data).length.succ 0 = 0 :: List.replicate d.str.visible.length 0 := by
    rw [List.length_map]; rfl
  simp only [Index.query, Index.wss, bind_ok, hloc]
  have hE := wss_loop wt D al g d.str.visible
  constructor
  · rintro ⟨⟨b, w0⟩, h1, ⟨qs, w1⟩, h2, ⟨⟨p', qs', b'⟩, w2⟩, h3, h4⟩
    simp only [wssClass, bind_ok] at h1
    obtain ⟨l, h5, h6⟩ := h1
    cases h6
    cases h2
    refine ⟨l, h5, ?_⟩
    have := (hE l (d.str.visible.map Shard.data) (by simp) fuel n 0 [] out (List.replicate d.str.visible.length 0) 0 (by simp)).mpr
      ⟨_, _, _, _, h3, h4⟩
    rw [← e] at this
    exact this
  · rintro ⟨l, h1, h2⟩
    have h2' : Wss.loop wt D al g l (d.str.visible.map Shard.data) fuel n 0 (0 :: List.replicate d.str.visible.length 0) [] = .ok (some out) := by
      rw [← e]; exact h2
    obtain ⟨p', qs', b', w', h4, h5⟩ := (hE l (d.str.visible.map Shard.data) (by simp) fuel n 0 [] out
      (List.replicate d.str.visible.length 0) 0 (by simp)).mp h2'
    refine ⟨((l, 0), 0), ?_, (_, 0), rfl, ⟨⟨p', qs', b'⟩, w'⟩, h4, h5⟩
    simp only [wssClass, h1, bind, Except.bind]

end

end DE
