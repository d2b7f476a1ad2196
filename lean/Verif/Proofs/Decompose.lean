import Verif.SpecQuery
import Verif.Proofs.Driver
import Verif.Proofs.InsertOnly
import Verif.Proofs.BSMNet

/-! The driver answers every decomposable query on the stored entries. -/

namespace DE
variable {R W P LQ BQ LR Out : Type} {Q : QueryClass R W P LQ BQ LR Out} {good : Shard R → Prop}
  {pre : P → Multiset (Entry R) → Prop} {spec : P → Multiset (Entry R) → List Out → Prop}

theorem locals_ok (D : Decomposition Q good pre spec) (p : P) : ∀ (ss : List (Shard R)) (w : W), (∀ s ∈ ss, good s) →
    ∃ qs w', Q.locals p ss w = .ok (qs, w') ∧ List.Forall₂ (D.Prepared p) (ss.map (fun s => ents s.data)) qs
  | [], w, _ => ⟨[], w, rfl, List.Forall₂.nil⟩
  | s :: ss, w, h => by
    obtain ⟨q, w1, h1, h2⟩ := D.preproc s p w (h s (by simp))
    obtain ⟨qs, w2, h3, h4⟩ := locals_ok D p ss w1 (fun x hx => h x (by simp [hx]))
    exact ⟨q :: qs, w2, by simp only [QueryClass.locals, h1, h3, bind, Except.bind], List.Forall₂.cons h2 h4⟩

/-- A pass over the shards: `full` are the answers the shards give or would have given. -/
theorem shardRound_ok (D : Decomposition Q good pre spec) (p : P) : ∀ (ss : List (Shard R)) (stop : Bool) (qs : List LQ) (w : W),
    (∀ s ∈ ss, good s) → List.Forall₂ (D.Ready p) (ss.map (fun s => ents s.data)) qs → (stop = true → Q.earlyAbort = true) →
    ∃ rs qs' w' full, Q.shardRound stop ss qs w = .ok ((rs, qs'), w') ∧
      List.Forall₂ (D.Part p) (ss.map (fun s => ents s.data)) full ∧
      rs = (if stop then full.map (fun _ => []) else if Q.earlyAbort then cutAfter full else full) ∧
      List.Forall₂ (D.Ready p) (ss.map (fun s => ents s.data)) qs'
  | [], stop, qs, w, _, hq, _ => by
    refine ⟨[], qs, w, [], ?_, List.Forall₂.nil, ?_, hq⟩
    · cases stop <;> rfl
    · cases stop <;> simp [cutAfter]
  | s :: ss, stop, [], w, _, hq, _ => by cases hq
  | s :: ss, true, q :: qs, w, hg, hq, hst => by
    cases hq with
    | cons hq1 hq2 =>
    obtain ⟨r, q', w1, h1, h2, h3⟩ := D.localShard s p q w (hg s (by simp)) hq1
    -- the remaining results stay empty; the answers that would have been given are taken from the contract
    have key : ∀ (ss : List (Shard R)) (qs : List LQ) (w : W), (∀ s ∈ ss, good s) →
        List.Forall₂ (D.Ready p) (ss.map (fun s => ents s.data)) qs → ∃ full,
          List.Forall₂ (D.Part p) (ss.map (fun s => ents s.data)) full ∧ full.length = ss.length := by
      intro ss
      induction ss with
      | nil => intro qs w _ _; exact ⟨[], List.Forall₂.nil, rfl⟩
      | cons s ss ih =>
        intro qs w hg hq
        cases hq with
        | cons a b =>
          obtain ⟨r, q', w1, h1, h2, h3⟩ := D.localShard s p _ w (hg s (by simp)) a
          obtain ⟨full, f1, f2⟩ := ih _ w (fun x hx => hg x (by simp [hx])) b
          exact ⟨r :: full, List.Forall₂.cons h2 f1, by simp [f2]⟩
    have run : ∀ (ss : List (Shard R)) (qs : List LQ) (w : W), Q.shardRound true ss qs w = .ok ((ss.map (fun _ => []), qs), w) := by
      intro ss
      induction ss with
      | nil => intro qs w; rfl
      | cons s ss ih => intro qs w; simp only [QueryClass.shardRound, ih, bind, Except.bind, List.map_cons]
    obtain ⟨full, f1, f2⟩ := key (s :: ss) (q :: qs) w hg (List.Forall₂.cons hq1 hq2)
    refine ⟨_, _, _, full, run _ _ _, f1, ?_, List.Forall₂.cons hq1 hq2⟩
    rw [if_pos rfl]
    apply List.ext_getElem
    · simp [f2]
    · intro i h1 h2; rw [List.getElem_map, List.getElem_map]
  | s :: ss, false, q :: qs, w, hg, hq, _ => by
    cases hq with
    | cons hq1 hq2 =>
    obtain ⟨r, q', w1, h1, h2, h3⟩ := D.localShard s p q w (hg s (by simp)) hq1
    obtain ⟨rs, qs', w2, full, g1, g2, g3, g4⟩ := shardRound_ok D p ss (Q.earlyAbort && !r.isEmpty) qs w1
      (fun x hx => hg x (by simp [hx])) hq2 (by intro h; simp only [Bool.and_eq_true] at h; exact h.1)
    refine ⟨r :: rs, q' :: qs', w2, r :: full, ?_, List.Forall₂.cons h2 g2, ?_, List.Forall₂.cons h3 g4⟩
    · simp only [QueryClass.shardRound, h1, g1, bind, Except.bind]
    · rw [g3]
      cases hE : Q.earlyAbort <;> cases hr : r.isEmpty <;> simp [cutAfter, hr]

theorem loop_ok (D : Decomposition Q good pre spec) (p₀ : P) (A : Multiset (Entry R)) (ss : List (Shard R)) (hg : ∀ s ∈ ss, good s)
    (hpre : pre p₀ (A + (ss.map (fun s => ents s.data)).sum)) : ∀ (fuel : Nat) (p : P) (qs : List LQ) (b : BQ) (out : List Out) (w : W),
    D.ReadyB p A b → List.Forall₂ (D.Ready p) (ss.map (fun s => ents s.data)) qs →
    D.Before p₀ p (A + (ss.map (fun s => ents s.data)).sum) out →
    ∃ o, Q.loop ss fuel p qs b out w = .ok o ∧ (∀ res, o = some res → spec p₀ (A + (ss.map (fun s => ents s.data)).sum) res) ∧
      (Q.OneRound → 0 < fuel → o ≠ none)
  | 0, p, qs, b, out, w, _, _, _ => ⟨none, rfl, by simp, by simp⟩
  | fuel+1, p, qs, b, out, w, hb, hq, hB => by
    obtain ⟨r, b', w1, h1, h2, h3⟩ := D.localBuffer p A b w hb
    obtain ⟨rs, qs', w2, full, g1, g2, g3, g4⟩ := shardRound_ok D p ss (Q.earlyAbort && !r.isEmpty) qs w1 hg hq
      (by intro h; simp only [Bool.and_eq_true] at h; exact h.1)
    have hr : r :: rs = (if Q.earlyAbort then cutAfter (r :: full) else r :: full) := by
      rw [g3]
      cases hE : Q.earlyAbort <;> cases hr : r.isEmpty <;> simp [cutAfter, hr]
    obtain ⟨out', c1, c2⟩ := D.combine p₀ p (A :: ss.map (fun s => ents s.data)) (r :: full) out (by simpa using hpre)
      (by simpa using hB) (List.Forall₂.cons h2 g2)
    rw [← hr] at c1
    obtain ⟨o, w3, a1, a2, a3⟩ := D.again p₀ p A _ out' qs' b' w2 hpre (by simpa using c2) h3 g4
    cases o with
    | none =>
      refine ⟨some out', ?_, by rintro res ⟨⟩; exact a2 rfl, by simp⟩
      simp only [QueryClass.loop, QueryClass.round, h1, g1, c1, a1, bind, Except.bind]
    | some x =>
      obtain ⟨p', qs1, b1⟩ := x
      obtain ⟨e1, e2, e3⟩ := a3 _ _ _ rfl
      obtain ⟨o, i1, i2, -⟩ := loop_ok D p₀ A ss hg hpre fuel p' qs1 b1 out' w3 e2 e3 e1
      refine ⟨o, ?_, i2, fun h1r _ => ?_⟩
      · simp only [QueryClass.loop, QueryClass.round, h1, g1, c1, a1, bind, Except.bind]
        exact i1
      · have := h1r _ _ _ _ _ _ _ a1
        cases this

/-- On any index state whose shards are good. -/
theorem query_ok (D : Decomposition Q good pre spec) {d : Index R} (hb : d.buf.view.gets = .ok d.buf.contents)
    (hg : ∀ s ∈ d.str.visible, good s) (p : P) (w : W) (fuel : Nat) (hpre : pre p d.entries) :
    ∃ o, d.query Q fuel p w = .ok o ∧ (∀ res, o = some res → spec p d.entries res) ∧ (Q.OneRound → 0 < fuel → o ≠ none) := by
  obtain ⟨b, w1, h1, h2⟩ := D.preprocBuffer d.buf.view d.buf.contents p w hb
  obtain ⟨qs, w2, h3, h4⟩ := locals_ok D p d.str.visible w1 hg
  obtain ⟨p', qs', b', w3, h5, h6, h7, h8⟩ := D.distribute p (ents d.buf.contents) _ qs b w2 hpre h2 h4
  obtain ⟨o, h9, h10, h11⟩ := loop_ok D p (ents d.buf.contents) d.str.visible hg hpre fuel p' qs' b' [] w3 h6 h7 h8
  exact ⟨o, by simp only [Index.query, h1, h3, h5, bind, Except.bind]; exact h9, h10, h11⟩

theorem Keeps.run [DecidableEq R] {I : ShardImpl R} (hk : I.Keeps good) {d0 : Index R}
    (h0 : BufInv d0.buf) (hI : d0.impl = I) (hl : d0.str.levels = [])
    {ops : List (Index.Op R)} {d : Index R} {bs : List Bool} (hr : d0.run ops = .ok (d, bs)) :
    SAll good d.str ∧ BufInv d.buf := by
  have := run_prefix_ind ops (fun _ d _ => SAll good d.str) h0 (by
    intro l hl'; rw [hl] at hl'; simp at hl') (by
    intro ops o d d' bs b _ _ hP hb hL ht hi hs
    refine step_all (Q := good) ⟨?_, ?_⟩ ?_ hP hs
    · rw [hi, hI]; exact hk.merge
    · rw [hi, hI]; exact fun s => hk.build _ s
    · intro r _ _ s j h _
      exact hk.tag s j h) hr
  exact ⟨this.1, this.2.1⟩

end DE
