import Verif.Proofs.OwnershipOps
import Verif.Proofs.Snapshot

/-!
The temporary shards of `create_static_structure`, and what queries dereference.
-/

namespace DE.Rc
variable {R : Type} {I : ShardImpl R} {x : RHeap R} {Ls Ss : Multiset Nat}
open Snap

/-- The shard pointers of a level that is alive are valid. -/
theorem Inv.wfL (i : Inv x Ls Ss) {a : Nat} (ha : a ∈ Ls) {l : HLevel} (hl : x.h.lv[a]? = some l) : WfL x.h l := by
  refine ⟨fun s hs => ?_, fun s hs => ?_⟩
  · exact i.shLt s (Multiset.mem_add.mpr (Or.inr (i.held_mem ha hl (mem_nn.mpr (List.mem_cons_of_mem _ hs)))))
  · exact i.shLt s (Multiset.mem_add.mpr (Or.inr (i.held_mem ha hl (mem_nn.mpr (hs ▸ List.mem_cons_self)))))

theorem shard_append {h : Heap R} {t : List (Shard R)} {s : Nat} (hs : s < h.sh.length) :
    ({ h with sh := h.sh ++ t } : Heap R).shard (some s) = h.shard (some s) := by
  show (h.sh ++ t)[s]? = h.sh[s]?
  rw [List.getElem?_append_left hs]

theorem readLevel_append {h : Heap R} {t : List (Shard R)} {l : HLevel} (w : WfL h l) :
    readLevel { h with sh := h.sh ++ t } l = readLevel h l := by
  unfold readLevel
  congr 1
  · apply List.map_congr_left
    intro o ho
    cases o with
    | none => rfl
    | some s => exact shard_append (w.1 s ho)
  · cases hp : l.pending with
    | none => rfl
    | some s => exact shard_append (w.2 s hp)

theorem recordCount_cnt {l : Level R} (h : l.recordCount > 0) : l.cnt ≠ 0 := by
  intro h0
  unfold Level.recordCount Level.visible at h
  rw [h0] at h
  simp at h

theorem combineLevels_spec (I : ShardImpl R) : ∀ {as : List Nat} {x : RHeap R} {Ss : Multiset Nat}, Inv x Ls Ss → (∀ a ∈ as, a ∈ Ls) →
    match ((as.map (readAt x.h)).filter (fun l => decide (l.recordCount > 0))).mapM (fun l => l.combined I) with
    | .ok ms => ∃ y ss, combineLevels I x as = .ok (y, ss) ∧ y.h.lv = x.h.lv ∧ (∃ t, y.h.sh = x.h.sh ++ t) ∧
        ss.map (fun a => y.h.shard (some a)) = ms ∧ Inv y Ls ((ss : Multiset Nat) + Ss)
    | .error e => combineLevels I x as = .error e
  | [], x, Ss, i, _ => ⟨x, [], rfl, rfl, ⟨[], by simp⟩, rfl, i.congr rfl (by simp)⟩
  | a :: as, x, Ss, i, hm => by
    have ha := hm a List.mem_cons_self
    have hm' : ∀ b ∈ as, b ∈ Ls := fun b hb => hm b (List.mem_cons_of_mem _ hb)
    obtain ⟨l, hl, hu⟩ := i.level ha
    have hr : readAt x.h a = readLevel x.h l := by unfold readAt; rw [hl]
    have hw := i.wfL ha hl
    have hdef : combineLevels I x (a :: as) = if (readLevel x.h l).recordCount > 0 then (do
        let m ← I.merge (present x.h l)
        let (x, s) := newShard x m
        let (x, ss) ← combineLevels I x as
        .ok (x, s :: ss)) else combineLevels I x as := by
      rw [combineLevels, hu, okb, i.use_level ha hl (fun s hs => List.mem_of_mem_take hs), okb]
      by_cases hc : (readLevel x.h l).recordCount > 0
      · rw [if_pos hc, if_pos hc, i.use_level ha hl (fun s hs => hs), okb]
      · rw [if_neg hc, if_neg hc]
    rw [hdef, List.map_cons, hr, List.filter_cons]
    by_cases hc : (readLevel x.h l).recordCount > 0
    · rw [if_pos (decide_eq_true hc), if_pos hc, List.mapM_cons]
      have hcomb : (readLevel x.h l).combined I = (I.merge (present x.h l)).map some := by
        unfold Level.combined
        rw [if_neg (recordCount_cnt hc), present_read hw]
      rw [hcomb]
      cases hmg : I.merge (present x.h l) with
      | error e => rfl
      | ok m =>
        have j := i.newShard m
        have ih := combineLevels_spec I (as := as) j hm'
        have hsame : as.map (readAt (newShard x m).1.h) = as.map (readAt x.h) := by
          apply List.map_congr_left
          intro b hb
          obtain ⟨lb, hlb, -⟩ := i.level (hm' b hb)
          have hlb' : (newShard x m).1.h.lv[b]? = some lb := hlb
          unfold readAt
          rw [hlb, hlb']
          exact readLevel_append (i.wfL (hm' b hb) hlb)
        rw [hsame] at ih
        have e1 : (Except.map some (.ok m) : Res (Option (Shard R))) = .ok (some m) := rfl
        rw [e1, okb]
        cases hrest : ((as.map (readAt x.h)).filter (fun l => decide (l.recordCount > 0))).mapM (fun l => l.combined I) with
        | error e =>
          rw [hrest] at ih
          show ((Except.ok m : Res _) >>= _) = _
          rw [okb]
          show (combineLevels I (newShard x m).1 as >>= _) = _
          rw [show combineLevels I (newShard x m).1 as = .error e from ih]; rfl
        | ok ms =>
          rw [hrest] at ih
          obtain ⟨y, ss, e2, elv, ⟨t, et⟩, ems, k⟩ := ih
          refine ⟨y, x.h.sh.length :: ss, ?_, elv, ⟨m :: t, ?_⟩, ?_, ?_⟩
          · show (combineLevels I (newShard x m).1 as >>= _) = _
            rw [e2]; rfl
          · rw [et]
            show (x.h.sh ++ [m]) ++ t = _
            simp
          · rw [List.map_cons, ems]
            congr 1
            show y.h.sh[x.h.sh.length]? = _
            rw [et]
            show ((x.h.sh ++ [m]) ++ t)[x.h.sh.length]? = _
            simp
          · refine k.congr rfl ?_
            rw [← Multiset.cons_coe, Multiset.cons_add, Multiset.add_cons]
    · rw [if_neg (by simpa using hc), if_neg hc]
      exact combineLevels_spec I i hm'

theorem nn_map_some (l : List Nat) : nn (l.map some) = (l : Multiset Nat) := by
  unfold nn; simp

/-- `create_static_structure`: same outcome as on values, the temporary shards are freed, one shard is handed out. -/
theorem createStatic_spec (d : Index R) {st : HStruct} (i : Inv x Ls Ss) (hm : ∀ a ∈ st.levels, a ∈ Ls) (hd : d.str = read x.h st) :
    match d.staticStructure with
    | .ok s => ∃ y f, createStatic d.impl x st d.buf.view = .ok (y, f) ∧ y.h.lv = x.h.lv ∧ (∃ t, y.h.sh = x.h.sh ++ t) ∧
        x.h.sh.length ≤ f ∧ y.h.sh[f]? = some s ∧ Inv y Ls (f ::ₘ Ss)
    | .error e => createStatic d.impl x st d.buf.view = .error e := by
  have hsp := combineLevels_spec d.impl (as := st.levels.reverse) i (fun a ha => hm a (List.mem_reverse.mp ha))
  have hlv : d.str.levels.reverse = st.levels.reverse.map (readAt x.h) := by rw [hd, List.map_reverse]; rfl
  unfold Index.staticStructure createStatic
  rw [hlv]
  -- finishing with the shards `ss`
  have fin : ∀ (y : RHeap R) (ss : List Nat) (ms : List (Option (Shard R))), y.h.lv = x.h.lv → (∃ t, y.h.sh = x.h.sh ++ t) →
      ss.map (fun a => y.h.shard (some a)) = ms → Inv y Ls ((ss : Multiset Nat) + Ss) →
      match d.impl.merge ms with
      | .ok s => ∃ z f, (do
          useSs y (ss.map some)
          let m ← d.impl.merge (ss.map (fun a => y.h.shard (some a)))
          let (x, f) := newShard y m
          let x ← decSs x (ss.map some)
          .ok (x, f) : Res (RHeap R × Nat)) = .ok (z, f) ∧ z.h.lv = x.h.lv ∧ (∃ t, z.h.sh = x.h.sh ++ t) ∧
          x.h.sh.length ≤ f ∧ z.h.sh[f]? = some s ∧ Inv z Ls (f ::ₘ Ss)
      | .error e => (do
          useSs y (ss.map some)
          let m ← d.impl.merge (ss.map (fun a => y.h.shard (some a)))
          let (x, f) := newShard y m
          let x ← decSs x (ss.map some)
          .ok (x, f) : Res (RHeap R × Nat)) = .error e := by
    intro y ss ms e1 ⟨t, e2⟩ e3 k
    rw [k.useSs_eq (fun a ha => Multiset.mem_add.mpr (Or.inl (Multiset.mem_add.mpr (Or.inl (by simpa using ha))))), okb, e3]
    cases hmg : d.impl.merge ms with
    | error e => rfl
    | ok s =>
      obtain ⟨z, e4, eh, kz⟩ := ((k.newShard s).congr (Ss' := nn (ss.map some) + (y.h.sh.length ::ₘ Ss)) rfl
        (by rw [nn_map_some, Multiset.add_cons])).decSs
      refine ⟨z, y.h.sh.length, ?_, ?_, ⟨t ++ [s], ?_⟩, ?_, ?_, kz⟩
      · show (decSs (newShard y s).1 (ss.map some) >>= _) = _
        rw [e4]; rfl
      · rw [eh]; exact e1
      · rw [eh]
        show y.h.sh ++ [s] = _
        rw [e2]; simp
      · rw [e2]; simp
      · rw [eh]
        show (y.h.sh ++ [s])[y.h.sh.length]? = some s
        simp
  cases hms : ((st.levels.reverse.map (readAt x.h)).filter (fun l => decide (l.recordCount > 0))).mapM (fun l => l.combined d.impl) with
  | error e =>
    rw [hms] at hsp
    show _ = _
    rw [show combineLevels d.impl x st.levels.reverse = .error e from hsp]; rfl
  | ok ms =>
    rw [hms] at hsp
    obtain ⟨y, ss, e1, elv, ⟨t, et⟩, ems, k⟩ := hsp
    rw [e1, okb, okb]
    simp only
    by_cases hv : d.buf.view.count > 0
    · simp only [if_pos hv]
      cases hb : d.impl.build d.buf.view with
      | error e => rfl
      | ok s =>
        have := fin (newShard y s).1 (ss ++ [y.h.sh.length]) (ms ++ [some s]) elv ⟨t ++ [s], by
          show y.h.sh ++ [s] = _
          rw [et]; simp⟩ (by
          rw [List.map_append, ← ems]
          congr 1
          · apply List.map_congr_left
            intro a ha
            have hlt : a < y.h.sh.length := k.shLt a (Multiset.mem_add.mpr (Or.inl (Multiset.mem_add.mpr (Or.inl (Multiset.mem_coe.mpr ha)))))
            exact shard_append hlt
          · show [(y.h.sh ++ [s])[y.h.sh.length]?] = _
            simp) ((k.newShard s).congr rfl (by
          rw [← Multiset.coe_add, Multiset.coe_singleton, ← Multiset.singleton_add]
          abel))
        exact this
    · simp only [if_neg hv]
      have := fin y ss (ms ++ []) elv ⟨t, et⟩ (by rw [ems, List.append_nil]) k
      exact this

/-- What `get_local_queries` dereferences is alive, and is what a reader of the version sees. -/
theorem visit_spec (i : Inv x Ls Ss) : ∀ {as : List Nat}, (∀ a ∈ as, a ∈ Ls) → ∃ ps, visit x as = .ok ps ∧ (∀ p ∈ ps, x.src p ≠ 0) ∧
    ps.map (fun a => x.h.shard (some a)) = ((as.map (readAt x.h)).flatMap Level.visible).map some
  | [], _ => ⟨[], rfl, fun p hp => by simp at hp, rfl⟩
  | a :: as, hm => by
    have ha := hm a List.mem_cons_self
    obtain ⟨l, hl, hu⟩ := i.level ha
    obtain ⟨ps, e, h1, h2⟩ := visit_spec i (as := as) (fun b hb => hm b (List.mem_cons_of_mem _ hb))
    have hr : readAt x.h a = readLevel x.h l := by unfold readAt; rw [hl]
    refine ⟨(l.shards.take l.cnt).filterMap id ++ ps, ?_, ?_, ?_⟩
    · rw [visit, hu, okb, i.use_level ha hl (fun s hs => List.mem_of_mem_take hs), okb, e]; rfl
    · intro p hp
      rcases List.mem_append.mp hp with hp | hp
      · have : p ∈ nn (l.shards.take l.cnt) := hp
        rw [mem_nn] at this
        exact i.src_pos (Multiset.mem_add.mpr (Or.inr (i.held_mem ha hl (mem_nn.mpr (List.mem_cons_of_mem _ (List.mem_of_mem_take this))))))
      · exact h1 p hp
    · rw [List.map_append, h2, List.map_cons, List.flatMap_cons, List.map_append, hr]
      congr 1
      unfold Level.visible readLevel
      simp only
      rw [← List.map_take]
      have hw : ∀ s, some s ∈ l.shards.take l.cnt → s < x.h.sh.length := fun s hs => (i.wfL ha hl).1 s (List.mem_of_mem_take hs)
      generalize l.shards.take l.cnt = os at hw
      induction os with
      | nil => rfl
      | cons o os ih =>
        have ih := ih (fun s hs => hw s (List.mem_cons_of_mem _ hs))
        cases o with
        | none => exact ih
        | some s =>
          have hs := hw s List.mem_cons_self
          have e1 : x.h.shard (some s) = some x.h.sh[s] := List.getElem?_eq_getElem hs
          have e2 : List.filterMap id (List.map x.h.shard (some s :: os)) = x.h.sh[s] :: List.filterMap id (os.map x.h.shard) := by
            rw [List.map_cons, e1]; rfl
          rw [e2, List.map_cons, ← ih, ← e1]; rfl

end DE.Rc
