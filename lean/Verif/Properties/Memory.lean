import Verif.Model.Memory
import Verif.Properties.Search
import Verif.Properties.Counts
import Verif.Properties.VPTree

/-!
C89: `get_memory_usage` counts the memory for records and index nodes.
-/

namespace DE

/-! ### Specification -/

/-- The nodes of a tree. -/
def VP.Node.size {𝔽 : Type} : VP.Node 𝔽 → Nat
  | .null => 0
  | .leaf _ _ => 1
  | .node _ _ i o => i.size + o.size + 1

variable {R : Type}

/-- Bytes of the ring of the buffer and, for each shard the index refers to, of the records stored in it and of its index nodes
(`nodes s` of them). The arrays of the shards may be larger than this, never smaller. -/
def Index.storage (szW szNode : Nat) (nodes : Shard R → Nat) (d : Index R) : Nat :=
  d.buf.cap * szW + (d.str.visible.map (fun s => s.data.length * szW + nodes s * szNode)).sum

/-! ### Proofs -/

theorem sum_flatMap {α β : Type} (f : β → Nat) (g : α → List β) : ∀ l : List α,
    ((l.flatMap g).map f).sum = (l.map (fun a => ((g a).map f).sum)).sum
  | [] => rfl
  | a :: l => by rw [List.flatMap_cons, List.map_append, List.sum_append, List.map_cons, List.sum_cons, sum_flatMap f g l]

theorem memoryUsage_eq (szW : Nat) (f : Shard R → Nat) (d : Index R) :
    d.memoryUsage szW f = d.buf.cap * szW + (d.str.visible.map f).sum := by
  unfold Index.memoryUsage Struct.memoryUsage Struct.visible Buffer.memoryUsage
  rw [sum_flatMap]; rfl

theorem sum_split {α : Type} (f g : α → Nat) : ∀ l : List α, (l.map (fun a => f a + g a)).sum = (l.map f).sum + (l.map g).sum
  | [] => rfl
  | a :: l => by simp only [List.map_cons, List.sum_cons, sum_split f g l]; omega

theorem sum_mul {α : Type} (f : α → Nat) (c : Nat) : ∀ l : List α, (l.map (fun a => f a * c)).sum = (l.map f).sum * c
  | [] => by simp
  | a :: l => by simp only [List.map_cons, List.sum_cons, sum_mul f c l, Nat.add_mul]

/-- A shard class that reports its nodes only. -/
theorem storage_of_nodes {szW szNode : Nat} {nodes f : Shard R → Nat} {d : Index R} (h : ∀ s ∈ d.str.visible, f s = nodes s * szNode) :
    d.memoryUsage szW f + (d.str.visible.map (fun s => s.data.length)).sum * szW = d.storage szW szNode nodes := by
  rw [memoryUsage_eq, Index.storage, sum_split, sum_mul, List.map_congr_left h]
  omega

theorem step_cap [DecidableEq R] {d d' : Index R} (h : BufInv d.buf) {o : Index.Op R} {b : Bool}
    (hs : d.step o = .ok (d', b)) : d'.buf.cap = d.buf.cap := by
  have happ : ∀ (bf : Buffer R) r ts, (bf.append r ts).1.cap = bf.cap := by
    intro bf r ts
    unfold Buffer.append
    split <;> rfl
  have hia : ∀ r ts, d.internalAppend r ts = .ok (d', b) → d'.buf.cap = d.buf.cap := by
    intro r ts hs
    unfold Index.internalAppend at hs
    by_cases hat : d.buf.atLwm = true
    · rw [if_pos hat, bind_ok] at hs
      obtain ⟨d1, f1, f2⟩ := hs
      obtain ⟨g1, -⟩ := flush_buf h hat f1
      have hd : d' = { d1 with buf := (d1.buf.append r ts).1 } := (congrArg Prod.fst (Except.ok.inj f2)).symm
      rw [hd]; simp only; rw [happ, g1]; rfl
    · rw [if_neg hat] at hs
      have hd : d' = { d with buf := (d.buf.append r ts).1 } := (congrArg Prod.fst (Except.ok.inj hs)).symm
      rw [hd]; simp only; rw [happ]
  cases o with
  | ins r => exact hia r false hs
  | del r =>
    simp only [Index.step, Index.erase] at hs
    split at hs
    · rw [bind_ok] at hs
      obtain ⟨o, h1, h2⟩ := hs
      cases o with
      | some ls => cases h2; rfl
      | none =>
        cases h2
        unfold Buffer.deleteRecord
        split <;> rfl
    · exact hia r true hs

theorem run_cap [DecidableEq R] [Inhabited R] {L : Layout} {tag : Bool} {I : ShardImpl R} {lwm hwm sf : Nat} {d0 d : Index R}
    {ops : List (Index.Op R)} {bs : List Bool} (hnew : Index.new L tag I lwm hwm sf = .ok d0) (hlwm : 1 ≤ lwm)
    (hrun : d0.run ops = .ok (d, bs)) : d.buf.cap = 2 * hwm := by
  refine (run_prefix_ind ops (fun _ d _ => d.buf.cap = 2 * hwm) (new_buf hnew hlwm) (by rw [(new_ok hnew).1]) ?_ hrun).1
  intro ops o d d' bs b _ _ hc hb _ _ _ hs
  rw [step_cap hb hs, hc]

/-- The counter of the VPTree constructor is the number of nodes of the tree. -/
theorem VP.build_size {𝔽 : Type} [LinearOrder 𝔽] (dist : R → R → 𝔽) (leafSz : Nat) (g : Rng) :
    ∀ (fuel start stop : Nat) (a : List (VP.Ptr R 𝔽)) (pos : Nat) {t : VP.Node 𝔽} {a' : List (VP.Ptr R 𝔽)} {pos' : Nat},
    VP.build dist leafSz g fuel start stop a pos = .ok (t, a', pos') → t.size = VP.nodeCnt leafSz fuel start stop
  | 0, _, _, _, _, _, _, _, h => by cases h
  | fuel+1, start, stop, a, pos, t, a', pos', h => by
    unfold VP.build at h
    unfold VP.nodeCnt
    split at h
    · rename_i h1; rw [if_pos h1]; cases h; rfl
    · rename_i h1; rw [if_neg h1]
      split at h
      · rename_i h2; rw [if_pos h2]; cases h; rfl
      · rename_i h2; rw [if_neg h2]
        simp only [bind_ok] at h
        obtain ⟨⟨o, p1⟩, -, a1, -, v, -, a2, -, ⟨a3, p2⟩, -, m, -, ⟨i, a4, p3⟩, hi, ⟨o', a5, p4⟩, ho, he⟩ := h
        cases he
        show i.size + o'.size + 1 = _
        rw [VP.build_size dist leafSz g fuel _ _ _ _ hi, VP.build_size dist leafSz g fuel _ _ _ _ ho]

/-! ### C89 -/

/-- C89 for ISAM trees, the part that holds: whatever the history, layout and delete policy, the ring of the buffer and the nodes of every
tree are counted, each exactly once. Missing: the records of the shards, which are not counted at all (`C89_false`). -/
theorem C89_isam_partial {K : Type} [LinearOrder R] [LinearOrder K] [HasKey R K] [Inhabited R] {L : Layout} {tag : Bool} {I : ShardImpl R}
    {lwm hwm sf : Nat} {d0 d : Index R} {ops : List (Index.Op R)} {bs : List Bool} (hnew : Index.new L tag I lwm hwm sf = .ok d0)
    (hlwm : 1 ≤ lwm) (hrun : d0.run ops = .ok (d, bs)) {F LF : Nat} (hF : 2 ≤ F) (hLF : 1 ≤ LF) (z : K) (szW szNode : Nat) :
    d.buf.cap = 2 * hwm ∧
    d.memoryUsage szW (isamMemory F LF szNode) + (d.str.visible.map (fun s => s.data.length)).sum * szW =
      d.storage szW szNode (fun s => if s.data = [] then 0 else (Isam.buildTree F LF z s.data).1.length) := by
  refine ⟨run_cap hnew hlwm hrun, storage_of_nodes ?_⟩
  intro s _
  unfold isamMemory Isam.nodeCnt
  by_cases hs : s.data = []
  · simp [hs]
  · rw [if_neg hs, if_neg (fun h => hs (List.length_eq_zero_iff.mp h)), isam_nodes hF hLF z hs (Nat.lt_succ_self _)]

/-- C89 for VPTrees, the part that holds: whatever the index, the nodes of every tree that was built are counted, each exactly once, and
one pointer (`szPtr` bytes) for each record. Missing: the records (and the distance stored beside each pointer). -/
theorem C89_vptree_partial {𝔽 : Type} [LinearOrder 𝔽] [Zero 𝔽] (dist : R → R → 𝔽) (leafSz : Nat) (g : Shard R → Rng) {d : Index R}
    {t : Shard R → VP.Tree R 𝔽} (ht : ∀ s ∈ d.str.visible, VP.tree dist leafSz (g s) s.data = .ok (t s)) (szW szNode szPtr : Nat) :
    d.memoryUsage szW (vpMemory leafSz szNode szPtr) + (d.str.visible.map (fun s => s.data.length)).sum * szW =
      d.storage szW szNode (fun s => (t s).root.size) + (d.str.visible.map (fun s => s.data.length)).sum * szPtr := by
  have h : ∀ s ∈ d.str.visible, vpMemory leafSz szNode szPtr s = (t s).root.size * szNode + s.data.length * szPtr := by
    intro s hs
    have h := ht s hs
    unfold VP.tree at h
    unfold vpMemory
    split at h
    · rename_i h0; rw [if_pos h0, ← Except.ok.inj h]; rfl
    · rename_i h0
      rw [if_neg h0]
      simp only [bind_ok] at h
      obtain ⟨⟨root, a, pos⟩, h1, h2⟩ := h
      rw [← Except.ok.inj h2, VP.build_size _ _ _ _ _ _ _ _ h1]
  rw [memoryUsage_eq, Index.storage, sum_split, sum_mul, List.map_congr_left h, sum_split, sum_mul, sum_mul]
  omega

/-- C89 is false of Alias shards: whatever the history, only the ring is reported, so every insert-only history of more records than the
ring has slots occupies more than is reported. -/
theorem C89_alias_false {K : Type} [LinearOrder R] [LinearOrder K] [HasKey R K] [Inhabited R] {L : Layout} {tag : Bool} {pq : PQ R}
    {lb : LB R K} {lwm hwm sf : Nat} {d0 : Index R} {ops : List (Index.Op R)} (hnew : Index.new L tag (sortedImpl pq lb) lwm hwm sf = .ok d0)
    (hlwm : 1 ≤ lwm) (hsf : 1 ≤ sf) (hio : InsertOnly ops) (hlen : 2 * hwm < ops.length) {szW : Nat} (hsz : 0 < szW) :
    ∃ d, d0.run ops = .ok (d, List.replicate ops.length true) ∧ d.memoryUsage szW aliasMemory = 2 * hwm * szW ∧
      d.recordCount = ops.length ∧ d.memoryUsage szW aliasMemory < d.recordCount * szW := by
  obtain ⟨d, h1, h2, h3, -⟩ := (new_clean hnew hlwm hsf).run ops hio
  obtain ⟨d', bs, h4, h5⟩ := C14_insert_only hnew hlwm hsf hio
  rw [h1] at h4
  cases h4
  have hm : d.memoryUsage szW aliasMemory = 2 * hwm * szW := by
    rw [memoryUsage_eq, run_cap hnew hlwm h1]
    have : ∀ l : List (Shard R), (l.map aliasMemory).sum = 0 := by
      intro l; induction l with
      | nil => rfl
      | cons a l ih => rw [List.map_cons, List.sum_cons, ih]; rfl
    rw [this]; rfl
  refine ⟨d, h1, hm, h5, ?_⟩
  rw [hm, h5]
  exact Nat.mul_lt_mul_of_pos_right hlen hsz

/-- C89 is false of ISAM trees too: 18 records of 24 bytes and a tree of one node of 256 bytes are reported as 352 bytes, the size of the
node and of a ring of four slots. -/
theorem C89_false : ∃ (d0 d : Index Rec) (bs : List Bool), mk .leveling false 2 2 8 = .ok d0 ∧ d0.run (insSeq 0 18) = .ok (d, bs) ∧
    d.recordCount = 18 ∧ d.memoryUsage 24 (isamMemory 16 16 256) = 352 ∧ 352 < 18 * 24 := by
  have h : probe .leveling false 2 2 8 (insSeq 0 18) (fun p => .ok (p.1.recordCount, p.1.memoryUsage 24 (isamMemory 16 16 256))) =
      .ok (18, 352) := by decide
  obtain ⟨d0, d, bs, h1, h2, h3⟩ := probe_ok h
  have h3 := Except.ok.inj h3
  exact ⟨d0, d, bs, h1, h2, congrArg Prod.fst h3, congrArg Prod.snd h3, by decide⟩

/-- Trees of 1, 1, 3 and 7 nodes and a ring of 12 slots. -/
example : probe .tiering false 2 6 2 (insSeq 0 31) (fun p => .ok (p.1.memoryUsage 24 (isamMemory 2 2 256), p.1.str.visible.map (·.data.length))) =
    .ok (12 * 24 + 12 * 256, [2, 4, 8, 16]) := by decide

/-- The hypotheses of `C89_vptree_partial`: every tree is built. -/
example : vpProbe 1 .tiering false 2 3 2 (insSeq 0 13) (fun p => .ok (p.1.memoryUsage 24 (vpMemory 1 48 8), p.1.str.visible.map (fun s =>
      match VP.tree keyDist 1 (tapeRng (5 * ·)) s.data with | .ok t => (s.data.length, t.root.size) | .error _ => (0, 0)))) =
    .ok (6 * 24 + 8 * 48 + 12 * 8, [(2, 1), (2, 1), (4, 3), (4, 3)]) := by decide

end DE
