import Verif.Proofs.ConcPool

/-!
C94: an index whose queries and reconstructions run on a single worker thread (`FIFOScheduler` with `thread_cnt = 1`), while any
number of clients insert and await epochs. `Pool P n w s` says that `s` is reached by such an execution, `w` being the worker.
-/

namespace DE.Conc
variable {P : Par} {n w : Nat} {s s' : St} {i : Nat} {t : Th} {c : Ch}

/-! ### Helpers -/

theorem Pool.alone {inn : PC → Bool} {m : Nat} (h : Pool P n w s) (hin : inn .idle = false) (ha : Alone P i inn s m s') :
    Pool P n w s' := by
  induction ha with
  | refl => exact h
  | step _ hi hx hs ih =>
    refine ih.step ?_ hs
    rintro ⟨⟨u, hu, hpc⟩, -⟩
    rw [hi] at hu; cases hu
    rw [hpc, hin] at hx; cases hx

/-- Execute a schedule in which only thread `w` starts queries and reconstructions. -/
theorem Pool.exec : ∀ {l : List (Nat × Ch)} {a : St}, Pool P n w a → (l.all fun x => (x.2 != .query && x.2 != .work) || x.1 == w) = true →
    Conc.exec P l a = .ok (some s) → Pool P n w s
  | [], a, h, _, he => by cases he; exact h
  | (i, c) :: l, a, h, hl, he => by
    rw [List.all_cons, Bool.and_eq_true] at hl
    unfold Conc.exec at he
    split at he
    · rename_i b hb
      refine Pool.exec (h.step ?_ hb) hl.2 he
      rintro ⟨-, hc⟩
      have := hl.1
      rcases hc with rfl | rfl <;> simpa using this
    · rename_i hx; exact absurd he (hx s)

theorem pool_of (l : List (Nat × Ch)) (q : St → Bool) (hl : (l.all fun x => (x.2 != .query && x.2 != .work) || x.1 == w) = true)
    (h : (match Conc.exec P l (init P n) with | .ok (some s) => q s | _ => false) = true) : ∃ s, Pool P n w s ∧ q s = true := by
  split at h
  · rename_i s hs; exact ⟨s, Pool.exec .init hl hs, h⟩
  · cases h

/-! ### C94: with one worker every reference is counted where it was taken -/

/-- The number of threads that have pinned epoch `e`. -/
def pinsOf (s : St) (e : Nat) : Nat := s.thr.countP (fun t => decide (t.ep = some e))
/-- The number of threads with a view on head `x`. -/
def viewsOf (s : St) (x : Nat) : Nat := s.thr.countP (fun t => decide (t.hd = some x))

theorem pinsOf_eq (s : St) (e : Nat) : pinsOf s e = s.H e := rfl
theorem viewsOf_eq (s : St) (e : Nat) : viewsOf s e = s.V e := rfl

/-- In every state of such an execution: nothing is ever counted on the previous epoch or the old head; the counts of the current
epoch and the current head are the numbers of threads that have pinned them; every thread that is about to decrement a count has
pinned what it decrements. -/
theorem C94 (hw : 0 < P.hwm) (h : Pool P n w s) :
    s.prev.ref = 0 ∧ s.old.ref = 0 ∧ (∀ e, s.cur.ep = some e → s.cur.ref = pinsOf s e) ∧ s.head.ref = viewsOf s s.head.idx ∧
      (∀ t ∈ s.thr, (∀ e, t.ep = some e → s.cur.ep = some e) ∧ ∀ x, t.hd = some x → x = s.head.idx) ∧
      EndsOwn s ∧ ReleasesOwn s := by
  have hI := h.reach.inv hw
  have ho := h.ow hw
  have hprev : ∀ e, s.cur.ep = some e → ∀ e0, e0 ≠ e → s.H e0 = 0 := by
    intro e he e0 hne
    by_contra hx
    obtain ⟨u, hu, hx⟩ := List.countP_pos_iff.mp (Nat.pos_of_ne_zero hx)
    obtain ⟨j, hj⟩ := List.getElem?_of_mem hu
    have := (ho.thr j u hj).ep e0 (of_decide_eq_true hx)
    rw [he] at this; cases this
    exact hne rfl
  have hview : ∀ x, x ≠ s.head.idx → s.V x = 0 := by
    intro x hne
    by_contra hx
    obtain ⟨u, hu, hx⟩ := List.countP_pos_iff.mp (Nat.pos_of_ne_zero hx)
    obtain ⟨j, hj⟩ := List.getElem?_of_mem hu
    exact hne ((ho.thr j u hj).hd x (of_decide_eq_true hx)).symm
  refine ⟨ho.prev, ho.old, ?_, ?_, ?_, ?_, ?_⟩
  · intro e he
    rw [pinsOf_eq]
    have hcalm : EpS s.sv s.prev s.cur := by
      obtain ⟨ph, hph⟩ := hI.some_phase
      have hc := hI.core ph hph
      cases ph with
      | A => exact hc.1.1
      | Cr e => exact hc.1.1
      | N => exact hc.1.1
      | A1 e => exact hc.1.1
      | G e g => exact hc.1.1
      | R e x => exact hc.1.1
      | B y c => have h1 : s.cur = ⟨none, 0⟩ := hc.1; rw [h1] at he; cases he
      | C y k l => obtain ⟨e1, ⟨h1, -⟩, -⟩ := hc; have h1 : s.cur = ⟨none, 0⟩ := h1; rw [h1] at he; cases he
      | W y k c => obtain ⟨e1, ⟨h1, -⟩, -⟩ := hc; have h1 : s.cur = ⟨none, 0⟩ := h1; rw [h1] at he; cases he
      | D y k => obtain ⟨e1, ⟨h1, -⟩, -⟩ := hc; have h1 : s.cur = ⟨none, 0⟩ := h1; rw [h1] at he; cases he
      | A2 => exact hc.1.1
    obtain ⟨e1, h1, -, -, h2⟩ := hcalm
    rw [he] at h1; cases h1
    rcases h2 with ⟨-, h2, -⟩ | ⟨e0, -, hne, -, -, -, h2, -⟩
    · exact h2
    · have h2 : s.prev.ref + s.cur.ref = s.H e0 + s.H e := h2
      rw [ho.prev, hprev e he e0 hne] at h2
      omega
  · rw [viewsOf_eq]
    by_cases hg : GapH s
    · rw [(hI.in_gapH hg).1]
      symm
      refine List.countP_eq_zero.mpr fun u hu => ?_
      obtain ⟨v, hv, e, c, hpc⟩ := hg
      obtain ⟨j, hj⟩ := List.getElem?_of_mem hv
      obtain ⟨k, hk⟩ := List.getElem?_of_mem hu
      have hfree : Free u := by
        by_cases hx : k = j
        · subst hx; rw [hj] at hk; cases hk
          have := (hI.thread hj).1
          unfold LocPc at this; rw [hpc] at this; exact this
        · exact ho.free hI hj (by unfold sect; rw [hpc]; simp) (by rw [hpc]; rfl) k u hx hk
      simp [hfree.2]
    · obtain ⟨hne, -, h2, -⟩ := hI.bufS hg
      have h2 : s.old.ref + s.head.ref = s.V s.old.idx + s.V s.head.idx := h2
      rw [ho.old, hview _ hne] at h2
      omega
  · intro t ht
    obtain ⟨j, hj⟩ := List.getElem?_of_mem ht
    exact ⟨(ho.thr j t hj).ep, fun x hx => ((ho.thr j t hj).hd x hx).symm⟩
  · intro i t k o hi
    refine ⟨fun hpc => ?_, fun hpc _ => ?_⟩
    · have := (ho.thr i t hi).str; rw [hpc] at this; cases this
    · have hl := (hI.thread hi).1
      unfold LocPc at hl; rw [hpc] at hl
      obtain ⟨e, he⟩ := Option.ne_none_iff_exists'.mp hl.1
      rw [(ho.thr i t hi).ep e he, he]
  · intro i t k o hi
    refine ⟨fun hpc => ?_, fun hpc _ => ?_⟩
    · have := (ho.thr i t hi).str; rw [hpc] at this; cases this
    · have hl := (hI.thread hi).1
      unfold LocPc at hl; rw [hpc] at hl
      obtain ⟨x, hx⟩ := Option.ne_none_iff_exists'.mp hl.1
      rw [hx, (ho.thr i t hi).hd x hx]

theorem Pool.cur_pos (hw : 0 < P.hwm) (h : Pool P n w s) (hi : s.thr[i]? = some t) (he : t.ep ≠ none) : 0 < s.cur.ref := by
  obtain ⟨e, he⟩ := Option.ne_none_iff_exists'.mp he
  obtain ⟨-, -, h1, -⟩ := C94 hw h
  rw [h1 e ((h.ow hw).thr i t hi |>.ep e he), pinsOf_eq]
  exact H_pos hi he

theorem calling_pool {p : PC} (h : calling p = true) : onPool p = true := by
  cases p <;> first | rfl | (exfalso; cases h; done) | (rename_i k; cases k <;> first | rfl | (exfalso; cases h; done)) |
    (rename_i k _; cases k <;> first | rfl | (exfalso; cases h; done))

theorem Pool.not_waits (hw : 0 < P.hwm) (h : Pool P n w s) (hi : s.thr[i]? = some t) (hin : calling t.pc = true) : ¬ Waits s t := by
  have ho := h.ow hw
  have hiw : i = w := (ho.thr i t hi).pool.resolve_right (by rw [calling_pool hin]; simp)
  have other : ∀ {u : Th}, u ∈ s.thr → onPool u.pc = true → u = t := by
    intro u hu hp
    obtain ⟨j, hj⟩ := List.getElem?_of_mem hu
    have : j = w := (ho.thr j u hj).pool.resolve_right (by rw [hp]; simp)
    rw [this, ← hiw, hi] at hj
    exact (Option.some.inj hj).symm
  rintro (⟨⟨u, hu, e, c, hpc⟩, -⟩ | ⟨⟨u, hu, e, c, hpc⟩, -⟩ | ⟨-, h1, h2⟩)
  · rw [← other hu (by rw [hpc]; rfl), hpc] at hin; cases hin
  · rw [← other hu (by rw [hpc]; rfl), hpc] at hin; cases hin
  · obtain ⟨-, -, -, h3, -⟩ := C94 hw h
    rw [viewsOf_eq] at h3
    have := V_pos hi h1
    omega

/-- No call of a query waits for another thread: running alone, wherever the others are, it returns after at most 7 steps, and its
assertion holds. -/
theorem C94_query (hw : 0 < P.hwm) (h : Pool P n w s) (hi : s.thr[i]? = some t) (hin : calling t.pc = true) :
    (∀ m s', Alone P i calling s m s' → m ≤ 7) ∧
    ∃ m s' u, Alone P i calling s m s' ∧ s'.thr[i]? = some u ∧ (u.pc = .run ∨ u.pc = .gt .client) := by
  obtain ⟨h1, m, s', u, ha, hu, hx⟩ := (C71_partial hw h.reach hi hin).1 (h.not_waits hw hi hin)
  refine ⟨h1, m, s', u, ha, hu, hx.resolve_right ?_⟩
  rintro ⟨hpc, hz⟩
  have h' := h.alone (by rfl) ha
  have hl := ((h'.reach.inv hw).thread hu).1
  unfold LocPc at hl; rw [hpc] at hl
  have := h'.cur_pos hw hu hl.1
  omega

/-- No insert waits: running alone it returns after at most 16 steps, and its assertions hold. -/
theorem C94_insert (hw : 0 < P.hwm) (h : Pool P n w s) (hi : s.thr[i]? = some t) (hin : appending t.pc = true) :
    (∀ m s', Alone P i appending s m s' → m ≤ 16) ∧
    ∃ m s' u, Alone P i appending s m s' ∧ s'.thr[i]? = some u ∧ u.pc = .idle := by
  obtain ⟨h1, m, s', u, ha, hu, hx⟩ := C70 hw h.reach hi hin
  refine ⟨h1, m, s', u, ha, hu, hx.resolve_right ?_⟩
  rintro ⟨⟨r, hpc⟩, hz⟩
  have h' := h.alone (by rfl) ha
  have hl := ((h'.reach.inv hw).thread hu).1
  unfold LocPc at hl; rw [hpc] at hl
  have := h'.cur_pos hw hu hl.1
  omega

/-- A reconstruction waits for nothing but the lock of the condition variable: running alone it finishes, unless it flushes an
empty view (then the assert of `advance_head` fails). -/
theorem C94_rebuild (hw : 0 < P.hwm) (h : Pool P n w s) (hi : s.thr[i]? = some t) (hin : rebuilding t.pc = true)
    (hlock : s.lock = none ∨ s.lock = some i) :
    (∀ m s', Alone P i rebuilding s m s' → m ≤ 33 + P.hwm) ∧
    ∃ m s' u, Alone P i rebuilding s m s' ∧ s'.thr[i]? = some u ∧
      ((u.pc = .idle ∧ s'.flag = false) ∨ ((∃ e, u.pc = .ad7 e) ∧ u.tl = s'.head.idx)) := by
  have ho := h.ow hw
  have hr : Ready s t.pc := by
    refine ⟨fun _ => ho.prev, fun _ => ho.old, fun hu => hlock.resolve_right fun hl => ?_⟩
    obtain ⟨u, h1, h2⟩ := h.reach.lockOk i hl
    rw [hi] at h1; cases h1
    revert hu h2 hin
    cases t.pc <;> simp [locking, unlocked, rebuilding]
  obtain ⟨h1, h2⟩ := (C72 hw h.reach hi hin).1 hr
  exact ⟨fun m s' ha => (h1 m s' ha).2, h2⟩

/-- The only assertion that can fail is the one of `advance_head` for an empty view. -/
theorem C94_abort (hw : 0 < P.hwm) (h : Pool P n w s) (hi : s.thr[i]? = some t) (hs : Conc.step P s i c = .error .abort) :
    i = w ∧ ∃ e, t.pc = .ad7 e ∧ t.tl = s.head.idx := by
  rcases C59_partial hw h.reach hi hs with ⟨k, hpc, -, hz⟩ | ⟨e, hpc, htl⟩
  · have hl := ((h.reach.inv hw).thread hi).1
    unfold LocPc at hl; rw [hpc] at hl
    have := h.cur_pos hw hi hl.1
    omega
  · exact ⟨((h.ow hw).thr i t hi).pool.resolve_right (by rw [hpc]; simp [onPool]), e, hpc, htl⟩

/-- The theorems are about executions with something in them: a query holds the current epoch and a view on the current head while a
client is inside an append that has scheduled a reconstruction; and later the same worker is inside that reconstruction. -/
example : (∃ s, Pool P12 2 1 s ∧ pcOf s 1 = some .run ∧ pcOf s 0 = some (.ap5 11 1) ∧ s.cur = ⟨some 0, 1⟩ ∧ s.head = ⟨0, 1⟩ ∧ s.jobs = [1]) ∧
    ∃ s t, Pool P12 2 1 s ∧ s.thr[1]? = some t ∧ rebuilding t.pc = true ∧ s.lock = none ∧ s.prev = ⟨some 0, 0⟩ := by
  constructor
  · obtain ⟨s, h1, h2⟩ := pool_of (P := P12) (n := 2) (w := 1) (insLow 0 10 ++ query 1 ++ (insSched 0 11).take 16)
      (fun s => decide (pcOf s 1 = some .run ∧ pcOf s 0 = some (.ap5 11 1) ∧ s.cur = ⟨some 0, 1⟩ ∧ s.head = ⟨0, 1⟩ ∧ s.jobs = [1]))
      (by decide) (by decide)
    rw [decide_eq_true_eq] at h2
    exact ⟨s, h1, h2⟩
  · obtain ⟨s, h1, h2⟩ := pool_of (P := P12) (n := 2) (w := 1)
      (insLow 0 10 ++ insSched 0 11 ++ job1 1 2 ++ insLow 0 12 ++ insSched 0 13 ++ (job2 1 2).take 14)
      (fun s => decide ((s.thr[1]?.any fun t => rebuilding t.pc) = true ∧ s.lock = none ∧ s.prev = ⟨some 0, 0⟩)) (by decide) (by decide)
    rw [decide_eq_true_eq] at h2
    obtain ⟨t, ht, hx⟩ := (Option.any_eq_true _ _).mp h2.1
    exact ⟨s, t, h1, ht, hx, h2.2⟩

/-! ### What one worker does not prevent -/

/-- One inserting client and one worker are enough for the assert of `advance_head` to fail: the client finds the buffer at the low
watermark, the worker empties it, and the client schedules the next reconstruction before it has appended its record. -/
theorem C59_false_pool : ∃ s, Pool P12 2 1 s ∧ Conc.step P12 s 1 .go = .error .abort := by
  obtain ⟨s, h1, h2⟩ := pool_of (P := P12) (n := 2) (w := 1)
    (insLow 0 10 ++ insSched 0 11 ++ [(0, .insert 12), (0, .tailFirst), (0, .go)] ++ job1 1 2 ++ gos 0 10 ++ [(1, .work)] ++ gos 1 18)
    (fun s => decide (s.thr[1]? = some (⟨.ad7 2, none, none, 2⟩ : Th) ∧ s.head.idx = 2)) (by decide) (by decide)
  rw [decide_eq_true_eq] at h2
  refine ⟨s, h1, ?_⟩
  unfold Conc.step
  rw [h2.1]
  simp only [stepT]
  rw [h2.2]
  rfl

/-- One inserting client and one worker are enough for a record to be lost: the worker flushes the slot the client has claimed and
not yet written; the insert returns 1, and no later query sees the record. -/
theorem C60_false_pool : ∃ s, Pool P12 2 1 s ∧ ¬ SeesAll P12 s := by
  obtain ⟨s, h1, h2⟩ := pool_of (P := P12) (n := 2) (w := 1)
    (insLow 0 10 ++ (insSched 0 11).take 16 ++ job1 1 2 ++ [(0, .go)] ++ query 1)
    (fun s => decide (s.thr[1]? = some (⟨.run, some 1, some 2, 2⟩ : Th) ∧ (1, 11) ∈ s.done ∧ s.estr 1 = [some (0, 10), none]))
    (by decide) (by decide)
  rw [decide_eq_true_eq] at h2
  obtain ⟨a1, a2, a3⟩ := h2
  refine ⟨s, h1, fun hv => ?_⟩
  have := (hv 1 _ 1 2 a1 rfl rfl (by simp)).2 1 11 a2 (by decide)
  unfold snapshot at this
  rw [a3] at this
  simp at this

end DE.Conc
