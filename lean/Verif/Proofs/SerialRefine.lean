import Verif.Model.FSTrie
import Verif.Model.VPTree
import Verif.Proofs.SerialRun

/-!
From the single steps to whole calls: simulation of the serial model by the program executed by one thread.
-/

namespace DE.SerialRun
open Conc (Par Slot Ch Hd EP Th PC upd K)
set_option linter.unusedSimpArgs false
set_option linter.unreachableTactic false
set_option linter.unusedTactic false
open Full (Cfg slotRec window)
variable {R : Type}

/-- The constructor of a shard from a view reads nothing but the records of the view. -/
def ReadsContents (I : ShardImpl R) : Prop :=
  ∀ b b' : Buffer R, b.WF → b'.WF → b.contents = b'.contents → I.build b.view = I.build b'.view

theorem flushBuffer_congr {L : Layout} {I : ShardImpl R} {st : Struct R} {v v' : View R} (hc : v.count = v'.count)
    (hb : I.build v = I.build v') : Struct.flushBuffer L I st v = Struct.flushBuffer L I st v' := by
  have ha : ∀ l : Level R, Level.appendBuffer I l v = Level.appendBuffer I l v' := by
    intro l; unfold Level.appendBuffer; rw [hb]
  have hn : ∀ l : Level R, Struct.newL0 L I l v = Struct.newL0 L I l v' := by
    intro l; unfold Struct.newL0; simp only [ha]
  unfold Struct.flushBuffer Struct.flushIntoL0
  simp only [hn, hc]

theorem job_congr {L : Layout} {I : ShardImpl R} {n : Nat} {st : Struct R} {v v' : View R} (hc : v.count = v'.count)
    (hb : I.build v = I.build v') : Full.job L I n st v = Full.job L I n st v' := by
  unfold Full.job
  simp only [flushBuffer_congr hc hb]

theorem flush_ok {d : Index R} {st : Struct R} (hj : Full.job d.L d.impl d.buf.hwm d.str.copy d.buf.view = .ok st)
    (hlt : d.buf.head < d.buf.tail) : d.flush = .ok { d with buf := { d.buf with head := d.buf.tail }, str := st } := by
  unfold Full.job at hj
  unfold Index.flush
  obtain ⟨ts, h1, hj⟩ := bind_ok.mp hj
  obtain ⟨s1, h2, hj⟩ := bind_ok.mp hj
  simp only [h1, h2, bind, Except.bind, hj]
  rw [show d.buf.view.tail = d.buf.tail from rfl, Buffer.advanceHead_tail hlt]

theorem flush_empty {d : Index R} {st : Struct R} (hj : Full.job d.L d.impl d.buf.hwm d.str.copy d.buf.view = .ok st)
    (hlt : ¬ d.buf.head < d.buf.tail) : d.flush = .error .abort := by
  unfold Full.job at hj
  unfold Index.flush
  obtain ⟨ts, h1, hj⟩ := bind_ok.mp hj
  obtain ⟨s1, h2, hj⟩ := bind_ok.mp hj
  simp only [h1, h2, bind, Except.bind, hj]
  have : d.buf.advanceHead d.buf.view.tail = .error .abort := by
    unfold Buffer.advanceHead assertC
    rw [show d.buf.view.tail = d.buf.tail from rfl, decide_eq_false (by omega)]
    rfl
  rw [this]

theorem flush_err {d : Index R} {f : Fault} (hj : Full.job d.L d.impl d.buf.hwm d.str.copy d.buf.view = .error f) :
    d.flush = .error f := by
  unfold Full.job at hj
  unfold Index.flush
  cases h1 : Struct.getReconstructionTasks d.L d.str.copy d.buf.hwm with
  | error g => simp only [h1, bind, Except.bind] at hj ⊢; exact congrArg _ (Except.error.inj hj)
  | ok ts =>
    simp only [h1, bind, Except.bind] at hj ⊢
    cases h2 : Struct.runTasks d.L d.impl d.str.copy ts with
    | error g => simp only [h2] at hj ⊢; exact congrArg _ (Except.error.inj hj)
    | ok s1 => simp only [h2] at hj ⊢; simp only [hj]

variable [Inhabited R] {C : Cfg R} {hf : Bool}

/-- The simulation relation: the concurrent state between two calls of the one thread, and the serial index. -/
structure Rel (C : Cfg R) (T : Bool) (s : St R) (d : Index R) : Prop where
  L : d.L = C.L
  tag : d.tagging = T
  impl : d.impl = C.impl
  wf : d.buf.WF
  lwm : d.buf.lwm = C.P.lwm
  hwm : d.buf.hwm = C.P.hwm
  shape : ∃ (o e n a b : Nat) (p : Option Nat) (mem : Nat → Slot) (ehead : Nat → Nat) (estr : Nat → List Slot) (alive : Nat → Bool)
      (cl dn : List (Nat × Nat)) (vs : Nat → Struct R) (tg : Nat → Bool),
    s = mkB d.buf.tail ⟨d.buf.head, 0⟩ ⟨o, 0⟩ ⟨some e, 0⟩ ⟨p, 0⟩ none false [] none mem ehead estr alive n
        ⟨.idle, none, none, a⟩ ⟨.idle, none, none, b⟩ cl dn vs tg ∧
      o ≠ d.buf.head ∧ ehead e = d.buf.head ∧ p ≠ some e ∧ (∀ x, alive x = true ↔ x = e ∨ p = some x) ∧ (∀ x, alive x = true → x < n) ∧
      d.buf.data = ring C mem tg ∧ vs e = d.str

theorem Rel.init (hw : 0 < C.P.hwm) (hl : C.P.lwm ≤ C.P.hwm) : Rel C T (SerialRun.init C 2)
    { L := C.L, tagging := T, impl := C.impl
      buf := { lwm := C.P.lwm, hwm := C.P.hwm, cap := 2 * C.P.hwm, tail := 0, head := 0, data := fun _ => default, tscnt := 0 }
      str := { bufSize := C.P.hwm, sf := C.sf, levels := [], state := [] } } := by
  refine ⟨rfl, rfl, rfl, ⟨rfl, hw, hl, le_refl _, by simp, by simp [Buffer.contents]⟩, rfl, rfl, ?_⟩
  refine ⟨C.P.hwm, 0, 1, 0, 0, none, _, _, _, _, _, _, _, _, rfl, ?_, rfl, by simp, ?_, ?_, rfl, rfl⟩
  · show C.P.hwm ≠ 0
    omega
  · intro x; simp
  · intro x hx; simp at hx; omega

/-- An execution that comes to the end of the call. -/
theorem Go.drive {k : Nat} {s s' : St R} (h : Go C hf k s s') (hn : next hf s'.base = none) {fuel : Nat} (hk : k < fuel) :
    drive C hf fuel s = .ok (some s') := by
  obtain ⟨j, hj, h⟩ := h
  obtain ⟨m, rfl⟩ : ∃ m, fuel = j + (m + 1) := ⟨fuel - j - 1, by omega⟩
  rw [h, SerialRun.drive, hn]

theorem Go.drive_err {k : Nat} {s s' : St R} {f : Fault} (h : Go C hf k s s') (hn : ∀ n, SerialRun.drive C hf (n + 1) s' = .error f) {fuel : Nat} (hk : k < fuel) :
    SerialRun.drive C hf fuel s = .error f := by
  obtain ⟨j, hj, h⟩ := h
  obtain ⟨m, rfl⟩ : ∃ m, fuel = j + (m + 1) := ⟨fuel - j - 1, by omega⟩
  rw [h, hn]

theorem subGe_le {a b w : Nat} (h : b ≤ a) : Conc.subGe a b w = decide (a - b ≥ w) := by
  unfold Conc.subGe; rw [if_pos h]

theorem ring_upd (mem : Nat → Slot) (tg : Nat → Bool) (j t r : Nat) :
    Buffer.write (ring C mem tg) j (Buffer.entryAt (C.ρ r) (C.del r) j) = ring C (upd mem j (some (t, r))) (upd tg j false) := by
  funext i
  unfold Buffer.write ring upd
  by_cases h : i = j
  · subst h; simp [slotRec]
  · simp [h]

variable {o e n a b r : Nat} {p : Option Nat} {mem : Nat → Slot} {ehead : Nat → Nat} {estr : Nat → List Slot} {alive : Nat → Bool}
  {cl dn : List (Nat × Nat)} {vs : Nat → Struct R} {tg : Nat → Bool} {d : Index R} {T : Bool}

/-- The last part of a call: the append. -/
theorem append_sim (hL : d.L = C.L) (ht : d.tagging = T) (hi : d.impl = C.impl) (hwf : d.buf.WF) (hlw : d.buf.lwm = C.P.lwm) (hhw : d.buf.hwm = C.P.hwm)
    (ho : o ≠ d.buf.head) (heh : ehead e = d.buf.head) (hp : p ≠ some e) (hal : ∀ x, alive x = true ↔ x = e ∨ p = some x)
    (hid : ∀ x, alive x = true → x < n) (hdata : d.buf.data = ring C mem tg) (hvs : vs e = d.str) (r : Nat) :
    ∃ s', Go C hf 4 (mkB d.buf.tail ⟨d.buf.head, 0⟩ ⟨o, 0⟩ ⟨some e, 0⟩ ⟨p, 0⟩ none false [] none mem ehead estr alive n
        ⟨.ap1 r, none, none, a⟩ ⟨.idle, none, none, b⟩ cl dn vs tg) s' ∧ next hf s'.base = none ∧
      Rel C T s' { d with buf := (d.buf.append (C.ρ r) (C.del r)).1 } ∧
      decide (cl.length < s'.base.claimed.length) = (d.buf.append (C.ρ r) (C.del r)).2 := by
  have hcap : d.buf.cap = C.P.cap := by rw [hwf.cap, hhw]; rfl
  by_cases hc : d.buf.tail - d.buf.head < d.buf.hwm
  · have hok := Buffer.append_ok hwf (r := C.ρ r) (ts := C.del r) hc
    have e1 : d.buf.append (C.ρ r) (C.del r) = ({ d.buf with
        tail := d.buf.tail + 1
        data := Buffer.write d.buf.data (d.buf.tail % d.buf.cap) (Buffer.entryAt (C.ρ r) (C.del r) (d.buf.tail % d.buf.cap))
        tscnt := if C.del r then d.buf.tscnt + 1 else d.buf.tscnt }, true) := by
      unfold Buffer.append; rw [if_neg (by omega)]
    rw [e1] at hok ⊢
    refine ⟨_, go_append (by rw [subGe_le hwf.ht, ← hhw]; exact decide_eq_false (by omega)), rfl, ?_, by simp⟩
    refine ⟨hL, ht, hi, hok.2.1, hlw, hhw, ?_⟩
    refine ⟨o, e, n, a, b, p, _, _, _, _, _, _, _, _, rfl, ho, heh, hp, hal, hid, ?_, hvs⟩
    show Buffer.write d.buf.data (d.buf.tail % d.buf.cap) _ = _
    rw [hdata, hcap, ring_upd]
  · have e1 : d.buf.append (C.ρ r) (C.del r) = (d.buf, false) := by
      unfold Buffer.append; rw [if_pos (by omega)]
    rw [e1]
    refine ⟨_, (go_full (by rw [subGe_le hwf.ht, ← hhw]; exact decide_eq_true (by omega))).mono (by omega), rfl, ?_, by simp⟩
    exact ⟨hL, ht, hi, hwf, hlw, hhw, o, e, n, a, b, p, _, _, _, _, _, _, _, _, rfl, ho, heh, hp, hal, hid, hdata, hvs⟩

/-- What the job has copied is what the view of the buffer holds. -/
theorem block_view (hR : ReadsContents C.impl) (hwf : d.buf.WF) (hhw : d.buf.hwm = C.P.hwm) (hdata : d.buf.data = ring C mem tg)
    (L : Layout) (st : Struct R) :
    Full.job L C.impl C.P.hwm st (blockView C tg d.buf.head ([] ++ (List.range (d.buf.tail - d.buf.head)).map (fun k => mem ((d.buf.head + k) % C.P.cap)))) =
      Full.job L C.impl C.P.hwm st d.buf.view := by
  have hcap : d.buf.cap = C.P.cap := by rw [hwf.cap, hhw]; rfl
  have hht := hwf.ht
  rw [List.nil_append]
  generalize hacc : (List.range (d.buf.tail - d.buf.head)).map (fun k => mem ((d.buf.head + k) % C.P.cap)) = acc
  have hlen : acc.length = d.buf.tail - d.buf.head := by rw [← hacc]; simp
  have hlt : acc.length < C.P.cap := by rw [hlen, ← hcap]; exact hwf.cnt_lt
  have hcont : (buffer C 0 (window C.P.cap d.buf.head acc) tg d.buf.head (d.buf.head + acc.length)).contents = d.buf.contents := by
    unfold Buffer.contents
    rw [hdata, hcap]
    simp only [buffer]
    rw [Nat.add_sub_cancel_left, hlen]
    apply List.map_congr_left
    intro k hk
    have hk := List.mem_range.mp hk
    unfold ring
    rw [Full.window_get (by omega)]
    have : acc.getD k none = mem ((d.buf.head + k) % C.P.cap) := by rw [← hacc]; simp [hk]
    rw [this]
  have hwf' : (buffer C 0 (window C.P.cap d.buf.head acc) tg d.buf.head (d.buf.head + acc.length)).WF := by
    refine ⟨rfl, ?_, Nat.zero_le _, ?_, ?_, ?_⟩
    · show 0 < C.P.hwm
      rw [← hhw]; exact hwf.hwm
    · show d.buf.head ≤ d.buf.head + acc.length
      omega
    · show d.buf.head + acc.length - d.buf.head ≤ C.P.hwm
      rw [← hhw, hlen]; have := hwf.cnt; omega
    · intro w hw
      rw [hcont] at hw
      exact hwf.vis w hw
  apply job_congr
  · show d.buf.head + acc.length - d.buf.head = d.buf.tail - d.buf.head
    omega
  · exact hR _ _ hwf' hwf hcont

/-- The middle part of a call: the whole reconstruction. -/
theorem flush_sim (hR : ReadsContents C.impl) (hL : d.L = C.L) (hi : d.impl = C.impl) (hwf : d.buf.WF) (hhw : d.buf.hwm = C.P.hwm)
    (ho : o ≠ d.buf.head) (heh : ehead e = d.buf.head) (hp : p ≠ some e) (hal : ∀ x, alive x = true ↔ x = e ∨ p = some x)
    (hid : ∀ x, alive x = true → x < n) (hdata : d.buf.data = ring C mem tg) (hvs : vs e = d.str) {fuel : Nat} (hfu : C.P.hwm + 40 < fuel) :
    match d.flush with
    | .error f => drive C hf fuel (mkB d.buf.tail ⟨d.buf.head, 0⟩ ⟨o, 0⟩ ⟨some e, 0⟩ ⟨p, 0⟩ none false [] none mem ehead estr alive n
        ⟨.casF r, none, none, a⟩ ⟨.idle, none, none, b⟩ cl dn vs tg) = .error f
    | .ok d' => d'.buf.tail = d.buf.tail ∧ d'.L = d.L ∧ d'.tagging = d.tagging ∧ d'.impl = d.impl ∧ d'.buf.WF ∧ d'.buf.lwm = d.buf.lwm ∧ d'.buf.hwm = d.buf.hwm ∧
        d'.buf.data = d.buf.data ∧ ∃ estr' ehead' alive' vs', 
          Go C hf (C.P.hwm + 40) (mkB d.buf.tail ⟨d.buf.head, 0⟩ ⟨o, 0⟩ ⟨some e, 0⟩ ⟨p, 0⟩ none false [] none mem ehead estr alive n
            ⟨.casF r, none, none, a⟩ ⟨.idle, none, none, b⟩ cl dn vs tg)
            (mkB d'.buf.tail ⟨d'.buf.head, 0⟩ ⟨d.buf.head, 0⟩ ⟨some n, 0⟩ ⟨some e, 0⟩ none false [] none mem ehead' estr' alive' (n + 1)
              ⟨.ap1 r, none, none, a⟩ ⟨.idle, none, none, d'.buf.tail⟩ cl dn vs' tg) ∧
          d.buf.head ≠ d'.buf.head ∧ ehead' n = d'.buf.head ∧ some e ≠ some n ∧ (∀ x, alive' x = true ↔ x = n ∨ some e = some x) ∧
          (∀ x, alive' x = true → x < n + 1) ∧ vs' n = d'.str := by
  have hae : alive e = true := (hal e).mpr (.inl rfl)
  have hen := hid e hae
  have hne : n ≠ e := by omega
  have hpn : p ≠ some n := fun h => by have := hid n ((hal n).mpr (.inr h)); omega
  have hcnt := hwf.cnt
  have hht := hwf.ht
  have g1 := go_create (C := C) (hf := hf) (tail := d.buf.tail) (h := d.buf.head) (o := o) (n := n) (a := a) (b := b) (r := r) (mem := mem) (ehead := ehead)
    (estr := estr) (cl := cl) (dn := dn) (vs := vs) (tg := tg) hae hp
  have g2 := go_view (C := C) (hf := hf) (tail := d.buf.tail) (h := d.buf.head) (o := o) (e := e) (p := p) (n := n) (m := n + 1) (a := a) (b := b) (r := r) (mem := mem)
    (ehead := upd ehead n (ehead e)) (estr := upd estr n (estr e)) (alive := upd alive n true) (cl := cl) (dn := dn) (vs := upd vs n (vs e).copy) (tg := tg)
    (by simp [upd]) (by simp [upd, heh]) ho
  have g3 := go_copy (C := C) (hf := hf) (tail := d.buf.tail) (h := d.buf.head) (o := o) (e := e) (p := p) (n := n) (m := n + 1) (a := a) (r := r) (mem := mem)
    (ehead := upd ehead n (ehead e)) (estr := upd estr n (estr e)) (alive := upd alive n true) (cl := cl) (dn := dn) (vs := upd vs n (vs e).copy) (tg := tg)
    (d.buf.tail - d.buf.head) d.buf.head [] (by omega)
  have hjob := block_view (mem := mem) hR hwf hhw hdata C.L d.str.copy
  generalize hacc : [] ++ (List.range (d.buf.tail - d.buf.head)).map (fun k => mem ((d.buf.head + k) % C.P.cap)) = acc at g3 hjob
  have hv : (upd vs n (vs e).copy) n = d.str.copy := by simp [upd, hvs]
  have g123 := (g1.trans g2).trans g3
  cases hj : Full.job C.L C.impl C.P.hwm d.str.copy d.buf.view with
  | error f =>
    rw [flush_err (d := d) (f := f) (by rw [hL, hi, hhw, hj])]
    rw [hj] at hjob
    refine g123.drive_err (fun k => go_flush_err (by simp [upd]) (by rw [hv, hjob]) k) (by omega)
  | ok st =>
    rw [hj] at hjob
    have g4 := go_flush (C := C) (hf := hf) (tail := d.buf.tail) (h := d.buf.head) (o := o) (e := e) (p := p) (n := n) (m := n + 1) (a := a) (r := r) (mem := mem)
      (ehead := upd ehead n (ehead e)) (estr := upd estr n (estr e)) (alive := upd alive n true) (cl := cl) (dn := dn) (vs := upd vs n (vs e).copy) (tg := tg)
      (acc := acc) (st' := st) (by simp [upd]) ho (by rw [hv, hjob])
    have g5 : ∃ alive', Go C hf 4 (mkB d.buf.tail ⟨d.buf.head, 0⟩ ⟨o, 0⟩ ⟨some e, 0⟩ ⟨p, 0⟩ (some n) true [] none mem (upd ehead n (ehead e))
          (upd (upd estr n (estr e)) n ((upd estr n (estr e)) n ++ acc)) (upd alive n true) (n + 1)
          ⟨.ap1 r, none, none, a⟩ ⟨.ad1 n, none, none, d.buf.tail⟩ cl dn (upd (upd vs n (vs e).copy) n st) tg)
        (mkB d.buf.tail ⟨d.buf.head, 0⟩ ⟨o, 0⟩ ⟨some e, 0⟩ ⟨none, 0⟩ (some n) true [] none mem (upd ehead n (ehead e))
          (upd (upd estr n (estr e)) n ((upd estr n (estr e)) n ++ acc)) alive' (n + 1)
          ⟨.ap1 r, none, none, a⟩ ⟨.ad3 n, none, none, d.buf.tail⟩ cl dn (upd (upd vs n (vs e).copy) n st) tg) ∧
        (∀ x, alive' x = true ↔ x = n ∨ some e = some x) := by
      cases p with
      | none =>
        refine ⟨_, go_noretire.mono (by omega), ?_⟩
        intro x
        by_cases hx : x = n
        · subst hx; simp [upd]
        · have := hal x
          simp only [upd, hx, if_false, false_or, Option.some.injEq]
          rw [this]; constructor
          · rintro (h | h); exacts [h.symm, absurd h (by simp)]
          · exact fun h => .inl h.symm
      | some y =>
        have hyn : y ≠ n := fun h => hpn (by rw [h])
        have hye : y ≠ e := fun h => hp (by rw [h])
        have hay : alive y = true := (hal y).mpr (.inr rfl)
        refine ⟨_, go_retire (x := y) (by simp [upd, hyn, hay]), ?_⟩
        intro x
        by_cases hxy : x = y
        · subst hxy
          simp [upd, hyn, Ne.symm hye]
        · by_cases hx : x = n
          · subst hx; simp [upd, hxy]
          · have := hal x
            simp only [upd, hxy, hx, if_false, false_or, Option.some.injEq]
            rw [this]; constructor
            · rintro (h | h); exacts [h.symm, absurd (Option.some.inj h).symm hxy]
            · exact fun h => .inl h.symm
    obtain ⟨alive', g5, hal'⟩ := g5
    have g6 := go_unset (C := C) (hf := hf) (tail := d.buf.tail) (h := d.buf.head) (o := o) (e := e) (n := n) (m := n + 1) (a := a) (r := r) (mem := mem)
      (ehead := upd ehead n (ehead e)) (estr := upd (upd estr n (estr e)) n ((upd estr n (estr e)) n ++ acc)) (alive := alive') (cl := cl) (dn := dn)
      (vs := upd (upd vs n (vs e).copy) n st) (tg := tg) ((hal' n).mpr (.inl rfl))
    have g := ((g123.trans g4).trans g5).trans g6
    by_cases hlt : d.buf.head < d.buf.tail
    · rw [flush_ok (d := d) (st := st) (by rw [hL, hi, hhw, hj]) hlt]
      have g7 := go_publish (C := C) (hf := hf) (tail := d.buf.tail) (h := d.buf.head) (o := o) (e := e) (n := n) (m := n + 1) (a := a) (r := r) (mem := mem)
        (ehead := upd ehead n (ehead e)) (estr := upd (upd estr n (estr e)) n ((upd estr n (estr e)) n ++ acc)) (alive := alive') (cl := cl) (dn := dn)
        (vs := upd (upd vs n (vs e).copy) n st) (tg := tg) hlt
      refine ⟨rfl, rfl, rfl, rfl, ⟨hwf.cap, hwf.hwm, hwf.lwm, le_refl _, by simp, by simp [Buffer.contents]⟩, rfl, rfl, rfl, _, _, alive', _,
        (g.trans g7).mono (by omega), by simp; omega, by simp [upd], by simp; omega, hal', ?_, by simp [upd]⟩
      intro x hx
      rcases (hal' x).mp hx with h | h
      · omega
      · have := Option.some.inj h; omega
    · rw [flush_empty (d := d) (st := st) (by rw [hL, hi, hhw, hj]) hlt]
      exact g.drive_err (fun k => go_publish_err hlt k) (by omega)

/-- One call. -/
theorem call_sim (hR : ReadsContents C.impl) {s : St R} (hr : Rel C T s d) (r : Nat) {fuel : Nat} (hfu : C.P.hwm + 50 < fuel) :
    match d.internalAppend (C.ρ r) (C.del r) with
    | .error f => call C hf fuel s r = .error f
    | .ok (d', v) => ∃ s', call C hf fuel s r = .ok (some (s', v)) ∧ Rel C T s' d' := by
  obtain ⟨hL, ht, hi, hwf, hlw, hhw, o, e, n, a, b, p, mem, ehead, estr, alive, cl, dn, vs, tg, rfl, ho, heh, hp, hal, hid, hdata, hvs⟩ := hr
  have h0 : sstep C (mkB d.buf.tail ⟨d.buf.head, 0⟩ ⟨o, 0⟩ ⟨some e, 0⟩ ⟨p, 0⟩ none false [] none mem ehead estr alive n
        ⟨.idle, none, none, a⟩ ⟨.idle, none, none, b⟩ cl dn vs tg) 0 (.insert r) = .ok (some (mkB d.buf.tail ⟨d.buf.head, 0⟩ ⟨o, 0⟩ ⟨some e, 0⟩ ⟨p, 0⟩ none false [] none mem ehead estr alive n
        ⟨.ins r, none, none, a⟩ ⟨.idle, none, none, b⟩ cl dn vs tg)) := rfl
  have hlow : Conc.subGe d.buf.tail d.buf.head C.P.lwm = d.buf.atLwm := by
    rw [subGe_le hwf.ht, ← hlw]; rfl
  unfold call Index.internalAppend
  rw [h0]
  by_cases hlw' : d.buf.atLwm = true
  · rw [hlw'] at hlow
    have g1 := go_low (C := C) (hf := hf) (tail := d.buf.tail) (h := d.buf.head) (o := o) (e := e) (p := p) (m := n) (a := a) (b := b) (r := r) (mem := mem)
      (ehead := ehead) (estr := estr) (alive := alive) (cl := cl) (dn := dn) (vs := vs) (tg := tg) hlow
    have g2 := flush_sim (hf := hf) (r := r) (a := a) (b := b) (estr := estr) (cl := cl) (dn := dn) hR hL hi hwf hhw ho heh hp hal hid hdata hvs
      (fuel := fuel - 2) (by omega)
    rw [if_pos hlw']
    cases hfl : d.flush with
    | error f =>
      rw [hfl] at g2
      obtain ⟨j, hj, g1⟩ := g1
      have g3 := flush_sim (hf := hf) (r := r) (a := a) (b := b) (estr := estr) (cl := cl) (dn := dn) hR hL hi hwf hhw ho heh hp hal hid hdata hvs
        (fuel := fuel - j) (by omega)
      rw [hfl] at g3
      have := g1 (fuel - j)
      rw [show j + (fuel - j) = fuel by omega, g3] at this
      simp only [bind, Except.bind, this]
    | ok d' =>
      rw [hfl] at g2
      obtain ⟨e1, e2, e3, e4, e5, e6, e7, e8, estr', ehead', alive', vs', g2, k1, k2, k3, k4, k5, k6⟩ := g2
      obtain ⟨s', g3, hn, hrel, hret⟩ := append_sim (hf := hf) (d := d') (C := C) (o := d.buf.head) (e := n) (n := n + 1) (a := a) (b := d'.buf.tail) (p := some e) (mem := mem)
        (ehead := ehead') (estr := estr') (alive := alive') (cl := cl) (dn := dn) (vs := vs') (tg := tg) (by rw [e2, hL]) (by rw [e3, ht]) (by rw [e4, hi]) e5
        (by rw [e6, hlw]) (by rw [e7, hhw]) k1 k2 k3 k4 k5 (by rw [e8, hdata]) k6 r
      have := ((g1.trans g2).trans g3).drive hn (fuel := fuel) (by omega)
      simp only [bind, Except.bind, this]
      exact ⟨s', by rw [← hret], hrel⟩
  · rw [Bool.not_eq_true] at hlw'
    rw [hlw'] at hlow
    have g1 := go_high (C := C) (hf := hf) (tail := d.buf.tail) (h := d.buf.head) (o := o) (e := e) (p := p) (m := n) (a := a) (b := b) (r := r) (mem := mem)
      (ehead := ehead) (estr := estr) (alive := alive) (cl := cl) (dn := dn) (vs := vs) (tg := tg) hlow
    obtain ⟨s', g2, hn, hrel, hret⟩ := append_sim (hf := hf) (a := a) (b := b) (estr := estr) (cl := cl) (dn := dn) hL ht hi hwf hlw hhw ho heh hp hal hid hdata hvs r
    have := (g1.trans g2).drive hn (fuel := fuel) (by omega)
    simp only [bind, Except.bind, this, hlw', Bool.false_eq_true, if_false]
    exact ⟨s', by rw [← hret], hrel⟩

/-- The client operation of a number of `Conc.lean`. -/
def op (C : Cfg R) (r : Nat) : Index.Op R := if C.del r then .del (C.ρ r) else .ins (C.ρ r)

omit [Inhabited R] in
theorem step_op [DecidableEq R] (ht : d.tagging = T) (r : Nat) :
    d.step (op C r) = if T && C.del r then d.erase (C.ρ r) else d.internalAppend (C.ρ r) (C.del r) := by
  unfold op
  cases h : C.del r
  · cases T <;> rfl
  · cases T <;> simp only [if_true, Index.step, Index.erase, ht, Bool.and_true, Bool.false_eq_true, if_false]

/-! ### Reachability, queries, waiting -/

/-- Reached by the system of `Full.lean`, with no slot tagged. -/
def Plain (C : Cfg R) (s : St R) : Prop := Full.Reach C 2 (fun _ _ => True) s.full ∧ s.tags = fun _ => false

theorem Plain.step {s s' : St R} {i : Nat} {c : Ch} (h : Plain C s) (hs : sstep C s i c = .ok (some s')) : Plain C s' := by
  obtain ⟨h1, h2⟩ := sstep_full hs h.2
  exact ⟨h.1.step trivial h1, h2⟩

theorem drive_plain : ∀ (n : Nat) {s s' : St R}, Plain C s → drive C hf n s = .ok (some s') → Plain C s'
  | 0, s, s', _, h => by simp [drive] at h
  | n + 1, s, s', hr, h => by
    rw [drive] at h
    cases hn : next hf s.base with
    | none => rw [hn] at h; cases h; exact hr
    | some x =>
      obtain ⟨i, c⟩ := x
      rw [hn] at h
      obtain ⟨y, h1, h⟩ := bind_ok.mp h
      cases y with
      | none => cases h
      | some s1 => exact drive_plain n (hr.step h1) h

theorem call_plain {fuel r : Nat} {s s' : St R} {v : Bool} (hr : Plain C s) (h : call C hf fuel s r = .ok (some (s', v))) :
    Plain C s' := by
  unfold call at h
  obtain ⟨y, h1, h⟩ := bind_ok.mp h
  cases y with
  | none => cases h
  | some s1 =>
    obtain ⟨z, h2, h⟩ := bind_ok.mp h
    cases z with
    | none => cases h
    | some s2 => cases h; exact drive_plain fuel (hr.step h1) h2

theorem run_cons {s s' : St R} {i : Nat} {c : Ch} {l : List (Nat × Ch)} (h : sstep C s i c = .ok (some s')) :
    exec C ((i, c) :: l) s = exec C l s' := by
  rw [exec, h]; rfl

theorem exec_append : ∀ (l l' : List (Nat × Ch)) {s s' : St R}, exec C l s = .ok (some s') → exec C (l ++ l') s = exec C l' s'
  | [], l', s, s', h => by cases h; rfl
  | (i, c) :: l, l', s, s', h => by
    rw [exec] at h
    rw [List.cons_append, exec]
    obtain ⟨y, h1, h⟩ := bind_ok.mp h
    cases y with
    | none => cases h
    | some s1 => simp only [h1, bind, Except.bind]; exact exec_append l l' h

section
variable {tail h l : Nat} {u : Th}

/-- `end_job` of the one thread. -/
theorem end_sim (hp : p ≠ some e) : exec C endSteps (mkB tail ⟨h, 1⟩ ⟨o, 0⟩ ⟨some e, 1⟩ ⟨p, 0⟩ none false [] none mem ehead estr alive n ⟨.run, some e, some h, l⟩ u cl dn vs tg) =
    .ok (some (mkB tail ⟨h, 1⟩ ⟨o, 0⟩ ⟨some e, 0⟩ ⟨p, 0⟩ none false [] none mem ehead estr alive n ⟨.run, none, some h, l⟩ u cl dn vs tg)) := by
  unfold endSteps
  rw [run_cons (s' := mkB tail ⟨h, 1⟩ ⟨o, 0⟩ ⟨some e, 1⟩ ⟨p, 0⟩ none false [] none mem ehead estr alive n ⟨.ej1 .client, some e, some h, l⟩ u cl dn vs tg)
    (by first | rfl | simp [sstep, step, Conc.step, Conc.stepT, structs, wipe, Conc.St.setT, Conc.gaRet, Conc.ejRet, Conc.gtRet, Conc.rlRet, bind, Except.bind, hp])]
  rw [run_cons (s' := mkB tail ⟨h, 1⟩ ⟨o, 0⟩ ⟨some e, 1⟩ ⟨p, 0⟩ none false [] none mem ehead estr alive n ⟨.ejC2 .client, some e, some h, l⟩ u cl dn vs tg)
    (by first | rfl | simp [sstep, step, Conc.step, Conc.stepT, structs, wipe, Conc.St.setT, Conc.gaRet, Conc.ejRet, Conc.gtRet, Conc.rlRet, bind, Except.bind, hp])]
  rw [run_cons (s' := mkB tail ⟨h, 1⟩ ⟨o, 0⟩ ⟨some e, 1⟩ ⟨p, 0⟩ none false [] none mem ehead estr alive n ⟨.ejC3 .client ⟨some e, 1⟩, some e, some h, l⟩ u cl dn vs tg)
    (by first | rfl | simp [sstep, step, Conc.step, Conc.stepT, structs, wipe, Conc.St.setT, Conc.gaRet, Conc.ejRet, Conc.gtRet, Conc.rlRet, bind, Except.bind, hp])]
  rw [run_cons (s' := mkB tail ⟨h, 1⟩ ⟨o, 0⟩ ⟨some e, 0⟩ ⟨p, 0⟩ none false [] none mem ehead estr alive n ⟨.run, none, some h, l⟩ u cl dn vs tg)
    (by first | rfl | simp [sstep, step, Conc.step, Conc.stepT, structs, wipe, Conc.St.setT, Conc.gaRet, Conc.ejRet, Conc.gtRet, Conc.rlRet, bind, Except.bind, hp])]
  rfl

/-- The one thread drops its view. -/
theorem drop_sim (ho : o ≠ h) : exec C dropSteps (mkB tail ⟨h, 1⟩ ⟨o, 0⟩ ⟨some e, 0⟩ ⟨p, 0⟩ none false [] none mem ehead estr alive n ⟨.run, none, some h, l⟩ u cl dn vs tg) =
    .ok (some (mkB tail ⟨h, 0⟩ ⟨o, 0⟩ ⟨some e, 0⟩ ⟨p, 0⟩ none false [] none mem ehead estr alive n ⟨.idle, none, none, l⟩ u cl dn vs tg)) := by
  unfold dropSteps
  rw [run_cons (s' := mkB tail ⟨h, 1⟩ ⟨o, 0⟩ ⟨some e, 0⟩ ⟨p, 0⟩ none false [] none mem ehead estr alive n ⟨.rl1 .client, none, some h, l⟩ u cl dn vs tg)
    (by first | rfl | simp [sstep, step, Conc.step, Conc.stepT, structs, wipe, Conc.St.setT, Conc.gaRet, Conc.ejRet, Conc.gtRet, Conc.rlRet, bind, Except.bind, ho])]
  rw [run_cons (s' := mkB tail ⟨h, 1⟩ ⟨o, 0⟩ ⟨some e, 0⟩ ⟨p, 0⟩ none false [] none mem ehead estr alive n ⟨.rlH2 .client, none, some h, l⟩ u cl dn vs tg)
    (by first | rfl | simp [sstep, step, Conc.step, Conc.stepT, structs, wipe, Conc.St.setT, Conc.gaRet, Conc.ejRet, Conc.gtRet, Conc.rlRet, bind, Except.bind, ho])]
  rw [run_cons (s' := mkB tail ⟨h, 1⟩ ⟨o, 0⟩ ⟨some e, 0⟩ ⟨p, 0⟩ none false [] none mem ehead estr alive n ⟨.rlH3 .client ⟨h, 1⟩, none, some h, l⟩ u cl dn vs tg)
    (by first | rfl | simp [sstep, step, Conc.step, Conc.stepT, structs, wipe, Conc.St.setT, Conc.gaRet, Conc.ejRet, Conc.gtRet, Conc.rlRet, bind, Except.bind, ho])]
  rw [run_cons (s' := mkB tail ⟨h, 0⟩ ⟨o, 0⟩ ⟨some e, 0⟩ ⟨p, 0⟩ none false [] none mem ehead estr alive n ⟨.run, none, none, l⟩ u cl dn vs tg)
    (by first | rfl | simp [sstep, step, Conc.step, Conc.stepT, structs, wipe, Conc.St.setT, Conc.gaRet, Conc.ejRet, Conc.gtRet, Conc.rlRet, bind, Except.bind, ho])]
  rw [run_cons (s' := mkB tail ⟨h, 0⟩ ⟨o, 0⟩ ⟨some e, 0⟩ ⟨p, 0⟩ none false [] none mem ehead estr alive n ⟨.idle, none, none, l⟩ u cl dn vs tg)
    (by first | rfl | simp [sstep, step, Conc.step, Conc.stepT, structs, wipe, Conc.St.setT, Conc.gaRet, Conc.ejRet, Conc.gtRet, Conc.rlRet, bind, Except.bind, ho])]
  rfl

theorem close_sim (hp : p ≠ some e) (ho : o ≠ h) : exec C closeQuery (mkB tail ⟨h, 1⟩ ⟨o, 0⟩ ⟨some e, 1⟩ ⟨p, 0⟩ none false [] none mem ehead estr alive n ⟨.run, some e, some h, l⟩ u cl dn vs tg) =
    .ok (some (mkB tail ⟨h, 0⟩ ⟨o, 0⟩ ⟨some e, 0⟩ ⟨p, 0⟩ none false [] none mem ehead estr alive n ⟨.idle, none, none, l⟩ u cl dn vs tg)) := by
  unfold closeQuery
  rw [exec_append _ _ (end_sim hp), drop_sim ho]

/-- `get_buffer_view()` of the one thread. -/
theorem view_sim (ho : o ≠ h) : exec C [(0, .go), (0, .go), (0, .go), (0, .go), (0, .go)] (mkB tail ⟨h, 0⟩ ⟨o, 0⟩ ⟨some e, 0⟩ ⟨p, 0⟩ none false [] none mem ehead estr alive n ⟨.gh1 .client h, none, none, l⟩ u cl dn vs tg) =
    .ok (some (mkB tail ⟨h, 1⟩ ⟨o, 0⟩ ⟨some e, 0⟩ ⟨p, 0⟩ none false [] none mem ehead estr alive n ⟨.run, none, some h, tail⟩ u cl dn vs tg)) := by
  rw [run_cons (s' := mkB tail ⟨h, 0⟩ ⟨o, 0⟩ ⟨some e, 0⟩ ⟨p, 0⟩ none false [] none mem ehead estr alive n ⟨.ghB .client h, none, none, l⟩ u cl dn vs tg)
    (by first | rfl | simp [sstep, step, Conc.step, Conc.stepT, structs, wipe, Conc.St.setT, Conc.gaRet, Conc.ejRet, Conc.gtRet, Conc.rlRet, bind, Except.bind, ho])]
  rw [run_cons (s' := mkB tail ⟨h, 0⟩ ⟨o, 0⟩ ⟨some e, 0⟩ ⟨p, 0⟩ none false [] none mem ehead estr alive n ⟨.ghH2 .client h, none, none, l⟩ u cl dn vs tg)
    (by first | rfl | simp [sstep, step, Conc.step, Conc.stepT, structs, wipe, Conc.St.setT, Conc.gaRet, Conc.ejRet, Conc.gtRet, Conc.rlRet, bind, Except.bind, ho])]
  rw [run_cons (s' := mkB tail ⟨h, 0⟩ ⟨o, 0⟩ ⟨some e, 0⟩ ⟨p, 0⟩ none false [] none mem ehead estr alive n ⟨.ghH3 .client h ⟨h, 0⟩, none, none, l⟩ u cl dn vs tg)
    (by first | rfl | simp [sstep, step, Conc.step, Conc.stepT, structs, wipe, Conc.St.setT, Conc.gaRet, Conc.ejRet, Conc.gtRet, Conc.rlRet, bind, Except.bind, ho])]
  rw [run_cons (s' := mkB tail ⟨h, 1⟩ ⟨o, 0⟩ ⟨some e, 0⟩ ⟨p, 0⟩ none false [] none mem ehead estr alive n ⟨.gt .client, none, some h, l⟩ u cl dn vs tg)
    (by first | rfl | simp [sstep, step, Conc.step, Conc.stepT, structs, wipe, Conc.St.setT, Conc.gaRet, Conc.ejRet, Conc.gtRet, Conc.rlRet, bind, Except.bind, ho])]
  rw [run_cons (s' := mkB tail ⟨h, 1⟩ ⟨o, 0⟩ ⟨some e, 0⟩ ⟨p, 0⟩ none false [] none mem ehead estr alive n ⟨.run, none, some h, tail⟩ u cl dn vs tg)
    (by first | rfl | simp [sstep, step, Conc.step, Conc.stepT, structs, wipe, Conc.St.setT, Conc.gaRet, Conc.ejRet, Conc.gtRet, Conc.rlRet, bind, Except.bind, ho])]
  rfl

/-- `get_active_epoch` of the one thread. -/
theorem pin_sim : exec C [(0, .go), (0, .go), (0, .go)] (mkB tail ⟨h, 1⟩ ⟨o, 0⟩ ⟨some e, 0⟩ ⟨p, 0⟩ none false [] none mem ehead estr alive n ⟨.ga1 .client, none, some h, l⟩ u cl dn vs tg) =
    .ok (some (mkB tail ⟨h, 1⟩ ⟨o, 0⟩ ⟨some e, 1⟩ ⟨p, 0⟩ none false [] none mem ehead estr alive n ⟨.run, some e, some h, l⟩ u cl dn vs tg)) := by
  rw [run_cons (s' := mkB tail ⟨h, 1⟩ ⟨o, 0⟩ ⟨some e, 0⟩ ⟨p, 0⟩ none false [] none mem ehead estr alive n ⟨.gaC2 .client, none, some h, l⟩ u cl dn vs tg)
    (by first | rfl | simp [sstep, step, Conc.step, Conc.stepT, structs, wipe, Conc.St.setT, Conc.gaRet, Conc.ejRet, Conc.gtRet, Conc.rlRet, bind, Except.bind])]
  rw [run_cons (s' := mkB tail ⟨h, 1⟩ ⟨o, 0⟩ ⟨some e, 0⟩ ⟨p, 0⟩ none false [] none mem ehead estr alive n ⟨.gaC3 .client ⟨some e, 0⟩, none, some h, l⟩ u cl dn vs tg)
    (by first | rfl | simp [sstep, step, Conc.step, Conc.stepT, structs, wipe, Conc.St.setT, Conc.gaRet, Conc.ejRet, Conc.gtRet, Conc.rlRet, bind, Except.bind])]
  rw [run_cons (s' := mkB tail ⟨h, 1⟩ ⟨o, 0⟩ ⟨some e, 1⟩ ⟨p, 0⟩ none false [] none mem ehead estr alive n ⟨.run, some e, some h, l⟩ u cl dn vs tg)
    (by first | rfl | simp [sstep, step, Conc.step, Conc.stepT, structs, wipe, Conc.St.setT, Conc.gaRet, Conc.ejRet, Conc.gtRet, Conc.rlRet, bind, Except.bind])]
  rfl
end

/-- A query of the one thread: it pins the current epoch and the head, and gives both back. -/
theorem query_sim {s : St R} (hr : Rel C T s d) : ∃ s1 e, exec C openQuery s = .ok (some s1) ∧
    held s1 = some (e, d.buf.head, d.buf.tail) ∧ s1.vs e = d.str ∧ d.buf.data = ring C s1.base.mem s1.tags ∧
    ∃ s2, exec C closeQuery s1 = .ok (some s2) ∧ Rel C T s2 d := by
  obtain ⟨hL, ht, hi, hwf, hlw, hhw, o, e, n, a, b, p, mem, ehead, estr, alive, cl, dn, vs, tg, rfl, ho, heh, hp, hal, hid, hdata, hvs⟩ := hr
  have hae : alive e = true := (hal e).mpr (.inl rfl)
  refine ⟨mkB d.buf.tail ⟨d.buf.head, 1⟩ ⟨o, 0⟩ ⟨some e, 1⟩ ⟨p, 0⟩ none false [] none mem ehead estr alive n
      ⟨.run, some e, some d.buf.head, d.buf.tail⟩ ⟨.idle, none, none, b⟩ cl dn vs tg, e, ?_, rfl, hvs, hdata,
    mkB d.buf.tail ⟨d.buf.head, 0⟩ ⟨o, 0⟩ ⟨some e, 0⟩ ⟨p, 0⟩ none false [] none mem ehead estr alive n
      ⟨.idle, none, none, d.buf.tail⟩ ⟨.idle, none, none, b⟩ cl dn vs tg, ?_,
    ⟨hL, ht, hi, hwf, hlw, hhw, o, e, n, d.buf.tail, b, p, mem, ehead, estr, alive, cl, dn, vs, tg, rfl, ho, heh, hp, hal, hid, hdata, hvs⟩⟩
  · unfold openQuery
    rw [run_cons (s' := mkB d.buf.tail ⟨d.buf.head, 0⟩ ⟨o, 0⟩ ⟨some e, 0⟩ ⟨p, 0⟩ none false [] none mem ehead estr alive n ⟨.ga1 .client, none, none, a⟩ ⟨.idle, none, none, b⟩ cl dn vs tg)
      (by first | rfl | simp [sstep, step, Conc.step, Conc.stepT, structs, wipe, Conc.St.setT, Conc.gaRet, Conc.ejRet, Conc.gtRet, Conc.rlRet, bind, Except.bind, hae, heh, hp, ho])]
    rw [run_cons (s' := mkB d.buf.tail ⟨d.buf.head, 0⟩ ⟨o, 0⟩ ⟨some e, 0⟩ ⟨p, 0⟩ none false [] none mem ehead estr alive n ⟨.gaC2 .client, none, none, a⟩ ⟨.idle, none, none, b⟩ cl dn vs tg)
      (by first | rfl | simp [sstep, step, Conc.step, Conc.stepT, structs, wipe, Conc.St.setT, Conc.gaRet, Conc.ejRet, Conc.gtRet, Conc.rlRet, bind, Except.bind, hae, heh, hp, ho])]
    rw [run_cons (s' := mkB d.buf.tail ⟨d.buf.head, 0⟩ ⟨o, 0⟩ ⟨some e, 0⟩ ⟨p, 0⟩ none false [] none mem ehead estr alive n ⟨.gaC3 .client ⟨some e, 0⟩, none, none, a⟩ ⟨.idle, none, none, b⟩ cl dn vs tg)
      (by first | rfl | simp [sstep, step, Conc.step, Conc.stepT, structs, wipe, Conc.St.setT, Conc.gaRet, Conc.ejRet, Conc.gtRet, Conc.rlRet, bind, Except.bind, hae, heh, hp, ho])]
    rw [run_cons (s' := mkB d.buf.tail ⟨d.buf.head, 0⟩ ⟨o, 0⟩ ⟨some e, 1⟩ ⟨p, 0⟩ none false [] none mem ehead estr alive n ⟨.run, some e, none, a⟩ ⟨.idle, none, none, b⟩ cl dn vs tg)
      (by first | rfl | simp [sstep, step, Conc.step, Conc.stepT, structs, wipe, Conc.St.setT, Conc.gaRet, Conc.ejRet, Conc.gtRet, Conc.rlRet, bind, Except.bind, hae, heh, hp, ho])]
    rw [run_cons (s' := mkB d.buf.tail ⟨d.buf.head, 0⟩ ⟨o, 0⟩ ⟨some e, 1⟩ ⟨p, 0⟩ none false [] none mem ehead estr alive n ⟨.gh1 .client d.buf.head, some e, none, a⟩ ⟨.idle, none, none, b⟩ cl dn vs tg)
      (by first | rfl | simp [sstep, step, Conc.step, Conc.stepT, structs, wipe, Conc.St.setT, Conc.gaRet, Conc.ejRet, Conc.gtRet, Conc.rlRet, bind, Except.bind, hae, heh, hp, ho])]
    rw [run_cons (s' := mkB d.buf.tail ⟨d.buf.head, 0⟩ ⟨o, 0⟩ ⟨some e, 1⟩ ⟨p, 0⟩ none false [] none mem ehead estr alive n ⟨.ghB .client d.buf.head, some e, none, a⟩ ⟨.idle, none, none, b⟩ cl dn vs tg)
      (by first | rfl | simp [sstep, step, Conc.step, Conc.stepT, structs, wipe, Conc.St.setT, Conc.gaRet, Conc.ejRet, Conc.gtRet, Conc.rlRet, bind, Except.bind, hae, heh, hp, ho])]
    rw [run_cons (s' := mkB d.buf.tail ⟨d.buf.head, 0⟩ ⟨o, 0⟩ ⟨some e, 1⟩ ⟨p, 0⟩ none false [] none mem ehead estr alive n ⟨.ghH2 .client d.buf.head, some e, none, a⟩ ⟨.idle, none, none, b⟩ cl dn vs tg)
      (by first | rfl | simp [sstep, step, Conc.step, Conc.stepT, structs, wipe, Conc.St.setT, Conc.gaRet, Conc.ejRet, Conc.gtRet, Conc.rlRet, bind, Except.bind, hae, heh, hp, ho])]
    rw [run_cons (s' := mkB d.buf.tail ⟨d.buf.head, 0⟩ ⟨o, 0⟩ ⟨some e, 1⟩ ⟨p, 0⟩ none false [] none mem ehead estr alive n ⟨.ghH3 .client d.buf.head ⟨d.buf.head, 0⟩, some e, none, a⟩ ⟨.idle, none, none, b⟩ cl dn vs tg)
      (by first | rfl | simp [sstep, step, Conc.step, Conc.stepT, structs, wipe, Conc.St.setT, Conc.gaRet, Conc.ejRet, Conc.gtRet, Conc.rlRet, bind, Except.bind, hae, heh, hp, ho])]
    rw [run_cons (s' := mkB d.buf.tail ⟨d.buf.head, 1⟩ ⟨o, 0⟩ ⟨some e, 1⟩ ⟨p, 0⟩ none false [] none mem ehead estr alive n ⟨.gt .client, some e, some d.buf.head, a⟩ ⟨.idle, none, none, b⟩ cl dn vs tg)
      (by first | rfl | simp [sstep, step, Conc.step, Conc.stepT, structs, wipe, Conc.St.setT, Conc.gaRet, Conc.ejRet, Conc.gtRet, Conc.rlRet, bind, Except.bind, hae, heh, hp, ho])]
    rw [run_cons (s' := mkB d.buf.tail ⟨d.buf.head, 1⟩ ⟨o, 0⟩ ⟨some e, 1⟩ ⟨p, 0⟩ none false [] none mem ehead estr alive n ⟨.run, some e, some d.buf.head, d.buf.tail⟩ ⟨.idle, none, none, b⟩ cl dn vs tg)
      (by first | rfl | simp [sstep, step, Conc.step, Conc.stepT, structs, wipe, Conc.St.setT, Conc.gaRet, Conc.ejRet, Conc.gtRet, Conc.rlRet, bind, Except.bind, hae, heh, hp, ho])]
    rfl
  · exact close_sim hp ho

/-- `await_next_epoch` of the one thread returns at once. -/
theorem await_sim {s : St R} (hr : Rel C T s d) : exec C [(0, .await), (0, .go)] s = .ok (some s) := by
  obtain ⟨hL, ht, hi, hwf, hlw, hhw, o, e, n, a, b, p, mem, ehead, estr, alive, cl, dn, vs, tg, rfl, ho, heh, hp, hal, hid, hdata, hvs⟩ := hr
  rfl

theorem exec_plain : ∀ (l : List (Nat × Ch)) {s s' : St R}, Plain C s → exec C l s = .ok (some s') → Plain C s'
  | [], s, s', hr, h => by cases h; exact hr
  | (i, c) :: l, s, s', hr, h => by
    rw [exec] at h
    obtain ⟨y, h1, h⟩ := bind_ok.mp h
    cases y with
    | none => cases h
    | some s1 => exact exec_plain l (hr.step h1) h

/-! ### Tagging -/

omit [Inhabited R] in
theorem setDelete_idem (w : Wrapped R) : w.setDelete.setDelete = w.setDelete := by
  unfold Wrapped.setDelete
  rw [BitVec.or_assoc, BitVec.or_self]

theorem ring_tag (mem : Nat → Slot) (tg : Nat → Bool) (j : Nat) :
    Buffer.write (ring C mem tg) j (ring C mem tg j).setDelete = ring C mem (upd tg j true) := by
  funext i
  unfold Buffer.write ring upd
  by_cases h : i = j
  · subst h
    simp only [if_true]
    split
    · exact setDelete_idem _
    · rfl
  · simp [h]

/-- A tagging erase. -/
theorem tagErase_sim [DecidableEq R] {s : St R} (hr : Rel C true s d) (x : R) :
    match d.erase x with
    | .error f => tagErase C s x = .error f
    | .ok (d', v) => ∃ s', tagErase C s x = .ok (some (s', v)) ∧ Rel C true s' d' := by
  obtain ⟨hL, ht, hi, hwf, hlw, hhw, o, e, n, a, b, p, mem, ehead, estr, alive, cl, dn, vs, tg, rfl, ho, heh, hp, hal, hid, hdata, hvs⟩ := hr
  have hae : alive e = true := (hal e).mpr (.inl rfl)
  have hcap : d.buf.cap = C.P.cap := by rw [hwf.cap, hhw]; rfl
  have h1 := view_sim (C := C) (h := d.buf.head) (o := o) (e := e) (p := p) (n := n) (tail := d.buf.tail) (l := a) (u := ⟨.idle, none, none, b⟩) (mem := mem)
    (ehead := ehead) (estr := estr) (alive := alive) (cl := cl) (dn := dn) (vs := vs) (tg := tg) ho
  have h2 := pin_sim (C := C) (h := d.buf.head) (o := o) (e := e) (p := p) (n := n) (tail := d.buf.tail) (l := d.buf.tail) (u := ⟨.idle, none, none, b⟩) (mem := mem)
    (ehead := ehead) (estr := estr) (alive := alive) (cl := cl) (dn := dn) (vs := vs) (tg := tg)
  unfold tagErase Index.erase
  simp only [enter, Conc.St.setT, List.getElem?_cons_zero, List.set_cons_zero]
  simp only [mkB] at h1 h2
  rw [h1]
  simp only [bind, Except.bind, List.getElem?_cons_zero, List.set_cons_zero]
  rw [h2]
  simp only [held, List.getElem?_cons_zero, bind, Option.bind, hae, if_true, ht, hvs, hi]
  cases htd : Struct.taggedDeleteIn C.impl x d.str.levels with
  | error f => rfl
  | ok y =>
    cases y with
    | some ls =>
      have h3 := close_sim (C := C) (h := d.buf.head) (o := o) (e := e) (p := p) (n := n) (tail := d.buf.tail) (l := d.buf.tail) (u := ⟨.idle, none, none, b⟩) (mem := mem)
        (ehead := ehead) (estr := estr) (alive := alive) (cl := cl) (dn := dn) (vs := upd vs e { d.str with levels := ls }) (tg := tg) hp ho
      simp only [mkB] at h3
      simp only [h3]
      refine ⟨_, rfl, ⟨hL, rfl, rfl, hwf, hlw, hhw, o, e, n, d.buf.tail, b, p, mem, ehead, estr, alive, cl, dn, _, tg, rfl, ho, heh, hp, hal, hid, hdata, ?_⟩⟩
      simp [upd]
    | none =>
      have h3 := end_sim (C := C) (h := d.buf.head) (o := o) (e := e) (p := p) (n := n) (tail := d.buf.tail) (l := d.buf.tail) (u := ⟨.idle, none, none, b⟩) (mem := mem)
        (ehead := ehead) (estr := estr) (alive := alive) (cl := cl) (dn := dn) (vs := vs) (tg := tg) hp
      have h4 := fun tg' => drop_sim (C := C) (h := d.buf.head) (o := o) (e := e) (p := p) (n := n) (tail := d.buf.tail) (l := d.buf.tail) (u := ⟨.idle, none, none, b⟩) (mem := mem)
        (ehead := ehead) (estr := estr) (alive := alive) (cl := cl) (dn := dn) (vs := vs) (tg := tg') ho
      simp only [mkB] at h3 h4
      simp only [h3, tagSlot, Buffer.deleteRecord]
      have hslot : (buffer C 0 mem tg d.buf.head d.buf.tail).view.deleteSlot x = d.buf.view.deleteSlot x := by
        unfold buffer Buffer.view View.deleteSlot View.start View.stop
        simp only [← hdata, ← hcap]
      simp only [hslot]
      cases hds : d.buf.view.deleteSlot x with
      | none =>
        simp only [h4]
        exact ⟨_, rfl, ⟨hL, rfl, rfl, hwf, hlw, hhw, o, e, n, d.buf.tail, b, p, mem, ehead, estr, alive, cl, dn, vs, tg, rfl, ho, heh, hp, hal, hid, hdata, hvs⟩⟩
      | some j =>
        simp only [h4]
        refine ⟨_, rfl, ⟨hL, rfl, rfl, hwf.tag j, hlw, hhw, o, e, n, d.buf.tail, b, p, mem, ehead, estr, alive, cl, dn, vs, _, rfl, ho, heh, hp, hal, hid, ?_, hvs⟩⟩
        rw [← ring_tag, ← hdata]

/-- The serial meaning of an action. -/
def serialAct {β : Type} [DecidableEq R] (C : Cfg R) (Q : Index R → β) (d : Index R) : Act → Res (Index R × Ans β)
  | .call r => (d.step (op C r)).map (fun x => (x.1, .ret x.2))
  | .query => .ok (d, .result (Q d))
  | .await => .ok (d, .none)

/-- The serial meaning of a sequence of actions. -/
def serial {β : Type} [DecidableEq R] (C : Cfg R) (Q : Index R → β) : Index R → List Act → Res (Index R × List (Ans β))
  | d, [] => .ok (d, [])
  | d, o :: os => do
    let (d, x) ← serialAct C Q d o
    let (d, xs) ← serial C Q d os
    .ok (d, x :: xs)

/-- The evaluation of a query uses the structure and the records of the view, not the watermark or the tombstone counter of the buffer. -/
def ReadsView {β : Type} (Q : Index R → β) : Prop :=
  ∀ (d : Index R) (lwm ts : Nat), Q { d with buf := { d.buf with lwm := lwm, tscnt := ts } } = Q d

theorem act_sim {β : Type} [DecidableEq R] (hR : ReadsContents C.impl) {Q : Index R → β} (hQ : ReadsView Q) {fuel : Nat} (hfu : C.P.hwm + 50 < fuel)
    {s : St R} (hr : Rel C T s d) (o : Act) :
    match serialAct C Q d o with
    | .error f => act C T hf fuel Q s o = .error f
    | .ok (d', x) => ∃ s', act C T hf fuel Q s o = .ok (some (s', x)) ∧ Rel C T s' d' := by
  cases o with
  | call r =>
    have h : match d.step (op C r) with
        | .error f => (if T && C.del r then tagErase C s (C.ρ r) else call C hf fuel s r) = .error f
        | .ok (d', v) => ∃ s', (if T && C.del r then tagErase C s (C.ρ r) else call C hf fuel s r) = .ok (some (s', v)) ∧ Rel C T s' d' := by
      rw [step_op hr.tag]
      split_ifs with hc
      · simp only [Bool.and_eq_true] at hc
        obtain ⟨rfl, _⟩ := hc
        exact tagErase_sim hr _
      · exact call_sim (hf := hf) hR hr r hfu
    unfold serialAct act
    cases hd : d.step (op C r) with
    | error f => rw [hd] at h; simp only [hd, h, Except.map, bind, Except.bind]
    | ok x =>
      obtain ⟨d', v⟩ := x
      rw [hd] at h
      obtain ⟨s', h, hr'⟩ := h
      simp only [hd, h, Except.map, bind, Except.bind]
      exact ⟨s', rfl, hr'⟩
  | query =>
    obtain ⟨s1, e, h1, h2, h3, h4, s2, h5, hr'⟩ := query_sim hr
    unfold serialAct act
    refine ⟨s2, ?_, hr'⟩
    simp only [h1, bind, Except.bind, h2, h5]
    have : snapshot C T s1 e d.buf.head d.buf.tail = { d with buf := { d.buf with lwm := max 1 (d.buf.tail - d.buf.head), tscnt := 0 } } := by
      have hcap : d.buf.cap = C.P.cap := by rw [hr.wf.cap, hr.hwm]; rfl
      unfold snapshot buffer
      rw [h3, ← h4, ← hr.hwm, ← hcap, ← hr.L, ← hr.impl, ← hr.tag]
    rw [this, hQ]
  | await =>
    unfold serialAct act
    refine ⟨s, ?_, hr⟩
    rw [await_sim hr]
    rfl

theorem session_sim {β : Type} [DecidableEq R] (hR : ReadsContents C.impl) {Q : Index R → β} (hQ : ReadsView Q) {fuel : Nat} (hfu : C.P.hwm + 50 < fuel) :
    ∀ (os : List Act) {s : St R} {d : Index R}, Rel C T s d →
    match serial C Q d os with
    | .error f => session C T hf fuel Q s os = .error f
    | .ok (d', xs) => ∃ s', session C T hf fuel Q s os = .ok (some (s', xs)) ∧ Rel C T s' d'
  | [], s, d, hr => ⟨s, rfl, hr⟩
  | o :: os, s, d, hr => by
    have h1 := act_sim (hf := hf) hR hQ hfu hr o
    rw [serial, session]
    cases hd : serialAct C Q d o with
    | error f => rw [hd] at h1; simp only [h1, bind, Except.bind]
    | ok x =>
      obtain ⟨d1, v⟩ := x
      rw [hd] at h1
      obtain ⟨s1, h1, hr1⟩ := h1
      have h2 := session_sim hR hQ hfu os hr1
      simp only [h1, bind, Except.bind]
      cases hd2 : serial C Q d1 os with
      | error f => rw [hd2] at h2; simp only [h2]
      | ok y =>
        obtain ⟨d2, vs⟩ := y
        rw [hd2] at h2
        obtain ⟨s2, h2, hr2⟩ := h2
        simp only [h2]
        exact ⟨s2, rfl, hr2⟩

theorem act_plain {β : Type} [DecidableEq R] {Q : Index R → β} {fuel : Nat} {s s' : St R} {o : Act} {x : Ans β} (hr : Plain C s)
    (h : act C false hf fuel Q s o = .ok (some (s', x))) : Plain C s' := by
  cases o with
  | call r =>
    obtain ⟨y, h1, h⟩ := bind_ok.mp h
    cases y with
    | none => cases h
    | some y => obtain ⟨s1, v⟩ := y; cases h; exact call_plain hr h1
  | query =>
    obtain ⟨y, h1, h⟩ := bind_ok.mp h
    cases y with
    | none => cases h
    | some s1 =>
      have hr1 := exec_plain _ hr h1
      simp only at h
      split at h
      · obtain ⟨z, h2, h⟩ := bind_ok.mp h
        cases z with
        | none => cases h
        | some s2 => cases h; exact exec_plain _ hr1 h2
      · cases h
  | await =>
    obtain ⟨y, h1, h⟩ := bind_ok.mp h
    cases y with
    | none => cases h
    | some s1 => cases h; exact exec_plain _ hr h1

theorem session_plain {β : Type} [DecidableEq R] {Q : Index R → β} {fuel : Nat} : ∀ (os : List Act) {s s' : St R} {xs : List (Ans β)}, Plain C s →
    session C false hf fuel Q s os = .ok (some (s', xs)) → Plain C s'
  | [], s, s', xs, hr, h => by cases h; exact hr
  | o :: os, s, s', xs, hr, h => by
    rw [session] at h
    obtain ⟨y, h1, h⟩ := bind_ok.mp h
    cases y with
    | none => cases h
    | some x =>
      obtain ⟨s1, v⟩ := x
      obtain ⟨z, h2, h⟩ := bind_ok.mp h
      cases z with
      | none => cases h
      | some x =>
        obtain ⟨s2, ws⟩ := x
        cases h
        exact session_plain os (act_plain hr h1) h2

/-! ### The shard constructors -/

omit [Inhabited R] in
theorem sorted_readsContents {K : Type} [LinearOrder R] [LinearOrder K] [HasKey R K] (pq : PQ R) (lb : LB R K) : ReadsContents (sortedImpl pq lb) := by
  intro b b' h h' hc
  show sortedFromView _ = sortedFromView _
  unfold sortedFromView
  rw [Buffer.view_copyOut h, Buffer.view_copyOut h', hc]

omit [Inhabited R] in
theorem vp_readsContents {𝔽 : Type} [DecidableEq R] [LinearOrder 𝔽] [Zero 𝔽] (dist : R → R → 𝔽) (leafSz : Nat) (g : Rng) :
    ReadsContents (vpImpl dist leafSz g) := by
  intro b b' h h' hc
  simp only [vpImpl]
  rw [Buffer.view_gets h, Buffer.view_gets h', hc]

omit [Inhabited R] in
theorem fst_readsContents {S : Type} [LinearOrder R] [LinearOrder S] [HasKey R S] (pq : PQ R) (t : Trie S) (lit : R → Bool) :
    ReadsContents (fstImpl pq t lit) := by
  intro b b' h h' hc
  show fstBuild _ _ = fstBuild _ _
  unfold fstBuild
  rw [Buffer.view_gets h, Buffer.view_gets h', hc]

end DE.SerialRun
