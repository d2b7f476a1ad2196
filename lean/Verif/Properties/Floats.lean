import Verif.Model.Floats
import Verif.Properties.Records
import Mathlib.Algebra.Order.Ring.Int
import Mathlib.Data.List.Induction
import Mathlib.Order.WithBot
import Mathlib.Tactic.NormNum

/-!
C97: point records with `double` coordinates: order, equality, hash and the lookup through the hash map of a VPTree.
-/

namespace DE
namespace Dbl

theorem toNat_eq (x : Dbl) : x.toNat = x.mag + (if x.neg then 2 ^ 63 else 0) := by
  unfold mag neg
  have hlt := x.isLt
  rw [BitVec.getLsbD, Nat.testBit_eq_decide_div_mod_eq]
  simp only [decide_eq_true_eq]
  split <;> omega

/-- Equal numbers other than -0.0 have equal bits. -/
theorem ord_inj {x y : Dbl} (hx : x ≠ negZero) (hy : y ≠ negZero) (h : x.ord = y.ord) : x = y := by
  have key : ∀ {z : Dbl}, z ≠ negZero → z.neg = true → z.mag ≠ 0 := by
    intro z hz hn hm
    apply hz
    apply BitVec.eq_of_toNat_eq
    rw [toNat_eq z, hm, hn]
    rfl
  apply BitVec.eq_of_toNat_eq
  rw [toNat_eq x, toNat_eq y]
  unfold ord at h
  cases hxn : x.neg <;> cases hyn : y.neg <;> simp only [hxn, hyn, if_true, Bool.false_eq_true, if_false] at h ⊢
  · omega
  · have := key hy hyn
    omega
  · have := key hx hxn
    omega
  · omega

/-! ### The comparisons against the numbers the bits stand for -/

/-- IEEE 754 binary64: sign, biased exponent and fraction. -/
def sgn (x : Dbl) : Bool := x.msb
def expo (x : Dbl) : Nat := (x.extractLsb' 52 11).toNat
def frac (x : Dbl) : Nat := (x.extractLsb' 0 52).toNat

/-- The absolute value of a number in units of 2^-1074: subnormal if the exponent field is 0, else with the hidden bit. -/
def absVal (x : Dbl) : Nat := if x.expo = 0 then x.frac else (2 ^ 52 + x.frac) * 2 ^ (x.expo - 1)

/-- What the bits stand for: nothing (NaN), an infinity, or a number (in units of 2^-1074). -/
def value (x : Dbl) : Option (WithBot (WithTop Int)) :=
  if x.expo = 2047 then
    if x.frac ≠ 0 then none else some (if x.sgn then ⊥ else ((⊤ : WithTop Int) : WithBot (WithTop Int)))
  else some (((if x.sgn then -(x.absVal : Int) else x.absVal : Int) : WithTop Int) : WithBot (WithTop Int))

theorem expo_lt (x : Dbl) : x.expo < 2048 := (x.extractLsb' 52 11).isLt
theorem frac_lt (x : Dbl) : x.frac < 2 ^ 52 := (x.extractLsb' 0 52).isLt

theorem mag_eq (x : Dbl) : x.mag = x.expo * 2 ^ 52 + x.frac := by
  unfold mag expo frac
  have := x.isLt
  rw [BitVec.extractLsb'_toNat, BitVec.extractLsb'_toNat, Nat.shiftRight_eq_div_pow, Nat.shiftRight_eq_div_pow]
  omega

theorem sgn_eq (x : Dbl) : x.sgn = x.neg := by
  unfold sgn neg
  rw [BitVec.msb_eq_getLsbD_last]

theorem nan_iff (x : Dbl) : x.nan = true ↔ x.expo = 2047 ∧ x.frac ≠ 0 := by
  unfold nan
  rw [decide_eq_true_eq, mag_eq]
  have := x.expo_lt
  have := x.frac_lt
  omega

theorem absVal_lt {x y : Dbl} (h : x.mag < y.mag) : x.absVal < y.absVal := by
  rw [mag_eq, mag_eq] at h
  have fx := x.frac_lt
  have fy := y.frac_lt
  unfold absVal
  generalize x.expo = a at *
  generalize y.expo = b at *
  generalize x.frac = f at *
  generalize y.frac = g at *
  by_cases hab : a = b
  · subst hab
    split
    · omega
    · exact Nat.mul_lt_mul_of_pos_right (by omega) (Nat.two_pow_pos _)
  · have hab : a < b := by omega
    have hup : (if a = 0 then f else (2 ^ 52 + f) * 2 ^ (a - 1)) < 2 ^ (52 + a) := by
      split
      · rename_i h0; subst h0; exact fx
      · rename_i h0
        have h1 : (2 : Nat) ^ (52 + a) = 2 ^ 53 * 2 ^ (a - 1) := by
          rw [← Nat.pow_add]; congr 1; omega
        rw [h1]
        exact Nat.mul_lt_mul_of_pos_right (by omega) (Nat.two_pow_pos _)
    refine lt_of_lt_of_le hup ?_
    rw [if_neg (by omega)]
    calc 2 ^ (52 + a) ≤ 2 ^ (52 + (b - 1)) := Nat.pow_le_pow_right (by norm_num) (by omega)
      _ = 2 ^ 52 * 2 ^ (b - 1) := by rw [Nat.pow_add]
      _ ≤ _ := Nat.mul_le_mul_right _ (by omega)

theorem absVal_le {x y : Dbl} (h : x.mag ≤ y.mag) : x.absVal ≤ y.absVal := by
  rcases Nat.lt_or_eq_of_le h with h | h
  · exact (absVal_lt h).le
  · have h1 : x.expo = y.expo ∧ x.frac = y.frac := by
      rw [mag_eq, mag_eq] at h
      have := x.frac_lt
      have := y.frac_lt
      omega
    unfold absVal
    rw [h1.1, h1.2]

/-- The number in units of 2^-1074, an infinity counting as the next number. -/
def sval (x : Dbl) : Int := if x.neg then -(x.absVal : Int) else x.absVal

theorem absVal_zero {x : Dbl} (h : x.mag = 0) : x.absVal = 0 := by
  rw [mag_eq] at h
  unfold absVal
  rw [if_pos (by omega)]; omega

theorem absVal_pos {x : Dbl} (h : x.mag ≠ 0) : 0 < x.absVal := by
  have h0 : mag (0#64) = 0 := rfl
  have := absVal_lt (x := 0#64) (y := x) (by rw [h0]; omega)
  omega

theorem sval_lt (x y : Dbl) : x.sval < y.sval ↔ x.ord < y.ord := by
  have h1 : x.mag < y.mag → x.absVal < y.absVal := absVal_lt
  have h2 : y.mag < x.mag → y.absVal < x.absVal := absVal_lt
  have h3 : x.mag ≤ y.mag → x.absVal ≤ y.absVal := absVal_le
  have h4 : y.mag ≤ x.mag → y.absVal ≤ x.absVal := absVal_le
  have h5 : x.mag = 0 → x.absVal = 0 := absVal_zero
  have h6 : y.mag = 0 → y.absVal = 0 := absVal_zero
  have h7 : x.mag ≠ 0 → 0 < x.absVal := absVal_pos
  have h8 : y.mag ≠ 0 → 0 < y.absVal := absVal_pos
  unfold sval ord
  generalize x.mag = a at *
  generalize y.mag = b at *
  generalize x.absVal = p at *
  generalize y.absVal = q at *
  split <;> split <;> omega

theorem sval_eq (x y : Dbl) : x.sval = y.sval ↔ x.ord = y.ord := by
  have h1 := sval_lt x y
  have h2 := sval_lt y x
  omega

theorem value_num {x : Dbl} (h : x.nan = false) : ∃ a, x.value = some a ∧
    ((x.expo ≠ 2047 ∧ a = ((x.sval : WithTop Int) : WithBot (WithTop Int))) ∨
     (x.expo = 2047 ∧ x.frac = 0 ∧ x.neg = true ∧ a = ⊥) ∨ (x.expo = 2047 ∧ x.frac = 0 ∧ x.neg = false ∧ a = ((⊤ : WithTop Int) : WithBot (WithTop Int)))) := by
  have hn : ¬ (x.expo = 2047 ∧ x.frac ≠ 0) := by rw [← nan_iff, h]; simp
  unfold value
  by_cases he : x.expo = 2047
  · have hf : x.frac = 0 := by_contra fun hf => hn ⟨he, hf⟩
    rw [if_pos he, if_neg (by simp [hf]), sgn_eq]
    refine ⟨_, rfl, .inr ?_⟩
    cases hs : x.neg
    · exact .inr ⟨he, hf, rfl, by simp⟩
    · exact .inl ⟨he, hf, rfl, by simp⟩
  · rw [if_neg he, sgn_eq]
    exact ⟨_, rfl, .inl ⟨he, rfl⟩⟩

theorem absVal_fin {x y : Dbl} (hx : x.expo ≠ 2047) (hy : y.expo = 2047) : x.absVal < y.absVal := by
  apply absVal_lt
  rw [mag_eq, mag_eq]
  have := x.expo_lt
  have := x.frac_lt
  omega

theorem absVal_inf {x y : Dbl} (hx : x.expo = 2047) (hx' : x.frac = 0) (hy : y.expo = 2047) (hy' : y.frac = 0) : x.absVal = y.absVal := by
  unfold absVal; rw [hx, hx', hy, hy']

theorem value_lt {x y : Dbl} {a b : WithBot (WithTop Int)} (hx : x.nan = false) (hy : y.nan = false) (ha : x.value = some a) (hb : y.value = some b) :
    a < b ↔ x.sval < y.sval := by
  obtain ⟨a', ha', h1⟩ := value_num hx
  obtain ⟨b', hb', h2⟩ := value_num hy
  rw [ha] at ha'; cases ha'
  rw [hb] at hb'; cases hb'
  rcases h1 with ⟨e1, rfl⟩ | ⟨e1, f1, s1, rfl⟩ | ⟨e1, f1, s1, rfl⟩ <;> rcases h2 with ⟨e2, rfl⟩ | ⟨e2, f2, s2, rfl⟩ | ⟨e2, f2, s2, rfl⟩
  · simp
  · have := absVal_fin e1 e2
    simp only [not_lt_bot, false_iff, sval, s2, if_true]
    split <;> omega
  · have := absVal_fin e1 e2
    simp only [WithBot.coe_lt_coe, WithTop.coe_lt_top, true_iff, sval, s2, Bool.false_eq_true, if_false]
    split <;> omega
  · have := absVal_fin e2 e1
    simp only [WithBot.bot_lt_coe, true_iff, sval, s1, if_true]
    split <;> omega
  · have := absVal_inf e1 f1 e2 f2
    simp [sval, s1, s2, this]
  · have := absVal_inf e1 f1 e2 f2
    have h0 : 0 < x.absVal := absVal_pos (by rw [mag_eq, e1]; omega)
    simp only [WithBot.bot_lt_coe, true_iff, sval, s1, s2, if_true, Bool.false_eq_true, if_false]
    omega
  · have := absVal_fin e2 e1
    simp only [WithBot.coe_lt_coe, not_top_lt, false_iff, sval, s1, Bool.false_eq_true, if_false]
    split <;> omega
  · have := absVal_inf e1 f1 e2 f2
    simp only [not_lt_bot, false_iff, sval, s1, s2, if_true, Bool.false_eq_true, if_false]
    omega
  · have := absVal_inf e1 f1 e2 f2
    simp [sval, s1, s2, this]

end Dbl

/-- C97, comparison: `<` and `==` of the model compare the numbers the bits stand for; NaN is neither less than nor equal to anything. -/
theorem C97_compare (x y : Dbl) :
    (x.lt y = true ↔ ∃ a b, x.value = some a ∧ y.value = some b ∧ a < b) ∧
    (x.eq y = true ↔ ∃ a b, x.value = some a ∧ y.value = some b ∧ a = b) := by
  have none_of : ∀ {z : Dbl}, z.nan = true → z.value = none := by
    intro z hz
    have := (Dbl.nan_iff z).mp hz
    unfold Dbl.value
    rw [if_pos this.1, if_pos this.2]
  unfold Dbl.lt Dbl.eq
  cases hx : x.nan
  · cases hy : y.nan
    · obtain ⟨a, ha, -⟩ := Dbl.value_num hx
      obtain ⟨b, hb, -⟩ := Dbl.value_num hy
      have h1 := Dbl.value_lt hx hy ha hb
      have h2 := Dbl.value_lt hy hx hb ha
      rw [ha, hb]
      simp only [Bool.not_false, Bool.true_and, decide_eq_true_eq, Option.some.injEq, exists_and_left, ↓existsAndEq, true_and]
      refine ⟨by rw [h1, Dbl.sval_lt], ?_⟩
      rw [← Dbl.sval_eq]
      constructor
      · intro h
        rcases lt_trichotomy a b with h3 | h3 | h3
        · have := h1.mp h3; omega
        · exact ⟨h3.symm, trivial⟩
        · have := h2.mp h3; omega
      · rintro ⟨rfl, -⟩
        have h3 : ¬ x.sval < y.sval := fun h => lt_irrefl _ (h1.mpr h)
        have h4 : ¬ y.sval < x.sval := fun h => lt_irrefl _ (h2.mpr h)
        omega
    · rw [none_of hy]; simp
  · rw [none_of hx]; simp

/-- -0.0 and 0.0 have the same value, 1.0 is less than infinity, and NaN has no value. -/
example : Dbl.negZero.value = some ((0 : Int) : WithTop Int) ∧ Dbl.zero.value = Dbl.negZero.value ∧ Dbl.qnan.value = none ∧
    Dbl.value 0x7FF0000000000000#64 = some (⊤ : WithTop Int) ∧ Dbl.lt Dbl.one 0x7FF0000000000000#64 = true := by
  refine ⟨?_, ?_, ?_, ?_, by decide⟩ <;> simp [Dbl.value, Dbl.expo, Dbl.frac, Dbl.sgn, Dbl.absVal, Dbl.negZero, Dbl.zero, Dbl.qnan, BitVec.msb_eq_decide]

theorem dblLt_map : ∀ {a b : List Dbl}, (∀ x ∈ a, x.nan = false) → (∀ x ∈ b, x.nan = false) →
    dblLt a b = pointLt (a.map Dbl.ord) (b.map Dbl.ord)
  | [], [], _, _ => rfl
  | [], _ :: _, _, _ => rfl
  | _ :: _, [], _, _ => rfl
  | x :: a, y :: b, ha, hb => by
    have hx := ha x (by simp)
    have hy := hb y (by simp)
    simp only [dblLt, pointLt, List.map_cons, Dbl.lt, hx, hy, Bool.not_false, Bool.true_and, decide_eq_true_eq]
    rw [dblLt_map (fun z hz => ha z (by simp [hz])) (fun z hz => hb z (by simp [hz]))]

theorem dblEq_map : ∀ {a b : List Dbl}, (∀ x ∈ a, x.nan = false) → (∀ x ∈ b, x.nan = false) →
    dblEq a b = pointEq (a.map Dbl.ord) (b.map Dbl.ord)
  | [], [], _, _ => rfl
  | [], _ :: _, _, _ => rfl
  | _ :: _, [], _, _ => rfl
  | x :: a, y :: b, ha, hb => by
    have hx := ha x (by simp)
    have hy := hb y (by simp)
    simp only [dblEq, pointEq, List.map_cons, Dbl.eq, hx, hy, Bool.not_false, Bool.true_and, Bool.not_eq_true', decide_eq_false_iff_not, ne_eq]
    rw [dblEq_map (fun z hz => ha z (by simp [hz])) (fun z hz => hb z (by simp [hz]))]

/-- The points of dimension `D` without a NaN. -/
def Num (D : Nat) (a : List Dbl) : Prop := a.length = D ∧ ∀ x ∈ a, x.nan = false

/-- C97, order: points of one dimension without NaN are strictly weakly ordered, and `==` is the equivalence of the order, so that
`std::sort` and the merges can rely on them. Missing: with a NaN they are not (`C97_false_nan`). -/
theorem C97_order_partial (D : Nat) :
    StrictWeak (fun a b : {l : List Dbl // Num D l} => dblLt a.1 b.1 = true) (fun a b => dblEq a.1 b.1 = true) := by
  have h := C40_point (V := Int) D
  let f : {l : List Dbl // Num D l} → {l : List Int // l.length = D} := fun a => ⟨a.1.map Dbl.ord, by simp [a.2.1]⟩
  have hl : ∀ a b : {l : List Dbl // Num D l}, dblLt a.1 b.1 = pointLt (f a).1 (f b).1 := fun a b => dblLt_map a.2.2 b.2.2
  have he : ∀ a b : {l : List Dbl // Num D l}, dblEq a.1 b.1 = pointEq (f a).1 (f b).1 := fun a b => dblEq_map a.2.2 b.2.2
  refine ⟨?_, ?_, ?_, ?_, ?_⟩
  · intro a; rw [hl]; exact h.irrefl (f a)
  · intro a b c; rw [hl, hl, hl]; exact h.trans (f a) (f b) (f c)
  · intro a b; rw [hl, hl, he]; exact h.tri (f a) (f b)
  · intro a b; rw [hl, hl, he]; exact h.eq_iff (f a) (f b)
  · intro a b c; rw [he, he, he]; exact h.eq_trans (f a) (f b) (f c)

theorem dblEq_iff {D : Nat} {a b : List Dbl} (ha : Num D a) (hb : Num D b) (hza : Dbl.negZero ∉ a) (hzb : Dbl.negZero ∉ b) :
    dblEq a b = true ↔ a = b := by
  constructor
  · intro h
    have hlen : a.length = b.length := ha.1.trans hb.1.symm
    clear ha hb
    induction a generalizing b with
    | nil => cases b with
      | nil => rfl
      | cons => simp at hlen
    | cons x a ih =>
      cases b with
      | nil => simp at hlen
      | cons y b =>
        simp only [dblEq] at h
        split at h
        · cases h
        · next hxy =>
          have hxy : x.eq y = true := by simpa using hxy
          simp only [Dbl.eq, Bool.and_eq_true, decide_eq_true_eq] at hxy
          rw [Dbl.ord_inj (fun e => hza (by simp [e])) (fun e => hzb (by simp [e])) hxy.2,
            ih (fun h => hza (by simp [h])) (fun h => hzb (by simp [h])) h (by simpa using hlen)]
  · rintro rfl
    rw [dblEq_map ha.2 ha.2]
    exact ((C40_point (V := Int) D).eq_iff ⟨a.map Dbl.ord, by simp [ha.1]⟩ ⟨a.map Dbl.ord, by simp [ha.1]⟩).mpr
      ⟨(C40_point (V := Int) D).irrefl _, (C40_point (V := Int) D).irrefl _⟩

/-- C97, hash: points without NaN and without -0.0 that are equal have the same bytes, so the same hash whatever the hash function.
Missing: 0.0 and -0.0 are equal with different bytes (`C97_false_zero`). -/
theorem C97_hash_partial {D : Nat} {a b : List Dbl} (ha : Num D a) (hb : Num D b) (hza : Dbl.negZero ∉ a) (hzb : Dbl.negZero ∉ b)
    (h : dblEq a b = true) (hash : List Dbl → Nat) : hash a = hash b := by
  rw [(dblEq_iff ha hb hza hzb).mp h]

theorem buildFrom_append (h : List Dbl → Nat) : ∀ (xs ys : List (List Dbl)) (m : HMap) (i : Nat),
    HMap.buildFrom h m i (xs ++ ys) = HMap.buildFrom h (HMap.buildFrom h m i xs) (i + xs.length) ys
  | [], ys, m, i => by simp [HMap.buildFrom]
  | x :: xs, ys, m, i => by
    simp only [List.cons_append, HMap.buildFrom]
    rw [buildFrom_append h xs ys]
    simp [Nat.add_assoc, Nat.add_comm]

/-- The lookup through the map finds the first equal record if equal points have equal hashes. -/
theorem hmapLookup_eq {D : Nat} {h : List Dbl → Nat} {S : List Dbl → Prop} (hS : ∀ a, S a → Num D a)
    (hc : ∀ a b, S a → S b → dblEq a b = true → h a = h b) {data : List (List Dbl)} (hd : ∀ a ∈ data, S a) {p : List Dbl} (hp : S p) :
    hmapLookup h data p = data.findIdx? (fun q => dblEq q p) := by
  have W := C97_order_partial D
  have tr : ∀ a b c, S a → S b → S c → dblEq a b = true → dblEq b c = true → dblEq a c = true :=
    fun a b c ha hb hc => W.eq_trans ⟨a, hS a ha⟩ ⟨b, hS b hb⟩ ⟨c, hS c hc⟩
  unfold hmapLookup
  revert p
  induction data using List.reverseRecOn with
  | nil => intro p _; rfl
  | append_singleton xs x ih =>
    intro p hp
    have ih := @ih (fun a ha => hd a (by simp [ha]))
    have hx : S x := hd x (by simp)
    rw [buildFrom_append, List.findIdx?_append]
    simp only [HMap.buildFrom, HMap.insert, Nat.zero_add]
    have ihp := ih hp
    have ihx := ih hx
    cases hf : HMap.find h (HMap.buildFrom h [] 0 xs) x with
    | some j =>
      simp only
      rw [ihp]
      rw [hf] at ihx
      cases hq : xs.findIdx? (fun q => dblEq q p) with
      | some i => rfl
      | none =>
        obtain ⟨hj, he, -⟩ := List.findIdx?_eq_some_iff_getElem.mp ihx.symm
        have hmem := List.getElem_mem hj
        have hn : dblEq x p = false := by
          cases hxp : dblEq x p with
          | false => rfl
          | true =>
            have h1 := tr _ _ _ (hd xs[j] (by simp [hmem])) hx hp he hxp
            rw [List.findIdx?_eq_none_iff.mp hq _ hmem] at h1
            cases h1
        simp [List.findIdx?_cons, hn]
    | none =>
      simp only
      rw [← ihp]
      unfold HMap.find
      rw [List.find?_append]
      cases hq : List.find? (fun y => decide (y.1 = h p) && dblEq y.2.1 p) (HMap.buildFrom h [] 0 xs) with
      | some y => rfl
      | none =>
        cases hxp : dblEq x p with
        | false => simp [List.findIdx?_cons, hxp]
        | true => simp [List.findIdx?_cons, hxp, hc x p hx hp hxp]

/-- C97, lookup: in a shard of points without NaN and -0.0, `point_lookup` through the hash map returns the first record equal to such a
point, and nothing if there is none, whatever the hash function. -/
theorem C97_lookup_partial {D : Nat} (hash : List Dbl → Nat) {data : List (List Dbl)} {p : List Dbl}
    (hd : ∀ a ∈ data, Num D a ∧ Dbl.negZero ∉ a) (hp : Num D p ∧ Dbl.negZero ∉ p) :
    (∀ i, hmapLookup hash data p = some i ↔ ∃ q, data[i]? = some q ∧ dblEq q p = true ∧ ∀ j q', j < i → data[j]? = some q' → dblEq q' p = false) ∧
    (hmapLookup hash data p = none ↔ ∀ q ∈ data, dblEq q p = false) := by
  rw [hmapLookup_eq (S := fun a => Num D a ∧ Dbl.negZero ∉ a) (fun a h => h.1)
    (fun a b ha hb h => C97_hash_partial ha.1 hb.1 ha.2 hb.2 h hash) hd hp]
  refine ⟨fun i => ?_, List.findIdx?_eq_none_iff⟩
  rw [List.findIdx?_eq_some_iff_getElem]
  constructor
  · rintro ⟨hi, h1, h2⟩
    refine ⟨data[i], by simp [hi], h1, ?_⟩
    intro j q' hj hq
    have h3 := h2 j hj
    rw [List.getElem?_eq_getElem (by omega)] at hq
    cases hq
    simpa using h3
  · rintro ⟨q, hq, h1, h2⟩
    obtain ⟨hi, rfl⟩ := List.getElem?_eq_some_iff.mp hq
    refine ⟨hi, h1, ?_⟩
    intro j hj
    have := h2 j data[j] hj (by rw [List.getElem?_eq_getElem])
    simp [this]

/-- Such points exist: 0.0, 1.0 and 2.0. -/
example : Num 2 [Dbl.one, Dbl.zero] ∧ Dbl.negZero ∉ [Dbl.one, Dbl.zero] ∧ Num 2 [Dbl.two, Dbl.zero] := by
  refine ⟨⟨rfl, ?_⟩, ?_, ⟨rfl, ?_⟩⟩ <;> simp [Dbl.nan, Dbl.mag, Dbl.one, Dbl.two, Dbl.zero, Dbl.negZero]

/-- A lookup that hits the second of three. -/
example : hmapLookup (fun _ => 0) [[Dbl.one], [Dbl.two], [Dbl.two]] [Dbl.two] = some 1 := by decide

set_option maxRecDepth 4000 in
/-- The values of the constants: 1.0 < 2.0, the zeros are equal. -/
example : Dbl.one.lt Dbl.two = true ∧ Dbl.zero.eq Dbl.negZero = true ∧ Dbl.negZero.lt Dbl.one = true ∧ Dbl.qnan.eq Dbl.qnan = false := by decide

/-- C97 is false for the zeros: a stored point equal to the one looked up is not found, for every hash function that tells the two
zeros apart. -/
theorem C97_false_zero {hash : List Dbl → Nat} (h : hash [Dbl.zero] ≠ hash [Dbl.negZero]) :
    dblEq [Dbl.zero] [Dbl.negZero] = true ∧ hmapLookup hash [[Dbl.zero]] [Dbl.negZero] = none := by
  refine ⟨by decide, ?_⟩
  simp [hmapLookup, HMap.buildFrom, HMap.insert, HMap.find, h]

theorem dblEq_nan : ∀ {q p : List Dbl}, q.length = p.length → (∃ x ∈ p, x.nan = true) → dblEq q p = false
  | [], [], _, h => by simp at h
  | [], _ :: _, hl, _ => by simp at hl
  | _ :: _, [], hl, _ => by simp at hl
  | y :: q, x :: p, hl, h => by
    simp only [dblEq]
    split
    · rfl
    · next hxy =>
      have hxy : y.eq x = true := by simpa using hxy
      simp only [Dbl.eq, Bool.and_eq_true, Bool.not_eq_true'] at hxy
      apply dblEq_nan (by simpa using hl)
      obtain ⟨z, hz, hn⟩ := h
      rcases List.mem_cons.mp hz with rfl | hz
      · rw [hn] at hxy
        exact absurd hxy.1.2 (by simp)
      · exact ⟨z, hz, hn⟩

theorem buildFrom_keys {h : List Dbl → Nat} : ∀ (data : List (List Dbl)) (m : HMap) (i : Nat) (y : Nat × List Dbl × Nat),
    y ∈ HMap.buildFrom h m i data → y ∈ m ∨ y.2.1 ∈ data
  | [], m, i, y, hy => .inl hy
  | p :: ps, m, i, y, hy => by
    rcases buildFrom_keys ps _ _ y hy with hy | hy
    · unfold HMap.insert at hy
      split at hy
      · exact .inl hy
      · rcases List.mem_append.mp hy with hy | hy
        · exact .inl hy
        · rw [List.mem_singleton.mp hy]
          exact .inr (by simp)
    · exact .inr (by simp [hy])

/-- C97 is false with NaN: a point with a NaN is never found, stored or not, whatever the hash function; so it can never be erased
by tagging. -/
theorem C97_false_nan_lookup (hash : List Dbl → Nat) {data : List (List Dbl)} {p : List Dbl} (hd : ∀ a ∈ data, a.length = p.length)
    (hp : ∃ x ∈ p, x.nan = true) : hmapLookup hash data p = none := by
  unfold hmapLookup HMap.find
  have : List.find? (fun x => decide (x.1 = hash p) && dblEq x.2.1 p) (HMap.buildFrom hash [] 0 data) = none := by
    rw [List.find?_eq_none]
    intro y hy
    rcases buildFrom_keys data [] 0 y hy with hy | hy
    · cases hy
    · simp [dblEq_nan (hd _ hy) hp]
  rw [this]

/-- C97 is false with NaN: the order is not a strict weak order (NaN is incomparable to 1.0 and to 2.0, and 1.0 < 2.0), so sorting
such points is undefined behaviour; and `==` is not even reflexive. -/
theorem C97_false_nan (D : Nat) (hD : 0 < D) :
    (¬ StrictWeak (fun a b : {l : List Dbl // l.length = D} => dblLt a.1 b.1 = true) (fun a b => dblLt a.1 b.1 = false ∧ dblLt b.1 a.1 = false)) ∧
    ∃ a : {l : List Dbl // l.length = D}, dblEq a.1 a.1 = false := by
  obtain ⟨n, rfl⟩ : ∃ n, D = n + 1 := ⟨D - 1, by omega⟩
  have refl : ∀ n, dblLt (List.replicate n Dbl.zero) (List.replicate n Dbl.zero) = false := by
    intro n
    induction n with
    | zero => rfl
    | succ n ih => rw [List.replicate_succ, dblLt, ih]; rfl
  let mk : Dbl → {l : List Dbl // l.length = n + 1} := fun x => ⟨x :: List.replicate n Dbl.zero, by simp⟩
  have lt_mk : ∀ x y, dblLt (mk x).1 (mk y).1 = if x.lt y then true else if y.lt x then false else false := by
    intro x y
    show dblLt (x :: _) (y :: _) = _
    rw [dblLt, refl]
  refine ⟨fun h => ?_, mk Dbl.qnan, dblEq_nan rfl ⟨Dbl.qnan, by simp [mk], rfl⟩⟩
  have h1 := h.eq_trans (mk Dbl.one) (mk Dbl.qnan) (mk Dbl.two)
  simp only [lt_mk] at h1
  exact absurd (h1 (by decide) (by decide)) (by decide)

end DE
