import Mathlib.Tactic.Ring
import Mathlib.Tactic.Linarith
import Mathlib.Tactic.NormNum
import Mathlib.Tactic.FieldSimp
import Mathlib.Tactic.Common
import Mathlib.Algebra.Order.Ring.Rat
import Mathlib.Algebra.Order.Group.Abs
import Mathlib.Algebra.Order.AbsoluteValue.Basic
import Mathlib.Data.Rat.Floor
import Mathlib.Data.Fintype.EquivFin
import Mathlib.Algebra.BigOperators.Intervals
import Mathlib.Algebra.Ring.GeomSum
import Mathlib.Data.Nat.Bitwise
import Mathlib.Data.Nat.Prime.Basic
import Mathlib.Data.Nat.ModEq
import Verif.W2V.NegModel

/-!
# C31: negative sampling draws valid words in proportion to the table
-/

namespace Verif.W2V

/-! ## The binary search -/

/-- non-decreasing, by position -/
def NonDecreasing (a : List Nat) : Prop := ∀ i j, i ≤ j → j < a.length → a.getD i 0 ≤ a.getD j 0

theorem bisectLoop_ok (a : List Nat) (x : Nat) (hs : NonDecreasing a) : ∀ (fuel lo hi : Nat), hi - lo ≤ fuel → lo ≤ hi →
    hi ≤ a.length → (∀ i, i < lo → a.getD i 0 < x) → (∀ i, hi ≤ i → i < a.length → x ≤ a.getD i 0) →
    bisectLoop a x fuel lo hi ≤ a.length ∧ (∀ i, i < bisectLoop a x fuel lo hi → a.getD i 0 < x) ∧
      ∀ i, bisectLoop a x fuel lo hi ≤ i → i < a.length → x ≤ a.getD i 0 := by
  intro fuel
  induction fuel with
  | zero =>
    intro lo hi hf hle hn h1 h2
    have : hi = lo := by omega
    subst this
    exact ⟨hn, h1, h2⟩
  | succ fuel ih =>
    intro lo hi hf hle hn h1 h2
    rw [bisectLoop]
    split
    · rename_i hgt
      have hmid : (lo + hi) >>> 1 = (lo + hi) / 2 := by rw [Nat.shiftRight_eq_div_pow]
      simp only [hmid]
      split
      · rename_i hge
        refine ih lo ((lo + hi) / 2) (by omega) (by omega) (by omega) h1 ?_
        intro i hi1 hi2
        exact le_trans hge (hs _ _ hi1 hi2)
      · rename_i hlt
        refine ih ((lo + hi) / 2 + 1) hi (by omega) (by omega) hn ?_ h2
        intro i hi1
        have h3 := hs i ((lo + hi) / 2) (by omega) (by omega)
        omega
    · have : hi = lo := by omega
      subst this
      exact ⟨hn, h1, h2⟩

/-- **C31.** For every non-decreasing table and every number up to its last entry, the search returns a
valid index, the first whose entry is at least the number. -/
theorem C31_bisect (a : List Nat) (hs : NonDecreasing a) (hne : a ≠ []) (x : Nat) (hx : x ≤ a.getLast?.getD 0) :
    bisectLeft a x 0 a.length < a.length ∧ x ≤ a.getD (bisectLeft a x 0 a.length) 0 ∧
    ∀ i, i < bisectLeft a x 0 a.length → a.getD i 0 < x := by
  obtain ⟨h1, h2, h3⟩ := bisectLoop_ok a x hs (a.length - 0) 0 a.length (by omega) (by omega) (by omega) (by omega)
    (by omega)
  have hlen : 0 < a.length := List.length_pos_of_ne_nil hne
  have hlt : bisectLeft a x 0 a.length < a.length := by
    by_contra hcon
    have h4 : bisectLeft a x 0 a.length = a.length := by unfold bisectLeft at *; omega
    have h5 := h2 (a.length - 1) (by unfold bisectLeft at h4; omega)
    rw [List.getLast?_eq_getElem?, ← List.getD_eq_getElem?_getD] at hx
    omega
  exact ⟨hlt, h3 _ (le_refl _) hlt, h2⟩

/-- which numbers draw word `i` -/
theorem bisect_iff (a : List Nat) (hs : NonDecreasing a) (hne : a ≠ []) (x : Nat) (hx : x ≤ a.getLast?.getD 0) (i : Nat)
    (hi : i < a.length) :
    bisectLeft a x 0 a.length = i ↔ (i = 0 ∨ a.getD (i - 1) 0 < x) ∧ x ≤ a.getD i 0 := by
  obtain ⟨h1, h2, h3⟩ := C31_bisect a hs hne x hx
  constructor
  · rintro rfl
    refine ⟨?_, h2⟩
    by_cases h0 : bisectLeft a x 0 a.length = 0
    · exact .inl h0
    · exact .inr (h3 _ (by omega))
  · rintro ⟨h4, h5⟩
    rcases Nat.lt_trichotomy (bisectLeft a x 0 a.length) i with h | h | h
    · rcases h4 with h4 | h4
      · omega
      · have := hs _ (i - 1) (show bisectLeft a x 0 a.length ≤ i - 1 by omega) (by omega)
        omega
    · exact h
    · have := h3 i h
      omega

/-- the numbers below the last entry that draw word `i` -/
def draws (a : List Nat) (i : Nat) : List Nat :=
  (List.range (a.getLast?.getD 0)).filter (fun x => bisectLeft a x 0 a.length = i)

theorem count_interval (D l h : Nat) (hl : l ≤ h) (hh : h ≤ D) :
    ((List.range D).filter (fun x => decide (l ≤ x ∧ x < h))).length = h - l := by
  have key : ∀ n, ((List.range n).filter (fun x => decide (l ≤ x ∧ x < h))).length = min h n - min l n := by
    intro n
    induction n with
    | zero => simp
    | succ n ih =>
      rw [List.range_succ, List.filter_append, List.length_append, ih]
      by_cases hn : l ≤ n ∧ n < h
      · simp only [List.filter_cons, hn, and_self, decide_true, if_true, List.filter_nil, List.length_cons, List.length_nil]
        omega
      · have e : List.filter (fun x => decide (l ≤ x ∧ x < h)) [n] = [] := by simp [hn]
        rw [e, List.length_nil]
        omega
  rw [key]; omega

/-- **C31.** Exactly how many of the numbers drawn from give word `i`: its increment in the table, except
that the first word has one more and the last word one less. -/
theorem C31_share (a : List Nat) (hs : NonDecreasing a) (hne : a ≠ []) (i : Nat) (hi : i < a.length) :
    (draws a i).length = min (a.getLast?.getD 0) (a.getD i 0 + 1) -
      (if i = 0 then 0 else min (a.getLast?.getD 0) (a.getD (i - 1) 0 + 1)) := by
  have hmono : i = 0 ∨ a.getD (i - 1) 0 ≤ a.getD i 0 := by
    by_cases h0 : i = 0
    · exact .inl h0
    · exact .inr (hs _ _ (by omega) hi)
  have e : draws a i = (List.range (a.getLast?.getD 0)).filter (fun x =>
      decide ((if i = 0 then 0 else min (a.getLast?.getD 0) (a.getD (i - 1) 0 + 1)) ≤ x ∧
        x < min (a.getLast?.getD 0) (a.getD i 0 + 1))) := by
    unfold draws
    apply List.filter_congr
    intro x hx
    have hx := List.mem_range.mp hx
    rw [decide_eq_decide, bisect_iff a hs hne x (by omega) i hi]
    split <;> omega
  rw [e, count_interval _ _ _ (by split <;> omega) (by omega)]

/-- the last word is never drawn if its increment is one -/
theorem C31_last_word_lost : NonDecreasing [3, 6, 7] ∧ draws [3, 6, 7] 2 = [] ∧ draws [3, 6, 7] 0 = [0, 1, 2, 3] := by
  refine ⟨?_, by decide +kernel, by decide +kernel⟩
  intro i j hij hj
  simp only [List.length_cons, List.length_nil] at hj
  have : i = 0 ∨ i = 1 ∨ i = 2 := by omega
  have : j = 0 ∨ j = 1 ∨ j = 2 := by omega
  rcases ‹i = 0 ∨ _› with rfl | rfl | rfl <;> rcases ‹j = 0 ∨ _› with rfl | rfl | rfl <;> simp at *

/-! ## The table -/

/-- what is assumed of rounding: it is monotone and within one half -/
structure RoundOk {K : Type} [Field K] [LinearOrder K] (round : K → Nat) : Prop where
  mono : ∀ x y : K, x ≤ y → round x ≤ round y
  near : ∀ x : K, 0 ≤ x → |(round x : K) - x| ≤ 1 / 2
  nat : ∀ n : Nat, round (n : K) = n

section table
variable {K : Type} [Field K] [LinearOrder K] [IsStrictOrderedRing K]

theorem cumulatives_eq (ws : List K) : ∀ acc : K, cumulatives acc ws =
    (List.range ws.length).map (fun i : Nat => acc + (ws.take (i + 1)).sum) := by
  induction ws with
  | nil => intro acc; rfl
  | cons x ws ih =>
    intro acc
    rw [cumulatives, ih, List.length_cons, List.range_succ_eq_map, List.map_cons, List.map_map]
    congr 1
    · simp
    · apply List.map_congr_left
      intro i _
      simp [add_assoc]

theorem foldl_sum (ws : List K) : ∀ acc : K, ws.foldl (· + ·) acc = acc + ws.sum := by
  induction ws with
  | nil => intro acc; simp
  | cons x ws ih => intro acc; rw [List.foldl_cons, ih]; simp [add_assoc]

/-- the exact value a table entry rounds -/
def exactEntry (domain : Nat) (ws : List K) (i : Nat) : K := (ws.take (i + 1)).sum / ws.sum * domain

theorem cumTable_getD (round : K → Nat) (domain : Nat) (ws : List K) (i : Nat) (hi : i < ws.length) :
    (cumTable round domain ws).getD i 0 = round (exactEntry domain ws i) := by
  unfold cumTable exactEntry
  simp only [cumulatives_eq, foldl_sum, zero_add, List.map_map, List.getD_eq_getElem?_getD, List.getElem?_map]
  rw [List.getElem?_range hi]
  rfl

theorem cumTable_length (round : K → Nat) (domain : Nat) (ws : List K) : (cumTable round domain ws).length = ws.length := by
  simp [cumTable, cumulatives_eq]

theorem take_sum_mono (ws : List K) (hw : ∀ w ∈ ws, 0 ≤ w) {i j : Nat} (h : i ≤ j) : (ws.take i).sum ≤ (ws.take j).sum := by
  induction ws generalizing i j with
  | nil => simp
  | cons x ws ih =>
    cases j with
    | zero => have : i = 0 := by omega
              subst this; simp
    | succ j =>
      cases i with
      | zero =>
        have h0 := ih (fun w hw' => hw w (List.mem_cons_of_mem _ hw')) (Nat.zero_le j)
        have := hw x List.mem_cons_self
        simp only [List.take_zero, List.sum_nil, List.take_succ_cons, List.sum_cons] at *
        linarith
      | succ i =>
        have h0 := ih (fun w hw' => hw w (List.mem_cons_of_mem _ hw')) (show i ≤ j by omega)
        simp only [List.take_succ_cons, List.sum_cons]
        linarith

/-- **C31.** `make_cum_table` gives one entry per word, non-decreasing, the last being the domain bound (so
its assertion never fails), and each entry is the nearest integer to the exact cumulative share. -/
theorem C31_table {round : K → Nat} (hr : RoundOk round) (domain : Nat) (ws : List K) (hne : ws ≠ [])
    (hw : ∀ w ∈ ws, 0 ≤ w) (htot : 0 < ws.sum) :
    (cumTable round domain ws).length = ws.length ∧ NonDecreasing (cumTable round domain ws) ∧
    (cumTable round domain ws).getLast? = some domain ∧
    ∀ i, i < ws.length → |((cumTable round domain ws).getD i 0 : K) - (ws.take (i + 1)).sum / ws.sum * domain| ≤ 1 / 2 := by
  have hpos : 0 < ws.length := List.length_pos_of_ne_nil hne
  refine ⟨cumTable_length _ _ _, ?_, ?_, ?_⟩
  · intro i j hij hj
    rw [cumTable_length] at hj
    rw [cumTable_getD _ _ _ _ (by omega), cumTable_getD _ _ _ _ hj]
    apply hr.mono
    unfold exactEntry
    apply mul_le_mul_of_nonneg_right _ (Nat.cast_nonneg _)
    exact div_le_div_of_nonneg_right (take_sum_mono ws hw (by omega)) (le_of_lt htot)
  · have hg := cumTable_getD round domain ws (ws.length - 1) (by omega)
    have he : exactEntry domain ws (ws.length - 1) = (domain : K) := by
      unfold exactEntry
      rw [show ws.length - 1 + 1 = ws.length by omega, List.take_length, div_self (ne_of_gt htot), one_mul]
    rw [he, hr.nat] at hg
    rw [List.getLast?_eq_getElem?, cumTable_length]
    rw [List.getD_eq_getElem?_getD] at hg
    rw [List.getElem?_eq_getElem (by rw [cumTable_length]; omega)] at hg ⊢
    simpa using hg
  · intro i hi
    rw [cumTable_getD _ _ _ _ hi]
    apply hr.near
    unfold exactEntry
    apply mul_nonneg _ (Nat.cast_nonneg _)
    apply div_nonneg _ (le_of_lt htot)
    have := take_sum_mono ws hw (Nat.zero_le (i + 1))
    simpa using this

/-- **C31.** Each word is drawn by a number of values within two of its exact share `w / total * domain`. -/
theorem C31_proportion {round : K → Nat} (hr : RoundOk round) (domain : Nat) (ws : List K) (hw : ∀ w ∈ ws, 0 ≤ w)
    (htot : 0 < ws.sum) (i : Nat) (w : K) (hi : ws[i]? = some w) :
    |((draws (cumTable round domain ws) i).length : K) - w / ws.sum * domain| ≤ 2 := by
  have hil : i < ws.length := (List.getElem?_eq_some_iff.mp hi).1
  have hne : ws ≠ [] := by rintro rfl; simp at hil
  obtain ⟨t1, t2, t3, t4⟩ := C31_table hr domain ws hne hw htot
  have hne' : cumTable round domain ws ≠ [] := by intro h; rw [h] at t3; simp at t3
  rw [C31_share _ t2 hne' i (by rw [t1]; exact hil), t3]
  simp only [Option.getD_some]
  have hlast : ∀ j, j < ws.length → (cumTable round domain ws).getD j 0 ≤ domain := by
    intro j hj
    have h := t2 j (ws.length - 1) (by omega) (by rw [t1]; omega)
    rw [List.getLast?_eq_getElem?, t1] at t3
    rw [List.getD_eq_getElem?_getD (i := ws.length - 1), t3] at h
    simpa using h
  have hstep : (ws.take (i + 1)).sum = (ws.take i).sum + w := by
    rw [List.take_succ, hi]; simp
  have ha := abs_le.mp (t4 i hil)
  have hai := hlast i hil
  by_cases h0 : i = 0
  · subst h0
    simp only [if_true, Nat.sub_zero]
    simp only [List.take_zero, List.sum_nil, zero_add] at hstep
    rw [zero_add] at ha
    rw [hstep] at ha
    have h1 : min domain ((cumTable round domain ws).getD 0 0 + 1) ≤ (cumTable round domain ws).getD 0 0 + 1 := min_le_right _ _
    have h2 : (cumTable round domain ws).getD 0 0 ≤ min domain ((cumTable round domain ws).getD 0 0 + 1) := by omega
    have h1' : ((min domain ((cumTable round domain ws).getD 0 0 + 1) : Nat) : K) ≤ (cumTable round domain ws).getD 0 0 + 1 := by
      exact_mod_cast h1
    have h2' : ((cumTable round domain ws).getD 0 0 : K) ≤ (min domain ((cumTable round domain ws).getD 0 0 + 1) : Nat) := by
      exact_mod_cast h2
    rw [abs_le]
    constructor <;> linarith
  · simp only [h0, if_false]
    have hb := abs_le.mp (t4 (i - 1) (by omega))
    have hbi := hlast (i - 1) (by omega)
    rw [show i - 1 + 1 = i by omega] at hb
    have hmono := t2 (i - 1) i (by omega) (by rw [t1]; exact hil)
    set A := (cumTable round domain ws).getD i 0
    set B := (cumTable round domain ws).getD (i - 1) 0
    set N := min domain (A + 1) - min domain (B + 1) with hN
    have h1 : N ≤ A - B + 1 := by omega
    have h2 : A - B ≤ N + 1 := by omega
    have hAB : ((A - B : Nat) : K) = A - B := Nat.cast_sub hmono
    have h1' : (N : K) ≤ (A : K) - B + 1 := by rw [← hAB]; exact_mod_cast h1
    have h2' : (A : K) - B ≤ N + 1 := by rw [← hAB]; exact_mod_cast h2
    have hsum : w / ws.sum * domain = (ws.take (i + 1)).sum / ws.sum * domain - (ws.take i).sum / ws.sum * domain := by
      rw [hstep]; ring
    rw [hsum, abs_le]
    constructor <;> linarith

end table

/-- the hypotheses on rounding can be met -/
theorem roundOk_half : RoundOk (fun x : ℚ => (⌊x + 1 / 2⌋).toNat) := by
  refine ⟨?_, ?_, ?_⟩
  · intro x y h
    exact Int.toNat_le_toNat (Int.floor_le_floor (by linarith))
  · intro x hx
    have h0 : 0 ≤ ⌊x + 1 / 2⌋ := Int.floor_nonneg.mpr (by linarith)
    have : ((⌊x + 1 / 2⌋.toNat : Nat) : ℚ) = ((⌊x + 1 / 2⌋ : Int) : ℚ) := by
      have := Int.toNat_of_nonneg h0
      exact_mod_cast this
    show |((⌊x + 1 / 2⌋.toNat : Nat) : ℚ) - x| ≤ 1 / 2
    rw [this, abs_le]
    have h1 := Int.floor_le (x + 1 / 2)
    have h2 := Int.lt_floor_add_one (x + 1 / 2)
    constructor <;> linarith
  · intro n
    have : ⌊(n : ℚ) + 1 / 2⌋ = (n : Int) := by
      rw [Int.floor_eq_iff]; constructor <;> push_cast <;> linarith
    simp only [this]; simp

example : cumTable (fun x : ℚ => (⌊x + 1 / 2⌋).toNat) 10 [4, 3, 1] = [5, 9, 10] := by decide +kernel

/-! ## The generator -/

theorem nextRandom_eq (r : Nat) : nextRandom r = (r * 25214903917 + 11) % 2 ^ 48 := by
  unfold nextRandom
  rw [show (281474976710655 : Nat) = 2 ^ 48 - 1 by norm_num, Nat.and_two_pow_sub_one_eq_mod]
  exact Nat.mod_mod_of_dvd _ (pow_dvd_pow 2 (by norm_num))

/-- the sum `1 + a + ... + a^(k-1)` -/
def geo (a : Nat) : Nat → Nat
  | 0 => 0
  | k + 1 => a * geo a k + 1

theorem geo_double (a k : Nat) : geo a (k + k) = geo a k * (1 + a ^ k) := by
  have h : ∀ k m, geo a (k + m) = geo a m + a ^ m * geo a k := by
    intro k m
    induction m with
    | zero => simp [geo]
    | succ m ih =>
      rw [← Nat.add_assoc, geo, ih, geo, pow_succ]; ring
  rw [h]; ring

theorem geo_parity (a k : Nat) (ha : a % 4 = 1) : geo a k % 2 = k % 2 := by
  induction k with
  | zero => rfl
  | succ k ih =>
    have : a % 2 = 1 := by omega
    rw [geo, Nat.add_mod, Nat.mul_mod, this, ih]
    omega

theorem pow_mod4 (a k : Nat) (ha : a % 4 = 1) : a ^ k % 4 = 1 := by
  induction k with
  | zero => rfl
  | succ k ih => rw [pow_succ, Nat.mul_mod, ih, ha]

theorem geo_dvd (a : Nat) (ha : a % 4 = 1) : ∀ e k, 2 ^ e ∣ geo a k → 2 ^ e ∣ k := by
  intro e
  induction e with
  | zero => intro k _; simp
  | succ e ih =>
    intro k h
    have heven : geo a k % 2 = 0 := by
      have : 2 ∣ geo a k := dvd_trans (dvd_pow_self 2 (by omega)) h
      omega
    rw [geo_parity a k ha] at heven
    obtain ⟨m, rfl⟩ : ∃ m, k = m + m := ⟨k / 2, by omega⟩
    rw [geo_double] at h
    have hp := pow_mod4 a m ha
    obtain ⟨o, ho, hodd⟩ : ∃ o, 1 + a ^ m = 2 * o ∧ o % 2 = 1 := ⟨(1 + a ^ m) / 2, by omega, by omega⟩
    rw [ho, pow_succ, show geo a m * (2 * o) = geo a m * o * 2 by ring] at h
    have h2 := Nat.dvd_of_mul_dvd_mul_right (by omega) h
    have hc : Nat.Coprime (2 ^ e) o := Nat.Coprime.pow_left e (by
      rw [Nat.coprime_comm, Nat.coprime_two_right]; exact Nat.odd_iff.mpr hodd)
    have := ih m (hc.dvd_of_dvd_mul_right h2)
    rw [pow_succ, show m + m = m * 2 by ring]
    exact Nat.mul_dvd_mul_right this 2

theorem iterate_eq (k s : Nat) (hs : s < 2 ^ 48) :
    nextRandom^[k] s = (25214903917 ^ k * s + 11 * geo 25214903917 k) % 2 ^ 48 := by
  induction k with
  | zero => rw [Function.iterate_zero, id, geo, pow_zero, Nat.one_mul, Nat.mul_zero, Nat.add_zero, Nat.mod_eq_of_lt hs]
  | succ k ih =>
    rw [Function.iterate_succ', Function.comp_apply, ih, nextRandom_eq]
    rw [Nat.add_mod, Nat.mod_mul_mod, ← Nat.add_mod, geo, pow_succ]
    congr 1
    ring

theorem geo_pow (a k : Nat) (h : 1 ≤ a) : a ^ k = (a - 1) * geo a k + 1 := by
  induction k with
  | zero => simp [geo]
  | succ k ih =>
    obtain ⟨b, rfl⟩ : ∃ b, a = b + 1 := ⟨a - 1, by omega⟩
    simp only [Nat.add_sub_cancel] at *
    rw [pow_succ, ih, geo]; ring

theorem geo_add (a k m : Nat) : geo a (k + m) = geo a k + a ^ k * geo a m := by
  induction k with
  | zero => simp [geo]
  | succ k ih => rw [show k + 1 + m = (k + m) + 1 by omega, geo, ih, geo, pow_succ]; ring

theorem iterate_inj (s : Nat) (hs : s < 2 ^ 48) (j d : Nat) (hd : d < 2 ^ 48)
    (h : nextRandom^[j] s = nextRandom^[j + d] s) : d = 0 := by
  rw [iterate_eq _ _ hs, iterate_eq _ _ hs] at h
  obtain ⟨a, ha⟩ : ∃ a, a = 25214903917 := ⟨_, rfl⟩
  rw [← ha] at h
  have ha4 : a % 4 = 1 := by rw [ha]
  have ha1 : 1 ≤ a := by omega
  have e : a ^ (j + d) * s + 11 * geo a (j + d) = (a ^ j * s + 11 * geo a j) + a ^ j * (geo a d * ((a - 1) * s + 11)) := by
    rw [pow_add, geo_add, geo_pow a d ha1]; ring
  rw [e] at h
  have hdvd : 2 ^ 48 ∣ a ^ j * (geo a d * ((a - 1) * s + 11)) := by
    have := (Nat.modEq_iff_dvd' (Nat.le_add_right _ _)).mp (show Nat.ModEq (2 ^ 48) _ _ from h)
    rwa [Nat.add_sub_cancel_left] at this
  have c1 : Nat.Coprime (2 ^ 48) (a ^ j) := Nat.Coprime.pow _ _ (by
    rw [Nat.coprime_comm, Nat.coprime_two_right]; exact Nat.odd_iff.mpr (by omega))
  have c2 : Nat.Coprime (2 ^ 48) ((a - 1) * s + 11) := Nat.Coprime.pow_left _ (by
    rw [Nat.coprime_comm, Nat.coprime_two_right, Nat.odd_iff, Nat.add_mod, Nat.mul_mod, show (a - 1) % 2 = 0 by omega]
    simp)
  have h3 := geo_dvd a ha4 48 d (c2.dvd_of_dvd_mul_right (c1.dvd_of_dvd_mul_left hdvd))
  by_contra h0
  have := Nat.le_of_dvd (by omega) h3
  omega

/-- from every state of the generator every state is reached -/
theorem generator_full_period (s t : Nat) (hs : s < 2 ^ 48) (ht : t < 2 ^ 48) : ∃ k, nextRandom^[k] s = t := by
  have hlt : ∀ k, nextRandom^[k] s < 2 ^ 48 := by
    intro k; rw [iterate_eq k s hs]; exact Nat.mod_lt _ (by norm_num)
  obtain ⟨N, hN⟩ : ∃ N : Nat, N = 2 ^ 48 := ⟨_, rfl⟩
  let f : Fin N → Fin N := fun k => ⟨nextRandom^[k.1] s, lt_of_lt_of_eq (hlt k.1) hN.symm⟩
  have hinj : Function.Injective f := by
    intro j k h
    have h' : nextRandom^[j.1] s = nextRandom^[k.1] s := congrArg Fin.val h
    apply Fin.ext
    rcases Nat.le_total j.1 k.1 with hjk | hjk
    · obtain ⟨d, hd⟩ := Nat.exists_eq_add_of_le hjk
      rw [hd] at h'
      have := iterate_inj s hs j.1 d (by have := k.2; omega) h'
      omega
    · obtain ⟨d, hd⟩ := Nat.exists_eq_add_of_le hjk
      rw [hd] at h'
      have := iterate_inj s hs k.1 d (by have := j.2; omega) h'.symm
      omega
  obtain ⟨k, hk⟩ := (Finite.injective_iff_surjective.mp hinj) ⟨t, by omega⟩
  exact ⟨k.1, congrArg Fin.val hk⟩

/-- **C31.** Every word some number draws is drawn sooner or later, from every state of the generator. -/
theorem C31_every_word_drawn (a : List Nat) (hdom : a.getLast?.getD 0 ≤ 2 ^ 32) (i x : Nat) (hx : x ∈ draws a i)
    (s : Nat) (hs : s < 2 ^ 48) : ∃ k, drawWord a (nextRandom^[k] s) = i := by
  unfold draws at hx
  simp only [List.mem_filter, List.mem_range, decide_eq_true_eq] at hx
  obtain ⟨hx1, hx2⟩ := hx
  obtain ⟨k, hk⟩ := generator_full_period s (x * 2 ^ 16) hs (by
    have : x < 2 ^ 32 := by omega
    omega)
  refine ⟨k, ?_⟩
  unfold drawWord
  rw [hk, Nat.shiftRight_eq_div_pow, Nat.mul_div_cancel _ (by norm_num), Nat.mod_eq_of_lt hx1]
  exact hx2

/-- **C31.** The negative samples are valid word indices other than the word itself, at most as many as
asked for; the generator advances once per draw. -/
theorem C31_negatives (a : List Nat) (hs : NonDecreasing a) (hpos : 0 < a.getLast?.getD 0) (word n r : Nat) :
    (∀ t ∈ (negatives a word n r).1, t < a.length ∧ t ≠ word) ∧ (negatives a word n r).1.length ≤ n ∧
    (negatives a word n r).2 = nextRandom^[n] r := by
  have hne : a ≠ [] := by rintro rfl; simp at hpos
  induction n generalizing r with
  | zero => simp [negatives]
  | succ n ih =>
    obtain ⟨h1, h2, h3⟩ := ih (nextRandom r)
    rw [Function.iterate_succ_apply, negatives]
    split
    · exact ⟨h1, by omega, h3⟩
    · rename_i hw
      refine ⟨?_, by simp only [List.length_cons]; omega, h3⟩
      intro t ht
      rcases List.mem_cons.mp ht with rfl | ht
      · refine ⟨(C31_bisect a hs hne _ ?_).1, hw⟩
        exact le_of_lt (Nat.mod_lt _ hpos)
      · exact h1 t ht

theorem map_iterate_succ {α β : Type} (f : α → β) (g : α → α) (n : Nat) (r : α) :
    (List.range (n + 1)).map (fun k : Nat => f (g^[k] r)) =
      f r :: (List.range n).map (fun k : Nat => f (g^[k] (g r))) := by
  rw [List.range_succ_eq_map, List.map_cons, List.map_map]
  rfl

/-- **C31.** They are exactly the words of the next `n` draws that differ from the word itself. -/
theorem C31_negatives_are_draws (a : List Nat) (word n r : Nat) :
    (negatives a word n r).1 =
      ((List.range n).map (fun k : Nat => drawWord a (nextRandom^[k] r))).filter (fun t => decide (t ≠ word)) := by
  induction n generalizing r with
  | zero => rfl
  | succ n ih =>
    rw [map_iterate_succ (drawWord a) nextRandom, negatives]
    by_cases h : drawWord a r = word
    · rw [if_pos h, List.filter_cons_of_neg (by simpa using h), ih]
    · rw [if_neg h, List.filter_cons_of_pos (by simpa using h), ← ih]

example : (negatives [3, 6, 7] 2 3 (2 ^ 47 + 5 * 2 ^ 16)).1 = [0, 1, 1] := by decide +kernel

end Verif.W2V
