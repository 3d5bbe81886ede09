import Verif.Porter.Model
import Mathlib.Data.List.Basic

/-!
# C57: the Porter stemmer is total
-/

namespace Verif.Porter
open Verif Text

/-! ## Specification -/

/-- The number of places where a vowel is followed by a consonant: the measure `m` of a word of the
form `[C](VC){m}[V]`. -/
def vcCount : List Bool → Nat
  | false :: true :: fs => vcCount (true :: fs) + 1
  | _ :: fs => vcCount fs
  | [] => 0

/-! ## The helpers -/

theorem at'_nat (b : Str) (i : Int) (h0 : 0 ≤ i) (h1 : i < b.length) :
    ∃ ch, at' b i = some ch ∧ b[i.toNat]? = some ch := by
  unfold at'
  rw [if_pos h0]
  have : i.toNat < b.length := by omega
  exact ⟨b[i.toNat], List.getElem?_eq_getElem this, List.getElem?_eq_getElem this⟩

theorem at'_total (b : Str) (i : Int) (h0 : -1 ≤ i) (h1 : i < b.length) (hb : b ≠ []) :
    ∃ ch, at' b i = some ch := by
  by_cases h : 0 ≤ i
  · obtain ⟨ch, h, _⟩ := at'_nat b i h h1
    exact ⟨ch, h⟩
  · have : i = -1 := by omega
    subst this
    have hl := List.length_pos_iff.2 hb
    unfold at'
    rw [if_neg (by omega), if_pos (by omega)]
    have : (b.length + (-1 : Int)).toNat < b.length := by omega
    exact ⟨_, List.getElem?_eq_getElem this⟩

theorem cons_total (b : Str) (i : Nat) (h : i < b.length) : ∃ c, cons b i = some c := by
  induction i with
  | zero =>
    unfold cons
    rw [List.getElem?_eq_getElem h]
    exact ⟨_, rfl⟩
  | succ i ih =>
    obtain ⟨c, hc⟩ := ih (by omega)
    unfold cons
    rw [List.getElem?_eq_getElem h]
    dsimp only
    split
    · exact ⟨_, rfl⟩
    · split
      · rw [hc]
        exact ⟨_, rfl⟩
      · exact ⟨_, rfl⟩

theorem mapM_total {A B : Type} (f : A → Option B) (l : List A) (h : ∀ a ∈ l, ∃ b, f a = some b) :
    ∃ r, l.mapM f = some r ∧ r.length = l.length := by
  induction l with
  | nil => exact ⟨[], rfl, rfl⟩
  | cons a l ih =>
    obtain ⟨b, hb⟩ := h a (by simp)
    obtain ⟨r, hr, hl⟩ := ih fun x hx => h x (by simp [hx])
    refine ⟨b :: r, ?_, by simp [hl]⟩
    rw [List.mapM_cons, hb, hr]
    rfl

theorem flags_total (b : Str) (j : Int) (h : j < b.length) :
    ∃ fs, flags b j = some fs ∧ fs.length = (j + 1).toNat := by
  unfold flags
  obtain ⟨fs, h1, h2⟩ := mapM_total (cons b) (List.range (j + 1).toNat) (by
    intro i hi
    apply cons_total
    have := List.mem_range.1 hi
    omega)
  exact ⟨fs, h1, by rw [h2, List.length_range]⟩

theorem mLoop_count (fs : List Bool) :
    (∀ n, mLoop .start n fs = n + vcCount fs) ∧
      (∀ n, mLoop .vowels n fs = n + vcCount (false :: fs)) ∧
      (∀ n, mLoop .consonants n fs = n + vcCount (true :: fs)) := by
  induction fs with
  | nil => simp [mLoop, vcCount]
  | cons c fs ih =>
    obtain ⟨h1, h2, h3⟩ := ih
    cases c with
    | true =>
      refine ⟨?_, ?_, ?_⟩
      · intro n
        simp only [mLoop, if_true]
        rw [h1]
        simp [vcCount]
      · intro n
        simp only [mLoop, if_true]
        rw [h3]
        simp only [vcCount]
        omega
      · intro n
        simp only [mLoop, if_true]
        rw [h3]
        simp [vcCount]
    | false =>
      refine ⟨?_, ?_, ?_⟩
      · intro n
        simp only [mLoop]
        simp [h2]
      · intro n
        simp only [mLoop]
        simp only [Bool.false_eq_true, if_false]
        rw [h2]
        cases fs <;> simp [vcCount]
      · intro n
        simp only [mLoop]
        simp only [Bool.false_eq_true, if_false]
        rw [h2]
        simp [vcCount]

theorem vcCount_two (fs : List Bool) (h : fs.length ≤ 1) : vcCount fs = 0 := by
  match fs with
  | [] => rfl
  | [c] => cases c <;> rfl
  | _ :: _ :: _ => simp at h

theorem m_total (st : St) (h : st.j < st.b.length) :
    ∃ n, m st = some n ∧ (0 < n → 1 ≤ st.j) := by
  obtain ⟨fs, h1, h2⟩ := flags_total st.b st.j h
  unfold m
  rw [h1]
  refine ⟨_, rfl, ?_⟩
  rw [(mLoop_count fs).1]
  intro hp
  by_contra hj
  rw [vcCount_two fs (by omega)] at hp
  omega

theorem vowelInStem_total (st : St) (h : st.j < st.b.length) :
    ∃ v, vowelInStem st = some v ∧ (v = true → 0 ≤ st.j) := by
  obtain ⟨fs, h1, h2⟩ := flags_total st.b st.j h
  unfold vowelInStem
  rw [h1]
  refine ⟨_, rfl, ?_⟩
  intro hv
  by_contra hj
  have : fs.length = 0 := by omega
  rw [List.length_eq_zero_iff.1 this] at hv
  simp at hv

theorem doublec_total (st : St) (j : Int) (h : j < st.b.length) :
    ∃ d, doublec st j = some d ∧ (d = true → 0 < j) := by
  unfold doublec
  by_cases hj : 0 < j
  · rw [if_pos hj]
    obtain ⟨x, hx, _⟩ := at'_nat st.b j (by omega) h
    obtain ⟨y, hy, _⟩ := at'_nat st.b (j - 1) (by omega) (by omega)
    rw [hx, hy]
    dsimp only
    split
    · obtain ⟨c, hc⟩ := cons_total st.b j.toNat (by omega)
      exact ⟨c, hc, fun _ => hj⟩
    · exact ⟨false, rfl, by simp⟩
  · rw [if_neg hj]
    exact ⟨false, rfl, by simp⟩

theorem cvc_total (st : St) (i : Int) (h : i < st.b.length) : ∃ c, cvc st i = some c := by
  unfold cvc
  by_cases hi : i < 2
  · rw [if_pos hi]
    exact ⟨_, rfl⟩
  · rw [if_neg hi]
    obtain ⟨a, ha⟩ := cons_total st.b i.toNat (by omega)
    obtain ⟨b, hb⟩ := cons_total st.b (i.toNat - 1) (by omega)
    obtain ⟨c, hc⟩ := cons_total st.b (i.toNat - 2) (by omega)
    obtain ⟨d, hd, _⟩ := at'_nat st.b i (by omega) h
    rw [ha, hb, hc, hd]
    exact ⟨_, rfl⟩

/-! ## The invariant -/

/-- `k` is a position in the buffer, the word is no longer than at the beginning, and its first letter
is unchanged. -/
structure Inv (n : Nat) (c : Char) (st : St) : Prop where
  k0 : 0 ≤ st.k
  kb : st.k < st.b.length
  kn : st.k + 1 ≤ n
  first : st.b[0]? = some c

theorem ends_cases (st : St) (s : Str) (h0 : 0 ≤ st.k) (h1 : st.k < st.b.length) :
    ends st s = some (false, st) ∨
      (ends st s = some (true, { st with j := st.k - s.length }) ∧ (s.length : Int) ≤ st.k + 1 ∧
        ((st.b.take (st.k + 1).toNat).drop (st.k - s.length + 1).toNat) = s) := by
  unfold ends
  obtain ⟨ch, hch, _⟩ := at'_nat st.b st.k h0 h1
  rw [hch]
  dsimp only
  split
  · exact Or.inl rfl
  · split
    · exact Or.inl rfl
    · split
      · exact Or.inl rfl
      · rename_i h2 h3 h4
        exact Or.inr ⟨rfl, by omega, not_not.1 h4⟩

theorem inv_setto {n : Nat} {c : Char} {st : St} (h : Inv n c st) (s : Str)
    (hj0 : 0 ≤ st.j) (hjk : st.j ≤ st.k) (hn : st.j + 1 + s.length ≤ n) : Inv n c (setto st s) := by
  have hkb := h.kb
  have hl : (st.b.take (st.j + 1).toNat).length = (st.j + 1).toNat := by
    rw [List.length_take]
    omega
  have htot : ((st.b.take (st.j + 1).toNat ++ s).length : Int) = st.j + 1 + s.length := by
    rw [List.length_append, hl]
    omega
  refine ⟨?_, ?_, ?_, ?_⟩ <;> simp only [setto]
  · rw [htot]; omega
  · rw [htot]; omega
  · rw [htot]; omega
  · rw [List.getElem?_append_left (by omega), List.getElem?_take_of_lt (by omega)]
    exact h.first

theorem inv_k {n : Nat} {c : Char} {st : St} (h : Inv n c st) (k : Int) (h0 : 0 ≤ k)
    (hk : k ≤ st.k) : Inv n c { st with k := k } :=
  ⟨h0, lt_of_le_of_lt hk h.kb, le_trans (by dsimp only; omega) h.kn, h.first⟩

theorem inv_j {n : Nat} {c : Char} {st : St} (h : Inv n c st) (j : Int) :
    Inv n c { st with j := j } := ⟨h.k0, h.kb, h.kn, h.first⟩

theorem b_ne_nil {n : Nat} {c : Char} {st : St} (h : Inv n c st) : st.b ≠ [] := by
  have := h.first
  intro hb
  rw [hb] at this
  simp at this

/-- Replacing a suffix by one with the same first letter. -/
theorem inv_replace {n : Nat} {c : Char} {st : St} (h : Inv n c st) (s t : Str) (x : Char)
    (hs : s[0]? = some x) (ht : t[0]? = some x) (hl : (s.length : Int) ≤ st.k + 1)
    (hsuf : ((st.b.take (st.k + 1).toNat).drop (st.k - s.length + 1).toNat) = s)
    (hn : st.k - s.length + 1 + t.length ≤ n) :
    Inv n c (setto { st with j := st.k - s.length } t) := by
  have hslen : 0 < s.length := (List.getElem?_eq_some_iff.1 hs).1
  have htlen : 0 < t.length := (List.getElem?_eq_some_iff.1 ht).1
  by_cases hk : st.k + 1 = s.length
  · have hz : (st.k - (s.length : Int) + 1).toNat = 0 := by omega
    have hc : c = x := by
      rw [hz, List.drop_zero] at hsuf
      have h0 : (st.b.take (st.k + 1).toNat)[0]? = st.b[0]? :=
        List.getElem?_take_of_lt (by omega)
      rw [hsuf, hs, h.first] at h0
      exact (Option.some.inj h0).symm
    refine ⟨?_, ?_, ?_, ?_⟩ <;> simp only [setto, hz, List.take_zero, List.nil_append]
    · omega
    · omega
    · omega
    · rw [ht, hc]
  · apply inv_setto (inv_j h _)
    · dsimp only
      omega
    · dsimp only
      omega
    · dsimp only
      omega

theorem inv_step1a {n : Nat} {c : Char} {st : St} (h : Inv n c st) (h2 : 2 ≤ st.k) :
    ∃ st', step1a st = some st' ∧ Inv n c st' := by
  have hkn := h.kn
  have hkb := h.kb
  unfold step1a
  obtain ⟨ch, hch, _⟩ := at'_nat st.b st.k h.k0 h.kb
  rw [hch]
  simp only [bind, Option.bind, pure]
  split
  · rcases ends_cases st "sses".toList h.k0 h.kb with e | ⟨e, l, _⟩
    · rw [e]
      dsimp only
      rw [if_neg (by simp)]
      rcases ends_cases st "ies".toList h.k0 h.kb with e' | ⟨e', l', w'⟩
      · rw [e']
        dsimp only
        rw [if_neg (by simp)]
        obtain ⟨p, hp⟩ := at'_total st.b (st.k - 1) (by omega) (by omega) (b_ne_nil h)
        rw [hp]
        dsimp only
        split
        · exact ⟨_, rfl, inv_k h _ (by omega) (by omega)⟩
        · exact ⟨_, rfl, h⟩
      · rw [e']
        dsimp only
        rw [if_pos rfl]
        refine ⟨_, rfl, inv_replace h _ _ 'i' rfl rfl l' w' ?_⟩
        have h1 : (("i".toList).length : Int) = 1 := rfl
        have h3 : (("ies".toList).length : Int) = 3 := rfl
        rw [h1, h3]
        omega
    · rw [e]
      dsimp only
      rw [if_pos rfl]
      have hl : (("sses".toList).length : Int) = 4 := rfl
      rw [hl] at l
      exact ⟨_, rfl, inv_k (inv_j h (st.k - ("sses".toList).length)) (st.k - 2) (by omega)
        (by dsimp only; omega)⟩
  · exact ⟨_, rfl, h⟩

theorem inv_afterEdIng {n : Nat} {c : Char} {st : St} (h : Inv n c st) (hj : 0 ≤ st.j)
    (hjn : st.j + 3 ≤ n) (hjk : st.j ≤ st.k) : ∃ st', afterEdIng st = some st' ∧ Inv n c st' := by
  unfold afterEdIng
  have hkb := h.kb
  have g : Inv n c { st with k := st.j } := inv_k h _ hj hjk
  simp only [bind, Option.bind, pure]
  rcases ends_cases { st with k := st.j } "at".toList g.k0 g.kb with e | ⟨e, l, w⟩
  · rw [e]
    dsimp only
    rw [if_neg (by simp)]
    rcases ends_cases { st with k := st.j } "bl".toList g.k0 g.kb with e | ⟨e, l, w⟩
    · rw [e]
      dsimp only
      rw [if_neg (by simp)]
      rcases ends_cases { st with k := st.j } "iz".toList g.k0 g.kb with e | ⟨e, l, w⟩
      · rw [e]
        dsimp only
        rw [if_neg (by simp)]
        obtain ⟨d, hd, hd0⟩ := doublec_total { st with k := st.j } st.j g.kb
        rw [hd]
        dsimp only
        split
        · rename_i hdt
          have := hd0 hdt
          obtain ⟨p, hp⟩ := at'_total st.b (st.j - 1) (by omega) (by omega) (b_ne_nil h)
          rw [hp]
          dsimp only
          split
          · exact ⟨_, rfl, g⟩
          · exact ⟨_, rfl, inv_k g (st.j - 1) (by omega) (by dsimp only; omega)⟩
        · obtain ⟨a, ha, _⟩ := m_total { st with k := st.j } g.kb
          obtain ⟨v, hv⟩ := cvc_total { st with k := st.j } st.j g.kb
          rw [ha]
          dsimp only
          rw [hv]
          dsimp only
          split
          · refine ⟨_, rfl, inv_setto g _ hj le_rfl ?_⟩
            have : (("e".toList).length : Int) = 1 := rfl
            dsimp only
            rw [this]
            omega
          · exact ⟨_, rfl, g⟩
      · rw [e]
        dsimp only
        rw [if_pos rfl]
        refine ⟨_, rfl, inv_replace g _ _ 'i' rfl rfl l w ?_⟩
        have h1 : (("ize".toList).length : Int) = 3 := rfl
        have h3 : (("iz".toList).length : Int) = 2 := rfl
        rw [h1, h3]
        dsimp only
        omega
    · rw [e]
      dsimp only
      rw [if_pos rfl]
      refine ⟨_, rfl, inv_replace g _ _ 'b' rfl rfl l w ?_⟩
      have h1 : (("ble".toList).length : Int) = 3 := rfl
      have h3 : (("bl".toList).length : Int) = 2 := rfl
      rw [h1, h3]
      dsimp only
      omega
  · rw [e]
    dsimp only
    rw [if_pos rfl]
    refine ⟨_, rfl, inv_replace g _ _ 'a' rfl rfl l w ?_⟩
    have h1 : (("ate".toList).length : Int) = 3 := rfl
    have h3 : (("at".toList).length : Int) = 2 := rfl
    rw [h1, h3]
    dsimp only
    omega

theorem endsEdIng_cases {n : Nat} {c : Char} {st : St} (h : Inv n c st) :
    endsEdIng st = some (false, st) ∨
      ∃ j, endsEdIng st = some (true, { st with j := j }) ∧ j + 2 ≤ st.k := by
  unfold endsEdIng
  simp only [bind, Option.bind, pure]
  rcases ends_cases st "ed".toList h.k0 h.kb with e | ⟨e, l, w⟩
  · rw [e]
    dsimp only
    rw [if_neg (by simp)]
    rcases ends_cases st "ing".toList h.k0 h.kb with e | ⟨e, l, w⟩
    · exact Or.inl e
    · refine Or.inr ⟨_, e, ?_⟩
      have h3 : (("ing".toList).length : Int) = 3 := rfl
      rw [h3]
      omega
  · rw [e]
    refine Or.inr ⟨_, rfl, ?_⟩
    have h3 : (("ed".toList).length : Int) = 2 := rfl
    rw [h3]
    omega

theorem inv_step1b {n : Nat} {c : Char} {st : St} (h : Inv n c st) :
    ∃ st', step1b st = some st' ∧ Inv n c st' := by
  have hkn := h.kn
  have hkb := h.kb
  unfold step1b
  simp only [bind, Option.bind, pure]
  rcases ends_cases st "eed".toList h.k0 h.kb with e | ⟨e, l, w⟩
  · rw [e]
    dsimp only
    rw [if_neg (by simp)]
    rcases endsEdIng_cases h with e | ⟨j, e, hj⟩
    · rw [e]
      dsimp only
      rw [if_neg (by simp)]
      exact ⟨_, rfl, h⟩
    · rw [e]
      dsimp only
      rw [if_pos rfl]
      obtain ⟨v, hv, hv0⟩ := vowelInStem_total { st with j := j } (by dsimp only; omega)
      rw [hv]
      dsimp only
      split
      · rename_i hvt
        have := hv0 hvt
        dsimp only at this
        exact inv_afterEdIng (inv_j h j) this (by dsimp only; omega) (by dsimp only; omega)
      · exact ⟨_, rfl, inv_j h j⟩
  · rw [e]
    dsimp only
    rw [if_pos rfl]
    have h3 : (("eed".toList).length : Int) = 3 := rfl
    rw [h3] at l ⊢
    obtain ⟨a, ha, ha0⟩ := m_total { st with j := st.k - 3 } (by dsimp only; omega)
    rw [ha]
    dsimp only
    refine ⟨_, rfl, ?_⟩
    split
    · exact inv_k (inv_j h (st.k - 3)) (st.k - 1) (by omega) (by dsimp only; omega)
    · exact inv_j h _

theorem inv_step1c {n : Nat} {c : Char} {st : St} (h : Inv n c st) :
    ∃ st', step1c st = some st' ∧ Inv n c st' := by
  have hkn := h.kn
  have hkb := h.kb
  unfold step1c
  simp only [bind, Option.bind, pure]
  rcases ends_cases st "y".toList h.k0 h.kb with e | ⟨e, l, w⟩
  · rw [e]
    dsimp only
    rw [if_neg (by simp)]
    exact ⟨_, rfl, h⟩
  · rw [e]
    dsimp only
    rw [if_pos rfl]
    have h1 : (("y".toList).length : Int) = 1 := rfl
    rw [h1] at l ⊢
    obtain ⟨v, hv, hv0⟩ := vowelInStem_total { st with j := st.k - 1 } (by dsimp only; omega)
    rw [hv]
    dsimp only
    refine ⟨_, rfl, ?_⟩
    split
    · rename_i hvt
      have hk := hv0 hvt
      dsimp only at hk
      have hl : (st.b.take st.k.toNat ++ "i".toList).length = st.k.toNat + 1 := by
        rw [List.length_append, List.length_take]
        have : ("i".toList).length = 1 := rfl
        omega
      refine ⟨h.k0, ?_, h.kn, ?_⟩ <;> dsimp only
      · rw [hl]
        omega
      · rw [List.getElem?_append_left (by rw [List.length_take]; omega),
          List.getElem?_take_of_lt (by omega)]
        exact h.first
    · exact inv_j h _

theorem inv_r {n : Nat} {c : Char} {st : St} (h : Inv n c st) (s : Str) (hjk : st.j ≤ st.k)
    (hl : st.j + 1 + s.length ≤ n) : ∃ st', r st s = some st' ∧ Inv n c st' := by
  obtain ⟨a, ha, ha0⟩ := m_total st (lt_of_le_of_lt hjk h.kb)
  unfold r
  rw [ha]
  refine ⟨_, rfl, ?_⟩
  dsimp only
  split
  · rename_i hp
    have := ha0 hp
    exact inv_setto h s (by omega) hjk hl
  · exact h

theorem inv_applyRules {n : Nat} {c : Char} {st : St} (h : Inv n c st) (rules : List (Str × Str))
    (hr : ∀ p ∈ rules, p.2.length ≤ p.1.length) :
    ∃ st', applyRules st rules = some st' ∧ Inv n c st' := by
  induction rules with
  | nil => exact ⟨st, rfl, h⟩
  | cons p rules ih =>
    obtain ⟨s, t⟩ := p
    have hst := hr (s, t) (by simp)
    have hkn := h.kn
    rw [applyRules]
    rcases ends_cases st s h.k0 h.kb with e | ⟨e, l, w⟩
    · rw [e]
      exact ih fun q hq => hr q (by simp [hq])
    · rw [e]
      dsimp only at hst ⊢
      exact inv_r (inv_j h _) t (by dsimp only; omega) (by dsimp only; omega)

theorem lookup_mem {A B : Type} [BEq A] [LawfulBEq A] (l : List (A × B)) (a : A) (b : B)
    (h : l.lookup a = some b) : (a, b) ∈ l := by
  induction l with
  | nil => simp at h
  | cons p l ih =>
    rw [List.lookup_cons] at h
    split at h
    · rename_i heq
      rw [eq_of_beq heq]
      simp only [Option.some.injEq] at h
      subst h
      exact List.mem_cons_self
    · exact List.mem_cons_of_mem _ (ih h)

theorem rules2_short : ∀ e ∈ rules2, ∀ p ∈ e.2, p.2.length ≤ p.1.length := by decide +kernel
theorem rules3_short : ∀ e ∈ rules3, ∀ p ∈ e.2, p.2.length ≤ p.1.length := by decide +kernel

theorem table_short (table : List (Char × List (Str × Str)))
    (ht : ∀ e ∈ table, ∀ p ∈ e.2, p.2.length ≤ p.1.length) (ch : Char) :
    ∀ p ∈ (table.lookup ch).getD [], p.2.length ≤ p.1.length := by
  intro p hp
  cases hl : table.lookup ch with
  | none => rw [hl] at hp; simp at hp
  | some rules =>
    rw [hl] at hp
    exact ht _ (lookup_mem table ch rules hl) p hp

theorem inv_step2 {n : Nat} {c : Char} {st : St} (h : Inv n c st) :
    ∃ st', step2 st = some st' ∧ Inv n c st' := by
  obtain ⟨ch, hch⟩ := at'_total st.b (st.k - 1) (by have := h.k0; omega) (by have := h.kb; omega)
    (b_ne_nil h)
  unfold step2
  rw [hch]
  exact inv_applyRules h _ (table_short _ rules2_short ch)

theorem inv_step3 {n : Nat} {c : Char} {st : St} (h : Inv n c st) :
    ∃ st', step3 st = some st' ∧ Inv n c st' := by
  obtain ⟨ch, hch, _⟩ := at'_nat st.b st.k h.k0 h.kb
  unfold step3
  rw [hch]
  exact inv_applyRules h _ (table_short _ rules3_short ch)

/-- What a search for a suffix gives: only `j` may change, to a value from -1 to `k`. -/
def EndsLike (st : St) (o : Option (Bool × St)) : Prop :=
  ∃ b j, o = some (b, { st with j := j }) ∧ (b = true → -1 ≤ j ∧ j ≤ st.k)

theorem endsLike_firstEnd {n : Nat} {c : Char} {st : St} (h : Inv n c st) (ss : List Str) :
    EndsLike st (firstEnd st ss) := by
  induction ss with
  | nil => exact ⟨false, st.j, rfl, by simp⟩
  | cons s ss ih =>
    rw [firstEnd]
    rcases ends_cases st s h.k0 h.kb with e | ⟨e, l, w⟩
    · rw [e]
      exact ih
    · rw [e]
      exact ⟨true, _, rfl, fun _ => by omega⟩

theorem endsLike_trans {st : St} {j : Int} {o : Option (Bool × St)}
    (h : EndsLike { st with j := j } o) : EndsLike st o := by
  obtain ⟨b, j', h1, h2⟩ := h
  exact ⟨b, j', h1, h2⟩

theorem endsLike_ion {n : Nat} {c : Char} {st : St} (h : Inv n c st) : EndsLike st (ionCase st) := by
  unfold ionCase
  simp only [bind, Option.bind, pure]
  rcases ends_cases st "ion".toList h.k0 h.kb with e | ⟨e, l, w⟩
  · rw [e]
    exact ⟨false, st.j, rfl, by simp⟩
  · rw [e]
    dsimp only
    rw [if_pos rfl]
    have h3 : (("ion".toList).length : Int) = 3 := rfl
    rw [h3] at l ⊢
    obtain ⟨p, hp⟩ := at'_total st.b (st.k - 3) (by omega) (by have := h.kb; omega) (b_ne_nil h)
    rw [hp]
    exact ⟨_, _, rfl, fun _ => by omega⟩

theorem endsLike_suffix4 {n : Nat} {c : Char} {st : St} (h : Inv n c st) :
    EndsLike st (suffix4 st) := by
  obtain ⟨ch, hch⟩ := at'_total st.b (st.k - 1) (by have := h.k0; omega) (by have := h.kb; omega)
    (b_ne_nil h)
  unfold suffix4
  simp only [bind, Option.bind, pure]
  rw [hch]
  dsimp only
  split
  · obtain ⟨b, j, e, hb⟩ := endsLike_ion h
    rw [e]
    dsimp only
    split
    · rename_i hbt
      exact ⟨true, j, rfl, fun _ => hb hbt⟩
    · exact endsLike_trans (endsLike_firstEnd (inv_j h j) _)
  · exact endsLike_firstEnd h _

theorem inv_step4 {n : Nat} {c : Char} {st : St} (h : Inv n c st) :
    ∃ st', step4 st = some st' ∧ Inv n c st' := by
  obtain ⟨b, j, e, hb⟩ := endsLike_suffix4 h
  unfold step4
  simp only [bind, Option.bind, pure]
  rw [e]
  dsimp only
  split
  · rename_i hbt
    have hj := hb hbt
    obtain ⟨a, ha, ha0⟩ := m_total { st with j := j } (lt_of_le_of_lt hj.2 h.kb)
    rw [ha]
    dsimp only
    refine ⟨_, rfl, ?_⟩
    split
    · have := ha0 (by omega)
      dsimp only at this
      exact inv_k (inv_j h j) j (by omega) hj.2
    · exact inv_j h j
  · exact ⟨_, rfl, inv_j h j⟩

theorem inv_step5a {n : Nat} {c : Char} {st : St} (h : Inv n c st) :
    ∃ st', step5a st = some st' ∧ Inv n c st' ∧ st'.j < st'.b.length := by
  have hkb := h.kb
  have hk0 := h.k0
  obtain ⟨ch, hch, _⟩ := at'_nat st.b st.k h.k0 h.kb
  unfold step5a
  simp only [bind, Option.bind, pure]
  rw [hch]
  dsimp only
  split
  · obtain ⟨a, ha, ha0⟩ := m_total { st with j := st.k } h.kb
    rw [ha]
    dsimp only at ha0 ⊢
    split
    · have := ha0 (by omega)
      exact ⟨_, rfl, inv_k (inv_j h st.k) (st.k - 1) (by omega) (by dsimp only; omega), hkb⟩
    · split
      · have := ha0 (by omega)
        obtain ⟨v, hv⟩ := cvc_total { st with j := st.k } (st.k - 1) (by dsimp only; omega)
        rw [hv]
        dsimp only
        refine ⟨_, rfl, ?_⟩
        split
        · exact ⟨inv_j h _, hkb⟩
        · exact ⟨inv_k (inv_j h st.k) (st.k - 1) (by omega) (by dsimp only; omega), hkb⟩
      · exact ⟨_, rfl, inv_j h _, hkb⟩
  · exact ⟨_, rfl, inv_j h _, hkb⟩

theorem inv_step5b {n : Nat} {c : Char} {st : St} (h : Inv n c st) (hj : st.j < st.b.length) :
    ∃ st', step5b st = some st' ∧ Inv n c st' := by
  obtain ⟨ch, hch, _⟩ := at'_nat st.b st.k h.k0 h.kb
  unfold step5b
  simp only [bind, Option.bind, pure]
  rw [hch]
  dsimp only
  split
  · obtain ⟨d, hd, hd0⟩ := doublec_total st st.k h.kb
    rw [hd]
    dsimp only
    split
    · rename_i hdt
      have := hd0 hdt
      obtain ⟨a, ha, _⟩ := m_total st hj
      rw [ha]
      dsimp only
      refine ⟨_, rfl, ?_⟩
      split
      · exact inv_k h (st.k - 1) (by omega) (by omega)
      · exact h
    · exact ⟨_, rfl, h⟩
  · exact ⟨_, rfl, h⟩

/-! ## C57 -/

/-- **C57.** Stemming never raises, never makes the (lower-cased) word longer, never gives an empty
word for a non-empty one, keeps the first letter, and leaves words of one or two letters alone. -/
theorem C57_total (j0 : Int) (w : Str) :
    ∃ s, stem j0 w = some s ∧ s.length ≤ w.length ∧ s.head? = w.head? ∧ (w ≠ [] → s ≠ []) ∧
      (w.length ≤ 2 → s = w) := by
  unfold stem
  by_cases hw : w.length ≤ 2
  · rw [if_pos hw]
    exact ⟨w, rfl, Nat.le_refl _, rfl, id, fun _ => rfl⟩
  rw [if_neg hw]
  cases w with
  | nil => simp at hw
  | cons c w =>
    have h0 : Inv (c :: w).length c { b := c :: w, k := (c :: w).length - 1, j := j0 } := by
      refine ⟨?_, ?_, ?_, rfl⟩ <;> dsimp only <;> omega
    obtain ⟨s1, e1, h1⟩ := inv_step1a h0 (by dsimp only; omega)
    obtain ⟨s2, e2, h2⟩ := inv_step1b h1
    obtain ⟨s3, e3, h3⟩ := inv_step1c h2
    obtain ⟨s4, e4, h4⟩ := inv_step2 h3
    obtain ⟨s5, e5, h5⟩ := inv_step3 h4
    obtain ⟨s6, e6, h6⟩ := inv_step4 h5
    obtain ⟨s7, e7, h7, h7'⟩ := inv_step5a h6
    obtain ⟨s8, e8, h8⟩ := inv_step5b h7 h7'
    simp only [bind, Option.bind, pure, e1, e2, e3, e4, e5, e6, e7, e8]
    have hk := h8.k0
    have hkb := h8.kb
    have hkn := h8.kn
    have hhead : (s8.b.take (s8.k + 1).toNat).head? = some c := by
      rw [List.head?_eq_getElem?, List.getElem?_take_of_lt (by omega)]
      exact h8.first
    refine ⟨_, rfl, ?_, hhead, ?_, ?_⟩
    · rw [List.length_take]
      omega
    · intro _ hnil
      rw [hnil] at hhead
      simp at hhead
    · intro hh
      exact absurd hh hw

/-- **C57.** The measure the conditions of the rules use is the number of vowel-consonant sequences of
the stem `b[0 … j]`. -/
theorem C57_measure (st : St) (h : st.j < st.b.length) :
    ∃ fs, (List.range (st.j + 1).toNat).mapM (cons st.b) = some fs ∧ m st = some (vcCount fs) := by
  obtain ⟨fs, h1, _⟩ := flags_total st.b st.j h
  refine ⟨fs, h1, ?_⟩
  unfold m
  rw [h1, Option.map_some, (mLoop_count fs).1, Nat.zero_add]

/-! ### The result depends on the word only -/

/-- The part of the state that is not left over from the word before. -/
def bk (st : St) : Str × Int := (st.b, st.k)

/-- Two outcomes that agree but for `j`. -/
def Same (a b : Option St) : Prop := a.map bk = b.map bk

theorem same_ext {s t : St} (h : bk s = bk t) : t = { s with j := t.j } := by
  obtain ⟨b, k, j⟩ := s
  obtain ⟨b', k', j'⟩ := t
  simp only [bk, Prod.mk.injEq] at h
  simp [h.1, h.2]

/-- A step whose outcome, but for `j`, does not depend on `j`. -/
def Blind (f : St → Option St) : Prop := ∀ st j, Same (f { st with j := j }) (f st)

theorem same_bind {f : St → Option St} (hf : Blind f) {a b : Option St} (h : Same a b) :
    Same (a.bind f) (b.bind f) := by
  cases a with
  | none =>
    cases b with
    | none => rfl
    | some t => simp [Same] at h
  | some s =>
    cases b with
    | none => simp [Same] at h
    | some t =>
      simp only [Same, Option.map_some, Option.some.injEq] at h
      rw [same_ext h]
      exact (hf s t.j).symm

/-- The answer of `_ends` does not depend on `j`, and after a match neither does the state. -/
theorem ends_blind (st : St) (s : Str) :
    (∀ j, ends { st with j := j } s = none) ∨
      (∀ j, ends { st with j := j } s = some (false, { st with j := j })) ∨
      ∃ st1, ∀ j, ends { st with j := j } s = some (true, st1) := by
  have key : ∀ j, ends { st with j := j } s
      = (ends st s).map fun p => if p.1 then p else (false, { st with j := j }) := by
    intro j
    unfold ends
    dsimp only
    cases at' st.b st.k with
    | none => rfl
    | some ch =>
      dsimp only
      split
      · rfl
      · split
        · rfl
        · split
          · rfl
          · rfl
  cases he : ends st s with
  | none => exact Or.inl fun j => by rw [key j, he]; rfl
  | some p =>
    obtain ⟨t, st1⟩ := p
    cases t with
    | false => exact Or.inr (Or.inl fun j => by rw [key j, he]; rfl)
    | true => exact Or.inr (Or.inr ⟨st1, fun j => by rw [key j, he]; rfl⟩)

theorem same_j (st : St) (j : Int) : Same (some { st with j := j }) (some st) := rfl

theorem blind_step1a : Blind step1a := by
  intro st j
  obtain ⟨b, k, j0⟩ := st
  dsimp only
  unfold step1a
  simp only [bind, Option.bind, pure]
  cases at' b k with
  | none => rfl
  | some ch =>
    dsimp only
    split
    · rcases ends_blind ⟨b, k, j0⟩ "sses".toList with e | e | ⟨s1, e⟩
      · have e1 := e j
        have e2 := e j0
        dsimp only at e1 e2
        rw [e1, e2]
        rfl
      · have e1 := e j
        have e2 := e j0
        dsimp only at e1 e2
        rw [e1, e2]
        dsimp only
        rcases ends_blind ⟨b, k, j0⟩ "ies".toList with f | f | ⟨s2, f⟩
        · have f1 := f j
          have f2 := f j0
          dsimp only at f1 f2
          simp only [f1, f2, Bool.false_eq_true, if_false]
          rfl
        · have f1 := f j
          have f2 := f j0
          dsimp only at f1 f2
          simp only [f1, f2, Bool.false_eq_true, if_false]
          cases at' b (k - 1) with
          | none => rfl
          | some p =>
            dsimp only
            split <;> rfl
        · have f1 := f j
          have f2 := f j0
          dsimp only at f1 f2
          simp only [f1, f2, Bool.false_eq_true, if_false]
          rfl
      · have e1 := e j
        have e2 := e j0
        dsimp only at e1 e2
        rw [e1, e2]
        rfl
    · rfl

theorem blind_step1b : Blind step1b := by
  intro st j
  obtain ⟨b, k, j0⟩ := st
  dsimp only
  unfold step1b endsEdIng
  simp only [bind, Option.bind, pure]
  rcases ends_blind ⟨b, k, j0⟩ "eed".toList with e | e | ⟨s1, e⟩
  · have e1 := e j
    have e2 := e j0
    dsimp only at e1 e2
    rw [e1, e2]
    rfl
  · have e1 := e j
    have e2 := e j0
    dsimp only at e1 e2
    simp only [e1, e2, Bool.false_eq_true, if_false]
    rcases ends_blind ⟨b, k, j0⟩ "ed".toList with f | f | ⟨s2, f⟩
    · have f1 := f j
      have f2 := f j0
      dsimp only at f1 f2
      simp only [f1, f2, Bool.false_eq_true, if_false]
      rfl
    · have f1 := f j
      have f2 := f j0
      dsimp only at f1 f2
      simp only [f1, f2, Bool.false_eq_true, if_false]
      rcases ends_blind ⟨b, k, j0⟩ "ing".toList with g | g | ⟨s3, g⟩
      · have g1 := g j
        have g2 := g j0
        dsimp only at g1 g2
        simp only [g1, g2]
        rfl
      · have g1 := g j
        have g2 := g j0
        dsimp only at g1 g2
        simp only [g1, g2, Bool.false_eq_true, if_false]
        rfl
      · have g1 := g j
        have g2 := g j0
        dsimp only at g1 g2
        rw [g1, g2]
        rfl
    · have f1 := f j
      have f2 := f j0
      dsimp only at f1 f2
      rw [f1, f2]
      rfl
  · have e1 := e j
    have e2 := e j0
    dsimp only at e1 e2
    rw [e1, e2]
    rfl

theorem blind_step1c : Blind step1c := by
  intro st j
  obtain ⟨b, k, j0⟩ := st
  dsimp only
  unfold step1c
  simp only [bind, Option.bind, pure]
  rcases ends_blind ⟨b, k, j0⟩ "y".toList with e | e | ⟨s1, e⟩
  · have e1 := e j
    have e2 := e j0
    dsimp only at e1 e2
    rw [e1, e2]
    rfl
  · have e1 := e j
    have e2 := e j0
    dsimp only at e1 e2
    simp only [e1, e2, Bool.false_eq_true, if_false]
    rfl
  · have e1 := e j
    have e2 := e j0
    dsimp only at e1 e2
    rw [e1, e2]
    rfl

theorem blind_applyRules (rules : List (Str × Str)) : Blind fun st => applyRules st rules := by
  induction rules with
  | nil => intro st j; rfl
  | cons p rules ih =>
    intro st j
    obtain ⟨b, k, j0⟩ := st
    obtain ⟨s, t⟩ := p
    dsimp only
    rw [applyRules, applyRules]
    rcases ends_blind ⟨b, k, j0⟩ s with e | e | ⟨s1, e⟩
    · have e1 := e j
      have e2 := e j0
      dsimp only at e1 e2
      rw [e1, e2]
      rfl
    · have e1 := e j
      have e2 := e j0
      dsimp only at e1 e2
      rw [e1, e2]
      exact ih ⟨b, k, j0⟩ j
    · have e1 := e j
      have e2 := e j0
      dsimp only at e1 e2
      rw [e1, e2]
      rfl

theorem blind_step2 : Blind step2 := by
  intro st j
  unfold step2
  dsimp only
  cases at' st.b (st.k - 1) with
  | none => rfl
  | some ch => exact blind_applyRules _ st j

theorem blind_step3 : Blind step3 := by
  intro st j
  unfold step3
  dsimp only
  cases at' st.b st.k with
  | none => rfl
  | some ch => exact blind_applyRules _ st j

/-- Outcomes of a search that are the same after a match. -/
def SameEnds (st : St) (f : St → Option (Bool × St)) : Prop :=
  (∀ j, f { st with j := j } = none) ∨
    (∀ j, ∃ j', f { st with j := j } = some (false, { st with j := j' })) ∨
    ∃ st1, ∀ j, f { st with j := j } = some (true, st1)

theorem sameEnds_firstEnd (st : St) (ss : List Str) : SameEnds st fun s => firstEnd s ss := by
  induction ss with
  | nil => exact Or.inr (Or.inl fun j => ⟨j, rfl⟩)
  | cons s ss ih =>
    unfold SameEnds
    simp only [firstEnd]
    rcases ends_blind st s with e | e | ⟨s1, e⟩
    · left
      intro j
      rw [e j]
    · simp only [e]
      exact ih
    · right
      right
      refine ⟨s1, ?_⟩
      intro j
      rw [e j]

theorem sameEnds_suffix4 (st : St) : SameEnds st suffix4 := by
  unfold suffix4
  simp only [SameEnds, bind, Option.bind, pure]
  cases at' st.b (st.k - 1) with
  | none => exact Or.inl fun _ => rfl
  | some ch =>
    dsimp only
    split
    · -- the case of "-ion"
      unfold ionCase
      simp only [bind, Option.bind, pure]
      rcases ends_blind st "ion".toList with e | e | ⟨s1, e⟩
      · left
        intro j
        rw [e j]
      · simp only [e, Bool.false_eq_true, if_false]
        exact sameEnds_firstEnd st _
      · simp only [e, if_true]
        cases at' s1.b s1.j with
        | none => exact Or.inl fun _ => rfl
        | some p =>
          dsimp only
          split
          · exact Or.inr (Or.inr ⟨s1, fun _ => rfl⟩)
          · have hs1 : s1 = { st with j := s1.j } := by
              have h := e st.j
              unfold ends at h
              dsimp only at h
              split at h
              · cases h
              · split at h
                · simp at h
                · split at h
                  · simp at h
                  · split at h
                    · simp at h
                    · simp only [Option.some.injEq, Prod.mk.injEq, true_and] at h
                      rw [← h]
            have hf := sameEnds_firstEnd st ((rules4.lookup ch).getD [])
            rcases hf with g | g | ⟨s2, g⟩
            · left
              intro _
              rw [hs1]
              exact g s1.j
            · right
              left
              intro _
              rw [hs1]
              exact g s1.j
            · right
              right
              refine ⟨s2, ?_⟩
              intro _
              rw [hs1]
              exact g s1.j
    · exact sameEnds_firstEnd st _

theorem blind_step4 : Blind step4 := by
  intro st j
  unfold step4
  simp only [bind, Option.bind, pure]
  rcases sameEnds_suffix4 st with e | e | ⟨s1, e⟩
  · have e2 := e st.j
    rw [e j, e2]
    rfl
  · obtain ⟨j1, e1⟩ := e j
    obtain ⟨j2, e2⟩ := e st.j
    rw [e1, e2]
    rfl
  · have e2 := e st.j
    rw [e j, e2]
    rfl

theorem step5a_j (st : St) (j : Int) : step5a { st with j := j } = step5a st := rfl

/-- **C57.** The stem of a word does not depend on the words stemmed before with the same stemmer. -/
theorem C57_history (j0 j1 : Int) (w : Str) : stem j0 w = stem j1 w := by
  unfold stem
  split
  · rfl
  · have h1 : Same (step1a { b := w, k := w.length - 1, j := j0 })
        (step1a { b := w, k := w.length - 1, j := j1 }) :=
      blind_step1a { b := w, k := w.length - 1, j := j1 } j0
    have h2 := same_bind blind_step1b h1
    have h3 := same_bind blind_step1c h2
    have h4 := same_bind blind_step2 h3
    have h5 := same_bind blind_step3 h4
    have h6 := same_bind blind_step4 h5
    have h7 : ∀ {a b : Option St}, Same a b → a.bind step5a = b.bind step5a := by
      intro a b h
      cases a with
      | none =>
        cases b with
        | none => rfl
        | some t => simp [Same] at h
      | some s =>
        cases b with
        | none => simp [Same] at h
        | some t =>
          simp only [Same, Option.map_some, Option.some.injEq] at h
          rw [same_ext h]
          exact (step5a_j s t.j).symm
    have h8 := h7 h6
    simp only [bind, ← Option.bind_assoc]
    rw [h8]

example : stem 0 "relational".toList = some "relat".toList := by decide +kernel
example : stem 0 "hopping".toList = some "hop".toList := by decide +kernel
example : stem 0 "ponies".toList = some "poni".toList := by decide +kernel
example : stem 0 "ies".toList = some "i".toList := by decide +kernel
example : stem (-7) "happy".toList = some "happi".toList := by decide +kernel

end Verif.Porter
