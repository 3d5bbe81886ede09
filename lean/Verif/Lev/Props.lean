import Mathlib.Tactic.Linarith
import Mathlib.Tactic.NormNum
import Mathlib.Tactic.FieldSimp
import Mathlib.Tactic.Positivity
import Mathlib.Data.List.Perm.Basic
import Verif.Lev.Model

/-!
# C103: Levenshtein similarities
-/

namespace Verif.Lev

open Verif

/-! ## Specification -/

/-- One edit: a character inserted, deleted or replaced. -/
inductive Edit : Term → Term → Prop
  | insert (p : Term) (x : Nat) (s : Term) : Edit (p ++ s) (p ++ x :: s)
  | delete (p : Term) (x : Nat) (s : Term) : Edit (p ++ x :: s) (p ++ s)
  | replace (p : Term) (x y : Nat) (s : Term) : Edit (p ++ x :: s) (p ++ y :: s)

/-- `n` edits lead from one term to the other. -/
inductive Edits : Nat → Term → Term → Prop
  | nil (a : Term) : Edits 0 a a
  | step {a b c : Term} {n : Nat} : Edit a b → Edits n b c → Edits (n + 1) a c

/-- The library computes the least number of edits. -/
def LibOk (lib : Term → Term → Nat) : Prop := ∀ a b, Edits (lib a b) a b ∧ ∀ n, Edits n a b → lib a b ≤ n

/-- The similarity of Charlet and Damnati: `alpha (1 - d / L) ^ beta` for the distance `d` and the longer length `L`. -/
noncomputable def similarity (alpha beta : ℝ) (d L : Nat) : ℝ := alpha * (1 - (d : ℝ) / L) ^ beta

/-- The similarity of two terms. -/
noncomputable def simOf (lib : Term → Term → Nat) (alpha beta : ℝ) (a b : Term) : ℝ :=
  similarity alpha beta (lib a b) (max a.length b.length)

/-! ## Edits -/

theorem Edit.symm {a b : Term} (h : Edit a b) : Edit b a := by
  cases h with
  | insert p x s => exact .delete p x s
  | delete p x s => exact .insert p x s
  | replace p x y s => exact .replace p y x s

theorem Edits.snoc {n : Nat} {a b c : Term} (h : Edits n a b) (e : Edit b c) : Edits (n + 1) a c := by
  induction h with
  | nil a => exact .step e (.nil _)
  | step e' _ ih => exact .step e' (ih e)

theorem Edits.symm {n : Nat} {a b : Term} (h : Edits n a b) : Edits n b a := by
  induction h with
  | nil a => exact .nil a
  | step e _ ih => exact ih.snoc e.symm

theorem Edit.cons (x : Nat) {a b : Term} (h : Edit a b) : Edit (x :: a) (x :: b) := by
  cases h with
  | insert p y s => exact .insert (x :: p) y s
  | delete p y s => exact .delete (x :: p) y s
  | replace p y z s => exact .replace (x :: p) y z s

theorem Edits.cons (x : Nat) {n : Nat} {a b : Term} (h : Edits n a b) : Edits n (x :: a) (x :: b) := by
  induction h with
  | nil a => exact .nil _
  | step e _ ih => exact .step (e.cons x) ih

theorem edits_max (a b : Term) : Edits (max a.length b.length) a b := by
  induction a generalizing b with
  | nil =>
    induction b with
    | nil => exact .nil _
    | cons y b ih =>
      have := (Edit.insert [] y []).symm
      have h := Edits.step (Edit.insert [] y []) (ih.cons y)
      simpa using h
  | cons x a ih =>
    cases b with
    | nil =>
      have h := Edits.step (Edit.delete [] x a) (ih [])
      simpa using h
    | cons y b =>
      have h := Edits.step (Edit.replace [] x y a) ((ih b).cons y)
      simpa [Nat.succ_max_succ] using h

theorem edits_zero {a b : Term} (h : Edits 0 a b) : a = b := by
  cases h; rfl

theorem edits_length {n : Nat} {a b : Term} (h : Edits n a b) : a.length ≤ b.length + n ∧ b.length ≤ a.length + n := by
  induction h with
  | nil a => exact ⟨le_rfl, le_rfl⟩
  | step e _ ih => cases e <;> simp at ih ⊢ <;> omega

theorem lib_symm {lib : Term → Term → Nat} (hl : LibOk lib) (a b : Term) : lib a b = lib b a :=
  le_antisymm ((hl a b).2 _ (hl b a).1.symm) ((hl b a).2 _ (hl a b).1.symm)

theorem lib_le {lib : Term → Term → Nat} (hl : LibOk lib) (a b : Term) : lib a b ≤ max a.length b.length :=
  (hl a b).2 _ (edits_max a b)

theorem lib_zero {lib : Term → Term → Nat} (hl : LibOk lib) (a b : Term) : lib a b = 0 ↔ a = b := by
  constructor
  · intro h; exact edits_zero (h ▸ (hl a b).1)
  · rintro rfl; exact Nat.le_zero.1 ((hl a a).2 0 (.nil a))

/-! ## Distance -/

/-- `levdist` is the least number of edits if that is at most `max_distance`; else it is the length of the longer term, which is
at least the number of edits and more than `max_distance`. It is symmetric. -/
theorem C103_levdist (lib : Term → Term → Nat) (hl : LibOk lib) (a b : Term) (maxDistance : Int) :
    (∀ n : Nat, (n : Int) ≤ maxDistance → (∀ k, Edits k a b → n ≤ k) → Edits n a b → levdist lib a b maxDistance = n) ∧
    ((∀ n : Nat, Edits n a b → maxDistance < n) → levdist lib a b maxDistance = max a.length b.length ∧
      maxDistance < levdist lib a b maxDistance) ∧
    (∃ n ≤ levdist lib a b maxDistance, Edits n a b) ∧
    levdist lib a b maxDistance = levdist lib b a maxDistance := by
  have hle := lib_le hl a b
  refine ⟨?_, ?_, ?_, ?_⟩
  · intro n hn hmin he
    have : lib a b = n := le_antisymm ((hl a b).2 n he) (hmin _ (hl a b).1)
    unfold levdist
    rw [this]
    exact if_neg (by omega)
  · intro h
    have h1 := h _ (hl a b).1
    have : levdist lib a b maxDistance = max a.length b.length := by
      unfold levdist
      exact if_pos h1
    rw [this]
    refine ⟨rfl, ?_⟩
    push_cast
    omega
  · refine ⟨lib a b, ?_, (hl a b).1⟩
    unfold levdist
    dsimp only
    split
    · exact hle
    · exact le_rfl
  · unfold levdist
    rw [lib_symm hl a b, max_comm]

/-! ## Similarity -/

theorem ratio_range {lib : Term → Term → Nat} (hl : LibOk lib) (a b : Term) (h : a ≠ [] ∨ b ≠ []) :
    (0 : ℝ) < max a.length b.length ∧ 0 ≤ 1 - (lib a b : ℝ) / (max a.length b.length : Nat) ∧
    1 - (lib a b : ℝ) / (max a.length b.length : Nat) ≤ 1 := by
  have hpos : 0 < max a.length b.length := by
    rcases h with h | h
    · have := List.length_pos_iff.2 h; omega
    · have := List.length_pos_iff.2 h; omega
  have hposR : (0 : ℝ) < ((max a.length b.length : Nat) : ℝ) := by exact_mod_cast hpos
  have hle : (lib a b : ℝ) ≤ ((max a.length b.length : Nat) : ℝ) := by exact_mod_cast lib_le hl a b
  refine ⟨hposR, ?_, ?_⟩
  · have := div_le_one_of_le₀ hle hposR.le
    linarith
  · have : 0 ≤ (lib a b : ℝ) / ((max a.length b.length : Nat) : ℝ) := by positivity
    linarith

/-- For positive `alpha` and `beta` and terms that are not both empty, the answer is the similarity of the definition if it reaches
`min_similarity` (cut to the range from 0 to 1), and 0 otherwise: the shortcut through `max_distance` never
changes the result. -/
theorem C103_levsim (lib : Term → Term → Nat) (hl : LibOk lib) (a b : Term) (h : a ≠ [] ∨ b ≠ []) (alpha beta minSim : ℝ)
    (ha : 0 < alpha) (hb : 0 < beta) :
    (max (min minSim 1) 0 ≤ simOf lib alpha beta a b → levsim lib a b alpha beta minSim = .ok (simOf lib alpha beta a b)) ∧
    (simOf lib alpha beta a b < max (min minSim 1) 0 → levsim lib a b alpha beta minSim = .ok 0) := by
  obtain ⟨hpos, h0, h1⟩ := ratio_range hl a b h
  have hL : max a.length b.length ≠ 0 := by
    intro e
    rw [e] at hpos
    simp at hpos
  have hposR : (0 : ℝ) < ((max a.length b.length : Nat) : ℝ) := hpos
  set ms := max (min minSim 1) 0 with hms
  have hms0 : 0 ≤ ms := le_max_right _ _
  have key : ((lib a b : Int) ≤ ⌊((max a.length b.length : Nat) : ℝ) * (1 - (ms / alpha) ^ (1 / beta))⌋) ↔
      ms ≤ simOf lib alpha beta a b := by
    rw [Int.le_floor]
    have hr : (ms / alpha) ^ (1 / beta) ≤ 1 - (lib a b : ℝ) / (max a.length b.length : Nat) ↔
        ms / alpha ≤ (1 - (lib a b : ℝ) / (max a.length b.length : Nat)) ^ beta := by
      rw [one_div]
      exact Real.rpow_inv_le_iff_of_pos (by positivity) h0 hb
    have e1 : (((lib a b : Nat) : Int) : ℝ) ≤ ((max a.length b.length : Nat) : ℝ) * (1 - (ms / alpha) ^ (1 / beta)) ↔
        (ms / alpha) ^ (1 / beta) ≤ 1 - (lib a b : ℝ) / (max a.length b.length : Nat) := by
      rw [Int.cast_natCast, mul_comm, ← div_le_iff₀ hposR]
      constructor <;> intro h <;> linarith
    rw [e1, hr, div_le_iff₀ ha, mul_comm]
    rfl
  have hunf : levsim lib a b alpha beta minSim = .ok (alpha * (1 - ((levdist lib a b
      ⌊((max a.length b.length : Nat) : ℝ) * (1 - (ms / alpha) ^ (1 / beta))⌋ : Nat) : ℝ) /
        (max a.length b.length : Nat)) ^ beta) := by
    unfold levsim
    rw [if_neg (by simpa using ha.le), if_neg (by simpa using hb.le)]
    simp only [hL, if_false]
    rw [if_neg (by rintro (e | e) <;> linarith)]
  rw [hunf]
  constructor
  · intro hs
    have := key.2 hs
    unfold levdist
    rw [if_neg (by omega)]
    rfl
  · intro hs
    have : ¬ _ := fun hc => absurd (key.1 hc) (not_le.2 hs)
    unfold levdist
    dsimp only
    rw [if_pos (by omega)]
    rw [div_self hposR.ne', sub_self, Real.zero_rpow hb.ne', mul_zero]

/-- The similarity is symmetric. -/
theorem C103_symmetric (lib : Term → Term → Nat) (hl : LibOk lib) (a b : Term) (alpha beta minSim : ℝ) :
    levsim lib a b alpha beta minSim = levsim lib b a alpha beta minSim := by
  unfold levsim levdist
  rw [lib_symm hl a b, max_comm a.length]

theorem simOf_range (lib : Term → Term → Nat) (hl : LibOk lib) (a b : Term) (h : a ≠ [] ∨ b ≠ []) (alpha beta : ℝ)
    (ha : 0 < alpha) (hb : 0 < beta) :
    0 ≤ simOf lib alpha beta a b ∧ simOf lib alpha beta a b ≤ alpha ∧ (simOf lib alpha beta a b = alpha ↔ a = b) := by
  obtain ⟨hpos, h0, h1⟩ := ratio_range hl a b h
  have hposR : (0 : ℝ) < ((max a.length b.length : Nat) : ℝ) := hpos
  have hp := Real.rpow_le_one h0 h1 hb.le
  have hn := Real.rpow_nonneg h0 beta
  refine ⟨mul_nonneg ha.le hn, ?_, ?_⟩
  · unfold simOf similarity; nlinarith
  · constructor
    · intro he
      unfold simOf similarity at he
      have h2 : (1 - (lib a b : ℝ) / (max a.length b.length : Nat)) ^ beta = 1 := by
        have : alpha * ((1 - (lib a b : ℝ) / (max a.length b.length : Nat)) ^ beta - 1) = 0 := by linarith
        rcases mul_eq_zero.1 this with h | h <;> linarith
      by_contra hne
      have hd : 0 < lib a b := Nat.pos_of_ne_zero fun e => hne ((lib_zero hl a b).1 e)
      have : 1 - (lib a b : ℝ) / (max a.length b.length : Nat) < 1 := by
        have : 0 < (lib a b : ℝ) / (max a.length b.length : Nat) := by positivity
        linarith
      have := Real.rpow_lt_one h0 this hb
      linarith
    · rintro rfl
      unfold simOf similarity
      rw [(lib_zero hl a a).2 rfl]
      simp

/-- The similarity lies between 0 and `alpha`, and without a threshold it is `alpha` exactly for equal terms. With the same
longer length, fewer edits mean a higher similarity. -/
theorem C103_range (lib : Term → Term → Nat) (hl : LibOk lib) (a b : Term) (h : a ≠ [] ∨ b ≠ []) (alpha beta : ℝ)
    (ha : 0 < alpha) (hb : 0 < beta) :
    (∀ minSim, ∃ s, levsim lib a b alpha beta minSim = .ok s ∧ 0 ≤ s ∧ s ≤ alpha) ∧
    (levsim lib a b alpha beta 0 = .ok alpha ↔ a = b) ∧
    (∀ c d : Term, max c.length d.length = max a.length b.length → lib c d < lib a b →
      ∃ s s', levsim lib a b alpha beta 0 = .ok s ∧ levsim lib c d alpha beta 0 = .ok s' ∧ s < s') := by
  obtain ⟨r0, r1, r2⟩ := simOf_range lib hl a b h alpha beta ha hb
  have hz : ∀ x y : Term, x ≠ [] ∨ y ≠ [] → levsim lib x y alpha beta 0 = .ok (simOf lib alpha beta x y) := by
    intro x y hxy
    refine (C103_levsim lib hl x y hxy alpha beta 0 ha hb).1 ?_
    rw [min_eq_left zero_le_one, max_self]
    exact (simOf_range lib hl x y hxy alpha beta ha hb).1
  refine ⟨?_, ?_, ?_⟩
  · intro ms
    rcases le_or_gt (max (min ms 1) 0) (simOf lib alpha beta a b) with hs | hs
    · exact ⟨_, (C103_levsim lib hl a b h alpha beta ms ha hb).1 hs, r0, r1⟩
    · exact ⟨_, (C103_levsim lib hl a b h alpha beta ms ha hb).2 hs, le_rfl, ha.le⟩
  · rw [hz a b h, ← r2]
    exact ⟨fun e => Except.ok.inj e, fun e => by rw [e]⟩
  · intro c d hcd hlt
    obtain ⟨hpos, h0, h1⟩ := ratio_range hl a b h
    have hposR : (0 : ℝ) < ((max a.length b.length : Nat) : ℝ) := hpos
    have hcd' : c ≠ [] ∨ d ≠ [] := by
      by_contra hc
      push Not at hc
      rw [hc.1, hc.2] at hcd
      rw [← hcd] at hposR
      simp at hposR
    refine ⟨_, _, hz a b h, hz c d hcd', ?_⟩
    unfold simOf similarity
    rw [hcd]
    refine mul_lt_mul_of_pos_left (Real.rpow_lt_rpow h0 ?_ hb) ha
    have : (lib c d : ℝ) < lib a b := by exact_mod_cast hlt
    have := div_lt_div_of_pos_right this hposR
    linarith

/-- Finding: the similarity is documented as a number from 0 to 1. With the default parameters equal terms have similarity 1.8,
and two terms of at least ten characters one edit apart have a similarity above 1. -/
theorem C103_exceeds_one (lib : Term → Term → Nat) (hl : LibOk lib) (a b : Term) :
    (a ≠ [] → levsim lib a a 1.8 5 0 = .ok 1.8) ∧
    (lib a b = 1 → 10 ≤ max a.length b.length → ∃ s, levsim lib a b 1.8 5 0 = .ok s ∧ 1 < s) := by
  constructor
  · intro ha
    exact ((C103_range lib hl a a (Or.inl ha) 1.8 5 (by norm_num) (by norm_num)).2.1).2 rfl
  · intro hd hL
    have hab : a ≠ [] ∨ b ≠ [] := by
      by_contra hc
      push Not at hc
      rw [hc.1, hc.2] at hL
      simp at hL
    refine ⟨_, (C103_levsim lib hl a b hab 1.8 5 0 (by norm_num) (by norm_num)).1 ?_, ?_⟩
    · rw [min_eq_left zero_le_one, max_self]
      exact (simOf_range lib hl a b hab 1.8 5 (by norm_num) (by norm_num)).1
    · unfold simOf similarity
      rw [hd]
      have hL' : (10 : ℝ) ≤ ((max a.length b.length : Nat) : ℝ) := by exact_mod_cast hL
      have h9 : (9 / 10 : ℝ) ≤ 1 - ((1 : Nat) : ℝ) / ((max a.length b.length : Nat) : ℝ) := by
        have : ((1 : Nat) : ℝ) / ((max a.length b.length : Nat) : ℝ) ≤ 1 / 10 := by
          rw [Nat.cast_one]
          exact one_div_le_one_div_of_le (by norm_num) hL'
        linarith
      have := Real.rpow_le_rpow (by norm_num) h9 (by norm_num : (0 : ℝ) ≤ 5)
      have e : ((9 / 10 : ℝ)) ^ (5 : ℝ) = 59049 / 100000 := by
        rw [show (5 : ℝ) = ((5 : Nat) : ℝ) by norm_num, Real.rpow_natCast]; norm_num
      rw [e] at this
      norm_num at this ⊢
      linarith

/-- Finding: two empty terms have similarity 1 whatever `alpha`, `beta` and the threshold, while two equal non-empty terms have
similarity `alpha`. -/
theorem C103_empty (lib : Term → Term → Nat) (hl : LibOk lib) (alpha beta minSim : ℝ) (ha : 0 < alpha) (hb : 0 < beta)
    (t : Term) (ht : t ≠ []) :
    levsim lib [] [] alpha beta minSim = .ok 1 ∧ levsim lib t t alpha beta 0 = .ok alpha := by
  refine ⟨?_, ((C103_range lib hl t t (Or.inl ht) alpha beta ha hb).2.1).2 rfl⟩
  unfold levsim
  rw [if_neg (by simpa using ha.le), if_neg (by simpa using hb.le)]
  rfl

/-- Negative parameters are refused. Finding: zero parameters are let through and then divided by, unless both terms are
empty. -/
theorem C103_parameters (lib : Term → Term → Nat) (a b : Term) (alpha beta minSim : ℝ) :
    (alpha < 0 ∨ beta < 0 → levsim lib a b alpha beta minSim = .error .assertion) ∧
    (0 ≤ alpha → 0 ≤ beta → alpha = 0 ∨ beta = 0 → a ≠ [] ∨ b ≠ [] →
      levsim lib a b alpha beta minSim = .error .zeroDivision) := by
  constructor
  · intro h
    unfold levsim
    by_cases ha : 0 ≤ alpha
    · have hb : ¬ 0 ≤ beta := by
        rcases h with h | h
        · exact absurd ha (not_le.2 h)
        · exact not_le.2 h
      rw [if_neg (not_not.2 ha), if_pos hb]
    · rw [if_pos ha]
  · intro ha hb h hab
    have hL : max a.length b.length ≠ 0 := by
      rcases hab with h | h
      · have := List.length_pos_iff.2 h; omega
      · have := List.length_pos_iff.2 h; omega
    unfold levsim
    rw [if_neg (not_not.2 ha), if_neg (not_not.2 hb)]
    simp only [hL, if_false]
    rw [if_pos h]

/-- Finding: a threshold above 1 is taken as 1, so with `alpha` above 1 similarities below the threshold are returned. -/
theorem C103_threshold_above_one (lib : Term → Term → Nat) (hl : LibOk lib) (a b : Term) (h : a ≠ [] ∨ b ≠ [])
    (alpha beta minSim : ℝ) (ha : 0 < alpha) (hb : 0 < beta) (hm : 1 ≤ minSim) :
    levsim lib a b alpha beta minSim = levsim lib a b alpha beta 1 ∧
    (1 ≤ simOf lib alpha beta a b → simOf lib alpha beta a b < minSim →
      levsim lib a b alpha beta minSim = .ok (simOf lib alpha beta a b)) := by
  have e : max (min minSim 1) 0 = max (min (1 : ℝ) 1) 0 := by rw [min_eq_right hm, min_self]
  constructor
  · unfold levsim
    rw [e]
  · intro h1 _
    refine (C103_levsim lib hl a b h alpha beta minSim ha hb).1 ?_
    rw [min_eq_right hm, max_eq_left zero_le_one]
    exact h1

/-! ## `most_similar` -/

theorem before_total (a b : ℝ × Term) : before a b = true ∨ before b a = true := by
  unfold before
  simp only [decide_eq_true_eq]
  rcases lt_trichotomy a.1 b.1 with h | h | h
  · exact Or.inr (Or.inl h)
  · rcases le_total a.2 b.2 with h' | h'
    · exact Or.inr (Or.inr ⟨h.symm, h'⟩)
    · exact Or.inl (Or.inr ⟨h, h'⟩)
  · exact Or.inl (Or.inl h)

theorem before_trans (a b c : ℝ × Term) (h1 : before a b = true) (h2 : before b c = true) : before a c = true := by
  unfold before at *
  simp only [decide_eq_true_eq] at *
  rcases h1 with h1 | ⟨h1, h1'⟩ <;> rcases h2 with h2 | ⟨h2, h2'⟩
  · exact Or.inl (h2.trans h1)
  · exact Or.inl (h2 ▸ h1)
  · exact Or.inl (h1 ▸ h2)
  · exact Or.inr ⟨h1.trans h2, h2'.trans h1'⟩

/-- The similarity an index reports for two different terms: 0 below the threshold. -/
noncomputable def indexSim (lib : Term → Term → Nat) (ix : Index) (a b : Term) : ℝ :=
  open Classical in
  if max (min ix.threshold 1) 0 ≤ simOf lib ix.alpha ix.beta a b then simOf lib ix.alpha ix.beta a b else 0

theorem levsim_index (lib : Term → Term → Nat) (hl : LibOk lib) (ix : Index) (ha : 0 < ix.alpha) (hb : 0 < ix.beta)
    (a b : Term) (h : a ≠ b) : levsim lib a b ix.alpha ix.beta ix.threshold = .ok (indexSim lib ix a b) := by
  have hab : a ≠ [] ∨ b ≠ [] := by
    by_contra hc
    push Not at hc
    exact h (hc.1.trans hc.2.symm)
  unfold indexSim
  split
  · rename_i hs; exact (C103_levsim lib hl a b hab _ _ _ ha hb).1 hs
  · rename_i hs; exact (C103_levsim lib hl a b hab _ _ _ ha hb).2 (not_le.1 hs)

theorem mapM_ok {α β : Type} (f : α → Except Err β) (g : α → β) (l : List α) (h : ∀ a ∈ l, f a = .ok (g a)) :
    l.mapM f = .ok (l.map g) := by
  induction l with
  | nil => rfl
  | cons a t ih =>
    rw [List.mapM_cons, h a List.mem_cons_self, ih fun b hb => h b (List.mem_cons_of_mem _ hb)]
    rfl

theorem filterMap_swap (l : List (ℝ × Term)) :
    (l.filterMap fun p => open Classical in if p.1 > 0 then some (p.2, p.1) else none) =
      (l.filter fun p => open Classical in decide (p.1 > 0)).map fun p => (p.2, p.1) := by
  classical
  induction l with
  | nil => rfl
  | cons p t ih =>
    by_cases h : p.1 > 0
    · rw [List.filterMap_cons_some (b := (p.2, p.1)) (by rw [if_pos h]), List.filter_cons_of_pos (by simpa using h),
        List.map_cons, ih]
    · rw [List.filterMap_cons_none (by rw [if_neg h]), List.filter_cons_of_neg (by simpa using h), ih]

/-- The terms of the dictionary other than the query whose similarity is positive and reaches the threshold are ranked by
similarity, equal similarities by the term in descending order; the answer is the first `topn` of this ranking. -/
theorem C103_most_similar (lib : Term → Term → Nat) (hl : LibOk lib) (ix : Index) (ha : 0 < ix.alpha) (hb : 0 < ix.beta)
    (hn : ix.terms.Nodup) (t1 : Term) (topn : Nat) :
    ∃ ranking : List (Term × ℝ), mostSimilar lib ix t1 topn = .ok (ranking.take topn) ∧
      (∀ t s, (t, s) ∈ ranking ↔ t ∈ ix.terms ∧ t ≠ t1 ∧ s = simOf lib ix.alpha ix.beta t1 t ∧ 0 < s ∧
        min ix.threshold 1 ≤ s) ∧
      (ranking.map (·.1)).Nodup ∧
      ranking.Pairwise fun a b => b.2 < a.2 ∨ (a.2 = b.2 ∧ b.1 < a.1) := by
  classical
  set f : Term → ℝ × Term := fun t2 => (indexSim lib ix t1 t2, t2) with hf
  have hmap : (ix.terms.filter fun t2 => t1 ≠ t2).mapM (fun t2 => do
      let s ← levsim lib t1 t2 ix.alpha ix.beta ix.threshold
      return (s, t2)) = (.ok ((ix.terms.filter fun t2 => t1 ≠ t2).map f) : Except Err _) := by
    refine mapM_ok _ f _ fun t ht => ?_
    rw [levsim_index lib hl ix ha hb t1 t (by simpa using (List.mem_filter.1 ht).2)]
    rfl
  set sims := (ix.terms.filter fun t2 => t1 ≠ t2).map f with hsims
  set srt := pySort before sims with hsrt
  have hperm : srt.Perm sims := pySort_perm _ _
  have hsorted : srt.Pairwise fun a b => before a b = true := pySort_sorted before_total before_trans _
  refine ⟨(srt.filter fun p => decide (p.1 > 0)).map fun p => (p.2, p.1), ?_, ?_, ?_, ?_⟩
  · unfold mostSimilar
    rw [hmap]
    have h0 : ¬ (topn : Int) < 0 := by omega
    rw [← filterMap_swap]
    exact if_neg (t := (Except.error Err.value : Except Err (List (Term × ℝ)))) h0
  · intro t s
    rw [List.mem_map]
    constructor
    · rintro ⟨p, hp, he⟩
      obtain ⟨hp1, hp2⟩ := List.mem_filter.1 hp
      obtain ⟨t', ht', rfl⟩ := List.mem_map.1 (hperm.mem_iff.1 hp1)
      obtain ⟨hm, hne⟩ := List.mem_filter.1 ht'
      simp only [hf, Prod.mk.injEq, decide_eq_true_eq, gt_iff_lt] at he hp2 hne
      obtain ⟨rfl, rfl⟩ := he
      unfold indexSim at hp2 ⊢
      split at hp2
      · rename_i hs
        rw [if_pos hs]
        exact ⟨hm, fun e => hne e.symm, rfl, hp2, (le_max_left _ _).trans hs⟩
      · exact absurd hp2 (lt_irrefl _)
    · rintro ⟨hm, hne, rfl, hpos, hthr⟩
      have hs : max (min ix.threshold 1) 0 ≤ simOf lib ix.alpha ix.beta t1 t := max_le hthr hpos.le
      have hi : indexSim lib ix t1 t = simOf lib ix.alpha ix.beta t1 t := if_pos hs
      refine ⟨f t, List.mem_filter.2 ⟨hperm.mem_iff.2 (List.mem_map.2 ⟨t, List.mem_filter.2 ⟨hm, ?_⟩, rfl⟩), ?_⟩, ?_⟩
      · simpa using fun e => hne e.symm
      · simp only [hf, hi, decide_eq_true_eq]; exact hpos
      · simp only [hf, hi]
  · have hnd : (srt.map (·.2)).Nodup := by
      refine ((hperm.map _).nodup_iff).2 ?_
      rw [hsims, List.map_map]
      have : ((fun p : ℝ × Term => p.2) ∘ f) = id := rfl
      rw [this, List.map_id]
      exact hn.filter _
    rw [List.map_map]
    exact hnd.sublist (List.filter_sublist.map _)
  · have hnd : srt.Pairwise fun a b => a.2 ≠ b.2 := by
      have : (srt.map (·.2)).Nodup := by
        refine ((hperm.map _).nodup_iff).2 ?_
        rw [hsims, List.map_map]
        have : ((fun p : ℝ × Term => p.2) ∘ f) = id := rfl
        rw [this, List.map_id]
        exact hn.filter _
      exact List.pairwise_map.1 this
    rw [List.pairwise_map]
    refine ((hsorted.and hnd).imp ?_).sublist List.filter_sublist
    rintro a b ⟨h1, h2⟩
    unfold before at h1
    simp only [decide_eq_true_eq] at h1
    rcases h1 with h1 | ⟨h1, h1'⟩
    · exact Or.inl h1
    · exact Or.inr ⟨h1, lt_of_le_of_ne h1' fun e => h2 e.symm⟩

/-- A negative `topn` is refused, and unusable parameters are reported as by `levsim`, before anything is returned. -/
theorem C103_most_similar_errors (lib : Term → Term → Nat) (hl : LibOk lib) (ix : Index) (t1 : Term) :
    (0 < ix.alpha → 0 < ix.beta → ∀ topn : Int, topn < 0 → mostSimilar lib ix t1 topn = .error .value) ∧
    (∀ e, (∀ a b : Term, a ≠ b → levsim lib a b ix.alpha ix.beta ix.threshold = .error e) →
      (∃ t ∈ ix.terms, t ≠ t1) → ∀ topn, mostSimilar lib ix t1 topn = .error e) := by
  constructor
  · intro ha hb topn ht
    have hmap : (ix.terms.filter fun t2 => t1 ≠ t2).mapM (fun t2 => do
        let s ← levsim lib t1 t2 ix.alpha ix.beta ix.threshold
        return (s, t2)) =
        (.ok ((ix.terms.filter fun t2 => t1 ≠ t2).map fun t2 => (indexSim lib ix t1 t2, t2)) : Except Err _) := by
      refine mapM_ok _ _ _ fun t ht => ?_
      rw [levsim_index lib hl ix ha hb t1 t (by simpa using (List.mem_filter.1 ht).2)]
      rfl
    unfold mostSimilar
    rw [hmap]
    exact if_pos ht
  · rintro e he ⟨t, ht, hne⟩ topn
    have hex : ∀ l : List Term, l ≠ [] → (∀ x ∈ l, t1 ≠ x) → l.mapM (fun t2 => do
        let s ← levsim lib t1 t2 ix.alpha ix.beta ix.threshold
        return (s, t2)) = (.error e : Except Err (List (ℝ × Term))) := by
      intro l hl hx
      cases l with
      | nil => exact absurd rfl hl
      | cons x l =>
        rw [List.mapM_cons, he t1 x (hx x List.mem_cons_self)]
        rfl
    unfold mostSimilar
    rw [hex]
    · rfl
    · have : t ∈ ix.terms.filter fun t2 => t1 ≠ t2 := List.mem_filter.2 ⟨ht, by simpa using fun e => hne e.symm⟩
      exact List.ne_nil_of_mem this
    · intro x hx
      simpa using (List.mem_filter.1 hx).2

/-! ## The hypotheses can be met -/

theorem exists_lib : ∃ lib, LibOk lib := by
  classical
  refine ⟨fun a b => Nat.find (⟨_, edits_max a b⟩ : ∃ n, Edits n a b), fun a b => ⟨?_, fun n hn => ?_⟩⟩
  · exact Nat.find_spec (⟨_, edits_max a b⟩ : ∃ n, Edits n a b)
  · exact Nat.find_min' _ hn

/-- "cat" and "cats": one edit, longer length 4. -/
example (lib : Term → Term → Nat) (hl : LibOk lib) : lib [99, 97, 116] [99, 97, 116, 115] = 1 ∧
    levsim lib [99, 97, 116] [99, 97, 116, 115] 2 2 0 = .ok (9 / 8) ∧
    levsim lib [99, 97, 116] [99, 97, 116, 115] 1 2 (3 / 4) = .ok 0 := by
  have h1 : lib [99, 97, 116] [99, 97, 116, 115] = 1 := by
    refine le_antisymm ((hl _ _).2 1 (.step (.insert [99, 97, 116] 115 []) (.nil _))) ?_
    have := edits_length (hl [99, 97, 116] [99, 97, 116, 115]).1
    simp at this
    omega
  have e : ∀ al : ℝ, simOf lib al 2 [99, 97, 116] [99, 97, 116, 115] = al * (9 / 16) := by
    intro al
    unfold simOf similarity
    rw [h1, show (2 : ℝ) = ((2 : Nat) : ℝ) by norm_num, Real.rpow_natCast]
    norm_num
  refine ⟨h1, ?_, ?_⟩
  · rw [(C103_levsim lib hl _ _ (by simp) 2 2 0 (by norm_num) (by norm_num)).1 (by rw [e]; norm_num), e]
    norm_num
  · exact (C103_levsim lib hl _ _ (by simp) 1 2 (3 / 4) (by norm_num) (by norm_num)).2 (by rw [e]; norm_num)

end Verif.Lev
