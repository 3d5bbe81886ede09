import Verif.Termsim.IndexModel
import Verif.Termsim.Props

/-!
# Properties of the term similarity indexes (C121)
-/

namespace Verif.Termsim
open Verif

variable {T K : Type} [DecidableEq T]

/-- **C121.** The uniform index returns the first `topn` other terms of the dictionary in the order of their
ids, each with the same similarity. -/
theorem C121_uniform (toks : List T) (value : K) (t1 : T) (topn : Nat) :
    uniformSimilar (dictItems toks) value t1 topn
      = ((toks.filter fun t => decide (t ≠ t1)).take topn).map fun t => (t, value) := by
  unfold uniformSimilar dictItems
  have : ∀ (l : List T) (k : Nat), ((l.zipIdx k).map fun p => (p.2, p.1)).filter
      (fun p : Nat × T => decide (p.2 ≠ t1))
      = (((l.zipIdx k).filter fun p => decide (p.1 ≠ t1)).map fun p => (p.2, p.1)) := by
    intro l k
    rw [List.filter_map]
    rfl
  rw [this]
  have h2 : ∀ (l : List T) (k : Nat), ((l.zipIdx k).filter fun p => decide (p.1 ≠ t1)).map (·.1)
      = l.filter fun t => decide (t ≠ t1) := by
    intro l
    induction l with
    | nil => intro k; rfl
    | cons a l ih =>
      intro k
      rw [List.zipIdx_cons, List.filter_cons, List.filter_cons]
      by_cases h : a ≠ t1
      · simp only [decide_eq_true h, if_true, List.map_cons, ih]
      · simp only [decide_eq_false h, Bool.false_eq_true, if_false, ih]
  rw [← h2 toks 0, ← List.map_take, ← List.map_take, List.map_map, List.map_map]
  rfl

/-- **C121.** The embedding index returns exactly the terms among the `topn` most similar ones whose
similarity exceeds the threshold, in their order, with the similarity raised to the exponent; for a word
without a vector, nothing. -/
theorem C121_embedding (known : T → Bool) (vectors : T → Nat → List (T × ℝ)) (threshold exponent : ℝ)
    (t1 : T) (topn : Nat) :
    (known t1 = false → embeddingSimilar known vectors threshold exponent t1 topn = []) ∧
    (known t1 = true →
      (∀ t s, (t, s) ∈ vectors t1 topn → threshold < s →
        (t, s ^ exponent) ∈ embeddingSimilar known vectors threshold exponent t1 topn) ∧
      (∀ t v, (t, v) ∈ embeddingSimilar known vectors threshold exponent t1 topn →
        ∃ s, (t, s) ∈ vectors t1 topn ∧ threshold < s ∧ v = s ^ exponent) ∧
      List.Sublist ((embeddingSimilar known vectors threshold exponent t1 topn).map (·.1))
        ((vectors t1 topn).map (·.1))) := by
  unfold embeddingSimilar
  constructor
  · intro h
    rw [if_neg (by simp [h])]
  · intro h
    rw [if_pos h]
    refine ⟨?_, ?_, ?_⟩
    · intro t s hm hs
      exact List.mem_map.2 ⟨(t, s), List.mem_filter.2 ⟨hm, by simpa using hs⟩, rfl⟩
    · intro t v hm
      obtain ⟨p, hp, e⟩ := List.mem_map.1 hm
      obtain ⟨h1, h2⟩ := List.mem_filter.1 hp
      rw [Prod.mk.injEq] at e
      obtain ⟨rfl, rfl⟩ := e
      exact ⟨p.2, h1, by simpa using h2, rfl⟩
    · rw [List.map_map]
      exact List.Sublist.map _ List.filter_sublist

/-- **C121.** With a threshold and an exponent that are not negative the similarities are between 0 and 1
and the terms stay in the order of their similarity. -/
theorem C121_embedding_range (known : T → Bool) (vectors : T → Nat → List (T × ℝ))
    (threshold exponent : ℝ) (ht : 0 ≤ threshold) (he : 0 ≤ exponent) (t1 : T) (topn : Nat)
    (h1 : ∀ p ∈ vectors t1 topn, p.2 ≤ 1) (hs : (vectors t1 topn).Pairwise fun p q => q.2 ≤ p.2) :
    (∀ p ∈ embeddingSimilar known vectors threshold exponent t1 topn, 0 ≤ p.2 ∧ p.2 ≤ 1) ∧
    (embeddingSimilar known vectors threshold exponent t1 topn).Pairwise fun p q => q.2 ≤ p.2 := by
  unfold embeddingSimilar
  split
  · refine ⟨?_, ?_⟩
    · intro p hp
      obtain ⟨q, hq, rfl⟩ := List.mem_map.1 hp
      obtain ⟨g1, g2⟩ := List.mem_filter.1 hq
      have hpos : 0 ≤ q.2 := le_trans ht (le_of_lt (by simpa using g2))
      exact ⟨Real.rpow_nonneg hpos _, Real.rpow_le_one hpos (h1 q g1) he⟩
    · rw [List.pairwise_map]
      refine List.Pairwise.imp_of_mem ?_ (List.Pairwise.sublist List.filter_sublist hs)
      intro p q hp hq h
      obtain ⟨-, g2⟩ := List.mem_filter.1 hq
      have hpos : 0 ≤ q.2 := le_trans ht (le_of_lt (by simpa using g2))
      exact Real.rpow_le_rpow hpos h he
  · exact ⟨by simp, List.Pairwise.nil⟩

/-- **C121, finding.** With a negative threshold and the default exponent 2, a term that points the opposite
way gets a larger similarity than one that is related. -/
theorem C121_negative_threshold :
    embeddingSimilar (fun _ : Nat => true) (fun _ _ => [(1, 1 / 2), (2, -1)]) (-2) 2 0 2
      = [(1, 1 / 4), (2, 1)] := by
  unfold embeddingSimilar
  rw [if_pos rfl]
  have e2 : ∀ x : ℝ, x ^ (2 : ℝ) = x ^ 2 := fun x => by exact_mod_cast Real.rpow_natCast x 2
  have h1 : decide ((-2 : ℝ) < 1 / 2) = true := by rw [decide_eq_true_eq]; norm_num
  have h2 : decide ((-2 : ℝ) < -1) = true := by rw [decide_eq_true_eq]; norm_num
  simp only [List.filter_cons, h1, h2, if_true, List.filter_nil, List.map_cons, List.map_nil, e2]
  norm_num

/-- **C121.** Every index that never returns the term it is asked about fits every dictionary: the
constraints of C56 hold for the matrix built from it. -/
theorem C121_fits [Field K] [LinearOrder K] [IsStrictOrderedRing K] (toks : List T)
    (mostSimilar : T → Nat → List (T × K)) (hne : toks ≠ []) (hnd : toks.Nodup)
    (hself : ∀ t n p, p ∈ mostSimilar t n → p.1 ≠ t) (symmetric dominant : Bool) (limit : Nat) :
    Fits ⟨List.range toks.length, none, symmetric, dominant, limit⟩ (byIds toks mostSimilar) := by
  have hmem : ∀ t topn p, p ∈ byIds toks mostSimilar t topn →
      ∃ t1 q, toks[t]? = some t1 ∧ q ∈ mostSimilar t1 topn ∧ q.1 ∈ toks ∧ p.1 = toks.idxOf q.1 := by
    intro t topn p hp
    unfold byIds at hp
    split at hp
    · simp at hp
    · rename_i t1 ht
      obtain ⟨q, hq, rfl⟩ := List.mem_map.1 hp
      obtain ⟨g1, g2⟩ := List.mem_filter.1 hq
      exact ⟨t1, q, ht, g1, by simpa using g2, rfl⟩
  constructor
  · intro h
    rw [List.range_eq_nil, List.length_eq_zero_iff] at h
    exact hne h
  · simp
  · intro d h
    simp at h
  · intro t topn p hp
    obtain ⟨t1, q, -, -, h3, h4⟩ := hmem t topn p hp
    rw [h4, List.mem_range]
    exact List.idxOf_lt_length_of_mem h3
  · intro t topn p hp
    obtain ⟨t1, q, h1, h2, h3, h4⟩ := hmem t topn p hp
    rw [h4]
    intro he
    have hlt := List.idxOf_lt_length_of_mem h3
    have : toks[t]? = some q.1 := by
      rw [← he, List.getElem?_eq_getElem hlt, List.getElem_idxOf hlt]
    rw [this, Option.some.injEq] at h1
    exact hself t1 topn q h2 h1

theorem idxOf_getElem {l : List T} (h : l.Nodup) {i : Nat} (hi : i < l.length) : l.idxOf l[i] = i :=
  List.Nodup.idxOf_getElem h i hi

/-- The ids of a column of the uniform index. -/
theorem uniform_ids (toks : List T) (hnd : toks.Nodup) (value : K) (c topn : Nat) (hc : c < toks.length) :
    byIds toks (uniformSimilar (dictItems toks) value) c topn
      = (((List.range toks.length).filter fun r => decide (r ≠ c)).take topn).map fun r => (r, value) := by
  unfold byIds
  rw [List.getElem?_eq_getElem hc]
  dsimp only
  rw [C121_uniform]
  generalize hx : toks[c] = x
  have h1 : toks = (List.range toks.length).map fun i => toks.getD i x := by
    apply List.ext_getElem
    · simp
    · intro i h1 h2
      simp [List.getD_eq_getElem?_getD, List.getElem?_eq_getElem h1]
  have h2 : toks.filter (fun t => decide (t ≠ x))
      = ((List.range toks.length).filter fun r => decide (r ≠ c)).map fun i => toks.getD i x := by
    have h3 : toks.filter (fun t => decide (t ≠ x))
        = ((List.range toks.length).map fun i => toks.getD i x).filter (fun t => decide (t ≠ x)) :=
      congrArg (List.filter fun t => decide (t ≠ x)) h1
    rw [h3, List.filter_map]
    congr 1
    apply List.filter_congr
    intro i hi
    have hi' := List.mem_range.1 hi
    simp only [Function.comp_apply, List.getD_eq_getElem?_getD, List.getElem?_eq_getElem hi',
      Option.getD_some]
    rw [decide_eq_decide, ← hx]
    exact not_congr (List.Nodup.getElem_inj_iff hnd)
  rw [h2, ← List.map_take, List.map_map, List.filter_map]
  rw [List.filter_eq_self.2, List.map_map]
  · apply List.map_congr_left
    intro i hi
    have hi' := List.mem_range.1 (List.mem_of_mem_filter (List.mem_of_mem_take hi))
    simp only [Function.comp_apply, List.getD_eq_getElem?_getD, List.getElem?_eq_getElem hi',
      Option.getD_some, idxOf_getElem hnd hi']
  · intro i hi
    have hi' := List.mem_range.1 (List.mem_of_mem_filter (List.mem_of_mem_take hi))
    simp [List.getD_eq_getElem?_getD, List.getElem?_eq_getElem hi']

/-- **C121.** Without constraints, a column of the matrix built from the uniform index has the similarity at
exactly the first `nonzero_limit` ids other than its own, and 0 at the others. -/
theorem C121_uniform_matrix [Field K] [LinearOrder K] [IsStrictOrderedRing K] (toks : List T) (hne : toks ≠ [])
    (hnd : toks.Nodup) (value : K) (limit : Nat) (hl : 0 < limit) :
    ∃ E, createSource ⟨List.range toks.length, none, false, false, limit⟩
        (byIds toks (uniformSimilar (dictItems toks) value)) = some E ∧
      ∀ r c, r < toks.length → c < toks.length → r ≠ c →
        cellVal E r c = if (if r < c then r else r - 1) < limit then value else 0 := by
  have hself : ∀ t n p, p ∈ uniformSimilar (dictItems toks) value t n → p.1 ≠ t := by
    intro t n p hp
    rw [C121_uniform] at hp
    obtain ⟨x, hx, rfl⟩ := List.mem_map.1 hp
    have := List.mem_filter.1 (List.mem_of_mem_take hx)
    simpa using this.2
  have hnil : ∀ t topn, ¬ t < toks.length →
      byIds toks (uniformSimilar (dictItems toks) value) t topn = [] := by
    intro t topn h
    unfold byIds
    rw [List.getElem?_eq_none (Nat.le_of_not_lt h)]
  obtain ⟨E, h1, h2⟩ := C56_plain_columns ⟨List.range toks.length, none, false, false, limit⟩ _
    (C121_fits toks (uniformSimilar (dictItems toks) value) hne hnd hself false false limit) rfl rfl hl
    (by
      intro t topn
      by_cases ht : t < toks.length
      · rw [uniform_ids toks hnd value t topn ht, List.length_map, List.length_take]
        omega
      · rw [hnil t topn ht]
        exact Nat.zero_le _)
    (by
      intro t topn
      by_cases ht : t < toks.length
      · rw [uniform_ids toks hnd value t topn ht, List.map_map]
        have : ((fun p : Nat × K => p.1) ∘ fun r => (r, value)) = id := rfl
        rw [this, List.map_id]
        exact List.Nodup.sublist (List.take_sublist _ _) (List.Nodup.filter _ List.nodup_range)
      · rw [hnil t topn ht]
        exact List.nodup_nil)
  refine ⟨E, h1, ?_⟩
  intro r c hr hc hrc
  rw [h2 r c (by simpa using hc) hrc, uniform_ids toks hnd value c _ hc]
  have hlook : ∀ l : List Nat, (l.map fun r => (r, value)).lookup r = if r ∈ l then some value else none := by
    intro l
    induction l with
    | nil => rfl
    | cons a l ih =>
      rw [List.map_cons, List.lookup_cons, ih]
      by_cases h : r = a
      · subst h; simp
      · have hb : (r == a) = false := beq_false_of_ne h
        simp [h, hb]
  rw [hlook]
  have hmem : r ∈ ((List.range toks.length).filter fun r => decide (r ≠ c)).take limit
      ↔ (if r < c then r else r - 1) < limit := by
    have heq : (List.range toks.length).filter (fun r => decide (r ≠ c))
        = (List.range (toks.length - 1)).map fun i => if i < c then i else i + 1 := by
      have hp : ((List.range toks.length).filter fun r => decide (r ≠ c)).Perm
          ((List.range (toks.length - 1)).map fun i => if i < c then i else i + 1) := by
        rw [List.perm_ext_iff_of_nodup (List.Nodup.filter _ List.nodup_range)]
        · intro a
          simp only [List.mem_filter, List.mem_range, decide_eq_true_eq, List.mem_map]
          constructor
          · rintro ⟨g1, g2⟩
            rcases Nat.lt_or_gt_of_ne g2 with h | h
            · exact ⟨a, by omega, by rw [if_pos h]⟩
            · exact ⟨a - 1, by omega, by rw [if_neg (by omega)]; omega⟩
          · rintro ⟨i, g1, rfl⟩
            split <;> omega
        · refine List.Nodup.map_on ?_ List.nodup_range
          intro x _ y _ h
          split at h <;> split at h <;> omega
      refine List.Perm.eq_of_pairwise (le := (· < ·)) ?_ ?_ ?_ hp
      · intro a b _ _ h1 h2
        exact absurd h1 (by omega)
      · exact List.Pairwise.filter _ List.pairwise_lt_range
      · rw [List.pairwise_map]
        refine List.Pairwise.imp ?_ List.pairwise_lt_range
        intro a b h
        split <;> split <;> omega
    rw [heq, ← List.map_take, List.take_range, List.mem_map]
    constructor
    · rintro ⟨i, g1, g2⟩
      rw [List.mem_range] at g1
      split at g2 <;> split <;> omega
    · intro h
      refine ⟨if r < c then r else r - 1, List.mem_range.2 ?_, ?_⟩
      · split at h <;> split <;> omega
      · by_cases hlt : r < c
        · rw [if_pos hlt, if_pos hlt]
        · rw [if_neg hlt, if_neg (by omega)]; omega
  by_cases h : (if r < c then r else r - 1) < limit
  · rw [if_pos h, if_pos (hmem.2 h)]; rfl
  · rw [if_neg h, if_neg (fun hm => h (hmem.1 hm))]; rfl

/-- **C121, finding.** The limit counts terms that are not in the dictionary: a column can stay empty
although the index knows related terms of the dictionary. -/
theorem C121_limit_outside :
    ∃ (toks : List Nat) (ms : Nat → Nat → List (Nat × ℚ)),
      (∀ t n, (ms t n).length ≤ n) ∧ (5, 1 / 2) ∈ ms 4 2 ∧ 5 ∈ toks ∧
      (createSource ⟨List.range toks.length, none, true, false, 1⟩ (byIds toks ms)).map
        (fun E => cellVal E 1 0) = some 0 := by
  refine ⟨[4, 5], fun t n => if t = 4 then ([(9, 9 / 10), (5, 1 / 2)] : List (Nat × ℚ)).take n else [], ?_,
    by simp, by decide, by decide +kernel⟩
  intro t n
  dsimp only
  split
  · rw [List.length_take]; omega
  · exact Nat.zero_le _

example : uniformSimilar (dictItems ["a", "b", "c"]) (1 : Nat) "b" 5 = [("a", 1), ("c", 1)] := by decide

end Verif.Termsim
