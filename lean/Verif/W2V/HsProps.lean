import Verif.W2V.HsModel
import Verif.W2V.StepProps
import Verif.W2V.CbowProps
import Verif.W2V.HuffmanProps

/-!
# C145: hierarchical softmax is a distribution over the vocabulary, and scores are its log probabilities
-/

namespace Verif.W2V.Hs

open scoped InnerProductSpace
open Verif.W2V.Step Verif.W2V

variable {E : Type} [NormedAddCommGroup E] [InnerProductSpace ℝ E] {τ : Type} [DecidableEq τ]

/-! ## Specification -/

/-- The probability of a word given the input `h`: the product over the inner nodes on the way to the word of the
probability of the turn taken there, which is the logistic function of the inner product, or of its negative. -/
noncomputable def wordProb (h : E) (v : ℕ → E) (path : List (ℕ × Bool)) : ℝ :=
  (path.map fun pc => sigm (if pc.2 then -⟪h, v pc.1⟫_ℝ else ⟪h, v pc.1⟫_ℝ)).prod

/-- No inner product on the path reaches 6 in absolute value. -/
def Calm (h : E) (v : ℕ → E) (path : List (ℕ × Bool)) : Prop := ∀ pc ∈ path, |⟪h, v pc.1⟫_ℝ| < 6

/-- The positions in the window around `i` in a sentence of `n` words. -/
def near (window n i : ℕ) : List ℕ :=
  (List.range n).filter fun j => decide (j ≠ i ∧ j ≤ i + window ∧ i ≤ j + window)

/-- The words in the window. -/
def around (window : ℕ) (indexes : List ℕ) (i : ℕ) : List ℕ :=
  (near window indexes.length i).map fun j => indexes.getD j 0

/-! ## The distribution -/

theorem wordProb_pos (h : E) (v : ℕ → E) (path : List (ℕ × Bool)) : 0 < wordProb h v path := by
  unfold wordProb
  apply List.prod_pos
  intro x hx
  obtain ⟨pc, _, rfl⟩ := List.mem_map.1 hx
  exact sigm_pos _

theorem wordProb_cons (h : E) (v : ℕ → E) (pc : ℕ × Bool) (path : List (ℕ × Bool)) :
    wordProb h v (pc :: path) = sigm (if pc.2 then -⟪h, v pc.1⟫_ℝ else ⟪h, v pc.1⟫_ℝ) * wordProb h v path := by
  simp [wordProb]

theorem wordProb_le_one (h : E) (v : ℕ → E) (path : List (ℕ × Bool)) : wordProb h v path ≤ 1 := by
  induction path with
  | nil => simp [wordProb]
  | cons pc path ih =>
    rw [wordProb_cons]
    have h1 := sigm_pos (if pc.2 then -⟪h, v pc.1⟫_ℝ else ⟪h, v pc.1⟫_ℝ)
    have h2 := sigm_lt_one (if pc.2 then -⟪h, v pc.1⟫_ℝ else ⟪h, v pc.1⟫_ℝ)
    have h3 := wordProb_pos h v path
    nlinarith

theorem paths_prob (h : E) (v : ℕ → E) (n : ℕ) (t : HTree) :
    ((paths n t).map fun e => wordProb h v (e.2.2.zip e.2.1)).sum = 1 := by
  induction t with
  | leaf c k => simp [paths, wordProb]
  | node c i l r ihl ihr =>
    have e1 : ∀ b (l : List Entry), (l.map (push b (i - n))).map (fun e => wordProb h v (e.2.2.zip e.2.1)) =
        l.map fun e => sigm (if b then -⟪h, v (i - n)⟫_ℝ else ⟪h, v (i - n)⟫_ℝ) * wordProb h v (e.2.2.zip e.2.1) := by
      intro b l
      rw [List.map_map]
      apply List.map_congr_left
      intro e _
      simp only [Function.comp, push, List.zip_cons_cons, wordProb_cons]
    rw [paths, List.map_append, List.sum_append, e1, e1, List.sum_map_mul_left, List.sum_map_mul_left, ihl, ihr]
    simp only [if_true, if_neg Bool.false_ne_true, mul_one]
    rw [sigm_neg]
    ring

/-- the codes come from a tree -/
theorem codes_tree (counts : List Nat) (hne : counts ≠ []) (heap : List HTree)
    (b : HBuild counts.length 0 (leaves counts) heap) :
    ∃ t, assignCodes counts.length heap = some (paths counts.length t) := by
  have hn : 0 < counts.length := List.length_pos_of_ne_nil hne
  have hinv := hbuild_inv b (hInv_init counts) (by omega)
  obtain ⟨hlen, hleaf, hinner, hroot⟩ := hinv
  have hl1 : heap.length = 1 := by clear hroot; omega
  obtain ⟨t, rfl⟩ := List.length_eq_one_iff.mp hl1
  simp only [List.flatMap_cons, List.flatMap_nil, List.append_nil] at hleaf hinner
  have hok : TOk counts.length t := by
    constructor
    · intro k hk; exact List.mem_range.mp (hleaf.mem_iff.mp hk)
    · intro k hk
      have := hinner.mem_iff.mp hk
      simp only [List.mem_range'_1] at this
      exact this.1
  have hsize : tsize t ≤ 2 * counts.length := by
    rw [tsize_eq, hleaf.length_eq, hinner.length_eq]; simp; omega
  refine ⟨t, ?_⟩
  show assignLoop counts.length (2 * counts.length) [(t, [], [])] = _
  rw [assignLoop_eq _ _ _ (by intro x hx; rw [List.mem_singleton] at hx; subst hx; exact hok) (by simpa using hsize)]
  have : extend [] [] = id := by funext e; simp [extend]
  simp [this]

theorem pathOf_mem {out : List (Nat × List Bool × List Nat)} (hn : (out.map Prod.fst).Nodup)
    {e : Nat × List Bool × List Nat} (he : e ∈ out) : pathOf out e.1 = e.2.2.zip e.2.1 := by
  unfold pathOf
  have : out.find? (fun x => x.1 == e.1) = some e := by
    induction out with
    | nil => exact absurd he (by simp)
    | cons x out ih =>
      rw [List.map_cons, List.nodup_cons] at hn
      rcases List.mem_cons.1 he with rfl | he
      · simp
      · rw [List.find?_cons_of_neg, ih hn.2 he]
        simp only [beq_iff_eq]
        intro hx
        exact hn.1 (hx ▸ List.mem_map.2 ⟨e, he, rfl⟩)
  rw [this]

/-- **C145.** Whatever the vectors are, the probabilities of the words of a vocabulary given an input are positive and
add up to one, with the codes the program assigns, for every way of breaking ties. -/
theorem C145_distribution (counts : List Nat) (hne : counts ≠ []) (heap : List HTree)
    (b : HBuild counts.length 0 (leaves counts) heap) :
    ∃ out, assignCodes counts.length heap = some out ∧
      ∀ (h : E) (v : ℕ → E), (∀ w, 0 < wordProb h v (pathOf out w)) ∧
        ((List.range counts.length).map fun w => wordProb h v (pathOf out w)).sum = 1 := by
  obtain ⟨out, h1, h2, h3, -⟩ := C30_codes counts hne heap b
  refine ⟨out, h1, fun h v => ⟨fun w => wordProb_pos _ _ _, ?_⟩⟩
  have hnd : (out.map Prod.fst).Nodup := h3.nodup_iff.2 List.nodup_range
  rw [← (h3.map fun w => wordProb h v (pathOf out w)).sum_eq, List.map_map]
  have : out.map ((fun w => wordProb h v (pathOf out w)) ∘ Prod.fst) =
      out.map fun e => wordProb h v (e.2.2.zip e.2.1) := by
    apply List.map_congr_left
    intro e he
    simp only [Function.comp]
    rw [pathOf_mem hnd he]
  rw [this]
  obtain ⟨t, ht⟩ := codes_tree counts hne heap b
  rw [h1] at ht
  rw [Option.some.inj ht]
  exact paths_prob h v _ t

/-! ## Scores -/

/-- what a bit adds to the score -/
noncomputable def bitScore (S : Sig) (f : ℝ) : ℝ := if f ≤ -6 ∨ 6 ≤ f then 0 else S.logsig f

/-- the argument of the logistic function -/
noncomputable def arg (h : E) (v : ℕ → E) (pc : ℕ × Bool) : ℝ := ⟪h, v pc.1⟫_ℝ * (if pc.2 then -1 else 1)

theorem scorePath_sum (S : Sig) (h : E) (v : ℕ → E) (path : List (ℕ × Bool)) (acc : ℝ) :
    scorePath S h v path acc = acc + (path.map fun pc => bitScore S (arg h v pc)).sum := by
  unfold scorePath
  induction path generalizing acc with
  | nil => simp
  | cons pc path ih =>
    rw [List.foldl_cons, ih, List.map_cons, List.sum_cons]
    have : (if arg h v pc ≤ -6 ∨ 6 ≤ arg h v pc then acc else acc + S.logsig (arg h v pc)) = acc + bitScore S (arg h v pc) := by
      unfold bitScore
      by_cases hs : arg h v pc ≤ -6 ∨ 6 ≤ arg h v pc
      · rw [if_pos hs, if_pos hs, add_zero]
      · rw [if_neg hs, if_neg hs]
    rw [← add_assoc, ← this]
    rfl

theorem log_wordProb (h : E) (v : ℕ → E) (path : List (ℕ × Bool)) :
    Real.log (wordProb h v path) = (path.map fun pc => Real.log (sigm (arg h v pc))).sum := by
  induction path with
  | nil => simp [wordProb]
  | cons pc path ih =>
    rw [wordProb_cons, Real.log_mul (sigm_pos _).ne' (wordProb_pos _ _ _).ne', ih, List.map_cons, List.sum_cons]
    congr 3
    unfold arg
    cases pc.2 <;> simp

theorem bitScore_calm {f : ℝ} (hf : |f| < 6) : bitScore exact f = Real.log (sigm f) := by
  have := abs_lt.1 hf
  unfold bitScore exact
  rw [if_neg (by rintro (h | h) <;> linarith)]

theorem abs_arg (h : E) (v : ℕ → E) (pc : ℕ × Bool) : |arg h v pc| = |⟪h, v pc.1⟫_ℝ| := by
  unfold arg
  cases pc.2 <;> simp

theorem score_calm {h : E} {v : ℕ → E} {path : List (ℕ × Bool)} (hc : Calm h v path) :
    (path.map fun pc => bitScore exact (arg h v pc)).sum = Real.log (wordProb h v path) := by
  rw [log_wordProb]
  congr 1
  apply List.map_congr_left
  intro pc hpc
  exact bitScore_calm (by rw [abs_arg]; exact hc pc hpc)

theorem sum_nonpos' (l : List ℝ) (h : ∀ x ∈ l, x ≤ 0) : l.sum ≤ 0 := by
  induction l with
  | nil => simp
  | cons x l ih =>
    rw [List.sum_cons]
    have := h x List.mem_cons_self
    have := ih fun y hy => h y (List.mem_cons_of_mem _ hy)
    linarith

theorem log_sigm_neg (x : ℝ) : Real.log (sigm x) < 0 := Real.log_neg (sigm_pos x) (sigm_lt_one x)

theorem bitScore_nonpos (S : Sig) (hS : ∀ f, |f| < 6 → S.logsig f ≤ 0) (f : ℝ) : bitScore S f ≤ 0 := by
  unfold bitScore
  split
  · exact le_refl _
  · rename_i hn
    rw [not_or, not_le, not_le] at hn
    exact hS f (abs_lt.2 hn)

theorem le_bitScore (f : ℝ) : Real.log (sigm f) ≤ bitScore exact f := by
  unfold bitScore
  split
  · exact (log_sigm_neg f).le
  · exact le_refl _

/-- the score of a sentence by CBOW as a sum over its positions -/
theorem scoreCbow_sum (S : Sig) (mean : Bool) (junk : ℝ) (path : ℕ → List (ℕ × Bool)) (window : ℕ) (indexes : List ℕ)
    (syn0 syn1 : ℕ → E) (hp : ∀ w ∈ indexes, path w ≠ []) :
    scoreCbow S mean junk path window indexes syn0 syn1 = ((List.range indexes.length).map fun i =>
      ((path (indexes.getD i 0)).map fun pc =>
        bitScore S (arg (bag mean (around window indexes i) syn0) syn1 pc)).sum).sum := by
  unfold scoreCbow
  have hget : ∀ i < indexes.length, path (indexes.getD i 0) ≠ [] := by
    intro i hi
    apply hp
    rw [List.getD_eq_getElem?_getD, List.getElem?_eq_getElem hi]
    exact List.getElem_mem hi
  have step : ∀ (is : List ℕ) (acc : ℝ), (∀ i ∈ is, i < indexes.length) →
      is.foldl (fun acc i =>
        if (path (indexes.getD i 0)).length = 0 then acc
        else
          let ctx := ((context window (fun _ => 0) 0 indexes.length i).map fun j => indexes.getD j 0).filter
            fun w => decide ((path w).length ≠ 0)
          scorePath S (scoreInput mean junk ctx syn0) syn1 (path (indexes.getD i 0)) acc) acc =
      acc + (is.map fun i => ((path (indexes.getD i 0)).map fun pc =>
        bitScore S (arg (bag mean (around window indexes i) syn0) syn1 pc)).sum).sum := by
    intro is
    induction is with
    | nil => intro acc _; simp
    | cons i is ih =>
      intro acc his
      have hi := his i List.mem_cons_self
      rw [List.foldl_cons, ih _ fun j hj => his j (List.mem_cons_of_mem _ hj)]
      rw [if_neg (by simpa using hget i hi)]
      dsimp only
      rw [full_context window indexes.length i hi]
      have hf : (((List.range indexes.length).filter fun j =>
          decide (j ≠ i ∧ j ≤ i + window ∧ i ≤ j + window)).map fun j => indexes.getD j 0).filter
            (fun w => decide ((path w).length ≠ 0)) = around window indexes i := by
        rw [List.filter_eq_self.2]
        · rfl
        · intro w hw
          obtain ⟨j, hj, rfl⟩ := List.mem_map.1 hw
          have := hget j (List.mem_range.1 (List.mem_filter.1 hj).1)
          simpa using this
      rw [hf]
      have hin : scoreInput mean junk (around window indexes i) syn0 = bag mean (around window indexes i) syn0 := by
        unfold scoreInput bag
        dsimp only
        rw [foldl_sum, zero_add]
        by_cases hl : 0 < (around window indexes i).length
        · rw [if_pos hl]
        · rw [List.length_eq_zero_iff.1 (Nat.eq_zero_of_not_pos hl)]
          simp
      rw [hin, scorePath_sum, List.map_cons, List.sum_cons]
      ring
  rw [step _ _ (fun i hi => List.mem_range.1 hi), zero_add]

/-- **C145.** The score of a sentence by a CBOW model is the sum, over its words, of the log probability of the word given
the mean (or the sum) of the vectors of all the words in its window, if no inner product is as large as 6.  With no other
word in the window the mean is taken as zero, whatever is in the memory of the divisor. -/
theorem C145_score_cbow (mean : Bool) (junk : ℝ) (path : ℕ → List (ℕ × Bool)) (window : ℕ) (indexes : List ℕ)
    (syn0 syn1 : ℕ → E) (hp : ∀ w ∈ indexes, path w ≠ [])
    (hc : ∀ i < indexes.length, Calm (bag mean (around window indexes i) syn0) syn1 (path (indexes.getD i 0))) :
    scoreCbow exact mean junk path window indexes syn0 syn1 = ((List.range indexes.length).map fun i =>
      Real.log (wordProb (bag mean (around window indexes i) syn0) syn1 (path (indexes.getD i 0)))).sum := by
  rw [scoreCbow_sum _ _ _ _ _ _ _ _ hp]
  congr 1
  apply List.map_congr_left
  intro i hi
  exact score_calm (hc i (List.mem_range.1 hi))

/-- the score of a sentence by skip-gram as a sum over pairs of positions -/
theorem scoreSg_sum (S : Sig) (path : ℕ → List (ℕ × Bool)) (window : ℕ) (indexes : List ℕ)
    (syn0 syn1 : ℕ → E) (hp : ∀ w ∈ indexes, path w ≠ []) :
    scoreSg S path window indexes syn0 syn1 = ((List.range indexes.length).map fun i =>
      ((around window indexes i).map fun w => ((path (indexes.getD i 0)).map fun pc =>
        bitScore S (arg (syn0 w) syn1 pc)).sum).sum).sum := by
  unfold scoreSg
  have hget : ∀ i < indexes.length, path (indexes.getD i 0) ≠ [] := by
    intro i hi
    apply hp
    rw [List.getD_eq_getElem?_getD, List.getElem?_eq_getElem hi]
    exact List.getElem_mem hi
  have inner : ∀ (i : ℕ) (js : List ℕ) (acc : ℝ), (∀ j ∈ js, j < indexes.length) →
      js.foldl (fun acc j => if (path (indexes.getD j 0)).length = 0 then acc
        else scorePath S (syn0 (indexes.getD j 0)) syn1 (path (indexes.getD i 0)) acc) acc
      = acc + ((js.map fun j => indexes.getD j 0).map fun w => ((path (indexes.getD i 0)).map fun pc =>
        bitScore S (arg (syn0 w) syn1 pc)).sum).sum := by
    intro i js
    induction js with
    | nil => intro acc _; simp
    | cons j js ih =>
      intro acc hjs
      rw [List.foldl_cons, ih _ fun j hj => hjs j (List.mem_cons_of_mem _ hj),
        if_neg (by simpa using hget j (hjs j List.mem_cons_self)), scorePath_sum, List.map_cons, List.map_cons, List.sum_cons]
      ring
  have step : ∀ (is : List ℕ) (acc : ℝ), (∀ i ∈ is, i < indexes.length) →
      is.foldl (fun acc i =>
        if (path (indexes.getD i 0)).length = 0 then acc
        else (context window (fun _ => 0) 0 indexes.length i).foldl (fun acc j =>
          if (path (indexes.getD j 0)).length = 0 then acc
          else scorePath S (syn0 (indexes.getD j 0)) syn1 (path (indexes.getD i 0)) acc) acc) acc =
      acc + (is.map fun i => ((around window indexes i).map fun w => ((path (indexes.getD i 0)).map fun pc =>
        bitScore S (arg (syn0 w) syn1 pc)).sum).sum).sum := by
    intro is
    induction is with
    | nil => intro acc _; simp
    | cons i is ih =>
      intro acc his
      have hi := his i List.mem_cons_self
      rw [List.foldl_cons, ih _ fun j hj => his j (List.mem_cons_of_mem _ hj), if_neg (by simpa using hget i hi),
        full_context window indexes.length i hi,
        inner i _ _ (fun j hj => List.mem_range.1 (List.mem_filter.1 hj).1), List.map_cons, List.sum_cons]
      unfold around near
      ring
  rw [step _ _ (fun i hi => List.mem_range.1 hi), zero_add]

/-- **C145.** The score of a sentence by a skip-gram model is the sum, over its words and the words in their windows, of the
log probability of the one given the vector of the other. -/
theorem C145_score_sg (path : ℕ → List (ℕ × Bool)) (window : ℕ) (indexes : List ℕ) (syn0 syn1 : ℕ → E)
    (hp : ∀ w ∈ indexes, path w ≠ [])
    (hc : ∀ i < indexes.length, ∀ w ∈ around window indexes i, Calm (syn0 w) syn1 (path (indexes.getD i 0))) :
    scoreSg exact path window indexes syn0 syn1 = ((List.range indexes.length).map fun i =>
      ((around window indexes i).map fun w => Real.log (wordProb (syn0 w) syn1 (path (indexes.getD i 0)))).sum).sum := by
  rw [scoreSg_sum _ _ _ _ _ _ hp]
  congr 1
  apply List.map_congr_left
  intro i hi
  congr 1
  apply List.map_congr_left
  intro w hw
  exact score_calm (hc i (List.mem_range.1 hi) w hw)

/-- **C145.** A sentence of one known word scores its code length times the logarithm of one half, by CBOW, and nothing by
skip-gram. -/
theorem C145_score_alone (mean : Bool) (junk : ℝ) (path : ℕ → List (ℕ × Bool)) (window w : ℕ) (syn0 syn1 : ℕ → E) :
    scoreCbow exact mean junk path window [w] syn0 syn1 = (path w).length * Real.log (1 / 2) ∧
      scoreSg exact path window [w] syn0 syn1 = 0 := by
  by_cases hp : path w = []
  · constructor
    · simp [scoreCbow, hp]
    · simp [scoreSg, hp]
  have hp' : ∀ x ∈ [w], path x ≠ [] := by simpa using hp
  have ha : around window [w] 0 = [] := by
    simp [around, near]
  constructor
  · rw [scoreCbow_sum _ _ _ _ _ _ _ _ hp']
    have hb : bag mean (around window [w] 0) syn0 = 0 := by
      rw [ha]; simp [bag]
    simp only [List.length_singleton, List.range_one, List.map_cons, List.map_nil, List.sum_cons, List.sum_nil, add_zero]
    rw [hb]
    have : ∀ pc : ℕ × Bool, bitScore exact (arg (0 : E) syn1 pc) = Real.log (1 / 2) := by
      intro pc
      rw [bitScore_calm (by rw [abs_arg]; simp)]
      simp [arg, sigm]
      norm_num
    simp [this]
  · rw [scoreSg_sum _ _ _ _ _ _ hp']
    simp [ha]

/-- **C145.** Words the model does not know are skipped, as if the sentence did not contain them; of a long sentence only
the first 10000 known words count. -/
theorem C145_known (S : Sig) (sg mean : Bool) (junk : ℝ) (k2i : PyDict τ Nat) (out : List (Nat × List Bool × List Nat))
    (window : ℕ) (syn0 syn1 : ℕ → E) (sentence rest : List τ) :
    score S sg mean junk k2i out window syn0 syn1 sentence =
        score S sg mean junk k2i out window syn0 syn1 (sentence.filter fun w => decide (w ∈ PyDict.keys k2i)) ∧
      ((∀ w ∈ sentence, w ∈ PyDict.keys k2i) → sentence.length = 10000 →
        score S sg mean junk k2i out window syn0 syn1 (sentence ++ rest) =
          score S sg mean junk k2i out window syn0 syn1 sentence) := by
  constructor
  · have : known k2i sentence = known k2i (sentence.filter fun w => decide (w ∈ PyDict.keys k2i)) := by
      unfold known
      congr 1
      induction sentence with
      | nil => rfl
      | cons w sentence ih =>
        by_cases hw : w ∈ PyDict.keys k2i
        · rw [List.filter_cons_of_pos (by simpa using hw), List.filterMap_cons, List.filterMap_cons, ih]
        · rw [List.filter_cons_of_neg (by simpa using hw), List.filterMap_cons,
            (PyDict.get?_eq_none_iff k2i w).2 hw, ih]
    unfold score
    rw [← this]
  · intro hk hl
    have hlen : ∀ l : List τ, (∀ w ∈ l, w ∈ PyDict.keys k2i) → (l.filterMap fun w => PyDict.get? k2i w).length = l.length := by
      intro l
      induction l with
      | nil => intro _; rfl
      | cons w l ih =>
        intro h
        obtain ⟨i, hi⟩ := Option.isSome_iff_exists.1 ((PyDict.get?_isSome_iff k2i w).2 (h w (by simp)))
        rw [List.filterMap_cons, hi, List.length_cons, List.length_cons, ih fun x hx => h x (by simp [hx])]
    have : known k2i (sentence ++ rest) = known k2i sentence := by
      unfold known
      rw [List.filterMap_append, List.take_append_of_le_length (by rw [hlen _ hk]; omega)]
    unfold score
    rw [this]

/-- **C145.** All of the first 10000 known words count: a sentence of at most 10000 known words is scored by the indexes
of all its words. -/
theorem C145_all_count (S : Sig) (sg mean : Bool) (junk : ℝ) (k2i : PyDict τ Nat) (out : List (Nat × List Bool × List Nat))
    (window : ℕ) (syn0 syn1 : ℕ → E) (sentence : List τ) (indexes : List ℕ)
    (hk : List.Forall₂ (fun w i => PyDict.get? k2i w = some i) sentence indexes) (hl : sentence.length ≤ 10000) :
    score S sg mean junk k2i out window syn0 syn1 sentence =
      if sg then scoreSg S (pathOf out) window indexes syn0 syn1
      else scoreCbow S mean junk (pathOf out) window indexes syn0 syn1 := by
  have h1 : (sentence.filterMap fun w => PyDict.get? k2i w) = indexes := by
    clear hl
    induction hk with
    | nil => rfl
    | cons h _ ih => rw [List.filterMap_cons, h, ih]
  have h2 : known k2i sentence = indexes := by
    unfold known
    rw [h1, List.take_of_length_le]
    rw [← hk.length_eq]; exact hl
  unfold score
  rw [h2]

/-- **C145.** With a vocabulary of a single word every score is zero. -/
theorem C145_single (S : Sig) (sg mean : Bool) (junk : ℝ) (k2i : PyDict τ Nat) (c window : ℕ) (syn0 syn1 : ℕ → E)
    (sentence : List τ) :
    ∃ out, assignCodes 1 (leaves [c]) = some out ∧ score S sg mean junk k2i out window syn0 syn1 sentence = 0 := by
  refine ⟨[(0, [], [])], by simp [leaves, assignCodes, assignLoop, HTree.index], ?_⟩
  have hp : ∀ w, pathOf [(0, [], [])] w = [] := by
    intro w
    unfold pathOf
    by_cases hw : w = 0
    · subst hw; rfl
    · rw [List.find?_cons_of_neg (by simpa using fun h => hw h.symm)]
      rfl
  unfold score
  cases sg
  · simp [scoreCbow, hp]
  · simp [scoreSg, hp]

/-! ## Saturation and tables -/

/-- **C145.** Scores are never positive, with exact arithmetic as with the tables. -/
theorem C145_nonpos (S : Sig) (hS : S = exact ∨ ∃ scale, S = tables scale) (mean : Bool) (junk : ℝ)
    (path : ℕ → List (ℕ × Bool)) (window : ℕ) (indexes : List ℕ) (syn0 syn1 : ℕ → E) (hp : ∀ w ∈ indexes, path w ≠ []) :
    scoreCbow S mean junk path window indexes syn0 syn1 ≤ 0 ∧ scoreSg S path window indexes syn0 syn1 ≤ 0 := by
  have h0 : ∀ f, S.logsig f ≤ 0 := by
    rcases hS with rfl | ⟨scale, rfl⟩
    · intro f; exact (log_sigm_neg f).le
    · intro f
      show Real.log (expTable _) ≤ 0
      rw [expTable_eq]
      exact (log_sigm_neg _).le
  have h1 : ∀ (h : E) (l : List (ℕ × Bool)), (l.map fun pc => bitScore S (arg h syn1 pc)).sum ≤ 0 := by
    intro h l
    apply sum_nonpos'
    intro x hx
    obtain ⟨pc, _, rfl⟩ := List.mem_map.1 hx
    exact bitScore_nonpos S (fun f _ => h0 f) _
  constructor
  · rw [scoreCbow_sum _ _ _ _ _ _ _ _ hp]
    apply sum_nonpos'
    intro x hx
    obtain ⟨i, _, rfl⟩ := List.mem_map.1 hx
    exact h1 _ _
  · rw [scoreSg_sum _ _ _ _ _ _ hp]
    apply sum_nonpos'
    intro x hx
    obtain ⟨i, _, rfl⟩ := List.mem_map.1 hx
    apply sum_nonpos'
    intro x hx
    obtain ⟨w, _, rfl⟩ := List.mem_map.1 hx
    exact h1 _ _

theorem scorePath_ge (h : E) (v : ℕ → E) (path : List (ℕ × Bool)) :
    Real.log (wordProb h v path) ≤ scorePath exact h v path 0 := by
  rw [scorePath_sum, zero_add, log_wordProb]
  exact List.sum_le_sum fun pc _ => le_bitScore _

/-- **C145, finding.** In general the score of a word given an input only bounds its log probability from above, since
inner products of 6 and more are left out: the exponentials of the scores of all words add up to one or more. -/
theorem C145_overstates (counts : List Nat) (hne : counts ≠ []) (heap : List HTree)
    (b : HBuild counts.length 0 (leaves counts) heap) (h : E) (v : ℕ → E) :
    ∃ out, assignCodes counts.length heap = some out ∧
      (∀ w, Real.log (wordProb h v (pathOf out w)) ≤ scorePath exact h v (pathOf out w) 0) ∧
      1 ≤ ((List.range counts.length).map fun w => Real.exp (scorePath exact h v (pathOf out w) 0)).sum := by
  obtain ⟨out, h1, h2⟩ := C145_distribution (E := E) counts hne heap b
  refine ⟨out, h1, fun w => scorePath_ge _ _ _, ?_⟩
  rw [← (h2 h v).2]
  apply List.sum_le_sum
  intro w _
  rw [← Real.log_le_iff_le_exp (wordProb_pos _ _ _)]
  exact scorePath_ge _ _ _

/-- **C145, finding.** Words that are as improbable as one likes get the best score there is, whatever the tables are: a
less probable word can score higher than a more probable one. -/
theorem C145_saturated (S : Sig) (M : ℝ) : ∃ (h : ℝ) (v : ℕ → ℝ),
    Real.log (wordProb h v [(0, true)]) ≤ -M ∧ scorePath S h v [(0, true)] 0 = 0 := by
  refine ⟨1, fun _ => max 6 M, ?_, ?_⟩
  · rw [log_wordProb]
    have ha : arg (1 : ℝ) (fun _ => max 6 M) (0, true) = -max 6 M := by simp [arg]
    simp only [List.map_cons, List.map_nil, List.sum_cons, List.sum_nil, add_zero, ha]
    have h1 : sigm (-max 6 M) ≤ Real.exp (-max 6 M) := by
      unfold sigm
      rw [neg_neg, Real.exp_neg, div_le_iff₀ (by positivity)]
      have := Real.exp_pos (max 6 M)
      field_simp
      linarith
    calc Real.log (sigm (-max 6 M)) ≤ Real.log (Real.exp (-max 6 M)) := Real.log_le_log (sigm_pos _) h1
      _ = -max 6 M := Real.log_exp _
      _ ≤ -M := neg_le_neg (le_max_right _ _)
  · rw [scorePath_sum]
    have ha : arg (1 : ℝ) (fun _ => max 6 M) (0, true) = -max 6 M := by simp [arg]
    simp only [List.map_cons, List.map_nil, List.sum_cons, List.sum_nil, add_zero, ha, zero_add]
    unfold bitScore
    rw [if_pos (Or.inl (neg_le_neg (le_max_left _ _)))]

theorem log_sigm_lipschitz (x y : ℝ) : |Real.log (sigm x) - Real.log (sigm y)| ≤ |x - y| := by
  have key : ∀ x y : ℝ, x ≤ y → Real.log (sigm x) ≤ Real.log (sigm y) ∧
      Real.log (sigm y) ≤ Real.log (sigm x) + (y - x) := by
    intro x y hxy
    have e1 : Real.exp (-y) ≤ Real.exp (-x) := Real.exp_le_exp.2 (by linarith)
    have p1 := Real.exp_pos (-y)
    have p2 := Real.exp_pos (-x)
    constructor
    · apply Real.log_le_log (sigm_pos x)
      unfold sigm
      exact one_div_le_one_div_of_le (by linarith) (by linarith)
    · rw [← Real.log_exp (y - x), ← Real.log_mul (sigm_pos x).ne' (Real.exp_pos _).ne']
      apply Real.log_le_log (sigm_pos y)
      unfold sigm
      have h1 : 1 ≤ Real.exp (y - x) := Real.one_le_exp (by linarith)
      have h2 : Real.exp (y - x) * Real.exp (-y) = Real.exp (-x) := by
        rw [← Real.exp_add]; congr 1; ring
      rw [div_mul_eq_mul_div, one_mul, div_le_div_iff₀ (by linarith) (by linarith)]
      nlinarith
  rcases le_total x y with h | h
  · obtain ⟨h1, h2⟩ := key x y h
    rw [abs_sub_comm, abs_of_nonneg (by linarith), abs_sub_comm, abs_of_nonneg (by linarith)]
    linarith
  · obtain ⟨h1, h2⟩ := key y x h
    rw [abs_of_nonneg (by linarith), abs_of_nonneg (by linarith)]
    linarith

theorem logsig_error (scale e f : ℝ) (h : (scale = 83 ∧ e = 3 / 50) ∨ (scale = 250 / 3 ∧ e = 3 / 250)) (hf : |f| < 6) :
    |(tables scale).logsig f - Real.log (sigm f)| ≤ e := by
  have hf' := abs_lt.1 hf
  show |Real.log (expTable (tableIndex scale f)) - _| ≤ e
  rw [expTable_eq]
  refine le_trans (log_sigm_lipschitz _ _) ?_
  unfold tableIndex
  have hpos : 0 ≤ (f + 6) * scale := by
    rcases h with ⟨rfl, _⟩ | ⟨rfl, _⟩ <;> nlinarith
  have h1 := Nat.floor_le hpos
  have h2 := Nat.lt_floor_add_one ((f + 6) * scale)
  rw [abs_le]
  rcases h with ⟨rfl, rfl⟩ | ⟨rfl, rfl⟩ <;> constructor <;> linarith

/-- **C145.** The tables change a score by at most 0.06 for every bit of the code of a word and every input it is scored
with (0.012 if the division of the constants is a true division). -/
theorem C145_tables (scale e : ℝ) (h : (scale = 83 ∧ e = 3 / 50) ∨ (scale = 250 / 3 ∧ e = 3 / 250)) (mean : Bool) (junk : ℝ)
    (path : ℕ → List (ℕ × Bool)) (window : ℕ) (indexes : List ℕ) (syn0 syn1 : ℕ → E) (hp : ∀ w ∈ indexes, path w ≠ []) :
    |scoreCbow (tables scale) mean junk path window indexes syn0 syn1
        - scoreCbow exact mean junk path window indexes syn0 syn1|
      ≤ e * ((List.range indexes.length).map fun i => ((path (indexes.getD i 0)).length : ℝ)).sum ∧
    |scoreSg (tables scale) path window indexes syn0 syn1 - scoreSg exact path window indexes syn0 syn1|
      ≤ e * ((List.range indexes.length).map fun i =>
        ((around window indexes i).length * (path (indexes.getD i 0)).length : ℝ)).sum := by
  have he : 0 ≤ e := by rcases h with ⟨_, rfl⟩ | ⟨_, rfl⟩ <;> norm_num
  have hbit : ∀ f, |bitScore (tables scale) f - bitScore exact f| ≤ e := by
    intro f
    unfold bitScore
    split
    · simpa using he
    · rename_i hn
      rw [not_or, not_le, not_le] at hn
      exact logsig_error scale e f h (abs_lt.2 hn)
  have hsum : ∀ {X : Type} (l : List X) (F G : X → ℝ) (B : X → ℝ), (∀ x ∈ l, |F x - G x| ≤ e * B x) →
      |(l.map F).sum - (l.map G).sum| ≤ e * (l.map B).sum := by
    intro X l F G B hFG
    induction l with
    | nil => simp
    | cons x l ih =>
      simp only [List.map_cons, List.sum_cons]
      have a1 := hFG x List.mem_cons_self
      have a2 := ih fun y hy => hFG y (List.mem_cons_of_mem _ hy)
      calc |F x + (l.map F).sum - (G x + (l.map G).sum)| = |(F x - G x) + ((l.map F).sum - (l.map G).sum)| := by
            congr 1; ring
        _ ≤ |F x - G x| + |(l.map F).sum - (l.map G).sum| := abs_add_le _ _
        _ ≤ e * (B x + (l.map B).sum) := by rw [mul_add]; exact add_le_add a1 a2
  have hpath : ∀ (u : E) (l : List (ℕ × Bool)), |(l.map fun pc => bitScore (tables scale) (arg u syn1 pc)).sum
      - (l.map fun pc => bitScore exact (arg u syn1 pc)).sum| ≤ e * (l.length : ℝ) := by
    intro u l
    have := hsum l (fun pc => bitScore (tables scale) (arg u syn1 pc)) (fun pc => bitScore exact (arg u syn1 pc))
      (fun _ => 1) (fun pc _ => by rw [mul_one]; exact hbit _)
    simpa using this
  constructor
  · rw [scoreCbow_sum _ _ _ _ _ _ _ _ hp, scoreCbow_sum _ _ _ _ _ _ _ _ hp]
    exact hsum _ _ _ _ fun i _ => hpath _ _
  · rw [scoreSg_sum _ _ _ _ _ _ hp, scoreSg_sum _ _ _ _ _ _ hp]
    apply hsum
    intro i _
    have := hsum (around window indexes i)
      (fun w => ((path (indexes.getD i 0)).map fun pc => bitScore (tables scale) (arg (syn0 w) syn1 pc)).sum)
      (fun w => ((path (indexes.getD i 0)).map fun pc => bitScore exact (arg (syn0 w) syn1 pc)).sum)
      (fun _ => ((path (indexes.getD i 0)).length : ℝ)) (fun w _ => hpath _ _)
    simpa using this

/-! ## Examples -/

-- three words: the distribution of `C145_distribution` is that of a tree with two inner nodes
example : ∃ out, (∀ (h : ℝ) (v : ℕ → ℝ),
    wordProb h v (pathOf out 0) + wordProb h v (pathOf out 1) + wordProb h v (pathOf out 2) = 1) := by
  obtain ⟨heap, hb⟩ := C30_total [5, 3, 1]
  obtain ⟨out, -, h⟩ := C145_distribution (E := ℝ) [5, 3, 1] (by simp) heap hb
  refine ⟨out, fun x v => ?_⟩
  have := (h x v).2
  simp only [List.length_cons, List.length_nil, zero_add, Nat.reduceAdd, List.range_succ_eq_map, List.range_zero, List.map_cons, List.map_nil,
    List.sum_cons, List.sum_nil, add_zero] at this
  linarith [this]

-- two words with codes of one bit, calm vectors: a sentence of both
example : scoreCbow exact true 0 (fun w => [(0, w == 1)]) 5 [0, 1] (fun _ => (1 : ℝ)) (fun _ => (1 : ℝ)) =
    Real.log (sigm 1) + Real.log (sigm (-1)) := by
  rw [C145_score_cbow _ _ _ _ _ _ _ (by simp)]
  · have h0 : around 5 [0, 1] 0 = [1] := by decide
    have h1 : around 5 [0, 1] 1 = [0] := by decide
    simp [List.range_succ_eq_map, h0, h1, bag, wordProb]
  · intro i hi pc hpc
    have hi' : i = 0 ∨ i = 1 := by simp at hi; omega
    have h0 : around 5 [0, 1] 0 = [1] := by decide
    have h1 : around 5 [0, 1] 1 = [0] := by decide
    rcases hi' with rfl | rfl
    · simp [h0, bag]
    · simp [h1, bag]

end Verif.W2V.Hs
