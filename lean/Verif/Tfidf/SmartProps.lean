import Verif.Tfidf.Props
import Mathlib.Algebra.BigOperators.Group.Finset.Basic
import Mathlib.Analysis.SpecialFunctions.Pow.Real

/-!
# C49: the pivots and the weights of the SMART codes
-/

namespace Verif.Tfidf
open Verif PyDict Matutils

/-- `self.term_lens` (tfidfmodel.py:387): the number of characters of the token of every id -/
def termLens {τ : Type} (len : τ → Nat) (d : Dictionary.Dct τ) : PyDict Nat Nat :=
  d.token2id.map fun p => (p.2, len p.1)

theorem mapOpt_eq_some {α β : Type} (f : α → Option β) (g : α → β) (l : List α) (h : ∀ x ∈ l, f x = some (g x)) :
    Dictionary.mapOpt f l = some (l.map g) := by
  induction l with
  | nil => rfl
  | cons x l ih =>
    unfold Dictionary.mapOpt
    rw [h x List.mem_cons_self, ih fun y hy => h y (List.mem_cons_of_mem _ hy)]
    rfl

/-- **C49** The pivot of the code `u` is the mean number of different terms of a document. -/
theorem C49_pivot_unique {V τ : Type} (wglobal : Nat → Nat → ℝ) (corpus : List (List (Nat × V)))
    (d : Option (Dictionary.Dct τ)) (lens : PyDict Nat Nat) :
    smartPivot 'u' (train wglobal corpus) d lens =
      some (some (((corpus.map fun doc => (doc.length : ℝ)).sum) / corpus.length)) := by
  have : (((corpus.map List.length).sum : Nat) : ℝ) = (corpus.map fun doc => (doc.length : ℝ)).sum := by
    induction corpus with
    | nil => simp
    | cons a l ih => simp [ih]
  simp only [smartPivot, if_true, train, one_mul, this]

/-- **C49** The pivot of the code `b`, for the dictionary of a collection of documents, is the mean number of characters
of a document, a separator after each token included. -/
theorem C49_pivot_bytes {τ : Type} [LinearOrder τ] (wglobal : Nat → Nat → ℝ) (len : τ → Nat) (docs : List (List τ)) :
    ∃ d, Dictionary.addDocuments Dictionary.empty docs none = some d ∧
      smartPivot 'b' (fromDictionary wglobal d) (some d) (termLens len d) =
        some (some ((docs.flatten.map fun w => (len w : ℝ) + 1).sum / docs.length)) := by
  obtain ⟨d, h1, h2, h3, h4, _, _⟩ := Dictionary.C03_statistics_exact docs none (fun k hk => by cases hk)
  refine ⟨d, h1, ?_⟩
  have hinv := (Dictionary.Reachable.addDocuments docs none .empty h1).inv
  have hwl : WF (termLens len d) := by
    have := hinv.nodup
    unfold values at this
    unfold WF keys termLens
    simpa [Function.comp_def] using this
  have hentry : ∀ p ∈ d.token2id, (((getD d.cfs p.2 0 : Nat) : ℝ) * (((getD (termLens len d) p.2 0 : Nat) : ℝ) + 1)) =
      (docs.flatten.count p.1 : ℝ) * ((len p.1 : ℝ) + 1) := by
    intro p hp
    have hg : Dictionary.idOf d p.1 = some p.2 := get?_of_mem hinv.wf hp
    have hk : Dictionary.known d p.1 := by unfold Dictionary.known; rw [hg]; rfl
    have hc := (h3 p.1 hk).2
    unfold Dictionary.cfOf at hc
    rw [hg, Option.bind_some] at hc
    have hl : get? (termLens len d) p.2 = some (len p.1) :=
      get?_of_mem hwl (List.mem_map.2 ⟨p, hp, rfl⟩)
    have hcount : docs.flatten.count p.1 = Dictionary.collFreq docs p.1 := by
      unfold Dictionary.collFreq
      rw [List.count_flatten]
    rw [getD, hc, getD, hl, hcount]
    rfl
  have hsum : ((values d.token2id).map fun i => ((getD d.cfs i 0 : Nat) : ℝ) * (((getD (termLens len d) i 0 : Nat) : ℝ) + 1)).sum =
      (docs.flatten.map fun w => (len w : ℝ) + 1).sum := by
    have e1 : ((values d.token2id).map fun i => ((getD d.cfs i 0 : Nat) : ℝ) * (((getD (termLens len d) i 0 : Nat) : ℝ) + 1)) =
        (keys d.token2id).map fun w => (docs.flatten.count w : ℝ) * ((len w : ℝ) + 1) := by
      unfold values keys
      rw [List.map_map, List.map_map]
      exact List.map_congr_left hentry
    rw [e1, ← List.sum_toFinset _ (show (keys d.token2id).Nodup from hinv.wf), Finset.sum_list_map_count]
    have e2 : (keys d.token2id).toFinset = docs.flatten.toFinset := by
      ext w
      rw [List.mem_toFinset, List.mem_toFinset, List.mem_flatten, ← h2 w]
      unfold Dictionary.known Dictionary.idOf
      rw [get?_isSome_iff]
    rw [e2]
    apply Finset.sum_congr rfl
    intro w _
    rw [nsmul_eq_mul]
  have hmap : Dictionary.mapOpt (fun i => (get? d.cfs i).bind fun f => (get? (termLens len d) i).map fun l =>
      (f : ℝ) * ((l : ℝ) + 1)) (values d.token2id) = some ((values d.token2id).map fun i =>
        ((getD d.cfs i 0 : Nat) : ℝ) * (((getD (termLens len d) i 0 : Nat) : ℝ) + 1)) := by
    refine mapOpt_eq_some _ _ _ fun i hi => ?_
    obtain ⟨p, hp, rfl⟩ := List.mem_map.1 hi
    have hg : Dictionary.idOf d p.1 = some p.2 := get?_of_mem hinv.wf hp
    have hk : Dictionary.known d p.1 := by unfold Dictionary.known; rw [hg]; rfl
    have hc := (h3 p.1 hk).2
    unfold Dictionary.cfOf at hc
    rw [hg, Option.bind_some] at hc
    have hl : get? (termLens len d) p.2 = some (len p.1) :=
      get?_of_mem hwl (List.mem_map.2 ⟨p, hp, rfl⟩)
    simp [getD, hc, hl]
  simp only [smartPivot, if_neg (show ¬ 'b' = 'u' by decide), if_true, Option.bind_some, hmap, Option.map_some,
    one_mul, pySum_eq, hsum, fromDictionary, h4]

/-- **C49** The weights of the SMART codes, by what they are the logarithms of. -/
theorem C49_smart_global (df total : Nat) (h0 : 0 < df) (h1 : df ≤ total) :
    smartGlobal 'n' df total = 1 ∧
    (2 : ℝ) ^ smartGlobal 'f' df total * df = total ∧
    (2 : ℝ) ^ smartGlobal 't' df total * df = total + 1 ∧
    (2 * df ≤ total → (2 : ℝ) ^ smartGlobal 'p' df total * df = total - df) ∧
    (total < 2 * df → smartGlobal 'p' df total = 0) := by
  have hd : (0 : ℝ) < df := by exact_mod_cast h0
  have ht : (0 : ℝ) < total := by exact_mod_cast (by omega : 0 < total)
  have hle : (df : ℝ) ≤ total := by exact_mod_cast h1
  have hpow : ∀ x : ℝ, 0 < x → (2 : ℝ) ^ Real.logb 2 x = x := fun x hx =>
    Real.rpow_logb (by norm_num) (by norm_num) hx
  refine ⟨rfl, ?_, ?_, ?_, ?_⟩
  · show (2 : ℝ) ^ Real.logb 2 (1 * (total : ℝ) / df) * df = total
    rw [one_mul, hpow _ (div_pos ht hd), div_mul_cancel₀ _ hd.ne']
  · show (2 : ℝ) ^ Real.logb 2 (((total : ℝ) + 1) / df) * df = total + 1
    rw [hpow _ (div_pos (by linarith) hd), div_mul_cancel₀ _ hd.ne']
  · intro h
    have h' : 2 * (df : ℝ) ≤ total := by exact_mod_cast h
    have h2 : 1 ≤ ((total : ℝ) - df) / df := (one_le_div hd).2 (by linarith)
    show (2 : ℝ) ^ max 0 (Real.logb 2 ((1 * (total : ℝ) - df) / df)) * df = total - df
    rw [one_mul, max_eq_right (Real.logb_nonneg (by norm_num) h2), hpow _ (by linarith), div_mul_cancel₀ _ hd.ne']
  · intro h
    have h' : (total : ℝ) < 2 * df := by exact_mod_cast h
    have h2 : ((total : ℝ) - df) / df ≤ 1 := (div_le_one hd).2 (by linarith)
    show max 0 (Real.logb 2 ((1 * (total : ℝ) - df) / df)) = 0
    rw [one_mul]
    apply max_eq_left
    exact Real.logb_nonpos (by norm_num) (div_nonneg (by linarith) hd.le) h2

/-- **C49** The weights of frequencies within a document by the SMART codes. -/
theorem C49_smart_local (tfs : List ℝ) (hp : ∀ x ∈ tfs, 1 ≤ x) :
    smartLocal 'n' tfs = some tfs ∧
    (∃ l, smartLocal 'l' tfs = some l ∧ l.map (fun y => (2 : ℝ) ^ (y - 1)) = tfs) ∧
    (∃ l, smartLocal 'd' tfs = some l ∧ l.map (fun y => (2 : ℝ) ^ ((2 : ℝ) ^ (y - 1) - 1)) = tfs) ∧
    smartLocal 'b' tfs = some (tfs.map fun _ => 1) ∧
    (∀ m ∈ tfs, (∀ x ∈ tfs, x ≤ m) → smartLocal 'a' tfs = some (tfs.map fun x => (1 + x / m) / 2)) := by
  have hpow : ∀ x : ℝ, 0 < x → (2 : ℝ) ^ Real.logb 2 x = x := fun x hx =>
    Real.rpow_logb (by norm_num) (by norm_num) hx
  refine ⟨rfl, ⟨_, rfl, ?_⟩, ⟨_, rfl, ?_⟩, ?_, ?_⟩
  · rw [List.map_map]
    conv_rhs => rw [← List.map_id tfs]
    apply List.map_congr_left
    intro x hx
    simp only [Function.comp, add_sub_cancel_left, id]
    exact hpow x (by have := hp x hx; linarith)
  · rw [List.map_map]
    conv_rhs => rw [← List.map_id tfs]
    apply List.map_congr_left
    intro x hx
    have h1 := hp x hx
    have h2 : 0 ≤ Real.logb 2 x := Real.logb_nonneg (by norm_num) h1
    simp only [Function.comp, add_sub_cancel_left, id]
    rw [hpow _ (by linarith), add_sub_cancel_left]
    exact hpow x (by linarith)
  · show some (tfs.map fun tf => if tf = 0 then 0 else 1) = _
    congr 1
    apply List.map_congr_left
    intro x hx
    have := hp x hx
    rw [if_neg (by linarith)]
  · intro m hm hmax
    cases tfs with
    | nil => cases hm
    | cons t ts =>
      have hf : ∀ (l : List ℝ) (a : ℝ), (a ≤ l.foldl max a) ∧ (∀ x ∈ l, x ≤ l.foldl max a) ∧ (l.foldl max a = a ∨ l.foldl max a ∈ l) := by
        intro l
        induction l with
        | nil => intro a; exact ⟨le_refl _, by simp, Or.inl rfl⟩
        | cons b l ih =>
          intro a
          obtain ⟨i1, i2, i3⟩ := ih (max a b)
          refine ⟨le_trans (le_max_left _ _) i1, ?_, ?_⟩
          · intro x hx
            rcases List.mem_cons.1 hx with rfl | hx
            · exact le_trans (le_max_right _ _) i1
            · exact i2 x hx
          · rcases i3 with i3 | i3
            · rcases max_choice a b with h | h
              · left; rw [List.foldl_cons, i3, h]
              · right; rw [List.foldl_cons, i3, h]; exact List.mem_cons_self ..
            · right; exact List.mem_cons_of_mem _ i3
      obtain ⟨i1, i2, i3⟩ := hf ts t
      have he : ts.foldl max t = m := by
        apply le_antisymm
        · rcases i3 with i3 | i3
          · rw [i3]; exact hmax t (List.mem_cons_self ..)
          · exact hmax _ (List.mem_cons_of_mem _ i3)
        · rcases List.mem_cons.1 hm with rfl | h
          · exact i1
          · exact i2 m h
      show some ((t :: ts).map fun tf => 0.5 + 0.5 * tf / ts.foldl max t) = _
      rw [he]
      congr 1
      apply List.map_congr_left
      intro x _
      ring

/-- two documents of three and one token -/
example : smartPivot (τ := Nat) 'u' (train df2idf [[(0, (1 : Nat)), (1, 2)], [(0, 1)]]) none [] = some (some (3 / 2)) := by
  rw [C49_pivot_unique]
  norm_num

end Verif.Tfidf
