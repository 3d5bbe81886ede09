import Verif.Poincare.TrainModel
import Mathlib.Algebra.Order.BigOperators.Ring.Finset
import Mathlib.Data.Sign.Basic
import Mathlib.Data.List.Nodup
import Mathlib.Data.List.GetD

/-!
# C75: the vectors of a Poincaré model move by all their gradients and stay in the ball
-/

namespace Verif.Poincare

variable {n : ℕ}

open scoped InnerProductSpace

/-! ## Repeated nodes in a batch -/

/-- Specification: the sum of the updates at the positions of a node. -/
noncomputable def updateSum (indices : List ℕ) (updates : List (Vec n)) (node : ℕ) : Vec n :=
  ((indices.zip updates).map fun p => if p.1 = node then p.2 else 0).sum

theorem mem_positions (indices : List ℕ) (node p : ℕ) :
    p ∈ positions indices node ↔ indices[p]? = some node := by
  unfold positions
  rw [List.mem_filter, List.mem_range, decide_eq_true_iff]
  constructor
  · exact fun h => h.2
  · intro h
    exact ⟨(List.getElem?_eq_some_iff.1 h).1, h⟩

theorem positions_nodup (indices : List ℕ) (node : ℕ) : (positions indices node).Nodup :=
  List.nodup_range.filter _

theorem positions_snoc (indices : List ℕ) (x node : ℕ) :
    positions (indices ++ [x]) node
      = positions indices node ++ if x = node then [indices.length] else [] := by
  unfold positions
  rw [List.length_append, List.length_singleton, List.range_succ, List.filter_append]
  congr 1
  · apply List.filter_congr
    intro i hi
    rw [List.mem_range] at hi
    rw [List.getElem?_append_left hi]
  · by_cases h : x = node <;> simp [h]

theorem fancySet_apply (a : Vectors n) (indices : List ℕ) : ∀ (rows : List (Vec n)),
    rows.length = indices.length → ∀ i, fancySet a indices rows i =
      match (positions indices i).getLast? with
      | none => a i
      | some p => rows.getD p 0 := by
  induction indices using List.reverseRecOn with
  | nil =>
    intro rows _ i
    simp [fancySet, positions]
  | append_singleton indices x ih =>
    intro rows hl i
    rcases List.eq_nil_or_concat rows with rfl | ⟨rows, r, rfl⟩
    · simp at hl
    · have hl' : rows.length = indices.length := by simpa using hl
      have hfs : fancySet a (indices ++ [x]) (rows ++ [r])
          = Function.update (fancySet a indices rows) x r := by
        unfold fancySet
        rw [List.zip_append hl'.symm, List.foldl_append]
        rfl
      rw [List.concat_eq_append, hfs, positions_snoc]
      by_cases hx : x = i
      · subst hx
        rw [Function.update_self, if_pos rfl, List.getLast?_concat, ← hl']
        simp
      · rw [Function.update_of_ne (Ne.symm hx), if_neg hx, List.append_nil, ih rows hl' i]
        cases hg : (positions indices i).getLast? with
        | none => rfl
        | some p =>
          have hp : p < rows.length := by
            have := (mem_positions indices i p).1 (List.mem_of_getLast? hg)
            rw [hl']
            exact (List.getElem?_eq_some_iff.1 this).1
          dsimp only
          rw [List.getD_append _ _ _ _ hp]

theorem length_zeroRows (updates : List (Vec n)) (ps : List ℕ) :
    (zeroRows updates ps).length = updates.length := by
  unfold zeroRows
  induction ps generalizing updates with
  | nil => rfl
  | cons p ps ih => rw [List.foldl_cons, ih, List.length_set]

theorem getD_zeroRows (updates : List (Vec n)) (ps : List ℕ) (q : ℕ) (hq : q ∉ ps) :
    (zeroRows updates ps).getD q 0 = updates.getD q 0 := by
  unfold zeroRows
  induction ps generalizing updates with
  | nil => rfl
  | cons p ps ih =>
    rw [List.mem_cons, not_or] at hq
    rw [List.foldl_cons, ih _ hq.2, List.getD_eq_getElem?_getD, List.getElem?_set_ne (Ne.symm hq.1),
      List.getD_eq_getElem?_getD]

theorem length_mergeNode (indices : List ℕ) (updates : List (Vec n)) (node : ℕ) :
    (mergeNode indices updates node).length = updates.length := by
  unfold mergeNode
  dsimp only
  split
  · rfl
  · rw [length_zeroRows, List.length_set]

theorem mergeNode_other (indices : List ℕ) (updates : List (Vec n)) (node q : ℕ)
    (hnode : node ∈ indices) (hq : q ∉ positions indices node) :
    (mergeNode indices updates node).getD q 0 = updates.getD q 0 := by
  unfold mergeNode
  dsimp only
  split
  · rfl
  · have hne : positions indices node ≠ [] := by
      obtain ⟨p, hp⟩ := List.mem_iff_getElem?.1 hnode
      exact List.ne_nil_of_mem ((mem_positions indices node p).2 hp)
    rw [getD_zeroRows _ _ _ fun h => hq (List.mem_of_mem_dropLast h), List.getD_eq_getElem?_getD,
      List.getElem?_set_ne, List.getD_eq_getElem?_getD]
    intro h
    apply hq
    rw [← h, List.getLastD_eq_getLast?, List.getLast?_eq_some_getLast hne]
    exact List.getLast_mem hne

theorem mergeNode_last (indices : List ℕ) (updates : List (Vec n)) (node p : ℕ)
    (hl : updates.length = indices.length) (hp : (positions indices node).getLast? = some p) :
    (mergeNode indices updates node).getD p 0
      = ((positions indices node).map fun q => updates.getD q 0).sum := by
  unfold mergeNode
  dsimp only
  split
  · rename_i h
    obtain ⟨q, hq⟩ := List.length_eq_one_iff.1 h
    rw [hq] at hp ⊢
    simp only [List.getLast?_singleton, Option.some.injEq] at hp
    subst hp
    simp
  · have hnd := positions_nodup indices node
    obtain ⟨l, hl2⟩ := List.getLast?_eq_some_iff.1 hp
    have hpl : p ∉ (positions indices node).dropLast := by
      rw [hl2] at hnd ⊢
      rw [List.dropLast_concat]
      exact fun h => (List.disjoint_of_nodup_append hnd) h (List.mem_singleton_self p)
    rw [getD_zeroRows _ _ _ hpl]
    have hlen : p < updates.length := by
      rw [hl]
      have := (mem_positions indices node p).1 (List.mem_of_getLast? hp)
      exact (List.getElem?_eq_some_iff.1 this).1
    rw [List.getLastD_eq_getLast?, hp, Option.getD_some, List.getD_eq_getElem?_getD,
      List.getElem?_set_self hlen, Option.getD_some]

theorem foldl_mergeNode (indices : List ℕ) (L : List ℕ) : ∀ (updates : List (Vec n)),
    updates.length = indices.length → L.Nodup → (∀ x ∈ L, x ∈ indices) →
    (L.foldl (mergeNode indices) updates).length = updates.length ∧
    (∀ node, node ∉ L → ∀ q ∈ positions indices node,
      (L.foldl (mergeNode indices) updates).getD q 0 = updates.getD q 0) ∧
    (∀ node, node ∈ L → ∀ p, (positions indices node).getLast? = some p →
      (L.foldl (mergeNode indices) updates).getD p 0
        = ((positions indices node).map fun q => updates.getD q 0).sum) := by
  have hdisj : ∀ a b q, a ≠ b → q ∈ positions indices a → q ∉ positions indices b := by
    intro a b q hab ha hb
    rw [mem_positions] at ha hb
    rw [ha] at hb
    exact hab (Option.some.inj hb)
  induction L with
  | nil => simp
  | cons x L ih =>
    intro updates hl hnd hin
    rw [List.nodup_cons] at hnd
    have hx : x ∈ indices := hin x List.mem_cons_self
    have hl' : (mergeNode indices updates x).length = indices.length := by
      rw [length_mergeNode, hl]
    obtain ⟨h1, h2, h3⟩ := ih (mergeNode indices updates x) hl' hnd.2
      fun y hy => hin y (List.mem_cons_of_mem _ hy)
    rw [List.foldl_cons]
    refine ⟨by rw [h1, length_mergeNode], ?_, ?_⟩
    · intro node hn q hq
      rw [List.mem_cons, not_or] at hn
      rw [h2 node hn.2 q hq]
      exact mergeNode_other indices updates x q hx (hdisj node x q hn.1 hq)
    · intro node hn p hp
      by_cases hnx : node = x
      · subst hnx
        rw [h2 node hnd.1 p (List.mem_of_getLast? hp)]
        exact mergeNode_last indices updates node p hl hp
      · rw [h3 node ((List.mem_cons.1 hn).resolve_left hnx) p hp]
        congr 1
        apply List.map_congr_left
        intro q hq
        exact mergeNode_other indices updates x q hx (hdisj node x q hnx hq)

theorem sum_positions (indices : List ℕ) : ∀ (updates : List (Vec n)) (node : ℕ),
    updates.length = indices.length →
    ((positions indices node).map fun q => updates.getD q 0).sum = updateSum indices updates node := by
  induction indices using List.reverseRecOn with
  | nil =>
    intro updates node _
    simp [positions, updateSum]
  | append_singleton indices x ih =>
    intro updates node hl
    rcases List.eq_nil_or_concat updates with rfl | ⟨updates, r, rfl⟩
    · simp at hl
    · have hl' : updates.length = indices.length := by simpa using hl
      rw [List.concat_eq_append, positions_snoc, List.map_append, List.sum_append]
      unfold updateSum
      rw [List.zip_append hl'.symm, List.map_append, List.sum_append]
      congr 1
      · rw [← updateSum, ← ih updates node hl']
        congr 1
        apply List.map_congr_left
        intro q hq
        have hq' : q < updates.length := by
          rw [hl']
          exact (List.getElem?_eq_some_iff.1 ((mem_positions _ _ _).1 hq)).1
        rw [List.getD_append _ _ _ _ hq']
      · by_cases hx : x = node
        · simp [hx, ← hl']
        · simp [hx]

theorem length_handleDuplicates (indices : List ℕ) (updates : List (Vec n))
    (hl : updates.length = indices.length) :
    (handleDuplicates updates indices).length = indices.length := by
  obtain ⟨h, _, _⟩ := foldl_mergeNode indices indices.dedup updates hl indices.nodup_dedup
    fun x hx => List.mem_dedup.1 hx
  unfold handleDuplicates
  rw [h, hl]

/-- **C75.** After the updates of a batch are subtracted, the vector of every node has moved by the sum
of all its updates, however often the node occurs in the batch. -/
theorem C75_all_updates (a : Vectors n) (indices : List ℕ) (updates : List (Vec n))
    (hl : updates.length = indices.length) (node : ℕ) :
    fancySub a indices (handleDuplicates updates indices) node
      = a node - updateSum indices updates node := by
  obtain ⟨h1, _, h3⟩ := foldl_mergeNode indices indices.dedup updates hl indices.nodup_dedup
    fun x hx => List.mem_dedup.1 hx
  have hlen := length_handleDuplicates indices updates hl
  unfold fancySub
  rw [fancySet_apply a indices _ (by rw [List.length_zipWith, hlen, min_self]) node]
  cases hp : (positions indices node).getLast? with
  | none =>
    rw [List.getLast?_eq_none_iff] at hp
    rw [← sum_positions indices updates node hl, hp]
    simp
  | some p =>
    have hidx := (mem_positions indices node p).1 (List.mem_of_getLast? hp)
    obtain ⟨hpl, hpe⟩ := List.getElem?_eq_some_iff.1 hidx
    have hnode : node ∈ indices.dedup := List.mem_dedup.2 (List.mem_of_getElem? hidx)
    have hval := h3 node hnode p hp
    rw [sum_positions indices updates node hl] at hval
    have hp2 : p < (handleDuplicates updates indices).length := by rw [hlen]; exact hpl
    dsimp only
    have hz : (List.zipWith (fun i r => a i - r) indices (handleDuplicates updates indices)).getD p 0
        = a indices[p] - (handleDuplicates updates indices)[p] := by
      rw [List.getD_eq_getElem _ _ (by rw [List.length_zipWith]; omega), List.getElem_zipWith]
    have hval' : (handleDuplicates updates indices)[p] = updateSum indices updates node := by
      rw [← hval, ← List.getD_eq_getElem _ 0 hp2]
      rfl
    rw [hz, hval', hpe]

/-! ## The vectors stay in the ball -/

theorem norm_signVec_sq_le (v : Vec n) : ‖signVec v‖ ^ 2 ≤ n := by
  rw [EuclideanSpace.real_norm_sq_eq]
  calc ∑ i, (signVec v i) ^ 2 ≤ ∑ _i : Fin n, (1 : ℝ) := by
        apply Finset.sum_le_sum
        intro i _
        unfold signVec
        dsimp only
        rcases lt_trichotomy (v i) 0 with h | h | h
        · simp [sign_neg h]
        · simp [h]
        · simp [sign_pos h]
    _ = n := by simp

theorem norm_le_inner_sign (v : Vec n) : ‖v‖ ≤ ⟪v, signVec v⟫_ℝ := by
  have h : ⟪v, signVec v⟫_ℝ = ∑ i, |v i| := by
    rw [PiLp.inner_apply]
    apply Finset.sum_congr rfl
    intro i _
    unfold signVec
    simp only [RCLike.inner_apply, conj_trivial]
    exact sign_mul_self (v i)
  rw [h]
  have h2 : ‖v‖ ^ 2 ≤ (∑ i, |v i|) ^ 2 := by
    rw [EuclideanSpace.real_norm_sq_eq]
    have := Finset.sum_sq_le_sq_sum_of_nonneg (s := Finset.univ) (f := fun i => |v i|)
      fun i _ => abs_nonneg _
    simpa using this
  exact le_of_sq_le_sq' h2 (Finset.sum_nonneg fun i _ => abs_nonneg _)
where
  le_of_sq_le_sq' {a b : ℝ} (h : a ^ 2 ≤ b ^ 2) (hb : 0 ≤ b) : a ≤ b := by
    by_contra hlt
    push Not at hlt
    nlinarith

theorem norm_clipRow_lt (eps : ℝ) (h0 : 0 < eps) (h1 : eps < 1) (hn : n * eps < 2 * (1 - eps))
    (v : Vec n) (hv : 1 - eps ≤ ‖v‖) : ‖clipRow eps v‖ < 1 - eps := by
  have ht : 0 < 1 - eps := by linarith
  have hvp : 0 < ‖v‖ := by linarith
  unfold clipRow
  dsimp only
  set w := ((1 - eps) / ‖v‖) • v with hw
  have hwn : ‖w‖ = 1 - eps := by
    rw [hw, norm_smul, Real.norm_eq_abs, abs_of_pos (by positivity), div_mul_cancel₀ _ hvp.ne']
  have hsq : ‖w - eps • signVec w‖ ^ 2 < (1 - eps) ^ 2 := by
    rw [norm_sub_sq_real, real_inner_smul_right, hwn, norm_smul, Real.norm_eq_abs, abs_of_pos h0,
      mul_pow]
    have h2 := norm_signVec_sq_le w
    have h3 := norm_le_inner_sign w
    rw [hwn] at h3
    nlinarith [mul_pos h0 h0]
  exact lt_of_pow_lt_pow_left₀ 2 ht.le hsq

theorem clipVectors_eq_map (eps : ℝ) (rows : List (Vec n)) : clipVectors eps rows
    = rows.map fun v => if 1 - eps ≤ ‖v‖ then clipRow eps v else v := by
  unfold clipVectors
  split
  · rename_i h
    conv_lhs => rw [← List.map_id rows]
    apply List.map_congr_left
    intro v hv
    rw [if_neg (not_le.2 (h v hv))]
    rfl
  · rfl

/-- What `applyUpdates` does to one node. -/
theorem applyUpdates_apply (eps : ℝ) (a : Vectors n) (indices : List ℕ) (updates : List (Vec n))
    (hl : updates.length = indices.length) (node : ℕ) :
    applyUpdates eps a indices updates node =
      if node ∈ indices then
        (if 1 - eps ≤ ‖a node - updateSum indices updates node‖ then
          clipRow eps (a node - updateSum indices updates node)
         else a node - updateSum indices updates node)
      else a node := by
  unfold applyUpdates
  rw [clipVectors_eq_map, List.map_map, fancySet_apply _ _ _ (by rw [List.length_map])]
  cases hp : (positions indices node).getLast? with
  | none =>
    have hnot : node ∉ indices := by
      intro h
      obtain ⟨p, hp'⟩ := List.mem_iff_getElem?.1 h
      rw [List.getLast?_eq_none_iff] at hp
      exact List.ne_nil_of_mem ((mem_positions indices node p).2 hp') hp
    rw [if_neg hnot]
    dsimp only
    rw [C75_all_updates a indices updates hl node, ← sum_positions indices updates node hl]
    rw [List.getLast?_eq_none_iff] at hp
    rw [hp]
    simp
  | some p =>
    have hidx := (mem_positions indices node p).1 (List.mem_of_getLast? hp)
    obtain ⟨hpl, hpe⟩ := List.getElem?_eq_some_iff.1 hidx
    rw [if_pos (List.mem_of_getElem? hidx)]
    dsimp only
    rw [List.getD_eq_getElem _ _ (by rw [List.length_map]; exact hpl), List.getElem_map, hpe]
    simp only [Function.comp_apply]
    rw [C75_all_updates a indices updates hl node]

/-- **C75.** Whatever the gradients, after any number of batches all vectors lie in the open unit ball,
if they did at the beginning and the number of components is below `2 (1 - ε) / ε`; the vectors of the
nodes of the last batch lie within `1 - ε` of the origin. -/
theorem C75_ball (eps : ℝ) (h0 : 0 < eps) (h1 : eps < 1) (hn : n * eps < 2 * (1 - eps))
    (a : Vectors n) (ha : ∀ i, ‖a i‖ < 1)
    (batches : List ((List ℕ × List (Vec n)) × (List ℕ × List (Vec n))))
    (hb : ∀ b ∈ batches, b.1.2.length = b.1.1.length ∧ b.2.2.length = b.2.1.length) :
    (∀ i, ‖batches.foldl (fun a b => updateBatch eps a b.1 b.2) a i‖ < 1) ∧
      ∀ b, batches.getLast? = some b → ∀ i ∈ b.1.1 ++ b.2.1,
        ‖batches.foldl (fun a b => updateBatch eps a b.1 b.2) a i‖ < 1 - eps := by
  have step : ∀ (a : Vectors n) (idx : List ℕ) (us : List (Vec n)), us.length = idx.length →
      ∀ i, (i ∈ idx → ‖applyUpdates eps a idx us i‖ < 1 - eps) ∧
        (i ∉ idx → applyUpdates eps a idx us i = a i) := by
    intro a idx us hl i
    rw [applyUpdates_apply eps a idx us hl i]
    constructor
    · intro hi
      rw [if_pos hi]
      split
      · rename_i h
        exact norm_clipRow_lt eps h0 h1 hn _ h
      · rename_i h
        exact not_le.1 h
    · intro hi
      rw [if_neg hi]
  have batch : ∀ (a : Vectors n) (b : (List ℕ × List (Vec n)) × (List ℕ × List (Vec n))),
      b.1.2.length = b.1.1.length → b.2.2.length = b.2.1.length → ∀ i,
      (i ∈ b.1.1 ++ b.2.1 → ‖updateBatch eps a b.1 b.2 i‖ < 1 - eps) ∧
        (i ∉ b.1.1 ++ b.2.1 → updateBatch eps a b.1 b.2 i = a i) := by
    intro a b hl1 hl2 i
    unfold updateBatch
    have s1 := step a b.1.1 b.1.2 hl1 i
    have s2 := step (applyUpdates eps a b.1.1 b.1.2) b.2.1 b.2.2 hl2 i
    constructor
    · intro hi
      by_cases h2 : i ∈ b.2.1
      · exact s2.1 h2
      · rw [s2.2 h2]
        exact s1.1 ((List.mem_append.1 hi).resolve_right h2)
    · intro hi
      rw [List.mem_append, not_or] at hi
      rw [s2.2 hi.2, s1.2 hi.1]
  induction batches using List.reverseRecOn with
  | nil => exact ⟨ha, by simp⟩
  | append_singleton bs b ih =>
    obtain ⟨ih1, _⟩ := ih fun x hx => hb x (List.mem_append_left _ hx)
    obtain ⟨hl1, hl2⟩ := hb b (by simp)
    rw [List.foldl_append, List.foldl_cons, List.foldl_nil]
    have hbt := batch (bs.foldl (fun a b => updateBatch eps a b.1 b.2) a) b hl1 hl2
    constructor
    · intro i
      by_cases hi : i ∈ b.1.1 ++ b.2.1
      · have := (hbt i).1 hi
        linarith
      · rw [(hbt i).2 hi]
        exact ih1 i
    · intro b' hb' i hi
      rw [List.getLast?_concat, Option.some.injEq] at hb'
      subst hb'
      exact (hbt i).1 hi

/-- **C75.** Nodes that do not occur in a batch keep their vectors. -/
theorem C75_others_unchanged (eps : ℝ) (a : Vectors n) (us vs : List ℕ × List (Vec n))
    (hu : us.2.length = us.1.length) (hv : vs.2.length = vs.1.length) (i : ℕ)
    (hi : i ∉ us.1) (hi' : i ∉ vs.1) : updateBatch eps a us vs i = a i := by
  unfold updateBatch
  rw [applyUpdates_apply _ _ _ _ hv, if_neg hi', applyUpdates_apply _ _ _ _ hu, if_neg hi]

/-- **C75.** The condition on the number of components is needed: with `ε = 1/2` and 16 components the
clipped vector of norm 1 has norm 3/2. -/
theorem C75_leaves_ball :
    ‖clipRow (1 / 2) (WithLp.toLp 2 fun _ => 1 / 4 : Vec 16)‖ = 3 / 2 := by
  have hv : ‖(WithLp.toLp 2 fun _ => 1 / 4 : Vec 16)‖ = 1 := by
    rw [EuclideanSpace.norm_eq]
    dsimp only
    rw [Finset.sum_const, Real.norm_eq_abs]
    rw [show (Finset.univ : Finset (Fin 16)).card • |(1 / 4 : ℝ)| ^ 2 = 1 ^ 2 by simp; norm_num]
    exact Real.sqrt_sq (by norm_num)
  have hc : clipRow (1 / 2) (WithLp.toLp 2 fun _ => 1 / 4 : Vec 16)
      = WithLp.toLp 2 fun _ => -3 / 8 := by
    unfold clipRow signVec
    rw [hv]
    ext i
    simp
    norm_num
  rw [hc, EuclideanSpace.norm_eq]
  dsimp only
  rw [Finset.sum_const, Real.norm_eq_abs]
  rw [show (Finset.univ : Finset (Fin 16)).card • |(-3 / 8 : ℝ)| ^ 2 = (3 / 2) ^ 2 by simp; norm_num]
  exact Real.sqrt_sq (by norm_num)

/-- The hypotheses of `C75_ball` are met by the default `ε = 1e-5` with 50 components. -/
example : ((50 : ℕ) : ℝ) * (1 / 100000) < 2 * (1 - 1 / 100000) := by norm_num

end Verif.Poincare
