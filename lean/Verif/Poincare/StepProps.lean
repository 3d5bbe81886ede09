import Verif.Poincare.StepModel
import Verif.Poincare.TrainProps
import Verif.Poincare.GradProps
import Verif.Utils.ChunkProps
import Mathlib.Algebra.BigOperators.Group.List.Lemmas

/-!
# C118: a batch is one step of gradient descent, and what training sessions train on
-/

namespace Verif.Poincare

variable {n m : ℕ}

/-! ## One batch -/

/-- A relation with its negatives: the node and the nodes it is compared with. -/
def slots (m : ℕ) (r : (ℕ × ℕ) × List ℕ) (k : Fin (m + 1)) : ℕ := (r.1.2 :: r.2).getD k 0

/-- Specification: the loss of a batch if the first nodes of the relations have the vectors `a` and the
nodes they are compared with have the vectors `b`. -/
noncomputable def roleLoss (reg : ℝ) (m : ℕ) (rs : List ((ℕ × ℕ) × List ℕ)) (a b : Vectors n) : ℝ :=
  (rs.map fun r => lossFn reg (a r.1.1) fun k => b (slots m r k)).sum

/-- Specification: the loss of a batch, the sum of the losses of its relations. -/
noncomputable def batchLoss (reg : ℝ) (m : ℕ) (rs : List ((ℕ × ℕ) × List ℕ)) (a : Vectors n) : ℝ :=
  roleLoss reg m rs a a

/-- Specification: what is done to a vector that has left the ball of radius `1 - ε`. -/
noncomputable def kept (eps : ℝ) (v : Vec n) : Vec n :=
  open Classical in if ‖v‖ < 1 - eps then v else clipRow eps v

/-- Batches as they are sampled: `m` negatives for each relation, no node twice in a relation, and the
vectors of the first node and of those it is compared with differ. -/
structure BatchOk (m : ℕ) (a : Vectors n) (rs : List ((ℕ × ℕ) × List ℕ)) : Prop where
  negatives : ∀ r ∈ rs, r.2.length = m
  distinct : ∀ r ∈ rs, (r.1.1 :: r.1.2 :: r.2).Nodup
  apart : ∀ r ∈ rs, ∀ x ∈ r.1.2 :: r.2, a r.1.1 ≠ a x

theorem length_indicesV (rs : List ((ℕ × ℕ) × List ℕ)) (h : ∀ r ∈ rs, r.2.length = m) :
    (indicesV rs).length = rs.length * (m + 1) := by
  induction rs with
  | nil => simp [indicesV]
  | cons r rs ih =>
    have h1 := h r (by simp)
    have h2 := ih fun x hx => h x (by simp [hx])
    simp only [indicesV, List.flatMap_cons, List.length_append, List.length_cons] at h2 ⊢
    rw [h2, h1]
    ring

theorem getD_indicesV (rs : List ((ℕ × ℕ) × List ℕ)) (h : ∀ r ∈ rs, r.2.length = m) :
    ∀ (b : ℕ) (hb : b < rs.length) (k : Fin (m + 1)),
      (indicesV rs).getD (b * (m + 1) + k) 0 = slots m rs[b] k := by
  induction rs with
  | nil => intro b hb; simp at hb
  | cons r rs ih =>
    intro b hb k
    have h1 := h r (by simp)
    have hlen : (r.1.2 :: r.2).length = m + 1 := by simp [h1]
    cases b with
    | zero =>
      simp only [indicesV, List.flatMap_cons, zero_mul, zero_add]
      rw [List.getD_append _ _ _ _ (by rw [hlen]; exact k.2)]
      rfl
    | succ b =>
      simp only [indicesV, List.flatMap_cons]
      rw [List.getD_append_right _ _ _ _ (by rw [hlen]; nlinarith), hlen]
      have he : (b + 1) * (m + 1) + k - (m + 1) = b * (m + 1) + k := by
        rw [add_mul, one_mul]; omega
      rw [he]
      exact ih (fun x hx => h x (by simp [hx])) b (by simpa using hb) k

theorem range_blocks {β : Type} (M : ℕ) (hM : 0 < M) (f : ℕ → ℕ → β) (B : ℕ) :
    (List.range (M * B)).map (fun p => f (p / M) (p % M))
      = (List.range B).flatMap fun b => (List.range M).map fun k => f b k := by
  induction B with
  | zero => simp
  | succ B ih =>
    rw [Nat.mul_succ, List.range_add, List.map_append, ih, List.range_succ, List.flatMap_append,
      List.map_map]
    congr 1
    simp only [List.flatMap_cons, List.flatMap_nil, List.append_nil]
    apply List.map_congr_left
    intro k hk
    have hk := List.mem_range.1 hk
    simp only [Function.comp_apply]
    rw [Nat.mul_add_div hM, Nat.div_eq_of_lt hk, Nat.mul_add_mod, Nat.mod_eq_of_lt hk, add_zero]

theorem updateSum_append (i1 i2 : List ℕ) (u1 u2 : List (Vec n)) (h : i1.length = u1.length)
    (node : ℕ) : updateSum (i1 ++ i2) (u1 ++ u2) node = updateSum i1 u1 node + updateSum i2 u2 node := by
  unfold updateSum
  rw [List.zip_append h, List.map_append, List.sum_append]

theorem updateSum_map {β : Type} (l : List β) (f : β → ℕ) (g : β → Vec n) (node : ℕ) :
    updateSum (l.map f) (l.map g) node = (l.map fun x => if f x = node then g x else 0).sum := by
  unfold updateSum
  rw [List.zip_map', List.map_map]
  rfl

theorem updateSum_flatMap {β : Type} (l : List β) (f : β → List ℕ) (g : β → List (Vec n))
    (h : ∀ x ∈ l, (f x).length = (g x).length) (node : ℕ) :
    updateSum (l.flatMap f) (l.flatMap g) node
      = (l.map fun x => updateSum (f x) (g x) node).sum := by
  induction l with
  | nil => rfl
  | cons x l ih =>
    rw [List.flatMap_cons, List.flatMap_cons, updateSum_append _ _ _ _ (h x (by simp)), List.map_cons,
      List.sum_cons, ih fun y hy => h y (by simp [hy])]

/-- The gradient of the losses of a batch in the vector of a node, as the first node. -/
noncomputable def gU (a : Vectors n) (m : ℕ) (rs : List ((ℕ × ℕ) × List ℕ)) (node : ℕ) : Vec n :=
  (rs.map fun r => if r.1.1 = node then gradU (a r.1.1) fun k => a (slots m r k) else 0).sum

/-- The same as one of the nodes compared with. -/
noncomputable def gV (reg : ℝ) (a : Vectors n) (m : ℕ) (rs : List ((ℕ × ℕ) × List ℕ)) (node : ℕ) :
    Vec n :=
  (rs.map fun r => ∑ k : Fin (m + 1),
    if slots m r k = node then gradV reg (a r.1.1) (fun k => a (slots m r k)) k else 0).sum

theorem map_range_getElem {β γ : Type} (l : List β) (F : ℕ → γ) (G : β → γ)
    (h : ∀ b (hb : b < l.length), F b = G l[b]) : (List.range l.length).map F = l.map G := by
  apply List.ext_getElem
  · simp
  · intro i h1 h2
    simp only [List.getElem_map, List.getElem_range]
    exact h i (by simpa using h2)

theorem rowU_eq (a : Vectors n) (rs : List ((ℕ × ℕ) × List ℕ)) (b : ℕ) (hb : b < rs.length) :
    rowU a rs b = a rs[b].1.1 := by
  unfold rowU indicesU
  rw [List.getD_eq_getElem _ _ (by simpa using hb), List.getElem_map]

theorem column_eq (a : Vectors n) (rs : List ((ℕ × ℕ) × List ℕ)) (h : ∀ r ∈ rs, r.2.length = m)
    (b : ℕ) (hb : b < rs.length) : column a m rs b = fun k => a (slots m rs[b] k) := by
  funext k
  unfold column
  rw [getD_indicesV rs h b hb k]

theorem uUpdates_eq (alpha : ℝ) (a : Vectors n) (rs : List ((ℕ × ℕ) × List ℕ))
    (h : ∀ r ∈ rs, r.2.length = m) :
    uUpdates alpha a m rs = rs.map fun r =>
      (alpha * conf (a r.1.1) ^ 2 / 4) • gradU (a r.1.1) fun k => a (slots m r k) := by
  unfold uUpdates
  apply map_range_getElem
  intro b hb
  rw [rowU_eq a rs b hb, column_eq a rs h b hb]

theorem vUpdates_eq (alpha reg : ℝ) (a : Vectors n) (rs : List ((ℕ × ℕ) × List ℕ))
    (h : ∀ r ∈ rs, r.2.length = m) :
    vUpdates alpha reg a m rs = rs.flatMap fun r => (List.finRange (m + 1)).map fun k =>
      (alpha * conf (a (slots m r k)) ^ 2 / 4) • gradV reg (a r.1.1) (fun k => a (slots m r k)) k := by
  unfold vUpdates
  have h1 := range_blocks (m + 1) (Nat.succ_pos m) (fun b k =>
    (alpha * conf (column a m rs b (Fin.ofNat (m + 1) k)) ^ 2 / 4) •
      gradV reg (rowU a rs b) (column a m rs b) (Fin.ofNat (m + 1) k)) rs.length
  have hmod : ∀ p, Fin.ofNat (m + 1) (p % (m + 1)) = Fin.ofNat (m + 1) p := by
    intro p
    apply Fin.ext
    simp [Fin.ofNat]
  simp only [hmod] at h1
  rw [h1, List.flatMap_def, List.flatMap_def]
  congr 1
  apply map_range_getElem
  intro b hb
  rw [rowU_eq a rs b hb, column_eq a rs h b hb]
  apply List.ext_getElem
  · simp
  · intro i hi1 hi2
    have hi : i < m + 1 := by simpa using hi1
    have hf : Fin.ofNat (m + 1) i = ⟨i, hi⟩ := by
      apply Fin.ext
      simp [Fin.ofNat, Nat.mod_eq_of_lt hi]
    simp only [List.getElem_map, List.getElem_range, List.getElem_finRange, hf]
    rfl

theorem list_sum_smul {β : Type} (l : List β) (c : ℝ) (f : β → Vec n) :
    (l.map fun x => c • f x).sum = c • (l.map f).sum := by
  induction l with
  | nil => simp
  | cons x l ih => simp only [List.map_cons, List.sum_cons, ih, smul_add]

theorem updateSum_u (alpha : ℝ) (a : Vectors n) (rs : List ((ℕ × ℕ) × List ℕ))
    (h : ∀ r ∈ rs, r.2.length = m) (node : ℕ) :
    updateSum (indicesU rs) (uUpdates alpha a m rs) node
      = (alpha * conf (a node) ^ 2 / 4) • gU a m rs node := by
  rw [uUpdates_eq alpha a rs h, indicesU, updateSum_map, gU, ← list_sum_smul]
  congr 1
  apply List.map_congr_left
  intro r _
  split
  · rename_i hr
    rw [hr]
  · simp

theorem indicesV_eq (rs : List ((ℕ × ℕ) × List ℕ)) (h : ∀ r ∈ rs, r.2.length = m) :
    indicesV rs = rs.flatMap fun r => (List.finRange (m + 1)).map (slots m r) := by
  unfold indicesV
  rw [List.flatMap_def, List.flatMap_def]
  congr 1
  apply List.map_congr_left
  intro r hr
  have h1 := h r hr
  apply List.ext_getElem
  · simp [h1]
  · intro i h2 h3
    simp only [List.getElem_map, List.getElem_finRange, slots]
    rw [List.getD_eq_getElem _ _ (by simpa using h2)]
    rfl

theorem updateSum_v (alpha reg : ℝ) (a : Vectors n) (rs : List ((ℕ × ℕ) × List ℕ))
    (h : ∀ r ∈ rs, r.2.length = m) (node : ℕ) :
    updateSum (indicesV rs) (vUpdates alpha reg a m rs) node
      = (alpha * conf (a node) ^ 2 / 4) • gV reg a m rs node := by
  rw [vUpdates_eq alpha reg a rs h, indicesV_eq rs h, updateSum_flatMap _ _ _ (by simp), gV,
    ← list_sum_smul]
  congr 1
  apply List.map_congr_left
  intro r _
  rw [updateSum_map, Finset.smul_sum, ← List.sum_ofFn, List.ofFn_eq_map]
  congr 1
  apply List.map_congr_left
  intro k _
  split
  · rename_i hr
    rw [hr]
  · simp

theorem slots_mem (r : (ℕ × ℕ) × List ℕ) (h : r.2.length = m) (k : Fin (m + 1)) :
    slots m r k ∈ r.1.2 :: r.2 := by
  unfold slots
  rw [List.getD_eq_getElem _ _ (by rw [List.length_cons, h]; omega)]
  exact List.getElem_mem _

theorem slots_inj (r : (ℕ × ℕ) × List ℕ) (h : r.2.length = m) (hd : (r.1.2 :: r.2).Nodup)
    (j k : Fin (m + 1)) (he : slots m r j = slots m r k) : j = k := by
  unfold slots at he
  rw [List.getD_eq_getElem _ _ (by rw [List.length_cons, h]; omega), List.getD_eq_getElem _ _ (by rw [List.length_cons, h]; omega)] at he
  exact Fin.ext (hd.getElem_inj_iff.1 he)

theorem hasGradientAt_list_sum {β : Type} (l : List β) (f : β → Vec n → ℝ) (g : β → Vec n) (x : Vec n)
    (h : ∀ r ∈ l, HasGradientAt (f r) (g r) x) :
    HasGradientAt (fun y => (l.map fun r => f r y).sum) (l.map g).sum x := by
  induction l with
  | nil =>
    simp only [List.map_nil, List.sum_nil]
    exact hasGradientAt_const x 0
  | cons r l ih =>
    simp only [List.map_cons, List.sum_cons]
    rw [hasGradientAt_iff_innerSL]
    have h1 := h r (by simp)
    rw [hasGradientAt_iff_innerSL] at h1
    have h2 := ih fun y hy => h y (by simp [hy])
    rw [hasGradientAt_iff_innerSL] at h2
    rw [map_add]
    exact h1.add h2

/-- The gradients of the losses of one relation in the vector of a node. -/
theorem relation_gradients (reg : ℝ) (a : Vectors n) (ha : ∀ i, ‖a i‖ < 1) (r : (ℕ × ℕ) × List ℕ)
    (hm : r.2.length = m) (hd : (r.1.1 :: r.1.2 :: r.2).Nodup)
    (hap : ∀ x ∈ r.1.2 :: r.2, a r.1.1 ≠ a x) (node : ℕ) :
    HasGradientAt (fun x => lossFn reg (Function.update a node x r.1.1) fun k => a (slots m r k))
        (if r.1.1 = node then gradU (a r.1.1) fun k => a (slots m r k) else 0) (a node) ∧
      HasGradientAt (fun x => lossFn reg (a r.1.1) fun k => Function.update a node x (slots m r k))
        (∑ k : Fin (m + 1), if slots m r k = node then
          gradV reg (a r.1.1) (fun k => a (slots m r k)) k else 0) (a node) ∧
      HasGradientAt (fun x => lossFn reg (Function.update a node x r.1.1) fun k =>
          Function.update a node x (slots m r k))
        ((if r.1.1 = node then gradU (a r.1.1) fun k => a (slots m r k) else 0) +
          ∑ k : Fin (m + 1), if slots m r k = node then
            gradV reg (a r.1.1) (fun k => a (slots m r k)) k else 0) (a node) := by
  have hne : ∀ k, a r.1.1 ≠ a (slots m r k) := fun k => hap _ (slots_mem r hm k)
  rw [List.nodup_cons] at hd
  by_cases hu : r.1.1 = node
  · have hs : ∀ k, slots m r k ≠ node := by
      intro k hk
      apply hd.1
      rw [hu, ← hk]
      exact slots_mem r hm k
    have hz : (∑ k : Fin (m + 1), if slots m r k = node then
        gradV reg (a r.1.1) (fun k => a (slots m r k)) k else 0) = (0 : Vec n) := by
      apply Finset.sum_eq_zero
      intro k _
      rw [if_neg (hs k)]
    have h1 := C74_gradient_u reg (a r.1.1) (fun k => a (slots m r k)) (ha _) (fun k => ha _) hne
    have hupd : ∀ (x : Vec n) k, Function.update a node x (slots m r k) = a (slots m r k) :=
      fun x k => Function.update_of_ne (hs k) _ _
    have hupd' : ∀ x : Vec n, Function.update a node x r.1.1 = x := by
      intro x
      rw [hu, Function.update_self]
    rw [hz, if_pos hu, add_zero]
    simp only [hupd, hupd']
    rw [hu] at h1 ⊢
    exact ⟨h1, hasGradientAt_const _ _, h1⟩
  · have hupd' : ∀ x : Vec n, Function.update a node x r.1.1 = a r.1.1 :=
      fun x => Function.update_of_ne hu _ _
    simp only [hupd', if_neg hu, zero_add]
    refine ⟨hasGradientAt_const _ _, ?_⟩
    rw [and_self]
    by_cases hk : ∃ k, slots m r k = node
    · obtain ⟨k, hk⟩ := hk
      have hsum : (∑ j : Fin (m + 1), if slots m r j = node then
          gradV reg (a r.1.1) (fun k => a (slots m r k)) j else 0)
          = gradV reg (a r.1.1) (fun k => a (slots m r k)) k := by
        rw [Finset.sum_eq_single k]
        · rw [if_pos hk]
        · intro j _ hj
          rw [if_neg]
          intro hjn
          exact hj (slots_inj r hm hd.2 j k (hjn.trans hk.symm))
        · simp
      rw [hsum]
      have hf : (fun x => lossFn reg (a r.1.1) fun k => Function.update a node x (slots m r k))
          = fun x => lossFn reg (a r.1.1) (Function.update (fun k => a (slots m r k)) k x) := by
        funext x
        congr 1
        funext j
        by_cases hj : j = k
        · subst hj
          rw [hk, Function.update_self, Function.update_self]
        · rw [Function.update_of_ne hj, Function.update_of_ne]
          intro hjn
          exact hj (slots_inj r hm hd.2 j k (hjn.trans hk.symm))
      rw [hf, ← hk]
      exact C74_gradient_v reg (a r.1.1) (fun k => a (slots m r k)) (ha _) (fun k => ha _) k (hne k)
    · have hs : ∀ k, slots m r k ≠ node := fun k h => hk ⟨k, h⟩
      have hz : (∑ k : Fin (m + 1), if slots m r k = node then
          gradV reg (a r.1.1) (fun k => a (slots m r k)) k else 0) = (0 : Vec n) := by
        apply Finset.sum_eq_zero
        intro k _
        rw [if_neg (hs k)]
      have hupd : ∀ (x : Vec n) k, Function.update a node x (slots m r k) = a (slots m r k) :=
        fun x k => Function.update_of_ne (hs k) _ _
      rw [hz]
      simp only [hupd]
      exact hasGradientAt_const _ _

/-- **C118.** Training on a batch moves the vector of every node, however often and in whatever places
it occurs in the batch, by the learning rate times `(1 - ‖θ‖²)² / 4` times the gradient of the loss of
the whole batch in that vector: one step of Riemannian gradient descent.  The part of the gradient from
the relations the node begins is applied first, then the rest; after each part a vector outside of the
ball of radius `1 - ε` is pulled back. -/
theorem C118_step (eps alpha reg : ℝ) (h0 : 0 < eps) (h1 : eps < 1)
    (hn : n * eps < 2 * (1 - eps)) (a : Vectors n) (rs : List ((ℕ × ℕ) × List ℕ)) (hin : ∀ i, ‖a i‖ < 1 - eps) (h : BatchOk m a rs) :
    ∃ a', trainOnBatch eps alpha reg m a rs = some a' ∧ ∀ node, ∃ g1 g2,
      HasGradientAt (fun x => roleLoss reg m rs (Function.update a node x) a) g1 (a node) ∧
      HasGradientAt (fun x => roleLoss reg m rs a (Function.update a node x)) g2 (a node) ∧
      HasGradientAt (fun x => batchLoss reg m rs (Function.update a node x)) (g1 + g2) (a node) ∧
      a' node = kept eps (kept eps (a node - (alpha * (1 - ‖a node‖ ^ 2) ^ 2 / 4) • g1)
        - (alpha * (1 - ‖a node‖ ^ 2) ^ 2 / 4) • g2) := by
  refine ⟨updateBatch eps a (indicesU rs, uUpdates alpha a m rs) (indicesV rs, vUpdates alpha reg a m rs),
    ?_, ?_⟩
  · unfold trainOnBatch
    rw [if_pos (length_indicesV rs h.negatives)]
  intro node
  have ha : ∀ i, ‖a i‖ < 1 := fun i => lt_trans (hin i) (by linarith)
  have hrel := fun r hr => relation_gradients reg a ha r (h.negatives r hr) (h.distinct r hr)
    (h.apart r hr) node
  refine ⟨gU a m rs node, gV reg a m rs node, ?_, ?_, ?_, ?_⟩
  · exact hasGradientAt_list_sum rs _ _ _ fun r hr => (hrel r hr).1
  · exact hasGradientAt_list_sum rs _ _ _ fun r hr => (hrel r hr).2.1
  · have := hasGradientAt_list_sum rs _ _ _ fun r hr => (hrel r hr).2.2
    unfold gU gV
    rw [← List.sum_map_add]
    exact this
  · have hl1 : (uUpdates alpha a m rs).length = (indicesU rs).length := by
      simp [uUpdates, indicesU]
    have hl2 : (vUpdates alpha reg a m rs).length = (indicesV rs).length := by
      rw [length_indicesV rs h.negatives]
      simp [vUpdates, mul_comm]
    have key : ∀ (a0 : Vectors n) (idx : List ℕ) (us : List (Vec n)), us.length = idx.length →
        ‖a0 node‖ < 1 - eps →
        applyUpdates eps a0 idx us node = kept eps (a0 node - updateSum idx us node) := by
      intro a0 idx us hl ha0
      rw [applyUpdates_apply eps a0 idx us hl node]
      by_cases hn : node ∈ idx
      · rw [if_pos hn]
        unfold kept
        by_cases hlt : ‖a0 node - updateSum idx us node‖ < 1 - eps
        · rw [if_neg (not_le.2 hlt), if_pos hlt]
        · rw [if_pos (not_lt.1 hlt), if_neg hlt]
      · have hz : updateSum idx us node = 0 := by
          unfold updateSum
          apply List.sum_eq_zero
          intro x hx
          obtain ⟨p, hp, rfl⟩ := List.mem_map.1 hx
          rw [if_neg]
          rintro rfl
          exact hn (List.of_mem_zip hp).1
        rw [if_neg hn, hz, sub_zero]
        unfold kept
        rw [if_pos ha0]
    have hk : ∀ v : Vec n, ‖kept eps v‖ < 1 - eps := by
      intro v
      unfold kept
      split
      · assumption
      · rename_i hv
        exact norm_clipRow_lt eps h0 h1 hn v (not_lt.1 hv)
    have e1 := key a (indicesU rs) (uUpdates alpha a m rs) hl1 (hin node)
    have e2 := key (applyUpdates eps a (indicesU rs) (uUpdates alpha a m rs)) (indicesV rs)
      (vUpdates alpha reg a m rs) hl2 (by rw [e1]; exact hk _)
    unfold updateBatch
    dsimp only
    rw [e2, e1, updateSum_u alpha a rs h.negatives, updateSum_v alpha reg a rs h.negatives]
    rfl

/-- **C118.** If no vector leaves the ball of radius `1 - ε`, the step is the whole gradient step. -/
theorem C118_step_inside (eps alpha reg : ℝ) (h0 : 0 < eps) (h1 : eps < 1)
    (hn : n * eps < 2 * (1 - eps)) (a : Vectors n) (rs : List ((ℕ × ℕ) × List ℕ))
    (hin : ∀ i, ‖a i‖ < 1 - eps) (h : BatchOk m a rs) (node : ℕ)
    (hsmall : ∀ g1 g2,
      HasGradientAt (fun x => roleLoss reg m rs (Function.update a node x) a) g1 (a node) →
      HasGradientAt (fun x => roleLoss reg m rs a (Function.update a node x)) g2 (a node) →
      ‖a node‖ + |alpha| / 4 * (‖g1‖ + ‖g2‖) < 1 - eps) :
    ∃ a' g, trainOnBatch eps alpha reg m a rs = some a' ∧
      HasGradientAt (fun x => batchLoss reg m rs (Function.update a node x)) g (a node) ∧
      a' node = a node - (alpha * (1 - ‖a node‖ ^ 2) ^ 2 / 4) • g := by
  obtain ⟨a', ha', hs⟩ := C118_step eps alpha reg h0 h1 hn a rs hin h
  obtain ⟨g1, g2, hg1, hg2, hg, he⟩ := hs node
  refine ⟨a', g1 + g2, ha', hg, ?_⟩
  have hb := hsmall g1 g2 hg1 hg2
  have hnn := norm_nonneg (a node)
  have hlt := hin node
  have hc : |alpha * (1 - ‖a node‖ ^ 2) ^ 2 / 4| ≤ |alpha| / 4 := by
    have e1 : |(1 - ‖a node‖ ^ 2) ^ 2| = (1 - ‖a node‖ ^ 2) ^ 2 := abs_of_nonneg (sq_nonneg _)
    rw [abs_div, abs_mul, e1, abs_of_pos (by norm_num : (0 : ℝ) < 4)]
    have : (1 - ‖a node‖ ^ 2) ^ 2 ≤ 1 := by
      have h2 : ‖a node‖ ^ 2 ≤ 1 := by nlinarith
      nlinarith [sq_nonneg ‖a node‖]
    have := mul_le_mul_of_nonneg_left this (abs_nonneg alpha)
    linarith
  generalize alpha * (1 - ‖a node‖ ^ 2) ^ 2 / 4 = c at *
  have n1 : ‖c • g1‖ ≤ |alpha| / 4 * ‖g1‖ := by
    rw [norm_smul, Real.norm_eq_abs]
    exact mul_le_mul_of_nonneg_right hc (norm_nonneg _)
  have n2 : ‖c • g2‖ ≤ |alpha| / 4 * ‖g2‖ := by
    rw [norm_smul, Real.norm_eq_abs]
    exact mul_le_mul_of_nonneg_right hc (norm_nonneg _)
  have hpos : 0 ≤ |alpha| / 4 * ‖g2‖ := mul_nonneg (by positivity) (norm_nonneg _)
  have l1 : ‖a node - c • g1‖ < 1 - eps := by
    have := norm_sub_le (a node) (c • g1)
    rw [mul_add] at hb
    linarith
  have l2 : ‖a node - c • g1 - c • g2‖ < 1 - eps := by
    have i1 := norm_sub_le (a node - c • g1) (c • g2)
    have i2 := norm_sub_le (a node) (c • g1)
    rw [mul_add] at hb
    linarith
  rw [he]
  unfold kept
  rw [if_pos l1, if_pos l2, smul_add, sub_sub]

/-- Node 0 at the origin is related to node 1 at 1/2, with node 2 at 1/3 as the negative. -/
example : ∃ a : Vectors 1, (∀ i, ‖a i‖ < 1 - 1 / 100000) ∧ BatchOk 1 a [((0, 1), [2])] := by
  refine ⟨fun i => EuclideanSpace.single 0 (if i = 0 then 0 else if i = 1 then 1 / 2 else 1 / 3 : ℝ),
    ?_, ?_, ?_, ?_⟩
  · intro i
    rw [EuclideanSpace.norm_single]
    split
    · norm_num
    · split <;> norm_num
  · simp
  · simp
  · intro r hr x hx h
    have := congrArg norm h
    simp at hr
    subst hr
    simp at hx
    rcases hx with rfl | rfl <;> simp at this

/-! ## Sessions -/

variable {R M X : Type}

/-- Specification: training on one batch: the learning rate, whether gradients are checked, and the
relations. -/
abbrev Call (R : Type) := R × Bool × List (ℕ × ℕ)

/-- Specification: training on some batches, one after the other. -/
def runCalls (onBatch : R → Bool → List (ℕ × ℕ) → M → Except X M) : List (Call R) → M → Except X M
  | [], m => .ok m
  | c :: cs, m => match onBatch c.1 c.2.1 c.2.2 m with
    | .error x => .error x
    | .ok m => runCalls onBatch cs m

/-- Specification: an epoch trains on every relation once, in batches of `size` (the last one may be
smaller), and checks the gradients of every `every`-th batch. -/
structure IsEpoch (rels : List (ℕ × ℕ)) (size : ℕ) (every : Option ℤ) (alpha : R)
    (calls : List (Call R)) : Prop where
  all : (calls.flatMap fun c => c.2.2).Perm rels
  sizes : ∀ i (h : i < calls.length), (calls[i].2.2.length = size ∨ i + 1 = calls.length) ∧
    calls[i].2.2 ≠ [] ∧ calls[i].2.2.length ≤ size
  rate : ∀ c ∈ calls, c.1 = alpha
  checked : ∀ i (h : i < calls.length),
    (calls[i].2.1 = true ↔ ∃ e : ℤ, every = some e ∧ e ≠ 0 ∧ e ∣ (i + 1 : ℕ))

/-- Shuffling the list of all indices gives a permutation of it. -/
def ShuffleOk (rels : List (ℕ × ℕ)) (shuffle : ℕ → List ℕ) : Prop :=
  ∀ k, (shuffle k).Perm (List.range rels.length)

/-- The calls of an epoch. -/
def callsFrom (every : Option ℤ) (alpha : R) (num : ℕ) : List (List (ℕ × ℕ)) → List (Call R)
  | [] => []
  | b :: bs => (alpha, checks every num, b) :: callsFrom every alpha (num + 1) bs

theorem runCalls_append (onBatch : R → Bool → List (ℕ × ℕ) → M → Except X M) (c1 c2 : List (Call R)) :
    ∀ (m m' : M), runCalls onBatch c1 m = .ok m' →
      runCalls onBatch (c1 ++ c2) m = runCalls onBatch c2 m' := by
  induction c1 with
  | nil =>
    intro m m' h
    simp only [runCalls, Except.ok.injEq] at h
    subst h
    rfl
  | cons c c1 ih =>
    intro m m' h
    simp only [runCalls, List.cons_append] at h ⊢
    cases hc : onBatch c.1 c.2.1 c.2.2 m with
    | error x => rw [hc] at h; simp at h
    | ok m1 =>
      rw [hc] at h
      exact ih m1 m' h

theorem batchLoop_ok (onBatch : R → Bool → List (ℕ × ℕ) → M → Except X M) (args : TrainArgs)
    (bs : List (List (ℕ × ℕ))) : ∀ (num : ℕ) (st st' : TrainSt R M),
    batchLoop onBatch args num bs st = (st', none) →
      runCalls onBatch (callsFrom args.checkEvery st.alpha num bs) st.model = .ok st'.model ∧
        st' = { st with model := st'.model } := by
  induction bs with
  | nil =>
    intro num st st' h
    simp only [batchLoop, Prod.mk.injEq, and_true] at h
    subst h
    exact ⟨rfl, rfl⟩
  | cons b bs ih =>
    intro num st st' h
    rw [batchLoop] at h
    split at h
    · simp at h
    · split at h
      · simp at h
      · rename_i m hm
        obtain ⟨h1, h2⟩ := ih (num + 1) _ st' h
        refine ⟨?_, h2⟩
        simp only [callsFrom, runCalls]
        rw [hm]
        exact h1

theorem callsFrom_spec (every : Option ℤ) (alpha : R) (bs : List (List (ℕ × ℕ))) : ∀ num,
    ((callsFrom every alpha num bs).flatMap fun c => c.2.2) = bs.flatten ∧
      (callsFrom every alpha num bs).length = bs.length ∧
      ∀ i (h : i < bs.length) (h' : i < (callsFrom every alpha num bs).length),
        (callsFrom every alpha num bs)[i] = (alpha, checks every (num + i), bs[i]) := by
  induction bs with
  | nil => intro num; simp [callsFrom]
  | cons b bs ih =>
    intro num
    obtain ⟨h1, h2, h3⟩ := ih (num + 1)
    refine ⟨?_, ?_, ?_⟩
    · simp only [callsFrom, List.flatMap_cons, h1, List.flatten_cons]
    · simp [callsFrom, h2]
    · intro i h h'
      cases i with
      | zero => rfl
      | succ i =>
        simp only [callsFrom, List.getElem_cons_succ]
        rw [h3 i (by simpa using h)]
        rw [Nat.add_right_comm num 1 i, Nat.add_assoc]

theorem checks_iff (every : Option ℤ) (num : ℕ) :
    checks every num = true ↔ ∃ e : ℤ, every = some e ∧ e ≠ 0 ∧ e ∣ (num : ℕ) := by
  cases every with
  | none => simp [checks]
  | some e =>
    simp only [checks, Bool.and_eq_true, decide_eq_true_eq, Option.some.injEq, exists_eq_left']
    rw [Int.dvd_iff_emod_eq_zero]

theorem perm_rels (rels : List (ℕ × ℕ)) (idx : List ℕ) (h : idx.Perm (List.range rels.length)) :
    (idx.map fun i => rels.getD i (0, 0)).Perm rels := by
  have h1 := h.map fun i => rels.getD i (0, 0)
  have h2 : ((List.range rels.length).map fun i => rels.getD i (0, 0)) = rels := by
    apply List.ext_getElem
    · simp
    · intro i h1 h2
      simp [h2]
  rwa [h2] at h1

theorem epoch_ok (onBatch : R → Bool → List (ℕ × ℕ) → M → Except X M) (shuffle : ℕ → List ℕ)
    (rels : List (ℕ × ℕ)) (hs : ShuffleOk rels shuffle) (args : TrainArgs) (hb : 0 < args.batchSize)
    (st st' : TrainSt R M) (h : epoch onBatch shuffle rels args st = (st', none)) :
    ∃ calls, IsEpoch rels args.batchSize.toNat args.checkEvery st.alpha calls ∧
      runCalls onBatch calls st.model = .ok st'.model ∧
      st' = { st with model := st'.model, shuffles := st.shuffles + 1 } := by
  have hbs : batches rels args.batchSize (shuffle st.shuffles)
      = some ((Chunk.chunks args.batchSize.toNat (shuffle st.shuffles)).map fun c =>
          c.map fun i => rels.getD i (0, 0)) := by
    unfold batches
    rw [if_neg (by omega), if_neg (by omega)]
  unfold epoch at h
  dsimp only at h
  rw [hbs] at h
  obtain ⟨h1, h2⟩ := batchLoop_ok onBatch args _ _ _ st' h
  have hk : 0 < args.batchSize.toNat := by omega
  obtain ⟨c1, c2, c3⟩ := callsFrom_spec args.checkEvery st.alpha
    ((Chunk.chunks args.batchSize.toNat (shuffle st.shuffles)).map fun c =>
      c.map fun i => rels.getD i (0, 0)) 1
  refine ⟨_, ⟨?_, ?_, ?_, ?_⟩, h1, h2⟩
  · rw [c1, ← List.map_flatten, Chunk.C15_concat hk]
    exact perm_rels rels _ (hs _)
  · intro i hi
    have hi' : i < (Chunk.chunks args.batchSize.toNat (shuffle st.shuffles)).length := by
      rw [c2] at hi
      simpa using hi
    rw [c3 i (by simpa using hi')]
    simp only [List.getElem_map, List.length_map, c2]
    obtain ⟨z1, z2⟩ := Chunk.C15_sizes hk (shuffle st.shuffles)
    obtain ⟨z3, z4⟩ := z1 _ (List.getElem_mem hi')
    refine ⟨?_, ?_, z4⟩
    · by_cases hl : i + 1 = (Chunk.chunks args.batchSize.toNat (shuffle st.shuffles)).length
      · exact Or.inr hl
      · left
        apply z2
        rw [List.mem_iff_getElem]
        refine ⟨i, by rw [List.length_dropLast]; omega, ?_⟩
        rw [List.getElem_dropLast]
    · intro hnil
      have := congrArg List.length hnil
      rw [List.length_map] at this
      simp only [List.length_nil] at this
      omega
  · intro c hc
    obtain ⟨i, hi, rfl⟩ := List.getElem_of_mem hc
    rw [c3 i (by rw [c2] at hi; exact hi)]
  · intro i hi
    rw [c3 i (by rw [c2] at hi; exact hi), checks_iff, Nat.add_comm 1 i]

theorem trainBatchwise_ok (onBatch : R → Bool → List (ℕ × ℕ) → M → Except X M) (shuffle : ℕ → List ℕ)
    (rels : List (ℕ × ℕ)) (hs : ShuffleOk rels shuffle) (args : TrainArgs) (hb : 0 < args.batchSize)
    (k : ℕ) : ∀ (st st' : TrainSt R M), trainBatchwise onBatch shuffle rels args k st = (st', none) →
    ∃ epochs : List (List (Call R)), epochs.length = k ∧
      (∀ e ∈ epochs, IsEpoch rels args.batchSize.toNat args.checkEvery st.alpha e) ∧
      runCalls onBatch epochs.flatten st.model = .ok st'.model ∧
      st' = { st with model := st'.model, shuffles := st.shuffles + k } := by
  induction k with
  | zero =>
    intro st st' h
    simp only [trainBatchwise, Prod.mk.injEq, and_true] at h
    subst h
    exact ⟨[], rfl, by simp, rfl, rfl⟩
  | succ k ih =>
    intro st st' h
    rw [trainBatchwise] at h
    split at h
    · simp at h
    · rename_i st1 he
      obtain ⟨calls, c1, c2, c3⟩ := epoch_ok onBatch shuffle rels hs args hb st st1 he
      obtain ⟨es, e1, e2, e3, e4⟩ := ih st1 st' h
      have ha : st1.alpha = st.alpha := by rw [c3]
      refine ⟨calls :: es, by simp [e1], ?_, ?_, ?_⟩
      · intro e hm
        rcases List.mem_cons.1 hm with rfl | hm
        · exact c1
        · rw [← ha]
          exact e2 e hm
      · rw [List.flatten_cons, runCalls_append onBatch _ _ _ _ c2, e3]
      · rw [e4, c3]
        dsimp only
        rw [Nat.add_right_comm, Nat.add_assoc]

theorem mainPart_ok (onBatch : R → Bool → List (ℕ × ℕ) → M → Except X M) (shuffle : ℕ → List ℕ)
    (rels : List (ℕ × ℕ)) (hs : ShuffleOk rels shuffle) (cfg : TrainCfg R) (args : TrainArgs)
    (hb : 0 < args.batchSize) (old : Bool) (st st' : TrainSt R M)
    (h : mainPart onBatch shuffle rels cfg args old st = (st', none)) :
    ∃ epochs : List (List (Call R)), epochs.length = args.epochs.toNat ∧
      (∀ e ∈ epochs, IsEpoch rels args.batchSize.toNat args.checkEvery cfg.trainAlpha e) ∧
      runCalls onBatch epochs.flatten st.model = .ok st'.model ∧
      st' = { alpha := cfg.trainAlpha, burnInDone := st.burnInDone, ignore := old,
              shuffles := st.shuffles + args.epochs.toNat, model := st'.model } := by
  unfold mainPart at h
  split at h
  · simp at h
  · rename_i st1 h1
    obtain ⟨es, e1, e2, e3, e4⟩ := trainBatchwise_ok onBatch shuffle rels hs args hb _ _ _ h1
    simp only [Prod.mk.injEq, and_true] at h
    subst h
    refine ⟨es, e1, e2, e3, ?_⟩
    rw [e4]

/-- **C118.** A call of `train` that returns has trained `burn_in` epochs with the learning rate of the
burn-in, if no earlier call has done so, and then `epochs` epochs with the learning rate for training, and
nothing else; in every epoch every relation is used exactly once, in batches of `batch_size`.  The burn-in
is then done, and numpy's error settings are as before. -/
theorem C118_session (onBatch : R → Bool → List (ℕ × ℕ) → M → Except X M) (shuffle : ℕ → List ℕ)
    (rels : List (ℕ × ℕ)) (hs : ShuffleOk rels shuffle) (cfg : TrainCfg R) (args : TrainArgs)
    (hb : 0 < args.batchSize) (st st' : TrainSt R M)
    (h : train onBatch shuffle rels cfg args st = (st', none)) :
    ∃ burn main : List (List (Call R)),
      burn.length = (if st.burnInDone then 0 else cfg.burnIn.toNat) ∧
      main.length = args.epochs.toNat ∧
      (∀ e ∈ burn, IsEpoch rels args.batchSize.toNat args.checkEvery cfg.burnInAlpha e) ∧
      (∀ e ∈ main, IsEpoch rels args.batchSize.toNat args.checkEvery cfg.trainAlpha e) ∧
      runCalls onBatch (burn.flatten ++ main.flatten) st.model = .ok st'.model ∧
      st'.alpha = cfg.trainAlpha ∧ st'.burnInDone = (st.burnInDone || decide (0 < cfg.burnIn)) ∧
      st'.ignore = st.ignore ∧ st'.shuffles = st.shuffles + burn.length + main.length := by
  unfold train at h
  split at h
  · simp at h
  · dsimp only at h
    split at h
    · rename_i hburn
      split at h
      · simp at h
      · rename_i st1 h1
        obtain ⟨es, e1, e2, e3, e4⟩ := trainBatchwise_ok onBatch shuffle rels hs args hb _ _ _ h1
        obtain ⟨ms, m1, m2, m3, m4⟩ := mainPart_ok onBatch shuffle rels hs cfg args hb _ _ _ h
        refine ⟨es, ms, ?_, m1, e2, m2, ?_, by rw [m4], ?_, by rw [m4], ?_⟩
        · rw [e1, hburn.2]
          rfl
        · rw [runCalls_append onBatch _ _ _ _ e3]
          exact m3
        · rw [m4]
          simp [hburn.1]
        · rw [m4, e4, e1, m1]
    · rename_i hburn
      obtain ⟨ms, m1, m2, m3, m4⟩ := mainPart_ok onBatch shuffle rels hs cfg args hb _ _ _ h
      refine ⟨[], ms, ?_, m1, by simp, m2, m3, by rw [m4], ?_, by rw [m4], by rw [m4, m1]; rfl⟩
      · cases hd : st.burnInDone
        · have : ¬ 0 < cfg.burnIn := fun hp => hburn ⟨hp, hd⟩
          simp; omega
        · rfl
      · rw [m4]
        cases hd : st.burnInDone
        · have : ¬ 0 < cfg.burnIn := fun hp => hburn ⟨hp, hd⟩
          simp; omega
        · rfl

/-- Several calls of `train`, until one raises. -/
def sessions (onBatch : R → Bool → List (ℕ × ℕ) → M → Except X M) (shuffle : ℕ → List ℕ)
    (rels : List (ℕ × ℕ)) (cfg : TrainCfg R) : List TrainArgs → TrainSt R M →
    TrainSt R M × Option (TrainErr X)
  | [], st => (st, none)
  | args :: rest, st =>
    match train onBatch shuffle rels cfg args st with
    | (st, some e) => (st, some e)
    | (st, none) => sessions onBatch shuffle rels cfg rest st

/-- **C118.** However the training is divided into calls, the burn-in happens once, and the number of
epochs is that of the burn-in plus the sum of those asked for. -/
theorem C118_burn_in_once (onBatch : R → Bool → List (ℕ × ℕ) → M → Except X M) (shuffle : ℕ → List ℕ)
    (rels : List (ℕ × ℕ)) (hs : ShuffleOk rels shuffle) (cfg : TrainCfg R) (calls : List TrainArgs)
    (hb : ∀ a ∈ calls, 0 < a.batchSize) : ∀ (st st' : TrainSt R M),
    sessions onBatch shuffle rels cfg calls st = (st', none) →
    st'.shuffles = st.shuffles + (calls.map fun a => a.epochs.toNat).sum
      + (if calls = [] ∨ st.burnInDone then 0 else cfg.burnIn.toNat) := by
  induction calls with
  | nil =>
    intro st st' h
    simp only [sessions, Prod.mk.injEq, and_true] at h
    subst h
    simp
  | cons args rest ih =>
    intro st st' h
    rw [sessions] at h
    split at h
    · simp at h
    · rename_i st1 h1
      obtain ⟨burn, main, b1, b2, _, _, _, _, b7, _, b9⟩ := C118_session onBatch shuffle rels hs cfg args
        (hb args (by simp)) st st1 h1
      have := ih (fun a ha => hb a (by simp [ha])) st1 st' h
      rw [this, b9, b1, b2, b7]
      simp only [List.map_cons, List.sum_cons, reduceCtorEq, false_or]
      cases st.burnInDone
      · by_cases hp : 0 < cfg.burnIn
        · simp [hp]; omega
        · have hz : cfg.burnIn.toNat = 0 := by omega
          simp [hp, hz]; omega
      · simp; omega

/-! ### Arguments and errors -/

theorem batchLoop_ignore (onBatch : R → Bool → List (ℕ × ℕ) → M → Except X M) (args : TrainArgs)
    (bs : List (List (ℕ × ℕ))) : ∀ (num : ℕ) (st : TrainSt R M),
    (batchLoop onBatch args num bs st).1.ignore = st.ignore ∧
      (batchLoop onBatch args num bs st).1.burnInDone = st.burnInDone := by
  induction bs with
  | nil => intro num st; exact ⟨rfl, rfl⟩
  | cons b bs ih =>
    intro num st
    rw [batchLoop]
    split
    · exact ⟨rfl, rfl⟩
    · split
      · exact ⟨rfl, rfl⟩
      · exact ih _ _

theorem epoch_ignore (onBatch : R → Bool → List (ℕ × ℕ) → M → Except X M) (shuffle : ℕ → List ℕ)
    (rels : List (ℕ × ℕ)) (args : TrainArgs) (st : TrainSt R M) :
    (epoch onBatch shuffle rels args st).1.ignore = st.ignore ∧
      (epoch onBatch shuffle rels args st).1.burnInDone = st.burnInDone := by
  unfold epoch
  dsimp only
  split
  · exact ⟨rfl, rfl⟩
  · exact batchLoop_ignore _ _ _ _ _

theorem trainBatchwise_ignore (onBatch : R → Bool → List (ℕ × ℕ) → M → Except X M)
    (shuffle : ℕ → List ℕ) (rels : List (ℕ × ℕ)) (args : TrainArgs) (k : ℕ) : ∀ (st : TrainSt R M),
    (trainBatchwise onBatch shuffle rels args k st).1.ignore = st.ignore ∧
      (trainBatchwise onBatch shuffle rels args k st).1.burnInDone = st.burnInDone := by
  induction k with
  | zero => intro st; exact ⟨rfl, rfl⟩
  | succ k ih =>
    intro st
    have he := epoch_ignore onBatch shuffle rels args st
    rw [trainBatchwise]
    split
    · rename_i st1 e h1
      rw [h1] at he
      exact he
    · rename_i st1 h1
      rw [h1] at he
      rw [(ih st1).1, (ih st1).2]
      exact he

/-- **C118, finding.** If `train` raises an exception, numpy's error settings are not put back: divisions
by zero and invalid values are ignored in the whole program from then on. -/
theorem C118_settings_lost (onBatch : R → Bool → List (ℕ × ℕ) → M → Except X M) (shuffle : ℕ → List ℕ)
    (rels : List (ℕ × ℕ)) (cfg : TrainCfg R) (hw : cfg.workers ≤ 1) (args : TrainArgs)
    (st st' : TrainSt R M) (e : TrainErr X)
    (h : train onBatch shuffle rels cfg args st = (st', some e)) : st'.ignore = true := by
  have hmain : ∀ (old : Bool) (s : TrainSt R M), s.ignore = true →
      mainPart onBatch shuffle rels cfg args old s = (st', some e) → st'.ignore = true := by
    intro old s hi hm
    unfold mainPart at hm
    have ht := trainBatchwise_ignore onBatch shuffle rels args args.epochs.toNat
      { s with alpha := cfg.trainAlpha }
    split at hm
    · rename_i s1 e1 h1
      rw [h1] at ht
      simp only [Prod.mk.injEq] at hm
      rw [← hm.1, ht.1]
      exact hi
    · simp at hm
  unfold train at h
  rw [if_neg (by omega)] at h
  dsimp only at h
  split at h
  · have ht := trainBatchwise_ignore onBatch shuffle rels args cfg.burnIn.toNat
      { st with ignore := true, alpha := cfg.burnInAlpha }
    split at h
    · rename_i s1 e1 h1
      rw [h1] at ht
      simp only [Prod.mk.injEq] at h
      rw [← h.1]
      exact ht.1
    · rename_i s1 h1
      rw [h1] at ht
      exact hmain _ { s1 with burnInDone := true } ht.1 h
  · exact hmain _ _ rfl h

/-- **C118.** More than one worker is refused before anything is done. -/
theorem C118_workers (onBatch : R → Bool → List (ℕ × ℕ) → M → Except X M) (shuffle : ℕ → List ℕ)
    (rels : List (ℕ × ℕ)) (cfg : TrainCfg R) (hw : 1 < cfg.workers) (args : TrainArgs)
    (st : TrainSt R M) :
    train onBatch shuffle rels cfg args st = (st, some .notImplemented) := by
  unfold train
  rw [if_pos hw]

theorem trainBatchwise_negative (onBatch : R → Bool → List (ℕ × ℕ) → M → Except X M)
    (shuffle : ℕ → List ℕ) (rels : List (ℕ × ℕ)) (args : TrainArgs) (hb : args.batchSize < 0) (k : ℕ) :
    ∀ (st : TrainSt R M), trainBatchwise onBatch shuffle rels args k st
      = ({ st with shuffles := st.shuffles + k }, none) := by
  induction k with
  | zero => intro st; rfl
  | succ k ih =>
    intro st
    have he : epoch onBatch shuffle rels args st
        = ({ st with shuffles := st.shuffles + 1 }, none) := by
      unfold epoch batches
      dsimp only
      rw [if_neg (by omega), if_pos hb]
      rfl
    rw [trainBatchwise, he]
    dsimp only
    rw [ih]
    dsimp only
    rw [Nat.add_right_comm, Nat.add_assoc]

/-- **C118, finding.** With a negative `batch_size` `train` returns without training on anything, and
the burn-in counts as done, so that later calls leave it out. -/
theorem C118_negative_batch_size (onBatch : R → Bool → List (ℕ × ℕ) → M → Except X M)
    (shuffle : ℕ → List ℕ) (rels : List (ℕ × ℕ)) (cfg : TrainCfg R) (hw : cfg.workers ≤ 1)
    (args : TrainArgs) (hb : args.batchSize < 0) (st : TrainSt R M) :
    (train onBatch shuffle rels cfg args st).2 = none ∧
      (train onBatch shuffle rels cfg args st).1.model = st.model ∧
      (0 < cfg.burnIn → (train onBatch shuffle rels cfg args st).1.burnInDone = true) := by
  unfold train mainPart
  rw [if_neg (by omega)]
  simp only [trainBatchwise_negative onBatch shuffle rels args hb]
  split
  · exact ⟨rfl, rfl, fun _ => rfl⟩
  · rename_i h
    refine ⟨rfl, rfl, fun hp => ?_⟩
    cases hd : st.burnInDone
    · exact absurd ⟨hp, hd⟩ h
    · rfl

/-- **C118.** `batch_size` or `print_every` zero raises `ValueError` or `ZeroDivisionError` before
anything is trained, if there is an epoch to train (and a relation); the burn-in does not count as done. -/
theorem C118_zero (onBatch : R → Bool → List (ℕ × ℕ) → M → Except X M) (shuffle : ℕ → List ℕ)
    (rels : List (ℕ × ℕ)) (hr : rels ≠ []) (hs : ShuffleOk rels shuffle) (cfg : TrainCfg R)
    (hw : cfg.workers ≤ 1) (args : TrainArgs) (he : 0 < args.epochs)
    (hz : args.batchSize = 0 ∨ 0 < args.batchSize ∧ args.printEvery = 0) (st : TrainSt R M) :
    (train onBatch shuffle rels cfg args st).2
        = some (if args.batchSize = 0 then .value else .zeroDivision) ∧
      (train onBatch shuffle rels cfg args st).1.model = st.model ∧
      (train onBatch shuffle rels cfg args st).1.burnInDone = st.burnInDone := by
  have hep : ∀ s : TrainSt R M, epoch onBatch shuffle rels args s
      = ({ s with shuffles := s.shuffles + 1 },
          some (if args.batchSize = 0 then .value else .zeroDivision)) := by
    intro s
    unfold epoch batches
    dsimp only
    rcases hz with hz | ⟨hz, hp⟩
    · rw [if_pos hz, if_pos hz]
    · rw [if_neg (by omega), if_neg (by omega), if_neg (by omega)]
      have hne : shuffle s.shuffles ≠ [] := by
        intro hnil
        have := (hs s.shuffles).length_eq
        rw [hnil, List.length_range] at this
        exact hr (List.length_eq_zero_iff.1 this.symm)
      rw [Chunk.chunks_cons (by omega) hne]
      simp only [List.map_cons, batchLoop]
      rw [if_pos hp]
  have htb : ∀ (k : ℕ) (s : TrainSt R M), 0 < k → trainBatchwise onBatch shuffle rels args k s
      = ({ s with shuffles := s.shuffles + 1 },
          some (if args.batchSize = 0 then .value else .zeroDivision)) := by
    intro k s hk
    obtain ⟨k, rfl⟩ : ∃ j, k = j + 1 := ⟨k - 1, by omega⟩
    rw [trainBatchwise, hep]
  unfold train mainPart
  rw [if_neg (by omega)]
  dsimp only
  split
  · rename_i hburn
    rw [htb _ _ (by omega)]
    exact ⟨rfl, rfl, rfl⟩
  · rw [htb _ _ (by omega)]
    exact ⟨rfl, rfl, rfl⟩

/-- **C118, finding.** After more relations are loaded, the negatives still come from the buffer filled
before, as long as it has enough: the counts of the nodes play no part, and a node that was not in the
buffer is not drawn. -/
theorem C118_stale_negatives (counts counts' : List ℕ) (negative : ℕ) (rand rand' : ℕ → List ℕ)
    (st : SampleState) (h : (negative : ℤ) ≤ st.buffer.numItems) :
    candidates counts' negative rand' st = candidates counts negative rand st ∧
      ∀ x ∈ (candidates counts' negative rand' st).1, x ∈ st.buffer.items := by
  unfold candidates
  rw [if_neg (not_lt.2 h), if_neg (not_lt.2 h)]
  refine ⟨rfl, ?_⟩
  intro x hx
  exact List.mem_of_mem_drop (List.mem_of_mem_take hx)

/-- Two calls with three relations in batches of two, two epochs of burn-in. -/
example : (sessions (R := ℕ) (M := List (Call ℕ)) (X := Unit)
    (fun a c b m => .ok (m ++ [(a, c, b)])) (fun _ => [2, 0, 1]) [(0, 1), (0, 2), (1, 2)]
    { workers := 1, burnIn := 2, trainAlpha := 10, burnInAlpha := 1 }
    [{ epochs := 1, batchSize := 2, printEvery := 1000, checkEvery := none },
     { epochs := 1, batchSize := 5, printEvery := 1000, checkEvery := some 1 }]
    { alpha := 10, burnInDone := false, ignore := false, shuffles := 0, model := [] }).1.shuffles = 4 := by
  simp [sessions, train, mainPart, trainBatchwise, epoch, batches, batchLoop, Chunk.chunks]

end Verif.Poincare
