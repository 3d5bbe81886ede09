import Verif.Poincare.QueryModel
import Verif.Poincare.GradProps
import Mathlib.Data.List.Lemmas

/-!
# C146: Poincaré queries by key, number and vector
-/

namespace Verif.Poincare

variable {n m : ℕ}

/-- an embedding as training leaves it: distinct keys, a row for each, all rows inside the ball -/
def Emb.Ok (e : Emb n) : Prop :=
  e.keys.Nodup ∧ e.vectors.length = e.keys.length ∧ ∀ v ∈ e.vectors, ‖v‖ < 1

theorem sq_lt (v : Vec n) (h : ‖v‖ < 1) : 0 < 1 - ‖v‖ ^ 2 := by
  have := norm_nonneg v
  nlinarith

/-- inside the ball the entry is the Poincaré distance -/
theorem entry_vec (v u : Vec n) (hv : ‖v‖ < 1) (hu : ‖u‖ < 1) : entry (.vec v) u = .real (vectorDistance v u) := by
  have hd : 0 < (1 - ‖v‖ ^ 2) * (1 - ‖u‖ ^ 2) := mul_pos (sq_lt v hv) (sq_lt u hu)
  have hn : 0 ≤ ‖v - u‖ ^ 2 / ((1 - ‖v‖ ^ 2) * (1 - ‖u‖ ^ 2)) := div_nonneg (by positivity) hd.le
  simp only [entry, arccosh]
  rw [if_neg hd.ne', if_neg (by linarith)]
  rfl

theorem getVector_mem (e : Emb n) (a : Arg n) (v : Vec n) (h : getVector e a = some v) : v ∈ e.vectors := by
  unfold getVector at h
  obtain ⟨i, _, hi⟩ := Option.bind_eq_some_iff.1 h
  exact List.mem_of_getElem? hi

theorem getVector_key_eq (e : Emb n) (w : List Char) :
    getVector e (.key w) = (e.keys.idxOf? w).bind fun i => e.vectors[i]? := rfl

theorem getVector_int_eq (e : Emb n) (k : ℤ) :
    getVector e (.int k) = (if 0 ≤ k ∧ k < e.keys.length then some k.toNat else none).bind fun i => e.vectors[i]? := rfl

theorem idxOf_getElem {α : Type} [BEq α] [LawfulBEq α] (l : List α) (h : l.Nodup) (i : Nat) (hi : i < l.length) :
    l.idxOf? l[i] = some i := by
  induction l generalizing i with
  | nil => simp at hi
  | cons x l ih =>
    rw [List.nodup_cons] at h
    cases i with
    | zero => simp [List.idxOf?_cons]
    | succ i =>
      have hi' : i < l.length := by simpa using hi
      have hne : (x == l[i]) = false := by
        rw [beq_eq_false_iff_ne]
        rintro rfl
        exact h.1 (List.getElem_mem hi')
      rw [List.getElem_cons_succ, List.idxOf?_cons, hne, ih h.2 i hi']
      rfl

/-- the row of a key -/
theorem getVector_key (e : Emb n) (h : e.Ok) (i : Nat) (hi : i < e.keys.length) :
    getVector e (.key e.keys[i]) = e.vectors[i]? := by
  rw [getVector_key_eq, idxOf_getElem e.keys h.1 i hi]
  rfl

theorem mapM_of_forall₂ {α β : Type} (f : α → Option β) (l : List α) (r : List β)
    (h : List.Forall₂ (fun a b => f a = some b) l r) : l.mapM f = some r := by
  induction h with
  | nil => rfl
  | cons hab _ ih => rw [List.mapM_cons, hab, ih]; rfl

theorem resolve_key (e : Emb n) (w : List Char) : resolve e (.key w) = (getVector e (.key w)).map .vec := rfl

/-- C146: the distances of a node to other nodes are the pairwise Poincaré distances of their vectors, in the order
asked. -/
theorem C146_distances (e : Emb n) (h : e.Ok) (w : List Char) (v : Vec n) (hw : getVector e (.key w) = some v)
    (others : List (Arg n)) (hne : others ≠ []) (us : List (Vec n))
    (hu : List.Forall₂ (fun o u => getVector e o = some u) others us) :
    distances e (.key w) others = some (us.map fun u => .real (vectorDistance v u)) := by
  have hmem : ∀ u ∈ us, ‖u‖ < 1 := by
    clear hne
    induction hu with
    | nil => simp
    | cons hab _ ih =>
      intro u hu'
      rcases List.mem_cons.1 hu' with rfl | hu'
      · exact h.2.2 _ (getVector_mem e _ _ hab)
      · exact ih u hu'
  unfold distances otherVectors
  rw [resolve_key, hw, if_neg (by simpa using hne), mapM_of_forall₂ _ _ _ hu]
  simp only [Option.map_some, Option.bind_some]
  congr 1
  apply List.map_congr_left
  intro u hu'
  exact entry_vec v u (h.2.2 v (getVector_mem e _ v hw)) (hmem u hu')

/-- C146: `distance` of two nodes is the Poincaré distance of their vectors, hence the entry of `distances`. -/
theorem C146_distance (e : Emb n) (h : e.Ok) (a b : Arg n) (v u : Vec n) (ha : getVector e a = some v)
    (hb : getVector e b = some u) : distance e a b = some (.real (vectorDistance v u)) := by
  unfold distance
  rw [ha, hb]
  simp only [Option.map_some, Option.bind_some]
  rw [entry_vec v u (h.2.2 v (getVector_mem e _ v ha)) (h.2.2 u (getVector_mem e _ u hb))]

/-- C146: without other nodes the answer has the distances to all nodes, in the order of the rows; and an empty
list of other nodes is the same question. -/
theorem C146_all (e : Emb n) (h : e.Ok) (w : List Char) (v : Vec n) (hw : getVector e (.key w) = some v) :
    distances e (.key w) [] = some (e.vectors.map fun u => .real (vectorDistance v u)) := by
  unfold distances otherVectors
  rw [resolve_key, hw]
  simp only [Option.map_some, Option.bind_some, List.isEmpty_nil, if_true]
  congr 1
  apply List.map_congr_left
  intro u hu
  exact entry_vec v u (h.2.2 v (getVector_mem e _ v hw)) (h.2.2 u hu)

/-- C146: asking by key is asking by the vector of the key; an unknown key is an error. -/
theorem C146_by_vector (e : Emb n) (w : List Char) (others : List (Arg n)) :
    distances e (.key w) others = (getVector e (.key w)).bind (fun v => distances e (.vec v) others) ∧
    norm e (.key w) = (getVector e (.key w)).bind (fun v => norm e (.vec v)) := by
  constructor
  · unfold distances
    rw [resolve_key]
    cases getVector e (.key w) <;> rfl
  · unfold norm
    rw [resolve_key]
    cases getVector e (.key w) <;> rfl

/-- C146: an unknown key anywhere is an error. -/
theorem C146_unknown (e : Emb n) (a : Arg n) (others : List (Arg n)) (w : List Char) (hw : w ∉ e.keys)
    (h : a = .key w ∨ .key w ∈ others) : distances e a others = none := by
  have hv : getVector e (.key w) = none := by
    rw [getVector_key_eq, List.idxOf?_eq_none_iff.2 (by simpa using hw)]; rfl
  rcases h with rfl | h
  · unfold distances; rw [resolve_key, hv]; rfl
  · unfold distances otherVectors
    have hne : others.isEmpty = false := by
      cases others with
      | nil => cases h
      | cons _ _ => rfl
    have hm : others.mapM (getVector e) = none := by
      clear hne
      induction others with
      | nil => cases h
      | cons o os ih =>
        rw [List.mapM_cons]
        rcases List.mem_cons.1 h with rfl | h
        · rw [hv]; rfl
        · rw [ih h]
          cases getVector e o <;> rfl
    rw [hne, hm]
    cases resolve e a <;> rfl

/-- C146: the difference in the hierarchy is that of the norms: positive exactly when the first node is nearer to
the origin, opposite when the arguments are exchanged, and additive along a chain. -/
theorem C146_hierarchy (e : Emb n) (a b c : Arg n) (x y z : ℝ) (ha : norm e a = some x) (hb : norm e b = some y)
    (hc : norm e c = some z) :
    differenceInHierarchy e a b = some (y - x) ∧ differenceInHierarchy e b a = some (-(y - x)) ∧
    (∀ d, differenceInHierarchy e a b = some d → (0 < d ↔ x < y)) ∧
    differenceInHierarchy e a c = some ((y - x) + (z - y)) := by
  unfold differenceInHierarchy
  rw [ha, hb, hc]
  simp only [Option.bind_some, Option.map_some, Option.some.injEq]
  refine ⟨trivial, by ring, ?_, by ring⟩
  rintro d rfl
  constructor <;> intro h <;> linarith

/-- C146: nodes of the hierarchy have norms below 1. -/
theorem C146_norm (e : Emb n) (h : e.Ok) (w : List Char) (x : ℝ) (hx : norm e (.key w) = some x) :
    0 ≤ x ∧ x < 1 ∧ ∃ v, getVector e (.key w) = some v ∧ x = ‖v‖ := by
  unfold norm at hx
  rw [resolve_key] at hx
  cases hv : getVector e (.key w) with
  | none => rw [hv] at hx; cases hx
  | some v =>
    rw [hv] at hx
    simp only [Option.map_some, Option.some.injEq, normOf] at hx
    subst hx
    exact ⟨norm_nonneg v, h.2.2 v (getVector_mem e _ v hv), v, rfl, rfl⟩

/-! ## Numbers -/

/-- C146: `distance` takes a number as the number of a row, as documented. -/
theorem C146_distance_number (e : Emb n) (h : e.Ok) (i j : Nat) (hi : i < e.keys.length) (hj : j < e.keys.length) :
    distance e (.int i) (.key e.keys[j]) = distance e (.key e.keys[i]) (.key e.keys[j]) := by
  have h1 : getVector e (.int i) = getVector e (.key e.keys[i]) := by
    rw [getVector_key e h i hi, getVector_int_eq, if_pos ⟨by omega, by omega⟩]
    simp
  unfold distance
  rw [h1]

theorem constant_zero : constant n ((0 : ℤ) : ℝ) = 0 := by
  ext i; simp [constant]

theorem le_norm_constant (hn : 0 < n) (x : ℝ) : |x| ≤ ‖constant n x‖ := by
  have := PiLp.norm_apply_le (p := 2) (constant n x) ⟨0, hn⟩
  simpa [constant] using this

/-- Finding for C146: `distances` takes a number as a vector instead: 0 is the origin, 1 and -1 are infinitely far from
every node, and all other numbers give `nan` everywhere. -/
theorem C146_distances_number (e : Emb n) (hn : 0 < n) (h : e.Ok) (k : ℤ) :
    distances e (.int k) [] = some (e.vectors.map fun u =>
      if k = 0 then .real (vectorDistance 0 u) else if |k| = 1 then .inf else .nan) := by
  unfold distances otherVectors
  rw [show resolve e (.int k) = some (.int k) from rfl]
  simp only [Option.bind_some, List.isEmpty_nil, if_true, Option.map_some]
  congr 1
  apply List.map_congr_left
  intro u hu
  have hu0 := h.2.2 u hu
  have hu1 := sq_lt u hu0
  by_cases h0 : k = 0
  · subst h0
    rw [if_pos rfl, ← entry_vec 0 u (by simp) hu0]
    simp only [entry, constant_zero]
    simp
  · rw [if_neg h0]
    have hk1 : (1 : ℝ) ≤ |(k : ℝ)| := by
      have : (1 : ℤ) ≤ |k| := Int.one_le_abs h0
      exact_mod_cast this
    have hc : constant n (k : ℝ) ≠ u := by
      rintro rfl
      have := le_norm_constant hn (k : ℝ)
      linarith
    have hpos : 0 < ‖constant n (k : ℝ) - u‖ ^ 2 := by
      have : 0 < ‖constant n (k : ℝ) - u‖ := norm_pos_iff.2 (sub_ne_zero.2 hc)
      positivity
    simp only [entry]
    by_cases h1 : |k| = 1
    · have hk : |(k : ℝ)| = 1 := by exact_mod_cast h1
      unfold arccosh
      rw [if_pos (by rw [hk]; ring), if_neg hpos.ne', if_pos h1]
    · rw [if_neg h1]
      have h2 : (2 : ℤ) ≤ |k| := by
        have : 0 < |k| := abs_pos.2 h0
        omega
      have hk : (2 : ℝ) ≤ |(k : ℝ)| := by exact_mod_cast h2
      have hden : (1 - |(k : ℝ)| ^ 2) * (1 - ‖u‖ ^ 2) < 0 := mul_neg_of_neg_of_pos (by nlinarith) hu1
      unfold arccosh
      rw [if_neg hden.ne, if_pos]
      have := div_neg_of_pos_of_neg hpos hden
      linarith

/-- Finding for C146: `norm` of a number is its absolute value, and so the difference in the hierarchy of two numbers
is that of their absolute values, whatever the embedding. -/
theorem C146_norm_number (e : Emb n) (k l : ℤ) :
    norm e (.int k) = some |(k : ℝ)| ∧ differenceInHierarchy e (.int k) (.int l) = some (|(l : ℝ)| - |(k : ℝ)|) :=
  ⟨rfl, rfl⟩

/-! ## The check of gradients -/

theorem foldl_max_ge (l : List ℝ) (a : ℝ) : a ≤ l.foldl max a ∧ ∀ x ∈ l, x ≤ l.foldl max a := by
  induction l generalizing a with
  | nil => simp
  | cons y l ih =>
    obtain ⟨h1, h2⟩ := ih (max a y)
    rw [List.foldl_cons]
    refine ⟨le_trans (le_max_left _ _) h1, fun x hx => ?_⟩
    rcases List.mem_cons.1 hx with rfl | hx
    · exact le_trans (le_max_right _ _) h1
    · exact h2 x hx

theorem foldl_max_zero (l : List ℝ) (h : ∀ x ∈ l, x = 0) : (l.map abs).foldl max 0 = 0 := by
  induction l with
  | nil => rfl
  | cons y l ih =>
    rw [List.map_cons, List.foldl_cons, h y (by simp)]
    simpa using ih (fun x hx => h x (List.mem_cons_of_mem _ hx))

theorem maxDiff_fold (diffs : List (List ℝ)) (mx : ℝ) :
    let r := diffs.foldl (fun mx ds => if mx < (ds.map abs).foldl max 0 then (ds.map abs).foldl max 0 else mx) mx
    mx ≤ r ∧ ∀ ds ∈ diffs, ∀ x ∈ ds, |x| ≤ r := by
  induction diffs generalizing mx with
  | nil => simp
  | cons d diffs ih =>
    simp only [List.foldl_cons]
    have hstep : mx ≤ (if mx < (d.map abs).foldl max 0 then (d.map abs).foldl max 0 else mx) ∧
        (d.map abs).foldl max 0 ≤ (if mx < (d.map abs).foldl max 0 then (d.map abs).foldl max 0 else mx) := by
      split
      · next hlt => exact ⟨hlt.le, le_refl _⟩
      · next hlt => exact ⟨le_refl _, not_lt.1 hlt⟩
    obtain ⟨h1, h2⟩ := ih (if mx < (d.map abs).foldl max 0 then (d.map abs).foldl max 0 else mx)
    refine ⟨le_trans hstep.1 h1, fun ds hds x hx => ?_⟩
    rcases List.mem_cons.1 hds with rfl | hds
    · exact le_trans (le_trans ((foldl_max_ge _ 0).2 |x| (List.mem_map.2 ⟨x, hx, rfl⟩)) hstep.2) h1
    · exact h2 ds hds x hx

theorem maxDiff_zero (diffs : List (List ℝ)) (h : ∀ ds ∈ diffs, ∀ x ∈ ds, x = 0) : maxDiff diffs = 0 := by
  unfold maxDiff
  induction diffs with
  | nil => rfl
  | cons d diffs ih =>
    rw [List.foldl_cons, foldl_max_zero d (h d (by simp)), if_neg (lt_irrefl 0)]
    exact ih (fun ds hds => h ds (List.mem_cons_of_mem _ hds))

/-- the differences of one relation: of the gradients autograd reports and those training uses -/
noncomputable def relationDiffs (reg : ℝ) (u : Vec n) (v : Fin (m + 1) → Vec n) (autoU : Vec n)
    (autoV : Fin (m + 1) → Vec n) : List ℝ :=
  components (autoU - gradU u v) ++ (List.ofFn fun j => components (autoV j - gradV reg u v j)).flatten

/-- C74: the built-in check passes in every training step in which autograd reports the gradients of the loss and every
node differs from the nodes it is compared with, inside the ball; whatever the number of relations. -/
theorem C74_check_passes (reg tol : ℝ) (ht : 0 < tol)
    (batch : List (Vec n × (Fin (m + 1) → Vec n) × Vec n × (Fin (m + 1) → Vec n)))
    (hb : ∀ r ∈ batch, ‖r.1‖ < 1 ∧ (∀ j, ‖r.2.1 j‖ < 1) ∧ (∀ j, r.1 ≠ r.2.1 j) ∧
      HasGradientAt (fun x => lossFn reg x r.2.1) r.2.2.1 r.1 ∧
      ∀ j, HasGradientAt (fun x => lossFn reg r.1 (Function.update r.2.1 j x)) (r.2.2.2 j) (r.2.1 j)) :
    checkPasses (batch.map fun r => relationDiffs reg r.1 r.2.1 r.2.2.1 r.2.2.2) tol := by
  unfold checkPasses
  rw [maxDiff_zero]
  · exact ht
  · intro ds hds x hx
    obtain ⟨r, hr, rfl⟩ := List.mem_map.1 hds
    obtain ⟨hu, hv, hne, hgu, hgv⟩ := hb r hr
    have e1 : r.2.2.1 = gradU r.1 r.2.1 := hgu.unique (C74_gradient_u reg r.1 r.2.1 hu hv hne)
    have e2 : ∀ j, r.2.2.2 j = gradV reg r.1 r.2.1 j := fun j =>
      (hgv j).unique (C74_gradient_v reg r.1 r.2.1 hu hv j (hne j))
    unfold relationDiffs at hx
    rcases List.mem_append.1 hx with hx | hx
    · rw [e1, sub_self] at hx
      obtain ⟨i, rfl⟩ := (List.mem_ofFn' _ _).1 hx
      rfl
    · obtain ⟨l, hl, hx⟩ := List.mem_flatten.1 hx
      obtain ⟨j, rfl⟩ := (List.mem_ofFn' _ _).1 hl
      simp only at hx
      rw [e2 j, sub_self] at hx
      obtain ⟨i, rfl⟩ := (List.mem_ofFn' _ _).1 hx
      rfl

/-- C74: a component of a gradient that is off by the tolerance or more, in any relation, makes the check fail. -/
theorem C74_check_detects (diffs : List (List ℝ)) (tol : ℝ) (ds : List ℝ) (hds : ds ∈ diffs) (x : ℝ) (hx : x ∈ ds)
    (h : tol ≤ |x|) : ¬ checkPasses diffs tol := by
  have := (maxDiff_fold diffs 0).2 ds hds x hx
  unfold checkPasses maxDiff
  intro hc
  linarith

/-! ## Examples -/

/-- two nodes on a line -/
noncomputable def exEmb : Emb 1 := ⟨["a".toList, "b".toList], [0, constant 1 (1 / 2)]⟩

theorem exEmb_ok : exEmb.Ok := by
  refine ⟨by decide, rfl, fun v hv => ?_⟩
  simp only [exEmb, List.mem_cons, List.not_mem_nil, or_false] at hv
  rcases hv with rfl | rfl
  · simp
  · rw [EuclideanSpace.norm_eq]
    simp [constant]
    norm_num

/-- non-vacuity: asking for the node `b` by its number and by its key -/
example : distance exEmb (.int 1) (.key "a".toList) = distance exEmb (.key "b".toList) (.key "a".toList) :=
  C146_distance_number exEmb exEmb_ok 1 0 (by decide) (by decide)
example : distances exEmb (.int 2) [] = some [.nan, .nan] := by
  rw [C146_distances_number exEmb (by decide) exEmb_ok 2]
  simp [exEmb]

end Verif.Poincare
