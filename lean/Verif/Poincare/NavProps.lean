import Verif.Poincare.NavModel
import Verif.Poincare.MetricProps
import Mathlib.Data.List.Nodup
import Mathlib.Data.List.Count
import Mathlib.Data.List.Perm.Subperm

/-!
# C77: moving in the hierarchy, and the nearest nodes
-/

namespace Verif.Poincare

variable {R : Type} [LinearOrder R]

/-- `r` is the first of the nodes that are nearest among those below `n` with property `P`; `none` if
there is no such node. -/
def IsNearest (n : Nat) (P : Nat → Prop) (d : Nat → R) : Option Nat → Prop
  | none => ∀ j < n, ¬ P j
  | some b => b < n ∧ P b ∧ ∀ j < n, P j → d b ≤ d j ∧ (d j = d b → b ≤ j)

theorem argminMasked_spec (n : Nat) (d : Nat → R) (mask : Nat → Bool) :
    IsNearest n (fun j => mask j = false) d (argminMasked n d mask) := by
  induction n with
  | zero => intro j hj; omega
  | succ n ih =>
    have hstep : argminMasked (n + 1) d mask
        = if mask n then argminMasked n d mask
          else match argminMasked n d mask with
            | none => some n
            | some b => if d n < d b then some n else some b := by
      unfold argminMasked
      rw [List.range_succ, List.foldl_append]
      rfl
    rw [hstep]
    cases hm : mask n with
    | true =>
      rw [if_pos rfl]
      cases hr : argminMasked n d mask with
      | none =>
        rw [hr] at ih
        intro j hj
        by_cases h : j = n
        · subst h; simp [hm]
        · exact ih j (by omega)
      | some b =>
        rw [hr] at ih
        obtain ⟨h1, h2, h3⟩ := ih
        refine ⟨by omega, h2, ?_⟩
        intro j hj hp
        by_cases h : j = n
        · subst h; rw [hm] at hp; exact absurd hp (by simp)
        · exact h3 j (by omega) hp
    | false =>
      rw [if_neg (by simp)]
      cases hr : argminMasked n d mask with
      | none =>
        rw [hr] at ih
        refine ⟨by omega, hm, ?_⟩
        intro j hj hp
        by_cases h : j = n
        · subst h; exact ⟨le_refl _, fun _ => le_refl _⟩
        · exact absurd hp (ih j (by omega))
      | some b =>
        rw [hr] at ih
        obtain ⟨h1, h2, h3⟩ := ih
        dsimp only
        split
        · rename_i hlt
          refine ⟨by omega, hm, ?_⟩
          intro j hj hp
          by_cases h : j = n
          · subst h; exact ⟨le_refl _, fun _ => le_refl _⟩
          · have := (h3 j (by omega) hp).1
            refine ⟨le_of_lt (lt_of_lt_of_le hlt this), ?_⟩
            intro he
            rw [he] at this
            exact absurd hlt (not_lt.2 this)
        · rename_i hlt
          refine ⟨by omega, h2, ?_⟩
          intro j hj hp
          by_cases h : j = n
          · subst h; exact ⟨not_lt.1 hlt, fun _ => by omega⟩
          · exact h3 j (by omega) hp

/-- **C77.** `closest_child` is the nearest of the nodes of larger norm, `None` if there is none. -/
theorem C77_child (n : Nat) (norm : Nat → R) (dist : Nat → Nat → R) (node : Nat) :
    IsNearest n (fun j => norm node < norm j) (dist node) (closestChild n norm dist node) := by
  unfold closestChild
  dsimp only
  split
  · rename_i h
    rw [List.all_eq_true] at h
    intro j hj
    have := h j (List.mem_range.2 hj)
    rw [decide_eq_true_iff] at this
    exact not_lt.2 this
  · have := argminMasked_spec n (dist node) fun i => decide (norm i ≤ norm node)
    simpa only [decide_eq_false_iff_not, not_le] using this

/-- **C77.** `closest_parent` is the nearest of the nodes of smaller norm, `None` if there is none. -/
theorem C77_parent (n : Nat) (norm : Nat → R) (dist : Nat → Nat → R) (node : Nat) :
    IsNearest n (fun j => norm j < norm node) (dist node) (closestParent n norm dist node) := by
  unfold closestParent
  dsimp only
  split
  · rename_i h
    rw [List.all_eq_true] at h
    intro j hj
    have := h j (List.mem_range.2 hj)
    rw [decide_eq_true_iff] at this
    exact not_lt.2 this
  · have := argminMasked_spec n (dist node) fun i => decide (norm node ≤ norm i)
    simpa only [decide_eq_false_iff_not, not_le] using this

theorem countP_lt_of {l : List Nat} {p q : Nat → Bool} (hpq : ∀ x ∈ l, p x = true → q x = true)
    (b : Nat) (hb : b ∈ l) (h1 : p b = false) (h2 : q b = true) : l.countP p < l.countP q := by
  induction l with
  | nil => simp at hb
  | cons a l ih =>
    have hle : l.countP p ≤ l.countP q :=
      List.countP_mono_left fun x hx => hpq x (List.mem_cons_of_mem _ hx)
    rw [List.countP_cons, List.countP_cons]
    rcases List.mem_cons.1 hb with rfl | hb
    · simp only [h1, h2, if_true, Bool.false_eq_true, if_false]
      omega
    · have := ih (fun x hx => hpq x (List.mem_cons_of_mem _ hx)) hb
      have ha := hpq a List.mem_cons_self
      cases hpa : p a
      · simp only [Bool.false_eq_true, if_false]
        split <;> omega
      · rw [ha hpa]
        simp only [if_true]
        omega

/-- The number of nodes above a node. -/
def above (n : Nat) (norm : Nat → R) (a : Nat) : Nat :=
  (List.range n).countP fun j => decide (norm j < norm a)

theorem above_parent (n : Nat) (norm : Nat → R) (dist : Nat → Nat → R) (a b : Nat)
    (h : closestParent n norm dist a = some b) :
    norm b < norm a ∧ b < n ∧ above n norm b < above n norm a := by
  have hs := C77_parent n norm dist a
  rw [h] at hs
  obtain ⟨h1, h2, _⟩ := hs
  refine ⟨h2, h1, ?_⟩
  apply countP_lt_of _ b (List.mem_range.2 h1)
  · simp
  · simpa using h2
  · intro x _ hx
    simp only [decide_eq_true_eq] at hx ⊢
    exact lt_trans hx h2

theorem ancestorsLoop_spec (n : Nat) (norm : Nat → R) (dist : Nat → Nat → R) : ∀ (fuel : Nat)
    (prev : Nat) (acc : List Nat), above n norm prev ≤ fuel →
    ∃ l, ancestorsLoop n norm dist fuel (closestParent n norm dist prev) acc = some (acc ++ l) ∧
      List.IsChain (fun a b => closestParent n norm dist a = some b) (prev :: l) ∧
      closestParent n norm dist ((prev :: l).getLast (List.cons_ne_nil _ _)) = none := by
  intro fuel
  induction fuel with
  | zero =>
    intro prev acc h
    cases hp : closestParent n norm dist prev with
    | none => exact ⟨[], by simp [ancestorsLoop], by simp, by simpa using hp⟩
    | some b =>
      have := (above_parent n norm dist prev b hp).2.2
      omega
  | succ fuel ih =>
    intro prev acc h
    cases hp : closestParent n norm dist prev with
    | none => exact ⟨[], by simp [ancestorsLoop], by simp, by simpa using hp⟩
    | some b =>
      have := (above_parent n norm dist prev b hp).2.2
      obtain ⟨l, h1, h2, h3⟩ := ih b (acc ++ [b]) (by omega)
      refine ⟨b :: l, ?_, ?_, ?_⟩
      · rw [ancestorsLoop, h1, List.append_assoc]
        rfl
      · rw [List.isChain_cons_cons]
        exact ⟨hp, h2⟩
      · rw [List.getLast_cons (List.cons_ne_nil _ _)]
        exact h3

/-- **C77.** `ancestors` always ends (after at most `n` rounds); every node of its result is the closest
parent of the one before, the last has none, and the norms decrease strictly, so that no node occurs
twice. -/
theorem C77_ancestors (n : Nat) (norm : Nat → R) (dist : Nat → Nat → R) (node fuel : Nat)
    (hf : n ≤ fuel) :
    ∃ l, ancestors n norm dist fuel node = some l ∧
      List.IsChain (fun a b => closestParent n norm dist a = some b) (node :: l) ∧
      (node :: l).Pairwise (fun a b => norm b < norm a) ∧ (∀ x ∈ l, x < n) ∧
      ∀ j < n, norm ((node :: l).getLast (List.cons_ne_nil _ _)) ≤ norm j := by
  have hle : above n norm node ≤ n := by
    unfold above
    exact le_trans List.countP_le_length (by rw [List.length_range])
  obtain ⟨l, h1, h2, h3⟩ := ancestorsLoop_spec n norm dist fuel node [] (by omega)
  refine ⟨l, by rw [ancestors, h1, List.nil_append], h2, ?_, ?_, ?_⟩
  · have ht : IsTrans Nat (fun a b => norm b < norm a) := ⟨fun _ _ _ h h' => lt_trans h' h⟩
    rw [← List.isChain_iff_pairwise]
    exact h2.imp fun a b h => (above_parent n norm dist a b h).1
  · clear h1 h3 hle
    induction l generalizing node with
    | nil => simp
    | cons b l ih =>
      rw [List.isChain_cons_cons] at h2
      intro x hx
      rcases List.mem_cons.1 hx with rfl | hx
      · exact (above_parent n norm dist _ _ h2.1).2.1
      · exact ih b h2.2 x hx
  · intro j hj
    have := C77_parent n norm dist ((node :: l).getLast (List.cons_ne_nil _ _))
    rw [h3] at this
    exact not_lt.1 (this j hj)

/-- The `k`-th closest child below a node. -/
def childAt (n : Nat) (norm : Nat → R) (dist : Nat → Nat → R) (node : Nat) : Nat → Option Nat
  | 0 => some node
  | k + 1 => (childAt n norm dist node k).bind (closestChild n norm dist)

theorem childAt_succ (n : Nat) (norm : Nat → R) (dist : Nat → Nat → R) (node k : Nat) :
    childAt n norm dist node (k + 1)
      = (closestChild n norm dist node).bind fun c => childAt n norm dist c k := by
  induction k with
  | zero => simp [childAt]
  | succ k ih =>
    rw [childAt, ih]
    cases closestChild n norm dist node with
    | none => rfl
    | some c => rfl

theorem descendantsLoop_spec (n : Nat) (norm : Nat → R) (dist : Nat → Nat → R) : ∀ (depth : Nat)
    (node : Nat) (acc : List (Option Nat)),
    (descendantsLoop n norm dist depth (some node) acc = none ↔
      ∃ k < depth, childAt n norm dist node k = none) ∧
    ∀ l, descendantsLoop n norm dist depth (some node) acc = some l →
      l = acc ++ (List.range depth).map fun k => childAt n norm dist node (k + 1) := by
  intro depth
  induction depth with
  | zero => intro node acc; simp [descendantsLoop]
  | succ depth ih =>
    intro node acc
    rw [descendantsLoop]
    cases hc : closestChild n norm dist node with
    | none =>
      cases depth with
      | zero =>
        rw [descendantsLoop]
        refine ⟨⟨by simp, ?_⟩, ?_⟩
        · rintro ⟨k, hk, h⟩
          have : k = 0 := by omega
          subst this
          simp [childAt] at h
        · intro l hl
          rw [Option.some.injEq] at hl
          rw [← hl]
          simp [childAt, hc]
      | succ depth =>
        rw [descendantsLoop]
        refine ⟨⟨fun _ => ⟨1, by omega, by simp [childAt, hc]⟩, fun _ => rfl⟩, by simp⟩
    | some c =>
      obtain ⟨h1, h2⟩ := ih c (acc ++ [some c])
      refine ⟨?_, ?_⟩
      · rw [h1]
        constructor
        · rintro ⟨k, hk, h⟩
          exact ⟨k + 1, by omega, by rw [childAt_succ, hc]; exact h⟩
        · rintro ⟨k, hk, h⟩
          cases k with
          | zero => simp [childAt] at h
          | succ k =>
            refine ⟨k, by omega, ?_⟩
            rw [childAt_succ, hc] at h
            exact h
      · intro l hl
        rw [h2 l hl, List.range_succ_eq_map, List.map_cons, List.map_map, List.append_assoc]
        congr 1
        rw [childAt_succ, hc]
        simp only [Option.bind_some, List.singleton_append, childAt]
        congr 1
        apply List.map_congr_left
        intro k _
        rw [Function.comp_apply, Nat.succ_eq_add_one, childAt_succ n norm dist node, hc]
        rfl

/-- **C77.** `descendants` returns the chain of closest children; it raises exactly when the chain has
ended before the last round.  (When it ended in the last round the result ends with `None`.) -/
theorem C77_descendants (n : Nat) (norm : Nat → R) (dist : Nat → Nat → R) (node maxDepth : Nat) :
    (descendants n norm dist node maxDepth = none ↔
      ∃ k < maxDepth, childAt n norm dist node k = none) ∧
    ∀ l, descendants n norm dist node maxDepth = some l →
      l = (List.range maxDepth).map fun k => childAt n norm dist node (k + 1) := by
  have := descendantsLoop_spec n norm dist maxDepth node []
  unfold descendants
  simpa only [List.nil_append] using this

/-- **C77.** It always raises when the depth asked for is larger than the number of nodes: for the
default depth of 5, for every node of every model with less than 5 nodes. -/
theorem C77_descendants_raises (n : Nat) (norm : Nat → R) (dist : Nat → Nat → R) (node maxDepth : Nat)
    (hn : node < n) (hd : n < maxDepth) : descendants n norm dist node maxDepth = none := by
  rw [(C77_descendants n norm dist node maxDepth).1]
  refine ⟨n, hd, ?_⟩
  have key : ∀ k, ∀ c, childAt n norm dist node k = some c → c < n ∧ k ≤ above n norm c := by
    intro k
    induction k with
    | zero =>
      intro c h
      simp only [childAt, Option.some.injEq] at h
      subst h
      exact ⟨hn, Nat.zero_le _⟩
    | succ k ih =>
      intro c h
      rw [childAt, Option.bind_eq_some_iff] at h
      obtain ⟨b, hb, hc⟩ := h
      obtain ⟨h1, h2⟩ := ih b hb
      have hs := C77_child n norm dist b
      rw [hc] at hs
      obtain ⟨h3, h4, _⟩ := hs
      refine ⟨h3, ?_⟩
      have : above n norm b < above n norm c := by
        apply countP_lt_of _ b (List.mem_range.2 h1)
        · simp
        · simpa using h4
        · intro x _ hx
          simp only [decide_eq_true_eq] at hx ⊢
          exact lt_trans hx h4
      omega
  cases h : childAt n norm dist node n with
  | none => rfl
  | some c =>
    obtain ⟨h1, h2⟩ := key n c h
    have : above n norm c < (List.range n).countP fun _ => true := by
      apply countP_lt_of _ c (List.mem_range.2 h1)
      · simp
      · rfl
      · intros; rfl
    rw [List.countP_true, List.length_range] at this
    omega

/-! ## The nearest nodes -/

/-- What `matutils.argsort` answers when asked for the `m` smallest of `n` numbers. -/
structure IsArgsort (n m : Nat) (d : Nat → R) (order : List Nat) : Prop where
  nodup : order.Nodup
  lt : ∀ x ∈ order, x < n
  length : order.length = min m n
  sorted : order.Pairwise fun a b => d a ≤ d b
  least : ∀ j < n, j ∉ order → ∀ x ∈ order, d x ≤ d j

/-- `r` lists the `k` nearest of the nodes below `n` with property `P` (all, if there are fewer), nearest
first. -/
structure AreNearest (n k : Nat) (P : Nat → Bool) (d : Nat → R) (r : List Nat) : Prop where
  nodup : r.Nodup
  ok : ∀ x ∈ r, x < n ∧ P x = true
  length : r.length = min k ((List.range n).countP P)
  sorted : r.Pairwise fun a b => d a ≤ d b
  least : ∀ j < n, P j = true → j ∉ r → ∀ x ∈ r, d x ≤ d j

theorem nearest_of_filter (n m k : Nat) (P : Nat → Bool) (d : Nat → R) (order : List Nat)
    (h : IsArgsort n m d order) (hm : min k ((List.range n).countP P) ≤ (order.filter P).length) :
    AreNearest n k P d ((order.filter P).take k) := by
  have hcle : (order.filter P).length ≤ (List.range n).countP P := by
    rw [List.countP_eq_length_filter]
    apply List.Subperm.length_le
    apply (h.nodup.filter P).subperm
    intro x hx
    rw [List.mem_filter] at hx ⊢
    exact ⟨List.mem_range.2 (h.lt x hx.1), hx.2⟩
  have hsorted : (order.filter P).Pairwise fun a b => d a ≤ d b := h.sorted.filter P
  refine ⟨(h.nodup.filter P).sublist (List.take_sublist _ _), ?_, ?_,
    hsorted.sublist (List.take_sublist _ _), ?_⟩
  · intro x hx
    have := List.mem_filter.1 (List.mem_of_mem_take hx)
    exact ⟨h.lt x this.1, this.2⟩
  · rw [List.length_take]
    omega
  · intro j hj hP hjr x hx
    by_cases hjo : j ∈ order
    · have hjf : j ∈ order.filter P := List.mem_filter.2 ⟨hjo, hP⟩
      rw [← List.take_append_drop k (order.filter P)] at hjf hsorted
      rcases List.mem_append.1 hjf with h' | h'
      · exact absurd h' hjr
      · exact (List.pairwise_append.1 hsorted).2.2 x hx j h'
    · exact h.least j hj hjo x (List.mem_filter.1 (List.mem_of_mem_take hx)).1

/-- **C77.** `most_similar` of a node other than the first returns the `k` nearest of the other nodes,
nearest first. -/
theorem C77_most_similar (n k : Nat) (hk : 1 ≤ k) (d : Nat → R) (i : Nat) (hi0 : i ≠ 0)
    (order : List Nat) (h : IsArgsort n (1 + k) d order) :
    AreNearest n k (fun j => decide (j ≠ i)) d (mostSimilar order (some i) (some k)) := by
  have he : mostSimilar order (some i) (some k) = (order.filter fun j => decide (j ≠ i)).take k := by
    unfold mostSimilar
    rw [if_neg (by simp; omega)]
    dsimp only
    congr 1
    apply List.filter_congr
    intro x _
    simp [hi0]
  rw [he]
  apply nearest_of_filter n (1 + k) k _ d order h
  have hcount := List.length_eq_countP_add_countP (fun j => decide (j ≠ i)) (l := order)
  have h1 : order.countP (fun j => decide ¬ decide (j ≠ i) = true) = order.count i := by
    rw [List.count]
    apply List.countP_congr
    intro x _
    simp
  have h2 := List.nodup_iff_count_le_one.1 h.nodup i
  rw [h1] at hcount
  rw [← List.countP_eq_length_filter]
  by_cases hin : i ∈ order
  · have h3 : (List.range n).countP (fun j => decide (j ≠ i)) < (List.range n).countP fun _ => true := by
      apply countP_lt_of _ i (List.mem_range.2 (h.lt i hin))
      · simp
      · rfl
      · intros; rfl
    rw [List.countP_true, List.length_range] at h3
    have := h.length
    omega
  · have h3 : order.count i = 0 := List.count_eq_zero_of_not_mem hin
    have h4 : (List.range n).countP (fun j => decide (j ≠ i)) ≤ n :=
      le_trans List.countP_le_length (by rw [List.length_range])
    have := h.length
    omega

/-- **C77.** For a vector it returns the `k` nearest of all nodes, and with `topn=None` all. -/
theorem C77_most_similar_vector (n k : Nat) (hk : 1 ≤ k) (d : Nat → R)
    (order : List Nat) (h : IsArgsort n (1 + k) d order) (all : List Nat) (hall : IsArgsort n n d all) :
    AreNearest n k (fun _ => true) d (mostSimilar order none (some k)) ∧
      mostSimilar all none none = all := by
  constructor
  · have he : mostSimilar order none (some k) = (order.filter fun _ => true).take k := by
      unfold mostSimilar
      rw [if_neg (by simp; omega)]
      dsimp only
      congr 1
    rw [he]
    apply nearest_of_filter n (1 + k) k _ d order h
    have := h.length
    rw [List.countP_true, List.length_range, List.filter_true]
    omega
  · simp [mostSimilar]

/-- **C77.** But the first node of the vocabulary is not removed from its own neighbours: if it is nearer
to itself than to any other node, it is the first entry of its own result. -/
theorem C77_first_node (n k : Nat) (hk : 1 ≤ k) (hn : 0 < n) (d : Nat → R)
    (hd : ∀ j < n, j ≠ 0 → d 0 < d j) (order : List Nat) (h : IsArgsort n (1 + k) d order) :
    (mostSimilar order (some 0) (some k)).head? = some 0 := by
  have he : mostSimilar order (some 0) (some k) = order.take k := by
    unfold mostSimilar
    rw [if_neg (by simp; omega)]
    dsimp only
    congr 1
    simp
  rw [he]
  have hl := h.length
  cases order with
  | nil => simp at hl; omega
  | cons x rest =>
    obtain ⟨k, rfl⟩ : ∃ k', k = k' + 1 := ⟨k - 1, by omega⟩
    rw [List.take_succ_cons, List.head?_cons]
    congr 1
    by_contra hx
    have h1 := hd x (h.lt x List.mem_cons_self) hx
    by_cases h0 : 0 ∈ x :: rest
    · rcases List.mem_cons.1 h0 with h0 | h0
      · exact hx h0.symm
      · exact absurd h1 (not_lt.2 ((List.pairwise_cons.1 h.sorted).1 0 h0))
    · exact absurd h1 (not_lt.2 (h.least 0 hn h0 x List.mem_cons_self))

/-- **C77.** So it is for every embedding: distinct points of the ball. -/
theorem C77_first_node_ball {m : Nat} (vs : Nat → Vec m) (n k : Nat) (hk : 1 ≤ k) (hn : 0 < n)
    (hball : ∀ i < n, ‖vs i‖ < 1) (hinj : ∀ i < n, ∀ j < n, vs i = vs j → i = j) (order : List Nat)
    (h : IsArgsort n (1 + k) (fun j => vectorDistance (vs 0) (vs j)) order) :
    (mostSimilar order (some 0) (some k)).head? = some 0 := by
  apply C77_first_node n k hk hn _ _ order h
  intro j hj hj0
  have hm := C73_metric (vs 0) (vs j) (vs 0) (hball 0 hn) (hball j hj) (hball 0 hn)
  have hz := (C73_metric (vs 0) (vs 0) (vs 0) (hball 0 hn) (hball 0 hn) (hball 0 hn)).2.1.2 rfl
  rw [hz]
  apply lt_of_le_of_ne hm.1
  intro he
  exact hj0 (hinj j hj 0 hn (hm.2.1.1 he.symm).symm)

/-- **C77.** `most_similar` with `topn` zero returns nothing. -/
theorem C77_topn_zero (order : List Nat) (i : Option Nat) : mostSimilar order i (some 0) = [] := by
  simp [mostSimilar]

example : IsArgsort 4 3 (fun j => [0, 5, 2, 3].getD j 0) [0, 2, 3] :=
  ⟨by decide, by decide, by decide, by decide, by decide⟩

example : ancestors 4 (fun j => [1, 3, 2, 4].getD j 0) (fun i j => i + j) 4 3 = some [0] := by
  decide +kernel

example : descendants 3 (fun j => [1, 3, 2].getD j 0) (fun i j => (i - j) + (j - i)) 0 1 = some [some 1] := by
  decide +kernel

end Verif.Poincare
