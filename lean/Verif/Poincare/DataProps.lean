import Verif.Poincare.DataModel
import Verif.Poincare.EvalProps
import Mathlib.Tactic.Ring
import Mathlib.Tactic.Linarith
import Mathlib.Data.List.Dedup

/-!
# C126: evaluation of a Poincaré embedding on data files
-/

namespace Verif.PoincareEval

open Verif Verif.Poincare Verif.Text

/-! ## Reading -/

theorem mem_setAdd (s : List Nat) (x y : Nat) : y ∈ setAdd s x ↔ y ∈ s ∨ y = x := by
  unfold setAdd
  split
  · rename_i h
    constructor
    · exact Or.inl
    · rintro (h' | rfl)
      · exact h'
      · exact h
  · simp

theorem nodup_setAdd {s : List Nat} (h : s.Nodup) (x : Nat) : (setAdd s x).Nodup := by
  unfold setAdd
  split
  · exact h
  · rename_i hx
    exact List.nodup_append.2 ⟨h, by simp, by rintro a ha b hb rfl; simp at hb; subst hb; exact hx ha⟩

/-- The relations hold exactly the pairs, as sets. -/
structure Holds (items : List Nat) (rel : Rel) (nodes : List Nat) (pairs : List (Nat × Nat)) : Prop where
  wf : PyDict.WF rel
  nodup : items.Nodup
  items : ∀ i, i ∈ items ↔ i ∈ nodes
  has : ∀ i, (PyDict.get? rel i).isSome ↔ ∃ j, (i, j) ∈ pairs
  mem : ∀ i j, j ∈ PyDict.getD rel i [] ↔ (i, j) ∈ pairs
  set : ∀ i, (PyDict.getD rel i []).Nodup

/-- The nodes of pairs. -/
def nodesOf (pairs : List (Nat × Nat)) : List Nat := pairs.flatMap fun p => [p.1, p.2]

theorem readRows_ok (getIndex : Str → Option Nat) (rows : List (List Str)) (pairs : List (Nat × Nat))
    (h : rows.map (fun r => r.map getIndex) = pairs.map fun p => [some p.1, some p.2])
    (items : List Nat) (rel : Rel) (nodes : List Nat) (old : List (Nat × Nat)) (hh : Holds items rel nodes old) :
    ∃ items' rel', readRows getIndex (items, rel) rows = .ok (items', rel') ∧
      Holds items' rel' (nodes ++ nodesOf pairs) (old ++ pairs) := by
  induction rows generalizing pairs items rel nodes old with
  | nil =>
    cases pairs with
    | nil => exact ⟨items, rel, rfl, by simpa [nodesOf] using hh⟩
    | cons p ps => cases h
  | cons row rows ih =>
    cases pairs with
    | nil => cases h
    | cons p ps =>
      obtain ⟨i, j⟩ := p
      simp only [List.map_cons, List.cons.injEq] at h
      obtain ⟨h1, h2⟩ := h
      match row, h1 with
      | [], h1 => simp at h1
      | [_], h1 => simp at h1
      | _ :: _ :: _ :: _, h1 => simp at h1
      | [a, b], h1 =>
        simp only [List.map_cons, List.map_nil, List.cons.injEq, and_true] at h1
        have hnew : Holds (setAdd (setAdd items i) j) (PyDict.set rel i (setAdd (PyDict.getD rel i []) j))
            (nodes ++ [i, j]) (old ++ [(i, j)]) := by
          have hget : ∀ k, PyDict.getD (PyDict.set rel i (setAdd (PyDict.getD rel i []) j)) k []
              = if i = k then setAdd (PyDict.getD rel i []) j else PyDict.getD rel k [] := by
            intro k
            unfold PyDict.getD
            rw [PyDict.get?_set]
            split <;> rfl
          refine ⟨PyDict.WF_set hh.wf _ _, nodup_setAdd (nodup_setAdd hh.nodup _) _, ?_, ?_, ?_, ?_⟩
          · intro k
            rw [mem_setAdd, mem_setAdd, hh.items]
            simp [or_assoc]
          · intro k
            rw [PyDict.get?_set]
            split
            · rename_i hik
              subst hik
              simp
            · rename_i hik
              rw [hh.has]
              simp [Ne.symm hik]
          · intro k l
            rw [hget]
            split
            · rename_i hik
              subst hik
              rw [mem_setAdd, hh.mem]
              simp
            · rename_i hik
              rw [hh.mem]
              simp [Ne.symm hik]
          · intro k
            rw [hget]
            split
            · exact nodup_setAdd (hh.set _) _
            · exact hh.set k
        obtain ⟨items', rel', e1, e2⟩ := ih ps h2 _ _ _ _ hnew
        refine ⟨items', rel', ?_, ?_⟩
        · unfold readRows
          simp only [h1.1, h1.2]
          exact e1
        · simpa [nodesOf] using e2

/-- **C126.** Reading a file of pairs of known nodes gives the set of pairs: each node's relations are the second nodes of
its rows, without duplicates, and the items are the nodes that occur. -/
theorem C126_read (getIndex : Str → Option Nat) (rows : List (List Str)) (pairs : List (Nat × Nat))
    (h : rows.map (fun r => r.map getIndex) = pairs.map fun p => [some p.1, some p.2]) :
    ∃ items rel, reconstruction getIndex rows = .ok (items, rel) ∧ items.Nodup ∧
      (∀ i, i ∈ items ↔ ∃ p ∈ pairs, i = p.1 ∨ i = p.2) ∧
      (∀ i, (PyDict.get? rel i).isSome ↔ ∃ j, (i, j) ∈ pairs) ∧
      ∀ i, (PyDict.getD rel i []).Nodup ∧ ∀ j, j ∈ PyDict.getD rel i [] ↔ (i, j) ∈ pairs := by
  obtain ⟨items, rel, e1, e2⟩ := readRows_ok getIndex rows pairs h [] [] [] []
    ⟨PyDict.WF_nil, List.nodup_nil, by simp, by simp, by simp [PyDict.getD], by simp [PyDict.getD]⟩
  refine ⟨items, rel, e1, e2.nodup, fun i => ?_, fun i => ?_, fun i => ⟨e2.set i, fun j => ?_⟩⟩
  · rw [e2.items]
    simp [nodesOf]
  · rw [e2.has]
    simp
  · rw [e2.mem]
    simp

theorem readRows_error (getIndex : Str → Option Nat) (pre : List (List Str)) (row : List Str) (rest : List (List Str))
    (hpre : ∀ r ∈ pre, ∃ a b i j, r = [a, b] ∧ getIndex a = some i ∧ getIndex b = some j)
    (st : List Nat × Rel) :
    (row.length ≠ 2 → readRows getIndex st (pre ++ row :: rest) = .error .assertion) ∧
    (row.length = 2 → (∃ a ∈ row, getIndex a = none) → readRows getIndex st (pre ++ row :: rest) = .error .key) := by
  induction pre generalizing st with
  | nil =>
    constructor
    · intro h
      match row with
      | [] => rfl
      | [_] => rfl
      | [_, _] => simp at h
      | _ :: _ :: _ :: _ => rfl
    · intro h2 h
      match row, h2 with
      | [a, b], _ =>
        simp only [List.nil_append]
        unfold readRows
        cases ha : getIndex a with
        | none => simp only [ha]
        | some i =>
          cases hb : getIndex b with
          | none => simp only [ha, hb]
          | some j =>
            obtain ⟨x, hx, hn⟩ := h
            simp only [List.mem_cons, List.not_mem_nil, or_false] at hx
            rcases hx with rfl | rfl
            · rw [ha] at hn; cases hn
            · rw [hb] at hn; cases hn
  | cons r pre ih =>
    obtain ⟨a, b, i, j, rfl, ha, hb⟩ := hpre r (by simp)
    have ih := ih (fun r hr => hpre r (List.mem_cons_of_mem _ hr))
    refine ⟨fun h => ?_, fun h h' => ?_⟩
    · rw [List.cons_append, readRows]
      simp only [ha, hb]
      exact (ih _).1 h
    · rw [List.cons_append, readRows]
      simp only [ha, hb]
      exact (ih _).2 h h'

/-- **C126.** The first row that has not two fields is an `AssertionError` (an empty line, too), the first with a node
that is not in the embedding a `KeyError`. -/
theorem C126_read_error (getIndex : Str → Option Nat) (pre : List (List Str)) (row : List Str)
    (rest : List (List Str))
    (hpre : ∀ r ∈ pre, ∃ a b i j, r = [a, b] ∧ getIndex a = some i ∧ getIndex b = some j) :
    (row.length ≠ 2 → reconstruction getIndex (pre ++ row :: rest) = .error .assertion) ∧
    (row.length = 2 → (∃ a ∈ row, getIndex a = none) →
      reconstruction getIndex (pre ++ row :: rest) = .error .key) :=
  readRows_error getIndex pre row rest hpre _

/-- **C126.** The two files of the link prediction are read separately; the items are the nodes of both. -/
theorem C126_read_links (getIndex : Str → Option Nat) (train test : List (List Str))
    (ps qs : List (Nat × Nat))
    (hp : train.map (fun r => r.map getIndex) = ps.map fun p => [some p.1, some p.2])
    (hq : test.map (fun r => r.map getIndex) = qs.map fun p => [some p.1, some p.2]) :
    ∃ items known unknown, linkPrediction getIndex train test = .ok (items, known, unknown) ∧ items.Nodup ∧
      (∀ i, i ∈ items ↔ ∃ p ∈ ps ++ qs, i = p.1 ∨ i = p.2) ∧
      (∀ i, (PyDict.get? unknown i).isSome ↔ ∃ j, (i, j) ∈ qs) ∧
      (∀ i, (PyDict.getD known i []).Nodup ∧ ∀ j, j ∈ PyDict.getD known i [] ↔ (i, j) ∈ ps) ∧
      ∀ i, (PyDict.getD unknown i []).Nodup ∧ ∀ j, j ∈ PyDict.getD unknown i [] ↔ (i, j) ∈ qs := by
  obtain ⟨items, known, e1, e2⟩ := readRows_ok getIndex train ps hp [] [] [] []
    ⟨PyDict.WF_nil, List.nodup_nil, by simp, by simp, by simp [PyDict.getD], by simp [PyDict.getD]⟩
  obtain ⟨items', unknown, e3, e4⟩ := readRows_ok getIndex test qs hq items [] ([] ++ nodesOf ps) []
    ⟨PyDict.WF_nil, e2.nodup, e2.items, by simp, by simp [PyDict.getD], by simp [PyDict.getD]⟩
  refine ⟨items', known, unknown, ?_, e4.nodup, fun i => ?_, fun i => ?_, fun i => ⟨e2.set i, fun j => ?_⟩,
    fun i => ⟨e4.set i, fun j => ?_⟩⟩
  · unfold linkPrediction
    simp only [e1, e3]
  · rw [e4.items]
    simp [nodesOf, or_and_right, exists_or]
  · rw [e4.has]
    simp
  · rw [e2.mem]
    simp
  · rw [e4.mem]
    simp

/-! ## The evaluation -/

variable {R : Type} [LinearOrder R]

/-- The rank of node `p` among the nodes not related to `i`: one more than the number of nodes that are closer to `i` than
`p` and related to it in no way. -/
def rank (n : Nat) (dist : Nat → Nat → R) (related : List (Nat × Nat)) (i p : Nat) : Nat :=
  ((List.range n).filter fun j => decide (dist i j < dist i p ∧ (i, j) ∉ related)).length + 1

/-- The nodes to predict for `i`. -/
def targets (pairs : List (Nat × Nat)) (i : Nat) : List Nat := ((pairs.filter fun p => p.1 = i).map Prod.snd).dedup

theorem evaluated_all (has : Nat → Bool) (i : Nat) (items : List Nat) :
    evaluated has none i items = items.filter has := by
  induction items generalizing i with
  | nil => rfl
  | cons x xs ih =>
    unfold evaluated
    rw [List.filter_cons]
    split
    · simp [ih]
    · exact ih _

theorem avgPrecision_perm {a b : List Nat} (h : a.Perm b) : avgPrecision a = avgPrecision b := by
  have hs : (pySort (fun a b => decide (a ≤ b)) b).Pairwise fun a b => a ≤ b := by
    have := pySort_sorted (le := fun a b : Nat => decide (a ≤ b))
      (by intro a b; simp only [decide_eq_true_eq]; omega)
      (by intro a b c; simp only [decide_eq_true_eq]; omega) b
    exact this.imp fun h => by simpa using h
  have hp := pySort_perm (fun a b : Nat => decide (a ≤ b)) b
  rw [avgPrecision_sorted a _ (hp.trans h.symm) hs, avgPrecision_sorted b _ hp hs, h.length_eq]

theorem npMean_perm {a b : List ℚ} (h : a.Perm b) : npMean a = npMean b := by
  unfold npMean
  rw [h.sum_eq, h.length_eq]
  have : a = [] ↔ b = [] := ⟨fun e => by subst e; exact h.nil_eq.symm, fun e => by subst e; exact h.eq_nil⟩
  by_cases hb : b = []
  · rw [if_pos hb, if_pos (this.2 hb)]
  · rw [if_neg hb, if_neg (fun h => hb (this.1 h))]

/-- The nodes with something to predict. -/
def sources (pairs : List (Nat × Nat)) : List Nat := (pairs.map Prod.fst).dedup

theorem mem_targets (pairs : List (Nat × Nat)) (i j : Nat) : j ∈ targets pairs i ↔ (i, j) ∈ pairs := by
  unfold targets
  simp

/-- **C126.** The mean rank is the mean over the distinct pairs to predict, and the mean average precision the mean over the
nodes with something to predict, whatever the order in which Python runs through the sets; duplicate rows count once.
Both are `nan` exactly without pairs. -/
theorem C126_evaluate (n : Nat) (dist : Nat → Nat → R) (items : List Nat) (has : Nat → Bool)
    (pos known : Nat → List Nat) (pairs knownPairs : List (Nat × Nat))
    (hi : items.Nodup) (hii : ∀ p ∈ pairs, p.1 ∈ items)
    (hh : ∀ i, has i = true ↔ ∃ j, (i, j) ∈ pairs)
    (hp : ∀ i, (pos i).Nodup ∧ ∀ j, j ∈ pos i ↔ (i, j) ∈ pairs)
    (hk : ∀ i j, j ∈ known i ↔ (i, j) ∈ knownPairs) :
    evaluate n dist items has pos known none =
      (if pairs = [] then (none, none) else
        (some ((pairs.dedup.map fun p => (rank n dist (pairs ++ knownPairs) p.1 p.2 : ℚ)).sum / pairs.dedup.length),
         some (((sources pairs).map fun i =>
            avgPrecision ((targets pairs i).map (rank n dist (pairs ++ knownPairs) i))).sum
              / (sources pairs).length))) := by
  have hr : ∀ i, ranks n (dist i) (pos i) (pos i ++ known i)
      = (pos i).map (rank n dist (pairs ++ knownPairs) i) := by
    intro i
    rw [C78_ranks]
    apply List.map_congr_left
    intro p _
    unfold closer rank
    congr 2
    apply List.filter_congr
    intro j _
    have := (hp i).2 j
    have := hk i j
    rw [Bool.eq_iff_iff]
    simp only [decide_eq_true_eq, List.mem_append]
    tauto
  have hsrc : (items.filter has).Perm (sources pairs) := by
    apply (List.perm_ext_iff_of_nodup (hi.filter _) (List.nodup_dedup _)).2
    intro i
    rw [List.mem_filter, hh, List.mem_dedup, List.mem_map]
    constructor
    · rintro ⟨_, j, hj⟩
      exact ⟨(i, j), hj, rfl⟩
    · rintro ⟨p, hpp, rfl⟩
      exact ⟨hii p hpp, p.2, hpp⟩
  have hall : ((items.filter has).flatMap fun i => (pos i).map fun j => (i, j)).Perm pairs.dedup := by
    apply (List.perm_ext_iff_of_nodup ?_ (List.nodup_dedup _)).2
    · intro p
      obtain ⟨i, j⟩ := p
      simp only [List.mem_flatMap, List.mem_map, List.mem_filter, List.mem_dedup, Prod.mk.injEq]
      constructor
      · rintro ⟨i', _, j', hj', rfl, rfl⟩
        exact ((hp i').2 j').1 hj'
      · intro h
        exact ⟨i, ⟨hii _ h, (hh i).2 ⟨j, h⟩⟩, j, ((hp i).2 j).2 h, rfl, rfl⟩
    · rw [List.nodup_flatMap]
      refine ⟨fun i _ => (hp i).1.map (fun a b h => (Prod.mk.inj h).2), ?_⟩
      refine (hi.filter has).imp ?_
      intro a b hab
      simp only [Function.onFun, List.disjoint_left, List.mem_map]
      rintro p ⟨x, _, rfl⟩ ⟨y, _, h⟩
      exact hab (Prod.mk.inj h).1.symm
  have hmean : ((items.filter has).flatMap fun i => ranks n (dist i) (pos i) (pos i ++ known i)).map
        (fun r : Nat => (r : ℚ))
      = ((items.filter has).flatMap fun i => (pos i).map fun j => (i, j)).map
          fun p => (rank n dist (pairs ++ knownPairs) p.1 p.2 : ℚ) := by
    rw [List.map_flatMap, List.map_flatMap]
    congr 1
    funext i
    rw [hr]
    simp [Function.comp_def]
  have hap : (items.filter has).map (fun i => avgPrecision (ranks n (dist i) (pos i) (pos i ++ known i)))
      = (items.filter has).map fun i =>
          avgPrecision ((targets pairs i).map (rank n dist (pairs ++ knownPairs) i)) := by
    apply List.map_congr_left
    intro i _
    rw [hr]
    apply avgPrecision_perm
    apply List.Perm.map
    apply (List.perm_ext_iff_of_nodup (hp i).1 (List.nodup_dedup _)).2
    intro j
    rw [(hp i).2]
    exact (mem_targets pairs i j).symm
  unfold evaluate
  simp only [evaluated_all]
  rw [hmean, hap, npMean_perm (hall.map _), npMean_perm (hsrc.map _)]
  unfold npMean
  by_cases h0 : pairs = []
  · subst h0
    simp [sources]
  · have h1 : pairs.dedup ≠ [] := by
      intro h
      exact h0 (by
        cases pairs with
        | nil => rfl
        | cons p ps => have : p ∈ (p :: ps).dedup := List.mem_dedup.2 (by simp); rw [h] at this; simp at this)
    have h2 : sources pairs ≠ [] := by
      intro h
      cases pairs with
      | nil => exact h0 rfl
      | cons p ps =>
        have : p.1 ∈ sources (p :: ps) := List.mem_dedup.2 (by simp)
        rw [h] at this
        simp at this
    rw [if_neg h0, if_neg (by simpa using h1), if_neg (by simpa using h2)]
    simp

/-- **C126.** The reconstruction evaluation from the rows of the file to the result: with the sets run through in any
order, the pair of means over the distinct pairs of the file. -/
theorem C126_reconstruction (getIndex : Str → Option Nat) (rows : List (List Str)) (pairs : List (Nat × Nat))
    (h : rows.map (fun r => r.map getIndex) = pairs.map fun p => [some p.1, some p.2]) (hne : pairs ≠ [])
    (n : Nat) (dist : Nat → Nat → R) :
    ∃ items rel, reconstruction getIndex rows = .ok (items, rel) ∧
      ∀ (order : List Nat) (pos : Nat → List Nat), order.Perm items →
        (∀ i, (pos i).Perm (PyDict.getD rel i [])) →
        evaluate n dist order (fun i => (PyDict.get? rel i).isSome) pos (fun _ => []) none =
          (some ((pairs.dedup.map fun p => (rank n dist pairs p.1 p.2 : ℚ)).sum / pairs.dedup.length),
           some (((sources pairs).map fun i => avgPrecision ((targets pairs i).map (rank n dist pairs i))).sum
              / (sources pairs).length)) := by
  obtain ⟨items, rel, e1, e2, e3, e4, e5⟩ := C126_read getIndex rows pairs h
  refine ⟨items, rel, e1, fun order pos ho hpos => ?_⟩
  rw [C126_evaluate n dist order _ pos (fun _ => []) pairs [] (ho.symm.nodup e2)
    (fun p hp => ho.mem_iff.2 ((e3 _).2 ⟨p, hp, Or.inl rfl⟩)) e4
    (fun i => ⟨(hpos i).symm.nodup (e5 i).1, fun j => (hpos i).mem_iff.trans ((e5 i).2 j)⟩) (by simp)]
  rw [if_neg hne, List.append_nil]

/-- **C126.** The link prediction: the pairs of the test file are ranked against the nodes related in neither file. -/
theorem C126_link_prediction (getIndex : Str → Option Nat) (train test : List (List Str))
    (ps qs : List (Nat × Nat))
    (hp : train.map (fun r => r.map getIndex) = ps.map fun p => [some p.1, some p.2])
    (hq : test.map (fun r => r.map getIndex) = qs.map fun p => [some p.1, some p.2]) (hne : qs ≠ [])
    (n : Nat) (dist : Nat → Nat → R) :
    ∃ items known unknown, linkPrediction getIndex train test = .ok (items, known, unknown) ∧
      ∀ (order : List Nat) (pos kn : Nat → List Nat), order.Perm items →
        (∀ i, (pos i).Perm (PyDict.getD unknown i [])) → (∀ i, (kn i).Perm (PyDict.getD known i [])) →
        evaluate n dist order (fun i => (PyDict.get? unknown i).isSome) pos kn none =
          (some ((qs.dedup.map fun p => (rank n dist (qs ++ ps) p.1 p.2 : ℚ)).sum / qs.dedup.length),
           some (((sources qs).map fun i => avgPrecision ((targets qs i).map (rank n dist (qs ++ ps) i))).sum
              / (sources qs).length)) := by
  obtain ⟨items, known, unknown, e1, e2, e3, e4, e5, e6⟩ := C126_read_links getIndex train test ps qs hp hq
  refine ⟨items, known, unknown, e1, fun order pos kn ho hpos hkn => ?_⟩
  rw [C126_evaluate n dist order _ pos kn qs ps (ho.symm.nodup e2)
    (fun p hp => ho.mem_iff.2 ((e3 _).2 ⟨p, by simp [hp], Or.inl rfl⟩)) e4
    (fun i => ⟨(hpos i).symm.nodup (e6 i).1, fun j => (hpos i).mem_iff.trans ((e6 i).2 j)⟩)
    (fun i j => (hkn i).mem_iff.trans ((e5 i).2 j))]
  rw [if_neg hne]

/-- **C126 (finding).** With `max_n` the result depends on the order in which Python runs through the set of items. -/
theorem C126_max_n_order :
    ∃ (dist : Nat → Nat → Nat) (pos : Nat → List Nat) (order order' : List Nat), order.Perm order' ∧
      evaluate 4 dist order (fun i => decide (i < 3)) pos (fun _ => []) (some 0)
        ≠ evaluate 4 dist order' (fun i => decide (i < 3)) pos (fun _ => []) (some 0) := by
  refine ⟨fun i j => if i = 0 then j else if j = 3 then 0 else 1, fun _ => [3], [0, 1, 2, 3], [1, 0, 2, 3],
    List.Perm.swap _ _ _, ?_⟩
  intro h
  have := congrArg Prod.fst h
  revert this
  decide +kernel

/-! ## Lexical entailment -/

section Lexical

variable {K : Type} [Field K] [LinearOrder K]

theorem closest_fold (dist : Str → Str → K) (l : List (Str × Str)) (best : Option (Str × Str × K))
    (hb : ∀ q, best = some q → q.2.2 = dist q.1 q.2.1) (hne : best ≠ none ∨ l ≠ []) :
    ∃ a b, l.foldl (fun best p =>
      match best with
      | none => some (p.1, p.2, dist p.1 p.2)
      | some q => if dist p.1 p.2 < q.2.2 then some (p.1, p.2, dist p.1 p.2) else some q) best
        = some (a, b, dist a b) ∧
      ((a, b) ∈ l ∨ best = some (a, b, dist a b)) ∧ (∀ p ∈ l, dist a b ≤ dist p.1 p.2) ∧
      (∀ q, best = some q → dist a b ≤ q.2.2) := by
  induction l generalizing best with
  | nil =>
    rcases best with _ | ⟨a, b, d⟩
    · simp at hne
    · have := hb _ rfl
      simp only at this
      subst this
      exact ⟨a, b, rfl, Or.inr rfl, by simp, by rintro q ⟨⟩; exact le_refl _⟩
  | cons p l ih =>
    rw [List.foldl_cons]
    rcases best with _ | ⟨a, b, d⟩
    · obtain ⟨a, b, h1, h2, h3, h4⟩ := ih (some (p.1, p.2, dist p.1 p.2)) (by rintro q ⟨⟩; rfl) (Or.inl (by simp))
      refine ⟨a, b, h1, ?_, ?_, by simp⟩
      · rcases h2 with h2 | h2
        · exact Or.inl (List.mem_cons_of_mem _ h2)
        · left
          injection h2 with h2
          rw [← (Prod.mk.inj h2).1, ← (Prod.mk.inj (Prod.mk.inj h2).2).1]
          exact List.mem_cons_self
      · intro q hq
        rcases List.mem_cons.1 hq with rfl | hq
        · exact h4 _ rfl
        · exact h3 q hq
    · have hd := hb _ rfl
      simp only at hd
      subst hd
      by_cases hlt : dist p.1 p.2 < dist a b
      · simp only [hlt, if_true]
        obtain ⟨a', b', h1, h2, h3, h4⟩ := ih (some (p.1, p.2, dist p.1 p.2)) (by rintro q ⟨⟩; rfl) (Or.inl (by simp))
        refine ⟨a', b', h1, ?_, ?_, ?_⟩
        · rcases h2 with h2 | h2
          · exact Or.inl (List.mem_cons_of_mem _ h2)
          · left
            injection h2 with h2
            rw [← (Prod.mk.inj h2).1, ← (Prod.mk.inj (Prod.mk.inj h2).2).1]
            exact List.mem_cons_self
        · intro q hq
          rcases List.mem_cons.1 hq with rfl | hq
          · exact h4 _ rfl
          · exact h3 q hq
        · rintro q ⟨⟩
          exact le_of_lt (lt_of_le_of_lt (h4 _ rfl) hlt)
      · simp only [hlt, if_false]
        obtain ⟨a', b', h1, h2, h3, h4⟩ := ih (some (a, b, dist a b)) (by rintro q ⟨⟩; rfl) (Or.inl (by simp))
        refine ⟨a', b', h1, ?_, ?_, ?_⟩
        · rcases h2 with h2 | h2
          · exact Or.inl (List.mem_cons_of_mem _ h2)
          · exact Or.inr h2
        · intro q hq
          rcases List.mem_cons.1 hq with rfl | hq
          · exact le_trans (h4 _ rfl) (not_lt.1 hlt)
          · exact h3 q hq
        · rintro q ⟨⟩
          exact h4 _ rfl

/-- `k` is one of the senses of a word: the word, a dot and anything. -/
def Sense (keys : List Str) (word k : Str) : Prop := k ∈ keys ∧ ∃ s, k = word ++ '.' :: s

theorem findMatching_spec (trav : List Str → List Str) (ht : ∀ l, (trav l).Perm l) (keys : List Str) (word : Str) :
    (findMatching trav keys word = none ∧ ∀ k, ¬ Sense keys word k) ∨
    (∃ l, l ≠ [] ∧ findMatching trav keys word = some l ∧ ∀ k, k ∈ l ↔ Sense keys word k) := by
  have hm : ∀ k, k ∈ trav (keys.filter fun k => (word ++ ['.']).isPrefixOf k) ↔ Sense keys word k := by
    intro k
    rw [(ht _).mem_iff, List.mem_filter, List.isPrefixOf_iff_prefix]
    unfold Sense
    apply and_congr_right
    intro _
    constructor
    · rintro ⟨s, rfl⟩
      exact ⟨s, by simp⟩
    · rintro ⟨s, rfl⟩
      exact ⟨s, by simp⟩
  unfold findMatching
  cases h : trav (keys.filter fun k => (word ++ ['.']).isPrefixOf k) with
  | nil =>
    rw [h] at hm
    exact Or.inl ⟨rfl, fun k hk => by simpa using (hm k).2 hk⟩
  | cons a l =>
    rw [h] at hm
    exact Or.inr ⟨a :: l, by simp, rfl, hm⟩

/-- **C126.** The score of two words belongs to a pair of their senses at the least distance:
`-(1 + alpha·(norm of the second − norm of the first))` times the distance. A word without a sense in the embedding is a
`ValueError`; nothing else can go wrong. -/
theorem C126_score (trav : List Str → List Str) (ht : ∀ l, (trav l).Perm l) (keys : List Str) (dist : Str → Str → K)
    (norm : Str → K) (alpha : K) (w1 w2 : Str) :
    (((∀ k, ¬ Sense keys w1 k) ∨ ∀ k, ¬ Sense keys w2 k) →
      scoreFunction trav keys dist norm alpha w1 w2 = .error .value) ∧
    ((∃ k, Sense keys w1 k) → (∃ k, Sense keys w2 k) →
      ∃ t1 t2, Sense keys w1 t1 ∧ Sense keys w2 t2 ∧
        (∀ a b, Sense keys w1 a → Sense keys w2 b → dist t1 t2 ≤ dist a b) ∧
        scoreFunction trav keys dist norm alpha w1 w2
          = .ok (-(1 + alpha * (norm t2 - norm t1)) * dist t1 t2)) := by
  rcases findMatching_spec trav ht keys w1 with ⟨h1, n1⟩ | ⟨l1, ne1, h1, m1⟩ <;>
    rcases findMatching_spec trav ht keys w2 with ⟨h2, n2⟩ | ⟨l2, ne2, h2, m2⟩
  · refine ⟨fun _ => by unfold scoreFunction; rw [h1, h2], fun ⟨k, hk⟩ _ => absurd hk (n1 k)⟩
  · refine ⟨fun _ => by unfold scoreFunction; rw [h1, h2], fun ⟨k, hk⟩ _ => absurd hk (n1 k)⟩
  · refine ⟨fun _ => by unfold scoreFunction; rw [h1, h2], fun _ ⟨k, hk⟩ => absurd hk (n2 k)⟩
  · refine ⟨?_, fun _ _ => ?_⟩
    · rintro (h | h)
      · obtain ⟨x, hx⟩ := List.exists_mem_of_ne_nil _ ne1
        exact absurd ((m1 x).1 hx) (h x)
      · obtain ⟨x, hx⟩ := List.exists_mem_of_ne_nil _ ne2
        exact absurd ((m2 x).1 hx) (h x)
    · obtain ⟨x, hx⟩ := List.exists_mem_of_ne_nil _ ne1
      obtain ⟨y, hy⟩ := List.exists_mem_of_ne_nil _ ne2
      have hmem : ∀ a b, (a, b) ∈ (l1.flatMap fun a => l2.map fun b => (a, b)) ↔ a ∈ l1 ∧ b ∈ l2 := by
        intro a b
        simp
      obtain ⟨a, b, e1, e2, e3, _⟩ := closest_fold dist (l1.flatMap fun a => l2.map fun b => (a, b)) none (by simp)
        (Or.inr (List.ne_nil_of_mem ((hmem x y).2 ⟨hx, hy⟩)))
      have hab := (hmem a b).1 (e2.resolve_right (by simp))
      refine ⟨a, b, (m1 a).1 hab.1, (m2 b).1 hab.2, fun c d hc hd => e3 (c, d) ((hmem c d).2 ⟨(m1 c).2 hc, (m2 d).2 hd⟩), ?_⟩
      have : closest dist l1 l2 = some (a, b, dist a b) := e1
      unfold scoreFunction
      rw [h1, h2]
      simp only [this]
      congr 1
      ring

/-- **C126.** The score is directed: for words of one sense each, the two directions add up to minus twice the distance, and
the direction towards the node nearer to the origin scores higher. -/
theorem C126_direction [IsStrictOrderedRing K] (trav : List Str → List Str) (ht : ∀ l, (trav l).Perm l)
    (keys : List Str) (dist : Str → Str → K)
    (norm : Str → K) (alpha : K) (w1 w2 t1 t2 : Str) (hsym : dist t1 t2 = dist t2 t1)
    (h1 : ∀ k, Sense keys w1 k ↔ k = t1) (h2 : ∀ k, Sense keys w2 k ↔ k = t2) :
    ∃ s s', scoreFunction trav keys dist norm alpha w1 w2 = .ok s ∧
      scoreFunction trav keys dist norm alpha w2 w1 = .ok s' ∧ s + s' = -2 * dist t1 t2 ∧
      (0 < alpha → 0 < dist t1 t2 → (s' < s ↔ norm t2 < norm t1)) := by
  obtain ⟨a, b, ha, hb, _, e⟩ := (C126_score trav ht keys dist norm alpha w1 w2).2 ⟨t1, (h1 t1).2 rfl⟩ ⟨t2, (h2 t2).2 rfl⟩
  obtain ⟨b', a', hb', ha', _, e'⟩ :=
    (C126_score trav ht keys dist norm alpha w2 w1).2 ⟨t2, (h2 t2).2 rfl⟩ ⟨t1, (h1 t1).2 rfl⟩
  rw [h1] at ha ha'
  rw [h2] at hb hb'
  subst ha hb ha' hb'
  refine ⟨_, _, e, e', ?_, ?_⟩
  · rw [← hsym]
    ring
  · intro hal hd
    rw [← hsym]
    have hpos : 0 < 2 * (alpha * dist a' b') := by positivity
    have hdiff : -(1 + alpha * (norm b' - norm a')) * dist a' b' - -(1 + alpha * (norm a' - norm b')) * dist a' b'
        = 2 * (alpha * dist a' b') * (norm a' - norm b') := by ring
    constructor
    · intro h
      have h' : 0 < 2 * (alpha * dist a' b') * (norm a' - norm b') := by rw [← hdiff]; linarith
      have := (mul_pos_iff_of_pos_left hpos).1 h'
      linarith
    · intro h
      have h' := (mul_pos_iff_of_pos_left hpos).2 (sub_pos.2 h)
      rw [← hdiff] at h'
      linarith

/-- **C126.** The correlation is computed from the scores of exactly the pairs whose two words have a sense, each next to its
expected score, in the order of the file; the others are skipped and counted. -/
theorem C126_pairs (trav : List Str → List Str) (ht : ∀ l, (trav l).Perm l) (keys : List Str) (dist : Str → Str → K)
    (norm : Str → K) (alpha : K) (table : PyDict (Str × Str) K) :
    ∃ kept skipped : PyDict (Str × Str) K,
      kept.Sublist table ∧ kept.length + skipped.length = table.length ∧
      (∀ e, e ∈ kept ↔ e ∈ table ∧ (∃ k, Sense keys e.1.1 k) ∧ ∃ k, Sense keys e.1.2 k) ∧
      ∃ predicted, predicted.length = kept.length ∧
        lexLoop (scoreFunction trav keys dist norm alpha) table
          = .ok (predicted, kept.map Prod.snd, skipped.length) ∧
        ∀ i (hi : i < kept.length) (hi' : i < predicted.length),
          scoreFunction trav keys dist norm alpha kept[i].1.1 kept[i].1.2 = .ok predicted[i] := by
  induction table with
  | nil => exact ⟨[], [], List.Sublist.refl _, rfl, by simp, [], rfl, rfl, by simp⟩
  | cons e table ih =>
    obtain ⟨⟨w1, w2⟩, x⟩ := e
    obtain ⟨kept, skipped, s1, s2, s3, pr, l1, l2, l3⟩ := ih
    by_cases hb : (∃ k, Sense keys w1 k) ∧ ∃ k, Sense keys w2 k
    · obtain ⟨t1, t2, _, _, _, he⟩ := (C126_score trav ht keys dist norm alpha w1 w2).2 hb.1 hb.2
      refine ⟨((w1, w2), x) :: kept, skipped, s1.cons_cons _, ?_, ?_,
        (-(1 + alpha * (norm t2 - norm t1)) * dist t1 t2) :: pr, by simp [l1], ?_, ?_⟩
      · simp only [List.length_cons]
        omega
      · intro e
        rw [List.mem_cons, List.mem_cons, s3]
        constructor
        · rintro (rfl | h)
          · exact ⟨Or.inl rfl, hb⟩
          · exact ⟨Or.inr h.1, h.2⟩
        · rintro ⟨rfl | h, h'⟩
          · exact Or.inl rfl
          · exact Or.inr ⟨h, h'⟩
      · unfold lexLoop
        rw [he]
        simp only [l2]
        rfl
      · intro i hi hi'
        cases i with
        | zero => exact he
        | succ i => exact l3 i (by simpa using hi) (by simpa using hi')
    · have he := (C126_score trav ht keys dist norm alpha w1 w2).1 (by
        rw [not_and_or] at hb
        simpa using hb)
      refine ⟨kept, ((w1, w2), x) :: skipped, s1.cons _, ?_, ?_, pr, l1, ?_, l3⟩
      · simp only [List.length_cons]
        omega
      · intro e
        rw [List.mem_cons, s3]
        constructor
        · exact fun h => ⟨Or.inr h.1, h.2⟩
        · rintro ⟨rfl | h, h'⟩
          · exact absurd h' hb
          · exact ⟨h, h'⟩
      · unfold lexLoop
        rw [he]
        simp only [l2]
        rfl

theorem lexScores_get (rows : List (Str × Str × K)) (d : PyDict (Str × Str) K) (k : Str × Str) :
    PyDict.get? (rows.foldl (fun d r => PyDict.set d (r.1, r.2.1) r.2.2) d) k
      = match (rows.filter fun r => (r.1, r.2.1) = k).getLast? with
        | some r => some r.2.2
        | none => PyDict.get? d k := by
  induction rows using List.reverseRecOn with
  | nil => rfl
  | append_singleton rows r ih =>
    rw [List.foldl_append, List.foldl_cons, List.foldl_nil, PyDict.get?_set, List.filter_append]
    by_cases h : (r.1, r.2.1) = k
    · rw [if_pos h]
      simp [List.filter_cons, h]
    · rw [if_neg h, ih]
      simp [List.filter_cons, h]

/-- **C126.** The expected score of a pair is that of its last row. -/
theorem C126_last_row (rows : List (Str × Str × K)) (w1 w2 : Str) :
    PyDict.get? (lexScores rows) (w1, w2)
      = ((rows.filter fun r => r.1 = w1 ∧ r.2.1 = w2).getLast?).map fun r => r.2.2 := by
  unfold lexScores
  rw [lexScores_get]
  have : (rows.filter fun r => decide ((r.1, r.2.1) = (w1, w2))) = rows.filter fun r => decide (r.1 = w1 ∧ r.2.1 = w2) := by
    apply List.filter_congr
    intro r _
    simp
  rw [this]
  cases (rows.filter fun r => decide (r.1 = w1 ∧ r.2.1 = w2)).getLast? <;> rfl

/-- **C126.** `evaluate_spearman` hands the expected and the predicted scores to the correlation, with 1000 for `alpha`, and
never fails. -/
theorem C126_spearman {S : Type} (spearman : List K → List K → S) (trav : List Str → List Str)
    (ht : ∀ l, (trav l).Perm l) (keys : List Str) (dist : Str → Str → K) (norm : Str → K) (rows : List (Str × Str × K)) :
    ∃ kept : PyDict (Str × Str) K, ∃ predicted : List K,
      kept.Sublist (lexScores rows) ∧
      (∀ e, e ∈ kept ↔ e ∈ lexScores rows ∧ (∃ k, Sense keys e.1.1 k) ∧ ∃ k, Sense keys e.1.2 k) ∧
      predicted.length = kept.length ∧
      (∀ i (hi : i < kept.length) (hi' : i < predicted.length),
        scoreFunction trav keys dist norm 1000 kept[i].1.1 kept[i].1.2 = .ok predicted[i]) ∧
      evaluateSpearman spearman trav keys dist norm rows = .ok (spearman (kept.map Prod.snd) predicted) := by
  obtain ⟨kept, sk, s1, _, s3, pr, l1, l2, l3⟩ := C126_pairs trav ht keys dist norm 1000 (lexScores rows)
  refine ⟨kept, pr, s1, s3, l1, l3, ?_⟩
  unfold evaluateSpearman
  rw [l2]

end Lexical

/-- **C126 (finding).** When two pairs of senses are equally far apart, the score depends on the order in which the trie runs
through the senses. -/
theorem C126_tie :
    ∃ (dist : Str → Str → ℚ) (norm : Str → ℚ) (keys : List Str) (w1 w2 : Str),
      scoreFunction id keys dist norm 1000 w1 w2 ≠ scoreFunction List.reverse keys dist norm 1000 w1 w2 := by
  refine ⟨fun _ _ => 1, fun s => s.length, [['a', '.'], ['b', '.'], ['b', '.', '1']], ['a'], ['b'], ?_⟩
  intro h
  have e1 : scoreFunction id [['a', '.'], ['b', '.'], ['b', '.', '1']] (fun _ _ => (1 : ℚ)) (fun s => (s.length : ℚ)) 1000
      ['a'] ['b'] = .ok (-1) := by
    simp [scoreFunction, findMatching, closest]
  have e2 : scoreFunction List.reverse [['a', '.'], ['b', '.'], ['b', '.', '1']] (fun _ _ => (1 : ℚ))
      (fun s => (s.length : ℚ)) 1000 ['a'] ['b'] = .ok (-1001) := by
    simp [scoreFunction, findMatching, closest]
    norm_num
  rw [e1, e2] at h
  injection h with h
  norm_num at h

/-- Non-vacuity: a file with a duplicate row, and an embedding of four nodes. -/
example : ∃ (getIndex : Str → Option Nat) (rows : List (List Str)) (pairs : List (Nat × Nat)),
    rows.map (fun r => r.map getIndex) = pairs.map (fun p => [some p.1, some p.2]) ∧ pairs ≠ [] ∧ ¬ pairs.Nodup ∧
    pairs.dedup.length = 2 :=
  ⟨fun s => some s.length, [[['a'], []], [['a'], ['b', 'b']], [['a'], []]], [(1, 0), (1, 2), (1, 0)], rfl, by simp,
    by decide, by decide⟩

end Verif.PoincareEval
