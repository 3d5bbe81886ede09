import Verif.Coherence.SegmentModel
import Mathlib.Data.List.FinRange
import Mathlib.Data.List.Nodup

/-!
# C50: the segmentations enumerate the right pairs
-/

namespace Verif.Coherence

variable {α : Type}

/-- Specification: the pairs of words at the positions `(i, j)` with `R i j`, every such position
pair exactly once (`List.finRange` lists every position once), in row-major order. -/
def pairsWhere (top : List α) (R : Fin top.length → Fin top.length → Bool) : List (α × α) :=
  (List.finRange top.length).flatMap fun i =>
    ((List.finRange top.length).filter (R i)).map fun j => (top[i], top[j])

theorem map_getElem_finRange (l : List α) : (List.finRange l.length).map (fun i => l[i]) = l := by
  apply List.ext_getElem
  · simp
  · intro i h1 h2
    simp

theorem zipIdx_eq_finRange (l : List α) :
    l.zipIdx = (List.finRange l.length).map fun i => (l[i], i.val) := by
  apply List.ext_getElem
  · simp
  · intro i h1 h2
    simp

theorem take_eq_filter_finRange (l : List α) (k : Nat) :
    l.take k = ((List.finRange l.length).filter fun j => decide (j.val < k)).map fun j => l[j] := by
  induction l generalizing k with
  | nil => simp
  | cons a l ih =>
    cases k with
    | zero => simp
    | succ k =>
      rw [List.take_succ_cons, ih k]
      simp [List.finRange_succ, List.filter_map, Function.comp_def]

theorem zipIdx_tail (l : List α) : l.tail.zipIdx = (l.zipIdx.tail).map fun p => (p.1, p.2 - 1) := by
  cases l with
  | nil => rfl
  | cons a l =>
    simp only [List.tail_cons, List.zipIdx_cons]
    apply List.ext_getElem
    · simp
    · intro i h1 h2
      simp

theorem flatMap_congr_mem {β γ : Type} (l : List β) (f g : β → List γ)
    (h : ∀ x ∈ l, f x = g x) : l.flatMap f = l.flatMap g := by
  induction l with
  | nil => rfl
  | cons a l ih =>
    simp only [List.flatMap_cons]
    rw [h a (by simp), ih fun x hx => h x (by simp [hx])]

/-- **C50.** `s_one_pre` pairs every word with each word before it: for every topic it lists the
pairs at positions `(i, j)` with `j < i`, each once. -/
theorem C50_one_pre (topics : List (List α)) :
    sOnePre topics = topics.map fun top => pairsWhere top fun i j => decide (j < i) := by
  unfold sOnePre
  apply List.map_congr_left
  intro top _
  cases top with
  | nil => rfl
  | cons a l =>
    have hz : ((a :: l).drop 1).zipIdx
        = (List.finRange l.length).map fun i => ((a :: l)[i.succ], i.val) := by
      simp only [List.drop_succ_cons, List.drop_zero]
      rw [zipIdx_eq_finRange]
      apply List.map_congr_left
      intro i _
      simp
    unfold sOnePreTopic pairsWhere
    rw [hz]
    simp only [List.length_cons, List.finRange_succ, List.flatMap_cons, List.flatMap_map]
    have h0 : (((0 : Fin (l.length + 1)) :: (List.finRange l.length).map Fin.succ).filter
        fun j => decide (j < 0)) = [] := by
      rw [List.filter_eq_nil_iff]
      intro j _
      simp
    rw [h0]
    simp only [List.map_nil, List.nil_append]
    apply flatMap_congr_mem
    intro i _
    rw [take_eq_filter_finRange, List.map_map]
    simp only [List.length_cons, List.finRange_succ]
    have hf : (fun j : Fin (l.length + 1) => decide (j.val < i.val + 1))
        = fun j => decide (j < i.succ) := by
      funext j
      simp [Fin.lt_def]
    rw [hf]
    rfl

/-- **C50.** `s_one_one` lists, for every topic, the pairs at different positions, each ordered
pair of positions once. -/
theorem C50_one_one (topics : List (List α)) :
    sOneOne topics = topics.map fun top => pairsWhere top fun i j => decide (i ≠ j) := by
  unfold sOneOne
  apply List.map_congr_left
  intro top _
  unfold sOneOneTopic pairsWhere
  rw [zipIdx_eq_finRange]
  simp only [List.flatMap_map]
  apply flatMap_congr_mem
  intro i _
  generalize List.finRange top.length = L
  induction L with
  | nil => rfl
  | cons j L ih =>
    rw [List.flatMap_cons, ih]
    by_cases h : i = j
    · subst h
      simp
    · have : i.val ≠ j.val := fun hh => h (Fin.ext hh)
      simp [h, this]

/-- **C50.** `s_one_set` pairs every word, in order, with its whole topic. -/
theorem C50_one_set (topics : List (List α)) (t : Nat) (top : List α) (ht : topics[t]? = some top) :
    ∃ pairs, (sOneSet topics)[t]? = some pairs ∧ pairs.length = top.length ∧
      ∀ (i : Nat) (w : α), top[i]? = some w → pairs[i]? = some (w, top) := by
  refine ⟨sOneSetTopic top, ?_, ?_, ?_⟩
  · simp [sOneSet, ht]
  · simp [sOneSetTopic]
  · intro i w hw
    simp [sOneSetTopic, hw]

/-- **C50.** One list of pairs per topic, and none of the functions drops or merges topics. -/
theorem C50_one_list_per_topic (topics : List (List α)) :
    (sOnePre topics).length = topics.length ∧ (sOneOne topics).length = topics.length ∧
      (sOneSet topics).length = topics.length := by
  simp [sOnePre, sOneOne, sOneSet]

/-- The specification lists a position pair at most once when the words are distinct, and lists
exactly the pairs it should. -/
theorem C50_pairs_spec (top : List α) (R : Fin top.length → Fin top.length → Bool) :
    (∀ p, p ∈ pairsWhere top R ↔ ∃ i j, R i j = true ∧ p = (top[i], top[j])) ∧
      (top.Nodup → (pairsWhere top R).Nodup) := by
  constructor
  · intro p
    simp only [pairsWhere, List.mem_flatMap, List.mem_finRange, true_and, List.mem_map,
      List.mem_filter]
    constructor
    · rintro ⟨i, j, h, rfl⟩
      exact ⟨i, j, h, rfl⟩
    · rintro ⟨i, j, h, rfl⟩
      exact ⟨i, j, h, rfl⟩
  · intro hnd
    have inj : ∀ i j : Fin top.length, top[i] = top[j] → i = j := by
      intro i j h
      exact Fin.ext ((hnd.getElem_inj_iff).1 h)
    unfold pairsWhere
    rw [List.nodup_flatMap]
    constructor
    · intro i _
      refine List.Nodup.map_on ?_ (List.Nodup.filter _ (List.nodup_finRange _))
      intro x _ y _ h
      exact inj x y (by simpa using h)
    · refine List.Pairwise.imp ?_ (List.nodup_finRange top.length)
      intro i j hij
      intro p hp hq
      simp only [List.mem_map, List.mem_filter] at hp hq
      obtain ⟨a, _, rfl⟩ := hp
      obtain ⟨b, _, hb⟩ := hq
      exact hij (inj i j (by simpa using (congrArg Prod.fst hb).symm))

example : sOnePre [[9, 4, 6], [9, 10, 7]] =
    [[(4, 9), (6, 9), (6, 4)], [(10, 9), (7, 9), (7, 10)]] := by decide +kernel

example : sOneOne [[9, 4, 6]] = [[(9, 4), (9, 6), (4, 9), (4, 6), (6, 9), (6, 4)]] := by
  decide +kernel

end Verif.Coherence
