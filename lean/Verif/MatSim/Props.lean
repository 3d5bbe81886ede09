import Verif.MatSim.Model
import Verif.Matutils.SparseProps
import Verif.Matutils.NormProps
import Verif.Utils.ChunkProps
import Verif.Docsim.IterProps
import Mathlib.Algebra.Order.BigOperators.Ring.Finset
import Mathlib.Algebra.Order.Chebyshev
import Mathlib.Algebra.BigOperators.Field
import Mathlib.Tactic.Linarith
import Mathlib.Tactic.FieldSimp
import Mathlib.Tactic.Positivity

/-!
# Properties of the in-memory similarity indexes (C109)
-/

namespace Verif.MatSim
open Verif Matutils

/-! ## Specification -/

/-- the weight of term `t` in a document -/
def weight (d : Doc) (t : Nat) : ℝ := ((d.filter fun p => p.1 = t).map (·.2)).sum

/-- every term at most once, all term ids below the number of features -/
def Clean (n : Nat) (d : Doc) : Prop := (d.map (·.1)).Nodup ∧ ∀ p ∈ d, p.1 < n

/-- a document without words, or with a weight that is not zero -/
def Weighted (d : Doc) : Prop := d = [] ∨ ∃ p ∈ d, p.2 ≠ 0

/-- the Euclidean length of a document -/
noncomputable def len (n : Nat) (d : Doc) : ℝ := √(∑ t ∈ Finset.range n, weight d t ^ 2)

/-- the cosine of the angle between two documents, 0 if one of them has no weights -/
noncomputable def cosine (n : Nat) (q d : Doc) : ℝ :=
  (∑ t ∈ Finset.range n, weight q t * weight d t) / (len n q * len n d)

/-- how the similarities to all documents are reported for one query: as they are, or the `numBest`
best of them -/
noncomputable def reply (srt : List ℝ → List Nat) (part : List ℝ → Nat → List Nat)
    (numBest : Option Int) (v : List ℝ) : Answer :=
  match numBest with
  | none => .vec v
  | some k => .pairs (full2sparseClipped srt part (1 / 10 ^ 9) v k)

/-- how they are reported for several queries -/
noncomputable def replies (srt : List ℝ → List Nat) (part : List ℝ → Nat → List Nat)
    (numBest : Option Int) (m : List (List ℝ)) : Answer :=
  match numBest with
  | none => .mat m
  | some k => .pairss (m.map fun v => full2sparseClipped srt part (1 / 10 ^ 9) v k)

/-! ## Lemmas -/

theorem weight_nil (t : Nat) : weight [] t = 0 := rfl

theorem weight_cons (p : Nat × ℝ) (d : Doc) (t : Nat) :
    weight (p :: d) t = (if p.1 = t then p.2 else 0) + weight d t := by
  unfold weight
  by_cases h : p.1 = t <;> simp [h]

theorem weight_of_not_mem {d : Doc} {t : Nat} (h : t ∉ d.map (·.1)) : weight d t = 0 := by
  induction d with
  | nil => rfl
  | cons p d ih =>
    rw [weight_cons, ih (fun hh => h (by simp only [List.map_cons, List.mem_cons]; exact .inr hh))]
    rw [if_neg (fun hh => h (by simp [hh]))]; simp

theorem weight_map_div (d : Doc) (c : ℝ) (t : Nat) :
    weight (d.map fun p => (p.1, p.2 / c)) t = weight d t / c := by
  induction d with
  | nil => simp [weight_nil]
  | cons p d ih =>
    rw [List.map_cons, weight_cons, weight_cons, ih]
    by_cases h : p.1 = t <;> simp [h, add_div]

theorem getD_eq_weight {d : Doc} (h : (d.map (·.1)).Nodup) (t : Nat) :
    PyDict.getD (PyDict.ofPairs d) t 0 = weight d t := by
  have hwf : PyDict.WF (ν := ℝ) d := h
  rw [PyDict.ofPairs_of_WF hwf]
  clear hwf
  induction d with
  | nil => rfl
  | cons p d ih =>
    obtain ⟨k, v⟩ := p
    simp only [List.map_cons, List.nodup_cons] at h
    rw [weight_cons]
    by_cases hk : k = t
    · subst hk
      rw [weight_of_not_mem h.1]
      simp [PyDict.getD, PyDict.get?_cons]
    · have := ih h.2
      simp only [PyDict.getD, PyDict.get?_cons] at this ⊢
      rw [if_neg hk, this]; simp [hk]

theorem sum_sq {n : Nat} {d : Doc} (h : Clean n d) :
    (d.map fun p => p.2 ^ 2).sum = ∑ t ∈ Finset.range n, weight d t ^ 2 := by
  induction d with
  | nil => simp [weight_nil]
  | cons p d ih =>
    obtain ⟨h1, h2⟩ := h
    simp only [List.map_cons, List.nodup_cons] at h1
    rw [List.map_cons, List.sum_cons, ih ⟨h1.2, fun q hq => h2 q (by simp [hq])⟩]
    have : ∀ t ∈ Finset.range n, weight (p :: d) t ^ 2 = (if p.1 = t then p.2 ^ 2 else 0) + weight d t ^ 2 := by
      intro t _
      rw [weight_cons]
      by_cases hk : p.1 = t
      · subst hk
        rw [weight_of_not_mem h1.1]; simp
      · simp [hk]
    rw [Finset.sum_congr rfl this, Finset.sum_add_distrib, Finset.sum_ite_eq]
    simp [h2 p (by simp)]

theorem sparseLen_eq_len {n : Nat} {d : Doc} (h : Clean n d) : sparseLen .l2 d = len n d := by
  simp only [sparseLen, pySum_eq, len, sum_sq h]

theorem len_nonneg (n : Nat) (d : Doc) : 0 ≤ len n d := Real.sqrt_nonneg _

theorem len_sq (n : Nat) (d : Doc) : len n d ^ 2 = ∑ t ∈ Finset.range n, weight d t ^ 2 :=
  Real.sq_sqrt (Finset.sum_nonneg fun _ _ => sq_nonneg _)

theorem weight_of_len {n : Nat} {d : Doc} (h : len n d = 0) {t : Nat} (ht : t < n) : weight d t = 0 := by
  have h2 := len_sq n d
  rw [h] at h2
  have := (Finset.sum_eq_zero_iff_of_nonneg (fun _ _ => sq_nonneg (weight d _))).1 (by simpa using h2.symm) t
    (Finset.mem_range.2 ht)
  simpa using this

theorem len_pos {n : Nat} {d : Doc} (h : Clean n d) (hw : ∃ p ∈ d, p.2 ≠ 0) : 0 < len n d := by
  rw [← sparseLen_eq_len h, sparseLen_eq]
  refine lt_of_le_of_ne (normOf_nonneg _ _) (fun e => ?_)
  obtain ⟨p, hp, hp0⟩ := hw
  exact hp0 ((normOf_eq_zero .l2 (by decide) _).1 e.symm p.2 (List.mem_map_of_mem hp))

/-- the document divided by its length -/
noncomputable def unit (n : Nat) (d : Doc) : Doc := d.map fun p => (p.1, p.2 / len n d)

theorem weight_unit (n : Nat) (d : Doc) (t : Nat) : weight (unit n d) t = weight d t / len n d :=
  weight_map_div _ _ _

theorem clean_unit {n : Nat} {d : Doc} (h : Clean n d) : Clean n (unit n d) := by
  refine ⟨by simpa [unit, Function.comp_def] using h.1, fun p hp => ?_⟩
  simp only [unit, List.mem_map] at hp
  obtain ⟨q, hq, rfl⟩ := hp
  exact h.2 q hq

theorem unitvec_eq {n : Nat} {d : Doc} (h : Clean n d) (hw : Weighted d) :
    unitvecSparse .l2 d = some (unit n d) := by
  rcases hw with rfl | hw
  · rfl
  · have hp := len_pos h hw
    rw [← sparseLen_eq_len h] at hp
    cases d with
    | nil => obtain ⟨p, hp, _⟩ := hw; simp at hp
    | cons p d =>
      simp only [unitvecSparse]
      rw [if_pos hp, retNormalized_eq, sparseLen_eq_len h]
      rfl

theorem unitvec_none {d : Doc} (h0 : d ≠ []) (hz : ∀ p ∈ d, p.2 = 0) : unitvecSparse .l2 d = none := by
  have : sparseLen .l2 d = 0 := by
    rw [sparseLen_eq]
    exact (normOf_eq_zero .l2 (by decide) _).2 (by simpa using fun b a hb => hz (a, b) hb)
  cases d with
  | nil => exact absurd rfl h0
  | cons p d => simp only [unitvecSparse]; rw [if_neg (by rw [this]; simp)]

theorem full_eq {n : Nat} {d : Doc} (h : Clean n d) :
    sparse2full d n = some ((List.range n).map (weight d)) := by
  unfold sparse2full
  have hwf : PyDict.WF (ν := ℝ) d := h.1
  have hk : ((PyDict.keys (PyDict.ofPairs d)).all fun i => decide (i < n)) = true := by
    rw [PyDict.ofPairs_of_WF hwf, List.all_eq_true]
    intro i hi
    obtain ⟨p, hp, rfl⟩ := List.mem_map.1 hi
    simpa using h.2 p hp
  simp only [hk, if_true]
  congr 1
  exact List.map_congr_left fun t _ => getD_eq_weight h.1 t

theorem sum_range_map (n : Nat) (f : Nat → ℝ) : ((List.range n).map f).sum = ∑ t ∈ Finset.range n, f t := by
  induction n with
  | zero => simp
  | succ n ih => rw [List.range_succ, List.map_append, List.sum_append, ih, Finset.sum_range_succ]; simp

theorem dot_range (n : Nat) (f g : Nat → ℝ) :
    dot ((List.range n).map f) ((List.range n).map g) = ∑ t ∈ Finset.range n, f t * g t := by
  unfold dot
  rw [List.zipWith_map, List.zipWith_self, sum_range_map]

/-- the dense row of a document in the index -/
noncomputable def denseUnit (n : Nat) (d : Doc) : List ℝ :=
  (List.range n).map fun t => weight d t / len n d

theorem unitvecDense_eq (n : Nat) (d : Doc) :
    unitvecDense .l2 ((List.range n).map (weight d)) = denseUnit n d := by
  have hl : denseLen .l2 ((List.range n).map (weight d)) = len n d := by
    unfold denseLen len
    simp only [List.length_map, List.length_range, pySum_eq, List.map_map]
    rw [show ((fun x : ℝ => x ^ 2) ∘ weight d) = fun t => weight d t ^ 2 from rfl, sum_range_map]
    by_cases h : n = 0
    · subst h; simp
    · rw [if_neg h]
  unfold unitvecDense denseUnit
  rw [hl]
  by_cases hp : 0 < len n d
  · simp only [hp, if_true, List.map_map]
    apply List.map_congr_left
    intro t _
    simp only [Function.comp]; ring
  · have h0 : len n d = 0 := le_antisymm (not_lt.1 hp) (len_nonneg _ _)
    simp only [hp, if_false]
    apply List.map_congr_left
    intro t ht
    rw [weight_of_len h0 (List.mem_range.1 ht)]; simp

theorem mapM_some {α β : Type} {f : α → Option β} {g : α → β} {l : List α} (h : ∀ x ∈ l, f x = some (g x)) :
    l.mapM f = some (l.map g) := by
  induction l with
  | nil => rfl
  | cons a l ih =>
    rw [List.mapM_cons, h a (by simp), ih fun x hx => h x (by simp [hx])]
    rfl

theorem mapM_ok {α β ε : Type} {f : α → Except ε β} {g : α → β} {l : List α} (h : ∀ x ∈ l, f x = .ok (g x)) :
    l.mapM f = .ok (l.map g) := by
  induction l with
  | nil => rfl
  | cons a l ih =>
    rw [List.mapM_cons, h a (by simp), ih fun x hx => h x (by simp [hx])]
    rfl

theorem mapM_map_ok {α β γ ε : Type} {f : α → Except ε β} {h : γ → α} {g : γ → β} {l : List γ}
    (hl : ∀ x ∈ l, f (h x) = .ok (g x)) : (l.map h).mapM f = .ok (l.map g) := by
  induction l with
  | nil => rfl
  | cons a l ih =>
    rw [List.map_cons, List.mapM_cons, hl a (by simp), ih fun x hx => hl x (by simp [hx])]
    rfl

theorem mapM_none {α β : Type} {f : α → Option β} {l : List α} {x : α} (hx : x ∈ l) (h : f x = none) :
    l.mapM f = none := by
  induction l with
  | nil => simp at hx
  | cons a l ih =>
    rw [List.mapM_cons]
    rcases List.mem_cons.1 hx with rfl | hx
    · rw [h]; rfl
    · rw [ih hx]; cases f a <;> rfl

theorem inner_unit (n : Nat) (q d : Doc) :
    ∑ t ∈ Finset.range n, weight d t / len n d * (weight q t / len n q) = cosine n q d := by
  unfold cosine
  rw [Finset.sum_div]
  apply Finset.sum_congr rfl
  intro t _
  rw [div_mul_div_comm, mul_comm (weight d t), mul_comm (len n d)]

theorem dot_unit (n : Nat) (q d : Doc) : dot (denseUnit n d) (denseUnit n q) = cosine n q d := by
  unfold denseUnit
  rw [dot_range, inner_unit]

theorem matBuild_eq {n : Nat} (hn : 0 < n) {docs : List Doc} (hd : ∀ d ∈ docs, Clean n d) :
    matBuild (some n) docs = .ok (n, docs.map (denseUnit n)) := by
  unfold matBuild
  simp only
  rw [if_neg (by omega), mapM_some (g := denseUnit n) fun d h => by
    rw [full_eq (hd d h), Option.map_some, unitvecDense_eq]]

theorem full_unit {n : Nat} {d : Doc} (h : Clean n d) :
    sparse2full (unit n d) n = some (denseUnit n d) := by
  rw [full_eq (clean_unit h)]
  congr 1
  exact List.map_congr_left fun t _ => weight_unit n d t

section
variable (srt : List ℝ → List Nat) (part : List ℝ → Nat → List Nat)

theorem clip_vec (numBest : Option Int) (v : List ℝ) :
    clip srt part false numBest (.vec v) = .ok (reply srt part numBest v) := by
  cases numBest <;> rfl

theorem clip_mat (numBest : Option Int) (m : List (List ℝ)) :
    clip srt part false numBest (.mat m) = .ok (replies srt part numBest m) := by
  cases numBest <;> rfl

theorem items_replies (numBest : Option Int) (m : List (List ℝ)) :
    items (replies srt part numBest m) = m.map fun v => .ans (reply srt part numBest v) := by
  cases numBest <;> simp [replies, reply, items, Function.comp_def]

/-! ## The dense index -/

/-- **C109.** `MatrixSimilarity(docs, num_features=n)[query]` is the cosine of the query to every
document, in the order of the documents (with `num_best`: the best of them). -/
theorem C109_dense {n : Nat} (hn : 0 < n) {docs : List Doc} (hd : ∀ d ∈ docs, Clean n d)
    (numBest : Option Int) {q : Doc} (hq : Clean n q) (hw : Weighted q) :
    matQuery srt part (some n) docs numBest (.doc q) =
      .ok (reply srt part numBest (docs.map (cosine n q))) := by
  unfold matQuery
  rw [matBuild_eq hn hd]
  simp only [getitem, normQuery, asPython, unitvec_eq hq hw, if_true, matSims, full_unit hq, List.map_map]
  rw [clip_vec]
  congr 3
  funext d
  exact dot_unit n q d

/-- **C109.** A query that is a list of documents is answered by the answers to its documents. -/
theorem C109_dense_corpus {n : Nat} (hn : 0 < n) {docs : List Doc} (hd : ∀ d ∈ docs, Clean n d)
    (numBest : Option Int) {qs : List Doc} (h0 : qs ≠ []) (hq : ∀ q ∈ qs, Clean n q ∧ Weighted q) :
    matQuery srt part (some n) docs numBest (.corpus qs) =
      .ok (replies srt part numBest (qs.map fun q => docs.map (cosine n q))) := by
  unfold matQuery
  rw [matBuild_eq hn hd]
  have ha : asPython (.corpus qs) = .corpus qs := by cases qs <;> simp_all [asPython]
  have hb : asPython (.corpus (qs.map (unit n))) = .corpus (qs.map (unit n)) := by
    cases qs <;> simp_all [asPython]
  have hm := mapM_some (f := unitvecSparse .l2) (g := unit n) fun q h => unitvec_eq (hq q h).1 (hq q h).2
  have hf := mapM_some (f := fun d => sparse2full d n) (l := qs.map (unit n))
    (g := fun u => (List.range n).map (weight u)) (fun u hu => by
      obtain ⟨q, h, rfl⟩ := List.mem_map.1 hu
      exact full_eq (clean_unit (hq q h).1))
  simp only [getitem, normQuery, ha, hm, if_true, matSims, hb, hf, List.map_map]
  rw [clip_mat]
  congr 3
  funext q
  apply List.map_congr_left
  intro d _
  have : (List.range n).map (weight (unit n q)) = denseUnit n q :=
    List.map_congr_left fun t _ => weight_unit n q t
  simp only [Function.comp, this]
  exact dot_unit n q d

theorem dense_rows {n : Nat} {docs : List Doc} (numBest : Option Int) (ds : List Doc) :
    getitem srt part (matSims n (docs.map (denseUnit n))) false false numBest (.rows (ds.map (denseUnit n))) =
      .ok (replies srt part numBest (ds.map fun q => docs.map (cosine n q))) := by
  simp only [getitem, normQuery, matSims, asPython, Bool.false_eq_true, if_false]
  rw [if_pos (by simp [denseUnit])]
  simp only [List.map_map]
  rw [clip_mat]
  congr 3
  funext q
  apply List.map_congr_left
  intro d _
  exact dot_unit n q d

theorem dense_single {n : Nat} {docs : List Doc} (numBest : Option Int) (q : Doc) :
    getitem srt part (matSims n (docs.map (denseUnit n))) false false numBest (.dense (denseUnit n q)) =
      .ok (reply srt part numBest (docs.map (cosine n q))) := by
  simp only [getitem, normQuery, matSims, asPython, Bool.false_eq_true, if_false]
  rw [if_pos (by simp [denseUnit])]
  simp only [List.map_map]
  rw [clip_vec]
  congr 3
  funext d
  exact dot_unit n q d

theorem chunks_map {α β : Type} {k : Nat} (hk : 0 < k) (f : α → β) (l : List α) :
    Chunk.chunks k (l.map f) = (Chunk.chunks k l).map (List.map f) := by
  induction l using Chunk.chunk_ind hk with
  | h0 => simp [Chunk.chunks_nil]
  | h1 l hl ih =>
    rw [Chunk.chunks_cons hk hl, Chunk.chunks_cons hk (by simpa using hl), List.map_cons, ← List.map_take,
      ← List.map_drop, ih]

/-- **C109.** Iterating over a dense index yields for every document, in order, what querying with
that document gives, for every chunk size. -/
theorem C109_dense_iter {n : Nat} (hn : 0 < n) {docs : List Doc} (hd : ∀ d ∈ docs, Clean n d)
    (numBest : Option Int) (chunksize : Nat) :
    matIter srt part (some n) docs numBest chunksize =
      .ok (docs.map fun d => .ans (reply srt part numBest (docs.map (cosine n d)))) := by
  unfold matIter
  rw [matBuild_eq hn hd]
  simp only [iterate]
  by_cases hc : 1 < chunksize
  · rw [if_pos hc, chunks_map (by omega), mapM_map_ok
      (f := fun c => getitem srt part (matSims n (docs.map (denseUnit n))) false false numBest (.rows c))
      (h := List.map (denseUnit n)) fun ds _ => dense_rows srt part numBest ds]
    simp only [List.flatMap_map, items_replies, List.map_map]
    congr 1
    conv_rhs => rw [← Chunk.C15_concat (show 0 < chunksize by omega) docs]
    rw [List.map_flatten, List.flatMap_def, Chunk.C15_concat (by omega) docs]
    rfl
  · rw [if_neg hc, mapM_map_ok
      (f := fun r => getitem srt part (matSims n (docs.map (denseUnit n))) false false numBest (.dense r))
      (h := denseUnit n) fun d _ => dense_single srt part numBest d]
    simp only [List.map_map]
    rfl

/-! ## The sparse index -/

theorem csc_shape (n : Nat) (ds : List Doc) :
    (corpus2cscSlow (some n) ds).numTerms = n ∧ (corpus2cscSlow (some n) ds).numDocs = ds.length := by
  refine ⟨rfl, ?_⟩
  exact (C19_csc_entries ds (some n)).1

theorem csc_entry (n : Nat) (ds : List Doc) {j : Nat} (hj : j < ds.length) (t : Nat) :
    (corpus2cscSlow (some n) ds).entry t j = weight ds[j] t :=
  (C19_csc_entries ds (some n)).2.2.2 t j ds[j] (List.getElem?_eq_getElem hj)

theorem indexRow_eq (n : Nat) (ds : List Doc) :
    (List.range (corpus2cscSlow (some n) ds).numDocs).map (indexRow (corpus2cscSlow (some n) ds)) = ds := by
  rw [(csc_shape n ds).2]
  apply List.ext_getElem (by simp)
  intro j h1 hj
  simp only [List.getElem_map, List.getElem_range, indexRow]
  have hm : corpus2cscSlow (some n) ds = _ := rfl
  conv_rhs at hm => simp only [corpus2cscSlow]
  rw [slow_fold] at hm
  simp only [Nat.zero_add, List.nil_append] at hm
  rw [hm]
  have o1 := offsets_getD ds 0 j (by omega)
  have o2 := offsets_getD ds 0 (j + 1) (by omega)
  simp only [List.singleton_append, Nat.zero_add] at o1 o2 ⊢
  rw [o1, o2]
  have hz : (ds.flatten.map (·.1)).zip (ds.flatten.map (·.2)) = ds.flatten := by
    rw [List.zip_map']; simp
  rw [hz]
  have hsplit : ds = ds.take j ++ ds[j] :: ds.drop (j + 1) := by
    rw [← List.drop_eq_getElem_cons hj, List.take_append_drop]
  have ht : ds.take (j + 1) = ds.take j ++ [ds[j]] := by
    rw [List.take_add_one, List.getElem?_eq_getElem hj]; rfl
  have hf : ds.flatten = (ds.take j).flatten ++ (ds[j] ++ (ds.drop (j + 1)).flatten) := by
    conv_lhs => rw [hsplit]
    rw [List.flatten_append, List.flatten_cons]
  rw [ht, hf, List.flatten_append]
  generalize (ds.take j).flatten = X
  simp [List.take_append]

theorem spDot_eq (n : Nat) (us ms : List Doc) {i c : Nat} (hi : i < us.length) (hc : c < ms.length) :
    spDot (corpus2cscSlow (some n) us) (corpus2cscSlow (some n) ms) i c =
      ∑ t ∈ Finset.range n, weight us[i] t * weight ms[c] t := by
  unfold spDot
  rw [(csc_shape n us).1, sum_range_map]
  exact Finset.sum_congr rfl fun t _ => by rw [csc_entry n us hi, csc_entry n ms hc]

theorem spCol_eq (n : Nat) (us ms : List Doc) {c : Nat} (hc : c < ms.length) :
    ((List.range (corpus2cscSlow (some n) us).numDocs).map fun i =>
      spDot (corpus2cscSlow (some n) us) (corpus2cscSlow (some n) ms) i c) =
      us.map fun u => ∑ t ∈ Finset.range n, weight u t * weight ms[c] t := by
  rw [(csc_shape n us).2]
  apply List.ext_getElem (by simp)
  intro i h1 h2
  simp only [List.getElem_map, List.getElem_range]
  exact spDot_eq n us ms (by simpa using h2) hc

theorem spCols_eq {γ : Type} (n : Nat) (us ms : List Doc) (f : List ℝ → γ) :
    ((List.range (corpus2cscSlow (some n) ms).numDocs).map fun c =>
      f ((List.range (corpus2cscSlow (some n) us).numDocs).map fun i =>
        spDot (corpus2cscSlow (some n) us) (corpus2cscSlow (some n) ms) i c)) =
      ms.map fun m => f (us.map fun u => ∑ t ∈ Finset.range n, weight u t * weight m t) := by
  rw [(csc_shape n ms).2]
  apply List.ext_getElem (by simp)
  intro i h1 h2
  simp only [List.getElem_map, List.getElem_range]
  rw [spCol_eq n us ms (by simpa using h2)]

theorem spProduct_one (maintain : Bool) (n : Nat) (us : List Doc) (m : Doc) :
    spProduct maintain (corpus2cscSlow (some n) us) (corpus2cscSlow (some n) [m]) false =
      .vec (us.map fun u => ∑ t ∈ Finset.range n, weight u t * weight m t) := by
  unfold spProduct
  simp only
  rw [if_pos ⟨(csc_shape n [m]).2, trivial⟩, spCol_eq n us [m] (by simp)]
  simp

theorem spProduct_many (maintain : Bool) (n : Nat) (us ms : List Doc) (isC : Bool)
    (h : ¬ (ms.length = 1 ∧ isC = false)) :
    spProduct maintain (corpus2cscSlow (some n) us) (corpus2cscSlow (some n) ms) isC =
      if maintain then .spmat (ms.map fun m => storedRow (us.map fun u => ∑ t ∈ Finset.range n, weight u t * weight m t))
      else .mat (ms.map fun m => us.map fun u => ∑ t ∈ Finset.range n, weight u t * weight m t) := by
  unfold spProduct
  simp only
  rw [if_neg (by rw [(csc_shape n ms).2]; exact h), spCols_eq n us ms storedRow, spCols_eq n us ms fun x => x]

theorem inner_unit' (n : Nat) (q d : Doc) :
    ∑ t ∈ Finset.range n, weight (unit n d) t * weight (unit n q) t = cosine n q d := by
  simp only [weight_unit]
  exact inner_unit n q d

theorem spBuild_eq {n : Nat} {docs : List Doc} (hd : ∀ d ∈ docs, Clean n d ∧ Weighted d) :
    spBuild (some n) docs = .ok (corpus2cscSlow (some n) (docs.map (unit n))) := by
  unfold spBuild
  simp only
  rw [mapM_some fun d h => unitvec_eq (hd d h).1 (hd d h).2]

/-- **C109.** `SparseMatrixSimilarity(docs, num_features=n)[query]` is the cosine of the query to every
document too. -/
theorem C109_sparse {n : Nat} {docs : List Doc} (hd : ∀ d ∈ docs, Clean n d ∧ Weighted d)
    (numBest : Option Int) {q : Doc} (hq : Clean n q) (hw : Weighted q) :
    spQuery srt part (some n) docs false numBest (.doc q) =
      .ok (reply srt part numBest (docs.map (cosine n q))) := by
  unfold spQuery
  rw [spBuild_eq hd]
  simp only [getitem, normQuery, asPython, unitvec_eq hq hw, if_true, spSims, (csc_shape n _).1]
  rw [spProduct_one, clip_vec, List.map_map]
  congr 3
  funext d
  exact inner_unit' n q d

/-- **C109.** A list of documents as query. -/
theorem C109_sparse_corpus {n : Nat} {docs : List Doc} (hd : ∀ d ∈ docs, Clean n d ∧ Weighted d)
    (numBest : Option Int) {qs : List Doc} (h0 : qs ≠ []) (hq : ∀ q ∈ qs, Clean n q ∧ Weighted q) :
    spQuery srt part (some n) docs false numBest (.corpus qs) =
      .ok (replies srt part numBest (qs.map fun q => docs.map (cosine n q))) ∧
    spQuery srt part (some n) docs true none (.corpus qs) =
      .ok (.spmat (qs.map fun q => storedRow (docs.map (cosine n q)))) := by
  have ha : asPython (.corpus qs) = .corpus qs := by cases qs <;> simp_all [asPython]
  have hb : asPython (.corpus (qs.map (unit n))) = .corpus (qs.map (unit n)) := by
    cases qs <;> simp_all [asPython]
  have hm := mapM_some (f := unitvecSparse .l2) (g := unit n) fun q h => unitvec_eq (hq q h).1 (hq q h).2
  have hrow : ∀ q : Doc, ((docs.map (unit n)).map fun u => ∑ t ∈ Finset.range n, weight u t * weight (unit n q) t) =
      docs.map (cosine n q) := by
    intro q
    rw [List.map_map]
    exact List.map_congr_left fun d _ => inner_unit' n q d
  constructor
  · unfold spQuery
    rw [spBuild_eq hd]
    simp only [getitem, normQuery, ha, hm, if_true, spSims, hb, (csc_shape n _).1]
    rw [spProduct_many _ _ _ _ _ (by simp)]
    simp only [Bool.false_eq_true, if_false]
    rw [clip_mat, List.map_map]
    congr 3
    funext q
    exact hrow q
  · unfold spQuery
    rw [spBuild_eq hd]
    simp only [getitem, normQuery, ha, hm, if_true, spSims, hb, (csc_shape n _).1]
    rw [spProduct_many _ _ _ _ _ (by simp)]
    simp only [if_true, clip]
    rw [List.map_map]
    congr 3
    funext q
    simp only [Function.comp, hrow q]

theorem sparse_rows {n : Nat} {docs : List Doc} (numBest : Option Int) (ds : List Doc) :
    getitem srt part (spSims false (corpus2cscSlow (some n) (docs.map (unit n)))) false false numBest
      (.csr (ds.map (unit n))) =
      .ok (match ds with
        | [q] => reply srt part numBest (docs.map (cosine n q))
        | ds => replies srt part numBest (ds.map fun q => docs.map (cosine n q))) := by
  have hrow : ∀ q : Doc, ((docs.map (unit n)).map fun u => ∑ t ∈ Finset.range n, weight u t * weight (unit n q) t) =
      docs.map (cosine n q) := by
    intro q
    rw [List.map_map]
    exact List.map_congr_left fun d _ => inner_unit' n q d
  simp only [getitem, normQuery, spSims, asPython, Bool.false_eq_true, if_false, (csc_shape n _).1]
  by_cases h : ds.length = 1
  · obtain ⟨q, rfl⟩ := List.length_eq_one_iff.1 h
    simp only [List.map_cons, List.map_nil]
    rw [spProduct_one, clip_vec, hrow]
  · rw [spProduct_many _ _ _ _ _ (by simp [h])]
    simp only [Bool.false_eq_true, if_false]
    rw [clip_mat, List.map_map]
    have e : (ds.map ((fun m => (docs.map (unit n)).map fun u => ∑ t ∈ Finset.range n, weight u t * weight m t) ∘
        unit n)) = ds.map fun q => docs.map (cosine n q) := List.map_congr_left fun q _ => hrow q
    rw [e]
    match ds, h with
    | [], _ => rfl
    | [_], h => exact absurd rfl h
    | _ :: _ :: _, _ => rfl

/-- what iterating over the answer to a chunk of the sparse index gives -/
theorem sparse_items (numBest : Option Int) (n : Nat) (docs ds : List Doc) :
    items (match ds with
        | [q] => reply srt part numBest (docs.map (cosine n q))
        | ds => replies srt part numBest (ds.map fun q => docs.map (cosine n q))) =
      match ds with
        | [q] => items (reply srt part numBest (docs.map (cosine n q)))
        | ds => ds.map fun q => .ans (reply srt part numBest (docs.map (cosine n q))) := by
  match ds with
  | [] => simp [items_replies]
  | [_] => rfl
  | _ :: _ :: _ => simp [items_replies]

/-- over chunks, with a special treatment of chunks of one item -/
theorem flatMap_chunks {α β : Type} {k : Nat} (hk : 1 < k) (f : α → β) (g : α → List β) (F : List α → List β)
    (h1 : ∀ x, F [x] = g x) (h2 : ∀ c, c.length ≠ 1 → F c = c.map f) (l : List α) :
    (l.length % k ≠ 1 → (Chunk.chunks k l).flatMap F = l.map f) ∧
    (∀ init x, l = init ++ [x] → l.length % k = 1 → (Chunk.chunks k l).flatMap F = init.map f ++ g x) := by
  induction l using Chunk.chunk_ind (show 0 < k by omega) with
  | h0 => simp [Chunk.chunks_nil]
  | h1 l hl ih =>
    rw [Chunk.chunks_cons (by omega) hl, List.flatMap_cons]
    by_cases hlen : l.length ≤ k
    · have hd : l.drop k = [] := List.drop_eq_nil_of_le hlen
      rw [hd, Chunk.chunks_nil, List.take_of_length_le hlen, List.flatMap_nil, List.append_nil]
      have hpos := List.length_pos_iff.2 hl
      constructor
      · intro hm
        apply h2
        intro e
        rw [e, Nat.mod_eq_of_lt hk] at hm
        exact hm rfl
      · intro init x hx hm
        have : l.length = 1 := by
          rcases Nat.lt_or_ge l.length k with h | h
          · rwa [Nat.mod_eq_of_lt h] at hm
          · have : l.length = k := by omega
            rw [this, Nat.mod_self] at hm; omega
        have hi : init = [] := by
          rw [hx] at this; simpa using this
        subst hi
        simp [hx, h1]
    · have ht : (l.take k).length = k := by rw [List.length_take]; omega
      have hmod : (l.drop k).length % k = l.length % k := by
        rw [List.length_drop]
        conv_rhs => rw [← Nat.sub_add_cancel (show k ≤ l.length by omega), Nat.add_mod_right]
      rw [h2 _ (by omega)]
      constructor
      · intro hm
        rw [ih.1 (by rw [hmod]; exact hm), ← List.map_append, List.take_append_drop]
      · intro init x hx hm
        have hinit : k ≤ init.length := by
          have : l.length = init.length + 1 := by rw [hx]; simp
          omega
        have e1 : l.take k = init.take k := by rw [hx, List.take_append_of_le_length hinit]
        have e2 : l.drop k = init.drop k ++ [x] := by rw [hx, List.drop_append_of_le_length hinit]
        rw [ih.2 (init.drop k) x e2 (by rw [hmod]; exact hm), e1, ← List.append_assoc, ← List.map_append,
          List.take_append_drop]

theorem sparse_chunks {n : Nat} {docs : List Doc} (hd : ∀ d ∈ docs, Clean n d ∧ Weighted d)
    (numBest : Option Int) {chunksize : Nat} (hc : 1 < chunksize) :
    spIter srt part (some n) docs false numBest chunksize =
      .ok ((Chunk.chunks chunksize docs).flatMap fun ds => match ds with
        | [q] => items (reply srt part numBest (docs.map (cosine n q)))
        | ds => ds.map fun q => .ans (reply srt part numBest (docs.map (cosine n q)))) := by
  unfold spIter
  rw [spBuild_eq hd]
  simp only
  rw [indexRow_eq]
  unfold iterate
  rw [if_pos hc, chunks_map (by omega), mapM_map_ok
    (f := fun c => getitem srt part (spSims false (corpus2cscSlow (some n) (docs.map (unit n)))) false false
      numBest (.csr c)) (h := List.map (unit n)) fun ds _ => sparse_rows srt part numBest ds]
  simp only [List.flatMap_map, sparse_items]

/-- **C109.** Iterating over a sparse index yields the same as over a dense one, if no chunk consists
of a single document: the chunk size is 0 or 1, or the number of documents does not leave remainder 1
when divided by it. -/
theorem C109_sparse_iter {n : Nat} {docs : List Doc} (hd : ∀ d ∈ docs, Clean n d ∧ Weighted d)
    (numBest : Option Int) (chunksize : Nat) (hc : chunksize ≤ 1 ∨ docs.length % chunksize ≠ 1) :
    spIter srt part (some n) docs false numBest chunksize =
      .ok (docs.map fun d => .ans (reply srt part numBest (docs.map (cosine n d)))) := by
  by_cases h : 1 < chunksize
  · rw [sparse_chunks srt part hd numBest h]
    congr 1
    refine (flatMap_chunks h _ (fun q => items (reply srt part numBest (docs.map (cosine n q)))) _ (fun x => rfl)
      (fun c hc => ?_) docs).1 (hc.resolve_left (by omega))
    match c, hc with
    | [], _ => rfl
    | [_], hc => exact absurd rfl hc
    | _ :: _ :: _, _ => rfl
  · unfold spIter
    rw [spBuild_eq hd]
    simp only
    rw [indexRow_eq]
    unfold iterate
    rw [if_neg h, mapM_map_ok
      (f := fun r => getitem srt part (spSims false (corpus2cscSlow (some n) (docs.map (unit n)))) false false
        numBest (.csr [r])) (h := unit n) fun d _ => sparse_rows srt part numBest [d]]
    simp only [List.map_map]
    rfl

/-- **C109 (failure).** If the last chunk is a single document, its similarities are not yielded as one
answer: what comes in its place are the numbers (with `num_best`: the pairs) it is made of, one by
one. -/
theorem C109_sparse_iter_broken {n : Nat} {init : List Doc} {last : Doc}
    (hd : ∀ d ∈ init ++ [last], Clean n d ∧ Weighted d) (numBest : Option Int) {chunksize : Nat}
    (h : 1 < chunksize) (hc : (init ++ [last]).length % chunksize = 1) :
    let docs := init ++ [last]
    spIter srt part (some n) docs false numBest chunksize =
      .ok ((init.map fun d => .ans (reply srt part numBest (docs.map (cosine n d)))) ++
        match numBest with
        | none => (docs.map (cosine n last)).map .scalar
        | some k => (full2sparseClipped srt part (1 / 10 ^ 9) (docs.map (cosine n last)) k).map .pair) := by
  intro docs
  rw [sparse_chunks srt part hd numBest h]
  congr 1
  refine ((flatMap_chunks h (fun d => .ans (reply srt part numBest (docs.map (cosine n d)))) (fun q => items (reply srt part numBest (docs.map (cosine n q)))) _ (fun x => rfl)
    (fun c hc => ?_) docs).2 init last rfl hc).trans ?_
  · match c, hc with
    | [], _ => rfl
    | [_], hc => exact absurd rfl hc
    | _ :: _ :: _, _ => rfl
  · cases numBest <;> rfl

/-! ## What the answers are -/

/-- **C109.** With `num_best`, the answer to a document is a list of at most that many pairs of
document position and similarity: only similarities above 1e-9 in magnitude, different positions, by
non-increasing magnitude, and nothing better is left out. -/
theorem C109_num_best (hs : SortOk srt) (hp : PartOk part) (v : List ℝ) (k : Int) :
    ∃ r, reply srt part (some k) v = .pairs r ∧
      (∀ p ∈ r, v[p.1]? = some p.2 ∧ 1 / 10 ^ 9 < |p.2|) ∧ (r.map (·.1)).Nodup ∧
      r.length = min k.toNat (v.filter (fun x => decide (1 / 10 ^ 9 < |x|))).length ∧
      r.Pairwise (fun p q => |q.2| ≤ |p.2|) ∧
      (∀ j x, v[j]? = some x → j ∉ r.map (·.1) → |x| ≤ 1 / 10 ^ 9 ∨ ∀ p ∈ r, |x| ≤ |p.2|) :=
  ⟨_, rfl, C19_clipped srt part hs hp (1 / 10 ^ 9) v k⟩

/-- **C109.** Every similarity is between -1 and 1, does not depend on which of the two documents is
the query, is 1 of a document with itself, is 0 with a document without words, and is the same after
multiplying all weights of the query by a positive number. -/
theorem C109_cosine (n : Nat) (q d : Doc) :
    |cosine n q d| ≤ 1 ∧ cosine n q d = cosine n d q ∧ cosine n q [] = 0 ∧
    (Clean n q → (∃ p ∈ q, p.2 ≠ 0) → cosine n q q = 1) ∧
    (∀ c : ℝ, 0 < c → cosine n (q.map fun p => (p.1, c * p.2)) d = cosine n q d) := by
  refine ⟨?_, ?_, ?_, ?_, ?_⟩
  · unfold cosine
    rw [abs_div, abs_of_nonneg (mul_nonneg (len_nonneg n q) (len_nonneg n d))]
    refine div_le_one_of_le₀ ?_ (mul_nonneg (len_nonneg n q) (len_nonneg n d))
    rw [← Real.sqrt_sq_eq_abs]
    unfold len
    rw [← Real.sqrt_mul (Finset.sum_nonneg fun _ _ => sq_nonneg _)]
    exact Real.sqrt_le_sqrt (Finset.sum_mul_sq_le_sq_mul_sq _ _ _)
  · unfold cosine
    rw [mul_comm (len n q)]
    congr 1
    exact Finset.sum_congr rfl fun t _ => mul_comm _ _
  · simp [cosine, weight_nil]
  · intro h hw
    have hp := len_pos h hw
    unfold cosine
    rw [← pow_two, len_sq]
    have : 0 < ∑ t ∈ Finset.range n, weight q t ^ 2 := by rw [← len_sq]; positivity
    simp only [← pow_two]
    exact div_self this.ne'
  · intro c hc
    have hwt : ∀ t, weight (q.map fun p => (p.1, c * p.2)) t = c * weight q t := by
      intro t
      induction q with
      | nil => simp [weight_nil]
      | cons p q ih =>
        rw [List.map_cons, weight_cons, weight_cons, ih]
        by_cases h : p.1 = t <;> simp [h, mul_add]
    have hl : len n (q.map fun p => (p.1, c * p.2)) = c * len n q := by
      unfold len
      simp only [hwt, mul_pow]
      rw [← Finset.mul_sum, Real.sqrt_mul (sq_nonneg c), Real.sqrt_sq hc.le]
    unfold cosine
    simp only [hwt, hl, mul_assoc]
    rw [← Finset.mul_sum]
    exact mul_div_mul_left _ _ hc.ne'

theorem sum_mul {n : Nat} {d : Doc} (h : ∀ p ∈ d, p.1 < n) (f : Nat → ℝ) :
    (d.map fun p => p.2 * f p.1).sum = ∑ t ∈ Finset.range n, weight d t * f t := by
  induction d with
  | nil => simp [weight_nil]
  | cons p d ih =>
    rw [List.map_cons, List.sum_cons, ih fun q hq => h q (by simp [hq])]
    simp only [weight_cons, add_mul, ite_mul, zero_mul]
    rw [Finset.sum_add_distrib, Finset.sum_ite_eq]
    simp [h p (by simp)]

/-- **C109.** The similarities are those of `matutils.cossim`. -/
theorem C109_cossim {n : Nat} {q d : Doc} (hq : Clean n q) (hd : Clean n d) (wq : Weighted q)
    (wd : Weighted d) : cossim q d = some (cosine n q d) := by
  have e1 : PyDict.ofPairs (ν := ℝ) q = q := PyDict.ofPairs_of_WF hq.1
  have e2 : PyDict.ofPairs (ν := ℝ) d = d := PyDict.ofPairs_of_WF hd.1
  have hl : ∀ {x : Doc}, Clean n x → √(pySum ((PyDict.values (ν := ℝ) x).map fun x => x * x)) = len n x := by
    intro x hx
    rw [← sparseLen_eq_len hx]
    simp only [sparseLen, PyDict.values, List.map_map]
    congr 2
    exact List.map_congr_left fun p _ => by simp only [Function.comp]; ring
  have hg1 : ∀ t, PyDict.getD (ν := ℝ) q t 0 = weight q t := by
    intro t; rw [← getD_eq_weight hq.1, e1]
  have hg2 : ∀ t, PyDict.getD (ν := ℝ) d t 0 = weight d t := by
    intro t; rw [← getD_eq_weight hd.1, e2]
  unfold cossim
  simp only [e1, e2]
  by_cases h0 : q = [] ∨ d = []
  · rw [if_pos h0]
    rcases h0 with rfl | rfl <;> simp [cosine, weight_nil]
  · rw [if_neg h0]
    push Not at h0
    have l1 := len_pos hq (wq.resolve_left h0.1)
    have l2 := len_pos hd (wd.resolve_left h0.2)
    rw [hl hq, hl hd, if_pos ⟨l1, l2⟩]
    unfold cosine
    by_cases hlt : d.length < q.length
    · simp only [hlt, if_true, pySum_eq, hg1]
      rw [sum_mul hd.2 (weight q)]
      simp only [mul_comm (weight d _)]
    · simp only [hlt, if_false, pySum_eq, hg2]
      rw [sum_mul hq.2 (weight d)]

/-- **C109.** The empty list as query is a document without words: one answer, similarity 0 to every
document, not an empty list of answers. -/
theorem C109_empty_query {n : Nat} (hn : 0 < n) {docs : List Doc} (hd : ∀ d ∈ docs, Clean n d ∧ Weighted d) :
    matQuery srt part (some n) docs none (.corpus []) = .ok (.vec (docs.map fun _ => 0)) ∧
    spQuery srt part (some n) docs false none (.corpus []) = .ok (.vec (docs.map fun _ => 0)) := by
  have hz : docs.map (cosine n []) = docs.map fun _ => 0 :=
    List.map_congr_left fun d _ => by simp [cosine, weight_nil]
  have hc : Clean n [] := ⟨by simp, by simp⟩
  constructor
  · exact (C109_dense srt part hn (fun d h => (hd d h).1) none hc (.inl rfl)).trans (by rw [hz]; rfl)
  · exact (C109_sparse srt part hd none hc (.inl rfl)).trans (by rw [hz]; rfl)

/-! ## Failures -/

/-- **C109 (failure).** A document whose weights are all zero: as query it raises; in the corpus it is
accepted by the dense index and raises for the sparse one. -/
theorem C109_zero_weights {n : Nat} (hn : 0 < n) {docs : List Doc} (hd : ∀ d ∈ docs, Clean n d ∧ Weighted d)
    (numBest : Option Int) (maintain : Bool) {z : Doc} (h0 : z ≠ []) (hz : ∀ p ∈ z, p.2 = 0)
    (hc : Clean n z) :
    matQuery srt part (some n) docs numBest (.doc z) = .error .assertion ∧
    spQuery srt part (some n) docs maintain numBest (.doc z) = .error .assertion ∧
    matBuild (some n) (docs ++ [z]) ≠ .error .assertion ∧
    (∃ m, matBuild (some n) (docs ++ [z]) = .ok m) ∧
    spBuild (some n) (docs ++ [z]) = .error .assertion := by
  have hu := unitvec_none h0 hz
  have hb : matBuild (some n) (docs ++ [z]) = .ok (n, (docs ++ [z]).map (denseUnit n)) :=
    matBuild_eq hn (fun d hd' => by
      rcases List.mem_append.1 hd' with h | h
      · exact (hd d h).1
      · rw [List.mem_singleton.1 h]; exact hc)
  refine ⟨?_, ?_, by rw [hb]; simp, ⟨_, hb⟩, ?_⟩
  · unfold matQuery
    rw [matBuild_eq hn fun d h => (hd d h).1]
    simp only [getitem, normQuery, asPython, hu, if_true]
  · unfold spQuery
    rw [spBuild_eq hd]
    simp only [getitem, normQuery, asPython, hu, if_true]
  · unfold spBuild
    simp only
    rw [mapM_none (x := z) (by simp) hu]

/-- **C109 (failure).** With `maintain_sparsity` and `num_best`, a query that is one document always
raises. -/
theorem C109_maintain_single {n : Nat} {docs : List Doc} (hd : ∀ d ∈ docs, Clean n d ∧ Weighted d)
    (k : Int) {q : Doc} (hq : Clean n q) (hw : Weighted q) :
    spQuery srt part (some n) docs true (some k) (.doc q) = .error .value := by
  unfold spQuery
  rw [spBuild_eq hd]
  simp only [getitem, normQuery, asPython, unitvec_eq hq hw, if_true, spSims, (csc_shape n _).1]
  rw [spProduct_one]
  rfl

theorem sparse_maintained {n : Nat} {docs : List Doc} (hd : ∀ d ∈ docs, Clean n d ∧ Weighted d)
    (k : Int) {qs : List Doc} (h0 : qs ≠ []) (hq : ∀ q ∈ qs, Clean n q ∧ Weighted q) :
    spQuery srt part (some n) docs true (some k) (.corpus qs) =
      scipyClipped srt part (qs.map fun q => storedRow (docs.map (cosine n q))) k := by
  have h1 := (C109_sparse_corpus srt part hd none h0 hq).2
  unfold spQuery at h1 ⊢
  rw [spBuild_eq hd] at h1 ⊢
  simp only [getitem] at h1 ⊢
  revert h1
  cases normQuery true (.corpus qs) with
  | error e => intro h1; cases h1
  | ok q =>
    simp only
    cases spSims true (corpus2cscSlow (some n) (docs.map (unit n))) q with
    | error e => intro h1; cases h1
    | ok a =>
      simp only [clip, if_true]
      intro h1
      injection h1 with h1
      rw [h1]

/-- specification: `r` are the `k` best of the similarities `v` that are not zero, as pairs of document
position and similarity, in non-increasing order of magnitude -/
structure BestNonzero (v : List ℝ) (k : Nat) (r : List (Nat × ℝ)) : Prop where
  values : ∀ p ∈ r, v[p.1]? = some p.2 ∧ p.2 ≠ 0
  nodup : (r.map (·.1)).Nodup
  length : r.length = min k (v.filter fun x => decide (x ≠ 0)).length
  sorted : r.Pairwise fun p q => |q.2| ≤ |p.2|
  top : ∀ j x, v[j]? = some x → x ≠ 0 → j ∉ r.map (·.1) → ∀ p ∈ r, |x| ≤ |p.2|

theorem mem_storedRow (v : List ℝ) (p : Nat × ℝ) : p ∈ storedRow v ↔ v[p.1]? = some p.2 ∧ p.2 ≠ 0 := by
  unfold storedRow
  simp only [List.mem_map, List.mem_filter, decide_eq_true_eq, Prod.exists, Prod.ext_iff]
  constructor
  · rintro ⟨x, i, ⟨h1, h2⟩, rfl, rfl⟩
    exact ⟨by rw [List.mem_zipIdx_iff_getElem?] at h1; exact h1, h2⟩
  · rintro ⟨h1, h2⟩
    exact ⟨p.2, p.1, ⟨by rw [List.mem_zipIdx_iff_getElem?]; exact h1, h2⟩, rfl, rfl⟩

theorem nodup_storedRow (v : List ℝ) : ((storedRow v).map (·.1)).Nodup := by
  unfold storedRow
  rw [List.map_map]
  have : ((v.zipIdx.filter fun p => decide (p.1 ≠ 0)).map Prod.snd).Nodup := by
    refine List.Nodup.sublist ((List.filter_sublist (l := v.zipIdx)).map Prod.snd) ?_
    rw [List.zipIdx_map_snd]
    exact List.nodup_range'
  exact this

theorem length_storedRow (v : List ℝ) : (storedRow v).length = (v.filter fun x => decide (x ≠ 0)).length := by
  unfold storedRow
  rw [List.length_map]
  conv_rhs => rw [← List.zipIdx_map_fst 0 v, List.filter_map, List.length_map]
  rfl

theorem clipRow_best (hs : SortOk srt) (hp : PartOk part) (v : List ℝ) (k : Int) :
    BestNonzero v k.toNat (clipRow srt part k (storedRow v)) := by
  have ht := argsort_reverse srt part hs hp ((storedRow v).map fun p => |p.2|) k
  have hm := mem_storedRow v
  have hn := nodup_storedRow v
  have hl := length_storedRow v
  unfold clipRow
  generalize storedRow v = s at ht hm hn hl
  generalize argsort srt part (s.map fun p => |p.2|) k true = a at ht
  obtain ⟨h1, h2, h3, h4, h5⟩ := ht
  rw [List.length_map] at h2 h3 h5
  have hv : ∀ j, j < s.length → (s.map fun p => |p.2|).getD j 0 = |(s.getD j (0, 0)).2| := by
    intro j hj
    simp [List.getD_eq_getElem?_getD, List.getElem?_eq_getElem hj]
  have hmem : ∀ j, j < s.length → s.getD j (0, 0) ∈ s := by
    intro j hj
    rw [List.getD_eq_getElem?_getD, List.getElem?_eq_getElem hj]
    exact List.getElem_mem hj
  have hinj : ∀ i j, i < s.length → j < s.length → (s.getD i (0, 0)).1 = (s.getD j (0, 0)).1 → i = j := by
    intro i j hi hj e
    rw [List.getD_eq_getElem?_getD, List.getElem?_eq_getElem hi, List.getD_eq_getElem?_getD,
      List.getElem?_eq_getElem hj] at e
    have := List.Nodup.getElem_inj_iff hn (i := i) (j := j) (hi := by simpa using hi) (hj := by simpa using hj)
    exact this.1 (by simpa using e)
  refine ⟨?_, ?_, by rw [List.length_map, h3, hl], ?_, ?_⟩
  · intro p hp
    obtain ⟨j, hj, rfl⟩ := List.mem_map.1 hp
    exact (hm _).1 (hmem j (h2 j hj))
  · rw [List.map_map]
    exact List.Nodup.map_on (fun i hi j hj e => hinj i j (h2 i hi) (h2 j hj) e) h1
  · rw [List.pairwise_map]
    refine List.Pairwise.imp_of_mem ?_ h4
    intro i j hi hj hle
    rwa [hv i (h2 i hi), hv j (h2 j hj)] at hle
  · intro j x hj hx hnot p hp
    obtain ⟨i, hi, rfl⟩ := List.mem_map.1 hp
    obtain ⟨m, hm1, hm2⟩ := List.mem_iff_getElem.1 ((hm (j, x)).2 ⟨hj, hx⟩)
    have hmd : s.getD m (0, 0) = (j, x) := by
      rw [List.getD_eq_getElem?_getD, List.getElem?_eq_getElem hm1, hm2]; rfl
    have := h5 i hi m hm1 (fun hma => hnot (by
      rw [List.map_map]
      exact List.mem_map.2 ⟨m, hma, by rw [Function.comp, hmd]⟩))
    rw [hv i (h2 i hi), hv m hm1, hmd] at this
    exact this

theorem clipRow_isEmpty (hs : SortOk srt) (hp : PartOk part) (v : List ℝ) {k : Int} (hk : 0 < k) :
    (clipRow srt part k (storedRow v)).isEmpty ↔ ∀ x ∈ v, x = 0 := by
  have := (clipRow_best srt part hs hp v k).length
  rw [List.isEmpty_iff, ← List.length_eq_zero_iff, this]
  have hk' : 0 < k.toNat := by omega
  constructor
  · intro h x hx
    by_contra hx0
    have : 0 < (v.filter fun x => decide (x ≠ 0)).length :=
      List.length_pos_iff.2 (List.ne_nil_of_mem (List.mem_filter.2 ⟨hx, by simpa using hx0⟩))
    omega
  · intro h
    have : v.filter (fun x => decide (x ≠ 0)) = [] := by
      rw [List.filter_eq_nil_iff]
      intro x hx
      simp [h x hx]
    rw [this]; simp

/-- **C109.** With `maintain_sparsity` and `num_best`, a list of at least two documents is answered by
a sparse matrix, every row of which holds the best similarities that are not zero, provided at least
one similarity is not zero. -/
theorem C109_maintain_corpus (hs : SortOk srt) (hp : PartOk part) {n : Nat} {docs : List Doc}
    (hd : ∀ d ∈ docs, Clean n d ∧ Weighted d) {k : Int} (hk : 0 < k) {qs : List Doc} (h2 : 2 ≤ qs.length)
    (hq : ∀ q ∈ qs, Clean n q ∧ Weighted q) (hne : ∃ q ∈ qs, ∃ d ∈ docs, cosine n q d ≠ 0) :
    ∃ rows, spQuery srt part (some n) docs true (some k) (.corpus qs) = .ok (.spmat rows) ∧
      List.Forall₂ (fun q r => BestNonzero (docs.map (cosine n q)) k.toNat r) qs rows := by
  rw [sparse_maintained srt part hd k (by rintro rfl; simp at h2) hq]
  refine ⟨qs.map fun q => clipRow srt part k (storedRow (docs.map (cosine n q))), ?_, ?_⟩
  · unfold scipyClipped
    rw [if_neg (by omega)]
    simp only [List.map_map]
    rw [if_neg]
    · match qs, h2 with
      | _ :: _ :: _, _ => rfl
    · intro hall
      rw [List.all_eq_true] at hall
      obtain ⟨q, hq1, d, hd1, hc⟩ := hne
      have := hall _ (List.mem_map_of_mem hq1)
      exact hc ((clipRow_isEmpty srt part hs hp _ hk).1 this _ (List.mem_map_of_mem hd1))
  · rw [List.forall₂_map_right_iff, List.forall₂_same]
    intro q _
    exact clipRow_best srt part hs hp _ k

/-- **C109 (failure).** If no document of the query has a similarity other than 0, it raises. -/
theorem C109_maintain_no_match (hs : SortOk srt) (hp : PartOk part) {n : Nat} {docs : List Doc}
    (hd : ∀ d ∈ docs, Clean n d ∧ Weighted d) {k : Int} (hk : 0 < k) {qs : List Doc} (h0 : qs ≠ [])
    (hq : ∀ q ∈ qs, Clean n q ∧ Weighted q) (hz : ∀ q ∈ qs, ∀ d ∈ docs, cosine n q d = 0) :
    spQuery srt part (some n) docs true (some k) (.corpus qs) = .error .value := by
  rw [sparse_maintained srt part hd k h0 hq]
  unfold scipyClipped
  rw [if_neg (by omega)]
  simp only [List.map_map]
  rw [if_pos]
  rw [List.all_eq_true]
  intro r hr
  obtain ⟨q, hq1, rfl⟩ := List.mem_map.1 hr
  refine (clipRow_isEmpty srt part hs hp _ hk).2 fun x hx => ?_
  obtain ⟨d, hd1, rfl⟩ := List.mem_map.1 hx
  exact hz q hq1 d hd1

/-- **C109 (failure).** A list of one document is answered by a matrix that reports all its best
similarities for document 0. -/
theorem C109_maintain_one (hs : SortOk srt) (hp : PartOk part) {n : Nat} {docs : List Doc}
    (hd : ∀ d ∈ docs, Clean n d ∧ Weighted d) {k : Int} (hk : 0 < k) {q : Doc}
    (hq : Clean n q ∧ Weighted q) (hne : ∃ d ∈ docs, cosine n q d ≠ 0) :
    ∃ r, BestNonzero (docs.map (cosine n q)) k.toNat r ∧
      spQuery srt part (some n) docs true (some k) (.corpus [q]) =
        .ok (.spmat [r.map fun p => (0, p.2)]) := by
  rw [sparse_maintained srt part hd k (by simp) (by simpa using hq)]
  refine ⟨_, clipRow_best srt part hs hp (docs.map (cosine n q)) k, ?_⟩
  unfold scipyClipped
  rw [if_neg (by omega)]
  simp only [List.map_cons, List.map_nil]
  rw [if_neg]
  intro hall
  obtain ⟨d, hd1, hc⟩ := hne
  exact hc ((clipRow_isEmpty srt part hs hp _ hk).1 (by simpa using hall) _ (List.mem_map_of_mem hd1))

theorem weight_dup (t : Nat) : weight [(0, 1), (0, 1)] t = if t = 0 then 2 else 0 := by
  rw [weight_cons, weight_cons, weight_nil]
  by_cases h : t = 0
  · subst h; norm_num
  · simp [h, Ne.symm h]

/-- **C109 (failure).** A document that lists a term twice is indexed differently by the two classes:
the dense index keeps the last weight, the sparse one adds up the weights but divides them by the
length they would have as different terms, and reports the similarity √2. -/
theorem C109_repeated_term :
    matQuery srt part (some 1) [[(0, 1), (0, 1)]] none (.doc [(0, 1)]) = .ok (.vec [1]) ∧
    spQuery srt part (some 1) [[(0, 1), (0, 1)]] false none (.doc [(0, 1)]) = .ok (.vec [√2]) := by
  have hq : Clean 1 [(0, 1)] := ⟨by simp, by simp⟩
  have hw : Weighted [(0, 1)] := .inr ⟨_, List.mem_singleton.2 rfl, by norm_num⟩
  have hf : sparse2full ([(0, 1), (0, 1)] : Doc) 1 = sparse2full [(0, 1)] 1 := by
    simp [sparse2full, PyDict.ofPairs, PyDict.set, PyDict.keys]
  constructor
  · have hb : matBuild (some 1) [[(0, 1), (0, 1)]] = matBuild (some 1) [[(0, 1)]] := by
      simp only [matBuild, List.mapM_cons, List.mapM_nil, hf]
    have := C109_dense srt part (n := 1) (by norm_num) (docs := [[(0, 1)]]) (by simpa using hq) none hq hw
    unfold matQuery at this ⊢
    rw [hb, this]
    have h1 := (C109_cosine 1 [(0, 1)] []).2.2.2.1 hq ⟨_, List.mem_singleton.2 rfl, by norm_num⟩
    simp [reply, h1]
  · have hlen : sparseLen .l2 ([(0, 1), (0, 1)] : Doc) = √2 := by
      simp [sparseLen, pySum_eq]; norm_num
    have hu : unitvecSparse .l2 ([(0, 1), (0, 1)] : Doc) = some [(0, 1 / √2), (0, 1 / √2)] := by
      simp only [unitvecSparse]
      rw [if_pos (by rw [hlen]; positivity), retNormalized_eq, hlen]; rfl
    have hb : spBuild (some 1) [[(0, 1), (0, 1)]] =
        .ok (corpus2cscSlow (some 1) [[(0, 1 / √2), (0, 1 / √2)]]) := by
      simp only [spBuild]
      rw [mapM_some (g := fun _ => [(0, 1 / √2), (0, 1 / √2)]) (by simpa using hu)]
      rfl
    unfold spQuery
    rw [hb]
    simp only [getitem, normQuery, asPython, unitvec_eq hq hw, if_true, spSims, (csc_shape 1 _).1]
    rw [spProduct_one, clip_vec]
    have hl1 : len 1 [(0, 1)] = 1 := by simp [len, weight_cons, weight_nil]
    simp only [reply, List.map_cons, List.map_nil, Finset.range_one, Finset.sum_singleton, weight_unit, hl1]
    have h2 : (√2 : ℝ) * √2 = 2 := Real.mul_self_sqrt (by norm_num)
    have h3 : (√2 : ℝ) ≠ 0 := by positivity
    have : weight [(0, 1 / √2), (0, 1 / √2)] 0 * (weight [(0, 1)] 0 / 1) = √2 := by
      simp only [weight_cons, weight_nil, if_true]
      field_simp
      rw [pow_two, h2]; norm_num
    rw [this]

/-- **C109 (failure).** After an iteration over the index has been abandoned, queries are no longer
normalised: the answers are the cosines multiplied by the length of the query.  (The switch is that of
`Verif.Docsim.normRun`: `SimilarityABC.__iter__`, interfaces.py:365-398, sets and restores
`normalize` in the same way.) -/
theorem C109_abandoned {n : Nat} {docs : List Doc} (hd : ∀ d ∈ docs, Clean n d ∧ Weighted d)
    (numBest : Option Int) {q : Doc} (hq : Clean n q) :
    let normalize := (Docsim.normRun ⟨true, [], []⟩ [.opened 0, .closed 0]).norm
    getitem srt part (matSims n (docs.map (denseUnit n))) false normalize numBest (.doc q) =
      .ok (reply srt part numBest (docs.map fun d => len n q * cosine n q d)) ∧
    getitem srt part (spSims false (corpus2cscSlow (some n) (docs.map (unit n)))) false normalize numBest (.doc q) =
      .ok (reply srt part numBest (docs.map fun d => len n q * cosine n q d)) := by
  intro normalize
  have hN : normalize = false := by decide +kernel
  have hcos : ∀ d, ∑ t ∈ Finset.range n, weight d t / len n d * weight q t = len n q * cosine n q d := by
    intro d
    by_cases h0 : len n q = 0
    · rw [h0, zero_mul]
      exact Finset.sum_eq_zero fun t ht => by rw [weight_of_len h0 (Finset.mem_range.1 ht), mul_zero]
    · rw [← inner_unit, Finset.mul_sum]
      refine Finset.sum_congr rfl fun t _ => ?_
      field_simp
  rw [hN]
  constructor
  · simp only [getitem, normQuery, asPython, matSims, full_eq hq, Bool.false_eq_true, if_false, List.map_map]
    rw [clip_vec]
    congr 3
    funext d
    simp only [Function.comp, denseUnit]
    rw [dot_range]
    exact hcos d
  · simp only [getitem, normQuery, asPython, spSims, (csc_shape n _).1, Bool.false_eq_true, if_false]
    rw [spProduct_one, clip_vec, List.map_map]
    congr 3
    funext d
    simp only [Function.comp, weight_unit]
    exact hcos d

/-- **C109.** Without `num_features` the dense index takes 1 + the largest id of the corpus; a corpus
without words is refused then, as is `num_features=0`; the sparse index refuses to guess; an id that is
not below `num_features` raises in the dense index. -/
theorem C109_features (docs : List Doc) :
    (∀ n : Nat, (∀ d ∈ docs, ∀ p ∈ d, p.1 < n) → (∃ d ∈ docs, ∃ p ∈ d, p.1 + 1 = n) →
      matBuild none docs = matBuild (some n) docs) ∧
    ((∀ d ∈ docs, d = []) → matBuild none docs = .error .value) ∧
    matBuild (some 0) docs = .error .value ∧ spBuild none docs = .error .value ∧
    (∀ n : Nat, 0 < n → (∃ d ∈ docs, ∃ p ∈ d, n ≤ p.1) → matBuild (some n) docs = .error .index) := by
  refine ⟨?_, ?_, rfl, rfl, ?_⟩
  · rintro n h1 ⟨d, hd, p, hp, he⟩
    have key : (docs.flatten.map fun p => p.1 + 1).foldl max 0 = n := by
      have hle : ∀ (l : List Nat) (a : Nat), (∀ x ∈ l, x ≤ n) → a ≤ n → l.foldl max a ≤ n := by
        intro l
        induction l with
        | nil => intro a _ h; exact h
        | cons x l ih =>
          intro a h ha
          exact ih _ (fun y hy => h y (by simp [hy])) (Nat.max_le.2 ⟨ha, h x (by simp)⟩)
      have hge : ∀ (l : List Nat) (a : Nat), (n ∈ l ∨ n ≤ a) → n ≤ l.foldl max a := by
        intro l
        induction l with
        | nil => intro a h; simpa using h
        | cons x l ih =>
          intro a h
          apply ih
          rcases h with h | h
          · rcases List.mem_cons.1 h with rfl | h
            · exact .inr (le_max_right _ _)
            · exact .inl h
          · exact .inr (le_trans h (le_max_left _ _))
      apply le_antisymm
      · apply hle _ _ _ (Nat.zero_le _)
        intro x hx
        obtain ⟨p', hp', rfl⟩ := List.mem_map.1 hx
        obtain ⟨d', hd', hp''⟩ := List.mem_flatten.1 hp'
        exact h1 d' hd' p' hp''
      · apply hge
        exact .inl (List.mem_map.2 ⟨p, List.mem_flatten.2 ⟨d, hd, hp⟩, he⟩)
    simp only [matBuild, key]
  · intro h
    have : docs.flatten = [] := List.flatten_eq_nil_iff.2 h
    simp [matBuild, this]
  · rintro n hn ⟨d, hd, p, hp, hle⟩
    have : sparse2full d n = none := by
      unfold sparse2full
      simp only
      rw [if_neg]
      intro hall
      rw [List.all_eq_true] at hall
      have hk : p.1 ∈ PyDict.keys (PyDict.ofPairs d) := by
        unfold PyDict.ofPairs
        have : ∀ (l : List (Nat × ℝ)) (e : PyDict Nat ℝ), (p ∈ l ∨ p.1 ∈ PyDict.keys e) →
            p.1 ∈ PyDict.keys (l.foldl (fun e p => PyDict.set e p.1 p.2) e) := by
          intro l
          induction l with
          | nil => intro e h; simpa using h
          | cons x l ih =>
            intro e h
            apply ih
            rcases h with h | h
            · rcases List.mem_cons.1 h with rfl | h
              · exact .inr ((PyDict.mem_keys_set _ _ _ _).2 (by simp))
              · exact .inl h
            · exact .inr ((PyDict.mem_keys_set _ _ _ _).2 (by simp [h]))
        exact this d [] (.inl hp)
      have := hall _ hk
      simp at this
      omega
    simp only [matBuild]
    rw [if_neg (by omega), mapM_none hd (by rw [this]; rfl)]

end

/-! ## Non-vacuity -/

/-- three documents over four terms -/
noncomputable def exDocs : List Doc := [[(0, 1), (2, 2)], [], [(1, -1), (2, 1)]]

theorem exDocs_ok : ∀ d ∈ exDocs, Clean 4 d ∧ Weighted d := by
  intro d hd
  simp only [exDocs, List.mem_cons, List.not_mem_nil, or_false] at hd
  rcases hd with rfl | rfl | rfl
  · exact ⟨⟨by simp, by simp⟩, .inr ⟨(0, 1), by simp, by norm_num⟩⟩
  · exact ⟨⟨by simp, by simp⟩, .inl rfl⟩
  · exact ⟨⟨by simp, by simp⟩, .inr ⟨(2, 1), by simp, by norm_num⟩⟩

example (srt : List ℝ → List Nat) (part : List ℝ → Nat → List Nat) :
    spQuery srt part (some 4) exDocs false none (.doc [(0, 1), (2, 2)]) =
      matQuery srt part (some 4) exDocs none (.doc [(0, 1), (2, 2)]) :=
  (C109_sparse srt part exDocs_ok none (exDocs_ok _ (by simp [exDocs])).1 (exDocs_ok _ (by simp [exDocs])).2).trans
    (C109_dense srt part (by norm_num) (fun d h => (exDocs_ok d h).1) none
      (exDocs_ok _ (by simp [exDocs])).1 (exDocs_ok _ (by simp [exDocs])).2).symm

example (srt : List ℝ → List Nat) (part : List ℝ → Nat → List Nat) :
    ∃ a b c d e, spIter srt part (some 4) exDocs false none 2 =
      .ok [a, b, .scalar c, .scalar d, .scalar e] :=
  ⟨_, _, _, _, _, C109_sparse_iter_broken srt part (n := 4) (init := [[(0, 1), (2, 2)], []])
    (last := [(1, -1), (2, 1)]) exDocs_ok none (by norm_num) (by simp)⟩

end Verif.MatSim
