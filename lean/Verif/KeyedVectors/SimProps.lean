import Verif.KeyedVectors.StoreProps
import Verif.KeyedVectors.SimModel
import Verif.Matutils.ArgsortProps
import Mathlib.Data.List.Sort
import Mathlib.Algebra.Order.Group.Abs
import Mathlib.Algebra.Order.Ring.Rat

/-!
# C39, C41, C63: similarity queries and sorting by frequency
-/

namespace Verif.KV

open Verif Verif.Matutils PyDict

variable {κ V N M K : Type} [DecidableEq κ] [Field K] [LinearOrder K] [IsStrictOrderedRing K]

/-! ## Specification -/

/-- `r` are the `n` best-scored of the candidate rows below `size`, best first -/
structure TopRows (size : Nat) (cand : Nat → Bool) (val : Nat → K) (n : Nat) (r : List Nat) : Prop where
  nodup : r.Nodup
  valid : ∀ i ∈ r, i < size ∧ cand i = true
  length : r.length = min n ((List.range size).countP cand)
  sorted : r.Pairwise (fun i j => val j ≤ val i)
  top : ∀ i ∈ r, ∀ j < size, cand j = true → j ∉ r → val j ≤ val i

/-- row `i` belongs to an input key -/
def IsInput (asInt : κ → Option Int) (s : Store κ V N) (inputs : List (Input κ V K)) (i : Nat) : Prop :=
  ∃ k w, Input.key k w ∈ inputs ∧ getIndex asInt s k = some i

/-- the cached norms, if any, are those of the vectors -/
def NormsCurrent (norm : V → N) (s : Store κ V N) : Prop := s.norms = none ∨ s.norms = some (s.vectors.map norm)

/-- the similarity of row `i` to the mean -/
def rowScore (sim : M → V → N → K) (norm : V → N) (s : Store κ V N) (mean : M) (i : Nat) : K :=
  ((s.vectors[i]?).map (fun v => sim mean v (norm v))).getD 0

/-! ## Proofs -/

theorem topRows_of_topPositions {val : Nat → K} {size n : Nat} {A : List Nat} {best : List Nat} (p : Nat → Bool)
    (hA : ∀ i, p i = false → i ∈ A) (h : TopPositions val size (n + A.length) best) :
    TopRows size p val n ((best.filter p).take n) := by
  have hf : (best.filter p).length + (best.filter (fun i => !p i)).length = best.length := by
    rw [← List.countP_eq_length_filter, ← List.countP_eq_length_filter, List.length_eq_countP_add_countP p]
    congr 1
    apply List.countP_congr
    intro i _
    simp
  have hbad : (best.filter (fun i => !p i)).length ≤ A.length := by
    apply List.Subperm.length_le
    apply List.Nodup.subperm (h.nodup.filter _)
    intro i hi
    exact hA i (by simpa using (List.mem_filter.mp hi).2)
  have hgood : (best.filter p).length ≤ (List.range size).countP p := by
    rw [List.countP_eq_length_filter]
    apply List.Subperm.length_le
    apply List.Nodup.subperm (h.nodup.filter _)
    intro i hi
    rw [List.mem_filter] at hi ⊢
    exact ⟨List.mem_range.mpr (h.valid i hi.1), hi.2⟩
  have hlen := h.length
  refine ⟨(h.nodup.filter _).sublist (List.take_sublist _ _), ?_, ?_, ?_, ?_⟩
  · intro i hi
    have := List.mem_filter.mp (List.mem_of_mem_take hi)
    exact ⟨h.valid i this.1, this.2⟩
  · rw [List.length_take]
    by_cases hc : size ≤ n + A.length
    · have hperm : best.Perm (List.range size) := by
        apply List.Subperm.perm_of_length_le
        · apply List.Nodup.subperm h.nodup
          intro i hi
          exact List.mem_range.mpr (h.valid i hi)
        · rw [List.length_range, hlen]; omega
      rw [← hperm.countP_eq, List.countP_eq_length_filter]
    · omega
  · exact (h.sorted.sublist List.filter_sublist).sublist (List.take_sublist _ _)
  · intro i hi j hj hcj hjr
    have hib := (List.mem_filter.mp (List.mem_of_mem_take hi)).1
    by_cases hjb : j ∈ best
    · have hjf : j ∈ best.filter p := List.mem_filter.mpr ⟨hjb, hcj⟩
      rw [← List.take_append_drop n (best.filter p), List.mem_append] at hjf
      have hs := h.sorted.sublist (List.filter_sublist (p := p))
      rw [← List.take_append_drop n (best.filter p), List.pairwise_append] at hs
      exact hs.2.2 i hi j (hjf.resolve_left hjr)
    · exact h.top i hib j hj hjb

theorem mem_inputRows {asInt : κ → Option Int} {s : Store κ V N} {inputs : List (Input κ V K)} {i : Nat} :
    i ∈ inputRows asInt s inputs ↔ IsInput asInt s inputs i := by
  unfold IsInput
  induction inputs with
  | nil => simp [inputRows]
  | cons x l ih =>
    cases x with
    | vec v w => simp [inputRows, ih]
    | key k w =>
      unfold inputRows
      cases hk : getIndex asInt s k with
      | none =>
        dsimp only
        rw [ih]
        constructor
        · rintro ⟨k', w', h1, h2⟩; exact ⟨k', w', List.mem_cons_of_mem _ h1, h2⟩
        · rintro ⟨k', w', h1, h2⟩
          rcases List.mem_cons.mp h1 with e | e
          · cases e; rw [hk] at h2; simp at h2
          · exact ⟨k', w', e, h2⟩
      | some j =>
        dsimp only
        have key : (i = j ∨ i ∈ inputRows asInt s l) ↔ ∃ k' w', Input.key k' w' ∈ Input.key k w :: l ∧
            getIndex asInt s k' = some i := by
          rw [ih]
          constructor
          · rintro (rfl | ⟨k', w', h1, h2⟩)
            · exact ⟨k, w, List.mem_cons_self, hk⟩
            · exact ⟨k', w', List.mem_cons_of_mem _ h1, h2⟩
          · rintro ⟨k', w', h1, h2⟩
            rcases List.mem_cons.mp h1 with e | e
            · cases e; rw [hk] at h2; exact .inl (Option.some.inj h2).symm
            · exact .inr ⟨k', w', e, h2⟩
        rw [← key]
        split
        · rename_i hj
          constructor
          · exact .inr
          · rintro (rfl | h)
            · exact hj
            · exact h
        · exact List.mem_cons

theorem scores_getD {sim : M → V → N → K} {norm : V → N} {s : Store κ V N} (hn : NormsCurrent norm s) (mean : M)
    (lo hi i : Nat) (h : i + lo < hi) : (scores sim norm s mean lo hi).getD i 0 = rowScore sim norm s mean (i + lo) := by
  unfold scores rowScore
  have e : (fillNorms norm s).vectors = s.vectors ∧ (fillNorms norm s).norms = some (s.vectors.map norm) := by
    unfold fillNorms
    rcases hn with hn | hn <;> rw [hn] <;> exact ⟨rfl, by first | rfl | exact hn⟩
  dsimp only
  rw [e.1, e.2, Option.getD_some, List.getD_eq_getElem?_getD, List.getElem?_drop, Nat.add_comm lo i,
    List.getElem?_take_of_lt h, List.getElem?_zipWith, List.getElem?_map]
  cases s.vectors[i + lo]? <;> rfl

theorem scores_length {sim : M → V → N → K} {norm : V → N} {s : Store κ V N} (hn : NormsCurrent norm s) (mean : M)
    (lo hi : Nat) : (scores sim norm s mean lo hi).length = min hi s.vectors.length - lo := by
  unfold scores
  have e : (fillNorms norm s).vectors = s.vectors ∧ (fillNorms norm s).norms = some (s.vectors.map norm) := by
    unfold fillNorms
    rcases hn with hn | hn <;> rw [hn] <;> exact ⟨rfl, by first | rfl | exact hn⟩
  dsimp only
  rw [e.1, e.2, Option.getD_some, List.length_drop, List.length_take, List.length_zipWith, List.length_map]
  omega

theorem countP_range_shift (p : Nat → Bool) (lo m : Nat) :
    (List.range (lo + m)).countP (fun i => decide (lo ≤ i) && p i) = (List.range m).countP (fun i => p (i + lo)) := by
  rw [List.range_add, List.countP_append, List.countP_map]
  have : (List.range lo).countP (fun i => decide (lo ≤ i) && p i) = 0 := by
    rw [List.countP_eq_zero]
    intro i hi
    have := List.mem_range.mp hi
    simp; omega
  rw [this, Nat.zero_add]
  apply List.countP_congr
  intro i _
  simp [Nat.add_comm]

theorem bestRows_spec (srt : List K → List Nat) (part : List K → Nat → List Nat) (hs : SortOk srt) (hp : PartOk part)
    {sim : M → V → N → K} {norm : V → N} {s : Store κ V N} (hn : NormsCurrent norm s) (mean : M) (lo hi topn : Nat)
    (exclude : List Nat) :
    ∃ rows, bestRows srt part (scores sim norm s mean lo hi) lo exclude topn =
        rows.map (fun i => (i, rowScore sim norm s mean i)) ∧
      TopRows s.vectors.length (fun i => decide (lo ≤ i) && (decide (i < hi) && decide (i ∉ exclude)))
        (rowScore sim norm s mean) topn rows := by
  have htp := argsort_reverse srt part hs hp (scores sim norm s mean lo hi) ((topn + exclude.length : Nat) : Int)
  rw [Int.toNat_natCast] at htp
  have hl := scores_length (sim := sim) hn mean lo hi
  generalize hbest : argsort srt part (scores sim norm s mean lo hi) ((topn + exclude.length : Nat) : Int) true = best
  rw [hbest] at htp
  have hval : ∀ i < (scores sim norm s mean lo hi).length,
      (scores sim norm s mean lo hi).getD i 0 = rowScore sim norm s mean (i + lo) := by
    intro i hi'
    apply scores_getD hn
    omega
  have htp' : TopPositions (fun i => rowScore sim norm s mean (i + lo)) (scores sim norm s mean lo hi).length
      (topn + (exclude.map (fun e => e - lo)).length) best := by
    rw [List.length_map]
    refine ⟨htp.nodup, htp.valid, htp.length, ?_, ?_⟩
    · refine List.Pairwise.imp_of_mem ?_ htp.sorted
      intro a b ha hb hab
      rwa [hval a (htp.valid a ha), hval b (htp.valid b hb)] at hab
    · intro i hi' j hj hjr
      have := htp.top i hi' j hj hjr
      rwa [hval i (htp.valid i hi'), hval j hj] at this
  have ht := topRows_of_topPositions (fun i => decide (i + lo ∉ exclude)) (by
    intro i hi'
    rw [List.mem_map]
    exact ⟨i + lo, by simpa using hi', by omega⟩) htp'
  refine ⟨((best.filter (fun i => decide (i + lo ∉ exclude))).take topn).map (fun i => i + lo), ?_, ?_⟩
  · unfold bestRows
    dsimp only
    rw [hbest, List.map_map, ← List.map_take]
    apply List.map_congr_left
    intro i hi'
    have := ht.valid i hi'
    simp only [Function.comp]
    rw [hval i this.1]
  · refine ⟨?_, ?_, ?_, ?_, ?_⟩
    · exact ht.nodup.map (fun a b h => by simpa using h)
    · intro x hx
      obtain ⟨i, hi', rfl⟩ := List.mem_map.mp hx
      obtain ⟨h1, h2⟩ := ht.valid i hi'
      rw [hl] at h1
      refine ⟨by omega, ?_⟩
      simp only [decide_eq_true_eq] at h2
      simp only [Bool.and_eq_true, decide_eq_true_eq]
      exact ⟨by omega, by omega, h2⟩
    · rw [List.length_map, ht.length]
      congr 1
      rw [hl, ← countP_range_shift (fun i => decide (i ∉ exclude))]
      by_cases hc : lo ≤ min hi s.vectors.length
      · rw [Nat.add_sub_cancel' hc]
        have hsplit : s.vectors.length = min hi s.vectors.length + (s.vectors.length - min hi s.vectors.length) := by
          omega
        conv_rhs => rw [hsplit, List.range_add, List.countP_append, List.countP_map]
        have h0 : (List.range (s.vectors.length - min hi s.vectors.length)).countP
            ((fun i => decide (lo ≤ i) && (decide (i < hi) && decide (i ∉ exclude))) ∘
              fun x => min hi s.vectors.length + x) = 0 := by
          rw [List.countP_eq_zero]
          intro i hi'
          have := List.mem_range.mp hi'
          have : ¬ (min hi s.vectors.length + i < hi) := by omega
          simp [this]
        rw [h0, Nat.add_zero]
        apply List.countP_congr
        intro i hi'
        have := List.mem_range.mp hi'
        have h2 : i < hi := by omega
        simp [h2]
      · have e1 : min hi s.vectors.length - lo = 0 := by omega
        rw [e1, Nat.add_zero]
        have z1 : (List.range lo).countP (fun i => decide (lo ≤ i) && decide (i ∉ exclude)) = 0 := by
          rw [List.countP_eq_zero]
          intro i hi'
          have := List.mem_range.mp hi'
          have h2 : ¬ (lo ≤ i) := by omega
          simp [h2]
        have z2 : (List.range s.vectors.length).countP
            (fun i => decide (lo ≤ i) && (decide (i < hi) && decide (i ∉ exclude))) = 0 := by
          rw [List.countP_eq_zero]
          intro i hi'
          have := List.mem_range.mp hi'
          simp only [Bool.and_eq_true, decide_eq_true_eq]
          omega
        rw [z1, z2]
    · rw [List.pairwise_map]
      exact ht.sorted
    · intro x hx j hj hcj hjr
      obtain ⟨i, hi', rfl⟩ := List.mem_map.mp hx
      simp only [Bool.and_eq_true, decide_eq_true_eq] at hcj
      have := ht.top i hi' (j - lo) (by rw [hl]; omega)
        (by simp only [decide_eq_true_eq]; rw [Nat.sub_add_cancel hcj.1]; exact hcj.2.2)
        (by
          intro hcon
          apply hjr
          rw [List.mem_map]
          exact ⟨j - lo, hcon, Nat.sub_add_cancel hcj.1⟩)
      rwa [Nat.sub_add_cancel hcj.1] at this

/-- **C39.** What `most_similar` returns, for every vocabulary, score, `topn`, window of rows and input: the
`topn` best-scored rows among those in the window that do not belong to an input key — all of them if there are
fewer — each once, best first, with their scores; no other such row has a better score than a returned one. -/
theorem C39_most_similar (srt : List K → List Nat) (part : List K → Nat → List Nat) (hs : SortOk srt) (hp : PartOk part)
    (asInt : κ → Option Int) (norm : V → N) (meanOf : List (K × V × Option N) → M) (sim : M → V → N → K)
    (s : Store κ V N) (hn : NormsCurrent norm s) (inputs : List (Input κ V K)) (topn : Int) (ht : 1 ≤ topn)
    (lo : Nat) (hi restrict : Option Nat) (out : List (Option κ × K))
    (h : mostSimilar srt part asInt norm meanOf sim s inputs topn lo hi restrict = some out) :
    ∃ terms rows cand, resolve asInt norm s inputs = some terms ∧
      (∀ i, cand i = true ↔ (clip s lo hi restrict).1 ≤ i ∧ i < (clip s lo hi restrict).2 ∧ ¬ IsInput asInt s inputs i) ∧
      TopRows s.vectors.length cand (rowScore sim norm s (meanOf terms)) topn.toNat rows ∧
      out = rows.map (fun i => (s.indexToKey.getD i none, rowScore sim norm s (meanOf terms) i)) := by
  unfold mostSimilar at h
  rw [if_neg (by omega)] at h
  dsimp only at h
  cases ht' : resolve asInt norm s inputs with
  | none => rw [ht'] at h; simp at h
  | some terms =>
    rw [ht', Option.bind_some] at h
    split at h
    · simp at h
    · obtain ⟨rows, e, htop⟩ := bestRows_spec srt part hs hp (sim := sim) hn (meanOf terms) (clip s lo hi restrict).1
        (clip s lo hi restrict).2 topn.toNat (inputRows asInt s inputs)
      refine ⟨terms, rows, _, rfl, ?_, htop, ?_⟩
      · intro i
        simp only [Bool.and_eq_true, decide_eq_true_eq, mem_inputRows]
      · rw [e] at h
        rw [← Option.some.inj h, List.map_map]
        rfl

/-- **C39.** `most_similar` answers whenever there is an input and every input key is present. -/
theorem C39_answers (srt : List K → List Nat) (part : List K → Nat → List Nat)
    (asInt : κ → Option Int) (norm : V → N) (meanOf : List (K × V × Option N) → M) (sim : M → V → N → K)
    (s : Store κ V N) (hn : NormsCurrent norm s) (hl : s.vectors.length = s.indexToKey.length)
    (hb : ∀ k i, s.keyToIndex.get? k = some i → i < s.indexToKey.length)
    (inputs : List (Input κ V K)) (topn : Int) (ht : 1 ≤ topn) (lo : Nat) (hi restrict : Option Nat) :
    (mostSimilar srt part asInt norm meanOf sim s inputs topn lo hi restrict).isSome = true ↔
      inputs ≠ [] ∧ ∀ k w, Input.key k w ∈ inputs → has asInt s k = true := by
  have hvec : ∀ k, (getNormed asInt norm s k).isSome = has asInt s k := by
    intro k
    unfold getNormed has
    have e : (fillNorms norm s).vectors = s.vectors ∧ (fillNorms norm s).norms = some (s.vectors.map norm) ∧
        getIndex asInt (fillNorms norm s) k = getIndex asInt s k := by
      unfold fillNorms
      rcases hn with hn | hn <;> rw [hn] <;> refine ⟨rfl, by first | rfl | exact hn, rfl⟩
    dsimp only
    rw [e.1, e.2.1, e.2.2]
    cases hk : getIndex asInt s k with
    | none => rfl
    | some i =>
      have hi' : i < s.vectors.length := by
        rw [hl]
        unfold getIndex at hk
        cases hg : s.keyToIndex.get? k with
        | some j =>
          rw [hg] at hk
          obtain rfl := Option.some.inj hk
          exact hb k j hg
        | none =>
          rw [hg] at hk
          cases ha : asInt k with
          | none => rw [ha] at hk; simp at hk
          | some z =>
            rw [ha] at hk
            dsimp only at hk
            split at hk
            · obtain rfl := Option.some.inj hk; omega
            · simp at hk
      simp [List.getElem?_eq_getElem hi']
  have hres : ∀ l : List (Input κ V K), (resolve asInt norm s l).isSome = true ↔
      ∀ k w, Input.key k w ∈ l → has asInt s k = true := by
    intro l
    induction l with
    | nil => simp [resolve]
    | cons x l ih =>
      cases x with
      | vec v w => simp [resolve, ih]
      | key k w =>
        unfold resolve
        have hk := hvec k
        constructor
        · intro h k' w' hm
          cases hg : getNormed asInt norm s k with
          | none => rw [hg] at h; simp at h
          | some p =>
            rw [hg] at h hk
            rw [Option.bind_some, Option.isSome_map] at h
            rcases List.mem_cons.mp hm with e | e
            · cases e; rw [← hk]; rfl
            · exact ih.mp h k' w' e
        · intro h
          have h1 := h k w List.mem_cons_self
          rw [← hk] at h1
          obtain ⟨p, hp⟩ := Option.isSome_iff_exists.mp h1
          rw [hp, Option.bind_some, Option.isSome_map]
          exact ih.mpr (fun k' w' hm => h k' w' (List.mem_cons_of_mem _ hm))
  have hne : ∀ l : List (Input κ V K), ∀ terms, resolve asInt norm s l = some terms → (terms = [] ↔ l = []) := by
    intro l terms h
    cases l with
    | nil => simp [resolve] at h; simp [h]
    | cons x l =>
      cases x with
      | vec v w =>
        unfold resolve at h
        obtain ⟨r, _, rfl⟩ := Option.map_eq_some_iff.mp h
        simp
      | key k w =>
        unfold resolve at h
        obtain ⟨p, _, h⟩ := Option.bind_eq_some_iff.mp h
        obtain ⟨r, _, rfl⟩ := Option.map_eq_some_iff.mp h
        simp
  rw [← hres]
  unfold mostSimilar
  rw [if_neg (by omega)]
  dsimp only
  cases hr : resolve asInt norm s inputs with
  | none => simp
  | some terms =>
    rw [Option.bind_some, ne_eq, ← hne inputs terms hr]
    by_cases he : terms = [] <;> simp [he]

/-- **C39.** `topn` below one gives nothing. -/
theorem C39_topn_zero (srt : List K → List Nat) (part : List K → Nat → List Nat)
    (asInt : κ → Option Int) (norm : V → N) (meanOf : List (K × V × Option N) → M) (sim : M → V → N → K)
    (s : Store κ V N) (inputs : List (Input κ V K)) (topn : Int) (ht : topn < 1) (lo : Nat) (hi restrict : Option Nat) :
    mostSimilar srt part asInt norm meanOf sim s inputs topn lo hi restrict = some [] := by
  unfold mostSimilar; rw [if_pos ht]

/-- **C39.** `restrict_vocab = r > 0` searches the first `r` rows; without it and without `clip_end` all rows from
`clip_start` on; `clip_end = h > 0` stops before row `h`. -/
theorem C39_searched_rows (s : Store κ V N) (lo : Nat) (hi : Option Nat) (r h : Nat) (hr : 0 < r) (hh : 0 < h) :
    clip s lo hi (some r) = (0, r) ∧ clip s lo (some h) none = (lo, h) ∧
    clip s lo none none = (lo, s.vectors.length) ∧ clip s lo (some 0) (some 0) = (lo, s.vectors.length) := by
  obtain ⟨r, rfl⟩ : ∃ k, r = k + 1 := ⟨r - 1, by omega⟩
  obtain ⟨h, rfl⟩ : ∃ k, h = k + 1 := ⟨h - 1, by omega⟩
  exact ⟨rfl, rfl, rfl, rfl⟩

/-- **C39.** In a store that represents a dictionary (C38) no key given as input is returned. -/
theorem C39_no_input_key (srt : List K → List Nat) (part : List K → Nat → List Nat) (hs : SortOk srt) (hp : PartOk part)
    (asInt : κ → Option Int) (norm : V → N) (meanOf : List (K × V × Option N) → M) (sim : M → V → N → K)
    (s : Store κ V N) (d : PyDict κ V) (hr : Repr s d) (hn : NormsCurrent norm s) (inputs : List (Input κ V K)) (topn : Int)
    (lo : Nat) (hi restrict : Option Nat) (out : List (Option κ × K))
    (h : mostSimilar srt part asInt norm meanOf sim s inputs topn lo hi restrict = some out)
    (k : κ) (w : K) (hk : Input.key k w ∈ inputs) (ha : asInt k = none) (x : K) : (some k, x) ∉ out := by
  intro hm
  by_cases ht : topn < 1
  · rw [C39_topn_zero srt part asInt norm meanOf sim s inputs topn ht] at h
    obtain rfl := Option.some.inj h
    simp at hm
  · obtain ⟨terms, rows, cand, h1, h2, h3, rfl⟩ := C39_most_similar srt part hs hp asInt norm meanOf sim s hn inputs topn
      (by omega) lo hi restrict out h
    obtain ⟨i, hi', e⟩ := List.mem_map.mp hm
    have hc := (h2 i).mp (h3.valid i hi').2
    apply hc.2.2
    refine ⟨k, w, hk, ?_⟩
    rw [getIndex_eq ha, hr.bij]
    have e1 : s.indexToKey.getD i none = some k := congrArg Prod.fst e
    rw [List.getD_eq_getElem?_getD] at e1
    cases hg : s.indexToKey[i]? with
    | none => rw [hg] at e1; simp at e1
    | some y => rw [hg] at e1; simpa using e1

/-- **C39.** `most_similar_cosmul` ranks all rows but those of the input words in the same way. -/
theorem C39_cosmul (srt : List K → List Nat) (part : List K → Nat → List Nat) (hs : SortOk srt) (hp : PartOk part)
    (asInt : κ → Option Int) (norm : V → N) (score : List (K × V × Option N) → V → N → K)
    (s : Store κ V N) (hn : NormsCurrent norm s) (inputs : List (Input κ V K)) (topn : Int) (ht : 1 ≤ topn)
    (out : List (Option κ × K)) (h : mostSimilarCosmul srt part asInt norm score s inputs topn = some out) :
    ∃ terms rows cand, resolve asInt norm s inputs = some terms ∧
      (∀ i, i < s.vectors.length → (cand i = true ↔ ¬ IsInput asInt s inputs i)) ∧
      TopRows s.vectors.length cand (rowScore score norm s terms) topn.toNat rows ∧
      out = rows.map (fun i => (s.indexToKey.getD i none, rowScore score norm s terms i)) := by
  unfold mostSimilarCosmul at h
  rw [if_neg (by omega)] at h
  obtain ⟨terms, h1, h2⟩ := Option.map_eq_some_iff.mp h
  obtain ⟨rows, e, htop⟩ := bestRows_spec srt part hs hp (sim := score) hn terms 0 s.vectors.length topn.toNat
    (inputRows asInt s inputs)
  refine ⟨terms, rows, _, h1, ?_, htop, ?_⟩
  · intro i hi
    simp only [Bool.and_eq_true, decide_eq_true_eq, mem_inputRows]
    simp [hi]
  · rw [← h2, e, List.map_map]
    rfl

/-! ### C41 -/

/-- **C41.** `closer_than(a, b)` contains exactly the keys, other than `a`, whose distance to `a` is smaller than
that of `b`; in particular neither `a` nor `b`. -/
theorem C41_closer_than (asInt : κ → Option Int) (dist : V → V → K) (s : Store κ V N) (d : PyDict κ V) (hr : Repr s d)
    (hf : none ∉ s.indexToKey) (a b : κ) (ha : asInt a = none) (hb : asInt b = none) (va vb : V)
    (hva : d.get? a = some va) (hvb : d.get? b = some vb) :
    ∃ l : List κ, closerThan asInt dist s a b = some (l.map some) ∧ l.Nodup ∧
      ∀ k, k ∈ l ↔ k ≠ a ∧ ∃ v, d.get? k = some v ∧ dist va v < dist va vb := by
  have lk : ∀ k v, d.get? k = some v → ∃ i, s.keyToIndex.get? k = some i ∧ s.vectors[i]? = some v := by
    intro k v h
    rw [hr.val k] at h
    exact Option.bind_eq_some_iff.mp h
  obtain ⟨i, hi, hvi⟩ := lk a va hva
  obtain ⟨j, hj, hvj⟩ := lk b vb hvb
  have hfull : ∀ x < s.indexToKey.length, ∃ k, s.indexToKey[x]? = some (some k) := by
    intro x hx
    cases hg : s.indexToKey[x] with
    | none => exact absurd (hg ▸ List.getElem_mem hx) hf
    | some k => exact ⟨k, by rw [List.getElem?_eq_getElem hx, hg]⟩
  let all := s.vectors.map (dist va)
  let P := fun x => decide (all.getD x 0 < all.getD j 0) && decide (x ≠ i)
  let rows := (List.range all.length).filter P
  have hall : ∀ x v, s.vectors[x]? = some v → all.getD x 0 = dist va v := by
    intro x v h
    rw [List.getD_eq_getElem?_getD, List.getElem?_map, h]; rfl
  have hlen : all.length = s.indexToKey.length := by simp only [all]; rw [List.length_map, hr.len]
  have hc : closerThan asInt dist s a b = some (rows.map (fun x => s.indexToKey.getD x none)) := by
    unfold closerThan
    rw [getIndex_eq ha, hi, Option.bind_some, getIndex_eq hb, hj, Option.bind_some, hvi]
    rfl
  have hrows : ∀ x ∈ rows, x < s.indexToKey.length := by
    intro x hx
    have := List.mem_range.mp (List.mem_filter.mp hx).1
    omega
  refine ⟨rows.filterMap (fun x => s.indexToKey.getD x none), ?_, ?_, ?_⟩
  · rw [hc]
    congr 1
    clear hc
    generalize rows = rs at hrows
    induction rs with
    | nil => rfl
    | cons x rs ih =>
      obtain ⟨k, hk⟩ := hfull x (hrows x List.mem_cons_self)
      have e : s.indexToKey.getD x none = some k := by rw [List.getD_eq_getElem?_getD, hk]; rfl
      rw [List.map_cons, List.filterMap_cons_some (f := fun x => s.indexToKey.getD x none) e, e, List.map_cons,
        ih (fun y hy => hrows y (List.mem_cons_of_mem _ hy))]
  · apply List.Nodup.filterMap _ (List.nodup_range.filter _)
    intro x y k hx hy
    simp only [Option.mem_def, List.getD_eq_getElem?_getD] at hx hy
    have gx : s.indexToKey[x]? = some (some k) := by
      cases h : s.indexToKey[x]? with
      | none => rw [h] at hx; simp at hx
      | some z => rw [h] at hx; simpa using hx
    have gy : s.indexToKey[y]? = some (some k) := by
      cases h : s.indexToKey[y]? with
      | none => rw [h] at hy; simp at hy
      | some z => rw [h] at hy; simpa using hy
    have h1 := (hr.bij k x).mpr gx
    have h2 := (hr.bij k y).mpr gy
    rw [h1] at h2
    exact Option.some.inj h2
  · intro k
    rw [List.mem_filterMap]
    constructor
    · rintro ⟨x, hx, e⟩
      obtain ⟨hx1, hx2⟩ := List.mem_filter.mp hx
      have hxl : x < s.indexToKey.length := hrows x hx
      have gx : s.indexToKey[x]? = some (some k) := by
        rw [List.getD_eq_getElem?_getD] at e
        cases h : s.indexToKey[x]? with
        | none => rw [h] at e; simp at e
        | some z => rw [h] at e; simpa using e
      have hkx := (hr.bij k x).mpr gx
      have hxv : x < s.vectors.length := by rw [hr.len]; exact hxl
      simp only [P, Bool.and_eq_true, decide_eq_true_eq] at hx2
      refine ⟨?_, s.vectors[x], ?_, ?_⟩
      · rintro rfl
        rw [hi] at hkx
        exact hx2.2 (Option.some.inj hkx).symm
      · rw [hr.val, hkx, Option.bind_some, List.getElem?_eq_getElem hxv]
      · have := hx2.1
        rwa [hall x _ (List.getElem?_eq_getElem hxv), hall j vb hvj] at this
    · rintro ⟨hka, v, hkv, hlt⟩
      obtain ⟨x, hkx, hvx⟩ := lk k v hkv
      refine ⟨x, List.mem_filter.mpr ⟨?_, ?_⟩, ?_⟩
      · rw [List.mem_range, hlen]
        exact (List.getElem?_eq_some_iff.mp ((hr.bij k x).mp hkx)).1
      · simp only [P, Bool.and_eq_true, decide_eq_true_eq]
        refine ⟨by rw [hall x v hvx, hall j vb hvj]; exact hlt, ?_⟩
        rintro rfl
        have h1 := (hr.bij k x).mp hkx
        have h2 := (hr.bij a x).mp hi
        rw [h1] at h2
        exact hka (Option.some.inj (Option.some.inj h2))
      · rw [List.getD_eq_getElem?_getD, (hr.bij k x).mp hkx]; rfl

/-- **C41.** `rank(a, b)` is one more than the number of keys other than `a` that are strictly closer to `a` than `b`. -/
theorem C41_rank (asInt : κ → Option Int) (dist : V → V → K) (s : Store κ V N) (d : PyDict κ V) (hr : Repr s d)
    (hf : none ∉ s.indexToKey) (a b : κ) (ha : asInt a = none) (hb : asInt b = none) (va vb : V)
    (hva : d.get? a = some va) (hvb : d.get? b = some vb) :
    rank asInt dist s a b = some (1 + d.countP (fun p => decide (p.1 ≠ a) && decide (dist va p.2 < dist va vb))) := by
  obtain ⟨l, h1, h2, h3⟩ := C41_closer_than asInt dist s d hr hf a b ha hb va vb hva hvb
  unfold rank
  rw [h1, Option.map_some, List.length_map, Nat.add_comm]
  congr 2
  have hwf := WF_filter hr.wf (fun p => decide (p.1 ≠ a) && decide (dist va p.2 < dist va vb))
  have : l.Perm (keys (d.filter (fun p => decide (p.1 ≠ a) && decide (dist va p.2 < dist va vb)))) := by
    rw [List.perm_ext_iff_of_nodup h2 hwf]
    intro k
    rw [h3]
    unfold keys
    rw [List.mem_map]
    constructor
    · rintro ⟨hk, v, hv, hlt⟩
      exact ⟨(k, v), List.mem_filter.mpr ⟨mem_of_get? hv, by simp [hk, hlt]⟩, rfl⟩
    · rintro ⟨⟨k', v⟩, hm, rfl⟩
      obtain ⟨hm1, hm2⟩ := List.mem_filter.mp hm
      simp only [Bool.and_eq_true, decide_eq_true_eq] at hm2
      exact ⟨hm2.1, v, get?_of_mem hr.wf hm1, hm2.2⟩
  rw [this.length_eq, List.countP_eq_length_filter, keys, List.length_map]

/-! ### C63: sorting by frequency; attributes -/

theorem get?_enumerate (l : List (Option κ)) (hl : (l.filterMap id).Nodup) (k : κ) (i : Nat) :
    PyDict.get? (l.zipIdx.foldl (fun d p => match p.1 with
      | some k => d.set k p.2
      | none => d) ([] : PyDict κ Nat)) k = some i ↔ l[i]? = some (some k) := by
  have gen : ∀ (l : List (Option κ)) (n : Nat) (d : PyDict κ Nat), (l.filterMap id).Nodup →
      (∀ k, some k ∈ l → k ∉ d.keys) → ∀ k i, PyDict.get? ((l.zipIdx n).foldl (fun d p => match p.1 with
        | some k => d.set k p.2
        | none => d) d) k = some i ↔ d.get? k = some i ∨ (n ≤ i ∧ l[i - n]? = some (some k)) := by
    intro l
    induction l with
    | nil => intro n d _ _ k i; simp
    | cons x l ih =>
      intro n d hn hd k i
      rw [List.zipIdx_cons, List.foldl_cons]
      cases x with
      | none =>
        rw [List.filterMap_cons_none rfl] at hn
        rw [ih (n + 1) _ hn (fun k hk => hd k (List.mem_cons_of_mem _ hk))]
        apply or_congr_right
        constructor
        · rintro ⟨h1, h2⟩
          refine ⟨by omega, ?_⟩
          rw [show i - n = (i - (n + 1)) + 1 by omega, List.getElem?_cons_succ]
          exact h2
        · rintro ⟨h1, h2⟩
          by_cases hin : i = n
          · subst hin; simp at h2
          · refine ⟨by omega, ?_⟩
            rw [show i - n = (i - (n + 1)) + 1 by omega, List.getElem?_cons_succ] at h2
            exact h2
      | some y =>
        rw [List.filterMap_cons_some (f := id) (a := some y) rfl, List.nodup_cons] at hn
        have hyl : some y ∉ l := fun h => hn.1 (List.mem_filterMap.mpr ⟨some y, h, rfl⟩)
        rw [ih (n + 1) _ hn.2 (by
          intro k hk
          rw [mem_keys_set]
          rintro (rfl | h)
          · exact hyl hk
          · exact hd k (List.mem_cons_of_mem _ hk) h)]
        dsimp only
        rw [get?_set]
        have hyd : d.get? y = none := (get?_eq_none_iff d y).mpr (hd y List.mem_cons_self)
        by_cases hyk : y = k
        · subst hyk
          rw [if_pos rfl, hyd]
          constructor
          · rintro (h | ⟨h1, h2⟩)
            · obtain rfl := Option.some.inj h
              right; simp
            · exact absurd (List.mem_of_getElem? h2) hyl
          · rintro (h | ⟨h1, h2⟩)
            · simp at h
            · by_cases hin : i = n
              · left; rw [hin]
              · rw [show i - n = (i - (n + 1)) + 1 by omega, List.getElem?_cons_succ] at h2
                exact absurd (List.mem_of_getElem? h2) hyl
        · rw [if_neg hyk]
          apply or_congr_right
          constructor
          · rintro ⟨h1, h2⟩
            refine ⟨by omega, ?_⟩
            rw [show i - n = (i - (n + 1)) + 1 by omega, List.getElem?_cons_succ]
            exact h2
          · rintro ⟨h1, h2⟩
            by_cases hin : i = n
            · subst hin; simp at h2; exact absurd h2 hyk
            · refine ⟨by omega, ?_⟩
              rw [show i - n = (i - (n + 1)) + 1 by omega, List.getElem?_cons_succ] at h2
              exact h2
  rw [gen l 0 [] hl (by intro k _ h; simp at h) k i]
  simp

theorem WF_enumerate (l : List (Option κ × Nat)) : ∀ (d : PyDict κ Nat), WF d → WF (l.foldl (fun d p => match p.1 with
      | some k => d.set k p.2
      | none => d) d) := by
  induction l with
  | nil => intro d h; exact h
  | cons p l ih =>
    intro d h
    rw [List.foldl_cons]
    apply ih
    split
    · exact WF_set h _ _
    · exact h

/-- the names of a store that represents a dictionary are different -/
theorem Repr.nodup {s : Store κ V N} {d : PyDict κ V} (hr : Repr s d) (hf : none ∉ s.indexToKey) : s.indexToKey.Nodup := by
  rw [List.nodup_iff_getElem?_ne_getElem?]
  intro i j hij hj e
  have hi : i < s.indexToKey.length := by omega
  cases hg : s.indexToKey[i] with
  | none => exact hf (hg ▸ List.getElem_mem hi)
  | some k =>
    have h1 : s.indexToKey[i]? = some (some k) := by rw [List.getElem?_eq_getElem hi, hg]
    have h2 := h1
    rw [e] at h2
    have a := (hr.bij k i).mpr h1
    have b := (hr.bij k j).mpr h2
    rw [a] at b
    have := Option.some.inj b
    omega

theorem map_getD_perm {α : Type} (l : List α) (z : α) {idx : List Nat} (h : idx.Perm (List.range l.length)) :
    (idx.map (fun i => l.getD i z)).Perm l := by
  refine (h.map _).trans (List.Perm.of_eq ?_)
  apply List.ext_getElem
  · simp
  · intro i h1 h2
    simp at h1
    simp [h1]

theorem sortFreq_spec (srt : List K → List Nat) (hs : SortOk srt) (s : Store κ V N) (d : PyDict κ V) (hr : Repr s d)
    (hf : none ∉ s.indexToKey) (counts : List K) (hc : counts.length = s.indexToKey.length) :
    Repr (sortFreq srt s counts).1 d ∧ (sortFreq srt s counts).1.indexToKey.Perm s.indexToKey ∧
    (sortFreq srt s counts).2.Pairwise (fun a b => b ≤ a) ∧ (sortFreq srt s counts).2.length = counts.length ∧
    ∀ k, ((sortFreq srt s counts).1.keyToIndex.get? k).bind (fun i => (sortFreq srt s counts).2[i]?) =
      (s.keyToIndex.get? k).bind (fun i => counts[i]?) := by
  by_cases he : s.indexToKey = []
  · have : counts = [] := List.length_eq_zero_iff.mp (by rw [hc, he]; rfl)
    subst this
    unfold sortFreq
    rw [if_pos he]
    exact ⟨hr, List.Perm.refl _, List.Pairwise.nil, rfl, fun _ => rfl⟩
  · obtain ⟨p1, p2⟩ := hs counts
    have hlen : 0 < s.indexToKey.length := List.length_pos_iff.mpr he
    generalize hidx : (srt counts).reverse = idx
    have hperm : idx.Perm (List.range s.indexToKey.length) := by
      rw [← hidx, ← hc]; exact (List.reverse_perm _).trans p1
    have hil : idx.length = s.indexToKey.length := by simpa using hperm.length_eq
    have hlt : ∀ x (hx : x < idx.length), idx[x] < s.indexToKey.length := by
      intro x hx
      exact List.mem_range.mp (hperm.mem_iff.mp (List.getElem_mem hx))
    have hv : s.vectors ≠ [] := by
      intro h
      have := hr.len
      rw [h] at this
      simp at this
      omega
    have hnames : (idx.map (fun i => s.indexToKey.getD i none)).Perm s.indexToKey := map_getD_perm _ _ hperm
    have hfn : none ∉ idx.map (fun i => s.indexToKey.getD i none) := fun h => hf (hnames.mem_iff.mp h)
    have hvecs : idx.filterMap (fun i => s.vectors[i]?) = idx.pmap (fun i h => s.vectors[i]'h)
        (by intro i hi; rw [hr.len]; exact List.mem_range.mp (hperm.mem_iff.mp hi)) := by
      have : ∀ (l : List Nat) (hl : ∀ i ∈ l, i < s.vectors.length),
          l.filterMap (fun i => s.vectors[i]?) = l.pmap (fun i h => s.vectors[i]'h) hl := by
        intro l
        induction l with
        | nil => intro _; rfl
        | cons x l ih =>
          intro hl
          rw [List.filterMap_cons_some (List.getElem?_eq_getElem (hl x List.mem_cons_self)), List.pmap_cons,
            ih (fun i hi => hl i (List.mem_cons_of_mem _ hi))]
      exact this _ _
    have hvget : ∀ x (hx : x < idx.length), (idx.filterMap (fun i => s.vectors[i]?))[x]? = s.vectors[idx[x]]? := by
      intro x hx
      rw [hvecs, List.getElem?_pmap]
      simp only [List.getElem?_eq_getElem hx]
      exact (List.getElem?_eq_getElem _).symm
    have hnget : ∀ x (hx : x < idx.length),
        (idx.map (fun i => s.indexToKey.getD i none))[x]? = s.indexToKey[idx[x]]? := by
      intro x hx
      rw [List.getElem?_map, List.getElem?_eq_getElem hx, Option.map_some, List.getD_eq_getElem?_getD,
        List.getElem?_eq_getElem (hlt x hx)]
      rfl
    have hcget : ∀ x (hx : x < idx.length), (idx.map (fun i => counts.getD i 0))[x]? = counts[idx[x]]? := by
      intro x hx
      rw [List.getElem?_map, List.getElem?_eq_getElem hx, Option.map_some, List.getD_eq_getElem?_getD,
        List.getElem?_eq_getElem (by rw [hc]; exact hlt x hx)]
      rfl
    have hnd : ((idx.map (fun i => s.indexToKey.getD i none)).filterMap id).Nodup := by
      apply List.Nodup.filterMap _ (hnames.nodup_iff.mpr (hr.nodup hf))
      intro a b k ha hb
      simp only [id, Option.mem_def] at ha hb
      rw [ha, hb]
    have hbij := get?_enumerate _ hnd
    -- a key in row `i` moves to the row `x` with `idx[x] = i`
    have hmove : ∀ k, (PyDict.get? ((idx.map (fun i => s.indexToKey.getD i none)).zipIdx.foldl (fun d p => match p.1 with
          | some k => d.set k p.2
          | none => d) ([] : PyDict κ Nat)) k).bind (fun x => idx[x]?) = s.keyToIndex.get? k := by
      intro k
      cases hk : s.keyToIndex.get? k with
      | some i =>
        have h1 := (hr.bij k i).mp hk
        have hi := (List.getElem?_eq_some_iff.mp h1).1
        obtain ⟨x, hx, e⟩ := List.getElem_of_mem (hperm.mem_iff.mpr (List.mem_range.mpr hi))
        have : (idx.map (fun i => s.indexToKey.getD i none))[x]? = some (some k) := by
          rw [hnget x hx, e, h1]
        rw [(hbij k x).mpr this, Option.bind_some, List.getElem?_eq_getElem hx, e]
      | none =>
        cases hg : PyDict.get? ((idx.map (fun i => s.indexToKey.getD i none)).zipIdx.foldl (fun d p => match p.1 with
          | some k => d.set k p.2
          | none => d) ([] : PyDict κ Nat)) k with
        | none => rfl
        | some x =>
          have h1 := (hbij k x).mp hg
          have hx : x < idx.length := by
            have := (List.getElem?_eq_some_iff.mp h1).1
            simpa using this
          rw [hnget x hx] at h1
          rw [(hr.bij k _).mpr h1] at hk
          simp at hk
    unfold sortFreq
    rw [if_neg he]
    dsimp only
    rw [hidx, if_neg hv]
    refine ⟨⟨hr.wf, WF_enumerate _ _ WF_nil, ?_, hbij, ?_⟩, hnames, ?_, ?_, ?_⟩
    · dsimp only
      rw [hvecs, List.length_pmap, List.length_map]
    · intro k
      dsimp only
      rw [hr.val k, ← hmove k, Option.bind_assoc]
      cases hg : PyDict.get? ((idx.map (fun i => s.indexToKey.getD i none)).zipIdx.foldl (fun d p => match p.1 with
          | some k => d.set k p.2
          | none => d) ([] : PyDict κ Nat)) k with
      | none => rfl
      | some x =>
        have h1 := (hbij k x).mp hg
        have hx : x < idx.length := by
          have := (List.getElem?_eq_some_iff.mp h1).1
          simpa using this
        rw [Option.bind_some, Option.bind_some, List.getElem?_eq_getElem hx, Option.bind_some, hvget x hx]
    · rw [List.pairwise_map, ← hidx, List.pairwise_reverse]
      exact p2
    · rw [List.length_map, hil, hc]
    · intro k
      rw [← hmove k, Option.bind_assoc]
      cases hg : PyDict.get? ((idx.map (fun i => s.indexToKey.getD i none)).zipIdx.foldl (fun d p => match p.1 with
          | some k => d.set k p.2
          | none => d) ([] : PyDict κ Nat)) k with
      | none => rfl
      | some x =>
        have h1 := (hbij k x).mp hg
        have hx : x < idx.length := by
          have := (List.getElem?_eq_some_iff.mp h1).1
          simpa using this
        rw [Option.bind_some, Option.bind_some, List.getElem?_eq_getElem hx, Option.bind_some, hcget x hx]

/-- **C63.** Sorting by frequency only renumbers the rows: afterwards every key has the vector and the count it had,
the rows are in order of non-increasing count, and `index_to_key` has the same keys. -/
theorem C63_sort (srt : List K → List Nat) (hs : SortOk srt) (asInt : κ → Option Int) (s : Store κ V N) (d : PyDict κ V)
    (hr : Repr s d) (hf : none ∉ s.indexToKey) (counts : List K) (hc : counts.length = s.indexToKey.length) :
    (∀ k, asInt k = none → getVector asInt (sortFreq srt s counts).1 k = getVector asInt s k ∧
      has asInt (sortFreq srt s counts).1 k = has asInt s k ∧
      getAttr asInt (sortFreq srt s counts).1 (sortFreq srt s counts).2 k = getAttr asInt s counts k) ∧
    (sortFreq srt s counts).2.Pairwise (fun a b => b ≤ a) ∧
    (sortFreq srt s counts).1.indexToKey.Perm s.indexToKey ∧
    Repr (sortFreq srt s counts).1 d := by
  obtain ⟨h1, h2, h3, _, h5⟩ := sortFreq_spec srt hs s d hr hf counts hc
  refine ⟨?_, h3, h2, h1⟩
  intro k hk
  refine ⟨?_, ?_, ?_⟩
  · unfold getVector
    rw [getIndex_eq hk, getIndex_eq hk, ← h1.val, ← hr.val]
  · rw [h1.has_iff hk, hr.has_iff hk]
  · unfold getAttr
    rw [getIndex_eq hk, getIndex_eq hk]
    exact h5 k

/-- the cached norms are not renumbered with the rows: a key gets the norm of another one -/
theorem C63_stale_norms (srt : List ℚ → List Nat) (h : srt [1, 2] = [0, 1]) :
    let kv : Store String Nat Nat := ⟨[some "a", some "b"], [("a", 0), ("b", 1)], [3, 4], 2, some [3, 4]⟩
    getNormed (fun _ => none) (fun v => v) (sortFreq srt kv [1, 2]).1 "a" = some (3, 4) := by
  unfold sortFreq
  dsimp only
  rw [h]
  decide +kernel

theorem allocAttr_length {A : Type} (zero : A) (n : Nat) (attr : List A) : (allocAttr zero n attr).length = n := by
  unfold allocAttr
  split
  · assumption
  · rw [List.length_append, List.length_take, List.length_replicate]; omega

theorem allocAttr_get {A : Type} (zero : A) (n : Nat) (attr : List A) (i : Nat) (hi : i < n) :
    (allocAttr zero n attr)[i]? = some (attr.getD i zero) := by
  unfold allocAttr
  rw [List.getD_eq_getElem?_getD]
  split
  · rw [List.getElem?_eq_getElem (by omega)]; rfl
  · by_cases h : i < attr.length
    · rw [List.getElem?_append_left (by rw [List.length_take]; omega), List.getElem?_take_of_lt hi,
        List.getElem?_eq_getElem h]; rfl
    · rw [List.getElem?_append_right (by rw [List.length_take]; omega), List.length_take,
        List.getElem?_replicate, if_pos (by omega), List.getElem?_eq_none (by omega)]; rfl

/-- **C63.** `set_vecattr(k, attr, v)` succeeds for every key present; then `get_vecattr(k)` is `v`, and every other key
has the value it had, or zero if the array did not reach to its row. -/
theorem C63_set_vecattr {A : Type} (asInt : κ → Option Int) (zero : A) (s : Store κ V N) (d : PyDict κ V) (hr : Repr s d)
    (attr : List A) (k : κ) (hk : asInt k = none) (hd : d.contains k = true) (v : A) :
    ∃ attr', setAttr asInt zero s attr k v = some attr' ∧ attr'.length = s.indexToKey.length ∧
      getAttr asInt s attr' k = some v ∧
      ∀ k', asInt k' = none → d.contains k' = true → k' ≠ k →
        getAttr asInt s attr' k' = some ((getAttr asInt s attr k').getD zero) := by
  have hrow : ∀ k, d.contains k = true → ∃ i, s.keyToIndex.get? k = some i ∧ i < s.indexToKey.length := by
    intro k h
    have := hr.isSome k
    rw [show (d.get? k).isSome = true from h] at this
    obtain ⟨i, hi⟩ := Option.isSome_iff_exists.mp this
    exact ⟨i, hi, (List.getElem?_eq_some_iff.mp ((hr.bij k i).mp hi)).1⟩
  obtain ⟨i, hi, hil⟩ := hrow k hd
  refine ⟨(allocAttr zero s.indexToKey.length attr).set i v, ?_, ?_, ?_, ?_⟩
  · unfold setAttr; rw [getIndex_eq hk, hi]; rfl
  · rw [List.length_set, allocAttr_length]
  · unfold getAttr
    rw [getIndex_eq hk, hi, Option.bind_some, List.getElem?_set_self (by rw [allocAttr_length]; exact hil)]
  · intro k' hk' hd' hne
    obtain ⟨j, hj, hjl⟩ := hrow k' hd'
    have hij : i ≠ j := by
      rintro rfl
      have h1 := (hr.bij k i).mp hi
      have h2 := (hr.bij k' i).mp hj
      rw [h1] at h2
      exact hne (Option.some.inj (Option.some.inj h2)).symm
    unfold getAttr
    rw [getIndex_eq hk', hj, Option.bind_some, Option.bind_some, List.getElem?_set_ne hij,
      allocAttr_get _ _ _ _ hjl, List.getD_eq_getElem?_getD]

theorem foldl_append1_get? : ∀ (l : List (κ × V)) (s : Store κ V N) (k : κ) (i : Nat), s.keyToIndex.get? k = some i →
    (∀ p ∈ l, p.1 ≠ k) → (l.foldl append1 s).keyToIndex.get? k = some i := by
  intro l
  induction l with
  | nil => intro s k i h _; exact h
  | cons p l ih =>
    intro s k i h hp
    apply ih _ k i _ (fun q hq => hp q (List.mem_cons_of_mem _ hq))
    simp only [append1]
    rw [get?_set_ne _ (hp p List.mem_cons_self)]
    exact h

/-- **C63.** Adding vectors leaves the rows, so the attributes, of the keys already present as they are. -/
theorem C63_add_keeps_attrs {A : Type} (asInt : κ → Option Int) (s : Store κ V N) (attr : List A) (items : List (κ × V))
    (r : Bool) (k : κ) (hk : asInt k = none) (h : has asInt s k = true) :
    getAttr asInt (addVectors asInt s items r) attr k = getAttr asInt s attr k := by
  unfold getAttr
  rw [getIndex_eq hk, getIndex_eq hk]
  unfold has at h
  rw [getIndex_eq hk] at h
  obtain ⟨i, hi⟩ := Option.isSome_iff_exists.mp h
  have e : (addVectors asInt s items r).keyToIndex.get? k = some i := by
    rw [addVectors_eq]
    have := foldl_append1_get? (items.filter (fun p => !has asInt s p.1)) s k i hi (by
      rintro p hp rfl
      have := (List.mem_filter.mp hp).2
      unfold has at this
      rw [getIndex_eq hk, hi] at this
      simp at this)
    split
    · exact this
    · exact this
  rw [e, hi]

/-! ### Non-trivial cases -/

/-- a store with three keys; the scores are the vectors themselves -/
def exKV : Store String ℚ ℚ := ⟨[some "a", some "b", some "c"], [("a", 0), ("b", 1), ("c", 2)], [3, 5, 4], 3, none⟩

/-- a lawful `np.argsort`: insertion sort of the positions -/
def exSort (x : List ℚ) : List Nat := (List.range x.length).insertionSort (fun i j => x.getD i 0 ≤ x.getD j 0)

theorem exSort_ok : SortOk exSort := by
  intro x
  refine ⟨List.perm_insertionSort _ _, ?_⟩
  have := List.pairwise_insertionSort (fun i j : Nat => x.getD i 0 ≤ x.getD j 0) (List.range x.length)
  exact this

theorem exPart_ok : PartOk (fun x (_ : Nat) => exSort x) := by
  intro x k _
  obtain ⟨h1, h2⟩ := exSort_ok x
  refine ⟨h1, ?_⟩
  rw [← List.take_append_drop k (exSort x), List.pairwise_append] at h2
  exact h2.2.2

theorem exKV_repr : Repr exKV [("a", 3), ("b", 5), ("c", 4)] := by
  have : History (fun _ : String => none) (fun v : ℚ => v) (new 0 0) []
      [.addVectors [("a", 3), ("b", 5), ("c", 4)] false, .fillNorms] _ _ :=
    .cons (by constructor <;> decide +kernel) (.cons trivial (.nil _ _))
  have h := repr_history this (repr_new 0 0)
  exact ⟨h.wf, h.kwf, h.len, h.bij, h.val⟩

example : mostSimilar exSort (fun x _ => exSort x) (fun _ => none) (fun v => v)
    (fun _ => ()) (fun _ v _ => v) exKV [.key "b" 1] 1 0 none none = some [(some "c", 4)] ∧
    rank (fun _ => none) (fun a b => |a - b|) exKV "a" "b" = some 2 ∧
    (sortFreq exSort exKV [5, 7, 6]).1.indexToKey = [some "b", some "c", some "a"] := by decide +kernel

end Verif.KV
