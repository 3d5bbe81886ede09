import Mathlib.Tactic.Common
import Verif.Utils.ViewModel

/-! Property C17: corpus views. -/

namespace Verif.View

variable {α : Type}

/-! ### RepeatCorpus -/

theorem length_cycleTake (full : List α) (hf : full ≠ []) (n : Nat) (cur : List α) :
    (cycleTake full n cur).length = n := by
  induction n generalizing cur with
  | zero => rfl
  | succ n ih =>
    cases cur with
    | cons x cur => simp [cycleTake, ih]
    | nil =>
      cases full with
      | nil => exact absurd rfl hf
      | cons x f => simp [cycleTake, ih]

theorem getElem?_cycleTake (full : List α) (n i : Nat) (cur : List α) (h : i < n) (off : Nat)
    (hc : cur = full.drop off) (ho : off ≤ full.length) :
    (cycleTake full n cur)[i]? = full[(off + i) % full.length]? := by
  induction n generalizing cur i off with
  | zero => omega
  | succ n ih =>
    cases full with
    | nil =>
      simp at ho; subst ho; simp at hc; subst hc
      simp [cycleTake]
    | cons x f =>
      by_cases he : off = (x :: f).length
      · subst he
        simp only [List.drop_length] at hc
        subst hc
        simp only [cycleTake]
        cases i with
        | zero => simp
        | succ i =>
          rw [List.getElem?_cons_succ, ih i f (by omega) 1 (by simp) (by simp)]
          congr 1
          rw [Nat.add_mod_left, Nat.add_comm]
      · have hlt : off < (x :: f).length := by omega
        rw [List.drop_eq_getElem_cons hlt] at hc
        subst hc
        simp only [cycleTake]
        cases i with
        | zero =>
          have e0 : (off + 0) % (x :: f).length = off := Nat.mod_eq_of_lt hlt
          rw [e0, List.getElem?_eq_getElem hlt]; rfl
        | succ i =>
          rw [List.getElem?_cons_succ, ih i _ (by omega) (off + 1) rfl (by omega)]
          congr 2
          omega

/-- **C17.** `RepeatCorpus(corpus, reps)` over a non-empty corpus yields exactly `reps` documents,
the `i`-th being document `i mod len(corpus)`; over an empty corpus it yields nothing. -/
theorem C17_repeat (reps : Nat) (l : List α) :
    (repeatIter reps l).length = (if l = [] then 0 else reps) ∧
    ∀ i, i < reps → (repeatIter reps l)[i]? = l[i % l.length]? := by
  constructor
  · by_cases h : l = []
    · subst h; cases reps <;> simp [repeatIter, cycleTake]
    · simp [h, repeatIter, length_cycleTake l h]
  · intro i hi
    have := getElem?_cycleTake l reps i l hi 0 (by simp) (by simp)
    simpa [repeatIter] using this

example : repeatIter 5 [1, 2] = [1, 2, 1, 2, 1] := by decide

/-- **C17.** `RepeatCorpusNTimes(corpus, n)` yields the corpus `n` times in a row. -/
theorem C17_repeat_n_times (n : Nat) (l : List α) : repeatNTimesIter n l = (List.replicate n l).flatten := by
  induction n with
  | zero => rfl
  | succ n ih => rw [repeatNTimesIter, ih, List.replicate_succ, List.flatten_cons]

/-! ### ClippedCorpus -/

theorem isliceAux_step1 (stop : Option Nat) (i : Nat) (l : List α) :
    isliceAux stop 1 i 0 l = match stop with | none => l | some s => l.take (s - i) := by
  induction l generalizing i with
  | nil => cases stop <;> simp [isliceAux]
  | cons x l ih =>
    cases stop with
    | none =>
      have := ih (i + 1)
      simp only at this
      simp [isliceAux, this]
    | some s =>
      have := ih (i + 1)
      simp only at this
      by_cases hs : s ≤ i
      · simp [isliceAux, hs, Nat.sub_eq_zero_of_le hs]
      · obtain ⟨k, hk⟩ : ∃ k, s - i = k + 1 := ⟨s - i - 1, by omega⟩
        have : s - (i + 1) = k := by omega
        simp_all [isliceAux]

/-- **C17.** `ClippedCorpus(corpus, max_docs)` yields the first `max_docs` documents, and its length
is the number of documents it yields; with `max_docs=None` it yields everything but has no length. -/
theorem C17_clipped (m : Nat) (l : List α) :
    clippedIter (some m) l = l.take m ∧ clippedLen (some m) l = some (clippedIter (some m) l).length ∧
    clippedIter none l = l ∧ clippedLen none l = none := by
  have h1 : clippedIter (some m) l = l.take m := by
    unfold clippedIter; rw [isliceAux_step1]; simp
  refine ⟨h1, by rw [h1]; simp [clippedLen], ?_, rfl⟩
  unfold clippedIter; rw [isliceAux_step1]

example : clippedIter (some 2) [7, 8, 9] = [7, 8] := by decide

/-! ### SlicedCorpus -/

/-- Spec: the elements at the positions `start, start+step, ...` below `stop` -/
def everyNth (start step : Nat) (stop : Option Nat) (l : List α) : List α :=
  ((List.range l.length).filter (fun i => decide (start ≤ i) && decide ((i - start) % step = 0) &&
    stop.elim true (fun s => decide (i < s)))).filterMap (fun i => l[i]?)

theorem isliceAux_eq (stop : Option Nat) (step : Nat) (hs : 0 < step) (i skip : Nat) (l : List α) :
    isliceAux stop step i skip l =
      ((List.range l.length).filter (fun j => decide (skip ≤ j) && decide ((j - skip) % step = 0) &&
        stop.elim true (fun s => decide (i + j < s)))).filterMap (fun j => l[j]?) := by
  induction l generalizing i skip with
  | nil => simp [isliceAux]
  | cons x l ih =>
    rw [List.length_cons, List.range_succ_eq_map, List.filter_cons, isliceAux]
    have hrest : ∀ (i' skip' : Nat) (hi : i' = i + 1)
        (hsk : ∀ j, (decide (skip' ≤ j) && decide ((j - skip') % step = 0)) =
          (decide (skip ≤ j + 1) && decide ((j + 1 - skip) % step = 0))),
        isliceAux stop step i' skip' l =
        (((List.range l.length).map Nat.succ).filter (fun j => decide (skip ≤ j) &&
          decide ((j - skip) % step = 0) && stop.elim true (fun s => decide (i + j < s)))).filterMap
            (fun j => (x :: l)[j]?) := by
      intro i' skip' hi hsk
      subst hi
      rw [ih, List.filter_map, List.filterMap_map]
      have e : (fun j => decide (skip' ≤ j) && decide ((j - skip') % step = 0) &&
          stop.elim true (fun s => decide (i + 1 + j < s))) =
          ((fun j => decide (skip ≤ j) && decide ((j - skip) % step = 0) &&
            stop.elim true (fun s => decide (i + j < s))) ∘ Nat.succ) := by
        funext j
        simp only [Function.comp_apply, hsk j, Nat.succ_eq_add_one]
        congr 1
        cases stop with
        | none => rfl
        | some s => simp only [Option.elim_some]; congr 1; rw [eq_iff_iff]; omega
      rw [e]
      rfl
    by_cases hst : stop.elim false (fun s => decide (s ≤ i)) = true
    · rw [if_pos hst]
      cases stop with
      | none => simp at hst
      | some s =>
        simp at hst
        have hfalse : ∀ j, decide (i + j < s) = false := by intro j; simp; omega
        simp only [Option.elim_some, hfalse, Bool.and_false, Bool.false_eq_true, if_false]
        simp
    · rw [if_neg hst]
      have h0 : stop.elim true (fun s => decide (i + 0 < s)) = true := by
        cases stop with
        | none => rfl
        | some s => simp at hst ⊢; omega
      by_cases hk : skip = 0
      · subst hk
        rw [if_pos rfl]
        have : (decide (0 ≤ 0) && decide ((0 - 0) % step = 0) && stop.elim true (fun s => decide (i + 0 < s))) = true := by
          rw [h0]; simp
        rw [if_pos this, List.filterMap_cons]
        simp only [List.getElem?_cons_zero]
        congr 1
        apply hrest _ _ rfl
        intro j
        by_cases hj : step - 1 ≤ j
        · have e1 : (j + 1 - 0) % step = (j - (step - 1)) % step := by
            rw [show j + 1 - 0 = (j - (step - 1)) + step by omega, Nat.add_mod_right]
          rw [e1]; simp; omega
        · have e1 : (j + 1 - 0) % step = j + 1 := by
            rw [Nat.sub_zero, Nat.mod_eq_of_lt (by omega)]
          rw [e1]; simp; omega
      · rw [if_neg hk]
        have : (decide (skip ≤ 0) && decide ((0 - skip) % step = 0) && stop.elim true (fun s => decide (i + 0 < s))) = false := by
          have : decide (skip ≤ 0) = false := by simp; omega
          rw [this]; rfl
        rw [if_neg (by rw [this]; simp)]
        apply hrest _ _ rfl
        intro j
        have e1 : j - (skip - 1) = j + 1 - skip := by omega
        rw [e1]
        congr 2
        rw [eq_iff_iff]; omega

/-- **C17.** Slicing a corpus without an index (any `start`, `stop`, `step` accepted by `islice`)
yields the documents at positions `start, start+step, ...` below `stop`, in order. -/
theorem C17_sliced_unindexed (start stop step : Option Int) (l r : List α)
    (h : slicedIter false start stop step l = some r) :
    r = everyNth (start.getD 0).toNat (step.getD 1).toNat (stop.map Int.toNat) l := by
  unfold slicedIter islice at h
  simp only [Bool.false_and, Bool.false_eq_true, if_false] at h
  split at h
  · cases h
  · next hc =>
    cases h
    simp only [Bool.or_eq_true, decide_eq_true_eq, not_or] at hc
    rw [isliceAux_eq _ _ (by omega)]
    unfold everyNth
    congr 2
    funext j
    cases stop <;> simp

example : slicedIter false (some 1) (some 6) (some 2) [0, 1, 2, 3, 4, 5, 6, 7] = some [1, 3, 5] := by decide

/-! `range` and the length of a sliced corpus -/

theorem length_pyRangeAux_pos (stop step : Int) (hs : 0 < step) (f : Nat) (i : Int) (hf : stop - i ≤ f) :
    ((pyRangeAux stop step f i).length : Int) = max 0 ((stop - i + step - 1) / step) := by
  induction f generalizing i with
  | zero =>
    have h1 : (stop - i + step - 1) / step < 1 := Int.ediv_lt_of_lt_mul hs (by omega)
    simp only [pyRangeAux, List.length_nil]
    omega
  | succ f ih =>
    unfold pyRangeAux
    by_cases hc : i < stop
    · rw [if_pos (Or.inl ⟨hs, hc⟩), List.length_cons]
      push_cast
      rw [ih (i + step) (by omega)]
      have e : stop - i + step - 1 = (stop - (i + step) + step - 1) + 1 * step := by omega
      rw [e, Int.add_mul_ediv_right _ _ (by omega)]
      have : 0 ≤ (stop - (i + step) + step - 1) / step := Int.ediv_nonneg (by omega) (by omega)
      omega
    · rw [if_neg (by omega)]
      have h1 : (stop - i + step - 1) / step < 1 := Int.ediv_lt_of_lt_mul hs (by omega)
      simp only [List.length_nil]
      omega

theorem length_pyRangeAux_neg (stop step : Int) (hs : step < 0) (f : Nat) (i : Int) (hf : i - stop ≤ f) :
    ((pyRangeAux stop step f i).length : Int) = max 0 ((i - stop + (-step) - 1) / (-step)) := by
  induction f generalizing i with
  | zero =>
    have h1 : (i - stop + (-step) - 1) / (-step) < 1 := Int.ediv_lt_of_lt_mul (by omega) (by omega)
    simp only [pyRangeAux, List.length_nil]
    omega
  | succ f ih =>
    unfold pyRangeAux
    by_cases hc : stop < i
    · rw [if_pos (Or.inr ⟨hs, hc⟩), List.length_cons]
      push_cast
      rw [ih (i + step) (by omega)]
      have e : i - stop + -step - 1 = (i + step - stop + -step - 1) + 1 * (-step) := by omega
      rw [e, Int.add_mul_ediv_right _ _ (by omega)]
      have : 0 ≤ (i + step - stop + -step - 1) / (-step) := Int.ediv_nonneg (by omega) (by omega)
      omega
    · rw [if_neg (by omega)]
      have h1 : (i - stop + -step - 1) / (-step) < 1 := Int.ediv_lt_of_lt_mul (by omega) (by omega)
      simp only [List.length_nil]
      omega

theorem mem_pyRangeAux (stop step : Int) (f : Nat) (i x : Int) (h : x ∈ pyRangeAux stop step f i) :
    (0 < step ∧ i ≤ x ∧ x < stop) ∨ (step < 0 ∧ stop < x ∧ x ≤ i) := by
  induction f generalizing i with
  | zero => simp [pyRangeAux] at h
  | succ f ih =>
    unfold pyRangeAux at h
    split at h
    · next hc =>
      rcases List.mem_cons.mp h with rfl | h
      · omega
      · have := ih _ h; omega
    · simp at h

theorem sliceIndices_bounds (start stop step : Option Int) (n : Nat) {a b c : Int}
    (h : sliceIndices start stop step n = some (a, b, c)) :
    c ≠ 0 ∧ (0 < c → 0 ≤ a ∧ b ≤ n) ∧ (c < 0 → a ≤ n - 1 ∧ -1 ≤ b) := by
  unfold sliceIndices at h
  simp only at h
  split at h
  · cases h
  · next hc =>
    simp only [Option.some.injEq, Prod.mk.injEq] at h
    obtain ⟨ha, hb, hc'⟩ := h
    rw [hc'] at ha hb hc
    refine ⟨hc, ?_, ?_⟩
    · intro hpos
      have hn : ¬ c < 0 := by omega
      simp only [hn, if_false] at ha hb
      constructor
      · cases start with
        | none => simp at ha; omega
        | some x => simp only at ha; split at ha <;> omega
      · cases stop with
        | none => simp at hb; omega
        | some x => simp only at hb; split at hb <;> omega
    · intro hneg
      simp only [hneg, if_true] at ha hb
      constructor
      · cases start with
        | none => simp at ha; omega
        | some x => simp only at ha; split at ha <;> omega
      · cases stop with
        | none => simp at hb; omega
        | some x => simp only at hb; split at hb <;> omega

theorem length_filterMap_some {β γ : Type} (f : β → Option γ) (l : List β) (h : ∀ x ∈ l, (f x).isSome) :
    (l.filterMap f).length = l.length := by
  induction l with
  | nil => rfl
  | cons x l ih =>
    obtain ⟨y, hy⟩ := Option.isSome_iff_exists.mp (h x (by simp))
    rw [List.filterMap_cons, hy]
    simp [ih (fun z hz => h z (by simp [hz]))]

theorem length_pySlice {start stop step : Option Int} {l r : List α} {a b c : Int}
    (hi : sliceIndices start stop step l.length = some (a, b, c)) (hr : pySlice start stop step l = some r) :
    r.length = (pyRange a b c).length := by
  unfold pySlice at hr
  rw [hi] at hr
  simp only [Option.map_some, Option.some.injEq] at hr
  rw [← hr]
  apply length_filterMap_some
  intro x hx
  obtain ⟨_, h1, h2⟩ := sliceIndices_bounds _ _ _ _ hi
  have hb : 0 ≤ x ∧ x < l.length := by
    rcases mem_pyRangeAux _ _ _ _ _ hx with h | h
    · have := h1 h.1; omega
    · have := h2 h.1; omega
  rw [if_neg (by omega)]
  rw [List.getElem?_eq_getElem (by omega)]
  rfl

/-- **C17.** For a slice with a positive step whose bounds are in order, `len()` of the sliced corpus
is the number of documents it yields. -/
theorem C17_sliced_len {start stop step : Option Int} {l r : List α} {a b c : Int}
    (hi : sliceIndices start stop step l.length = some (a, b, c)) (hc : 0 < c) (hab : a ≤ b)
    (hr : pySlice start stop step l = some r) :
    slicedLen start stop step l.length = some (r.length : Int) := by
  rw [length_pySlice hi hr]
  unfold slicedLen pyRange
  rw [hi, length_pyRangeAux_pos _ _ hc _ _ (by omega)]
  simp only [Option.map_some, Option.some.injEq]
  rw [Int.fdiv_eq_ediv_of_nonneg _ (by omega), Int.fmod_eq_emod_of_nonneg _ (by omega)]
  have hdm := Int.mul_ediv_add_emod (b - a) c
  have h1 := Int.emod_nonneg (b - a) (b := c) (by omega)
  have h2 := Int.emod_lt_of_pos (b - a) hc
  have h3 : 0 ≤ (b - a) / c := Int.ediv_nonneg (by omega) (by omega)
  generalize hq : (b - a) / c = q at *
  generalize hrm : (b - a) % c = m at *
  by_cases hm : m > 0
  · rw [if_pos hm]
    have e : b - a + c - 1 = (m - 1) + (q + 1) * c := by
      rw [← hdm, Int.add_mul, Int.mul_comm]; omega
    rw [e, Int.add_mul_ediv_right _ _ (by omega), Int.ediv_eq_zero_of_lt (by omega) (by omega)]
    omega
  · rw [if_neg hm]
    have e : b - a + c - 1 = (c - 1) + q * c := by
      rw [← hdm, Int.mul_comm]; omega
    rw [e, Int.add_mul_ediv_right _ _ (by omega), Int.ediv_eq_zero_of_lt (by omega) (by omega)]
    omega

example : sliceIndices (some 1) none (some 3) 8 = some (1, 8, 3) ∧
    pySlice (some 1) none (some 3) [0, 1, 2, 3, 4, 5, 6, 7] = some [1, 4, 7] ∧
    slicedLen (some 1) none (some 3) 8 = some 3 := by decide

/-- **C17.** For a negative step `len()` is right if the step divides the distance. -/
theorem C17_sliced_len_negative {start stop step : Option Int} {l r : List α} {a b c : Int}
    (hi : sliceIndices start stop step l.length = some (a, b, c)) (hc : c < 0) (hab : b ≤ a)
    (hd : c ∣ b - a) (hr : pySlice start stop step l = some r) :
    slicedLen start stop step l.length = some (r.length : Int) := by
  rw [length_pySlice hi hr]
  unfold slicedLen pyRange
  rw [hi, length_pyRangeAux_neg _ _ hc _ _ (by omega)]
  simp only [Option.map_some, Option.some.injEq]
  obtain ⟨q, hq⟩ := hd
  have hq0 : 0 ≤ q := by
    by_contra hneg
    have : 0 < c * q := Int.mul_pos_of_neg_of_neg hc (by omega)
    omega
  rw [hq, Int.mul_fdiv_cancel_left _ (by omega), Int.mul_fmod_right]
  have e : a - b + -c - 1 = (-c - 1) + q * (-c) := by
    have : a - b = q * (-c) := by rw [Int.mul_neg, Int.mul_comm, ← hq]; omega
    omega
  rw [e, Int.add_mul_ediv_right _ _ (by omega), Int.ediv_eq_zero_of_lt (by omega) (by omega)]
  simp
  omega

/-- **C17, negative.** `len(SlicedCorpus(corpus, slice(4, 0, -3)))` is 1 although 2 documents are
yielded. -/
theorem C17_sliced_len_negative_step_fails :
    pySlice (some 4) (some 0) (some (-3)) [0, 1, 2, 3, 4] = some [4, 1] ∧
    slicedLen (some 4) (some 0) (some (-3)) 5 = some 1 := by decide

/-- **C17, negative.** For an empty slice such as `corpus[4:1]` the computed length is negative, so
`len()` raises, although iteration yields nothing. -/
theorem C17_sliced_len_empty_slice_fails :
    pySlice (some 4) (some 1) none [0, 1, 2, 3, 4] = some [] ∧
    slicedLen (some 4) (some 1) none 5 = some (-3) := by decide

theorem getElem?_pyRangeAux (stop step : Int) (f : Nat) (i : Int)
    (hf : (0 < step → stop - i ≤ f) ∧ (step < 0 → i - stop ≤ f)) (hs : step ≠ 0) (j : Nat) :
    (pyRangeAux stop step f i)[j]? =
      if (0 < step ∧ i + j * step < stop) ∨ (step < 0 ∧ stop < i + j * step) then some (i + j * step) else none := by
  induction f generalizing i j with
  | zero =>
    have : ¬ ((0 < step ∧ i + j * step < stop) ∨ (step < 0 ∧ stop < i + j * step)) := by
      rintro (⟨h1, h2⟩ | ⟨h1, h2⟩)
      · have := hf.1 h1
        have : 0 ≤ (j : Int) * step := Int.mul_nonneg (by omega) (by omega)
        omega
      · have := hf.2 h1
        have : (j : Int) * step ≤ 0 := Int.mul_nonpos_of_nonneg_of_nonpos (by omega) (by omega)
        omega
    rw [if_neg this]
    simp [pyRangeAux]
  | succ f ih =>
    unfold pyRangeAux
    split
    · next h =>
      cases j with
      | zero =>
        simp only [List.getElem?_cons_zero, Int.natCast_zero, Int.zero_mul, Int.add_zero]
        rw [if_pos h]
      | succ j =>
        rw [List.getElem?_cons_succ, ih (i + step) (by omega) j]
        have : i + step + (j : Int) * step = i + ((j + 1 : Nat) : Int) * step := by
          push_cast; rw [Int.add_mul]; omega
        rw [this]
    · next h =>
      have : ¬ ((0 < step ∧ i + j * step < stop) ∨ (step < 0 ∧ stop < i + j * step)) := by
        rintro (⟨h1, h2⟩ | ⟨h1, h2⟩)
        · have : 0 ≤ (j : Int) * step := Int.mul_nonneg (by omega) (by omega)
          omega
        · have : (j : Int) * step ≤ 0 := Int.mul_nonpos_of_nonneg_of_nonpos (by omega) (by omega)
          omega
      rw [if_neg this]
      rfl

theorem getElem?_pyRange (start stop step : Int) (hs : step ≠ 0) (j : Nat) :
    (pyRange start stop step)[j]? =
      if (0 < step ∧ start + j * step < stop) ∨ (step < 0 ∧ stop < start + j * step) then some (start + j * step) else none := by
  unfold pyRange
  exact getElem?_pyRangeAux _ _ _ _ (by omega) hs j

theorem getElem?_filterMap_some {β γ : Type} (f : β → Option γ) : ∀ (l : List β), (∀ x ∈ l, (f x).isSome) → ∀ j : Nat,
    (l.filterMap f)[j]? = l[j]?.bind f := by
  intro l
  induction l with
  | nil => intro _ j; simp
  | cons x l ih =>
    intro h j
    obtain ⟨y, hy⟩ := Option.isSome_iff_exists.1 (h x (by simp))
    rw [List.filterMap_cons, hy]
    cases j with
    | zero => simp [hy]
    | succ j => simp [ih (fun z hz => h z (List.mem_cons_of_mem _ hz)) j]

/-- **C17.** Slicing a corpus with an index: for the adjusted bounds `a`, `b` and step `c` the documents are those at the
positions `a`, `a + c`, `a + 2c`, ... as long as these are before `b` (after it, for negative steps). -/
theorem C17_sliced_indexed (start stop step : Option Int) (l r : List α) (hl : l ≠ [])
    (h : slicedIter true start stop step l = some r) :
    ∃ a b c, sliceIndices start stop step l.length = some (a, b, c) ∧ c ≠ 0 ∧ ∀ j : Nat,
      (((0 < c ∧ a + j * c < b) ∨ (c < 0 ∧ b < a + j * c)) →
        0 ≤ a + j * c ∧ a + j * c < l.length ∧ r[j]? = l[(a + j * c).toNat]?) ∧
      (¬ ((0 < c ∧ a + j * c < b) ∨ (c < 0 ∧ b < a + j * c)) → r[j]? = none) := by
  have hl' : 0 < l.length := List.length_pos_iff.2 hl
  unfold slicedIter at h
  rw [if_pos (by simp [hl'])] at h
  unfold pySlice at h
  cases hi : sliceIndices start stop step l.length with
  | none => rw [hi] at h; simp at h
  | some p =>
    obtain ⟨a, b, c⟩ := p
    rw [hi] at h
    simp only [Option.map_some, Option.some.injEq] at h
    obtain ⟨hc, h1, h2⟩ := sliceIndices_bounds _ _ _ _ hi
    have hb : ∀ x ∈ pyRange a b c, 0 ≤ x ∧ x < l.length := by
      intro x hx
      rcases mem_pyRangeAux _ _ _ _ _ hx with h | h
      · have := h1 h.1; omega
      · have := h2 h.1; omega
    have hsome : ∀ x ∈ pyRange a b c, (if x < 0 then none else l[x.toNat]?).isSome := by
      intro x hx
      have := hb x hx
      rw [if_neg (by omega), List.getElem?_eq_getElem (by omega)]
      rfl
    have key : ∀ j : Nat, r[j]? = (pyRange a b c)[j]?.bind fun i => if i < 0 then none else l[i.toNat]? := by
      intro j; rw [← h]; exact getElem?_filterMap_some _ _ hsome j
    refine ⟨a, b, c, rfl, hc, fun j => ⟨fun hj => ?_, fun hj => ?_⟩⟩
    · have e := getElem?_pyRange a b c hc j
      rw [if_pos hj] at e
      have hm := hb _ (List.mem_of_getElem? e)
      refine ⟨hm.1, hm.2, ?_⟩
      rw [key j, e, Option.bind_some, if_neg (by omega)]
    · rw [key j, getElem?_pyRange a b c hc j, if_neg hj]
      rfl

/-- **C17.** The adjusted bounds are the ones of Python: missing ones are the ends, negative ones count from the end, and
what lies outside is moved to the ends. -/
theorem C17_bounds (n : Nat) (start stop : Option Int) (c : Int) (hc : 0 < c) :
    sliceIndices start stop (some c) n =
      some (min (n : Int) (max 0 (start.elim 0 fun x => if x < 0 then x + n else x)),
            min (n : Int) (max 0 (stop.elim (n : Int) fun x => if x < 0 then x + n else x)), c) ∧
    sliceIndices start stop (some (-c)) n =
      some (min ((n : Int) - 1) (max (-1) (start.elim ((n : Int) - 1) fun x => if x < 0 then x + n else x)),
            min ((n : Int) - 1) (max (-1) (stop.elim (-1) fun x => if x < 0 then x + n else x)), -c) := by
  unfold sliceIndices
  refine ⟨?_, ?_⟩
  · simp only [Option.getD_some]
    rw [if_neg (by omega)]
    rw [if_neg (by omega : ¬ c < 0)]
    cases start <;> cases stop <;> simp only [Option.elim_none, Option.elim_some, Option.some.injEq, Prod.mk.injEq, and_true] <;>
      refine ⟨?_, ?_⟩ <;> (try split) <;> omega
  · simp only [Option.getD_some]
    rw [if_neg (by omega)]
    rw [if_pos (by omega : -c < 0), if_pos (by omega : -c < 0)]
    cases start <;> cases stop <;> simp only [Option.elim_none, Option.elim_some, Option.some.injEq, Prod.mk.injEq, and_true] <;>
      refine ⟨?_, ?_⟩ <;> (try split) <;> omega

example : slicedIter true (some (-2)) none (some (-2)) [0, 1, 2, 3, 4] = some [3, 1] ∧
    sliceIndices (some (-2)) none (some (-2)) 5 = some (3, -1, -2) := by decide

end Verif.View
