import Verif.Dictionary.Props

/-! Property C05 (`filter_extremes`) and C09 (pruning inside `add_documents`). -/

namespace Verif.Dictionary
open Verif PyDict

variable {τ : Type} [LinearOrder τ]

/-! ### specification -/

/-- Spec of C05: `w` passes the frequency thresholds or is protected by `keep_tokens`. -/
def eligible (d : Dct τ) (nb na : Int) (keep : List τ) (w : τ) : Prop :=
  known d w ∧ (w ∈ keep ∨ (nb ≤ ((dfOf d w).getD 0 : Nat) ∧ (((dfOf d w).getD 0 : Nat) : Int) ≤ na))

instance (d : Dct τ) (nb na : Int) (keep : List τ) (w : τ) : Decidable (eligible d nb na keep w) := by
  unfold eligible; infer_instance

/-- Spec of C05: the frequency by which tokens compete for the `keep_n` places (a protected token
counts as occurring in all documents). -/
def prio (d : Dct τ) (keep : List τ) (w : τ) : Nat :=
  if w ∈ keep then d.numDocs else (dfOf d w).getD 0

/-! ### sorting lemmas -/

theorem insertSorted_lex (key : Nat → Nat) (x : Nat) (l : List Nat) (hx : ∀ y ∈ l, x < y)
    (hl : l.Pairwise (fun a b => key b < key a ∨ (key a = key b ∧ a < b))) :
    (insertSorted (fun a b => decide (key b ≤ key a)) x l).Pairwise
      (fun a b => key b < key a ∨ (key a = key b ∧ a < b)) := by
  induction l with
  | nil => simp [insertSorted]
  | cons y ys ih =>
    rw [List.pairwise_cons] at hl
    unfold insertSorted
    by_cases hk : key y ≤ key x
    · simp only [hk, decide_true, if_true]
      rw [List.pairwise_cons]
      refine ⟨?_, List.pairwise_cons.mpr hl⟩
      intro z hz
      have hxz := hx z hz
      rcases List.mem_cons.mp hz with rfl | hz'
      · omega
      · have := hl.1 z hz'; omega
    · simp only [hk, decide_false]
      rw [if_neg (by simp), List.pairwise_cons]
      refine ⟨?_, ih (fun z hz => hx z (List.mem_cons_of_mem _ hz)) hl.2⟩
      intro z hz
      rcases List.mem_cons.mp ((insertSorted_perm _ x ys).mem_iff.mp hz) with rfl | hz'
      · left; omega
      · exact hl.1 z hz'

theorem sortDesc_lex (key : Nat → Nat) (l : List Nat) (hl : l.Pairwise (· < ·)) :
    (sortDesc key l).Pairwise (fun a b => key b < key a ∨ (key a = key b ∧ a < b)) := by
  induction l with
  | nil => simp [sortDesc, pySort]
  | cons x xs ih =>
    rw [List.pairwise_cons] at hl
    show (insertSorted _ x (sortDesc key xs)).Pairwise _
    refine insertSorted_lex key x _ ?_ (ih hl.2)
    intro y hy
    exact hl.1 y (mem_pySort.mp hy)

theorem pairwise_take {α : Type} {R : α → α → Prop} {l : List α} (h : l.Pairwise R) {n : Nat}
    {a b : α} (ha : a ∈ l.take n) (hb : b ∈ l) (hb' : b ∉ l.take n) : R a b := by
  rw [← List.take_append_drop n l] at h hb
  rw [List.pairwise_append] at h
  rcases List.mem_append.mp hb with hb | hb
  · exact absurd hb hb'
  · exact h.2.2 a ha b hb

/-! ### the ids `filter_extremes` keeps -/

theorem mem_keepIds {d : Dct τ} (h : Inv d) (keep : List τ) {w : τ} {i : Nat}
    (hw : idOf d w = some i) : i ∈ keep.filterMap (fun w => get? d.token2id w) ↔ w ∈ keep := by
  rw [List.mem_filterMap]
  constructor
  · rintro ⟨w', hk, hw'⟩
    rw [idOf_inj h hw hw']; exact hk
  · exact fun hk => ⟨w, hk, hw⟩

/-- the full candidate list before cutting at `keep_n` -/
def candidates (d : Dct τ) (nb na : Int) (keep : List τ) : List Nat :=
  goodIds d nb na none keep

theorem goodIds_some (d : Dct τ) (nb na : Int) (n : Nat) (keep : List τ) :
    goodIds d nb na (some n) keep = (candidates d nb na keep).take n := rfl

theorem mem_candidates {d : Dct τ} (h : Inv d) (nb na : Int) (keep : List τ) {w : τ} {i : Nat}
    (hw : idOf d w = some i) : i ∈ candidates d nb na keep ↔ eligible d nb na keep w := by
  unfold candidates goodIds sortDesc
  simp only [mem_pySort, List.mem_filter]
  have hm := mem_keepIds h keep hw
  have hv : i ∈ values d.token2id := mem_values_of_mem (mem_of_get? hw)
  have hg : (dfOf d w).getD 0 = getD d.dfs i 0 := by simp [dfOf, hw, getD]
  have hk : known d w := by simp [known, hw]
  simp only [eligible, hk, hg, Bool.or_eq_true, Bool.and_eq_true, decide_eq_true_eq, hm, hv, true_and]
  tauto

theorem candidates_nodup {d : Dct τ} (h : Inv d) (nb na : Int) (keep : List τ) :
    (candidates d nb na keep).Nodup := by
  unfold candidates goodIds sortDesc
  exact (pySort_perm _ _).nodup_iff.mpr (h.nodup.sublist List.filter_sublist)

theorem candidates_sub {d : Dct τ} (nb na : Int) (keep : List τ) {i : Nat}
    (hi : i ∈ candidates d nb na keep) : i ∈ values d.token2id := by
  unfold candidates goodIds sortDesc at hi
  rw [mem_pySort] at hi
  exact (List.mem_filter.mp hi).1

theorem length_candidates {d : Dct τ} (h : Inv d) (nb na : Int) (keep : List τ) :
    (candidates d nb na keep).length =
      ((keys d.token2id).filter (fun w => decide (eligible d nb na keep w))).length := by
  unfold candidates goodIds sortDesc
  simp only [length_pySort]
  unfold values keys
  rw [List.filter_map, List.filter_map, List.length_map, List.length_map]
  congr 1
  apply List.filter_congr
  rintro ⟨w, i⟩ hp
  have hw : idOf d w = some i := get?_of_mem h.wf hp
  have := mem_candidates h nb na keep hw
  unfold candidates goodIds sortDesc at this
  simp only [mem_pySort, List.mem_filter, mem_values_of_mem hp, true_and] at this
  rw [Bool.eq_iff_iff]
  simp only [Function.comp_apply, decide_eq_true_eq]
  exact this

theorem candidates_sorted {d : Dct τ} (h : Reachable d) (nb na : Int) (keep : List τ) :
    (candidates d nb na keep).Pairwise (fun a b =>
      ∀ w w', idOf d w = some a → idOf d w' = some b →
        prio d keep w' < prio d keep w ∨ (prio d keep w = prio d keep w' ∧ a < b)) := by
  have hr : (values d.token2id).Pairwise (· < ·) := by
    rw [show values d.token2id = _ from h.ordered]; exact List.pairwise_lt_range
  have := sortDesc_lex (fun v => if v ∈ keep.filterMap (fun w => get? d.token2id w) then d.numDocs
      else getD d.dfs v 0) _ (List.Pairwise.sublist List.filter_sublist hr (l₁ :=
        (values d.token2id).filter (fun v => (decide (nb ≤ ((getD d.dfs v 0 : Nat) : Int)) &&
          decide (((getD d.dfs v 0 : Nat) : Int) ≤ na)) ||
            decide (v ∈ keep.filterMap (fun w => get? d.token2id w)))))
  refine this.imp ?_
  intro a b hab w w' hw hw'
  have e1 : ∀ {w i}, idOf d w = some i →
      (if i ∈ keep.filterMap (fun w => get? d.token2id w) then d.numDocs else getD d.dfs i 0) =
        prio d keep w := by
    intro w i hi
    simp only [mem_keepIds h.inv keep hi, prio, dfOf, hi, Option.bind_some, getD]
  rw [e1 hw, e1 hw'] at hab
  exact hab

/-- length of a dictionary after keeping only the ids in a nodup list of ids in use -/
theorem len_filtered_mem {d : Dct τ} (h : Inv d) (g : List Nat) (hn : g.Nodup)
    (hs : ∀ i ∈ g, i ∈ values d.token2id) :
    (filtered d (fun i => decide (i ∈ g))).len = g.length := by
  unfold Dct.len
  rw [length_filtered]
  have : (values (restrict d (fun i => decide (i ∈ g))).token2id).Perm g := by
    have hv : values (restrict d (fun i => decide (i ∈ g))).token2id =
        (values d.token2id).filter (fun i => decide (i ∈ g)) := by
      simp only [restrict, values, List.filter_map]; rfl
    rw [hv, List.perm_ext_iff_of_nodup (h.nodup.sublist List.filter_sublist) hn]
    intro i
    rw [List.mem_filter]
    simp only [decide_eq_true_eq]
    exact ⟨fun hh => hh.2, fun hh => ⟨hs i hh, hh⟩⟩
  rw [← this.length_eq]; simp [values]

/-! ### C05 -/

/-- **C05.** `filter_extremes(no_below, no_above, keep_n, keep_tokens)` succeeds and

1. only eligible tokens survive (frequency in range, or listed in `keep_tokens`);
2. the number of survivors is the number of eligible tokens, cut at `keep_n`;
3. an eligible token that was cut has lower frequency than every survivor, or the same frequency
   and a larger id (protected tokens compete with frequency `num_docs`);
4. survivors keep their document and collection frequencies;
5. survivors keep their relative id order;
6. `num_docs`, `num_pos`, `num_nnz` are unchanged. -/
theorem C05_filter_extremes {d : Dct τ} (h : Reachable d) (nb na : Int) (keepN : Option Nat)
    (keep : List τ) :
    ∃ d', filterExtremes d nb na keepN keep = some d' ∧
      (∀ w, known d' w → eligible d nb na keep w) ∧
      (let E := ((keys d.token2id).filter (fun w => decide (eligible d nb na keep w))).length
       d'.len = match keepN with | none => E | some n => min n E) ∧
      (∀ w w', known d' w → eligible d nb na keep w' → ¬ known d' w' →
        prio d keep w' < prio d keep w ∨
          (prio d keep w = prio d keep w' ∧
            ∀ i i', idOf d w = some i → idOf d w' = some i' → i < i')) ∧
      (∀ w, known d' w → dfOf d' w = dfOf d w ∧ cfOf d' w = cfOf d w) ∧
      (∀ w w' i j i' j', idOf d w = some i → idOf d w' = some j → idOf d' w = some i' →
        idOf d' w' = some j' → (i < j ↔ i' < j')) ∧
      d'.numDocs = d.numDocs ∧ d'.numPos = d.numPos ∧ d'.numNnz = d.numNnz := by
  refine ⟨_, filterExtremes_some h.inv nb na keepN keep, ?_, ?_, ?_, ?_, ?_, rfl, rfl, rfl⟩
  · intro w hw
    obtain ⟨i, hi, hk⟩ := (known_filtered h.inv _ w).mp hw
    simp only [decide_eq_true_eq] at hk
    rw [← mem_candidates h.inv nb na keep hi]
    cases keepN with
    | none => exact hk
    | some n => rw [goodIds_some] at hk; exact List.mem_of_mem_take hk
  · show (filtered d _).len = _
    rw [len_filtered_mem h.inv]
    · cases keepN with
      | none => exact length_candidates h.inv nb na keep
      | some n => rw [goodIds_some, List.length_take, length_candidates h.inv]
    · cases keepN with
      | none => exact candidates_nodup h.inv nb na keep
      | some n => rw [goodIds_some]; exact (candidates_nodup h.inv nb na keep).sublist (List.take_sublist _ _)
    · intro i hi
      cases keepN with
      | none => exact candidates_sub nb na keep hi
      | some n => exact candidates_sub nb na keep (List.mem_of_mem_take hi)
  · intro w w' hw he hn
    obtain ⟨i, hi, hk⟩ := (known_filtered h.inv _ w).mp hw
    simp only [decide_eq_true_eq] at hk
    obtain ⟨i', hi'⟩ := Option.isSome_iff_exists.mp he.1
    have hc' := (mem_candidates h.inv nb na keep hi').mpr he
    have hnk : i' ∉ goodIds d nb na keepN keep := by
      intro hm
      exact hn ((known_filtered h.inv _ w').mpr ⟨i', hi', by simpa using hm⟩)
    cases keepN with
    | none => exact absurd hc' hnk
    | some n =>
      rw [goodIds_some] at hk hnk
      rcases pairwise_take (candidates_sorted h nb na keep) hk hc' hnk w w' hi hi' with hlt | ⟨e, hlt⟩
      · exact Or.inl hlt
      · refine Or.inr ⟨e, ?_⟩
        intro a b ha hb
        rw [hi] at ha; rw [hi'] at hb; cases ha; cases hb; exact hlt
  · exact fun w hw => ⟨dfOf_filtered h.inv _ hw, cfOf_filtered h.inv _ hw⟩
  · exact fun w w' i j i' j' h1 h2 h3 h4 => order_filtered h.inv _ h1 h2 h3 h4

/-- **C05 (keep_tokens).** Every token of `keep_tokens` that the dictionary knows survives
*provided* `keep_n` is `None` or at least the number of eligible tokens.  (The documentation
promises this for every `keep_n`; `C05_keep_tokens_fails` shows that is false.) -/
theorem C05_keep_tokens_survive_without_cut {d : Dct τ} (h : Reachable d) (nb na : Int) (keepN : Option Nat)
    (keep : List τ)
    (hN : ∀ n, keepN = some n →
      ((keys d.token2id).filter (fun w => decide (eligible d nb na keep w))).length ≤ n)
    {d' : Dct τ} (hd : filterExtremes d nb na keepN keep = some d') :
    ∀ w ∈ keep, known d w → known d' w := by
  intro w hw hkn
  rw [filterExtremes_some h.inv] at hd
  cases hd
  obtain ⟨i, hi⟩ := Option.isSome_iff_exists.mp hkn
  refine (known_filtered h.inv _ w).mpr ⟨i, hi, ?_⟩
  have hc := (mem_candidates h.inv nb na keep hi).mpr ⟨hkn, Or.inl hw⟩
  simp only [decide_eq_true_eq]
  cases keepN with
  | none => exact hc
  | some n =>
    rw [goodIds_some, List.take_of_length_le]
    · exact hc
    · rw [length_candidates h.inv]; exact hN n rfl

/-- **C05, negative.** The documented guarantee fails: a token listed in `keep_tokens` and present
in the dictionary is dropped by `filter_extremes(keep_n=1, keep_tokens=[...])`. -/
theorem C05_keep_tokens_fails :
    ∃ (d d' : Dct Nat), Reachable d ∧ filterExtremes d 0 3 (some 1) [40] = some d' ∧
      known d 40 ∧ ¬ known d' 40 :=
  ⟨demo, (filterExtremes demo 0 3 (some 1) [40]).get (by decide), reachable_demo,
    by simp, by decide, by decide⟩

/-- a filtered dictionary: 30 is dropped (df 1 < 2), 40 survives because it is protected -/
def demoFiltered : Option (Dct Nat) := filterExtremes demo 2 3 (some 3) [40]

example : (demoFiltered.map (fun d => keys d.token2id)) = some [10, 20, 40] ∧
    (demoFiltered.map (fun d => values d.token2id)) = some [0, 1, 2] ∧
    eligible demo 2 3 [40] 20 ∧ ¬ eligible demo 2 3 [40] 30 := by decide

/-- **C05 (`filter_n_most_frequent`).** Exactly `min n len` tokens are removed and every removed
token is at least as frequent as every survivor. Survivors keep their frequencies. -/
theorem C05_filter_n_most_frequent {d : Dct τ} (h : Reachable d) (n : Nat) :
    ∃ d', filterNMostFrequent d n = some d' ∧
      d'.len = d.len - n ∧
      (∀ w, known d' w → known d w) ∧
      (∀ w w', known d' w → known d w' → ¬ known d' w' →
        (dfOf d w).getD 0 ≤ (dfOf d w').getD 0) ∧
      (∀ w, known d' w → dfOf d' w = dfOf d w ∧ cfOf d' w = cfOf d w) := by
  refine ⟨_, filterNMostFrequent_some h.inv n, ?_, ?_, ?_, ?_⟩
  · unfold Dct.len
    rw [length_filtered]
    have hperm : (sortDesc (fun v => getD d.dfs v 0) (values d.token2id)).Perm (values d.token2id) :=
      pySort_perm _ _
    generalize hs : sortDesc (fun v => getD d.dfs v 0) (values d.token2id) = s at hperm
    have hn : s.Nodup := hperm.nodup_iff.mpr h.inv.nodup
    have hv : values (restrict d (fun i => !decide (i ∈ s.take n))).token2id =
        (values d.token2id).filter (fun i => !decide (i ∈ s.take n)) := by
      simp only [restrict, values, List.filter_map]; rfl
    have hp2 : (values (restrict d (fun i => !decide (i ∈ s.take n))).token2id).Perm (s.drop n) := by
      rw [hv, List.perm_ext_iff_of_nodup (h.inv.nodup.sublist List.filter_sublist)
        (hn.sublist (List.drop_sublist _ _))]
      intro i
      rw [List.mem_filter, ← hperm.mem_iff]
      rw [← List.take_append_drop n s, List.nodup_append] at hn
      constructor
      · rintro ⟨h1, h2⟩
        rw [← List.take_append_drop n s] at h1
        rcases List.mem_append.mp h1 with h1 | h1
        · simp [h1] at h2
        · exact h1
      · intro h1
        refine ⟨List.mem_of_mem_drop h1, ?_⟩
        simp only [Bool.not_eq_true', decide_eq_false_iff_not]
        intro h2
        exact hn.2.2 i h2 i h1 rfl
    have := hp2.length_eq
    rw [List.length_drop, hperm.length_eq] at this
    simpa [values] using this
  · intro w hw
    obtain ⟨i, hi, _⟩ := (known_filtered h.inv _ w).mp hw
    simp [known, hi]
  · intro w w' hw hw' hn
    obtain ⟨i, hi, hk⟩ := (known_filtered h.inv _ w).mp hw
    obtain ⟨i', hi'⟩ := Option.isSome_iff_exists.mp hw'
    have hr : (values d.token2id).Pairwise (· < ·) := by
      rw [show values d.token2id = _ from h.ordered]; exact List.pairwise_lt_range
    have hsort := sortDesc_lex (fun v => getD d.dfs v 0) _ hr
    have hm' : i' ∈ (sortDesc (fun v => getD d.dfs v 0) (values d.token2id)).take n := by
      by_contra hc
      exact hn ((known_filtered h.inv _ w').mpr ⟨i', hi', by simpa using hc⟩)
    have hin : i ∈ sortDesc (fun v => getD d.dfs v 0) (values d.token2id) :=
      mem_pySort.mpr (mem_values_of_mem (mem_of_get? hi))
    have := pairwise_take hsort hm' hin (by simpa using hk)
    simp only [dfOf, hi, hi', Option.bind_some]
    simp only [getD] at this
    omega
  · exact fun w hw => ⟨dfOf_filtered h.inv _ hw, cfOf_filtered h.inv _ hw⟩

example : (filterNMostFrequent demo 2).map (fun d => keys d.token2id) = some [30, 50, 40] := by decide

/-- **C05 (`filter_tokens`).** With `bad_ids` and/or `good_ids` exactly the tokens whose id is not in
`bad_ids` and is in `good_ids` survive, with their frequencies and relative order. -/
theorem C05_filter_tokens {d : Dct τ} (h : Reachable d) (bad good : Option (List Nat)) :
    ∃ d', filterTokens d bad good = some d' ∧
      (∀ w, known d' w ↔ ∃ i, idOf d w = some i ∧ (∀ b, bad = some b → i ∉ b) ∧
        (∀ g, good = some g → i ∈ g)) ∧
      (∀ w, known d' w → dfOf d' w = dfOf d w ∧ cfOf d' w = cfOf d w) ∧
      (∀ w w' i j i' j', idOf d w = some i → idOf d w' = some j → idOf d' w = some i' →
        idOf d' w' = some j' → (i < j ↔ i' < j')) := by
  refine ⟨_, filterTokens_some h.inv bad good, ?_, ?_, ?_⟩
  · intro w
    rw [known_filtered h.inv]
    constructor
    · rintro ⟨i, hi, hk⟩
      refine ⟨i, hi, ?_, ?_⟩
      · rintro b rfl; simp [keepPred] at hk; exact hk.1
      · rintro g rfl; simp [keepPred] at hk; exact hk.2
    · rintro ⟨i, hi, hb, hg⟩
      refine ⟨i, hi, ?_⟩
      cases bad <;> cases good <;> simp_all [keepPred]
  · exact fun w hw => ⟨dfOf_filtered h.inv _ hw, cfOf_filtered h.inv _ hw⟩
  · exact fun w w' i j i' j' h1 h2 h3 h4 => order_filtered h.inv _ h1 h2 h3 h4

example : (filterTokens demo (some [1, 9]) (some [0, 1, 3])).map (fun d => keys d.token2id) =
    some [10, 50] := by decide

/-! ### C09 -/

theorem getD_dfOf_filtered_le {d : Dct τ} (h : Inv d) (keep : Nat → Bool) (w : τ) :
    (dfOf (filtered d keep) w).getD 0 ≤ (dfOf d w).getD 0 ∧
    (cfOf (filtered d keep) w).getD 0 ≤ (cfOf d w).getD 0 := by
  by_cases hw : known (filtered d keep) w
  · rw [dfOf_filtered h keep hw, cfOf_filtered h keep hw]; simp
  · have : idOf (filtered d keep) w = none := by
      cases hh : idOf (filtered d keep) w with
      | none => rfl
      | some j => exact absurd (by simp [known, hh]) hw
    simp [dfOf, cfOf, this]

theorem addDocumentsFrom_counts (pruneAt : Option Nat) (docs : List (List τ)) (n : Nat)
    {d d' : Dct τ} (h : Inv d) (e : addDocumentsFrom pruneAt n d docs = some d') (w : τ) :
    (dfOf d' w).getD 0 ≤ (dfOf d w).getD 0 + docFreq docs w ∧
    (cfOf d' w).getD 0 ≤ (cfOf d w).getD 0 + collFreq docs w := by
  induction docs generalizing n d with
  | nil => cases e; simp
  | cons doc docs ih =>
    have step : ∀ d1 : Dct τ, Inv d1 → ((dfOf d1 w).getD 0 ≤ (dfOf d w).getD 0 ∧
        (cfOf d1 w).getD 0 ≤ (cfOf d w).getD 0) →
        addDocumentsFrom pruneAt (n + 1) (update d1 doc) docs = some d' →
        (dfOf d' w).getD 0 ≤ (dfOf d w).getD 0 + docFreq (doc :: docs) w ∧
        (cfOf d' w).getD 0 ≤ (cfOf d w).getD 0 + collFreq (doc :: docs) w := by
      intro d1 h1 hle e1
      obtain ⟨i1, i2⟩ := ih (n + 1) (inv_update h1 doc) e1
      rw [dfOf_update h1] at i1
      rw [cfOf_update h1] at i2
      have c1 : docFreq (doc :: docs) w = (if w ∈ doc then 1 else 0) + docFreq docs w := by
        by_cases hw : w ∈ doc <;> simp [docFreq, hw, Nat.add_comm]
      have c2 : collFreq (doc :: docs) w = doc.count w + collFreq docs w := by simp [collFreq]
      by_cases hw : w ∈ doc
      · simp only [hw, if_true, Option.getD_some] at i1 i2 c1
        omega
      · simp only [hw, if_false] at i1 i2 c1
        omega
    unfold addDocumentsFrom at e
    by_cases hn : n % 10000 = 0
    · cases hp : pruneAt with
      | none => simp only [hn, if_true, hp] at e; rw [← hp] at e; exact step d h ⟨le_refl _, le_refl _⟩ e
      | some k =>
        by_cases hk : d.len > k
        · simp only [hn, if_true, hp, hk, filterExtremes_some h] at e
          rw [← hp] at e
          exact step _ (inv_filtered h _) (getD_dfOf_filtered_le h _ w) e
        · simp only [hn, if_true, hp, hk, if_false] at e
          rw [← hp] at e
          exact step d h ⟨le_refl _, le_refl _⟩ e
    · simp only [hn, if_false] at e
      exact step d h ⟨le_refl _, le_refl _⟩ e

/-- **C09.** With any `prune_at`, a frequency reported after `add_documents` never exceeds the true
value: what was known before plus the count in the documents added. -/
theorem C09_pruned_counts_never_exceed {d d' : Dct τ} (h : Reachable d) (docs : List (List τ))
    (pruneAt : Option Nat) (e : addDocuments d docs pruneAt = some d') (w : τ) :
    (dfOf d' w).getD 0 ≤ (dfOf d w).getD 0 + docFreq docs w ∧
    (cfOf d' w).getD 0 ≤ (cfOf d w).getD 0 + collFreq docs w :=
  addDocumentsFrom_counts pruneAt docs 0 h.inv e w

/-- one document processed by `add_documents` at stream position `n` -/
theorem addDocumentsFrom_cons (k n : Nat) (d : Dct τ) (h : Inv d) (doc : List τ)
    (docs : List (List τ)) :
    ∃ d1, Inv d1 ∧ d1.len ≤ d.len ∧ (n % 10000 = 0 → d1.len ≤ k) ∧
      addDocumentsFrom (some k) n d (doc :: docs) =
        addDocumentsFrom (some k) (n + 1) (update d1 doc) docs := by
  by_cases hn : n % 10000 = 0
  · by_cases hk : d.len > k
    · refine ⟨_, inv_filtered h (fun i => decide (i ∈ goodIds d 0 d.numDocs (some k) [])), ?_, ?_, ?_⟩
      · have := len_filtered_mem h (goodIds d 0 d.numDocs (some k) [])
          (by rw [goodIds_some]; exact (candidates_nodup h _ _ _).sublist (List.take_sublist _ _))
          (fun i hi => candidates_sub _ _ _ (List.mem_of_mem_take hi))
        rw [this, goodIds_some, List.length_take]; omega
      · intro _
        have := len_filtered_mem h (goodIds d 0 d.numDocs (some k) [])
          (by rw [goodIds_some]; exact (candidates_nodup h _ _ _).sublist (List.take_sublist _ _))
          (fun i hi => candidates_sub _ _ _ (List.mem_of_mem_take hi))
        rw [this, goodIds_some, List.length_take]; omega
      · simp only [addDocumentsFrom, hn, if_true, hk, filterExtremes_some h]
    · exact ⟨d, h, Nat.le_refl _, fun _ => by omega, by
        simp only [addDocumentsFrom, hn, if_true, hk, if_false]⟩
  · exact ⟨d, h, Nat.le_refl _, fun hh => absurd hh hn, by
      simp only [addDocumentsFrom, hn, if_false]⟩

theorem addDocumentsFrom_len (k : Nat) (docs : List (List τ)) (n : Nat) {d d' : Dct τ} (h : Inv d)
    (e : addDocumentsFrom (some k) n d docs = some d') :
    d'.len ≤ d.len + positions docs ∧
    ∀ j < docs.length, (n + j) % 10000 = 0 → d'.len ≤ k + positions (docs.drop j) := by
  induction docs generalizing n d with
  | nil => cases e; simp
  | cons doc docs ih =>
    obtain ⟨d1, h1, hl, hk, he⟩ := addDocumentsFrom_cons k n d h doc docs
    rw [he] at e
    obtain ⟨i1, i2⟩ := ih (n + 1) (inv_update h1 doc) e
    have hup := len_update_le h1 doc
    have hdd : doc.dedup.length ≤ doc.length := (List.dedup_sublist doc).length_le
    have hpos : positions (doc :: docs) = doc.length + positions docs := by simp [positions]
    refine ⟨by omega, ?_⟩
    intro j hj hm
    cases j with
    | zero =>
      have := hk (by simpa using hm)
      rw [List.drop_zero]; omega
    | succ j =>
      rw [List.drop_succ_cons]
      exact i2 j (by simpa using hj) (by rw [← hm]; congr 1; omega)

/-- **C09.** `add_documents(docs, prune_at=k)`: for every stream position `j` that is a multiple of
10000 (when the check fires), the final dictionary has at most `k` tokens plus what the documents
from position `j` on can add.  In particular, with `docs` the documents up to just after a check,
memory is bounded by `k` plus one block of documents, not by the length of the stream. -/
theorem C09_pruned_size_bounded {d d' : Dct τ} (h : Reachable d) (docs : List (List τ)) (k : Nat)
    (e : addDocuments d docs (some k) = some d') :
    ∀ j < docs.length, j % 10000 = 0 → d'.len ≤ k + positions (docs.drop j) := by
  intro j hj hm
  exact (addDocumentsFrom_len k docs 0 h.inv e).2 j hj (by simpa using hm)

/-- **C09.** Right when the check fires (before the next document is read) at most `k` tokens are
left: processing `[[]]` (one empty document) runs the check and nothing else. -/
theorem C09_check_leaves_at_most_k {d d' : Dct τ} (h : Reachable d) (k : Nat)
    (e : addDocuments d [[]] (some k) = some d') : d'.len ≤ k := by
  have := C09_pruned_size_bounded h [[]] k e 0 (by simp) (by simp)
  simpa [positions] using this

example : ((addDocuments demo [[60]] (some 2)).map (fun d => (keys d.token2id, dfOf d 60))) =
    some ([10, 20, 60], some 1) := by decide

end Verif.Dictionary
