import Verif.Coherence.WindowLemmas

/-!
# C52: sliding window counts of `WordOccurrenceAccumulator`
-/

namespace Verif.Coherence

variable {W : Type} [DecidableEq W]

/-! ## Specification -/

/-- Number of windows of size `k` over the texts that contain `a` and `b`. -/
def windowsWith (k : Nat) (texts : List (List W)) (a b : W) : Nat :=
  (texts.flatMap (slidingWindows k)).countP fun win => decide (a ∈ win) && decide (b ∈ win)

/-- `w` leaves the windows of the text cleanly: whenever the window moves on from position `i`, `w`
is the word leaving it, and `w` occurs again in the rest of that window, then `w` is also the word
entering. -/
def LeavesCleanly (k : Nat) (w : W) (text : List W) : Prop :=
  ∀ i, i + k < text.length → text[i]? = some w → w ∈ (text.drop (i + 1)).take (k - 1) →
    text[i + k]? = some w

/-! ## Per-document lemmas -/

/-- Both tokens flagged. -/
def bothBits (v i j : Nat) (u : Nat → Bool) : Bool :=
  decide (i < v) && decide (j < v) && u i && u j

theorem doc_le {v k : Nat} (hk : 0 < k) (d : List Nat) (i j : Nat) :
    (docMasks (slidingWindows k d)).countP (bothBits v i j)
      ≤ (slidingWindows k d).countP fun w => decide (i ∈ w) && decide (j ∈ w) := by
  apply countP_le_of_forall₂
  have hc := slidingWindows_slid hk d
  have h1 := docMasks_sound i _ hc
  have h2 := docMasks_sound j _ hc
  generalize docMasks (slidingWindows k d) = ms at *
  generalize slidingWindows k d = ws at *
  clear hc
  induction h1 with
  | nil => exact List.Forall₂.nil
  | cons h _ ih =>
    rw [List.forall₂_cons] at h2
    refine List.Forall₂.cons ?_ (ih h2.2)
    intro hb
    simp only [bothBits, Bool.and_eq_true, decide_eq_true_eq] at hb ⊢
    exact ⟨h hb.1.2, h2.1 hb.2⟩

theorem doc_eq {v k : Nat} (hk : 0 < k) (d : List Nat) {i j : Nat} (hi : i < v) (hj : j < v)
    (hci : List.IsChain (Keeps i) (slidingWindows k d))
    (hcj : List.IsChain (Keeps j) (slidingWindows k d)) :
    (docMasks (slidingWindows k d)).countP (bothBits v i j)
      = (slidingWindows k d).countP fun w => decide (i ∈ w) && decide (j ∈ w) := by
  have hc := slidingWindows_slid hk d
  have h1 := (docMasks_exact i _ hc).2 hci
  have h2 := (docMasks_exact j _ hc).2 hcj
  generalize docMasks (slidingWindows k d) = ms at *
  generalize slidingWindows k d = ws at *
  clear hc hci hcj
  induction h1 with
  | nil => rfl
  | cons h _ ih =>
    rw [List.forall₂_cons] at h2
    rw [List.countP_cons, List.countP_cons, ih h2.2]
    simp [bothBits, hi, hj, h, h2.1]

theorem doc_occ_iff {v k : Nat} (hk : 0 < k) (d : List Nat) {i : Nat} (hi : i < v) :
    (docMasks (slidingWindows k d)).countP (bothBits v i i)
      = ((slidingWindows k d).countP fun w => decide (i ∈ w) && decide (i ∈ w)) ↔
      List.IsChain (Keeps i) (slidingWindows k d) := by
  have hc := slidingWindows_slid hk d
  constructor
  · intro h
    rw [← docMasks_exact i _ hc]
    have h1 := docMasks_sound i _ hc
    have h2 := (countP_eq_iff_forall₂ (p := bothBits v i i)
      (q := fun w : List Nat => decide (i ∈ w) && decide (i ∈ w)) (by
        refine List.Forall₂.imp ?_ h1
        intro u w hh hb
        simp only [bothBits, Bool.and_eq_true] at hb
        simp [hh hb.2])).1 h
    refine List.Forall₂.imp ?_ h2
    intro u w hh
    simpa [bothBits, hi] using hh
  · intro h
    exact doc_eq hk d hi hi h h

theorem occBit_eq (v t : Nat) : occBit v t = bothBits v t t := by
  funext u
  by_cases h : t < v <;> simp [occBit, bothBits, h]

theorem pair_sum (v i j : Nat) (h : i ≠ j) (ms : List (Nat → Bool)) :
    ms.countP (pairBit v i j) + ms.countP (pairBit v j i) = ms.countP (bothBits v i j) := by
  induction ms with
  | nil => rfl
  | cons u ms ih =>
    rw [List.countP_cons, List.countP_cons, List.countP_cons, ← ih]
    rcases Nat.lt_or_gt_of_ne h with hlt | hlt
    · have h1 : ¬ j < i := by omega
      by_cases hj : j < v
      · have hi : i < v := by omega
        simp [pairBit, bothBits, hlt, h1, hj, hi]
        omega
      · simp [pairBit, bothBits, h1, hj]
    · have h1 : ¬ i < j := by omega
      by_cases hj : i < v
      · have hi : j < v := by omega
        simp [pairBit, bothBits, hlt, h1, hj, hi, Bool.and_comm]
        omega
      · simp [pairBit, bothBits, h1, hj]

theorem countP_flatMap_nat {A B : Type} (l : List A) (f : A → List B) (p : B → Bool) :
    (l.flatMap f).countP p = (l.map fun a => (f a).countP p).sum := by
  induction l with
  | nil => rfl
  | cons a l ih => simp [List.flatMap_cons, List.countP_append, ih]

/-- The counts of `accumulate`, in terms of masks. -/
theorem accumulate_spec (rel : List W) (k : Nat) (s : Acc) (texts : List (List W)) :
    (∀ t, (accumulate rel k s texts).occ t
      = s.occ t + (masksOf k (iterTexts rel texts)).countP (bothBits rel.length t t)) ∧
    (∀ t, (accumulate rel k s texts).co t t = (accumulate rel k s texts).occ t) ∧
    (∀ i j, i ≠ j → (accumulate rel k s texts).co i j
      = s.co i j + s.co j i + (masksOf k (iterTexts rel texts)).countP (bothBits rel.length i j)) ∧
    (accumulate rel k s texts).numDocs = s.numDocs + (masksOf k (iterTexts rel texts)).length := by
  obtain ⟨h1, h2, h3⟩ := partialAccumulate_spec rel.length k s (iterTexts rel texts)
  refine ⟨?_, ?_, ?_, h3⟩
  · intro t
    rw [← occBit_eq]
    exact h1 t
  · intro t
    unfold accumulate symmetrize
    simp
  · intro i j hij
    unfold accumulate symmetrize
    simp only [hij, if_false]
    rw [h2, h2, ← pair_sum rel.length i j hij]
    omega

/-! ## From token ids to words -/

theorem masks_sum (rel : List W) (k : Nat) (texts : List (List W)) (p : (Nat → Bool) → Bool) :
    (masksOf k (iterTexts rel texts)).countP p
      = ((texts.filter (textIsRelevant rel)).map fun text =>
          (docMasks (slidingWindows k (text.map (tokenId rel)))).countP p).sum := by
  unfold masksOf iterTexts
  rw [countP_flatMap_nat, List.map_map]
  rfl

theorem windows_translate {rel : List W} {a b : W} (ha : a ∈ rel) (hb : b ∈ rel) (k : Nat)
    (text : List W) :
    ((slidingWindows k (text.map (tokenId rel))).countP fun w =>
        decide (rel.idxOf a ∈ w) && decide (rel.idxOf b ∈ w))
      = (slidingWindows k text).countP fun w => decide (a ∈ w) && decide (b ∈ w) := by
  rw [slidingWindows_map, List.countP_map]
  congr 1
  funext w
  simp only [Function.comp_def, mem_map_tokenId ha, mem_map_tokenId hb]

theorem windowsWith_sum {rel : List W} {a b : W} (ha : a ∈ rel) (k : Nat)
    (texts : List (List W)) :
    windowsWith k texts a b
      = ((texts.filter (textIsRelevant rel)).map fun text =>
          (slidingWindows k text).countP fun w => decide (a ∈ w) && decide (b ∈ w)).sum := by
  unfold windowsWith
  rw [← countP_windows_relevant rel k texts _ (by
    intro win h
    simp only [Bool.and_eq_true, decide_eq_true_eq] at h
    exact ⟨a, h.1, ha⟩), countP_flatMap_nat]

theorem getElem?_tokenId {rel : List W} {w : W} (hw : w ∈ rel) (text : List W) (i : Nat) :
    (text.map (tokenId rel))[i]? = some (rel.idxOf w) ↔ text[i]? = some w := by
  rw [List.getElem?_map]
  cases h : text[i]? with
  | none => simp
  | some x =>
    simp only [Option.map_some, Option.some.injEq]
    have := mem_map_tokenId hw [x]
    simp only [List.map_cons, List.map_nil, List.mem_singleton] at this
    constructor
    · intro e
      exact (this.1 e.symm).symm
    · intro e
      exact (this.2 e.symm).symm

theorem leavesCleanly_iff {rel : List W} {w : W} (hw : w ∈ rel) {k : Nat} (hk : 0 < k)
    (text : List W) :
    List.IsChain (Keeps (rel.idxOf w)) (slidingWindows k (text.map (tokenId rel))) ↔
      LeavesCleanly k w text := by
  rw [slidingWindows_keeps hk]
  unfold LeavesCleanly
  simp only [List.length_map, getElem?_tokenId hw, ← List.map_drop, ← List.map_take,
    mem_map_tokenId hw]

theorem sum_le_sum_map {A : Type} (l : List A) (f g : A → Nat) (h : ∀ a ∈ l, f a ≤ g a) :
    (l.map f).sum ≤ (l.map g).sum := by
  induction l with
  | nil => exact le_rfl
  | cons a l ih =>
    have h1 := h a (by simp)
    have h2 := ih fun x hx => h x (by simp [hx])
    simp only [List.map_cons, List.sum_cons]
    omega

theorem sum_eq_iff_map {A : Type} (l : List A) (f g : A → Nat) (h : ∀ a ∈ l, f a ≤ g a) :
    (l.map f).sum = (l.map g).sum ↔ ∀ a ∈ l, f a = g a := by
  induction l with
  | nil => simp
  | cons a l ih =>
    have h1 := h a (by simp)
    have h2 := sum_le_sum_map l f g fun x hx => h x (by simp [hx])
    have h3 := ih fun x hx => h x (by simp [hx])
    simp only [List.map_cons, List.sum_cons, List.mem_cons, forall_eq_or_imp, ← h3]
    omega

theorem init_co (rel : List W) (k : Nat) (texts : List (List W)) (i j : Nat) :
    (accumulate rel k Acc.init texts).co i j
      = (masksOf k (iterTexts rel texts)).countP (bothBits rel.length i j) := by
  obtain ⟨h1, h2, h3, _⟩ := accumulate_spec rel k Acc.init texts
  by_cases h : i = j
  · subst h
    rw [h2, h1]
    simp [Acc.init]
  · rw [h3 i j h]
    simp [Acc.init]

/-! ## C52 -/

/-- **C52.** For every set of texts and every window size, the counts never exceed the true numbers
of windows; they are symmetric, and the co-occurrence of a word with itself is its occurrence. -/
theorem C52_never_over (rel : List W) (k : Nat) (hk : 0 < k) (texts : List (List W)) (a b : W)
    (ha : a ∈ rel) (hb : b ∈ rel) :
    ∃ na nab, (accumulate rel k Acc.init texts).occurrences rel a = some na ∧
      (accumulate rel k Acc.init texts).coOccurrences rel a b = some nab ∧
      (accumulate rel k Acc.init texts).coOccurrences rel b a = some nab ∧
      (accumulate rel k Acc.init texts).coOccurrences rel a a = some na ∧
      na ≤ windowsWith k texts a a ∧ nab ≤ windowsWith k texts a b ∧ nab ≤ na := by
  have le : ∀ x ∈ rel, ∀ y ∈ rel, (accumulate rel k Acc.init texts).co (rel.idxOf x) (rel.idxOf y)
      ≤ windowsWith k texts x y := by
    intro x hx y hy
    rw [init_co, masks_sum, windowsWith_sum hx]
    apply sum_le_sum_map
    intro text _
    rw [← windows_translate hx hy]
    exact doc_le hk _ _ _
  have hdiag := (accumulate_spec rel k Acc.init texts).2.1
  refine ⟨(accumulate rel k Acc.init texts).occ (rel.idxOf a),
    (accumulate rel k Acc.init texts).co (rel.idxOf a) (rel.idxOf b), ?_, ?_, ?_, ?_, ?_, ?_, ?_⟩
  · simp [Acc.occurrences, contiguous_mem ha]
  · simp [Acc.coOccurrences, contiguous_mem ha, contiguous_mem hb]
  · simp only [Acc.coOccurrences, contiguous_mem ha, contiguous_mem hb, Option.bind_some,
      Option.map_some, init_co]
    congr 2
    funext u
    simp only [bothBits]
    cases decide (rel.idxOf b < rel.length) <;> cases decide (rel.idxOf a < rel.length) <;>
      cases u (rel.idxOf a) <;> cases u (rel.idxOf b) <;> rfl
  · simp [Acc.coOccurrences, contiguous_mem ha, hdiag]
  · rw [← hdiag]
    exact le a ha a ha
  · exact le a ha b hb
  · rw [← hdiag, init_co, init_co]
    apply List.countP_mono_left
    intro u _ h
    simp only [bothBits, Bool.and_eq_true] at h ⊢
    exact ⟨⟨⟨h.1.1.1, h.1.1.1⟩, h.1.2⟩, h.1.2⟩

/-- **C52.** The occurrence count of a relevant word is the number of windows containing it exactly
when the word leaves the windows of every text cleanly. -/
theorem C52_exact_iff (rel : List W) (k : Nat) (hk : 0 < k) (texts : List (List W)) (w : W)
    (hw : w ∈ rel) :
    (accumulate rel k Acc.init texts).occurrences rel w = some (windowsWith k texts w w) ↔
      ∀ text ∈ texts, LeavesCleanly k w text := by
  have hdiag := (accumulate_spec rel k Acc.init texts).2.1
  have hocc : (accumulate rel k Acc.init texts).occurrences rel w
      = some ((accumulate rel k Acc.init texts).co (rel.idxOf w) (rel.idxOf w)) := by
    simp [Acc.occurrences, contiguous_mem hw, hdiag]
  rw [hocc, Option.some.injEq, init_co, masks_sum, windowsWith_sum hw]
  have hlt := List.idxOf_lt_length_of_mem hw
  have hle : ∀ text ∈ texts.filter (textIsRelevant rel),
      (docMasks (slidingWindows k (text.map (tokenId rel)))).countP
          (bothBits rel.length (rel.idxOf w) (rel.idxOf w))
        ≤ (slidingWindows k text).countP fun x => decide (w ∈ x) && decide (w ∈ x) := by
    intro text _
    rw [← windows_translate hw hw]
    exact doc_le hk _ _ _
  rw [sum_eq_iff_map _ _ _ hle]
  have hper : ∀ text : List W,
      ((docMasks (slidingWindows k (text.map (tokenId rel)))).countP
          (bothBits rel.length (rel.idxOf w) (rel.idxOf w))
        = (slidingWindows k text).countP fun x => decide (w ∈ x) && decide (w ∈ x)) ↔
        LeavesCleanly k w text := by
    intro text
    rw [← windows_translate hw hw, doc_occ_iff hk _ hlt, leavesCleanly_iff hw hk]
  constructor
  · intro h text ht
    by_cases hr : textIsRelevant rel text = true
    · exact (hper text).1 (h text (List.mem_filter.2 ⟨ht, hr⟩))
    · intro i _ hi _
      exfalso
      apply hr
      simp only [textIsRelevant, List.any_eq_true, decide_eq_true_eq]
      exact ⟨w, List.mem_of_getElem? hi, hw⟩
  · intro h text ht
    exact (hper text).2 (h text (List.mem_filter.1 ht).1)

/-- **C52.** If two relevant words leave the windows of every text cleanly, their co-occurrence count
is the number of windows containing both. -/
theorem C52_exact_pairs (rel : List W) (k : Nat) (hk : 0 < k) (texts : List (List W)) (a b : W)
    (ha : a ∈ rel) (hb : b ∈ rel) (hca : ∀ text ∈ texts, LeavesCleanly k a text)
    (hcb : ∀ text ∈ texts, LeavesCleanly k b text) :
    (accumulate rel k Acc.init texts).coOccurrences rel a b = some (windowsWith k texts a b) := by
  simp only [Acc.coOccurrences, contiguous_mem ha, contiguous_mem hb, Option.bind_some,
    Option.map_some, Option.some.injEq]
  rw [init_co, masks_sum, windowsWith_sum ha]
  have hle : ∀ text ∈ texts.filter (textIsRelevant rel),
      (docMasks (slidingWindows k (text.map (tokenId rel)))).countP
          (bothBits rel.length (rel.idxOf a) (rel.idxOf b))
        = (slidingWindows k text).countP fun x => decide (a ∈ x) && decide (b ∈ x) := by
    intro text ht
    have ht' := (List.mem_filter.1 ht).1
    rw [← windows_translate ha hb]
    exact doc_eq hk _ (List.idxOf_lt_length_of_mem ha) (List.idxOf_lt_length_of_mem hb)
      ((leavesCleanly_iff ha hk text).2 (hca text ht'))
      ((leavesCleanly_iff hb hk text).2 (hcb text ht'))
  exact congrArg List.sum (List.map_congr_left hle)

/-- **C52.** Texts without repeated words are always counted exactly. -/
theorem C52_distinct_words (rel : List W) (k : Nat) (hk : 0 < k) (texts : List (List W))
    (hnd : ∀ text ∈ texts, text.Nodup) (a b : W) (ha : a ∈ rel) (hb : b ∈ rel) :
    (accumulate rel k Acc.init texts).occurrences rel a = some (windowsWith k texts a a) ∧
      (accumulate rel k Acc.init texts).coOccurrences rel a b = some (windowsWith k texts a b) := by
  have hclean : ∀ w : W, ∀ text ∈ texts, LeavesCleanly k w text := by
    intro w text ht i hi h1 h2
    exfalso
    have hd := List.mem_of_mem_take h2
    obtain ⟨j, hj, he⟩ := List.mem_iff_getElem.1 hd
    rw [List.getElem_drop] at he
    obtain ⟨hlt, he2⟩ := List.getElem?_eq_some_iff.1 h1
    have := ((hnd text ht).getElem_inj_iff).1 (he.trans he2.symm)
    omega
  exact ⟨(C52_exact_iff rel k hk texts a ha).2 (hclean a),
    C52_exact_pairs rel k hk texts a b ha hb (hclean a) (hclean b)⟩

/-- **C52.** `num_docs`, the denominator of every probability, is the number of windows of the texts
that contain a relevant word: texts without any are not counted. -/
theorem C52_num_windows (rel : List W) (k : Nat) (texts : List (List W)) :
    (accumulate rel k Acc.init texts).numDocs
      = ((texts.filter fun text => text.any fun w => decide (w ∈ rel)).flatMap
          (slidingWindows k)).length := by
  rw [(accumulate_spec rel k Acc.init texts).2.2.2]
  unfold masksOf iterTexts
  simp only [Acc.init, Nat.zero_add, List.length_flatMap, docMasks_length, List.map_map]
  congr 1
  apply List.map_congr_left
  intro text _
  simp [slidingWindows_map]

/-- **C52.** Asking for a word that is not relevant fails. -/
theorem C52_irrelevant (rel : List W) (s : Acc) (a b : W) :
    (a ∉ rel → s.occurrences rel a = none) ∧
      (a ∉ rel ∨ b ∉ rel → s.coOccurrences rel a b = none) := by
  constructor
  · intro h
    simp [Acc.occurrences, contiguous, h]
  · intro h
    by_cases ha : a ∈ rel
    · have hb : b ∉ rel := h.resolve_left (fun h => h ha)
      simp [Acc.coOccurrences, contiguous, ha, hb]
    · simp [Acc.coOccurrences, contiguous, ha]

/-- **C52 (failure).** With window size 2 over the text `a a b`, two windows contain `a` and one
contains both words, but the accumulator reports 1 and 0. -/
theorem C52_undercounts :
    windowsWith 2 [["a", "a", "b"]] "a" "a" = 2 ∧ windowsWith 2 [["a", "a", "b"]] "a" "b" = 1 ∧
      (accumulate ["a", "b"] 2 Acc.init [["a", "a", "b"]]).occurrences ["a", "b"] "a" = some 1 ∧
      (accumulate ["a", "b"] 2 Acc.init [["a", "a", "b"]]).coOccurrences ["a", "b"] "a" "b"
        = some 0 := by decide +kernel

/-- **C52.** Accumulating a second time adds the occurrence counts but counts the co-occurrences of
the first call twice: for different words the result is twice the first count plus the second. -/
theorem C52_second_call_doubles (rel : List W) (k : Nat) (t1 t2 : List (List W)) (a b : W)
    (ha : a ∈ rel) (hb : b ∈ rel) (hab : a ≠ b) :
    ∃ o1 o2 c1 c2, (accumulate rel k Acc.init t1).occurrences rel a = some o1 ∧
      (accumulate rel k Acc.init t2).occurrences rel a = some o2 ∧
      (accumulate rel k Acc.init t1).coOccurrences rel a b = some c1 ∧
      (accumulate rel k Acc.init t2).coOccurrences rel a b = some c2 ∧
      (accumulate rel k (accumulate rel k Acc.init t1) t2).occurrences rel a = some (o1 + o2) ∧
      (accumulate rel k (accumulate rel k Acc.init t1) t2).coOccurrences rel a b
        = some (2 * c1 + c2) := by
  have hne : rel.idxOf a ≠ rel.idxOf b := fun h => hab ((List.idxOf_inj ha).1 h)
  obtain ⟨p1, _, p3, _⟩ := accumulate_spec rel k (accumulate rel k Acc.init t1) t2
  obtain ⟨q1, _, _, _⟩ := accumulate_spec rel k Acc.init t2
  refine ⟨(accumulate rel k Acc.init t1).occ (rel.idxOf a),
    (accumulate rel k Acc.init t2).occ (rel.idxOf a),
    (accumulate rel k Acc.init t1).co (rel.idxOf a) (rel.idxOf b),
    (accumulate rel k Acc.init t2).co (rel.idxOf a) (rel.idxOf b), ?_, ?_, ?_, ?_, ?_, ?_⟩
  · rw [Acc.occurrences, contiguous_mem ha, Option.map_some]
  · rw [Acc.occurrences, contiguous_mem ha, Option.map_some]
  · rw [Acc.coOccurrences, contiguous_mem ha, contiguous_mem hb, Option.bind_some, Option.map_some]
  · rw [Acc.coOccurrences, contiguous_mem ha, contiguous_mem hb, Option.bind_some, Option.map_some]
  · rw [Acc.occurrences, contiguous_mem ha, Option.map_some, p1, q1]
    simp [Acc.init]
  · rw [Acc.coOccurrences, contiguous_mem ha, contiguous_mem hb, Option.bind_some, Option.map_some,
      p3 _ _ hne, init_co, init_co, init_co]
    have hsym : bothBits rel.length (rel.idxOf b) (rel.idxOf a)
        = bothBits rel.length (rel.idxOf a) (rel.idxOf b) := by
      funext u
      simp only [bothBits]
      cases decide (rel.idxOf b < rel.length) <;> cases decide (rel.idxOf a < rel.length) <;>
        cases u (rel.idxOf a) <;> cases u (rel.idxOf b) <;> rfl
    rw [hsym]
    congr 1
    omega

example : (accumulate ["a", "b"] 2 Acc.init [["a", "x", "b", "a"], ["x"]]).occurrences
      ["a", "b"] "a" = some 2 ∧
    windowsWith 2 [["a", "x", "b", "a"], ["x"]] "a" "a" = 2 ∧
    (accumulate ["a", "b"] 2 Acc.init [["a", "x", "b", "a"], ["x"]]).numDocs = 3 := by
  decide +kernel

end Verif.Coherence
