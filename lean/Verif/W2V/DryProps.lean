import Mathlib.Tactic.Common
import Mathlib.Tactic.Linarith
import Mathlib.Tactic.Ring
import Mathlib.Data.List.Sort
import Verif.W2V.DryModel
import Verif.W2V.SubsampleProps
import Verif.W2V.OnlineProps

/-!
# C144: reports and dry runs of `prepare_vocab`, and memory estimates
-/

namespace Verif.W2V.Dry
open Verif PyDict Vocab Verif.W2V

variable {τ : Type} [DecidableEq τ] {V : Type}

/-! ## Specification -/

/-- the bytes of arrays of numbers of four bytes -/
def bytes (l : List Arr) : Nat := (l.map fun a => 4 * (a.rows * a.cols)).sum

/-- bookkeeping per word -/
def perWord (z : Sizes) : Nat := if z.hs then 700 else 500

/-- the count a word of a model has, 0 for a word it does not know -/
def countOf (m : Weights τ V) (w : τ) : Nat := (getCount m.wv w).getD 0

/-- the settings are what a plain call with these arguments uses: a given argument that is not zero, else the setting of
the model -/
def Applies {X : Type} [Zero X] (arg : Option X) (setting value : X) : Prop :=
  (∃ x, arg = some x ∧ x ≠ 0 ∧ value = x) ∨ ((arg = none ∨ arg = some 0) ∧ value = setting)

/-! ## Memory -/

/-- **C144.** The estimate of a Word2Vec model is the bytes of the arrays that training it allocates, plus the bookkeeping per
word. -/
theorem C144_memory (z : Sizes) (len : Nat) (arg : Option Nat) (n : Nat) (hn : Applies arg len n) :
    get? (estimate z len arg []) "total" = some (n * perWord z + bytes (arrays z n)) := by
  have : vocabSize arg len = n := by
    rcases hn with ⟨x, rfl, h0, rfl⟩ | ⟨h | h, rfl⟩
    · simp [vocabSize, h0]
    · simp [vocabSize, h]
    · simp [vocabSize, h]
  obtain ⟨hs, neg, size, l1⟩ := z
  cases hs <;> cases neg <;>
    simp [estimate, this, setIf, addTotal, PyDict.set, PyDict.get?, values, perWord, arrays, bytes] <;> ring

/-- **C144.** The same for Doc2Vec, with the vectors of the tags and their bookkeeping. -/
theorem C144_memory_doc (z : Sizes) (len tags : Nat) (arg : Option Nat) (n : Nat) (hn : Applies arg len n) :
    get? (estimateDoc z len tags arg []) "total" = some (n * perWord z + 200 * tags + bytes (arraysDoc z n tags)) := by
  have : vocabSize arg len = n := by
    rcases hn with ⟨x, rfl, h0, rfl⟩ | ⟨h | h, rfl⟩
    · simp [vocabSize, h0]
    · simp [vocabSize, h]
    · simp [vocabSize, h]
  obtain ⟨hs, neg, size, l1⟩ := z
  cases hs <;> cases neg <;>
    simp [estimateDoc, estimate, this, setIf, addTotal, PyDict.set, PyDict.get?, values, perWord, arraysDoc, arrays, bytes] <;>
    ring

/-- **C144.** The same for FastText, with the vectors of the buckets and the bookkeeping of the n-grams.  Finding: with
buckets the estimate leaves out one of the two arrays of word vectors. -/
theorem C144_memory_fasttext (z : Sizes) (bucket : Nat) (ngrams : List Nat) (arg : Option Nat) :
    ∃ t, get? (estimateFt z bucket ngrams arg []) "total" = some t ∧
      (bucket = 0 → t = ngrams.length * perWord z + bytes (arraysFt z bucket ngrams.length)) ∧
      (bucket ≠ 0 → t + bytes [⟨ngrams.length, z.size⟩] = ngrams.length * perWord z + (64 + 100 * ngrams.length + 4 * ngrams.sum)
        + bytes (arraysFt z bucket ngrams.length)) := by
  obtain ⟨hs, neg, size, l1⟩ := z
  by_cases hb : bucket = 0 <;> cases hs <;> cases neg <;>
    simp [estimateFt, setIf, addTotal, PyDict.set, PyDict.get?, values, perWord, arraysFt, bytes, hb] <;> ring

/-- **C144, finding.** A report handed back to `estimate_memory` makes the total count itself. -/
theorem C144_report_twice (z : Sizes) (len : Nat) (arg : Option Nat) (t : Nat)
    (h : get? (estimate z len arg []) "total" = some t) :
    get? (estimate z len arg (estimate z len arg [])) "total" = some (2 * t) := by
  obtain ⟨hs, neg, size, l1⟩ := z
  cases hs <;> cases neg <;>
    simp [estimate, setIf, addTotal, PyDict.set, PyDict.get?, values] at h ⊢ <;> omega

/-- **C144, finding.** FastText does not look at `vocab_size`; for a model without a vocabulary yet the estimate has no
words, whatever the size asked for. -/
theorem C144_fasttext_ignores (z : Sizes) (bucket : Nat) (n : Nat) (hb : bucket ≠ 0) :
    get? (estimateFt z bucket [] (some n) []) "total" = some (64 + 4 * (bucket * z.size)) := by
  obtain ⟨hs, neg, size, l1⟩ := z
  cases hs <;> cases neg <;>
    simp [estimateFt, setIf, addTotal, PyDict.set, PyDict.get?, values, hb] <;> ring

/-! ## Reports -/

theorem orElse_applies {X : Type} [Zero X] [DecidableEq X] (arg : Option X) (d : X) : Applies arg d (orElse arg d) := by
  cases arg with
  | none => exact .inr ⟨.inl rfl, rfl⟩
  | some x =>
    by_cases h : x = 0
    · subst h; exact .inr ⟨.inr rfl, by simp [orElse]⟩
    · exact .inl ⟨x, rfl, h, by simp [orElse, h]⟩

theorem applies_unique {X : Type} [Zero X] {arg : Option X} {d x y : X} (h1 : Applies arg d x) (h2 : Applies arg d y) :
    x = y := by
  rcases h1 with ⟨a, rfl, ha, rfl⟩ | ⟨h1, rfl⟩ <;> rcases h2 with ⟨b, hb, hb0, rfl⟩ | ⟨h2, rfl⟩
  · simpa using hb
  · rcases h2 with h2 | h2
    · exact absurd h2 (by simp)
    · exact absurd (by simpa using h2) ha
  · subst hb
    rcases h1 with h1 | h1
    · exact absurd h1 (by simp)
    · exact absurd (by simpa using h1) hb0
  · rfl

theorem downsample_eq (t : ℝ) (ws : List (τ × Nat)) : downsample t ws =
    ((ws.filter fun p => decide (wordProbability t p.2 < 1)).length, (ws.map fun p => wordProbability t p.2 * p.2).sum) := by
  have key : ∀ (ws : List (τ × Nat)) (a : ℕ) (b : ℝ), ws.foldl (fun acc p =>
      if wordProbability t p.2 < 1 then (acc.1 + 1, acc.2 + wordProbability t p.2 * p.2)
      else (acc.1, acc.2 + p.2)) (a, b) = (a + (ws.filter fun p => decide (wordProbability t p.2 < 1)).length,
        b + (ws.map fun p => wordProbability t p.2 * p.2).sum) := by
    intro ws
    induction ws with
    | nil => intro a b; simp
    | cons p ws ih =>
      intro a b
      rw [List.foldl_cons]
      by_cases h : wordProbability t p.2 < 1
      · rw [if_pos h, ih, List.filter_cons_of_pos (by simpa using h)]
        simp only [List.length_cons, List.map_cons, List.sum_cons, Prod.mk.injEq]
        constructor
        · omega
        · ring
      · have h1 : wordProbability t p.2 = 1 := by
          unfold wordProbability at h ⊢
          dsimp only at h ⊢
          split
          · next hlt => rw [if_pos hlt] at h; exact absurd hlt h
          · rfl
        rw [if_neg h, ih, List.filter_cons_of_neg (by simpa using h)]
        simp only [List.map_cons, List.sum_cons, h1, Prod.mk.injEq, true_and]
        ring
  unfold downsample
  rw [key]
  simp

theorem retained_perm (cfg : Cfg τ) (u : Bool) (raw : PyDict τ Nat) (wv : WV τ) :
    (retained cfg u raw wv).Perm (raw.filter fun p => keepItem cfg.rule p.1 p.2 (effective cfg raw)) := by
  unfold retained
  cases u with
  | false => exact List.Perm.refl _
  | true =>
    simp only [if_true]
    refine List.perm_append_comm.trans ?_
    have := List.filter_append_perm (fun p => contains wv.k2i p.1)
      (raw.filter fun p => keepItem cfg.rule p.1 p.2 (effective cfg raw))
    exact this

theorem finish_plain {argsort : List Nat → List Nat} (cfg : Cfg τ) (raw : PyDict τ Nat) (m : Weights τ V)
    (hv : m.vectors = []) :
    finish argsort none cfg.sorted false { m with wv := prepareFresh argsort { cfg with sorted := false } raw m.wv } =
      some { m with wv := prepareFresh argsort cfg raw m.wv } := by
  unfold finish
  cases hs : cfg.sorted with
  | false =>
    have : ({ cfg with sorted := false } : Cfg τ) = cfg := by cases cfg; simp_all
    simp [this]
  | true =>
    simp only [Bool.not_false, Bool.and_self, if_true]
    have e : prepareFresh argsort cfg raw m.wv = sortDesc argsort (prepareFresh argsort { cfg with sorted := false } raw m.wv) := by
      unfold prepareFresh
      simp only [hs, if_true]
      rfl
    split
    · next h0 =>
      rw [e]
      unfold sortDesc
      rw [if_pos h0]
    · rw [e]
      unfold reorderVectors
      simp [hv]

theorem threshold_pos {sample : ℝ} (h : 0 ≤ sample) {n : ℕ} (hn : 0 < n) : 0 < thresholdCount sample n := by
  have hn' : (0 : ℝ) < n := by exact_mod_cast hn
  unfold thresholdCount
  split
  · exact hn'
  · next h0 =>
    split
    · exact mul_pos (lt_of_le_of_ne h (Ne.symm h0)) hn'
    · next h1 =>
      have h5 : (0 : ℝ) ≤ √5 := Real.sqrt_nonneg 5
      have : 1 ≤ ⌊sample * (3 + √5) / 2⌋₊ := by
        rw [Nat.one_le_floor_iff]
        nlinarith [not_lt.1 h1]
      exact_mod_cast this

/-- **C144.** Once the corpus is scanned, a dry run reports what the real run then does: the number of words kept, the
number of words of the corpus left, how many words are downsampled and how many words of the corpus are expected to
remain; both runs report the same. -/
theorem C144_predicts {argsort : List Nat → List Nat} (ha : ArgsortOk argsort) (s : VM τ V) (hnul : s.nul = none)
    (hv : s.m.vectors = []) (hr : WF s.raw) (hpos : ∀ w c, get? s.raw w = some c → 0 < c)
    (keepRaw : Bool) (rule : TrimRule τ) (mc : Option Nat) (sm : Option ℝ) (sample : ℝ) (hsm : Applies sm s.sample sample)
    (cfg : Cfg τ) (hcr : cfg.rule = rule) (hcm : Applies mc s.minCount cfg.minCount) (hcf : cfg.maxFinal = s.maxFinal)
    (hcs : cfg.sorted = s.sorted)
    (hne : ∃ w c, get? s.raw w = some c ∧ Kept ⟨false, cfg, s.raw⟩ w c) :
    ∃ r sd sr, prepareVocab argsort ⟨false, keepRaw, rule, mc, sm, true⟩ s = some (r, sd) ∧
      prepareVocab argsort ⟨false, keepRaw, rule, mc, sm, false⟩ s = some (r, sr) ∧
      sr.m.wv = prepareFresh argsort cfg s.raw s.m.wv ∧
      sr.m.wv.i2k.length = r.numRetained ∧ r.numRetained + r.dropUnique = s.raw.length ∧
      (sr.m.wv.i2k.map (countOf sr.m)).sum = r.retainTotal ∧
      (0 ≤ sample →
        (sr.m.wv.i2k.filter fun w => decide (sr.ints w < 2 ^ 32 - 1)).length = r.downUnique) ∧
      r.downTotal = ⌊(sr.m.wv.i2k.map fun w =>
        wordProbability (thresholdCount sample r.retainTotal) (countOf sr.m w) * countOf sr.m w).sum⌋₊ := by
  have hcfg : cfgOf s ⟨false, keepRaw, rule, mc, sm, true⟩ = cfg := by
    have := applies_unique (orElse_applies mc s.minCount) hcm
    cases cfg
    simp_all [cfgOf]
  have hcfg' : cfgOf s ⟨false, keepRaw, rule, mc, sm, false⟩ = cfg := hcfg
  have hsam : orElse sm s.sample = sample := applies_unique (orElse_applies sm s.sample) hsm
  obtain ⟨f1, f2, f3, f4⟩ := fresh_ok ha cfg hr s.m.wv hne
  set kept := s.raw.filter fun p => keepItem cfg.rule p.1 p.2 (effective cfg s.raw) with hkept
  have hkwf : (kept.map Prod.fst).Nodup := hr.sublist (List.filter_sublist.map _)
  have hcount : ∀ p ∈ kept, getCount (prepareFresh argsort cfg s.raw s.m.wv) p.1 = some p.2 := by
    intro p hp
    rw [f3]
    rw [hkept, List.mem_filter] at hp
    have hg : get? s.raw p.1 = some p.2 := get?_of_mem hr hp.1
    simp only [expected, hg]
    rw [if_pos]
    exact hp.2
  have hperm : (prepareFresh argsort cfg s.raw s.m.wv).i2k.Perm (kept.map (·.1)) := f2
  have hdry : ∃ sd, finish argsort s.nul s.sorted false s.m = some sd := by
    unfold finish
    rw [hnul]
    simp only [Bool.not_false, Bool.and_true, reorderVectors, hv]
    split
    · split <;> exact ⟨_, rfl⟩
    · exact ⟨_, rfl⟩
  obtain ⟨md, hmd⟩ := hdry
  have hreal := finish_plain (argsort := argsort) cfg s.raw s.m hv
  refine ⟨report cfg sample false s.raw s.m.wv, { s with m := md, eff := effective cfg s.raw },
    { s with
      m := { s.m with wv := prepareFresh argsort cfg s.raw s.m.wv }
      ints := setSampleInts sample cfg s.raw s.ints
      raw := if !keepRaw then [] else s.raw
      minCount := cfg.minCount
      sample := sample
      eff := effective cfg s.raw }, ?_, ?_, ?_⟩
  · unfold prepareVocab
    simp only [loops, if_true]
    rw [hmd, hcfg, hsam]
    simp
  · unfold prepareVocab
    simp only [loops, Bool.false_eq_true, if_false]
    rw [hcfg', hsam, hnul, ← hcs, hreal]
    have hm : orElse mc s.minCount = cfg.minCount := applies_unique (orElse_applies mc s.minCount) hcm
    simp [hm]
  · have hret : retained cfg false s.raw s.m.wv = kept := rfl
    have htot : (report cfg sample false s.raw s.m.wv).retainTotal = (kept.map (·.2)).sum := rfl
    refine ⟨rfl, ?_, ?_, ?_, ?_, ?_⟩
    · rw [hperm.length_eq]
      simp [report, hret]
    · simp only [report, hret]
      rw [hkept]
      have := List.length_eq_length_filter_add (l := s.raw) (fun p => keepItem cfg.rule p.1 p.2 (effective cfg s.raw))
      omega
    · rw [(hperm.map _).sum_eq, htot, List.map_map]
      congr 1
      apply List.map_congr_left
      intro p hp
      simp [countOf, hcount p hp]
    · intro hs0
      have hth : 0 < thresholdCount sample (kept.map Prod.snd).sum := by
        apply threshold_pos hs0
        obtain ⟨w, c, h1, h2⟩ := hne
        have hm : (w, c) ∈ kept := by
          rw [hkept, List.mem_filter]
          exact ⟨mem_of_get? h1, h2⟩
        have h3 : c ≤ (kept.map Prod.snd).sum := List.single_le_sum (by simp) _ (List.mem_map.2 ⟨_, hm, rfl⟩)
        have := hpos w c h1
        omega
      rw [(hperm.filter _).length_eq, List.filter_map, List.length_map]
      simp only [report, hret]
      rw [downsample_eq]
      simp only
      congr 1
      apply List.filter_congr
      intro p hp
      have hp' := hp
      rw [hkept, List.mem_filter] at hp'
      have hg : get? s.raw p.1 = some p.2 := get?_of_mem hr hp'.1
      have hsi := (C84_build sample cfg s.raw hr s.ints p.1).1 p.2 hg hp'.2
      obtain ⟨q0, q1, -⟩ := (C84_probability (thresholdCount sample (kept.map Prod.snd).sum) hth).1 p.2 (hpos _ _ hg)
      simp only [Function.comp, hsi, ← hkept, decide_eq_decide]
      set q := wordProbability (thresholdCount sample (kept.map Prod.snd).sum) p.2 with hq
      obtain ⟨b1, b2, b3⟩ := sampleInt_bounds q q0.le q1
      constructor
      · intro hlt
        by_contra hc
        have hq1 : q = 1 := le_antisymm q1 (not_lt.1 hc)
        have : sampleInt q = 2 ^ 32 - 1 := by
          unfold sampleInt
          rw [hq1, one_mul, show ((2 : ℝ) ^ 32 - 1) = ((2 ^ 32 - 1 : ℕ) : ℝ) by norm_num, Nat.floor_natCast]
        omega
      · intro hlt
        have : (sampleInt q : ℝ) < ((2 ^ 32 - 1 : ℕ) : ℝ) := by
          refine lt_of_le_of_lt b2 ?_
          norm_num
          linarith
        exact_mod_cast this
    · rw [(hperm.map _).sum_eq, htot, List.map_map]
      simp only [report, hret]
      rw [downsample_eq]
      simp only
      congr 2
      apply List.map_congr_left
      intro p hp
      simp [countOf, hcount p hp]

/-! ## What dry runs leave behind -/

/-- **C144.** A dry run of a model without vocabulary changes nothing but `effective_min_count`. -/
theorem C144_dry_scanned (argsort : List Nat → List Nat) (a : Args τ) (hd : a.dry = true) (s : VM τ V) (hnul : s.nul = none)
    (h0 : s.m.wv.i2k = []) : ∃ r e, prepareVocab argsort a s = some (r, { s with eff := e }) := by
  refine ⟨report (cfgOf s a) (orElse a.sample s.sample) a.update s.raw s.m.wv, effective (cfgOf s a) s.raw, ?_⟩
  unfold prepareVocab
  simp only [loops, hd, if_true]
  have : finish argsort s.nul s.sorted a.update s.m = some s.m := by
    unfold finish
    rw [hnul]
    simp [h0]
  rw [this]
  simp

/-- **C144.** A dry run with `update=True`, or of a model that does not sort its words, changes nothing but
`effective_min_count`, unless there is a null word. -/
theorem C144_dry_unsorted (argsort : List Nat → List Nat) (a : Args τ) (hd : a.dry = true) (s : VM τ V)
    (hnul : s.nul = none) (hu : a.update = true ∨ s.sorted = false) :
    ∃ r e, prepareVocab argsort a s = some (r, { s with eff := e }) := by
  refine ⟨report (cfgOf s a) (orElse a.sample s.sample) a.update s.raw s.m.wv, effective (cfgOf s a) s.raw, ?_⟩
  unfold prepareVocab
  simp only [loops, hd, if_true]
  have : finish argsort s.nul s.sorted a.update s.m = some s.m := by
    unfold finish
    rw [hnul]
    rcases hu with h | h <;> simp [h]
  rw [this]
  simp

theorem mapM_some {α β : Type} (f : α → Option β) (l : List α) (h : ∀ x ∈ l, ∃ y, f x = some y) :
    l.mapM f = some (l.filterMap f) := by
  induction l with
  | nil => rfl
  | cons x l ih =>
    obtain ⟨y, hy⟩ := h x (by simp)
    rw [List.mapM_cons, hy, ih (fun z hz => h z (by simp [hz])), List.filterMap_cons, hy]
    rfl

/-- **C144.** A dry run of a model with vectors that sorts its words: every word keeps its count and its vector, the
words are in order of frequency; but the output rows stay where they are. -/
theorem C144_dry_built {argsort : List Nat → List Nat} (ha : ArgsortOk argsort) (a : Args τ) (hd : a.dry = true)
    (hu : a.update = false) (s : VM τ V) (hnul : s.nul = none) (hs : s.sorted = true) (hz : Sized s.m) :
    ∃ r e m', prepareVocab argsort a s = some (r, { s with m := m', eff := e }) ∧ Sized m' ∧
      m'.wv.i2k.Perm s.m.wv.i2k ∧ m'.wv.counts.Pairwise (fun x y => y ≤ x) ∧
      (∀ w, getCount m'.wv w = getCount s.m.wv w ∧ vectorOf m' w = vectorOf s.m w) ∧ m'.out = s.m.out := by
  obtain ⟨g1, g2, g3, g4⟩ := sortDesc_ok ha hz.good
  have hidx : ∀ i ∈ (argsort s.m.wv.counts).reverse, i < s.m.wv.i2k.length := by
    intro i hi
    rw [List.mem_reverse] at hi
    have := (ha s.m.wv.counts).1.mem_iff.1 hi
    rw [List.mem_range, hz.good.counts] at this
    exact this
  have hlen : (argsort s.m.wv.counts).reverse.length = s.m.wv.i2k.length := by
    rw [List.length_reverse, (ha s.m.wv.counts).1.length_eq, List.length_range, hz.good.counts]
  have hfin : finish argsort s.nul s.sorted a.update s.m = some
      { wv := sortDesc argsort s.m.wv
        vectors := (argsort s.m.wv.counts).reverse.filterMap (fun i => s.m.vectors[i]?)
        out := s.m.out } := by
    unfold finish
    rw [hnul, hs, hu]
    simp only [Bool.not_false, Bool.and_self, if_true]
    split
    · next h0 =>
      have hnil : (argsort s.m.wv.counts).reverse = [] := List.length_eq_zero_iff.1 (by omega)
      have hv0 : s.m.vectors = [] := List.length_eq_zero_iff.1 (by rw [hz.vectors]; exact h0)
      rw [hnil]
      unfold sortDesc
      rw [if_pos h0]
      cases hm : s.m
      simp_all
    · next h0 =>
      unfold reorderVectors
      rw [if_pos (by rw [hz.vectors]; omega), mapM_some]
      · rfl
      · intro i hi
        exact ⟨_, List.getElem?_eq_getElem (by rw [hz.vectors]; exact hidx i hi)⟩
  obtain ⟨v1, v2⟩ := filterMap_eq_map s.m.vectors (argsort s.m.wv.counts).reverse
    (by rw [hz.vectors]; exact hidx)
  refine ⟨report (cfgOf s a) (orElse a.sample s.sample) a.update s.raw s.m.wv, effective (cfgOf s a) s.raw,
    { wv := sortDesc argsort s.m.wv
      vectors := (argsort s.m.wv.counts).reverse.filterMap (fun i => s.m.vectors[i]?)
      out := s.m.out }, ?_, ⟨g1, ?_, ?_⟩, g2, g4, ?_, rfl⟩
  · unfold prepareVocab
    simp only [loops, hd, if_true]
    rw [hfin]
    simp
  · rw [v1, hlen, g2.length_eq]
  · show s.m.out.length = _
    rw [hz.out, g2.length_eq]
  · intro w
    refine ⟨g3 w, ?_⟩
    unfold vectorOf
    dsimp only
    by_cases h0 : s.m.wv.i2k.length = 0
    · have hv0 : s.m.vectors = [] := List.length_eq_zero_iff.1 (by rw [hz.vectors]; exact h0)
      simp [hv0]
    · have hi2k : (sortDesc argsort s.m.wv).i2k = (argsort s.m.wv.counts).reverse.filterMap (fun i => s.m.wv.i2k[i]?) := by
        unfold sortDesc
        rw [if_neg h0]
      obtain ⟨w1, w2⟩ := filterMap_eq_map s.m.wv.i2k (argsort s.m.wv.counts).reverse hidx
      cases hg : get? (sortDesc argsort s.m.wv).k2i w with
      | none =>
        have hnot : w ∉ (sortDesc argsort s.m.wv).i2k := by
          intro hw
          obtain ⟨i, hi, hiw⟩ := List.getElem_of_mem hw
          have := (g1.inverse w i).2 (by rw [List.getElem?_eq_getElem hi, hiw])
          rw [hg] at this
          exact absurd this (by simp)
        have hnot' : get? s.m.wv.k2i w = none := by
          cases hh : get? s.m.wv.k2i w with
          | none => rfl
          | some j =>
            have := (hz.good.inverse w j).1 hh
            exact absurd (g2.mem_iff.2 (List.mem_of_getElem? this)) hnot
        rw [hnot']
        rfl
      | some k =>
        have hk := (g1.inverse w k).1 hg
        rw [hi2k, w2 k] at hk
        cases hik : (argsort s.m.wv.counts).reverse[k]? with
        | none => rw [hik] at hk; exact absurd hk (by simp)
        | some i =>
          rw [hik] at hk
          simp only [Option.bind_some] at hk
          have := (hz.good.inverse w i).2 hk
          rw [this]
          simp only [Option.bind_some]
          rw [v2 k, hik]
          rfl

/-- the count of the word at a position -/
theorem count_at {wv : WV τ} (h : Good wv) {i : Nat} {w : τ} (hi : wv.i2k[i]? = some w) : getCount wv w = wv.counts[i]? := by
  unfold getCount
  rw [(h.inverse w i).2 hi]
  rfl

/-- words in order of frequency, read off the list of counts -/
theorem pairwise_words {wv : WV τ} (h : Good wv) (hp : wv.counts.Pairwise (fun x y => y ≤ x)) :
    wv.i2k.Pairwise (fun v w => (getCount wv w).getD 0 ≤ (getCount wv v).getD 0) := by
  rw [List.pairwise_iff_getElem] at hp ⊢
  intro i j hi hj hij
  rw [count_at h (List.getElem?_eq_getElem hi), count_at h (List.getElem?_eq_getElem hj)]
  have hc := h.counts
  rw [List.getElem?_eq_getElem (by omega), List.getElem?_eq_getElem (by omega)]
  exact hp i j (by omega) (by omega) hij

/-- **C144.** If no two words of the model are equally frequent and the words are in order of frequency, a dry run also
leaves every word its output row. -/
theorem C144_dry_strict {argsort : List Nat → List Nat} (ha : ArgsortOk argsort) (a : Args τ) (hd : a.dry = true)
    (hu : a.update = false) (s : VM τ V) (hnul : s.nul = none) (hs : s.sorted = true) (hz : Sized s.m)
    (hc : s.m.wv.counts.Pairwise (fun x y => y < x)) (r : Report) (s' : VM τ V)
    (h : prepareVocab argsort a s = some (r, s')) :
    s'.m.wv.i2k = s.m.wv.i2k ∧ ∀ w, vectorOf s'.m w = vectorOf s.m w ∧ outOf s'.m w = outOf s.m w := by
  obtain ⟨r', e, m', h1, h2, h3, h4, h5, h6⟩ := C144_dry_built ha a hd hu s hnul hs hz
  rw [h1] at h
  simp only [Option.some.injEq, Prod.mk.injEq] at h
  obtain ⟨-, rfl⟩ := h
  have hg := hz.good
  have hcl := hg.counts
  have hi2k : m'.wv.i2k = s.m.wv.i2k := by
    refine List.Perm.eq_of_pairwise (le := fun v w => (getCount s.m.wv w).getD 0 ≤ (getCount s.m.wv v).getD 0) ?_ ?_ ?_ h3
    · intro v w hv hw le1 le2
      obtain ⟨i, hi, hiv⟩ := List.getElem_of_mem (h3.mem_iff.1 hv)
      obtain ⟨j, hj, hjw⟩ := List.getElem_of_mem hw
      rw [count_at hg (List.getElem?_eq_some_iff.2 ⟨hi, hiv⟩), count_at hg (List.getElem?_eq_some_iff.2 ⟨hj, hjw⟩),
        List.getElem?_eq_getElem (by omega), List.getElem?_eq_getElem (by omega)] at le1 le2
      simp only [Option.getD_some] at le1 le2
      rw [List.pairwise_iff_getElem] at hc
      rcases Nat.lt_trichotomy i j with hij | hij | hij
      · have := hc i j (by omega) (by omega) hij; omega
      · subst hij; rw [← hiv, ← hjw]
      · have := hc j i (by omega) (by omega) hij; omega
    · have := pairwise_words h2.good h4
      simp only [(h5 _).1] at this
      exact this
    · exact pairwise_words hg (hc.imp (fun h => Nat.le_of_lt h))
  refine ⟨hi2k, fun w => ⟨(h5 w).2, ?_⟩⟩
  unfold outOf
  dsimp only
  have : get? m'.wv.k2i w = get? s.m.wv.k2i w := by
    cases hh : get? s.m.wv.k2i w with
    | none =>
      cases hh' : get? m'.wv.k2i w with
      | none => rfl
      | some i =>
        have := (h2.good.inverse w i).1 hh'
        rw [hi2k] at this
        rw [(hg.inverse w i).2 this] at hh
        exact absurd hh (by simp)
    | some i =>
      have := (hg.inverse w i).1 hh
      rw [← hi2k] at this
      exact (h2.good.inverse w i).2 this
  rw [this, h6]

/-- **C144, finding.** A dry run of a trained model in which a later word is more frequent than an earlier one (as after
`build_vocab(update=True)`) gives words the output rows of other words. -/
theorem C144_dry_scrambles {argsort : List Nat → List Nat} (ha : ArgsortOk argsort) (a : Args τ) (hd : a.dry = true)
    (hu : a.update = false) (s : VM τ V) (hnul : s.nul = none) (hs : s.sorted = true) (hz : Sized s.m)
    (hout : s.m.out.Nodup) (i j : Nat) (hij : i < j) (x y : Nat) (hi : s.m.wv.counts[i]? = some x)
    (hj : s.m.wv.counts[j]? = some y) (hxy : x < y) (r : Report) (s' : VM τ V)
    (h : prepareVocab argsort a s = some (r, s')) : ∃ w ∈ s.m.wv.i2k, outOf s'.m w ≠ outOf s.m w := by
  obtain ⟨r', e, m', h1, h2, h3, h4, h5, h6⟩ := C144_dry_built ha a hd hu s hnul hs hz
  rw [h1] at h
  simp only [Option.some.injEq, Prod.mk.injEq] at h
  obtain ⟨-, rfl⟩ := h
  by_contra hc
  push Not at hc
  have hg := hz.good
  have hcl := hg.counts
  have hlen := h3.length_eq
  -- every word is at its old position
  have hpos : ∀ (k : Nat) w, s.m.wv.i2k[k]? = some w → m'.wv.i2k[k]? = some w := by
    intro k w hk
    have hkl : k < s.m.wv.i2k.length := (List.getElem?_eq_some_iff.1 hk).1
    have hw := hc w (List.mem_of_getElem? hk)
    unfold outOf at hw
    dsimp only at hw
    have hwm : w ∈ m'.wv.i2k := h3.mem_iff.2 (List.mem_of_getElem? hk)
    obtain ⟨l, hl, hlw⟩ := List.getElem_of_mem hwm
    have hl' : m'.wv.i2k[l]? = some w := by rw [List.getElem?_eq_getElem hl, hlw]
    rw [(h2.good.inverse w l).2 hl', (hg.inverse w k).2 hk, h6] at hw
    simp only [Option.bind_some] at hw
    have ho := hz.out
    rw [List.getElem?_eq_getElem (by omega), List.getElem?_eq_getElem (by omega)] at hw
    have hlk : l = k := hout.getElem_inj_iff.1 (by simpa using hw)
    rw [← hlk]; exact hl'
  have hi' : i < s.m.wv.counts.length := (List.getElem?_eq_some_iff.1 hi).1
  have hj' : j < s.m.wv.counts.length := (List.getElem?_eq_some_iff.1 hj).1
  have ci := hpos i _ (List.getElem?_eq_getElem (by omega))
  have cj := hpos j _ (List.getElem?_eq_getElem (by omega))
  have di := count_at h2.good ci
  have dj := count_at h2.good cj
  rw [(h5 _).1, count_at hg (List.getElem?_eq_getElem (by omega)), hi] at di
  rw [(h5 _).1, count_at hg (List.getElem?_eq_getElem (by omega)), hj] at dj
  have hcl2 := h2.good.counts
  rw [List.pairwise_iff_getElem] at h4
  have := h4 i j (by omega) (by omega) hij
  rw [List.getElem?_eq_getElem (by omega)] at di dj
  simp only [Option.some.injEq] at di dj
  omega

/-- **C144, finding.** A dry run of a model with a null word raises IndexError if it has vectors and sorts its words; in
any other case it adds the null word to the vocabulary. -/
theorem C144_dry_null {argsort : List Nat → List Nat} (ha : ArgsortOk argsort) (a : Args τ) (hd : a.dry = true)
    (hu : a.update = false) (s : VM τ V) (nul : τ) (hnul : s.nul = some nul) :
    (s.sorted = true → Sized s.m → s.m.wv.i2k ≠ [] → prepareVocab argsort a s = none) ∧
    (s.sorted = true → s.m.wv = ⟨[], [], []⟩ → s.m.vectors = [] →
      ∃ r s', prepareVocab argsort a s = some (r, s') ∧ s'.m.wv.i2k = [nul]) ∧
    (s.sorted = false → ∃ r s', prepareVocab argsort a s = some (r, s') ∧ s'.m.wv.i2k = s.m.wv.i2k ++ [nul]) := by
  have hadd : (addNull nul s.m.wv).i2k = s.m.wv.i2k ++ [nul] := rfl
  refine ⟨fun hs hz hne => ?_, fun hs he hv => ?_, fun hs => ?_⟩
  · unfold prepareVocab
    simp only [loops, hd, if_true]
    have : finish argsort s.nul s.sorted a.update s.m = none := by
      unfold finish
      rw [hnul, hs, hu]
      simp only [Bool.not_false, Bool.and_self, if_true]
      rw [if_neg (by rw [hadd]; simp)]
      have hlen : (addNull nul s.m.wv).counts.length = s.m.wv.i2k.length + 1 := by
        unfold addNull setCount addWord
        dsimp only
        split <;> simp [resize_length]
      have hmem : s.m.wv.i2k.length ∈ (argsort (addNull nul s.m.wv).counts).reverse := by
        rw [List.mem_reverse, (ha _).1.mem_iff, List.mem_range, hlen]
        omega
      have hp : 0 < s.m.wv.i2k.length := List.length_pos_iff.2 hne
      unfold reorderVectors
      rw [if_pos (by rw [hz.vectors]; exact hp)]
      have hnone : ∀ l : List Nat, s.m.wv.i2k.length ∈ l → l.mapM (fun i => s.m.vectors[i]?) = none := by
        intro l
        induction l with
        | nil => intro h; exact absurd h (by simp)
        | cons x l ih =>
          intro h
          rw [List.mapM_cons]
          by_cases hx : x = s.m.wv.i2k.length
          · rw [List.getElem?_eq_none (by rw [hz.vectors]; omega)]
            rfl
          · rw [ih (by
              rcases List.mem_cons.1 h with h | h
              · exact absurd h.symm hx
              · exact h)]
            cases s.m.vectors[x]? <;> rfl
      rw [hnone _ hmem]
      rfl
    rw [this]
    rfl
  · have harg : argsort [1] = [0] := by
      have h1 := (ha [1]).1
      rw [show List.range [1].length = [0] from rfl] at h1
      exact List.perm_singleton.1 h1
    have hcn : (addNull nul s.m.wv).counts = [1] := by
      rw [he]
      simp [addNull, addWord, setCount, PyDict.set, PyDict.get?, resize]
    have : ∃ m', finish argsort s.nul s.sorted a.update s.m = some m' ∧ m'.wv.i2k = [nul] := by
      unfold finish
      rw [hnul, hs, hu]
      simp only [Bool.not_false, Bool.and_self, if_true]
      rw [if_neg (by rw [hadd]; simp)]
      refine ⟨_, by rw [reorderVectors, hv]; rfl, ?_⟩
      unfold sortDesc
      rw [if_neg (by rw [hadd]; simp), hcn, harg]
      dsimp only
      rw [hadd, he]
      rfl
    obtain ⟨m', f1, f2⟩ := this
    unfold prepareVocab
    simp only [loops, hd, if_true]
    rw [f1]
    exact ⟨_, _, rfl, f2⟩
  · have : finish argsort s.nul s.sorted a.update s.m = some { s.m with wv := addNull nul s.m.wv } := by
      unfold finish
      rw [hnul, hs]
      simp
    unfold prepareVocab
    simp only [loops, hd, if_true]
    rw [this]
    exact ⟨_, _, rfl, hadd⟩

/-- **C144, finding.** The arguments `min_count=0` and `sample=0` are ignored: the settings of the model apply. -/
theorem C144_zero_ignored (argsort : List Nat → List Nat) (a : Args τ) (s : VM τ V) :
    prepareVocab argsort { a with minCount := some 0, sample := some 0 } s =
      prepareVocab argsort { a with minCount := none, sample := none } s := by
  simp [prepareVocab, loops, cfgOf, orElse]

/-- **C144, finding.** With `update=True` the number of retained words, from which `build_vocab` estimates the memory,
counts the words of the new corpus only: the vocabulary has all the words the model had, and those of them that are not
retained from the new corpus are missing in the report. -/
theorem C144_update_report (s : VM τ V) (a : Args τ) (hu : a.update = true) (hr : WF s.raw) (hg : Good s.m.wv) :
    (prepareUpdate (cfgOf s a) s.raw s.m.wv).i2k.length
        + (s.raw.filter fun p => decide (Kept ⟨true, cfgOf s a, s.raw⟩ p.1 p.2) && decide (p.1 ∈ s.m.wv.i2k)).length =
      s.m.wv.i2k.length + (report (cfgOf s a) (orElse a.sample s.sample) a.update s.raw s.m.wv).numRetained := by
  obtain ⟨h1, h2, h3⟩ := updateLoop (cfgOf s a) (effective (cfgOf s a) s.raw) s.raw s.m.wv hr hg.inverse
  have hl : (prepareUpdate (cfgOf s a) s.raw s.m.wv).i2k =
      (s.raw.foldl (updateWord (cfgOf s a) (effective (cfgOf s a) s.raw)) s.m.wv).i2k := by
    unfold prepareUpdate
    set wv1 := s.raw.foldl (updateWord (cfgOf s a) (effective (cfgOf s a) s.raw)) s.m.wv with hwv1
    have hg1 : Good { wv1 with counts := resize wv1.counts wv1.i2k.length } := ⟨h2, resize_length _ _⟩
    exact (countsLoop (fun w n => n + getD s.raw w 0) wv1.i2k _ hg1 (inverse_nodup h2)).2.1
  rw [hl, h1, List.length_append]
  unfold report retained
  rw [hu]
  dsimp only
  rw [if_pos rfl, List.length_append]
  have hc : ∀ w, contains s.m.wv.k2i w = decide (w ∈ s.m.wv.i2k) := by
    intro w
    rw [Bool.eq_iff_iff, decide_eq_true_iff, contains_iff]
    constructor
    · intro hw
      obtain ⟨i, hi⟩ := Option.isSome_iff_exists.1 ((get?_isSome_iff _ _).2 hw)
      exact List.mem_of_getElem? ((hg.inverse w i).1 hi)
    · intro hw
      obtain ⟨i, hi, hiw⟩ := List.getElem_of_mem hw
      exact mem_keys_of_mem (mem_of_get? <| (hg.inverse w i).2 (List.getElem?_eq_some_iff.2 ⟨hi, hiw⟩))
  have hk : ∀ p : τ × Nat, decide (Kept ⟨true, cfgOf s a, s.raw⟩ p.1 p.2) =
      keepItem (cfgOf s a).rule p.1 p.2 (effective (cfgOf s a) s.raw) := by
    intro p
    rw [Bool.eq_iff_iff, decide_eq_true_iff]
    rfl
  simp only [hc, keys, List.filter_map, List.length_map, List.filter_filter, hk]
  have e1 : (fun p : τ × Nat => decide (p.1 ∈ s.m.wv.i2k) && keepItem (cfgOf s a).rule p.1 p.2 (effective (cfgOf s a) s.raw)) =
    (fun p : τ × Nat => keepItem (cfgOf s a).rule p.1 p.2 (effective (cfgOf s a) s.raw) && decide (p.1 ∈ s.m.wv.i2k)) := by
    funext p; rw [Bool.and_comm]
  rw [e1]
  have e2 : ∀ l : PyDict τ Nat, (l.filter fun p : τ × Nat => ((fun w => decide (w ∉ s.m.wv.i2k)) ∘ fun p => p.1) p &&
      keepItem (cfgOf s a).rule p.1 p.2 (effective (cfgOf s a) s.raw)) =
      l.filter fun p : τ × Nat => !decide (p.1 ∈ s.m.wv.i2k) && keepItem (cfgOf s a).rule p.1 p.2 (effective (cfgOf s a) s.raw) := by
    intro l
    congr 1
    funext p
    simp
  rw [e2]
  omega

/-! ## Examples -/

/-- a model as after an online update: the later word is the more frequent one -/
noncomputable def exBuilt (sorted : Bool) (nul : Option String) (counts : List Nat) : VM String Nat :=
  { m := ⟨⟨["a", "b"], [("a", 0), ("b", 1)], counts⟩, [10, 20], [100, 200]⟩
    ints := fun _ => 0, raw := [("a", 1), ("b", 5), ("c", 2)], minCount := 1, sample := 0, eff := 1, maxFinal := none
    sorted := sorted, nul := nul }

/-- a dry run with the settings of the model -/
def exDry : Args String := ⟨false, true, none, none, none, true⟩

theorem exSized (sorted : Bool) (nul : Option String) (x y : Nat) : Sized (exBuilt sorted nul [x, y]).m := by
  refine ⟨⟨?_, rfl⟩, rfl, rfl⟩
  intro w i
  simp only [exBuilt, PyDict.get?, List.find?_cons]
  rcases i with _ | _ | i
  · by_cases h : "a" = w
    · simp [h]
    · by_cases h' : "b" = w <;> simp_all
  · by_cases h : "a" = w
    · subst h; simp
    · by_cases h' : "b" = w <;> simp_all
  · by_cases h : "a" = w
    · subst h; simp
    · by_cases h' : "b" = w <;> simp_all

-- the more frequent word comes first after the dry run, with the output row of the other one
example : (prepareVocab exArgsort exDry (exBuilt true none [1, 5])).map (fun r =>
    (r.2.m.wv.i2k, vectorOf r.2.m "b", outOf r.2.m "b", outOf (exBuilt true none [1, 5]).m "b")) =
    some (["b", "a"], some 20, some 100, some 200) := by
  have h : finish exArgsort none true false (exBuilt true none [1, 5]).m =
      some ⟨⟨["b", "a"], [("b", 0), ("a", 1)], [5, 1]⟩, [20, 10], [100, 200]⟩ := by
    have h1 : exArgsort [1, 5] = [0, 1] := by decide +kernel
    unfold finish
    simp only [exBuilt, Bool.not_false, Bool.and_self, if_true, sortDesc, h1]
    rfl
  unfold prepareVocab
  simp only [loops, exDry, if_true]
  rw [show (exBuilt true none [1, 5]).nul = none from rfl, show (exBuilt true none [1, 5]).sorted = true from rfl, h]
  rfl

-- so `C144_dry_scrambles` applies
example : ∃ r s', prepareVocab exArgsort exDry (exBuilt true none [1, 5]) = some (r, s') ∧
    ∃ w ∈ (exBuilt true none [1, 5]).m.wv.i2k, outOf s'.m w ≠ outOf (exBuilt true none [1, 5]).m w := by
  obtain ⟨r, e, m', h, -⟩ := C144_dry_built exArgsort_ok exDry rfl rfl (exBuilt true none [1, 5]) rfl rfl (exSized _ _ _ _)
  exact ⟨r, _, h, C144_dry_scrambles exArgsort_ok exDry rfl rfl _ rfl rfl (exSized _ _ _ _) (by decide +kernel) 0 1
    (by decide) 1 5 rfl rfl (by decide) _ _ h⟩

-- and nothing moves if the counts decrease
example : ∃ r s', prepareVocab exArgsort exDry (exBuilt true none [5, 1]) = some (r, s') ∧
    outOf s'.m "b" = some 200 := by
  obtain ⟨r, e, m', h, -⟩ := C144_dry_built exArgsort_ok exDry rfl rfl (exBuilt true none [5, 1]) rfl rfl (exSized _ _ _ _)
  refine ⟨r, _, h, ?_⟩
  rw [((C144_dry_strict exArgsort_ok exDry rfl rfl _ rfl rfl (exSized _ _ _ _) (by simp [exBuilt]) _ _ h).2 "b").2]
  rfl

-- a model with a null word
example : prepareVocab exArgsort exDry (exBuilt true (some "\x00") [5, 1]) = none :=
  (C144_dry_null exArgsort_ok exDry rfl rfl _ _ rfl).1 rfl (exSized _ _ _ _) (by simp [exBuilt])

-- an update: one retained word, three words in the vocabulary
example : (prepareUpdate (⟨none, 1, none, true⟩ : Cfg String) [("c", 2)] ⟨["a", "b"], [("a", 0), ("b", 1)], [5, 1]⟩).i2k =
    ["a", "b", "c"] ∧ (retained (⟨none, 1, none, true⟩ : Cfg String) true [("c", 2)]
      ⟨["a", "b"], [("a", 0), ("b", 1)], [5, 1]⟩).length = 1 := by decide +kernel

-- `C144_predicts` on a new model that has scanned a corpus
example : ∃ r sd sr, prepareVocab exArgsort ⟨false, true, none, some 2, none, true⟩
      { exBuilt true none [] with m := ⟨⟨[], [], []⟩, ([] : List Nat), []⟩ } = some (r, sd) ∧
    prepareVocab exArgsort ⟨false, true, none, some 2, none, false⟩
      { exBuilt true none [] with m := ⟨⟨[], [], []⟩, ([] : List Nat), []⟩ } = some (r, sr) ∧
    sr.m.wv.i2k = ["b", "c"] ∧ r.numRetained = 2 := by
  obtain ⟨r, sd, sr, h1, h2, h3, h4, -⟩ := C144_predicts exArgsort_ok
    { exBuilt true none [] with m := ⟨⟨[], [], []⟩, ([] : List Nat), []⟩ } rfl rfl (by simp [exBuilt, WF, PyDict.keys])
    (by
      intro w c h
      simp only [exBuilt, PyDict.get?, List.find?_cons] at h
      by_cases ha : "a" = w
      · simp [ha] at h; omega
      · by_cases hb : "b" = w
        · simp [ha, hb] at h; omega
        · by_cases hc : "c" = w
          · simp [ha, hb, hc] at h; omega
          · simp [ha, hb, hc] at h)
    true none (some 2) none 0 (Or.inr ⟨Or.inl rfl, rfl⟩) ⟨none, 2, none, true⟩ rfl (Or.inl ⟨2, rfl, by decide, rfl⟩) rfl rfl
    ⟨"b", 5, by decide +kernel, by decide +kernel⟩
  have e : sr.m.wv.i2k = ["b", "c"] := by
    rw [h3]
    decide +kernel
  exact ⟨r, sd, sr, h1, h2, e, by rw [← h4, e]; rfl⟩

end Verif.W2V.Dry
