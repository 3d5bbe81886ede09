import Verif.Tfidf.InitModel
import Verif.Tfidf.SmartProps

/-!
# C162: what a constructed `TfidfModel` has counted, how it weighs, and when it can be used
-/

namespace Verif.Tfidf
open Verif PyDict Matutils

/-! ## Specification -/

/-- where the statistics come from -/
inductive Source (τ : Type)
  | dictionary (d : Dictionary.Dct τ)
  | corpus (docs : List (List (Nat × ℝ)))
  | nothing

/-- A dictionary with tokens is used, whatever the corpus; otherwise a corpus, unless it is known to be empty. -/
def Uses {τ : Type} (a : Args τ) : Source τ → Prop
  | .dictionary d => a.dictionary = some d ∧ d.token2id ≠ []
  | .corpus docs => (∀ d, a.dictionary = some d → d.token2id = []) ∧
      ∃ c, a.corpus = some c ∧ c.docs = docs ∧ (c.hasLen = true → docs ≠ [])
  | .nothing => (∀ d, a.dictionary = some d → d.token2id = []) ∧
      ∀ c, a.corpus = some c → c.hasLen = true ∧ c.docs = []

/-- the statistics are those of a source -/
def FromSource {τ : Type} (wglobal : Nat → Nat → ℝ) : Source τ → Option Stats → Prop
  | .dictionary d, s => ∃ s', s = some s' ∧ s'.numDocs = d.numDocs ∧ s'.numNnz = d.numNnz ∧ s'.dfs = d.dfs ∧
      s'.idfs = d.dfs.map fun p => (p.1, wglobal p.2 d.numDocs)
  | .corpus docs, s => s = some (train wglobal docs)
  | .nothing, s => s = none

/-! ## Lemmas -/

theorem dict_some {τ : Type} {a : Args τ} {d : Dictionary.Dct τ} (h : a.dictionary = some d) (hd : d.token2id ≠ []) :
    a.dict = some d := by
  unfold Args.dict
  rw [h]
  simp [Option.filter, hd]

theorem dict_none {τ : Type} {a : Args τ} (h : ∀ d, a.dictionary = some d → d.token2id = []) : a.dict = none := by
  unfold Args.dict
  cases hd : a.dictionary with
  | none => rfl
  | some d => simp [Option.filter, h d hd]

theorem corp_some {τ : Type} {a : Args τ} {c : CorpusArg} (h : a.corpus = some c) (hc : c.hasLen = true → c.docs ≠ []) :
    a.corp = some c := by
  unfold Args.corp
  rw [h]
  cases hl : c.hasLen with
  | false => simp [Option.filter, CorpusArg.truthy, hl]
  | true => simp [Option.filter, CorpusArg.truthy, hc hl]

theorem corp_none {τ : Type} {a : Args τ} (h : ∀ c, a.corpus = some c → c.hasLen = true ∧ c.docs = []) :
    a.corp = none := by
  unfold Args.corp
  cases hd : a.corpus with
  | none => rfl
  | some c => simp [Option.filter, CorpusArg.truthy, h c hd]

theorem initStats_source {τ : Type} {a : Args τ} {src : Source τ} (h : Uses a src) (wg : Nat → Nat → ℝ) :
    FromSource wg src (initStats a wg) := by
  cases src with
  | dictionary d =>
    unfold initStats
    rw [dict_some h.1 h.2]
    exact ⟨_, rfl, rfl, rfl, rfl, rfl⟩
  | corpus docs =>
    obtain ⟨h1, c, h2, rfl, h3⟩ := h
    unfold initStats
    rw [dict_none h1, corp_some h2 h3]
    rfl
  | nothing =>
    unfold initStats
    rw [dict_none h.1, corp_none h.2]
    rfl

theorem uses_exists {τ : Type} (a : Args τ) : ∃ src, Uses a src := by
  by_cases h : ∃ d, a.dictionary = some d ∧ d.token2id ≠ []
  · obtain ⟨d, h⟩ := h
    exact ⟨.dictionary d, h⟩
  · have h1 : ∀ d, a.dictionary = some d → d.token2id = [] := fun d hd => by
      by_contra hh
      exact h ⟨d, hd, hh⟩
    by_cases hc : ∃ c, a.corpus = some c ∧ (c.hasLen = true → c.docs ≠ [])
    · obtain ⟨c, hc1, hc2⟩ := hc
      exact ⟨.corpus c.docs, h1, c, hc1, rfl, hc2⟩
    · refine ⟨.nothing, h1, fun c hcc => ?_⟩
      by_contra hh
      refine hc ⟨c, hcc, fun hl hd => hh ⟨hl, hd⟩⟩

/-- the resolved code has three letters -/
theorem resolve_three {code r : List Char} (h : resolveWeights code = some r) : ∃ x y z, r = [x, y, z] ∧
    x ∈ ['b', 'n', 'a', 'l', 'd', 'L'] ∧ y ∈ ['n', 'f', 't', 'p'] ∧ z ∈ ['n', 'c', 'u', 'b'] :=
  ((C49_resolve_weights code).2 r h).1

theorem construct_smart {τ : Type} {len : τ → Nat} {a : Args τ} {code : List Char} {x y z : Char}
    (hc : a.smartirs = some code) (hr : resolveWeights code = some [x, y, z]) :
    construct len a = (initPivot len a (initStats a (smartGlobal y)) z).map fun p =>
      ⟨initStats a (smartGlobal y), smartLocal x, smartGlobal y, .smart z, p, a.slope, initLens len a⟩ := by
  unfold construct
  simp only [hc, hr]
  cases initPivot len a (initStats a (smartGlobal y)) z <;> rfl

/-! ## C162 -/

/-- C162 (statistics and weights): every call has exactly one source; a constructed model has the statistics of that
source, computed with the weights of the SMART code if there is one, and with the user's functions if there is none.
With a code, the functions and the `normalize` given by the user are not used. -/
theorem C162_source {τ : Type} (len : τ → Nat) (a : Args τ) (b : Built) (h : construct len a = .ok b) :
    (∃ src, Uses a src) ∧ (∀ src, Uses a src → FromSource b.wglobal src b.stats) ∧
    (a.smartirs = none → b.wlocal = a.wlocal ∧ b.wglobal = a.wglobal ∧ b.pivot = a.pivot ∧
      b.normalizer = if a.normalize = true then .unit else .plain) ∧
    (∀ code, a.smartirs = some code → ∃ x y z, resolveWeights code = some [x, y, z] ∧ b.wlocal = smartLocal x ∧
      b.wglobal = smartGlobal y ∧ b.normalizer = .smart z) := by
  refine ⟨uses_exists a, ?_⟩
  cases hs : a.smartirs with
  | none =>
    unfold construct at h
    simp only [hs, Except.ok.injEq] at h
    subst h
    exact ⟨fun src hu => initStats_source hu _, fun _ => ⟨rfl, rfl, rfl, rfl⟩, fun _ hc => by cases hc⟩
  | some code =>
    cases hr : resolveWeights code with
    | none => unfold construct at h; simp [hs, hr] at h
    | some r =>
      obtain ⟨x, y, z, rfl, -⟩ := resolve_three hr
      rw [construct_smart hs hr] at h
      cases hp : initPivot len a (initStats a (smartGlobal y)) z with
      | error e => rw [hp] at h; cases h
      | ok p =>
        rw [hp] at h
        simp only [Except.map, Except.ok.injEq] at h
        subst h
        refine ⟨fun src hu => initStats_source hu _, fun hn => (by cases hn), fun c hc => ?_⟩
        cases hc
        exact ⟨x, y, z, hr, rfl, rfl, rfl⟩

/-- C162 (corpus ignored): with a dictionary that has tokens, the corpus makes no difference. -/
theorem C162_corpus_ignored {τ : Type} (len : τ → Nat) (a : Args τ) (d : Dictionary.Dct τ)
    (h : a.dictionary = some d) (hd : d.token2id ≠ []) (c : Option CorpusArg) :
    construct len { a with corpus := c } = construct len a := by
  have h1 : a.dict = some d := dict_some h hd
  have h2 : ({ a with corpus := c } : Args τ).dict = some d := dict_some h hd
  have hst : ∀ wg, initStats { a with corpus := c } wg = initStats a wg := fun wg => by
    unfold initStats; rw [h1, h2]
  have hl : initLens len { a with corpus := c } = initLens len a := by unfold initLens; rw [h1, h2]
  have hb : ∀ n, bytePivot len { a with corpus := c } n = bytePivot len a n := fun n => by
    unfold bytePivot; rw [hl]
  have hp : ∀ s z, initPivot len { a with corpus := c } s z = initPivot len a s z := fun s z => by
    unfold initPivot
    simp only [hb]
  unfold construct
  simp only [hst, hl, hp]

/-- C162 (pivot): a pivot given by the user is always kept. Without one, only the codes `u` and `b` set a pivot, and
only if something was counted: `u` the mean number of entries of a document. -/
theorem C162_pivot {τ : Type} (len : τ → Nat) (a : Args τ) (b : Built) (h : construct len a = .ok b) :
    (∀ p, a.pivot = some p → b.pivot = some p) ∧
    (a.pivot = none → b.normalizer ≠ .smart 'u' → b.normalizer ≠ .smart 'b' → b.pivot = none) ∧
    (a.pivot = none → b.stats = none → b.pivot = none) ∧
    (∀ s, a.pivot = none → b.normalizer = .smart 'u' → b.stats = some s →
      s.numDocs ≠ 0 ∧ b.pivot = some ((s.numNnz : ℝ) / (s.numDocs : ℝ))) := by
  cases hs : a.smartirs with
  | none =>
    unfold construct at h
    simp only [hs, Except.ok.injEq] at h
    subst h
    refine ⟨fun p hp => hp, fun hp _ _ => hp, fun hp _ => hp, fun s _ hn => ?_⟩
    simp only at hn
    split at hn <;> cases hn
  | some code =>
    cases hr : resolveWeights code with
    | none => unfold construct at h; simp [hs, hr] at h
    | some r =>
      obtain ⟨x, y, z, rfl, -⟩ := resolve_three hr
      rw [construct_smart hs hr] at h
      cases hp : initPivot len a (initStats a (smartGlobal y)) z with
      | error e => rw [hp] at h; cases h
      | ok p =>
        rw [hp] at h
        simp only [Except.map, Except.ok.injEq] at h
        subst h
        simp only
        unfold initPivot at hp
        refine ⟨fun q hq => ?_, fun hq h1 h2 => ?_, fun hq h1 => ?_, fun s hq h1 h2 => ?_⟩
        · simp only [hq, Except.ok.injEq] at hp; exact hp.symm
        · have hz : ¬ (z = 'u' ∨ z = 'b') := by
            rintro (rfl | rfl)
            · exact h1 rfl
            · exact h2 rfl
          simp only [hq, if_neg hz, Except.ok.injEq] at hp; exact hp.symm
        · simp only [hq, h1] at hp
          split at hp <;> (cases hp; rfl)
        · have hz : z = 'u' := by cases h1; rfl
          subst hz
          simp only [hq, h2, true_or, if_true] at hp
          split at hp
          · cases hp
          · next h0 => simp only [Except.ok.injEq, one_mul] at hp; exact ⟨h0, hp.symm⟩

/-- C162 (refusals): when the constructor raises. A code that is not one of the documented ones is a `ValueError`; the
codes `u` and `b` are a `ZeroDivisionError` if no documents were counted; the code `b` with a corpus and no dictionary
is an `AttributeError`. -/
theorem C162_refused {τ : Type} (len : τ → Nat) (a : Args τ) :
    (∀ code, a.smartirs = some code → resolveWeights code = none → construct len a = .error .value) ∧
    (∀ code x y s, a.smartirs = some code → resolveWeights code = some [x, y, 'u'] → a.pivot = none →
      initStats a (smartGlobal y) = some s → s.numDocs = 0 → construct len a = .error .zeroDiv) ∧
    (∀ code x y c, a.smartirs = some code → resolveWeights code = some [x, y, 'b'] → a.pivot = none →
      a.dictionary = none → a.corpus = some c → (c.hasLen = true → c.docs ≠ []) → construct len a = .error .attr) := by
  refine ⟨fun code h1 h2 => ?_, fun code x y s h1 h2 h3 h4 h5 => ?_, fun code x y c h1 h2 h3 h4 h5 h6 => ?_⟩
  · unfold construct
    simp only [h1, h2]
  · rw [construct_smart h1 h2, h4]
    unfold initPivot
    simp [h3, h5, Except.map]
  · rw [construct_smart h1 h2]
    have hst : initStats a (smartGlobal y) = some (train (smartGlobal y) c.docs) :=
      initStats_source (src := .corpus c.docs) ⟨by simp [h4], c, h5, rfl, h6⟩ _
    rw [hst]
    unfold initPivot bytePivot
    simp [h3, h4, Except.map]

/-- C162 (nothing but refused otherwise): without a code, or with a pivot, or with a code that asks for no pivot, a
valid call never raises. -/
theorem C162_accepted {τ : Type} (len : τ → Nat) (a : Args τ)
    (h : a.smartirs = none ∨ ∃ code x y z, a.smartirs = some code ∧ resolveWeights code = some [x, y, z] ∧
      (a.pivot ≠ none ∨ (z ≠ 'u' ∧ z ≠ 'b') ∨ Uses a .nothing)) : ∃ b, construct len a = .ok b := by
  rcases h with h | ⟨code, x, y, z, h1, h2, h3⟩
  · unfold construct
    simp only [h]
    exact ⟨_, rfl⟩
  · rw [construct_smart h1 h2]
    have : ∃ p, initPivot len a (initStats a (smartGlobal y)) z = .ok p := by
      unfold initPivot
      cases hp : a.pivot with
      | some p => exact ⟨_, rfl⟩
      | none =>
        rcases h3 with h3 | h3 | h3
        · exact absurd hp h3
        · simp only [if_neg (not_or.2 h3)]
          exact ⟨_, rfl⟩
        · have : initStats a (smartGlobal y) = none := initStats_source h3 _
          simp only [this]
          split <;> exact ⟨_, rfl⟩
    obtain ⟨p, hp⟩ := this
    rw [hp]
    exact ⟨_, rfl⟩

/-- C162 (an empty dictionary, a finding): with the code `b` and a corpus, a dictionary without tokens makes the
constructor succeed, with the pivot 0; every document then raises. -/
theorem C162_empty_dictionary {τ : Type} (len : τ → Nat) (a : Args τ) (d : Dictionary.Dct τ) (c : CorpusArg)
    (code : List Char) (x y : Char) (h1 : a.smartirs = some code) (h2 : resolveWeights code = some [x, y, 'b'])
    (h3 : a.pivot = none) (h4 : a.dictionary = some d) (h5 : d.token2id = []) (h6 : a.corpus = some c)
    (h7 : c.docs ≠ []) :
    ∃ b, construct len a = .ok b ∧ b.pivot = some 0 ∧ b.stats = some (train (smartGlobal y) c.docs) ∧
      ∀ eps bow, b.getitem eps bow = none := by
  have hst : initStats a (smartGlobal y) = some (train (smartGlobal y) c.docs) :=
    initStats_source (src := .corpus c.docs) ⟨by simp [h4, h5], c, h6, rfl, fun _ => h7⟩ _
  have hl : initLens len a = none := by
    unfold initLens; rw [dict_none (by simp [h4, h5])]; rfl
  refine ⟨⟨some (train (smartGlobal y) c.docs), smartLocal x, smartGlobal y, .smart 'b', some 0, a.slope, none⟩,
    ?_, rfl, rfl, fun eps bow => ?_⟩
  · rw [construct_smart h1 h2, hst, hl]
    unfold initPivot bytePivot
    have hn : (train (smartGlobal y) c.docs).numDocs ≠ 0 := by simp [train, h7]
    simp [h3, h4, h5, hn, Except.map, values, Dictionary.mapOpt, pySum]
  · exact C49_byte_length_pivot_raises _ _ _ _ _ _

/-- C162 (nothing counted): a model without a source can be constructed, but raises on every document with a term
(for weights that keep the number of terms, as all those of the codes do). -/
theorem C162_untrained {τ : Type} (len : τ → Nat) (a : Args τ) (b : Built) (h : construct len a = .ok b)
    (hu : Uses a .nothing) (hw : ∀ tfs r, b.wlocal tfs = some r → r.length = tfs.length) (eps : ℝ)
    (bow : List (Nat × ℝ)) (hb : bow ≠ []) : b.getitem eps bow = none := by
  have hs : b.stats = none := (C162_source len a b h).2.1 .nothing hu
  unfold Built.getitem
  rw [hs]
  cases hl : b.wlocal (bow.map Prod.snd) with
  | none => simp [hl]
  | some tfs =>
    simp only [Option.bind_some]
    rw [if_neg]
    have := hw _ _ hl
    cases bow with
    | nil => exact absurd rfl hb
    | cons p bow =>
      cases tfs with
      | nil => simp at this
      | cons t tfs => simp

/-- C162 (unknown terms, a finding): after construction from a dictionary with the code `b`, a document with a term the
dictionary does not have raises, although terms without a document frequency are dropped otherwise. -/
theorem C162_unknown_term {τ : Type} (len : τ → Nat) (a : Args τ) (b : Built) (h : construct len a = .ok b)
    (d : Dictionary.Dct τ) (h1 : a.dictionary = some d) (h2 : d.token2id ≠ []) (hn : b.normalizer = .smart 'b')
    (eps : ℝ) (bow : List (Nat × ℝ)) (i : Nat) (hi : i ∈ bow.map Prod.fst) (hd : ∀ w, (w, i) ∉ d.token2id) :
    b.getitem eps bow = none := by
  have hs := (C162_source len a b h).2.2.1
  cases hsm : a.smartirs with
  | none =>
    obtain ⟨-, -, -, hnn⟩ := hs hsm
    rw [hn] at hnn
    split at hnn <;> cases hnn
  | some code =>
    cases hr : resolveWeights code with
    | none => unfold construct at h; simp [hsm, hr] at h
    | some r =>
      obtain ⟨x, y, z, rfl, -⟩ := resolve_three hr
      rw [construct_smart hsm hr] at h
      cases hp : initPivot len a (initStats a (smartGlobal y)) z with
      | error e => rw [hp] at h; cases h
      | ok p =>
        rw [hp] at h
        simp only [Except.map, Except.ok.injEq] at h
        subst h
        have hz : z = 'b' := by cases hn; rfl
        subst hz
        have hst : initStats a (smartGlobal y) = some (fromDictionary (smartGlobal y) d) := by
          unfold initStats; rw [dict_some h1 h2]
        have hlens : initLens len a = some (d.token2id.map fun p => (p.2, len p.1)) := by
          unfold initLens; rw [dict_some h1 h2]; rfl
        have hpv : ∃ q, p = some q := by
          unfold initPivot at hp
          rw [hst] at hp
          cases hap : a.pivot with
          | some q => simp only [hap, Except.ok.injEq] at hp; exact ⟨q, hp.symm⟩
          | none =>
            simp only [hap, or_true, if_true] at hp
            rw [if_neg (by decide)] at hp
            cases hbp : bytePivot len a (fromDictionary (smartGlobal y) d).numDocs with
            | error e => rw [hbp] at hp; cases hp
            | ok q => rw [hbp] at hp; simp only [Except.map, Except.ok.injEq] at hp; exact ⟨q, hp.symm⟩
        obtain ⟨q, rfl⟩ := hpv
        have hmiss : get? (d.token2id.map fun p => (p.2, len p.1)) i = none := by
          cases hg : get? (d.token2id.map fun p => (p.2, len p.1)) i with
          | none => rfl
          | some l =>
            have := PyDict.mem_of_get? hg
            obtain ⟨⟨w, k⟩, hp1, hp2⟩ := List.mem_map.1 this
            simp only [Prod.mk.injEq] at hp2
            obtain ⟨rfl, -⟩ := hp2
            exact absurd hp1 (hd w)
        have hmap : ∀ l : List (Nat × ℝ), i ∈ l.map Prod.fst → Dictionary.mapOpt (fun p : Nat × ℝ =>
            (get? (d.token2id.map fun p => (p.2, len p.1)) p.1).map fun l => p.2 * ((l : ℝ) + 1)) l = none := by
          intro l
          induction l with
          | nil => intro hh; cases hh
          | cons e l ih =>
            intro hh
            rw [List.map_cons, List.mem_cons] at hh
            unfold Dictionary.mapOpt
            rcases hh with rfl | hh
            · rw [hmiss]; rfl
            · cases (get? (d.token2id.map fun p => (p.2, len p.1)) e.1).map fun l => e.2 * ((l : ℝ) + 1) with
              | none => rfl
              | some v => simp only [ih hh]
        unfold Built.getitem
        simp only [hst, hlens]
        unfold transform oldNorm
        simp only [if_neg (show ¬ 'b' = 'u' by decide), if_true, Option.bind_some, hmap bow hi, Option.map_none]
        cases smartLocal x (bow.map Prod.snd) <;> rfl

/-! ### A model of a dictionary can be used -/

theorem le_foldl_max (l : List ℝ) : ∀ a : ℝ, a ≤ l.foldl max a := by
  induction l with
  | nil => exact fun a => le_refl a
  | cons b l ih => exact fun a => le_trans (le_max_left a b) (ih (max a b))

theorem length_le_sum : ∀ l : List ℝ, (∀ x ∈ l, 1 ≤ x) → (l.length : ℝ) ≤ l.sum
  | [], _ => by simp
  | x :: l, h => by
    have h1 := h x (by simp)
    have h2 := length_le_sum l fun y hy => h y (by simp [hy])
    simp only [List.length_cons, Nat.cast_add, Nat.cast_one, List.sum_cons]
    linarith

theorem smartLocal_pos {x : Char} (hx : x ∈ ['b', 'n', 'a', 'l', 'd', 'L']) (tfs : List ℝ) (hne : tfs ≠ [])
    (hp : ∀ t ∈ tfs, 1 ≤ t) :
    ∃ f : ℝ → ℝ, smartLocal x tfs = some (tfs.map f) ∧ ∀ t ∈ tfs, 0 < f t := by
  have hlog : ∀ t ∈ tfs, 0 ≤ Real.logb 2 t := fun t ht => Real.logb_nonneg (by norm_num) (hp t ht)
  simp only [List.mem_cons, List.not_mem_nil, or_false] at hx
  rcases hx with rfl | rfl | rfl | rfl | rfl | rfl
  · refine ⟨fun t => if t = 0 then 0 else 1, rfl, fun t ht => ?_⟩
    have := hp t ht
    simp only
    rw [if_neg (by linarith)]
    norm_num
  · exact ⟨id, by simp [smartLocal], fun t ht => by have := hp t ht; simp only [id]; linarith⟩
  · cases tfs with
    | nil => exact absurd rfl hne
    | cons t ts =>
      refine ⟨fun tf => 0.5 + 0.5 * tf / ts.foldl max t, rfl, fun u hu => ?_⟩
      have h1 := hp t (by simp)
      have h2 := le_foldl_max ts t
      have h3 := hp u hu
      have : 0 < 0.5 * u / ts.foldl max t := div_pos (by linarith) (by linarith)
      simp only
      linarith
  · exact ⟨_, rfl, fun t ht => by have := hlog t ht; linarith⟩
  · refine ⟨_, rfl, fun t ht => ?_⟩
    have := hlog t ht
    have : 0 ≤ Real.logb 2 (1 + Real.logb 2 t) := Real.logb_nonneg (by norm_num) (by linarith)
    linarith
  · refine ⟨_, rfl, fun t ht => ?_⟩
    have h0 : (0 : ℝ) < tfs.length := by exact_mod_cast List.length_pos_iff.2 hne
    have h1 : 1 ≤ pySum tfs / (tfs.length : ℝ) := by
      rw [pySum_eq, one_le_div h0]
      exact length_le_sum tfs hp
    have h2 := hlog t ht
    have h3 : 0 ≤ Real.logb 2 (pySum tfs / (tfs.length : ℝ)) := Real.logb_nonneg (by norm_num) h1
    exact div_pos (by linarith) (by linarith)

theorem mapOpt_isSome {α β : Type} (f : α → Option β) : ∀ l : List α, (∀ x ∈ l, f x ≠ none) →
    ∃ r, Dictionary.mapOpt f l = some r
  | [], _ => ⟨[], rfl⟩
  | x :: l, h => by
    obtain ⟨r, hr⟩ := mapOpt_isSome f l fun y hy => h y (by simp [hy])
    cases hx : f x with
    | none => exact absurd hx (h x (by simp))
    | some v => exact ⟨v :: r, by unfold Dictionary.mapOpt; rw [hx, hr]⟩

/-- C162 (usable): for the dictionary of any collection with at least one token, any of the documented codes, and no
pivot given, the constructor succeeds, and every document of terms of the dictionary with frequencies of at least one
can be transformed. The pivot of the code `b` is the mean number of characters of a document, a separator after each
token included. -/
theorem C162_usable {τ : Type} [LinearOrder τ] (len : τ → Nat) (docs : List (List τ)) (hd : docs.flatten ≠ [])
    (a : Args τ) (code : List Char) (x y z : Char) (hc : a.smartirs = some code)
    (hr : resolveWeights code = some [x, y, z]) (hpv : a.pivot = none)
    (d : Dictionary.Dct τ) (hadd : Dictionary.addDocuments Dictionary.empty docs none = some d)
    (ha : a.dictionary = some d) :
    ∃ b, construct len a = .ok b ∧
      (z = 'b' → b.pivot = some ((docs.flatten.map fun w => (len w : ℝ) + 1).sum / docs.length)) ∧
      ∀ (eps : ℝ) (bow : List (Nat × ℝ)), 0 ≤ eps → bow ≠ [] →
      (∀ p ∈ bow, (∃ w, (w, p.1) ∈ d.token2id) ∧ 1 ≤ p.2) → ∃ r, b.getitem eps bow = some r := by
  obtain ⟨d1, h1, h2, h3, h4, -, -⟩ := Dictionary.C03_statistics_exact docs none (fun k hk => by cases hk)
  have hdd : d1 = d := by rw [h1] at hadd; exact Option.some.inj hadd
  subst hdd
  have hne : d1.token2id ≠ [] := by
    obtain ⟨w, hw⟩ := List.exists_mem_of_ne_nil _ hd
    obtain ⟨doc, hdoc, hw⟩ := List.mem_flatten.1 hw
    have := (h2 w).2 ⟨doc, hdoc, hw⟩
    intro hh
    simp [Dictionary.known, Dictionary.idOf, hh] at this
  have hnd : d1.numDocs ≠ 0 := by
    rw [h4]
    intro hh
    rw [List.length_eq_zero_iff.1 hh] at hd
    exact hd rfl
  have hst : initStats a (smartGlobal y) = some (fromDictionary (smartGlobal y) d1) := by
    unfold initStats; rw [dict_some ha hne]
  have hlens : initLens len a = some (termLens len d1) := by
    unfold initLens; rw [dict_some ha hne]; rfl
  obtain ⟨-, -, -, hxyz⟩ : True ∧ True ∧ True ∧ (x ∈ ['b', 'n', 'a', 'l', 'd', 'L'] ∧ z ∈ ['n', 'c', 'u', 'b']) := by
    obtain ⟨x', y', z', he, h5, h6, h7⟩ := resolve_three hr
    cases he
    exact ⟨trivial, trivial, trivial, h5, h7⟩
  -- the pivot
  have hpiv : ∃ p, initPivot len a (initStats a (smartGlobal y)) z = .ok p ∧ (z = 'u' ∨ z = 'b' → p ≠ none) ∧
      (¬ (z = 'u' ∨ z = 'b') → p = none) ∧
      (z = 'b' → p = some ((docs.flatten.map fun w => (len w : ℝ) + 1).sum / docs.length)) := by
    rw [hst]
    unfold initPivot
    simp only [hpv]
    by_cases hz : z = 'u' ∨ z = 'b'
    · rw [if_pos hz]
      by_cases hu : z = 'u'
      · rw [if_pos hu, if_neg (show ¬ (fromDictionary (smartGlobal y) d1).numDocs = 0 from hnd)]
        exact ⟨_, rfl, fun _ => by simp, fun hh => absurd hz hh, fun hh => by rw [hu] at hh; exact absurd hh (by decide)⟩
      · rw [if_neg hu]
        obtain ⟨d2, h5, h6⟩ := C49_pivot_bytes (smartGlobal y) len docs
        have : d2 = d1 := by rw [h1] at h5; exact (Option.some.inj h5).symm
        subst this
        unfold bytePivot
        simp only [ha, hlens, Option.getD_some]
        simp only [smartPivot, if_neg (show ¬ 'b' = 'u' by decide), if_true, Option.bind_some] at h6
        split
        · next hm => rw [hm] at h6; cases h6
        · next l hm =>
          rw [hm] at h6
          rw [if_neg (show ¬ (fromDictionary (smartGlobal y) d2).numDocs = 0 from hnd)]
          exact ⟨_, rfl, fun _ => by simp, fun hh => absurd hz hh, fun _ => Option.some.inj h6⟩
    · rw [if_neg hz]
      exact ⟨none, rfl, fun hh => absurd hh hz, fun _ => rfl, fun hh => absurd (.inr hh) hz⟩
  obtain ⟨p, hp, hp1, hp2, hp3⟩ := hpiv
  refine ⟨⟨initStats a (smartGlobal y), smartLocal x, smartGlobal y, .smart z, p, a.slope, initLens len a⟩,
    by rw [construct_smart hc hr, hp]; rfl, hp3, fun eps bow heps hb hbow => ?_⟩
  obtain ⟨f, hf1, hf2⟩ := smartLocal_pos hxyz.1 (bow.map Prod.snd) (by simpa using hb)
    (by intro t ht; obtain ⟨e, he, rfl⟩ := List.mem_map.1 ht; exact (hbow e he).2)
  unfold Built.getitem
  simp only [hst, hlens]
  unfold transform
  simp only [hf1, Option.bind_some]
  set v := weigh (fromDictionary (smartGlobal y) d1) eps (bow.map Prod.fst) ((bow.map Prod.snd).map f) with hv
  have hvpos : ∀ e ∈ v, e.2 ≠ 0 := by
    intro e he
    rw [hv] at he
    unfold weigh at he
    obtain ⟨q, hq, rfl⟩ := List.mem_map.1 he
    obtain ⟨hq1, hq2⟩ := List.mem_filter.1 hq
    have hq3 := of_decide_eq_true hq2
    have hq4 := (List.of_mem_zip (show (q.1, q.2) ∈ _ from hq1)).2
    obtain ⟨t, ht, htq⟩ := List.mem_map.1 hq4
    have := hf2 t ht
    refine mul_ne_zero (by rw [← htq]; exact this.ne') ?_
    intro h0
    rw [h0, abs_zero] at hq3
    linarith
  cases p with
  | none =>
    have hz : ¬ (z = 'u' ∨ z = 'b') := fun hh => hp1 hh rfl
    simp only [normalized]
    by_cases hcc : z = 'c'
    · rw [if_pos hcc]
      have : ∃ r, unitvecSparse .l2 v = some r := by
        by_cases hve : v = []
        · rw [hve]; exact ⟨[], rfl⟩
        · obtain ⟨e, he⟩ := List.exists_mem_of_ne_nil v hve
          obtain ⟨r, -, hr', -⟩ := C20_sparse_unit .l2 (by decide) v ⟨e, he, hvpos e he⟩
          exact ⟨r, hr'⟩
      obtain ⟨r, hr'⟩ := this
      rw [hr']
      exact ⟨_, rfl⟩
    · rw [if_neg hcc]
      exact ⟨_, rfl⟩
  | some q =>
    have hz : z = 'u' ∨ z = 'b' := by
      by_contra hh
      cases hp2 hh
    have : ∃ o, oldNorm ⟨fromDictionary (smartGlobal y) d1, smartLocal x, .smart z, some q, a.slope,
        some (termLens len d1)⟩ bow v = some o := by
      unfold oldNorm
      simp only
      by_cases hu : z = 'u'
      · rw [if_pos hu]
        unfold normOrOne
        cases hvv : v with
        | nil => exact ⟨1, rfl⟩
        | cons e v' =>
          have : 0 < sparseLen .unique (e :: v') := by
            simp only [sparseLen, List.length_cons]; positivity
          simp only [if_pos this]
          exact ⟨_, rfl⟩
      · rw [if_neg hu, if_pos (hz.resolve_left hu)]
        simp only [Option.bind_some]
        obtain ⟨r, hr'⟩ := mapOpt_isSome (fun p : Nat × ℝ => (get? (termLens len d1) p.1).map fun l =>
            p.2 * ((l : ℝ) + 1)) bow (by
          intro e he hn
          obtain ⟨⟨w, hw⟩, -⟩ := hbow e he
          have hk : e.1 ∈ keys (termLens len d1) := by
            unfold keys termLens
            rw [List.map_map]
            exact List.mem_map.2 ⟨(w, e.1), hw, rfl⟩
          have := (get?_isSome_iff _ _).2 hk
          obtain ⟨l, hl⟩ := Option.isSome_iff_exists.1 this
          rw [hl] at hn
          cases hn)
        rw [hr']
        exact ⟨_, rfl⟩
    obtain ⟨o, ho⟩ := this
    rw [ho]
    exact ⟨_, rfl⟩

/-- non-vacuity: a dictionary of two documents and the code `ttb`, which makes the pivot (3 + 4 + 4 + 3) / 2 -/
example : ∃ d, Dictionary.addDocuments (τ := Nat) Dictionary.empty [[3, 4], [4]] none = some d ∧
    ∃ b, construct (fun w => w) (⟨some ⟨true, []⟩, some d, some, df2idf, true, some ['t', 't', 'b'], none, 0⟩ : Args Nat)
      = .ok b ∧ b.pivot = some 7 := by
  obtain ⟨d, h, -⟩ := Dictionary.C03_statistics_exact [[3, 4], [4]] none (fun k hk => by cases hk)
  have hr : resolveWeights ['t', 't', 'b'] = some ['n', 't', 'b'] := by decide
  obtain ⟨b, hb, hp, -⟩ := C162_usable (fun w => w) [[3, 4], [4]] (by simp)
    (⟨some ⟨true, []⟩, some d, some, df2idf, true, some ['t', 't', 'b'], none, 0⟩ : Args Nat) _ _ _ _ rfl hr rfl d h rfl
  exact ⟨d, h, b, hb, by rw [hp rfl]; norm_num⟩

/-- the refusals happen: the code `b` with a corpus and no dictionary -/
example : construct (fun w : Nat => w) ⟨some ⟨false, []⟩, none, some, df2idf, true, some ['n', 't', 'b'], none, 0⟩ =
    .error .attr :=
  (C162_refused _ _).2.2 ['n', 't', 'b'] 'n' 't' ⟨false, []⟩ rfl (by decide) rfl rfl rfl (by simp)

end Verif.Tfidf
