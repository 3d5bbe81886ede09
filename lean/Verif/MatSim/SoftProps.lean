import Verif.MatSim.SoftModel
import Verif.MatSim.Props
import Verif.Termsim.SoftProps
import Verif.KeyedVectors.WmdProps
import Verif.Docsim.IterProps

/-!
# Properties of the soft cosine and word mover's indexes (C120)
-/

namespace Verif.MatSim
open Verif Matutils Termsim

variable (srt : List ℝ → List Nat) (part : List ℝ → Nat → List Nat)

/-! ## Soft cosine -/

/-- A document over the ids `0 … n-1`, possibly without words. -/
def SoftDoc (n : Nat) (d : List (Nat × ℝ)) : Prop := d = [] ∨ Termsim.Doc n d

theorem soft_weight_nil (i : Nat) : Termsim.weight [] i = 0 := rfl

theorem softCosine_nil (S : Nat → Nat → ℝ) (n : Nat) (q : List (Nat × ℝ)) :
    softCosine S n q [] = 0 ∧ softCosine S n [] q = 0 := by
  simp [softCosine, softDot, soft_weight_nil]

theorem soft_clip_zero (a b : Termsim.Norm) : Termsim.clip a b 0 = 0 := by
  unfold Termsim.clip
  split <;> simp

theorem bil_zero_right (S : Nat → Nat → ℝ) (idx : Finset Nat) (x y : Nat → ℝ) (h : ∀ i ∈ idx, y i = 0) :
    bil S idx x y = 0 := by
  unfold bil
  exact Finset.sum_eq_zero fun r _ => Finset.sum_eq_zero fun c hc => by rw [h c hc, mul_zero]

theorem bil_zero_left (S : Nat → Nat → ℝ) (idx : Finset Nat) (x y : Nat → ℝ) (h : ∀ i ∈ idx, x i = 0) :
    bil S idx x y = 0 := by
  unfold bil
  exact Finset.sum_eq_zero fun r hr => Finset.sum_eq_zero fun c _ => by rw [h r hr, zero_mul, zero_mul]

theorem corpusFactor_some {S : Nat → Nat → ℝ} {n : Nat} (hS : SoftMatrix S n) {d : List (Nat × ℝ)}
    (hd : SoftDoc n d) : ∃ b, corpusFactor S (Finset.range n) .yes (Termsim.weight d) = some b := by
  unfold corpusFactor
  rw [if_neg]
  · exact ⟨_, rfl⟩
  · rcases hd with rfl | hd
    · rw [bil_zero_right _ _ _ _ fun i _ => soft_weight_nil i]
      exact lt_irrefl 0
    · exact not_lt.2 (le_of_lt (softDot_pos hS hd))

theorem innerCC_eq {S : Nat → Nat → ℝ} {n : Nat} (hS : SoftMatrix S n) {q d : List (Nat × ℝ)}
    (hq : SoftDoc n q) (hd : SoftDoc n d) : innerCC S n q d .yes .yes = some (softCosine S n q d) := by
  by_cases h : q = [] ∨ d = []
  · obtain ⟨a, ha⟩ := corpusFactor_some hS hq
    obtain ⟨b, hb⟩ := corpusFactor_some hS hd
    unfold innerCC
    dsimp only
    rw [ha, hb]
    rcases h with rfl | rfl
    · rw [(softCosine_nil S n d).2]
      dsimp only
      rw [bil_zero_left _ _ _ _ fun i _ => by rw [soft_weight_nil, mul_zero], soft_clip_zero]
    · rw [(softCosine_nil S n q).1]
      dsimp only
      rw [bil_zero_right _ _ _ _ fun i _ => by rw [soft_weight_nil, mul_zero], soft_clip_zero]
  · rw [not_or] at h
    have hq' := hq.resolve_left h.1
    have hd' := hd.resolve_left h.2
    rw [(C69_corpora S n hS q d hq' hd').2, (C69_documents S n hS q d hq' hd').2]

theorem innerVC_eq {S : Nat → Nat → ℝ} {n : Nat} (hS : SoftMatrix S n) {q d : List (Nat × ℝ)}
    (hq : Termsim.Doc n q) (hd : SoftDoc n d) (hw : words q ⊆ related S n q) :
    innerVC S n q d .yes .yes = some (softCosine S n q (restrict (related S n q) d)) := by
  by_cases hne : restrict (related S n q) d = []
  · rw [hne, (softCosine_nil S n q).1]
    have hz : ∀ i ∈ related S n q, Termsim.weight d i = 0 := by
      intro i hi
      have := weight_restrict (related S n q) d i
      rw [hne, if_pos hi, soft_weight_nil] at this
      exact this.symm
    have hv : ∃ a, vectorFactor S (related S n q) .yes (Termsim.weight q) = some a := by
      have hb : bil S (related S n q) (Termsim.weight q) (Termsim.weight q) = softDot S n q q := by
        rw [bil_related hw]; rfl
      have hpos := softDot_pos hS hq
      refine ⟨1 / √(softDot S n q q), ?_⟩
      unfold vectorFactor
      dsimp only
      rw [hb, if_neg (not_lt.2 (le_of_lt hpos)), if_pos (Real.sqrt_pos.2 hpos)]
    obtain ⟨a, ha⟩ := hv
    unfold innerVC
    dsimp only
    rw [ha]
    unfold corpusFactor
    dsimp only
    rw [bil_zero_right _ _ _ (Termsim.weight d) hz, if_neg (lt_irrefl 0)]
    dsimp only
    rw [bil_zero_right _ _ _ _ fun i hi => by rw [hz i hi, mul_zero], soft_clip_zero]
  · have hd' : Termsim.Doc n d := hd.resolve_left (by rintro rfl; exact hne rfl)
    exact C69_mixed_normalized S n hS q d hq hd' hw hne

theorem softRows_eq {S : Nat → Nat → ℝ} {n : Nat} (hS : SoftMatrix S n) {corpus qs : List Doc}
    (hc : ∀ d ∈ corpus, SoftDoc n d) (hq : ∀ q ∈ qs, SoftDoc n q) :
    softRows S n corpus qs = .ok (.ans (.mat (qs.map fun q => corpus.map (softCosine S n q)))) := by
  unfold softRows
  rw [mapM_some (g := fun q => corpus.map (softCosine S n q)) fun q h =>
    mapM_some fun d h' => innerCC_eq hS (hq q h) (hc d h')]

/-- **C120.** A list of documents is answered by the soft cosine similarity of each of them to every document
of the index (with `num_best`: by the best of them); documents without words have similarity 0. -/
theorem C120_soft_documents {S : Nat → Nat → ℝ} {n : Nat} (hS : SoftMatrix S n) {corpus qs : List Doc}
    (h0 : corpus ≠ []) (hc : ∀ d ∈ corpus, SoftDoc n d) (hq0 : qs ≠ []) (hq : ∀ q ∈ qs, SoftDoc n q)
    (numBest : Option Int) :
    sGetitem srt part (softSims S n corpus) numBest (.docs qs) =
      .ok (.ans (replies srt part numBest (qs.map fun q => corpus.map (softCosine S n q)))) := by
  have : softSims S n corpus (.docs qs) = softRows S n corpus qs := by
    unfold softSims
    rw [if_neg h0]
    cases qs with
    | nil => exact absurd rfl hq0
    | cons _ _ => rfl
  unfold sGetitem
  rw [this, softRows_eq hS hc hq]
  dsimp only
  rw [clip_mat]

/-- **C120.** A single document is answered by its soft cosine similarity to the words of each document that
are related to it. -/
theorem C120_soft_document {S : Nat → Nat → ℝ} {n : Nat} (hS : SoftMatrix S n) {corpus : List Doc} {q : Doc}
    (h0 : corpus ≠ []) (hc : ∀ d ∈ corpus, SoftDoc n d) (hq : Termsim.Doc n q)
    (hw : words q ⊆ related S n q) (numBest : Option Int) :
    sGetitem srt part (softSims S n corpus) numBest (.doc q) =
      .ok (.ans (reply srt part numBest
        (corpus.map fun d => softCosine S n q (restrict (related S n q) d)))) := by
  have : softSims S n corpus (.doc q) = .ok (.ans (.vec
      (corpus.map fun d => softCosine S n q (restrict (related S n q) d)))) := by
    have hm := mapM_some (f := fun d => innerVC S n q d .yes .yes) (l := corpus)
      (g := fun d => softCosine S n q (restrict (related S n q) d)) fun d h => innerVC_eq hS hq (hc d h) hw
    unfold softSims
    rw [if_neg h0]
    cases q with
    | nil => exact absurd rfl hq.nonempty
    | cons p q =>
      dsimp only
      rw [hm]
  unfold sGetitem
  rw [this]
  dsimp only
  rw [clip_vec]

/-- **C120.** Where all words of the documents are related to the query, a single document gets the answer it
gets in a list. -/
theorem C120_soft_agree {S : Nat → Nat → ℝ} {n : Nat} (hS : SoftMatrix S n) {corpus : List Doc} {q : Doc}
    (h0 : corpus ≠ []) (hc : ∀ d ∈ corpus, SoftDoc n d) (hq : Termsim.Doc n q)
    (hw : words q ⊆ related S n q) (hr : ∀ d ∈ corpus, words d ⊆ related S n q) (numBest : Option Int) :
    sGetitem srt part (softSims S n corpus) numBest (.doc q) =
      .ok (.ans (reply srt part numBest (corpus.map (softCosine S n q)))) := by
  rw [C120_soft_document srt part hS h0 hc hq hw]
  congr 3
  apply List.map_congr_left
  intro d hd
  congr 1
  unfold restrict
  rw [List.filter_eq_self]
  intro p hp
  rw [decide_eq_true_eq]
  exact hr d hd (List.mem_toFinset.2 (List.mem_map_of_mem hp))

theorem positions_get {D : Type} (corpus : List D) (c : List Nat) (h : ∀ p ∈ c, p < corpus.length) :
    ∃ qs, c.mapM (fun p => corpus[p]?) = some qs ∧ qs.map some = c.map (fun p => corpus[p]?) := by
  induction c with
  | nil => exact ⟨[], rfl, rfl⟩
  | cons p c ih =>
    obtain ⟨qs, h1, h2⟩ := ih fun x hx => h x (by simp [hx])
    have hlt : p < corpus.length := h p (by simp)
    have hp : corpus[p]? = some corpus[p] := List.getElem?_eq_getElem hlt
    refine ⟨corpus[p] :: qs, ?_, ?_⟩
    · rw [List.mapM_cons, hp, h1]
      rfl
    · rw [List.map_cons, List.map_cons, hp, h2]

/-- Documents by their positions. -/
def docsAt {D : Type} (corpus : List D) (c : List Nat) : List D := c.filterMap fun p => corpus[p]?

theorem docsAt_eq {D : Type} (corpus : List D) (c : List Nat) (h : ∀ p ∈ c, p < corpus.length) :
    c.mapM (fun p => corpus[p]?) = some (docsAt corpus c) ∧ (docsAt corpus c).length = c.length ∧
      ∀ d ∈ docsAt corpus c, d ∈ corpus := by
  obtain ⟨qs, h1, h2⟩ := positions_get corpus c h
  have : docsAt corpus c = qs := by
    unfold docsAt
    have : c.filterMap (fun p => corpus[p]?) = (c.map fun p => corpus[p]?).filterMap id := by
      rw [List.filterMap_map]; rfl
    rw [this, ← h2, List.filterMap_map]
    simp
  rw [this]
  refine ⟨h1, ?_, ?_⟩
  · have := congrArg List.length h2
    simpa using this
  · intro d hd
    rw [← this] at hd
    obtain ⟨p, -, hp⟩ := List.mem_filterMap.1 hd
    exact List.mem_of_getElem? hp

theorem docsAt_range {D : Type} (corpus : List D) : docsAt corpus (List.range corpus.length) = corpus := by
  obtain ⟨h1, h2, -⟩ := docsAt_eq corpus (List.range corpus.length) fun p hp => List.mem_range.1 hp
  obtain ⟨qs, h3, h4⟩ := positions_get corpus (List.range corpus.length) fun p hp => List.mem_range.1 hp
  rw [h1, Option.some.injEq] at h3
  rw [h3]
  have : corpus.map some = (List.range corpus.length).map fun p => corpus[p]? := by
    apply List.ext_getElem
    · simp
    · intro i h1 h2
      simp
  rw [← this] at h4
  exact (List.map_injective_iff.2 (Option.some_injective _)) h4

theorem docsAt_append {D : Type} (corpus : List D) (a b : List Nat) :
    docsAt corpus (a ++ b) = docsAt corpus a ++ docsAt corpus b := by
  unfold docsAt
  rw [List.filterMap_append]

theorem mem_chunks {α : Type} {k : Nat} (hk : 0 < k) {l c : List α} (hc : c ∈ Chunk.chunks k l) :
    c ≠ [] ∧ ∀ x ∈ c, x ∈ l := by
  refine ⟨?_, ?_⟩
  · induction l using Chunk.chunk_ind hk with
    | h0 => simp [Chunk.chunks_nil] at hc
    | h1 l hl ih =>
      rw [Chunk.chunks_cons hk hl, List.mem_cons] at hc
      rcases hc with rfl | hc
      · intro h
        rw [List.take_eq_nil_iff] at h
        rcases h with h | h
        · omega
        · exact hl h
      · exact ih hc
  · intro x hx
    have := Chunk.C15_concat hk (l := l)
    rw [← this]
    exact List.mem_flatten.2 ⟨c, hc, hx⟩

/-- **C120.** Iterating over a soft cosine index yields for every document, in order, its soft cosine
similarities to all documents (with `num_best`: the best), for every chunk size above 1. -/
theorem C120_soft_iter {S : Nat → Nat → ℝ} {n : Nat} (hS : SoftMatrix S n) {corpus : List Doc}
    (hc : ∀ d ∈ corpus, SoftDoc n d) (numBest : Option Int) (chunksize : Nat) (hk : 1 < chunksize) :
    sIterChunks srt part (softSims S n corpus) numBest chunksize corpus.length =
      .ok (corpus.map fun q => .ans (reply srt part numBest (corpus.map (softCosine S n q)))) := by
  unfold sIterChunks
  have hk0 : 0 < chunksize := by omega
  have hch : ∀ c ∈ Chunk.chunks chunksize (List.range corpus.length),
      sChunk srt part (softSims S n corpus) numBest c
      = .ok ((docsAt corpus c).map fun q =>
          Item.ans (reply srt part numBest (corpus.map (softCosine S n q)))) := by
    intro c hmem
    obtain ⟨hne, hin⟩ := mem_chunks hk0 hmem
    have hlt : ∀ p ∈ c, p < corpus.length := fun p hp => List.mem_range.1 (hin p hp)
    obtain ⟨g1, g2, g3⟩ := docsAt_eq corpus c hlt
    have h0 : corpus ≠ [] := by
      rintro rfl
      cases c with
      | nil => exact hne rfl
      | cons p _ => exact absurd (hlt p (by simp)) (by simp)
    have hq0 : docsAt corpus c ≠ [] := by
      intro h
      rw [h] at g2
      exact hne (List.length_eq_zero_iff.1 g2.symm)
    have e1 : softSims S n corpus (.positions c) = softSims S n corpus (.docs (docsAt corpus c)) := by
      unfold softSims
      rw [if_neg h0, if_neg h0]
      cases c with
      | nil => exact absurd rfl hne
      | cons p c =>
        dsimp only
        rw [g1]
        cases hd : docsAt corpus (p :: c) with
        | nil => exact absurd hd hq0
        | cons _ _ => rfl
    have e2 : sGetitem srt part (softSims S n corpus) numBest (.positions c)
        = sGetitem srt part (softSims S n corpus) numBest (.docs (docsAt corpus c)) := by
      unfold sGetitem
      rw [e1]
    unfold sChunk
    rw [e2, C120_soft_documents srt part hS h0 hc hq0 fun q hq => hc q (g3 q hq)]
    dsimp only [sItems]
    rw [items_replies, List.map_map]
    rfl
  rw [mapM_ok hch]
  dsimp only
  congr 1
  have : ∀ l : List (List Nat), (l.map fun c => (docsAt corpus c).map fun q =>
      Item.ans (reply srt part numBest (corpus.map (softCosine S n q)))).flatten
      = (docsAt corpus l.flatten).map fun q =>
        Item.ans (reply srt part numBest (corpus.map (softCosine S n q))) := by
    intro l
    induction l with
    | nil => rfl
    | cons a l ih => rw [List.map_cons, List.flatten_cons, ih, List.flatten_cons, docsAt_append, List.map_append]
  rw [this, Chunk.C15_concat hk0, docsAt_range]

/-- **C120.** Of the documents with words each is among its own best matches: its similarity with itself is 1
and no similarity is larger. -/
theorem C120_soft_self {S : Nat → Nat → ℝ} {n : Nat} (hS : SoftMatrix S n) {q d : Doc}
    (hq : Termsim.Doc n q) (hd : SoftDoc n d) :
    softCosine S n q q = 1 ∧ softCosine S n q d ≤ 1 ∧ softCosine S n q d = softCosine S n d q := by
  rcases hd with rfl | hd
  · rw [(softCosine_nil S n q).1, (softCosine_nil S n q).2]
    exact ⟨(C69_cosine S n hS q q hq hq).2.2, zero_le_one, rfl⟩
  · obtain ⟨h1, h2, -⟩ := C69_cosine S n hS q d hq hd
    exact ⟨(C69_cosine S n hS q q hq hq).2.2, (abs_le.1 h1).2, h2⟩

/-- **C120, findings.** A document without words is answered by the number 0 instead of a list of
similarities (with `num_best`: by no match); an index without documents raises `TypeError` at every query;
and with chunk size 1, iterating over an index of more than one document raises. -/
theorem C120_soft_edges (S : Nat → Nat → ℝ) (n : Nat) (corpus : List Doc) (h0 : corpus ≠ [])
    (q : SQuery Doc) (numBest : Option Int) :
    sGetitem srt part (softSims S n corpus) none (.doc []) = .ok .zero ∧
    (∀ k, sGetitem srt part (softSims S n corpus) (some k) (.doc []) = .ok (.ans (.pairs []))) ∧
    sGetitem srt part (softSims S n []) numBest q = .error .type ∧
    (2 ≤ corpus.length →
      sIterSingly srt part (softSims S n corpus) numBest corpus.length = .error .type) := by
  refine ⟨?_, ?_, ?_, ?_⟩
  · unfold sGetitem softSims
    rw [if_neg h0]
  · intro k
    unfold sGetitem softSims
    rw [if_neg h0]
  · unfold sGetitem softSims
    rw [if_pos rfl]
  · intro hl
    obtain ⟨m, hm⟩ : ∃ m, corpus.length = m + 2 := ⟨corpus.length - 2, by omega⟩
    rw [hm]
    have h1 : ∃ a, sGetitem srt part (softSims S n corpus) numBest (.position 0) = .ok a := by
      unfold sGetitem softSims
      rw [if_neg h0]
      cases numBest <;> exact ⟨_, rfl⟩
    have h2 : sGetitem srt part (softSims S n corpus) numBest (.position 1) = .error .type := by
      unfold sGetitem softSims
      rw [if_neg h0]
    obtain ⟨a, ha⟩ := h1
    unfold sIterSingly
    rw [List.range_succ_eq_map, List.range_succ_eq_map, List.map_cons, List.mapM_cons, List.mapM_cons, ha,
      h2]
    rfl

/-- **C120, finding.** The same document is answered differently alone and in a list: with unrelated words
`0` and `1`, the document `{0}` has similarity 1 with `{0, 1}` if asked alone. -/
theorem C120_soft_alone :
    (∃ x y, x ≠ y ∧
      sGetitem srt part (softSims idMatrix 2 [[(0, 1), (1, 1)]]) none (.doc [(0, 1)])
        = .ok (.ans (.vec [x])) ∧
      sGetitem srt part (softSims idMatrix 2 [[(0, 1), (1, 1)]]) none (.docs [[(0, 1)]])
        = .ok (.ans (.mat [[y]]))) := by
  obtain ⟨h1, h2, h3, h4⟩ := C69_mixed_wrong
  refine ⟨1, 1 / √2, Ne.symm h4, ?_, ?_⟩
  · unfold sGetitem softSims
    rw [if_neg (by simp)]
    dsimp only
    rw [List.mapM_cons, h1]
    rfl
  · unfold sGetitem softSims softRows
    rw [if_neg (by simp)]
    dsimp only
    rw [List.mapM_cons, List.mapM_cons, h3]
    rfl

/-! ## Word mover's distance -/

variable {T : Type}

/-- **C120.** A document is answered by its similarities to all documents; so is each of a list of at least
two documents; the empty list is a document without words. -/
theorem C120_wmd_query (dist : List T → List T → WithTop ℝ) (corpus : List (List T)) (numBest : Option Int)
    (q : List T) (qs : List (List T)) (hq : 2 ≤ qs.length) :
    sGetitem srt part (wmdSims dist corpus) numBest (.doc q) =
      .ok (.ans (reply srt part numBest (corpus.map fun d => wmdSim (dist d q)))) ∧
    sGetitem srt part (wmdSims dist corpus) numBest (.docs qs) =
      .ok (.ans (replies srt part numBest (qs.map fun q => corpus.map fun d => wmdSim (dist d q)))) ∧
    sGetitem srt part (wmdSims dist corpus) numBest (.docs []) =
      sGetitem srt part (wmdSims dist corpus) numBest (.doc []) := by
  refine ⟨?_, ?_, rfl⟩
  · unfold sGetitem wmdSims wmdRows
    dsimp only
    rw [clip_vec]
  · unfold sGetitem wmdSims
    match qs, hq with
    | a :: b :: rest, _ =>
      dsimp only [wmdRows]
      rw [clip_mat]

/-- **C120, finding.** A list of one document is answered like the document, not by a list of one answer. -/
theorem C120_wmd_one (dist : List T → List T → WithTop ℝ) (corpus : List (List T)) (numBest : Option Int)
    (q : List T) :
    sGetitem srt part (wmdSims dist corpus) numBest (.docs [q]) =
      sGetitem srt part (wmdSims dist corpus) numBest (.doc q) := rfl

/-- **C120.** The similarity is between 0 and 1, 0 exactly for infinite distance, 1 exactly for distance 0,
and larger exactly when the distance is smaller. -/
theorem C120_wmd_similarity (x y : WithTop ℝ) (hx : 0 ≤ x) (hy : 0 ≤ y) :
    0 ≤ wmdSim x ∧ wmdSim x ≤ 1 ∧ (wmdSim x = 0 ↔ x = ⊤) ∧ (wmdSim x = 1 ↔ x = 0) ∧
      (wmdSim x < wmdSim y ↔ y < x) := by
  have key : ∀ a : ℝ, 0 ≤ (a : WithTop ℝ) → 0 ≤ a := fun a h => by exact_mod_cast h
  cases x with
  | top =>
    have h0 : wmdSim (⊤ : WithTop ℝ) = 0 := rfl
    rw [h0]
    refine ⟨le_refl _, zero_le_one, by simp, by simp, ?_⟩
    cases y with
    | top => simp [h0]
    | coe b =>
      have hb := key b hy
      have : wmdSim (b : WithTop ℝ) = 1 / (1 + b) := rfl
      rw [this]
      exact ⟨fun _ => WithTop.coe_lt_top b, fun _ => by positivity⟩
  | coe a =>
    have ha := key a hx
    have h1 : wmdSim (a : WithTop ℝ) = 1 / (1 + a) := rfl
    have hp : 0 < 1 + a := by linarith
    rw [h1]
    refine ⟨by positivity, ?_, ?_, ?_, ?_⟩
    · rw [div_le_one hp]; linarith
    · constructor
      · intro h
        exact absurd h (by positivity)
      · intro h; exact absurd h (WithTop.coe_ne_top)
    · rw [div_eq_one_iff_eq (ne_of_gt hp)]
      constructor
      · intro h
        have : a = 0 := by linarith
        rw [this]; rfl
      · intro h
        have : a = 0 := by exact_mod_cast h
        rw [this, add_zero]
    · cases y with
      | top =>
        have h0 : wmdSim (⊤ : WithTop ℝ) = 0 := rfl
        rw [h0]
        constructor
        · intro h
          exact absurd h (not_lt.2 (by positivity))
        · intro h
          exact absurd h (not_lt.2 le_top)
      | coe b =>
        have hb := key b hy
        have hb' : 0 < 1 + b := by linarith
        have : wmdSim (b : WithTop ℝ) = 1 / (1 + b) := rfl
        rw [this, one_div_lt_one_div hp hb', WithTop.coe_lt_coe]
        constructor <;> intro h <;> linarith

/-- **C120.** With `num_best` the answer lists documents by non-decreasing distance, and no document that is
left out is nearer than one that is listed, unless its similarity is at most a billionth. -/
theorem C120_wmd_best (hs : SortOk srt) (hp : PartOk part) (dist : List T → List T → WithTop ℝ)
    (hdist : ∀ a b, 0 ≤ dist a b) (corpus : List (List T)) (q : List T) (k : Int) :
    ∃ r, sGetitem srt part (wmdSims dist corpus) (some k) (.doc q) = .ok (.ans (.pairs r)) ∧
      (∀ p ∈ r, ∃ d, corpus[p.1]? = some d ∧ p.2 = wmdSim (dist d q)) ∧ (r.map (·.1)).Nodup ∧
      r.Pairwise (fun p p' => ∀ d d', corpus[p.1]? = some d → corpus[p'.1]? = some d' →
        dist d q ≤ dist d' q) ∧
      ∀ j d, corpus[j]? = some d → j ∉ r.map (·.1) → wmdSim (dist d q) ≤ 1 / 10 ^ 9 ∨
        ∀ p ∈ r, ∀ d', corpus[p.1]? = some d' → dist d' q ≤ dist d q := by
  obtain ⟨r, h1, h2, h3, h4, h5, h6⟩ := C109_num_best srt part hs hp
    (corpus.map fun d => wmdSim (dist d q)) k
  have hle : ∀ a b : WithTop ℝ, 0 ≤ a → 0 ≤ b → |wmdSim a| ≤ |wmdSim b| → b ≤ a := by
    intro a b ha hb h
    rw [abs_of_nonneg (C120_wmd_similarity a b ha hb).1, abs_of_nonneg (C120_wmd_similarity b a hb ha).1] at h
    by_contra hc
    exact absurd ((C120_wmd_similarity b a hb ha).2.2.2.2.2 (not_le.1 hc)) (not_lt.2 h)
  have hval : ∀ p ∈ r, ∀ d, corpus[p.1]? = some d → p.2 = wmdSim (dist d q) := by
    intro p hp d hd
    have := (h2 p hp).1
    rw [List.getElem?_map, hd] at this
    exact (Option.some.inj this).symm
  refine ⟨r, ?_, ?_, h3, ?_, ?_⟩
  · rw [(C120_wmd_query srt part dist corpus (some k) q [[], []] (by simp)).1, h1]
  · intro p hp
    have := (h2 p hp).1
    rw [List.getElem?_map, Option.map_eq_some_iff] at this
    obtain ⟨d, hd, e⟩ := this
    exact ⟨d, hd, e.symm⟩
  · refine List.Pairwise.imp_of_mem ?_ h5
    intro p p' hp hp' h d d' hd hd'
    rw [hval p hp d hd, hval p' hp' d' hd'] at h
    exact hle _ _ (hdist _ _) (hdist _ _) h
  · intro j d hd hj
    have := h6 j (wmdSim (dist d q)) (by rw [List.getElem?_map, hd]; rfl) hj
    rw [abs_of_nonneg (C120_wmd_similarity _ _ (hdist d q) (hdist d q)).1] at this
    rcases this with h | h
    · exact Or.inl h
    · right
      intro p hp d' hd'
      have := h p hp
      rw [hval p hp d' hd', ← abs_of_nonneg (C120_wmd_similarity _ _ (hdist d q) (hdist d q)).1] at this
      exact hle _ _ (hdist _ _) (hdist _ _) this

/-- What is yielded for a chunk of positions. -/
noncomputable def wmdYield (dist : List T → List T → WithTop ℝ) (corpus : List (List T))
    (numBest : Option Int) (c : List Nat) : List Item :=
  if c.length = 1 then (docsAt corpus c).flatMap fun q =>
    items (reply srt part numBest (corpus.map fun d => wmdSim (dist d q)))
  else (docsAt corpus c).map fun q =>
    Item.ans (reply srt part numBest (corpus.map fun d => wmdSim (dist d q)))

theorem wmd_chunk (dist : List T → List T → WithTop ℝ) (corpus : List (List T)) (numBest : Option Int)
    (c : List Nat) (hlt : ∀ p ∈ c, p < corpus.length) (hne : c ≠ []) :
    sChunk srt part (wmdSims dist corpus) numBest c
    = .ok (wmdYield srt part dist corpus numBest c) := by
  obtain ⟨g1, g2, g3⟩ := docsAt_eq corpus c hlt
  have e1 : wmdSims dist corpus (.positions c) = .ok (.ans (wmdRows dist corpus (docsAt corpus c))) := by
    unfold wmdSims
    dsimp only
    rw [g1]
  unfold sChunk sGetitem
  rw [e1]
  dsimp only
  unfold wmdYield
  match c, hne with
  | [p], _ =>
    rw [if_pos (by rfl)]
    obtain ⟨q, hq⟩ := List.length_eq_one_iff.1 g2
    rw [hq]
    dsimp only [wmdRows]
    rw [clip_vec]
    simp [sItems]
  | p :: p' :: c, _ =>
    rw [if_neg (by simp)]
    cases hd : docsAt corpus (p :: p' :: c) with
    | nil => rw [hd] at g2; simp at g2
    | cons a l =>
      cases l with
      | nil => rw [hd] at g2; simp at g2
      | cons b l =>
        dsimp only [wmdRows]
        rw [clip_mat]
        dsimp only [sItems]
        rw [items_replies, List.map_map]
        rfl

theorem wmd_iter (dist : List T → List T → WithTop ℝ) (corpus : List (List T)) (numBest : Option Int)
    (chunksize : Nat) (hk : 1 < chunksize) :
    sIterChunks srt part (wmdSims dist corpus) numBest chunksize corpus.length =
      .ok ((Chunk.chunks chunksize (List.range corpus.length)).flatMap
        (wmdYield srt part dist corpus numBest)) := by
  unfold sIterChunks
  rw [mapM_ok (g := wmdYield srt part dist corpus numBest) fun c hmem => by
    obtain ⟨hne, hin⟩ := mem_chunks (show 0 < chunksize by omega) hmem
    exact wmd_chunk srt part dist corpus numBest c (fun p hp => List.mem_range.1 (hin p hp)) hne]
  dsimp only
  rw [List.flatMap_def]

/-- **C120.** Iterating over a word mover's index yields for every document, in order, its similarities to
all documents (with `num_best`: the best), if the number of documents does not leave remainder 1 when divided
by the chunk size. -/
theorem C120_wmd_iter (dist : List T → List T → WithTop ℝ) (corpus : List (List T)) (numBest : Option Int)
    (chunksize : Nat) (hk : 1 < chunksize) (hm : corpus.length % chunksize ≠ 1) :
    sIterChunks srt part (wmdSims dist corpus) numBest chunksize corpus.length =
      .ok (corpus.map fun q => .ans (reply srt part numBest (corpus.map fun d => wmdSim (dist d q)))) := by
  rw [wmd_iter srt part dist corpus numBest chunksize hk]
  congr 1
  have hno := (Docsim.chunks_len_one chunksize hk (List.range corpus.length)).not.2 (by rwa [List.length_range])
  push Not at hno
  have : ∀ l : List (List Nat), (∀ c ∈ l, c.length ≠ 1) → (l.flatMap (wmdYield srt part dist corpus numBest))
      = (docsAt corpus l.flatten).map fun q =>
        Item.ans (reply srt part numBest (corpus.map fun d => wmdSim (dist d q))) := by
    intro l
    induction l with
    | nil => intro _; rfl
    | cons a l ih =>
      intro h
      rw [List.flatMap_cons, ih fun c hc => h c (by simp [hc]), List.flatten_cons, docsAt_append,
        List.map_append]
      congr 1
      unfold wmdYield
      rw [if_neg (h a (by simp))]
  rw [this _ hno, Chunk.C15_concat (by omega), docsAt_range]

/-- **C120, finding.** Otherwise the answer for the last document is not yielded, but its numbers (with
`num_best`: its pairs) are, one by one. -/
theorem C120_wmd_iter_broken (dist : List T → List T → WithTop ℝ) (init : List (List T)) (last : List T)
    (numBest : Option Int) (chunksize : Nat) (hk : 1 < chunksize)
    (hm : (init ++ [last]).length % chunksize = 1) :
    sIterChunks srt part (wmdSims dist (init ++ [last])) numBest chunksize (init ++ [last]).length =
      .ok ((init.map fun q => .ans (reply srt part numBest
          ((init ++ [last]).map fun d => wmdSim (dist d q)))) ++
        match numBest with
        | none => ((init ++ [last]).map fun d => wmdSim (dist d last)).map .scalar
        | some k => (full2sparseClipped srt part (1 / 10 ^ 9)
            ((init ++ [last]).map fun d => wmdSim (dist d last)) k).map .pair) := by
  rw [wmd_iter srt part dist _ numBest chunksize hk]
  congr 1
  generalize hcor : init ++ [last] = corpus at *
  have hdoc : ∀ p < corpus.length, docsAt corpus [p] = [corpus.getD p []] := by
    intro p hp
    unfold docsAt
    rw [List.getD_eq_getElem?_getD, List.getElem?_eq_getElem hp]
    simp [List.getElem?_eq_getElem hp]
  have hbig : ∀ p, ¬ p < corpus.length → docsAt corpus [p] = [] := by
    intro p hp
    unfold docsAt
    simp [List.getElem?_eq_none (Nat.le_of_not_lt hp)]
  -- the items of one position
  have key := flatMap_chunks hk
    (fun p => (docsAt corpus [p]).map fun q =>
      Item.ans (reply srt part numBest (corpus.map fun d => wmdSim (dist d q))))
    (fun p => [(docsAt corpus [p]).flatMap fun q =>
      items (reply srt part numBest (corpus.map fun d => wmdSim (dist d q)))])
    (fun c => if c.length = 1 then [wmdYield srt part dist corpus numBest c]
      else c.map fun p => (docsAt corpus [p]).map fun q =>
        Item.ans (reply srt part numBest (corpus.map fun d => wmdSim (dist d q))))
    (fun x => by rw [if_pos (by rfl)]; unfold wmdYield; rw [if_pos (by rfl)])
    (fun c hc => by rw [if_neg hc]) (List.range corpus.length)
  have hlen : corpus.length = init.length + 1 := by rw [← hcor]; simp
  have hk2 := key.2 (List.range init.length) init.length (by rw [hlen, List.range_succ])
    (by rw [List.length_range]; exact hm)
  have hflat : ∀ l : List (List Nat),
      l.flatMap (wmdYield srt part dist corpus numBest)
        = (l.flatMap fun c => if c.length = 1 then [wmdYield srt part dist corpus numBest c]
            else c.map fun p => (docsAt corpus [p]).map fun q =>
              Item.ans (reply srt part numBest (corpus.map fun d => wmdSim (dist d q)))).flatten := by
    intro l
    induction l with
    | nil => rfl
    | cons a l ih =>
      rw [List.flatMap_cons, List.flatMap_cons, List.flatten_append, ih]
      congr 1
      by_cases h1 : a.length = 1
      · rw [if_pos h1]; simp
      · rw [if_neg h1]
        unfold wmdYield
        rw [if_neg h1]
        clear h1
        induction a with
        | nil => rfl
        | cons p a iha =>
          rw [List.map_cons, List.flatten_cons, ← iha, ← List.map_append, ← docsAt_append]
          rfl
  rw [hflat, hk2, List.flatten_append]
  have hinit : docsAt corpus (List.range init.length) = init := by
    have h1 := docsAt_range corpus
    rw [hlen, List.range_succ, docsAt_append, hdoc _ (by omega)] at h1
    conv_rhs at h1 => rw [← hcor]
    exact (List.append_inj_left' h1 rfl)
  have hlast : docsAt corpus [init.length] = [last] := by
    rw [hdoc _ (by omega), ← hcor]
    simp
  congr 1
  · have : ∀ a : List Nat, (a.map fun p => (docsAt corpus [p]).map fun q =>
        Item.ans (reply srt part numBest (corpus.map fun d => wmdSim (dist d q)))).flatten
        = (docsAt corpus a).map fun q =>
          Item.ans (reply srt part numBest (corpus.map fun d => wmdSim (dist d q))) := by
      intro a
      induction a with
      | nil => rfl
      | cons p a iha =>
        rw [List.map_cons, List.flatten_cons, iha, ← List.map_append, ← docsAt_append]
        rfl
    rw [this, hinit]
  · rw [hlast]
    cases numBest <;> simp [reply, items]

/-- **C120, finding.** With chunk size 1, iterating over any index with documents raises. -/
theorem C120_wmd_iter_one (dist : List T → List T → WithTop ℝ) (corpus : List (List T)) (h : corpus ≠ [])
    (numBest : Option Int) :
    sIterSingly srt part (wmdSims dist corpus) numBest corpus.length = .error .type := by
  obtain ⟨m, hm⟩ : ∃ m, corpus.length = m + 1 :=
    ⟨corpus.length - 1, by have := List.length_pos_iff.2 h; omega⟩
  unfold sIterSingly
  rw [hm, List.range_succ_eq_map, List.mapM_cons]
  rfl

/-- **C120.** With the word mover's distance of C94: the similarity of two documents is 0 if one of them has
no known word, and does not depend on which of them is the query. -/
theorem C120_wmd_distance [DecidableEq T] {K : ℕ} {E : Wmd.Env T K} (hE : E.Ok) (a b : List T) :
    ((a.filter E.known = [] ∨ b.filter E.known = []) → wmdSim (Wmd.wmdistance E a b) = 0) ∧
      wmdSim (Wmd.wmdistance E a b) = wmdSim (Wmd.wmdistance E b a) ∧ 0 ≤ Wmd.wmdistance E a b := by
  refine ⟨?_, ?_, ?_⟩
  · intro h
    rw [(Wmd.C94_value hE a b).1 h]
    rfl
  · rw [Wmd.C94_symmetric hE]
  · by_cases h : Wmd.wmdistance E a b = ⊤
    · rw [h]; exact le_top
    · exact (Wmd.C94_bounds hE a b h).2.1

/-! ### Examples -/

example : ∃ (S : Nat → Nat → ℝ) (corpus : List Doc), SoftMatrix S 2 ∧ corpus ≠ [] ∧
    (∀ d ∈ corpus, SoftDoc 2 d) ∧ [] ∈ corpus ∧ [(0, 1), (1, 2)] ∈ corpus := by
  refine ⟨idMatrix, [[], [(0, 1), (1, 2)]], idMatrix_soft 2, by simp, ?_, by simp, by simp⟩
  intro d hd
  simp only [List.mem_cons, List.not_mem_nil, or_false] at hd
  rcases hd with rfl | rfl
  · exact Or.inl rfl
  · exact Or.inr ⟨by simp, by simp, by simp, by simp⟩

end Verif.MatSim
