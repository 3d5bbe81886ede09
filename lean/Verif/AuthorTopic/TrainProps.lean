import Verif.AuthorTopic.TrainModel
import Verif.AuthorTopic.InferProps
import Verif.Lda.TrainProps
import Verif.Lda.UpdateProps

/-!
# C169: what training of the author-topic model does with the documents
-/

namespace Verif.AuthorTrain

open Verif.AuthorInfer Verif.LdaInfer Verif.LdaBound Verif.LdaEm Verif.Lda Verif.Chunk

variable {A T W : Type} [DecidableEq A] [Fintype T] [Fintype W] [DecidableEq W]

/-! ## Specification -/

/-- How often a word occurs in the documents. -/
noncomputable def occurrences (docs : List (List A × List (W × ℝ))) (w : W) : ℝ :=
  (docs.map fun d => ((d.2.filter fun x => x.1 = w).map Prod.snd).sum).sum

/-- Documents that have authors and are bags of words: no word twice, whole counts. -/
structure Fair (docs : List (List A × List (W × ℝ))) : Prop where
  authors : ∀ d ∈ docs, d.1 ≠ []
  words : ∀ d ∈ docs, (d.2.map Prod.fst).Nodup
  counts : ∀ d ∈ docs, ∀ x ∈ d.2, ∃ n : ℕ, x.2 = n

/-- The weight of a word over all topics in the statistics of a model. -/
noncomputable def weight (t : ATr A T W) (w : W) : ℝ := ∑ k, t.state.sstats (k, w)

/-- What is learnt for `alpha` stays positive. -/
def Learn.Pos (l : Learn T W) : Prop :=
  ∀ a rows rho, (∀ k, 0 < a k) → ∀ k, 0 < l.alpha a rows rho k

/-- The share of the old weights that survives `passes` passes of an update of a model that had counted `u` documents
    before and is now given `n` documents, all in one M step per pass. -/
noncomputable def kept (c : Cfg) (n u passes : ℕ) : ℝ :=
  ((List.range passes).map fun p : ℕ =>
    1 - (c.offset + p + ((if p = 0 then u else u + n : ℕ) : ℝ) / (min n c.chunksize : ℕ)) ^ (-c.decay)).prod

/-! ## Lemmas -/

theorem trunc_nat (n : ℕ) : trunc (n : ℝ) = n := by
  unfold trunc
  rw [if_pos (Nat.cast_nonneg n), Int.floor_natCast, Int.cast_natCast]

theorem counts_fair {docs : List (List A × List (W × ℝ))} (h : Fair docs) :
    ∀ d ∈ docs, AuthorInfer.counts d.2 = d.2 := by
  intro d hd
  unfold AuthorInfer.counts
  conv_rhs => rw [← List.map_id d.2]
  refine List.map_congr_left fun x hx => ?_
  obtain ⟨n, hn⟩ := h.counts d hd x hx
  rw [id, hn, trunc_nat, ← hn]

theorem occurrences_eq {docs : List (List A × List (W × ℝ))} (h : Fair docs) (w : W) :
    (docs.map fun d => lastCount (AuthorInfer.counts d.2) w).sum = occurrences docs w := by
  unfold occurrences
  refine congrArg List.sum (List.map_congr_left fun d hd => ?_)
  rw [counts_fair h d hd, lastCount_eq_total _ (h.words d hd)]
  rfl

theorem occurrences_append (a b : List (List A × List (W × ℝ))) (w : W) :
    occurrences (a ++ b) w = occurrences a w + occurrences b w := by
  unfold occurrences
  rw [List.map_append, List.sum_append]

theorem Fair.sub {a b : List (List A × List (W × ℝ))} (h : Fair b) (hs : ∀ d ∈ a, d ∈ b) : Fair a :=
  ⟨fun d hd => h.authors d (hs d hd), fun d hd => h.words d (hs d hd), fun d hd => h.counts d (hs d hd)⟩

theorem Fair.nonneg {a : List (List A × List (W × ℝ))} (h : Fair a) : ∀ d ∈ a, ∀ x ∈ d.2, (0 : ℝ) ≤ x.2 := by
  intro d hd x hx
  obtain ⟨n, hn⟩ := h.counts d hd x hx
  rw [hn]; exact Nat.cast_nonneg n

theorem esteps (c : Cfg) (he : c.eps = 0) [Nonempty T] (docs : A → ℕ) (l : Learn T W) (hl : l.Pos) (pass : ℕ)
    (g : List (List (List A × List (W × ℝ)))) (hg : Fair g.flatten) :
    ∀ (t : ATr A T W) (s : State (T × W) ℝ), (∀ k, 0 < t.alpha.1 k) →
    let e := g.foldl (estep (numerics c docs l pass) pass) (t, s)
    e.1.state = t.state ∧ e.1.numUpdates = t.numUpdates ∧ (∀ k, 0 < e.1.alpha.1 k) ∧
    e.2.numdocs = s.numdocs + g.flatten.length ∧
    ∀ w, ∑ k, e.2.sstats (k, w) = ∑ k, s.sstats (k, w) + occurrences g.flatten w := by
  induction g with
  | nil => intro t s ht; simp [occurrences, ht]
  | cons d ds ih =>
    intro t s ht
    have hd : Fair d := hg.sub fun x hx => by simp [hx]
    have hds : Fair ds.flatten := hg.sub fun x hx => by
      rw [List.flatten_cons]; exact List.mem_append_right _ hx
    obtain ⟨i1, i2, i3, i4, i5⟩ := ih hds
      (estep (numerics c docs l pass) pass (t, s) d).1 (estep (numerics c docs l pass) pass (t, s) d).2
      (hl _ _ _ ht)
    rw [List.foldl_cons]
    refine ⟨i1, i2, i3, ?_, fun w => ?_⟩
    · rw [i4, List.flatten_cons, List.length_append]
      change s.numdocs + d.length + _ = _
      omega
    · rw [i5 w, List.flatten_cons, occurrences_append, ← add_assoc, ← occurrences_eq hd]
      congr 1
      have hp : (par c docs t).lda.Pos := ⟨ht, fun _ _ => Real.exp_pos _, he.ge⟩
      have := (C158_statistics (par c docs t) hp
        (LdaTrain.rho c.offset c.decay c.chunksize pass t.numUpdates) t.alpha.2 d hd.nonneg w).2.2 he hd.authors
      rw [← this, ← Finset.sum_add_distrib]
      rfl

/-! ## Theorems -/

/-- One update of the topics, from the documents of the chunks since the last one: the weight of every word moves by the
    learning rate towards its number of occurrences in these documents, stretched to the number of documents the model
    believes in.  Within the chunks no word is lost or counted twice, whatever the authors and however many a document
    has. -/
theorem C169_step [Nonempty T] (c : Cfg) (he : c.eps = 0) (docs : A → ℕ) (l : Learn T W) (hl : l.Pos) (pass : ℕ)
    (t : ATr A T W) (ht : ∀ k, 0 < t.alpha.1 k) (hn : 0 < t.state.numdocs)
    (g : List (List (List A × List (W × ℝ)))) (hg : Fair g.flatten) (hne : g.flatten ≠ []) (w : W) :
    let rho := (c.offset + pass + t.numUpdates / c.chunksize) ^ (-c.decay)
    weight (mstepOn (numerics c docs l pass) pass t g) w =
      (1 - rho) * weight t w + rho * (t.state.numdocs / g.flatten.length * occurrences g.flatten w) := by
  intro rho
  have hes := esteps c he docs l hl pass g hg t State.zero ht
  obtain ⟨e1, e2, e3, e4, e5⟩ := hes
  have h0 : ∑ k : T, (State.zero : State (T × W) ℝ).sstats (k, w) = 0 := by simp [State.zero]
  have e5w := e5 w
  rw [h0, zero_add] at e5w
  have hz : (State.zero : State (T × W) ℝ).numdocs = 0 := rfl
  rw [hz, zero_add] at e4
  have hpos : 0 < g.flatten.length := List.length_pos_iff.2 hne
  set e := g.foldl (estep (numerics c docs l pass) pass) (t, State.zero) with hE
  have hm : (mstepOn (numerics c docs l pass) pass t g).state = t.state.blend rho e.2 none := by
    change e.1.state.blend (LdaTrain.rho c.offset c.decay c.chunksize pass e.1.numUpdates) e.2 none = _
    rw [e1, e2]; rfl
  have hb := (C45_blend t.state e.2 rho none hn (by rw [e4]; exact hpos)).2
  have hn' : (t.state.numdocs : ℝ) ≠ 0 := by exact_mod_cast hn.ne'
  have hg' : (g.flatten.length : ℝ) ≠ 0 := by exact_mod_cast hpos.ne'
  unfold weight
  rw [hm, ← e5w]
  calc ∑ k, (t.state.blend rho e.2 none).sstats (k, w)
      = ∑ k, ((1 - rho) * t.state.sstats (k, w)
          + rho * (t.state.numdocs / g.flatten.length) * e.2.sstats (k, w)) := by
        refine Finset.sum_congr rfl fun k _ => ?_
        rw [hb (k, w), e4, Option.getD_none]
        field_simp
    _ = _ := by
        rw [Finset.sum_add_distrib, ← Finset.mul_sum, ← Finset.mul_sum]
        ring

/-- A pass updates the topics from groups of chunks that together are all the documents, each once and in order:
    `update_every * numworkers` chunks each but for the last group, or all of them in batch mode. -/
theorem C169_pass (c : Cfg) (hc : 0 < c.chunksize) (docs : A → ℕ) (l : Learn T W) (every : ℕ)
    (corpus : List (List A × List (W × ℝ))) (t : ATr A T W) (pass : ℕ) :
    ∃ groups : List (List (List (List A × List (W × ℝ)))), groups.flatten.flatten = corpus ∧
      groups.flatten = chunks c.chunksize corpus ∧ (∀ g ∈ groups, g ≠ []) ∧
      (0 < every → ∀ g ∈ groups.dropLast, g.length = every) ∧ (0 < every → ∀ g ∈ groups, g.length ≤ every) ∧
      (every = 0 → groups.length ≤ 1) ∧
      authorPass c docs l every corpus t pass = groups.foldl (mstepOn (numerics c docs l pass) pass) t := by
  obtain ⟨groups, h1, h2, h3, h4, h5, h6⟩ := C46_pass (numerics c docs l pass) every c.chunksize corpus t pass
  exact ⟨groups, by rw [h1, C15_concat hc], h1, h2, h3, h4, h5, h6⟩

theorem pass_counts (c : Cfg) (hc : 0 < c.chunksize) (docs : A → ℕ) (l : Learn T W) (every : ℕ)
    (corpus : List (List A × List (W × ℝ))) (t : ATr A T W) (pass : ℕ) :
    (authorPass c docs l every corpus t pass).state.numdocs = t.state.numdocs ∧
    (authorPass c docs l every corpus t pass).numUpdates =
      if pass > 0 then t.numUpdates else t.numUpdates + corpus.length := by
  obtain ⟨groups, h1, h2, -, -, -, -, h⟩ := C169_pass c hc docs l every corpus t pass
  rw [h]
  obtain ⟨a, b⟩ := mstepOn_counts (numerics c docs l pass) pass groups t
  refine ⟨a, b.trans ?_⟩
  rw [h2, chunks_total _ hc]

theorem passes_counts (c : Cfg) (hc : 0 < c.chunksize) (docs : A → ℕ) (l : Learn T W) (every : ℕ)
    (corpus : List (List A × List (W × ℝ))) (t : ATr A T W) (n : ℕ) :
    ((List.range n).foldl (authorPass c docs l every corpus) t).state.numdocs = t.state.numdocs ∧
    ((List.range n).foldl (authorPass c docs l every corpus) t).numUpdates =
      if n = 0 then t.numUpdates else t.numUpdates + corpus.length := by
  induction n with
  | zero => simp
  | succ n ih =>
    rw [List.range_succ, List.foldl_append, List.foldl_cons, List.foldl_nil]
    obtain ⟨a, b⟩ := pass_counts c hc docs l every corpus
      ((List.range n).foldl (authorPass c docs l every corpus) t) n
    refine ⟨a.trans ih.1, b.trans ?_⟩
    rw [ih.2]
    rcases Nat.eq_zero_or_pos n with rfl | hn
    · simp
    · simp [hn, hn.ne']

/-- An update counts its documents once, however many passes it makes. -/
theorem C169_counts (c : Cfg) (hc : 0 < c.chunksize) (docs : A → ℕ) (l : Learn T W) (every passes : ℕ)
    (corpus : List (List A × List (W × ℝ))) (hne : corpus ≠ []) (hp : 0 < passes) (t : ATr A T W) :
    (authorUpdate c docs l every passes corpus t).state.numdocs = t.state.numdocs + corpus.length ∧
    (authorUpdate c docs l every passes corpus t).numUpdates = t.numUpdates + corpus.length := by
  have hlen : 0 < corpus.length := List.length_pos_iff.2 hne
  obtain ⟨a, b⟩ := passes_counts { c with chunksize := min corpus.length c.chunksize }
    (Nat.lt_min.2 ⟨hlen, hc⟩) docs l every corpus
    { t with state := { t.state with numdocs := t.state.numdocs + corpus.length } } passes
  exact ⟨a, b.trans (by rw [if_neg hp.ne'])⟩

theorem pass_alpha [Nonempty T] (c : Cfg) (he : c.eps = 0) (hc : 0 < c.chunksize) (docs : A → ℕ) (l : Learn T W)
    (hl : l.Pos) (corpus : List (List A × List (W × ℝ))) (hf : Fair corpus) (hne : corpus ≠ []) (t : ATr A T W)
    (ht : ∀ k, 0 < t.alpha.1 k) (pass : ℕ) :
    (∀ k, 0 < (authorPass c docs l 0 corpus t pass).alpha.1 k) ∧
    (0 < t.state.numdocs → ∀ w, weight (authorPass c docs l 0 corpus t pass) w =
      (1 - LdaTrain.rho c.offset c.decay c.chunksize pass t.numUpdates) * weight t w +
        LdaTrain.rho c.offset c.decay c.chunksize pass t.numUpdates *
          (t.state.numdocs / corpus.length * occurrences corpus w)) := by
  obtain ⟨groups, h1, h2, h3, -, -, h6, h⟩ := C169_pass c hc docs l 0 corpus t pass
  have hg : ∃ g, groups = [g] := by
    match groups, h6 rfl, h1 with
    | [], _, h1 => exact absurd h1.symm hne
    | [g], _, _ => exact ⟨g, rfl⟩
    | _ :: _ :: _, h, _ => simp at h
  obtain ⟨g, rfl⟩ := hg
  have hfl : g.flatten = corpus := by simpa using h1
  rw [h, List.foldl_cons, List.foldl_nil]
  have hfg : Fair g.flatten := by rw [hfl]; exact hf
  refine ⟨?_, fun hn w => ?_⟩
  · exact (esteps c he docs l hl pass g hfg t State.zero ht).2.2.1
  · have := C169_step c he docs l hl pass t ht hn g hfg (by rw [hfl]; exact hne) w
    rw [hfl] at this
    exact this

/-- In batch mode an update takes the weight of every word closer to its number of occurrences times the number of
    documents the model has counted over the number it was given now; the part of the distance that is left is the product of
    what each pass leaves. -/
theorem C169_batch [Nonempty T] (c : Cfg) (he : c.eps = 0) (hc : 0 < c.chunksize) (docs : A → ℕ) (l : Learn T W)
    (hl : l.Pos) (passes : ℕ) (corpus : List (List A × List (W × ℝ))) (hf : Fair corpus) (hne : corpus ≠ [])
    (t : ATr A T W) (ht : ∀ k, 0 < t.alpha.1 k) (w : W) :
    let target := ((t.state.numdocs + corpus.length : ℕ) : ℝ) / corpus.length * occurrences corpus w
    weight (authorUpdate c docs l 0 passes corpus t) w - target =
      kept c corpus.length t.numUpdates passes * (weight t w - target) ∧
    ∀ k, 0 < (authorUpdate c docs l 0 passes corpus t).alpha.1 k := by
  intro target
  have hlen : 0 < corpus.length := List.length_pos_iff.2 hne
  have hm : 0 < min corpus.length c.chunksize := Nat.lt_min.2 ⟨hlen, hc⟩
  unfold authorUpdate kept
  set c' : Cfg := { c with chunksize := min corpus.length c.chunksize } with hc'
  set t0 : ATr A T W := { t with state := { t.state with numdocs := t.state.numdocs + corpus.length } } with ht0
  have hw0 : weight t w = weight t0 w := rfl
  rw [hw0]
  induction passes with
  | zero => simpa using ht
  | succ n ih =>
    obtain ⟨i1, i2⟩ := ih
    rw [List.range_succ, List.foldl_append, List.foldl_cons, List.foldl_nil, List.map_append, List.prod_append,
      List.map_singleton, List.prod_singleton]
    obtain ⟨a, b⟩ := passes_counts c' hm docs l 0 corpus t0 n
    obtain ⟨p1, p2⟩ := pass_alpha c' he hm docs l hl corpus hf hne
      ((List.range n).foldl (authorPass c' docs l 0 corpus) t0) i2 n
    refine ⟨?_, p1⟩
    rw [p2 (by rw [a]; exact Nat.add_pos_right _ hlen) w, a, b]
    have hU : (if n = 0 then t0.numUpdates else t0.numUpdates + corpus.length)
        = (if n = 0 then t.numUpdates else t.numUpdates + corpus.length) := rfl
    rw [hU]
    have hr : LdaTrain.rho c'.offset c'.decay c'.chunksize n
        (if n = 0 then t.numUpdates else t.numUpdates + corpus.length)
        = (c.offset + n + ((if n = 0 then t.numUpdates else t.numUpdates + corpus.length : ℕ) : ℝ)
            / (min corpus.length c.chunksize : ℕ)) ^ (-c.decay) := rfl
    rw [hr]
    have ht' : ((t0.state.numdocs : ℕ) : ℝ) / corpus.length * occurrences corpus w = target := rfl
    rw [ht', mul_right_comm, ← i1]
    ring

/-- What a pass leaves of the old weights is between nothing and everything; with the default `offset` 1 the first pass
    of a new model leaves nothing. -/
theorem C169_kept (c : Cfg) (ho : 1 ≤ c.offset) (hd : 0 ≤ c.decay) (n u passes : ℕ) :
    0 ≤ kept c n u passes ∧ kept c n u passes ≤ 1 ∧
    (c.offset = 1 → 0 < passes → kept c n 0 passes = 0) ∧
    (0 < c.decay → 0 < n → 0 < c.chunksize → 0 < u → 0 < passes → 0 < kept c n u passes ∧ kept c n u passes < 1) := by
  have base : ∀ (p : ℕ) (v : ℕ), 1 ≤ c.offset + p + (v : ℝ) / (min n c.chunksize : ℕ) := fun p v => by
    have : (0 : ℝ) ≤ (v : ℝ) / (min n c.chunksize : ℕ) := by positivity
    have hp : (0 : ℝ) ≤ p := Nat.cast_nonneg p
    linarith
  have f0 : ∀ p v : ℕ, 0 ≤ 1 - (c.offset + p + (v : ℝ) / (min n c.chunksize : ℕ)) ^ (-c.decay) := fun p v =>
    sub_nonneg.2 (Real.rpow_le_one_of_one_le_of_nonpos (base p v) (by linarith))
  have f1 : ∀ p v : ℕ, 1 - (c.offset + p + (v : ℝ) / (min n c.chunksize : ℕ)) ^ (-c.decay) < 1 := fun p v => by
    have := Real.rpow_pos_of_pos (lt_of_lt_of_le one_pos (base p v)) (-c.decay)
    linarith
  have bnd : ∀ v m, 0 ≤ kept c n v m ∧ kept c n v m ≤ 1 := fun v m => by
    unfold kept
    induction m with
    | zero => simp
    | succ m ih =>
      rw [List.range_succ, List.map_append, List.prod_append, List.map_singleton, List.prod_singleton]
      exact ⟨mul_nonneg ih.1 (f0 _ _), mul_le_one₀ ih.2 (f0 _ _) (f1 _ _).le⟩
  refine ⟨(bnd u passes).1, (bnd u passes).2, fun h1 hp => ?_, fun hd' hn hc hu hp => ?_⟩
  · unfold kept
    refine List.prod_eq_zero (List.mem_map.2 ⟨0, List.mem_range.2 hp, ?_⟩)
    simp [h1]
  · unfold kept
    have hmin : (0 : ℝ) < (min n c.chunksize : ℕ) := by exact_mod_cast Nat.lt_min.2 ⟨hn, hc⟩
    have fpos : ∀ p : ℕ, 0 < 1 - (c.offset + p + ((if p = 0 then u else u + n : ℕ) : ℝ) / (min n c.chunksize : ℕ)) ^ (-c.decay) := by
      intro p
      refine sub_pos.2 (Real.rpow_lt_one_of_one_lt_of_neg ?_ (by linarith))
      have hv : (0 : ℝ) < ((if p = 0 then u else u + n : ℕ) : ℝ) := by
        exact_mod_cast (by split <;> omega : 0 < if p = 0 then u else u + n)
      have := div_pos hv hmin
      have hp : (0 : ℝ) ≤ p := Nat.cast_nonneg p
      linarith
    refine ⟨List.prod_pos (fun x hx => ?_), ?_⟩
    · obtain ⟨p, -, rfl⟩ := List.mem_map.1 hx
      exact fpos p
    · obtain ⟨m, rfl⟩ : ∃ m, passes = m + 1 := ⟨passes - 1, by omega⟩
      have hb := bnd u m
      unfold kept at hb
      rw [List.range_succ, List.map_append, List.prod_append, List.map_singleton, List.prod_singleton]
      exact mul_lt_one_of_nonneg_of_lt_one_right hb.2 (fpos m).le (f1 _ _)

/-- The first batch training of a model with the default `offset`: the weights of every word add up to exactly its
    occurrences. -/
theorem C169_first [Nonempty T] (c : Cfg) (he : c.eps = 0) (hc : 0 < c.chunksize) (ho : c.offset = 1)
    (hd : 0 ≤ c.decay) (docs : A → ℕ) (l : Learn T W) (hl : l.Pos) (passes : ℕ) (hp : 0 < passes)
    (corpus : List (List A × List (W × ℝ))) (hf : Fair corpus) (hne : corpus ≠ [])
    (t : ATr A T W) (ht : ∀ k, 0 < t.alpha.1 k) (h0 : t.state.numdocs = 0) (hu : t.numUpdates = 0) (w : W) :
    weight (authorUpdate c docs l 0 passes corpus t) w = occurrences corpus w := by
  have h := (C169_batch c he hc docs l hl passes corpus hf hne t ht w).1
  have hlen : (corpus.length : ℝ) ≠ 0 := by exact_mod_cast (List.length_pos_iff.2 hne).ne'
  rw [hu, (C169_kept c ho.ge hd corpus.length 0 passes).2.2.1 ho hp, zero_mul, h0, zero_add, div_self hlen, one_mul] at h
  linarith

/-- Finding: `update()` without a corpus, "continue training", counts the documents it already has a second time.  The
    weights then exceed the occurrences of every word, though no document came: they are on their way to twice the
    occurrences.  More passes in the first call do not do this. -/
theorem C169_counted_again [Nonempty T] (c : Cfg) (he : c.eps = 0) (hc : 0 < c.chunksize) (ho : c.offset = 1)
    (hd : 0 < c.decay) (docs : A → ℕ) (l : Learn T W) (hl : l.Pos) (passes passes' : ℕ) (hp : 0 < passes)
    (hp' : 0 < passes') (corpus : List (List A × List (W × ℝ))) (hf : Fair corpus) (hne : corpus ≠ [])
    (t : ATr A T W) (ht : ∀ k, 0 < t.alpha.1 k) (h0 : t.state.numdocs = 0) (hu : t.numUpdates = 0) (w : W)
    (hw : 0 < occurrences corpus w) :
    let t1 := authorUpdate c docs l 0 passes corpus t
    let t2 := authorUpdate c docs l 0 passes' corpus t1
    t2.state.numdocs = 2 * corpus.length ∧
    weight t2 w = (2 - kept c corpus.length corpus.length passes') * occurrences corpus w ∧
    weight t1 w < weight t2 w ∧ weight t2 w < 2 * occurrences corpus w ∧
    weight (authorUpdate c docs l 0 (passes + passes') corpus t) w = weight t1 w := by
  intro t1 t2
  have hlen : 0 < corpus.length := List.length_pos_iff.2 hne
  have hlen' : (corpus.length : ℝ) ≠ 0 := by exact_mod_cast hlen.ne'
  obtain ⟨n1, u1⟩ := C169_counts c hc docs l 0 passes corpus hne hp t
  obtain ⟨n2, -⟩ := C169_counts c hc docs l 0 passes' corpus hne hp' t1
  have f1 : weight t1 w = occurrences corpus w :=
    C169_first c he hc ho hd.le docs l hl passes hp corpus hf hne t ht h0 hu w
  have b := (C169_batch c he hc docs l hl passes' corpus hf hne t1
    (C169_batch c he hc docs l hl passes corpus hf hne t ht w).2 w).1
  change t1.state.numdocs = _ at n1
  change t1.numUpdates = _ at u1
  rw [f1, n1, u1, h0, hu, zero_add] at b
  have h2 : ((corpus.length + corpus.length : ℕ) : ℝ) / corpus.length = 2 := by
    push_cast; field_simp; norm_num
  rw [h2] at b
  obtain ⟨k0, k1⟩ := (C169_kept c ho.ge hd.le corpus.length corpus.length passes').2.2.2 hd hlen hc hlen hp'
  have e2 : weight t2 w = (2 - kept c corpus.length corpus.length passes') * occurrences corpus w := by
    change weight (authorUpdate c docs l 0 passes' corpus t1) w = _
    linarith
  refine ⟨?_, e2, ?_, ?_, ?_⟩
  · change (authorUpdate c docs l 0 passes' corpus t1).state.numdocs = _
    rw [n2, n1, h0]; omega
  · rw [f1, e2]; nlinarith
  · rw [e2]; nlinarith
  · rw [f1]
    exact C169_first c he hc ho hd.le docs l hl _ (by omega) corpus hf hne t ht h0 hu w

/-- The same, for any number of calls: after the `m`-th call with the same documents the model has counted them `m` times,
    and the next call moves the weights towards `m + 1` times the occurrences. -/
theorem C169_counted_often [Nonempty T] (c : Cfg) (he : c.eps = 0) (hc : 0 < c.chunksize)
    (docs : A → ℕ) (l : Learn T W) (hl : l.Pos) (passes : ℕ) (hp : 0 < passes)
    (corpus : List (List A × List (W × ℝ))) (hf : Fair corpus) (hne : corpus ≠ [])
    (t : ATr A T W) (ht : ∀ k, 0 < t.alpha.1 k) (h0 : t.state.numdocs = 0) (hu : t.numUpdates = 0) (m : ℕ) :
    let calls := fun n : ℕ => (authorUpdate c docs l 0 passes corpus)^[n] t
    (calls m).state.numdocs = m * corpus.length ∧
    ∀ w, weight (calls (m + 1)) w - ((m : ℝ) + 1) * occurrences corpus w =
      kept c corpus.length (m * corpus.length) passes * (weight (calls m) w - ((m : ℝ) + 1) * occurrences corpus w) := by
  intro calls
  have hlen' : (corpus.length : ℝ) ≠ 0 := by exact_mod_cast (List.length_pos_iff.2 hne).ne'
  have inv : ∀ n, (calls n).state.numdocs = n * corpus.length ∧ (calls n).numUpdates = n * corpus.length ∧
      ∀ k, 0 < (calls n).alpha.1 k := by
    intro n
    induction n with
    | zero => simp [calls, h0, hu, ht]
    | succ n ih =>
      have e : calls (n + 1) = authorUpdate c docs l 0 passes corpus (calls n) :=
        Function.iterate_succ_apply' _ n t
      obtain ⟨a, b⟩ := C169_counts c hc docs l 0 passes corpus hne hp (calls n)
      rw [e]
      refine ⟨by rw [a, ih.1]; ring, by rw [b, ih.2.1]; ring, fun k => ?_⟩
      have hlen : 0 < corpus.length := List.length_pos_iff.2 hne
      have : ∀ q, ∀ k, 0 < ((List.range q).foldl
          (authorPass { c with chunksize := min corpus.length c.chunksize } docs l 0 corpus)
          { calls n with state := { (calls n).state with numdocs := (calls n).state.numdocs + corpus.length } }).alpha.1 k := by
        intro q
        induction q with
        | zero => exact ih.2.2
        | succ q iq =>
          rw [List.range_succ, List.foldl_append, List.foldl_cons, List.foldl_nil]
          exact (pass_alpha { c with chunksize := min corpus.length c.chunksize } he (Nat.lt_min.2 ⟨hlen, hc⟩) docs l hl
            corpus hf hne _ iq q).1
      exact this passes k
  obtain ⟨i1, i2, i3⟩ := inv m
  refine ⟨i1, fun w => ?_⟩
  have e : calls (m + 1) = authorUpdate c docs l 0 passes corpus (calls m) :=
    Function.iterate_succ_apply' _ m t
  have h := (C169_batch c he hc docs l hl passes corpus hf hne (calls m) i3 w).1
  rw [i1, i2] at h
  have h2 : ((m * corpus.length + corpus.length : ℕ) : ℝ) / corpus.length = m + 1 := by
    push_cast; field_simp
  rw [h2] at h
  rw [e]
  exact h

theorem esteps_fixed (c : Cfg) (docs : A → ℕ) (pass : ℕ) (g : List (List (List A × List (W × ℝ)))) :
    ∀ (t : ATr A T W) (s : State (T × W) ℝ),
    let e := g.foldl (estep (numerics c docs Learn.fixed pass) pass) (t, s)
    let r := authorInference (par c docs t) (LdaTrain.rho c.offset c.decay c.chunksize pass t.numUpdates) t.alpha.2 g.flatten
    e.1 = { t with alpha := (t.alpha.1, r.gamma) } ∧ e.2.numdocs = s.numdocs + g.flatten.length ∧
    ∀ k w, e.2.sstats (k, w) = s.sstats (k, w) + r.sstats k w := by
  induction g with
  | nil => intro t s; simp [authorInference]
  | cons d ds ih =>
    intro t s
    obtain ⟨i1, i2, i3⟩ := ih (estep (numerics c docs Learn.fixed pass) pass (t, s) d).1
      (estep (numerics c docs Learn.fixed pass) pass (t, s) d).2
    obtain ⟨q1, -, q3⟩ := C158_sequential (par c docs t)
      (LdaTrain.rho c.offset c.decay c.chunksize pass t.numUpdates) t.alpha.2 d ds.flatten
    rw [List.foldl_cons]
    refine ⟨?_, ?_, fun k w => ?_⟩
    · refine i1.trans ?_
      rw [List.flatten_cons, q1]
      rfl
    · rw [i2, List.flatten_cons, List.length_append]
      change s.numdocs + d.length + _ = _
      omega
    · rw [i3 k w, List.flatten_cons, q3 k w, ← add_assoc]
      rfl

/-- Between two updates of the topics it does not matter how the documents are cut into chunks, if the priors are not
    learnt: the rows of the authors and the topics are those of inference on all the documents at once. -/
theorem C169_chunks (c : Cfg) (docs : A → ℕ) (pass : ℕ) (t : ATr A T W)
    (g : List (List (List A × List (W × ℝ)))) :
    let rho := (c.offset + pass + t.numUpdates / c.chunksize) ^ (-c.decay)
    let r := authorInference (par c docs t) rho t.alpha.2 g.flatten
    let t' := mstepOn (numerics c docs Learn.fixed pass) pass t g
    t'.alpha = (t.alpha.1, r.gamma) ∧ t'.eta = t.eta ∧
    (0 < t.state.numdocs → g.flatten ≠ [] → ∀ k w, t'.state.sstats (k, w) =
      (1 - rho) * t.state.sstats (k, w) + rho * (t.state.numdocs / g.flatten.length * r.sstats k w)) := by
  intro rho r t'
  obtain ⟨e1, e2, e3⟩ := esteps_fixed c docs pass g t State.zero
  set e := g.foldl (estep (numerics c docs Learn.fixed pass) pass) (t, State.zero) with hE
  have hs : t'.state = t.state.blend rho e.2 none := by
    change e.1.state.blend (LdaTrain.rho c.offset c.decay c.chunksize pass e.1.numUpdates) e.2 none = _
    rw [e1]; rfl
  refine ⟨?_, ?_, fun hn hne k w => ?_⟩
  · change e.1.alpha = _
    rw [e1]; rfl
  · change e.1.eta = _
    rw [e1]
  · have hz : (State.zero : State (T × W) ℝ).numdocs = 0 := rfl
    have hpos : 0 < g.flatten.length := List.length_pos_iff.2 hne
    rw [hz, zero_add] at e2
    have hn' : (t.state.numdocs : ℝ) ≠ 0 := by exact_mod_cast hn.ne'
    have hg' : (g.flatten.length : ℝ) ≠ 0 := by exact_mod_cast hpos.ne'
    rw [hs, (C45_blend t.state e.2 rho none hn (by rw [e2]; exact hpos)).2 (k, w), e2, e3 k w, Option.getD_none]
    change _ * ((1 - rho) * _ + rho * ((0 + r.sstats k w) / _)) = _
    rw [zero_add]
    field_simp

/-- What an update preserves of `alpha` and of the rows of the authors. -/
structure Sound (corpus : List (List A × List (W × ℝ))) (g : A → T → ℝ) (t : ATr A T W) : Prop where
  alpha : ∀ k, 0 < t.alpha.1 k
  gamma : ∀ a k, 0 < t.alpha.2 a k
  others : ∀ a, (∀ d ∈ corpus, a ∉ d.1) → t.alpha.2 a = g a

theorem sound_pass [Nonempty T] (c : Cfg) (he : 0 ≤ c.eps) (ho : 1 ≤ c.offset) (hd : 0 ≤ c.decay)
    (hc : 0 < c.chunksize) (docs : A → ℕ) (l : Learn T W) (hl : l.Pos) (every : ℕ)
    (corpus : List (List A × List (W × ℝ))) (hn : ∀ d ∈ corpus, ∀ x ∈ d.2, 0 ≤ x.2) (g : A → T → ℝ)
    (t : ATr A T W) (ht : Sound corpus g t) (pass : ℕ) : Sound corpus g (authorPass c docs l every corpus t pass) := by
  obtain ⟨groups, h1, -, -, -, -, -, h⟩ := C169_pass c hc docs l every corpus t pass
  rw [h]
  have hsub : ∀ gr ∈ groups, ∀ ch ∈ gr, ∀ d ∈ ch, d ∈ corpus := fun gr hgr ch hch d hdc => by
    rw [← h1]
    exact List.mem_flatten.2 ⟨ch, List.mem_flatten.2 ⟨gr, hgr, hch⟩, hdc⟩
  clear h h1
  induction groups generalizing t with
  | nil => exact ht
  | cons gr grs ih =>
    refine ih _ ?_ fun x hx => hsub x (List.mem_cons_of_mem _ hx)
    have step : ∀ (cs : List (List (List A × List (W × ℝ)))), (∀ ch ∈ cs, ∀ d ∈ ch, d ∈ corpus) →
        ∀ (u : ATr A T W) (s : State (T × W) ℝ), Sound corpus g u →
        Sound corpus g (cs.foldl (estep (numerics c docs l pass) pass) (u, s)).1 := by
      intro cs
      induction cs with
      | nil => intro _ u s hu; exact hu
      | cons ch cs ihc =>
        intro hcs u s hu
        rw [List.foldl_cons]
        refine ihc (fun x hx => hcs x (List.mem_cons_of_mem _ hx)) _ _ ?_
        obtain ⟨r0, r1, -⟩ := (LdaTrain.C91_rho c.offset c.decay c.chunksize).1 ho hd pass u.numUpdates
        have hch := hcs ch List.mem_cons_self
        obtain ⟨g1, g2⟩ := C158_gamma (par c docs u) ⟨hu.alpha, fun _ _ => Real.exp_pos _, he⟩ _ r0.le r1 u.alpha.2
          hu.gamma ch fun d hdc => hn d (hch d hdc)
        exact ⟨hl _ _ _ hu.alpha, g1, fun a ha => (g2 a fun d hdc => ha d (hch d hdc)).trans (hu.others a ha)⟩
    have := step gr (hsub gr List.mem_cons_self) t State.zero ht
    exact ⟨this.alpha, this.gamma, this.others⟩

/-- Training leaves every author with positive weights for all topics, and the authors who wrote none of the documents
    with the weights they had. -/
theorem C169_authors [Nonempty T] (c : Cfg) (he : 0 ≤ c.eps) (ho : 1 ≤ c.offset) (hd : 0 ≤ c.decay)
    (hc : 0 < c.chunksize) (docs : A → ℕ) (l : Learn T W) (hl : l.Pos) (every passes : ℕ)
    (corpus : List (List A × List (W × ℝ))) (hne : corpus ≠ []) (hn : ∀ d ∈ corpus, ∀ x ∈ d.2, 0 ≤ x.2)
    (t : ATr A T W) (ha : ∀ k, 0 < t.alpha.1 k) (hg : ∀ a k, 0 < t.alpha.2 a k) :
    (∀ a k, 0 < (authorUpdate c docs l every passes corpus t).alpha.2 a k) ∧
    ∀ a, (∀ d ∈ corpus, a ∉ d.1) → (authorUpdate c docs l every passes corpus t).alpha.2 a = t.alpha.2 a := by
  have hlen : 0 < corpus.length := List.length_pos_iff.2 hne
  have : Sound corpus t.alpha.2 (authorUpdate c docs l every passes corpus t) := by
    unfold authorUpdate
    induction passes with
    | zero => exact ⟨ha, hg, fun _ _ => rfl⟩
    | succ n ih =>
      rw [List.range_succ, List.foldl_append, List.foldl_cons, List.foldl_nil]
      exact sound_pass { c with chunksize := min corpus.length c.chunksize } he ho hd (Nat.lt_min.2 ⟨hlen, hc⟩) docs l hl
        every corpus hn _ _ ih n
  exact ⟨this.gamma, this.others⟩

/-! ## Non-vacuity -/

/-- Two documents, one with two authors. -/
noncomputable def exDocs : List (List Bool × List (Fin 2 × ℝ)) :=
  [([true, false], [(0, 3), (1, 1)]), ([false], [(1, 2)])]

theorem exDocs_fair : Fair exDocs :=
  ⟨by simp [exDocs], by simp [exDocs], by
    intro d hd x hx
    simp only [exDocs, List.mem_cons, List.not_mem_nil, or_false] at hd
    rcases hd with rfl | rfl
    · simp only [List.mem_cons, List.not_mem_nil, or_false] at hx
      rcases hx with rfl | rfl
      exacts [⟨3, by norm_num⟩, ⟨1, by norm_num⟩]
    · simp only [List.mem_cons, List.not_mem_nil, or_false] at hx
      rcases hx with rfl
      exact ⟨2, by norm_num⟩⟩

/-- A new model. -/
noncomputable def exModel : ATr Bool (Fin 2) (Fin 2) := ⟨⟨fun _ => 1, 0⟩, (fun _ => 1 / 2, fun _ _ => 1), .scalar (1 / 2), 0⟩

theorem fixed_pos : (Learn.fixed : Learn T W).Pos := fun _ _ _ h => h

example : weight (authorUpdate ⟨0, 1 / 1000, 50, 1, 1 / 2, 2000⟩ (fun _ => 1) Learn.fixed 0 3 exDocs exModel) 1 = 3 := by
  rw [C169_first _ rfl (by norm_num) rfl (by norm_num) _ _ fixed_pos 3 (by norm_num) _ exDocs_fair (by simp [exDocs])
    _ (by simp [exModel]) rfl rfl]
  simp [occurrences, exDocs]; norm_num

/-- and calling `update()` again after that raises the weight -/
example :
    let c : Cfg := ⟨0, 1 / 1000, 50, 1, 1 / 2, 2000⟩
    let t1 := authorUpdate c (fun _ => 1) Learn.fixed 0 3 exDocs exModel
    weight t1 1 < weight (authorUpdate c (fun _ => 1) Learn.fixed 0 3 exDocs t1) 1 :=
  (C169_counted_again _ rfl (by norm_num) rfl (by norm_num) _ _ fixed_pos 3 3 (by norm_num) (by norm_num) _ exDocs_fair
    (by simp [exDocs]) exModel (by simp [exModel]) rfl rfl 1 (by simp [occurrences, exDocs]; norm_num)).2.2.1

end Verif.AuthorTrain
