/-
Property C44: Facebook-format files round-trip.
-/
import Verif.FastText.BinModel
import Verif.FastText.NgramProps
import Mathlib.Tactic.Ring
import Mathlib.Tactic.Linarith

namespace Verif.FastText.Bin

open Verif

/-! ### Specification -/

/-- The value fits a signed integer of `k` bytes. -/
def Fits (k : Nat) (v : Int) : Prop := -(256 ^ k / 2 : Nat) ≤ v ∧ v < (256 ^ k / 2 : Nat)

/-- A matrix of 32-bit patterns with `dim` columns. -/
def MatOk (dim : Nat) (rows : Mat) : Prop :=
  (∀ r ∈ rows, r.length = dim ∧ ∀ x ∈ r, x < 2 ^ 32) ∧ rows.length < 2 ^ 62

/-- A model whose parameters fit the file format. -/
structure Savable {W : Type} (enc : W → List Nat) (dec : List Nat → W) (dim : Nat)
    (m : FTModel W) : Prop where
  dimEq : m.vectorSize = dim
  dimFits : Fits 4 dim
  ws : Fits 4 m.window
  epoch : Fits 4 m.epochs
  minCount : Fits 4 m.minCount
  neg : Fits 4 m.negative
  bucket : Fits 4 m.bucket
  minn : Fits 4 m.minN
  maxn : Fits 4 m.maxN
  hs : m.hs = 0 ∨ m.hs = 1
  sample : m.sample < 2 ^ 64
  total : Fits 8 m.corpusTotalWords
  count : ∀ e ∈ m.words, Fits 8 e.2
  nwords : m.words.length < 2 ^ 31
  distinct : (m.words.map Prod.fst).Nodup
  noNul : ∀ e ∈ m.words, 0 ∉ enc e.1
  decodes : ∀ e ∈ m.words, dec (enc e.1) = e.1
  vocabRows : m.vocab.length = m.words.length
  ngramRows : (m.ngrams.length : Int) = m.bucket
  vocabOk : MatOk dim m.vocab
  ngramOk : MatOk dim m.ngrams

/-! ### Fixed-width values -/

theorem leBytes_length (k v : Nat) : (leBytes k v).length = k := by
  induction k generalizing v with
  | zero => rfl
  | succ k ih => simp [leBytes, ih]

theorem leVal_leBytes (k v : Nat) (h : v < 256 ^ k) : leVal (leBytes k v) = v := by
  induction k generalizing v with
  | zero => simp at h; simp [leBytes, leVal, h]
  | succ k ih =>
    have : v / 256 < 256 ^ k := by
      rw [Nat.div_lt_iff_lt_mul (by decide)]; rwa [pow_succ] at h
    rw [leBytes, leVal, ih _ this]; omega

theorem take_append (k : Nat) (xs f : List Nat) (h : xs.length = k) :
    take k (xs ++ f) = some (xs, f) := by
  unfold take
  rw [if_pos (by rw [List.length_append]; omega), ← h, List.take_left, List.drop_left]

theorem packInt_length (k : Nat) (v : Int) : (packInt k v).length = k := leBytes_length _ _

theorem unpack_pack (k : Nat) (hk : 0 < k) (v : Int) (h : Fits k v) :
    unpackInt k (packInt k v) = v := by
  obtain ⟨j, rfl⟩ : ∃ j, k = j + 1 := ⟨k - 1, by omega⟩
  unfold Fits at h
  unfold unpackInt packInt
  have hM : 256 ^ (j + 1) = 2 * (128 * 256 ^ j) := by rw [pow_succ]; ring
  have hpos : 0 < 256 ^ j := by positivity
  generalize 256 ^ (j + 1) = M at *
  have hlt : (v % (M : Int)).toNat < M := by
    have := Int.emod_lt_of_pos v (b := (M : Int)) (by omega)
    omega
  have hb : leVal (leBytes (j + 1) (v % (M : Int)).toNat) = (v % (M : Int)).toNat := by
    apply leVal_leBytes
    have hM2 : 256 ^ (j + 1) = 2 * (128 * 256 ^ j) := by rw [pow_succ]; ring
    omega
  rw [hb]
  have hMpos : (0 : Int) < M := by omega
  rcases lt_or_ge v 0 with hv | hv
  · have e : v % (M : Int) = v + M := by
      rw [← Int.add_emod_right, Int.emod_eq_of_lt (by omega) (by omega)]
    rw [e]
    rw [if_neg (by omega)]; omega
  · have e : v % (M : Int) = v := Int.emod_eq_of_lt hv (by omega)
    rw [e, if_pos (by omega)]; omega

theorem rdInt_pack (k : Nat) (hk : 0 < k) (v : Int) (h : Fits k v) (f : List Nat) :
    rdInt k (packInt k v ++ f) = some (v, f) := by
  unfold rdInt
  rw [take_append _ _ _ (packInt_length k v), Option.map_some, unpack_pack k hk v h]

theorem rdBits_pack (k v : Nat) (h : v < 256 ^ k) (f : List Nat) :
    rdBits k (leBytes k v ++ f) = some (v, f) := by
  unfold rdBits
  rw [take_append _ _ _ (leBytes_length k v), Option.map_some, leVal_leBytes k v h]

/-! ### Repeated records -/

theorem rdMany_flatMap {α β : Type} (r : Rd α) (g : β → List Nat) (val : β → α) (l : List β)
    (h : ∀ x ∈ l, ∀ f, r (g x ++ f) = some (val x, f)) (f : List Nat) :
    rdMany r l.length (l.flatMap g ++ f) = some (l.map val, f) := by
  induction l with
  | nil => rfl
  | cons x l ih =>
    rw [List.flatMap_cons, List.append_assoc, List.length_cons, rdMany,
      h x List.mem_cons_self]
    simp [ih (fun y hy => h y (List.mem_cons_of_mem _ hy))]

theorem rdWord_append (w f : List Nat) (h : 0 ∉ w) : rdWord (w ++ 0 :: f) = some (w, f) := by
  induction w with
  | nil => simp [rdWord]
  | cons b w ih =>
    rw [List.cons_append, rdWord, if_neg (by intro e; exact h (by rw [e]; exact List.mem_cons_self)),
      ih (fun hm => h (List.mem_cons_of_mem _ hm))]
    rfl

theorem rdEntry_bytes {W : Type} (enc : W → List Nat) (dec : List Nat → W) (e : W × Int)
    (h0 : 0 ∉ enc e.1) (hd : dec (enc e.1) = e.1) (hc : Fits 8 e.2) (f : List Nat) :
    rdEntry dec (entryBytes enc e ++ f) = some (e, f) := by
  unfold rdEntry entryBytes
  have e1 : enc e.1 ++ [0] ++ packInt 8 e.2 ++ [0] ++ f =
      enc e.1 ++ 0 :: (packInt 8 e.2 ++ ([0] ++ f)) := by simp
  rw [e1, rdWord_append _ _ h0]
  simp only [Option.bind_eq_bind, Option.bind_some]
  rw [rdInt_pack 8 (by decide) _ hc]
  simp only [Option.bind_some]
  rw [take_append 1 [0] f rfl]
  simp [hd]

theorem reshape_flatten (dim : Nat) (rows : Mat) (h : ∀ r ∈ rows, r.length = dim) :
    reshape dim rows.length rows.flatten = rows := by
  induction rows with
  | nil => rfl
  | cons r rows ih =>
    rw [List.flatten_cons, List.length_cons, reshape, ← h r List.mem_cons_self, List.take_left,
      List.drop_left, h r List.mem_cons_self, ih (fun x hx => h x (List.mem_cons_of_mem _ hx))]

theorem flatten_length (dim : Nat) (rows : Mat) (h : ∀ r ∈ rows, r.length = dim) :
    rows.flatten.length = rows.length * dim := by
  induction rows with
  | nil => simp
  | cons r rows ih =>
    rw [List.flatten_cons, List.length_append, ih (fun x hx => h x (List.mem_cons_of_mem _ hx)),
      h r List.mem_cons_self, List.length_cons]; ring

theorem loadMatrix_bytes (dim : Nat) (rows : Mat) (hd : Fits 8 dim) (hl : Fits 8 rows.length)
    (h : ∀ r ∈ rows, r.length = dim ∧ ∀ x ∈ r, x < 2 ^ 32) (f : List Nat) :
    loadMatrix true ([0] ++ (packInt 8 (rows.length : Nat) ++ (packInt 8 dim ++ (matBytes rows ++ f))))
      = some (rows, f) := by
  unfold loadMatrix
  simp only [if_true, Option.bind_eq_bind]
  rw [take_append 1 [0] _ rfl]
  simp only [Option.bind_some]
  rw [rdInt_pack 8 (by decide) _ hl]
  simp only [Option.bind_some]
  rw [rdInt_pack 8 (by decide) _ hd]
  simp only [Option.bind_some]
  have e1 : matBytes rows = rows.flatten.flatMap (leBytes 4) := by
    unfold matBytes; clear h hd hl
    induction rows with
    | nil => rfl
    | cons r rows ih => rw [List.flatMap_cons, List.flatten_cons, List.flatMap_append, ih]
  have e2 : ((rows.length : Int) * (dim : Int)).toNat = rows.flatten.length := by
    rw [flatten_length dim rows (fun r hr => (h r hr).1), ← Nat.cast_mul, Int.toNat_natCast]
  rw [if_neg (by omega), e1, e2, rdMany_flatMap (rdBits 4) (leBytes 4) id]
  · simp only [Option.bind_some, List.map_id, Int.toNat_natCast, pure]
    rw [reshape_flatten dim rows (fun r hr => (h r hr).1)]
  · intro x hx g
    rw [List.mem_flatten] at hx
    obtain ⟨r, hr, hx⟩ := hx
    exact rdBits_pack 4 x (by have := (h r hr).2 x hx; norm_num; exact this) g

theorem loadVocab_bytes {W : Type} [DecidableEq W] (enc : W → List Nat) (dec : List Nat → W)
    (dim : Nat) (m : FTModel W) (h : Savable enc dec dim m) (f : List Nat) :
    loadVocab dec true (dictBytes enc m ++ f) =
      some (⟨m.words, m.words.length, m.words.length, m.corpusTotalWords⟩, f) := by
  have hn : Fits 4 (m.words.length : Nat) := by
    have := h.nwords; unfold Fits; norm_num; omega
  unfold loadVocab dictBytes
  simp only [List.append_assoc, Option.bind_eq_bind, if_true]
  rw [rdInt_pack 4 (by decide) _ hn]
  simp only [Option.bind_some]
  rw [rdInt_pack 4 (by decide) _ hn]
  simp only [Option.bind_some]
  rw [rdInt_pack 4 (by decide) _ (by unfold Fits; norm_num)]
  simp only [Option.bind_some]
  rw [if_neg (by omega), rdInt_pack 8 (by decide) _ h.total]
  simp only [Option.bind_some]
  rw [rdInt_pack 8 (by decide) _ (by unfold Fits; norm_num)]
  simp only [Option.bind_some, Int.toNat_natCast]
  rw [rdMany_flatMap (rdEntry dec) (entryBytes enc) id]
  · have hw : PyDict.ofPairs m.words = m.words := PyDict.ofPairs_of_WF h.distinct
    simp [rdMany, hw]
  · intro e he g
    exact rdEntry_bytes enc dec e (h.noNul e he) (h.decodes e he) (h.count e he) g

/-- The header written for a model, with `fb_fasttext_parameters` applied. -/
def headerFor {W : Type} (o : Overrides) (m : FTModel W) : Header :=
  { dim := m.vectorSize, ws := m.window, epoch := m.epochs, minCount := m.minCount,
    neg := m.negative, wordNgrams := o.wordNgrams.getD 1, loss := if m.hs = 1 then 1 else 2,
    model := if m.sg = 1 then 2 else 1, bucket := m.bucket, minn := m.minN, maxn := m.maxN,
    lrUpdateRate := o.lrUpdateRate.getD 100, t := m.sample }

theorem headerTail_bytes (h : Header) (f : List Nat) (h3 : Fits 4 h.epoch) (h4 : Fits 4 h.minCount)
    (h5 : Fits 4 h.neg) (h6 : Fits 4 h.wordNgrams) (h7 : Fits 4 h.loss) (h8 : Fits 4 h.model)
    (h9 : Fits 4 h.bucket) (h10 : Fits 4 h.minn) (h11 : Fits 4 h.maxn) (h12 : Fits 4 h.lrUpdateRate)
    (h13 : h.t < 2 ^ 64) :
    rdHeaderTail h.dim h.ws (packInt 4 h.epoch ++ (packInt 4 h.minCount ++
      (packInt 4 h.neg ++ (packInt 4 h.wordNgrams ++ (packInt 4 h.loss ++ (packInt 4 h.model ++
      (packInt 4 h.bucket ++ (packInt 4 h.minn ++ (packInt 4 h.maxn ++ (packInt 4 h.lrUpdateRate ++
      (leBytes 8 h.t ++ f))))))))))) = some (h, f) := by
  unfold rdHeaderTail
  simp only [Option.bind_eq_bind]
  rw [rdInt_pack 4 (by decide) _ h3]; simp only [Option.bind_some]
  rw [rdInt_pack 4 (by decide) _ h4]; simp only [Option.bind_some]
  rw [rdInt_pack 4 (by decide) _ h5]; simp only [Option.bind_some]
  rw [rdInt_pack 4 (by decide) _ h6]; simp only [Option.bind_some]
  rw [rdInt_pack 4 (by decide) _ h7]; simp only [Option.bind_some]
  rw [rdInt_pack 4 (by decide) _ h8]; simp only [Option.bind_some]
  rw [rdInt_pack 4 (by decide) _ h9]; simp only [Option.bind_some]
  rw [rdInt_pack 4 (by decide) _ h10]; simp only [Option.bind_some]
  rw [rdInt_pack 4 (by decide) _ h11]; simp only [Option.bind_some]
  rw [rdInt_pack 4 (by decide) _ h12]; simp only [Option.bind_some]
  rw [rdBits_pack 8 _ (by norm_num; exact h13)]; simp only [Option.bind_some]
  rfl

/-- **C44**: what `save` writes, `load` reads back exactly — every hyper-parameter, the vocabulary in
    order with its counts, the input matrix and the output matrix. -/
theorem C44_load_save {W : Type} [DecidableEq W] (enc : W → List Nat) (dec : List Nat → W)
    (dim : Nat) (o : Overrides) (m : FTModel W) (h : Savable enc dec dim m)
    (ho1 : ∀ v, o.wordNgrams = some v → Fits 4 v) (ho2 : ∀ v, o.lrUpdateRate = some v → Fits 4 v)
    (hidden : Mat) (hh : hiddenOf m = some hidden) (hok : MatOk dim hidden) (full : Bool) :
    ∃ file, save enc dim o m = some file ∧
      load dec full file = some
        { header := headerFor o m
          vocab := ⟨m.words, m.words.length, m.words.length, m.corpusTotalWords⟩
          vectors := m.vocab ++ m.ngrams
          hidden := if full then some hidden else none } := by
  have hl : lossField m.hs = some (if m.hs = 1 then 1 else 2) := by
    unfold lossField; rcases h.hs with e | e <;> simp [e]
  refine ⟨signBytes ++ headerBytes (headerFor o m) ++ dictBytes enc m ++ [0] ++
    (packInt 8 (m.vocab.length + m.ngrams.length : Nat) ++ packInt 8 dim ++
      matBytes m.vocab ++ matBytes m.ngrams) ++ [0] ++
    (packInt 8 (hidden.length : Nat) ++ packInt 8 dim ++ matBytes hidden), ?_, ?_⟩
  · have hi : inputBytes dim m = some (packInt 8 (m.vocab.length + m.ngrams.length : Nat) ++
        packInt 8 dim ++ matBytes m.vocab ++ matBytes m.ngrams) := by
      unfold inputBytes; rw [if_pos ⟨h.vocabRows, h.ngramRows⟩]
    unfold save headerOf outputBytes
    rw [hl, hh, hi]
    simp [headerFor, Overrides.apply]
  · have hsmall : ∀ v : Int, -1 ≤ v → v ≤ 1000 → Fits 4 v := by
      intro v h1 h2; unfold Fits; norm_num; omega
    have hd8 : Fits 8 (dim : Nat) := by
      have := h.dimFits; unfold Fits at *; norm_num at *; omega
    have hvl := h.vocabOk.2
    have hnl := h.ngramOk.2
    have hrows : Fits 8 ((m.vocab ++ m.ngrams).length : Nat) := by
      rw [List.length_append]; unfold Fits; norm_num; omega
    have hhl : Fits 8 (hidden.length : Nat) := by
      have := hok.2; unfold Fits; norm_num; omega
    have hm1 := loadMatrix_bytes dim (m.vocab ++ m.ngrams) hd8 hrows (by
      intro r hr
      rw [List.mem_append] at hr
      rcases hr with hr | hr
      · exact h.vocabOk.1 r hr
      · exact h.ngramOk.1 r hr)
    have hm2 := loadMatrix_bytes dim hidden hd8 hhl hok.1
    have hmb : ∀ a b : Mat, matBytes (a ++ b) = matBytes a ++ matBytes b := by
      intro a b; unfold matBytes; rw [List.flatMap_append]
    simp only [hmb, List.length_append, List.append_assoc] at hm1
    have ht := headerTail_bytes (headerFor o m)
    unfold load signBytes headerBytes
    simp only [List.append_assoc, Option.bind_eq_bind]
    rw [rdInt_pack 4 (by decide) _ (by unfold Fits magic; norm_num)]
    simp only [Option.bind_some]
    rw [rdInt_pack 4 (by decide) _ (hsmall _ (by omega) (by omega))]
    simp only [Option.bind_some, decide_true, if_true]
    rw [rdInt_pack 4 (by decide) _ (by change Fits 4 m.vectorSize; rw [h.dimEq]; exact h.dimFits)]
    simp only [Option.bind_some]
    rw [rdInt_pack 4 (by decide) _ (by exact h.ws)]
    simp only [Option.bind_some]
    rw [ht _ h.epoch h.minCount h.neg ?_ ?_ ?_ h.bucket h.minn h.maxn ?_ h.sample]
    · simp only [Option.bind_some]
      rw [loadVocab_bytes enc dec dim m h]
      simp only [Option.bind_some]
      rw [hm1]
      simp only [Option.bind_some]
      cases full
      · rfl
      · have := hm2 []
        rw [List.append_nil] at this
        simp only [if_true]
        rw [this]
        simp only [Option.bind_some, if_true]
    · change Fits 4 (o.wordNgrams.getD 1)
      cases e : o.wordNgrams with
      | none => exact hsmall 1 (by omega) (by omega)
      | some v => exact ho1 v e
    · change Fits 4 (if m.hs = 1 then 1 else 2)
      split
      · exact hsmall 1 (by omega) (by omega)
      · exact hsmall 2 (by omega) (by omega)
    · change Fits 4 (if m.sg = 1 then 2 else 1)
      split
      · exact hsmall 2 (by omega) (by omega)
      · exact hsmall 1 (by omega) (by omega)
    · change Fits 4 (o.lrUpdateRate.getD 100)
      cases e : o.lrUpdateRate with
      | none => exact hsmall 100 (by omega) (by omega)
      | some v => exact ho2 v e

/-- A model as gensim keeps it: flags are 0 or 1, exactly one loss is used and only its output array
    exists, every count is positive, and there are buckets only when n-gram lengths are possible. -/
structure OneLoss {W : Type} (m : FTModel W) : Prop where
  sg : m.sg = 0 ∨ m.sg = 1
  loss : (m.hs = 1 ∧ m.negative = 0 ∧ m.syn1neg = none) ∨ (m.hs = 0 ∧ m.negative ≠ 0 ∧ m.syn1 = none)
  counts : ∀ e ∈ m.words, 1 ≤ e.2
  nonempty : m.words ≠ []
  lengths : m.maxN < m.minN → m.bucket = 0

theorem keptWords_all {W : Type} (l : PyDict W Int) (h : ∀ e ∈ l, 1 ≤ e.2) : keptWords l = l := by
  unfold keptWords
  rw [List.filter_eq_self]
  intro e he
  exact decide_eq_true (h e he)

theorem rebuild_eq {W : Type} (enc : W → List Nat) (dec : List Nat → W) (dim : Nat) (o : Overrides)
    (m : FTModel W) (h : Savable enc dec dim m) (hc : ∀ e ∈ m.words, 1 ≤ e.2) (hne : m.words ≠ [])
    (hlen : m.maxN < m.minN → m.bucket = 0) (hidden : Mat) :
    rebuild { header := headerFor o m
              vocab := ⟨m.words, m.words.length, m.words.length, m.corpusTotalWords⟩
              vectors := m.vocab ++ m.ngrams
              hidden := some hidden } = some
      { m with hs := if m.hs = 1 then 1 else 0, sg := if m.sg = 1 then 1 else 0
               syn1 := if m.hs = 1 then some hidden else none
               syn1neg := if m.negative ≠ 0 then some hidden else none } := by
  have hb : effBucket (headerFor o m) = m.bucket := by
    change (if m.maxN < m.minN then 0 else m.bucket) = m.bucket
    split
    · next h1 => exact (hlen h1).symm
    · rfl
  unfold rebuild
  dsimp only
  rw [keptWords_all _ hc, hb, if_pos]
  · have e1 : (m.vocab ++ m.ngrams).take m.words.length = m.vocab := by
      rw [← h.vocabRows, List.take_left]
    have e2 : (m.vocab ++ m.ngrams).drop m.words.length = m.ngrams := by
      rw [← h.vocabRows, List.drop_left]
    rw [e1, e2]
    rcases h.hs with e | e <;> by_cases hs : m.sg = 1 <;> simp [headerFor, e, hs]
  · refine ⟨?_, ?_, List.length_pos_of_ne_nil hne⟩
    · rw [List.length_append, ← h.ngramRows, h.vocabRows]; push_cast; ring
    · unfold rowsOk
      rw [List.all_eq_true]
      intro r hr
      rw [List.mem_append] at hr
      have : r.length = dim := by
        rcases hr with hr | hr
        · exact (h.vocabOk.1 r hr).1
        · exact (h.ngramOk.1 r hr).1
      change (r.length == m.vectorSize.toNat) = true
      rw [beq_iff_eq, this, h.dimEq, Int.toNat_natCast]

/-- **C44**: `load_facebook_model` of what was saved is the model itself: same words in the same
    order, same counts, same vectors, same output layer, same parameters. -/
theorem C44_model_roundtrip {W : Type} [DecidableEq W] (enc : W → List Nat) (dec : List Nat → W)
    (dim : Nat) (o : Overrides) (m : FTModel W) (h : Savable enc dec dim m) (h1 : OneLoss m)
    (ho1 : ∀ v, o.wordNgrams = some v → Fits 4 v) (ho2 : ∀ v, o.lrUpdateRate = some v → Fits 4 v)
    (hidden : Mat) (hh : hiddenOf m = some hidden) (hok : MatOk dim hidden) :
    ∃ file, save enc dim o m = some file ∧ loadFacebookModel dec file = some m := by
  obtain ⟨file, hs, hl⟩ := C44_load_save enc dec dim o m h ho1 ho2 hidden hh hok true
  refine ⟨file, hs, ?_⟩
  unfold loadFacebookModel
  rw [hl]
  simp only [Option.bind_eq_bind, Option.bind_some, if_true]
  rw [rebuild_eq enc dec dim o m h h1.counts h1.nonempty h1.lengths]
  unfold hiddenOf at hh
  rcases h1.loss with ⟨e1, e2, e3⟩ | ⟨e1, e2, e3⟩ <;> rcases h1.sg with e4 | e4 <;>
    · simp only [e1, e2, ne_eq, not_true_eq_false, if_false, one_ne_zero, not_false_eq_true,
        if_true] at hh
      cases m
      simp_all

/-- A model trained with both losses does not survive: the hierarchical-softmax output array is not
    saved, and loading puts the negative-sampling array in its place. -/
theorem C44_both_losses {W : Type} [DecidableEq W] (enc : W → List Nat) (dec : List Nat → W)
    (dim : Nat) (o : Overrides) (m : FTModel W) (h : Savable enc dec dim m)
    (hc : ∀ e ∈ m.words, 1 ≤ e.2) (hne : m.words ≠ []) (hlen : m.maxN < m.minN → m.bucket = 0)
    (ho1 : ∀ v, o.wordNgrams = some v → Fits 4 v) (ho2 : ∀ v, o.lrUpdateRate = some v → Fits 4 v)
    (hhs : m.hs = 1) (hneg : m.negative ≠ 0) (sn : Mat) (hsn : m.syn1neg = some sn)
    (hok : MatOk dim sn) :
    ∃ file m', save enc dim o m = some file ∧ loadFacebookModel dec file = some m' ∧
      m'.syn1 = m.syn1neg ∧ m'.syn1neg = m.syn1neg := by
  obtain ⟨file, hs, hl⟩ := C44_load_save enc dec dim o m h ho1 ho2 sn
    (by unfold hiddenOf; rw [if_pos hneg, hsn]) hok true
  have hm := rebuild_eq enc dec dim o m h hc hne hlen sn
  have hload : loadFacebookModel dec file = rebuild
      { header := headerFor o m
        vocab := ⟨m.words, m.words.length, m.words.length, m.corpusTotalWords⟩
        vectors := m.vocab ++ m.ngrams
        hidden := some sn } := by
    unfold loadFacebookModel
    rw [hl]
    simp only [Option.bind_eq_bind, Option.bind_some, if_true]
  refine ⟨file, _, hs, hload.trans hm, ?_⟩
  dsimp only
  rw [if_pos hhs, if_pos hneg, hsn]; exact ⟨rfl, rfl⟩

/-- A word whose stored count is below 1 is dropped by the rebuilt vocabulary, and then the number of
    rows no longer matches: loading fails. -/
theorem C44_zero_count {W : Type} (l : Loaded W) (e : W × Int) (he : e ∈ l.vocab.rawVocab)
    (h0 : e.2 < 1) (hl : l.header.minn ≤ l.header.maxn)
    (hr : (l.vectors.length : Int) = l.vocab.rawVocab.length + l.header.bucket) :
    rebuild l = none := by
  unfold rebuild effBucket
  dsimp only
  rw [if_neg (by omega : ¬ l.header.maxn < l.header.minn), if_neg]
  rintro ⟨h1, -⟩
  have h2 : (keptWords l.vocab.rawVocab).length < l.vocab.rawVocab.length := by
    unfold keptWords
    rcases Nat.lt_or_ge (l.vocab.rawVocab.filter fun e : W × Int => decide (1 ≤ e.2)).length
      l.vocab.rawVocab.length with h | h
    · exact h
    · have := List.filter_eq_self.1 (List.filter_sublist.eq_of_length_le h) e he
      have := of_decide_eq_true this
      omega
  omega

/-! ### UTF-8 as the encoding -/

theorem encode_no_nul (w : List Char) (h : ∀ c ∈ w, c.toNat ≠ 0) : 0 ∉ encode w := by
  unfold encode
  rw [List.mem_flatMap]
  rintro ⟨c, hc, h0⟩
  have hn := h c hc
  unfold encChar at h0
  dsimp only at h0
  split at h0
  · simp at h0; omega
  · split at h0
    · simp at h0; omega
    · split at h0 <;> (simp at h0; omega)

theorem decChar_encChar (c : Char) (f : List Nat) : decChar (encChar c ++ f) = some (c, f) := by
  have hb := char_bound c
  have hc : Char.ofNat c.toNat = c := Char.ofNat_toNat c
  unfold encChar
  dsimp only
  split
  · next h => simp [decChar, h, hc]
  · next h =>
    split
    · next h2 =>
      have a1 : ¬ (0xC0 + c.toNat / 64 < 0x80) := by omega
      have a2 : 0xC0 + c.toNat / 64 < 0xE0 := by omega
      have a3 : (0xC0 + c.toNat / 64 - 0xC0) * 64 + (0x80 + c.toNat % 64 - 0x80) = c.toNat := by omega
      simp only [List.cons_append, List.nil_append, decChar]
      rw [if_neg a1, if_pos a2, a3, hc]
    · next h2 =>
      split
      · next h3 =>
        have a1 : ¬ (0xE0 + c.toNat / 4096 < 0x80) := by omega
        have a2 : ¬ (0xE0 + c.toNat / 4096 < 0xE0) := by omega
        have a3 : 0xE0 + c.toNat / 4096 < 0xF0 := by omega
        have a4 : (0xE0 + c.toNat / 4096 - 0xE0) * 4096 + (0x80 + c.toNat / 64 % 64 - 0x80) * 64 +
          (0x80 + c.toNat % 64 - 0x80) = c.toNat := by omega
        simp only [List.cons_append, List.nil_append, decChar]
        rw [if_neg a1, if_neg a2, if_pos a3, a4, hc]
      · next h3 =>
        have a1 : ¬ (0xF0 + c.toNat / 262144 < 0x80) := by omega
        have a2 : ¬ (0xF0 + c.toNat / 262144 < 0xE0) := by omega
        have a3 : ¬ (0xF0 + c.toNat / 262144 < 0xF0) := by omega
        have a4 : (0xF0 + c.toNat / 262144 - 0xF0) * 262144 +
          (0x80 + c.toNat / 4096 % 64 - 0x80) * 4096 + (0x80 + c.toNat / 64 % 64 - 0x80) * 64 +
          (0x80 + c.toNat % 64 - 0x80) = c.toNat := by omega
        simp only [List.cons_append, List.nil_append, decChar]
        rw [if_neg a1, if_neg a2, if_neg a3, a4, hc]

theorem decodeAux_encode (w : List Char) (n : Nat) (h : w.length ≤ n) :
    decodeAux n (encode w) = w := by
  induction w generalizing n with
  | nil => cases n <;> rfl
  | cons c w ih =>
    cases n with
    | zero => simp at h
    | succ n =>
      rw [decodeAux, encode_cons, decChar_encChar]
      dsimp only
      rw [ih n (by simpa using h)]

/-- **C44**: the hypotheses on the encoding hold for UTF-8 and words free of NUL characters. -/
theorem C44_utf8 (w : List Char) : decode (encode w) = w ∧ ((∀ c ∈ w, c.toNat ≠ 0) → 0 ∉ encode w) :=
  ⟨decodeAux_encode w _ (encode_length_ge w), encode_no_nul w⟩

/-- A small model: two words, one bucket, one column. -/
def exModel : FTModel (List Char) :=
  { vectorSize := 1, window := 5, epochs := 3, minCount := 1, negative := 5, hs := 0, sg := 1,
    bucket := 1, minN := 3, maxN := 6, sample := 77, corpusTotalWords := 4,
    words := [(['é'], 3), (['b'], 1)], vocab := [[1], [2]], ngrams := [[7]], syn1 := none,
    syn1neg := some [[5], [6]] }

theorem exModel_savable : Savable encode decode 1 exModel := by
  refine ⟨rfl, by unfold Fits; decide, by unfold Fits; decide, by unfold Fits; decide,
    by unfold Fits; decide, by unfold Fits; decide, by unfold Fits; decide, by unfold Fits; decide,
    by unfold Fits; decide, Or.inl rfl, by decide, by unfold Fits; decide +kernel,
    by unfold Fits; decide +kernel, by decide, by decide,
    fun e _ => ?_, fun e _ => (C44_utf8 e.1).1, rfl, rfl, ?_, ?_⟩
  · have he : e ∈ exModel.words := by assumption
    apply (C44_utf8 e.1).2
    revert e; decide +kernel
  · unfold MatOk; decide +kernel
  · unfold MatOk; decide +kernel

example : ∃ file, save encode 1 ⟨none, none⟩ exModel = some file ∧
    loadFacebookModel decode file = some exModel :=
  C44_model_roundtrip encode decode 1 ⟨none, none⟩ exModel exModel_savable
    ⟨Or.inr rfl, Or.inr ⟨rfl, by decide, rfl⟩, by decide +kernel, by decide, by decide +kernel⟩
    (by simp) (by simp) _ rfl (by unfold MatOk; decide +kernel)

example : ∃ file m', save encode 1 ⟨none, none⟩ { exModel with hs := 1, syn1 := some [[9], [9]] } =
      some file ∧ loadFacebookModel decode file = some m' ∧ m'.syn1 = some [[5], [6]] ∧
      m'.syn1neg = some [[5], [6]] :=
  C44_both_losses encode decode 1 ⟨none, none⟩ { exModel with hs := 1, syn1 := some [[9], [9]] }
    { exModel_savable with hs := Or.inr rfl } (by decide +kernel) (by decide) (by decide +kernel)
    (by simp) (by simp) rfl (by decide) _ rfl (by unfold MatOk; decide +kernel)

/-- A word with a NUL character breaks the file: it is cut at the NUL. -/
theorem C44_nul_word :
    let m : FTModel (List Char) := { exModel with
      words := [(['a', Char.ofNat 0, 'b'], 3)], vocab := [[1]], syn1neg := some [[5]] }
    ∃ file, save encode 1 ⟨none, none⟩ m = some file ∧
      loadFacebookModel decode file ≠ some m := by
  dsimp only
  exact ⟨_, rfl, by decide +kernel⟩

end Verif.FastText.Bin
