import Mathlib.Algebra.Order.BigOperators.Ring.Finset
import Mathlib.Algebra.Order.Chebyshev
import Mathlib.Data.Real.Sqrt
import Verif.Ann.Model
import Verif.TransMat.Props

/-!
# C102: approximate nearest neighbour indexers
-/

namespace Verif.Ann

open Verif.TransMat (Vec dot unit cosine dot_unit_self dot_self_nonneg)

variable {W Q : Type}

/-! ## Specification -/

/-- The key `w` of the model has the vector `x`. -/
def HasVec (m : Source W) (w : W) (x : Vec m.size) : Prop := ∃ i : Nat, m.keys[i]? = some w ∧ m.vectors[i]? = some x

/-- A model of at least one key with distinct keys and non-zero vectors. -/
structure Good (m : Source W) : Prop where
  nodup : m.keys.Nodup
  len : m.vectors.length = m.keys.length
  nonzero : ∀ v ∈ m.vectors, dot v v ≠ 0
  truthy : m.truthy = true

/-- The distance of the `angular` metric of Annoy for vectors whose cosine is `c`. -/
noncomputable def angular (c : ℝ) : ℝ := Real.sqrt (2 * (1 - c))

/-- The distance of the `cosinesimil` space of NMSLIB. -/
def cosDist (c : ℝ) : ℝ := 1 - c

/-- What the libraries promise: at most `k` distinct item numbers with their true distances, nearest first. -/
structure Answers (dist : ℝ → ℝ) (ix : Index) (q : Vec ix.size) (k : Nat) (found : List (Nat × ℝ)) : Prop where
  valid : ∀ p ∈ found, ∃ x, ix.items[p.1]? = some x ∧ p.2 = dist (cosine q x)
  distinct : (found.map (·.1)).Nodup
  sorted : found.Pairwise fun a b => a.2 ≤ b.2
  few : found.length ≤ k

/-- What an exact index would moreover promise: an item left out is not nearer than one returned, and there was no room
for it. -/
def Exact (dist : ℝ → ℝ) (ix : Index) (q : Vec ix.size) (k : Nat) (found : List (Nat × ℝ)) : Prop :=
  Answers dist ix q k found ∧ ∀ i x, ix.items[i]? = some x → i ∉ found.map (·.1) →
    found.length = k ∧ ∀ p ∈ found, p.2 ≤ dist (cosine q x)

/-! ## Cosines -/

theorem cosine_range {d : Nat} (v w : Vec d) : -1 ≤ cosine v w ∧ cosine v w ≤ 1 := by
  have h : cosine v w ^ 2 ≤ 1 := by
    unfold cosine
    rw [div_pow, mul_pow, Real.sq_sqrt (dot_self_nonneg v), Real.sq_sqrt (dot_self_nonneg w)]
    apply div_le_one_of_le₀
    · have := Finset.sum_mul_sq_le_sq_mul_sq Finset.univ v w
      simpa [dot, pow_two] using this
    · exact mul_nonneg (dot_self_nonneg v) (dot_self_nonneg w)
  constructor <;> nlinarith

theorem dot_unit_right {d : Nat} (q x : Vec d) : dot q (unit x) = dot q x / Real.sqrt (dot x x) := by
  unfold dot unit
  rw [Finset.sum_div]
  exact Finset.sum_congr rfl fun k _ => by rw [mul_div_assoc]; rfl

theorem dot_comm {d : Nat} (q x : Vec d) : dot q x = dot x q := Finset.sum_congr rfl fun _ _ => mul_comm _ _

theorem cosine_comm {d : Nat} (q x : Vec d) : cosine q x = cosine x q := by
  unfold cosine; rw [dot_comm, mul_comm (Real.sqrt _)]

theorem cosine_unit {d : Nat} (q x : Vec d) (h : dot x x ≠ 0) : cosine q (unit x) = cosine q x := by
  unfold cosine
  rw [dot_unit_self x h, dot_unit_right, Real.sqrt_one, mul_one, div_div, mul_comm]

theorem cosine_self {d : Nat} (x : Vec d) (h : dot x x ≠ 0) : cosine x x = 1 := by
  unfold cosine
  rw [Real.mul_self_sqrt (dot_self_nonneg x), div_self h]

theorem angular_lt {c c' : ℝ} (hc : c ≤ 1) (h : c' < c) : angular c < angular c' :=
  Real.sqrt_lt_sqrt (by linarith) (by linarith)

theorem angular_le {c c' : ℝ} (h : c' ≤ c) : angular c ≤ angular c' := Real.sqrt_le_sqrt (by linarith)

theorem angular_nonneg (c : ℝ) : 0 ≤ angular c := Real.sqrt_nonneg _

theorem angular_sq {c : ℝ} (hc : c ≤ 1) : angular c * angular c = 2 * (1 - c) := Real.mul_self_sqrt (by linarith)

/-! ## Answers of an indexer -/

theorem answer_ok (labels : List W) (g : ℝ → ℝ) (found : List (Nat × ℝ))
    (h : ∀ p ∈ found, p.1 < labels.length) :
    ∃ l, answer labels g found = .ok l ∧ List.Forall₂ (fun p r => labels[p.1]? = some r.1 ∧ r.2 = g p.2) found l := by
  induction found with
  | nil => exact ⟨[], rfl, .nil⟩
  | cons p t ih =>
    obtain ⟨l, hl, hf⟩ := ih fun q hq => h q (List.mem_cons_of_mem _ hq)
    have hlt : p.1 < labels.length := h p List.mem_cons_self
    have hp : labels[p.1]? = some labels[p.1] := List.getElem?_eq_getElem hlt
    refine ⟨(labels[p.1], g p.2) :: l, ?_, .cons ⟨hp, rfl⟩ hf⟩
    unfold answer at hl ⊢
    rw [List.mapM_cons, hl, hp]
    rfl

theorem forall₂_mem {α β : Type} {R : α → β → Prop} {l : List α} {l' : List β} (h : List.Forall₂ R l l') (b : β)
    (hb : b ∈ l') : ∃ a ∈ l, R a b := by
  induction h with
  | nil => exact absurd hb (by simp)
  | cons hab _ ih =>
    rcases List.mem_cons.1 hb with rfl | hb
    · exact ⟨_, List.mem_cons_self, hab⟩
    · obtain ⟨a, ha, hr⟩ := ih hb
      exact ⟨a, List.mem_cons_of_mem _ ha, hr⟩

theorem forall₂_mem' {α β : Type} {R : α → β → Prop} {l : List α} {l' : List β} (h : List.Forall₂ R l l') (a : α)
    (ha : a ∈ l) : ∃ b ∈ l', R a b := by
  induction h with
  | nil => exact absurd ha (by simp)
  | cons hab _ ih =>
    rcases List.mem_cons.1 ha with rfl | ha
    · exact ⟨_, List.mem_cons_self, hab⟩
    · obtain ⟨b, hb, hr⟩ := ih ha
      exact ⟨b, List.mem_cons_of_mem _ hb, hr⟩

theorem forall₂_pairwise {α β : Type} {R : α → β → Prop} {S : α → α → Prop} {T : β → β → Prop} {l : List α} {l' : List β}
    (h : List.Forall₂ R l l') (hs : l.Pairwise S)
    (hst : ∀ a ∈ l, ∀ a' ∈ l, ∀ b b', R a b → R a' b' → S a a' → T b b') : l'.Pairwise T := by
  induction h with
  | nil => exact .nil
  | @cons a b t t' hab htt ih =>
    rw [List.pairwise_cons] at hs
    refine List.pairwise_cons.2 ⟨fun b' hb' => ?_, ih hs.2 fun x hx y hy =>
      hst x (List.mem_cons_of_mem _ hx) y (List.mem_cons_of_mem _ hy)⟩
    obtain ⟨a', ha', hr⟩ := forall₂_mem htt b' hb'
    exact hst a List.mem_cons_self a' (List.mem_cons_of_mem _ ha') b b' hab hr (hs.1 a' ha')

/-- The index built from a model. -/
noncomputable def indexOf (m : Source W) : Index := ⟨m.size, m.vectors.map unit⟩

/-- The shape of every answer: at most `k` distinct keys with the score of their cosine, highest score first. -/
structure Ranked (m : Source W) (score : ℝ → ℝ) (q : Vec m.size) (k : Nat) (l : List (W × ℝ)) : Prop where
  scored : ∀ r ∈ l, ∃ x, HasVec m r.1 x ∧ r.2 = score (cosine q x)
  distinct : (l.map (·.1)).Nodup
  sorted : l.Pairwise fun a b => b.2 ≤ a.2
  few : l.length ≤ k

theorem ranked (m : Source W) (hm : Good m) (dist g : ℝ → ℝ) (hg : ∀ x y, x ≤ y → g y ≤ g x) (q : Vec m.size) (k : Nat)
    (found : List (Nat × ℝ)) (hf : Answers dist (indexOf m) q k found) :
    ∃ l, answer m.keys g found = .ok l ∧ Ranked m (fun c => g (dist c)) q k l ∧
      List.Forall₂ (fun p r => m.keys[p.1]? = some r.1 ∧ r.2 = g p.2) found l := by
  have hx : ∀ p ∈ found, ∃ x, m.vectors[p.1]? = some x ∧ p.2 = dist (cosine q x) := by
    intro p hp
    obtain ⟨(y : Vec m.size), hy, hd⟩ := hf.valid p hp
    have hy' : (m.vectors.map unit)[p.1]? = some y := hy
    rw [List.getElem?_map, Option.map_eq_some_iff] at hy'
    obtain ⟨x, hx, rfl⟩ := hy'
    have hc : cosine q (unit x) = cosine q x := cosine_unit q x (hm.nonzero x (List.mem_of_getElem? hx))
    exact ⟨x, hx, hd.trans (congrArg dist hc)⟩
  obtain ⟨l, hl, hfl⟩ := answer_ok m.keys g found fun p hp => by
    obtain ⟨x, hx, -⟩ := hx p hp
    rw [← hm.len]
    exact (List.getElem?_eq_some_iff.1 hx).1
  refine ⟨l, hl, ⟨?_, ?_, ?_, ?_⟩, hfl⟩
  · intro r hr
    obtain ⟨p, hp, hk, hs⟩ := forall₂_mem hfl r hr
    obtain ⟨x, hx, hd⟩ := hx p hp
    exact ⟨x, ⟨p.1, hk, hx⟩, by rw [hs, hd]⟩
  · unfold List.Nodup
    rw [List.pairwise_map]
    refine forall₂_pairwise (S := fun a b => a.1 ≠ b.1) hfl (List.pairwise_map.1 hf.distinct) ?_
    intro a _ a' _ b b' h h' hne he
    have hlt := (List.getElem?_eq_some_iff.1 h.1).1
    exact hne ((List.getElem?_inj hlt hm.nodup).1 (h.1.trans (he ▸ h'.1.symm)))
  · refine forall₂_pairwise (S := fun a b => a.2 ≤ b.2) hfl hf.sorted ?_
    intro a _ a' _ b b' h h' hle
    rw [h.2, h'.2]
    exact hg _ _ hle
  · rw [← hfl.length_eq]; exact hf.few

/-! ## Annoy -/

/-- The score Annoy answers carry, for a cosine. -/
noncomputable def annoyScore (c : ℝ) : ℝ := 1 - angular c / 2

theorem annoy_built (m : Source W) (hm : Good m) (trees : Nat) (ht : 0 < trees) :
    annoyInit (some m) (some trees) = ⟨some (indexOf m), some m.keys, some m, some trees⟩ := by
  obtain ⟨n, rfl⟩ : ∃ n, trees = n + 1 := ⟨trees - 1, by omega⟩
  simp [annoyInit, hm.truthy, indexOf]

/-- A query returns at most `k` distinct keys of the model with a score that depends on the cosine only, highest first.
A higher cosine gives a higher score, and scores lie between 0 and 1. -/
theorem C102_annoy_query (m : Source W) (hm : Good m) (trees : Nat) (ht : 0 < trees)
    (nns : (ix : Index) → Vec ix.size → Nat → List (Nat × ℝ)) (q : Vec m.size) (k : Nat)
    (hlib : Answers angular (indexOf m) q k (nns (indexOf m) q k)) :
    (∃ l, annoyMostSimilar nns (annoyInit (some m) (some trees)) m.size q k = .ok l ∧ Ranked m annoyScore q k l) ∧
    (∀ x y : Vec m.size, annoyScore (cosine q x) < annoyScore (cosine q y) ↔ cosine q x < cosine q y) ∧
    (∀ x : Vec m.size, 0 ≤ annoyScore (cosine q x) ∧ annoyScore (cosine q x) ≤ 1) := by
  refine ⟨?_, ?_, ?_⟩
  · obtain ⟨l, hl, hr, -⟩ := ranked m hm angular (fun d => 1 - d / 2) (fun x y h => by linarith) q k _ hlib
    refine ⟨l, ?_, hr⟩
    rw [annoy_built m hm trees ht]
    unfold annoyMostSimilar
    exact (dif_pos rfl).trans hl
  · intro x y
    unfold annoyScore
    constructor
    · intro h
      by_contra hc
      have := angular_le (not_lt.1 hc)
      linarith
    · intro h
      have := angular_lt (cosine_range q y).2 h
      linarith
  · intro x
    have h1 := angular_nonneg (cosine q x)
    have h2 := angular_sq (cosine_range q x).2
    have h3 := (cosine_range q x).1
    unfold annoyScore
    constructor <;> nlinarith

/-- Finding: the documentation calls the number the cosine distance (and `most_similar` calls it a similarity). It is the
cosine only for cosines 1 and one half; it is too small between and too large below. It is never negative. -/
theorem C102_annoy_score_not_cosine (c : ℝ) (h : c ≤ 1) :
    (annoyScore c = c ↔ c = 1 ∨ c = 1 / 2) ∧ (annoyScore c < c ↔ 1 / 2 < c ∧ c < 1) ∧ (c < annoyScore c ↔ c < 1 / 2) := by
  have h1 := angular_nonneg c
  have h2 := angular_sq h
  unfold annoyScore
  set t := angular c
  have hc : c = 1 - t * t / 2 := by linarith
  have key : 1 - t / 2 - c = t * (t - 1) / 2 := by rw [hc]; ring
  have e1 : c = 1 ↔ t = 0 := by
    constructor
    · intro h; nlinarith
    · intro h; rw [hc, h]; ring
  have e2 : c = 1 / 2 ↔ t = 1 := by
    constructor
    · intro h; nlinarith
    · intro h; rw [hc, h]; ring
  have e3 : c < 1 / 2 ↔ 1 < t := by
    constructor
    · intro h; nlinarith
    · intro h; nlinarith
  have e4 : (1 / 2 < c ∧ c < 1) ↔ (t < 1 ∧ 0 < t) := by
    constructor
    · rintro ⟨a, b⟩
      refine ⟨by nlinarith, lt_of_le_of_ne h1 fun e => ?_⟩
      rw [← e] at hc; linarith
    · rintro ⟨a, b⟩
      constructor <;> nlinarith
  rw [e1, e2, e3, e4]
  refine ⟨?_, ?_, ?_⟩
  · constructor
    · intro h
      have : t * (t - 1) = 0 := by linarith
      rcases mul_eq_zero.1 this with h | h
      · exact Or.inl h
      · exact Or.inr (by linarith)
    · rintro (h | h)
      · rw [h] at key; linarith
      · rw [h] at key; linarith
  · constructor
    · intro h
      constructor
      · by_contra hc; nlinarith
      · refine lt_of_le_of_ne h1 fun e => ?_
        rw [← e] at key; linarith
    · rintro ⟨a, b⟩; nlinarith
  · constructor
    · intro h
      by_contra hc
      nlinarith
    · intro h; nlinarith

/-- Saving an indexer and loading it, whatever indexer it is loaded into, gives the same answers to all queries. Other
files are not touched, and loading needs both files. -/
theorem C102_annoy_save_load (m : Source W) (hm : Good m) (trees : Nat) (ht : 0 < trees) (fs : AnnoyFiles W) (fname : String)
    (into : Annoy W) :
    let a := annoyInit (some m) (some trees)
    let fs' := (annoySave fs a fname).2
    (annoySave fs a fname).1 = none ∧
    (∃ b, annoyLoad fs' into fname = .ok b ∧ b.numTrees = some trees ∧
      ∀ nns size (q : Vec size) k, annoyMostSimilar nns b size q k = annoyMostSimilar nns a size q k) ∧
    (∀ other, other ≠ fname → fs'.index other = fs.index other ∧ fs'.dict other = fs.dict other) ∧
    (∀ name, fs.index name = none ∨ fs.dict name = none → annoyLoad fs into name = .error .io) := by
  intro a fs'
  have ha : a = ⟨some (indexOf m), some m.keys, some m, some trees⟩ := annoy_built m hm trees ht
  have hfs : fs' = ⟨fun n => if n = fname then some (indexOf m) else fs.index n,
      fun n => if n = fname then some (m.size, some trees, some m.keys) else fs.dict n⟩ := by
    show (annoySave fs a fname).2 = _
    rw [ha]; rfl
  refine ⟨by rw [ha]; rfl, ⟨⟨some (indexOf m), some m.keys, into.model, some trees⟩, ?_, rfl, ?_⟩, ?_, ?_⟩
  · rw [hfs]
    simp [annoyLoad, indexOf]
  · intro nns size q k
    rw [ha]; rfl
  · intro other ho
    rw [hfs]
    simp [ho]
  · rintro name (h | h)
    · simp [annoyLoad, h]
    · unfold annoyLoad
      rw [h]
      cases fs.index name <;> rfl

/-- Finding: an indexer loaded as the documentation shows, into `AnnoyIndexer()`, answers queries but cannot be saved: the
error comes after the index file was written, so a file is left that cannot be loaded. -/
theorem C102_annoy_loaded_cannot_be_saved (fs : AnnoyFiles W) (fname : String) (b : Annoy W)
    (hb : annoyLoad fs (annoyInit none none) fname = .ok b) (name : String) :
    (annoySave fs b name).1 = some .attribute ∧ (annoySave fs b name).2.index name = fs.index fname ∧
    (fs.dict name = none → ∀ into, annoyLoad (annoySave fs b name).2 into name = .error .io) := by
  unfold annoyLoad at hb
  split at hb
  · rename_i ix f trees labels hix hd
    split at hb
    · cases hb
      refine ⟨rfl, ?_, ?_⟩
      · simp [annoySave, annoyInit, hix]
      · intro hn into
        simp [annoySave, annoyInit, annoyLoad, hn]
    · cases hb
  · cases hb

/-- Finding: saving an indexer that was loaded into the indexer of a model of another vector size succeeds, but what was
saved cannot be loaded. -/
theorem C102_annoy_saved_with_other_size (m m' : Source W) (hm : Good m) (trees : Nat) (ht : 0 < trees)
    (hne : m'.size ≠ m.size) (fs : AnnoyFiles W) (fname name : String) (trees' : Option Nat) (b : Annoy W)
    (hb : annoyLoad (annoySave fs (annoyInit (some m) (some trees)) fname).2 (annoyInit (some m') trees') fname = .ok b)
    (fs' : AnnoyFiles W) (into : Annoy W) :
    (annoySave fs' b name).1 = none ∧ annoyLoad (annoySave fs' b name).2 into name = .error .io := by
  rw [annoy_built m hm trees ht] at hb
  have hmodel : (annoyInit (some m') trees').model = some m' := by
    unfold annoyInit
    split
    · rename_i a n h1 h2
      split <;> simp_all
    · rfl
  simp only [annoySave, annoyLoad, if_true] at hb
  have : (m.size = (indexOf m).size) := rfl
  rw [if_pos this] at hb
  cases hb
  refine ⟨by simp [annoySave, hmodel], ?_⟩
  simp only [annoySave, hmodel, annoyLoad, if_true]
  rw [if_neg]
  exact hne

/-- Finding: an indexer made for an empty `KeyedVectors`, with no tree or with no model is accepted, and every query and
every save then fails with an attribute error. -/
theorem C102_annoy_nothing_built (model : Option (Source W)) (trees : Option Nat)
    (h : model = none ∨ trees = none ∨ trees = some 0 ∨ ∃ m, model = some m ∧ m.truthy = false)
    (nns : (ix : Index) → Vec ix.size → Nat → List (Nat × ℝ)) (size : Nat) (q : Vec size) (k : Nat) (fs : AnnoyFiles W)
    (fname : String) :
    annoyMostSimilar nns (annoyInit model trees) size q k = .error .attribute ∧
    annoySave fs (annoyInit model trees) fname = (some .attribute, fs) := by
  have : annoyInit model trees = { model := model, numTrees := trees } := by
    unfold annoyInit
    split
    · rename_i m n
      rcases h with h | h | h | ⟨m', h, ht⟩
      · cases h
      · cases h
      · cases h
      · cases h
        simp [ht]
    · rfl
  rw [this]
  exact ⟨rfl, rfl⟩

/-! ## NMSLIB -/

theorem nms_built (dflt : Q) (m : Source W) (hm : Good m) (query : Option Q) :
    nmsInit dflt (some m) query = ⟨some ⟨indexOf m, some (query.getD dflt)⟩, some m.keys, query.getD dflt⟩ := by
  simp [nmsInit, hm.truthy, indexOf]

/-- A query of the NMSLIB indexer returns at most `k` distinct keys with their cosines, highest first; the index is searched
with the parameters given, or the default ones. -/
theorem C102_nmslib_query (dflt : Q) (m : Source W) (hm : Good m) (query : Option Q)
    (knn : (ix : Index) → Option Q → Vec ix.size → Nat → List (Nat × ℝ)) (q : Vec m.size) (k : Nat)
    (hlib : Answers cosDist (indexOf m) q k (knn (indexOf m) (some (query.getD dflt)) q k)) :
    ∃ l, nmsMostSimilar knn (nmsInit dflt (some m) query) m.size q k = .ok l ∧ Ranked m (fun c => c) q k l := by
  obtain ⟨l, hl, hr, -⟩ := ranked m hm cosDist (fun d => 1 - d) (fun x y h => by linarith) q k _ hlib
  refine ⟨l, ?_, ?_⟩
  · rw [nms_built dflt m hm query]
    unfold nmsMostSimilar
    exact (dif_pos rfl).trans hl
  · have : (fun c => 1 - cosDist c) = fun c : ℝ => c := by funext c; unfold cosDist; ring
    rw [this] at hr
    exact hr

/-- Saving and loading keeps the labels, the index and the recorded parameters, and a loaded indexer can be saved and loaded
again. Finding: the query time parameters are not set on the loaded index, so the answers are those of the library's own
parameters. -/
theorem C102_nmslib_save_load (dflt dflt' : Q) (m : Source W) (hm : Good m) (query : Option Q) (fs : NmsFiles W Q)
    (fname : String) :
    let a := nmsInit dflt (some m) query
    let fs' := (nmsSave fs a fname).2
    (nmsSave fs a fname).1 = none ∧
    ∃ b, nmsLoad dflt' fs' fname = .ok b ∧ b.queryParams = query.getD dflt ∧
      (∀ knn (q : Vec m.size) k, nmsMostSimilar knn b m.size q k =
        answer m.keys (fun dist => 1 - dist) (knn (indexOf m) none q k)) ∧
      (∀ knn (q : Vec m.size) k, nmsMostSimilar knn a m.size q k =
        answer m.keys (fun dist => 1 - dist) (knn (indexOf m) (some (query.getD dflt)) q k)) ∧
      (∀ fs2 name, (nmsSave fs2 b name).1 = none ∧ nmsLoad dflt' (nmsSave fs2 b name).2 name = .ok b) := by
  intro a fs'
  have ha : a = ⟨some ⟨indexOf m, some (query.getD dflt)⟩, some m.keys, query.getD dflt⟩ := nms_built dflt m hm query
  have hfs : fs' = ⟨fun n => if n = fname then some (indexOf m) else fs.index n,
      fun n => if n = fname then some (query.getD dflt, some m.keys) else fs.dict n⟩ := by
    show (nmsSave fs a fname).2 = _
    rw [ha]; rfl
  refine ⟨by rw [ha]; rfl, ⟨some ⟨indexOf m, none⟩, some m.keys, query.getD dflt⟩, ?_, rfl, ?_, ?_, ?_⟩
  · rw [hfs]
    simp [nmsLoad, nmsInit]
  · intro knn q k
    unfold nmsMostSimilar
    exact dif_pos rfl
  · intro knn q k
    rw [ha]
    unfold nmsMostSimilar
    exact dif_pos rfl
  · intro fs2 name
    exact ⟨rfl, by simp [nmsSave, nmsLoad, nmsInit]⟩

/-! ## `most_similar` with an indexer -/

section
variable [DecidableEq W]

theorem normedVector_ok (m : Source W) (hm : Good m) (w : W) (x : Vec m.size) (h : HasVec m w x) :
    normedVector m w = .ok (unit x) := by
  obtain ⟨i, hk, hv⟩ := h
  have hi := (List.getElem?_eq_some_iff.1 hk).1
  have hmem : w ∈ m.keys := List.mem_of_getElem? hk
  have hidx : m.keys.idxOf w = i := by
    have h1 : m.keys[m.keys.idxOf w]? = some w := by
      rw [List.getElem?_eq_getElem (List.idxOf_lt_length_of_mem hmem), List.getElem_idxOf]
    exact (List.getElem?_inj (List.idxOf_lt_length_of_mem hmem) hm.nodup).1 (h1.trans hk.symm)
  unfold normedVector
  rw [TransMat.idxOf?_of_mem _ _ hmem, hidx]
  simp only [hv]

/-- The mean of the weighted unit vectors of the query. -/
noncomputable def queryVector {d : Nat} (vs : List (Vec d × ℝ)) : Vec d :=
  fun k => (vs.map fun p => p.2 * unit p.1 k).sum / vs.length

/-- With an indexer, `most_similar` returns what the indexer answers for the unit vector of the mean of the weighted unit
vectors. Finding: `restrict_vocab`, `clip_start` and `clip_end` are ignored. -/
theorem C102_most_similar_with_indexer (m : Source W) (hm : Good m)
    (indexer : Vec m.size → Nat → Except Err (List (W × ℝ))) (query : List (W × Vec m.size × ℝ)) (hq : query ≠ [])
    (hv : ∀ p ∈ query, HasVec m p.1 p.2.1) (topn : Nat) (ht : 0 < topn) (clip : Nat × Nat) :
    mostSimilarWith m indexer (query.map fun p => (p.1, p.2.2)) topn clip =
      indexer (unit (queryVector (query.map (·.2)))) topn ∧
    mostSimilarWith m indexer [] topn clip = .error .value ∧ (∀ n : Int, n < 1 → ∀ l, mostSimilarWith m indexer l n clip = .ok []) ∧
    ∀ w weight, w ∉ m.keys → mostSimilarWith m indexer [(w, weight)] topn clip = .error .key := by
  have hn : ¬ ((topn : Int) < 1) := by omega
  refine ⟨?_, ?_, ?_, ?_⟩
  · have hmap : (query.map fun p => (p.1, p.2.2)).mapM (fun p => do
        let v ← normedVector m p.1
        return (fun k => p.2 * v k : Vec m.size)) =
        (.ok (query.map fun p => (fun k => p.2.2 * unit p.2.1 k : Vec m.size)) : Except Err _) := by
      clear hq
      induction query with
      | nil => rfl
      | cons p t ih =>
        rw [List.map_cons, List.mapM_cons, ih fun x hx => hv x (List.mem_cons_of_mem _ hx),
          normedVector_ok m hm _ _ (hv p List.mem_cons_self)]
        rfl
    unfold mostSimilarWith
    rw [if_neg hn, hmap]
    show (if _ then _ else _) = _
    rw [if_neg (by simpa using hq)]
    congr 2
    funext k
    unfold queryVector
    simp [List.map_map, Function.comp_def]
  · unfold mostSimilarWith
    rw [if_neg hn]
    rfl
  · intro n hn l
    unfold mostSimilarWith
    rw [if_pos hn]
  · intro w weight hw
    unfold mostSimilarWith
    rw [if_neg hn, List.mapM_cons]
    have : normedVector m w = .error .key := by
      unfold normedVector
      rw [List.idxOf?_eq_none_iff.2 hw]
    simp only [this]
    rfl

/-- Finding: unlike a plain query, one with an indexer does not leave out the queried key. If the index is exact, the best
answer has the direction of the queried key, with score 1; it is the key itself unless another key has that
direction. -/
theorem C102_indexer_returns_the_query (m : Source W) (hm : Good m) (trees : Nat) (ht : 0 < trees)
    (nns : (ix : Index) → Vec ix.size → Nat → List (Nat × ℝ)) (topn : Nat) (hn : 0 < topn) (clip : Nat × Nat)
    (hlib : ∀ q, Exact angular (indexOf m) q topn (nns (indexOf m) q topn)) (w : W) (x : Vec m.size) (hw : HasVec m w x) :
    ∃ w' y l, mostSimilarWith m (annoyMostSimilar nns (annoyInit (some m) (some trees)) m.size) [(w, 1)] topn clip =
        .ok ((w', 1) :: l) ∧ HasVec m w' y ∧ cosine x y = 1 ∧
      ((∀ v z, HasVec m v z → cosine x z = 1 → v = w) → w' = w) := by
  have hx : dot x x ≠ 0 := hm.nonzero x (List.mem_of_getElem? hw.choose_spec.2)
  have hq := (C102_most_similar_with_indexer m hm
    (annoyMostSimilar nns (annoyInit (some m) (some trees)) m.size) [(w, x, 1)] (by simp)
    (by simpa using hw) topn hn clip).1
  have hqv : queryVector [(x, (1 : ℝ))] = unit x := by
    funext k; simp [queryVector]
  have hux : dot (unit x) (unit x) ≠ 0 := by rw [dot_unit_self x hx]; norm_num
  have hcos : ∀ y : Vec m.size, cosine (unit (unit x)) y = cosine x y := by
    intro y
    rw [cosine_comm, cosine_unit y _ hux, cosine_unit y x hx, cosine_comm]
  simp only [List.map_cons, List.map_nil, hqv] at hq
  rw [hq]
  have hE := hlib (unit (unit x))
  obtain ⟨l, hl, hr, hfl⟩ := ranked m hm angular (fun d => 1 - d / 2) (fun x y h => by linarith) _ topn _ hE.1
  have hms : annoyMostSimilar nns (annoyInit (some m) (some trees)) m.size (unit (unit x)) topn = .ok l := by
    rw [annoy_built m hm trees ht]
    unfold annoyMostSimilar
    exact (dif_pos rfl).trans hl
  rw [hms]
  -- the item of the key itself
  obtain ⟨i, hki, hvi⟩ := id hw
  have hitem : (indexOf m).items[i]? = some (unit x) := by
    show (m.vectors.map unit)[i]? = _
    rw [List.getElem?_map, hvi]; rfl
  have hd0 : angular (cosine (unit (unit x)) (unit x)) = 0 := by
    rw [hcos, cosine_unit x x hx, cosine_self x hx]
    simp [angular]
  generalize nns (indexOf m) (unit (unit x)) topn = found at hE hfl
  cases hfl with
  | nil =>
    have := (hE.2 i (unit x) hitem (by simp)).1
    simp at this
    omega
  | @cons p r t t' hpr htt =>
    -- the first distance is zero
    have hp0 : p.2 ≤ 0 := by
      by_cases hi : i ∈ (p :: t).map (·.1)
      · obtain ⟨p', hp', he⟩ := List.mem_map.1 hi
        obtain ⟨y, hy, hdy⟩ := hE.1.valid p' hp'
        rw [he, hitem] at hy
        cases hy
        have h0 : p'.2 = 0 := hdy.trans hd0
        rcases List.mem_cons.1 hp' with rfl | hp'
        · exact h0.le
        · exact ((List.pairwise_cons.1 hE.1.sorted).1 p' hp').trans h0.le
      · have := (hE.2 i (unit x) hitem hi).2 p List.mem_cons_self
        exact this.trans (le_of_eq hd0)
    obtain ⟨y, hy, hs⟩ := hr.scored r List.mem_cons_self
    obtain ⟨y', hy', hs'⟩ := hE.1.valid p List.mem_cons_self
    have hp0' : p.2 = 0 := le_antisymm hp0 (hs' ▸ angular_nonneg _)
    have hr2 : r.2 = 1 := by rw [hpr.2, hp0']; ring
    have hc1 : cosine x y = 1 := by
      have hs : r.2 = 1 - angular (cosine x y) / 2 := hs.trans (congrArg (fun c => 1 - angular c / 2) (hcos y))
      have ha : angular (cosine x y) = 0 := by linarith
      have := angular_sq (cosine_range x y).2
      rw [ha] at this
      linarith
    refine ⟨r.1, y, t', ?_, hy, hc1, fun h => h _ _ hy hc1⟩
    rw [← hr2]

end

/-! ## The hypotheses can be met -/

/-- An exact index: all items, sorted by distance. -/
noncomputable def exactNns (dist : ℝ → ℝ) (ix : Index) (q : Vec ix.size) (k : Nat) : List (Nat × ℝ) :=
  open Classical in
  (((ix.items.map fun x => dist (cosine q x)).zipIdx.map fun p => (p.2, p.1)).mergeSort
    fun a b => decide (a.2 ≤ b.2)).take k

theorem exactNns_ok (dist : ℝ → ℝ) (ix : Index) (q : Vec ix.size) (k : Nat) :
    Exact dist ix q k (exactNns dist ix q k) := by
  classical
  unfold exactNns
  set all := (ix.items.map fun x => dist (cosine q x)).zipIdx.map fun p => (p.2, p.1) with hall
  have hmemAll : ∀ p, p ∈ all ↔ ∃ x, ix.items[p.1]? = some x ∧ p.2 = dist (cosine q x) := by
    rintro ⟨i, s⟩
    rw [hall]
    simp only [List.mem_map, Prod.mk.injEq, Prod.exists]
    constructor
    · rintro ⟨a, b, h, rfl, rfl⟩
      rw [List.mem_zipIdx_iff_getElem?, List.getElem?_map, Option.map_eq_some_iff] at h
      obtain ⟨x, hx, he⟩ := h
      exact ⟨x, hx, he.symm⟩
    · rintro ⟨x, hx, rfl⟩
      refine ⟨_, _, ?_, rfl, rfl⟩
      rw [List.mem_zipIdx_iff_getElem?, List.getElem?_map, hx]
      rfl
  have hnd : (all.map (·.1)).Nodup := by
    rw [hall, List.map_map]
    have : ((fun p : Nat × ℝ => p.1) ∘ fun p : ℝ × Nat => (p.2, p.1)) = Prod.snd := rfl
    rw [this, List.zipIdx_map_snd]
    exact List.nodup_range' ..
  set srt := all.mergeSort fun a b => decide (a.2 ≤ b.2) with hsrt
  have hperm : srt.Perm all := List.mergeSort_perm _ _
  have hsorted : srt.Pairwise fun a b => a.2 ≤ b.2 := by
    have := List.pairwise_mergeSort (le := fun a b : Nat × ℝ => decide (a.2 ≤ b.2))
      (fun a b c h1 h2 => by simp only [decide_eq_true_eq] at *; linarith)
      (fun a b => by simp only [Bool.or_eq_true, decide_eq_true_eq]; exact le_total _ _) all
    simpa using this
  have hnd' : (srt.map (·.1)).Nodup := ((hperm.map _).nodup_iff).2 hnd
  refine ⟨⟨?_, ?_, ?_, ?_⟩, ?_⟩
  · intro p hp
    exact (hmemAll p).1 (hperm.mem_iff.1 ((List.take_subset _ _) hp))
  · rw [List.map_take]
    exact hnd'.sublist (List.take_sublist _ _)
  · exact hsorted.sublist (List.take_sublist _ _)
  · rw [List.length_take]; exact min_le_left _ _
  · intro i x hx hi
    have hin : (i, dist (cosine q x)) ∈ srt := hperm.mem_iff.2 ((hmemAll _).2 ⟨x, hx, rfl⟩)
    rw [← List.take_append_drop k srt] at hin hsorted
    have hdrop : (i, dist (cosine q x)) ∈ srt.drop k := by
      rcases List.mem_append.1 hin with h | h
      · exact absurd (List.mem_map.2 ⟨_, h, rfl⟩) hi
      · exact h
    refine ⟨?_, fun p hp => (List.pairwise_append.1 hsorted).2.2 p hp _ hdrop⟩
    rw [List.length_take]
    have := List.length_pos_of_mem hdrop
    rw [List.length_drop] at this
    omega

/-- Two words in the plane. -/
noncomputable def exModel : Source String := ⟨2, ["cat", "dog"], [![3, 4], ![1, 0]], true⟩

theorem exModel_good : Good exModel := by
  refine ⟨by decide, rfl, ?_, rfl⟩
  intro (v : Vec 2) hv
  have hv : v ∈ ([![3, 4], ![1, 0]] : List (Vec 2)) := hv
  rw [List.mem_cons, List.mem_singleton] at hv
  rcases hv with h | h
  · have : dot (![3, 4] : Vec 2) ![3, 4] ≠ 0 := by simp [dot, Fin.sum_univ_two]; norm_num
    exact h ▸ this
  · have : dot (![1, 0] : Vec 2) ![1, 0] ≠ 0 := by simp [dot, Fin.sum_univ_two]
    exact h ▸ this

theorem exHas : HasVec exModel "cat" ![3, 4] := ⟨0, rfl, rfl⟩

example : ∃ l, annoyMostSimilar (exactNns angular) (annoyInit (some exModel) (some 3)) 2 ![1, 1] 5 = .ok l ∧
    Ranked exModel annoyScore ![1, 1] 5 l :=
  (C102_annoy_query exModel exModel_good 3 (by norm_num) (exactNns angular) ![1, 1] 5 (exactNns_ok _ _ _ _).1).1

example : ∃ l, nmsMostSimilar (fun ix (_ : Option Nat) => exactNns cosDist ix) (nmsInit 100 (some exModel) none) 2 ![1, 1] 5 =
    .ok l ∧ Ranked exModel (fun c => c) ![1, 1] 5 l :=
  C102_nmslib_query 100 exModel exModel_good none _ ![1, 1] 5 (exactNns_ok _ _ _ _).1

/-- Querying "cat" through an exact index answers "cat" first, with score 1. -/
example : ∃ l, mostSimilarWith exModel (annoyMostSimilar (exactNns angular) (annoyInit (some exModel) (some 3)) 2)
    [("cat", 1)] 1 (0, 0) = .ok (("cat", 1) :: l) := by
  obtain ⟨w', y, l, h, hy, hc, hu⟩ := C102_indexer_returns_the_query exModel exModel_good 3 (by norm_num) (exactNns angular) 1
    one_pos (0, 0) (fun q => exactNns_ok _ _ _ _) "cat" _ exHas
  have : w' = "cat" := by
    refine hu ?_
    rintro v z ⟨i, hk, hv⟩ h1
    match i, hk, hv with
    | 0, hk, _ => exact (Option.some.inj hk).symm
    | 1, _, hv =>
      exfalso
      have : z = ![1, 0] := (Option.some.inj hv).symm
      rw [this] at h1
      have h25 : Real.sqrt 25 = 5 := by
        rw [show (25 : ℝ) = 5 ^ 2 by norm_num]; exact Real.sqrt_sq (by norm_num)
      have e1 : dot (![3, 4] : Vec 2) ![1, 0] = 3 := by simp [dot, Fin.sum_univ_two]
      have e2 : dot (![3, 4] : Vec 2) ![3, 4] = 25 := by simp [dot, Fin.sum_univ_two]; norm_num
      have e3 : dot (![1, 0] : Vec 2) ![1, 0] = 1 := by simp [dot, Fin.sum_univ_two]
      have : cosine (![3, 4] : Vec 2) ![1, 0] = 3 / 5 := by
        unfold cosine
        rw [e1, e2, e3, h25, Real.sqrt_one]; norm_num
      have h35 : (3 / 5 : ℝ) = 1 := this.symm.trans h1
      norm_num at h35
    | n + 2, hk, _ => simp [exModel] at hk
  subst this
  exact ⟨l, h⟩

/-- Loading an index gives other answers than the one saved, for a library whose answers depend on the parameters. -/
example : ∃ (fs : NmsFiles String Nat) (b : Nmslib String Nat) (knn : (ix : Index) → Option Nat → Vec ix.size → Nat → List (Nat × ℝ)),
    nmsLoad 100 (nmsSave fs (nmsInit 100 (some exModel) (some 7)) "f").2 "f" = .ok b ∧
    nmsMostSimilar knn b 2 ![1, 1] 1 ≠ nmsMostSimilar knn (nmsInit 100 (some exModel) (some 7)) 2 ![1, 1] 1 := by
  obtain ⟨-, b, hb, -, h1, h2, -⟩ := C102_nmslib_save_load (W := String) 100 100 exModel exModel_good (some 7)
    ⟨fun _ => none, fun _ => none⟩ "f"
  refine ⟨_, b, fun _ p _ _ => if p = none then [] else [(0, 0)], hb, ?_⟩
  rw [show nmsMostSimilar _ b 2 ![1, 1] 1 = _ from h1 _ _ _, show nmsMostSimilar _ _ 2 ![1, 1] 1 = _ from h2 _ _ _]
  intro h
  simp [answer, exModel] at h
  cases h

end Verif.Ann
