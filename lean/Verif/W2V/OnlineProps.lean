import Verif.W2V.OnlineModel
import Verif.W2V.VocabProps

/-!
# C85: building the vocabulary and the weights
-/

namespace Verif.W2V
open Verif PyDict Vocab

variable {τ : Type} [DecidableEq τ] {V : Type}

/-! ## Specification -/

/-- Every word has a row among the vectors and among the output rows, and there are no others. -/
structure Sized (m : Weights τ V) : Prop where
  good : Good m.wv
  vectors : m.vectors.length = m.wv.i2k.length
  out : m.out.length = m.wv.i2k.length

/-- The vector of a word. -/
def vectorOf (m : Weights τ V) (w : τ) : Option V := (get? m.wv.k2i w).bind fun i => m.vectors[i]?

/-- The output row of a word. -/
def outOf (m : Weights τ V) (w : τ) : Option V := (get? m.wv.k2i w).bind fun i => m.out[i]?

/-! ## Proofs -/

theorem prepVectors_some (fresh : Nat → V) (target : Nat) (prior : List V) (h : prior.length ≤ target) :
    ∃ vs, prepVectors fresh target prior = some vs ∧ vs.length = target ∧
      (∀ i < prior.length, vs[i]? = prior[i]?) ∧
      ∀ i, prior.length ≤ i → i < target → vs[i]? = some (fresh i) := by
  unfold prepVectors
  by_cases he : prior.length = target
  · rw [if_pos he]
    exact ⟨prior, rfl, he, fun _ _ => rfl, fun i h1 h2 => by omega⟩
  · rw [if_neg he, if_neg (by omega)]
    refine ⟨_, rfl, by simp; omega, ?_, ?_⟩
    · intro i hi
      rw [List.getElem?_append_left hi]
    · intro i h1 h2
      rw [List.getElem?_append_right h1, List.getElem?_map, List.getElem?_range' (by omega)]
      simp only [Option.map_some, Nat.one_mul]
      congr 2
      omega

/-- **C85.** Adding words to a model that has some (`build_vocab(update=True)`) never fails, keeps the
vector and the output row of every word, and gives new words random vectors and zero output rows. -/
theorem C85_update (argsort : List Nat → List Nat) (fresh : Nat → V) (zero : V) (m : Weights τ V)
    (h : Sized m) (hne : m.wv.i2k ≠ []) (cfg : Cfg τ) (raw : PyDict τ Nat) (hr : WF raw) :
    ∃ m', buildFull argsort fresh zero m ⟨true, cfg, raw⟩ = some m' ∧ Sized m' ∧
      (∀ w ∈ m.wv.i2k, get? m'.wv.k2i w = get? m.wv.k2i w ∧ vectorOf m' w = vectorOf m w ∧
        outOf m' w = outOf m w) ∧
      ∀ w ∈ m'.wv.i2k, w ∉ m.wv.i2k → outOf m' w = some zero ∧ ∃ i, vectorOf m' w = some (fresh i) := by
  obtain ⟨u1, _, u3⟩ := update_ok cfg hr h.good
  have hlen : m.vectors.length ≤ (prepareUpdate cfg raw m.wv).i2k.length := by
    rw [h.vectors]
    exact u3.length_le
  obtain ⟨vs, v1, v2, v3, v4⟩ := prepVectors_some fresh _ m.vectors hlen
  have hpos : ¬ m.vectors.length = 0 := by
    rw [h.vectors]
    have := List.length_pos_iff.2 hne
    omega
  refine ⟨{ wv := prepareUpdate cfg raw m.wv, vectors := vs,
            out := m.out ++ List.replicate (vs.length - m.vectors.length) zero }, ?_, ⟨u1, v2, ?_⟩, ?_, ?_⟩
  · unfold buildFull
    rw [if_pos rfl]
    dsimp only
    rw [if_neg hpos, v1]
    rfl
  · have := h.out
    have := h.vectors
    simp only [List.length_append, List.length_replicate]
    omega
  · intro w hw
    obtain ⟨i, hi⟩ := List.mem_iff_getElem?.mp hw
    have hlt : i < m.wv.i2k.length := (List.getElem?_eq_some_iff.mp hi).1
    have hi' : (prepareUpdate cfg raw m.wv).i2k[i]? = some w := by
      obtain ⟨t, ht⟩ := u3
      rw [← ht, List.getElem?_append_left hlt]
      exact hi
    have e1 := (h.good.inverse w i).2 hi
    have e2 := (u1.inverse w i).2 hi'
    refine ⟨by dsimp only; rw [e1, e2], ?_, ?_⟩
    · simp only [vectorOf, e1, e2, Option.bind_some]
      exact v3 i (by rw [h.vectors]; exact hlt)
    · simp only [outOf, e1, e2, Option.bind_some]
      rw [List.getElem?_append_left (by rw [h.out]; exact hlt)]
  · intro w hw hnew
    obtain ⟨i, hi⟩ := List.mem_iff_getElem?.mp hw
    have hlt : i < (prepareUpdate cfg raw m.wv).i2k.length := (List.getElem?_eq_some_iff.mp hi).1
    have hge : m.wv.i2k.length ≤ i := by
      by_contra hcon
      obtain ⟨t, ht⟩ := u3
      have hi'' : (prepareUpdate cfg raw m.wv).i2k[i]? = some w := hi
      rw [← ht, List.getElem?_append_left (by omega)] at hi''
      exact hnew (List.mem_of_getElem? hi'')
    have e2 := (u1.inverse w i).2 hi
    have hlo := h.out
    have hlv := h.vectors
    refine ⟨?_, i, ?_⟩
    · simp only [outOf, e2, Option.bind_some]
      rw [List.getElem?_append_right (by omega), List.getElem?_replicate, if_pos (by omega)]
    · simp only [vectorOf, e2, Option.bind_some]
      exact v4 i (by omega) hlt

/-- **C85.** The first vocabulary: random vectors and zero output rows for all words. -/
theorem C85_first {argsort : List Nat → List Nat} (ha : ArgsortOk argsort) (fresh : Nat → V) (zero : V)
    (cfg : Cfg τ) (raw : PyDict τ Nat) (hr : WF raw)
    (hk : ∃ w c, get? raw w = some c ∧ Kept ⟨false, cfg, raw⟩ w c) :
    ∃ m, buildFull argsort fresh zero (Weights.empty : Weights τ V) ⟨false, cfg, raw⟩ = some m ∧
      Sized m ∧ m.wv.i2k ≠ [] ∧
      ∀ w ∈ m.wv.i2k, outOf m w = some zero ∧ ∃ i, vectorOf m w = some (fresh i) := by
  obtain ⟨f1, f2, _, _⟩ := fresh_ok ha cfg hr (⟨[], [], []⟩ : WV τ) hk
  obtain ⟨vs, v1, v2, _, v4⟩ := prepVectors_some fresh
    (prepareFresh argsort cfg raw (⟨[], [], []⟩ : WV τ)).i2k.length ([] : List V) (by simp)
  refine ⟨{ wv := prepareFresh argsort cfg raw ⟨[], [], []⟩, vectors := vs,
            out := List.replicate (prepareFresh argsort cfg raw ⟨[], [], []⟩).i2k.length zero },
    ?_, ⟨f1, v2, by simp⟩, ?_, ?_⟩
  · unfold buildFull
    rw [if_neg (by simp)]
    have hs : ∀ c : Prop, [Decidable c] → ∀ idx : List Nat,
        (if c then reorderVectors idx ([] : List V) else some []) = some [] := by
      intro c _ idx
      split <;> simp [reorderVectors]
    dsimp only [Weights.empty]
    rw [hs, Option.bind_some, v1]
    rfl
  · obtain ⟨w, c, hw, hkept⟩ := hk
    intro hnil
    dsimp only at hnil
    rw [hnil] at f2
    have : w ∈ keys (raw.filter (fun p => keepItem cfg.rule p.1 p.2 (effective cfg raw))) :=
      (mem_kept hr _ w).2 ⟨c, hw, hkept⟩
    exact absurd (f2.mem_iff.2 this) (by simp)
  · intro w hw
    obtain ⟨i, hi⟩ := List.mem_iff_getElem?.mp hw
    have hlt : i < (prepareFresh argsort cfg raw (⟨[], [], []⟩ : WV τ)).i2k.length :=
      (List.getElem?_eq_some_iff.mp hi).1
    have e2 := (f1.inverse w i).2 hi
    refine ⟨?_, i, ?_⟩
    · simp only [outOf, e2, Option.bind_some]
      rw [List.getElem?_replicate, if_pos hlt]
    · simp only [vectorOf, e2, Option.bind_some]
      exact v4 i (by simp) hlt

/-- **C85.** After a first vocabulary, any sequence of training and adding words goes through, with a vector
and an output row for every word, and keeps all words. -/
theorem C85_history (argsort : List Nat → List Nat) (fresh : Nat → V) (zero : V) (ops : List (WOp τ V))
    (hops : ∀ cfg raw, WOp.more cfg raw ∈ ops → WF raw) (m : Weights τ V) (h : Sized m)
    (hne : m.wv.i2k ≠ []) :
    ∃ m', ops.foldlM (wstep argsort fresh zero) m = some m' ∧ Sized m' ∧ m'.wv.i2k ≠ [] ∧
      ∀ w ∈ m.wv.i2k, get? m'.wv.k2i w = get? m.wv.k2i w := by
  induction ops generalizing m with
  | nil => exact ⟨m, rfl, h, hne, fun _ _ => rfl⟩
  | cons op ops ih =>
    have hops' := fun cfg raw hm => hops cfg raw (List.mem_cons_of_mem op hm)
    cases op with
    | train f g =>
      obtain ⟨m', h1, h2, h3, h4⟩ := ih hops' { m with vectors := m.vectors.mapIdx f, out := m.out.mapIdx g }
        ⟨h.good, by simpa using h.vectors, by simpa using h.out⟩ hne
      refine ⟨m', ?_, h2, h3, h4⟩
      rw [List.foldlM_cons]
      exact h1
    | more cfg raw =>
      obtain ⟨m1, g1, g2, g3, _⟩ := C85_update argsort fresh zero m h hne cfg raw
        (hops cfg raw List.mem_cons_self)
      have hsub : ∀ w ∈ m.wv.i2k, w ∈ m1.wv.i2k := by
        intro w hw
        have := (g3 w hw).1
        obtain ⟨i, hi⟩ := List.mem_iff_getElem?.mp hw
        rw [(h.good.inverse w i).2 hi] at this
        exact List.mem_of_getElem? ((g2.good.inverse w i).1 this)
      have hne1 : m1.wv.i2k ≠ [] := by
        obtain ⟨w, hw⟩ := List.exists_mem_of_ne_nil _ hne
        exact List.ne_nil_of_mem (hsub w hw)
      obtain ⟨m', h1, h2, h3, h4⟩ := ih hops' m1 g2 hne1
      refine ⟨m', ?_, h2, h3, ?_⟩
      · rw [List.foldlM_cons, wstep, g1]
        exact h1
      · intro w hw
        rw [h4 w (hsub w hw), (g3 w hw).1]

theorem mapM_getElem?_some {idx : List Nat} {vs : List V} (h : ∀ i ∈ idx, i < vs.length) :
    ∃ out, (idx.mapM fun i => vs[i]?) = some out ∧ out.length = idx.length ∧ ∀ x ∈ out, x ∈ vs := by
  induction idx with
  | nil => exact ⟨[], rfl, rfl, by simp⟩
  | cons i idx ih =>
    obtain ⟨out, h1, h2, h3⟩ := ih fun j hj => h j (List.mem_cons_of_mem _ hj)
    have hi := h i List.mem_cons_self
    refine ⟨vs[i] :: out, ?_, by simp [h2], ?_⟩
    · rw [List.mapM_cons, h1, List.getElem?_eq_getElem hi]
      rfl
    · intro x hx
      rcases List.mem_cons.1 hx with rfl | hx
      · exact List.getElem_mem hi
      · exact h3 x hx

theorem mapM_getElem?_none {idx : List Nat} {vs : List V} (i : Nat) (hi : i ∈ idx)
    (h : vs.length ≤ i) : (idx.mapM fun i => vs[i]?) = none := by
  induction idx with
  | nil => exact absurd hi (by simp)
  | cons j idx ih =>
    rw [List.mapM_cons]
    rcases List.mem_cons.1 hi with rfl | hi
    · rw [List.getElem?_eq_none h]
      rfl
    · rw [ih hi]
      cases vs[j]? <;> rfl

/-- **C85.** Building a new vocabulary (`update=False`) on a model that has vectors does not reset them,
although it is meant to.  With the default `sorted_vocab` it raises if there are more words than before
and otherwise gives the new words vectors of old words; without sorting it raises if there are fewer
words, and otherwise the first words get the old vectors in order. -/
theorem C85_rebuild {argsort : List Nat → List Nat} (ha : ArgsortOk argsort) (fresh : Nat → V) (zero : V)
    (m : Weights τ V) (hv : m.vectors ≠ []) (cfg : Cfg τ) (raw : PyDict τ Nat) (hr : WF raw)
    (hk : ∃ w c, get? raw w = some c ∧ Kept ⟨false, cfg, raw⟩ w c) :
    let words := keys (raw.filter fun p => keepItem cfg.rule p.1 p.2 (effective cfg raw))
    (cfg.sorted = true → m.vectors.length < words.length →
      buildFull argsort fresh zero m ⟨false, cfg, raw⟩ = none) ∧
    (cfg.sorted = true → words.length ≤ m.vectors.length →
      ∃ m', buildFull argsort fresh zero m ⟨false, cfg, raw⟩ = some m' ∧
        m'.vectors.length = words.length ∧ ∀ x ∈ m'.vectors, x ∈ m.vectors) ∧
    (cfg.sorted = false → words.length < m.vectors.length →
      buildFull argsort fresh zero m ⟨false, cfg, raw⟩ = none) ∧
    (cfg.sorted = false → m.vectors.length ≤ words.length →
      ∃ m', buildFull argsort fresh zero m ⟨false, cfg, raw⟩ = some m' ∧
        ∀ i < m.vectors.length, m'.vectors[i]? = m.vectors[i]?) := by
  obtain ⟨_, f2, _, _⟩ := fresh_ok ha cfg hr m.wv hk
  obtain ⟨u1, u2, _, _⟩ := fresh_ok ha { cfg with sorted := false } hr m.wv hk
  dsimp only
  have hlen := f2.length_eq
  have ulen := u2.length_eq
  have ueff : (keys (raw.filter fun p => keepItem ({ cfg with sorted := false } : Cfg τ).rule p.1 p.2
      (effective { cfg with sorted := false } raw))).length
      = (keys (raw.filter fun p => keepItem cfg.rule p.1 p.2 (effective cfg raw))).length := rfl
  rw [ueff] at ulen
  have hpos : 0 < (keys (raw.filter fun p => keepItem cfg.rule p.1 p.2 (effective cfg raw))).length := by
    obtain ⟨w, c, hw, hkept⟩ := hk
    have : w ∈ keys (raw.filter (fun p => keepItem cfg.rule p.1 p.2 (effective cfg raw))) :=
      (mem_kept hr _ w).2 ⟨c, hw, hkept⟩
    exact List.length_pos_of_mem this
  have hperm := (ha (prepareFresh argsort { cfg with sorted := false } raw m.wv).counts).1
  have hcl := u1.counts
  have hvpos : m.vectors.length > 0 := List.length_pos_iff.2 hv
  refine ⟨?_, ?_, ?_, ?_⟩
  · intro hs hlt
    unfold buildFull
    rw [if_neg (by simp)]
    dsimp only
    rw [if_pos ⟨hs, by omega⟩]
    unfold reorderVectors
    rw [if_pos hvpos, mapM_getElem?_none m.vectors.length _ (Nat.le_refl _)]
    · rfl
    · rw [List.mem_reverse, hperm.mem_iff, List.mem_range]
      omega
  · intro hs hle
    have hidx : ∀ i ∈ (argsort (prepareFresh argsort { cfg with sorted := false } raw m.wv).counts).reverse,
        i < m.vectors.length := by
      intro i hi
      rw [List.mem_reverse, hperm.mem_iff, List.mem_range] at hi
      omega
    obtain ⟨out, o1, o2, o3⟩ := mapM_getElem?_some hidx
    have ol : out.length = (prepareFresh argsort cfg raw m.wv).i2k.length := by
      rw [o2, List.length_reverse, hperm.length_eq, List.length_range]
      omega
    refine ⟨{ wv := prepareFresh argsort cfg raw m.wv, vectors := out,
              out := List.replicate (prepareFresh argsort cfg raw m.wv).i2k.length zero }, ?_, ?_, o3⟩
    · unfold buildFull
      rw [if_neg (by simp)]
      dsimp only
      rw [if_pos ⟨hs, by omega⟩]
      unfold reorderVectors
      rw [if_pos hvpos, o1, Option.bind_some]
      unfold prepVectors
      rw [if_pos ol]
      rfl
    · dsimp only
      omega
  · intro hs hlt
    unfold buildFull
    rw [if_neg (by simp)]
    dsimp only
    rw [if_neg (by simp [hs]), Option.bind_some]
    unfold prepVectors
    rw [if_neg (by omega), if_pos (by omega)]
    rfl
  · intro hs hle
    obtain ⟨vs, v1, v2, v3, _⟩ := prepVectors_some fresh (prepareFresh argsort cfg raw m.wv).i2k.length
      m.vectors (by omega)
    refine ⟨{ wv := prepareFresh argsort cfg raw m.wv, vectors := vs,
              out := List.replicate (prepareFresh argsort cfg raw m.wv).i2k.length zero }, ?_, v3⟩
    unfold buildFull
    rw [if_neg (by simp)]
    dsimp only
    rw [if_neg (by simp [hs]), Option.bind_some, v1]
    rfl

/-- A model of two words to which a third is added. -/
example : (buildFull exArgsort (fun i => i + 100) 0
      { wv := ⟨["a", "b"], [("a", 0), ("b", 1)], [5, 4]⟩, vectors := [7, 8], out := [1, 2] }
      ⟨true, { rule := none, minCount := 1, maxFinal := none, sorted := true }, [("b", 2), ("c", 3)]⟩).map
      (fun m => (m.wv.i2k, m.wv.counts, m.vectors, m.out))
    = some (["a", "b", "c"], [5, 6, 3], [7, 8, 102], [1, 2, 0]) := by decide

end Verif.W2V
