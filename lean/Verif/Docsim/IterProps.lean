import Verif.Docsim.IterModel
import Verif.Utils.ChunkProps
import Mathlib.Tactic.Linarith
import Mathlib.Algebra.Order.Ring.Rat

/-!
# C68: iterating over an index
-/

namespace Verif.Docsim
open Verif Matutils

/-! ## Specification -/

/-- Histories in which every iteration is run to its end, and iterations do not overlap except by
nesting (with different iterators). -/
inductive Nested : List Nat → List NormOp → Prop
  | nil (busy) : Nested busy []
  | query (busy) (ops) : Nested busy ops → Nested busy (.query :: ops)
  | byId (busy) (ops) : Nested busy ops → Nested busy (.byId :: ops)
  | iter (busy) (i) (body ops) : i ∉ busy → Nested (i :: busy) body → Nested busy ops →
      Nested busy (.opened i :: (body ++ .exhausted i :: ops))

/-- For every `index[query]` of the history: is it made outside all iterations? (`depth` iterations
are running) -/
def outside : Nat → List NormOp → List Bool
  | _, [] => []
  | d, .query :: ops => decide (d = 0) :: outside d ops
  | d, .byId :: ops => outside d ops
  | d, .opened _ :: ops => outside (d + 1) ops
  | d, .exhausted _ :: ops => outside (d - 1) ops
  | d, .closed _ :: ops => outside (d - 1) ops

/-! ## The switch -/

theorem normRun_cons (s : NormState) (o : NormOp) (ops : List NormOp) :
    normRun s (o :: ops) = normRun (normStep s o) ops := rfl

theorem normRun_append (s : NormState) (a b : List NormOp) :
    normRun s (a ++ b) = normRun (normRun s a) b := List.foldl_append ..

theorem outside_append (d : Nat) {busy : List Nat} {a : List NormOp} (h : Nested busy a)
    (b : List NormOp) : outside d (a ++ b) = outside d a ++ outside d b := by
  induction h generalizing d b with
  | nil => rfl
  | query _ _ _ ih => simp [outside, ih]
  | byId _ _ _ ih => simp [outside, ih]
  | iter busy i body ops _ _ _ ih1 ih2 =>
    simp only [List.cons_append, List.append_assoc, outside]
    rw [ih1, ih1]
    simp [outside, ih2]

theorem nested_run {busy : List Nat} {ops : List NormOp} (h : Nested busy ops) (s : NormState)
    (hs : s.saved.map (·.1) = busy) (hnorm : busy ≠ [] → s.norm = false) :
    (normRun s ops).norm = s.norm ∧ (normRun s ops).saved = s.saved ∧
      (normRun s ops).log = s.log ++ (outside busy.length ops).map fun o => o && s.norm := by
  induction h generalizing s with
  | nil => simp [normRun, outside]
  | query busy ops _ ih =>
    obtain ⟨h1, h2, h3⟩ := ih (normStep s .query) hs hnorm
    rw [normRun_cons]
    refine ⟨h1, h2, ?_⟩
    rw [h3]
    cases busy with
    | nil => simp [normStep, outside]
    | cons b bs => simp [normStep, outside, hnorm (by simp)]
  | byId busy ops _ ih =>
    obtain ⟨h1, h2, h3⟩ := ih (normStep s .byId) hs hnorm
    exact ⟨h1, h2, h3⟩
  | iter busy i body ops hi hb _ ih1 ih2 =>
    rw [normRun_cons, normRun_append, normRun_cons]
    obtain ⟨h1, h2, h3⟩ := ih1 (normStep s (.opened i)) (by simp [normStep, hs])
      (by simp [normStep])
    have hfil : s.saved.filter (fun p => p.1 != i) = s.saved := by
      rw [List.filter_eq_self]
      intro p hp
      have : p.1 ∈ busy := by
        rw [← hs]
        exact List.mem_map.2 ⟨p, hp, rfl⟩
      simp only [bne_iff_ne, ne_eq]
      rintro rfl
      exact hi this
    generalize normRun (normStep s (.opened i)) body = t at *
    have ht : normStep t (.exhausted i) = { t with norm := s.norm, saved := s.saved } := by
      have hl : t.saved.lookup i = some s.norm := by
        rw [h2]
        simp [normStep, List.lookup]
      simp only [normStep, hl]
      rw [h2]
      simp [normStep, hfil]
    rw [ht]
    obtain ⟨g1, g2, g3⟩ := ih2 { t with norm := s.norm, saved := s.saved } hs hnorm
    refine ⟨g1, g2, ?_⟩
    rw [g3, h3]
    simp only [outside]
    rw [outside_append _ hb]
    simp only [normStep, List.map_append, List.append_assoc, List.length_cons, outside,
      Nat.add_sub_cancel, Bool.and_false]
    congr 2
    -- inside the iteration nothing is normalised; nothing is outside either
    have hno : ∀ {busy : List Nat} {ops : List NormOp}, Nested busy ops → ∀ d, 0 < d →
        ∀ o ∈ outside d ops, o = false := by
      intro busy ops hn
      induction hn with
      | nil => intro d _ o ho; simp [outside] at ho
      | query _ _ _ ih =>
        intro d hd o ho
        simp only [outside, List.mem_cons] at ho
        rcases ho with rfl | ho
        · simp; omega
        · exact ih d hd o ho
      | byId _ _ _ ih => intro d hd o ho; exact ih d hd o ho
      | iter _ _ _ _ _ hb' _ i1 i2 =>
        intro d hd o ho
        simp only [outside] at ho
        rw [outside_append _ hb'] at ho
        rcases List.mem_append.1 ho with h | h
        · exact i1 _ (by omega) o h
        · simp only [outside, Nat.add_sub_cancel] at h
          exact i2 d hd o h
    apply List.map_congr_left
    intro o ho
    rw [hno hb _ (by omega) o ho]
    rfl

/-- **C68.** In every history in which all iterations over the index are run to their end and overlap
at most by nesting, every query made outside the iterations is normalised as the index was created,
every query made inside one is not normalised, and the index ends as it was. -/
theorem C68_nested (norm : Bool) (ops : List NormOp) (h : Nested [] ops) :
    (normRun ⟨norm, [], []⟩ ops).norm = norm ∧
      (normRun ⟨norm, [], []⟩ ops).log = (outside 0 ops).map fun o => o && norm := by
  obtain ⟨h1, _, h3⟩ := nested_run h ⟨norm, [], []⟩ rfl (by simp)
  exact ⟨h1, by simpa using h3⟩

/-- **C68 (failure).** An iteration that is abandoned leaves normalisation switched off: no later
query is ever normalised again, until another value is assigned or an iterator opened before is
exhausted. -/
theorem C68_abandoned (s : NormState) (i : Nat) (later : List NormOp)
    (hl : ∀ o ∈ later, o = .query ∨ o = .byId) :
    (normRun s (.opened i :: .closed i :: later)).norm = false ∧
      ∀ b ∈ (normRun s (.opened i :: .closed i :: later)).log.drop s.log.length, b = false := by
  rw [normRun_cons, normRun_cons]
  have key : ∀ (later : List NormOp) (t : NormState) (pre : List Bool),
      (∀ o ∈ later, o = .query ∨ o = .byId) → t.norm = false →
      (∃ ext : List Bool, t.log = pre ++ ext ∧ ∀ b ∈ ext, b = false) →
      (normRun t later).norm = false ∧
        ∃ ext : List Bool, (normRun t later).log = pre ++ ext ∧ ∀ b ∈ ext, b = false := by
    intro later
    induction later with
    | nil => intro t pre _ hn he; exact ⟨hn, he⟩
    | cons o os ih =>
      intro t pre hl hn he
      obtain ⟨ext, he1, he2⟩ := he
      rw [normRun_cons]
      apply ih _ _ (fun o' ho' => hl o' (by simp [ho']))
      · rcases hl o (by simp) with rfl | rfl <;> exact hn
      · rcases hl o (by simp) with rfl | rfl
        · refine ⟨ext ++ [t.norm], by simp [normStep, he1], ?_⟩
          intro b hb
          rcases List.mem_append.1 hb with h | h
          · exact he2 b h
          · rw [List.mem_singleton.1 h, hn]
        · exact ⟨ext, he1, he2⟩
  obtain ⟨h1, ext, h2, h3⟩ := key later (normStep (normStep s (.opened i)) (.closed i)) s.log hl rfl
    ⟨[], by simp [normStep], by simp⟩
  refine ⟨h1, ?_⟩
  rw [h2, List.drop_left]
  exact h3

/-- **C68 (failure).** Two iterations that overlap without nesting (as with `zip(index, index)`,
whose first iterator is exhausted first) leave normalisation switched off although both are over. -/
theorem C68_overlapping :
    (normRun ⟨true, [], []⟩ [.opened 0, .opened 1, .exhausted 0, .exhausted 1]).norm = false ∧
      (normRun ⟨true, [], []⟩ [.query, .opened 0, .opened 1, .exhausted 0, .exhausted 1, .query]).log
        = [true, false] := by decide +kernel

example : Nested [] [.query, .opened 0, .opened 1, .query, .exhausted 1, .byId, .exhausted 0, .query] :=
  .query _ _ (.iter [] 0 [.opened 1, .query, .exhausted 1, .byId] [.query] (by simp)
    (.iter [0] 1 [.query] [.byId] (by simp) (.query _ _ (.nil _)) (.byId _ _ (.nil _)))
    (.query _ _ (.nil _)))

example : (normRun ⟨true, [], []⟩
    [.query, .opened 0, .opened 1, .query, .exhausted 1, .byId, .exhausted 0, .query]).log
      = [true, false, true] := by decide +kernel

/-! ## What is yielded -/

theorem mapM_some_map {A B : Type} (f : A → Option B) (g : A → B) (l : List A)
    (h : ∀ a ∈ l, f a = some (g a)) : l.mapM f = some (l.map g) := by
  induction l with
  | nil => rfl
  | cons a as ih =>
    rw [List.mapM_cons, h a (by simp), ih (fun b hb => h b (by simp [hb]))]
    rfl

theorem mapM_none_iff {A B : Type} (f : A → Option B) (l : List A) :
    l.mapM f = none ↔ ∃ a ∈ l, f a = none := by
  induction l with
  | nil => simp
  | cons a as ih =>
    rw [List.mapM_cons]
    cases ha : f a with
    | none => simp [ha]
    | some b =>
      cases hm : as.mapM f with
      | none =>
        have := ih.1 hm
        simp only [List.mem_cons, exists_eq_or_imp, ha]
        exact ⟨fun _ => Or.inr this, fun _ => rfl⟩
      | some bs =>
        have hno : ¬ ∃ x ∈ as, f x = none := by
          intro hx
          rw [ih.2 hx] at hm
          cases hm
        simp only [List.mem_cons, exists_eq_or_imp, ha]
        constructor
        · intro h
          cases h
        · rintro (h | h)
          · cases h
          · exact absurd h hno

theorem iterChunk_some {V A : Type} (anyDense numBest : Bool) (ans : V → A) (chunk : List V)
    (h : (anyDense && numBest) = false ∨ 1 < chunk.length ∨ chunk = []) :
    iterChunk anyDense numBest ans chunk = some (chunk.map ans) := by
  unfold iterChunk
  split
  · rfl
  · rename_i hlen
    rcases h with h | h | h
    · apply mapM_some_map
      intro a _
      simp [oneRow, h]
    · exact absurd h hlen
    · subst h
      rfl

theorem flatten_chunks_map {V A : Type} (k : Nat) (hk : 0 < k) (ans : V → A)
    (shards : List (List V)) :
    ((shards.flatMap fun rows => Chunk.chunks k rows).map fun c => c.map ans).flatten
      = shards.flatten.map ans := by
  induction shards with
  | nil => rfl
  | cons r rs ih =>
    rw [List.flatMap_cons, List.map_append, List.flatten_append, ih, List.flatten_cons,
      List.map_append]
    congr 1
    rw [← List.map_flatten, Chunk.C15_concat hk]

/-- **C68.** Iterating over the index yields the answer for every indexed document exactly once, in
the order of the documents, for every chunk size and every division into shards, unless the answers
are clipped to `num_best` and some shard is dense. -/
theorem C68_iterate {V A : Type} (anyDense numBest : Bool) (k : Nat) (hk : 0 < k) (ans : V → A)
    (shards : List (List V)) (h : (anyDense && numBest) = false) :
    iterate anyDense numBest k ans shards = some (shards.flatten.map ans) := by
  unfold iterate
  rw [mapM_some_map _ (fun c => c.map ans) _ (fun c _ => iterChunk_some _ _ _ _ (Or.inl h))]
  simp only [Option.map_some]
  rw [flatten_chunks_map k hk]

/-- **C68.** With `num_best` and a dense shard, iterating still yields every document's answer exactly
when no chunk consists of a single row; otherwise it raises. -/
theorem C68_iterate_dense {V A : Type} (k : Nat) (hk : 0 < k) (ans : V → A)
    (shards : List (List V)) :
    iterate true true k ans shards =
      if ∀ rows ∈ shards, ∀ c ∈ Chunk.chunks k rows, c.length ≠ 1
      then some (shards.flatten.map ans) else none := by
  unfold iterate
  split
  · rename_i h
    have hall : ∀ c ∈ shards.flatMap fun rows => Chunk.chunks k rows,
        iterChunk true true ans c = some (c.map ans) := by
      intro c hc
      apply iterChunk_some
      obtain ⟨rows, hr, hcr⟩ := List.mem_flatMap.1 hc
      have := h rows hr c hcr
      right
      cases c with
      | nil => exact Or.inr rfl
      | cons a as =>
        left
        simp only [List.length_cons, ne_eq] at this ⊢
        omega
    rw [mapM_some_map _ (fun c => c.map ans) _ hall]
    simp only [Option.map_some]
    rw [flatten_chunks_map k hk]
  · rename_i h
    push Not at h
    obtain ⟨rows, hr, c, hc, h1⟩ := h
    rw [Option.map_eq_none_iff, mapM_none_iff]
    refine ⟨c, List.mem_flatMap.2 ⟨rows, hr, hc⟩, ?_⟩
    obtain ⟨a, rfl⟩ := List.length_eq_one_iff.1 h1
    rfl

theorem chunks_len_one {V : Type} (k : Nat) (hk : 1 < k) (rows : List V) :
    (∃ c ∈ Chunk.chunks k rows, c.length = 1) ↔ rows.length % k = 1 := by
  induction hl : rows.length using Nat.strong_induction_on generalizing rows with
  | _ n ih =>
    cases rows with
    | nil =>
      simp only [List.length_nil] at hl
      subst hl
      simp [Chunk.chunks_nil]
    | cons a as =>
      rw [Chunk.chunks_cons (by omega) (by simp)]
      by_cases hle : (a :: as).length ≤ k
      · rw [List.take_of_length_le hle, List.drop_of_length_le hle, Chunk.chunks_nil]
        simp only [List.mem_singleton, exists_eq_left]
        rw [hl] at hle ⊢
        rcases Nat.lt_or_eq_of_le hle with h | h
        · rw [Nat.mod_eq_of_lt h]
        · subst h
          rw [Nat.mod_self]
          omega
      · have hlt := Nat.lt_of_not_le hle
        have hrec := ih ((a :: as).drop k).length (by rw [List.length_drop]; omega) _ rfl
        rw [List.length_drop] at hrec
        simp only [List.mem_cons, exists_eq_or_imp]
        rw [hrec, hl]
        have htk : ((a :: as).take k).length = k := by
          rw [List.length_take]
          omega
        rw [htk, ← Nat.mod_eq_sub_mod (by omega)]
        constructor
        · rintro (h | h)
          · omega
          · exact h
        · exact Or.inr

/-- **C68.** In terms of the shard lengths: with chunk size above one, iterating a dense index with
`num_best` raises exactly when the length of some shard leaves remainder one. -/
theorem C68_dense_raises_iff {V A : Type} (k : Nat) (hk : 1 < k) (ans : V → A)
    (shards : List (List V)) :
    iterate true true k ans shards = none ↔ ∃ rows ∈ shards, rows.length % k = 1 := by
  rw [C68_iterate_dense k (by omega)]
  constructor
  · intro h
    split at h
    · cases h
    · rename_i hh
      push Not at hh
      obtain ⟨rows, hr, c, hc, h1⟩ := hh
      exact ⟨rows, hr, (chunks_len_one k hk rows).1 ⟨c, hc, h1⟩⟩
  · rintro ⟨rows, hr, h1⟩
    rw [if_neg]
    push Not
    obtain ⟨c, hc, hc1⟩ := (chunks_len_one k hk rows).2 h1
    exact ⟨rows, hr, c, hc, hc1⟩

example : iterate true true 2 (fun n : Nat => n * n) [[1, 2], [3, 4, 5, 6]]
    = some [1, 4, 9, 16, 25, 36] := by
  rw [C68_iterate_dense 2 (by omega)]
  decide +kernel

/-! ## Generators as queries -/

variable {K : Type} [Field K] [LinearOrder K] [IsStrictOrderedRing K]

/-- **C55 (failure).** With `num_best` set, a generator of query documents against an index of one
shard is answered without its first document. -/
theorem C55_generator_one_shard {S D : Type} (n : Int) (ans : S → D → List (Nat × K)) (s : S)
    (d : D) (docs : List D) :
    queryGenerator n ans [s] (d :: docs) = docs.map fun q => nlargest n (ans s q) := by
  simp [queryGenerator, afterPeek, zipStar, Function.comp_def]

/-- **C55 (failure).** With `num_best` set, a generator of query documents against an index of two or
more shards is answered with nothing at all, without an error. -/
theorem C55_generator_many_shards {S D : Type} (n : Int) (ans : S → D → List (Nat × K)) (s t : S)
    (rest : List S) (docs : List D) : queryGenerator n ans (s :: t :: rest) docs = [] := by
  have h : ∀ (l : List (List (List (Nat × K)))), zipStar ([] :: l) = [] := by
    intro l
    cases l <;> simp [zipStar]
  simp only [queryGenerator, List.zipIdx_cons, List.map_cons]
  simp [zipStar, h]

end Verif.Docsim
