import Verif.Docsim.QueryModel
import Verif.Matutils.SparseProps
import Mathlib.Data.Finset.Card
import Mathlib.Data.List.Perm.Subperm

/-!
# C55: the best matches of a sharded index are the best matches overall
-/

namespace Verif.Docsim
open Verif Matutils

variable {K : Type} [Field K] [LinearOrder K] [IsStrictOrderedRing K]

/-! ## Specification -/

/-- `r` are the `n` best matches among the similarities `sims`: pairs of a position and its
similarity, at different positions, only similarities of magnitude above `eps`, as many as there are
(at most `n`), by non-increasing magnitude, and nothing left out beats anything returned. -/
structure TopMatches (eps : K) (sims : List K) (n : Nat) (r : List (Nat × K)) : Prop where
  entry : ∀ p ∈ r, sims[p.1]? = some p.2 ∧ eps < |p.2|
  distinct : (r.map (·.1)).Nodup
  length : r.length = min n (sims.filter fun x => decide (eps < |x|)).length
  sorted : r.Pairwise fun p q => |q.2| ≤ |p.2|
  top : ∀ j x, sims[j]? = some x → j ∉ r.map (·.1) → |x| ≤ eps ∨ ∀ p ∈ r, |x| ≤ |p.2|

/-! ## Lemmas -/

/-- Positions of the entries above `eps`. -/
def above (eps : K) (v : List K) : List Nat :=
  (List.range v.length).filter fun i => decide (eps < |v.getD i 0|)

theorem length_above (eps : K) (v : List K) :
    (above eps v).length = (v.filter fun x => decide (eps < |x|)).length := by
  have hv : v = (List.range v.length).map fun i => v.getD i 0 := by
    apply List.ext_getElem
    · simp
    · intro i h1 h2
      simp [List.getD_eq_getElem?_getD, h1]
  conv_rhs => rw [hv, List.filter_map, List.length_map]
  rfl

/-- Every large entry is in a top list that is shorter than `n`. -/
theorem mem_of_short {eps : K} {v : List K} {n : Nat} {r : List (Nat × K)}
    (he : ∀ p ∈ r, v[p.1]? = some p.2 ∧ eps < |p.2|) (hd : (r.map (·.1)).Nodup)
    (hl : r.length = min n (v.filter fun x => decide (eps < |x|)).length)
    {j : Nat} {x : K} (hj : v[j]? = some x) (hx : eps < |x|) (hn : r.length ≠ n) :
    (j, x) ∈ r := by
  have hsub : (r.map (·.1)) ⊆ above eps v := by
    intro i hi
    obtain ⟨p, hp, rfl⟩ := List.mem_map.1 hi
    obtain ⟨h1, h2⟩ := he p hp
    have hlt := (List.getElem?_eq_some_iff.1 h1).1
    simp only [above, List.mem_filter, List.mem_range, decide_eq_true_eq]
    exact ⟨hlt, by simpa [List.getD_eq_getElem?_getD, h1] using h2⟩
  have hperm : (r.map (·.1)).Perm (above eps v) := by
    have hsp : List.Subperm (r.map (·.1)) (above eps v) := hd.subperm hsub
    apply hsp.perm_of_length_le
    rw [length_above, List.length_map]
    omega
  have hjm : j ∈ above eps v := by
    have hlt := (List.getElem?_eq_some_iff.1 hj).1
    simp only [above, List.mem_filter, List.mem_range, decide_eq_true_eq]
    exact ⟨hlt, by simpa [List.getD_eq_getElem?_getD, hj] using hx⟩
  obtain ⟨p, hp, hpj⟩ := List.mem_map.1 (hperm.mem_iff.2 hjm)
  have := (he p hp).1
  rw [hpj, hj, Option.some.injEq] at this
  have : p = (j, x) := Prod.ext hpj this.symm
  exact this ▸ hp

/-- What the candidates collected from the shards satisfy. -/
structure Candidates (eps : K) (n : Nat) (off : Nat) (flat : List K) (items : List (Nat × K)) :
    Prop where
  entry : ∀ p ∈ items, off ≤ p.1 ∧ flat[p.1 - off]? = some p.2 ∧ eps < |p.2|
  distinct : (items.map (·.1)).Nodup
  length : min n items.length = min n (flat.filter fun x => decide (eps < |x|)).length
  top : ∀ (j : Nat) (x : K), flat[j]? = some x → eps < |x| →
    (j + off, x) ∈ items ∨
      ∃ S : List (Nat × K), S ⊆ items ∧ S.Nodup ∧ S.length = n ∧ ∀ q ∈ S, |x| ≤ |q.2|

theorem nodup_of_map_fst {A B : Type} {l : List (A × B)} (h : (l.map (·.1)).Nodup) : l.Nodup :=
  List.Nodup.of_map _ h

theorem candidates_of_shards (srt : List K → List Nat) (part : List K → Nat → List Nat)
    (hs : SortOk srt) (hp : PartOk part) (eps : K) (n : Int) (shards : List (Nat × List K))
    (hlen : ∀ s ∈ shards, s.2.length = s.1) (off : Nat) :
    Candidates eps n.toNat off (shards.map fun s => s.2).flatten
      (convertAll off (shards.map fun s => (s.1, shardBest srt part eps n s.2))).flatten := by
  induction shards generalizing off with
  | nil =>
    refine ⟨by simp [convertAll], by simp [convertAll], by simp [convertAll], ?_⟩
    intro j x h
    simp at h
  | cons s rest ih =>
    obtain ⟨len, v⟩ := s
    have hvl : v.length = len := hlen (len, v) (by simp)
    have ih' := ih (fun x hx => hlen x (by simp [hx])) (off + len)
    obtain ⟨c1, c2, c3, c4, c5⟩ := C19_clipped srt part hs hp eps v n
    simp only [shardBest] at ih'
    simp only [List.map_cons, List.flatten_cons, convertAll, shardBest]
    generalize full2sparseClipped srt part eps v n = r at *
    generalize (convertAll (off + len) (rest.map fun s =>
      (s.1, full2sparseClipped srt part eps s.2 n))).flatten = I at *
    generalize (rest.map fun s => s.2).flatten = flat at *
    have hlt : ∀ p ∈ r, p.1 < len := by
      intro p hp'
      rw [← hvl]
      exact (List.getElem?_eq_some_iff.1 (c1 p hp').1).1
    refine ⟨?_, ?_, ?_, ?_⟩
    · intro p hpm
      rcases List.mem_append.1 hpm with h | h
      · obtain ⟨q, hq, rfl⟩ := List.mem_map.1 h
        dsimp only
        refine ⟨by omega, ?_, (c1 q hq).2⟩
        rw [Nat.add_sub_cancel, List.getElem?_append_left (by have := hlt q hq; omega)]
        exact (c1 q hq).1
      · obtain ⟨h1, h2, h3⟩ := ih'.entry p h
        refine ⟨by omega, ?_, h3⟩
        rw [List.getElem?_append_right (by omega), ← h2]
        congr 1
        omega
    · rw [List.map_append, List.nodup_append]
      refine ⟨?_, ih'.distinct, ?_⟩
      · rw [List.map_map]
        have : ((fun x : Nat × K => x.1) ∘ fun p : Nat × K => (p.1 + off, p.2))
            = (fun i => i + off) ∘ (fun x : Nat × K => x.1) := rfl
        rw [this, ← List.map_map]
        exact c2.map (fun a b h => by omega)
      · intro a ha b hb hab
        obtain ⟨p, hpm, rfl⟩ := List.mem_map.1 ha
        obtain ⟨q, hq, rfl⟩ := List.mem_map.1 hb
        obtain ⟨p', hp', rfl⟩ := List.mem_map.1 hpm
        have h1 := hlt p' hp'
        have h2 := (ih'.entry q hq).1
        dsimp only at hab
        omega
    · have := ih'.length
      rw [List.length_append, List.length_map, List.filter_append, List.length_append, c3]
      omega
    · intro j x hj hx
      by_cases hjl : j < v.length
      · rw [List.getElem?_append_left hjl] at hj
        by_cases hjr : j ∈ r.map (·.1)
        · left
          obtain ⟨p, hpm, rfl⟩ := List.mem_map.1 hjr
          have := (c1 p hpm).1
          rw [hj, Option.some.injEq] at this
          subst this
          exact List.mem_append_left _ (List.mem_map.2 ⟨p, hpm, rfl⟩)
        · right
          have hnn : r.length = n.toNat := by
            by_contra hne
            exact hjr (List.mem_map.2 ⟨(j, x), mem_of_short c1 c2 c3 hj hx hne, rfl⟩)
          rcases c5 j x hj hjr with h | h
          · exact absurd h (not_le.2 hx)
          · refine ⟨r.map fun p => (p.1 + off, p.2), ?_, ?_, by simpa using hnn, ?_⟩
            · exact List.subset_append_left _ _
            · refine (nodup_of_map_fst c2).map ?_
              intro a b hab
              simp only [Prod.mk.injEq] at hab
              exact Prod.ext (by omega) hab.2
            · intro q hq
              obtain ⟨p, hpm, rfl⟩ := List.mem_map.1 hq
              exact h p hpm
      · rw [List.getElem?_append_right (by omega)] at hj
        rcases ih'.top _ x hj hx with h | ⟨S, h1, h2, h3, h4⟩
        · left
          have : (j - v.length + (off + len), x) = (j + off, x) := by
            congr 1
            omega
          exact List.mem_append_right _ (this ▸ h)
        · right
          exact ⟨S, fun q hq => List.mem_append_right _ (h1 hq), h2, h3, h4⟩

theorem abs_sorted (items : List (Nat × K)) :
    (pySort (fun p q : Nat × K => decide (|q.2| ≤ |p.2|)) items).Pairwise
      fun p q => |q.2| ≤ |p.2| := by
  have h := pySort_sorted (le := fun p q : Nat × K => decide (|q.2| ≤ |p.2|))
    (by intro a b; simp only [decide_eq_true_eq]; exact (le_total _ _).symm)
    (by intro a b c h1 h2; simp only [decide_eq_true_eq] at *; exact le_trans h2 h1) items
  exact h.imp (by intro a b hab; simpa using hab)

theorem topMatches_of_candidates {eps : K} {n : Int} {flat : List K} {items : List (Nat × K)}
    (h : Candidates eps n.toNat 0 flat items) : TopMatches eps flat n.toNat (nlargest n items) := by
  unfold nlargest
  have hperm := pySort_perm (fun p q : Nat × K => decide (|q.2| ≤ |p.2|)) items
  have hsort := abs_sorted items
  generalize pySort (fun p q : Nat × K => decide (|q.2| ≤ |p.2|)) items = L at *
  have hsplit := List.take_append_drop n.toNat L
  have hnd : (L.map (·.1)).Nodup := (hperm.map _).nodup_iff.2 h.distinct
  have htd : ∀ p ∈ L.take n.toNat, ∀ q ∈ L.drop n.toNat, |q.2| ≤ |p.2| := by
    rw [← hsplit, List.pairwise_append] at hsort
    exact hsort.2.2
  refine ⟨?_, ?_, ?_, ?_, ?_⟩
  · intro p hp
    have := h.entry p (hperm.mem_iff.1 (List.mem_of_mem_take hp))
    simpa using this.2
  · exact hnd.sublist ((List.take_sublist _ _).map _)
  · rw [List.length_take, hperm.length_eq, ← h.length]
  · exact hsort.sublist (List.take_sublist _ _)
  · intro j x hj hjr
    by_cases hx : |x| ≤ eps
    · exact Or.inl hx
    · right
      rw [not_le] at hx
      intro p hp
      have hnotin : ∀ q ∈ items, q ∉ L.take n.toNat → |q.2| ≤ |p.2| := by
        intro q hq hqn
        have hqL := hperm.mem_iff.2 hq
        rw [← hsplit] at hqL
        rcases List.mem_append.1 hqL with hh | hh
        · exact absurd hh hqn
        · exact htd p hp q hh
      rcases h.top j x hj hx with hm | ⟨S, h1, h2, h3, h4⟩
      · apply hnotin (j + 0, x) hm
        intro hmem
        exact hjr (List.mem_map.2 ⟨(j + 0, x), hmem, by simp⟩)
      · by_cases hall : S ⊆ L.take n.toNat
        · have hle : (L.take n.toNat).length ≤ S.length := by
            rw [h3, List.length_take]
            omega
          have hpS : p ∈ S :=
            ((h2.subperm hall).perm_of_length_le hle).mem_iff.2 hp
          exact h4 p hpS
        · rw [List.subset_def] at hall
          push Not at hall
          obtain ⟨q, hq, hqn⟩ := hall
          exact le_trans (h4 q hq) (hnotin q (h1 hq) hqn)

/-! ## C55 -/

/-- **C55.** A query with `num_best` against shards of any lengths returns the `num_best` best
matches over the whole index, at their global positions, however the documents are split into shards
and whatever way ties are broken inside the shards. -/
theorem C55_topk (srt : List K → List Nat) (part : List K → Nat → List Nat) (hs : SortOk srt)
    (hp : PartOk part) (eps : K) (n : Int) (shards : List (Nat × List K))
    (hlen : ∀ s ∈ shards, s.2.length = s.1) :
    TopMatches eps (shards.map fun s => s.2).flatten n.toNat
      (queryBest srt part eps n shards) :=
  topMatches_of_candidates (candidates_of_shards srt part hs hp eps n shards hlen 0)

/-- **C55.** The similarity values returned do not depend on the sharding: two shardings of the same
documents give the same list of magnitudes. -/
theorem C55_values_independent (srt srt' : List K → List Nat) (part part' : List K → Nat → List Nat)
    (hs : SortOk srt) (hp : PartOk part) (hs' : SortOk srt') (hp' : PartOk part') (eps : K) (n : Int)
    (shards shards' : List (Nat × List K)) (hlen : ∀ s ∈ shards, s.2.length = s.1)
    (hlen' : ∀ s ∈ shards', s.2.length = s.1)
    (hsame : (shards.map fun s => s.2).flatten = (shards'.map fun s => s.2).flatten) :
    (queryBest srt part eps n shards).map (fun p => |p.2|)
      = (queryBest srt' part' eps n shards').map fun p => |p.2| := by
  have h1 := C55_topk srt part hs hp eps n shards hlen
  have h2 := C55_topk srt' part' hs' hp' eps n shards' hlen'
  rw [← hsame] at h2
  generalize queryBest srt part eps n shards = r at *
  generalize queryBest srt' part' eps n shards' = r' at *
  generalize (shards.map fun s => s.2).flatten = sims at *
  have hl : r.length = r'.length := h1.length.trans h2.length.symm
  -- position by position, neither list can be ahead of the other
  have key : ∀ (r r' : List (Nat × K)), TopMatches eps sims n.toNat r →
      TopMatches eps sims n.toNat r' → r.length = r'.length → ∀ (i : Nat) (p q : Nat × K),
      r[i]? = some p → r'[i]? = some q → |p.2| ≤ |q.2| := by
    intro r r' h1 h2 hl i p q hp hq
    by_contra hlt
    rw [not_le] at hlt
    -- the first i+1 entries of r all beat q, so all are in the first i entries of r'
    have hi : i < r.length := (List.getElem?_eq_some_iff.1 hp).1
    have hi' : i < r'.length := by omega
    have hsub : (r.take (i + 1)).map (·.1) ⊆ (r'.take i).map (·.1) := by
      intro a ha
      obtain ⟨x, hx, rfl⟩ := List.mem_map.1 ha
      have hxr := List.mem_of_mem_take hx
      have hge : |p.2| ≤ |x.2| := by
        obtain ⟨k, hk⟩ := List.mem_iff_getElem?.1 hx
        have hk' : k < i + 1 := by
          have := (List.getElem?_eq_some_iff.1 hk).1
          rw [List.length_take] at this
          omega
        rw [List.getElem?_take_of_lt hk'] at hk
        by_cases hki : k = i
        · subst hki
          rw [hp] at hk
          cases hk
          exact le_rfl
        · obtain ⟨hk1, hk2⟩ := List.getElem?_eq_some_iff.1 hk
          obtain ⟨hi1, hi2⟩ := List.getElem?_eq_some_iff.1 hp
          have := List.pairwise_iff_getElem.1 h1.sorted k i hk1 hi1 (by omega)
          rw [hk2, hi2] at this
          exact this
      have hxq : |q.2| < |x.2| := lt_of_lt_of_le hlt hge
      have hqm : q ∈ r' := List.mem_of_getElem? hq
      have hmem : x.1 ∈ r'.map (·.1) := by
        by_contra hno
        rcases h2.top x.1 x.2 (h1.entry x hxr).1 hno with hh | hh
        · exact absurd (h1.entry x hxr).2 (not_lt.2 hh)
        · exact absurd (hh q hqm) (not_le.2 hxq)
      obtain ⟨y, hy, hyx⟩ := List.mem_map.1 hmem
      have hy2 : y.2 = x.2 := by
        have e1 := (h2.entry y hy).1
        rw [hyx, (h1.entry x hxr).1] at e1
        exact (Option.some.inj e1).symm
      obtain ⟨k, hk⟩ := List.mem_iff_getElem?.1 hy
      have hki : k < i := by
        by_contra hge2
        obtain ⟨hk1, hk2⟩ := List.getElem?_eq_some_iff.1 hk
        obtain ⟨hi1, hi2⟩ := List.getElem?_eq_some_iff.1 hq
        rcases Nat.lt_or_eq_of_le (Nat.le_of_not_lt hge2) with hlt2 | heq
        · have := List.pairwise_iff_getElem.1 h2.sorted i k hi1 hk1 hlt2
          rw [hk2, hi2, hy2] at this
          exact absurd this (not_le.2 hxq)
        · subst heq
          rw [hk] at hq
          cases hq
          rw [hy2] at hxq
          exact lt_irrefl _ hxq
      rw [← hyx]
      refine List.mem_map.2 ⟨y, List.mem_iff_getElem?.2 ⟨k, ?_⟩, rfl⟩
      rw [List.getElem?_take_of_lt hki]
      exact hk
    have hnd : ((r.take (i + 1)).map (·.1)).Nodup :=
      h1.distinct.sublist ((List.take_sublist _ _).map _)
    have := (hnd.subperm hsub).length_le
    rw [List.length_map, List.length_map, List.length_take, List.length_take] at this
    omega
  apply List.ext_getElem?
  intro i
  rw [List.getElem?_map, List.getElem?_map]
  cases hi : r[i]? with
  | none =>
    have : r'[i]? = none := by
      rw [List.getElem?_eq_none_iff] at hi ⊢
      omega
    rw [this]
  | some p =>
    have hlt : i < r'.length := by
      have := (List.getElem?_eq_some_iff.1 hi).1
      omega
    have hq := List.getElem?_eq_getElem hlt
    rw [hq]
    simp only [Option.map_some, Option.some.injEq]
    exact le_antisymm (key r r' h1 h2 hl i p _ hi hq) (key r' r h2 h1 hl.symm i _ p hq hi)

/-- **C55.** Without `num_best`, a non-empty index answers with the similarities of all documents in
order; an index without documents raises. -/
theorem C55_all (shards : List (Nat × List K)) :
    (shards ≠ [] → queryAll shards = some (shards.map fun s => s.2).flatten) ∧
      queryAll ([] : List (Nat × List K)) = none := by
  refine ⟨?_, rfl⟩
  intro h
  cases shards with
  | nil => exact absurd rfl h
  | cons s ss => rfl

/-! ### Queries with several documents -/

theorem convertCorpus_column (off : Nat) (shards : List (Nat × List (List (Nat × K)))) (q : Nat) :
    (convertCorpus off shards).map (fun r => r.getD q [])
      = convertAll off (shards.map fun s => (s.1, s.2.getD q [])) := by
  induction shards generalizing off with
  | nil => rfl
  | cons s rest ih =>
    obtain ⟨len, docs⟩ := s
    simp only [convertCorpus, convertAll, List.map_cons, ih]
    congr 1
    simp only [List.getD_eq_getElem?_getD, List.getElem?_map]
    cases docs[q]? <;> simp

theorem zipStar_column {α : Type} (d : α) (ls : List (List α)) (m : Nat) (hne : ls ≠ [])
    (h : ∀ l ∈ ls, l.length = m) :
    zipStar ls = (List.range m).map fun q => ls.map fun l => l.getD q d := by
  induction ls with
  | nil => exact absurd rfl hne
  | cons r rs ih =>
    have hr := h r (by simp)
    cases rs with
    | nil =>
      apply List.ext_getElem
      · simp [zipStar, hr]
      · intro i h1 h2
        have : i < r.length := by simpa [zipStar] using h1
        simp [zipStar, List.getD_eq_getElem?_getD, this]
    | cons r' rs =>
      rw [zipStar, ih (by simp) (fun l hl => h l (by simp [hl]))]
      apply List.ext_getElem
      · simp [hr]
      · intro i h1 h2
        have hi : i < m := by simpa using h2
        simp [List.getD_eq_getElem?_getD, hr, hi]

theorem convertCorpus_length (off : Nat) (shards : List (Nat × List (List (Nat × K)))) (m : Nat)
    (h : ∀ s ∈ shards, s.2.length = m) : ∀ l ∈ convertCorpus off shards, l.length = m := by
  induction shards generalizing off with
  | nil => simp [convertCorpus]
  | cons s rest ih =>
    obtain ⟨len, docs⟩ := s
    intro l hl
    simp only [convertCorpus, List.mem_cons] at hl
    rcases hl with rfl | hl
    · simpa using h (len, docs) (by simp)
    · exact ih _ (fun x hx => h x (by simp [hx])) l hl

/-- **C55.** A query with several documents answers each one as if it had been asked alone, provided
the index has at least one shard. -/
theorem C55_corpus (srt : List K → List Nat) (part : List K → Nat → List Nat) (eps : K) (n : Int)
    (shards : List (Nat × List (List K))) (m : Nat) (hne : shards ≠ [])
    (hm : ∀ s ∈ shards, s.2.length = m) :
    queryCorpusBest srt part eps n shards = (List.range m).map fun q =>
      queryBest srt part eps n (shards.map fun s => (s.1, s.2.getD q [])) := by
  unfold queryCorpusBest
  rw [zipStar_column [] _ m (by
      cases shards with
      | nil => exact absurd rfl hne
      | cons s ss => obtain ⟨a, b⟩ := s; simp [convertCorpus])
    (convertCorpus_length 0 _ m (by
      intro s hs
      obtain ⟨s', hs', rfl⟩ := List.mem_map.1 hs
      simpa using hm s' hs'))]
  rw [List.map_map]
  apply List.map_congr_left
  intro q hq
  rw [Function.comp_apply, convertCorpus_column, List.map_map]
  unfold queryBest
  rw [List.map_map]
  congr 3
  apply List.map_congr_left
  intro s hs
  have hq' : q < s.2.length := by
    rw [hm s hs]
    exact List.mem_range.1 hq
  simp [List.getD_eq_getElem?_getD, hq']

/-- **C55 (failure).** An index without documents answers a query with several documents by an empty
list instead of one (empty) answer per document. -/
theorem C55_empty_index_corpus (srt : List K → List Nat) (part : List K → Nat → List Nat) (eps : K)
    (n : Int) : queryCorpusBest srt part eps n [] = [] := rfl

example : queryBest exSort (fun x _ => exSort x) (1 / 10) 3
    [(2, [1 / 2, (-3 : ℚ)]), (1, [0]), (3, [2, 1 / 2, 5])] = [(5, 5), (1, -3), (3, 2)] := by
  decide +kernel

end Verif.Docsim
