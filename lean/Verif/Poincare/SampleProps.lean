import Verif.Poincare.SampleModel
import Mathlib.Data.List.Nodup
import Mathlib.Data.List.GetD
import Mathlib.Data.List.Perm.Subperm

/-!
# C76: the vocabulary of a Poincaré model and its negative samples
-/

namespace Verif.Poincare

variable {K : Type} [DecidableEq K]

/-! ## The vocabulary -/

/-- The items of the relations, in order. -/
def items (rs : List (K × K)) : List K := rs.flatMap fun r => [r.1, r.2]

/-- The keys and counts describe the items seen. -/
structure ItemsOk (v : Vocab K) (its : List K) : Prop where
  nodup : v.keys.Nodup
  lens : v.counts.length = v.keys.length
  mem : ∀ k, k ∈ v.keys ↔ k ∈ its
  count : ∀ k ∈ v.keys, v.counts.getD (v.keys.idxOf k) 0 = its.count k

theorem addItem_ok (v : Vocab K) (its : List K) (h : ItemsOk v its) (x : K) :
    ItemsOk (addItem v x) (its ++ [x]) ∧ (∃ t, (addItem v x).keys = v.keys ++ t) ∧
      (addItem v x).relations = v.relations ∧ (addItem v x).nodeRelations = v.nodeRelations := by
  unfold addItem
  by_cases hx : x ∈ v.keys
  · rw [if_pos hx]
    refine ⟨⟨h.nodup, by rw [List.length_set]; exact h.lens, ?_, ?_⟩, ⟨[], by simp⟩, rfl, rfl⟩
    · intro k
      dsimp only
      rw [List.mem_append, h.mem k, List.mem_singleton]
      constructor
      · exact Or.inl
      · rintro (h' | rfl)
        · exact h'
        · exact (h.mem k).1 hx
    · intro k hk
      dsimp only at hk ⊢
      have hlt : v.keys.idxOf x < v.counts.length := by
        rw [h.lens]; exact List.idxOf_lt_length_of_mem hx
      rw [List.count_append, ← h.count k hk, List.getD_eq_getElem?_getD, List.getElem?_set]
      by_cases hkx : k = x
      · subst hkx
        rw [if_pos rfl, if_pos hlt]
        simp
      · have hne : v.keys.idxOf x ≠ v.keys.idxOf k := by
          intro he
          exact hkx ((List.idxOf_inj hk).1 he.symm)
        rw [if_neg hne, List.getD_eq_getElem?_getD]
        have : List.count k [x] = 0 := List.count_eq_zero_of_not_mem (by simpa using hkx)
        rw [this]
        rfl
  · rw [if_neg hx]
    refine ⟨⟨?_, by simp [h.lens], ?_, ?_⟩, ⟨[x], rfl⟩, rfl, rfl⟩
    · dsimp only
      rw [List.nodup_append']
      exact ⟨h.nodup, by simp, by simpa using hx⟩
    · intro k
      dsimp only
      rw [List.mem_append, List.mem_append, h.mem k]
    · intro k hk
      dsimp only at hk ⊢
      rw [List.count_append]
      by_cases hkx : k = x
      · subst hkx
        have h0 : its.count k = 0 := List.count_eq_zero_of_not_mem fun hh => hx ((h.mem k).2 hh)
        rw [h0, List.idxOf_append_of_notMem hx]
        simp [← h.lens]
      · have hk' : k ∈ v.keys := by
          rcases List.mem_append.1 hk with h' | h'
          · exact h'
          · exact absurd (List.mem_singleton.1 h') hkx
        have hlt : v.keys.idxOf k < v.counts.length := by
          rw [h.lens]; exact List.idxOf_lt_length_of_mem hk'
        have : List.count k [x] = 0 := List.count_eq_zero_of_not_mem (by simpa using hkx)
        rw [List.idxOf_append_of_mem hk', List.getD_append _ _ _ _ hlt, h.count k hk', this]
        rfl

/-- The whole vocabulary describes the relations seen. -/
structure VocabOk (v : Vocab K) (rs : List (K × K)) : Prop extends ItemsOk v (items rs) where
  rels : v.relations = rs.map fun r => (v.keys.idxOf r.1, v.keys.idxOf r.2)
  nodeNodup : ∀ i, (v.nodeRelations i).Nodup
  nodeMem : ∀ i j, j ∈ v.nodeRelations i ↔ (i, j) ∈ v.relations

theorem addRelation_ok (v : Vocab K) (rs : List (K × K)) (h : VocabOk v rs) (r : K × K) :
    VocabOk (addRelation v r) (rs ++ [r]) ∧ ∃ t, (addRelation v r).keys = v.keys ++ t := by
  obtain ⟨h1, ⟨t1, ht1⟩, hr1, hn1⟩ := addItem_ok v (items rs) h.toItemsOk r.1
  obtain ⟨h2, ⟨t2, ht2⟩, hr2, hn2⟩ := addItem_ok (addItem v r.1) _ h1 r.2
  have hits : items (rs ++ [r]) = items rs ++ [r.1] ++ [r.2] := by simp [items]
  have hkeys : (addItem (addItem v r.1) r.2).keys = v.keys ++ (t1 ++ t2) := by
    rw [ht2, ht1, List.append_assoc]
  refine ⟨?_, t1 ++ t2, hkeys⟩
  have hrels : (addRelation v r).relations = (rs ++ [r]).map fun r' =>
      ((addRelation v r).keys.idxOf r'.1, (addRelation v r).keys.idxOf r'.2) := by
    unfold addRelation
    dsimp only
    rw [List.map_append, hr2, hr1, h.rels, hkeys]
    congr 1
    apply List.map_congr_left
    intro r' hr'
    have hm : ∀ k, k ∈ [r'.1, r'.2] → k ∈ v.keys := by
      intro k hk
      rw [h.mem]
      exact List.mem_flatMap.2 ⟨r', hr', hk⟩
    rw [List.idxOf_append_of_mem (hm r'.1 (by simp)), List.idxOf_append_of_mem (hm r'.2 (by simp))]
  refine ⟨⟨?_, ?_, ?_, ?_⟩, hrels, ?_, ?_⟩
  · exact h2.nodup
  · exact h2.lens
  · rw [hits]; exact h2.mem
  · rw [hits]; exact h2.count
  · intro i
    unfold addRelation
    dsimp only
    rw [hn2, hn1]
    split
    · rename_i hi
      split
      · exact h.nodeNodup _
      · rename_i hj
        rw [List.nodup_append']
        exact ⟨h.nodeNodup _, by simp, by simpa using hj⟩
    · exact h.nodeNodup _
  · intro i j
    unfold addRelation
    dsimp only
    rw [hn2, hn1, hr2, hr1, List.mem_append]
    split
    · rename_i hi
      subst hi
      split
      · rename_i hj
        rw [h.nodeMem]
        constructor
        · exact Or.inl
        · rintro (h' | h')
          · exact h'
          · rw [List.mem_singleton, Prod.mk.injEq] at h'
            rw [h'.2, ← h.nodeMem]
            exact hj
      · rw [List.mem_append, h.nodeMem]
        simp
    · rename_i hi
      rw [h.nodeMem]
      simp [hi]

/-- **C76.** After any relations were loaded (in one or several calls), the nodes are numbered without
gaps or repetitions, the count of a node is the number of its occurrences, and the relations of a node
are exactly the second items of the pairs it begins. -/
theorem C76_vocab (calls : List (List (K × K))) :
    let v := calls.foldl buildVocab Vocab.empty
    let rs := calls.flatten
    v.keys.Nodup ∧ (∀ k, k ∈ v.keys ↔ ∃ r ∈ rs, k = r.1 ∨ k = r.2) ∧
      v.counts.length = v.keys.length ∧
      (∀ k ∈ v.keys, v.counts.getD (v.keys.idxOf k) 0
        = rs.countP (fun r => decide (r.1 = k)) + rs.countP (fun r => decide (r.2 = k))) ∧
      (∀ a ∈ v.keys, ∀ b ∈ v.keys, v.keys.idxOf b ∈ v.nodeRelations (v.keys.idxOf a) ↔ (a, b) ∈ rs) ∧
      ∀ i, (v.nodeRelations i).Nodup ∧ ∀ j ∈ v.nodeRelations i, j < v.keys.length := by
  have inv1 : ∀ (rs' rs : List (K × K)) (v : Vocab K), VocabOk v rs →
      VocabOk (buildVocab v rs') (rs ++ rs') := by
    intro rs'
    induction rs' with
    | nil => intro rs v h; simpa [buildVocab] using h
    | cons r rs' ih =>
      intro rs v h
      have := ih (rs ++ [r]) _ (addRelation_ok v rs h r).1
      simpa [buildVocab] using this
  have inv2 : ∀ (calls : List (List (K × K))) (rs : List (K × K)) (v : Vocab K), VocabOk v rs →
      VocabOk (calls.foldl buildVocab v) (rs ++ calls.flatten) := by
    intro calls
    induction calls with
    | nil => intro rs v h; simpa using h
    | cons c calls ih =>
      intro rs v h
      have := ih (rs ++ c) _ (inv1 c rs v h)
      simpa using this
  have h0 : VocabOk (Vocab.empty : Vocab K) [] :=
    ⟨⟨List.nodup_nil, rfl, by simp [Vocab.empty, items], by simp [Vocab.empty]⟩, rfl,
      by simp [Vocab.empty], by simp [Vocab.empty]⟩
  have h := inv2 calls [] _ h0
  rw [List.nil_append] at h
  dsimp only
  generalize calls.foldl buildVocab Vocab.empty = v at h
  generalize calls.flatten = rs at h
  refine ⟨h.nodup, ?_, h.lens, ?_, ?_, ?_⟩
  · intro k
    rw [h.mem]
    unfold items
    rw [List.mem_flatMap]
    simp
  · intro k hk
    rw [h.count k hk]
    unfold items
    clear h hk
    induction rs with
    | nil => rfl
    | cons r rs ih =>
      rw [List.flatMap_cons, List.count_append, ih, List.countP_cons, List.countP_cons]
      simp only [List.count_cons, List.count_nil, beq_iff_eq, decide_eq_true_eq]
      omega
  · intro a ha b hb
    rw [h.nodeMem, h.rels, List.mem_map]
    constructor
    · rintro ⟨r, hr, he⟩
      rw [Prod.mk.injEq] at he
      have hm : ∀ k, k ∈ [r.1, r.2] → k ∈ v.keys := by
        intro k hk
        rw [h.mem]
        exact List.mem_flatMap.2 ⟨r, hr, hk⟩
      have e1 := (List.idxOf_inj (hm r.1 (by simp))).1 he.1
      have e2 := (List.idxOf_inj (hm r.2 (by simp))).1 he.2
      rw [← e1, ← e2]
      exact hr
    · intro hr
      exact ⟨(a, b), hr, rfl⟩
  · intro i
    refine ⟨h.nodeNodup i, ?_⟩
    intro j hj
    rw [h.nodeMem, h.rels, List.mem_map] at hj
    obtain ⟨r, hr, he⟩ := hj
    rw [Prod.mk.injEq] at he
    rw [← he.2]
    apply List.idxOf_lt_length_of_mem
    rw [h.mem]
    exact List.mem_flatMap.2 ⟨r, hr, by simp⟩

/-! ## Drawing candidates -/

theorem cumsum_cons (c : Nat) (cs : List Nat) : cumsum (c :: cs) = c :: (cumsum cs).map (c + ·) := by
  unfold cumsum
  rw [List.length_cons, List.range_succ_eq_map, List.map_cons, List.map_map, List.map_map]
  simp [Function.comp_def]

theorem searchsorted_cons (c : Nat) (cs : List Nat) (x : Nat) :
    searchsorted (cumsum (c :: cs)) x
      = if x ≤ c then 0 else 1 + searchsorted (cumsum cs) (x - c) := by
  rw [cumsum_cons]
  unfold searchsorted
  rw [List.countP_cons, List.countP_map]
  by_cases h : x ≤ c
  · rw [if_pos h]
    have : List.countP ((fun t => decide (t < x)) ∘ fun t => c + t) (cumsum cs) = 0 := by
      rw [List.countP_eq_zero]
      intro t _
      simp
      omega
    rw [this]
    simp
    omega
  · rw [if_neg h]
    have : List.countP ((fun t => decide (t < x)) ∘ fun t => c + t) (cumsum cs)
        = List.countP (fun t => decide (t < x - c)) (cumsum cs) := by
      apply List.countP_congr
      intro t _
      simp
      omega
    rw [this]
    simp only [decide_eq_true_eq]
    rw [if_pos (by omega)]
    omega

theorem searchsorted_lt (counts : List Nat) : ∀ x, 1 ≤ x → x ≤ counts.sum →
    searchsorted (cumsum counts) x < counts.length := by
  induction counts with
  | nil => intro x h1 h2; simp at h2; omega
  | cons c cs ih =>
    intro x h1 h2
    rw [searchsorted_cons]
    rw [List.sum_cons] at h2
    rw [List.length_cons]
    split
    · omega
    · have := ih (x - c) (by omega) (by omega)
      omega

/-- **C76.** A node is drawn for exactly as many of the equally likely random numbers as its count. -/
theorem C76_proportional (counts : List Nat) (i : Nat) :
    (List.range' 1 counts.sum).countP (fun x => decide (searchsorted (cumsum counts) x = i))
      = counts.getD i 0 := by
  induction counts generalizing i with
  | nil => simp
  | cons c cs ih =>
    rw [List.sum_cons, ← List.range'_append_1, List.countP_append]
    have h1 : (List.range' 1 c).countP (fun x => decide (searchsorted (cumsum (c :: cs)) x = i))
        = if i = 0 then c else 0 := by
      by_cases hi : i = 0
      · rw [if_pos hi]
        have : (List.range' 1 c).countP (fun x => decide (searchsorted (cumsum (c :: cs)) x = i))
            = (List.range' 1 c).length := by
          rw [List.countP_eq_length]
          intro x hx
          rw [List.mem_range'_1] at hx
          rw [searchsorted_cons, if_pos (by omega)]
          simp [hi]
        rw [this, List.length_range']
      · rw [if_neg hi, List.countP_eq_zero]
        intro x hx
        rw [List.mem_range'_1] at hx
        rw [searchsorted_cons, if_pos (by omega)]
        simp
        omega
    have h2 : (List.range' (1 + c) cs.sum).countP
        (fun x => decide (searchsorted (cumsum (c :: cs)) x = i))
        = if i = 0 then 0 else (List.range' 1 cs.sum).countP
            (fun x => decide (searchsorted (cumsum cs) x = i - 1)) := by
      have hr : List.range' (1 + c) cs.sum = (List.range' 1 cs.sum).map (c + ·) := by
        rw [List.map_add_range', Nat.add_comm]
      rw [hr, List.countP_map]
      by_cases hi : i = 0
      · rw [if_pos hi, List.countP_eq_zero]
        intro x hx
        rw [List.mem_range'_1] at hx
        simp only [Function.comp_apply, decide_eq_true_eq]
        rw [searchsorted_cons, if_neg (by omega)]
        omega
      · rw [if_neg hi]
        apply List.countP_congr
        intro x hx
        rw [List.mem_range'_1] at hx
        simp only [Function.comp_apply, decide_eq_true_eq]
        rw [searchsorted_cons, if_neg (by omega), Nat.add_sub_cancel_left]
        omega
    rw [h1, h2]
    cases i with
    | zero => simp
    | succ i => simp [ih i]

/-! ## Negative samples -/

/-- Every array of random numbers has `size` numbers between 1 and the sum of the counts. -/
def RandOk (size : Nat) (counts : List Nat) (rand : Nat → List Nat) : Prop :=
  ∀ k, (rand k).length = size ∧ ∀ x ∈ rand k, 1 ≤ x ∧ x ≤ counts.sum

/-- What `np.random.choice` returns: `negative` different nodes that are not related. -/
def ChoiceOk (v : Vocab K) (negative : Nat) (node : Nat) (choice : List Nat) : Prop :=
  choice.length = negative ∧ choice.Nodup ∧
    ∀ x ∈ choice, x < v.keys.length ∧ x ∉ v.nodeRelations node

theorem candidates_spec (counts : List Nat) (negative size : Nat) (hs : negative ≤ size)
    (rand : Nat → List Nat) (hr : RandOk size counts rand) (st : SampleState)
    (hst : ∀ x ∈ st.buffer.items, x < counts.length) :
    (candidates counts negative rand st).1.length = negative ∧
      (∀ x ∈ (candidates counts negative rand st).1, x < counts.length) ∧
      ∀ x ∈ (candidates counts negative rand st).2.buffer.items, x < counts.length := by
  have hnew : ∀ x ∈ (rand st.used).map (searchsorted (cumsum counts)), x < counts.length := by
    intro x hx
    obtain ⟨y, hy, rfl⟩ := List.mem_map.1 hx
    obtain ⟨h1, h2⟩ := (hr st.used).2 y hy
    exact searchsorted_lt counts y h1 h2
  unfold candidates
  dsimp only
  split
  · dsimp only [Buffer.getItems]
    refine ⟨?_, ?_, hnew⟩
    · simp [(hr st.used).1, hs]
    · intro x hx
      exact hnew x (List.mem_of_mem_take (by simpa using hx))
  · rename_i h
    unfold Buffer.numItems at h
    dsimp only [Buffer.getItems]
    refine ⟨?_, ?_, hst⟩
    · rw [List.length_take, List.length_drop]
      omega
    · intro x hx
      exact hst x (List.mem_of_mem_drop (List.mem_of_mem_take hx))

/-- **C76.** Whatever the random numbers, the negatives returned for a node are `negative` different
nodes, none of which is related to it (and the buffer again holds nodes only). -/
theorem C76_negatives (v : Vocab K) (hlen : v.counts.length = v.keys.length) (negative size : Nat)
    (hs : negative ≤ size) (rand : Nat → List Nat) (hr : RandOk size v.counts rand) (node : Nat)
    (choice : List Nat) (hc : ChoiceOk v negative node choice) (fuel : Nat) (st st' : SampleState)
    (hst : ∀ x ∈ st.buffer.items, x < v.keys.length) (l : List Nat)
    (h : sampleNegatives v negative rand choice fuel st node = Sampled.done l st') :
    l.length = negative ∧ l.Nodup ∧ (∀ x ∈ l, x < v.keys.length ∧ x ∉ v.nodeRelations node) ∧
      ∀ x ∈ st'.buffer.items, x < v.keys.length := by
  have loop : ∀ (fuel : Nat) (st : SampleState), (∀ x ∈ st.buffer.items, x < v.counts.length) →
      ∀ r, resample v.counts negative rand (v.nodeRelations node) fuel st = some r →
      r.1.length = negative ∧ r.1.Nodup ∧ (∀ x ∈ r.1, x < v.counts.length ∧ x ∉ v.nodeRelations node) ∧
        ∀ x ∈ r.2.buffer.items, x < v.counts.length := by
    intro fuel
    induction fuel with
    | zero => intro st _ r h; simp [resample] at h
    | succ fuel ih =>
      intro st hst r h
      rw [resample] at h
      obtain ⟨h1, h2, h3⟩ := candidates_spec v.counts negative size hs rand hr st hst
      split at h
      · exact ih _ h3 r h
      · rename_i ha
        rw [Option.some.injEq] at h
        subst h
        simp only [again, Bool.or_eq_true, Bool.not_eq_true', decide_eq_false_iff_not,
          List.any_eq_true, decide_eq_true_eq, not_or, not_not, not_exists, not_and] at ha
        exact ⟨h1, ha.1, fun x hx => ⟨h2 x hx, ha.2 x hx⟩, h3⟩
  unfold sampleNegatives at h
  dsimp only at h
  split at h
  · exact absurd h (by simp)
  · split at h
    · split at h
      · exact absurd h (by simp)
      · rename_i r hr'
        simp only [Sampled.done.injEq] at h
        obtain ⟨rfl, rfl⟩ := h
        rw [← hlen] at hst ⊢
        exact loop fuel st hst r hr'
    · simp only [Sampled.done.injEq] at h
      obtain ⟨rfl, rfl⟩ := h
      exact ⟨hc.1, hc.2.1, hc.2.2, hst⟩

/-- **C76.** It raises exactly when the node has fewer than `negative` unrelated nodes. -/
theorem C76_error (v : Vocab K) (negative : Nat) (rand : Nat → List Nat) (choice : List Nat)
    (fuel : Nat) (st : SampleState) (node : Nat) (hn : (v.nodeRelations node).Nodup)
    (hin : ∀ j ∈ v.nodeRelations node, j < v.keys.length) :
    sampleNegatives v negative rand choice fuel st node = Sampled.error ↔
      ((List.range v.keys.length).filter fun x => decide (x ∉ v.nodeRelations node)).length
        < negative := by
  have hcount : ((List.range v.keys.length).filter fun x => decide (x ∉ v.nodeRelations node)).length
      + (v.nodeRelations node).length = v.keys.length := by
    have h1 : ((List.range v.keys.length).filter fun x => decide (x ∈ v.nodeRelations node)).length
        = (v.nodeRelations node).length := by
      apply List.Perm.length_eq
      rw [List.perm_ext_iff_of_nodup (List.nodup_range.filter _) hn]
      intro a
      rw [List.mem_filter, List.mem_range, decide_eq_true_iff]
      exact ⟨fun h => h.2, fun h => ⟨hin a h, h⟩⟩
    have h2 := List.length_eq_countP_add_countP (fun x => decide (x ∈ v.nodeRelations node))
      (l := List.range v.keys.length)
    rw [List.length_range, List.countP_eq_length_filter, List.countP_eq_length_filter, h1] at h2
    have h3 : (List.range v.keys.length).filter (fun x => decide (x ∉ v.nodeRelations node))
        = (List.range v.keys.length).filter
          (fun a => decide ¬decide (a ∈ v.nodeRelations node) = true) := by
      apply List.filter_congr
      intro x _
      simp
    rw [h3]
    omega
  unfold sampleNegatives
  dsimp only
  constructor
  · intro h
    split at h
    · omega
    · split at h
      · split at h <;> exact absurd h (by simp)
      · exact absurd h (by simp)
  · intro h
    rw [if_pos (by omega)]

/-- **C76.** With more negatives asked for than the buffer holds, sampling by rejection returns too few
nodes: never more than `size`. -/
theorem C76_too_few (counts : List Nat) (negative size : Nat) (hs : size < negative)
    (rand : Nat → List Nat) (hr : RandOk size counts rand) (related : List Nat) (fuel : Nat)
    (st : SampleState) (hst : st.buffer.items.length ≤ size)
    (r : List Nat × SampleState) (h : resample counts negative rand related fuel st = some r) :
    r.1.length < negative := by
  have hc : ∀ st : SampleState, st.buffer.items.length ≤ size →
      (candidates counts negative rand st).1.length ≤ size ∧
        (candidates counts negative rand st).2.buffer.items.length ≤ size := by
    intro st hst
    unfold candidates
    dsimp only
    split
    · simp [Buffer.getItems, (hr st.used).1]
      omega
    · simp only [Buffer.getItems]
      refine ⟨?_, hst⟩
      rw [List.length_take, List.length_drop]
      omega
  induction fuel generalizing st with
  | zero => simp [resample] at h
  | succ fuel ih =>
    rw [resample] at h
    obtain ⟨h1, h2⟩ := hc st hst
    split at h
    · exact ih _ h2 h
    · rw [Option.some.injEq] at h
      subst h
      omega

/-- **C76.** Sampling by rejection can always end: for every state of the buffer there are random
numbers with which it does, provided that there are enough unrelated nodes, each with a positive
count. -/
theorem C76_can_end (counts : List Nat) (hpos : ∀ c ∈ counts, 0 < c) (negative size : Nat)
    (hn : 0 < negative) (hs : negative ≤ size) (related good : List Nat) (hg : good.Nodup)
    (hgl : good.length = negative) (hgood : ∀ x ∈ good, x < counts.length ∧ x ∉ related)
    (st : SampleState) :
    ∃ (rand : Nat → List Nat) (fuel : Nat), RandOk size counts rand ∧
      (resample counts negative rand related fuel st).isSome = true := by
  have hpre : ∀ counts : List Nat, (∀ c ∈ counts, 0 < c) → ∀ i, i < counts.length →
      ∃ x, 1 ≤ x ∧ x ≤ counts.sum ∧ searchsorted (cumsum counts) x = i := by
    intro counts
    induction counts with
    | nil => intro _ i hi; simp at hi
    | cons c cs ih =>
      intro hp i hi
      have hc : 0 < c := hp c List.mem_cons_self
      cases i with
      | zero =>
        refine ⟨1, Nat.le_refl _, ?_, ?_⟩
        · rw [List.sum_cons]; omega
        · rw [searchsorted_cons, if_pos (by omega)]
      | succ i =>
        obtain ⟨x, h1, h2, h3⟩ := ih (fun c hc => hp c (List.mem_cons_of_mem _ hc)) i
          (by simpa using hi)
        refine ⟨c + x, by omega, ?_, ?_⟩
        · rw [List.sum_cons]; omega
        · rw [searchsorted_cons, if_neg (by omega), Nat.add_sub_cancel_left, h3]
          omega
  obtain ⟨f, hf⟩ : ∃ f : Nat → Nat, ∀ i, i < counts.length →
      1 ≤ f i ∧ f i ≤ counts.sum ∧ searchsorted (cumsum counts) (f i) = i := by
    have : ∀ i, ∃ x, i < counts.length →
        1 ≤ x ∧ x ≤ counts.sum ∧ searchsorted (cumsum counts) x = i := by
      intro i
      by_cases hi : i < counts.length
      · obtain ⟨x, hx⟩ := hpre counts hpos i hi
        exact ⟨x, fun _ => hx⟩
      · exact ⟨0, fun h => absurd h hi⟩
    exact ⟨fun i => (this i).choose, fun i => (this i).choose_spec⟩
  have hne : good ≠ [] := by
    intro h
    rw [h] at hgl
    simp at hgl
    omega
  obtain ⟨g0, hg0⟩ := List.exists_mem_of_ne_nil good hne
  let arr := good.map f ++ List.replicate (size - negative) (f g0)
  have harr : arr.length = size := by
    simp only [arr, List.length_append, List.length_map, List.length_replicate, hgl]
    omega
  have hrand : RandOk size counts fun _ => arr := by
    intro k
    refine ⟨harr, ?_⟩
    intro x hx
    rcases List.mem_append.1 hx with hx | hx
    · obtain ⟨i, hi, rfl⟩ := List.mem_map.1 hx
      have := hf i (hgood i hi).1
      exact ⟨this.1, this.2.1⟩
    · rw [(List.mem_replicate.1 hx).2]
      have := hf g0 (hgood g0 hg0).1
      exact ⟨this.1, this.2.1⟩
  have hfirst : (arr.map (searchsorted (cumsum counts))).take negative = good := by
    simp only [arr, List.map_append, List.map_map]
    rw [List.take_append_of_le_length (by simp [hgl]), List.take_of_length_le (by simp [hgl])]
    conv_rhs => rw [← List.map_id good]
    apply List.map_congr_left
    intro i hi
    exact (hf i (hgood i hi).1).2.2
  have hend : ∀ (m : Nat) (st : SampleState), st.buffer.items.length - st.buffer.pos ≤ m →
      (resample counts negative (fun _ => arr) related (m + 1) st).isSome = true := by
    intro m
    induction m using Nat.strongRecOn with
    | _ m ih =>
      intro st hm
      rw [resample]
      by_cases hb : st.buffer.numItems < negative
      · have hc : (candidates counts negative (fun _ => arr) st).1 = good := by
          unfold candidates
          dsimp only
          rw [if_pos hb]
          dsimp only [Buffer.getItems]
          rw [List.drop_zero]
          exact hfirst
        have ha : again (candidates counts negative (fun _ => arr) st).1 related = false := by
          rw [hc]
          unfold again
          rw [decide_eq_true hg]
          simp only [Bool.not_true, Bool.false_or, List.any_eq_false, decide_eq_true_eq]
          exact fun x hx => (hgood x hx).2
        rw [ha]
        rfl
      · have hb' := hb
        unfold Buffer.numItems at hb'
        split
        · cases m with
          | zero => omega
          | succ m =>
            apply ih m (by omega)
            unfold candidates
            dsimp only
            rw [if_neg hb]
            dsimp only [Buffer.getItems]
            omega
        · rfl
  exact ⟨fun _ => arr, _, hrand, hend _ st (Nat.le_refl _)⟩

/-- **C76.** A node may be its own negative: with the single relation (a, b) and one negative, the only
unrelated node of `a` is `a` itself. -/
theorem C76_own_negative (choice : List Nat) :
    let v := buildVocab Vocab.empty [("a", "b")]
    ChoiceOk v 1 0 choice → choice = [0] := by
  intro v h
  obtain ⟨h1, _, h3⟩ := h
  obtain ⟨x, rfl⟩ := List.length_eq_one_iff.1 h1
  obtain ⟨h4, h5⟩ := h3 x (List.mem_singleton_self x)
  have hk : v.keys.length = 2 := by decide +kernel
  have hn : v.nodeRelations 0 = [1] := by decide +kernel
  rw [hk] at h4
  rw [hn, List.mem_singleton] at h5
  congr 1
  omega

example : (buildVocab Vocab.empty [("a", "b"), ("a", "c"), ("b", "c")]).counts = [2, 2, 2] := by
  decide +kernel

example : RandOk 3 [2, 1] fun _ => [1, 2, 3] := by
  intro _
  exact (by decide +kernel : ([1, 2, 3] : List Nat).length = 3 ∧
    ∀ x ∈ ([1, 2, 3] : List Nat), 1 ≤ x ∧ x ≤ ([2, 1] : List Nat).sum)

end Verif.Poincare
