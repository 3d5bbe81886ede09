import Verif.Coherence.ContextModel
import Verif.Coherence.SegmentProps
import Verif.Coherence.MeasureProps
import Mathlib.Algebra.Order.BigOperators.Ring.Finset
import Mathlib.Algebra.BigOperators.Intervals
import Mathlib.Tactic.Linarith
import Mathlib.Tactic.Ring

/-!
# C80: the context vectors of c_v coherence
-/

namespace Verif.Coherence

/-! ## Specification -/

/-- The component of the context vector of the words `seg` in the direction of the word `x`: the sum of
the similarities of the words of `seg` with `x`, once for each occurrence of `x` in the topic. -/
noncomputable def context (sim : Nat × Nat → ℝ) (gamma : Nat) (seg topic : List Nat) (x : Nat) : ℝ :=
  topic.count x * (seg.map fun w => sim (w, x) ^ gamma).sum

/-- Inner product of two functions on words. -/
noncomputable def innerOn (words : List Nat) (u v : Nat → ℝ) : ℝ :=
  (words.map fun x => u x * v x).sum

/-- Their cosine; undefined if one of them is zero. -/
noncomputable def cosineOn (words : List Nat) (u v : Nat → ℝ) : Option ℝ :=
  if innerOn words u u = 0 ∨ innerOn words v v = 0 then none
  else some (innerOn words u v / (√(innerOn words u u) * √(innerOn words v v)))

/-! ## The mapping -/

/-- The entries are numbered from 0 in order. -/
def Numbered (s : PyDict Nat Nat × Nat) : Prop :=
  s.1.values = List.range s.2 ∧ s.1.WF

theorem mapToContiguous_numbered (ids : List Nat) :
    Numbered (mapToContiguous ids) ∧ ∀ x, x ∈ (mapToContiguous ids).1.keys ↔ x ∈ ids := by
  have gen : ∀ (ids : List Nat) (s : PyDict Nat Nat × Nat), Numbered s →
      Numbered (ids.foldl (fun s i => if s.1.contains i then s else (s.1.set i s.2, s.2 + 1)) s) ∧
      ∀ x, x ∈ (ids.foldl (fun s i => if s.1.contains i then s
        else (s.1.set i s.2, s.2 + 1)) s).1.keys ↔ x ∈ s.1.keys ∨ x ∈ ids := by
    intro ids
    induction ids with
    | nil => intro s h; exact ⟨h, by simp⟩
    | cons i ids ih =>
      intro s h
      rw [List.foldl_cons]
      by_cases hc : s.1.contains i = true
      · rw [if_pos hc]
        obtain ⟨h1, h2⟩ := ih s h
        refine ⟨h1, ?_⟩
        intro x
        rw [h2 x, List.mem_cons]
        have hk := (PyDict.contains_iff _ _).1 hc
        constructor
        · rintro (h | h)
          · exact Or.inl h
          · exact Or.inr (Or.inr h)
        · rintro (h | rfl | h)
          · exact Or.inl h
          · exact Or.inl hk
          · exact Or.inr h
      · rw [if_neg hc]
        have hk : i ∉ s.1.keys := fun h => hc ((PyDict.contains_iff _ _).2 h)
        have hn : Numbered (s.1.set i s.2, s.2 + 1) := by
          refine ⟨?_, PyDict.WF_set h.2 i s.2⟩
          dsimp only
          rw [PyDict.set_of_not_mem hk]
          unfold PyDict.values
          rw [List.map_append, List.range_succ]
          have := h.1
          unfold PyDict.values at this
          rw [this]
          rfl
        obtain ⟨h1, h2⟩ := ih _ hn
        refine ⟨h1, ?_⟩
        intro x
        rw [h2 x, PyDict.mem_keys_set, List.mem_cons]
        constructor
        · rintro ((h | h) | h)
          · first | exact Or.inl h | exact Or.inr (Or.inl h)
          · first | exact Or.inl h | exact Or.inr (Or.inl h)
          · exact Or.inr (Or.inr h)
        · rintro (h | h | h)
          · exact Or.inl (by first | exact Or.inl h | exact Or.inr h)
          · exact Or.inl (by first | exact Or.inl h | exact Or.inr h)
          · exact Or.inr h
  have := gen ids ([], 0) ⟨rfl, PyDict.WF_nil⟩
  refine ⟨this.1, ?_⟩
  intro x
  have h2 := this.2 x
  simpa [mapToContiguous, PyDict.keys] using h2

theorem numbered_sum (s : PyDict Nat Nat × Nat) (h : Numbered s) (f : Nat → ℝ) :
    ((List.range s.2).map f).sum = (s.1.keys.map fun x => f (s.1.getD x 0)).sum := by
  rw [← h.1]
  unfold PyDict.values PyDict.keys
  rw [List.map_map, List.map_map]
  congr 1
  apply List.map_congr_left
  intro p hp
  rw [Function.comp_apply, Function.comp_apply]
  unfold PyDict.getD
  rw [PyDict.get?_of_mem h.2 (k := p.1) (v := p.2) hp]
  rfl

theorem numbered_inj (s : PyDict Nat Nat × Nat) (h : Numbered s) (x y : Nat) (hx : x ∈ s.1.keys)
    (hy : y ∈ s.1.keys) (he : s.1.getD x 0 = s.1.getD y 0) : x = y := by
  have hv : s.1.values.Nodup := by rw [h.1]; exact List.nodup_range
  obtain ⟨p, hp, rfl⟩ := List.mem_map.1 hx
  obtain ⟨q, hq, rfl⟩ := List.mem_map.1 hy
  unfold PyDict.getD at he
  rw [PyDict.get?_of_mem h.2 (k := p.1) (v := p.2) hp, PyDict.get?_of_mem h.2 (k := q.1) (v := q.2) hq]
    at he
  have : p = q := List.inj_on_of_nodup_map hv hp hq he
  rw [this]

/-! ## The caches -/

/-- Every cached similarity is right. -/
def SimsOk (sim : Nat × Nat → ℝ) (c : PyDict (Nat × Nat) ℝ) : Prop :=
  ∀ p v, c.get? p = some v → v = sim p

theorem cachedSim_ok (sim : Nat × Nat → ℝ) (c : PyDict (Nat × Nat) ℝ) (h : SimsOk sim c)
    (p : Nat × Nat) : (cachedSim sim c p).1 = sim p ∧ SimsOk sim (cachedSim sim c p).2 := by
  unfold cachedSim
  cases hg : c.get? p with
  | some v => exact ⟨h p v hg, h⟩
  | none =>
    refine ⟨rfl, ?_⟩
    intro q v hq
    rw [PyDict.get?_set] at hq
    split at hq
    · rename_i he
      rw [Option.some.injEq] at hq
      rw [← hq, he]
    · exact h q v hq

theorem sortedPair_sim (sim : Nat × Nat → ℝ) (hs : ∀ a b, sim (a, b) = sim (b, a)) (a b : Nat) :
    sim (sortedPair a b) = sim (a, b) := by
  unfold sortedPair
  split
  · rfl
  · exact hs b a

theorem addWord_ok (sim : Nat × Nat → ℝ) (hs : ∀ a b, sim (a, b) = sim (b, a)) (gamma idx wj : Nat)
    (ws : List Nat) (s : (Nat → ℝ) × PyDict (Nat × Nat) ℝ) (h : SimsOk sim s.2) :
    (∀ i, (addWord sim gamma idx wj ws s).1 i
      = s.1 i + if i = idx then (ws.map fun w => sim (w, wj) ^ gamma).sum else 0) ∧
      SimsOk sim (addWord sim gamma idx wj ws s).2 := by
  induction ws generalizing s with
  | nil => simp [addWord, h]
  | cons wi ws ih =>
    rw [addWord]
    obtain ⟨h1, h2⟩ := cachedSim_ok sim s.2 h (sortedPair wi wj)
    obtain ⟨h3, h4⟩ := ih (Function.update s.1 idx (s.1 idx +
      (cachedSim sim s.2 (sortedPair wi wj)).1 ^ gamma), (cachedSim sim s.2 (sortedPair wi wj)).2) h2
    refine ⟨?_, h4⟩
    intro i
    rw [h3 i, h1, sortedPair_sim sim hs]
    dsimp only
    by_cases hi : i = idx
    · subst hi
      rw [Function.update_self, if_pos rfl, if_pos rfl, List.map_cons, List.sum_cons]
      ring
    · rw [Function.update_of_ne hi, if_neg hi, if_neg hi]

theorem makeSeg_ok (sim : Nat × Nat → ℝ) (hs : ∀ a b, sim (a, b) = sim (b, a)) (gamma : Nat)
    (m : PyDict Nat Nat × Nat) (hm : Numbered m) (seg : Seg) (topic : List Nat)
    (ht : ∀ x ∈ topic, x ∈ m.1.keys) (s : (Nat → ℝ) × PyDict (Nat × Nat) ℝ) (h : SimsOk sim s.2) :
    (∀ x ∈ m.1.keys, (makeSeg sim gamma m.1 seg topic s).1 (m.1.getD x 0)
      = s.1 (m.1.getD x 0) + context sim gamma seg.words topic x) ∧
      SimsOk sim (makeSeg sim gamma m.1 seg topic s).2 := by
  induction topic generalizing s with
  | nil => simp [makeSeg, context, h]
  | cons wj topic ih =>
    rw [makeSeg]
    obtain ⟨h1, h2⟩ := addWord_ok sim hs gamma (m.1.getD wj 0) wj seg.words s h
    obtain ⟨h3, h4⟩ := ih (fun x hx => ht x (List.mem_cons_of_mem _ hx)) _ h2
    refine ⟨?_, h4⟩
    intro x hx
    rw [h3 x hx, h1]
    unfold context
    rw [List.count_cons]
    by_cases he : x = wj
    · subst he
      simp only [if_true, beq_self_eq_true]
      push_cast
      ring
    · have hne : m.1.getD x 0 ≠ m.1.getD wj 0 := fun hh =>
        he (numbered_inj m hm x wj hx (ht wj List.mem_cons_self) hh)
      have hb : (wj == x) = false := by
        rw [beq_eq_false_iff_ne]
        exact fun hh => he hh.symm
      rw [if_neg hne, hb]
      simp

/-- Every cached vector is right. -/
def CachesOk (sim : Nat × Nat → ℝ) (gamma : Nat) (m : PyDict Nat Nat × Nat) (c : Caches) : Prop :=
  SimsOk sim c.sims ∧ ∀ seg topic v, c.vectors.get? (seg, topic) = some v →
    ∀ x ∈ m.1.keys, v (m.1.getD x 0) = context sim gamma seg.words topic x

theorem contextVector_ok (sim : Nat × Nat → ℝ) (hs : ∀ a b, sim (a, b) = sim (b, a)) (gamma : Nat)
    (m : PyDict Nat Nat × Nat) (hm : Numbered m) (seg : Seg) (topic : List Nat)
    (ht : ∀ x ∈ topic, x ∈ m.1.keys) (c : Caches) (h : CachesOk sim gamma m c) :
    (∀ x ∈ m.1.keys, (contextVector sim gamma m.1 seg topic c).1 (m.1.getD x 0)
      = context sim gamma seg.words topic x) ∧
      CachesOk sim gamma m (contextVector sim gamma m.1 seg topic c).2 := by
  unfold contextVector
  cases hg : c.vectors.get? (seg, topic) with
  | some v => exact ⟨h.2 seg topic v hg, h⟩
  | none =>
    dsimp only
    obtain ⟨h1, h2⟩ := makeSeg_ok sim hs gamma m hm seg topic ht (fun _ => 0, c.sims) h.1
    have h1' : ∀ x ∈ m.1.keys, (makeSeg sim gamma m.1 seg topic (fun _ => 0, c.sims)).1 (m.1.getD x 0)
        = context sim gamma seg.words topic x := by
      intro x hx
      rw [h1 x hx]
      dsimp only
      rw [zero_add]
    refine ⟨h1', h2, ?_⟩
    intro seg' topic' v hv
    dsimp only at hv
    rw [PyDict.get?_set] at hv
    split at hv
    · rename_i he
      rw [Option.some.injEq] at hv
      obtain ⟨rfl, rfl⟩ := Prod.mk.inj he
      rw [← hv]
      exact h1'
    · exact h.2 seg' topic' v hv

theorem dotN_eq (m : PyDict Nat Nat × Nat) (hm : Numbered m) (u v : Nat → ℝ) (U V : Nat → ℝ)
    (hu : ∀ x ∈ m.1.keys, u (m.1.getD x 0) = U x) (hv : ∀ x ∈ m.1.keys, v (m.1.getD x 0) = V x) :
    dotN m.2 u v = innerOn m.1.keys U V := by
  unfold dotN innerOn
  rw [numbered_sum m hm]
  congr 1
  apply List.map_congr_left
  intro x hx
  rw [hu x hx, hv x hx]

theorem innerOn_nonneg (words : List Nat) (u : Nat → ℝ) : 0 ≤ innerOn words u u := by
  unfold innerOn
  apply List.sum_nonneg
  intro x hx
  obtain ⟨w, _, rfl⟩ := List.mem_map.1 hx
  exact mul_self_nonneg _

theorem cossim_eq (m : PyDict Nat Nat × Nat) (hm : Numbered m) (u v : Nat → ℝ) (U V : Nat → ℝ)
    (hu : ∀ x ∈ m.1.keys, u (m.1.getD x 0) = U x) (hv : ∀ x ∈ m.1.keys, v (m.1.getD x 0) = V x) :
    cossim m.2 u v = cosineOn m.1.keys U V := by
  unfold cossim cosineOn
  rw [dotN_eq m hm u u U U hu hu, dotN_eq m hm v v V V hv hv, dotN_eq m hm u v U V hu hv]
  have : √(innerOn m.1.keys U U) * √(innerOn m.1.keys V V) = 0 ↔
      innerOn m.1.keys U U = 0 ∨ innerOn m.1.keys V V = 0 := by
    rw [mul_eq_zero, Real.sqrt_eq_zero (innerOn_nonneg _ _), Real.sqrt_eq_zero (innerOn_nonneg _ _)]
  rw [if_congr this rfl rfl]

theorem topicSims_ok (sim : Nat × Nat → ℝ) (hs : ∀ a b, sim (a, b) = sim (b, a)) (gamma : Nat)
    (m : PyDict Nat Nat × Nat) (hm : Numbered m) (topic : List Nat)
    (ht : ∀ x ∈ topic, x ∈ m.1.keys) (segs : List (Nat × List Nat)) (c : Caches)
    (h : CachesOk sim gamma m c) :
    (topicSims sim gamma m topic segs c).1 = segs.map (fun s =>
      cosineOn m.1.keys (context sim gamma [s.1] topic) (context sim gamma s.2 topic)) ∧
      CachesOk sim gamma m (topicSims sim gamma m topic segs c).2 := by
  induction segs generalizing c with
  | nil => exact ⟨rfl, h⟩
  | cons s segs ih =>
    rw [topicSims]
    dsimp only
    obtain ⟨h1, h2⟩ := contextVector_ok sim hs gamma m hm (Seg.one s.1) topic ht c h
    obtain ⟨h3, h4⟩ := contextVector_ok sim hs gamma m hm (Seg.many s.2) topic ht _ h2
    obtain ⟨h5, h6⟩ := ih _ h4
    refine ⟨?_, h6⟩
    rw [h5, List.map_cons, cossim_eq m hm _ _ _ _ h1 h3]
    rfl

/-- **C80.** Whatever is cached, c_v coherence compares, for every word of a topic, the vector of the
similarities of the word with the words of the topic, and the sum of these vectors over the topic; the
coherence of the topic is the mean of the cosines. -/
theorem C80_cosine (sim : Nat × Nat → ℝ) (hs : ∀ a b, sim (a, b) = sim (b, a)) (gamma : Nat)
    (topics : List (List Nat)) :
    ∃ words : List Nat, words.Nodup ∧ (∀ x, x ∈ words ↔ x ∈ topics.flatten) ∧
      cosineSimilarity sim gamma topics (sOneSet topics) = topics.map fun topic =>
        arithmeticMean (topic.map fun w =>
          cosineOn words (context sim gamma [w] topic) (context sim gamma topic topic)) := by
  obtain ⟨hm, hk⟩ := mapToContiguous_numbered topics.flatten
  refine ⟨(mapToContiguous topics.flatten).1.keys, hm.2, hk, ?_⟩
  unfold cosineSimilarity
  generalize mapToContiguous topics.flatten = m at hm hk
  have loop : ∀ (ts : List (List Nat)) (c : Caches), CachesOk sim gamma m c →
      (∀ t ∈ ts, ∀ x ∈ t, x ∈ m.1.keys) →
      cosineLoop sim gamma m (ts.zip (sOneSet ts)) c = ts.map fun topic =>
        arithmeticMean (topic.map fun w =>
          cosineOn m.1.keys (context sim gamma [w] topic) (context sim gamma topic topic)) := by
    intro ts
    induction ts with
    | nil => intro c _ _; rfl
    | cons t ts ih =>
      intro c hc ht
      have hz : (t :: ts).zip (sOneSet (t :: ts)) = (t, sOneSetTopic t) :: ts.zip (sOneSet ts) := rfl
      rw [hz, cosineLoop]
      dsimp only
      obtain ⟨h1, h2⟩ := topicSims_ok sim hs gamma m hm t (ht t List.mem_cons_self)
        (sOneSetTopic t) c hc
      rw [ih _ h2 fun t' ht' => ht t' (List.mem_cons_of_mem _ ht'), h1, List.map_cons]
      congr 2
      unfold sOneSetTopic
      rw [List.map_map]
      rfl
  apply loop
  · exact ⟨by intro p v h; simp [PyDict.get?] at h, by intro a b v h; simp [PyDict.get?] at h⟩
  · intro t ht x hx
    rw [hk]
    exact List.mem_flatten.2 ⟨t, ht, hx⟩

/-- **C80.** The similarity used, the normalized log ratio over the windows of any texts, is symmetric. -/
theorem C80_symmetric (eps : ℝ) (rel : List Nat) (k : Nat) (hk : 0 < k) (texts : List (List Nat))
    (a b : Nat) : logRatioNormalized eps ((accumulate rel k Acc.init texts).counts rel) (a, b)
      = logRatioNormalized eps ((accumulate rel k Acc.init texts).counts rel) (b, a) := by
  apply (C79_symmetric eps _ _ a b).2
  intro x y
  unfold Acc.counts
  dsimp only
  by_cases hx : x ∈ rel
  · by_cases hy : y ∈ rel
    · obtain ⟨_, _, _, h1, h2, _⟩ := C52_never_over rel k hk texts x y hx hy
      rw [h1, h2]
    · rw [(C52_irrelevant rel _ x y).2 (Or.inr hy), (C52_irrelevant rel _ y x).2 (Or.inl hy)]
  · rw [(C52_irrelevant rel _ x y).2 (Or.inl hx), (C52_irrelevant rel _ y x).2 (Or.inr hx)]

theorem innerOn_cauchy (words : List Nat) (u v : Nat → ℝ) :
    innerOn words u v ^ 2 ≤ innerOn words u u * innerOn words v v := by
  have hsum : ∀ f : Nat → ℝ, (words.map f).sum = ∑ i : Fin words.length, f words[i] := by
    intro f
    rw [← List.sum_ofFn]
    congr 1
    apply List.ext_getElem
    · simp
    · intro i h1 h2
      simp
  unfold innerOn
  rw [hsum, hsum, hsum]
  have := Finset.sum_mul_sq_le_sq_mul_sq Finset.univ (fun i : Fin words.length => u words[i])
    (fun i : Fin words.length => v words[i])
  simpa only [pow_two] using this

/-- **C80.** Every cosine lies between -1 and 1. -/
theorem C80_range (words : List Nat) (u v : Nat → ℝ) (c : ℝ) (h : cosineOn words u v = some c) :
    -1 ≤ c ∧ c ≤ 1 := by
  unfold cosineOn at h
  split at h
  · exact absurd h (by simp)
  · rename_i hz
    rw [not_or] at hz
    rw [Option.some.injEq] at h
    have h1 : 0 < innerOn words u u := lt_of_le_of_ne (innerOn_nonneg _ _) (Ne.symm hz.1)
    have h2 : 0 < innerOn words v v := lt_of_le_of_ne (innerOn_nonneg _ _) (Ne.symm hz.2)
    have hpos : 0 < √(innerOn words u u) * √(innerOn words v v) :=
      mul_pos (Real.sqrt_pos.2 h1) (Real.sqrt_pos.2 h2)
    have hle : |innerOn words u v| ≤ √(innerOn words u u) * √(innerOn words v v) := by
      rw [← Real.sqrt_mul h1.le, ← Real.sqrt_sq_eq_abs]
      exact Real.sqrt_le_sqrt (innerOn_cauchy words u v)
    rw [← h, le_div_iff₀ hpos, div_le_iff₀ hpos]
    obtain ⟨h3, h4⟩ := abs_le.1 hle
    constructor <;> linarith

/-- **C80.** A topic of one word has coherence 1 (if the word is not independent of itself). -/
theorem C80_single (sim : Nat × Nat → ℝ) (gamma : Nat) (w : Nat) (hw : sim (w, w) ^ gamma ≠ 0)
    (words : List Nat) (hnd : words.Nodup) (hin : w ∈ words) :
    arithmeticMean ([w].map fun x =>
      cosineOn words (context sim gamma [x] [w]) (context sim gamma [w] [w])) = some 1 := by
  have hpos : 0 < innerOn words (context sim gamma [w] [w]) (context sim gamma [w] [w]) := by
    have hmem : context sim gamma [w] [w] w * context sim gamma [w] [w] w
        ≤ innerOn words (context sim gamma [w] [w]) (context sim gamma [w] [w]) := by
      unfold innerOn
      apply List.single_le_sum
      · intro x hx
        obtain ⟨y, _, rfl⟩ := List.mem_map.1 hx
        exact mul_self_nonneg _
      · exact List.mem_map.2 ⟨w, hin, rfl⟩
    have hne : context sim gamma [w] [w] w ≠ 0 := by
      unfold context
      simpa using hw
    exact lt_of_lt_of_le (mul_self_pos.2 hne) hmem
  have hc : cosineOn words (context sim gamma [w] [w]) (context sim gamma [w] [w]) = some 1 := by
    unfold cosineOn
    rw [if_neg (by rw [or_self]; exact hpos.ne'), Real.mul_self_sqrt hpos.le, div_self hpos.ne']
  rw [List.map_singleton, hc]
  simp [arithmeticMean, mean]

example : (mapToContiguous [7, 3, 7, 5]) = ([(7, 0), (3, 1), (5, 2)], 3) := by decide +kernel

end Verif.Coherence
