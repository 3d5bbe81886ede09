import Verif.Lda.PerWordModel
import Verif.Lda.InferProps
import Verif.Lda.TrainProps

/-!
# C157: the topics of the words of a document
-/

namespace Verif.LdaPerWord

open Verif.LdaInfer Verif.LdaTrain

variable {n : ℕ} {W : Type} [DecidableEq W]

/-! ## Specification -/

/-- The share of word `w` that topic `k` gets in a document: the probability of the topic for an
    occurrence of the word, times the count in the last pair of the word in the document. -/
noncomputable def share (p : Params (Fin n) W) (bow : List (W × ℝ)) (g0 : Fin n → ℝ) (k : Fin n) (w : W) : ℝ :=
  lastCount bow w * phi p (inferDoc p bow g0) k w

/-- The bound asked for: the argument, the model's `minimum_probability` when it is missing, and never
    below 1e-8. -/
noncomputable def bound (s : Settings) (arg : Option ℝ) : ℝ := max (arg.getD s.minProb) (1 / 10 ^ 8)

/-- `l` lists, in ascending order, exactly the topics whose share reaches the bound, with the shares. -/
def Lists (share : Fin n → ℝ) (b : ℝ) (l : List (Fin n × ℝ)) : Prop :=
  l.Pairwise (fun x y => x.1 < y.1) ∧ ∀ k v, (k, v) ∈ l ↔ v = share k ∧ b ≤ v

/-! ## Lemmas -/

theorem topicLoop_eq (phis : Fin n → W → ℝ) (m : ℝ) (w : W) (ks : List (Fin n)) (v t) :
    topicLoop phis m w ks v t =
      (v ++ (ks.filter fun k => decide (m ≤ phis k w)).map (fun k => (phis k w, k)),
       t ++ (ks.filter fun k => decide (m ≤ phis k w)).map (fun k => (k, phis k w))) := by
  induction ks generalizing v t with
  | nil => simp [topicLoop]
  | cons k ks ih =>
    unfold topicLoop
    split <;> rename_i h <;> rw [ih] <;> simp [h]

theorem phis_eq (p : Params (Fin n) W) (bow : List (W × ℝ)) (g0 : Fin n → ℝ) (k : Fin n) (w : W) :
    (inference p [(bow, g0)]).2 k w = share p bow g0 k w := by
  rw [(C90_inference p _).2]; simp [share]

theorem pairGe_total (a b : ℝ × Fin n) : pairGe a b = true ∨ pairGe b a = true := by
  unfold pairGe
  simp only [decide_eq_true_eq]
  rcases lt_trichotomy a.1 b.1 with h | h | h
  · exact .inr (.inl h)
  · rcases le_total a.2 b.2 with h' | h'
    · exact .inr (.inr ⟨h.symm, h'⟩)
    · exact .inl (.inr ⟨h, h'⟩)
  · exact .inl (.inl h)

theorem pairGe_trans (a b c : ℝ × Fin n) (h₁ : pairGe a b = true) (h₂ : pairGe b c = true) :
    pairGe a c = true := by
  unfold pairGe at *
  simp only [decide_eq_true_eq] at *
  rcases h₁ with h₁ | ⟨h₁, h₁'⟩ <;> rcases h₂ with h₂ | ⟨h₂, h₂'⟩
  · exact .inl (h₂.trans h₁)
  · exact .inl (h₂ ▸ h₁)
  · exact .inl (h₁ ▸ h₂)
  · exact .inr ⟨h₁.trans h₂, h₂'.trans h₁'⟩

theorem entry_lists (f : Fin n → ℝ) (b : ℝ) :
    Lists f b (((List.finRange n).filter fun k => decide (b ≤ f k)).map fun k => (k, f k)) := by
  refine ⟨?_, fun k v => ?_⟩
  · rw [List.pairwise_map]
    exact (List.pairwise_lt_finRange n).filter _
  · simp only [List.mem_map, List.mem_filter, List.mem_finRange, true_and, decide_eq_true_eq, Prod.mk.injEq]
    constructor
    · rintro ⟨k', h, rfl, rfl⟩; exact ⟨rfl, h⟩
    · rintro ⟨rfl, h⟩; exact ⟨k, h, rfl, rfl⟩

theorem getD_eff (s : Settings) (a b : Option ℝ) (pw : Bool) :
    (effective s a b pw).minPhi = bound s b ∧ (effective s a b pw).minProb = bound s a := ⟨rfl, rfl⟩

/-! ## C157 -/

/-- One entry for every pair of the document in both lists, in the order of the document, repeated ids
    included; and the topics of the document are those that a call without `per_word_topics` returns. -/
theorem C157_words (p : Params (Fin n) W) (s : Settings) (a b : Option ℝ) (bow : List (W × ℝ)) (g0 : Fin n → ℝ) :
    (perWord p s a b bow g0).wordTopics.map Prod.fst = bow.map Prod.fst ∧
    (perWord p s a b bow g0).wordPhis.map Prod.fst = bow.map Prod.fst ∧
    (perWord p s a b bow g0).topics = documentTopics (inferDoc p bow g0) (bound s a) := by
  refine ⟨?_, ?_, ?_⟩
  · simp [perWord, wordEntry, Function.comp_def]
  · simp [perWord, wordEntry, Function.comp_def]
  · unfold perWord
    simp only [(C90_inference p _).1, List.map_cons, List.headD_cons]
    rfl

/-- The third list: for every word the topics whose share of the word reaches the bound, in ascending
    order, with their shares. -/
theorem C157_shares (p : Params (Fin n) W) (s : Settings) (a b : Option ℝ) (bow : List (W × ℝ)) (g0 : Fin n → ℝ) :
    ∀ e ∈ (perWord p s a b bow g0).wordPhis, Lists (fun k => share p bow g0 k e.1) (bound s b) e.2 := by
  intro e he
  simp only [perWord, List.map_map, List.mem_map] at he
  obtain ⟨x, hx, rfl⟩ := he
  simp only [Function.comp_def, wordEntry, topicLoop_eq, List.nil_append, phis_eq]
  exact entry_lists (fun k => share p bow g0 k x.1) (bound s b)

/-- The second list: for every word the same topics as in the third list, by decreasing share, and by
    decreasing topic number among equal shares. -/
theorem C157_order (p : Params (Fin n) W) (s : Settings) (a b : Option ℝ) (bow : List (W × ℝ)) (g0 : Fin n → ℝ) :
    List.Forall₂ (fun (t : W × List (Fin n)) (q : W × List (Fin n × ℝ)) =>
        t.1 = q.1 ∧ t.2.Perm (q.2.map Prod.fst) ∧
        t.2.Pairwise fun i j => share p bow g0 j t.1 < share p bow g0 i t.1 ∨
          (share p bow g0 i t.1 = share p bow g0 j t.1 ∧ j < i))
      (perWord p s a b bow g0).wordTopics (perWord p s a b bow g0).wordPhis := by
  simp only [perWord, List.map_map]
  rw [List.forall₂_map_left_iff, List.forall₂_map_right_iff, List.forall₂_same]
  intro x _
  refine ⟨rfl, ?_, ?_⟩
  · simp only [Function.comp_def, wordEntry, topicLoop_eq, List.nil_append]
    refine ((pySort_perm _ _).map _).trans ?_
    simp [Function.comp_def]
  · simp only [Function.comp_def, wordEntry, topicLoop_eq, List.nil_append, phis_eq]
    generalize hl : ((List.finRange n).filter _).map (fun k => (share p bow g0 k x.1, k)) = l
    have hmem : ∀ y ∈ l, y.1 = share p bow g0 y.2 x.1 := by
      subst hl; intro y hy
      obtain ⟨k, _, rfl⟩ := List.mem_map.1 hy; rfl
    have hnd : (l.map Prod.snd).Nodup := by
      subst hl
      rw [List.map_map]
      simpa [Function.comp_def] using (List.nodup_finRange n).filter _
    have hs := pySort_sorted (le := pairGe (n := n)) pairGe_total pairGe_trans l
    have hnd' : ((pySort pairGe l).map Prod.snd).Nodup := ((pySort_perm _ _).map _).nodup_iff.2 hnd
    rw [List.pairwise_map]
    have hne : (pySort pairGe l).Pairwise (fun i j => i.2 ≠ j.2) := List.pairwise_map.1 hnd'
    refine (hs.and hne).imp_of_mem ?_
    rintro i j hi hj ⟨h, hne⟩
    rw [← hmem i (mem_pySort.1 hi), ← hmem j (mem_pySort.1 hj)]
    unfold pairGe at h
    rw [decide_eq_true_eq] at h
    rcases h with h | ⟨h, h'⟩
    · exact .inl h
    · exact .inr ⟨h, lt_of_le_of_ne h' (Ne.symm hne)⟩

theorem Lists.sum_eq {f : Fin n → ℝ} {b : ℝ} {l : List (Fin n × ℝ)} (h : Lists f b l) :
    (l.map Prod.snd).sum = ∑ k ∈ Finset.univ.filter (fun k => b ≤ f k), f k ∧
    l.length = (Finset.univ.filter (fun k => b ≤ f k)).card := by
  have hnd : (l.map Prod.fst).Nodup := by
    refine List.Pairwise.imp ?_ (List.pairwise_map.2 h.1)
    exact fun h => h.ne
  have hset : (l.map Prod.fst).toFinset = Finset.univ.filter (fun k => b ≤ f k) := by
    ext k
    simp only [List.mem_toFinset, List.mem_map, Finset.mem_filter, Finset.mem_univ, true_and]
    constructor
    · rintro ⟨⟨k', v⟩, hm, rfl⟩
      obtain ⟨rfl, hb⟩ := (h.2 k' v).1 hm
      exact hb
    · intro hb
      exact ⟨(k, f k), (h.2 k _).2 ⟨rfl, hb⟩, rfl⟩
  have hv : l.map Prod.snd = (l.map Prod.fst).map f := by
    rw [List.map_map]
    refine List.map_congr_left fun x hx => ?_
    exact ((h.2 x.1 x.2).1 hx).1
  constructor
  · rw [hv, ← hset, List.sum_toFinset _ hnd]
  · rw [← hset, List.toFinset_card_of_nodup hnd, List.length_map]

/-- The shares listed for a word add up to at most the count of the word, and what is missing is at most
    the bound for every topic that is not listed (in a document without repeated ids). -/
theorem C157_mass [Nonempty (Fin n)] (p : Params (Fin n) W) (hp : p.Pos) (s : Settings) (a b : Option ℝ)
    (bow : List (W × ℝ)) (g0 : Fin n → ℝ) (hd : ∀ x ∈ bow, 0 ≤ x.2) (hnd : (bow.map Prod.fst).Nodup)
    (w : W) (c : ℝ) (hw : (w, c) ∈ bow) :
    ∀ e ∈ (perWord p s a b bow g0).wordPhis, e.1 = w →
      (e.2.map Prod.snd).sum ≤ c ∧
      (p.eps = 0 → c - (e.2.map Prod.snd).sum ≤ (n - e.2.length : ℝ) * bound s b) := by
  rintro ⟨w', l⟩ he rfl
  have hl := C157_shares p s a b bow g0 _ he
  dsimp only at hl hw ⊢
  obtain ⟨h1, h2⟩ := hl.sum_eq
  have hc : lastCount bow w' = c := by
    unfold lastCount
    have : bow.filter (fun x => decide (x.1 = w')) = [(w', c)] := by
      clear he hl h1 h2 hd
      induction bow with
      | nil => cases hw
      | cons x t ih =>
        rw [List.map_cons, List.nodup_cons] at hnd
        rcases List.mem_cons.1 hw with h | h
        · subst h
          rw [List.filter_cons_of_pos (by simp)]
          congr 1
          rw [List.filter_eq_nil_iff]
          intro y hy h'
          have e : y.1 = w' := of_decide_eq_true h'
          exact hnd.1 (List.mem_map.2 ⟨y, hy, e⟩)
        · rw [List.filter_cons_of_neg, ih hnd.2 h]
          intro h'
          exact hnd.1 ((of_decide_eq_true h').symm ▸ List.mem_map_of_mem (f := Prod.fst) h)
    rw [this]; rfl
  have hc0 : 0 ≤ c := hd _ hw
  have hsum : ∑ k, share p bow g0 k w' = c * ∑ k, phi p (inferDoc p bow g0) k w' := by
    rw [Finset.mul_sum]; simp only [share, hc]
  have hpos : ∀ k, 0 ≤ share p bow g0 k w' := fun k => by
    unfold share; rw [hc]; exact mul_nonneg hc0 ((C90_phi p hp _ w').1 k)
  constructor
  · rw [h1]
    calc _ ≤ ∑ k, share p bow g0 k w' :=
          Finset.sum_le_sum_of_subset_of_nonneg (Finset.filter_subset _ _) fun k _ _ => hpos k
      _ ≤ c := by
          rw [hsum]
          exact mul_le_of_le_one_right hc0 (C90_phi p hp _ w').2.1
  · intro heps
    have htot : ∑ k, share p bow g0 k w' = c := by
      rw [hsum, (C90_phi p hp _ w').2.2 heps, mul_one]
    rw [h1, h2]
    have hsplit := Finset.sum_filter_add_sum_filter_not Finset.univ
      (fun k => bound s b ≤ share p bow g0 k w') (fun k => share p bow g0 k w')
    have hcard := Finset.card_filter_add_card_filter_not (s := (Finset.univ : Finset (Fin n)))
      (fun k => bound s b ≤ share p bow g0 k w')
    rw [Finset.card_univ, Fintype.card_fin] at hcard
    have hrest : ∑ k ∈ Finset.univ.filter (fun k => ¬ bound s b ≤ share p bow g0 k w'), share p bow g0 k w'
        ≤ (Finset.univ.filter (fun k => ¬ bound s b ≤ share p bow g0 k w')).card * bound s b := by
      rw [← nsmul_eq_mul]
      refine Finset.sum_le_card_nsmul _ _ _ fun k hk => ?_
      exact (not_le.1 (Finset.mem_filter.1 hk).2).le
    have hn : (n : ℝ) - (Finset.univ.filter (fun k => bound s b ≤ share p bow g0 k w')).card
        = (Finset.univ.filter (fun k => ¬ bound s b ≤ share p bow g0 k w')).card := by
      have : (n : ℝ) = _ := (congrArg (Nat.cast (R := ℝ)) hcard).symm
      rw [Nat.cast_add] at this
      linarith
    rw [hn]
    linarith

/-- Finding: the bound is compared with the probability times the count, so a word whose weight is below
    the bound gets no topics at all, however certain its topic is. -/
theorem C157_light_words [Nonempty (Fin n)] (p : Params (Fin n) W) (hp : p.Pos) (s : Settings) (a b : Option ℝ)
    (bow : List (W × ℝ)) (g0 : Fin n → ℝ) (hd : ∀ x ∈ bow, 0 ≤ x.2)
    (w : W) (hw : lastCount bow w < bound s b) :
    (∀ e ∈ (perWord p s a b bow g0).wordPhis, e.1 = w → e.2 = []) ∧
    (∀ e ∈ (perWord p s a b bow g0).wordTopics, e.1 = w → e.2 = []) := by
  have h0 : 0 ≤ lastCount bow w := by
    unfold lastCount
    cases h : ((bow.filter fun x => x.1 = w).map Prod.snd).getLast? with
    | none => exact le_refl _
    | some v =>
      have := List.mem_of_mem_getLast? h
      obtain ⟨x, hx, rfl⟩ := List.mem_map.1 this
      exact hd x (List.mem_filter.1 hx).1
  have h1 : ∀ e ∈ (perWord p s a b bow g0).wordPhis, e.1 = w → e.2 = [] := by
    rintro ⟨w', l⟩ he rfl
    have hl := C157_shares p s a b bow g0 _ he
    dsimp only at *
    rw [List.eq_nil_iff_forall_not_mem]
    rintro ⟨k, v⟩ hkv
    obtain ⟨rfl, hb⟩ := (hl.2 k v).1 hkv
    have hphi := C90_phi p hp (inferDoc p bow g0) w'
    have h2 : phi p (inferDoc p bow g0) k w' ≤ 1 :=
      (Finset.single_le_sum (fun j _ => hphi.1 j) (Finset.mem_univ k)).trans hphi.2.1
    have : share p bow g0 k w' ≤ lastCount bow w' := mul_le_of_le_one_right h0 h2
    linarith
  refine ⟨h1, ?_⟩
  have hF := C157_order p s a b bow g0
  revert h1 hF
  generalize (perWord p s a b bow g0).wordPhis = L
  generalize (perWord p s a b bow g0).wordTopics = M
  intro h1 hF
  induction hF with
  | nil => intro e he; cases he
  | @cons t q ts qs h _ ih =>
    intro e he hew
    rcases List.mem_cons.1 he with rfl | he
    · have := h1 q List.mem_cons_self (h.1 ▸ hew)
      have hp := h.2.1
      rw [this] at hp
      exact hp.eq_nil
    · exact ih (fun e he => h1 e (List.mem_cons_of_mem _ he)) e he hew

/-- Finding: of a word that a document lists twice only the last count is counted, in both entries: if the
    last count is 0 the word gets no topics, however often it occurs. -/
theorem C157_repeated_word [Nonempty (Fin n)] (p : Params (Fin n) W) (hp : p.Pos) (s : Settings) (a b : Option ℝ)
    (g0 : Fin n → ℝ) (w : W) (c : ℝ) (hc : 0 ≤ c) :
    (perWord p s a b [(w, c), (w, 0)] g0).wordPhis = [(w, []), (w, [])] ∧
    (perWord p s a b [(w, c), (w, 0)] g0).wordTopics = [(w, []), (w, [])] := by
  have hb : (0 : ℝ) < bound s b := lt_max_of_lt_right (by positivity)
  have hl : lastCount [(w, c), (w, 0)] w < bound s b := by simpa [lastCount] using hb
  obtain ⟨h1, h2⟩ := C157_light_words p hp s a b [(w, c), (w, 0)] g0 (by simp [hc]) w hl
  obtain ⟨h3, h4, _⟩ := C157_words p s a b [(w, c), (w, 0)] g0
  have key : ∀ {β : Type} (l : List (W × List β)), l.map Prod.fst = [w, w] → (∀ e ∈ l, e.1 = w → e.2 = []) →
      l = [(w, []), (w, [])] := by
    intro β l hl he
    match l, hl with
    | [(x, u), (y, v)], hl =>
      simp only [List.map_cons, List.map_nil, List.cons.injEq, and_true] at hl
      have e1 := he (x, u) (by simp) hl.1
      have e2 := he (y, v) (by simp) hl.2
      simp only at e1 e2
      rw [e1, e2, hl.1, hl.2]
  exact ⟨key _ h4 h1, key _ h3 h2⟩

/-! ## The hypotheses are met -/

/-- Two topics, two words. -/
noncomputable def sample : Params (Fin 2) ℕ := ⟨fun _ => 1 / 2, fun k w => if k.val = w then 2 else 1, 0, 1 / 1000, 50⟩

theorem sample_pos : sample.Pos :=
  ⟨fun _ => by norm_num [sample], fun k w => by unfold sample; dsimp only; split <;> norm_num, le_refl _⟩

example : Nonempty (Fin 2) ∧ sample.Pos ∧ (∀ x ∈ ([(0, 3), (1, 1)] : List (ℕ × ℝ)), 0 ≤ x.2) ∧
    (([(0, 3), (1, 1)] : List (ℕ × ℝ)).map Prod.fst).Nodup ∧ sample.eps = 0 :=
  ⟨⟨0⟩, sample_pos, by simp, by simp, rfl⟩

/-- A word of weight 1/200 under the default bound 1/100. -/
example : lastCount ([(0, 1 / 200)] : List (ℕ × ℝ)) 0 < bound ⟨1 / 100, 1 / 100, true⟩ none := by
  simp only [lastCount, bound, Option.getD]
  norm_num

end Verif.LdaPerWord
