import Mathlib.Tactic
import Mathlib.Data.List.GetD
import Verif.KeyedVectors.WmdModel

/-!
# C94: word mover's distance

The specification `optimum` is the least cost of moving the words of one document onto the words of the
other: a plan says how much of each word goes where, rows and columns of the plan add up to the documents'
word shares, and moving costs the distance of the word vectors.
-/

namespace Verif.Wmd

open Classical

variable {T : Type} {K : ℕ}

/-! ### Specification -/

/-- The share of a token in a document. -/
noncomputable def share (doc : List T) (t : T) : ℝ := (doc.count t : ℝ) / doc.length

/-- A plan moving the words of `d1` onto the words of `d2`. -/
structure Plan (d1 d2 : List T) (F : T → T → ℝ) : Prop where
  nonneg : ∀ t ∈ d1, ∀ u ∈ d2, 0 ≤ F t u
  out : ∀ t ∈ d1, (∑ u ∈ d2.toFinset, F t u) = share d1 t
  into : ∀ u ∈ d2, (∑ t ∈ d1.toFinset, F t u) = share d2 u

/-- What a plan costs. -/
noncomputable def cost (E : Env T K) (d1 d2 : List T) (F : T → T → ℝ) : ℝ :=
  ∑ t ∈ d1.toFinset, ∑ u ∈ d2.toFinset, F t u * ‖E.vec t - E.vec u‖

/-- The costs of all plans. -/
def costs (E : Env T K) (d1 d2 : List T) : Set ℝ := {c | ∃ F, Plan d1 d2 F ∧ c = cost E d1 d2 F}

/-- The least cost of a plan. -/
noncomputable def optimum (E : Env T K) (d1 d2 : List T) : ℝ := sInf (costs E d1 d2)

/-- The temporary dictionary numbers exactly the tokens of the two documents, each once, and is iterated
completely. -/
structure Env.Ok (E : Env T K) : Prop where
  nodup : ∀ d1 d2, (E.tokens d1 d2).Nodup
  mem : ∀ d1 d2 t, t ∈ E.tokens d1 d2 ↔ t ∈ d1 ∨ t ∈ d2
  order : ∀ l, (E.order l).Perm l

/-! ### The distance matrix -/

theorem mem_itemsOf (tokens : List T) (p : ℕ × T) : p ∈ itemsOf tokens ↔ tokens[p.1]? = some p.2 := by
  simp only [itemsOf, List.mem_map]
  constructor
  · rintro ⟨⟨t, i⟩, h, rfl⟩
    exact List.mk_mem_zipIdx_iff_getElem?.1 h
  · intro h
    exact ⟨(p.2, p.1), List.mk_mem_zipIdx_iff_getElem?.2 h, rfl⟩

/-- Entries are zero or the right distance. -/
def Sound (E : Env T K) (tokens d1 d2 : List T) (D : ℕ → ℕ → ℝ) : Prop :=
  ∀ (i j : ℕ) t u, tokens[i]? = some t → tokens[j]? = some u →
    D i j = 0 ∨ (D i j = tokDist E t u)

theorem tokDist_comm (E : Env T K) (t u : T) : tokDist E t u = tokDist E u t := norm_sub_rev _ _

theorem tokDist_nonneg (E : Env T K) (t u : T) : 0 ≤ tokDist E t u := norm_nonneg _

theorem setBoth_entry (E : Env T K) {tokens : List T} (D : ℕ → ℕ → ℝ) {a b : ℕ} {x y : T}
    (ha : tokens[a]? = some x) (hb : tokens[b]? = some y) {i j : ℕ} {t u : T}
    (hi : tokens[i]? = some t) (hj : tokens[j]? = some u) :
    setBoth D a b (tokDist E x y) i j = tokDist E t u ∨
      setBoth D a b (tokDist E x y) i j = D i j := by
  unfold setBoth
  split
  · rename_i h
    left
    rcases h with ⟨rfl, rfl⟩ | ⟨rfl, rfl⟩
    · rw [ha] at hi; rw [hb] at hj
      injection hi with hi; injection hj with hj
      rw [hi, hj]
    · rw [hb] at hi; rw [ha] at hj
      injection hi with hi; injection hj with hj
      rw [hi, hj, tokDist_comm]
  · right; rfl

theorem fillRow_spec (E : Env T K) {tokens d1 d2 : List T} {p : ℕ × T}
    (hp : tokens[p.1]? = some p.2) (qs : List (ℕ × T)) : ∀ (D : ℕ → ℕ → ℝ),
    (∀ q ∈ qs, tokens[q.1]? = some q.2) → Sound E tokens d1 d2 D →
    Sound E tokens d1 d2 (fillRow E d2 p qs D) ∧
    (∀ (i j : ℕ) t u, tokens[i]? = some t → tokens[j]? = some u → D i j = tokDist E t u →
      fillRow E d2 p qs D i j = tokDist E t u) ∧
    (∀ q ∈ qs, q.2 ∈ d2 → fillRow E d2 p qs D p.1 q.1 = tokDist E p.2 q.2) := by
  induction qs with
  | nil => intro D _ hs; exact ⟨hs, fun _ _ _ _ _ _ h => h, by simp⟩
  | cons q qs ih =>
    intro D hq hs
    have hq0 := hq q (by simp)
    have hq' : ∀ q ∈ qs, tokens[q.1]? = some q.2 := fun x hx => hq x (by simp [hx])
    simp only [fillRow]
    split
    · rename_i hc
      obtain ⟨i1, i2, i3⟩ := ih D hq' hs
      refine ⟨i1, i2, fun x hx hx2 => ?_⟩
      rcases List.mem_cons.1 hx with rfl | hx
      · rcases hc with hc | hc
        · exact absurd hx2 hc
        · rcases hs p.1 x.1 p.2 x.2 hp hq0 with h0 | h0
          · exact absurd h0 hc
          · exact i2 _ _ _ _ hp hq0 h0
      · exact i3 x hx hx2
    · have hs' : Sound E tokens d1 d2 (setBoth D p.1 q.1 (tokDist E p.2 q.2)) := by
        intro i j t u hi hj
        rcases setBoth_entry E D hp hq0 hi hj with h | h
        · exact Or.inr h
        · rw [h]; exact hs i j t u hi hj
      obtain ⟨i1, i2, i3⟩ := ih _ hq' hs'
      refine ⟨i1, fun i j t u hi hj h => ?_, fun x hx hx2 => ?_⟩
      · apply i2 i j t u hi hj
        rcases setBoth_entry E D hp hq0 hi hj with h' | h'
        · exact h'
        · rw [h', h]
      · rcases List.mem_cons.1 hx with rfl | hx
        · apply i2 _ _ _ _ hp hq0
          simp [setBoth]
        · exact i3 x hx hx2

theorem fill_spec (E : Env T K) {tokens d1 d2 : List T} {items : List (ℕ × T)}
    (hit : ∀ q ∈ items, tokens[q.1]? = some q.2) (ps : List (ℕ × T)) : ∀ (D : ℕ → ℕ → ℝ),
    (∀ q ∈ ps, tokens[q.1]? = some q.2) → Sound E tokens d1 d2 D →
    Sound E tokens d1 d2 (fill E d1 d2 items ps D) ∧
    (∀ (i j : ℕ) t u, tokens[i]? = some t → tokens[j]? = some u → D i j = tokDist E t u →
      fill E d1 d2 items ps D i j = tokDist E t u) ∧
    (∀ p ∈ ps, p.2 ∈ d1 → ∀ q ∈ items, q.2 ∈ d2 →
      fill E d1 d2 items ps D p.1 q.1 = tokDist E p.2 q.2) := by
  induction ps with
  | nil => intro D _ hs; exact ⟨hs, fun _ _ _ _ _ _ h => h, by simp⟩
  | cons p ps ih =>
    intro D hq hs
    have hp := hq p (by simp)
    have hq' : ∀ q ∈ ps, tokens[q.1]? = some q.2 := fun x hx => hq x (by simp [hx])
    simp only [fill]
    split
    · rename_i hc
      obtain ⟨i1, i2, i3⟩ := ih D hq' hs
      refine ⟨i1, i2, fun x hx hx2 => ?_⟩
      rcases List.mem_cons.1 hx with rfl | hx
      · exact absurd hx2 hc
      · exact i3 x hx hx2
    · obtain ⟨r1, r2, r3⟩ := fillRow_spec (d1 := d1) (d2 := d2) E hp items D hit hs
      obtain ⟨i1, i2, i3⟩ := ih _ hq' r1
      refine ⟨i1, fun i j t u hi hj h => i2 _ _ _ _ hi hj (r2 _ _ _ _ hi hj h),
        fun x hx hx2 q hqi hq2 => ?_⟩
      rcases List.mem_cons.1 hx with rfl | hx
      · exact i2 _ _ _ _ hp (hit q hqi) (r3 q hqi hq2)
      · exact i3 x hx hx2 q hqi hq2

/-- The matrix the method builds for two documents. -/
noncomputable def matrixOf (E : Env T K) (d1 d2 : List T) : ℕ → ℕ → ℝ :=
  fill E d1 d2 (E.order (itemsOf (E.tokens d1 d2))) (E.order (itemsOf (E.tokens d1 d2))) (fun _ _ => 0)

theorem matrixOf_spec {E : Env T K} (hE : E.Ok) (d1 d2 : List T) :
    Sound E (E.tokens d1 d2) d1 d2 (matrixOf E d1 d2) ∧
    ∀ (i j : ℕ) t u, (E.tokens d1 d2)[i]? = some t → (E.tokens d1 d2)[j]? = some u → t ∈ d1 → u ∈ d2 →
      matrixOf E d1 d2 i j = tokDist E t u := by
  have hit : ∀ q ∈ E.order (itemsOf (E.tokens d1 d2)), (E.tokens d1 d2)[q.1]? = some q.2 :=
    fun q hq => (mem_itemsOf _ _).1 ((hE.order _).mem_iff.1 hq)
  obtain ⟨h1, _, h3⟩ := fill_spec (d1 := d1) (d2 := d2) E hit _ (fun _ _ => 0) hit
    (fun _ _ _ _ _ _ => Or.inl rfl)
  refine ⟨h1, fun i j t u hi hj ht hu => ?_⟩
  exact h3 (i, t) ((hE.order _).mem_iff.2 ((mem_itemsOf _ (i, t)).2 hi)) ht (j, u)
    ((hE.order _).mem_iff.2 ((mem_itemsOf _ (j, u)).2 hj)) hu

/-! ### Sums over ids and sums over tokens -/

theorem sum_ids {tokens : List T} (hn : tokens.Nodup) (f : ℕ → ℝ) :
    (∑ i ∈ Finset.range tokens.length, f i) = ∑ t ∈ tokens.toFinset, f (tokens.idxOf t) := by
  symm
  refine Finset.sum_bij (fun t _ => tokens.idxOf t) ?_ ?_ ?_ ?_
  · intro t ht
    simpa using List.idxOf_lt_length_iff.2 (List.mem_toFinset.1 ht)
  · intro t ht u hu h
    exact (List.idxOf_inj (List.mem_toFinset.1 ht)).1 h
  · intro i hi
    have hi' : i < tokens.length := by simpa using hi
    exact ⟨tokens[i], by simp, hn.idxOf_getElem i hi'⟩
  · intro t _; rfl

theorem getElem?_idxOf' {tokens : List T} {t : T} (h : t ∈ tokens) :
    tokens[tokens.idxOf t]? = some t := by
  rw [List.getElem?_eq_getElem (List.idxOf_lt_length_iff.2 h), List.getElem_idxOf]

theorem nbow_idx {tokens : List T} (doc : List T) {t : T} (h : t ∈ tokens) :
    nbow tokens doc (tokens.idxOf t) = share doc t := by
  unfold nbow share
  rw [getElem?_idxOf' h]

theorem share_of_not_mem {doc : List T} {t : T} (h : t ∉ doc) : share doc t = 0 := by
  unfold share
  rw [List.count_eq_zero.2 h]; simp

theorem sum_restrict {V W : Finset T} (hVW : W ⊆ V) (f : T → ℝ) (h0 : ∀ t ∈ V, t ∉ W → f t = 0) :
    (∑ t ∈ V, f t) = ∑ t ∈ W, f t := (Finset.sum_subset hVW h0).symm

/-- The transport problem over ids is the transport problem over tokens. -/
theorem emd_eq_optimum {E : Env T K} (hE : E.Ok) {d1 d2 : List T} (hd1 : d1 ≠ []) :
    emd (E.tokens d1 d2).length (nbow (E.tokens d1 d2) d1) (nbow (E.tokens d1 d2) d2)
      (matrixOf E d1 d2) = optimum E d1 d2 := by
  set V := E.tokens d1 d2 with hV
  have hn : V.Nodup := hE.nodup d1 d2
  have hm : ∀ t, t ∈ V ↔ t ∈ d1 ∨ t ∈ d2 := hE.mem d1 d2
  have hs1 : d1.toFinset ⊆ V.toFinset := fun t ht =>
    List.mem_toFinset.2 ((hm t).2 (Or.inl (List.mem_toFinset.1 ht)))
  have hs2 : d2.toFinset ⊆ V.toFinset := fun t ht =>
    List.mem_toFinset.2 ((hm t).2 (Or.inr (List.mem_toFinset.1 ht)))
  have hlt : ∀ t ∈ V, V.idxOf t < V.length := fun t ht => List.idxOf_lt_length_iff.2 ht
  unfold emd optimum costs
  congr 1
  ext c
  constructor
  · rintro ⟨G, hG, rfl⟩
    have hrow : ∀ t ∈ V, t ∉ d1 → ∀ u ∈ V, G (V.idxOf t) (V.idxOf u) = 0 := by
      intro t ht ht1 u hu
      have h1 := hG.out _ (hlt t ht)
      rw [nbow_idx d1 ht, share_of_not_mem ht1] at h1
      exact (Finset.sum_eq_zero_iff_of_nonneg fun j hj =>
        hG.nonneg _ (hlt t ht) j (by simpa using hj)).1 h1 _ (by simpa using hlt u hu)
    have hcol : ∀ t ∈ V, ∀ u ∈ V, u ∉ d2 → G (V.idxOf t) (V.idxOf u) = 0 := by
      intro t ht u hu hu2
      have h1 := hG.into _ (hlt u hu)
      rw [nbow_idx d2 hu, share_of_not_mem hu2] at h1
      exact (Finset.sum_eq_zero_iff_of_nonneg fun j hj =>
        hG.nonneg j (by simpa using hj) _ (hlt u hu)).1 h1 _ (by simpa using hlt t ht)
    refine ⟨fun t u => G (V.idxOf t) (V.idxOf u), ⟨?_, ?_, ?_⟩, ?_⟩
    · intro t ht u hu
      exact hG.nonneg _ (hlt t ((hm t).2 (Or.inl ht))) _ (hlt u ((hm u).2 (Or.inr hu)))
    · intro t ht
      have htV := (hm t).2 (Or.inl ht)
      rw [← nbow_idx d1 htV, ← hG.out _ (hlt t htV), sum_ids hn]
      exact (sum_restrict hs2 _ fun u hu hu2 => hcol t htV u (by simpa using hu)
        (by simpa using hu2)).symm
    · intro u hu
      have huV := (hm u).2 (Or.inr hu)
      rw [← nbow_idx d2 huV, ← hG.into _ (hlt u huV), sum_ids hn (fun i => G i (V.idxOf u))]
      exact (sum_restrict hs1 _ fun t ht ht1 => hrow t (by simpa using ht) (by simpa using ht1) u
        huV).symm
    · unfold cost
      rw [sum_ids hn, sum_restrict hs1]
      · apply Finset.sum_congr rfl
        intro t ht
        have ht1 : t ∈ d1 := by simpa using ht
        have htV := (hm t).2 (Or.inl ht1)
        rw [sum_ids hn, sum_restrict hs2]
        · apply Finset.sum_congr rfl
          intro u hu
          have hu2 : u ∈ d2 := by simpa using hu
          rw [(matrixOf_spec hE d1 d2).2 _ _ t u (getElem?_idxOf' htV)
            (getElem?_idxOf' ((hm u).2 (Or.inr hu2))) ht1 hu2]
          rfl
        · intro u hu hu2
          rw [hcol t htV u (by simpa using hu) (by simpa using hu2), zero_mul]
      · intro t ht ht1
        rw [sum_ids hn]
        apply Finset.sum_eq_zero
        intro u hu
        rw [hrow t (by simpa using ht) (by simpa using ht1) u (by simpa using hu), zero_mul]
  · rintro ⟨F, hF, rfl⟩
    obtain ⟨t0, _⟩ := List.exists_mem_of_ne_nil _ hd1
    let tok : ℕ → T := fun i => V.getD i t0
    have htok : ∀ t ∈ V, tok (V.idxOf t) = t := by
      intro t ht
      simp only [tok, List.getD, getElem?_idxOf' ht, Option.getD_some]
    have htokmem : ∀ i < V.length, tok i ∈ V := by
      intro i hi
      simp only [tok]
      rw [List.getD_eq_getElem _ _ hi]
      exact List.getElem_mem hi
    have hnb : ∀ (doc : List T), ∀ i < V.length, nbow V doc i = share doc (tok i) := by
      intro doc i hi
      simp only [nbow, share, tok, List.getD, List.getElem?_eq_getElem hi, Option.getD_some]
    let G : ℕ → ℕ → ℝ := fun i j => if tok i ∈ d1 ∧ tok j ∈ d2 then F (tok i) (tok j) else 0
    refine ⟨G, ⟨?_, ?_, ?_⟩, ?_⟩
    · intro i _ j _
      simp only [G]
      split
      · rename_i h; exact hF.nonneg _ h.1 _ h.2
      · exact le_refl _
    · intro i hi
      rw [hnb d1 i hi, sum_ids hn]
      by_cases h1 : tok i ∈ d1
      · rw [← hF.out _ h1, sum_restrict hs2]
        · apply Finset.sum_congr rfl
          intro u hu
          have hu2 : u ∈ d2 := by simpa using hu
          simp only [G, htok u ((hm u).2 (Or.inr hu2))]
          rw [if_pos ⟨h1, hu2⟩]
        · intro u hu hu2
          simp only [G, htok u (by simpa using hu)]
          rw [if_neg]
          exact fun h => hu2 (by simpa using h.2)
      · rw [share_of_not_mem h1]
        apply Finset.sum_eq_zero
        intro u _
        simp only [G]
        rw [if_neg fun h => h1 h.1]
    · intro j hj
      rw [hnb d2 j hj, sum_ids hn (fun i => G i j)]
      by_cases h1 : tok j ∈ d2
      · rw [← hF.into _ h1, sum_restrict hs1]
        · apply Finset.sum_congr rfl
          intro t ht
          have ht2 : t ∈ d1 := by simpa using ht
          simp only [G, htok t ((hm t).2 (Or.inl ht2))]
          rw [if_pos ⟨ht2, h1⟩]
        · intro t ht ht2
          simp only [G, htok t (by simpa using ht)]
          rw [if_neg]
          exact fun h => ht2 (by simpa using h.1)
      · rw [share_of_not_mem h1]
        apply Finset.sum_eq_zero
        intro u _
        simp only [G]
        rw [if_neg fun h => h1 h.2]
    · unfold cost
      rw [sum_ids hn, sum_restrict hs1]
      · apply Finset.sum_congr rfl
        intro t ht
        have ht1 : t ∈ d1 := by simpa using ht
        have htV := (hm t).2 (Or.inl ht1)
        rw [sum_ids hn, sum_restrict hs2]
        · apply Finset.sum_congr rfl
          intro u hu
          have hu2 : u ∈ d2 := by simpa using hu
          have huV := (hm u).2 (Or.inr hu2)
          rw [(matrixOf_spec hE d1 d2).2 _ _ t u (getElem?_idxOf' htV)
            (getElem?_idxOf' huV) ht1 hu2]
          simp only [G, htok t htV, htok u huV]
          rw [if_pos ⟨ht1, hu2⟩]
          rfl
        · intro u hu hu2
          simp only [G, htok u (by simpa using hu)]
          rw [if_neg fun h => hu2 (by simpa using h.2), zero_mul]
      · intro t ht ht1
        rw [sum_ids hn]
        apply Finset.sum_eq_zero
        intro u _
        simp only [G, htok t (by simpa using ht)]
        rw [if_neg fun h => ht1 (by simpa using h.1), zero_mul]

/-! ### When the matrix is all zero -/

theorem matrix_sum_zero_iff {E : Env T K} (hE : E.Ok) (d1 d2 : List T) :
    (∑ i ∈ Finset.range (E.tokens d1 d2).length, ∑ j ∈ Finset.range (E.tokens d1 d2).length,
      matrixOf E d1 d2 i j) = 0 ↔ ∀ i < (E.tokens d1 d2).length,
        ∀ j < (E.tokens d1 d2).length, matrixOf E d1 d2 i j = 0 := by
  have hnn : ∀ i < (E.tokens d1 d2).length, ∀ j < (E.tokens d1 d2).length,
      0 ≤ matrixOf E d1 d2 i j := by
    intro i hi j hj
    rcases (matrixOf_spec hE d1 d2).1 i j _ _ (List.getElem?_eq_getElem hi)
      (List.getElem?_eq_getElem hj) with h | h
    · rw [h]
    · rw [h]; exact tokDist_nonneg _ _ _
  constructor
  · intro h i hi j hj
    have h1 := (Finset.sum_eq_zero_iff_of_nonneg fun a ha => Finset.sum_nonneg fun b hb =>
      hnn a (by simpa using ha) b (by simpa using hb)).1 h i (by simpa using hi)
    exact (Finset.sum_eq_zero_iff_of_nonneg fun b hb => hnn i hi b (by simpa using hb)).1 h1 j
      (by simpa using hj)
  · intro h
    apply Finset.sum_eq_zero
    intro i hi
    apply Finset.sum_eq_zero
    intro j hj
    exact h i (by simpa using hi) j (by simpa using hj)

theorem matrix_zero_iff {E : Env T K} (hE : E.Ok) {d1 d2 : List T} (hd1 : d1 ≠ []) (hd2 : d2 ≠ []) :
    (∑ i ∈ Finset.range (E.tokens d1 d2).length, ∑ j ∈ Finset.range (E.tokens d1 d2).length,
      matrixOf E d1 d2 i j) = 0 ↔ ∀ t ∈ d1, ∀ u ∈ d2, E.vec t = E.vec u := by
  rw [matrix_sum_zero_iff hE]
  have hm := hE.mem d1 d2
  constructor
  · intro h t ht u hu
    have htV := (hm t).2 (Or.inl ht)
    have huV := (hm u).2 (Or.inr hu)
    have h1 := h _ (List.idxOf_lt_length_iff.2 htV) _ (List.idxOf_lt_length_iff.2 huV)
    rw [(matrixOf_spec hE d1 d2).2 _ _ t u (getElem?_idxOf' htV) (getElem?_idxOf' huV) ht hu] at h1
    exact sub_eq_zero.1 (norm_eq_zero.1 h1)
  · intro h i hi j hj
    obtain ⟨t0, ht0⟩ := List.exists_mem_of_ne_nil _ hd1
    obtain ⟨u0, hu0⟩ := List.exists_mem_of_ne_nil _ hd2
    have hall : ∀ t ∈ E.tokens d1 d2, E.vec t = E.vec u0 := by
      intro t ht
      rcases (hm t).1 ht with h1 | h1
      · exact h t h1 u0 hu0
      · rw [← h t0 ht0 t h1, h t0 ht0 u0 hu0]
    rcases (matrixOf_spec hE d1 d2).1 i j _ _ (List.getElem?_eq_getElem hi)
      (List.getElem?_eq_getElem hj) with h1 | h1
    · exact h1
    · rw [h1, tokDist, hall _ (List.getElem_mem hi), hall _ (List.getElem_mem hj), sub_self, norm_zero]

/-! ### The optimum is a distance of word distributions -/

theorem share_nonneg (doc : List T) (t : T) : 0 ≤ share doc t := by unfold share; positivity

theorem share_pos {doc : List T} {t : T} (h : t ∈ doc) : 0 < share doc t := by
  unfold share
  have h1 : 0 < doc.count t := List.count_pos_iff.2 h
  have h2 : 0 < doc.length := List.length_pos_of_mem h
  positivity

theorem sum_share {doc : List T} (h : doc ≠ []) : (∑ t ∈ doc.toFinset, share doc t) = 1 := by
  unfold share
  rw [← Finset.sum_div, ← Nat.cast_sum]
  have h1 : (∑ t ∈ doc.toFinset, doc.count t) = doc.length := by
    convert List.sum_toFinset_count_eq_length doc
  rw [h1]
  have h2 : (doc.length : ℝ) ≠ 0 := by
    simpa using h
  exact div_self h2

theorem cost_nonneg {E : Env T K} {d1 d2 : List T} {F : T → T → ℝ} (hF : Plan d1 d2 F) :
    0 ≤ cost E d1 d2 F :=
  Finset.sum_nonneg fun t ht => Finset.sum_nonneg fun u hu =>
    mul_nonneg (hF.nonneg t (by simpa using ht) u (by simpa using hu)) (norm_nonneg _)

theorem costs_bdd (E : Env T K) (d1 d2 : List T) : BddBelow (costs E d1 d2) :=
  ⟨0, by rintro c ⟨F, hF, rfl⟩; exact cost_nonneg hF⟩

theorem product_plan {d1 d2 : List T} (h1 : d1 ≠ []) (h2 : d2 ≠ []) :
    Plan d1 d2 fun t u => share d1 t * share d2 u where
  nonneg := fun t _ u _ => mul_nonneg (share_nonneg _ _) (share_nonneg _ _)
  out := fun t _ => by rw [← Finset.mul_sum, sum_share h2, mul_one]
  into := fun u _ => by rw [← Finset.sum_mul, sum_share h1, one_mul]

theorem costs_nonempty (E : Env T K) {d1 d2 : List T} (h1 : d1 ≠ []) (h2 : d2 ≠ []) :
    (costs E d1 d2).Nonempty := ⟨_, _, product_plan h1 h2, rfl⟩

theorem optimum_nonneg (E : Env T K) (d1 d2 : List T) : 0 ≤ optimum E d1 d2 :=
  Real.sInf_nonneg (by rintro c ⟨F, hF, rfl⟩; exact cost_nonneg hF)

theorem costs_comm_le (E : Env T K) (d1 d2 : List T) : costs E d1 d2 ⊆ costs E d2 d1 := by
  rintro c ⟨F, hF, rfl⟩
  refine ⟨fun u t => F t u, ⟨fun u hu t ht => hF.nonneg t ht u hu, hF.into, hF.out⟩, ?_⟩
  unfold cost
  rw [Finset.sum_comm]
  apply Finset.sum_congr rfl
  intro u _
  apply Finset.sum_congr rfl
  intro t _
  rw [norm_sub_rev]

theorem optimum_comm (E : Env T K) (d1 d2 : List T) : optimum E d1 d2 = optimum E d2 d1 := by
  unfold optimum
  rw [Set.Subset.antisymm (costs_comm_le E d1 d2) (costs_comm_le E d2 d1)]

theorem toFinset_of_share {d1 d2 : List T} (h : ∀ t, share d1 t = share d2 t) :
    d1.toFinset = d2.toFinset := by
  ext t
  simp only [List.mem_toFinset]
  constructor
  · intro ht
    by_contra hn
    have := share_pos ht
    rw [h t, share_of_not_mem hn] at this
    exact lt_irrefl _ this
  · intro ht
    by_contra hn
    have := share_pos ht
    rw [← h t, share_of_not_mem hn] at this
    exact lt_irrefl _ this

theorem optimum_self (E : Env T K) {d1 d2 : List T} (h : ∀ t, share d1 t = share d2 t) :
    optimum E d1 d2 = 0 := by
  apply le_antisymm _ (optimum_nonneg _ _ _)
  apply csInf_le (costs_bdd _ _ _)
  have hf := toFinset_of_share h
  refine ⟨fun t u => if t = u then share d1 t else 0, ⟨?_, ?_, ?_⟩, ?_⟩
  · intro t _ u _
    split
    · exact share_nonneg _ _
    · exact le_refl _
  · intro t ht
    rw [← hf, Finset.sum_ite_eq, if_pos (by simpa using ht)]
  · intro u hu
    have : u ∈ d1.toFinset := by rw [hf]; simpa using hu
    rw [Finset.sum_ite_eq', if_pos this, h]
  · unfold cost
    symm
    apply Finset.sum_eq_zero
    intro t _
    apply Finset.sum_eq_zero
    intro u _
    dsimp only
    split
    · rename_i e; rw [e, sub_self, norm_zero, mul_zero]
    · rw [zero_mul]

theorem optimum_congr (E : Env T K) {d1 d2 e1 e2 : List T} (h1 : ∀ t, share d1 t = share e1 t)
    (h2 : ∀ t, share d2 t = share e2 t) : optimum E d1 d2 = optimum E e1 e2 := by
  have f1 := toFinset_of_share h1
  have f2 := toFinset_of_share h2
  have m1 : ∀ t, t ∈ d1 ↔ t ∈ e1 := fun t => by
    rw [← List.mem_toFinset, f1, List.mem_toFinset]
  have m2 : ∀ t, t ∈ d2 ↔ t ∈ e2 := fun t => by
    rw [← List.mem_toFinset, f2, List.mem_toFinset]
  unfold optimum costs
  congr 1
  ext c
  have hp : ∀ F, Plan d1 d2 F ↔ Plan e1 e2 F := by
    intro F
    constructor
    · intro hF
      exact ⟨fun t ht u hu => hF.nonneg t ((m1 t).2 ht) u ((m2 u).2 hu),
        fun t ht => by rw [← f2, ← h1]; exact hF.out t ((m1 t).2 ht),
        fun u hu => by rw [← f1, ← h2]; exact hF.into u ((m2 u).2 hu)⟩
    · intro hF
      exact ⟨fun t ht u hu => hF.nonneg t ((m1 t).1 ht) u ((m2 u).1 hu),
        fun t ht => by rw [f2, h1]; exact hF.out t ((m1 t).1 ht),
        fun u hu => by rw [f1, h2]; exact hF.into u ((m2 u).1 hu)⟩
  have hc : ∀ F, cost E d1 d2 F = cost E e1 e2 F := by
    intro F; unfold cost; rw [f1, f2]
  simp only [Set.mem_setOf_eq, hp, hc]

theorem glue_plan {d1 d2 d3 : List T} {F G : T → T → ℝ} (hF : Plan d1 d2 F) (hG : Plan d2 d3 G) :
    Plan d1 d3 fun t v => ∑ u ∈ d2.toFinset, F t u * G u v / share d2 u where
  nonneg := fun t ht v hv => Finset.sum_nonneg fun u hu =>
    div_nonneg (mul_nonneg (hF.nonneg t ht u (by simpa using hu)) (hG.nonneg u (by simpa using hu) v hv))
      (share_nonneg _ _)
  out := fun t ht => by
    rw [Finset.sum_comm, ← hF.out t ht]
    apply Finset.sum_congr rfl
    intro u hu
    have hu2 : u ∈ d2 := by simpa using hu
    rw [← Finset.sum_div, ← Finset.mul_sum, hG.out u hu2]
    exact mul_div_cancel_right₀ _ (share_pos hu2).ne'
  into := fun v hv => by
    rw [Finset.sum_comm, ← hG.into v hv]
    apply Finset.sum_congr rfl
    intro u hu
    have hu2 : u ∈ d2 := by simpa using hu
    rw [← Finset.sum_div, ← Finset.sum_mul, hF.into u hu2]
    rw [mul_comm]
    exact mul_div_cancel_right₀ _ (share_pos hu2).ne'

theorem glue_cost (E : Env T K) {d1 d2 d3 : List T} {F G : T → T → ℝ} (hF : Plan d1 d2 F)
    (hG : Plan d2 d3 G) :
    cost E d1 d3 (fun t v => ∑ u ∈ d2.toFinset, F t u * G u v / share d2 u)
      ≤ cost E d1 d2 F + cost E d2 d3 G := by
  have hA : cost E d1 d2 F = ∑ t ∈ d1.toFinset, ∑ v ∈ d3.toFinset, ∑ u ∈ d2.toFinset,
      F t u * G u v / share d2 u * ‖E.vec t - E.vec u‖ := by
    unfold cost
    apply Finset.sum_congr rfl
    intro t _
    rw [Finset.sum_comm]
    apply Finset.sum_congr rfl
    intro u hu
    have hu2 : u ∈ d2 := by simpa using hu
    rw [← Finset.sum_mul, ← Finset.sum_div, ← Finset.mul_sum, hG.out u hu2,
      mul_div_cancel_right₀ _ (share_pos hu2).ne']
  have hB : cost E d2 d3 G = ∑ t ∈ d1.toFinset, ∑ v ∈ d3.toFinset, ∑ u ∈ d2.toFinset,
      F t u * G u v / share d2 u * ‖E.vec u - E.vec v‖ := by
    unfold cost
    rw [Finset.sum_comm (s := d1.toFinset), Finset.sum_comm (s := d2.toFinset)]
    apply Finset.sum_congr rfl
    intro v _
    rw [Finset.sum_comm (s := d1.toFinset)]
    apply Finset.sum_congr rfl
    intro u hu
    have hu2 : u ∈ d2 := by simpa using hu
    rw [← Finset.sum_mul, ← Finset.sum_div, ← Finset.sum_mul, hF.into u hu2,
      mul_comm (share d2 u), mul_div_cancel_right₀ _ (share_pos hu2).ne']
  rw [hA, hB, ← Finset.sum_add_distrib]
  unfold cost
  apply Finset.sum_le_sum
  intro t ht
  rw [← Finset.sum_add_distrib]
  apply Finset.sum_le_sum
  intro v hv
  rw [← Finset.sum_add_distrib, Finset.sum_mul]
  apply Finset.sum_le_sum
  intro u hu
  rw [← mul_add]
  apply mul_le_mul_of_nonneg_left
  · have := norm_sub_le_norm_sub_add_norm_sub (E.vec t) (E.vec u) (E.vec v)
    exact this
  · exact div_nonneg (mul_nonneg (hF.nonneg t (by simpa using ht) u (by simpa using hu))
      (hG.nonneg u (by simpa using hu) v (by simpa using hv))) (share_nonneg _ _)

theorem optimum_triangle (E : Env T K) {d1 d2 d3 : List T} (h1 : d1 ≠ []) (h2 : d2 ≠ [])
    (h3 : d3 ≠ []) : optimum E d1 d3 ≤ optimum E d1 d2 + optimum E d2 d3 := by
  have key : ∀ c ∈ costs E d1 d2, ∀ c' ∈ costs E d2 d3, optimum E d1 d3 ≤ c + c' := by
    rintro c ⟨F, hF, rfl⟩ c' ⟨G, hG, rfl⟩
    exact (csInf_le (costs_bdd _ _ _) ⟨_, glue_plan hF hG, rfl⟩).trans (glue_cost E hF hG)
  have step : ∀ c ∈ costs E d1 d2, optimum E d1 d3 - c ≤ optimum E d2 d3 := fun c hc =>
    le_csInf (costs_nonempty E h2 h3) fun c' hc' => by linarith [key c hc c' hc']
  have : optimum E d1 d3 - optimum E d2 d3 ≤ optimum E d1 d2 :=
    le_csInf (costs_nonempty E h1 h2) fun c hc => by linarith [step c hc]
  linarith

/-- The mean vector of a document's words. -/
noncomputable def centroid (E : Env T K) (d : List T) : EuclideanSpace ℝ (Fin K) :=
  ∑ t ∈ d.toFinset, share d t • E.vec t

theorem centroid_le (E : Env T K) {d1 d2 : List T} (h1 : d1 ≠ []) (h2 : d2 ≠ []) :
    ‖centroid E d1 - centroid E d2‖ ≤ optimum E d1 d2 := by
  refine le_csInf (costs_nonempty E h1 h2) ?_
  rintro c ⟨F, hF, rfl⟩
  have e1 : centroid E d1 = ∑ t ∈ d1.toFinset, ∑ u ∈ d2.toFinset, F t u • E.vec t := by
    unfold centroid
    apply Finset.sum_congr rfl
    intro t ht
    rw [← hF.out t (by simpa using ht), Finset.sum_smul]
  have e2 : centroid E d2 = ∑ t ∈ d1.toFinset, ∑ u ∈ d2.toFinset, F t u • E.vec u := by
    unfold centroid
    rw [Finset.sum_comm]
    apply Finset.sum_congr rfl
    intro u hu
    rw [← hF.into u (by simpa using hu), Finset.sum_smul]
  rw [e1, e2, ← Finset.sum_sub_distrib]
  refine (norm_sum_le _ _).trans (Finset.sum_le_sum fun t ht => ?_)
  rw [← Finset.sum_sub_distrib]
  refine (norm_sum_le _ _).trans (Finset.sum_le_sum fun u hu => ?_)
  rw [← smul_sub, norm_smul, Real.norm_eq_abs,
    abs_of_nonneg (hF.nonneg t (by simpa using ht) u (by simpa using hu))]

theorem optimum_le (E : Env T K) {d1 d2 : List T} (h1 : d1 ≠ []) (h2 : d2 ≠ []) {b : ℝ}
    (hb : ∀ t ∈ d1, ∀ u ∈ d2, ‖E.vec t - E.vec u‖ ≤ b) : optimum E d1 d2 ≤ b := by
  refine (csInf_le (costs_bdd _ _ _) ⟨_, product_plan h1 h2, rfl⟩).trans ?_
  have : b = ∑ t ∈ d1.toFinset, ∑ u ∈ d2.toFinset, share d1 t * share d2 u * b := by
    simp only [← Finset.sum_mul, ← Finset.mul_sum, sum_share h1, sum_share h2]
    ring
  rw [this]
  unfold cost
  exact Finset.sum_le_sum fun t ht => Finset.sum_le_sum fun u hu =>
    mul_le_mul_of_nonneg_left (hb t (by simpa using ht) u (by simpa using hu))
      (mul_nonneg (share_nonneg _ _) (share_nonneg _ _))

/-! ### C94 -/

/-- **C94.** `wmdistance` of two documents, by cases on their known words.  Without known words on one
side it is infinite.  If some word of the first has another vector than some word of the second, it is the
least cost of moving one document onto the other.  If all words are the same token, it is `0`.
(Finding.)  If there are at least two tokens, but all have the same vector, it is infinite, although
moving costs nothing. -/
theorem C94_value {E : Env T K} (hE : E.Ok) (document1 document2 : List T) :
    let d1 := document1.filter E.known
    let d2 := document2.filter E.known
    ((d1 = [] ∨ d2 = []) → wmdistance E document1 document2 = ⊤) ∧
    ((∃ t ∈ d1, ∃ u ∈ d2, E.vec t ≠ E.vec u) →
      wmdistance E document1 document2 = (optimum E d1 d2 : ℝ)) ∧
    (d1 ≠ [] → d2 ≠ [] → (∃ t, ∀ u, u ∈ d1 ∨ u ∈ d2 → u = t) →
      wmdistance E document1 document2 = (0 : ℝ)) ∧
    (d1 ≠ [] → d2 ≠ [] → (∃ t u, (t ∈ d1 ∨ t ∈ d2) ∧ (u ∈ d1 ∨ u ∈ d2) ∧ t ≠ u) →
      (∀ t ∈ d1, ∀ u ∈ d2, E.vec t = E.vec u) →
      wmdistance E document1 document2 = ⊤ ∧ optimum E d1 d2 = 0) := by
  intro d1 d2
  have hmem := hE.mem d1 d2
  have hnd := hE.nodup d1 d2
  have hlen1 : (∃ t u, (t ∈ d1 ∨ t ∈ d2) ∧ (u ∈ d1 ∨ u ∈ d2) ∧ t ≠ u) →
      ¬ (E.tokens d1 d2).length = 1 := by
    rintro ⟨t, u, ht, hu, hne⟩ hl
    obtain ⟨x, hx⟩ := List.length_eq_one_iff.1 hl
    have h1 := (hmem t).2 ht
    have h2 := (hmem u).2 hu
    rw [hx] at h1 h2
    simp only [List.mem_singleton] at h1 h2
    exact hne (h1.trans h2.symm)
  refine ⟨fun h => ?_, fun h => ?_, fun h1 h2 h => ?_, fun h1 h2 h hv => ?_⟩
  · simp only [wmdistance]
    rw [if_pos h]
  · obtain ⟨t, ht, u, hu, hne⟩ := h
    have h1 : d1 ≠ [] := List.ne_nil_of_mem ht
    have h2 : d2 ≠ [] := List.ne_nil_of_mem hu
    have hl := hlen1 ⟨t, u, Or.inl ht, Or.inr hu, fun e => hne (by rw [e])⟩
    have hz := (matrix_zero_iff hE h1 h2).not.2 fun h => hne (h t ht u hu)
    have := emd_eq_optimum hE (d2 := d2) h1
    unfold matrixOf at hz this
    simp only [wmdistance]
    rw [if_neg (by simp only [not_or]; exact ⟨h1, h2⟩), if_neg hl, if_neg hz, this]
  · obtain ⟨t, ht⟩ := h
    have hl : (E.tokens d1 d2).length = 1 := by
      obtain ⟨x, hx⟩ := List.exists_mem_of_ne_nil _ h1
      have hxV := (hmem x).2 (Or.inl hx)
      have hall : ∀ y ∈ E.tokens d1 d2, y = t := fun y hy => ht y ((hmem y).1 hy)
      have hsub : E.tokens d1 d2 = List.replicate (E.tokens d1 d2).length t :=
        List.eq_replicate_of_mem hall
      have hpos : 0 < (E.tokens d1 d2).length := List.length_pos_of_mem hxV
      have hle : (E.tokens d1 d2).length ≤ 1 := by
        rw [hsub, List.nodup_replicate] at hnd
        exact hnd
      omega
    simp only [wmdistance]
    rw [if_neg (by simp only [not_or]; exact ⟨h1, h2⟩), if_pos hl]
  · have hl := hlen1 h
    have hz := (matrix_zero_iff hE h1 h2).2 hv
    unfold matrixOf at hz
    constructor
    · simp only [wmdistance]
      rw [if_neg (by simp only [not_or]; exact ⟨h1, h2⟩), if_neg hl, if_pos hz]
    · apply le_antisymm _ (optimum_nonneg _ _ _)
      apply optimum_le E h1 h2
      intro t ht u hu
      rw [hv t ht u hu, sub_self, norm_zero]

/-- A finite distance is the least cost of a plan. -/
theorem finite_value {E : Env T K} (hE : E.Ok) {a b : List T} (h : wmdistance E a b ≠ ⊤) :
    a.filter E.known ≠ [] ∧ b.filter E.known ≠ [] ∧
      wmdistance E a b = (optimum E (a.filter E.known) (b.filter E.known) : ℝ) := by
  obtain ⟨h1, h2, h3, h4⟩ := C94_value hE a b
  have hne : ¬ (a.filter E.known = [] ∨ b.filter E.known = []) := fun e => h (h1 e)
  rw [not_or] at hne
  refine ⟨hne.1, hne.2, ?_⟩
  by_cases hex : ∃ t ∈ a.filter E.known, ∃ u ∈ b.filter E.known, E.vec t ≠ E.vec u
  · exact h2 hex
  · push Not at hex
    by_cases htwo : ∃ t u, (t ∈ a.filter E.known ∨ t ∈ b.filter E.known) ∧
        (u ∈ a.filter E.known ∨ u ∈ b.filter E.known) ∧ t ≠ u
    · exact absurd (h4 hne.1 hne.2 htwo hex).1 h
    · push Not at htwo
      obtain ⟨x, hx⟩ := List.exists_mem_of_ne_nil _ hne.1
      rw [h3 hne.1 hne.2 ⟨x, fun u hu => htwo u x hu (Or.inl hx)⟩]
      have : optimum E (a.filter E.known) (b.filter E.known) = 0 := by
        apply le_antisymm _ (optimum_nonneg _ _ _)
        apply optimum_le E hne.1 hne.2
        intro t ht u hu
        rw [hex t ht u hu, sub_self, norm_zero]
      rw [this]

/-- **C94.** The distance does not depend on the order of the two documents. -/
theorem C94_symmetric {E : Env T K} (hE : E.Ok) (a b : List T) :
    wmdistance E a b = wmdistance E b a := by
  obtain ⟨h1, h2, h3, h4⟩ := C94_value hE a b
  obtain ⟨g1, g2, g3, g4⟩ := C94_value hE b a
  by_cases hne : a.filter E.known = [] ∨ b.filter E.known = []
  · rw [h1 hne, g1 hne.symm]
  · rw [not_or] at hne
    by_cases hex : ∃ t ∈ a.filter E.known, ∃ u ∈ b.filter E.known, E.vec t ≠ E.vec u
    · obtain ⟨t, ht, u, hu, hv⟩ := hex
      rw [h2 ⟨t, ht, u, hu, hv⟩, g2 ⟨u, hu, t, ht, fun e => hv e.symm⟩, optimum_comm]
    · push Not at hex
      by_cases htwo : ∃ t u, (t ∈ a.filter E.known ∨ t ∈ b.filter E.known) ∧
          (u ∈ a.filter E.known ∨ u ∈ b.filter E.known) ∧ t ≠ u
      · obtain ⟨t, u, ht, hu, hn⟩ := htwo
        rw [(h4 hne.1 hne.2 ⟨t, u, ht, hu, hn⟩ hex).1,
          (g4 hne.2 hne.1 ⟨t, u, ht.symm, hu.symm, hn⟩ fun u hu t ht => (hex t ht u hu).symm).1]
      · push Not at htwo
        obtain ⟨x, hx⟩ := List.exists_mem_of_ne_nil _ hne.1
        rw [h3 hne.1 hne.2 ⟨x, fun u hu => htwo u x hu (Or.inl hx)⟩,
          g3 hne.2 hne.1 ⟨x, fun u hu => htwo u x hu.symm (Or.inl hx)⟩]

/-- **C94.** Finite distances satisfy the triangle inequality through any third document, are not
negative, are at least the distance of the documents' mean vectors and at most the largest distance of a
word of one document to a word of the other. -/
theorem C94_bounds {E : Env T K} (hE : E.Ok) (a b : List T) (h : wmdistance E a b ≠ ⊤) :
    (∀ c, wmdistance E a b ≤ wmdistance E a c + wmdistance E c b) ∧
    0 ≤ wmdistance E a b ∧
    ((‖centroid E (a.filter E.known) - centroid E (b.filter E.known)‖ : ℝ) : WithTop ℝ)
      ≤ wmdistance E a b ∧
    (∀ m : ℝ, (∀ t ∈ a, ∀ u ∈ b, E.known t = true → E.known u = true → ‖E.vec t - E.vec u‖ ≤ m) →
      wmdistance E a b ≤ (m : ℝ)) := by
  obtain ⟨ha, hb, hv⟩ := finite_value hE h
  refine ⟨fun c => ?_, ?_, ?_, fun m hm => ?_⟩
  · by_cases h1 : wmdistance E a c = ⊤
    · rw [h1, top_add]; exact le_top
    · by_cases h2 : wmdistance E c b = ⊤
      · rw [h2, add_top]; exact le_top
      · obtain ⟨_, hc, e1⟩ := finite_value hE h1
        obtain ⟨_, _, e2⟩ := finite_value hE h2
        rw [hv, e1, e2, ← WithTop.coe_add, WithTop.coe_le_coe]
        exact optimum_triangle E ha hc hb
  · rw [hv]
    exact_mod_cast optimum_nonneg _ _ _
  · rw [hv, WithTop.coe_le_coe]
    exact centroid_le E ha hb
  · rw [hv, WithTop.coe_le_coe]
    apply optimum_le E ha hb
    intro t ht u hu
    rw [List.mem_filter] at ht hu
    exact hm t ht.1 u hu.1 ht.2 hu.2

/-- **C94.** Only the shares of the known words matter: word order, unknown words and repeating a document
do not change a finite distance; and documents with the same shares are at distance `0`, unless they have
several words that all share one vector. -/
theorem C94_bag_of_words {E : Env T K} (hE : E.Ok) :
    (∀ a b a' b', wmdistance E a b ≠ ⊤ → wmdistance E a' b' ≠ ⊤ →
      (∀ t, share (a.filter E.known) t = share (a'.filter E.known) t) →
      (∀ t, share (b.filter E.known) t = share (b'.filter E.known) t) →
      wmdistance E a b = wmdistance E a' b') ∧
    (∀ a b, wmdistance E a b ≠ ⊤ →
      (∀ t, share (a.filter E.known) t = share (b.filter E.known) t) →
      wmdistance E a b = (0 : ℝ)) := by
  constructor
  · intro a b a' b' h h' h1 h2
    rw [(finite_value hE h).2.2, (finite_value hE h').2.2, optimum_congr E h1 h2]
  · intro a b h h1
    rw [(finite_value hE h).2.2, optimum_self E h1]

/-- **C94 (finding).** Two different words with the same vector: the distance of the two one-word
documents is infinite, and the triangle inequality fails through any word with another vector. -/
theorem C94_equal_vectors_infinite {E : Env T K} (hE : E.Ok) {x y z : T} (hxy : x ≠ y)
    (hx : E.known x = true) (hy : E.known y = true) (hz : E.known z = true)
    (he : E.vec x = E.vec y) (hne : E.vec x ≠ E.vec z) :
    wmdistance E [x] [y] = ⊤ ∧ wmdistance E [x] [z] + wmdistance E [z] [y] ≠ ⊤ := by
  have fx : [x].filter E.known = [x] := by simp [hx]
  have fy : [y].filter E.known = [y] := by simp [hy]
  have fz : [z].filter E.known = [z] := by simp [hz]
  constructor
  · have h4 := (C94_value hE [x] [y]).2.2.2
    rw [fx, fy] at h4
    exact (h4 (by simp) (by simp) ⟨x, y, by simp, by simp, hxy⟩ (by simpa using he)).1
  · have h1 := (C94_value hE [x] [z]).2.1
    have h2 := (C94_value hE [z] [y]).2.1
    rw [fx, fz] at h1
    rw [fz, fy] at h2
    rw [h1 (by simpa using hne), h2 (by simpa using fun e => hne (he.trans e.symm))]
    exact WithTop.add_ne_top.2 ⟨WithTop.coe_ne_top, WithTop.coe_ne_top⟩

/-- Three words on a line; `0` and `1` have the same vector. -/
noncomputable def exampleEnv : Env ℕ 1 where
  known := fun t => decide (t < 3)
  vec := fun t => if t = 2 then EuclideanSpace.single 0 1 else EuclideanSpace.single 0 (-1)
  tokens := fun a b => (a ++ b).dedup
  order := fun l => l.reverse

example : exampleEnv.Ok :=
  ⟨fun _ _ => List.nodup_dedup _, fun a b t => by simp [exampleEnv],
    fun l => List.reverse_perm l⟩

example : wmdistance exampleEnv [0, 2, 7] [0, 2] ≠ ⊤ := by
  have hE : exampleEnv.Ok := ⟨fun _ _ => List.nodup_dedup _, fun a b t => by simp [exampleEnv],
    fun l => List.reverse_perm l⟩
  have h := (C94_value hE [0, 2, 7] [0, 2]).2.1
  rw [h]
  · exact WithTop.coe_ne_top
  · refine ⟨0, by simp [exampleEnv], 2, by simp [exampleEnv], ?_⟩
    intro e
    have := congrFun (congrArg WithLp.ofLp e) 0
    simp [exampleEnv] at this
    norm_num at this

end Verif.Wmd
