import Mathlib.Data.List.Perm.Subperm
import Mathlib.Data.List.Nodup
import Mathlib.Data.List.Range
import Verif.Topic.InputModel

/-!
# C154: the number of terms of a topic model, and corpora that can be read only once
-/

namespace Verif.Topic

theorem foldl_max (l : List Nat) : ∀ a, a ≤ l.foldl max a ∧ (∀ x ∈ l, x ≤ l.foldl max a) ∧ (l.foldl max a = a ∨ l.foldl max a ∈ l) := by
  induction l with
  | nil => intro a; exact ⟨Nat.le_refl _, by simp, Or.inl rfl⟩
  | cons y l ih =>
    intro a
    obtain ⟨h1, h2, h3⟩ := ih (max a y)
    simp only [List.foldl_cons]
    refine ⟨by omega, ?_, ?_⟩
    · intro x hx
      rcases List.mem_cons.1 hx with rfl | hx
      · omega
      · exact h2 x hx
    · rcases h3 with h3 | h3
      · rcases Nat.le_total a y with h | h
        · exact Or.inr (List.mem_cons.2 (Or.inl (by omega)))
        · exact Or.inl (by omega)
      · exact Or.inr (List.mem_cons_of_mem _ h3)

/-- `t` is one more than the largest number in `l`, 0 for none -/
def OneMore (t : Nat) (l : List Nat) : Prop := (∀ x ∈ l, x < t) ∧ (t = 0 ∨ t - 1 ∈ l)

theorem OneMore.unique {t u : Nat} {l : List Nat} (h : OneMore t l) (h' : OneMore u l) : t = u := by
  obtain ⟨a, b⟩ := h
  obtain ⟨c, d⟩ := h'
  rcases b with rfl | b <;> rcases d with rfl | d
  · rfl
  · exact absurd (a _ d) (by omega)
  · exact absurd (c _ b) (by omega)
  · have := a _ d; have := c _ b; omega

theorem maxKey_spec (ids : List Nat) : OneMore (maxKey ids) ids := by
  unfold maxKey OneMore
  cases ids with
  | nil => simp
  | cons x l =>
    simp only [List.isEmpty_cons, Bool.false_eq_true, if_false]
    obtain ⟨h1, h2, h3⟩ := foldl_max (x :: l) 0
    refine ⟨fun y hy => by have := h2 y hy; omega, Or.inr ?_⟩
    rw [Nat.add_sub_cancel_left]
    rcases h3 with h3 | h3
    · have := h2 x (List.mem_cons_self ..)
      rw [h3]
      have : x = 0 := by omega
      subst this
      exact List.mem_cons_self ..
    · exact h3

theorem maxId_spec (docs : List (List Nat)) : OneMore (maxId docs) docs.flatten := by
  have gen : ∀ (docs : List (List Nat)) (pre : List Nat) (m : Nat), OneMore m pre →
      OneMore (docs.foldl (fun m d => if d.isEmpty then m else max m (d.foldl max 0 + 1)) m) (pre ++ docs.flatten) := by
    intro docs
    induction docs with
    | nil => intro pre m h; simpa using h
    | cons d docs ih =>
      intro pre m h
      have hd : OneMore (if d.isEmpty then m else max m (d.foldl max 0 + 1)) (pre ++ d) := by
        cases d with
        | nil => simpa using h
        | cons x l =>
          have hk := maxKey_spec (x :: l)
          unfold maxKey at hk
          simp only [List.isEmpty_cons, Bool.false_eq_true, if_false] at hk ⊢
          rw [Nat.add_comm] at hk
          generalize (x :: l).foldl max 0 + 1 = u at hk ⊢
          obtain ⟨h1, h2⟩ := h
          obtain ⟨k1, k2⟩ := hk
          constructor
          · intro y hy
            rcases List.mem_append.1 hy with hy | hy
            · have := h1 y hy; omega
            · have := k1 y hy; omega
          · have hu : u - 1 ∈ x :: l := by
              rcases k2 with k2 | k2
              · have := k1 x (List.mem_cons_self ..); omega
              · exact k2
            rcases Nat.le_total m u with hmu | hmu
            · rw [Nat.max_eq_right hmu]
              exact Or.inr (List.mem_append_right _ hu)
            · rw [Nat.max_eq_left hmu]
              rcases h2 with h2 | h2
              · exact Or.inl h2
              · exact Or.inr (List.mem_append_left _ h2)
      have := ih (pre ++ d) _ hd
      rw [List.foldl_cons, List.flatten_cons, ← List.append_assoc]
      exact this
  have := gen docs [] 0 ⟨by simp, Or.inl rfl⟩
  rw [List.nil_append] at this
  exact this

/-- **C154** With a mapping that is not empty, models of type LDA, author-topic, LSI and random projections have one term
more than its largest id; every id is in range, also if ids are missing. -/
theorem C154_largest (k : Kind) (hk : k = .lda ∨ k = .author ∨ k = .lsi ∨ k = .rp) (ids : List Nat) (hne : ids ≠ []) (c : Src) :
    ∃ t, terms k (some ids) (some c) = .ok (t, some c) ∧ (∀ id ∈ ids, id < t) ∧ t - 1 ∈ ids := by
  have h := maxKey_spec ids
  obtain ⟨x, hx⟩ := List.exists_mem_of_ne_nil ids hne
  have hpos : maxKey ids ≠ 0 := by have := h.1 x hx; omega
  refine ⟨maxKey ids, ?_, h.1, h.2.resolve_left hpos⟩
  rcases hk with rfl | rfl | rfl | rfl <;> simp [terms, hpos]

/-- **C154** HDP, NMF and sequential LDA have as many terms as the mapping has ids: all ids are in range exactly if they
are the numbers from 0 on. -/
theorem C154_gaps (k : Kind) (hk : k = .hdp ∨ k = .nmf ∨ k = .ldaseq) (ids : List Nat) (hn : ids.Nodup) (c : Src) :
    ∃ t, terms k (some ids) (some c) = .ok (t, some c) ∧ t = ids.length ∧
      ((∀ id ∈ ids, id < t) ↔ ids.Perm (List.range t)) := by
  refine ⟨ids.length, ?_, rfl, ?_⟩
  · rcases hk with rfl | rfl | rfl <;> rfl
  · constructor
    · intro h
      have hs : ids ⊆ List.range ids.length := fun x hx => List.mem_range.2 (h x hx)
      exact (List.subperm_of_subset hn hs).perm_of_length_le (by simp)
    · intro h id hid
      exact List.mem_range.1 (h.subset hid)

/-- **C154** For a mapping whose ids are the numbers below `n`, all models have `n` terms. -/
theorem C154_complete (k : Kind) (n : Nat) (hn : 0 < n) (ids : List Nat) (h : ids.Perm (List.range n)) (c : Src) :
    terms k (some ids) (some c) = .ok (n, some c) := by
  have hlen : ids.length = n := by rw [h.length_eq, List.length_range]
  have hk : maxKey ids = n := by
    refine (maxKey_spec ids).unique ⟨fun x hx => List.mem_range.1 (h.subset hx), Or.inr ?_⟩
    exact h.symm.subset (List.mem_range.2 (by omega))
  have hne : n ≠ 0 := by omega
  cases k <;> simp [terms, hlen, hk, hne]

/-- **C154** Without a mapping the number of terms is one more than the largest id in the corpus; a corpus without ids is
refused by LDA and the author-topic model only. HDP needs a mapping. -/
theorem C154_from_corpus (k : Kind) (c : Src) :
    (k = .hdp → terms k none (some c) = .error .typeError) ∧
    ((k = .lda ∨ k = .author) → (∀ d ∈ c.docs, d = []) → terms k none (some c) = .error .valueError) ∧
    (k ≠ .hdp → (k = .lda ∨ k = .author → ∃ d ∈ c.docs, d ≠ []) → ∃ t, terms k none (some c) = .ok (t, some c.read.2) ∧
      (∀ d ∈ c.docs, ∀ id ∈ d, id < t) ∧ (t = 0 ∨ ∃ d ∈ c.docs, t - 1 ∈ d)) := by
  have h := maxId_spec c.docs
  have hr : c.read.1 = c.docs := rfl
  refine ⟨?_, ?_, ?_⟩
  · rintro rfl; rfl
  · intro hk hd
    have h0 : maxId c.docs = 0 := by
      rcases h.2 with h2 | h2
      · exact h2
      · obtain ⟨d, hd1, hd2⟩ := List.mem_flatten.1 h2
        rw [hd d hd1] at hd2
        cases hd2
    rcases hk with rfl | rfl <;> simp [terms, Src.read, h0]
  · intro hk he
    refine ⟨maxId c.docs, ?_, ?_, ?_⟩
    · have hpos : (k = .lda ∨ k = .author) → maxId c.docs ≠ 0 := by
        intro hka
        obtain ⟨d, hd, hne⟩ := he hka
        obtain ⟨x, hx⟩ := List.exists_mem_of_ne_nil d hne
        have := h.1 x (List.mem_flatten.2 ⟨d, hd, hx⟩)
        omega
      cases k with
      | hdp => exact absurd rfl hk
      | lda => simp [terms, Src.read, hpos (Or.inl rfl)]
      | author => simp [terms, Src.read, hpos (Or.inr rfl)]
      | _ => rfl
    · intro d hd id hid
      exact h.1 id (List.mem_flatten.2 ⟨d, hd, hid⟩)
    · rcases h.2 with h2 | h2
      · exact Or.inl h2
      · obtain ⟨d, hd1, hd2⟩ := List.mem_flatten.1 h2
        exact Or.inr ⟨d, hd1, hd2⟩

/-- **C154** With neither a corpus nor a mapping no model is constructed; an empty mapping is refused by LDA and the
author-topic model. -/
theorem C154_refused (k : Kind) (c : Option Src) :
    (∃ e, terms k none none = .error e) ∧ ((k = .lda ∨ k = .author) → terms k (some []) c = .error .valueError) := by
  constructor
  · cases k <;> exact ⟨_, rfl⟩
  · rintro (rfl | rfl) <;> rfl

theorem ldaPasses_replay (c : Src) (h : c.oneShot = false) (p : Nat) :
    ldaPasses c.docs.length p c = .ok (List.replicate p c.docs) := by
  induction p with
  | zero => rfl
  | succ p ih =>
    have hr : c.read = (c.docs, c) := by simp [Src.read, h]
    simp only [ldaPasses, hr, ne_eq, not_true, if_false, ih]
    rfl

/-- **C154** A corpus that can be read repeatedly, with or without a length and with or without a mapping, is read whole
in every pass of the training of a new LDA model, and once for LSI. -/
theorem C154_replayable (c : Src) (h : c.oneShot = false) (hne : ∃ d ∈ c.docs, d ≠ []) (passes : Nat)
    (id2word : Option (List Nat)) (hid : id2word ≠ some []) :
    construct .lda passes id2word c = .ok (List.replicate passes c.docs) ∧
    construct .lsi passes id2word c = .ok [c.docs] ∧
    construct .nmf passes id2word c = .ok (List.replicate passes c.docs) := by
  obtain ⟨d, hd, _⟩ := id hne
  have hlen : c.docs.length ≠ 0 := by
    intro e
    rw [List.length_eq_zero_iff.1 e] at hd
    cases hd
  have hr : c.read = (c.docs, c) := by simp [Src.read, h]
  have hup : ldaUpdate passes c = .ok (List.replicate passes c.docs) := by
    unfold ldaUpdate
    cases hs : c.sized <;> simp [hr, hlen, ldaPasses_replay c h]
  have hnp : ∀ p, nmfPasses p c = List.replicate p c.docs := by
    intro p
    induction p with
    | zero => rfl
    | succ p ih => simp [nmfPasses, hr, ih, List.replicate_succ]
  have hnm : nmfUpdate passes passes c = .ok (List.replicate passes c.docs) := by
    unfold nmfUpdate
    rw [if_neg (fun e => hlen e.2), if_neg (by simp [h]), hnp]
  have ht : ∀ k, k = .lda ∨ k = .lsi ∨ k = .nmf → ∃ t, terms k id2word (some c) = .ok (t, some c) := by
    intro k hk
    cases id2word with
    | none =>
      obtain ⟨t, e, _⟩ := (C154_from_corpus k c).2.2 (by rcases hk with rfl | rfl | rfl <;> simp) (fun _ => hne)
      rw [hr] at e
      exact ⟨t, e⟩
    | some ids =>
      have hi : ids ≠ [] := fun e => hid (by rw [e])
      rcases hk with rfl | rfl | rfl
      · obtain ⟨t, e, _⟩ := C154_largest .lda (by simp) ids hi c; exact ⟨t, e⟩
      · obtain ⟨t, e, _⟩ := C154_largest .lsi (by simp) ids hi c; exact ⟨t, e⟩
      · exact ⟨_, rfl⟩
  refine ⟨?_, ?_, ?_⟩
  · obtain ⟨t, e⟩ := ht .lda (by simp)
    simp only [construct, e, Option.getD_some]
    exact hup
  · obtain ⟨t, e⟩ := ht .lsi (by simp)
    simp only [construct, e, Option.getD_some, lsiUpdate, hr]
  · obtain ⟨t, e⟩ := ht .nmf (by simp)
    simp only [construct, e, Option.getD_some]
    exact hnm

/-- **C154** A generator as corpus of a new LDA model: with a mapping training raises; without one it ends silently with
no document seen. -/
theorem C154_generator_lda (docs : List (List Nat)) (hne : ∃ d ∈ docs, d ≠ []) (passes : Nat) (hp : 0 < passes) (ids : List Nat)
    (hids : ids ≠ []) :
    construct .lda passes (some ids) ⟨docs, true, false⟩ = .error .runtimeError ∧
    construct .lda passes none ⟨docs, true, false⟩ = .ok [] := by
  obtain ⟨d, hd, _⟩ := id hne
  have hlen : docs.length ≠ 0 := by
    intro e
    rw [List.length_eq_zero_iff.1 e] at hd
    cases hd
  obtain ⟨p, rfl⟩ : ∃ p, passes = p + 1 := ⟨passes - 1, by omega⟩
  constructor
  · obtain ⟨t, e, _⟩ := C154_largest .lda (by simp) ids hids ⟨docs, true, false⟩
    simp only [construct, e, Option.getD_some]
    have : (0 : Nat) ≠ docs.length := fun h => hlen h.symm
    simp [ldaUpdate, Src.read, hlen, ldaPasses, this]
  · obtain ⟨t, e, _⟩ := (C154_from_corpus .lda ⟨docs, true, false⟩).2.2 (by simp) (fun _ => hne)
    simp only [construct, e, Option.getD_some]
    rfl

/-- **C154** A generator as corpus of a new LSI model is read whole if there is a mapping; without one nothing is left of
it for the training. -/
theorem C154_generator_lsi (docs : List (List Nat)) (passes : Nat) (ids : List Nat) :
    construct .lsi passes (some ids) ⟨docs, true, false⟩ = .ok [docs] ∧
    construct .lsi passes none ⟨docs, true, false⟩ = .ok [[]] := by
  exact ⟨rfl, rfl⟩

/-- **C154** An iterator as corpus of a new NMF model: one pass reads it whole (with a mapping), more are refused; without
a mapping the one pass reads nothing. But `update` looks at the number of passes of the constructor, not at its own: with
one there, any number of passes in the call goes through, and all but the first read nothing. -/
theorem C154_generator_nmf (docs : List (List Nat)) (ids : List Nat) (passes : Nat) (hp : 1 < passes) :
    construct .nmf 1 (some ids) ⟨docs, true, false⟩ = .ok [docs] ∧
    construct .nmf passes (some ids) ⟨docs, true, false⟩ = .error .valueError ∧
    construct .nmf 1 none ⟨docs, true, false⟩ = .ok [[]] ∧
    nmfUpdate 1 passes ⟨docs, true, false⟩ = .ok (docs :: List.replicate (passes - 1) []) ∧
    nmfUpdate passes 1 ⟨docs, true, false⟩ = .error .valueError := by
  refine ⟨rfl, ?_, rfl, ?_, ?_⟩
  · simp [construct, terms, nmfUpdate, hp]
  · obtain ⟨p, rfl⟩ : ∃ p, passes = p + 1 := ⟨passes - 1, by omega⟩
    have : ∀ p, nmfPasses p ⟨[], true, false⟩ = List.replicate p [] := by
      intro p
      induction p with
      | zero => rfl
      | succ p ih => simp [nmfPasses, Src.read, ih, List.replicate_succ]
    simp [nmfUpdate, nmfPasses, Src.read, this]
  · simp [nmfUpdate, hp]

/-- a mapping with a gap: id 2 is out of range for HDP, in range for LDA -/
example : terms .hdp (some [0, 2]) (some ⟨[[0, 2]], false, true⟩) = .ok (2, some ⟨[[0, 2]], false, true⟩) ∧
    terms .lda (some [0, 2]) (some ⟨[[0, 2]], false, true⟩) = .ok (3, some ⟨[[0, 2]], false, true⟩) := by decide

example : construct .lda 2 none ⟨[[0, 1], [1]], false, false⟩ = .ok [[[0, 1], [1]], [[0, 1], [1]]] :=
  (C154_replayable ⟨[[0, 1], [1]], false, false⟩ rfl ⟨[1], by decide, by decide⟩ 2 none (by simp)).1

end Verif.Topic
