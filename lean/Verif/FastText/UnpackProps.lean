import Verif.FastText.UnpackModel
import Mathlib.Data.List.Nodup
import Mathlib.Data.List.Perm.Basic

/-!
# C135: unpacking matrices of n-gram vectors
-/

namespace Verif.FastText.Unpack

variable {α : Type}

/-! ## Specification -/

/-- a dictionary from hashes to rows of a matrix with `orig` rows, as one-to-one packing makes it -/
structure Packing (orig numRows : Nat) (H : List (Nat × Nat)) : Prop where
  keys : (H.map Prod.fst).Nodup
  rows : (H.map Prod.snd).Nodup
  row : ∀ p ∈ H, p.2 < orig
  hash : ∀ p ∈ H, p.1 < numRows

/-! ## Lemmas -/

theorem key_inj {orig numRows : Nat} {H : List (Nat × Nat)} (h : Packing orig numRows H) {a b c : Nat} (h1 : (a, b) ∈ H)
    (h2 : (a, c) ∈ H) : b = c := by
  have := List.inj_on_of_nodup_map h.keys h1 h2 rfl
  exact congrArg Prod.snd this

theorem row_inj {orig numRows : Nat} {H : List (Nat × Nat)} (h : Packing orig numRows H) {a b c : Nat} (h1 : (a, c) ∈ H)
    (h2 : (b, c) ∈ H) : a = b := by
  have := List.inj_on_of_nodup_map h.rows h1 h2 rfl
  exact congrArg Prod.fst this

theorem swapRows_ok (m : List α) (h i : Nat) (hne : h ≠ i) (hh : h < m.length) (hi : i < m.length) :
    ∃ r, swapRows m h i = .ok r ∧ r.length = m.length ∧ r[h]? = m[i]? ∧ r[i]? = m[h]? ∧
      ∀ k, k ≠ h → k ≠ i → r[k]? = m[k]? := by
  unfold swapRows
  rw [if_neg hne, List.getElem?_eq_getElem hh, List.getElem?_eq_getElem hi]
  refine ⟨_, rfl, by simp, ?_, ?_, ?_⟩
  · rw [List.getElem?_set_ne (Ne.symm hne), List.getElem?_set_self hh]
  · rw [List.getElem?_set_self (by simpa using hi)]
  · intro k h1 h2
    rw [List.getElem?_set_ne (Ne.symm h2), List.getElem?_set_ne (Ne.symm h1)]

/-- no row is in two of the swaps -/
def Apart (p q : Nat × Nat) : Prop := p.1 ≠ q.1 ∧ p.1 ≠ q.2 ∧ p.2 ≠ q.1 ∧ p.2 ≠ q.2

theorem swapAll_ok (ps : List (Nat × Nat)) (m : List α) (hd : ps.Pairwise Apart)
    (hr : ∀ p ∈ ps, p.1 ≠ p.2 ∧ p.1 < m.length ∧ p.2 < m.length) :
    ∃ r, swapAll m ps = .ok r ∧ r.length = m.length ∧ (∀ p ∈ ps, r[p.1]? = m[p.2]? ∧ r[p.2]? = m[p.1]?) ∧
      ∀ k, (∀ p ∈ ps, k ≠ p.1 ∧ k ≠ p.2) → r[k]? = m[k]? := by
  induction ps generalizing m with
  | nil => exact ⟨m, rfl, rfl, by simp, fun _ _ => rfl⟩
  | cons p ps ih =>
    obtain ⟨h1, h2⟩ := List.pairwise_cons.1 hd
    obtain ⟨a, b, c⟩ := hr p (by simp)
    obtain ⟨m1, e1, l1, s1, s2, s3⟩ := swapRows_ok m p.1 p.2 a b c
    obtain ⟨r, e2, l2, t1, t2⟩ := ih m1 h2 fun q hq => by rw [l1]; exact hr q (by simp [hq])
    refine ⟨r, by rw [swapAll, e1]; exact e2, by omega, ?_, ?_⟩
    · intro q hq
      rcases List.mem_cons.1 hq with rfl | hq
      · rw [t2 q.1 fun x hx => ⟨(h1 x hx).1, (h1 x hx).2.1⟩, t2 q.2 fun x hx => ⟨(h1 x hx).2.2.1, (h1 x hx).2.2.2⟩]
        exact ⟨s1, s2⟩
      · have ap := h1 q hq
        rw [(t1 q hq).1, (t1 q hq).2]
        exact ⟨s3 _ (Ne.symm ap.2.1) (Ne.symm ap.2.2.2), s3 _ (Ne.symm ap.1) (Ne.symm ap.2.2.1)⟩
    · intro k hk
      rw [t2 k fun q hq => hk q (by simp [hq])]
      exact s3 k (hk p (by simp)).1 (hk p (by simp)).2

theorem mem_swapList {orig : Nat} {H : List (Nat × Nat)} {p : Nat × Nat} :
    p ∈ swapList orig H ↔ p ∈ H ∧ (p.1 < p.2 ∧ p.2 < orig ∨ orig ≤ p.1) := by
  simp only [swapList, List.mem_append, List.mem_filter, Bool.and_eq_true, decide_eq_true_eq]
  tauto

theorem swapList_apart {orig numRows : Nat} {H : List (Nat × Nat)} (h : Packing orig numRows H)
    (hinv : ∀ p ∈ H, p.1 < orig → (p.2, p.1) ∈ H) : (swapList orig H).Pairwise Apart := by
  have hn : (swapList orig H).Nodup := by
    have hH : H.Nodup := List.Nodup.of_map _ h.keys
    unfold swapList
    refine List.Nodup.append (hH.filter _) (hH.filter _) ?_
    intro p h1 h2
    simp only [List.mem_filter, Bool.and_eq_true, decide_eq_true_eq] at h1 h2
    omega
  refine hn.imp_of_mem ?_
  rintro ⟨a, b⟩ ⟨c, d⟩ hp hq hne
  obtain ⟨hp1, hp2⟩ := mem_swapList.1 hp
  obtain ⟨hq1, hq2⟩ := mem_swapList.1 hq
  have rb := h.row _ hp1
  have rd := h.row _ hq1
  simp only at hp2 hq2 rb rd
  refine ⟨?_, ?_, ?_, ?_⟩
  · rintro rfl
    exact hne (by rw [key_inj h hp1 hq1])
  · rintro rfl
    simp only at rd
    have hi := hinv _ hp1 rd
    have := row_inj h hi hq1
    simp only at this
    omega
  · intro e
    simp only at e
    subst e
    have hi := hinv _ hq1 rb
    have := row_inj h hi hp1
    simp only at this
    omega
  · intro e
    simp only at e
    subst e
    exact hne (by rw [row_inj h hp1 hq1])

/-! ## Theorems -/

/-- **C135.** If the hashes that are themselves numbers of packed rows come in pairs that exchange places (in
particular if there are none, or if they all stand at their place), unpacking puts the vector of every hash into the
row with the number of the hash, and fills the other rows. -/
theorem C135_unpack (m : List α) (numRows : Nat) (H : List (Nat × Nat)) (pad : Nat → List α)
    (hp : Packing m.length numRows H) (hlt : m.length < numRows)
    (hpad : (pad (numRows - m.length)).length = numRows - m.length)
    (hinv : ∀ p ∈ H, p.1 < m.length → (p.2, p.1) ∈ H) :
    ∃ r, unpack m numRows H pad = .ok r ∧ r.length = numRows ∧ (∀ p ∈ H, r[p.1]? = m[p.2]?) ∧
      ∀ k, m.length ≤ k → (∀ p ∈ H, p.1 ≠ k) → r[k]? = (pad (numRows - m.length))[k - m.length]? := by
  have hlen : (m ++ pad (numRows - m.length)).length = numRows := by rw [List.length_append, hpad]; omega
  obtain ⟨r, e, l, t1, t2⟩ := swapAll_ok (swapList m.length H) (m ++ pad (numRows - m.length)) (swapList_apart hp hinv) (by
    intro p hm
    obtain ⟨h1, h2⟩ := mem_swapList.1 hm
    have := hp.row p h1
    have := hp.hash p h1
    rw [hlen]
    omega)
  refine ⟨r, ?_, by omega, ?_, ?_⟩
  · unfold unpack
    rw [if_neg (by omega), if_pos hlt]
    exact e
  · rintro ⟨h, i⟩ hm
    have hi : i < m.length := hp.row _ hm
    have key : r[h]? = (m ++ pad (numRows - m.length))[i]? := by
      by_cases h1 : m.length ≤ h
      · exact (t1 (h, i) (mem_swapList.2 ⟨hm, Or.inr h1⟩)).1
      · have hback := hinv _ hm (by simpa using h1)
        simp only at hback
        by_cases h2 : h < i
        · exact (t1 (h, i) (mem_swapList.2 ⟨hm, Or.inl ⟨h2, hi⟩⟩)).1
        · by_cases h3 : h = i
          · subst h3
            refine t2 h ?_
            rintro ⟨a, b⟩ hq
            obtain ⟨hq1, hq2⟩ := mem_swapList.1 hq
            simp only at hq2 ⊢
            constructor
            · rintro rfl
              have := key_inj hp hm hq1
              omega
            · rintro rfl
              have := row_inj hp hm hq1
              omega
          · exact (t1 (i, h) (mem_swapList.2 ⟨hback, Or.inl ⟨by simp only; omega, by simp only; omega⟩⟩)).2
    simp only
    rw [key, List.getElem?_append_left hi]
  · intro k hk hno
    rw [t2 k ?_, List.getElem?_append_right hk]
    rintro p hq
    obtain ⟨hq1, _⟩ := mem_swapList.1 hq
    have := hp.row p hq1
    exact ⟨fun e => hno p hq1 e.symm, by omega⟩

theorem swapRows_perm (m r : List α) (h i : Nat) (e : swapRows m h i = .ok r) : r.Perm m := by
  unfold swapRows at e
  by_cases hne : h = i
  · rw [if_pos hne] at e; cases e
  · rw [if_neg hne] at e
    cases ha : m[h]? with
    | none => rw [ha] at e; cases e
    | some a =>
      cases hb : m[i]? with
      | none => rw [ha, hb] at e; cases e
      | some b =>
        rw [ha, hb] at e
        cases e
        obtain ⟨h1, rfl⟩ := List.getElem?_eq_some_iff.1 ha
        obtain ⟨h2, rfl⟩ := List.getElem?_eq_some_iff.1 hb
        exact List.set_set_perm h1 h2

/-- **C135.** Whatever the dictionary, unpacking never loses or repeats a vector: if it succeeds, its rows are the old
and the new ones in some order. -/
theorem C135_no_row_lost (m r : List α) (numRows : Nat) (H : List (Nat × Nat)) (pad : Nat → List α)
    (hlt : m.length < numRows) (e : unpack m numRows H pad = .ok r) : r.Perm (m ++ pad (numRows - m.length)) := by
  unfold unpack at e
  rw [if_neg (by omega), if_pos hlt] at e
  have key : ∀ (ps : List (Nat × Nat)) (m r : List α), swapAll m ps = .ok r → r.Perm m := by
    intro ps
    induction ps with
    | nil => intro m r e; cases e; exact .refl _
    | cons p ps ih =>
      intro m r e
      rw [swapAll] at e
      cases hs : swapRows m p.1 p.2 with
      | error x => rw [hs] at e; cases e
      | ok m1 =>
        rw [hs] at e
        exact (ih m1 r e).trans (swapRows_perm m m1 _ _ hs)
  exact key _ _ _ e

/-- **C135.** A matrix that has all rows is returned as it is (whatever the dictionary says), and one that has too many
is refused. -/
theorem C135_sizes (m : List α) (numRows : Nat) (H : List (Nat × Nat)) (pad : Nat → List α) :
    (m.length = numRows → unpack m numRows H pad = .ok m) ∧
    (numRows < m.length → unpack m numRows H pad = .error .assertion) := by
  unfold unpack
  constructor
  · intro h; rw [if_pos h]
  · intro h; rw [if_neg (by omega), if_neg (by omega)]

/-- **C135 (finding).** The order in which the rows are swapped matters: with the hashes 1, 2, 0 packed in this order,
the vectors of the hashes 1 and 2 are exchanged. -/
theorem C135_cycle : Packing 3 4 [(1, 0), (2, 1), (0, 2)] ∧
    unpack ["of 1", "of 2", "of 0"] 4 [(1, 0), (2, 1), (0, 2)] (fun n => List.replicate n "new")
      = .ok ["of 0", "of 2", "of 1", "new"] :=
  ⟨⟨by decide, by decide, by decide, by decide⟩, rfl⟩

/-- **C135 (finding).** And a hash that is the number of a packed row loses its vector to another hash, and is left with
a new row. -/
theorem C135_overwritten : Packing 2 3 [(2, 0), (0, 1)] ∧
    unpack ["of 2", "of 0"] 3 [(2, 0), (0, 1)] (fun n => List.replicate n "new") = .ok ["new", "of 2", "of 0"] :=
  ⟨⟨by decide, by decide, by decide, by decide⟩, rfl⟩

/-- **C135.** Lock factors are prolonged by ones, never shortened. -/
theorem C135_pad_ones (one : α) (m : List α) (newLen : Nat) :
    (padOnes one m newLen = none ↔ newLen < m.length) ∧
    ∀ r, padOnes one m newLen = some r → r.length = newLen ∧ (∀ k, k < m.length → r[k]? = m[k]?) ∧
      ∀ k, m.length ≤ k → k < newLen → r[k]? = some one := by
  unfold padOnes
  constructor
  · by_cases h : newLen < m.length <;> simp [h]
  · intro r hr
    by_cases h : newLen < m.length
    · rw [if_pos h] at hr; cases hr
    · rw [if_neg h] at hr
      cases hr
      refine ⟨by simp; omega, fun k hk => List.getElem?_append_left hk, fun k hk hk' => ?_⟩
      rw [List.getElem?_append_right hk, List.getElem?_replicate, if_pos (by omega)]

/-! ## Cases -/

/-- the hypotheses of `C135_unpack` hold for the case of the unit test: two rows exchanged, one far hash -/
example : Packing 3 13 [(1, 0), (0, 1), (12, 2)] ∧ ∀ p ∈ [(1, 0), (0, 1), (12, 2)], p.1 < 3 → (p.2, p.1) ∈ [(1, 0), (0, 1), (12, 2)] :=
  ⟨⟨by decide, by decide, by decide, by decide⟩, by decide⟩

end Verif.FastText.Unpack
