import Verif.Coherence.CorpusProps
import Mathlib.Data.List.Chain
import Mathlib.Data.List.Forall2

/-!
# Lemmas about `WordOccurrenceAccumulator`: what `partial_accumulate` adds to the counters
-/

namespace Verif.Coherence

/-- Masks used for the windows after the first one of a document. -/
def restMasks : (Nat → Bool) → Option Nat → List (List Nat) → List (Nat → Bool)
  | _, _, [] => []
  | u, e, w :: ws => moveMask u e w :: restMasks (moveMask u e w) w.head? ws

/-- Masks used for the windows of one document. -/
def docMasks : List (List Nat) → List (Nat → Bool)
  | [] => []
  | w :: ws => resetMask w :: restMasks (resetMask w) w.head? ws

/-- Masks used for the windows of several documents. -/
def masksOf (k : Nat) (docs : List (List Nat)) : List (Nat → Bool) :=
  docs.flatMap fun d => docMasks (slidingWindows k d)

/-- Does the mask count for token `t`? -/
def occBit (v t : Nat) (u : Nat → Bool) : Bool := decide (t < v) && u t

/-- Does the mask count for the pair `(i, j)`? -/
def pairBit (v i j : Nat) (u : Nat → Bool) : Bool :=
  decide (i < j) && decide (j < v) && u i && u j

/-- `s'` is `s` with the masks `ms` counted. -/
structure Added (v : Nat) (s s' : Acc) (ms : List (Nat → Bool)) : Prop where
  occ : ∀ t, s'.occ t = s.occ t + ms.countP (occBit v t)
  counter : ∀ i j, s'.counter i j = s.counter i j + ms.countP (pairBit v i j)
  co : s'.co = s.co
  num : s'.numDocs = s.numDocs + ms.length

theorem Added.refl (v : Nat) (s : Acc) : Added v s s [] :=
  ⟨fun _ => by simp, fun _ _ => by simp, rfl, by simp⟩

theorem Added.trans {v : Nat} {s s1 s2 : Acc} {a b : List (Nat → Bool)} (h1 : Added v s s1 a)
    (h2 : Added v s1 s2 b) : Added v s s2 (a ++ b) := by
  refine ⟨fun t => ?_, fun i j => ?_, h2.co.trans h1.co, ?_⟩
  · rw [h2.occ, h1.occ, List.countP_append]; omega
  · rw [h2.counter, h1.counter, List.countP_append]; omega
  · rw [h2.num, h1.num, List.length_append]; omega

theorem ite_eq_countP_occ (v t : Nat) (u : Nat → Bool) :
    (if t < v ∧ u t = true then 1 else 0) = [u].countP (occBit v t) := by
  by_cases h : t < v <;> cases hu : u t <;> simp [occBit, h, hu]

theorem ite_eq_countP_pair (v i j : Nat) (u : Nat → Bool) :
    (if i < j ∧ j < v ∧ u i = true ∧ u j = true then 1 else 0) = [u].countP (pairBit v i j) := by
  by_cases h : i < j <;> by_cases h2 : j < v <;> cases hi : u i <;> cases hj : u j <;>
    simp [pairBit, h, h2, hi, hj]

theorem countMask_cur (v : Nat) (s : Acc) :
    (countMask v s).cur = s.cur ∧ (countMask v s).edge = s.edge ∧ (countMask v s).uniq = s.uniq ∧
      (countMask v s).co = s.co ∧ (countMask v s).numDocs = s.numDocs := by
  unfold countMask
  split <;> exact ⟨rfl, rfl, rfl, rfl, rfl⟩

theorem countMask_counts (v : Nat) (s : Acc) :
    (∀ t, (countMask v s).occ t = s.occ t + [s.uniq].countP (occBit v t)) ∧
      (∀ i j, (countMask v s).counter i j = s.counter i j + [s.uniq].countP (pairBit v i j)) := by
  unfold countMask
  split
  · constructor
    · intro t
      rw [← ite_eq_countP_occ]
    · intro i j
      rw [← ite_eq_countP_pair]
  · rename_i h
    have hz : ∀ t, t < v → s.uniq t = false := by
      intro t ht
      rw [Bool.not_eq_true, List.any_eq_false] at h
      simpa using h t (List.mem_range.2 ht)
    constructor
    · intro t
      rw [← ite_eq_countP_occ, if_neg]
      · rfl
      · rintro ⟨h1, h2⟩
        rw [hz t h1] at h2
        cases h2
    · intro i j
      rw [← ite_eq_countP_pair, if_neg]
      · rfl
      · rintro ⟨_, h1, _, h2⟩
        rw [hz j h1] at h2
        cases h2

theorem accStep_same {v n : Nat} {s : Acc} (h : s.cur = some n) (w : List Nat) :
    Added v s (accStep v s (n, w)) [moveMask s.uniq s.edge w] ∧
      (accStep v s (n, w)).cur = some n ∧ (accStep v s (n, w)).edge = w.head? ∧
      (accStep v s (n, w)).uniq = moveMask s.uniq s.edge w := by
  have hs : slideWindow s n w
      = { s with uniq := moveMask s.uniq s.edge w, edge := w.head? } := by
    unfold slideWindow
    rw [if_neg (by simp [h])]
  unfold accStep
  simp only [hs]
  obtain ⟨c1, c2, c3, c4, c5⟩ := countMask_cur v
    { s with uniq := moveMask s.uniq s.edge w, edge := w.head? }
  obtain ⟨d1, d2⟩ := countMask_counts v
    { s with uniq := moveMask s.uniq s.edge w, edge := w.head? }
  refine ⟨⟨d1, d2, c4, ?_⟩, c1.trans h, c2, c3⟩
  dsimp only
  rw [c5]
  rfl

theorem accStep_new {v n : Nat} {s : Acc} (h : s.cur ≠ some n) (w : List Nat) :
    Added v s (accStep v s (n, w)) [resetMask w] ∧
      (accStep v s (n, w)).cur = some n ∧ (accStep v s (n, w)).edge = w.head? ∧
      (accStep v s (n, w)).uniq = resetMask w := by
  have hs : slideWindow s n w
      = { s with uniq := resetMask w, cur := some n, edge := w.head? } := by
    unfold slideWindow
    rw [if_pos h]
  unfold accStep
  simp only [hs]
  obtain ⟨c1, c2, c3, c4, c5⟩ := countMask_cur v
    { s with uniq := resetMask w, cur := some n, edge := w.head? }
  obtain ⟨d1, d2⟩ := countMask_counts v
    { s with uniq := resetMask w, cur := some n, edge := w.head? }
  refine ⟨⟨d1, d2, c4, ?_⟩, c1, c2, c3⟩
  dsimp only
  rw [c5]
  rfl

theorem fold_rest (v n : Nat) (ws : List (List Nat)) (s : Acc) (h : s.cur = some n) :
    Added v s ((ws.map fun w => (n, w)).foldl (accStep v) s) (restMasks s.uniq s.edge ws) ∧
      ((ws.map fun w => (n, w)).foldl (accStep v) s).cur = some n := by
  induction ws generalizing s with
  | nil => exact ⟨Added.refl v s, h⟩
  | cons w ws ih =>
    obtain ⟨h1, h2, h3, h4⟩ := accStep_same (v := v) h w
    obtain ⟨h5, h6⟩ := ih _ h2
    rw [h3, h4] at h5
    exact ⟨h1.trans h5, h6⟩

theorem fold_doc (v n : Nat) (ws : List (List Nat)) (s : Acc)
    (h : ∀ m, s.cur = some m → m < n) :
    Added v s ((ws.map fun w => (n, w)).foldl (accStep v) s) (docMasks ws) ∧
      ∀ m, ((ws.map fun w => (n, w)).foldl (accStep v) s).cur = some m → m < n + 1 := by
  cases ws with
  | nil => exact ⟨Added.refl v s, fun m hm => by have := h m hm; omega⟩
  | cons w ws =>
    obtain ⟨h1, h2, h3, h4⟩ := accStep_new (v := v) (n := n) (s := s)
      (fun e => Nat.lt_irrefl _ (h n e)) w
    obtain ⟨h5, h6⟩ := fold_rest v n ws _ h2
    rw [h3, h4] at h5
    refine ⟨h1.trans h5, ?_⟩
    intro m hm
    change (((ws.map fun w => (n, w)).foldl (accStep v) (accStep v s (n, w))).cur = some m) at hm
    rw [h6] at hm
    cases hm
    omega

theorem fold_docs (v k : Nat) (docs : List (List Nat)) (n : Nat) (s : Acc)
    (h : ∀ m, s.cur = some m → m < n) :
    Added v s (((docs.zipIdx n).flatMap fun p => (docWindows k p.1).map fun w => (p.2, w)).foldl
      (accStep v) s) (masksOf k docs) := by
  induction docs generalizing n s with
  | nil => exact Added.refl v s
  | cons d docs ih =>
    rw [List.zipIdx_cons, List.flatMap_cons, List.foldl_append]
    obtain ⟨h1, h2⟩ := fold_doc v n (docWindows k d) s h
    have h3 := ih (n + 1) _ h2
    have := h1.trans h3
    rw [docWindows_eq] at this
    rw [docWindows_eq]
    exact this

/-- What `partial_accumulate` adds, whatever state the accumulator is in. -/
theorem partialAccumulate_spec (v k : Nat) (s : Acc) (docs : List (List Nat)) :
    (∀ t, (partialAccumulate v k s docs).occ t
      = s.occ t + (masksOf k docs).countP (occBit v t)) ∧
    (∀ i j, (partialAccumulate v k s docs).co i j
      = s.co i j + (masksOf k docs).countP (pairBit v i j)) ∧
    (partialAccumulate v k s docs).numDocs = s.numDocs + (masksOf k docs).length := by
  have h := fold_docs v k docs 0
    { s with cur := none, edge := none, counter := fun _ _ => 0 } (by simp)
  refine ⟨h.occ, ?_, h.num⟩
  intro i j
  have h1 := congrFun (congrFun h.co i) j
  have h2 := h.counter i j
  unfold partialAccumulate iterWindows
  dsimp only at h1 h2 ⊢
  rw [h1, h2]
  omega

/-! ## Masks against windows -/

/-- The next window: drops the first token and adds one at the end. -/
def Slid (p w : List Nat) : Prop := p ≠ [] ∧ ∃ x, w = p.tail ++ [x]

/-- The step does not lose `t`: if it leaves and occurs again, it also enters. -/
def Keeps (t : Nat) (p w : List Nat) : Prop :=
  p.head? = some t → t ∈ p.tail → w.getLast? = some t

theorem moveMask_sound {u : Nat → Bool} {p w : List Nat} {t : Nat} (hs : Slid p w)
    (hu : u t = true → t ∈ p) : moveMask u p.head? w t = true → t ∈ w := by
  obtain ⟨hp, x, rfl⟩ := hs
  unfold moveMask
  intro h
  by_cases h1 : (p.tail ++ [x]).getLast? = some t
  · exact List.mem_of_getLast? h1
  · rw [if_neg h1] at h
    by_cases h2 : p.head? = some t
    · simp [h2] at h
    · rw [if_neg h2] at h
      have := hu h
      cases p with
      | nil => exact absurd rfl hp
      | cons a p =>
        rcases List.mem_cons.1 this with rfl | hm
        · simp at h2
        · simp [hm]

theorem moveMask_exact {u : Nat → Bool} {p w : List Nat} {t : Nat} (hs : Slid p w)
    (hu : u t = decide (t ∈ p)) :
    moveMask u p.head? w t = decide (t ∈ w) ↔ Keeps t p w := by
  obtain ⟨hp, x, rfl⟩ := hs
  unfold moveMask Keeps
  cases p with
  | nil => exact absurd rfl hp
  | cons a p =>
    by_cases hx : x = t
    · subst hx
      simp
    · by_cases ha : a = t
      · subst ha
        have : ¬ a = x := fun e => hx e.symm
        simp [hx, this]
      · have h1 : ¬ t = x := fun e => hx e.symm
        have h2 : ¬ t = a := fun e => ha e.symm
        simp [hx, ha, h1, h2, hu]

theorem restMasks_length (u : Nat → Bool) (e : Option Nat) (ws : List (List Nat)) :
    (restMasks u e ws).length = ws.length := by
  induction ws generalizing u e with
  | nil => rfl
  | cons w ws ih => simp [restMasks, ih]

theorem docMasks_length (ws : List (List Nat)) : (docMasks ws).length = ws.length := by
  cases ws with
  | nil => rfl
  | cons w ws => simp [docMasks, restMasks_length]

theorem restMasks_sound (t : Nat) (ws : List (List Nat)) (u : Nat → Bool) (p : List Nat)
    (hc : List.IsChain Slid (p :: ws)) (hu : u t = true → t ∈ p) :
    List.Forall₂ (fun u w => u t = true → t ∈ w) (restMasks u p.head? ws) ws := by
  induction ws generalizing u p with
  | nil => exact List.Forall₂.nil
  | cons w ws ih =>
    rw [List.isChain_cons_cons] at hc
    have h1 := moveMask_sound hc.1 hu
    exact List.Forall₂.cons h1 (ih _ w hc.2 h1)

theorem docMasks_sound (t : Nat) (ws : List (List Nat)) (hc : List.IsChain Slid ws) :
    List.Forall₂ (fun u w => u t = true → t ∈ w) (docMasks ws) ws := by
  cases ws with
  | nil => exact List.Forall₂.nil
  | cons w ws =>
    have h1 : resetMask w t = true → t ∈ w := by simp [resetMask]
    exact List.Forall₂.cons h1 (restMasks_sound t ws _ w hc h1)

theorem restMasks_exact (t : Nat) (ws : List (List Nat)) (u : Nat → Bool) (p : List Nat)
    (hc : List.IsChain Slid (p :: ws)) (hu : u t = decide (t ∈ p)) :
    List.Forall₂ (fun u w => u t = decide (t ∈ w)) (restMasks u p.head? ws) ws ↔
      List.IsChain (Keeps t) (p :: ws) := by
  induction ws generalizing u p with
  | nil => simp [restMasks]
  | cons w ws ih =>
    rw [List.isChain_cons_cons] at hc ⊢
    rw [restMasks, List.forall₂_cons]
    constructor
    · rintro ⟨h1, h2⟩
      exact ⟨(moveMask_exact hc.1 hu).1 h1, (ih _ w hc.2 h1).1 h2⟩
    · rintro ⟨h1, h2⟩
      have h3 := (moveMask_exact hc.1 hu).2 h1
      exact ⟨h3, (ih _ w hc.2 h3).2 h2⟩

theorem docMasks_exact (t : Nat) (ws : List (List Nat)) (hc : List.IsChain Slid ws) :
    List.Forall₂ (fun u w => u t = decide (t ∈ w)) (docMasks ws) ws ↔
      List.IsChain (Keeps t) ws := by
  cases ws with
  | nil => simp [docMasks]
  | cons w ws =>
    have h1 : resetMask w t = decide (t ∈ w) := rfl
    rw [docMasks, List.forall₂_cons]
    rw [restMasks_exact t ws _ w hc h1]
    exact ⟨fun h => h.2, fun h => ⟨h1, h⟩⟩

/-! ## Windows slide -/

theorem isChain_map_range {R : List Nat → List Nat → Prop} (f : Nat → List Nat) (m : Nat) :
    List.IsChain R ((List.range m).map f) ↔ ∀ i, i + 1 < m → R (f i) (f (i + 1)) := by
  rw [List.isChain_iff_getElem]
  simp

theorem window_slid {k : Nat} (hk : 0 < k) (d : List Nat) (i : Nat) (hi : i + k < d.length) :
    (d.drop i).take k = d[i] :: (d.drop (i + 1)).take (k - 1) ∧
      (d.drop (i + 1)).take k = (d.drop (i + 1)).take (k - 1) ++ [d[i + k]] := by
  obtain ⟨k, rfl⟩ : ∃ k', k = k' + 1 := ⟨k - 1, by omega⟩
  constructor
  · rw [List.drop_eq_getElem_cons (by omega : i < d.length)]
    rfl
  · rw [Nat.add_sub_cancel, List.take_add_one, List.getElem?_drop]
    have : i + 1 + k < d.length := by omega
    rw [List.getElem?_eq_getElem this]
    simp only [Option.toList_some]
    congr 3
    omega

theorem slidingWindows_slid {k : Nat} (hk : 0 < k) (d : List Nat) :
    List.IsChain Slid (slidingWindows k d) := by
  unfold slidingWindows
  split
  · simp
  · rw [isChain_map_range]
    intro i hi
    obtain ⟨h1, h2⟩ := window_slid hk d i (by omega)
    rw [h1, h2]
    exact ⟨by simp, _, rfl⟩

/-- In terms of positions of the document. -/
theorem slidingWindows_keeps {k : Nat} (hk : 0 < k) (d : List Nat) (t : Nat) :
    List.IsChain (Keeps t) (slidingWindows k d) ↔
      ∀ i, i + k < d.length → d[i]? = some t → t ∈ (d.drop (i + 1)).take (k - 1) →
        d[i + k]? = some t := by
  unfold slidingWindows
  split
  · rename_i h
    constructor
    · intro _ i hi
      omega
    · intro _
      simp
  · rename_i h
    rw [isChain_map_range]
    constructor
    · intro hc i hi h1 h2
      have := hc i (by omega)
      obtain ⟨e1, e2⟩ := window_slid hk d i hi
      rw [e1, e2] at this
      rw [List.getElem?_eq_getElem (by omega)] at h1
      have h3 := this (by simpa using h1) (by simpa using h2)
      rw [List.getElem?_eq_getElem (by omega)]
      simpa using h3
    · intro hc i hi
      have hi' : i + k < d.length := by omega
      obtain ⟨e1, e2⟩ := window_slid hk d i hi'
      rw [e1, e2]
      intro h1 h2
      have := hc i hi' (by rw [List.getElem?_eq_getElem (by omega)]; simpa using h1)
        (by simpa using h2)
      rw [List.getElem?_eq_getElem hi'] at this
      simpa using this

/-! ## Counting -/

theorem countP_le_of_forall₂ {A B : Type} {p : A → Bool} {q : B → Bool} {l : List A} {m : List B}
    (h : List.Forall₂ (fun a b => p a = true → q b = true) l m) : l.countP p ≤ m.countP q := by
  induction h with
  | nil => simp
  | cons h1 _ ih =>
    rename_i a b l m _
    rw [List.countP_cons, List.countP_cons]
    by_cases ha : p a = true
    · simp [ha, h1 ha, ih]
    · simp [ha]
      split <;> omega

theorem countP_eq_iff_forall₂ {A B : Type} {p : A → Bool} {q : B → Bool} {l : List A} {m : List B}
    (h : List.Forall₂ (fun a b => p a = true → q b = true) l m) :
    l.countP p = m.countP q ↔ List.Forall₂ (fun a b => p a = q b) l m := by
  induction h with
  | nil => simp
  | cons h1 hrest ih =>
    rename_i a b l m
    have hle := countP_le_of_forall₂ hrest
    rw [List.countP_cons, List.countP_cons, List.forall₂_cons, ← ih]
    cases ha : p a <;> cases hb : q b
    · simp
    · simp
      omega
    · exact absurd (h1 ha) (by simp [hb])
    · simp

end Verif.Coherence
