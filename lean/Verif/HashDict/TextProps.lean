import Mathlib.Data.List.Nodup
import Verif.HashDict.TextModel
import Verif.HashDict.Props

/-!
# C10: the text export of a `HashDictionary`
-/

namespace Verif.HashDict
open Verif PyDict

variable {τ : Type} [LinearOrder τ]

theorem nodup_getitem (c : Cfg τ) {s : St τ} (h : Reachable c s) (i : Nat) : (getitem s i).Nodup := by
  induction h generalizing i with
  | init => simp [getitem, init, getD]
  | @doc s doc _ ih =>
    cases hd : c.debug
    · rw [doc2bow_fst_nodebug c hd]; exact ih i
    · rw [doc2bow_fst_debug c hd]; exact nodup_noteSets c (fun i => ih i) _ i
  | @filter s nb na k _ ih =>
    show (getD (List.map _ _) i []).Nodup
    rw [getD_mapVal_filter]
    exact (ih i).filter _

theorem inv_of_reachable (c : Cfg τ) (hd : c.debug = true) {s : St τ} (h : Reachable c s) : Inv c s := by
  induction h with
  | init => exact Inv.init c
  | doc doc _ ih => exact ih.doc hd doc
  | filter nb na k _ ih => exact ih.filter nb na k

theorem id_lt (c : Cfg τ) (hr : 0 < c.range) (w : τ) : c.id w < c.range := by
  unfold Cfg.id
  have h1 := Int.emod_lt_of_pos (c.hash w) (b := (c.range : Int)) (by omega)
  have h2 := Int.emod_nonneg (c.hash w) (b := (c.range : Int)) (by omega)
  omega

theorem mem_lineWords (s : St τ) (i : Nat) (p : τ × Nat) :
    p ∈ lineWords s i ↔ p.1 ∈ getitem s i ∧ p.2 = getD s.dfsDebug p.1 0 := by
  unfold lineWords
  rw [mem_pySort, List.mem_map]
  constructor
  · rintro ⟨w, hw, rfl⟩
    exact ⟨mem_pySort.1 hw, rfl⟩
  · rintro ⟨h1, h2⟩
    exact ⟨p.1, mem_pySort.2 h1, by rw [← h2]⟩

/-- the order of the words of a line -/
def Before (a b : τ × Nat) : Prop := b.2 < a.2 ∨ (a.2 = b.2 ∧ a.1 < b.1)

theorem pairwise_lineWords (s : St τ) (i : Nat) (hn : (getitem s i).Nodup) : (lineWords s i).Pairwise Before := by
  set ws := (pySort (fun a b => decide (a ≤ b)) (getitem s i)).map fun w => (w, getD s.dfsDebug w 0) with hws
  have hlt : ws.Pairwise (fun a b => a.1 < b.1) := by
    rw [hws, List.pairwise_map]
    have hp : (sorted (getitem s i)).Nodup := (sorted_perm _).nodup_iff.2 hn
    have := (sorted_pairwise (getitem s i)).and hp
    refine this.imp ?_
    intro a b ⟨h1, h2⟩
    simp only [decide_eq_true_eq] at h1
    exact lt_of_le_of_ne h1 h2
  have hdf : (lineWords s i).Pairwise (fun a b => decide (b.2 ≤ a.2) = true) := by
    apply pySort_sorted
    · intro a b; simp only [decide_eq_true_eq]; omega
    · intro a b d; simp only [decide_eq_true_eq]; omega
  rw [List.pairwise_iff_forall_sublist] at hlt hdf ⊢
  intro a b hab
  have h1 := hdf hab
  simp only [decide_eq_true_eq] at h1
  rcases Nat.lt_or_eq_of_le h1 with h | h
  · exact .inl h
  · refine .inr ⟨h.symm, hlt ?_⟩
    have hs : (lineWords s i).filter (fun p => decide (p.2 = b.2)) = ws.filter (fun p => decide (p.2 = b.2)) := by
      apply pySort_stable
      intro x y hx hy
      simp only [decide_eq_true_eq] at hx hy ⊢
      omega
    have h2 := hab.filter (fun p => decide (p.2 = b.2))
    rw [hs] at h2
    have e : [a, b].filter (fun p => decide (p.2 = b.2)) = [a, b] := by simp [h]
    rw [e] at h2
    exact h2.trans List.filter_sublist

theorem mem_saveAsText (c : Cfg τ) (s : St τ) (l : Nat × Nat × List (τ × Nat)) :
    l ∈ saveAsText c s ↔ l.1 < c.range ∧ getitem s l.1 ≠ [] ∧ l.2 = (getD s.dfs l.1 0, lineWords s l.1) := by
  unfold saveAsText
  rw [List.mem_filterMap]
  constructor
  · rintro ⟨i, hi, h⟩
    split at h
    · cases h
    · next hne =>
      cases h
      exact ⟨List.mem_range.1 hi, hne, rfl⟩
  · rintro ⟨h1, h2, h3⟩
    refine ⟨l.1, List.mem_range.2 h1, ?_⟩
    rw [if_neg h2, ← h3]

/-- C10: after any documents and filtering (in debug mode) the text file lists the ids in increasing order, each
once, with its document frequency; every word with remembered statistics stands exactly once in the file, in the
line of its own id and with its own document frequency; the words of a line come from most to least frequent,
equally frequent ones in alphabetical order. -/
theorem C10_save_as_text (c : Cfg τ) (hd : c.debug = true) (hr : 0 < c.range) {s : St τ} (h : Reachable c s) :
    (saveAsText c s).Pairwise (fun a b => a.1 < b.1) ∧
    (∀ l ∈ saveAsText c s, get? s.dfs l.1 = some l.2.1 ∧ l.2.2 ≠ [] ∧ l.2.2.Pairwise Before) ∧
    (∀ w n, (∃ l ∈ saveAsText c s, (w, n) ∈ l.2.2) ↔ get? s.dfsDebug w = some n) ∧
    (∀ l ∈ saveAsText c s, ∀ p ∈ l.2.2, c.id p.1 = l.1) := by
  have hi := inv_of_reachable c hd h
  refine ⟨?_, fun l hl => ?_, fun w n => ⟨?_, fun hw => ?_⟩, fun l hl p hp => ?_⟩
  · unfold saveAsText
    rw [List.pairwise_filterMap]
    refine List.pairwise_lt_range.imp ?_
    intro a b hab x hx y hy
    split at hx
    · cases hx
    · split at hy
      · cases hy
      · cases hx; cases hy; exact hab
  · obtain ⟨h1, h2, h3⟩ := (mem_saveAsText c s l).1 hl
    obtain ⟨w, hw⟩ := List.exists_mem_of_ne_nil _ h2
    have hk : l.1 ∈ keys s.dfs := (hi.dfs l.1).2 ⟨w, (hi.sets _ _).1 hw⟩
    rw [h3]
    refine ⟨get?_eq_getD_of_mem hk 0, ?_, pairwise_lineWords s _ (nodup_getitem c h _)⟩
    exact List.ne_nil_of_mem ((mem_lineWords s l.1 (w, getD s.dfsDebug w 0)).2 ⟨hw, rfl⟩)
  · rintro ⟨l, hl, hp⟩
    obtain ⟨h1, h2, h3⟩ := (mem_saveAsText c s l).1 hl
    rw [h3] at hp
    obtain ⟨hw, hn⟩ := (mem_lineWords s l.1 (w, n)).1 hp
    simp only at hw hn
    rw [hn]
    exact get?_eq_getD_of_mem ((hi.same w).1 ((hi.sets _ _).1 hw).1) 0
  · have hk : w ∈ keys s.dfsDebug := (get?_isSome_iff _ _).1 (by simp [hw])
    have hw' : w ∈ getitem s (c.id w) := (hi.sets _ _).2 ⟨(hi.same w).2 hk, rfl⟩
    refine ⟨(c.id w, getD s.dfs (c.id w) 0, lineWords s (c.id w)),
      (mem_saveAsText c s _).2 ⟨id_lt c hr w, List.ne_nil_of_mem hw', rfl⟩, ?_⟩
    refine (mem_lineWords s _ (w, n)).2 ⟨hw', ?_⟩
    simp [getD, hw]
  · obtain ⟨h1, h2, h3⟩ := (mem_saveAsText c s l).1 hl
    rw [h3] at hp
    exact ((hi.sets _ _).1 ((mem_lineWords s l.1 p).1 hp).1).2

/-- C10: without `debug` the file is empty, whatever documents were seen. -/
theorem C10_save_as_text_nodebug (c : Cfg τ) (hd : c.debug = false) {s : St τ} (h : Reachable c s) :
    saveAsText c s = [] := by
  have key : s.id2token = [] := by
    induction h with
    | init => rfl
    | doc doc _ ih => rw [doc2bow_fst_nodebug c hd]; exact ih
    | filter nb na k _ ih => show List.map _ _ = []; rw [ih]; rfl
  unfold saveAsText
  rw [List.filterMap_eq_nil_iff]
  intro i _
  rw [if_pos]
  simp [getitem, key, getD]

/-- non-vacuity: hashing numbers modulo 3; the words 1 and 4 share a line, ordered by frequency -/
example : saveAsText (⟨fun n => (n : Int), 3, true⟩ : Cfg Nat)
    (addDocuments ⟨fun n => (n : Int), 3, true⟩ init [[1, 4, 4], [4, 2], [7, 2]]) =
    [(1, 3, [(4, 2), (1, 1), (7, 1)]), (2, 2, [(2, 2)])] := by decide +kernel

end Verif.HashDict
