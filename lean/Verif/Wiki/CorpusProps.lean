import Verif.Wiki.CorpusModel
import Verif.Utils.ChunkProps
import Mathlib.Data.List.Basic

/-!
# C70: which articles of a dump are yielded, and in which order
-/

namespace Verif.Wiki
open Verif Text

/-! ## Specification -/

/-- The page passes the filters given by the user. -/
def Accepted (namespaces : List Str) (accept : Option (Page → Option Str → Bool)) (p : Page) : Prop :=
  (namespaces = [] ∨ p.ns ∈ namespaces) ∧ ∀ f, accept = some f → f p p.text = true

/-- The title does not begin with the name of an ignored namespace and a colon. -/
def TitleOk (p : Page) : Prop := ∀ ns ∈ ignoredNamespaces, ¬ (ns ++ [':']) <+: p.title

instance (namespaces : List Str) (accept : Option (Page → Option Str → Bool)) (p : Page) :
    Decidable (Accepted namespaces accept p) :=
  match accept with
  | none => decidable_of_iff (namespaces = [] ∨ p.ns ∈ namespaces) (by simp [Accepted])
  | some f => decidable_of_iff ((namespaces = [] ∨ p.ns ∈ namespaces) ∧ f p p.text = true)
      (by simp [Accepted])

instance (p : Page) : Decidable (TitleOk p) := by
  unfold TitleOk
  infer_instance

/-- The tokens of a page. -/
def pageTokens (process : Str → List Str) (p : Page) : List Str := process (p.text.getD [])

/-! ## Proofs -/

theorem lookup_store {A B : Type} (f : A → B) (tasks : List A) (done : List Nat) (i : Nat)
    (hi : i < tasks.length) (hd : i ∈ done) :
    (done.filterMap fun i => tasks[i]?.map fun a => (i, f a)).lookup i = some (f tasks[i]) := by
  induction done with
  | nil => simp at hd
  | cons j done ih =>
    rw [List.filterMap_cons]
    by_cases hj : j = i
    · subst hj
      rw [List.getElem?_eq_getElem hi]
      simp
    · have hm : i ∈ done := by
        rcases List.mem_cons.1 hd with h | h
        · exact absurd h.symm hj
        · exact h
      cases hg : tasks[j]? with
      | none =>
        dsimp only [Option.map]
        exact ih hm
      | some a =>
        dsimp only [Option.map]
        rw [List.lookup_cons]
        have : (i == j) = false := by
          rw [beq_eq_false_iff_ne]
          exact fun h => hj h.symm
        rw [this]
        exact ih hm

/-- However the workers finish, the results come in the order of the tasks. -/
theorem imap_eq {A B : Type} (f : A → B) (tasks : List A) (done : List Nat)
    (hd : ∀ i < tasks.length, i ∈ done) : imap f tasks done = tasks.map f := by
  unfold imap
  dsimp only
  have : (List.range tasks.length).filterMap
      (fun i => (done.filterMap fun i => tasks[i]?.map fun a => (i, f a)).lookup i)
      = (List.range tasks.length).filterMap fun i => (tasks.map f)[i]? := by
    apply List.filterMap_congr
    intro i hi
    have hi' := List.mem_range.1 hi
    rw [lookup_store f tasks done i hi' (hd i hi'), List.getElem?_map,
      List.getElem?_eq_getElem hi']
    rfl
  rw [this]
  have key : ∀ (l : List B), (List.range l.length).filterMap (fun i => l[i]?) = l := by
    intro l
    induction l with
    | nil => rfl
    | cons b l ih =>
      rw [List.length_cons, List.range_succ_eq_map, List.filterMap_cons]
      simp only [List.getElem?_cons_zero, List.filterMap_map]
      congr 1
  have h := key (tasks.map f)
  rw [List.length_map] at h
  exact h

theorem pruned_iff (minTokens : Int) (tokens : List Str) (p : Page) :
    pruned minTokens tokens p.title = false ↔ minTokens ≤ tokens.length ∧ TitleOk p := by
  unfold pruned TitleOk
  rw [Bool.or_eq_false_iff, decide_eq_false_iff_not, List.any_eq_false]
  simp [List.isPrefixOf_iff_prefix]

theorem getTexts_eq (process : Str → List Str) (processes : Nat) (hp : 0 < processes) (minTokens : Int)
    (namespaces : List Str) (accept : Option (Page → Option Str → Bool)) (pages : List Page)
    (dones : Nat → List Nat) (hd : ∀ g i, i < 10 * processes → i ∈ dones g) :
    getTexts process processes minTokens namespaces accept pages dones
      = pages.filterMap fun p =>
          if pruned minTokens (process ((filterPage namespaces accept p).getD [])) p.title then none
          else some (process ((filterPage namespaces accept p).getD []), p.pageid, p.title) := by
  unfold getTexts
  have hmap : ((Chunk.chunks (10 * processes) (extractPages namespaces accept pages)).zipIdx.map
      fun g => groupTexts process minTokens g.1 (dones g.2))
      = (Chunk.chunks (10 * processes) (extractPages namespaces accept pages)).map fun g =>
          g.filterMap fun p => if pruned minTokens (process p.2.1) p.1 then none
            else some (process p.2.1, p.2.2, p.1) := by
    rw [← List.zipIdx_map_fst 0 (Chunk.chunks (10 * processes)
      (extractPages namespaces accept pages)), List.map_map, List.zipIdx_map_fst]
    apply List.map_congr_left
    intro g hg
    have hlen : g.1.length ≤ 10 * processes := by
      exact ((Chunk.C15_sizes (by omega) (extractPages namespaces accept pages)).1 g.1
        (List.fst_mem_of_mem_zipIdx hg)).2
    unfold groupTexts
    rw [imap_eq _ _ _ fun i hi => hd g.2 i (by omega), List.filterMap_map]
    rfl
  rw [hmap]
  have hflat : ∀ (L : List (List (Str × Str × Str))) (f : Str × Str × Str → Option Article),
      (L.map fun g => g.filterMap f).flatten = L.flatten.filterMap f := by
    intro L f
    rw [List.filterMap_flatten]
  rw [hflat, Chunk.C15_concat (by omega)]
  unfold extractPages
  rw [List.filterMap_map]
  rfl

theorem filterPage_rejected (namespaces : List Str) (accept : Option (Page → Option Str → Bool))
    (p : Page) (ha : ¬ Accepted namespaces accept p) : filterPage namespaces accept p = none := by
  unfold filterPage
  dsimp only
  by_cases h1 : namespaces ≠ [] ∧ p.ns ∉ namespaces
  · rw [if_pos h1]
    cases accept with
    | none => rfl
    | some f =>
      dsimp only
      split <;> rfl
  · rw [if_neg h1]
    have hns : namespaces = [] ∨ p.ns ∈ namespaces := by
      by_cases hn : namespaces = []
      · exact Or.inl hn
      · exact Or.inr (by_contra fun h => h1 ⟨hn, h⟩)
    cases accept with
    | none => exact absurd ⟨hns, by simp⟩ ha
    | some f =>
      dsimp only
      rw [if_neg]
      intro hf
      exact ha ⟨hns, fun g hg => by cases hg; exact hf⟩

/-- **C70.** For every number of worker processes and every order in which they finish, the texts are
those of the accepted pages with at least `article_min_tokens` tokens and an ordinary title, in the
order of the dump, if at least one token is required and the empty text has none. -/
theorem C70_texts (process : Str → List Str) (hproc : process [] = []) (processes : Nat)
    (hp : 0 < processes) (minTokens : Int) (hmin : 1 ≤ minTokens)
    (namespaces : List Str) (accept : Option (Page → Option Str → Bool)) (pages : List Page)
    (dones : Nat → List Nat) (hd : ∀ g i, i < 10 * processes → i ∈ dones g) :
    getTexts process processes minTokens namespaces accept pages dones
      = (pages.filter fun p => decide (Accepted namespaces accept p ∧ TitleOk p ∧
          minTokens ≤ (pageTokens process p).length)).map
          fun p => (pageTokens process p, p.pageid, p.title) := by
  rw [getTexts_eq process processes hp minTokens namespaces accept pages dones hd]
  induction pages with
  | nil => rfl
  | cons p pages ih =>
    rw [List.filterMap_cons, ih, List.filter_cons]
    by_cases ha : Accepted namespaces accept p
    · have hfp : filterPage namespaces accept p = p.text := by
        unfold filterPage
        have h1 : ¬ (namespaces ≠ [] ∧ p.ns ∉ namespaces) := by
          rintro ⟨h1, h2⟩
          rcases ha.1 with h | h
          · exact h1 h
          · exact h2 h
        dsimp only
        rw [if_neg h1]
        cases accept with
        | none => rfl
        | some f =>
          dsimp only
          rw [ha.2 f rfl]
          rfl
      rw [hfp]
      cases hpr : pruned minTokens (process (p.text.getD [])) p.title with
      | false =>
        have := (pruned_iff _ _ p).1 hpr
        simp only [Bool.false_eq_true, if_false]
        rw [if_pos (decide_eq_true ⟨ha, this.2, this.1⟩)]
        rfl
      | true =>
        have : ¬ (Accepted namespaces accept p ∧ TitleOk p ∧
            minTokens ≤ (pageTokens process p).length) := by
          rintro ⟨_, h2, h3⟩
          have := (pruned_iff _ _ p).2 ⟨h3, h2⟩
          unfold pageTokens at this
          rw [hpr] at this
          simp at this
        simp only [if_true]
        rw [if_neg (by simpa using this)]
    · have hfp : process ((filterPage namespaces accept p).getD []) = [] := by
        rw [filterPage_rejected _ _ _ ha]
        exact hproc
      have hpr : pruned minTokens (process ((filterPage namespaces accept p).getD [])) p.title
          = true := by
        rw [hfp]
        unfold pruned
        simp
        omega
      rw [hpr, if_pos rfl, if_neg (by simp [ha])]

/-- **C70.** With `article_min_tokens = 0` the filters do not work: a page of another namespace, or one
the user's filter rejects, is yielded as an article without tokens. -/
theorem C70_no_minimum (process : Str → List Str) (hproc : process [] = []) (processes : Nat)
    (hp : 0 < processes) (minTokens : Int) (hmin : minTokens ≤ 0)
    (namespaces : List Str) (accept : Option (Page → Option Str → Bool)) (pages : List Page)
    (dones : Nat → List Nat) (hd : ∀ g i, i < 10 * processes → i ∈ dones g) (p : Page)
    (hmem : p ∈ pages) (ht : TitleOk p) (hrej : ¬ Accepted namespaces accept p) :
    ([], p.pageid, p.title)
      ∈ getTexts process processes minTokens namespaces accept pages dones := by
  rw [getTexts_eq process processes hp minTokens namespaces accept pages dones hd]
  rw [List.mem_filterMap]
  have hfp := filterPage_rejected _ _ _ hrej
  refine ⟨p, hmem, ?_⟩
  have : pruned minTokens ([] : List Str) p.title = false :=
    (pruned_iff _ _ p).2 ⟨by simpa using hmin, ht⟩
  rw [hfp]
  simp only [Option.getD_none]
  rw [hproc, this]
  rfl

/-- Two pages, the second of another namespace, two processes finishing in reverse order. -/
example : getTexts (fun s => [s]) 1 1 ["0".toList] none
    [⟨"A".toList, some "x".toList, "0".toList, "1".toList⟩,
     ⟨"B".toList, some "y".toList, "0".toList, "2".toList⟩] (fun _ => [1, 0])
    = [(["x".toList], "1".toList, "A".toList), (["y".toList], "2".toList, "B".toList)] := by
  decide +kernel

example : getTexts (fun s => if s = [] then [] else [s]) 1 0 ["0".toList] none
    [⟨"A".toList, some "x".toList, "4".toList, "1".toList⟩] (fun _ => [0])
    = [([], "1".toList, "A".toList)] := by decide +kernel

end Verif.Wiki
