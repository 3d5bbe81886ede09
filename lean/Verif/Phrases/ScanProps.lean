import Mathlib.Tactic.Common
import Mathlib.Data.Nat.Basic
import Verif.Phrases.Model

/-! Property C11: phrase detection only joins tokens. -/

namespace Verif.Phrases
open Verif PyDict Vocab Text

variable {S : Type} [LinearOrder S] {σ : Type}

/-! ### specification -/

/-- Spec of C11: the words a segment of the sentence is allowed to be: one word, or
`a (connectors) b` with `a`, `b` not connectors. -/
def SegOk (connectors : List Str) (seg : List Str) : Prop :=
  (∃ w, seg = [w]) ∨
  ∃ a mid b, seg = [a] ++ mid ++ [b] ∧ a ∉ connectors ∧ b ∉ connectors ∧ ∀ m ∈ mid, m ∈ connectors

/-- Spec of C11: the left-to-right scan, as a recursive function on what is left of the sentence.
`f a b mid` is the score if `a mid b` is a phrase. -/
def greedy (connectors : List Str) (f : Str → Str → List Str → Option S) (l : List Str) :
    List (List Str × Option S) :=
  match l with
  | [] => []
  | a :: rest =>
    if a ∈ connectors then ([a], none) :: greedy connectors f rest
    else
      let mid := rest.takeWhile (fun w => decide (w ∈ connectors))
      match h : rest.dropWhile (fun w => decide (w ∈ connectors)) with
      | [] => (a :: rest).map (fun w => ([w], none))
      | b :: post =>
        match f a b mid with
        | some s => ([a] ++ mid ++ [b], some s) :: greedy connectors f post
        | none => (a :: mid).map (fun w => ([w], none)) ++ greedy connectors f (b :: post)
termination_by l.length
decreasing_by
  · simp
  · have h2 := (List.dropWhile_sublist (l := rest) (fun w => decide (w ∈ connectors))).length_le
    rw [h] at h2
    simp at h2 ⊢; omega
  · have h2 := (List.dropWhile_sublist (l := rest) (fun w => decide (w ∈ connectors))).length_le
    rw [h] at h2
    simp at h2 ⊢; omega

theorem greedy_nil (connectors : List Str) (f : Str → Str → List Str → Option S) :
    greedy connectors f [] = [] := by rw [greedy]

theorem greedy_conn {connectors : List Str} (f : Str → Str → List Str → Option S) {a : Str}
    (h : a ∈ connectors) (rest : List Str) :
    greedy connectors f (a :: rest) = ([a], none) :: greedy connectors f rest := by
  rw [greedy, if_pos h]

theorem greedy_end {connectors : List Str} (f : Str → Str → List Str → Option S) {a : Str}
    (h : a ∉ connectors) {mid : List Str} (hm : ∀ m ∈ mid, m ∈ connectors) :
    greedy connectors f (a :: mid) = (a :: mid).map (fun w => ([w], none)) := by
  have hd : mid.dropWhile (fun w => decide (w ∈ connectors)) = [] := by
    have := List.dropWhile_append_of_pos (l₂ := []) (p := fun w => decide (w ∈ connectors))
      (show ∀ a ∈ mid, _ by simpa using hm)
    simpa using this
  rw [greedy, if_neg h]
  simp only
  split
  · rfl
  · next h2 => rw [hd] at h2; cases h2

theorem greedy_word {connectors : List Str} (f : Str → Str → List Str → Option S) {a : Str}
    (h : a ∉ connectors) {mid : List Str} (hm : ∀ m ∈ mid, m ∈ connectors) {b : Str}
    (hb : b ∉ connectors) (post : List Str) :
    greedy connectors f (a :: mid ++ b :: post) =
      match f a b mid with
      | some s => ([a] ++ mid ++ [b], some s) :: greedy connectors f post
      | none => (a :: mid).map (fun w => ([w], none)) ++ greedy connectors f (b :: post) := by
  have hd : (mid ++ b :: post).dropWhile (fun w => decide (w ∈ connectors)) = b :: post := by
    rw [List.dropWhile_append_of_pos (by simpa using hm), List.dropWhile_cons]
    simp [hb]
  have ht : (mid ++ b :: post).takeWhile (fun w => decide (w ∈ connectors)) = mid := by
    rw [List.takeWhile_append_of_pos (by simpa using hm), List.takeWhile_cons]
    simp [hb]
  rw [List.cons_append, greedy, if_neg h]
  simp only [ht]
  split
  · next h2 => rw [hd] at h2; cases h2
  · next h2 =>
    rw [hd] at h2
    obtain ⟨rfl, rfl⟩ := List.cons.inj h2
    rfl

/-! ### the scan equals the specification -/

theorem truthy_some {a : Str} (h : a ≠ []) : truthy (some a) = some a := by
  cases a with
  | nil => exact absurd rfl h
  | cons x xs => rfl

theorem analyze_greedy (connectors : List Str) (delim : Str) (st : σ)
    (f : Str → Str → List Str → Option S)
    (sc : σ → Str → Str → List Str → σ × Option (Str × S))
    (hsc : ∀ a b mid, sc st a b mid = (st, (f a b mid).map (fun s => (joinWith delim ([a] ++ mid ++ [b]), s))))
    (sent : List Str) (hne : ∀ w ∈ sent, w ≠ []) :
    (∀ out, (analyzeEnd (sent.foldl (analyzeWord connectors sc) ⟨st, none, [], out⟩)) =
      (st, out ++ (greedy connectors f sent).map (fun p => (joinWith delim p.1, p.2)))) ∧
    (∀ out a mid, a ≠ [] → a ∉ connectors → (∀ m ∈ mid, m ∈ connectors) →
      (analyzeEnd (sent.foldl (analyzeWord connectors sc) ⟨st, some a, mid, out⟩)) =
      (st, out ++ (greedy connectors f (a :: mid ++ sent)).map (fun p => (joinWith delim p.1, p.2)))) := by
  induction sent with
  | nil =>
    refine ⟨fun out => ?_, fun out a mid ha hc hm => ?_⟩
    · simp [analyzeEnd, truthy, greedy_nil]
    · rw [List.append_nil, greedy_end f hc hm]
      simp [analyzeEnd, truthy_some ha, joinWith, Function.comp_def]
  | cons w sent ih =>
    obtain ⟨ihA, ihB⟩ := ih (fun v hv => hne v (List.mem_cons_of_mem _ hv))
    have hw := hne w (List.mem_cons_self)
    refine ⟨fun out => ?_, fun out a mid ha hc hm => ?_⟩
    · by_cases hwc : w ∈ connectors
      · rw [List.foldl_cons, greedy_conn f hwc]
        have : analyzeWord connectors sc ⟨st, none, [], out⟩ w = ⟨st, none, [], out ++ [(w, none)]⟩ := by
          simp [analyzeWord, hwc, truthy]
        rw [this, ihA]
        simp [joinWith]
      · rw [List.foldl_cons]
        have : analyzeWord connectors sc ⟨st, none, [], out⟩ w = ⟨st, some w, [], out⟩ := by
          simp [analyzeWord, hwc, truthy]
        rw [this, ihB out w [] hw hwc (by simp)]
        simp
    · by_cases hwc : w ∈ connectors
      · rw [List.foldl_cons]
        have : analyzeWord connectors sc ⟨st, some a, mid, out⟩ w = ⟨st, some a, mid ++ [w], out⟩ := by
          simp [analyzeWord, hwc, truthy_some ha]
        rw [this, ihB out a (mid ++ [w]) ha hc (by
          intro m hm'
          rcases List.mem_append.mp hm' with h | h
          · exact hm m h
          · simp at h; exact h ▸ hwc)]
        simp
      · rw [List.foldl_cons, greedy_word f hc hm hwc]
        cases hf : f a w mid with
        | some s =>
          have : analyzeWord connectors sc ⟨st, some a, mid, out⟩ w =
              ⟨st, none, [], out ++ [(joinWith delim ([a] ++ mid ++ [w]), some s)]⟩ := by
            simp [analyzeWord, hwc, truthy_some ha, hsc, hf]
          rw [this, ihA]
          simp
        | none =>
          have : analyzeWord connectors sc ⟨st, some a, mid, out⟩ w =
              ⟨st, some w, [], out ++ [(a, none)] ++ mid.map (fun v => (v, none))⟩ := by
            simp [analyzeWord, hwc, truthy_some ha, hsc, hf]
          rw [this, ihB _ w [] hw hwc (by simp)]
          simp [joinWith, Function.comp_def]

/-- **C11.** For a scoring that does not change any state, the emitted tokens are exactly those of
the left-to-right scan `greedy`: at a non-connector `a`, with the run of connectors that follows and
the next non-connector `b`, the candidate `a … b` is joined if it scores above the threshold, and the
scan goes on behind it; otherwise `a` and the connectors are emitted one by one and the scan goes on
at `b`. -/
theorem C11_greedy_scan (connectors : List Str) (delim : Str) (f : Str → Str → List Str → Option S)
    (sent : List Str) (hne : ∀ w ∈ sent, w ≠ []) :
    (analyzeSentence connectors
      (fun (u : Unit) a b mid => (u, (f a b mid).map (fun s => (joinWith delim ([a] ++ mid ++ [b]), s))))
      () sent).2 =
    (greedy connectors f sent).map (fun p => (joinWith delim p.1, p.2)) := by
  unfold analyzeSentence
  rw [(analyze_greedy connectors delim () f _ (fun _ _ _ => rfl) sent hne).1]
  simp

/-- invariant of the scan for a scoring with state -/
theorem analyze_segments (connectors : List Str) (delim : Str)
    (sc : σ → Str → Str → List Str → σ × Option (Str × S))
    (hsc : ∀ st a b mid p s, (sc st a b mid).2 = some (p, s) → p = joinWith delim ([a] ++ mid ++ [b]))
    (sent : List Str) (hne : ∀ w ∈ sent, w ≠ []) :
    (∀ st out, ∃ segs : List (List Str × Option S),
      (analyzeEnd (sent.foldl (analyzeWord connectors sc) ⟨st, none, [], out⟩)).2 =
        out ++ segs.map (fun p => (joinWith delim p.1, p.2)) ∧
      (segs.map Prod.fst).flatten = sent ∧ ∀ p ∈ segs, SegOk connectors p.1 ∧ (p.2 = none → ∃ w, p.1 = [w])) ∧
    (∀ st out a mid, a ≠ [] → a ∉ connectors → (∀ m ∈ mid, m ∈ connectors) →
      ∃ segs : List (List Str × Option S),
      (analyzeEnd (sent.foldl (analyzeWord connectors sc) ⟨st, some a, mid, out⟩)).2 =
        out ++ segs.map (fun p => (joinWith delim p.1, p.2)) ∧
      (segs.map Prod.fst).flatten = a :: mid ++ sent ∧
        ∀ p ∈ segs, SegOk connectors p.1 ∧ (p.2 = none → ∃ w, p.1 = [w])) := by
  have singles : ∀ l : List Str, (l.map (fun w => ([w], (none : Option S)))).map
      (fun p => (joinWith delim p.1, p.2)) = l.map (fun w => (w, none)) := by
    intro l; simp [joinWith, Function.comp_def]
  have flat : ∀ l : List Str, ((l.map (fun w => ([w], (none : Option S)))).map Prod.fst).flatten = l := by
    intro l; induction l with
    | nil => rfl
    | cons x xs ih => simp only [List.map_cons, List.flatten_cons, ih]; rfl
  have ok1 : ∀ (l : List Str) (p : List Str × Option S), p ∈ l.map (fun w => ([w], (none : Option S))) →
      SegOk connectors p.1 ∧ (p.2 = none → ∃ w, p.1 = [w]) := by
    intro l p hp
    obtain ⟨w, _, rfl⟩ := List.mem_map.mp hp
    exact ⟨Or.inl ⟨w, rfl⟩, fun _ => ⟨w, rfl⟩⟩
  induction sent with
  | nil =>
    refine ⟨fun st out => ⟨[], by simp [analyzeEnd, truthy]⟩, fun st out a mid ha hc hm => ?_⟩
    refine ⟨(a :: mid).map (fun w => ([w], none)), ?_, by rw [flat]; simp, ok1 _⟩
    rw [singles]
    simp [analyzeEnd, truthy_some ha]
  | cons w sent ih =>
    obtain ⟨ihA, ihB⟩ := ih (fun v hv => hne v (List.mem_cons_of_mem _ hv))
    have hw := hne w (List.mem_cons_self)
    refine ⟨fun st out => ?_, fun st out a mid ha hc hm => ?_⟩
    · by_cases hwc : w ∈ connectors
      · rw [List.foldl_cons]
        have : analyzeWord connectors sc ⟨st, none, [], out⟩ w = ⟨st, none, [], out ++ [(w, none)]⟩ := by
          simp [analyzeWord, hwc, truthy]
        rw [this]
        obtain ⟨segs, h1, h2, h3⟩ := ihA st (out ++ [(w, none)])
        refine ⟨([w], none) :: segs, by rw [h1]; simp [joinWith], by simp [h2], ?_⟩
        intro p hp
        rcases List.mem_cons.mp hp with rfl | hp
        · exact ⟨Or.inl ⟨w, rfl⟩, fun _ => ⟨w, rfl⟩⟩
        · exact h3 p hp
      · rw [List.foldl_cons]
        have : analyzeWord connectors sc ⟨st, none, [], out⟩ w = ⟨st, some w, [], out⟩ := by
          simp [analyzeWord, hwc, truthy]
        rw [this]
        exact ihB st out w [] hw hwc (by simp)
    · by_cases hwc : w ∈ connectors
      · rw [List.foldl_cons]
        have : analyzeWord connectors sc ⟨st, some a, mid, out⟩ w = ⟨st, some a, mid ++ [w], out⟩ := by
          simp [analyzeWord, hwc, truthy_some ha]
        rw [this]
        obtain ⟨segs, h1, h2, h3⟩ := ihB st out a (mid ++ [w]) ha hc (by
          intro m hm'
          rcases List.mem_append.mp hm' with h | h
          · exact hm m h
          · simp at h; exact h ▸ hwc)
        exact ⟨segs, h1, by rw [h2]; simp, h3⟩
      · rw [List.foldl_cons]
        rcases hr : sc st a w mid with ⟨st', r⟩
        cases r with
        | some ps =>
          obtain ⟨p, s⟩ := ps
          have hp := hsc st a w mid p s (by rw [hr])
          have : analyzeWord connectors sc ⟨st, some a, mid, out⟩ w =
              ⟨st', none, [], out ++ [(p, some s)]⟩ := by
            simp [analyzeWord, hwc, truthy_some ha, hr]
          rw [this]
          obtain ⟨segs, h1, h2, h3⟩ := ihA st' (out ++ [(p, some s)])
          refine ⟨([a] ++ mid ++ [w], some s) :: segs, by rw [h1, hp]; simp, by simp [h2], ?_⟩
          intro q hq
          rcases List.mem_cons.mp hq with rfl | hq
          · exact ⟨Or.inr ⟨a, mid, w, rfl, hc, hwc, hm⟩, fun h => by cases h⟩
          · exact h3 q hq
        | none =>
          have : analyzeWord connectors sc ⟨st, some a, mid, out⟩ w =
              ⟨st', some w, [], out ++ [(a, none)] ++ mid.map (fun v => (v, none))⟩ := by
            simp [analyzeWord, hwc, truthy_some ha, hr]
          rw [this]
          obtain ⟨segs, h1, h2, h3⟩ := ihB st' (out ++ [(a, none)] ++ mid.map (fun v => (v, none))) w [] hw hwc (by simp)
          refine ⟨(a :: mid).map (fun w => ([w], none)) ++ segs, ?_, ?_, ?_⟩
          · rw [h1, List.map_append, singles]; simp
          · rw [List.map_append, List.flatten_append, flat, h2]; simp
          · intro q hq
            rcases List.mem_append.mp hq with hq | hq
            · exact ok1 _ q hq
            · exact h3 q hq

theorem scoreCandidate_phrase (c : Cfg S) (words : Nat) (v : PyDict Str Nat) (a b : Str)
    (mid : List Str) (p : Str) (s : S) (h : (scoreCandidate c words v a b mid).2 = some (p, s)) :
    p = joinWith c.delim ([a] ++ mid ++ [b]) := by
  unfold scoreCandidate at h
  simp only at h
  repeat' split at h
  all_goals first
    | (simp at h; done)
    | (simp only [Option.some.injEq, Prod.mk.injEq] at h; exact h.1.symm)

theorem frozenCandidate_phrase (c : Cfg S) (g : PyDict Str S) (u : Unit) (a b : Str)
    (mid : List Str) (p : Str) (s : S) (h : (frozenCandidate c g u a b mid).2 = some (p, s)) :
    p = joinWith c.delim ([a] ++ mid ++ [b]) := by
  unfold frozenCandidate at h
  simp only at h
  repeat' split at h
  all_goals first
    | (simp at h; done)
    | (simp only [Option.some.injEq, Prod.mk.injEq] at h; exact h.1.symm)

/-- **C11.** Whatever the model has learned and whatever its scoring, `phrases[sentence]` for a
sentence of non-empty tokens is the sentence cut into consecutive segments, each emitted as its words
joined by the delimiter, where every segment is one word or `a (connectors) b` with `a` and `b` not
connectors.  So nothing is dropped, reordered or invented. -/
theorem C11_segments (c : Cfg S) (s : Ph) (sent : List Str) (hne : ∀ w ∈ sent, w ≠ []) :
    ∃ segs : List (List Str), (transform c s sent).2 = segs.map (joinWith c.delim) ∧
      segs.flatten = sent ∧ ∀ g ∈ segs, SegOk c.connectors g := by
  obtain ⟨segs, h1, h2, h3⟩ := (analyze_segments c.connectors c.delim (scoreCandidate c s.corpusWords)
    (fun v a b mid p x h => scoreCandidate_phrase c _ v a b mid p x h) sent hne).1 s.vocab []
  refine ⟨segs.map Prod.fst, ?_, h2, ?_⟩
  · show ((analyzeSentence _ _ _ _).2).map Prod.fst = _
    unfold analyzeSentence
    rw [h1]; simp [Function.comp_def]
  · intro g hg
    obtain ⟨p, hp, rfl⟩ := List.mem_map.mp hg
    exact (h3 p hp).1

/-- **C11.** The same for a frozen model. -/
theorem C11_segments_frozen (c : Cfg S) (g : PyDict Str S) (sent : List Str)
    (hne : ∀ w ∈ sent, w ≠ []) :
    ∃ segs : List (List Str), frozenTransform c g sent = segs.map (joinWith c.delim) ∧
      segs.flatten = sent ∧ ∀ g ∈ segs, SegOk c.connectors g := by
  obtain ⟨segs, h1, h2, h3⟩ := (analyze_segments c.connectors c.delim (frozenCandidate c g)
    (fun v a b mid p x h => frozenCandidate_phrase c g v a b mid p x h) sent hne).1 () []
  refine ⟨segs.map Prod.fst, ?_, h2, ?_⟩
  · unfold frozenTransform analyzeSentence
    rw [h1]; simp [Function.comp_def]
  · intro g hg
    obtain ⟨p, hp, rfl⟩ := List.mem_map.mp hg
    exact (h3 p hp).1

/-- a small model: connectors `of`, delimiter `_`, the score is the bigram count -/
def demoCfg : Cfg Nat := ⟨["of".toList], ['_'], fun _ _ n _ _ _ => n, 1, 1, 1000⟩

/-- trained on three sentences -/
def demoPh : Ph := addVocab demoCfg Ph.empty
  [["bank", "of", "town", "is"].map String.toList, ["bank", "of", "town"].map String.toList]

example : (transform demoCfg demoPh (["of", "bank", "of", "town", "is", "of"].map String.toList)).2 =
    ["of", "bank_of_town", "is", "of"].map String.toList := by decide

/-- **C11.** Empty tokens are dropped (`if start_token:` is false for `""`): the hypothesis of
`C11_segments` cannot be removed. -/
theorem C11_empty_token_dropped :
    (transform demoCfg demoPh (["", "town"].map String.toList)).2 = ["town"].map String.toList := by
  decide

end Verif.Phrases
