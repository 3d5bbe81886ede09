import Verif.Formats.CrashProps
import Verif.Dictionary.TextProps

/-!
# C151: the beginning of a dictionary's text file
-/

namespace Verif.Dictionary
open Verif PyDict Text

variable {τ : Type} [LinearOrder τ]

theorem loadLine_appends (T : Tok τ) (d d' : Dct τ) (line : Str) (h : loadLine T d line = some d') :
    ∃ e, d'.token2id = d.token2id ++ [e] ∧ d'.numDocs = d.numDocs := by
  unfold loadLine at h
  split at h
  · split at h
    · cases h
    · split at h
      · cases h
      · rename_i hc
        split at h
        · cases h
        · cases h
          refine ⟨_, set_of_not_mem ?_ _, rfl⟩
          intro hk
          exact hc ((contains_iff _ _).2 hk)
  · cases h

theorem loadLines_appends (T : Tok τ) : ∀ (lines : List Str) (d d' : Dct τ), loadLines T lines d = some d' →
    d.token2id <+: d'.token2id ∧ d'.numDocs = d.numDocs ∧ d'.token2id.length = d.token2id.length + lines.length := by
  intro lines
  induction lines with
  | nil => intro d d' h; simp only [loadLines, Option.some.injEq] at h; subst h; exact ⟨List.prefix_refl _, rfl, rfl⟩
  | cons l lines ih =>
    intro d d' h
    simp only [loadLines] at h
    cases hl : loadLine T d l with
    | none => rw [hl] at h; cases h
    | some d1 =>
      rw [hl] at h
      obtain ⟨e, e1, e2⟩ := loadLine_appends T d d1 l hl
      obtain ⟨h1, h2, h3⟩ := ih d1 d' h
      rw [e1] at h1 h3
      refine ⟨List.IsPrefix.trans (List.prefix_append _ _) h1, h2.trans e2, ?_⟩
      rw [h3]; simp; omega

theorem loadLines_append (T : Tok τ) : ∀ (l m : List Str) (d d' : Dct τ), loadLines T (l ++ m) d = some d' →
    ∃ d1, loadLines T l d = some d1 ∧ loadLines T m d1 = some d' := by
  intro l
  induction l with
  | nil => intro m d d' h; exact ⟨d, rfl, h⟩
  | cons x l ih =>
    intro m d d' h
    simp only [List.cons_append, loadLines] at h ⊢
    cases hl : loadLine T d x with
    | none => rw [hl] at h; cases h
    | some d1 => rw [hl] at h; exact ih m d1 d' h

/-- loading the first lines, and possibly a piece of the next, compared with loading all of them -/
theorem loadLines_cut (T : Tok τ) (lines got : List Str) (d d' d'' : Dct τ)
    (hcut : Formats.Cut lines got) (h : loadLines T lines d = some d') (h2 : loadLines T got d = some d'') :
    Formats.UpToLast d'.token2id d''.token2id := by
  have hlen : d''.token2id.length ≤ d'.token2id.length := by
    rw [(loadLines_appends T _ _ _ h).2.2, (loadLines_appends T _ _ _ h2).2.2]
    have := hcut.length_le
    omega
  obtain ⟨k, hk⟩ := hcut
  rw [← List.take_append_drop k lines] at h
  obtain ⟨d1, h3, h4⟩ := loadLines_append T _ _ _ _ h
  have hp := (loadLines_appends T _ _ _ h4).1
  rcases hk with rfl | ⟨p, q, _, _, _, rfl⟩
  · rw [h2] at h3
    cases h3
    exact ⟨d''.token2id, [], by simp, hp, by simp, hlen⟩
  · obtain ⟨d2, h5, h6⟩ := loadLines_append T _ _ _ _ h2
    rw [h3] at h5
    cases h5
    obtain ⟨⟨s, hs⟩, _, h8⟩ := loadLines_appends T _ _ _ h6
    refine ⟨d1.token2id, s, hs.symm, hp, ?_, hlen⟩
    rw [← hs] at h8
    simp at h8
    omega

/-- **C151** The beginning of a dictionary saved as text: loading raises, or gives the first tokens with their ids and at
most one more, cut; once the first line is written the number of documents is the full one. -/
theorem C151_dictionary (T : Tok τ) {d : Dct τ} (h : Reachable d) (sortByWord : Bool)
    (hc : ∀ w, known d w → '\t' ∉ T.chars w ∧ '\n' ∉ T.chars w) (s : Str) (hs : saveText T d sortByWord = some s)
    (t : Nat) (d'' : Dct τ) (hl : loadText T (s.take t) = some d'') :
    ∃ d', loadText T s = some d' ∧ (∀ w, idOf d' w = idOf d w) ∧ Formats.UpToLast d'.token2id d''.token2id ∧
      ((showNat d.numDocs).length < t → d''.numDocs = d.numDocs) := by
  obtain ⟨s', d', h1, h2, _, _, h5, _, _⟩ := C07_text_roundtrip T h sortByWord hc
  rw [hs] at h1
  cases h1
  have hfile : ∃ rest, s = showNat d.numDocs ++ '\n' :: rest := by
    unfold saveText at hs
    rw [Option.map_eq_some_iff] at hs
    obtain ⟨es, _, h6⟩ := hs
    rw [← h6]
    simp only [List.map_cons, List.flatten_cons]
    refine ⟨((es.map (entryLine T)).map (fun l => l ++ ['\n'])).flatten, ?_⟩
    rw [List.append_assoc]
    rfl
  obtain ⟨rest, rfl⟩ := hfile
  refine ⟨d', h2, h5, ?_⟩
  have hnl := newline_not_showNat d.numDocs
  have hstrip : strip uws (showNat d.numDocs ++ ['\n']) = showNat d.numDocs :=
    strip_append_ws (fun c hc => not_ws_of_digit (showNat_digit _ c hc)) (by decide)
  have hfull : loadLines T (pyLines rest) { (empty : Dct τ) with numDocs := d.numDocs } = some d' := by
    unfold loadText at h2
    rw [pyLines_cons_line hnl] at h2
    simpa only [hstrip, isDigits_showNat, if_true, readNat_showNat] using h2
  by_cases ht : (showNat d.numDocs).length < t
  · obtain ⟨m, hm⟩ : ∃ m, t = (showNat d.numDocs).length + (m + 1) := ⟨t - (showNat d.numDocs).length - 1, by omega⟩
    rw [hm, List.take_length_add_append, List.take_succ_cons] at hl
    have hl' : loadLines T (pyLines (rest.take m)) { (empty : Dct τ) with numDocs := d.numDocs } = some d'' := by
      unfold loadText at hl
      rw [pyLines_cons_line hnl] at hl
      simpa only [hstrip, isDigits_showNat, if_true, readNat_showNat] using hl
    refine ⟨loadLines_cut T _ _ _ _ _ (Formats.pyLines_take rest m) hfull hl', fun _ => ?_⟩
    exact (loadLines_appends T _ _ _ hl').2.1
  · refine ⟨?_, fun h => absurd h ht⟩
    have hpre : d''.token2id = [] := by
      rw [List.take_append_of_le_length (by omega)] at hl
      by_cases h0 : (showNat d.numDocs).take t = []
      · rw [h0] at hl
        simp only [loadText, pyLines, Option.some.injEq] at hl
        subst hl; rfl
      · have hdig : ∀ c ∈ (showNat d.numDocs).take t, 48 ≤ c.toNat ∧ c.toNat ≤ 57 :=
          fun c hc => showNat_digit _ c (List.mem_of_mem_take hc)
        unfold loadText at hl
        rw [Formats.pyLines_single (fun hc => hnl (List.mem_of_mem_take hc)) h0] at hl
        simp only [strip_of_not_ws (fun c hc => not_ws_of_digit (hdig c hc))] at hl
        split at hl
        · split at hl
          · cases hl
          · simp only [loadLines, Option.some.injEq] at hl
            subst hl; rfl
        · rename_i hnd
          exfalso
          apply hnd
          have hall := isDigits_showNat d.numDocs
          unfold isDigits at hall ⊢
          simp only [Bool.and_eq_true, decide_eq_true_eq, List.all_eq_true] at hall ⊢
          exact ⟨h0, fun c hc => hall.2 c (List.mem_of_mem_take hc)⟩
    rw [hpre]
    exact ⟨[], [], rfl, List.nil_prefix, by simp, by simp⟩

/-- **C151** A dictionary of which only the last newline is missing loads with a wrong document frequency: 12 becomes 1. -/
theorem C151_dictionary_cut :
    ∃ d : Dct Str, Reachable d ∧ saveText strTok d true = some "12\n0\ta\t12\n".toList ∧
      (loadText strTok ("12\n0\ta\t12\n".toList.take 9)).map (fun d => (d.numDocs, d.token2id, d.dfs)) =
        some (12, [(['a'], 0)], [(0, 1)]) :=
  ⟨(List.replicate 12 [['a']]).foldl update empty, reachable_foldl .empty _, by decide +kernel, by decide +kernel⟩

end Verif.Dictionary
