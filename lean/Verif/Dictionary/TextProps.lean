import Verif.Dictionary.TextModel
import Verif.Dictionary.Props

/-! Property C07: the text format round-trips. -/

namespace Verif.Dictionary
open Verif PyDict Text

variable {τ : Type} [LinearOrder τ]

theorem readNat_showNat (n : Nat) : readNat (showNat n) = some n := by
  simp [readNat, readInt_showNat]

theorem tab_not_showNat (n : Nat) : '\t' ∉ showNat n := by
  intro h; exact absurd (showNat_digit n _ h) (by decide)

theorem newline_not_showNat (n : Nat) : '\n' ∉ showNat n := by
  intro h; exact absurd (showNat_digit n _ h) (by decide)

theorem loadLine_entry (T : Tok τ) (d : Dct τ) (e : Nat × τ × Nat) (ht : '\t' ∉ T.chars e.2.1)
    (hn : e.2.1 ∉ keys d.token2id) :
    loadLine T d (entryLine T e ++ ['\n']) =
      some { d with token2id := set d.token2id e.2.1 e.1, dfs := set d.dfs e.1 e.2.2 } := by
  have hc : contains d.token2id e.2.1 = false := by
    rw [← Bool.not_eq_true, contains_iff]; exact hn
  unfold loadLine entryLine
  rw [List.dropLast_concat, splitOn_append_sep (tab_not_showNat _), splitOn_append_sep ht,
    splitOn_no_sep (tab_not_showNat _)]
  simp [readNat_showNat, T.ofChars_chars, hc]

theorem loadLines_entries (T : Tok τ) (es : List (Nat × τ × Nat)) (d : Dct τ)
    (ht : ∀ e ∈ es, '\t' ∉ T.chars e.2.1)
    (hn : (keys d.token2id ++ es.map (fun e => e.2.1)).Nodup)
    (hi : (keys d.dfs ++ es.map (fun e => e.1)).Nodup) :
    loadLines T (es.map (fun e => entryLine T e ++ ['\n'])) d =
      some { d with token2id := d.token2id ++ es.map (fun e => (e.2.1, e.1)),
                    dfs := d.dfs ++ es.map (fun e => (e.1, e.2.2)) } := by
  induction es generalizing d with
  | nil => simp [loadLines]
  | cons e es ih =>
    have h1 : e.2.1 ∉ keys d.token2id := by
      rw [List.nodup_append] at hn
      intro hm; exact hn.2.2 _ hm _ (by simp) rfl
    have h2 : e.1 ∉ keys d.dfs := by
      rw [List.nodup_append] at hi
      intro hm; exact hi.2.2 _ hm _ (by simp) rfl
    simp only [List.map_cons, loadLines, loadLine_entry T d e (ht e (by simp)) h1]
    rw [ih]
    · simp [set_of_not_mem h1, set_of_not_mem h2]
    · exact fun e' he => ht e' (by simp [he])
    · show (keys (set d.token2id e.2.1 e.1) ++ _).Nodup
      rw [keys_set_of_not_mem h1]; simpa using hn
    · show (keys (set d.dfs e.1 e.2.2) ++ _).Nodup
      rw [keys_set_of_not_mem h2]; simpa using hi

/-- the entries written are a rearrangement of (id, word, df) over the dictionary -/
theorem saveEntries_perm {d : Dct τ} (h : Inv d) (b : Bool) :
    ∃ es, saveEntries d b = some es ∧
      es.Perm (d.token2id.map (fun p => (p.2, p.1, getD d.dfs p.2 0))) := by
  cases b with
  | true => exact ⟨_, rfl, (pySort_perm _ _).map _⟩
  | false =>
    have key : ∀ l : PyDict Nat Nat, (∀ p ∈ l, p ∈ d.dfs) →
        ∃ es, mapOpt (fun p => (getitem d p.1).2.map (fun w => (p.1, w, p.2))) l = some es ∧
          es.map (fun e => (e.1, e.2.2)) = l ∧ ∀ e ∈ es, (e.2.1, e.1) ∈ d.token2id := by
      intro l hl
      induction l with
      | nil => exact ⟨[], rfl, rfl, by simp⟩
      | cons p l ih =>
        obtain ⟨es, e1, e2, e3⟩ := ih (fun q hq => hl q (by simp [hq]))
        have hk : p.1 ∈ values d.token2id :=
          (h.mem_values _).mpr ((h.dfsKeys _).mp (List.mem_map.mpr ⟨p, hl p (by simp), rfl⟩))
        obtain ⟨w, hw⟩ := Option.isSome_iff_exists.mp (getitem_isSome h hk)
        refine ⟨(p.1, w, p.2) :: es, ?_, by simp [e2], ?_⟩
        · simp [mapOpt, hw, e1]
        · intro e he
          rcases List.mem_cons.mp he with rfl | he
          · exact mem_of_get? ((getitem_spec h p.1 w).mp hw)
          · exact e3 e he
    obtain ⟨es, e1, e2, e3⟩ := key (pySort (fun a b => decide (b.2 ≤ a.2)) d.dfs)
      (fun p hp => mem_pySort.mp hp)
    refine ⟨es, by simpa [saveEntries] using e1, ?_⟩
    have hp : (es.map (fun e => (e.1, e.2.2))).Perm d.dfs := by rw [e2]; exact pySort_perm _ _
    have hnd1 : es.Nodup := by
      have : (es.map (fun e => (e.1, e.2.2))).Nodup :=
        hp.nodup_iff.mpr (List.Nodup.of_map _ h.dfsWF)
      exact List.Nodup.of_map _ this
    have hnd2 : (d.token2id.map (fun p => (p.2, p.1, getD d.dfs p.2 0))).Nodup := by
      have : ((d.token2id.map (fun p => (p.2, p.1, getD d.dfs p.2 0))).map (fun e => e.2.1)).Nodup := by
        simpa [Function.comp_def, WF, keys] using h.wf
      exact List.Nodup.of_map _ this
    rw [List.perm_ext_iff_of_nodup hnd1 hnd2]
    rintro ⟨i, w, f⟩
    constructor
    · intro he
      have hm := e3 _ he
      have hf : (i, f) ∈ d.dfs := hp.mem_iff.mp (List.mem_map.mpr ⟨_, he, rfl⟩)
      exact List.mem_map.mpr ⟨(w, i), hm, by simp [getD, get?_of_mem h.dfsWF hf]⟩
    · intro he
      obtain ⟨⟨w', i'⟩, hm, e⟩ := List.mem_map.mp he
      simp only [Prod.mk.injEq] at e
      obtain ⟨rfl, rfl, rfl⟩ := e
      have hk : i' ∈ keys d.dfs := (h.dfsKeys _).mpr ((h.mem_values _).mp (mem_values_of_mem hm))
      obtain ⟨f, hf⟩ := Option.isSome_iff_exists.mp ((get?_isSome_iff _ _).mpr hk)
      have : (i', f) ∈ es.map (fun e => (e.1, e.2.2)) := hp.mem_iff.mpr (mem_of_get? hf)
      obtain ⟨⟨a, b, c⟩, hb, e⟩ := List.mem_map.mp this
      simp only [Prod.mk.injEq] at e
      obtain ⟨rfl, rfl⟩ := e
      have := values_nodup_inj h.nodup hm (e3 _ hb)
      simp only at this
      subst this
      simpa [getD, hf] using hb

theorem get?_perm {κ ν : Type} [DecidableEq κ] {a b : PyDict κ ν} (hp : a.Perm b) (ha : WF a) (k : κ) :
    get? a k = get? b k := by
  have hb : WF b := (hp.map Prod.fst).nodup_iff.mp ha
  cases h : get? a k with
  | none =>
    rw [get?_eq_none_iff] at h
    symm; rw [get?_eq_none_iff]
    exact fun hm => h ((hp.map Prod.fst).mem_iff.mpr hm)
  | some v =>
    exact (get?_of_mem hb (hp.mem_iff.mp (mem_of_get? h))).symm

/-- **C07.** For every reachable dictionary whose tokens contain no tab and no newline, and for both
sort orders: `save_as_text` succeeds, `load_from_text` of the file succeeds, and the loaded
dictionary has the same `num_docs`, the same token-to-id mapping and the same document
frequencies. -/
theorem C07_text_roundtrip (T : Tok τ) {d : Dct τ} (h : Reachable d) (sortByWord : Bool)
    (hc : ∀ w, known d w → '\t' ∉ T.chars w ∧ '\n' ∉ T.chars w) :
    ∃ s d', saveText T d sortByWord = some s ∧ loadText T s = some d' ∧
      d'.numDocs = d.numDocs ∧ d'.len = d.len ∧ (∀ w, idOf d' w = idOf d w) ∧
      (∀ i, get? d'.dfs i = get? d.dfs i) ∧ (∀ w, dfOf d' w = dfOf d w) := by
  obtain ⟨es, he, hp⟩ := saveEntries_perm h.inv sortByWord
  have hw : (es.map (fun e => (e.2.1, e.1))).Perm d.token2id := by
    have := hp.map (fun e => (e.2.1, e.1))
    simpa [Function.comp_def] using this
  have hi : (es.map (fun e => (e.1, e.2.2))).Perm d.dfs := by
    have h1 := hp.map (fun e => (e.1, e.2.2))
    refine h1.trans ?_
    have hn1 : ((d.token2id.map (fun p => (p.2, p.1, getD d.dfs p.2 0))).map
        (fun e => (e.1, e.2.2))).Nodup := by
      apply List.Nodup.of_map Prod.fst
      simpa [Function.comp_def, values] using h.inv.nodup
    rw [List.perm_ext_iff_of_nodup hn1 (List.Nodup.of_map _ h.inv.dfsWF)]
    rintro ⟨i, f⟩
    rw [← get?_eq_some_iff h.inv.dfsWF]
    simp only [List.map_map, List.mem_map, Function.comp_apply, Prod.mk.injEq]
    constructor
    · rintro ⟨p, hpm, rfl, rfl⟩
      have hk := (h.inv.dfsKeys _).mpr ((h.inv.mem_values _).mp (mem_values_of_mem hpm))
      obtain ⟨f, hf⟩ := Option.isSome_iff_exists.mp ((get?_isSome_iff _ _).mpr hk)
      simp [getD, hf]
    · intro hf
      have hk : i ∈ keys d.dfs := (get?_isSome_iff _ _).mp (by simp [hf])
      have := (h.inv.mem_values _).mpr ((h.inv.dfsKeys _).mp hk)
      obtain ⟨p, hpm, rfl⟩ := List.mem_map.mp this
      exact ⟨p, hpm, rfl, by simp [getD, hf]⟩
  have hnw : (es.map (fun e => e.2.1)).Nodup := by
    have : ((es.map (fun e => (e.2.1, e.1))).map Prod.fst).Nodup :=
      (hw.map Prod.fst).nodup_iff.mpr h.inv.wf
    simpa [Function.comp_def] using this
  have hni : (es.map (fun e => e.1)).Nodup := by
    have : ((es.map (fun e => (e.1, e.2.2))).map Prod.fst).Nodup :=
      (hi.map Prod.fst).nodup_iff.mpr h.inv.dfsWF
    simpa [Function.comp_def] using this
  have hkn : ∀ e ∈ es, known d e.2.1 := by
    intro e hm
    rw [known_iff]
    exact mem_keys_of_mem (hw.mem_iff.mp (List.mem_map.mpr ⟨e, hm, rfl⟩))
  have hlines : pyLines ((showNat d.numDocs :: es.map (entryLine T)).map (fun l => l ++ ['\n'])).flatten
      = (showNat d.numDocs :: es.map (entryLine T)).map (fun l => l ++ ['\n']) := by
    apply pyLines_flatten
    intro l hl
    rcases List.mem_cons.mp hl with rfl | hl
    · exact newline_not_showNat _
    · obtain ⟨e, hm, rfl⟩ := List.mem_map.mp hl
      simp only [entryLine, List.mem_append, List.mem_cons, not_or]
      exact ⟨newline_not_showNat _, by decide, (hc _ (hkn e hm)).2, by decide, newline_not_showNat _⟩
  have hstrip : strip uws (showNat d.numDocs ++ ['\n']) = showNat d.numDocs :=
    strip_append_ws (fun c hc => not_ws_of_digit (showNat_digit _ c hc)) (by decide)
  have hload := loadLines_entries T es { (empty : Dct τ) with numDocs := d.numDocs }
    (fun e hm => (hc _ (hkn e hm)).1) (by simpa [empty] using hnw) (by simpa [empty] using hni)
  refine ⟨((showNat d.numDocs :: es.map (entryLine T)).map (fun l => l ++ ['\n'])).flatten,
    { (empty : Dct τ) with numDocs := d.numDocs,
                                    token2id := es.map (fun e => (e.2.1, e.1)),
                                    dfs := es.map (fun e => (e.1, e.2.2)) }, ?_, ?_, rfl, ?_, ?_, ?_, ?_⟩
  · rw [saveText, he]; rfl
  · unfold loadText
    rw [hlines]
    simp only [List.map_cons, hstrip, isDigits_showNat, if_true, readNat_showNat, List.map_map]
    simpa [Function.comp_def, empty] using hload
  · exact hw.length_eq
  · intro w
    exact get?_perm hw (by simpa [WF, keys, Function.comp_def] using hnw) w
  · intro i
    exact get?_perm hi (by simpa [WF, keys, Function.comp_def] using hni) i
  · intro w
    have h1 := get?_perm hw (by simpa [WF, keys, Function.comp_def] using hnw) w
    have h2 := fun i => get?_perm hi (by simpa [WF, keys, Function.comp_def] using hni) i
    simp only [dfOf, idOf, h1, h2]

/-- a dictionary of two strings -/
def demoText : Dct Str := [[['b'], ['a', ' ']], [['b']]].foldl update empty

example : Reachable demoText ∧ (∀ w, known demoText w → '\t' ∉ strTok.chars w ∧ '\n' ∉ strTok.chars w) ∧
    saveText strTok demoText true = some "2\n0\ta \t1\n1\tb\t2\n".toList := by
  refine ⟨reachable_foldl .empty _, ?_, by decide⟩
  intro w hw
  have hk : w ∈ keys demoText.token2id := (known_iff _ _).mp hw
  have : keys demoText.token2id = [['a', ' '], ['b']] := by decide
  rw [this] at hk
  simp only [List.mem_cons, List.not_mem_nil, or_false] at hk
  rcases hk with rfl | rfl <;> decide

/-- **C07, negative.** A token containing a tab makes the written file unreadable. -/
theorem C07_tab_token_unreadable :
    ∃ d : Dct Str, Reachable d ∧ ∃ s, saveText strTok d false = some s ∧ loadText strTok s = none :=
  ⟨update empty [['a', '\t', 'b']], .update _ .empty, "1\n0\ta\tb\t1\n".toList, by decide, by decide⟩

/-- **C07, negative.** A token containing a newline makes the written file unreadable. -/
theorem C07_newline_token_unreadable :
    ∃ d : Dct Str, Reachable d ∧ ∃ s, saveText strTok d false = some s ∧ loadText strTok s = none :=
  ⟨update empty [['a', '\n', 'b']], .update _ .empty, "1\n0\ta\nb\t1\n".toList, by decide, by decide⟩

end Verif.Dictionary
