import Verif.Formats.LineProps

/-!
# List-of-words and Mallet corpora: property C25
-/

namespace Verif.Formats
open Verif Text PyDict

/-! ## Counting the words of a line -/

/-- the words of a line that are in the mapping, as counting pairs -/
def known (word2id : PyDict Str Nat) (words : List Str) : List (Str × Nat) :=
  (words.filter (fun w => contains word2id w)).map (fun w => (w, 1))

theorem countWords_eq (word2id : PyDict Str Nat) (words : List Str) (t : PyDict Str Nat) :
    words.foldl (countWord word2id) (keys t, t)
      = (keys (accum t (known word2id words)), accum t (known word2id words)) := by
  induction words generalizing t with
  | nil => rfl
  | cons w ws ih =>
    rw [List.foldl_cons]
    by_cases h : contains word2id w = true
    · have e : countWord word2id (keys t, t) w
          = (keys (PyDict.set t w (getD t w 0 + 1)), PyDict.set t w (getD t w 0 + 1)) := by
        rw [countWord, if_pos h]
        by_cases hm : w ∈ keys t
        · rw [if_pos ((contains_iff _ _).mpr hm), keys_set_of_mem hm]
        · rw [if_neg (fun h => hm ((contains_iff _ _).mp h)), keys_set_of_not_mem hm]
      rw [e, ih]
      have : known word2id (w :: ws) = (w, 1) :: known word2id ws := by simp [known, h]
      rw [this, accum_cons]
    · have e : countWord word2id (keys t, t) w = (keys t, t) := by rw [countWord, if_neg h]
      rw [e, ih]
      have : known word2id (w :: ws) = known word2id ws := by simp [known, h]
      rw [this]

theorem lowWords2doc_eq (word2id : PyDict Str Nat) (words : List Str) :
    lowWords2doc word2id words
      = (accum [] (known word2id words)).map (fun p => (getD word2id p.1 0, p.2)) := by
  have := countWords_eq word2id words []
  simp only [keys_nil] at this
  simp only [lowWords2doc, this]
  have hw : WF (accum ([] : PyDict Str Nat) (known word2id words)) := WF_accum WF_nil _
  generalize accum ([] : PyDict Str Nat) (known word2id words) = t at *
  unfold keys
  rw [List.map_map]
  apply List.map_congr_left
  rintro ⟨w, n⟩ hp
  have := get?_of_mem hw hp
  simp [getD, this]

theorem set_last {t : PyDict Str Nat} {w : Str} (h : w ∉ keys t) (m v : Nat) :
    PyDict.set (t ++ [(w, m)]) w v = t ++ [(w, v)] := by
  induction t with
  | nil => simp [PyDict.set]
  | cons p t ih =>
    obtain ⟨k, x⟩ := p
    simp only [keys_cons, List.mem_cons, not_or] at h
    simp [PyDict.set, Ne.symm h.1, ih h.2]

theorem getD_last {t : PyDict Str Nat} {w : Str} (h : w ∉ keys t) (m : Nat) :
    getD (t ++ [(w, m)]) w 0 = m := by
  have := (get?_eq_none_iff t w).mpr h
  simp [getD, get?_append, this, get?_cons]

theorem accum_block {t : PyDict Str Nat} {w : Str} (h : w ∉ keys t) (n : Nat) :
    accum t (List.replicate (n + 1) (w, 1)) = t ++ [(w, n + 1)] := by
  have key : ∀ n m, accum (t ++ [(w, m)]) (List.replicate n (w, 1)) = t ++ [(w, m + n)] := by
    intro n
    induction n with
    | zero => intro m; simp
    | succ n ih =>
      intro m
      rw [List.replicate_succ, accum_cons]
      simp only
      rw [getD_last h, set_last h, ih]
      simp; omega
  rw [List.replicate_succ, accum_cons]
  simp only
  rw [set_of_not_mem h, getD_of_not_mem h, key]
  simp; omega

/-! ## The reverse mapping -/

theorem rev_eq {d : PyDict Nat Str} (hv : (values d).Nodup) : rev d = d.map (fun p => (p.2, p.1)) := by
  apply ofPairs_of_WF
  unfold WF keys
  rw [List.map_map]
  exact hv

theorem get?_rev {d : PyDict Nat Str} (hk : WF d) (hv : (values d).Nodup) (i : Nat) (w : Str) :
    get? (rev d) w = some i ↔ get? d i = some w := by
  have hw : WF (rev d) := WF_ofPairs _
  rw [get?_eq_some_iff hw, get?_eq_some_iff hk, rev_eq hv, List.mem_map]
  constructor
  · rintro ⟨⟨a, b⟩, h, e⟩
    simp only [Prod.mk.injEq] at e
    obtain ⟨rfl, rfl⟩ := e
    exact h
  · intro h
    exact ⟨(i, w), h, rfl⟩

/-! ## The words of a document -/

/-- the word of an id -/
def wordOf (d : PyDict Nat Str) (i : Nat) : Str := getD d i []

theorem get?_wordOf {d : PyDict Nat Str} {i : Nat} (h : i ∈ keys d) : get? d i = some (wordOf d i) :=
  get?_eq_getD_of_mem h []

theorem docWords_eq {d : PyDict Nat Str} {doc : List (Nat × Int)} (h : ∀ p ∈ doc, p.1 ∈ keys d) :
    docWords d doc = some ((doc.map (fun p => List.replicate p.2.toNat (wordOf d p.1))).flatten) := by
  rw [docWords, mapOpt_some (g := fun p => List.replicate p.2.toNat (wordOf d p.1))]
  · rfl
  · intro p hp
    simp [get?_wordOf (h p hp)]

theorem docWords_none {d : PyDict Nat Str} {doc : List (Nat × Int)} {r : List Str} (h : docWords d doc = some r) :
    ∀ p ∈ doc, p.1 ∈ keys d := by
  rw [docWords, Option.map_eq_some_iff] at h
  obtain ⟨l, hl, hr⟩ := h
  intro p hp
  by_contra hn
  have hn' := (get?_eq_none_iff d p.1).mpr hn
  rw [mapOpt_eq_some] at hl
  clear hn hr
  induction hl with
  | nil => simp at hp
  | cons h1 _ ih =>
    rcases List.mem_cons.mp hp with rfl | hp
    · simp [hn'] at h1
    · exact ih hp

theorem wordOf_word {d : PyDict Nat Str} (hd : VocabOk d) {i : Nat} (h : i ∈ keys d) : Word (wordOf d i) :=
  hd.2.2 _ (List.mem_map.mpr ⟨_, mem_of_get? (get?_wordOf h), rfl⟩)

theorem wordOf_inj {d : PyDict Nat Str} (hd : VocabOk d) {i j : Nat} (hi : i ∈ keys d) (hj : j ∈ keys d)
    (e : wordOf d i = wordOf d j) : i = j := by
  have h1 := (get?_rev hd.1 hd.2.1 i _).mpr (get?_wordOf hi)
  have h2 := (get?_rev hd.1 hd.2.1 j _).mpr (get?_wordOf hj)
  rw [e, h2] at h1
  exact (Option.some.inj h1).symm

theorem docWords_word {d : PyDict Nat Str} (hd : VocabOk d) {doc : List (Nat × Int)} {r : List Str}
    (h : docWords d doc = some r) : ∀ w ∈ r, Word w := by
  have hk := docWords_none h
  rw [docWords_eq hk] at h
  cases h
  intro w hw
  simp only [List.mem_flatten, List.mem_map] at hw
  obtain ⟨l, ⟨p, hp, rfl⟩, hw⟩ := hw
  rw [(List.mem_replicate.mp hw).2]
  exact wordOf_word hd (hk p hp)

/-- reading the words of any document gives, per id, the total count -/
theorem low_counts {d : PyDict Nat Str} (hd : VocabOk d) {doc : List (Nat × Int)} {r : List Str}
    (h : docWords d doc = some r) :
    ((lowWords2doc (rev d) r).map Prod.fst).Nodup ∧
    ∀ i, weight (lowWords2doc (rev d) r) i = weight (natCounts doc) i := by
  have hk := docWords_none h
  have hword : ∀ w ∈ r, ∃ i ∈ keys d, w = wordOf d i := by
    rw [docWords_eq hk] at h
    cases h
    intro w hw
    simp only [List.mem_flatten, List.mem_map] at hw
    obtain ⟨l, ⟨p, hp, rfl⟩, hw⟩ := hw
    exact ⟨p.1, hk p hp, (List.mem_replicate.mp hw).2⟩
  have hrev : ∀ i ∈ keys d, get? (rev d) (wordOf d i) = some i :=
    fun i hi => (get?_rev hd.1 hd.2.1 i _).mpr (get?_wordOf hi)
  have hkn : known (rev d) r = r.map (fun w => (w, 1)) := by
    unfold known
    rw [List.filter_eq_self.mpr]
    intro w hw
    obtain ⟨i, hi, rfl⟩ := hword w hw
    simp [contains, hrev i hi]
  rw [lowWords2doc_eq, hkn]
  have hW : WF (accum ([] : PyDict Str Nat) (r.map (fun w => (w, 1)))) := WF_accum WF_nil _
  have hkeys : ∀ w ∈ keys (accum ([] : PyDict Str Nat) (r.map (fun w => (w, 1)))), ∃ i ∈ keys d, w = wordOf d i := by
    intro w hw
    rw [mem_keys_accum] at hw
    simp only [keys_nil, List.not_mem_nil, false_or, List.map_map, List.mem_map, Function.comp_apply,
      exists_eq_right] at hw
    exact hword w hw
  have hcount : ∀ i ∈ keys d, getD (accum ([] : PyDict Str Nat) (r.map (fun w => (w, 1)))) (wordOf d i) 0
      = weight (natCounts doc) i := by
    intro i hi
    rw [getD_accum]
    have : getD ([] : PyDict Str Nat) (wordOf d i) 0 = 0 := rfl
    rw [this, Nat.zero_add]
    rw [docWords_eq hk] at h
    cases h
    clear hword hkn hW hkeys
    induction doc with
    | nil => rfl
    | cons p ps ih =>
      have hk' : ∀ q ∈ ps, q.1 ∈ keys d := fun q hq => hk q (by simp [hq])
      have e1 : weight (((p :: ps).map (fun p => List.replicate p.2.toNat (wordOf d p.1))).flatten.map (fun w => (w, 1))) (wordOf d i)
          = weight ((List.replicate p.2.toNat (wordOf d p.1)).map (fun w => (w, 1))) (wordOf d i)
            + weight ((ps.map (fun p => List.replicate p.2.toNat (wordOf d p.1))).flatten.map (fun w => (w, 1))) (wordOf d i) := by
        simp [weight]
      have e2 : weight (natCounts (p :: ps)) i = (if p.1 = i then p.2.toNat else 0) + weight (natCounts ps) i := by
        simp [weight, natCounts]
      rw [e1, e2, ih hk']
      congr 1
      by_cases hpi : p.1 = i
      · subst hpi
        simp [weight]
      · have : wordOf d p.1 ≠ wordOf d i := fun e => hpi (wordOf_inj hd (hk p (by simp)) hi e)
        simp [weight, this, hpi]
  generalize accum ([] : PyDict Str Nat) (r.map (fun w => (w, 1))) = t at *
  constructor
  · rw [List.map_map]
    have hmap : t.map (Prod.fst ∘ fun p => (getD (rev d) p.1 0, p.2)) = (keys t).map (fun w => getD (rev d) w 0) := by
      simp [keys]
    rw [hmap]
    apply List.Nodup.map_on _ hW
    intro a ha b hb e
    obtain ⟨i, hi, rfl⟩ := hkeys a ha
    obtain ⟨j, hj, rfl⟩ := hkeys b hb
    simp only [getD, hrev i hi, hrev j hj, Option.getD_some] at e
    rw [e]
  · intro i
    by_cases hi : i ∈ keys d
    · rw [← hcount i hi]
      clear hcount
      induction t with
      | nil => rfl
      | cons p t ih =>
        obtain ⟨w, n⟩ := p
        have hW' : WF t := (List.nodup_cons.mp hW).2
        have hn : w ∉ keys t := (List.nodup_cons.mp hW).1
        have hkeys' : ∀ w ∈ keys t, ∃ i ∈ keys d, w = wordOf d i := fun w hw => hkeys w (by simp [hw])
        obtain ⟨j, hj, hwj⟩ := hkeys w (by simp)
        have hg : getD (rev d) w 0 = j := by rw [hwj]; simp [getD, hrev j hj]
        have e : weight (((w, n) :: t).map (fun p => (getD (rev d) p.1 0, p.2))) i
            = (if j = i then n else 0) + weight (t.map (fun p => (getD (rev d) p.1 0, p.2))) i := by
          simp [weight, hg]
        rw [e, ih hW' hkeys']
        by_cases hji : j = i
        · subst hji
          have hz : getD t (wordOf d j) 0 = 0 := getD_of_not_mem (hwj ▸ hn) 0
          rw [hz]
          simp [getD, get?_cons, hwj]
        · have : w ≠ wordOf d i := fun e => hji (wordOf_inj hd hj hi (hwj ▸ e))
          simp [getD, get?_cons, this, hji]
    · have h1 : ∀ l : List (Nat × Nat), (∀ p ∈ l, p.1 ≠ i) → weight l i = 0 := by
        intro l hl
        simp only [weight, List.sum_eq_zero_iff_forall_eq_nat, List.mem_map, forall_exists_index, and_imp]
        rintro x p hp rfl
        simp [hl p hp]
      rw [h1, h1]
      · intro p hp e
        obtain ⟨q, hq, rfl⟩ := List.mem_map.mp hp
        exact hi (e ▸ hk q hq)
      · intro p hp e
        obtain ⟨q, hq, rfl⟩ := List.mem_map.mp hp
        obtain ⟨j, hj, hwj⟩ := hkeys q.1 (mem_keys_of_mem (v := q.2) hq)
        have : getD (rev d) q.1 0 = j := by rw [hwj]; simp [getD, hrev j hj]
        simp only [this] at e
        exact hi (e ▸ hj)

/-- reading the words of a bag-of-words document gives the document -/
theorem low_exact {d : PyDict Nat Str} (hd : VocabOk d) {doc : List (Nat × Int)} (hb : BowOk d doc) :
    ∃ r, docWords d doc = some r ∧ lowWords2doc (rev d) r = natCounts doc := by
  have hk : ∀ p ∈ doc, p.1 ∈ keys d := fun p hp => (hb.2 p hp).1
  refine ⟨_, docWords_eq hk, ?_⟩
  have hrev : ∀ i ∈ keys d, get? (rev d) (wordOf d i) = some i :=
    fun i hi => (get?_rev hd.1 hd.2.1 i _).mpr (get?_wordOf hi)
  have hkn : ∀ (dc : List (Nat × Int)), (∀ p ∈ dc, p.1 ∈ keys d) →
      known (rev d) ((dc.map (fun p => List.replicate p.2.toNat (wordOf d p.1))).flatten)
        = (dc.map (fun p => List.replicate p.2.toNat ((wordOf d p.1), 1))).flatten := by
    intro dc hdc
    unfold known
    rw [List.filter_eq_self.mpr]
    · simp [List.map_flatten, Function.comp_def]
    · intro w hw
      simp only [List.mem_flatten, List.mem_map] at hw
      obtain ⟨l, ⟨p, hp, rfl⟩, hw⟩ := hw
      rw [(List.mem_replicate.mp hw).2]
      simp [contains, hrev _ (hdc p hp)]
  rw [lowWords2doc_eq, hkn doc hk]
  have key : ∀ (dc : List (Nat × Int)) (t : PyDict Str Nat), BowOk d dc →
      (∀ p ∈ dc, wordOf d p.1 ∉ keys t) →
      accum t ((dc.map (fun p => List.replicate p.2.toNat ((wordOf d p.1), 1))).flatten)
        = t ++ dc.map (fun p => (wordOf d p.1, p.2.toNat)) := by
    intro dc
    induction dc with
    | nil => intro t _ _; simp
    | cons p ps ih =>
      intro t hb ht
      obtain ⟨hn, hp⟩ := hb
      rw [List.map_cons, List.flatten_cons, accum_append]
      obtain ⟨m, hm⟩ : ∃ m, p.2.toNat = m + 1 := ⟨p.2.toNat - 1, by have := (hp p (by simp)).2; omega⟩
      rw [hm, accum_block (ht p (by simp)), ih]
      · simp [hm]
      · exact ⟨(List.nodup_cons.mp hn).2, fun q hq => hp q (by simp [hq])⟩
      · intro q hq
        rw [keys_append, List.mem_append, not_or]
        refine ⟨ht q (by simp [hq]), ?_⟩
        simp only [keys_cons, keys_nil, List.mem_cons, List.not_mem_nil, or_false]
        intro e
        have := wordOf_inj hd (hp q (by simp [hq])).1 (hp p (by simp)).1 e
        exact (List.nodup_cons.mp hn).1 (List.mem_map.mpr ⟨q, hq, this⟩)
  rw [key doc [] hb (by simp)]
  simp only [List.nil_append, List.map_map, natCounts]
  apply List.map_congr_left
  intro p hp
  simp [getD, hrev p.1 (hk p hp)]

/-! ## Lines of words -/

theorem joinWith_head {c : Char} {w : Str} {ws : List Str} :
    ∃ t, joinWith [c] (w :: ws) = w ++ t ∧ (ws = [] → t = []) := by
  cases ws with
  | nil => exact ⟨[], by simp [joinWith]⟩
  | cons x xs => exact ⟨c :: joinWith [c] (x :: xs), by simp [joinWith]⟩

theorem joinWith_last {c : Char} {ws : List Str} (hn : ws ≠ []) :
    ∃ t w, w ∈ ws ∧ joinWith [c] ws = t ++ w := by
  induction ws with
  | nil => exact absurd rfl hn
  | cons w ws ih =>
    cases ws with
    | nil => exact ⟨[], w, by simp, by simp [joinWith]⟩
    | cons x xs =>
      obtain ⟨t, w', hw', e⟩ := ih (by simp)
      exact ⟨w ++ [c] ++ t, w', by simp [hw'], by rw [joinWith, e]; simp⟩

theorem lstrip_word {w t : Str} (hw : Word w) : lstrip uws (w ++ t) = w ++ t := by
  cases w with
  | nil => exact absurd rfl hw.1
  | cons c w => simp [lstrip, List.dropWhile_cons, hw.2 c (by simp)]

theorem rstrip_word {t w : Str} (hw : Word w) : rstrip uws (t ++ w) = t ++ w := by
  have : ∃ a c, w = a ++ [c] := by
    have := List.dropLast_append_getLast hw.1
    exact ⟨_, _, this.symm⟩
  obtain ⟨a, c, rfl⟩ := this
  have hc := hw.2 c (by simp)
  simp [rstrip, List.dropWhile_cons, hc]

/-- the words of a line that was written by joining words -/
theorem splitOnSpace_join {ws : List Str} (h : ∀ w ∈ ws, Word w) {t : Str} (ht : ∀ c ∈ t, uws c = true) :
    splitOnSpace (joinWith [' '] ws ++ t) = ws := by
  cases ws with
  | nil =>
    have : strip uws ([] ++ t) = [] := strip_append_ws (by simp) ht
    simp only [joinWith, splitOnSpace, this]
    rfl
  | cons w ws =>
    have hs : strip uws (joinWith [' '] (w :: ws) ++ t) = joinWith [' '] (w :: ws) := by
      obtain ⟨u, hu, _⟩ := joinWith_head (c := ' ') (w := w) (ws := ws)
      obtain ⟨v, x, hx, hv⟩ := joinWith_last (c := ' ') (ws := w :: ws) (by simp)
      have : lstrip uws (joinWith [' '] (w :: ws) ++ t) = joinWith [' '] (w :: ws) ++ t := by
        rw [hu, List.append_assoc, lstrip_word (h w (by simp))]
      rw [strip, this, rstrip_append_ws ht, hv, rstrip_word (h x hx)]
    rw [splitOnSpace, hs, splitOn_joinWith (by simp)]
    · rw [List.filter_eq_self]
      intro x hx
      simpa using (h x hx).1
    · intro p hp hsp
      have := (h p hp).2 _ hsp
      exact absurd this (by decide)

theorem join_no_nl {ws : List Str} (h : ∀ w ∈ ws, Word w) : '\n' ∉ joinWith [' '] ws := by
  intro hc
  rcases mem_joinWith hc with hc | ⟨p, hp, hc⟩
  · exact absurd hc (by decide)
  · have := (h p hp).2 _ hc
    exact absurd this (by decide)

/-! ## C25 -/

/-- what a saved word corpus is read back as, in general: the documents with equal ids merged -/
def Merged (doc : List (Nat × Int)) (res : List (Nat × Nat)) : Prop :=
  (res.map Prod.fst).Nodup ∧ ∀ i, weight res i = weight (natCounts doc) i

theorem low_file {d : PyDict Nat Str} (hd : VocabOk d) {corpus : List (List (Nat × Int))} {file : Str}
    {offs : List Nat} (h : lowSave d corpus = some (file, offs)) :
    ∃ docs, List.Forall₂ (fun doc ws => docWords d doc = some ws) corpus docs ∧
      lowRead d file = some ((corpus.length : Int), docs.map (lowWords2doc (rev d))) ∧
      ∀ (i : Nat) (ws : List Str), docs[i]? = some ws → ∃ o, offs[i]? = some o ∧ lowDocAt d file o = lowWords2doc (rev d) ws := by
  rw [lowSave, Option.map_eq_some_iff] at h
  obtain ⟨docs, hdocs, hsave⟩ := h
  rw [mapOpt_eq_some] at hdocs
  refine ⟨docs, hdocs, ?_, ?_⟩
  all_goals
    have hword : ∀ ws ∈ docs, ∀ w ∈ ws, Word w := by
      intro ws hws
      obtain ⟨i, hi, rfl⟩ := List.mem_iff_getElem.mp hws
      have := List.Forall₂.get hdocs (i := i) (by rw [hdocs.length_eq]; exact hi) hi
      exact docWords_word hd (by simpa using this)
    have hmap : docs.map (fun ws => joinWith [' '] ws ++ ['\n'])
        = (docs.map (joinWith [' '])).map (fun l => l ++ ['\n']) := by simp
    have hnl : ∀ l ∈ docs.map (joinWith [' ']), '\n' ∉ l := by
      intro l hl
      obtain ⟨ws, hws, rfl⟩ := List.mem_map.mp hl
      exact join_no_nl (hword ws hws)
    have hws1 : ∀ c ∈ ['\n'], uws c = true := by decide
    have hfile : file = (saveLines (showNat corpus.length ++ ['\n']) (docs.map (fun ws => joinWith [' '] ws ++ ['\n']))).1 := by rw [hsave]
    have hoffs : offs = (saveLines (showNat corpus.length ++ ['\n']) (docs.map (fun ws => joinWith [' '] ws ++ ['\n']))).2 := by rw [hsave]
  · have hp : pyLines file = (showNat corpus.length ++ ['\n']) :: docs.map (fun ws => joinWith [' '] ws ++ ['\n']) := by
      rw [hfile, (saveLines_eq _ _).1, List.append_assoc, List.singleton_append,
        pyLines_cons_line (showNat_no _ (by decide)), hmap, pyLines_flatten hnl]
    simp only [lowRead, hp, List.drop_succ_cons, List.drop_zero, readInt_showNat_ws corpus.length hws1,
      Option.map_some]
    congr 2
    rw [List.map_map]
    apply List.map_congr_left
    intro ws hws
    simp only [Function.comp_apply]
    rw [splitOnSpace_join (hword ws hws) hws1]
  · intro i ws hi
    obtain ⟨o, ho, hr⟩ := readline_saved (showNat corpus.length ++ ['\n']) _ hnl i (joinWith [' '] ws) (by simp [hi])
    rw [← hmap] at ho hr
    rw [← hoffs] at ho
    rw [← hfile] at hr
    refine ⟨o, ho, ?_⟩
    rw [lowDocAt, hr, splitOnSpace_join (hword ws (List.mem_of_getElem? hi)) hws1]

/-- **C25, list of words**: a saved bag-of-words corpus reads back as itself, with `len` its number of
documents, and the offsets give random access -/
theorem C25_low_roundtrip {d : PyDict Nat Str} (hd : VocabOk d) (corpus : List (List (Nat × Int)))
    (hb : ∀ doc ∈ corpus, BowOk d doc) :
    ∃ file offs, lowSave d corpus = some (file, offs) ∧
      lowRead d file = some ((corpus.length : Int), corpus.map natCounts) ∧
      ∀ (i : Nat) (doc : List (Nat × Int)), corpus[i]? = some doc → ∃ o, offs[i]? = some o ∧ lowDocAt d file o = natCounts doc := by
  have hs : (mapOpt (docWords d) corpus).isSome := mapOpt_isSome_of (fun doc hdoc => by
    obtain ⟨r, hr, _⟩ := low_exact hd (hb doc hdoc)
    simp [hr])
  obtain ⟨docs0, h0⟩ := Option.isSome_iff_exists.mp hs
  have hsave : lowSave d corpus = some (saveLines (showNat corpus.length ++ ['\n']) (docs0.map (fun ws => joinWith [' '] ws ++ ['\n']))) := by
    rw [lowSave, h0]; rfl
  refine ⟨_, _, hsave, ?_⟩
  obtain ⟨docs, hf, hr, ho⟩ := low_file hd hsave
  have hex : ∀ (i : Nat) (doc : List (Nat × Int)) (ws : List Str), corpus[i]? = some doc → docs[i]? = some ws →
      lowWords2doc (rev d) ws = natCounts doc := by
    intro i doc ws h1 h2
    obtain ⟨l1, e1⟩ := List.getElem?_eq_some_iff.mp h1
    obtain ⟨l2, e2⟩ := List.getElem?_eq_some_iff.mp h2
    have := List.Forall₂.get hf l1 l2
    simp only [List.get_eq_getElem, e1, e2] at this
    obtain ⟨r, hr, he⟩ := low_exact hd (hb doc (List.mem_of_getElem? h1))
    rw [hr] at this
    rw [← Option.some.inj this]; exact he
  have hlen := hf.length_eq
  refine ⟨?_, ?_⟩
  · rw [hr]
    congr 2
    apply List.ext_getElem?
    intro i
    rw [List.getElem?_map, List.getElem?_map]
    by_cases hi : i < corpus.length
    · have h1 : corpus[i]? = some corpus[i] := by simp [hi]
      have h2 : docs[i]? = some docs[i] := by simp [← hlen, hi]
      rw [h1, h2, Option.map_some, Option.map_some, hex i _ _ h1 h2]
    · rw [List.getElem?_eq_none (by omega), List.getElem?_eq_none (by omega)]; rfl
  · intro i doc hi
    have hl : i < docs.length := by rw [← hlen]; exact (List.getElem?_eq_some_iff.mp hi).1
    have h2 : docs[i]? = some docs[i] := by simp [hl]
    obtain ⟨o, ho1, ho2⟩ := ho i _ h2
    exact ⟨o, ho1, by rw [ho2, hex i _ _ hi h2]⟩

/-- **C25, list of words**, any documents over the mapping (repeated ids, zero or negative counts): each
comes back with distinct ids and, for every id, the total of its counts -/
theorem C25_low_merged {d : PyDict Nat Str} (hd : VocabOk d) {corpus : List (List (Nat × Int))} {file : Str}
    {offs : List Nat} (h : lowSave d corpus = some (file, offs)) :
    ∃ res, lowRead d file = some ((corpus.length : Int), res) ∧ List.Forall₂ Merged corpus res := by
  obtain ⟨docs, hf, hr, ho⟩ := low_file hd h
  refine ⟨_, hr, ?_⟩
  clear hr h ho
  induction hf with
  | nil => exact List.Forall₂.nil
  | cons h1 _ ih => exact List.Forall₂.cons (low_counts hd h1) ih

/-- **C25**: saving refuses exactly the corpora that use an id without a word -/
theorem C25_low_refused (d : PyDict Nat Str) (corpus : List (List (Nat × Int))) :
    lowSave d corpus = none ↔ ∃ doc ∈ corpus, ∃ p ∈ doc, p.1 ∉ keys d := by
  constructor
  · intro h
    by_contra hn
    have : (mapOpt (docWords d) corpus).isSome := mapOpt_isSome_of (fun doc hdoc => by
      rw [docWords_eq (fun p hp => by
        by_contra hk
        exact hn ⟨doc, hdoc, p, hp, hk⟩)]
      rfl)
    obtain ⟨x, hx⟩ := Option.isSome_iff_exists.mp this
    simp [lowSave, hx] at h
  · rintro ⟨doc, hdoc, p, hp, hk⟩
    cases hm : lowSave d corpus with
    | none => rfl
    | some r =>
      rw [lowSave, Option.map_eq_some_iff] at hm
      obtain ⟨docs, hm, _⟩ := hm
      rw [mapOpt_eq_some] at hm
      obtain ⟨i, hi, rfl⟩ := List.mem_iff_getElem.mp hdoc
      have := List.Forall₂.get hm hi (by rw [← hm.length_eq]; exact hi)
      exact absurd (docWords_none this p (by simpa using hp)) hk

/-! ### Mallet -/

theorem split2_line {a b : Str} (ha : Word a) (hb : Word b) {ws : List Str} (h : ∀ w ∈ ws, Word w) :
    split2 (strip uws (a ++ ' ' :: (b ++ ' ' :: (joinWith [' '] ws ++ ['\n'])))) = some (a, b, joinWith [' '] ws) := by
  have htw : ∀ (w t : Str), Word w → (w ++ ' ' :: t).takeWhile (fun c => !uws c) = w ∧
      (w ++ ' ' :: t).dropWhile (fun c => !uws c) = ' ' :: t := by
    intro w t hw
    have hp : ∀ c ∈ w, (fun c => !uws c) c = true := by
      intro c hc; simp [hw.2 c hc]
    have hsp : uws ' ' = true := by decide
    constructor
    · rw [List.takeWhile_append_of_pos hp]; simp [hsp]
    · rw [List.dropWhile_append_of_pos hp]; simp [hsp]
  have htw' : ∀ (w : Str), Word w → w.takeWhile (fun c => !uws c) = w ∧
      w.dropWhile (fun c => !uws c) = [] := by
    intro w hw
    have hp : ∀ c ∈ w, (fun c => !uws c) c = true := by
      intro c hc; simp [hw.2 c hc]
    have h1 := List.takeWhile_append_of_pos (l₂ := []) hp
    have h2 := List.dropWhile_append_of_pos (l₂ := []) hp
    simp only [List.append_nil, List.takeWhile_nil, List.dropWhile_nil] at h1 h2
    exact ⟨h1, h2⟩
  have hdw : ∀ (w t : Str), Word w → (' ' :: (w ++ t)).dropWhile uws = w ++ t := by
    intro w t hw
    have hsp : uws ' ' = true := by decide
    rw [List.dropWhile_cons, if_pos hsp]
    exact lstrip_word hw
  cases ws with
  | nil =>
    have hs : strip uws (a ++ ' ' :: (b ++ ' ' :: (joinWith [' '] [] ++ ['\n']))) = a ++ ' ' :: b := by
      rw [strip, lstrip_word ha]
      have e : a ++ ' ' :: (b ++ ' ' :: (joinWith [' '] [] ++ ['\n'])) = (a ++ ' ' :: b) ++ [' ', '\n'] := by
        simp [joinWith]
      rw [e, rstrip_append_ws (by decide)]
      have e2 : a ++ ' ' :: b = (a ++ [' ']) ++ b := by simp
      rw [e2, rstrip_word hb]
    rw [hs]
    have hb' := hdw b [] hb
    rw [List.append_nil] at hb'
    simp only [split2, (htw a b ha).1, (htw a b ha).2, hb', (htw' b hb).1, (htw' b hb).2]
    simp [ha.1, hb.1, joinWith]
  | cons w ws =>
    obtain ⟨u, hu, _⟩ := joinWith_head (c := ' ') (w := w) (ws := ws)
    obtain ⟨v, x, hx, hv⟩ := joinWith_last (c := ' ') (ws := w :: ws) (by simp)
    have hs : strip uws (a ++ ' ' :: (b ++ ' ' :: (joinWith [' '] (w :: ws) ++ ['\n'])))
        = a ++ ' ' :: (b ++ ' ' :: joinWith [' '] (w :: ws)) := by
      rw [strip, lstrip_word ha]
      have e : a ++ ' ' :: (b ++ ' ' :: (joinWith [' '] (w :: ws) ++ ['\n']))
          = (a ++ ' ' :: (b ++ ' ' :: v) ++ x) ++ ['\n'] := by simp [hv]
      rw [e, rstrip_append_ws (by decide), rstrip_word (h x hx), hv]
      simp
    rw [hs]
    simp only [split2, (htw a _ ha).1, (htw a _ ha).2, hdw b _ hb, (htw b _ hb).1, (htw b _ hb).2]
    rw [hu, hdw w u (h w (by simp))]
    simp [ha.1, hb.1]

theorem malletLine_eq {d : PyDict Nat Str} {n : Nat} {ws : List Str} (h : ∀ w ∈ ws, Word w) :
    malletLine2doc (rev d) (showNat n ++ ' ' :: ("__unknown__".toList ++ ' ' :: (joinWith [' '] ws ++ ['\n'])))
      = some (lowWords2doc (rev d) ws, showNat n, "__unknown__".toList) := by
  have ha : Word (showNat n) := ⟨showNat_ne_nil n, fun c hc => not_ws_of_digit (showNat_digit n c hc)⟩
  have hb : Word "__unknown__".toList := ⟨by decide, by decide⟩
  rw [malletLine2doc, split2_line ha hb h, Option.map_some]
  have := splitOnSpace_join h (t := []) (by simp)
  rw [List.append_nil] at this
  simp only [this]

/-- **C25, Mallet**: a saved bag-of-words corpus reads back as itself, document `i` with id `i`, and the
offsets give random access -/
theorem C25_mallet_roundtrip {d : PyDict Nat Str} (hd : VocabOk d) (corpus : List (List (Nat × Int)))
    (hb : ∀ doc ∈ corpus, BowOk d doc) :
    ∃ file offs, malletSave d corpus = some (file, offs) ∧
      malletRead d file = some (corpus.zipIdx.map (fun p => (natCounts p.1, showNat p.2, "__unknown__".toList))) ∧
      ∀ (i : Nat) (doc : List (Nat × Int)), corpus[i]? = some doc → ∃ o, offs[i]? = some o ∧
        malletDocAt d file o = some (natCounts doc, showNat i, "__unknown__".toList) := by
  -- the words of each document
  obtain ⟨docs, hdocs⟩ : ∃ docs, mapOpt (docWords d) corpus = some docs :=
    Option.isSome_iff_exists.mp (mapOpt_isSome_of (fun doc hdoc => by
      obtain ⟨r, hr, _⟩ := low_exact hd (hb doc hdoc)
      simp [hr]))
  have hf := mapOpt_eq_some.mp hdocs
  have hlen := hf.length_eq
  have hget : ∀ (i : Nat) (doc : List (Nat × Int)) (ws : List Str), corpus[i]? = some doc → docs[i]? = some ws →
      lowWords2doc (rev d) ws = natCounts doc ∧ ∀ w ∈ ws, Word w := by
    intro i doc ws h1 h2
    obtain ⟨l1, e1⟩ := List.getElem?_eq_some_iff.mp h1
    obtain ⟨l2, e2⟩ := List.getElem?_eq_some_iff.mp h2
    have := List.Forall₂.get hf l1 l2
    simp only [List.get_eq_getElem, e1, e2] at this
    obtain ⟨r, hr, he⟩ := low_exact hd (hb doc (List.mem_of_getElem? h1))
    refine ⟨?_, docWords_word hd this⟩
    rw [hr] at this
    rw [← Option.some.inj this]; exact he
  have hword : ∀ ws ∈ docs, ∀ w ∈ ws, Word w := by
    intro ws hws
    obtain ⟨i, hi, rfl⟩ := List.mem_iff_getElem.mp hws
    have := List.Forall₂.get hf (i := i) (by rw [hlen]; exact hi) hi
    exact docWords_word hd (by simpa using this)
  have hmap : docs.zipIdx.map (fun p : List Str × Nat =>
      showNat p.2 ++ ' ' :: ("__unknown__".toList ++ ' ' :: (joinWith [' '] p.1 ++ ['\n'])))
      = (docs.zipIdx.map (fun p : List Str × Nat =>
        showNat p.2 ++ ' ' :: ("__unknown__".toList ++ ' ' :: joinWith [' '] p.1))).map (fun l => l ++ ['\n']) := by
    rw [List.map_map]
    apply List.map_congr_left
    intro p _
    simp
  have hnl : ∀ l ∈ docs.zipIdx.map (fun p : List Str × Nat =>
        showNat p.2 ++ ' ' :: ("__unknown__".toList ++ ' ' :: joinWith [' '] p.1)), '\n' ∉ l := by
    intro l hl
    obtain ⟨⟨ws, k⟩, hp, rfl⟩ := List.mem_map.mp hl
    have hws : ws ∈ docs := List.fst_mem_of_mem_zipIdx hp
    intro hc
    simp only [List.mem_append, List.mem_cons] at hc
    rcases hc with hc | hc | hc | hc | hc
    · exact showNat_no _ (by decide) hc
    · exact absurd hc (by decide)
    · exact absurd hc (by decide)
    · exact absurd hc (by decide)
    · exact join_no_nl (hword ws hws) hc
  have hsave : malletSave d corpus = some (saveLines [] (docs.zipIdx.map (fun p : List Str × Nat =>
      showNat p.2 ++ ' ' :: ("__unknown__".toList ++ ' ' :: (joinWith [' '] p.1 ++ ['\n']))))) := by
    rw [malletSave, hdocs]; rfl
  refine ⟨(saveLines [] (docs.zipIdx.map (fun p : List Str × Nat =>
      showNat p.2 ++ ' ' :: ("__unknown__".toList ++ ' ' :: (joinWith [' '] p.1 ++ ['\n']))))).1,
    (saveLines [] (docs.zipIdx.map (fun p : List Str × Nat =>
      showNat p.2 ++ ' ' :: ("__unknown__".toList ++ ' ' :: (joinWith [' '] p.1 ++ ['\n']))))).2, hsave, ?_, ?_⟩
  · rw [malletRead, hmap, pyLines_saved _ hnl, ← hmap, mapOpt_map]
    rw [mapOpt_some (g := fun p : List Str × Nat => (lowWords2doc (rev d) p.1, showNat p.2, "__unknown__".toList))]
    · congr 1
      apply List.ext_getElem?
      intro i
      simp only [List.getElem?_map, List.getElem?_zipIdx]
      by_cases hi : i < corpus.length
      · have h1 : corpus[i]? = some corpus[i] := by simp [hi]
        have h2 : docs[i]? = some docs[i] := by simp [← hlen, hi]
        rw [h1, h2]
        simp [(hget i _ _ h1 h2).1]
      · rw [List.getElem?_eq_none (by omega), List.getElem?_eq_none (by omega)]; rfl
    · rintro ⟨ws, k⟩ hp
      exact malletLine_eq (hword ws (List.fst_mem_of_mem_zipIdx hp))
  · intro i doc hi
    have hl : i < docs.length := by rw [← hlen]; exact (List.getElem?_eq_some_iff.mp hi).1
    have h2 : docs[i]? = some docs[i] := by simp [hl]
    obtain ⟨o, ho, hr⟩ := readline_saved [] _ hnl i
      (showNat i ++ ' ' :: ("__unknown__".toList ++ ' ' :: joinWith [' '] docs[i])) (by simp [List.getElem?_zipIdx, h2])
    rw [← hmap] at ho hr
    refine ⟨o, ho, ?_⟩
    obtain ⟨e1, e2⟩ := hget i _ _ hi h2
    rw [malletDocAt, hr, ← e1, ← malletLine_eq (d := d) (n := i) e2]
    simp

/-- the mapping of the examples -/
def exVocab : PyDict Nat Str := [(2, ['a', 'b']), (0, ['c']), (5, ['d', 'é'])]

example : VocabOk exVocab := ⟨by unfold WF; decide, by decide, by
  intro w hw
  simp only [exVocab, values, List.map_cons, List.map_nil, List.mem_cons, List.not_mem_nil, or_false] at hw
  rcases hw with rfl | rfl | rfl <;> exact ⟨by decide, by decide⟩⟩

example : BowOk exVocab [(5, 2), (2, 1)] := by
  refine ⟨by decide, ?_⟩
  intro p hp
  simp only [List.mem_cons, List.not_mem_nil, or_false] at hp
  rcases hp with rfl | rfl <;> decide

example : lowSave exVocab [[(5, 2), (2, 1)], [], [(0, 1), (2, -3), (0, 2)]]
      = some ("3\ndé dé ab\n\nc c c\n".toList, [2, 11, 12]) ∧
    lowRead exVocab "3\ndé dé ab\n\nc c c\n".toList = some (3, [[(5, 2), (2, 1)], [], [(0, 3)]]) ∧
    malletSave exVocab [[(5, 2)], []] = some ("0 __unknown__ dé dé\n1 __unknown__ \n".toList, [0, 20]) := by
  decide +kernel

/-- **C25.** Saving in the Mallet format is refused exactly when an id has no word, as in the list-of-words format. -/
theorem C25_mallet_refused (d : PyDict Nat Str) (corpus : List (List (Nat × Int))) :
    malletSave d corpus = none ↔ ∃ doc ∈ corpus, ∃ p ∈ doc, p.1 ∉ keys d := by
  rw [← C25_low_refused]
  unfold malletSave lowSave
  simp

end Verif.Formats
