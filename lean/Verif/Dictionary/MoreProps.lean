import Verif.Dictionary.MoreModel
import Verif.Dictionary.Props

/-! Properties C61 (`patch_with_special_tokens`) and C62 (`from_corpus`). -/

namespace Verif.Dictionary
open Verif PyDict

variable {τ : Type} [LinearOrder τ]

/-! ### C61 -/

/-- what a reverse lookup needs: ids injective, and the cache right or of a different size -/
structure LookupOK (d : Dct τ) : Prop where
  wf : WF d.token2id
  inj : ∀ w w' i, idOf d w = some i → idOf d w' = some i → w = w'
  lt : ∀ w i, idOf d w = some i → i < d.len
  cache : d.id2token.length ≠ d.token2id.length ∨
    (WF d.id2token ∧ ∀ p ∈ d.id2token, (p.2, p.1) ∈ d.token2id)

theorem LookupOK.nodup {d : Dct τ} (h : LookupOK d) : (values d.token2id).Nodup := by
  have : ∀ t : PyDict τ Nat, WF t → (∀ w w' i, (w, i) ∈ t → (w', i) ∈ t → w = w') →
      (values t).Nodup := by
    intro t ht hi
    induction t with
    | nil => simp [values]
    | cons p t ih =>
      obtain ⟨w, i⟩ := p
      simp only [values, List.map_cons, List.nodup_cons]
      simp only [WF, keys_cons, List.nodup_cons] at ht
      refine ⟨?_, ih ht.2 (fun a b j h1 h2 => hi a b j (by simp [h1]) (by simp [h2]))⟩
      intro hm
      obtain ⟨⟨w', i'⟩, hq, e⟩ := List.mem_map.mp hm
      simp only at e; subst e
      have := hi w w' i' (by simp) (by simp [hq])
      subst this
      exact ht.1 (mem_keys_of_mem hq)
  exact this _ h.wf (fun w w' i h1 h2 => h.inj w w' i (get?_of_mem h.wf h1) (get?_of_mem h.wf h2))

theorem LookupOK.perm {d : Dct τ} (h : LookupOK d) :
    (values d.token2id).Perm (List.range d.token2id.length) := by
  refine (List.subperm_of_subset h.nodup ?_).perm_of_length_le (by simp [values])
  intro i hi
  obtain ⟨p, hp, rfl⟩ := List.mem_map.mp hi
  exact List.mem_range.mpr (h.lt p.1 p.2 (get?_of_mem h.wf hp))

theorem LookupOK.getitem {d : Dct τ} (h : LookupOK d) (i : Nat) (w : τ) :
    (getitem d i).2 = some w ↔ idOf d w = some i := by
  rcases h.cache with hc | ⟨hw, hs⟩
  · have e : refresh d = { d with id2token := revdict d.token2id } := by simp [refresh, hc]
    unfold Dictionary.getitem
    rw [e]
    show get? (revdict d.token2id) i = some w ↔ get? d.token2id w = some i
    have hwf : WF (revdict d.token2id) := WF_ofPairs _
    rw [get?_eq_some_iff hwf, get?_eq_some_iff h.wf, revdict_eq h.nodup]
    simp
  · let d0 : Dct τ := { d with dfs := (values d.token2id).map (fun i => (i, 0)), cfs := [] }
    have hk : keys d0.dfs = values d.token2id := by simp [d0, keys, Function.comp_def]
    have hinv : Inv d0 :=
      { wf := h.wf, dense := h.perm, dfsWF := by unfold WF; rw [hk]; exact h.nodup,
        cfsWF := WF_nil,
        dfsKeys := by intro j; rw [hk, h.perm.mem_iff, List.mem_range]
        cfsKeys := by intro j hj; simp [d0] at hj
        cacheWF := hw, cache := hs }
    have := getitem_spec hinv i w
    have e : (Dictionary.getitem d0 i).2 = (Dictionary.getitem d i).2 := by
      unfold Dictionary.getitem refresh
      show get? (if d.id2token.length ≠ d.token2id.length then _ else _ : Dct τ).id2token i = _
      by_cases hl : d.id2token.length = d.token2id.length <;> simp [hl, d0]
    rw [e] at this
    exact this

theorem lookupOK_of_inv {d : Dct τ} (h : Inv d) : LookupOK d where
  wf := h.wf
  inj := fun _ _ _ h1 h2 => idOf_inj h h1 h2
  lt := fun _ _ h1 => idOf_lt h h1
  cache := Or.inr ⟨h.cacheWF, h.cache⟩

theorem refresh_token2id (d : Dct τ) : (refresh d).token2id = d.token2id := by
  rcases refresh_cases d with e | ⟨e, _⟩ <;> rw [e]

theorem refresh_length {d : Dct τ} (h : LookupOK d) :
    (refresh d).id2token.length = d.token2id.length := by
  rcases refresh_cases d with e | ⟨e, hl⟩
  · rw [e]
    show (revdict d.token2id).length = _
    rw [revdict_eq h.nodup]; simp
  · rw [e]; exact hl

/-- the effect of patching one token that is not in the dictionary -/
theorem patchOne_new {d : Dct τ} (h : LookupOK d) (tok : τ) (idx : Nat) (hn : ¬ known d tok)
    (hi : idx < d.len) :
    ∃ d', patchOne d [] tok idx = some (d', []) ∧ LookupOK d' ∧ d'.len = d.len + 1 ∧
      (∀ w, idOf d' w = if w = tok then some idx else
        if idOf d w = some idx then some d.len else idOf d w) ∧
      d'.dfs = d.dfs ∧ d'.cfs = d.cfs ∧ d'.numDocs = d.numDocs := by
  have hnone : get? d.token2id tok = none := by
    cases hh : get? d.token2id tok with
    | none => rfl
    | some j => exact absurd (by simp [known, idOf, hh]) hn
  have hnk : tok ∉ keys d.token2id := (get?_eq_none_iff _ _).mp hnone
  have hv : idx ∈ values d.token2id := by rw [h.perm.mem_iff, List.mem_range]; exact hi
  obtain ⟨⟨old, j⟩, hp, e⟩ := List.mem_map.mp hv
  simp only at e; subst e
  have hold : idOf d old = some j := get?_of_mem h.wf hp
  have hget : (getitem d j).2 = some old := (h.getitem j old).mpr hold
  have hget' : getitem d j = (refresh d, some old) := by
    unfold getitem at hget ⊢; rw [← hget]
  have hlen : (set d.token2id tok j).length = d.len + 1 := length_set_of_not_mem hnk _
  have hne : old ≠ tok := by rintro rfl; exact hn (by simp [known, hold])
  have holdk : old ∈ keys (set d.token2id tok j) := by
    rw [mem_keys_set]; exact Or.inr (mem_keys_of_mem hp)
  refine ⟨{ refresh d with token2id := set (set d.token2id tok j) old d.len }, ?_, ?_, ?_, ?_, ?_, ?_, ?_⟩
  · unfold patchOne
    rw [hnone]
    simp only [reduceCtorEq, if_false, hget', List.getLast?_nil, refresh_token2id, hlen]
    simp
  · have hid : ∀ w, idOf { refresh d with token2id := set (set d.token2id tok j) old d.len } w =
        if w = tok then some j else if idOf d w = some j then some d.len else idOf d w := by
      intro w
      show get? (set (set d.token2id tok j) old d.len) w = _
      rw [get?_set, get?_set]
      by_cases h1 : w = tok
      · subst h1; simp [hne]
      · by_cases h2 : old = w
        · subst h2; simp [h1, hold]
        · have h3 : idOf d w ≠ some j := fun hh => h2 (h.inj _ _ _ hold hh)
          have h3' : get? d.token2id w ≠ some j := h3
          have h4 : ¬ tok = w := fun e => h1 e.symm
          simp [h1, h2, h3', h4, idOf]
    have hl' : ({ refresh d with token2id := set (set d.token2id tok j) old d.len } : Dct τ).len =
        d.len + 1 := by
      show (set (set d.token2id tok j) old d.len).length = _
      rw [length_set_of_mem holdk, hlen]
    refine ⟨WF_set (WF_set h.wf _ _) _ _, ?_, ?_, ?_⟩
    · intro w w' i h1 h2
      rw [hid] at h1 h2
      have hlt := h.lt
      have hinj := h.inj
      by_cases a1 : w = tok <;> by_cases a2 : w' = tok
      · rw [a1, a2]
      · simp only [a1, if_true, a2, if_false] at h1 h2
        cases h1
        by_cases a3 : idOf d w' = some j
        · simp only [a3, if_true, Option.some.injEq] at h2; omega
        · simp only [a3, if_false] at h2
      · simp only [a1, if_false, a2, if_true] at h1 h2
        cases h2
        by_cases a3 : idOf d w = some j
        · simp only [a3, if_true, Option.some.injEq] at h1; omega
        · simp only [a3, if_false] at h1
      · simp only [a1, a2, if_false] at h1 h2
        by_cases a3 : idOf d w = some j <;> by_cases a4 : idOf d w' = some j
        · exact hinj _ _ _ a3 a4
        · simp only [a3, if_true, a4, if_false, Option.some.injEq] at h1 h2
          subst h1; have := hlt _ _ h2; omega
        · simp only [a3, if_false, a4, if_true, Option.some.injEq] at h1 h2
          subst h2; have := hlt _ _ h1; omega
        · simp only [a3, a4, if_false] at h1 h2; exact hinj _ _ _ h1 h2
    · intro w i h1
      rw [hid] at h1
      rw [hl']
      by_cases a1 : w = tok
      · simp only [a1, if_true, Option.some.injEq] at h1; omega
      · by_cases a3 : idOf d w = some j
        · simp only [a1, a3, if_true, if_false, Option.some.injEq] at h1; omega
        · simp only [a1, a3, if_false] at h1; have := h.lt _ _ h1; omega
    · left
      show (refresh d).id2token.length ≠ (set (set d.token2id tok j) old d.len).length
      rw [refresh_length h, length_set_of_mem holdk, hlen]
      unfold Dct.len; omega
  · show (set (set d.token2id tok j) old d.len).length = _
    rw [length_set_of_mem holdk, hlen]
  · intro w
    show get? (set (set d.token2id tok j) old d.len) w = _
    rw [get?_set, get?_set]
    by_cases h1 : w = tok
    · subst h1; simp [hne]
    · by_cases h2 : old = w
      · subst h2; simp [h1, hold]
      · have h3 : idOf d w ≠ some j := fun hh => h2 (h.inj _ _ _ hold hh)
        have h3' : get? d.token2id w ≠ some j := h3
        have h4 : ¬ tok = w := fun e => h1 e.symm
        simp [h1, h2, h3', h4, idOf]
  · rcases refresh_cases d with e | ⟨e, _⟩ <;> rw [e]
  · rcases refresh_cases d with e | ⟨e, _⟩ <;> rw [e]
  · rcases refresh_cases d with e | ⟨e, _⟩ <;> rw [e]

theorem patchLoop_new (special : List (τ × Nat)) {d : Dct τ} (h : LookupOK d)
    (hnew : ∀ p ∈ special, ¬ known d p.1) (hi : ∀ p ∈ special, p.2 < d.len)
    (hnd : (special.map Prod.fst).Nodup) (hni : (special.map Prod.snd).Nodup) :
    ∃ d', patchLoop special d [] = some d' ∧ LookupOK d' ∧ d'.len = d.len + special.length ∧
      (∀ p ∈ special, idOf d' p.1 = some p.2) ∧
      (∀ w i, idOf d w = some i → i ∉ special.map Prod.snd → idOf d' w = some i) ∧
      (∀ w, known d' w ↔ known d w ∨ w ∈ special.map Prod.fst) ∧
      d'.dfs = d.dfs ∧ d'.cfs = d.cfs ∧ d'.numDocs = d.numDocs := by
  induction special generalizing d with
  | nil => exact ⟨d, rfl, h, by simp, by simp, fun _ _ h _ => h, by simp, rfl, rfl, rfl⟩
  | cons p ps ih =>
    obtain ⟨tok, idx⟩ := p
    simp only [List.map_cons, List.nodup_cons] at hnd hni
    obtain ⟨d1, e1, ok1, len1, id1, f1, f2, f3⟩ :=
      patchOne_new h tok idx (hnew (tok, idx) (by simp)) (hi (tok, idx) (by simp))
    have hkn1 : ∀ w, known d1 w ↔ w = tok ∨ known d w := by
      intro w
      unfold known
      rw [id1]
      by_cases a1 : w = tok
      · simp [a1]
      · by_cases a2 : idOf d w = some idx <;> simp [a1, a2]
    obtain ⟨d2, e2, ok2, len2, a, b, c, g1, g2, g3⟩ := ih (d := d1) ok1
      (by
        intro q hq hk
        rcases (hkn1 q.1).mp hk with e | e
        · exact hnd.1 (e ▸ List.mem_map.mpr ⟨q, hq, rfl⟩)
        · exact hnew q (by simp [hq]) e)
      (by intro q hq; have := hi q (by simp [hq]); omega) hnd.2 hni.2
    refine ⟨d2, ?_, ok2, by simp; omega, ?_, ?_, ?_, by rw [g1, f1], by rw [g2, f2], by rw [g3, f3]⟩
    · unfold patchLoop
      rw [e1]; exact e2
    · intro q hq
      rcases List.mem_cons.mp hq with rfl | hq
      · exact b tok idx (by rw [id1, if_pos rfl]) hni.1
      · exact a q hq
    · intro w i hw hni'
      simp only [List.map_cons, List.mem_cons, not_or] at hni'
      apply b w i _ hni'.2
      rw [id1]
      have h1 : w ≠ tok := by
        rintro rfl; exact hnew (w, idx) (by simp) (by simp [known, hw])
      have h2 : idOf d w ≠ some idx := by rw [hw]; simpa using hni'.1
      rw [if_neg h1, if_neg h2, hw]
    · intro w
      rw [c, hkn1]; simp; tauto

/-- **C61.** Patching any reachable dictionary with special tokens it does not know yet, at distinct
existing ids: the call succeeds, every special token gets the id asked for, tokens at other ids keep
theirs, no token is lost, and the ids are again exactly `0 .. n-1` without repetition. -/
theorem C61_patch_new_tokens {d : Dct τ} (h : Reachable d) (special : List (τ × Nat))
    (hnew : ∀ p ∈ special, ¬ known d p.1) (hi : ∀ p ∈ special, p.2 < d.len)
    (hnd : (special.map Prod.fst).Nodup) (hni : (special.map Prod.snd).Nodup) :
    ∃ d', patchWithSpecialTokens d special = some d' ∧
      (∀ p ∈ special, idOf d' p.1 = some p.2) ∧
      (∀ w i, idOf d w = some i → (∀ p ∈ special, p.2 ≠ i) → idOf d' w = some i) ∧
      (∀ w, known d' w ↔ known d w ∨ ∃ p ∈ special, p.1 = w) ∧
      (∀ w w' i, idOf d' w = some i → idOf d' w' = some i → w = w') ∧
      (∀ i, (∃ w, idOf d' w = some i) ↔ i < d.len + special.length) := by
  obtain ⟨d', e, ok, len', a, b, c, _⟩ := patchLoop_new special (lookupOK_of_inv h.inv) hnew hi hnd hni
  refine ⟨{ d' with id2token := [] }, by simp [patchWithSpecialTokens, e], a, ?_, ?_, ok.inj, ?_⟩
  · intro w i hw hne
    apply b w i hw
    intro hm
    obtain ⟨p, hp, e⟩ := List.mem_map.mp hm
    exact hne p hp e
  · intro w
    have := c w
    simp only [List.mem_map] at this
    exact this
  · intro i
    constructor
    · rintro ⟨w, hw⟩
      have := ok.lt w i hw
      omega
    · intro hlt
      have : i ∈ values d'.token2id := by
        rw [ok.perm.mem_iff, List.mem_range]
        show i < d'.len
        omega
      obtain ⟨p, hp, rfl⟩ := List.mem_map.mp this
      exact ⟨p.1, get?_of_mem ok.wf hp⟩

example : (∀ p ∈ [(7, 0), (8, 3)], ¬ known demo p.1) ∧ (∀ p ∈ [((7 : Nat), 0), (8, 3)], p.2 < demo.len) ∧
    (patchWithSpecialTokens demo [(7, 0), (8, 3)]).map (fun d => d.token2id) =
      some [(10, 5), (30, 1), (20, 2), (50, 6), (40, 4), (7, 0), (8, 3)] := by decide

/-- **C61, negative.** Moving two tokens the dictionary already knows raises `KeyError`: the second
reverse lookup uses the map cached before the first move because both have the same size. -/
theorem C61_patch_known_tokens_fails :
    ∃ d : Dct Nat, Reachable d ∧ d.id2token = [] ∧
      (∀ p ∈ [((30 : Nat), 0), (40, 2)], known d p.1 ∧ p.2 < d.len) ∧
      patchWithSpecialTokens d [(30, 0), (40, 2)] = none :=
  ⟨[[10, 20, 30, 40]].foldl update empty, reachable_foldl .empty _, by decide, by decide, by decide⟩

/-- **C61, negative.** Even a single known token fails if a reverse lookup happened earlier in the
history: the cached map has the size the dictionary has while the token is taken out. -/
theorem C61_patch_one_known_token_fails :
    ∃ d : Dct Nat, Reachable d ∧ known d 10 ∧ 2 < d.len ∧ patchWithSpecialTokens d [(10, 2)] = none :=
  ⟨update (getitem (update empty [10, 20]) 0).1 [30], .update _ (.lookup _ (.update _ .empty)),
    by decide, by decide, by decide⟩

/-- **C61, negative.** Document frequencies are not moved with the ids: after a successful patch the
displaced token has no document frequency and the special token inherits that of the displaced one. -/
theorem C61_patch_leaves_dfs :
    ∃ (d d' : Dct Nat), Reachable d ∧ patchWithSpecialTokens d [(99, 0)] = some d' ∧
      dfOf d 10 = some 3 ∧ dfOf d' 10 = none ∧ dfOf d' 99 = some 3 :=
  ⟨demo, (patchWithSpecialTokens demo [(99, 0)]).get (by decide), reachable_demo, by simp, by decide,
    by decide, by decide⟩

/-! ### C62 -/

/-- Spec: the number of vectors that have an entry for id `i` -/
def idDocFreq (corpus : List (List (Nat × Nat))) (i : Nat) : Nat :=
  (corpus.filter (fun doc => decide (i ∈ doc.map Prod.fst))).length

theorem getD_scanFold (doc : List (Nat × Nat)) (t : PyDict Nat Nat) (hn : (doc.map Prod.fst).Nodup)
    (i : Nat) : getD (doc.foldl (fun t p => set t p.1 (getD t p.1 0 + 1)) t) i 0 =
      getD t i 0 + if i ∈ doc.map Prod.fst then 1 else 0 := by
  induction doc generalizing t with
  | nil => simp
  | cons p doc ih =>
    simp only [List.map_cons, List.nodup_cons] at hn
    rw [List.foldl_cons, ih _ hn.2]
    by_cases e : p.1 = i
    · subst e
      simp [getD, hn.1]
    · have e' : ¬ i = p.1 := fun h => e h.symm
      simp only [getD, get?_set_ne _ e, List.map_cons, List.mem_cons, e', false_or]

theorem scan_spec (corpus : List (List (Nat × Nat))) (d : Dct τ)
    (hn : ∀ doc ∈ corpus, (doc.map Prod.fst).Nodup) :
    (∀ i, getD (corpus.foldl scanDoc d).dfs i 0 = getD d.dfs i 0 + idDocFreq corpus i) ∧
    (corpus.foldl scanDoc d).numDocs = d.numDocs + corpus.length ∧
    (corpus.foldl scanDoc d).numNnz = d.numNnz + (corpus.map List.length).sum ∧
    (corpus.foldl scanDoc d).numPos = d.numPos + (corpus.map (fun doc => (doc.map Prod.snd).sum)).sum := by
  induction corpus generalizing d with
  | nil => simp [idDocFreq]
  | cons doc corpus ih =>
    obtain ⟨i1, i2, i3, i4⟩ := ih (scanDoc d doc) (fun x hx => hn x (by simp [hx]))
    refine ⟨?_, ?_, ?_, ?_⟩
    · intro i
      rw [List.foldl_cons, i1]
      show getD (doc.foldl (fun t p => set t p.1 (getD t p.1 0 + 1)) d.dfs) i 0 + _ = _
      rw [getD_scanFold doc _ (hn doc (by simp))]
      unfold idDocFreq
      by_cases hi : i ∈ doc.map Prod.fst
      · simp only [hi, if_true, List.filter_cons, decide_true, List.length_cons]; omega
      · simp only [hi, if_false, List.filter_cons, decide_false, if_neg Bool.false_ne_true]; omega
    · rw [List.foldl_cons, i2]; show d.numDocs + 1 + _ = _; simp; omega
    · rw [List.foldl_cons, i3]; show d.numNnz + doc.length + _ = _; simp; omega
    · rw [List.foldl_cons, i4]; show d.numPos + (doc.map Prod.snd).sum + _ = _; simp; omega

theorem get?_fillDfs (ids : List Nat) (t : PyDict Nat Nat) (i : Nat) :
    get? (fillDfs t ids) i = if i ∈ ids then some (getD t i 0) else get? t i := by
  induction ids generalizing t with
  | nil => simp [fillDfs]
  | cons j ids ih =>
    show get? (fillDfs (set t j (getD t j 0)) ids) i = _
    rw [ih]
    by_cases e : j = i
    · subst e; simp [getD]
    · have e' : ¬ i = j := fun h => e h.symm
      simp [getD, get?_set_ne _ e, e']

/-- **C62.** `from_corpus(corpus, id2word)` with distinct words: the words of the mapping get their
ids, document frequencies count the vectors having the id (vectors without repeated ids), and the
counters are the exact totals. -/
theorem C62_from_corpus_counts (corpus : List (List (Nat × Nat))) (id2word : List (Nat × τ))
    (hw : (id2word.map Prod.snd).Nodup) (hn : ∀ doc ∈ corpus, (doc.map Prod.fst).Nodup) :
    let r := fromCorpus corpus id2word
    (∀ i w, idOf r w = some i ↔ (i, w) ∈ id2word) ∧
    (∀ i w, (i, w) ∈ id2word → dfOf r w = some (idDocFreq corpus i)) ∧
    r.numDocs = corpus.length ∧ r.numNnz = (corpus.map List.length).sum ∧
    r.numPos = (corpus.map (fun doc => (doc.map Prod.snd).sum)).sum := by
  have hwf : WF (id2word.map (fun p => (p.2, p.1))) := by
    simpa [WF, keys, Function.comp_def] using hw
  have ht : (fromCorpus corpus id2word).token2id = id2word.map (fun p => (p.2, p.1)) :=
    ofPairs_of_WF hwf
  obtain ⟨s1, s2, s3, s4⟩ := scan_spec corpus (empty : Dct τ) hn
  have hid : ∀ i w, idOf (fromCorpus corpus id2word) w = some i ↔ (i, w) ∈ id2word := by
    intro i w
    unfold idOf
    rw [ht, get?_eq_some_iff hwf]
    simp
  refine ⟨hid, ?_, by simpa [empty, fromCorpus] using s2,
    by simpa [empty, fromCorpus] using s3, by simpa [empty, fromCorpus] using s4⟩
  intro i w hm
  have h1 := (hid i w).mpr hm
  unfold dfOf
  rw [h1]
  show get? (fillDfs (corpus.foldl scanDoc empty).dfs (values (fromCorpus corpus id2word).token2id)) i = _
  rw [get?_fillDfs, if_pos, s1]
  · simp [getD, empty]
  · rw [ht]; simp only [values, List.map_map, List.mem_map]; exact ⟨(i, w), hm, rfl⟩

theorem sum_bow {d : Dct τ} (h : Reachable d) (doc : List τ) (hk : ∀ w ∈ doc, known d w) :
    ((bow d doc).map Prod.snd).sum = doc.length ∧ (bow d doc).length = doc.dedup.length := by
  have hp := pySort_perm (fun a b : Nat × Nat => decide (a.1 ≤ b.1)) (bowDict d.token2id (counter doc))
  have key : ∀ c : PyDict τ Nat, (∀ p ∈ c, p.1 ∈ keys d.token2id) →
      (c.filterMap (fun p => (get? d.token2id p.1).map (fun i => (i, p.2)))).map Prod.snd = values c := by
    intro c hc
    induction c with
    | nil => rfl
    | cons p c ih =>
      obtain ⟨i, hi⟩ := Option.isSome_iff_exists.mp ((get?_isSome_iff _ _).mpr (hc p (by simp)))
      simp only [List.filterMap_cons, hi, Option.map_some, List.map_cons, values]
      rw [ih (fun q hq => hc q (by simp [hq]))]; rfl
  have hc : ∀ p ∈ counter doc, p.1 ∈ keys d.token2id := by
    intro p hp
    rw [← known_iff]
    exact hk _ ((mem_keys_counter doc p.1).mp (mem_keys_of_mem (v := p.2) hp))
  have hb : (bowDict d.token2id (counter doc)).map Prod.snd = values (counter doc) := by
    rw [bowDict_eq h.inv.nodup (WF_counter doc)]; exact key _ hc
  constructor
  · unfold bow
    rw [(hp.map Prod.snd).sum_nat, hb, sum_counter]
  · unfold bow
    rw [hp.length_eq, ← length_counter]
    have := congrArg List.length hb
    simpa [values] using this

/-- **C62.** Rebuilding a dictionary from the vectors it produced: for any documents, the dictionary
`from_corpus([d.doc2bow(doc) ...], id2word=d)` has the ids, document frequencies and counters of
`d`. -/
theorem C62_from_corpus_rebuilds (docs : List (List τ)) {d : Dct τ} {its : List (Nat × τ)}
    (hd : addDocuments empty docs none = some d) (hits : items d = some its) :
    let r := fromCorpus (docs.map (bow d)) its
    (∀ w, idOf r w = idOf d w) ∧ (∀ w, dfOf r w = dfOf d w) ∧
    r.numDocs = d.numDocs ∧ r.numPos = d.numPos ∧ r.numNnz = d.numNnz := by
  have hr : Reachable d := .addDocuments docs none .empty hd
  rw [items_some hr.inv] at hits
  cases hits
  obtain ⟨d2, e, hkn, hdf, hnd, hnp, hnz⟩ := C03_statistics_exact docs none (by simp)
  rw [hd] at e; cases e
  have hndw : ((d.token2id.map (fun p => (p.2, p.1))).map Prod.snd).Nodup := by
    simpa [Function.comp_def, WF, keys] using hr.inv.wf
  have hndi : ∀ v ∈ docs.map (bow d), (v.map Prod.fst).Nodup := by
    intro v hv
    obtain ⟨doc, _, rfl⟩ := List.mem_map.mp hv
    exact List.pairwise_map.mpr ((C02_doc2bow_exact hr doc).1.imp (fun h => Nat.ne_of_lt h))
  obtain ⟨c1, c2, c3, c4, c5⟩ := C62_from_corpus_counts (docs.map (bow d)) _ hndw hndi
  have hall : ∀ doc ∈ docs, ∀ w ∈ doc, known d w := fun doc hm w hw => (hkn w).mpr ⟨doc, hm, hw⟩
  have hid : ∀ w, idOf (fromCorpus (docs.map (bow d)) (d.token2id.map (fun p => (p.2, p.1)))) w =
      idOf d w := by
    intro w
    cases hh : idOf d w with
    | some i =>
      exact (c1 i w).mpr (List.mem_map.mpr ⟨(w, i), mem_of_get? hh, rfl⟩)
    | none =>
      cases hh' : idOf (fromCorpus (docs.map (bow d)) (d.token2id.map (fun p => (p.2, p.1)))) w with
      | none => rfl
      | some i =>
        obtain ⟨p, hp, e⟩ := List.mem_map.mp ((c1 i w).mp hh')
        cases e
        have : idOf d p.1 = some p.2 := get?_of_mem hr.inv.wf hp
        rw [this] at hh; cases hh
  refine ⟨hid, ?_, by rw [c3, hnd]; simp, ?_, ?_⟩
  · intro w
    cases hh : idOf d w with
    | none => simp [dfOf, hid, hh]
    | some i =>
      rw [c2 i w (List.mem_map.mpr ⟨(w, i), mem_of_get? hh, rfl⟩),
        (hdf w (by simp [known, hh])).1]
      congr 1
      unfold idDocFreq docFreq
      rw [List.filter_map, List.length_map]
      congr 1
      apply List.filter_congr
      intro doc _
      simp only [Function.comp_apply, decide_eq_decide]
      constructor
      · intro hm
        obtain ⟨⟨a, n⟩, hp, rfl⟩ := List.mem_map.mp hm
        obtain ⟨w', hw', hi', _⟩ := ((C02_doc2bow_exact hr doc).2 a n).mp hp
        rw [idOf_inj hr.inv hh hi']; exact hw'
      · intro hw
        exact List.mem_map.mpr ⟨(i, doc.count w),
          ((C02_doc2bow_exact hr doc).2 _ _).mpr ⟨w, hw, hh, rfl⟩, rfl⟩
  · rw [c5, hnp]
    unfold positions
    rw [List.map_map]
    congr 1
    apply List.map_congr_left
    intro doc hm
    exact (sum_bow hr doc (hall doc hm)).1
  · rw [c4, hnz]
    unfold nnz
    rw [List.map_map]
    congr 1
    apply List.map_congr_left
    intro doc hm
    exact (sum_bow hr doc (hall doc hm)).2

/-- **C62, negative.** Collection frequencies are not restored. -/
theorem C62_from_corpus_no_cfs (corpus : List (List (Nat × Nat))) (id2word : List (Nat × τ)) (w : τ) :
    cfOf (fromCorpus corpus id2word) w = none := by
  have : (fromCorpus corpus id2word).cfs = [] := by
    show (corpus.foldl scanDoc empty).cfs = []
    have : ∀ d : Dct τ, (corpus.foldl scanDoc d).cfs = d.cfs := by
      intro d
      induction corpus generalizing d with
      | nil => rfl
      | cons doc corpus ih => rw [List.foldl_cons, ih]; rfl
    rw [this]; rfl
  unfold cfOf
  rw [this]
  cases idOf (fromCorpus corpus id2word) w <;> rfl

/-- **C62.** Without a mapping the dictionary has one word per id up to the largest id used. -/
theorem C62_from_corpus_plain (name : Nat → τ) (hname : ∀ i j, name i = name j → i = j)
    (corpus : List (List (Nat × Nat))) (hn : ∀ doc ∈ corpus, (doc.map Prod.fst).Nodup) :
    (∀ i, (∃ w, idOf (fromCorpusPlain name corpus) w = some i) ↔
      ∃ doc ∈ corpus, ∃ p ∈ doc, i ≤ p.1) ∧
    (∀ i w, idOf (fromCorpusPlain name corpus) w = some i → w = name i ∧
      dfOf (fromCorpusPlain name corpus) w = some (idDocFreq corpus i)) := by
  have hmax : ∀ (l : List Nat) (a : Nat) (i : Nat), i < l.foldl max a ↔ i < a ∨ ∃ x ∈ l, i < x := by
    intro l
    induction l with
    | nil => simp
    | cons x l ih =>
      intro a i
      rw [List.foldl_cons, ih]
      simp only [List.mem_cons, exists_eq_or_imp]
      have : i < max a x ↔ i < a ∨ i < x := by omega
      rw [this, or_assoc]
  generalize hN : (corpus.flatten.map (fun p => p.1 + 1)).foldl max 0 = N
  have hnd : (((List.range N).map (fun i => (i, name i))).map Prod.snd).Nodup := by
    rw [List.map_map]
    exact List.Nodup.map (fun a b h => hname a b h) List.nodup_range
  obtain ⟨c1, c2, _⟩ := C62_from_corpus_counts corpus ((List.range N).map (fun i => (i, name i))) hnd hn
  have hdef : fromCorpusPlain name corpus = fromCorpus corpus ((List.range N).map (fun i => (i, name i))) := by
    unfold fromCorpusPlain; rw [hN]
  rw [hdef]
  constructor
  · intro i
    have : (∃ w, idOf (fromCorpus corpus ((List.range N).map (fun i => (i, name i)))) w = some i) ↔ i < N := by
      constructor
      · rintro ⟨w, hw⟩
        have := (c1 i w).mp hw
        simp only [List.mem_map, List.mem_range, Prod.mk.injEq] at this
        obtain ⟨j, hj, rfl, _⟩ := this
        exact hj
      · intro h
        exact ⟨name i, (c1 i _).mpr (List.mem_map.mpr ⟨i, List.mem_range.mpr h, rfl⟩)⟩
    rw [this, ← hN, hmax]
    simp only [Nat.not_lt_zero, false_or, List.mem_map, List.mem_flatten]
    constructor
    · rintro ⟨x, ⟨p, ⟨doc, hd, hp⟩, rfl⟩, hlt⟩
      exact ⟨doc, hd, p, hp, by omega⟩
    · rintro ⟨doc, hd, p, hp, hle⟩
      exact ⟨p.1 + 1, ⟨p, ⟨doc, hd, hp⟩, rfl⟩, by omega⟩
  · intro i w hw
    have hm := (c1 i w).mp hw
    refine ⟨?_, c2 i w hm⟩
    simp only [List.mem_map, List.mem_range, Prod.mk.injEq] at hm
    obtain ⟨j, _, rfl, rfl⟩ := hm
    rfl

example : addDocuments empty demoDocs none = some demo ∧ (items demo).isSome ∧
    (fromCorpus (demoDocs.map (bow demo)) [(0, 10), (1, 30), (2, 20), (3, 50), (4, 40)]).dfs =
      [(0, 3), (1, 1), (2, 2), (3, 1), (4, 1)] := by decide

end Verif.Dictionary
