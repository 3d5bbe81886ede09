import Verif.Dictionary.Props

/-! Property C08: `merge_with`. -/

namespace Verif.Dictionary
open Verif PyDict

variable {τ : Type} [LinearOrder τ]

/-- one iteration of the merge loop -/
def mergeStep (odfs : PyDict Nat Nat) (d : Dct τ) (oid : Nat) (tok : τ) : Dct τ :=
  mergeDf odfs (mergeTok d tok).1 (mergeTok d tok).2 oid

theorem inv_mergeStep (odfs : PyDict Nat Nat) {d : Dct τ} (h : Inv d) (oid : Nat) (tok : τ) :
    Inv (mergeStep odfs d oid tok) := inv_mergeDf odfs (inv_mergeTok h tok) _ _

theorem idOf_mergeTok (d : Dct τ) (tok w : τ) :
    idOf (mergeTok d tok).1 w = if w = tok then some (mergeTok d tok).2 else idOf d w := by
  by_cases hw : w = tok
  · subst hw; rw [if_pos rfl]; exact mergeTok_get w
  · rw [if_neg hw]
    unfold mergeTok idOf
    cases hg : get? d.token2id tok with
    | some i => rfl
    | none => exact get?_set_ne _ (fun e => hw e.symm) _

theorem idOf_mergeStep (odfs : PyDict Nat Nat) (d : Dct τ) (oid : Nat) (tok w : τ) :
    idOf (mergeStep odfs d oid tok) w =
      if w = tok then some (mergeTok d tok).2 else idOf d w := by
  rw [← idOf_mergeTok]
  unfold idOf mergeStep
  rw [mergeDf_token2id]

theorem idOf_mergeStep_old (odfs : PyDict Nat Nat) (d : Dct τ) (oid : Nat) (tok : τ) {w : τ} {i : Nat}
    (hw : idOf d w = some i) : idOf (mergeStep odfs d oid tok) w = some i := by
  rw [idOf_mergeStep]
  by_cases e : w = tok
  · subst e
    rw [if_pos rfl]
    unfold mergeTok
    have : get? d.token2id w = some i := hw
    rw [this]
  · rw [if_neg e]; exact hw

theorem dfOf_mergeTok {d : Dct τ} (h : Inv d) (tok w : τ) :
    dfOf (mergeTok d tok).1 w = if w = tok then some ((dfOf d tok).getD 0) else dfOf d w := by
  unfold mergeTok
  cases hg : get? d.token2id tok with
  | some i =>
    by_cases hw : w = tok
    · subst hw
      rw [if_pos rfl]
      have hi : idOf d w = some i := hg
      have := (get?_isSome_iff _ _).mpr ((h.dfsKeys i).mpr (idOf_lt h hi))
      obtain ⟨n, hn⟩ := Option.isSome_iff_exists.mp this
      simp [dfOf, hi, hn]
    · rw [if_neg hw]
  | none =>
    have hn : idOf d tok = none := hg
    by_cases hw : w = tok
    · subst hw
      rw [if_pos rfl]
      simp [dfOf, hn]
      simp [idOf]
    · rw [if_neg hw]
      show (get? (set d.token2id tok d.token2id.length) w).bind
        (fun i => get? (set d.dfs d.token2id.length 0) i) = _
      rw [get?_set_ne _ (fun e => hw e.symm)]
      cases hh : get? d.token2id w with
      | none => simp [dfOf, idOf, hh]
      | some i =>
        have hlt := idOf_lt h (show idOf d w = some i from hh)
        have hlt' : i < d.token2id.length := hlt
        simp only [Option.bind_some]
        rw [get?_set_ne _ (by omega)]
        simp [dfOf, idOf, hh]

theorem dfOf_mergeStep {d : Dct τ} (h : Inv d) (odfs : PyDict Nat Nat) (oid : Nat) (tok w : τ) :
    dfOf (mergeStep odfs d oid tok) w =
      if w = tok then some ((dfOf d tok).getD 0 + getD odfs oid 0) else dfOf d w := by
  have h1 := inv_mergeTok h tok
  have hid : idOf (mergeTok d tok).1 tok = some (mergeTok d tok).2 := mergeTok_get tok
  have hdf := dfOf_mergeTok h tok
  unfold mergeStep mergeDf
  have hd1 : get? (mergeTok d tok).1.dfs (mergeTok d tok).2 = some ((dfOf d tok).getD 0) := by
    have := hdf tok
    rw [if_pos rfl] at this
    simpa [dfOf, hid] using this
  rw [hd1]
  cases ho : get? odfs oid with
  | none =>
    simp only
    rw [hdf w]
    simp [getD, ho]
  | some b =>
    simp only
    by_cases hw : w = tok
    · subst hw
      rw [if_pos rfl]
      show (idOf (mergeTok d w).1 w).bind (fun i => get? (set (mergeTok d w).1.dfs _ _) i) = _
      rw [hid]
      simp [getD, ho]
    · rw [if_neg hw]
      have := hdf w
      rw [if_neg hw] at this
      rw [← this]
      show (idOf (mergeTok d tok).1 w).bind (fun i => get? (set (mergeTok d tok).1.dfs _ _) i) = _
      unfold dfOf
      cases hh : idOf (mergeTok d tok).1 w with
      | none => rfl
      | some i =>
        have hne : (mergeTok d tok).2 ≠ i := by
          rintro rfl
          exact hw (idOf_inj h1 hh hid)
        simp only [Option.bind_some]
        rw [get?_set_ne _ hne]

theorem mergeLoop_spec (odfs : PyDict Nat Nat) (its : List (Nat × τ)) {d : Dct τ} (h : Inv d)
    (m : PyDict Nat Nat) (hk : (its.map Prod.fst).Nodup) (hv : (its.map Prod.snd).Nodup) :
    let r := mergeLoop odfs its (d, m)
    (∀ w i, idOf d w = some i → idOf r.1 w = some i) ∧
    (∀ w, known r.1 w ↔ known d w ∨ w ∈ its.map Prod.snd) ∧
    (∀ p ∈ its, get? r.2 p.1 = idOf r.1 p.2) ∧
    (∀ o, o ∉ its.map Prod.fst → get? r.2 o = get? m o) ∧
    (∀ p ∈ its, dfOf r.1 p.2 = some ((dfOf d p.2).getD 0 + getD odfs p.1 0)) ∧
    (∀ w, w ∉ its.map Prod.snd → dfOf r.1 w = dfOf d w) ∧
    r.1.cfs = d.cfs ∧ r.1.numDocs = d.numDocs ∧ r.1.numPos = d.numPos ∧ r.1.numNnz = d.numNnz := by
  induction its generalizing d m with
  | nil => simp [mergeLoop]
  | cons p its ih =>
    obtain ⟨oid, tok⟩ := p
    simp only [List.map_cons, List.nodup_cons] at hk hv
    have hstep : mergeLoop odfs ((oid, tok) :: its) (d, m) =
      mergeLoop odfs its (mergeStep odfs d oid tok, set m oid (mergeTok d tok).2) := mergeLoop_cons ..
    have hfr : (mergeStep odfs d oid tok).cfs = d.cfs ∧ (mergeStep odfs d oid tok).numDocs = d.numDocs ∧
        (mergeStep odfs d oid tok).numPos = d.numPos ∧
        (mergeStep odfs d oid tok).numNnz = d.numNnz := by
      unfold mergeStep mergeDf
      have : (mergeTok d tok).1.cfs = d.cfs ∧ (mergeTok d tok).1.numDocs = d.numDocs ∧
        (mergeTok d tok).1.numPos = d.numPos ∧ (mergeTok d tok).1.numNnz = d.numNnz := by
        unfold mergeTok; split <;> simp
      split <;> exact this
    obtain ⟨i1, i2, i3, i4, i5, i6, i7, i8, i9, i10⟩ :=
      ih (inv_mergeStep odfs h oid tok) (set m oid (mergeTok d tok).2) hk.2 hv.2
    have hself : idOf (mergeStep odfs d oid tok) tok = some (mergeTok d tok).2 := by
      rw [idOf_mergeStep, if_pos rfl]
    simp only [hstep]
    refine ⟨?_, ?_, ?_, ?_, ?_, ?_, by rw [i7, hfr.1], by rw [i8, hfr.2.1], by rw [i9, hfr.2.2.1],
      by rw [i10, hfr.2.2.2]⟩
    · intro w i hw
      exact i1 w i (idOf_mergeStep_old odfs d oid tok hw)
    · intro w
      rw [i2]
      have : known (mergeStep odfs d oid tok) w ↔ w = tok ∨ known d w := by
        unfold known
        rw [idOf_mergeStep]
        by_cases e : w = tok <;> simp [e]
      rw [this]; simp; tauto
    · intro q hq
      rcases List.mem_cons.mp hq with rfl | hq
      · rw [i4 _ hk.1, i1 _ _ hself]; simp
      · exact i3 q hq
    · intro o ho
      simp only [List.map_cons, List.mem_cons, not_or] at ho
      rw [i4 o ho.2, get?_set_ne _ (fun e => ho.1 e.symm)]
    · intro q hq
      rcases List.mem_cons.mp hq with rfl | hq
      · rw [i6 _ hv.1, dfOf_mergeStep h, if_pos rfl]
      · rw [i5 q hq, dfOf_mergeStep h, if_neg]
        rintro e
        exact hv.1 (e ▸ List.mem_map.mpr ⟨q, hq, rfl⟩)
    · intro w hw
      simp only [List.map_cons, List.mem_cons, not_or] at hw
      rw [i6 w hw.2, dfOf_mergeStep h, if_neg hw.1]

/-- **C08.** `d.merge_with(o)` succeeds and
1. tokens already in `d` keep their ids;
2. the merged dictionary knows exactly the tokens of either;
3. document frequencies add up (a token unknown to one side counts 0 there);
4. `num_docs`, `num_pos`, `num_nnz` add up;
5. the returned transformation turns the vector `o` produces for any document into the vector the
   merged dictionary produces for the part of the document `o` knows. -/
theorem C08_merge_with {d o : Dct τ} (hd : Reachable d) (ho : Reachable o) :
    ∃ d' m, mergeWith d o = some (d', m) ∧
      (∀ w i, idOf d w = some i → idOf d' w = some i) ∧
      (∀ w, known d' w ↔ known d w ∨ known o w) ∧
      (∀ w, (dfOf d' w).getD 0 = (dfOf d w).getD 0 + (dfOf o w).getD 0) ∧
      (d'.numDocs = d.numDocs + o.numDocs ∧ d'.numPos = d.numPos + o.numPos ∧
        d'.numNnz = d.numNnz + o.numNnz) ∧
      (∀ doc, vocabTransform m (bow o doc) = bow d' (doc.filter (fun w => decide (known o w)))) := by
  have hnk : ((o.token2id.map (fun p => (p.2, p.1))).map Prod.fst).Nodup := by
    simpa [Function.comp_def, values] using ho.inv.nodup
  have hnv : ((o.token2id.map (fun p => (p.2, p.1))).map Prod.snd).Nodup := by
    simpa [Function.comp_def, WF, keys] using ho.inv.wf
  have hmw := mergeWith_some (d := d) ho.inv
  obtain ⟨i1, i2, i3, i4, i5, i6, i7, i8, i9, i10⟩ :=
    mergeLoop_spec o.dfs (o.token2id.map (fun p => (p.2, p.1))) hd.inv [] hnk hnv
  have hsnd : ∀ w, w ∈ (o.token2id.map (fun p => (p.2, p.1))).map Prod.snd ↔ known o w := by
    intro w; rw [known_iff]; simp [keys]
  have hm : ∀ w i, idOf o w = some i →
      get? (mergeLoop o.dfs (o.token2id.map (fun p => (p.2, p.1))) (d, [])).2 i =
        idOf (mergeLoop o.dfs (o.token2id.map (fun p => (p.2, p.1))) (d, [])).1 w := by
    intro w i hw
    exact i3 (i, w) (List.mem_map.mpr ⟨(w, i), mem_of_get? hw, rfl⟩)
  have hinv := inv_mergeLoop o.dfs (o.token2id.map (fun p => (p.2, p.1))) hd.inv []
  have hmerged : Reachable _ := Reachable.mergeWith hd ho hmw
  refine ⟨_, _, hmw, i1, ?_, ?_, ?_, ?_⟩
  · intro w
    rw [← hsnd]; exact i2 w
  · intro w
    show (dfOf (mergeLoop o.dfs (o.token2id.map (fun p => (p.2, p.1))) (d, [])).1 w).getD 0 = _
    by_cases hw : known o w
    · obtain ⟨i, hi⟩ := Option.isSome_iff_exists.mp hw
      rw [i5 (i, w) (List.mem_map.mpr ⟨(w, i), mem_of_get? hi, rfl⟩)]
      simp [dfOf, hi, getD]
    · rw [i6 w (fun hh => hw ((hsnd w).mp hh))]
      have : idOf o w = none := by
        cases hh : idOf o w with
        | none => rfl
        | some j => exact absurd (by simp [known, hh]) hw
      simp [dfOf, this]
  · refine ⟨?_, ?_, ?_⟩ <;> simp [i8, i9, i10]
  · intro doc
    obtain ⟨b1, b2⟩ := C02_doc2bow_exact ho doc
    obtain ⟨c1, c2⟩ := C02_doc2bow_exact hmerged (doc.filter (fun w => decide (known o w)))
    unfold vocabTransform
    generalize hr : mergeLoop o.dfs (o.token2id.map (fun p => (p.2, p.1))) (d, []) = r at *
    have hmem : ∀ j n, (j, n) ∈ (bow o doc).filterMap
          (fun p => (get? r.2 p.1).map (fun i => (i, p.2))) ↔
        ∃ w ∈ doc, known o w ∧ idOf r.1 w = some j ∧ n = doc.count w := by
      intro j n
      rw [List.mem_filterMap]
      constructor
      · rintro ⟨⟨i, k⟩, hp, hq⟩
        obtain ⟨w, hw, hid, hn⟩ := (b2 i k).mp hp
        rw [hm w i hid] at hq
        cases hj : idOf r.1 w with
        | none => simp [hj] at hq
        | some j' =>
          simp only [hj, Option.map_some, Option.some.injEq, Prod.mk.injEq] at hq
          obtain ⟨rfl, rfl⟩ := hq
          exact ⟨w, hw, by simp [known, hid], hj, hn⟩
      · rintro ⟨w, hw, hkn, hid, rfl⟩
        obtain ⟨i, hi⟩ := Option.isSome_iff_exists.mp hkn
        refine ⟨(i, doc.count w), (b2 _ _).mpr ⟨w, hw, hi, rfl⟩, ?_⟩
        simp [hm w i hi, hid]
    have hnd1 : ((bow o doc).filterMap (fun p => (get? r.2 p.1).map (fun i => (i, p.2)))).Nodup := by
      have hnd : (bow o doc).Nodup := b1.imp (by rintro a b hab rfl; omega)
      have hall : ∀ p ∈ bow o doc, ∃ w, idOf o w = some p.1 := by
        rintro ⟨i, n⟩ hp
        obtain ⟨w, _, hw, _⟩ := (b2 i n).mp hp
        exact ⟨w, hw⟩
      rw [List.nodup_iff_pairwise_ne, List.pairwise_filterMap]
      refine List.Pairwise.imp_of_mem ?_ hnd
      intro p q hp hq hne a ha b hb hab
      subst hab
      apply hne
      obtain ⟨w, hw⟩ := hall p hp
      obtain ⟨w', hw'⟩ := hall q hq
      rw [hm w _ hw] at ha
      rw [hm w' _ hw'] at hb
      cases hj : idOf r.1 w with
      | none => simp [hj] at ha
      | some j =>
        cases hj' : idOf r.1 w' with
        | none => simp [hj'] at hb
        | some j' =>
          simp only [hj, Option.map_some, Option.some.injEq] at ha
          simp only [hj', Option.map_some, Option.some.injEq] at hb
          subst ha
          simp only [Prod.mk.injEq] at hb
          obtain ⟨e1, e2⟩ := hb
          subst e1
          have := idOf_inj hinv hj hj'
          subst this
          rw [hw] at hw'
          injection hw' with hw'
          exact Prod.ext hw' e2.symm
    refine sorted_perm_unique ?_ ?_ (pySort_sorted ?_ ?_ _) ?_
    · refine (pySort_perm _ _).trans ?_
      rw [List.perm_ext_iff_of_nodup hnd1 (c1.imp (by rintro a b hab rfl; omega))]
      rintro ⟨j, n⟩
      rw [hmem, c2]
      constructor
      · rintro ⟨w, hw, hkn, hid, rfl⟩
        refine ⟨w, List.mem_filter.mpr ⟨hw, by simpa using hkn⟩, hid, ?_⟩
        rw [List.count_filter (by simpa using hkn)]
      · rintro ⟨w, hw, hid, rfl⟩
        obtain ⟨hw, hkn⟩ := List.mem_filter.mp hw
        exact ⟨w, hw, by simpa using hkn, hid, by
          rw [List.count_filter (p := fun w => decide (known o w)) hkn]⟩
    · rintro ⟨a, a'⟩ _ ⟨b, b'⟩ _ h1 h2
      simp only [Bool.or_eq_true, Bool.and_eq_true, decide_eq_true_eq] at h1 h2
      have : a = b := by omega
      have : a' = b' := by omega
      simp_all
    · intro a b; simp only [Bool.or_eq_true, Bool.and_eq_true, decide_eq_true_eq]; omega
    · intro a b c; simp only [Bool.or_eq_true, Bool.and_eq_true, decide_eq_true_eq]; omega
    · exact c1.imp (by intro a b hab; simp [hab])

/-- **C08.** For documents made only of words `o` knows the translation is exact. -/
theorem C08_translation {d o : Dct τ} (hd : Reachable d) (ho : Reachable o) {d' : Dct τ}
    {m : PyDict Nat Nat} (e : mergeWith d o = some (d', m)) (doc : List τ)
    (hk : ∀ w ∈ doc, known o w) : vocabTransform m (bow o doc) = bow d' doc := by
  obtain ⟨d1, m1, e1, _, _, _, _, h⟩ := C08_merge_with hd ho
  rw [e1] at e; cases e
  rw [h doc, List.filter_eq_self.mpr]
  intro w hw; simpa using hk w hw

/-- **C08.** Merging dictionaries of two corpora gives the document frequencies of the dictionary of
the joint corpus. -/
theorem C08_merge_equals_joint (docs₁ docs₂ : List (List τ)) {d₁ d₂ d' d : Dct τ}
    {m : PyDict Nat Nat} (h₁ : addDocuments empty docs₁ none = some d₁)
    (h₂ : addDocuments empty docs₂ none = some d₂) (hm : mergeWith d₁ d₂ = some (d', m))
    (h : addDocuments empty (docs₁ ++ docs₂) none = some d) :
    ∀ w, (known d' w ↔ known d w) ∧ (dfOf d' w).getD 0 = (dfOf d w).getD 0 := by
  have r1 : Reachable d₁ := .addDocuments docs₁ none .empty h₁
  have r2 : Reachable d₂ := .addDocuments docs₂ none .empty h₂
  obtain ⟨x, y, e, _, k, f, _, _⟩ := C08_merge_with r1 r2
  rw [e] at hm; cases hm
  obtain ⟨z1, e1, k1, f1, _⟩ := C03_statistics_exact docs₁ none (by simp)
  rw [h₁] at e1; cases e1
  obtain ⟨z1, e1, k2, f2, _⟩ := C03_statistics_exact docs₂ none (by simp)
  rw [h₂] at e1; cases e1
  obtain ⟨z1, e1, k3, f3, _⟩ := C03_statistics_exact (docs₁ ++ docs₂) none (by simp)
  rw [h] at e1; cases e1
  have g : ∀ (docs : List (List τ)) (c : Dct τ), addDocuments empty docs none = some c →
      ∀ w, (dfOf c w).getD 0 = docFreq docs w := by
    intro docs c hc w
    obtain ⟨z, e1, k, f, _⟩ := C03_statistics_exact docs none (by simp)
    rw [hc] at e1; cases e1
    by_cases hw : known c w
    · rw [(f w hw).1]; rfl
    · have hn : idOf c w = none := by
        cases hh : idOf c w with
        | none => rfl
        | some j => exact absurd (by simp [known, hh]) hw
      rw [docFreq_zero docs w (by rw [List.mem_flatten]; exact fun hx => hw ((k w).mpr hx))]
      simp [dfOf, hn]
  intro w
  refine ⟨?_, ?_⟩
  · rw [k, k1, k2, k3]
    simp only [List.mem_append]
    constructor
    · rintro (⟨x, hx, hw⟩ | ⟨x, hx, hw⟩)
      · exact ⟨x, Or.inl hx, hw⟩
      · exact ⟨x, Or.inr hx, hw⟩
    · rintro ⟨x, hx | hx, hw⟩
      · exact Or.inl ⟨x, hx, hw⟩
      · exact Or.inr ⟨x, hx, hw⟩
  · rw [f, g _ _ h₁, g _ _ h₂, g _ _ h, docFreq_append]

/-- **C08, negative.** Collection frequencies are *not* merged: after merging, `cfs` is the old one,
so the collection frequency of a word of the other dictionary is lost. -/
theorem C08_cfs_not_merged {d o d' : Dct τ} {m : PyDict Nat Nat} (hd : Reachable d)
    (ho : Reachable o) (e : mergeWith d o = some (d', m)) : d'.cfs = d.cfs := by
  have hnk : ((o.token2id.map (fun p => (p.2, p.1))).map Prod.fst).Nodup := by
    simpa [Function.comp_def, values] using ho.inv.nodup
  have hnv : ((o.token2id.map (fun p => (p.2, p.1))).map Prod.snd).Nodup := by
    simpa [Function.comp_def, WF, keys] using ho.inv.wf
  have := mergeLoop_spec o.dfs (o.token2id.map (fun p => (p.2, p.1))) hd.inv [] hnk hnv
  rw [mergeWith_some ho.inv] at e
  cases e
  exact this.2.2.2.2.2.2.1

/-- the other dictionary of the examples -/
def demoOther : Dct Nat := [[20, 70, 70], [10, 60]].foldl update empty

example : Reachable demoOther ∧
    (mergeWith demo demoOther).map (fun r => (keys r.1.token2id, r.2, dfOf r.1 10, cfOf r.1 70)) =
      some ([10, 30, 20, 50, 40, 70, 60], [(0, 2), (1, 5), (2, 0), (3, 6)], some 4, none) ∧
    cfOf demoOther 70 = some 2 ∧ bow demoOther [70, 60, 70, 20] = [(0, 1), (1, 2), (3, 1)] :=
  ⟨reachable_foldl .empty _, by decide, by decide, by decide⟩

end Verif.Dictionary
