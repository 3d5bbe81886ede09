import Verif.Matutils.ArgsortProps

/-!
# C19: conversions between sparse and dense vectors
-/

namespace Verif.Matutils
open Verif PyDict

variable {K : Type} [Field K] [LinearOrder K] [IsStrictOrderedRing K]

/-! ## Entries of the sparse form -/

theorem mem_full2sparse (eps : K) (v : List K) (i : Nat) (x : K) :
    (i, x) ∈ full2sparse eps v ↔ v[i]? = some x ∧ eps < |x| := by
  simp only [full2sparse, List.mem_filterMap, Prod.exists]
  constructor
  · rintro ⟨a, j, hm, h⟩
    split at h
    · rename_i hlt
      simp only [Option.some.injEq, Prod.mk.injEq] at h
      obtain ⟨rfl, rfl⟩ := h
      exact ⟨by simpa using List.mem_zipIdx_iff_getElem?.1 hm, hlt⟩
    · simp at h
  · rintro ⟨h1, h2⟩
    exact ⟨x, i, List.mem_zipIdx_iff_getElem?.2 (by simpa using h1), by simp [h2]⟩

/-- C19: the ids of `full2sparse` are strictly increasing -/
theorem C19_ids_increasing (eps : K) (v : List K) :
    ((full2sparse eps v).map (·.1)).Pairwise (· < ·) := by
  simp only [full2sparse, List.pairwise_map]
  rw [List.pairwise_filterMap]
  have hz : ∀ (l : List K) (k : Nat), (l.zipIdx k).Pairwise (fun p q => p.2 < q.2) := by
    intro l
    induction l with
    | nil => simp
    | cons a l ih =>
      intro k
      rw [List.zipIdx_cons, List.pairwise_cons]
      refine ⟨fun p hp => ?_, ih (k + 1)⟩
      have := List.le_snd_of_mem_zipIdx hp
      simp only; omega
  refine (hz v 0).imp ?_
  intro p q hpq a ha b hb
  split at ha <;> simp at ha
  split at hb <;> simp at hb
  subst ha hb; exact hpq

theorem WF_full2sparse (eps : K) (v : List K) : WF (full2sparse eps v : PyDict Nat K) :=
  (C19_ids_increasing eps v).imp (fun h => Nat.ne_of_lt h)

/-- C19: `full2sparse` lists exactly the entries of magnitude above eps -/
theorem C19_full2sparse_entries (eps : K) (v : List K) (i : Nat) (x : K) :
    (i, x) ∈ full2sparse eps v ↔ v[i]? = some x ∧ eps < |x| := mem_full2sparse eps v i x

/-- C19: back to dense: small entries become zero, nothing else changes -/
theorem C19_dense_roundtrip (eps : K) (v : List K) :
    sparse2full (full2sparse eps v) v.length = some (v.map (fun x => if eps < |x| then x else 0)) := by
  simp only [sparse2full]
  rw [ofPairs_of_WF (WF_full2sparse eps v)]
  rw [if_pos]
  · congr 1
    apply List.ext_getElem
    · simp
    · intro i h1 h2
      have hi : i < v.length := by simpa using h1
      simp only [List.getElem_map, List.getElem_range, getD]
      cases hg : get? (full2sparse eps v : PyDict Nat K) i with
      | some x =>
        have := (mem_full2sparse eps v i x).1 (mem_of_get? hg)
        rw [List.getElem?_eq_getElem hi, Option.some.injEq] at this
        simp [this.1, this.2]
      | none =>
        have hn : ¬ eps < |v[i]| := by
          intro hlt
          have hm := (mem_full2sparse eps v i v[i]).2 ⟨List.getElem?_eq_getElem hi, hlt⟩
          exact (get?_eq_none_iff _ _).1 hg (mem_keys_of_mem hm)
        simp [hn]
  · rw [List.all_eq_true]
    intro i hi
    obtain ⟨⟨i', x⟩, hm, rfl⟩ := List.mem_map.1 hi
    have := ((mem_full2sparse eps v i' x).1 hm).1
    simpa using (List.getElem?_eq_some_iff.1 this).1

/-- two lists of pairs with strictly increasing ids and the same members are equal -/
theorem increasing_unique : ∀ (a b : List (Nat × K)), (a.map (·.1)).Pairwise (· < ·) →
    (b.map (·.1)).Pairwise (· < ·) → (∀ p, p ∈ a ↔ p ∈ b) → a = b := by
  intro a
  induction a with
  | nil =>
    intro b _ _ h
    cases b with
    | nil => rfl
    | cons p b => exact absurd ((h p).2 (by simp)) (by simp)
  | cons p a ih =>
    intro b ha hb h
    cases b with
    | nil => exact absurd ((h p).1 (by simp)) (by simp)
    | cons q b =>
      simp only [List.map_cons, List.pairwise_cons] at ha hb
      have hlt : ∀ r ∈ a, p.1 < r.1 := fun r hr => ha.1 _ (List.mem_map_of_mem hr)
      have hlt' : ∀ r ∈ b, q.1 < r.1 := fun r hr => hb.1 _ (List.mem_map_of_mem hr)
      have hpq : p = q := by
        rcases List.mem_cons.1 ((h p).1 (by simp)) with h1 | h1
        · exact h1
        · rcases List.mem_cons.1 ((h q).2 (by simp)) with h2 | h2
          · exact h2.symm
          · have := hlt' p h1; have := hlt q h2; omega
      subst hpq
      rw [ih b ha.2 hb.2]
      intro r
      constructor
      · intro hr
        rcases List.mem_cons.1 ((h r).1 (by simp [hr])) with rfl | h1
        · exact absurd (hlt r hr) (by omega)
        · exact h1
      · intro hr
        rcases List.mem_cons.1 ((h r).2 (by simp [hr])) with rfl | h1
        · exact absurd (hlt' r hr) (by omega)
        · exact h1

/-- C19: from sparse to dense and back, for a document with increasing ids within the given length and
no entry of magnitude up to eps -/
theorem C19_sparse_roundtrip (eps : K) (heps : 0 ≤ eps) (doc : List (Nat × K)) (n : Nat)
    (hinc : (doc.map (·.1)).Pairwise (· < ·)) (hn : ∀ p ∈ doc, p.1 < n) (hbig : ∀ p ∈ doc, eps < |p.2|) :
    (sparse2full doc n).map (full2sparse eps) = some doc := by
  have hwf : WF (doc : PyDict Nat K) := hinc.imp (fun h => Nat.ne_of_lt h)
  simp only [sparse2full]
  rw [ofPairs_of_WF hwf, if_pos]
  · simp only [Option.map_some, Option.some.injEq]
    apply increasing_unique _ _ (C19_ids_increasing eps _) hinc
    rintro ⟨i, x⟩
    rw [mem_full2sparse]
    constructor
    · rintro ⟨h1, h2⟩
      rw [List.getElem?_map] at h1
      obtain ⟨j, h3, h4⟩ := Option.map_eq_some_iff.1 h1
      have hj : i = j := by
        have := List.getElem?_eq_some_iff.1 h3
        simpa using this.2
      subst hj
      simp only [getD] at h4
      cases hg : get? (doc : PyDict Nat K) i with
      | none => rw [hg] at h4; simp at h4; subst h4; simp at h2; exact absurd h2 (not_lt.2 heps)
      | some y => rw [hg] at h4; simp at h4; subst h4; exact mem_of_get? hg
    · intro hm
      refine ⟨?_, hbig _ hm⟩
      have hi := hn _ hm
      rw [List.getElem?_map, List.getElem?_range hi]
      simp [getD, get?_of_mem hwf hm]
  · rw [List.all_eq_true]
    intro i hi
    obtain ⟨p, hm, rfl⟩ := List.mem_map.1 hi
    simpa using hn p hm

example : (([(0, 1 / 2), (3, -2)] : List (Nat × ℚ)).map (·.1)).Pairwise (· < ·) ∧
    full2sparse (1 / 10) [1 / 2, 1 / 20, 0, (-2 : ℚ)] = [(0, 1 / 2), (3, -2)] := by
  decide +kernel

/-! ## `full2sparse_clipped` -/

/-- C19: `full2sparse_clipped` returns min(topn, number of entries above eps) entries of the vector, all
of magnitude above eps, at different positions, by non-increasing magnitude, and every entry left out
is of magnitude at most eps or at most that of every returned entry; whatever way numpy breaks ties -/
theorem C19_clipped (srt : List K → List Nat) (part : List K → Nat → List Nat) (hs : SortOk srt)
    (hp : PartOk part) (eps : K) (v : List K) (topn : Int) :
    let r := full2sparseClipped srt part eps v topn
    (∀ p ∈ r, v[p.1]? = some p.2 ∧ eps < |p.2|) ∧ (r.map (·.1)).Nodup ∧
    r.length = min topn.toNat (v.filter (fun x => decide (eps < |x|))).length ∧
    r.Pairwise (fun p q => |q.2| ≤ |p.2|) ∧
    (∀ j x, v[j]? = some x → j ∉ r.map (·.1) → |x| ≤ eps ∨ ∀ p ∈ r, |x| ≤ |p.2|) := by
  intro r
  by_cases h0 : topn ≤ 0
  · have ht : topn.toNat = 0 := by omega
    have hr : r = [] := by simp only [r, full2sparseClipped, h0, if_true]
    rw [hr, ht]; simp
  · have hr : r = full2sparseClipped srt part eps v topn := rfl
    simp only [full2sparseClipped, h0, if_false] at hr
    generalize hN : (v.zipIdx.filter (fun p => decide (eps < |p.1|))).map (·.2) = nnz at hr
    have hmem : ∀ i, i ∈ nnz ↔ ∃ x, v[i]? = some x ∧ eps < |x| := by
      intro i
      rw [← hN]
      simp only [List.mem_map, List.mem_filter, decide_eq_true_eq, Prod.exists, exists_eq_right]
      constructor
      · rintro ⟨a, h1, h2⟩; exact ⟨a, by simpa using List.mem_zipIdx_iff_getElem?.1 h1, h2⟩
      · rintro ⟨x, h1, h2⟩; exact ⟨x, List.mem_zipIdx_iff_getElem?.2 (by simpa using h1), h2⟩
    have hnd : nnz.Nodup := by
      rw [← hN]
      have : (v.zipIdx.map (·.2)).Nodup := by
        rw [List.zipIdx_map_snd]; exact List.nodup_range'
      exact this.sublist (List.Sublist.map _ List.filter_sublist)
    have hlen : nnz.length = (v.filter (fun x => decide (eps < |x|))).length := by
      rw [← hN, List.length_map]
      have : v.filter (fun x => decide (eps < |x|)) =
          (v.zipIdx.filter (fun p => decide (eps < |p.1|))).map (·.1) := by
        conv_lhs => rw [← List.zipIdx_map_fst 0 v]
        rw [List.filter_map]; rfl
      rw [this, List.length_map]
    obtain ⟨t1, t2, t3, t4, t5⟩ := argsort_reverse srt part hs hp (nnz.map (fun i => |v.getD i 0|)) topn
    generalize argsort srt part (nnz.map (fun i => |v.getD i 0|)) topn true = A at hr t1 t2 t3 t4 t5
    rw [List.length_map] at t2 t3 t5
    have hval : ∀ j < nnz.length, (nnz.map (fun i => |v.getD i 0|)).getD j 0 =
        |v.getD (nnz.getD j 0) 0| := by
      intro j hj
      simp [List.getD_eq_getElem?_getD, List.getElem?_map, List.getElem?_eq_getElem hj]
    have hgetm : ∀ j < nnz.length, nnz.getD j 0 ∈ nnz := by
      intro j hj
      simp [List.getD_eq_getElem?_getD, List.getElem?_eq_getElem hj]
    have hids : r.map (·.1) = A.map (fun j => nnz.getD j 0) := by
      rw [hr, List.map_map, List.map_map]; rfl
    refine ⟨?_, ?_, ?_, ?_, ?_⟩
    · intro p hpm
      rw [hr, List.map_map] at hpm
      obtain ⟨j, hj, rfl⟩ := List.mem_map.1 hpm
      obtain ⟨x, e1, e2⟩ := (hmem _).1 (hgetm j (t2 j hj))
      have hx : v.getD (nnz.getD j 0) 0 = x := by
        rw [List.getD_eq_getElem?_getD, e1]; rfl
      simp only [Function.comp, hx]
      exact ⟨e1, e2⟩
    · rw [hids]
      refine List.Nodup.map_on ?_ t1
      intro a ha b hb hab
      have ha' := t2 a ha; have hb' := t2 b hb
      simp only [List.getD_eq_getElem?_getD, List.getElem?_eq_getElem ha',
        List.getElem?_eq_getElem hb', Option.getD_some] at hab
      exact (List.Nodup.getElem_inj_iff hnd).1 hab
    · rw [hr, List.length_map, List.length_map, t3, hlen]
    · rw [hr, List.pairwise_map, List.pairwise_map]
      refine List.Pairwise.imp_of_mem ?_ t4
      intro a b ha hb hab
      rw [hval a (t2 a ha), hval b (t2 b hb)] at hab
      exact hab
    · intro j x hjx hnot
      by_cases hle : |x| ≤ eps
      · exact Or.inl hle
      · right
        intro p hpm
        have hjn : j ∈ nnz := (hmem j).2 ⟨x, hjx, lt_of_not_ge hle⟩
        obtain ⟨a, ha, haj⟩ := List.mem_iff_getElem.1 hjn
        have haA : a ∉ A := by
          intro h
          apply hnot
          rw [hids]
          exact List.mem_map.2 ⟨a, h, by simp [List.getD_eq_getElem?_getD, List.getElem?_eq_getElem ha, haj]⟩
        rw [hr, List.map_map] at hpm
        obtain ⟨b, hb, rfl⟩ := List.mem_map.1 hpm
        have := t5 b hb a ha haA
        rw [hval a ha, hval b (t2 b hb)] at this
        have hga : nnz.getD a 0 = j := by
          simp [List.getD_eq_getElem?_getD, List.getElem?_eq_getElem ha, haj]
        rw [hga] at this
        have hx : v.getD j 0 = x := by rw [List.getD_eq_getElem?_getD, hjx]; rfl
        rw [hx] at this
        exact this

example : full2sparseClipped exSort (fun x _ => exSort x) (1 / 10) [1, -3, 1 / 20, 2, (-2 : ℚ)] 3 =
    [(1, -3), (3, 2), (4, -2)] := by decide +kernel

/-! ## `corpus2csc` -/

/-- the running totals of the document lengths, from `a` -/
def offsetsFrom {β : Type} (a : Nat) : List (List β) → List Nat
  | [] => []
  | d :: ds => (a + d.length) :: offsetsFrom (a + d.length) ds

theorem slow_fold (corpus : List (List (Nat × K))) : ∀ (a : Nat) (da : List K) (is ip : List Nat),
    corpus.foldl (fun (s : Nat × List K × List Nat × List Nat) doc =>
      (s.1 + doc.length, s.2.1 ++ doc.map (·.2), s.2.2.1 ++ doc.map (·.1), s.2.2.2 ++ [s.1 + doc.length]))
      (a, da, is, ip) =
    (a + corpus.flatten.length, da ++ corpus.flatten.map (·.2), is ++ corpus.flatten.map (·.1),
      ip ++ offsetsFrom a corpus) := by
  induction corpus with
  | nil => intro a da is ip; simp [offsetsFrom]
  | cons d ds ih =>
    intro a da is ip
    rw [List.foldl_cons, ih]
    simp only [List.flatten_cons, List.length_append, List.map_append, List.append_assoc, offsetsFrom,
      List.cons_append, List.nil_append, Nat.add_assoc]

theorem length_offsetsFrom {β : Type} (corpus : List (List β)) : ∀ a,
    (offsetsFrom a corpus).length = corpus.length := by
  induction corpus with
  | nil => simp [offsetsFrom]
  | cons d ds ih => intro a; simp [offsetsFrom, ih]

theorem putSlice_append {β : Type} (pre xs junk : List β) (h : xs.length ≤ junk.length) :
    putSlice (pre ++ junk) pre.length xs = some (pre ++ xs ++ junk.drop xs.length) := by
  simp only [putSlice]
  rw [if_pos (Or.inl (by simp; omega))]
  simp [List.take_append, List.drop_append]

theorem fast_fold (corpus : List (List (Nat × K))) : ∀ (preD jD : List K) (preI jI ip : List Nat),
    preD.length = preI.length → jD.length = jI.length → corpus.flatten.length ≤ jI.length →
    corpus.foldl (fun (s : Option (Nat × List K × List Nat × List Nat)) doc =>
    s.bind fun s =>
      (putSlice s.2.2.1 s.1 (doc.map (·.1))).bind fun ind =>
        (putSlice s.2.1 s.1 (doc.map (·.2))).map fun dat =>
          (s.1 + doc.length, dat, ind, s.2.2.2 ++ [s.1 + doc.length]))
      (some (preI.length, preD ++ jD, preI ++ jI, ip)) =
    some (preI.length + corpus.flatten.length,
      preD ++ corpus.flatten.map (·.2) ++ jD.drop corpus.flatten.length,
      preI ++ corpus.flatten.map (·.1) ++ jI.drop corpus.flatten.length,
      ip ++ offsetsFrom preI.length corpus) := by
  induction corpus with
  | nil => intro preD jD preI jI ip _ _ _; simp [offsetsFrom]
  | cons d ds ih =>
    intro preD jD preI jI ip h1 h2 h3
    simp only [List.flatten_cons, List.length_append] at h3
    rw [List.foldl_cons]
    have e1 := putSlice_append preI (d.map (·.1)) jI (by rw [List.length_map]; omega)
    have e2 := putSlice_append preD (d.map (·.2)) jD (by rw [List.length_map]; omega)
    rw [h1] at e2
    simp only [Option.bind_some, e1, e2, Option.map_some]
    rw [List.length_map, List.length_map]
    have hl : preI.length + d.length = (preI ++ d.map (·.1)).length := by simp
    rw [hl, ih (preD ++ d.map (·.2)) (jD.drop d.length) (preI ++ d.map (·.1)) (jI.drop d.length)
      (ip ++ [(preI ++ d.map (·.1)).length]) (by simp [h1]) (by simp [h2])
      (by rw [List.length_drop]; omega)]
    simp only [List.flatten_cons, List.length_append, List.map_append, List.append_assoc, offsetsFrom,
      List.cons_append, List.nil_append, Nat.add_assoc, List.drop_drop, List.length_map]

/-- C19: with correct sizes the buffered path of `corpus2csc` builds the same matrix as the general
path, whatever the uninitialised buffers contain -/
theorem C19_csc_paths_agree (corpus : List (List (Nat × K))) (numTerms : Nat) (junkI : List Nat)
    (junkD : List K) (h1 : junkI.length = corpus.flatten.length)
    (h2 : junkD.length = corpus.flatten.length) :
    corpus2cscFast junkI junkD numTerms corpus.length corpus = some (corpus2cscSlow (some numTerms) corpus) := by
  have e := fast_fold corpus [] junkD [] junkI [0] rfl (by omega) (by omega)
  simp only [List.nil_append, List.length_nil] at e
  simp only [corpus2cscFast, corpus2cscSlow]
  rw [e, slow_fold]
  simp [h1, length_offsetsFrom, ← h2, List.drop_length]

/-- C19: with a wrong number of non-zeros the buffered path raises -/
theorem C19_csc_wrong_nnz (corpus : List (List (Nat × K))) (numTerms numDocs : Nat) (junkI : List Nat)
    (junkD : List K) (h1 : junkI.length ≠ corpus.flatten.length) :
    corpus2cscFast junkI junkD numTerms numDocs corpus = none := by
  have hpos : ∀ (c : List (List (Nat × K))) (s : Option (Nat × List K × List Nat × List Nat)) r,
      c.foldl (fun (s : Option (Nat × List K × List Nat × List Nat)) doc =>
    s.bind fun s =>
      (putSlice s.2.2.1 s.1 (doc.map (·.1))).bind fun ind =>
        (putSlice s.2.1 s.1 (doc.map (·.2))).map fun dat =>
          (s.1 + doc.length, dat, ind, s.2.2.2 ++ [s.1 + doc.length])) s = some r →
      ∃ s', s = some s' ∧ r.1 = s'.1 + c.flatten.length := by
    intro c
    induction c with
    | nil => intro s r h; exact ⟨r, h, by simp⟩
    | cons d ds ih =>
      intro s r h
      rw [List.foldl_cons] at h
      obtain ⟨s', h1, h2⟩ := ih _ r h
      cases s with
      | none => simp at h1
      | some s0 =>
        simp only [Option.bind_some, Option.bind_eq_some_iff, Option.map_eq_some_iff] at h1
        obtain ⟨ind, _, dat, _, rfl⟩ := h1
        refine ⟨s0, rfl, ?_⟩
        rw [h2]; simp; omega
  simp only [corpus2cscFast]
  cases hf : corpus.foldl (fun (s : Option (Nat × List K × List Nat × List Nat)) doc =>
    s.bind fun s =>
      (putSlice s.2.2.1 s.1 (doc.map (·.1))).bind fun ind =>
        (putSlice s.2.1 s.1 (doc.map (·.2))).map fun dat =>
          (s.1 + doc.length, dat, ind, s.2.2.2 ++ [s.1 + doc.length]))
      (some (0, junkD, junkI, [0])) with
  | none => rfl
  | some r =>
    obtain ⟨s', e1, e2⟩ := hpos _ _ _ hf
    simp only [Option.some.injEq] at e1
    subst e1
    simp only [Option.bind_some]
    rw [if_neg]; simp only at e2; omega

theorem offsets_getD {β : Type} (corpus : List (List β)) : ∀ (a j : Nat), j ≤ corpus.length →
    (a :: offsetsFrom a corpus).getD j 0 = a + (corpus.take j).flatten.length := by
  induction corpus with
  | nil => intro a j hj; simp at hj; subst hj; simp [offsetsFrom]
  | cons d ds ih =>
    intro a j hj
    cases j with
    | zero => simp
    | succ j =>
      simp only [offsetsFrom]
      have := ih (a + d.length) j (by simpa using hj)
      rw [List.getD_cons_succ, this]
      simp; omega

/-- C19: the matrix of `corpus2csc` has in row `i`, column `j` the weight of term `i` in document `j`
(the sum of the weights, if a document repeats an id), one column per document, and enough rows -/
theorem C19_csc_entries (corpus : List (List (Nat × K))) (numTerms : Option Nat) :
    let m := corpus2cscSlow numTerms corpus
    m.numDocs = corpus.length ∧
    (numTerms = none → ∀ doc ∈ corpus, ∀ p ∈ doc, p.1 < m.numTerms) ∧
    (numTerms = none → m.numTerms ≠ 0 → ∃ doc ∈ corpus, ∃ p ∈ doc, p.1 + 1 = m.numTerms) ∧
    ∀ i j doc, corpus[j]? = some doc →
      m.entry i j = ((doc.filter (fun p => p.1 = i)).map (·.2)).sum := by
  intro m
  have hm : m = corpus2cscSlow numTerms corpus := rfl
  simp only [corpus2cscSlow] at hm
  rw [slow_fold] at hm
  simp only [Nat.zero_add, List.nil_append] at hm
  have hfold : ∀ (l : List Nat) (i : Nat), (∀ x ∈ i :: l, x ≤ l.foldl max i) ∧ l.foldl max i ∈ i :: l := by
    intro l
    induction l with
    | nil => intro i; simp
    | cons y l ih =>
      intro i
      rw [List.foldl_cons]
      obtain ⟨h1, h2⟩ := ih (max i y)
      refine ⟨fun x hx => ?_, ?_⟩
      · have hb := h1 (max i y) (by simp)
        rcases List.mem_cons.1 hx with rfl | hx
        · omega
        · rcases List.mem_cons.1 hx with rfl | hx
          · omega
          · exact h1 x (by simp [hx])
      · rcases List.mem_cons.1 h2 with h | h
        · rw [h]
          rcases Nat.le_total i y with hc | hc
          · simp [Nat.max_eq_right hc]
          · simp [Nat.max_eq_left hc]
        · simp [h]
  refine ⟨?_, ?_, ?_, ?_⟩
  · rw [hm]; simp [length_offsetsFrom]
  · intro hn doc hd p hp
    have hin : p.1 ∈ corpus.flatten.map (·.1) :=
      List.mem_map.2 ⟨p, List.mem_flatten.2 ⟨doc, hd, hp⟩, rfl⟩
    rw [hm, hn]
    simp only
    cases hl : corpus.flatten.map (·.1) with
    | nil => rw [hl] at hin; simp at hin
    | cons i is =>
      rw [hl] at hin
      have := (hfold is i).1 p.1 hin
      simp only; omega
  · intro hn h0
    rw [hm, hn] at h0 ⊢
    simp only at h0 ⊢
    cases hl : corpus.flatten.map (·.1) with
    | nil => rw [hl] at h0; simp at h0
    | cons i is =>
      have := (hfold is i).2
      rw [← hl] at this
      obtain ⟨p, hp, hpe⟩ := List.mem_map.1 this
      obtain ⟨doc, hd, hp⟩ := List.mem_flatten.1 hp
      exact ⟨doc, hd, p, hp, by simp only; omega⟩
  · intro i j doc hj
    have hjl : j < corpus.length := (List.getElem?_eq_some_iff.1 hj).1
    have hjd : corpus[j] = doc := (List.getElem?_eq_some_iff.1 hj).2
    rw [hm]
    simp only [Csc.entry]
    have o1 := offsets_getD corpus 0 j (by omega)
    have o2 := offsets_getD corpus 0 (j + 1) (by omega)
    simp only [List.singleton_append, Nat.zero_add] at o1 o2 ⊢
    rw [o1, o2]
    have hz : (corpus.flatten.map (·.1)).zip (corpus.flatten.map (·.2)) = corpus.flatten := by
      rw [List.zip_map']; simp
    rw [hz]
    have hsl : (corpus.flatten.take (corpus.take (j + 1)).flatten.length).drop
        (corpus.take j).flatten.length = doc := by
      have hsplit : corpus = corpus.take j ++ doc :: corpus.drop (j + 1) := by
        rw [← hjd, ← List.drop_eq_getElem_cons hjl, List.take_append_drop]
      have ht : corpus.take (j + 1) = corpus.take j ++ [doc] := by
        rw [List.take_succ, hj]; rfl
      have hf : corpus.flatten = (corpus.take j).flatten ++ (doc ++ (corpus.drop (j + 1)).flatten) := by
        conv_lhs => rw [hsplit]
        simp
      rw [ht, hf, List.flatten_append]
      generalize (corpus.take j).flatten = X
      simp [List.take_append]
    rw [hsl]
    generalize doc.filter (fun p => decide (p.1 = i)) = l
    induction l with
    | nil => simp
    | cons p l ih => simp [ih]

example : corpus2cscFast [7, 7, 7] [9, 9, 9] 4 3 [[(0, 1), (2, (3 : ℚ))], [], [(2, 5)]] =
    some ⟨[1, 3, 5], [0, 2, 2], [0, 2, 2, 3], 4, 3⟩ := by decide +kernel

end Verif.Matutils
