import Verif.VecFile.Model
import Verif.KeyedVectors.FormatProps

/-!
# C114: vector files without a header, conversions, and merging
-/

namespace Verif.VecFile
open Verif Verif.Text Verif.KV PyDict

variable {W N L : Type}

/-! ### Specification -/

/-- The lines of a file of vectors are read as the records `recs`, all of length `d`. -/
def Reads (dec : Str → Option W) (file : Str) (recs : List (Str × List W)) (d : Nat) : Prop :=
  (pyLines file).map (lineToVector dec) = recs.map some ∧ ∀ r ∈ recs, r.2.length = d

/-- The value of the last record of a word, if there is one. -/
def lastOf {V : Type} (recs : List (Str × V)) (k : Str) : Option V :=
  (recs.reverse.find? (fun r => r.1 = k)).map Prod.snd

/-! ### Files without a header -/

/-- at most the limit -/
def capped (limit : Option Nat) (n : Nat) : Nat := limit.elim n (min n)

theorem detect_some (dec : Str → Option W) (limit : Option Nat) (s : Nat) :
    ∀ (lines : List Str) (k : Nat), (∀ l, limit = some l → k ≤ l) →
      detectFrom dec limit lines k (some (s + 1)) = some (capped limit (k + lines.length), some (s + 1)) := by
  intro lines
  induction lines with
  | nil =>
    intro k hk
    cases limit with
    | none => simp [detectFrom, capped]
    | some l => have := hk l rfl; simp [detectFrom, capped]; omega
  | cons line lines ih =>
    intro k hk
    simp only [detectFrom]
    by_cases h : limit = some k
    · subst h; simp [capped]
    · rw [if_neg h, ih]
      · cases limit with
        | none => simp [capped]; omega
        | some l => simp [capped]; omega
      · intro l hl
        have := hk l hl
        have : l ≠ k := by rintro rfl; exact h hl
        omega

theorem rows_capped (limit : Option Nat) (hl : limit ≠ some 0) (n : Nat) : rows limit (capped limit n) = limited n limit := by
  cases limit with
  | none => rfl
  | some l =>
    cases l with
    | zero => exact absurd rfl hl
    | succ l => simp only [rows, capped, limited, Option.elim]; split <;> [omega; split <;> omega]

theorem detect_first (dec : Str → Option W) (limit : Option Nat) (hl : limit ≠ some 0) (line : Str)
    (lines : List Str) (w : Str × List W) (hw : lineToVector dec line = some w) (hd : w.2 ≠ []) :
    detectFrom dec limit (line :: lines) 0 none = some (capped limit (lines.length + 1), some w.2.length) := by
  obtain ⟨d, hd'⟩ : ∃ d, w.2.length = d + 1 := ⟨w.2.length - 1, by
    have := List.length_pos_iff.mpr hd; omega⟩
  simp only [detectFrom, hw, hd', if_neg hl]
  rw [detect_some _ _ _ _ _ (by
    rintro l rfl
    have : l ≠ 0 := by rintro rfl; exact hl rfl
    omega)]
  rw [Nat.zero_add, Nat.add_comm]

/-- **C114.** Loading a file without header is loading the same file below a header with its number of lines and
the length of its first vector, provided this is not 0 and no `limit` of 0 is given. -/
theorem C114_no_header (dec : Str → Option W) (zero : W) (limit : Option Nat) (hl : limit ≠ some 0) (line : Str)
    (lines : List Str) (file : Str) (hf : pyLines file = line :: lines) (w : Str × List W)
    (hw : lineToVector dec line = some w) (hd : w.2 ≠ []) :
    (loadNoHeader dec zero limit file : Load (Loading Str (List W) N)) =
      loadText dec zero limit (showNat (pyLines file).length ++ [' '] ++ showNat w.2.length ++ '\n' :: file) := by
  unfold loadText
  rw [pyLines_cons_line (header_no_newline _ _)]
  dsimp only
  rw [readHeader_limit]
  unfold loadNoHeader
  rw [hf, detect_first dec limit hl line lines w hw hd]
  dsimp only
  rw [rows_capped limit hl]
  rfl

/-- **C114, findings.** A limit of 0, which is no limit for a file with a header, is an error for one without; so is
an empty file, and a file whose first line cannot be read. -/
theorem C114_no_header_errors (dec : Str → Option W) (zero : W) (limit : Option Nat) (file : Str)
    (h : limit = some 0 ∨ file = [] ∨ ∃ line lines, pyLines file = line :: lines ∧ lineToVector dec line = none) :
    (loadNoHeader dec zero limit file : Load (Loading Str (List W) N)) = .error := by
  unfold loadNoHeader
  rcases h with rfl | rfl | ⟨line, lines, hf, hw⟩
  · cases pyLines file <;> simp [detectFrom]
  · simp [pyLines, detectFrom]
  · rw [hf]
    simp only [detectFrom, hw]
    by_cases h0 : limit = some 0 <;> simp [h0]

example : (loadNoHeader readInt 0 none "a 1 2\nb 3 4".toList : Load (Loading Str (List Int) Nat)) =
    .ok (loaded [0, 0] 2 [(['a'], [1, 2]), (['b'], [3, 4])]) := by decide +kernel

theorem readText_lines (dec : Str → Option W) (n d : Nat) : ∀ (recs : List (Str × List W)) (lines : List Str)
    (st : Loading Str (List W) N), lines.map (lineToVector dec) = recs.map some → (∀ r ∈ recs, r.2.length = d) →
    ∀ m, m ≤ recs.length → readText dec n d m st lines = .ok ((recs.take m).foldl (addWord n) st) := by
  intro recs
  induction recs with
  | nil =>
    intro lines st _ _ m hm
    obtain rfl : m = 0 := by simpa using hm
    cases lines <;> rfl
  | cons r recs ih =>
    intro lines st h hd m hm
    cases m with
    | zero => cases lines <;> rfl
    | succ m =>
      cases lines with
      | nil => simp at h
      | cons line lines =>
        simp only [List.map_cons, List.cons.injEq] at h
        unfold readText
        rw [h.1]
        dsimp only
        rw [if_pos (hd r (by simp)), ih lines _ h.2 (fun r hr => hd r (by simp [hr])) m (by simpa using hm)]
        rfl

theorem loadNoHeader_reads (dec : Str → Option W) (zero : W) (limit : Option Nat) (hl : limit ≠ some 0) (file : Str)
    (recs : List (Str × List W)) (d : Nat) (hd : 0 < d) (h : Reads dec file recs d) (hne : recs ≠ []) :
    (loadNoHeader dec zero limit file : Load (Loading Str (List W) N)) =
      .ok (loaded (List.replicate d zero) (limited recs.length limit) (firsts (recs.take (limited recs.length limit)))) := by
  obtain ⟨h1, h2⟩ := h
  cases recs with
  | nil => exact absurd rfl hne
  | cons r recs =>
    have h1' := h1
    cases hf : pyLines file with
    | nil => rw [hf] at h1; simp at h1
    | cons line lines =>
      rw [hf] at h1
      simp only [List.map_cons, List.cons.injEq] at h1
      have hlen : lines.length = recs.length := by simpa using congrArg List.length h1.2
      unfold loadNoHeader
      rw [hf, detect_first dec limit hl line lines r h1.1 (by
        intro e; have := h2 r (by simp); rw [e] at this; simp at this; omega)]
      dsimp only
      rw [rows_capped limit hl, h2 r (by simp), hlen]
      have hle : limited (recs.length + 1) limit ≤ recs.length + 1 := by
        cases limit with
        | none => exact Nat.le_refl _
        | some l => simp only [limited]; split <;> [omega; split <;> omega]
      rw [hf] at h1'
      rw [readText_lines dec _ d (r :: recs) (line :: lines) _ h1' h2 _ (by simpa using hle)]
      rw [List.length_cons, foldl_addWord _ _ _ (by rw [List.length_take]; omega)]

theorem mem_firsts {V : Type} (l : List (Str × V)) (k : Str) (v : V) :
    (k, v) ∈ firsts l ↔ l.find? (fun r => r.1 = k) = some (k, v) := by
  induction l using List.reverseRecOn with
  | nil => simp [firsts]
  | append_singleton l p ih =>
    rw [firsts_append, List.find?_append]
    have hk : ∀ x, l.find? (fun r => r.1 = k) = some x → x.1 = k := by
      intro x hx; simpa using List.find?_some hx
    by_cases hp : p.1 ∈ (firsts l).map Prod.fst
    · rw [if_pos hp, ih]
      by_cases hpk : p.1 = k
      · rw [mem_firsts_keys] at hp
        obtain ⟨q, hq, hqk⟩ := List.mem_map.mp hp
        have : (l.find? (fun r => r.1 = k)).isSome := by
          rw [List.find?_isSome]; exact ⟨q, hq, by simp [hqk, hpk]⟩
        obtain ⟨x, hx⟩ := Option.isSome_iff_exists.mp this
        rw [hx]; simp
      · have : [p].find? (fun r => r.1 = k) = none := by simp [hpk]
        rw [this]; simp
    · rw [if_neg hp, List.mem_append, ih]
      rw [mem_firsts_keys] at hp
      by_cases hpk : p.1 = k
      · have hn : l.find? (fun r => r.1 = k) = none := by
          rw [List.find?_eq_none]
          intro x hx hxk
          exact hp (by rw [hpk, ← (show x.1 = k by simpa using hxk)]; exact List.mem_map_of_mem hx)
        rw [hn]
        simp [hpk, eq_comm]
      · have h1 : [p].find? (fun r => r.1 = k) = none := by simp [hpk]
        rw [h1]
        simp only [List.mem_singleton, Option.or_none]
        constructor
        · rintro (h | h)
          · exact h
          · exact absurd (by rw [← h]) hpk
        · exact .inl

theorem filterMap_some {α : Type} (l : List α) (m : Nat) :
    (l.map some ++ List.replicate m none).filterMap id = l := by
  rw [List.filterMap_append]
  have h1 : (List.replicate m (none : Option α)).filterMap id = [] := by
    rw [List.filterMap_eq_nil_iff]
    intro a ha
    rw [(List.mem_replicate.mp ha).2]
    rfl
  rw [h1, List.append_nil, List.filterMap_map]
  simp

/-- **C114.** A file without header whose lines are vectors of the same length: the first occurrence of every word among
the first `limit` lines is loaded with its vector, in the order of the file, and nothing else. -/
theorem C114_no_header_loads (dec : Str → Option W) (zero : W) (limit : Option Nat) (hl : limit ≠ some 0) (file : Str)
    (recs : List (Str × List W)) (d : Nat) (hd : 0 < d) (h : Reads dec file recs d) (hne : recs ≠ []) :
    ∃ st : Loading Str (List W) N, loadNoHeader dec zero limit file = .ok st ∧
      st.kv.indexToKey.filterMap id = (firsts (recs.take (limited recs.length limit))).map Prod.fst ∧
      ∀ k v, getVector (fun _ => none) st.kv k = some v ↔
        (recs.take (limited recs.length limit)).find? (fun r => r.1 = k) = some (k, v) := by
  refine ⟨_, loadNoHeader_reads dec zero limit hl file recs d hd h hne, ?_, ?_⟩
  · have := filterMap_some ((firsts (recs.take (limited recs.length limit))).map Prod.fst)
      (limited recs.length limit - (firsts (recs.take (limited recs.length limit))).length)
    rw [List.map_map] at this
    exact this
  · intro k v
    rw [loaded_getVector _ _ _ (firsts_nodup _), mem_firsts]

example : Reads readInt "a 1 2\nb 3 4\na 5 6\n".toList [(['a'], [1, 2]), (['b'], [3, 4]), (['a'], [5, 6])] 2 :=
  ⟨by decide +kernel, by decide⟩

/-! ### Conversions -/

theorem repr_loaded (zero : List W) (F : List (Str × List W)) (hF : (F.map Prod.fst).Nodup) :
    KV.Repr (loaded zero F.length F : Loading Str (List W) N).kv F ∧
    none ∉ (loaded zero F.length F : Loading Str (List W) N).kv.indexToKey := by
  have hk : keys (F.zipIdx.map (fun p => (p.1.1, p.2))) = F.map Prod.fst := by
    unfold keys
    rw [List.map_map]
    have : (Prod.fst ∘ fun p : (Str × List W) × Nat => (p.1.1, p.2)) = Prod.fst ∘ Prod.fst := rfl
    rw [this, ← List.map_map, List.zipIdx_map_fst]
  refine ⟨⟨hF, ?_, ?_, ?_, ?_⟩, ?_⟩
  · show WF (F.zipIdx.map (fun p => (p.1.1, p.2)) : PyDict Str Nat)
    unfold WF; rw [hk]; exact hF
  · simp [loaded]
  · intro k i
    rw [loaded_get? _ _ _ hF]
    simp only [loaded, Nat.sub_self, List.replicate_zero, List.append_nil, List.getElem?_map]
    cases F[i]? <;> simp
  · intro k
    apply Option.ext
    intro v
    have h1 := loaded_getVector (N := N) zero F.length F hF k v
    unfold getVector at h1
    rw [getIndex_eq rfl] at h1
    rw [h1]
    exact ⟨fun h => mem_of_get? h, fun h => get?_of_mem hF h⟩
  · simp [loaded]

theorem storeOrder_loaded (zero : List W) (F : List (Str × List W)) (hF : (F.map Prod.fst).Nodup) (hne : F ≠ []) :
    storeOrder (loaded zero F.length F : Loading Str (List W) N).kv (countAttr (loaded zero F.length F : Loading Str (List W) N)) =
      F.map Prod.fst := by
  have hk : keys (F.zipIdx.map (fun p => (p.1.1, p.2))) = F.map Prod.fst := by
    unfold keys
    rw [List.map_map]
    have : (Prod.fst ∘ fun p : (Str × List W) × Nat => (p.1.1, p.2)) = Prod.fst ∘ Prod.fst := rfl
    rw [this, ← List.map_map, List.zipIdx_map_fst]
  have hcnt : (loaded zero F.length F : Loading Str (List W) N).counts = (List.range F.length).map (fun i => F.length - i) := by
    simp [loaded, hne]
  have hpos : 0 < F.length := List.length_pos_iff.mpr hne
  unfold countAttr
  rw [if_neg (by rw [hcnt]; simp; omega)]
  unfold storeOrder
  rw [show (loaded zero F.length F : Loading Str (List W) N).kv.keyToIndex.keys = F.map Prod.fst from hk]
  apply pySort_of_sorted
  rw [List.pairwise_iff_getElem]
  intro i j hi hj hij
  have hv : ∀ i (hi : i < (F.map Prod.fst).length),
      ((getIndex (fun _ => none) (loaded zero F.length F : Loading Str (List W) N).kv (F.map Prod.fst)[i]).bind
        (fun i => (loaded zero F.length F : Loading Str (List W) N).counts[i]?)).getD 0 = F.length - i := by
    intro i hi
    have h1 : getIndex (fun _ => none) (loaded zero F.length F : Loading Str (List W) N).kv (F.map Prod.fst)[i] = some i := by
      rw [getIndex_eq rfl]
      exact (loaded_get? zero F.length F hF _ i).mpr (List.getElem?_eq_getElem hi)
    rw [h1, hcnt]
    have : i < F.length := by simpa using hi
    simp [this]
  simp only [decide_eq_true_eq]
  rw [hv i hi, hv j hj]
  have : j < F.length := by simpa using hj
  omega

/-- **C114.** `glove2word2vec` for a file whose lines are vectors of the same length with different words: it returns the
number of vectors and their length, and writes a header and the same vectors in the same order. -/
theorem C114_glove (C : Codec W) (zero : W) (file : Str) (recs : List (Str × List W)) (d : Nat) (hd : 0 < d)
    (h : Reads C.dec file recs d) (hne : recs ≠ []) (hnd : (recs.map Prod.fst).Nodup) :
    glove C.dec C.enc zero file =
      some (showNat recs.length ++ [' '] ++ showNat d ++ '\n' :: (recs.map (fun r => textRecord C.enc r.1 r.2)).flatten,
        recs.length, d) := by
  unfold glove
  rw [loadNoHeader_reads C.dec zero none (by simp) file recs d hd h hne]
  simp only [limited, List.take_length, firsts_of_nodup _ hnd]
  obtain ⟨hr, hf⟩ := repr_loaded (N := Unit) (List.replicate d zero) recs hnd
  have hso := storeOrder_loaded (N := Unit) (List.replicate d zero) recs hnd hne
  rw [saveWith_eq (fun _ => []) _ _ _ recs hr hf]
  have hlen : (loaded (List.replicate d zero) recs.length recs : Loading Str (List W) Unit).kv.indexToKey.length = recs.length := by
    simp [loaded]
  have hsize : ((loaded (List.replicate d zero) recs.length recs : Loading Str (List W) Unit).kv.vectors.headD []).length = d := by
    cases recs with
    | nil => exact absurd rfl hne
    | cons r recs => simpa [loaded] using h.2 r (by simp)
  have hw : written (loaded (List.replicate d zero) recs.length recs : Loading Str (List W) Unit).kv
      (countAttr (loaded (List.replicate d zero) recs.length recs : Loading Str (List W) Unit)) = recs := by
    unfold written
    rw [hso, List.filterMap_map]
    have : ∀ r ∈ recs, ((fun k => (getVector (fun _ => none)
        (loaded (List.replicate d zero) recs.length recs : Loading Str (List W) Unit).kv k).map (fun v => (k, v))) ∘ Prod.fst) r =
        some r := by
      intro r hr'
      have := (loaded_getVector (N := Unit) (List.replicate d zero) recs.length recs hnd r.1 r.2).mpr hr'
      simp [this]
    rw [List.filterMap_congr this]
    simp
  rw [hlen, hsize, hw]
  rfl

theorem splitOn_parts (c : Char) (s : Str) : ∀ p ∈ splitOn c s, c ∉ p ∧ ∀ x ∈ p, x ∈ s := by
  induction s with
  | nil => intro p hp; simp [splitOn] at hp; subst hp; simp
  | cons x s ih =>
    intro p hp
    unfold splitOn at hp
    split at hp
    · rcases List.mem_cons.mp hp with rfl | hp
      · simp
      · exact ⟨(ih p hp).1, fun y hy => List.mem_cons_of_mem _ ((ih p hp).2 y hy)⟩
    · rename_i hxc
      split at hp
      · simp at hp; subst hp
        simp
        exact fun h => hxc h.symm
      · rename_i q qs hq
        rcases List.mem_cons.mp hp with rfl | hp
        · have := ih q (by rw [hq]; simp)
          refine ⟨?_, ?_⟩
          · rw [List.mem_cons]
            rintro (h | h)
            · exact hxc h.symm
            · exact this.1 h
          · intro y hy
            rcases List.mem_cons.mp hy with rfl | hy
            · simp
            · exact List.mem_cons_of_mem _ (this.2 y hy)
        · have := ih p (by rw [hq]; simp [hp])
          exact ⟨this.1, fun y hy => List.mem_cons_of_mem _ (this.2 y hy)⟩

theorem pyLines_nl (s : Str) : ∀ l ∈ pyLines s, '\n' ∉ l.dropLast := by
  induction s with
  | nil => intro l hl; simp [pyLines] at hl
  | cons x s ih =>
    intro l hl
    unfold pyLines at hl
    split at hl
    · rcases List.mem_cons.mp hl with rfl | hl
      · simp
      · exact ih l hl
    · rename_i hx
      split at hl
      · simp at hl; subst hl; simp
      · rename_i h t hq
        rcases List.mem_cons.mp hl with rfl | hl
        · have := ih h (by rw [hq]; simp)
          cases h with
          | nil => simp
          | cons y h =>
            rw [List.dropLast_cons_of_ne_nil (by simp), List.mem_cons]
            rintro (e | e)
            · exact hx e.symm
            · exact this e
        · exact ih l (by rw [hq]; simp [hl])

theorem rstrip_nl (l : Str) (h : '\n' ∉ l.dropLast) : '\n' ∉ rstrip bws l := by
  induction l using List.reverseRecOn with
  | nil => simp [rstrip]
  | append_singleton l x _ =>
    rw [List.dropLast_concat] at h
    unfold rstrip
    rw [List.reverse_append, List.reverse_singleton, List.singleton_append, List.dropWhile_cons]
    split
    · intro hc
      rw [List.mem_reverse] at hc
      exact h (by simpa using (List.dropWhile_suffix _).subset hc)
    · rename_i hx
      simp only [List.reverse_cons, List.reverse_reverse, List.mem_append, List.mem_singleton, not_or]
      refine ⟨h, ?_⟩
      rintro rfl
      exact hx (by decide)

theorem reads_words (dec : Str → Option W) (file : Str) (recs : List (Str × List W)) (d : Nat) (h : Reads dec file recs d) :
    ∀ r ∈ recs, ' ' ∉ r.1 ∧ '\n' ∉ r.1 := by
  intro r hr
  have : some r ∈ (pyLines file).map (lineToVector dec) := by rw [h.1]; exact List.mem_map_of_mem hr
  obtain ⟨line, hl, hlr⟩ := List.mem_map.mp this
  unfold lineToVector at hlr
  have hsp := splitOn_parts ' ' (rstrip bws line)
  cases hs : splitOn ' ' (rstrip bws line) with
  | nil => simp [hs] at hlr
  | cons w ps =>
    simp only [hs, Option.map_eq_some_iff] at hlr
    obtain ⟨v, _, rfl⟩ := hlr
    have := hsp w (by rw [hs]; simp)
    exact ⟨this.1, fun hc => rstrip_nl line (pyLines_nl file line hl) (this.2 _ hc)⟩

/-- **C114.** What `glove2word2vec` writes is loaded as the same words with the same vectors. -/
theorem C114_glove_load (C : Codec W) (zero : W) (file : Str) (recs : List (Str × List W)) (d : Nat) (hd : 0 < d)
    (h : Reads C.dec file recs d) (hne : recs ≠ []) (hnd : (recs.map Prod.fst).Nodup) :
    ∃ out st, glove C.dec C.enc zero file = some (out, recs.length, d) ∧
      (loadText C.dec zero none out : Load (Loading Str (List W) N)) = .ok st ∧
      st.kv.indexToKey = recs.map (fun r => some r.1) ∧
      ∀ k, getVector (fun _ => none) st.kv k = PyDict.get? recs k := by
  obtain ⟨hr, hf⟩ := repr_loaded (N := N) (List.replicate d zero) recs hnd
  obtain ⟨hr', hf'⟩ := repr_loaded (N := Unit) (List.replicate d zero) recs hnd
  have hwords := reads_words C.dec file recs d h
  obtain ⟨out, st, h1, h2, h3, h4⟩ := C40_text_roundtrip C zero d hd (fun _ => [])
    (loaded (List.replicate d zero) recs.length recs : Loading Str (List W) N).kv recs hr hf (by
      intro k hk
      obtain ⟨r, hr, rfl⟩ := List.mem_map.mp hk
      exact hwords r hr) (by
      intro k v hkv
      exact h.2 (k, v) (mem_of_get? hkv)) (countAttr (loaded (List.replicate d zero) recs.length recs : Loading Str (List W) N))
  rw [storeOrder_loaded _ _ hnd hne, List.map_map] at h3
  refine ⟨out, st, ?_, h2, h3, h4⟩
  have hg := C114_glove C zero file recs d hd h hne hnd
  rw [hg]
  rw [saveWith_eq (fun _ => []) _ _ _ recs hr hf] at h1
  have hw : written (loaded (List.replicate d zero) recs.length recs : Loading Str (List W) N).kv
      (countAttr (loaded (List.replicate d zero) recs.length recs : Loading Str (List W) N)) = recs := by
    unfold written
    rw [storeOrder_loaded _ _ hnd hne, List.filterMap_map]
    have : ∀ r ∈ recs, ((fun k => (getVector (fun _ => none)
        (loaded (List.replicate d zero) recs.length recs : Loading Str (List W) N).kv k).map (fun v => (k, v))) ∘ Prod.fst) r =
        some r := by
      intro r hr'
      have := (loaded_getVector (N := N) (List.replicate d zero) recs.length recs hnd r.1 r.2).mpr hr'
      simp [this]
    rw [List.filterMap_congr this]
    simp
  rw [hw] at h1
  have hlen : (loaded (List.replicate d zero) recs.length recs : Loading Str (List W) N).kv.indexToKey.length = recs.length := by
    simp [loaded]
  rw [hlen] at h1
  rw [Option.some.inj h1]

/-- **C114, finding.** If a word occurs twice in the file, `glove2word2vec` announces more vectors than it writes, and the
file it has written cannot be loaded. -/
theorem C114_glove_duplicates :
    glove readInt showInt 0 "a 1\na 2\nb 3\n".toList = some ("3 1\na 1\nb 3\n".toList, 3, 1) ∧
    (loadText readInt 0 none "3 1\na 1\nb 3\n".toList : Load (Loading Str (List Int) Nat)) = .error := by
  decide +kernel

/-- **C114.** `get_glove_info`: the number of lines, and the length of the vectors if the fields of the first line are
separated by single spaces and its word is not empty. -/
theorem C114_glove_info (file : Str) (w : Str) (fields : List Str) (lines : List Str)
    (hf : pyLines file = (joinWith [' '] (w :: fields) ++ ['\n']) :: lines)
    (hw : ∀ p ∈ w :: fields, p ≠ [] ∧ ∀ c ∈ p, bws c = false) :
    gloveInfo file = (((lines.length + 1 : Nat) : Int), (fields.length : Int)) := by
  unfold gloveInfo
  rw [hf]
  simp only [List.headD_cons]
  rw [splitWs_joinWith (ws := bws) (sep := ' ') (by decide) (by exact hw) (by
    intro c hc; simp at hc; subst hc; decide)]
  simp

/-- **C114.** `word2vec2tensor`: line by line the words, and the vectors separated by tabs, in the order of the rows. -/
theorem C114_tensor (enc : W → Str) (zero : List W) (recs : List (Str × List W)) (hnd : (recs.map Prod.fst).Nodup) :
    tensor enc (loaded zero recs.length recs : Loading Str (List W) N).kv =
      some ((recs.map (fun r => r.1 ++ ['\n'])).flatten,
        (recs.map (fun r => joinWith ['\t'] (r.2.map enc) ++ ['\n'])).flatten) := by
  have hi : (loaded zero recs.length recs : Loading Str (List W) N).kv.indexToKey = recs.map (fun r => some r.1) := by
    simp [loaded]
  unfold tensor
  rw [hi]
  have key : ∀ l : List (Str × List W), (∀ r ∈ l, r ∈ recs) →
      (l.map (fun r => some r.1)).mapM (fun (k? : Option Str) => k?.bind (fun k =>
        (getVector (fun _ => none) (loaded zero recs.length recs : Loading Str (List W) N).kv k).map (fun v =>
          (k ++ ['\n'], joinWith ['\t'] (v.map enc) ++ ['\n'])))) =
      some (l.map (fun r => (r.1 ++ ['\n'], joinWith ['\t'] (r.2.map enc) ++ ['\n']))) := by
    intro l
    induction l with
    | nil => intro _; rfl
    | cons r l ih =>
      intro hl
      have hg := (loaded_getVector (N := N) zero recs.length recs hnd r.1 r.2).mpr (hl r (by simp))
      rw [List.map_cons, List.mapM_cons, ih (fun r hr => hl r (by simp [hr]))]
      simp [hg]
  rw [key recs (fun _ h => h)]
  simp [List.map_map, Function.comp_def]

/-- **C114.** If no word contains a newline, nor the text of a number, line `i` of the one file belongs to line `i` of
the other. -/
theorem C114_tensor_lines (enc : W → Str) (zero : List W) (recs : List (Str × List W)) (hnd : (recs.map Prod.fst).Nodup)
    (hk : ∀ r ∈ recs, '\n' ∉ r.1) (he : ∀ x, '\n' ∉ enc x) :
    ∃ ws vs, tensor enc (loaded zero recs.length recs : Loading Str (List W) N).kv = some (ws, vs) ∧
      pyLines ws = recs.map (fun r => r.1 ++ ['\n']) ∧
      pyLines vs = recs.map (fun r => joinWith ['\t'] (r.2.map enc) ++ ['\n']) := by
  refine ⟨_, _, C114_tensor enc zero recs hnd, ?_, ?_⟩
  · have := pyLines_flatten (ls := recs.map Prod.fst) (by
      intro l hl; obtain ⟨r, hr, rfl⟩ := List.mem_map.mp hl; exact hk r hr)
    rw [List.map_map] at this
    exact this
  · have hj : ∀ ps : List Str, (∀ q ∈ ps, '\n' ∉ q) → '\n' ∉ joinWith ['\t'] ps := by
      intro ps
      induction ps with
      | nil => intro _ h; simp [joinWith] at h
      | cons q qs ih =>
        intro hq
        cases qs with
        | nil => exact hq q List.mem_cons_self
        | cons q' qs =>
          rw [joinWith, List.mem_append, List.mem_append]
          rintro ((h | h) | h)
          · exact hq q List.mem_cons_self h
          · simp at h
          · exact ih (fun r hr' => hq r (List.mem_cons_of_mem _ hr')) h
    have := pyLines_flatten (ls := recs.map (fun r => joinWith ['\t'] (r.2.map enc))) (by
      intro l hl; obtain ⟨r, hr, rfl⟩ := List.mem_map.mp hl
      exact hj _ (by
        intro q hq
        obtain ⟨x, _, rfl⟩ := List.mem_map.mp hq
        exact he x))
    rw [List.map_map] at this
    exact this

/-- **C114, findings.** A word with a newline inside, as a binary file can contain it, makes the file of words longer than
that of vectors; and a word that occurs twice in the input is an error. -/
theorem C114_tensor_findings :
    (tensor showInt (loaded [0] 2 [(['a', '\n', 'b'], [1]), (['c'], [2])] : Loading Str (List Int) Nat).kv).map
      (fun p => ((pyLines p.1).length, (pyLines p.2).length)) = some (3, 2) ∧
    tensor showInt (loaded [0] 3 (firsts [(['a'], [1]), (['a'], [2]), (['b'], [3])]) : Loading Str (List Int) Nat).kv = none := by
  decide +kernel

/-! ### Merging -/

/-- The words of the file in turn, until one of them fails. -/
def mergeRecs (size : Nat) (l : L) : List (Str × List W) → Locked W N L → Locked W N L × Option End
  | [], s => (s, none)
  | r :: rs, s =>
    match mergeWord size l s r.1 r.2 with
    | (s, none) => mergeRecs size l rs s
    | (s, some e) => (s, some e)

/-- Every key has a row of its own, and a lock factor of its own. -/
structure Own (s : Locked W N L) : Prop where
  row : ∀ k i, s.kv.keyToIndex.get? k = some i → i < s.kv.vectors.length
  inj : ∀ k k' i, s.kv.keyToIndex.get? k = some i → s.kv.keyToIndex.get? k' = some i → k = k'
  lock : ∃ ls, s.lockf = some ls ∧ ls.length = s.kv.vectors.length

/-- `s'` is `s` with the vectors of the records merged in, and `l` as their lock factor. -/
structure Merged (l : L) (recs : List (Str × List W)) (s s' : Locked W N L) : Prop where
  keys : s'.kv.keyToIndex = s.kv.keyToIndex ∧ s'.kv.indexToKey = s.kv.indexToKey
  norms : s'.kv.norms = s.kv.norms
  vectors : ∀ k i, s.kv.keyToIndex.get? k = some i → s'.kv.vectors[i]? = (lastOf recs k).or s.kv.vectors[i]?
  locks : ∀ k i, s.kv.keyToIndex.get? k = some i →
    (s'.lockf.bind (fun ls => ls[i]?)) =
      if k ∈ recs.map Prod.fst then some l else s.lockf.bind (fun ls => ls[i]?)
  others : ∀ i, (∀ k, s.kv.keyToIndex.get? k ≠ some i) → s'.kv.vectors[i]? = s.kv.vectors[i]?
  rows : s'.kv.vectors.length = s.kv.vectors.length

theorem lastOf_cons {V : Type} (r : Str × V) (rs : List (Str × V)) (k : Str) :
    lastOf (r :: rs) k = (lastOf rs k).or (if r.1 = k then some r.2 else none) := by
  unfold lastOf
  rw [List.reverse_cons, List.find?_append]
  cases rs.reverse.find? (fun r => r.1 = k) with
  | some x => simp
  | none =>
    by_cases h : r.1 = k <;> simp [h]

theorem mergeWord_own (size : Nat) (l : L) (s : Locked W N L) (hs : Own s) (w : Str) (v : List W) (hv : v.length = size) :
    ∃ s', mergeWord size l s w v = (s', none) ∧ Own s' ∧ s'.kv.keyToIndex = s.kv.keyToIndex ∧
      s'.kv.indexToKey = s.kv.indexToKey ∧ s'.kv.norms = s.kv.norms ∧ s'.kv.vectors.length = s.kv.vectors.length ∧
      (∀ i, s'.kv.vectors[i]? = if s.kv.keyToIndex.get? w = some i then some v else s.kv.vectors[i]?) ∧
      (∀ i, (s'.lockf.bind (fun ls => ls[i]?)) = if s.kv.keyToIndex.get? w = some i then some l else s.lockf.bind (fun ls => ls[i]?)) := by
  obtain ⟨ls, hls, hlen⟩ := hs.lock
  unfold mergeWord
  cases hg : s.kv.keyToIndex.get? w with
  | none => exact ⟨s, rfl, hs, rfl, rfl, rfl, rfl, by simp, by simp⟩
  | some i =>
    have hi := hs.row w i hg
    refine ⟨⟨{ s.kv with vectors := s.kv.vectors.set i v }, some (ls.set i l)⟩, ?_, ?_, rfl, rfl, rfl, by simp, ?_, ?_⟩
    · simp [hi, hv, hls, hlen]
    · exact ⟨by intro k j hk; simpa using hs.row k j hk, hs.inj, _, rfl, by simp [hlen]⟩
    · intro j
      simp only [List.getElem?_set, Option.some.injEq]
      by_cases hij : i = j
      · subst hij; simp [hi]
      · simp [hij]
    · intro j
      simp only [Option.bind_some, List.getElem?_set, Option.some.injEq, hls]
      by_cases hij : i = j
      · subst hij; simp [hi, hlen]
      · simp [hij]

theorem mergeRecs_own (size : Nat) (l : L) : ∀ (recs : List (Str × List W)) (s : Locked W N L), Own s →
    (∀ r ∈ recs, r.2.length = size) → ∃ s', mergeRecs size l recs s = (s', none) ∧ Merged l recs s s' := by
  intro recs
  induction recs with
  | nil => intro s _ _; exact ⟨s, rfl, ⟨rfl, rfl⟩, rfl, by simp [lastOf], by simp, by simp, rfl⟩
  | cons r rs ih =>
    intro s hs hr
    obtain ⟨s₁, h1, hown, hk, hi, hn, hlen, hv, hl⟩ := mergeWord_own size l s hs r.1 r.2 (hr r (by simp))
    obtain ⟨s₂, h2, hm⟩ := ih s₁ hown (fun q hq => hr q (by simp [hq]))
    refine ⟨s₂, by simp [mergeRecs, h1, h2], ⟨hm.keys.1.trans hk, hm.keys.2.trans hi⟩, hm.norms.trans hn, ?_, ?_, ?_,
      hm.rows.trans hlen⟩
    · intro k i hki
      rw [hm.vectors k i (by rw [hk]; exact hki), lastOf_cons, hv]
      cases lastOf rs k with
      | some x => simp
      | none =>
        by_cases hrk : r.1 = k
        · rw [if_pos (by rw [hrk]; exact hki)]; simp [hrk]
        · rw [if_neg (fun hc => hrk (hs.inj _ _ _ hc hki))]; simp [hrk]
    · intro k i hki
      rw [hm.locks k i (by rw [hk]; exact hki), hl]
      by_cases h1 : k ∈ rs.map Prod.fst
      · rw [if_pos h1, if_pos (by rw [List.map_cons]; exact List.mem_cons_of_mem _ h1)]
      · rw [if_neg h1]
        by_cases hrk : r.1 = k
        · rw [if_pos (by rw [hrk]; exact hki), if_pos (by simp [hrk])]
        · rw [if_neg (fun hc => hrk (hs.inj _ _ _ hc hki)), if_neg (by
            rw [List.map_cons, List.mem_cons]
            rintro (h | h)
            · exact hrk h.symm
            · exact h1 h)]
    · intro i hno
      rw [hm.others i (by rw [hk]; exact hno), hv, if_neg (hno r.1)]

theorem mergeText_recs (dec : Str → Option W) (size : Nat) (l : L) : ∀ (lines : List Str) (recs : List (Str × List W))
    (s : Locked W N L), lines.map (lineToVector dec) = recs.map some → (∀ r ∈ recs, r.2.length = size) →
    mergeText dec size l lines s = mergeRecs size l recs s := by
  intro lines
  induction lines with
  | nil =>
    intro recs s h _
    cases recs with
    | nil => rfl
    | cons r rs => simp at h
  | cons line lines ih =>
    intro recs s h hl
    cases recs with
    | nil => simp at h
    | cons r rs =>
      simp only [List.map_cons, List.cons.injEq] at h
      have h1 := h.1
      unfold lineToVector at h1
      cases hs : splitOn ' ' (rstrip bws line) with
      | nil => simp [hs] at h1
      | cons w ps =>
        simp only [hs, Option.map_eq_some_iff] at h1
        obtain ⟨v, hv, rfl⟩ := h1
        have hlen : ps.length = v.length := by
          have aux : ∀ (ps : List Str) (v : List W), ps.mapM dec = some v → ps.length = v.length := by
            intro ps
            induction ps with
            | nil => intro v hv; simp at hv; subst hv; rfl
            | cons p ps ih =>
              intro v hv
              rw [List.mapM_cons] at hv
              simp only [Option.bind_eq_bind, Option.bind_eq_some_iff] at hv
              obtain ⟨x, _, xs, hxs, hv⟩ := hv
              cases hv
              simp [ih xs hxs]
          exact aux ps v hv
        have hsz := hl (w, v) (by simp)
        simp only [mergeText, hs, List.length_cons, List.tail_cons, List.headD_cons, hv, mergeRecs]
        rw [if_neg (by simp only at hsz; omega)]
        cases hm : mergeWord size l s w v with
        | mk s' e =>
          cases e with
          | none => exact ih rs s' h.2 (fun q hq => hl q (by simp [hq]))
          | some e => rfl

theorem readWord_record (w bytes rest : Str) (hw : ' ' ∉ w) :
    readWord (w ++ ' ' :: (bytes ++ rest)) = some (w.filter (fun c => c ≠ '\n'), bytes ++ rest) := by
  unfold readWord
  have h1 : (w ++ ' ' :: (bytes ++ rest)).takeWhile (fun c => c ≠ ' ') = w := by
    rw [List.takeWhile_append_of_pos]
    · simp
    · intro c hc; simp; rintro rfl; exact hw hc
  have h2 : (w ++ ' ' :: (bytes ++ rest)).dropWhile (fun c => c ≠ ' ') = ' ' :: (bytes ++ rest) := by
    rw [List.dropWhile_append_of_pos]
    · simp
    · intro c hc; simp; rintro rfl; exact hw hc
  rw [if_pos (by simp), h1, h2]
  rfl

theorem mergeBinary_recs (parse : Str → Option (List W)) (size bytes : Nat) (l : L) :
    ∀ (R : List (Str × Str)) (n : Nat) (recs : List (Str × List W)) (tail : Str) (s : Locked W N L),
      (∀ r ∈ R, ' ' ∉ r.1 ∧ r.2.length = bytes) →
      R.map (fun r => (parse r.2).map (fun v => (r.1.filter (fun c => c ≠ '\n'), v))) = recs.map some →
      R.length ≤ n →
      mergeBinary parse size bytes l n ((R.map recordBytes).flatten ++ tail) s =
        match mergeRecs size l recs s with
        | (s, some e) => (s, some e)
        | (s, none) => mergeBinary parse size bytes l (n - R.length) tail s := by
  intro R
  induction R with
  | nil =>
    intro n recs tail s _ h _
    cases recs with
    | nil => simp [mergeRecs]
    | cons r rs => simp at h
  | cons r R ih =>
    intro n recs tail s hR h hn
    cases recs with
    | nil => simp at h
    | cons q qs =>
      obtain ⟨m, rfl⟩ : ∃ m, n = m + 1 := ⟨n - 1, by simp at hn; omega⟩
      simp only [List.map_cons, List.cons.injEq, Option.map_eq_some_iff] at h
      obtain ⟨⟨v, hv, rfl⟩, h2⟩ := h
      obtain ⟨hr1, hr2⟩ := hR r (by simp)
      have hfile : ((r :: R).map recordBytes).flatten ++ tail = r.1 ++ ' ' :: (r.2 ++ ((R.map recordBytes).flatten ++ tail)) := by
        simp [recordBytes]
      rw [hfile]
      simp only [mergeBinary, readWord_record r.1 r.2 _ hr1]
      rw [List.take_left' hr2, List.drop_left' hr2]
      simp only [hv, mergeRecs]
      cases hm : mergeWord size l s (r.1.filter (fun c => c ≠ '\n')) v with
      | mk s' e =>
        cases e with
        | none =>
          simp only
          rw [ih m qs tail s' (fun q hq => hR q (by simp [hq])) h2 (by simpa using hn)]
          simp
        | some e => rfl

/-- **C114, finding.** `intersect_word2vec_format` never returns: after merging, the message it logs uses an attribute that
does not exist. -/
theorem C114_merge_never_returns (dec : Str → Option W) (parse : Str → Option (List W)) (bytes : Nat → Nat) (size : Nat)
    (l : L) (binary : Bool) (file : Str) (s : Locked W N L) :
    (intersect dec parse bytes size l binary file s).2 ≠ .returned := by
  have hw : ∀ s w v, ((mergeWord size l s w v : Locked W N L × Option End)).2 ≠ some .returned := by
    intro s w v
    unfold mergeWord
    split
    · simp
    · dsimp only
      split
      · split
        · split
          · simp
          · split <;> simp
        · simp
      · simp
  have ht : ∀ lines s, ((mergeText dec size l lines s : Locked W N L × Option End)).2 ≠ some .returned := by
    intro lines
    induction lines with
    | nil => intro s; simp [mergeText]
    | cons line lines ih =>
      intro s
      unfold mergeText
      dsimp only
      split
      · simp
      · split
        · simp
        · rename_i v _
          have := hw s ((splitOn ' ' (rstrip bws line)).headD []) v
          split
          · exact ih _
          · rename_i e he
            rw [he] at this
            exact this
  have hb : ∀ n file s, ((mergeBinary parse size (bytes size) l n file s : Locked W N L × Option End)).2 ≠ some .returned := by
    intro n
    induction n with
    | zero => intro file s; simp [mergeBinary]
    | succ n ih =>
      intro file s
      unfold mergeBinary
      split
      · simp
      · rename_i w rest _
        split
        · simp
        · rename_i v _
          have := hw s w v
          split
          · exact ih _ _
          · rename_i e he
            rw [he] at this
            exact this
  unfold intersect
  split
  · simp
  · split
    · simp
    · rename_i n d _ _
      dsimp only
      split
      · rename_i s' e he
        intro hc
        simp only at hc
        subst hc
        cases binary with
        | true =>
          simp only [if_true] at he
          exact hb n _ s (by rw [he])
        | false =>
          simp only [Bool.false_eq_true, if_false] at he
          exact ht _ s (by rw [he])
      · simp

/-- **C114.** Merging a text file: if every key has its own lock factor, all words are merged as described by `Merged`
before the exception: known words have the vector of their last line, and the given lock factor; all other vectors,
lock factors and the keys are unchanged. The number of vectors in the header does not matter. -/
theorem C114_merge_text (dec : Str → Option W) (parse : Str → Option (List W)) (bytes : Nat → Nat) (size n : Nat)
    (l : L) (body : Str) (recs : List (Str × List W)) (h : Reads dec body recs size) (s : Locked W N L) (hs : Own s) :
    ∃ s', intersect dec parse bytes size l false (showNat n ++ [' '] ++ showNat size ++ '\n' :: body) s =
      (s', .attributeError) ∧ Merged l recs s s' := by
  obtain ⟨s', h1, h2⟩ := mergeRecs_own size l recs s hs h.2
  refine ⟨s', ?_, h2⟩
  unfold intersect
  rw [pyLines_cons_line (header_no_newline _ _)]
  simp only [List.headD_cons, List.tail_cons]
  rw [readHeader_show]
  simp only [ne_eq, not_true_eq_false, if_false, Bool.false_eq_true]
  rw [mergeText_recs dec size l _ recs s h.1 h.2, h1]

theorem drop_header (n size : Nat) (body : Str) :
    (showNat n ++ [' '] ++ showNat size ++ '\n' :: body).drop (showNat n ++ [' '] ++ showNat size ++ ['\n']).length = body := by
  rw [show showNat n ++ [' '] ++ showNat size ++ '\n' :: body = (showNat n ++ [' '] ++ showNat size ++ ['\n']) ++ body by simp,
    List.drop_left]

/-- **C114.** Merging a binary file with as many records as its header says: likewise; newlines are removed from the
words, also inside. -/
theorem C114_merge_binary (dec : Str → Option W) (parse : Str → Option (List W)) (bytes : Nat → Nat) (size : Nat)
    (l : L) (R : List (Str × Str)) (recs : List (Str × List W)) (tail : Str)
    (hR : ∀ r ∈ R, ' ' ∉ r.1 ∧ r.2.length = bytes size)
    (hp : R.map (fun r => (parse r.2).map (fun v => (r.1.filter (fun c => c ≠ '\n'), v))) = recs.map some)
    (hl : ∀ r ∈ recs, r.2.length = size) (s : Locked W N L) (hs : Own s) :
    ∃ s', intersect dec parse bytes size l true
        (showNat R.length ++ [' '] ++ showNat size ++ '\n' :: ((R.map recordBytes).flatten ++ tail)) s =
      (s', .attributeError) ∧ Merged l recs s s' := by
  obtain ⟨s', h1, h2⟩ := mergeRecs_own size l recs s hs hl
  refine ⟨s', ?_, h2⟩
  unfold intersect
  rw [pyLines_cons_line (header_no_newline _ _)]
  simp only [List.headD_cons, List.tail_cons]
  rw [readHeader_show]
  simp only [ne_eq, not_true_eq_false, if_false, if_true]
  rw [drop_header, mergeBinary_recs parse size (bytes size) l R R.length recs tail s hR hp (Nat.le_refl _), h1]
  simp [mergeBinary]

/-- **C114, finding.** A binary file that is cut off, so that there are fewer records than the header says and no space after
them, is read for ever. -/
theorem C114_merge_truncated (dec : Str → Option W) (parse : Str → Option (List W)) (bytes : Nat → Nat) (size n : Nat)
    (l : L) (R : List (Str × Str)) (recs : List (Str × List W)) (tail : Str)
    (hR : ∀ r ∈ R, ' ' ∉ r.1 ∧ r.2.length = bytes size)
    (hp : R.map (fun r => (parse r.2).map (fun v => (r.1.filter (fun c => c ≠ '\n'), v))) = recs.map some)
    (hl : ∀ r ∈ recs, r.2.length = size) (s : Locked W N L) (hs : Own s) (hn : R.length < n) (ht : ' ' ∉ tail) :
    (intersect dec parse bytes size l true
        (showNat n ++ [' '] ++ showNat size ++ '\n' :: ((R.map recordBytes).flatten ++ tail)) s).2 = .diverges := by
  obtain ⟨s', h1, h2⟩ := mergeRecs_own size l recs s hs hl
  unfold intersect
  rw [pyLines_cons_line (header_no_newline _ _)]
  simp only [List.headD_cons, List.tail_cons]
  rw [readHeader_show]
  simp only [ne_eq, not_true_eq_false, if_false, if_true]
  rw [drop_header, mergeBinary_recs parse size (bytes size) l R n recs tail s hR hp (Nat.le_of_lt hn), h1]
  obtain ⟨m, hm⟩ : ∃ m, n - R.length = m + 1 := ⟨n - R.length - 1, by omega⟩
  simp [hm, mergeBinary, readWord, ht]

/-- **C114, findings.** With the lock factors every model has by default, one for all words, merging a word of the
vocabulary other than the first one fails with an `IndexError` after its vector has been replaced; and merging the first
one sets the lock factor of all words. -/
theorem C114_merge_default_lock (size : Nat) (l l₀ : L) (s : Locked W N L) (hl : s.lockf = some [l₀]) (w : Str)
    (i : Nat) (hw : s.kv.keyToIndex.get? w = some i) (hi : i < s.kv.vectors.length) (v : List W) (hv : v.length = size)
    (rest : List (Str × List W)) :
    (0 < i → mergeRecs size l ((w, v) :: rest) s =
      (⟨{ s.kv with vectors := s.kv.vectors.set i v }, some [l₀]⟩, some .indexError)) ∧
    (i = 0 → mergeRecs size l [(w, v)] s = (⟨{ s.kv with vectors := s.kv.vectors.set 0 v }, some [l]⟩, none)) := by
  constructor
  · intro h0
    have : ¬ i < 1 := by omega
    simp only [mergeRecs, mergeWord, hw, hi, hv, hl, if_true, true_or, List.length_singleton, if_neg this]
  · intro h0
    subst h0
    simp [mergeRecs, mergeWord, hw, hi, hv, hl]

/-- **C114.** A file of vectors of another length is refused before anything is changed. -/
theorem C114_merge_size (dec : Str → Option W) (parse : Str → Option (List W)) (bytes : Nat → Nat) (size n d : Nat)
    (l : L) (binary : Bool) (body : Str) (s : Locked W N L) (hd : d ≠ size) :
    intersect dec parse bytes size l binary (showNat n ++ [' '] ++ showNat d ++ '\n' :: body) s = (s, .valueError) := by
  unfold intersect
  rw [pyLines_cons_line (header_no_newline _ _)]
  simp only [List.headD_cons, List.tail_cons]
  rw [readHeader_show]
  simp only [ne_eq, hd, not_false_eq_true, if_true]

theorem mergeText_append (dec : Str → Option W) (size : Nat) (l : L) : ∀ (lines more : List Str) (s : Locked W N L),
    mergeText dec size l (lines ++ more) s =
      match mergeText dec size l lines s with
      | (s, none) => mergeText dec size l more s
      | (s, some e) => (s, some e) := by
  intro lines
  induction lines with
  | nil => intro more s; rfl
  | cons line lines ih =>
    intro more s
    simp only [List.cons_append, mergeText]
    split
    · rfl
    · split
      · rfl
      · split
        · rw [ih]
        · rfl

/-- **C114.** A line with the wrong number of fields in a text file ends the merging with a `ValueError`; the lines before
it have been merged. -/
theorem C114_merge_bad_line (dec : Str → Option W) (parse : Str → Option (List W)) (bytes : Nat → Nat) (size n : Nat)
    (l : L) (body : Str) (good more : List Str) (bad : Str) (hb : pyLines body = good ++ bad :: more)
    (recs : List (Str × List W)) (h : good.map (lineToVector dec) = recs.map some) (hl : ∀ r ∈ recs, r.2.length = size)
    (hbad : (splitOn ' ' (rstrip bws bad)).length ≠ size + 1) (s : Locked W N L) (hs : Own s) :
    ∃ s', intersect dec parse bytes size l false (showNat n ++ [' '] ++ showNat size ++ '\n' :: body) s =
      (s', .valueError) ∧ Merged l recs s s' := by
  obtain ⟨s', h1, h2⟩ := mergeRecs_own size l recs s hs hl
  refine ⟨s', ?_, h2⟩
  unfold intersect
  rw [pyLines_cons_line (header_no_newline _ _)]
  simp only [List.headD_cons, List.tail_cons]
  rw [readHeader_show]
  simp only [ne_eq, not_true_eq_false, if_false, Bool.false_eq_true]
  rw [hb, mergeText_append, mergeText_recs dec size l _ recs s h hl, h1]
  simp only [mergeText, ne_eq, hbad, not_false_eq_true, if_true]

/-- **C114, finding.** Vectors that have never been trained with lock factors have no attribute for them: the first known
word is overwritten, then the call fails. -/
theorem C114_merge_no_lock (size : Nat) (l : L) (s : Locked W N L) (hl : s.lockf = none) (w : Str)
    (i : Nat) (hw : s.kv.keyToIndex.get? w = some i) (hi : i < s.kv.vectors.length) (v : List W) (hv : v.length = size)
    (rest : List (Str × List W)) :
    mergeRecs size l ((w, v) :: rest) s =
      (⟨{ s.kv with vectors := s.kv.vectors.set i v }, none⟩, some .attributeError) := by
  simp only [mergeRecs, mergeWord, hw, hi, hv, hl, if_true, true_or]

/-- **C114, finding.** Merging does not clear the norms: lengths computed before are used for the new vectors. -/
theorem C114_merge_stale_norms :
    let s : Locked Int Nat Nat := ⟨⟨[some ['a']], [(['a'], 0)], [[3]], 1, some [3]⟩, some [1]⟩
    (intersect readInt (fun _ => none) id 1 0 false "1 1\na 5\n".toList s).1.kv =
      ⟨[some ['a']], [(['a'], 0)], [[5]], 1, some [3]⟩ := by
  decide +kernel

/-- Two words with their own lock factors: a state as the theorems on merging need it. -/
example : Own (⟨⟨[some ['a'], some ['b']], [(['a'], 0), (['b'], 1)], [[3], [4]], 2, none⟩, some [1, 1]⟩ : Locked Int Nat Nat) where
  row := by
    intro k i h
    simp only [PyDict.get?] at h
    split at h
    · cases h; simp
    · split at h
      · cases h; simp
      · cases h
  inj := by
    intro k k' i h h'
    simp only [PyDict.get?] at h h'
    by_cases h1 : ['a'] = k
    · by_cases h2 : ['a'] = k'
      · rw [← h1, ← h2]
      · rw [if_pos h1] at h; rw [if_neg h2] at h'; cases h
        split at h' <;> simp at h'
    · rw [if_neg h1] at h
      by_cases h3 : ['b'] = k
      · rw [if_pos h3] at h; cases h
        by_cases h2 : ['a'] = k'
        · rw [if_pos h2] at h'; simp at h'
        · rw [if_neg h2] at h'
          by_cases h4 : ['b'] = k'
          · rw [← h3, ← h4]
          · rw [if_neg h4] at h'; cases h'
      · rw [if_neg h3] at h; cases h
  lock := ⟨_, rfl, rfl⟩

end Verif.VecFile
