import Verif.KeyedVectors.FormatModel
import Verif.KeyedVectors.SimProps

/-!
# C40: word2vec text and binary formats
-/

namespace Verif.KV

open Verif Verif.Text PyDict

variable {κ V N : Type} [DecidableEq κ]

/-! ## Specification -/

/-- the records whose key has not occurred before -/
def firsts (l : List (κ × V)) : List (κ × V) :=
  l.foldl (fun acc p => if p.1 ∈ acc.map Prod.fst then acc else acc ++ [p]) []

/-- the result of loading `n` rows, of which `F` are filled: keys and vectors in this order, `n - i` as count of row `i`,
then empty rows -/
def loaded (zero : V) (n : Nat) (F : List (κ × V)) : Loading κ V N :=
  ⟨⟨F.map (fun p => some p.1) ++ List.replicate (n - F.length) none, F.zipIdx.map (fun p => (p.1.1, p.2)),
      F.map Prod.snd ++ List.replicate (n - F.length) zero, F.length, none⟩,
    if F = [] then [] else (List.range F.length).map (fun i => n - i) ++ List.replicate (n - F.length) 0⟩

/-- a record: the bytes of the word, a space, the bytes of the vector -/
def recordBytes (r : Str × Str) : Str := r.1 ++ ' ' :: r.2

/-- `tail` does not begin with a whole record -/
def NoRecord (L : Nat) (tail : Str) : Prop := ∀ w v r : Str, ' ' ∉ w → v.length = L → tail ≠ w ++ ' ' :: (v ++ r)

/-! ## Proofs -/

theorem nextRecord_some {L : Nat} {chunk w v r : Str} :
    nextRecord L chunk = some (w, v, r) ↔ chunk = w ++ ' ' :: (v ++ r) ∧ ' ' ∉ w ∧ v.length = L := by
  unfold nextRecord
  constructor
  · intro h
    split at h
    · rename_i hm
      dsimp only at h
      split at h
      · simp at h
      · rename_i hl
        simp only [Option.some.injEq, Prod.mk.injEq] at h
        obtain ⟨h1, h2, h3⟩ := h
        have hsplit := List.takeWhile_append_dropWhile (p := fun c => decide (c ≠ ' ')) (l := chunk)
        have hne : chunk.dropWhile (fun c => decide (c ≠ ' ')) ≠ [] := by
          intro hcon
          rw [hcon, List.append_nil] at hsplit
          rw [← hsplit] at hm
          have := List.all_takeWhile (l := chunk) (p := fun c => decide (c ≠ ' '))
          rw [List.all_eq_true] at this
          have := this ' ' hm
          simp at this
        have hhead : (chunk.dropWhile (fun c => decide (c ≠ ' '))) =
            ' ' :: (chunk.dropWhile (fun c => decide (c ≠ ' '))).drop 1 := by
          cases hd : chunk.dropWhile (fun c => decide (c ≠ ' ')) with
          | nil => exact absurd hd hne
          | cons x xs =>
            have := List.head?_dropWhile_not (fun c => decide (c ≠ ' ')) chunk
            rw [hd] at this
            simp at this
            subst this
            simp
        refine ⟨?_, ?_, ?_⟩
        · rw [← h1, ← h2, ← h3, List.take_append_drop, ← hhead, hsplit]
        · rw [← h1]
          intro hcon
          have := List.all_takeWhile (l := chunk) (p := fun c => decide (c ≠ ' '))
          rw [List.all_eq_true] at this
          have := this ' ' hcon
          simp at this
        · rw [← h2, List.length_take]; omega
    · simp at h
  · rintro ⟨rfl, hw, hv⟩
    have hall : ∀ c ∈ w, decide (c ≠ ' ') = true := by
      intro c hc
      simp only [decide_eq_true_eq]
      rintro rfl
      exact hw hc
    have e1 : (w ++ ' ' :: (v ++ r)).takeWhile (fun c => decide (c ≠ ' ')) = w := by
      rw [List.takeWhile_append_of_pos hall]; simp
    have e2 : (w ++ ' ' :: (v ++ r)).dropWhile (fun c => decide (c ≠ ' ')) = ' ' :: (v ++ r) := by
      rw [List.dropWhile_append_of_pos hall]; simp
    rw [if_pos (by simp)]
    dsimp only
    rw [e1, e2, List.drop_succ_cons, List.drop_zero, if_neg (by rw [List.length_append]; omega)]
    rw [← hv, List.take_left, List.drop_left]

theorem nextRecord_none_iff {L : Nat} {tail : Str} : nextRecord L tail = none ↔ NoRecord L tail := by
  constructor
  · intro h w v r hw hv e
    rw [nextRecord_some.mpr ⟨e, hw, hv⟩] at h
    simp at h
  · intro h
    cases hn : nextRecord L tail with
    | none => rfl
    | some x =>
      obtain ⟨w, v, r⟩ := x
      obtain ⟨h1, h2, h3⟩ := nextRecord_some.mp hn
      exact absurd h1 (h w v r h2 h3)

theorem append_sep_inj {w w' a b : Str} (hw : ' ' ∉ w) (hw' : ' ' ∉ w') (h : w ++ ' ' :: a = w' ++ ' ' :: b) :
    w = w' ∧ a = b := by
  induction w generalizing w' with
  | nil =>
    cases w' with
    | nil => simp at h; exact ⟨rfl, h⟩
    | cons y ys => simp at h; exact absurd (h.1 ▸ List.mem_cons_self) hw'
  | cons x xs ih =>
    cases w' with
    | nil => simp at h; exact absurd (h.1 ▸ List.mem_cons_self) hw
    | cons y ys =>
      simp only [List.cons_append, List.cons.injEq] at h
      obtain ⟨e1, e2⟩ := ih (fun hc => hw (List.mem_cons_of_mem _ hc)) (fun hc => hw' (List.mem_cons_of_mem _ hc)) h.2
      exact ⟨by rw [h.1, e1], e2⟩

/-- the loop over a chunk takes whole records off the front of the remaining file -/
theorem addBytes_spec (decode : Str → κ) (parse : Str → V) (n L : Nat) (tail : Str) (ht : NoRecord L tail) :
    ∀ (m : Nat) (st : Loading κ V N) (chunk rest : Str) (Rs : List (Str × Str)),
      (∀ r ∈ Rs, ' ' ∉ r.1 ∧ r.2.length = L) → chunk ++ rest = (Rs.map recordBytes).flatten ++ tail →
      ∃ j left, j ≤ m ∧ j ≤ Rs.length ∧
        addBytes decode parse n L m st chunk =
          ((Rs.take j).foldl (fun st r => addWord n st (wordKey decode r.1, parse r.2)) st, j, left) ∧
        left ++ rest = ((Rs.drop j).map recordBytes).flatten ++ tail ∧ (j = m ∨ NoRecord L left) := by
  intro m
  induction m with
  | zero =>
    intro st chunk rest Rs _ h
    exact ⟨0, chunk, Nat.le_refl _, Nat.zero_le _, rfl, h, .inl rfl⟩
  | succ m ih =>
    intro st chunk rest Rs hR h
    unfold addBytes
    cases hn : nextRecord L chunk with
    | none => exact ⟨0, chunk, Nat.zero_le _, Nat.zero_le _, rfl, h, .inr (nextRecord_none_iff.mp hn)⟩
    | some x =>
      obtain ⟨w, v, r⟩ := x
      obtain ⟨h1, h2, h3⟩ := nextRecord_some.mp hn
      cases Rs with
      | nil =>
        rw [List.map_nil, List.flatten_nil, List.nil_append, h1] at h
        exact absurd (by rw [← h]; simp) (ht w v (r ++ rest) h2 h3)
      | cons p Rs =>
        obtain ⟨hp1, hp2⟩ := hR p List.mem_cons_self
        rw [h1, List.map_cons, List.flatten_cons, recordBytes] at h
        have h' : w ++ ' ' :: (v ++ (r ++ rest)) = p.1 ++ ' ' :: (p.2 ++ ((Rs.map recordBytes).flatten ++ tail)) := by
          simpa using h
        obtain ⟨e1, e2⟩ := append_sep_inj h2 hp1 h'
        have e3 := List.append_inj e2 (by rw [h3, hp2])
        obtain ⟨j, left, a1, a2, a3, a4, a5⟩ := ih (addWord n st (wordKey decode p.1, parse p.2)) r rest Rs
          (fun q hq => hR q (List.mem_cons_of_mem _ hq)) e3.2
        refine ⟨j + 1, left, by omega, by simp; omega, ?_, by simpa using a4, ?_⟩
        · dsimp only
          rw [e1, e3.1, a3]
          simp
        · rcases a5 with a5 | a5
          · left; omega
          · exact .inr a5

/-! ### what adding words to preallocated rows gives -/

theorem firsts_append (l : List (κ × V)) (p : κ × V) :
    firsts (l ++ [p]) = if p.1 ∈ (firsts l).map Prod.fst then firsts l else firsts l ++ [p] := by
  unfold firsts
  rw [List.foldl_append]
  rfl

theorem firsts_length (l : List (κ × V)) : (firsts l).length ≤ l.length := by
  induction l using List.reverseRecOn with
  | nil => simp [firsts]
  | append_singleton l p ih =>
    rw [firsts_append]
    split
    · simp; omega
    · simp; exact ih

theorem mem_firsts_keys (l : List (κ × V)) : ∀ k : κ, k ∈ (firsts l).map Prod.fst ↔ k ∈ l.map Prod.fst := by
  induction l using List.reverseRecOn with
  | nil => simp [firsts]
  | append_singleton l p ih =>
    intro k
    rw [firsts_append]
    split
    · rename_i hp
      rw [ih] at hp
      simp only [List.map_append, List.mem_append, ih]
      constructor
      · exact .inl
      · rintro (h | h)
        · exact h
        · simp only [List.map_cons, List.map_nil, List.mem_singleton] at h; rw [h]; exact hp
    · simp only [List.map_append, List.mem_append, ih]

theorem firsts_nodup (l : List (κ × V)) : ((firsts l).map Prod.fst).Nodup := by
  induction l using List.reverseRecOn with
  | nil => simp [firsts]
  | append_singleton l p ih =>
    rw [firsts_append]
    split
    · exact ih
    · rename_i hp
      rw [List.map_append, List.nodup_append]
      refine ⟨ih, by simp, ?_⟩
      intro a ha b hb e
      simp only [List.map_cons, List.map_nil, List.mem_singleton] at hb
      exact hp (hb ▸ e ▸ ha)

theorem firsts_of_nodup (l : List (κ × V)) (h : (l.map Prod.fst).Nodup) : firsts l = l := by
  induction l using List.reverseRecOn with
  | nil => rfl
  | append_singleton l p ih =>
    rw [List.map_append, List.nodup_append] at h
    rw [firsts_append, ih h.1, if_neg]
    intro hp
    exact h.2.2 p.1 hp p.1 (by simp) rfl

theorem loaded_get? (zero : V) (n : Nat) (F : List (κ × V)) (hF : (F.map Prod.fst).Nodup) (k : κ) (i : Nat) :
    (loaded zero n F : Loading κ V N).kv.keyToIndex.get? k = some i ↔ (F.map Prod.fst)[i]? = some k := by
  have hk : keys (F.zipIdx.map (fun p => (p.1.1, p.2))) = F.map Prod.fst := by
    unfold keys
    rw [List.map_map]
    have : (Prod.fst ∘ fun p : (κ × V) × Nat => (p.1.1, p.2)) = Prod.fst ∘ Prod.fst := rfl
    rw [this, ← List.map_map, List.zipIdx_map_fst]
  have hwf : WF (F.zipIdx.map (fun p => (p.1.1, p.2)) : PyDict κ Nat) := by unfold WF; rw [hk]; exact hF
  unfold loaded
  dsimp only
  rw [get?_eq_some_iff hwf, List.mem_map, List.getElem?_map]
  constructor
  · rintro ⟨⟨p, j⟩, hm, e⟩
    rw [List.mem_zipIdx_iff_getElem?] at hm
    simp only [Prod.mk.injEq] at e
    dsimp only at hm
    rw [← e.2, hm, Option.map_some, e.1]
  · intro h
    obtain ⟨p, h1, h2⟩ := Option.map_eq_some_iff.mp h
    exact ⟨(p, i), by rw [List.mem_zipIdx_iff_getElem?]; exact h1, by rw [h2]⟩

theorem loaded_has (zero : V) (n : Nat) (F : List (κ × V)) (hF : (F.map Prod.fst).Nodup) (k : κ) :
    has (fun _ => none) (loaded zero n F : Loading κ V N).kv k = true ↔ k ∈ F.map Prod.fst := by
  unfold has
  rw [getIndex_eq rfl, Option.isSome_iff_exists]
  constructor
  · rintro ⟨i, hi⟩
    exact List.mem_of_getElem? ((loaded_get? zero n F hF k i).mp hi)
  · intro h
    obtain ⟨i, hi⟩ := List.getElem?_of_mem h
    exact ⟨i, (loaded_get? zero n F hF k i).mpr hi⟩

theorem set_append_replicate {α : Type} (A : List α) (x z : α) (m : Nat) :
    (A ++ List.replicate (m + 1) z).set A.length x = (A ++ [x]) ++ List.replicate m z := by
  rw [List.set_append_right _ _ (Nat.le_refl _), Nat.sub_self, List.replicate_succ, List.set_cons_zero]
  simp

theorem addWord_loaded (zero : V) (n : Nat) (F : List (κ × V)) (hF : (F.map Prod.fst).Nodup) (p : κ × V)
    (hn : p.1 ∉ F.map Prod.fst → F.length < n) :
    addWord n (loaded zero n F : Loading κ V N) p =
      loaded zero n (if p.1 ∈ F.map Prod.fst then F else F ++ [p]) := by
  unfold addWord
  by_cases hp : p.1 ∈ F.map Prod.fst
  · rw [if_pos ((loaded_has zero n F hF p.1).mpr hp), if_pos hp]
  · rw [if_neg (by rw [loaded_has zero n F hF p.1]; exact hp), if_neg hp]
    have hlt := hn hp
    obtain ⟨m, hm⟩ : ∃ m, n - F.length = m + 1 := ⟨n - F.length - 1, by omega⟩
    have hm' : n - (F ++ [p]).length = m := by rw [List.length_append]; simp; omega
    have hlen : (loaded zero n F : Loading κ V N).kv.indexToKey.length = n := by
      simp [loaded]; omega
    have hslot : (loaded zero n F : Loading κ V N).kv.indexToKey[F.length]? = some none := by
      simp only [loaded]
      rw [List.getElem?_append_right (by simp), List.length_map, Nat.sub_self, hm]
      rfl
    have hadd : addVector (fun _ => none) (loaded zero n F : Loading κ V N).kv p.1 p.2 =
        ((loaded zero n (F ++ [p]) : Loading κ V N).kv, F.length) := by
      have hset : (loaded zero n F : Loading κ V N).kv.keyToIndex.set p.1 F.length =
          (loaded zero n (F ++ [p]) : Loading κ V N).kv.keyToIndex := by
        rw [set_of_not_mem]
        · simp [loaded, List.zipIdx_append]
        · rw [← get?_eq_none_iff]
          cases hg : (loaded zero n F : Loading κ V N).kv.keyToIndex.get? p.1 with
          | none => rfl
          | some i => exact absurd (List.mem_of_getElem? ((loaded_get? zero n F hF p.1 i).mp hg)) hp
      have hni : (loaded zero n F : Loading κ V N).kv.nextIndex = F.length := rfl
      unfold addVector
      rw [hni, hlen, if_neg (by rw [hslot]; simp; omega), hset]
      congr 1
      unfold loaded
      dsimp only
      rw [hm, hm']
      have a := set_append_replicate (F.map (fun p => some p.1)) (some p.1) none m
      have b := set_append_replicate (F.map Prod.snd) p.2 zero m
      rw [List.length_map] at a b
      rw [a, b]
      simp
    dsimp only
    rw [hadd]
    have hF' : ((F ++ [p]).map Prod.fst).Nodup := by
      rw [List.map_append, List.nodup_append]
      refine ⟨hF, by simp, ?_⟩
      intro a ha b hb e
      simp only [List.map_cons, List.map_nil, List.mem_singleton] at hb
      exact hp (hb ▸ e ▸ ha)
    have hgi : getIndex (fun _ => none) (loaded zero n (F ++ [p]) : Loading κ V N).kv p.1 = some F.length := by
      rw [getIndex_eq rfl, loaded_get? zero n _ hF']
      simp
    have hlen2 : (loaded zero n (F ++ [p]) : Loading κ V N).kv.indexToKey.length = n := by
      simp [loaded]; omega
    unfold setAttr
    rw [hgi, hlen2, Option.map_some, Option.getD_some]
    have hcnt : (allocAttr 0 n (loaded zero n F : Loading κ V N).counts).set F.length (n - F.length) =
        (loaded zero n (F ++ [p]) : Loading κ V N).counts := by
      have halloc : allocAttr 0 n (loaded zero n F : Loading κ V N).counts =
          (List.range F.length).map (fun i => n - i) ++ List.replicate (m + 1) 0 := by
        unfold loaded
        dsimp only
        rw [hm]
        split
        · rename_i hnil
          subst hnil
          unfold allocAttr
          rw [if_neg (by simp at hlt ⊢; omega)]
          simp at hm ⊢
          exact hm
        · unfold allocAttr
          rw [if_pos (by simp; omega)]
      rw [halloc]
      have c := set_append_replicate ((List.range F.length).map (fun i => n - i)) (n - F.length) 0 m
      rw [List.length_map, List.length_range] at c
      rw [c]
      unfold loaded
      dsimp only
      rw [if_neg (by simp), hm', List.length_append, List.length_singleton, List.range_succ]
      simp
    rw [hcnt]

theorem loaded_nil (zero : V) (n : Nat) : (loaded zero n [] : Loading κ V N) = ⟨new zero n, []⟩ := by
  unfold loaded new
  simp

/-- adding words one after the other fills the preallocated rows with the first occurrences -/
theorem foldl_addWord (zero : V) (n : Nat) (l : List (κ × V)) (hl : l.length ≤ n) :
    l.foldl (addWord n) (⟨new zero n, []⟩ : Loading κ V N) = loaded zero n (firsts l) := by
  induction l using List.reverseRecOn with
  | nil => exact (loaded_nil zero n).symm
  | append_singleton l p ih =>
    rw [List.length_append, List.length_singleton] at hl
    rw [List.foldl_append, ih (by omega), firsts_append]
    exact addWord_loaded zero n (firsts l) (firsts_nodup l) p (fun _ => by have := firsts_length l; omega)

/-! ### the binary reader -/

theorem readBinary_spec (decode : Str → κ) (parse : Str → V) (zero : V) (n L c : Nat) (hc : 1 ≤ c)
    (R : List (Str × Str)) (hR : ∀ r ∈ R, ' ' ∉ r.1 ∧ r.2.length = L) (tail : Str) (ht : NoRecord L tail)
    (H : ((R.take n).map (fun r => wordKey decode r.1)).Nodup ∨ R.length ≤ n) :
    ∀ (fuel k : Nat) (chunk rest : Str), rest.length < fuel → k ≤ n → k ≤ R.length →
      chunk ++ rest = ((R.drop k).map recordBytes).flatten ++ tail →
      readBinary decode parse n L c fuel
        (loaded zero n (firsts ((R.take k).map (fun r => (wordKey decode r.1, parse r.2)))) : Loading κ V N) k chunk rest =
        if R.length < n then .error
        else .ok (loaded zero n (firsts ((R.take n).map (fun r => (wordKey decode r.1, parse r.2))))) := by
  intro fuel
  induction fuel with
  | zero => intro k chunk rest h; omega
  | succ fuel ih =>
    intro k chunk rest hf hkn hkR hcat
    unfold readBinary
    by_cases hk : k < n
    · rw [if_pos hk]
      dsimp only
      have hni : (loaded zero n (firsts ((R.take k).map (fun r => (wordKey decode r.1, parse r.2)))) :
          Loading κ V N).kv.nextIndex = (firsts ((R.take k).map (fun r => (wordKey decode r.1, parse r.2)))).length := rfl
      rw [hni]
      have hfl := firsts_length ((R.take k).map (fun r => (wordKey decode r.1, parse r.2)))
      rw [List.length_map, List.length_take, Nat.min_eq_left hkR] at hfl
      have hcat' : (chunk ++ rest.take c) ++ rest.drop c = ((R.drop k).map recordBytes).flatten ++ tail := by
        rw [List.append_assoc, List.take_append_drop]; exact hcat
      obtain ⟨j, left, b1, b2, b3, b4, b5⟩ := addBytes_spec decode parse n L tail ht
        (n - (firsts ((R.take k).map (fun r => (wordKey decode r.1, parse r.2)))).length)
        (loaded zero n (firsts ((R.take k).map (fun r => (wordKey decode r.1, parse r.2)))) : Loading κ V N)
        (chunk ++ rest.take c) (rest.drop c) (R.drop k) (fun r hr => hR r (List.mem_of_mem_drop hr)) hcat'
      rw [List.length_drop] at b2
      have hkj : k + j ≤ n ∧
          (j = n - (firsts ((R.take k).map (fun r => (wordKey decode r.1, parse r.2)))).length → n ≤ k + j) := by
        refine ⟨?_, by omega⟩
        rcases H with H | H
        · have hfd : firsts ((R.take k).map (fun r => (wordKey decode r.1, parse r.2))) =
              (R.take k).map (fun r => (wordKey decode r.1, parse r.2)) := by
            apply firsts_of_nodup
            rw [List.map_map]
            have e : R.take k = (R.take n).take k := by rw [List.take_take, Nat.min_eq_left hkn]
            rw [e, List.map_take]
            exact H.sublist (List.take_sublist _ _)
          rw [hfd, List.length_map, List.length_take, Nat.min_eq_left hkR] at b1
          omega
        · omega
      have hst : ((R.drop k).take j).foldl (fun st r => addWord n st (wordKey decode r.1, parse r.2))
          (loaded zero n (firsts ((R.take k).map (fun r => (wordKey decode r.1, parse r.2)))) : Loading κ V N) =
          loaded zero n (firsts ((R.take (k + j)).map (fun r => (wordKey decode r.1, parse r.2)))) := by
        rw [← foldl_addWord zero n _ (by rw [List.length_map, List.length_take]; omega),
          ← foldl_addWord zero n _ (by rw [List.length_map, List.length_take]; omega), List.take_add, List.map_append,
          List.foldl_append]
        rw [List.foldl_map (l := (R.drop k).take j)]
      rw [b3]
      dsimp only
      rw [hst]
      have hlast : rest.length < c → left = ((R.drop (k + j)).map recordBytes).flatten ++ tail := by
        intro hlt
        rw [List.drop_eq_nil_of_le (by omega), List.append_nil, List.drop_drop] at b4
        exact b4
      by_cases hpc : (rest.take c).length < c
      · rw [if_pos hpc]
        have hlt : rest.length < c := by rw [List.length_take] at hpc; omega
        have hend : k + j = n ∨ k + j = R.length := by
          rcases b5 with b5 | b5
          · left; have := hkj.2 b5; omega
          · right
            by_contra hne
            have hlt2 : k + j < R.length := by omega
            rw [hlast hlt, List.drop_eq_getElem_cons hlt2, List.map_cons, List.flatten_cons, recordBytes] at b5
            have hr := hR _ (List.getElem_mem hlt2)
            exact b5 _ _ (((R.drop (k + j + 1)).map recordBytes).flatten ++ tail) hr.1 hr.2 (by simp)
        by_cases hfin : k + j = n
        · rw [if_neg (by simp [hfin]), if_neg (by omega), hfin]
        · rw [if_pos (by simpa using hfin), if_pos (by omega)]
      · rw [if_neg hpc]
        apply ih
        · rw [List.length_take] at hpc
          rw [List.length_drop]
          omega
        · exact hkj.1
        · omega
        · rw [← List.drop_drop]; exact b4
    · have hkn' : k = n := by omega
      subst hkn'
      rw [if_neg hk, if_neg (by simp), if_neg (by omega)]

/-- **C40.** What the binary reader loads does not depend on the size of the pieces it reads.  A file of `R` records
followed by bytes that do not make a whole record is loaded as its first `n` records (`n` the number of rows to
read): the first occurrence of each word, in order, `n - i` as count of row `i`, and an empty row for each repetition.  It is
an error if there are fewer than `n` records.  This holds if the file has no more than `n` records or the words of the
first `n` are different. -/
theorem C40_binary_reader (decode : Str → κ) (parse : Str → V) (zero : V) (n L c : Nat) (hc : 1 ≤ c)
    (R : List (Str × Str)) (hR : ∀ r ∈ R, ' ' ∉ r.1 ∧ r.2.length = L) (tail : Str) (ht : NoRecord L tail)
    (H : ((R.take n).map (fun r => wordKey decode r.1)).Nodup ∨ R.length ≤ n) (fuel : Nat)
    (hf : ((R.map recordBytes).flatten ++ tail).length < fuel) :
    readBinary decode parse n L c fuel (⟨new zero n, []⟩ : Loading κ V N) 0 [] ((R.map recordBytes).flatten ++ tail) =
      if R.length < n then .error
      else .ok (loaded zero n (firsts ((R.take n).map (fun r => (wordKey decode r.1, parse r.2))))) := by
  have := readBinary_spec (N := N) decode parse zero n L c hc R hR tail ht H fuel 0 []
    ((R.map recordBytes).flatten ++ tail) hf (Nat.zero_le _) (Nat.zero_le _) (by simp)
  rw [List.take_zero, List.map_nil] at this
  rw [← this]
  congr 1

/-- without that condition the size of the pieces matters: with a limit of 3 the file `a a b c d` is loaded in one piece,
but read by single bytes it is reported as damaged -/
theorem C40_chunk_size_matters :
    let f := ['a', ' ', '1', 'a', ' ', '2', 'b', ' ', '3', 'c', ' ', '4', 'd', ' ', '5']
    readBinary (fun s => s) (fun s => s) 3 1 100 20 (⟨new [] 3, []⟩ : Loading Str Str Nat) 0 [] f =
      .ok (loaded [] 3 [(['a'], ['1']), (['b'], ['3'])]) ∧
    readBinary (fun s => s) (fun s => s) 3 1 4 20 (⟨new [] 3, []⟩ : Loading Str Str Nat) 0 [] f = .error := by
  decide +kernel

/-! ### saving and loading -/

theorem intPrefix_none (l : List (Option κ)) (i : Nat) : intPrefix (fun _ => none) i l = 0 := by
  cases l with
  | nil => rfl
  | cons k ks =>
    unfold intPrefix
    rw [if_neg (by cases k <;> simp)]

/-- the rows to load: the header's number, or `limit` if that is given, not 0 and smaller -/
def limited (n : Nat) : Option Nat → Nat
  | none => n
  | some l => if l = 0 then n else if l < n then l else n

theorem readHeader_limit (n d : Nat) (limit : Option Nat) :
    readHeader (showNat n ++ [' '] ++ showNat d ++ ['\n']) limit = some (limited n limit, d) := by
  have hsp : uws ' ' = true := by decide
  have hnl : uws '\n' = true := by decide
  have e : splitWs uws (showNat n ++ [' '] ++ showNat d ++ ['\n']) = [showNat n, showNat d] := by
    have := splitWs_joinWith (ws := uws) (sep := ' ') hsp (ps := [showNat n, showNat d]) (t := ['\n']) (by
      intro p hp
      simp only [List.mem_cons, List.not_mem_nil, or_false] at hp
      rcases hp with rfl | rfl
      · exact ⟨showNat_ne_nil n, fun c hc => not_ws_of_digit (showNat_digit n c hc)⟩
      · exact ⟨showNat_ne_nil d, fun c hc => not_ws_of_digit (showNat_digit d c hc)⟩) (by
      intro c hc
      simp only [List.mem_singleton] at hc
      rw [hc]; exact hnl)
    exact this
  unfold readHeader
  rw [e]
  dsimp only
  rw [readInt_showNat, readInt_showNat]
  dsimp only
  rw [if_pos ⟨Int.natCast_nonneg n, Int.natCast_nonneg d⟩, Int.toNat_natCast, Int.toNat_natCast]
  congr 2
  cases limit with
  | none => rfl
  | some l =>
    cases l with
    | zero => rfl
    | succ l =>
      unfold limited
      dsimp only
      rw [if_neg (by omega)]
      split <;> omega

theorem readHeader_show (n d : Nat) :
    readHeader (showNat n ++ [' '] ++ showNat d ++ ['\n']) none = some (n, d) := readHeader_limit n d none

theorem header_no_newline (n d : Nat) : '\n' ∉ showNat n ++ [' '] ++ showNat d := by
  intro h
  rw [List.mem_append, List.mem_append] at h
  rcases h with (h | h) | h
  · have := showNat_digit n _ h; revert this; decide
  · simp at h
  · have := showNat_digit d _ h; revert this; decide

/-- the keys in the order they are written, with their vectors -/
def written (s : Store κ V N) (attr : Option (κ → Int)) : List (κ × V) :=
  (storeOrder s attr).filterMap (fun k => (getVector (fun _ => none) s k).map (fun v => (k, v)))

theorem storeOrder_perm (s : Store κ V N) (d : PyDict κ V) (hr : Repr s d) (hf : none ∉ s.indexToKey) (attr : Option (κ → Int)) :
    (storeOrder s attr).Nodup ∧ (storeOrder s attr).length = s.indexToKey.length ∧
    ∀ k, k ∈ storeOrder s attr ↔ k ∈ d.keys := by
  have hlen : ∀ l : List (Option κ), none ∉ l → (l.filterMap id).map some = l := by
    intro l
    induction l with
    | nil => intro _; rfl
    | cons x l ih =>
      intro hx
      cases x with
      | none => exact absurd List.mem_cons_self hx
      | some k =>
        rw [List.filterMap_cons_some (f := id) (a := some k) rfl, List.map_cons,
          ih (fun h => hx (List.mem_cons_of_mem _ h))]
  have hi := hlen s.indexToKey hf
  have hnd : (s.indexToKey.filterMap id).Nodup := by
    have := hr.nodup hf
    rw [← hi] at this
    exact List.Nodup.of_map _ this
  have hmem : ∀ k, k ∈ s.indexToKey.filterMap id ↔ k ∈ d.keys := by
    intro k
    rw [← get?_isSome_iff, ← hr.isSome k, Option.isSome_iff_exists]
    constructor
    · intro h
      have h2 : some k ∈ s.indexToKey := by rw [← hi]; exact List.mem_map_of_mem h
      obtain ⟨i, hi'⟩ := List.getElem?_of_mem h2
      exact ⟨i, (hr.bij k i).mpr hi'⟩
    · rintro ⟨i, hi'⟩
      have := List.mem_of_getElem? ((hr.bij k i).mp hi')
      exact List.mem_filterMap.mpr ⟨some k, this, rfl⟩
  have hl2 : (s.indexToKey.filterMap id).length = s.indexToKey.length := by
    conv_rhs => rw [← hi]
    rw [List.length_map]
  cases attr with
  | none => exact ⟨hnd, hl2, hmem⟩
  | some f =>
    unfold storeOrder
    have hp := pySort_perm (fun a b => decide (- f a ≤ - f b)) s.keyToIndex.keys
    have hk : ∀ k, k ∈ s.keyToIndex.keys ↔ k ∈ d.keys := by
      intro k
      rw [← get?_isSome_iff, hr.isSome k, get?_isSome_iff]
    have hpp : s.keyToIndex.keys.Perm (s.indexToKey.filterMap id) := by
      rw [List.perm_ext_iff_of_nodup hr.kwf hnd]
      intro k
      rw [hk, hmem]
    refine ⟨hp.nodup_iff.mpr hr.kwf, by rw [hp.length_eq, hpp.length_eq, hl2], ?_⟩
    intro k
    rw [hp.mem_iff, hk]

theorem written_spec (s : Store κ V N) (d : PyDict κ V) (hr : Repr s d) (hf : none ∉ s.indexToKey)
    (attr : Option (κ → Int)) :
    (written s attr).map Prod.fst = storeOrder s attr ∧
    ∀ k v, (k, v) ∈ written s attr ↔ d.get? k = some v := by
  obtain ⟨h1, h2, h3⟩ := storeOrder_perm s d hr hf attr
  have hg : ∀ k, getVector (fun _ => none) s k = d.get? k := by
    intro k
    unfold getVector
    rw [getIndex_eq rfl, hr.val]
  refine ⟨?_, ?_⟩
  · unfold written
    have : ∀ l : List κ, (∀ k ∈ l, k ∈ d.keys) →
        (l.filterMap (fun k => (getVector (fun _ => none) s k).map (fun v => (k, v)))).map Prod.fst = l := by
      intro l
      induction l with
      | nil => intro _; rfl
      | cons k l ih =>
        intro hl
        obtain ⟨v, hv⟩ := Option.isSome_iff_exists.mp ((get?_isSome_iff d k).mpr (hl k List.mem_cons_self))
        rw [List.filterMap_cons_some (by rw [hg, hv]; rfl), List.map_cons,
          ih (fun k hk => hl k (List.mem_cons_of_mem _ hk))]
    exact this _ (fun k hk => (h3 k).mp hk)
  · intro k v
    unfold written
    rw [List.mem_filterMap]
    constructor
    · rintro ⟨k', _, e⟩
      rw [hg] at e
      obtain ⟨v', hv', e'⟩ := Option.map_eq_some_iff.mp e
      simp only [Prod.mk.injEq] at e'
      rw [← e'.1, ← e'.2]; exact hv'
    · intro h
      refine ⟨k, (h3 k).mpr ((get?_isSome_iff d k).mp (by rw [h]; rfl)), ?_⟩
      rw [hg, h]; rfl

/-- what is written, as a file -/
theorem saveWith_eq (ofNat : Nat → κ) (record : κ → V → Str) (size : Nat) (s : Store κ V N) (d : PyDict κ V)
    (hr : Repr s d) (hf : none ∉ s.indexToKey) (attr : Option (κ → Int)) :
    saveWith (fun _ => none) ofNat record size s attr =
      some (showNat s.indexToKey.length ++ [' '] ++ showNat size ++ '\n' ::
        ((written s attr).map (fun p => record p.1 p.2)).flatten) := by
  unfold saveWith keysToWrite
  rw [intPrefix_none, List.range_zero, List.map_nil, List.nil_append]
  obtain ⟨h1, h2, h3⟩ := storeOrder_perm s d hr hf attr
  have hg : ∀ k, getVector (fun _ => none) s k = d.get? k := by
    intro k
    unfold getVector
    rw [getIndex_eq rfl, hr.val]
  have : ∀ l : List κ, (∀ k ∈ l, k ∈ d.keys) →
      l.mapM (fun k => (getVector (fun _ => none) s k).map (record k)) =
        some ((l.filterMap (fun k => (getVector (fun _ => none) s k).map (fun v => (k, v)))).map
          (fun p => record p.1 p.2)) := by
    intro l
    induction l with
    | nil => intro _; rfl
    | cons k l ih =>
      intro hl
      obtain ⟨v, hv⟩ := Option.isSome_iff_exists.mp ((get?_isSome_iff d k).mpr (hl k List.mem_cons_self))
      rw [List.mapM_cons, ih (fun k hk => hl k (List.mem_cons_of_mem _ hk)),
        List.filterMap_cons_some (b := (k, v)) (by rw [hg, hv]; rfl), hg, hv]
      rfl
  rw [this _ (fun k hk => (h3 k).mp hk), Option.map_some]
  unfold written
  simp

theorem loaded_getVector (zero : V) (n : Nat) (F : List (κ × V)) (hF : (F.map Prod.fst).Nodup) (k : κ) (v : V) :
    getVector (fun _ => none) (loaded zero n F : Loading κ V N).kv k = some v ↔ (k, v) ∈ F := by
  unfold getVector
  rw [getIndex_eq rfl, Option.bind_eq_some_iff]
  constructor
  · rintro ⟨i, h1, h2⟩
    rw [loaded_get? zero n F hF, List.getElem?_map] at h1
    obtain ⟨p, hp, rfl⟩ := Option.map_eq_some_iff.mp h1
    have hi : i < F.length := (List.getElem?_eq_some_iff.mp hp).1
    unfold loaded at h2
    dsimp only at h2
    rw [List.getElem?_append_left (by simpa using hi), List.getElem?_map, hp] at h2
    simp only [Option.map_some, Option.some.injEq] at h2
    rw [← h2]
    exact List.mem_of_getElem? hp
  · intro h
    obtain ⟨i, hi⟩ := List.getElem?_of_mem h
    refine ⟨i, ?_, ?_⟩
    · rw [loaded_get? zero n F hF, List.getElem?_map, hi]; rfl
    · have hil : i < F.length := (List.getElem?_eq_some_iff.mp hi).1
      unfold loaded
      dsimp only
      rw [List.getElem?_append_left (by simpa using hil), List.getElem?_map, hi]; rfl

/-- the loaded vectors are those of the dictionary, in the order written -/
theorem loaded_written (s : Store κ V N) (d : PyDict κ V) (hr : Repr s d) (hf : none ∉ s.indexToKey)
    (attr : Option (κ → Int)) (zero : V) :
    (loaded zero s.indexToKey.length (written s attr) : Loading κ V N).kv.indexToKey = (storeOrder s attr).map some ∧
    ∀ k, getVector (fun _ => none) (loaded zero s.indexToKey.length (written s attr) : Loading κ V N).kv k = d.get? k := by
  obtain ⟨h1, h2⟩ := written_spec s d hr hf attr
  obtain ⟨h3, h4, h5⟩ := storeOrder_perm s d hr hf attr
  have hl : (written s attr).length = s.indexToKey.length := by rw [← h4, ← h1, List.length_map]
  refine ⟨?_, ?_⟩
  · unfold loaded
    dsimp only
    rw [hl, Nat.sub_self, List.replicate_zero, List.append_nil, ← h1, List.map_map]
    rfl
  · intro k
    apply Option.ext
    intro v
    rw [loaded_getVector zero _ _ (by rw [h1]; exact h3), h2]

/-- **C40.** Binary format: saving and loading, with any size of the pieces read, gives back every key with its vector;
the rows are in the order of the attribute `count`, largest first and ties in insertion order (or in the old order
of the rows if there is no such attribute).  Keys must not contain a space or begin with a newline. -/
theorem C40_binary_roundtrip (encode : κ → Str) (decode : Str → κ) (toBytes : V → Str) (parse : Str → V) (zero : Nat → V)
    (bytes : Nat → Nat) (size : Nat)
    (ofNat : Nat → κ) (s : Store κ V N) (d : PyDict κ V) (hr : Repr s d) (hf : none ∉ s.indexToKey)
    (hk : ∀ k ∈ d.keys, decode (encode k) = k ∧ ' ' ∉ encode k ∧ (encode k).head? ≠ some '\n')
    (hv : ∀ k v, d.get? k = some v → parse (toBytes v) = v ∧ (toBytes v).length = bytes size) (attr : Option (κ → Int)) (c : Nat) (hc : 1 ≤ c) :
    ∃ file st, saveWith (fun _ => none) ofNat (binaryRecord encode toBytes) size s attr = some file ∧
      (loadBinary decode parse zero bytes c none file : Load (Loading κ V N)) = .ok st ∧
      st.kv.indexToKey = (storeOrder s attr).map some ∧
      ∀ k, getVector (fun _ => none) st.kv k = d.get? k := by
  obtain ⟨h1, h2⟩ := written_spec s d hr hf attr
  obtain ⟨h3, h4, h5⟩ := storeOrder_perm s d hr hf attr
  have hl : (written s attr).length = s.indexToKey.length := by rw [← h4, ← h1, List.length_map]
  obtain ⟨r1, r2⟩ := loaded_written s d hr hf attr (zero size)
  refine ⟨_, _, saveWith_eq ofNat _ size s d hr hf attr, ?_, r1, r2⟩
  unfold loadBinary
  rw [pyLines_cons_line (header_no_newline _ _)]
  dsimp only
  rw [readHeader_show]
  dsimp only
  have hdrop : ∀ a b : Str, (a ++ '\n' :: b).drop (a ++ ['\n']).length = b := by
    intro a b
    have : a ++ '\n' :: b = (a ++ ['\n']) ++ b := by simp
    rw [this, List.drop_left]
  rw [hdrop]
  have hwk : ∀ k ∈ d.keys, wordKey decode (encode k) = k := by
    intro k hk'
    unfold wordKey
    obtain ⟨hdec, _, this⟩ := hk k hk'
    conv_rhs => rw [← hdec]
    congr 1
    cases he : encode k with
    | nil => rfl
    | cons x xs =>
      rw [he] at this
      rw [List.dropWhile_cons_of_neg]
      simpa using this
  have hwm : ∀ p ∈ written s attr, p.1 ∈ d.keys := by
    intro p hp
    exact (get?_isSome_iff d p.1).mp (by rw [(h2 p.1 p.2).mp hp]; rfl)
  have hwv : ∀ p ∈ written s attr, parse (toBytes p.2) = p.2 ∧ (toBytes p.2).length = bytes size :=
    fun p hp => hv p.1 p.2 ((h2 p.1 p.2).mp hp)
  have hkeys : ((written s attr).map (fun p => (encode p.1, toBytes p.2))).map
      (fun r => (wordKey decode r.1, parse r.2)) = written s attr := by
    rw [List.map_map]
    conv_rhs => rw [← List.map_id (written s attr)]
    apply List.map_congr_left
    intro p hp
    simp only [Function.comp, id]
    rw [hwk p.1 (hwm p hp), (hwv p hp).1]
  have hfile : ((written s attr).map (fun p => binaryRecord encode toBytes p.1 p.2)).flatten =
      ((((written s attr).map (fun p => (encode p.1, toBytes p.2))).map recordBytes).flatten ++ []) := by
    rw [List.map_map, List.append_nil]
    congr 1
    apply List.map_congr_left
    intro p _
    simp [binaryRecord, recordBytes]
  rw [hfile]
  rw [C40_binary_reader decode parse (zero size) s.indexToKey.length (bytes size) c hc
    ((written s attr).map (fun p => (encode p.1, toBytes p.2)))
    (by
      intro r hr'
      obtain ⟨p, hp, rfl⟩ := List.mem_map.mp hr'
      exact ⟨(hk p.1 (hwm p hp)).2.1, (hwv p hp).2⟩)
    [] (by intro w v r _ _ e; simp at e) (.inr (by rw [List.length_map, hl]))]
  · rw [if_neg (by rw [List.length_map, hl]; omega), List.take_of_length_le (by rw [List.length_map, hl]), hkeys,
      firsts_of_nodup _ (by rw [h1]; exact h3)]
  · simp only [List.length_append, List.length_cons]; omega

theorem lineToVector_record {W : Type} (C : Codec W) (k : Str) (v : List W) (hk : ' ' ∉ k) (hv : v ≠ []) :
    lineToVector C.dec (textRecord C.enc k v) = some (k, v) := by
  have henc : ∀ p ∈ v.map C.enc, ' ' ∉ p := by
    intro p hp hc
    obtain ⟨x, _, rfl⟩ := List.mem_map.mp hp
    have := C.enc_no_ws x ' ' hc
    revert this; decide
  have hne : v.map C.enc ≠ [] := by simpa using hv
  have hjoin : k ++ [' '] ++ joinWith [' '] (v.map C.enc) = joinWith [' '] (k :: v.map C.enc) := by
    cases hm : v.map C.enc with
    | nil => exact absurd hm hne
    | cons x xs => rfl
  have hlast : ∀ ps : List Str, ps ≠ [] → (∀ p ∈ ps, p ≠ [] ∧ ∀ c ∈ p, bws c = false) →
      ∃ pre c, joinWith [' '] ps = pre ++ [c] ∧ bws c = false := by
    intro ps
    induction ps with
    | nil => intro h; exact absurd rfl h
    | cons p ps ih =>
      intro _ h
      cases ps with
      | nil =>
        obtain ⟨h1, h2⟩ := h p List.mem_cons_self
        exact ⟨p.dropLast, p.getLast h1, (List.dropLast_append_getLast h1).symm, h2 _ (List.getLast_mem h1)⟩
      | cons q qs =>
        obtain ⟨pre, c, e, hc⟩ := ih (by simp) (fun r hr => h r (List.mem_cons_of_mem _ hr))
        exact ⟨p ++ [' '] ++ pre, c, by rw [joinWith, e]; simp, hc⟩
  obtain ⟨pre, c, e, hc⟩ := hlast (v.map C.enc) hne (by
    intro p hp
    obtain ⟨x, _, rfl⟩ := List.mem_map.mp hp
    exact ⟨C.enc_ne_nil x, fun c hc => bws_of_uws_false (C.enc_no_ws x c hc)⟩)
  have hstrip : rstrip bws (textRecord C.enc k v) = k ++ [' '] ++ joinWith [' '] (v.map C.enc) := by
    unfold textRecord
    rw [rstrip_append_ws (by intro c hc; simp only [List.mem_singleton] at hc; rw [hc]; decide), e, ← List.append_assoc]
    unfold rstrip
    rw [List.reverse_append]
    simp [hc]
  unfold lineToVector
  rw [hstrip, hjoin, splitOn_joinWith (by simp) (by
    intro p hp
    rcases List.mem_cons.mp hp with rfl | hp
    · exact hk
    · exact henc p hp)]
  dsimp only
  have : (v.map C.enc).mapM C.dec = some v := by
    clear * -
    induction v with
    | nil => rfl
    | cons x v ih =>
      rw [List.map_cons, List.mapM_cons, C.dec_enc, ih]
      rfl
  rw [this]
  rfl

theorem readText_spec {W : Type} (C : Codec W) (n size : Nat) (hs : 1 ≤ size) : ∀ (F : List (Str × List W))
    (st : Loading Str (List W) N) (lines : List Str), (∀ p ∈ F, ' ' ∉ p.1 ∧ p.2.length = size) →
    readText C.dec n size F.length st (F.map (fun p => textRecord C.enc p.1 p.2) ++ lines) = .ok (F.foldl (addWord n) st) := by
  intro F
  induction F with
  | nil => intro st lines _; rfl
  | cons p F ih =>
    intro st lines h
    obtain ⟨h1, h2⟩ := h p List.mem_cons_self
    rw [List.length_cons, List.map_cons, List.cons_append]
    unfold readText
    rw [lineToVector_record C p.1 p.2 h1 (by rintro e; rw [e] at h2; simp at h2; omega)]
    dsimp only
    rw [if_pos h2, ih _ _ (fun q hq => h q (List.mem_cons_of_mem _ hq))]
    rfl

/-- **C40.** Text format: saving and loading gives back every key with its vector, the rows in the order of the
attribute `count` (or the old one).  Keys must not contain a space or a newline; vectors have at least one component;
numbers written with `repr` are read back (`Codec`). -/
theorem C40_text_roundtrip {W : Type} (C : Codec W) (zero : W) (size : Nat) (hs : 1 ≤ size) (ofNat : Nat → Str)
    (s : Store Str (List W) N) (d : PyDict Str (List W)) (hr : Repr s d) (hf : none ∉ s.indexToKey)
    (hk : ∀ k ∈ d.keys, ' ' ∉ k ∧ '\n' ∉ k) (hv : ∀ k v, d.get? k = some v → v.length = size) (attr : Option (Str → Int)) :
    ∃ file st, saveWith (fun _ => none) ofNat (textRecord C.enc) size s attr = some file ∧
      (loadText C.dec zero none file : Load (Loading Str (List W) N)) = .ok st ∧
      st.kv.indexToKey = (storeOrder s attr).map some ∧
      ∀ k, getVector (fun _ => none) st.kv k = d.get? k := by
  obtain ⟨h1, h2⟩ := written_spec s d hr hf attr
  obtain ⟨h3, h4, h5⟩ := storeOrder_perm s d hr hf attr
  have hl : (written s attr).length = s.indexToKey.length := by rw [← h4, ← h1, List.length_map]
  obtain ⟨r1, r2⟩ := loaded_written s d hr hf attr (List.replicate size zero)
  refine ⟨_, _, saveWith_eq ofNat _ size s d hr hf attr, ?_, r1, r2⟩
  unfold loadText
  rw [pyLines_cons_line (header_no_newline _ _)]
  dsimp only
  rw [readHeader_show]
  dsimp only
  have hwm : ∀ p ∈ written s attr, p.1 ∈ d.keys ∧ d.get? p.1 = some p.2 := by
    intro p hp
    have := (h2 p.1 p.2).mp hp
    exact ⟨(get?_isSome_iff d p.1).mp (by rw [this]; rfl), this⟩
  have hlines : pyLines ((written s attr).map (fun p => textRecord C.enc p.1 p.2)).flatten =
      (written s attr).map (fun p => textRecord C.enc p.1 p.2) ++ [] := by
    have := pyLines_flatten (ls := (written s attr).map (fun p => p.1 ++ [' '] ++ joinWith [' '] (p.2.map C.enc))) (by
      intro l hl' hc
      obtain ⟨p, hp, rfl⟩ := List.mem_map.mp hl'
      rw [List.mem_append, List.mem_append] at hc
      rcases hc with (hc | hc) | hc
      · exact (hk p.1 (hwm p hp).1).2 hc
      · simp at hc
      · have hjoin : ∀ ps : List Str, (∀ q ∈ ps, '\n' ∉ q) → '\n' ∉ joinWith [' '] ps := by
          intro ps
          induction ps with
          | nil => intro _ h; simp [joinWith] at h
          | cons q qs ih =>
            intro hq
            cases qs with
            | nil => exact hq q List.mem_cons_self
            | cons q' qs =>
              rw [joinWith, List.mem_append, List.mem_append]
              rintro ((h | h) | h)
              · exact hq q List.mem_cons_self h
              · simp at h
              · exact ih (fun r hr' => hq r (List.mem_cons_of_mem _ hr')) h
        refine hjoin _ ?_ hc
        intro q hq hn
        obtain ⟨x, _, rfl⟩ := List.mem_map.mp hq
        have := C.enc_no_ws x '\n' hn
        revert this; decide)
    rw [List.map_map] at this
    rw [List.append_nil]
    exact this
  rw [hlines, ← hl, readText_spec C _ size hs (written s attr) _ [] (by
    intro p hp
    exact ⟨(hk p.1 (hwm p hp).1).1, hv p.1 p.2 (hwm p hp).2⟩),
    foldl_addWord _ _ _ (Nat.le_refl _), firsts_of_nodup _ (by rw [h1]; exact h3)]

/-- **C40.** The order of the rows: non-increasing in the attribute, ties in insertion order. -/
theorem C40_order (s : Store κ V N) (attr : κ → Int) :
    (storeOrder s (some attr)).Pairwise (fun a b => attr b ≤ attr a) ∧
    (storeOrder s (some attr)).Perm s.keyToIndex.keys ∧
    ∀ c, (storeOrder s (some attr)).filter (fun k => decide (attr k = c)) =
      s.keyToIndex.keys.filter (fun k => decide (attr k = c)) := by
  refine ⟨?_, pySort_perm _ _, ?_⟩
  · have := pySort_sorted (le := fun a b => decide (- attr a ≤ - attr b)) (by intro a b; simp; omega)
      (by intro a b c; simp; omega) s.keyToIndex.keys
    exact this.imp (by intro a b h; simpa using h)
  · intro c
    apply pySort_stable
    intro a b ha hb
    simp only [decide_eq_true_eq] at ha hb ⊢
    omega

/-- **C40.** Loading with a limit is loading a file whose header announces at most that many rows. -/
theorem C40_limit {W : Type} (dec : Str → Option W) (zero : W) (decode : Str → κ) (parse : Str → V) (zeroV : Nat → V)
    (bytes : Nat → Nat) (c n d : Nat) (limit : Option Nat) (body : Str) :
    let file := fun k => showNat k ++ [' '] ++ showNat d ++ '\n' :: body
    (loadText dec zero limit (file n) : Load (Loading Str (List W) N)) = loadText dec zero none (file (limited n limit)) ∧
    ∃ fuel₁ fuel₂, body.length < fuel₁ ∧ body.length < fuel₂ ∧
      (loadBinary decode parse zeroV bytes c limit (file n) : Load (Loading κ V N)) =
        readBinary decode parse (limited n limit) (bytes d) c fuel₁ ⟨new (zeroV d) (limited n limit), []⟩ 0 [] body ∧
      (loadBinary decode parse zeroV bytes c none (file (limited n limit)) : Load (Loading κ V N)) =
        readBinary decode parse (limited n limit) (bytes d) c fuel₂ ⟨new (zeroV d) (limited n limit), []⟩ 0 [] body := by
  intro file
  have hdrop : ∀ a b : Str, (a ++ '\n' :: b).drop (a ++ ['\n']).length = b := by
    intro a b
    have : a ++ '\n' :: b = (a ++ ['\n']) ++ b := by simp
    rw [this, List.drop_left]
  have hl : ∀ k, pyLines (file k) = (showNat k ++ [' '] ++ showNat d ++ ['\n']) :: pyLines body :=
    fun k => pyLines_cons_line (header_no_newline k d) body
  refine ⟨?_, (file n).length + 1, (file (limited n limit)).length + 1, ?_, ?_, ?_, ?_⟩
  · unfold loadText
    rw [hl, hl]
    dsimp only
    rw [readHeader_limit, readHeader_show]
  · simp only [file, List.length_append, List.length_cons]; omega
  · simp only [file, List.length_append, List.length_cons]; omega
  · unfold loadBinary
    rw [hl]
    dsimp only
    rw [readHeader_limit]
    dsimp only [file]
    rw [hdrop]
  · unfold loadBinary
    rw [hl]
    dsimp only
    rw [readHeader_show]
    dsimp only [file]
    rw [hdrop]

/-- **C40.** A text file with fewer lines than its header announces is reported as an error, never loaded. -/
theorem C40_text_too_short {W : Type} (dec : Str → Option W) (n size : Nat) (m : Nat) (st : Loading Str (List W) N)
    (lines : List Str) (h : lines.length < m) : readText dec n size m st lines = .error := by
  induction lines generalizing m st with
  | nil =>
    cases m with
    | zero => simp at h
    | succ m => rfl
  | cons l ls ih =>
    cases m with
    | zero => simp at h
    | succ m =>
      unfold readText
      split
      · rfl
      · split
        · exact ih m _ (by simpa using h)
        · rfl

/-- keys that are row numbers (integer document tags) are written twice when there is no `count` attribute: the header
announces two rows, the file has three, and the key `x` is not among the first two -/
theorem C40_integer_keys_twice :
    let s : Store (Int ⊕ String) Nat Nat := ⟨[some (.inl 0), some (.inr "x")], [(.inr "x", 1)], [7, 8], 2, none⟩
    keysToWrite exInt (fun i => .inl i) s none = [.inl 0, .inl 0, .inr "x"] := by decide +kernel

/-- a store that meets the hypotheses of both round trips -/
example : (loadText intCodec.dec 0 none "2 2\nb 3 4\na 1 2\n".toList : Load (Loading Str (List Int) Nat)) =
    .ok (loaded [0, 0] 2 [(['b'], [3, 4]), (['a'], [1, 2])]) ∧
    saveWith (fun _ => none) (fun _ => []) (textRecord intCodec.enc) 2
      (⟨[some ['a'], some ['b']], [(['a'], 0), (['b'], 1)], [[1, 2], [3, 4]], 2, none⟩ : Store Str (List Int) Nat)
      (some (fun k => if k = ['a'] then 1 else 5)) = some "2 2\nb 3 4\na 1 2\n".toList ∧
    (loadBinary (fun s => s) (fun s => s) (fun _ => []) (fun _ => 2) 3 none "2 9\na xyb  \n".toList :
      Load (Loading Str Str Nat)) = .ok (loaded [] 2 [(['a'], ['x', 'y']), (['b'], [' ', '\n'])]) := by decide +kernel

end Verif.KV
