import Mathlib.Tactic.Common
import Mathlib.Data.List.Nodup
import Verif.W2V.ReadersProps
import Verif.W2V.WindowModel

/-!
# C35: training windows
-/

namespace Verif.W2V

variable {τ σ : Type}

/-! ## Specification -/

/-- the words of `ws` that survive down-sampling, and the generator afterwards -/
def survivors (keep : σ → Nat → Bool × σ) : σ → List Nat → List Nat × σ
  | g, [] => ([], g)
  | g, w :: ws =>
    let r := survivors keep (keep g w).2 ws
    (if (keep g w).1 then w :: r.1 else r.1, r.2)

/-- per non-empty sentence: the in-vocabulary words that survive down-sampling -/
def cleaned (lookup : τ → Option Nat) (keep : σ → Nat → Bool × σ) : σ → List (List τ) → List (List Nat)
  | _, [] => []
  | g, s :: ss =>
    if s = [] then cleaned lookup keep g ss
    else
      let r := survivors keep g (s.filterMap lookup)
      r.1 :: cleaned lookup keep r.2 ss

/-! ## Preparing a batch -/

theorem tokenLoop_spec {M : Nat} (lookup : τ → Option Nat) (keep : σ → Nat → Bool × σ) :
    ∀ (ts : List τ) (idx : List Nat) (g : σ), idx.length < M →
    (tokenLoop M lookup keep ts idx g).1 = (idx ++ (survivors keep g (ts.filterMap lookup)).1).take M ∧
    ((tokenLoop M lookup keep ts idx g).1.length ≠ M →
      (tokenLoop M lookup keep ts idx g).2 = (survivors keep g (ts.filterMap lookup)).2) := by
  intro ts
  induction ts with
  | nil =>
    intro idx g h
    simp only [tokenLoop, List.filterMap_nil, survivors, List.append_nil]
    exact ⟨(List.take_of_length_le (by omega)).symm, fun _ => trivial⟩
  | cons t ts ih =>
    intro idx g h
    rw [tokenLoop]
    cases ht : lookup t with
    | none =>
      rw [List.filterMap_cons_none ht]
      exact ih idx g h
    | some w =>
      rw [List.filterMap_cons_some ht]
      dsimp only
      by_cases hk : (keep g w).1 = true
      · have e1 : (survivors keep g (w :: ts.filterMap lookup)).1 =
            w :: (survivors keep (keep g w).2 (ts.filterMap lookup)).1 := by rw [survivors]; simp [hk]
        have e2 : (survivors keep g (w :: ts.filterMap lookup)).2 =
            (survivors keep (keep g w).2 (ts.filterMap lookup)).2 := rfl
        rw [if_neg (by rw [hk]; simp), e1, e2]
        have e3 : idx ++ w :: (survivors keep (keep g w).2 (ts.filterMap lookup)).1 =
            (idx ++ [w]) ++ (survivors keep (keep g w).2 (ts.filterMap lookup)).1 := by simp
        rw [e3]
        split
        · rename_i hM
          rw [List.take_append_of_le_length (by omega), List.take_of_length_le (by omega)]
          exact ⟨rfl, fun hne => absurd hM hne⟩
        · rename_i hM
          apply ih
          rw [List.length_append, List.length_singleton] at hM ⊢
          omega
      · have hk' : (keep g w).1 = false := by simpa using hk
        have e1 : (survivors keep g (w :: ts.filterMap lookup)).1 =
            (survivors keep (keep g w).2 (ts.filterMap lookup)).1 := by rw [survivors]; simp [hk']
        have e2 : (survivors keep g (w :: ts.filterMap lookup)).2 =
            (survivors keep (keep g w).2 (ts.filterMap lookup)).2 := rfl
        rw [if_pos hk', e1, e2]
        exact ih idx _ h

/-- positions at which the groups end, cut at `M` -/
def bounds (M : Nat) (groups : List (List Nat)) (n : Nat) : Nat := min M (groups.take n).flatten.length

theorem sentenceLoop_spec {M : Nat} (lookup : τ → Option Nat) (keep : σ → Nat → Bool × σ) :
    ∀ (ss : List (List τ)) (done : List (List Nat)) (g : σ),
    done.flatten.length < M →
    ∃ m, m ≤ (done ++ cleaned lookup keep g ss).length ∧
      (sentenceLoop M lookup keep ss done.flatten ((List.range (done.length + 1)).map (bounds M done)) g).1 =
        (done ++ cleaned lookup keep g ss).flatten.take M ∧
      (sentenceLoop M lookup keep ss done.flatten ((List.range (done.length + 1)).map (bounds M done)) g).2 =
        (List.range (m + 1)).map (bounds M (done ++ cleaned lookup keep g ss)) ∧
      bounds M (done ++ cleaned lookup keep g ss) m =
        ((done ++ cleaned lookup keep g ss).flatten.take M).length ∧
      (m < (done ++ cleaned lookup keep g ss).length → bounds M (done ++ cleaned lookup keep g ss) m = M) := by
  intro ss
  induction ss with
  | nil =>
    intro done g h
    refine ⟨done.length, by simp [cleaned], ?_, ?_, ?_, ?_⟩
    · simp only [sentenceLoop, cleaned, List.append_nil]
      exact (List.take_of_length_le (by omega)).symm
    · simp only [sentenceLoop, cleaned, List.append_nil]
    · simp only [cleaned, List.append_nil, bounds, List.take_length, List.length_take]
    · simp [cleaned]
  | cons s ss ih =>
    intro done g h
    rw [sentenceLoop, cleaned]
    split
    · exact ih done g h
    · dsimp only
      obtain ⟨h1, h2⟩ := tokenLoop_spec lookup keep s done.flatten g h
      generalize hr : tokenLoop M lookup keep s done.flatten g = r at *
      generalize hk : survivors keep g (s.filterMap lookup) = kp at *
      have ef : done.flatten ++ kp.1 = (done ++ [kp.1]).flatten := by simp
      have esplit : done ++ kp.1 :: cleaned lookup keep kp.2 ss = (done ++ [kp.1]) ++ cleaned lookup keep kp.2 ss := by
        simp
      have erl : r.1.length = bounds M (done ++ [kp.1]) (done.length + 1) := by
        rw [h1, List.length_take, bounds, List.take_of_length_le (by simp), ef]
      have ebd : ∀ (rest : List (List Nat)) (n : Nat), n ≤ done.length + 1 →
          bounds M ((done ++ [kp.1]) ++ rest) n = bounds M (done ++ [kp.1]) n := by
        intro rest n hn
        unfold bounds
        rw [List.take_append_of_le_length (by simp; omega)]
      have ebd0 : ∀ n, n ≤ done.length → bounds M (done ++ [kp.1]) n = bounds M done n := by
        intro n hn
        unfold bounds
        rw [List.take_append_of_le_length hn]
      have es : (List.range (done.length + 1)).map (bounds M done) ++ [r.1.length] =
          (List.range (done.length + 1 + 1)).map (bounds M (done ++ [kp.1])) := by
        rw [List.range_succ (n := done.length + 1), List.map_append, List.map_singleton, erl]
        congr 1
        apply List.map_congr_left
        intro n hn
        have := List.mem_range.mp hn
        exact (ebd0 n (by omega)).symm
      rw [es]
      split
      · rename_i hM
        refine ⟨done.length + 1, by simp, ?_, ?_, ?_, ?_⟩
        · have hle : M ≤ (done ++ [kp.1]).flatten.length := by
            rw [h1, List.length_take, ef] at hM
            omega
          rw [h1, ef, esplit, List.flatten_append (L₁ := done ++ [kp.1])]
          exact (List.take_append_of_le_length hle).symm
        · dsimp only
          rw [esplit]
          apply List.map_congr_left
          intro n hn
          have := List.mem_range.mp hn
          exact (ebd _ n (by omega)).symm
        · rw [esplit, ebd _ _ (le_refl _), ← erl, hM, List.length_take, List.flatten_append, List.length_append]
          rw [h1, List.length_take, ef] at hM
          omega
        · intro _
          rw [esplit, ebd _ _ (le_refl _), ← erl, hM]
      · rename_i hM
        have h3 := h2 hM
        have hlt : (done ++ [kp.1]).flatten.length < M := by
          rw [h1, List.length_take, ef] at hM
          omega
        have h4 : r.1 = (done ++ [kp.1]).flatten := by
          rw [h1, ef, List.take_of_length_le (by omega)]
        rw [h3, h4, esplit]
        have := ih (done ++ [kp.1]) kp.2 hlt
        simpa only [List.length_append, List.length_singleton] using this

/-- **C35.** Preparing a batch: out-of-vocabulary and down-sampled words are removed first; the words used are
the first `M` of the rest; `sentence_idx` holds the ends of the sentences among them, the last entry being the
number of words used; and unless `M` words are reached all sentences are there. -/
theorem C35_prepare {M : Nat} (hM : 0 < M) (lookup : τ → Option Nat) (keep : σ → Nat → Bool × σ)
    (sents : List (List τ)) (g : σ) :
    let groups := cleaned lookup keep g sents
    let p := prepare M lookup keep sents g
    p.1 = groups.flatten.take M ∧
    ∃ m, m ≤ groups.length ∧ p.2 = (List.range (m + 1)).map (bounds M groups) ∧
      p.2.getLast? = some p.1.length ∧ (m < groups.length → p.1.length = M) := by
  have h := sentenceLoop_spec lookup keep sents [] g (by simpa using hM)
  simp only [List.nil_append, List.flatten_nil, List.length_nil] at h
  have e0 : (List.range (0 + 1)).map (bounds M []) = [0] := by simp [bounds]
  rw [e0] at h
  obtain ⟨m, h1, h2, h3, h4, h5⟩ := h
  refine ⟨h2, m, h1, h3, ?_, ?_⟩
  · unfold prepare
    rw [h3, List.range_succ, List.map_append, List.map_singleton, List.getLast?_append, List.getLast?_singleton, h2, h4]
    rfl
  · intro hlt
    unfold prepare
    rw [h2, ← h4, h5 hlt]

/-- **C35.** So no more than `M` words are ever written. -/
theorem C35_words_fit {M : Nat} (hM : 0 < M) (lookup : τ → Option Nat) (keep : σ → Nat → Bool × σ)
    (sents : List (List τ)) (g : σ) : (prepare M lookup keep sents g).1.length ≤ M := by
  rw [(C35_prepare hM lookup keep sents g).1, List.length_take]
  omega

theorem cleaned_length (lookup : τ → Option Nat) (keep : σ → Nat → Bool × σ) : ∀ (ss : List (List τ)) (g : σ),
    (cleaned lookup keep g ss).length ≤ nwords ss := by
  intro ss
  induction ss with
  | nil => intro g; exact Nat.zero_le _
  | cons s ss ih =>
    intro g
    rw [cleaned]
    have e : nwords (s :: ss) = s.length + nwords ss := by simp [nwords]
    split
    · have := ih g; omega
    · rename_i h
      have := ih (survivors keep g (s.filterMap lookup)).2
      have h2 := List.length_pos_of_ne_nil h
      simp only [List.length_cons]
      omega

/-- **C35.** `sentence_idx` (of size `M + 1`) does not overflow for a batch of at most `M` words. -/
theorem C35_sentences_fit {M : Nat} (hM : 0 < M) (lookup : τ → Option Nat) (keep : σ → Nat → Bool × σ)
    (sents : List (List τ)) (g : σ) (h : nwords sents ≤ M) : (prepare M lookup keep sents g).2.length ≤ M + 1 := by
  obtain ⟨_, m, h1, h2, _⟩ := C35_prepare hM lookup keep sents g
  rw [h2, List.length_map, List.length_range]
  have := cleaned_length lookup keep sents g
  omega

/-- In corpus_file mode it does overflow: a batch of next_batch may have `M + 1` non-empty sentences, and if their
words are out of vocabulary the loop is not stopped; one entry is written behind the end of the array. -/
theorem C34_sentence_idx_overflow :
    nextBatch 3 (⟨[[0], [0], [0], [0], [0]], []⟩ : Reader Nat) = ([[0], [0], [0], [0]], ⟨[[0]], []⟩) ∧
    (prepare 3 (fun _ => none) (fun (g : Unit) _ => (true, g)) [[0], [0], [0], [0]] ()).2.length = 3 + 2 := by
  decide +kernel

/-- And a batch may have more words than `M`, in which case the last words of its last sentence are never used
in training: here a file with two lines of three words each, and `M` = 5. -/
theorem C34_truncated :
    trainLoop 5 100 10 0 (⟨[[1, 2, 3], [4, 5, 6]], []⟩ : Reader Nat) = ([[[1, 2, 3], [4, 5, 6]]], ⟨[], []⟩) ∧
    (prepare 5 some (fun (g : Unit) _ => (true, g)) [[1, 2, 3], [4, 5, 6]] ()).1 = [1, 2, 3, 4, 5] := by
  decide +kernel

/-! ## The pairs -/

theorem mem_context {window : Nat} {reduced : Nat → Nat} {start stop i j : Nat} (hi : start ≤ i ∧ i < stop)
    (hr : reduced i ≤ window) :
    j ∈ context window reduced start stop i ↔
      start ≤ j ∧ j < stop ∧ j ≠ i ∧ i ≤ j + (window - reduced i) ∧ j ≤ i + (window - reduced i) := by
  unfold context
  simp only [List.mem_filter, List.mem_range'_1, decide_eq_true_eq]
  split <;> split <;> omega

theorem nodup_context (window : Nat) (reduced : Nat → Nat) (start stop i : Nat) :
    (context window reduced start stop i).Nodup := (List.nodup_range').filter _

/-- **C35.** A pair of positions is trained on exactly if both lie in the same sentence, are different, and their
distance is at most the reduced window of the centre word. -/
theorem C35_pairs (window : Nat) (reduced : Nat → Nat) (hr : ∀ i, reduced i < window) (sidx : List Nat) (i j : Nat) :
    (i, j) ∈ pairs window reduced sidx ↔
      i ≠ j ∧ i ≤ j + (window - reduced i) ∧ j ≤ i + (window - reduced i) ∧
      ∃ n, n + 1 < sidx.length ∧ sidx.getD n 0 ≤ i ∧ i < sidx.getD (n + 1) 0 ∧
        sidx.getD n 0 ≤ j ∧ j < sidx.getD (n + 1) 0 := by
  unfold pairs
  simp only [List.mem_flatMap, List.mem_map, List.mem_range, Prod.mk.injEq, List.mem_range'_1]
  constructor
  · rintro ⟨n, hn, i', hi', j', hj', rfl, rfl⟩
    have hc := (mem_context (by omega) (le_of_lt (hr i'))).mp hj'
    exact ⟨by omega, by omega, by omega, n, by omega, by omega, by omega, by omega, by omega⟩
  · rintro ⟨h1, h2, h3, n, hn, h4, h5, h6, h7⟩
    exact ⟨n, by omega, i, by omega, j, (mem_context (by omega) (le_of_lt (hr i))).mpr (by omega), rfl, rfl⟩

/-- **C35.** Every pair is trained on once. -/
theorem C35_pairs_nodup (window : Nat) (reduced : Nat → Nat) (sidx : List Nat)
    (hs : ∀ n m, n ≤ m → m < sidx.length → sidx.getD n 0 ≤ sidx.getD m 0) : (pairs window reduced sidx).Nodup := by
  have hpart : ∀ (start stop : Nat), ((List.range' start (stop - start)).flatMap (fun i =>
      (context window reduced start stop i).map (fun j => (i, j)))).Nodup := by
    intro start stop
    rw [List.nodup_flatMap]
    refine ⟨fun i _ => (nodup_context _ _ _ _ i).map (fun a b h => (Prod.mk.inj h).2), ?_⟩
    apply (List.nodup_range' (s := start) (n := stop - start) (step := 1)).imp
    intro a b hab p hp hq
    obtain ⟨_, _, rfl⟩ := List.mem_map.mp hp
    obtain ⟨_, _, h⟩ := List.mem_map.mp hq
    exact hab (Prod.mk.inj h).1.symm
  unfold pairs
  dsimp only
  rw [List.nodup_flatMap]
  refine ⟨fun n _ => hpart _ _, ?_⟩
  rw [List.pairwise_iff_getElem]
  intro a b ha hb hab p hp hq
  rw [List.length_range] at ha hb
  rw [List.getElem_range] at hp hq
  obtain ⟨i, hi, hp⟩ := List.mem_flatMap.mp hp
  obtain ⟨i', hi', hq⟩ := List.mem_flatMap.mp hq
  obtain ⟨_, _, rfl⟩ := List.mem_map.mp hp
  obtain ⟨_, _, h⟩ := List.mem_map.mp hq
  obtain rfl := (Prod.mk.inj h).1
  rw [List.mem_range'_1] at hi hi'
  have := hs (a + 1) b (by omega) (by omega)
  omega

/-- **C35, all together.** In a prepared batch, two words are paired only within one sentence; neighbours in a
sentence always are, whatever the random numbers; words further apart than `window` never are. -/
theorem C35_batch {M : Nat} (hM : 0 < M) (lookup : τ → Option Nat) (keep : σ → Nat → Bool × σ) (sents : List (List τ))
    (g : σ) (window : Nat) (reduced : Nat → Nat) (hr : ∀ i, reduced i < window) :
    let p := prepare M lookup keep sents g
    let groups := cleaned lookup keep g sents
    (pairs window reduced p.2).Nodup ∧
    (∀ i j, (i, j) ∈ pairs window reduced p.2 → i < p.1.length ∧ j < p.1.length ∧
      i ≤ j + window ∧ j ≤ i + window ∧ ∃ n, n < groups.length ∧
        (groups.take n).flatten.length ≤ i ∧ i < (groups.take (n + 1)).flatten.length ∧
        (groups.take n).flatten.length ≤ j ∧ j < (groups.take (n + 1)).flatten.length) ∧
    (∀ n i, n < groups.length → (groups.take n).flatten.length ≤ i → i + 1 < (groups.take (n + 1)).flatten.length →
      i + 1 < M → (i, i + 1) ∈ pairs window reduced p.2 ∧ (i + 1, i) ∈ pairs window reduced p.2) := by
  intro p groups
  obtain ⟨h1, m, h2, h3, h4, h5⟩ := C35_prepare hM lookup keep sents g
  change p.1 = groups.flatten.take M at h1
  change m ≤ groups.length at h2
  change p.2 = (List.range (m + 1)).map (bounds M groups) at h3
  change p.2.getLast? = some p.1.length at h4
  change m < groups.length → p.1.length = M at h5
  have hget : ∀ n, n < m + 1 → p.2.getD n 0 = bounds M groups n := by
    intro n hn
    rw [h3, List.getD_eq_getElem?_getD, List.getElem?_map, List.getElem?_range hn]; rfl
  have hlen : p.2.length = m + 1 := by rw [h3]; simp
  have hmono : ∀ n k, n ≤ k → (groups.take n).flatten.length ≤ (groups.take k).flatten.length := by
    intro n k hnk
    have : groups.take n = (groups.take k).take n := by rw [List.take_take, Nat.min_eq_left hnk]
    rw [this]
    conv_rhs => rw [← List.take_append_drop n (groups.take k)]
    rw [List.flatten_append, List.length_append]
    omega
  have hlast : bounds M groups m = p.1.length := by
    rw [h3, List.range_succ, List.map_append, List.map_singleton, List.getLast?_append, List.getLast?_singleton] at h4
    simpa using h4
  refine ⟨?_, ?_, ?_⟩
  · apply C35_pairs_nodup
    intro n k hnk hk
    rw [hlen] at hk
    rw [hget n (by omega), hget k hk]
    unfold bounds
    have := hmono n k hnk
    omega
  · intro i j hij
    obtain ⟨q1, q2, q3, n, q4, q5, q6, q7, q8⟩ := (C35_pairs window reduced hr p.2 i j).mp hij
    rw [hlen] at q4
    rw [hget n (by omega)] at q5 q7
    rw [hget (n + 1) (by omega)] at q6 q8
    have hm := hmono (n + 1) m (by omega)
    unfold bounds at q5 q6 q7 q8 hlast
    refine ⟨by omega, by omega, by omega, by omega, n, by omega, by omega, by omega, by omega, by omega⟩
  · intro n i hn hi1 hi2 hiM
    have hnm : n < m := by
      by_contra hcon
      have hmn := hmono m n (by omega)
      have h6 := h5 (by omega)
      unfold bounds at hlast
      omega
    have hw := hr i
    have hw' := hr (i + 1)
    have b1 := hget n (by omega)
    have b2 := hget (n + 1) (by omega)
    unfold bounds at b1 b2
    constructor
    · rw [C35_pairs window reduced hr]
      exact ⟨by omega, by omega, by omega, n, by omega, by omega, by omega, by omega, by omega⟩
    · rw [C35_pairs window reduced hr]
      exact ⟨by omega, by omega, by omega, n, by omega, by omega, by omega, by omega, by omega⟩

/-- sentences "a x b" (x out of vocabulary), "" and "b a a", window 2, second word reduced by one -/
example : prepare 10 (fun t : Char => if t = 'a' then some 0 else if t = 'b' then some 1 else none)
      (fun (g : Unit) _ => (true, g)) ["axb".toList, [], "baa".toList] () = ([0, 1, 1, 0, 0], [0, 2, 5]) ∧
    pairs 2 (fun i => if i = 2 then 1 else 0) [0, 2, 5] = [(0, 1), (1, 0), (2, 3), (3, 2), (3, 4), (4, 2), (4, 3)] := by
  decide +kernel

end Verif.W2V
