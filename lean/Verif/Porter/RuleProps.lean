import Verif.Porter.Props
import Verif.Porter.RuleSpec

/-!
# C57: the stemmer computes the published rules
-/

namespace Verif.Porter
open Verif Text

/-- The word the fields of the stemmer stand for. -/
def word (st : St) : Str := st.b.take (st.k + 1).toNat

/-! ## Consonants and vowels -/

theorem kindsFrom_length (p : Option Bool) (w : Str) : (Spec.kindsFrom p w).length = w.length := by
  induction w generalizing p with
  | nil => rfl
  | cons c w ih => simp [Spec.kindsFrom, ih]

theorem kinds_length (w : Str) : (Spec.kinds w).length = w.length := kindsFrom_length none w

theorem kindsFrom_succ (p : Option Bool) (w : Str) (i : Nat) :
    (Spec.kindsFrom p w)[i + 1]?
      = (w[i + 1]?).bind fun ch => ((Spec.kindsFrom p w)[i]?).map fun c => Spec.letterKind (some c) ch := by
  induction w generalizing p i with
  | nil => rfl
  | cons a w ih =>
    cases i with
    | zero =>
      cases w with
      | nil => rfl
      | cons b w => simp [Spec.kindsFrom]
    | succ i =>
      rw [Spec.kindsFrom, List.getElem?_cons_succ, ih, List.getElem?_cons_succ,
        List.getElem?_cons_succ]

theorem isVowelLetter_eq (ch : Char) : isVowelLetter ch = decide (ch ∈ Spec.vowels) := rfl

theorem cons_kinds (b : Str) (i : Nat) : cons b i = (Spec.kinds b)[i]? := by
  induction i with
  | zero =>
    cases b with
    | nil => rfl
    | cons a b =>
      simp only [cons, Spec.kinds, Spec.kindsFrom, List.getElem?_cons_zero, Option.map_some,
        Spec.letterKind, isVowelLetter_eq]
      by_cases h : a ∈ Spec.vowels
      · simp [h]
      · by_cases hy : a = 'y' <;> simp [h, hy]
  | succ i ih =>
    unfold Spec.kinds at ih ⊢
    rw [kindsFrom_succ, ← ih, cons]
    cases hb : b[i + 1]? with
    | none => rfl
    | some ch =>
      dsimp only [Option.bind]
      have hlt : i + 1 < b.length := (List.getElem?_eq_some_iff.1 hb).1
      obtain ⟨c, hc⟩ := cons_total b i (by omega)
      rw [hc, isVowelLetter_eq]
      simp only [Spec.letterKind, Option.map_some]
      by_cases h : ch ∈ Spec.vowels
      · simp [h]
      · by_cases hy : ch = 'y'
        · subst hy
          have hv : ('y' ∈ Spec.vowels) = False := by simp [Spec.vowels]
          simp [hv]
        · simp [h, hy]

theorem kindsFrom_take (p : Option Bool) (w : Str) (n : Nat) :
    Spec.kindsFrom p (w.take n) = (Spec.kindsFrom p w).take n := by
  induction w generalizing p n with
  | nil => simp [Spec.kindsFrom]
  | cons a w ih =>
    cases n with
    | zero => rfl
    | succ n => simp [Spec.kindsFrom, ih]

theorem mapM_range {A : Type} (l : List A) (n : Nat) (h : n ≤ l.length) :
    (List.range n).mapM (fun i => l[i]?) = some (l.take n) := by
  induction n with
  | zero => rfl
  | succ n ih =>
    rw [List.range_succ, List.mapM_append, ih (by omega)]
    have hn : l[n]? = some l[n] := List.getElem?_eq_getElem (by omega)
    simp only [List.mapM_cons, List.mapM_nil, hn, bind, Option.bind, pure]
    rw [List.take_succ, hn]
    rfl

theorem flags_kinds (b : Str) (j : Int) (h : j < b.length) :
    flags b j = some (Spec.kinds (b.take (j + 1).toNat)) := by
  unfold flags Spec.kinds
  rw [kindsFrom_take, ← mapM_range _ _ (by rw [kindsFrom_length]; omega)]
  congr 1
  funext i
  exact cons_kinds b i

theorem vcCount_pairs (fs : List Bool) : vcCount fs = Spec.vcPairs fs := by
  induction fs with
  | nil => rfl
  | cons a fs ih =>
    cases fs with
    | nil => cases a <;> rfl
    | cons b fs =>
      have key : Spec.vcPairs (a :: b :: fs)
          = Spec.vcPairs (b :: fs) + if (!a && b) then 1 else 0 := by
        simp only [Spec.vcPairs, List.tail_cons, List.zip_cons_cons, List.countP_cons]
      rw [key, ← ih]
      cases a <;> cases b <;> simp [vcCount]

theorem m_measure (st : St) (h : st.j < st.b.length) :
    m st = some (Spec.measure (st.b.take (st.j + 1).toNat)) := by
  unfold m
  rw [flags_kinds _ _ h, Option.map_some, (mLoop_count _).1, Nat.zero_add, vcCount_pairs]
  rfl

theorem vowelInStem_hasVowel (st : St) (h : st.j < st.b.length) :
    vowelInStem st = some (Spec.hasVowel (st.b.take (st.j + 1).toNat)) := by
  unfold vowelInStem
  rw [flags_kinds _ _ h, Option.map_some]
  unfold Spec.hasVowel
  congr 1
  generalize Spec.kinds (st.b.take (st.j + 1).toNat) = fs
  induction fs with
  | nil => rfl
  | cons a fs ih => cases a <;> simp_all

theorem reverse_take_succ {A : Type} (l : List A) (i : Nat) (h : i < l.length) :
    (l.take (i + 1)).reverse = l[i] :: (l.take i).reverse := by
  rw [List.take_succ, List.getElem?_eq_getElem h]
  simp

theorem kinds_take (w : Str) (n : Nat) : Spec.kinds (w.take n) = (Spec.kinds w).take n :=
  kindsFrom_take none w n

theorem doublec_double (st : St) (j : Int) (h : j < st.b.length) :
    doublec st j = some (Spec.endsDouble (st.b.take (j + 1).toNat)) := by
  unfold doublec
  by_cases hj : 0 < j
  · rw [if_pos hj]
    obtain ⟨i, rfl⟩ : ∃ i : Nat, j = (i : Int) + 1 := ⟨(j - 1).toNat, by omega⟩
    have h1 : i + 1 < st.b.length := by omega
    have e1 : ((i : Int) + 1 + 1).toNat = i + 1 + 1 := by omega
    have e2 : ((i : Int) + 1).toNat = i + 1 := by omega
    have e3 : ((i : Int) + 1 - 1).toNat = i := by omega
    have a1 : at' st.b ((i : Int) + 1) = some st.b[i + 1] := by
      unfold at'
      rw [if_pos (by omega), e2, List.getElem?_eq_getElem h1]
    have a2 : at' st.b ((i : Int) + 1 - 1) = some (st.b[i]'(by omega)) := by
      unfold at'
      rw [if_pos (by omega), e3, List.getElem?_eq_getElem (by omega)]
    have hk : i + 1 < (Spec.kinds st.b).length := by rw [kinds_length]; exact h1
    rw [a1, a2, e1, e2]
    dsimp only
    unfold Spec.endsDouble
    rw [kinds_take, reverse_take_succ _ _ h1, reverse_take_succ _ _ (by omega : i < st.b.length),
      reverse_take_succ _ _ hk, cons_kinds, List.getElem?_eq_getElem hk]
    dsimp only
    split
    · rename_i heq
      simp [heq]
    · rename_i hne
      simp [hne]
  · rw [if_neg hj]
    unfold Spec.endsDouble
    have hlen : (st.b.take (j + 1).toNat).reverse.length ≤ 1 := by
      rw [List.length_reverse, List.length_take]
      omega
    split
    · rename_i x y l _ _ hx _
      rw [hx] at hlen
      simp at hlen
    · rfl

theorem cvc_ends (st : St) (i : Int) (h : i < st.b.length) :
    cvc st i = some (Spec.endsCvc (st.b.take (i + 1).toNat)) := by
  unfold cvc
  by_cases hi : i < 2
  · rw [if_pos hi]
    unfold Spec.endsCvc
    have hlen : (Spec.kinds (st.b.take (i + 1).toNat)).reverse.length ≤ 2 := by
      rw [List.length_reverse, kinds_length, List.length_take]
      omega
    split
    · rename_i c1 c2 c3 l _ hx
      rw [hx] at hlen
      simp at hlen
    · rfl
  · rw [if_neg hi]
    obtain ⟨n, rfl⟩ : ∃ n : Nat, i = (n : Int) + 2 := ⟨(i - 2).toNat, by omega⟩
    have h2 : n + 2 < st.b.length := by omega
    have e1 : ((n : Int) + 2 + 1).toNat = n + 2 + 1 := by omega
    have e2 : ((n : Int) + 2).toNat = n + 2 := by omega
    have a1 : at' st.b ((n : Int) + 2) = some st.b[n + 2] := by
      unfold at'
      rw [if_pos (by omega), e2, List.getElem?_eq_getElem h2]
    have hk : n + 2 < (Spec.kinds st.b).length := by rw [kinds_length]; exact h2
    have s1 : n + 2 - 1 = n + 1 := by omega
    have s2 : n + 2 - 2 = n := by omega
    rw [a1, e1, e2, s1, s2, cons_kinds, cons_kinds, cons_kinds, List.getElem?_eq_getElem hk,
      List.getElem?_eq_getElem (by omega : n + 1 < (Spec.kinds st.b).length),
      List.getElem?_eq_getElem (by omega : n < (Spec.kinds st.b).length)]
    dsimp only
    unfold Spec.endsCvc
    rw [kinds_take, reverse_take_succ _ _ h2, reverse_take_succ _ _ hk,
      reverse_take_succ _ _ (by omega : n + 1 < (Spec.kinds st.b).length),
      reverse_take_succ _ _ (by omega : n < (Spec.kinds st.b).length)]

/-! ## Suffixes -/

theorem word_length {st : St} (h0 : 0 ≤ st.k) (h1 : st.k < st.b.length) :
    (word st).length = (st.k + 1).toNat := by
  unfold word
  rw [List.length_take]
  omega

theorem ends_spec (st : St) (s : Str) (hs : s ≠ []) (h0 : 0 ≤ st.k) (h1 : st.k < st.b.length) :
    (ends st s = some (false, st) ∧ Spec.strip s (word st) = none) ∨
      (ends st s = some (true, { st with j := st.k - s.length }) ∧
        Spec.strip s (word st) = some (st.b.take (st.k - s.length + 1).toNat) ∧
        -1 ≤ st.k - s.length ∧ word st = st.b.take (st.k - s.length + 1).toNat ++ s) := by
  have hw := word_length h0 h1
  obtain ⟨ch, hch, hch'⟩ := at'_nat st.b st.k h0 h1
  have hlast : (word st).getLast? = some ch := by
    rw [List.getLast?_eq_getElem?, hw]
    unfold word
    rw [List.getElem?_take_of_lt (by omega)]
    rw [← hch']
    congr 1
    omega
  have hspos := List.length_pos_iff.2 hs
  unfold ends
  rw [hch]
  dsimp only
  have hno : ¬ s <:+ word st → Spec.strip s (word st) = none := fun hn => by
    unfold Spec.strip
    rw [if_neg hn]
  split
  · rename_i hne
    refine Or.inl ⟨rfl, hno ?_⟩
    rintro ⟨u, hu⟩
    apply hne
    rw [← hu, List.getLast?_append_of_ne_nil _ hs] at hlast
    exact hlast
  · split
    · rename_i hlen
      refine Or.inl ⟨rfl, hno ?_⟩
      intro hsuf
      have := hsuf.length_le
      omega
    · rename_i hlen
      have hd : (st.k - (s.length : Int) + 1).toNat = (word st).length - s.length := by omega
      split
      · rename_i hne
        refine Or.inl ⟨rfl, hno ?_⟩
        intro hsuf
        apply hne
        rw [hd]
        exact (List.suffix_iff_eq_drop.1 hsuf).symm
      · rename_i heq
        have heq' := not_not.1 heq
        have htake : (word st).take ((word st).length - s.length)
            = st.b.take (st.k - (s.length : Int) + 1).toNat := by
          rw [← hd]
          unfold word
          rw [List.take_take]
          congr 1
          omega
        refine Or.inr ⟨rfl, ?_, by omega, ?_⟩
        · unfold Spec.strip
          rw [if_pos]
          · rw [htake]
          · rw [hd] at heq'
            rw [← heq']
            exact List.drop_suffix _ _
        · rw [hd] at heq'
          rw [← htake]
          conv_lhs => rw [← List.take_append_drop ((word st).length - s.length) (word st)]
          congr 1

theorem word_setto (st : St) (t : Str) : word (setto st t) = st.b.take (st.j + 1).toNat ++ t := by
  unfold word setto
  dsimp only
  apply List.take_of_length_le
  omega

theorem strip_none_of_last {s w : Str} {c d : Char} (hs : s.getLast? = some c)
    (hw : w.getLast? = some d) (hcd : c ≠ d) : Spec.strip s w = none := by
  unfold Spec.strip
  rw [if_neg]
  rintro ⟨u, rfl⟩
  have hne : s ≠ [] := by rintro rfl; simp at hs
  rw [List.getLast?_append_of_ne_nil _ hne, hs] at hw
  exact hcd (Option.some.inj hw)

theorem strip_append (s w : Str) : Spec.strip s (w ++ s) = some w := by
  unfold Spec.strip
  rw [if_pos (List.suffix_append w s)]
  simp

theorem word_last {st : St} (h0 : 0 ≤ st.k) (h1 : st.k < st.b.length) {ch : Char}
    (hch : at' st.b st.k = some ch) : (word st).getLast? = some ch := by
  obtain ⟨ch2, hch2, hch'⟩ := at'_nat st.b st.k h0 h1
  rw [hch] at hch2
  rw [List.getLast?_eq_getElem?, word_length h0 h1]
  unfold word
  rw [List.getElem?_take_of_lt (by omega), hch2, ← hch']
  congr 1
  omega

theorem word_snoc {st : St} (h0 : 0 ≤ st.k) (h1 : st.k < st.b.length) {ch : Char}
    (hch : at' st.b st.k = some ch) : word st = st.b.take st.k.toNat ++ [ch] := by
  obtain ⟨ch2, hch2, hch'⟩ := at'_nat st.b st.k h0 h1
  rw [hch] at hch2
  unfold word
  have : (st.k + 1).toNat = st.k.toNat + 1 := by omega
  rw [this, List.take_succ, hch', ← hch2]
  rfl

/-! ## The steps -/

theorem word_step1a {st : St} (h1 : st.k < st.b.length) (h2 : 2 ≤ st.k) :
    ∃ st', step1a st = some st' ∧ word st' = Spec.step1a (word st) := by
  have h0 : 0 ≤ st.k := by omega
  unfold step1a Spec.step1a
  obtain ⟨ch, hch, hch'⟩ := at'_nat st.b st.k h0 h1
  have hlast := word_last h0 h1 hch
  have hsn := word_snoc h0 h1 hch
  rw [hch]
  simp only [bind, Option.bind, pure]
  by_cases hs : ch = 's'
  · rw [if_pos hs]
    rcases ends_spec st "sses".toList (by decide) h0 h1 with ⟨e, f⟩ | ⟨e, f, g, w⟩
    · rw [e, f]
      dsimp only
      rw [if_neg (by simp)]
      rcases ends_spec st "ies".toList (by decide) h0 h1 with ⟨e, f⟩ | ⟨e, f, g, w⟩
      · rw [e, f]
        dsimp only
        rw [if_neg (by simp)]
        obtain ⟨p, hp, hp'⟩ := at'_nat st.b (st.k - 1) (by omega) (by omega)
        rw [hp]
        have hstrip : Spec.strip "s".toList (word st) = some (st.b.take st.k.toNat) := by
          rw [hsn, hs]
          exact strip_append ['s'] _
        have hl : (st.b.take st.k.toNat).getLast? = some p := by
          have := word_last (st := { st with k := st.k - 1 }) (by dsimp only; omega)
            (by dsimp only; omega) hp
          unfold word at this
          simpa using this
        rw [hstrip]
        dsimp only
        rw [hl]
        by_cases hps : p = 's'
        · rw [if_neg (by simp [hps]), if_pos (by rw [hps])]
          exact ⟨_, rfl, rfl⟩
        · rw [if_pos hps, if_neg (by simpa using hps)]
          refine ⟨_, rfl, ?_⟩
          simp [word]
      · rw [e, f]
        dsimp only
        rw [if_pos rfl]
        exact ⟨_, rfl, word_setto _ _⟩
    · rw [e, f]
      dsimp only
      rw [if_pos rfl]
      refine ⟨_, rfl, ?_⟩
      have hl : (("sses".toList).length : Int) = 4 := rfl
      rw [hl] at w g ⊢
      have : word { b := st.b, k := st.k - 2, j := st.k - 4 }
          = (word st).take (st.k - 4 + 1).toNat ++ "ss".toList := by
        have hw : word { b := st.b, k := st.k - 2, j := st.k - 4 }
            = (word st).take ((st.k - 4 + 1).toNat + 2) := by
          unfold word
          dsimp only
          rw [List.take_take]
          congr 1
          omega
        rw [hw, w]
        have hlen : (st.b.take (st.k - 4 + 1).toNat).length = (st.k - 4 + 1).toNat := by
          rw [List.length_take]
          omega
        conv_rhs => rw [List.take_append_of_le_length (by omega), List.take_of_length_le (by omega)]
        conv_lhs => rw [show (st.k - 4 + 1).toNat + 2
          = (st.b.take (st.k - 4 + 1).toNat).length + 2 by rw [hlen]]
        rw [List.take_length_add_append]
        rfl
      rw [this]
      congr 1
      unfold word
      rw [List.take_take]
      congr 1
      omega
  · rw [if_neg hs]
    refine ⟨st, rfl, ?_⟩
    rw [strip_none_of_last (c := 's') rfl hlast (fun h => hs h.symm),
      strip_none_of_last (c := 's') rfl hlast (fun h => hs h.symm),
      strip_none_of_last (c := 's') rfl hlast (fun h => hs h.symm)]

theorem word_repair {st : St} (h0 : 0 ≤ st.j) (h1 : st.j < st.b.length) :
    ∃ st', afterEdIng st = some st' ∧
      word st' = Spec.repair (st.b.take (st.j + 1).toNat) := by
  unfold afterEdIng Spec.repair
  simp only [bind, Option.bind, pure]
  have hw : st.b.take (st.j + 1).toNat = word { st with k := st.j } := rfl
  rw [hw]
  have key : ∀ s : Str, s ≠ [] → _ := fun s hs => ends_spec { st with k := st.j } s hs h0 h1
  rcases key "at".toList (by decide) with ⟨e, f⟩ | ⟨e, f, g, w⟩
  · rw [e, f]
    dsimp only
    rw [if_neg (by simp)]
    rcases key "bl".toList (by decide) with ⟨e, f⟩ | ⟨e, f, g, w⟩
    · rw [e, f]
      dsimp only
      rw [if_neg (by simp)]
      rcases key "iz".toList (by decide) with ⟨e, f⟩ | ⟨e, f, g, w⟩
      · rw [e, f]
        dsimp only
        rw [if_neg (by simp), doublec_double { st with k := st.j } st.j h1]
        dsimp only
        rw [hw]
        obtain ⟨ch, hch, hch'⟩ := at'_nat st.b st.j h0 h1
        have hlast := word_last (st := { st with k := st.j }) h0 h1 hch
        cases hd : Spec.endsDouble (word { st with k := st.j }) with
        | true =>
          simp only [if_true]
          -- the last two letters are the same
          have hdc := doublec_double { st with k := st.j } st.j h1
          dsimp only at hdc
          rw [hw, hd] at hdc
          have hj : 0 < st.j := by
            obtain ⟨d, hd1, hd2⟩ := doublec_total { st with k := st.j } st.j h1
            rw [hdc] at hd1
            exact hd2 (Option.some.inj hd1).symm
          obtain ⟨p, hp, _⟩ := at'_nat st.b (st.j - 1) (by omega) (by omega)
          have hpc : ch = p := by
            unfold doublec at hdc
            rw [if_pos hj] at hdc
            dsimp only at hdc
            rw [hch, hp] at hdc
            dsimp only at hdc
            by_contra hne
            rw [if_neg hne] at hdc
            simp at hdc
          rw [hp, hlast, hpc]
          dsimp only
          by_cases hl : p ∈ ['l', 's', 'z']
          · rw [if_pos hl, if_pos (by simpa using hl)]
            exact ⟨_, rfl, rfl⟩
          · rw [if_neg hl, if_neg (by simpa using hl)]
            refine ⟨_, rfl, ?_⟩
            rw [word_snoc (st := { st with k := st.j }) h0 h1 hch, List.dropLast_concat]
            simp [word]
        | false =>
          simp only [Bool.false_eq_true, if_false]
          rw [m_measure { st with k := st.j } h1]
          dsimp only
          rw [cvc_ends { st with k := st.j } st.j h1]
          dsimp only
          rw [hw]
          split
          · refine ⟨_, rfl, ?_⟩
            rw [word_setto]
            rfl
          · exact ⟨_, rfl, rfl⟩
      · rw [e, f]
        dsimp only
        rw [if_pos rfl]
        exact ⟨_, rfl, word_setto _ _⟩
    · rw [e, f]
      dsimp only
      rw [if_pos rfl]
      exact ⟨_, rfl, word_setto _ _⟩
  · rw [e, f]
    dsimp only
    rw [if_pos rfl]
    exact ⟨_, rfl, word_setto _ _⟩

theorem word_step1b {st : St} (h0 : 0 ≤ st.k) (h1 : st.k < st.b.length) :
    ∃ st', step1b st = some st' ∧ word st' = Spec.step1b (word st) := by
  unfold step1b endsEdIng Spec.step1b
  simp only [bind, Option.bind, pure]
  have vow : ∀ j : Int, -1 ≤ j → j < st.b.length →
      ∃ st', (do
          let v ← vowelInStem { st with j := j }
          if v then afterEdIng { st with j := j } else return { st with j := j }) = some st' ∧
        word st' = if Spec.hasVowel (st.b.take (j + 1).toNat) then
          Spec.repair (st.b.take (j + 1).toNat) else word st := by
    intro j hj0 hj
    simp only [bind, Option.bind, pure]
    rw [vowelInStem_hasVowel _ hj]
    dsimp only
    split
    · rename_i hv
      apply word_repair _ hj
      dsimp only
      by_contra hneg
      have : (j + 1).toNat = 0 := by omega
      rw [this] at hv
      simp [Spec.hasVowel, Spec.kinds, Spec.kindsFrom] at hv
    · exact ⟨_, rfl, rfl⟩
  simp only [bind, Option.bind, pure] at vow
  rcases ends_spec st "eed".toList (by decide) h0 h1 with ⟨e, f⟩ | ⟨e, f, g, w⟩
  · rw [e, f]
    dsimp only
    rw [if_neg (by simp)]
    rcases ends_spec st "ed".toList (by decide) h0 h1 with ⟨e, f⟩ | ⟨e, f, g, w⟩
    · rw [e, f]
      dsimp only
      rw [if_neg (by simp)]
      rcases ends_spec st "ing".toList (by decide) h0 h1 with ⟨e, f⟩ | ⟨e, f, g, w⟩
      · rw [e, f]
        exact ⟨st, rfl, rfl⟩
      · rw [e, f]
        dsimp only
        rw [if_pos rfl]
        exact vow _ g (by omega)
    · rw [e, f]
      dsimp only
      simp only [if_true]
      exact vow _ g (by omega)
  · rw [e, f]
    dsimp only
    rw [if_pos rfl, m_measure _ (by dsimp only; omega)]
    dsimp only
    refine ⟨_, rfl, ?_⟩
    split
    · have hl : (("eed".toList).length : Int) = 3 := rfl
      rw [hl] at w g ⊢
      have hlen : (st.b.take (st.k - 3 + 1).toNat).length = (st.k - 3 + 1).toNat := by
        rw [List.length_take]
        omega
      have hw : word { b := st.b, k := st.k - 1, j := st.k - 3 }
          = (word st).take ((st.b.take (st.k - 3 + 1).toNat).length + 2) := by
        unfold word
        dsimp only
        rw [hlen, List.take_take]
        congr 1
        omega
      rw [hw, w, List.take_length_add_append]
      rfl
    · rfl

theorem word_step1c {st : St} (h0 : 0 ≤ st.k) (h1 : st.k < st.b.length) :
    ∃ st', step1c st = some st' ∧ word st' = Spec.step1c (word st) := by
  unfold step1c Spec.step1c
  simp only [bind, Option.bind, pure, Spec.rewrite]
  rcases ends_spec st "y".toList (by decide) h0 h1 with ⟨e, f⟩ | ⟨e, f, g, w⟩
  · rw [e, f]
    exact ⟨st, rfl, rfl⟩
  · rw [e, f]
    dsimp only
    rw [if_pos rfl, vowelInStem_hasVowel _ (by dsimp only; omega)]
    dsimp only
    refine ⟨_, rfl, ?_⟩
    have hl : (("y".toList).length : Int) = 1 := rfl
    rw [hl]
    have e1 : (st.k - 1 + 1).toNat = st.k.toNat := by omega
    rw [e1]
    split
    · unfold word
      dsimp only
      apply List.take_of_length_le
      rw [List.length_append, List.length_take]
      have : ("i".toList).length = 1 := rfl
      omega
    · rfl

theorem word_applyRules {st : St} (h0 : 0 ≤ st.k) (h1 : st.k < st.b.length)
    (rules : List (Str × Str)) (hr : ∀ p ∈ rules, p.1 ≠ []) :
    ∃ st', applyRules st rules = some st' ∧
      word st' = Spec.rewrite (fun stem => 0 < Spec.measure stem) rules (word st) := by
  induction rules with
  | nil => exact ⟨st, rfl, rfl⟩
  | cons p rules ih =>
    obtain ⟨s, t⟩ := p
    rw [applyRules, Spec.rewrite]
    rcases ends_spec st s (hr (s, t) (by simp)) h0 h1 with ⟨e, f⟩ | ⟨e, f, g, w⟩
    · rw [e, f]
      exact ih fun q hq => hr q (by simp [hq])
    · rw [e, f]
      dsimp only
      unfold r
      rw [m_measure _ (by dsimp only; omega)]
      refine ⟨_, rfl, ?_⟩
      dsimp only
      by_cases hm : 0 < Spec.measure (st.b.take (st.k - s.length + 1).toNat)
      · rw [if_pos hm, if_pos (by simpa using hm), word_setto]
      · rw [if_neg hm, if_neg (by simpa using hm)]
        rfl

/-- Rules whose suffix cannot fit may be left out. -/
theorem rewrite_filter (cond : Str → Bool) (q : Str → Bool) (rules : List (Str × Str)) (w : Str)
    (h : ∀ p ∈ rules, q p.1 = false → Spec.strip p.1 w = none) :
    Spec.rewrite cond (rules.filter fun p => q p.1) w = Spec.rewrite cond rules w := by
  induction rules with
  | nil => rfl
  | cons p rules ih =>
    obtain ⟨s, t⟩ := p
    have ih := ih fun x hx => h x (by simp [hx])
    rw [List.filter_cons]
    cases hq : q s with
    | true =>
      rw [if_pos rfl, Spec.rewrite, Spec.rewrite, ih]
    | false =>
      rw [if_neg (by simp [hq]), ih]
      conv_rhs => rw [Spec.rewrite]
      have := h (s, t) (by simp) hq
      dsimp only at this
      rw [this]

/-- The last letter but one of a suffix. -/
def penult (s : Str) : Option Char := s.dropLast.getLast?

theorem strip_none_of_penult {st : St} (h0 : 0 ≤ st.k) (h1 : st.k < st.b.length) {ch : Char}
    (hch : at' st.b (st.k - 1) = some ch) (s : Str) (hs : 2 ≤ s.length) (hp : penult s ≠ some ch) :
    Spec.strip s (word st) = none := by
  unfold Spec.strip
  rw [if_neg]
  rintro ⟨u, hu⟩
  apply hp
  have hlen := word_length h0 h1
  have hl : u.length + s.length = (st.k + 1).toNat := by
    rw [← hlen, ← hu, List.length_append]
  have hget : (word st)[u.length + (s.length - 2)]? = some ch := by
    have hk : 0 ≤ st.k - 1 := by omega
    unfold at' at hch
    rw [if_pos hk] at hch
    unfold word
    rw [List.getElem?_take_of_lt (by omega), ← hch]
    congr 1
    omega
  rw [← hu, List.getElem?_append_right (by omega)] at hget
  unfold penult
  rw [List.getLast?_eq_getElem?, List.length_dropLast, List.getElem?_dropLast, if_pos (by omega),
    ← hget]
  congr 1
  omega

/-- A table of groups of rules and the flat list of the rules. -/
theorem table_filter {B : Type} (table : List (Char × List B)) (flat : List B)
    (key : B → Option Char)
    (hk : ∀ c ∈ table.map (·.1), (table.lookup c).getD [] = flat.filter fun p => key p = some c)
    (hf : ∀ p ∈ flat, ∃ c ∈ table.map (·.1), key p = some c) (ch : Char) :
    (table.lookup ch).getD [] = flat.filter fun p => key p = some ch := by
  by_cases hc : ch ∈ table.map (·.1)
  · exact hk ch hc
  · rw [List.filter_eq_nil_iff.2]
    · cases hl : table.lookup ch with
      | none => rfl
      | some b =>
        exact absurd (List.mem_map.2 ⟨_, lookup_mem table ch b hl, rfl⟩) hc
    · intro p hp
      obtain ⟨c, h1, h2⟩ := hf p hp
      rw [h2]
      simp only [decide_eq_true_eq, Option.some.injEq]
      rintro rfl
      exact hc h1

theorem rules2_table (ch : Char) : (rules2.lookup ch).getD []
    = Spec.table2.filter fun p => penult p.1 = some ch :=
  table_filter rules2 Spec.table2 (fun p => penult p.1) (by decide +kernel) (by decide +kernel) ch

theorem rules3_table (ch : Char) : (rules3.lookup ch).getD []
    = Spec.table3.filter fun p => p.1.getLast? = some ch :=
  table_filter rules3 Spec.table3 (fun p => p.1.getLast?) (by decide +kernel) (by decide +kernel) ch

theorem rules4_table (ch : Char) : (rules4.lookup ch).getD []
    = Spec.table4.filter fun s => penult s = some ch :=
  table_filter rules4 Spec.table4 penult (by decide +kernel) (by decide +kernel) ch

theorem table2_long : ∀ p ∈ Spec.table2, 2 ≤ p.1.length := by decide +kernel
theorem table3_long : ∀ p ∈ Spec.table3, p.1 ≠ [] := by decide +kernel
theorem table4_long : ∀ s ∈ Spec.table4, 2 ≤ s.length := by decide +kernel

theorem word_step2 {st : St} (h0 : 0 ≤ st.k) (h1 : st.k < st.b.length) :
    ∃ st', step2 st = some st' ∧ word st' = Spec.step2 (word st) := by
  have hb : st.b ≠ [] := List.length_pos_iff.1 (by omega)
  obtain ⟨ch, hch⟩ := at'_total st.b (st.k - 1) (by omega) (by omega) hb
  unfold step2 Spec.step2
  rw [hch]
  dsimp only
  rw [rules2_table, ← rewrite_filter _ (fun s => decide (penult s = some ch)) Spec.table2]
  · apply word_applyRules h0 h1
    intro p hp hnil
    have := table2_long p (List.mem_filter.1 hp).1
    rw [hnil] at this
    simp at this
  · intro p hp hq
    exact strip_none_of_penult h0 h1 hch _ (table2_long p hp) (by simpa using hq)

theorem word_step3 {st : St} (h0 : 0 ≤ st.k) (h1 : st.k < st.b.length) :
    ∃ st', step3 st = some st' ∧ word st' = Spec.step3 (word st) := by
  obtain ⟨ch, hch, _⟩ := at'_nat st.b st.k h0 h1
  unfold step3 Spec.step3
  rw [hch]
  dsimp only
  rw [rules3_table, ← rewrite_filter _ (fun s => decide (s.getLast? = some ch)) Spec.table3]
  · apply word_applyRules h0 h1
    intro p hp
    exact table3_long p (List.mem_filter.1 hp).1
  · intro p hp hq
    cases hl : p.1.getLast? with
    | none => exact absurd (List.getLast?_eq_none_iff.1 hl) (table3_long p hp)
    | some c =>
      rw [hl] at hq
      exact strip_none_of_last hl (word_last h0 h1 hch) (by simpa using hq)

/-- What step 4 does with the suffix it found. -/
def cut (o : Option (Bool × St)) : Option St := do
  let (e, st1) ← o
  if e then
    let n ← m st1
    return if 1 < n then { st1 with k := st1.j } else st1
  else return st1

theorem step4_cut (st : St) : step4 st = cut (suffix4 st) := rfl

theorem cut_true {st : St} (j : Int) (hj : j < st.b.length) :
    ∃ st', cut (some (true, { st with j := j })) = some st' ∧
      word st' = if 1 < Spec.measure (st.b.take (j + 1).toNat) then st.b.take (j + 1).toNat
        else word st := by
  unfold cut
  simp only [bind, Option.bind, pure, if_true]
  rw [m_measure _ hj]
  dsimp only
  refine ⟨_, rfl, ?_⟩
  split <;> rfl

theorem word_firstEnd {st : St} (h0 : 0 ≤ st.k) (h1 : st.k < st.b.length) (ss : List Str)
    (hr : ∀ s ∈ ss, s ≠ []) :
    ∃ st', cut (firstEnd st ss) = some st' ∧
      word st' = Spec.rewrite (fun stem => 1 < Spec.measure stem) (ss.map fun s => (s, []))
        (word st) := by
  induction ss with
  | nil => exact ⟨st, rfl, rfl⟩
  | cons s ss ih =>
    rw [firstEnd, List.map_cons, Spec.rewrite]
    rcases ends_spec st s (hr s (by simp)) h0 h1 with ⟨e, f⟩ | ⟨e, f, g, w⟩
    · rw [e, f]
      exact ih fun q hq => hr q (by simp [hq])
    · rw [e, f]
      dsimp only
      obtain ⟨st', c1, c2⟩ := cut_true (st := st) (st.k - s.length) (by omega)
      refine ⟨st', c1, ?_⟩
      rw [c2]
      by_cases hm : 1 < Spec.measure (st.b.take (st.k - s.length + 1).toNat)
      · rw [if_pos hm, if_pos (by simpa using hm), List.append_nil]
      · rw [if_neg hm, if_neg (by simpa using hm)]

theorem measure_nil : Spec.measure [] = 0 := rfl

theorem word_step4 {st : St} (h0 : 0 ≤ st.k) (h1 : st.k < st.b.length) :
    ∃ st', step4 st = some st' ∧ word st' = Spec.step4 (word st) := by
  have hb : st.b ≠ [] := List.length_pos_iff.1 (by omega)
  obtain ⟨ch, hch⟩ := at'_total st.b (st.k - 1) (by omega) (by omega) hb
  rw [step4_cut]
  unfold suffix4 Spec.step4
  simp only [bind, Option.bind, pure]
  rw [hch]
  dsimp only
  have hgroup : ∀ st1 : St, st1.b = st.b → st1.k = st.k →
      ∃ st', cut (firstEnd st1 ((rules4.lookup ch).getD [])) = some st' ∧
        word st' = Spec.rewrite (fun stem => 1 < Spec.measure stem)
          (Spec.table4.map fun s => (s, [])) (word st) := by
    intro st1 hb1 hk1
    have hw : word st1 = word st := by
      unfold word
      rw [hb1, hk1]
    rw [rules4_table,
      ← rewrite_filter _ (fun s => decide (penult s = some ch)) (Spec.table4.map fun s => (s, []))]
    · rw [List.filter_map, ← hw]
      apply word_firstEnd (by omega) (by rw [hb1]; omega)
      intro s hs hnil
      have := table4_long s (List.mem_filter.1 hs).1
      rw [hnil] at this
      simp at this
    · intro p hp hq
      obtain ⟨s, hs, rfl⟩ := List.mem_map.1 hp
      exact strip_none_of_penult h0 h1 hch _ (table4_long s hs) (by simpa using hq)
  by_cases ho : ch = 'o'
  · rw [if_pos ho]
    unfold ionCase
    simp only [bind, Option.bind, pure]
    rcases ends_spec st "ion".toList (by decide) h0 h1 with ⟨e, f⟩ | ⟨e, f, g, w⟩
    · rw [e, f]
      dsimp only
      simp only [Bool.false_eq_true, if_false]
      exact hgroup st rfl rfl
    · rw [e, f]
      simp only [if_true]
      have hl : (("ion".toList).length : Int) = 3 := rfl
      rw [hl] at g w ⊢
      obtain ⟨p, hp⟩ := at'_total st.b (st.k - 3) (by omega) (by omega) hb
      rw [hp]
      dsimp only
      by_cases hst : p ∈ ['s', 't']
      · simp only [hst, decide_true, if_true]
        obtain ⟨st', c1, c2⟩ := cut_true (st := st) (st.k - 3) (by omega)
        refine ⟨st', c1, ?_⟩
        rw [c2]
        by_cases hm : 1 < Spec.measure (st.b.take (st.k - 3 + 1).toNat)
        · rw [if_pos hm]
          have hj : 0 ≤ st.k - 3 := by
            by_contra hneg
            have : (st.k - 3 + 1).toNat = 0 := by omega
            rw [this, List.take_zero, measure_nil] at hm
            omega
          have hlast := word_last (st := { st with k := st.k - 3 }) hj (by dsimp only; omega) hp
          unfold word at hlast
          dsimp only at hlast
          rw [hlast, if_pos ⟨by simpa using hst, hm⟩]
        · rw [if_neg hm, if_neg (fun h => hm h.2)]
      · simp only [hst, decide_false, Bool.false_eq_true, if_false]
        have hwl : (word st).getLast? = some 'n' := by
          rw [w, List.getLast?_append_of_ne_nil _ (by decide)]
          rfl
        obtain ⟨st', c1, c2⟩ := hgroup { st with j := st.k - 3 } rfl rfl
        refine ⟨st', c1, ?_⟩
        rw [c2]
        have hnone : Spec.rewrite (fun stem => 1 < Spec.measure stem)
            (Spec.table4.map fun s => (s, [])) (word st) = word st := by
          rw [← rewrite_filter _ (fun s => decide (s.getLast? = some 'n'))]
          · have : (Spec.table4.map fun s => (s, ([] : Str))).filter
                (fun p => decide (p.1.getLast? = some 'n')) = [] := by decide +kernel
            rw [this]
            rfl
          · intro q hq hqn
            obtain ⟨s, hs, rfl⟩ := List.mem_map.1 hq
            cases hsl : s.getLast? with
            | none =>
              have := table4_long s hs
              rw [List.getLast?_eq_none_iff.1 hsl] at this
              simp at this
            | some c =>
              dsimp only at hqn ⊢
              rw [hsl] at hqn
              exact strip_none_of_last hsl hwl (by simpa using hqn)
        rw [hnone, if_neg]
        rintro ⟨hlast, hm⟩
        have hj : 0 ≤ st.k - 3 := by
          by_contra hneg
          have : (st.k - 3 + 1).toNat = 0 := by omega
          rw [this, List.take_zero, measure_nil] at hm
          omega
        have hlast' := word_last (st := { st with k := st.k - 3 }) hj (by dsimp only; omega) hp
        unfold word at hlast'
        dsimp only at hlast'
        rw [hlast'] at hlast
        exact hst (by simpa using hlast)
  · rw [if_neg ho]
    have : Spec.strip "ion".toList (word st) = none :=
      strip_none_of_penult h0 h1 hch _ (by decide) (by
        have : penult "ion".toList = some 'o' := by decide +kernel
        rw [this]
        simpa using fun h => ho h.symm)
    rw [this]
    exact hgroup st rfl rfl

theorem kindsFrom_append (p : Option Bool) (w v : Str) :
    ∃ q, Spec.kindsFrom p (w ++ v) = Spec.kindsFrom p w ++ Spec.kindsFrom q v := by
  induction w generalizing p with
  | nil => exact ⟨p, rfl⟩
  | cons a w ih =>
    obtain ⟨q, hq⟩ := ih (some (Spec.letterKind p a))
    exact ⟨q, by simp [Spec.kindsFrom, hq]⟩

theorem measure_e (w : Str) : Spec.measure (w ++ ['e']) = Spec.measure w := by
  unfold Spec.measure Spec.kinds
  obtain ⟨q, hq⟩ := kindsFrom_append none w ['e']
  have he : Spec.kindsFrom q ['e'] = [false] := by
    simp [Spec.kindsFrom, Spec.letterKind, Spec.vowels]
  rw [hq, he]
  generalize Spec.kindsFrom none w = fs
  rw [← vcCount_pairs, ← vcCount_pairs]
  induction fs with
  | nil => rfl
  | cons a fs ih =>
    cases fs with
    | nil => cases a <;> rfl
    | cons b fs =>
      simp only [List.cons_append] at ih ⊢
      cases a <;> cases b <;> simp_all [vcCount]

theorem word_step5a {st : St} (h0 : 0 ≤ st.k) (h1 : st.k < st.b.length) :
    ∃ st', step5a st = some st' ∧ word st' = Spec.step5a (word st) ∧
      st'.j < st'.b.length ∧ Spec.measure (st'.b.take (st'.j + 1).toNat) = Spec.measure (word st') := by
  obtain ⟨ch, hch, _⟩ := at'_nat st.b st.k h0 h1
  have hsn := word_snoc h0 h1 hch
  unfold step5a Spec.step5a
  simp only [bind, Option.bind, pure, Spec.rewrite]
  rw [hch]
  dsimp only
  by_cases he : ch = 'e'
  · rw [if_pos he]
    have hstrip : Spec.strip "e".toList (word st) = some (st.b.take st.k.toNat) := by
      rw [hsn, he]
      exact strip_append ['e'] _
    have hmm : Spec.measure (word st) = Spec.measure (st.b.take st.k.toNat) := by
      rw [hsn, he, measure_e]
    have hm : m { st with j := st.k } = some (Spec.measure (st.b.take st.k.toNat)) := by
      rw [m_measure _ h1, ← hmm]
      rfl
    have hk1 : ∀ j, word { b := st.b, k := st.k - 1, j := j } = st.b.take st.k.toNat := by
      intro j
      simp [word]
    rw [hstrip, hm]
    dsimp only
    have hnil : "".toList = ([] : Str) := rfl
    rw [hnil, List.append_nil]
    by_cases hm1 : 1 < Spec.measure (st.b.take st.k.toNat)
    · rw [if_pos hm1, if_pos (by simp [hm1])]
      refine ⟨_, rfl, hk1 _, h1, ?_⟩
      rw [hk1]
      exact hmm
    · rw [if_neg hm1]
      by_cases hm2 : Spec.measure (st.b.take st.k.toNat) = 1
      · have hcv := cvc_ends { st with j := st.k } (st.k - 1) (by dsimp only; omega)
        have e1 : (st.k - 1 + 1).toNat = st.k.toNat := by omega
        dsimp only at hcv
        rw [e1] at hcv
        rw [if_pos hm2, hcv]
        dsimp only
        by_cases hc : Spec.endsCvc (st.b.take st.k.toNat) = true
        · rw [if_pos hc, if_neg (by simp [hm1, hc])]
          exact ⟨_, rfl, rfl, h1, rfl⟩
        · rw [if_neg hc, if_pos (by simp [hm2, hc])]
          refine ⟨_, rfl, hk1 _, h1, ?_⟩
          rw [hk1]
          exact hmm
      · rw [if_neg hm2, if_neg (by simp [hm1, hm2])]
        exact ⟨_, rfl, rfl, h1, rfl⟩
  · rw [if_neg he, strip_none_of_last (c := 'e') rfl (word_last h0 h1 hch) (fun h => he h.symm)]
    exact ⟨_, rfl, rfl, h1, rfl⟩

theorem word_step5b {st : St} (h0 : 0 ≤ st.k) (h1 : st.k < st.b.length) (hj : st.j < st.b.length)
    (hmj : Spec.measure (st.b.take (st.j + 1).toNat) = Spec.measure (word st)) :
    ∃ st', step5b st = some st' ∧ word st' = Spec.step5b (word st) := by
  obtain ⟨ch, hch, _⟩ := at'_nat st.b st.k h0 h1
  have hsn := word_snoc h0 h1 hch
  unfold step5b Spec.step5b
  simp only [bind, Option.bind, pure]
  rw [hch]
  dsimp only
  by_cases hl : ch = 'l'
  · rw [if_pos hl]
    obtain ⟨d, hd, _⟩ := doublec_total st st.k h1
    have hdl : d = true ↔ "ll".toList <:+ word st := by
      unfold doublec at hd
      by_cases hk : 0 < st.k
      · rw [if_pos hk] at hd
        obtain ⟨p, hp, _⟩ := at'_nat st.b (st.k - 1) (by omega) (by omega)
        rw [hch, hp] at hd
        dsimp only at hd
        have hcons : cons st.b st.k.toNat = some true := by
          obtain ⟨i, hi⟩ : ∃ i, st.k.toNat = i + 1 := ⟨st.k.toNat - 1, by omega⟩
          unfold at' at hch
          rw [if_pos h0, hi] at hch
          rw [hi, cons, hch, hl]
          rfl
        have hsn2 := word_snoc (st := { st with k := st.k - 1 }) (by dsimp only; omega)
          (by dsimp only; omega) hp
        unfold word at hsn2
        dsimp only at hsn2
        have e1 : (st.k - 1 + 1).toNat = st.k.toNat := by omega
        rw [e1] at hsn2
        rw [hsn, hsn2, hl]
        rw [hcons, hl] at hd
        constructor
        · intro hdt
          by_cases hlp : 'l' = p
          · rw [← hlp]
            exact ⟨st.b.take (st.k - 1).toNat, by simp⟩
          · rw [if_neg hlp, hdt] at hd
            simp at hd
        · rintro ⟨u, hu⟩
          have hu2 : u ++ ['l'] ++ ['l'] = st.b.take (st.k - 1).toNat ++ [p] ++ ['l'] := by
            rw [← hu]
            simp
          have hu3 := List.append_inj_left' hu2 rfl
          have hu4 := List.append_inj_right' hu3 rfl
          simp only [List.cons.injEq, and_true] at hu4
          rw [if_pos hu4] at hd
          exact (Option.some.inj hd).symm
      · rw [if_neg hk] at hd
        constructor
        · intro hdt
          rw [hdt] at hd
          simp at hd
        · intro hsuf
          have := hsuf.length_le
          rw [word_length h0 h1] at this
          have h2 : ("ll".toList).length = 2 := rfl
          omega
    rw [hd]
    dsimp only
    cases d with
    | true =>
      rw [if_pos rfl, m_measure _ hj, hmj]
      dsimp only
      refine ⟨_, rfl, ?_⟩
      have hsuf := hdl.1 rfl
      by_cases hm : 1 < Spec.measure (word st)
      · rw [if_pos hm, if_pos ⟨hsuf, hm⟩, hsn, List.dropLast_concat]
        simp [word]
      · rw [if_neg hm, if_neg (fun h => hm h.2)]
    | false =>
      rw [if_neg (by simp), if_neg (fun h => by simpa using hdl.2 h.1)]
      exact ⟨_, rfl, rfl⟩
  · rw [if_neg hl, if_neg]
    · exact ⟨_, rfl, rfl⟩
    · rintro ⟨⟨u, hu⟩, _⟩
      rw [hsn] at hu
      have hu2 : (u ++ ['l']) ++ ['l'] = st.b.take st.k.toNat ++ [ch] := by
        rw [← hu]
        simp
      have := List.append_inj_right' hu2 rfl
      simp only [List.cons.injEq, and_true] at this
      exact hl this.symm

/-- **C57.** The stemmer computes the published rules, whatever it stemmed before. -/
theorem C57_rules (j0 : Int) (w : Str) : stem j0 w = some (Spec.stem w) := by
  unfold stem Spec.stem
  by_cases hw : w.length ≤ 2
  · rw [if_pos hw, if_pos hw]
  rw [if_neg hw, if_neg hw]
  cases w with
  | nil => simp at hw
  | cons c w =>
    have h0 : Inv (c :: w).length c { b := c :: w, k := (c :: w).length - 1, j := j0 } := by
      refine ⟨?_, ?_, ?_, rfl⟩ <;> dsimp only <;> omega
    have hw0 : word { b := c :: w, k := (c :: w).length - 1, j := j0 } = c :: w := by
      unfold word
      apply List.take_of_length_le
      dsimp only
      omega
    have glue : ∀ {f : St → Option St} {g : Str → Str} {st : St},
        (∃ st', f st = some st' ∧ Inv (c :: w).length c st') →
        (∃ st', f st = some st' ∧ word st' = g (word st)) →
        ∃ st', f st = some st' ∧ Inv (c :: w).length c st' ∧ word st' = g (word st) := by
      rintro f g st ⟨s, e, i⟩ ⟨s', e', i'⟩
      rw [e] at e'
      cases e'
      exact ⟨s, e, i, i'⟩
    obtain ⟨s1, e1, h1, w1⟩ := glue (inv_step1a h0 (by dsimp only; omega))
      (word_step1a (by dsimp only; omega) (by dsimp only; omega))
    obtain ⟨s2, e2, h2, w2⟩ := glue (inv_step1b h1) (word_step1b h1.k0 h1.kb)
    obtain ⟨s3, e3, h3, w3⟩ := glue (inv_step1c h2) (word_step1c h2.k0 h2.kb)
    obtain ⟨s4, e4, h4, w4⟩ := glue (inv_step2 h3) (word_step2 h3.k0 h3.kb)
    obtain ⟨s5, e5, h5, w5⟩ := glue (inv_step3 h4) (word_step3 h4.k0 h4.kb)
    obtain ⟨s6, e6, h6, w6⟩ := glue (inv_step4 h5) (word_step4 h5.k0 h5.kb)
    obtain ⟨s7, e7, h7, h7'⟩ := inv_step5a h6
    obtain ⟨s7', e7', w7, hj7, hm7⟩ := word_step5a h6.k0 h6.kb
    rw [e7] at e7'
    cases e7'
    obtain ⟨s8, e8, w8⟩ := word_step5b h7.k0 h7.kb hj7 hm7
    simp only [bind, Option.bind, pure, e1, e2, e3, e4, e5, e6, e7, e8]
    rw [w7, w6, w5, w4, w3, w2, w1, hw0] at w8
    rw [← w8]
    rfl

example : stem 5 "generalizations".toList = some "gener".toList := by decide +kernel
example : stem 5 "ation".toList = some "ation".toList := by decide +kernel

end Verif.Porter
