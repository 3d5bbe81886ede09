import Verif.Wiki.TemplateModel
import Mathlib.Data.List.Infix

/-!
# C59: `remove_template` deletes exactly the outermost templates
-/

namespace Verif.Wiki
open Verif Text

/-! ## Specification -/

/-- The text does not contain `{{`. -/
def NoOpen (p : Str) : Prop := ¬ ['{', '{'] <:+: p

/-- A piece of text before a template: no `{{` in it, and the `{{` of the template is the first. -/
def Plain (p : Str) : Prop := NoOpen p ∧ p.getLast? ≠ some '{'

/-- More opening than closing braces. -/
def Open (u : Str) : Prop := u.count '}' < u.count '{'

/-- A template: it begins with `{{`, and its braces are balanced for the first time at its end. -/
def IsTemplate (t : Str) : Prop :=
  ['{', '{'] <+: t ∧ t.count '{' = t.count '}' ∧ ∀ v, v <+: t → v ≠ [] → v ≠ t → Open v

/-- A template that is never closed. -/
def IsUnclosed (t : Str) : Prop := ['{', '{'] <+: t ∧ ∀ v, v <+: t → v ≠ [] → Open v

/-- A text cut into plain pieces, each followed by a template, a last plain piece, and possibly a
template that is never closed. -/
structure Cut where
  pieces : List (Str × Str)
  last : Str
  tail : Str

def Cut.text (d : Cut) : Str := d.pieces.flatMap (fun p => p.1 ++ p.2) ++ d.last ++ d.tail
def Cut.kept (d : Cut) : Str := d.pieces.flatMap (fun p => p.1) ++ d.last

structure Cut.Valid (d : Cut) : Prop where
  pieces : ∀ p ∈ d.pieces, Plain p.1 ∧ IsTemplate p.2
  last : NoOpen d.last
  tail : d.tail = [] ∨ (Plain d.last ∧ IsUnclosed d.tail)

/-! ## The loop as a machine without positions -/

/-- Outside a template with the piece read so far, or inside with the number of open braces. -/
def run : Sum Str Nat → Str → Str
  | .inl acc, [] => acc
  | .inl acc, c :: r =>
    if c = '{' ∧ acc.getLast? = some '{' then acc.dropLast ++ run (.inr 2) r
    else run (.inl (acc ++ [c])) r
  | .inr _, [] => []
  | .inr d, c :: r =>
    if c = '{' then run (.inr (d + 1)) r
    else if c = '}' then (if d = 1 then run (.inl []) r else run (.inr (d - 1)) r)
    else run (.inr d) r

/-- The pieces cut out so far. -/
def joined (s : Str) (E : List Int) (S : List Int) : Str :=
  ((E.zip (S.map some)).map fun p => slice s (p.1 + 1) p.2).flatten

theorem joined_snoc (s : Str) (E S : List Int) (e b : Int) (h : E.length = S.length) :
    joined s (E ++ [e]) (S ++ [b]) = joined s E S ++ slice s (e + 1) (some b) := by
  unfold joined
  rw [List.map_append, List.zip_append (by simpa using h)]
  simp

theorem cutOut_outside (s : Str) (st : Scan) (E : List Int) (e : Int) (hE : st.ends = E ++ [e])
    (h : E.length = st.starts.length) : cutOut s st = joined s E st.starts ++ s.drop (e + 1).toNat := by
  unfold cutOut joined
  rw [hE, List.zip_append (by simpa using h)]
  simp [slice]

theorem cutOut_inside (s : Str) (st : Scan) (h : st.ends.length = st.starts.length) :
    cutOut s st = joined s st.ends st.starts := by
  unfold cutOut joined
  have : st.ends.zip (st.starts.map some ++ [none]) = st.ends.zip (st.starts.map some) := by
    conv_lhs => rw [← List.append_nil st.ends, List.zip_append (by simpa using h)]
    simp
  rw [this]

/-- Where the loop stands after reading `pre`, and the mode of the machine. -/
structure Outside (pre : Str) (st : Scan) (E : List Int) (e : Int) : Prop where
  inT : st.inTemplate = false
  nO : st.nOpen = 0
  nC : st.nClose = 0
  ends : st.ends = E ++ [e]
  starts : st.starts.length = E.length
  e0 : -1 ≤ e
  epre : e + 1 ≤ pre.length
  prev : st.prev = pre.getLast?
  fresh : pre.getLast? = some '{' → e + 1 < pre.length

structure Inside (pre : Str) (st : Scan) (d : Nat) : Prop where
  inT : st.inTemplate = true
  d1 : 1 ≤ d
  nO : st.nOpen = st.nClose + d
  starts : st.starts.length = st.ends.length
  prev : st.prev = pre.getLast?

theorem acc_last (pre : Str) (e : Int) (he : -1 ≤ e) (h1 : e + 1 ≤ pre.length)
    (hf : pre.getLast? = some '{' → e + 1 < pre.length) :
    ((pre.drop (e + 1).toNat).getLast? = some '{') ↔ pre.getLast? = some '{' := by
  by_cases h : e + 1 < pre.length
  · rw [List.getLast?_drop, if_neg (by omega)]
  · rw [List.drop_eq_nil_of_le (by omega)]
    simp only [List.getLast?_nil, reduceCtorEq, false_iff]
    exact fun hp => h (hf hp)

theorem run_spec (rest : Str) : ∀ (pre : Str) (st : Scan),
    (∀ E e, Outside pre st E e →
      cutOut (pre ++ rest) ((enumFrom pre.length rest).foldl scanStep st)
        = joined (pre ++ rest) E st.starts ++ run (.inl (pre.drop (e + 1).toNat)) rest) ∧
    (∀ d, Inside pre st d →
      cutOut (pre ++ rest) ((enumFrom pre.length rest).foldl scanStep st)
        = joined (pre ++ rest) st.ends st.starts ++ run (.inr d) rest) := by
  induction rest with
  | nil =>
    intro pre st
    simp only [enumFrom, List.foldl_nil, List.append_nil, run]
    refine ⟨?_, ?_⟩
    · intro E e h
      exact cutOut_outside pre st E e h.ends h.starts.symm
    · intro d h
      exact cutOut_inside pre st h.starts.symm
  | cons c rest ih =>
    intro pre st
    have hlen : pre.length + 1 = (pre ++ [c]).length := by simp
    have hassoc : pre ++ c :: rest = (pre ++ [c]) ++ rest := by simp
    have hlast : (pre ++ [c]).getLast? = some c := by simp
    simp only [enumFrom, List.foldl_cons]
    rw [hassoc, hlen]
    refine ⟨?_, ?_⟩
    · intro E e h
      have hal := acc_last pre e h.e0 h.epre h.fresh
      have he0 := h.e0
      have hepre := h.epre
      by_cases hc : c = '{' ∧ pre.getLast? = some '{'
      · -- a template begins
        obtain ⟨hc1, hc2⟩ := hc
        have hf := h.fresh hc2
        have hst : scanStep st (pre.length, c)
            = { st with starts := st.starts ++ [(pre.length : Int) - 1], inTemplate := true,
                        nOpen := 2, prev := some c } := by
          have hopen : openStep st pre.length c
              = { st with starts := st.starts ++ [(pre.length : Int) - 1], inTemplate := true,
                          nOpen := 1 } := by
            unfold openStep
            rw [if_pos h.inT, if_pos ⟨hc1, by rw [h.prev, hc2, hc1]⟩]
          unfold scanStep
          dsimp only
          rw [hopen]
          simp only [if_true]
          unfold countStep closeStep
          rw [if_pos hc1]
          dsimp only
          rw [if_neg (by rw [h.nC]; omega)]
        have hin : Inside (pre ++ [c]) (scanStep st (pre.length, c)) 2 := by
          rw [hst]
          refine ⟨rfl, by omega, ?_, ?_, hlast.symm⟩
          · dsimp only
            rw [h.nC]
          · dsimp only
            rw [h.ends, List.length_append, List.length_append, h.starts]
            rfl
        rw [(ih (pre ++ [c]) _).2 2 hin, hst]
        dsimp only
        rw [h.ends, joined_snoc _ _ _ _ _ h.starts.symm, run, if_pos ⟨hc1, hal.2 hc2⟩,
          List.append_assoc]
        congr 2
        unfold slice
        dsimp only
        rw [List.append_assoc, List.take_append_of_le_length (by omega), List.dropLast_eq_take,
          List.length_drop, List.drop_take]
        congr 1
        omega
      · have hst : scanStep st (pre.length, c) = { st with prev := some c } := by
          have hopen : openStep st pre.length c = st := by
            unfold openStep
            rw [if_pos h.inT, if_neg]
            rintro ⟨h1, h2⟩
            exact hc ⟨h1, by rw [← h.prev, ← h2, h1]⟩
          unfold scanStep
          dsimp only
          rw [hopen, if_neg (by rw [h.inT]; simp)]
        have hout : Outside (pre ++ [c]) (scanStep st (pre.length, c)) E e := by
          rw [hst]
          refine ⟨h.inT, h.nO, h.nC, h.ends, h.starts, h.e0, ?_, hlast.symm, fun _ => ?_⟩ <;>
            rw [← hlen] <;> omega
        rw [(ih (pre ++ [c]) _).1 E e hout, hst]
        dsimp only
        rw [run, if_neg (fun h => hc ⟨h.1, hal.1 h.2⟩), List.drop_append_of_le_length (by omega)]
    · intro d h
      have hd1 := h.d1
      have hopen : openStep st pre.length c = st := by
        unfold openStep
        rw [if_neg (by rw [h.inT]; simp)]
      rw [run]
      by_cases hc : c = '{'
      · have hst : scanStep st (pre.length, c) = { st with nOpen := st.nOpen + 1, prev := some c } := by
          unfold scanStep
          dsimp only
          rw [hopen, if_pos h.inT]
          unfold countStep closeStep
          rw [if_pos hc]
          dsimp only
          rw [if_neg (by rw [h.nO]; omega)]
        have hin : Inside (pre ++ [c]) (scanStep st (pre.length, c)) (d + 1) := by
          rw [hst]
          refine ⟨h.inT, by omega, ?_, h.starts, hlast.symm⟩
          dsimp only
          rw [h.nO]
          omega
        rw [(ih (pre ++ [c]) _).2 _ hin, hst, if_pos hc]
      · rw [if_neg hc]
        by_cases hc' : c = '}'
        · rw [if_pos hc']
          by_cases hd : d = 1
          · have hst : scanStep st (pre.length, c)
                = { st with ends := st.ends ++ [(pre.length : Int)], inTemplate := false, nOpen := 0,
                            nClose := 0, prev := some c } := by
              unfold scanStep
              dsimp only
              rw [hopen, if_pos h.inT]
              unfold countStep closeStep
              rw [if_neg hc, if_pos hc']
              dsimp only
              rw [if_pos (by rw [h.nO, hd])]
            have hout : Outside (pre ++ [c]) (scanStep st (pre.length, c)) st.ends pre.length := by
              rw [hst]
              refine ⟨rfl, rfl, rfl, rfl, h.starts, by omega, ?_, hlast.symm, ?_⟩
              · rw [← hlen]
                omega
              · rw [hlast, hc']
                intro h
                simp at h
            rw [(ih (pre ++ [c]) _).1 _ _ hout, hst, if_pos hd]
            dsimp only
            rw [List.drop_eq_nil_of_le (by rw [← hlen]; omega)]
          · have hst : scanStep st (pre.length, c)
                = { st with nClose := st.nClose + 1, prev := some c } := by
              unfold scanStep
              dsimp only
              rw [hopen, if_pos h.inT]
              unfold countStep closeStep
              rw [if_neg hc, if_pos hc']
              dsimp only
              rw [if_neg (by rw [h.nO]; omega)]
            have hin : Inside (pre ++ [c]) (scanStep st (pre.length, c)) (d - 1) := by
              rw [hst]
              refine ⟨h.inT, by omega, ?_, h.starts, hlast.symm⟩
              dsimp only
              rw [h.nO]
              omega
            rw [(ih (pre ++ [c]) _).2 _ hin, hst, if_neg hd]
        · rw [if_neg hc']
          have hst : scanStep st (pre.length, c) = { st with prev := some c } := by
            unfold scanStep
            dsimp only
            rw [hopen, if_pos h.inT]
            unfold countStep closeStep
            rw [if_neg hc, if_neg hc', if_neg (by rw [h.nO]; omega)]
          have hin : Inside (pre ++ [c]) (scanStep st (pre.length, c)) d := by
            rw [hst]
            exact ⟨h.inT, h.d1, h.nO, h.starts, hlast.symm⟩
          rw [(ih (pre ++ [c]) _).2 _ hin, hst]

theorem removeTemplate_run (s : Str) : removeTemplate s = run (.inl []) s := by
  have h : Outside [] scan0 [] (-1) :=
    ⟨rfl, rfl, rfl, rfl, rfl, by omega, by simp, rfl, by simp⟩
  have := (run_spec s [] scan0).1 [] (-1) h
  simpa [removeTemplate, joined, scan0] using this

/-! ## The machine and the cuts -/

theorem noOpen_prefix {p q : Str} (h : NoOpen (p ++ q)) : NoOpen p :=
  fun hi => h (hi.trans (List.infix_append [] p q))

theorem run_plain (p : Str) : ∀ (acc rest : Str), NoOpen (acc ++ p) →
    run (.inl acc) (p ++ rest) = run (.inl (acc ++ p)) rest := by
  induction p with
  | nil =>
    intro acc rest _
    simp
  | cons c p ih =>
    intro acc rest h
    have hc : acc ++ c :: p = acc ++ [c] ++ p := by simp
    rw [List.cons_append, run, if_neg, ih _ _ (by rw [← hc]; exact h), ← hc]
    rintro ⟨rfl, hl⟩
    apply h
    obtain ⟨u, hu⟩ := List.getLast?_eq_some_iff.1 hl
    exact ⟨u, p, by rw [hu]; simp⟩

theorem run_template (u : Str) : ∀ (d : Nat) (rest : Str),
    (∀ v, v <+: u → v ≠ u → v.count '}' < d + v.count '{') → u.count '}' = d + u.count '{' →
    1 ≤ d → run (.inr d) (u ++ rest) = run (.inl []) rest := by
  induction u with
  | nil =>
    intro d rest _ h hd
    simp at h
    omega
  | cons c u ih =>
    intro d rest hv hu hd
    have hv' : ∀ v, v <+: u → v ≠ u → (c :: v).count '}' < d + (c :: v).count '{' := by
      intro v h1 h2
      exact hv (c :: v) (by simpa using h1) (by simpa using h2)
    rw [List.cons_append, run]
    by_cases hc : c = '{'
    · subst hc
      rw [if_pos rfl]
      apply ih
      · intro v h1 h2
        have := hv' v h1 h2
        simp at this
        omega
      · simp at hu
        omega
      · omega
    · rw [if_neg hc]
      by_cases hc' : c = '}'
      · subst hc'
        rw [if_pos rfl]
        by_cases hd1 : d = 1
        · rw [if_pos hd1]
          cases u with
          | nil => rfl
          | cons a u =>
            exfalso
            have := hv' [] (by simp) (by simp)
            simp at this
            omega
        · rw [if_neg hd1]
          apply ih
          · intro v h1 h2
            have := hv' v h1 h2
            simp at this
            omega
          · simp at hu
            omega
          · omega
      · rw [if_neg hc']
        apply ih
        · intro v h1 h2
          have := hv' v h1 h2
          simpa [List.count_cons, hc, hc'] using this
        · simpa [List.count_cons, hc, hc'] using hu
        · exact hd

theorem run_unclosed (u : Str) : ∀ (d : Nat),
    (∀ v, v <+: u → v.count '}' < d + v.count '{') → run (.inr d) u = [] := by
  induction u with
  | nil =>
    intro d _
    rfl
  | cons c u ih =>
    intro d hv
    have hv' : ∀ v, v <+: u → (c :: v).count '}' < d + (c :: v).count '{' := by
      intro v h1
      exact hv (c :: v) (by simpa using h1)
    rw [run]
    by_cases hc : c = '{'
    · subst hc
      rw [if_pos rfl]
      apply ih
      intro v h1
      have := hv' v h1
      simp at this
      omega
    · rw [if_neg hc]
      by_cases hc' : c = '}'
      · subst hc'
        have h0 := hv' [] (by simp)
        simp at h0
        rw [if_pos rfl, if_neg (by omega)]
        apply ih
        intro v h1
        have := hv' v h1
        simp at this
        omega
      · rw [if_neg hc']
        apply ih
        intro v h1
        have := hv' v h1
        simpa [List.count_cons, hc, hc'] using this

theorem run_open {p : Str} (h : Plain p) (t : Str) :
    run (.inl []) (p ++ '{' :: '{' :: t) = p ++ run (.inr 2) t := by
  rw [run_plain p [] _ (by simpa using h.1), List.nil_append, run, if_neg (fun hh => h.2 hh.2), run,
    if_pos ⟨rfl, by simp⟩, List.dropLast_concat]

theorem run_piece {p t : Str} (hp : Plain p) (ht : IsTemplate t) (rest : Str) :
    run (.inl []) (p ++ t ++ rest) = p ++ run (.inl []) rest := by
  obtain ⟨⟨u, rfl⟩, hbal, hpre⟩ := ht
  rw [List.append_assoc]
  simp only [List.cons_append, List.nil_append] at *
  rw [run_open hp, run_template u 2 rest _ _ (by omega)]
  · intro v h1 h2
    have := hpre ('{' :: '{' :: v) (by simpa using h1) (by simp) (by simpa using h2)
    unfold Open at this
    simp at this
    omega
  · simp at hbal
    omega

theorem run_tail {p t : Str} (hp : Plain p) (ht : IsUnclosed t) : run (.inl []) (p ++ t) = p := by
  obtain ⟨⟨u, rfl⟩, hpre⟩ := ht
  simp only [List.cons_append, List.nil_append] at *
  rw [run_open hp, run_unclosed, List.append_nil]
  intro v h1
  have := hpre ('{' :: '{' :: v) (by simpa using h1) (by simp)
  unfold Open at this
  simp at this
  omega

/-- **C59.** However a text is made of plain pieces and templates, the templates are deleted and the
rest is kept in order; a template that is never closed swallows the rest of the text. -/
theorem C59_removes (d : Cut) (h : d.Valid) : removeTemplate d.text = d.kept := by
  rw [removeTemplate_run]
  obtain ⟨pieces, last, tail⟩ := d
  obtain ⟨h1, h2, h3⟩ := h
  unfold Cut.text Cut.kept
  dsimp only at *
  induction pieces with
  | nil =>
    simp only [List.flatMap_nil, List.nil_append]
    rcases h3 with rfl | ⟨h3, h4⟩
    · rw [List.append_nil]
      have := run_plain last [] [] (by simpa using h2)
      rw [List.append_nil] at this
      rw [this]
      rfl
    · exact run_tail h3 h4
  | cons p pieces ih =>
    obtain ⟨q, t⟩ := p
    have hq := h1 (q, t) (by simp)
    simp only [List.flatMap_cons, List.append_assoc]
    have hassoc : ∀ x : Str, q ++ (t ++ x) = q ++ t ++ x := by simp
    rw [hassoc, run_piece hq.1 hq.2]
    congr 1
    have := ih fun p hp => h1 p (by simp [hp])
    simpa using this

theorem noOpen_snoc_cases (s : Str) (c : Char) (h : NoOpen s) :
    NoOpen (s ++ [c]) ∨ ∃ a, s = a ++ ['{'] ∧ c = '{' := by
  by_cases hn : NoOpen (s ++ [c])
  · exact Or.inl hn
  · right
    unfold NoOpen at hn
    rw [not_not] at hn
    obtain ⟨a, b, hab⟩ := hn
    rcases List.eq_nil_or_concat b with rfl | ⟨b', x, rfl⟩
    · rw [List.append_nil] at hab
      have h2 : (a ++ ['{']) ++ ['{'] = s ++ [c] := by rw [← hab]; simp
      have h3 := List.append_inj_left' h2 rfl
      have h4 := List.append_inj_right' h2 rfl
      simp only [List.cons.injEq, and_true] at h4
      exact ⟨a, h3.symm, h4.symm⟩
    · exfalso
      apply h
      rw [List.concat_eq_append, ← List.append_assoc] at hab
      exact ⟨a, b', List.append_inj_left' hab rfl⟩

theorem plain_iff (p : Str) : Plain p ↔ NoOpen (p ++ ['{']) := by
  constructor
  · rintro ⟨h1, h2⟩
    rcases noOpen_snoc_cases p '{' h1 with h | ⟨a, rfl, _⟩
    · exact h
    · simp at h2
  · intro h
    refine ⟨noOpen_prefix h, ?_⟩
    intro hl
    obtain ⟨u, rfl⟩ := List.getLast?_eq_some_iff.1 hl
    exact h ⟨u, [], by simp⟩

theorem first_open (s : Str) (h : ¬ NoOpen s) : ∃ p r, s = p ++ '{' :: '{' :: r ∧ Plain p := by
  induction s using List.reverseRecOn with
  | nil =>
    exfalso
    apply h
    intro hi
    have := hi.length_le
    simp at this
  | append_singleton s c ih =>
    by_cases hs : NoOpen s
    · rcases noOpen_snoc_cases s c hs with hn | ⟨a, rfl, rfl⟩
      · exact absurd hn h
      · exact ⟨a, [], by simp, (plain_iff a).2 hs⟩
    · obtain ⟨p, r, hp, hpl⟩ := ih hs
      exact ⟨p, r ++ [c], by rw [hp]; simp, hpl⟩

theorem closes_or_not (r : Str) : ∀ d : Nat, 1 ≤ d →
    (∃ u r', r = u ++ r' ∧ u.count '}' = d + u.count '{' ∧
      ∀ v, v <+: u → v ≠ u → v.count '}' < d + v.count '{') ∨
    (∀ v, v <+: r → v.count '}' < d + v.count '{') := by
  induction r with
  | nil =>
    intro d hd
    right
    intro v hv
    rw [List.prefix_nil.1 hv]
    simp
    omega
  | cons c r ih =>
    intro d hd
    -- the number of open braces after the first letter
    by_cases hc : c = '{'
    · subst hc
      rcases ih (d + 1) (by omega) with ⟨u, r', hr, h1, h2⟩ | h
      · left
        refine ⟨'{' :: u, r', by rw [hr]; rfl, ?_, ?_⟩
        · simp
          omega
        · intro v hv hne
          cases v with
          | nil => simp; omega
          | cons a v =>
            obtain ⟨rfl, hw⟩ := List.cons_prefix_cons.1 hv
            have := h2 v hw (by simpa using hne)
            simp
            omega
      · right
        intro v hv
        cases v with
        | nil => simp; omega
        | cons a v =>
          obtain ⟨rfl, hw⟩ := List.cons_prefix_cons.1 hv
          have := h v hw
          simp
          omega
    · by_cases hc' : c = '}'
      · subst hc'
        by_cases hd1 : d = 1
        · left
          refine ⟨['}'], r, rfl, by simp [hd1], ?_⟩
          intro v hv hne
          cases v with
          | nil => simp; omega
          | cons a v =>
            obtain ⟨rfl, hw⟩ := List.cons_prefix_cons.1 hv
            rw [List.prefix_nil.1 hw] at hne
            exact absurd rfl hne
        · rcases ih (d - 1) (by omega) with ⟨u, r', hr, h1, h2⟩ | h
          · left
            refine ⟨'}' :: u, r', by rw [hr]; rfl, ?_, ?_⟩
            · simp
              omega
            · intro v hv hne
              cases v with
              | nil => simp; omega
              | cons a v =>
                obtain ⟨rfl, hw⟩ := List.cons_prefix_cons.1 hv
                have := h2 v hw (by simpa using hne)
                simp
                omega
          · right
            intro v hv
            cases v with
            | nil => simp; omega
            | cons a v =>
              obtain ⟨rfl, hw⟩ := List.cons_prefix_cons.1 hv
              have := h v hw
              simp
              omega
      · rcases ih d hd with ⟨u, r', hr, h1, h2⟩ | h
        · left
          refine ⟨c :: u, r', by rw [hr]; rfl, ?_, ?_⟩
          · simpa [List.count_cons, hc, hc'] using h1
          · intro v hv hne
            cases v with
            | nil => simp; omega
            | cons a v =>
              obtain ⟨rfl, hw⟩ := List.cons_prefix_cons.1 hv
              have := h2 v hw (by simpa using hne)
              simpa [List.count_cons, hc, hc'] using this
        · right
          intro v hv
          cases v with
          | nil => simp; omega
          | cons a v =>
            obtain ⟨rfl, hw⟩ := List.cons_prefix_cons.1 hv
            have := h v hw
            simpa [List.count_cons, hc, hc'] using this

theorem prefix_two {v u : Str} (h : v <+: '{' :: '{' :: u) :
    v = [] ∨ v = ['{'] ∨ ∃ w, v = '{' :: '{' :: w ∧ w <+: u := by
  cases v with
  | nil => exact Or.inl rfl
  | cons a v =>
    obtain ⟨rfl, h2⟩ := List.cons_prefix_cons.1 h
    cases v with
    | nil => exact Or.inr (Or.inl rfl)
    | cons b v =>
      obtain ⟨rfl, h3⟩ := List.cons_prefix_cons.1 h2
      exact Or.inr (Or.inr ⟨v, rfl, h3⟩)

/-- **C59.** Every text is made of such pieces. -/
theorem C59_every_text (s : Str) : ∃ d : Cut, d.Valid ∧ d.text = s := by
  generalize hn : s.length = n
  induction n using Nat.strongRecOn generalizing s with
  | _ n ih =>
    by_cases hs : NoOpen s
    · exact ⟨⟨[], s, []⟩, ⟨by simp, hs, Or.inl rfl⟩, by simp [Cut.text]⟩
    · obtain ⟨p, r, rfl, hp⟩ := first_open s hs
      rcases closes_or_not r 2 (by omega) with ⟨u, r', rfl, h1, h2⟩ | h
      · obtain ⟨d, hd, ht⟩ := ih r'.length (by rw [← hn]; simp; omega) r' rfl
        refine ⟨⟨(p, '{' :: '{' :: u) :: d.pieces, d.last, d.tail⟩, ⟨?_, hd.last, hd.tail⟩, ?_⟩
        · intro q hq
          rcases List.mem_cons.1 hq with rfl | hq
          · refine ⟨hp, ⟨u, rfl⟩, ?_, ?_⟩
            · simp
              omega
            · intro v hv hne hnt
              rcases prefix_two hv with rfl | rfl | ⟨w, rfl, hw⟩
              · exact absurd rfl hne
              · simp [Open]
              · have := h2 w hw (by simpa using hnt)
                unfold Open
                simp
                omega
          · exact hd.pieces q hq
        · rw [← ht]
          simp [Cut.text]
      · refine ⟨⟨[], p, '{' :: '{' :: r⟩, ⟨by simp, hp.1, Or.inr ⟨hp, ⟨r, rfl⟩, ?_⟩⟩, ?_⟩
        · intro v hv hne
          rcases prefix_two hv with rfl | rfl | ⟨w, rfl, hw⟩
          · exact absurd rfl hne
          · simp [Open]
          · have := h w hw
            unfold Open
            simp
            omega
        · simp [Cut.text]

theorem noOpen_append {p q : Str} (hp : Plain p) (hq : NoOpen q) : NoOpen (p ++ q) := by
  induction q using List.reverseRecOn with
  | nil => simpa using hp.1
  | append_singleton q c ih =>
    have ih := ih (noOpen_prefix hq)
    rw [← List.append_assoc]
    rcases noOpen_snoc_cases _ c ih with h | ⟨a, ha, rfl⟩
    · exact h
    · exfalso
      rcases List.eq_nil_or_concat q with rfl | ⟨q', x, rfl⟩
      · rw [List.append_nil] at ha
        exact hp.2 (by rw [ha]; simp)
      · rw [List.concat_eq_append, ← List.append_assoc] at ha
        have := List.append_inj_right' ha rfl
        simp only [List.cons.injEq, and_true] at this
        subst this
        exact hq ⟨q', [], by simp⟩

/-- **C59.** No `{{` is left, so that removing templates again changes nothing; and a text without
`{{` is not changed at all. -/
theorem C59_done (s : Str) :
    NoOpen (removeTemplate s) ∧ (NoOpen s → removeTemplate s = s) ∧
      removeTemplate (removeTemplate s) = removeTemplate s := by
  have hid : ∀ s : Str, NoOpen s → removeTemplate s = s := by
    intro s h
    have := C59_removes ⟨[], s, []⟩ ⟨by simp, h, Or.inl rfl⟩
    simpa [Cut.text, Cut.kept] using this
  have hno : NoOpen (removeTemplate s) := by
    obtain ⟨⟨pieces, last, tail⟩, ⟨h1, h2, h3⟩, rfl⟩ := C59_every_text s
    rw [C59_removes _ ⟨h1, h2, h3⟩]
    unfold Cut.kept
    dsimp only at *
    clear h3
    induction pieces with
    | nil => simpa using h2
    | cons p pieces ih =>
      rw [List.flatMap_cons, List.append_assoc]
      exact noOpen_append (h1 p (by simp)).1 (ih fun q hq => h1 q (by simp [hq]))
  exact ⟨hno, hid s, hid _ hno⟩

example : removeTemplate "a{{b{{c}}d}}e{f}{{x}}g".toList = "ae{f}g".toList := by decide +kernel
example : removeTemplate "a{{b}} {{c".toList = "a ".toList := by decide +kernel
example : removeTemplate "{{{x}}}y".toList = "y".toList := by decide +kernel
/-- A triple opening brace closed by two braces swallows the rest. -/
example : removeTemplate "a{{{b}} c".toList = "a".toList := by decide +kernel

/-- The hypotheses of `C59_removes` are met by a text with nesting and an unclosed template. -/
example : (⟨[("a".toList, "{{b{c}}}".toList)], "d".toList, "{{e".toList⟩ : Cut).text
    = "a{{b{c}}}d{{e".toList := by decide +kernel

end Verif.Wiki
