import Mathlib.Tactic.Common
import Mathlib.Data.List.Infix
import Verif.Py.Text

/-!
# Regular expressions of Python's `re`

A backtracking matcher: `Re.run r s` lists all ways in which `r` matches at the position `s`, in the order in which `re` tries
them, so that the match of `re` is the first one.
-/

namespace Verif.Regex
open Verif Verif.Text

/-- a position in a text: what is before it (reversed), what is behind it, and the groups that were captured, latest first -/
structure St where
  pre : Str
  rest : Str
  caps : List (Nat × Str)

/-- The expressions: one character of a class, nothing, the end of the text, sequence, alternative (`|`), repetition (`*`, or
`*?` if not greedy), group, look-ahead (`(?=)`, or `(?!)` if `neg`), and a condition on the text before, which is given
reversed (`(?<=)`, `^`). -/
inductive Re
  | chr (p : Char → Bool)
  | eps
  | fin
  | seq (a b : Re)
  | alt (a b : Re)
  | star (greedy : Bool) (r : Re)
  | cap (n : Nat) (r : Re)
  | ahead (neg : Bool) (r : Re)
  | behind (p : Str → Bool)

/-- repetition, at most `n` times; a round must consume something -/
def starN (f : St → List St) (greedy : Bool) : Nat → St → List St
  | 0, s => [s]
  | n + 1, s =>
    let more := ((f s).filter fun t => decide (t.rest.length < s.rest.length)).flatMap (starN f greedy n)
    if greedy then more ++ [s] else s :: more

def Re.run : Re → St → List St
  | .chr p, s =>
    match s.rest with
    | [] => []
    | c :: cs => if p c then [⟨c :: s.pre, cs, s.caps⟩] else []
  | .eps, s => [s]
  | .fin, s => if s.rest = [] then [s] else []
  | .seq a b, s => (a.run s).flatMap b.run
  | .alt a b, s => a.run s ++ b.run s
  | .star greedy r, s => starN r.run greedy s.rest.length s
  | .cap n r, s => (r.run s).map fun t => { t with caps := (n, s.rest.take (s.rest.length - t.rest.length)) :: t.caps }
  | .ahead neg r, s => if (r.run s).isEmpty = neg then [s] else []
  | .behind p, s => if p s.pre then [s] else []

/-- the text of a group, empty if it did not take part (as in `re.sub`) -/
def St.group (t : St) (n : Nat) : Str := (t.caps.lookup n).getD []

/-- `re.sub` at a position, with `n` steps to go.  Simplified: an empty match counts as none. -/
def subN (r : Re) (repl : St → Str) : Nat → Str → Str → Str
  | 0, _, rest => rest
  | _ + 1, _, [] => []
  | n + 1, pre, c :: cs =>
    match (r.run ⟨pre, c :: cs, []⟩).head? with
    | none => c :: subN r repl n (c :: pre) cs
    | some t => if t.rest.length < cs.length + 1 then repl t ++ subN r repl n t.pre t.rest else c :: subN r repl n (c :: pre) cs

/-- `re.sub(r, repl, s)` -/
def sub (r : Re) (repl : St → Str) (s : Str) : Str := subN r repl s.length [] s

/-- the matches of `re.finditer` at a position -/
def findN (r : Re) : Nat → Str → Str → List Str
  | 0, _, _ => []
  | _ + 1, _, [] => []
  | n + 1, pre, c :: cs =>
    match (r.run ⟨pre, c :: cs, []⟩).head? with
    | none => findN r n (c :: pre) cs
    | some t =>
      if t.rest.length < cs.length + 1 then (c :: cs).take (cs.length + 1 - t.rest.length) :: findN r n t.pre t.rest
      else findN r n (c :: pre) cs

/-- the texts of all matches, `re.finditer` -/
def finditer (r : Re) (s : Str) : List Str := findN r s.length [] s

/-! ### expressions -/

/-- one character -/
def ch (c : Char) : Re := .chr fun x => decide (x = c)
/-- a string -/
def lit : Str → Re
  | [] => .eps
  | c :: cs => .seq (ch c) (lit cs)
/-- `.` without `DOTALL` -/
def dot : Re := .chr fun x => decide (x ≠ '\n')
/-- `.` with `DOTALL` -/
def any : Re := .chr fun _ => true
/-- `r?` -/
def opt (r : Re) : Re := .alt r .eps
/-- `r{0,n}` -/
def upTo (r : Re) : Nat → Re
  | 0 => .eps
  | n + 1 => opt (.seq r (upTo r n))
/-- `r+` -/
def plus (r : Re) : Re := .seq r (.star true r)
/-- `$` without `MULTILINE` -/
def eol : Re := .ahead false (.alt .fin (.seq (ch '\n') .fin))
/-- `^` without `MULTILINE` -/
def bol : Re := .behind fun pre => pre.isEmpty
/-- an alternative of several expressions -/
def anyOf : List Re → Re
  | [] => .chr fun _ => false
  | [r] => r
  | r :: rs => .alt r (anyOf rs)

/-- a sequence of several expressions -/
def seqs : List Re → Re
  | [] => .eps
  | [r] => r
  | r :: rs => .seq r (seqs rs)

/-- a literal replacement -/
def const (x : Str) : St → Str := fun _ => x

/-- `s.replace(old, new)`: the same as substituting the literal expression -/
def replace (old new : Str) (s : Str) : Str := sub (lit old) (const new) s

/-! ### lemmas -/

/-- `t` is reached from `s` by consuming `u`, and captures only parts of it -/
structure Eats (s t : St) (u : Str) : Prop where
  rest : s.rest = u ++ t.rest
  pre : t.pre = u.reverse ++ s.pre
  caps : ∀ p ∈ t.caps, p ∈ s.caps ∨ p.2 <:+: u

theorem Eats.refl (s : St) : Eats s s [] := ⟨rfl, rfl, fun _ h => Or.inl h⟩

theorem Eats.trans {s t v : St} {a b : Str} (h1 : Eats s t a) (h2 : Eats t v b) : Eats s v (a ++ b) := by
  refine ⟨by rw [h1.rest, h2.rest, List.append_assoc], by rw [h2.pre, h1.pre, List.reverse_append, List.append_assoc], ?_⟩
  intro p hp
  rcases h2.caps p hp with h | h
  · rcases h1.caps p h with h | h
    · exact Or.inl h
    · exact Or.inr (h.trans (List.infix_append [] a b))
  · exact Or.inr (h.trans (List.suffix_append a b).isInfix)

theorem starN_eats (f : St → List St) (hf : ∀ s, ∀ t ∈ f s, ∃ u, Eats s t u) (g : Bool) (n : Nat) (s : St) :
    ∀ t ∈ starN f g n s, ∃ u, Eats s t u := by
  induction n generalizing s with
  | zero =>
    intro t ht
    rcases List.mem_singleton.1 ht with rfl
    exact ⟨[], Eats.refl _⟩
  | succ n ih =>
    intro t ht
    have : t = s ∨ t ∈ ((f s).filter fun t => decide (t.rest.length < s.rest.length)).flatMap (starN f g n) := by
      unfold starN at ht
      cases g with
      | true =>
        rcases List.mem_append.1 ht with h | h
        · exact Or.inr h
        · exact Or.inl (List.mem_singleton.1 h)
      | false =>
        rcases List.mem_cons.1 ht with h | h
        · exact Or.inl h
        · exact Or.inr h
    rcases this with rfl | h
    · exact ⟨[], Eats.refl _⟩
    · obtain ⟨v, hv, h⟩ := List.mem_flatMap.1 h
      obtain ⟨a, ha⟩ := hf s v (List.mem_filter.1 hv).1
      obtain ⟨b, hb⟩ := ih v t h
      exact ⟨a ++ b, ha.trans hb⟩

theorem run_eats (r : Re) (s t : St) (ht : t ∈ r.run s) : ∃ u, Eats s t u := by
  induction r generalizing s t with
  | chr p =>
    unfold Re.run at ht
    obtain ⟨pre, rest, caps⟩ := s
    cases rest with
    | nil => simp at ht
    | cons c cs =>
      dsimp only at ht
      split at ht
      · rcases List.mem_singleton.1 ht with rfl
        exact ⟨[c], rfl, rfl, fun _ h => Or.inl h⟩
      · simp at ht
  | eps =>
    rcases List.mem_singleton.1 ht with rfl
    exact ⟨[], Eats.refl _⟩
  | fin =>
    unfold Re.run at ht
    split at ht
    · rcases List.mem_singleton.1 ht with rfl
      exact ⟨[], Eats.refl _⟩
    · simp at ht
  | seq a b iha ihb =>
    obtain ⟨v, hv, h⟩ := List.mem_flatMap.1 ht
    obtain ⟨x, hx⟩ := iha s v hv
    obtain ⟨y, hy⟩ := ihb v t h
    exact ⟨x ++ y, hx.trans hy⟩
  | alt a b iha ihb =>
    rcases List.mem_append.1 ht with h | h
    · exact iha s t h
    · exact ihb s t h
  | star g r ih => exact starN_eats r.run (fun s t h => ih s t h) g _ s t ht
  | cap n r ih =>
    obtain ⟨v, hv, rfl⟩ := List.mem_map.1 ht
    obtain ⟨u, hu⟩ := ih s v hv
    refine ⟨u, hu.rest, hu.pre, ?_⟩
    intro p hp
    rcases List.mem_cons.1 hp with rfl | hp
    · right
      have : s.rest.take (s.rest.length - v.rest.length) = u := by
        rw [hu.rest, List.length_append, Nat.add_sub_cancel, List.take_left]
      simp only [this]
      exact List.infix_refl u
    · exact hu.caps p hp
  | ahead neg r ih =>
    unfold Re.run at ht
    split at ht
    · rcases List.mem_singleton.1 ht with rfl
      exact ⟨[], Eats.refl _⟩
    · simp at ht
  | behind p =>
    unfold Re.run at ht
    split at ht
    · rcases List.mem_singleton.1 ht with rfl
      exact ⟨[], Eats.refl _⟩
    · simp at ht

theorem lookup_mem (l : List (Nat × Str)) (n : Nat) (x : Str) (h : l.lookup n = some x) : (n, x) ∈ l := by
  induction l with
  | nil => simp at h
  | cons p l ih =>
    obtain ⟨k, v⟩ := p
    rw [List.lookup_cons] at h
    by_cases e : n = k
    · subst e
      simp at h
      simp [h]
    · rw [show (n == k) = false by simpa using e] at h
      exact List.mem_cons_of_mem _ (ih h)

/-- a group is a part of what was matched -/
theorem group_sublist (r : Re) (s t : St) (hs : s.caps = []) (u : Str) (hu : Eats s t u) (n : Nat) : (t.group n).Sublist u := by
  unfold St.group
  cases h : t.caps.lookup n with
  | none => simp
  | some x =>
    rcases hu.caps _ (lookup_mem _ _ _ h) with h | h
    · rw [hs] at h; simp at h
    · exact h.sublist

/-- substituting keeps the order of the characters that the replacements do not add -/
theorem subN_filter (r : Re) (repl : St → Str) (q : Char → Bool)
    (h : ∀ pre rest t u, t ∈ r.run ⟨pre, rest, []⟩ → Eats ⟨pre, rest, []⟩ t u → ((repl t).filter q).Sublist (u.filter q))
    (n : Nat) (pre rest : Str) : ((subN r repl n pre rest).filter q).Sublist (rest.filter q) := by
  induction n generalizing pre rest with
  | zero => exact List.Sublist.refl _
  | succ n ih =>
    cases rest with
    | nil => simp [subN]
    | cons c cs =>
      have hskip : ((c :: subN r repl n (c :: pre) cs).filter q).Sublist ((c :: cs).filter q) := by
        rw [List.filter_cons, List.filter_cons]
        split
        · exact (ih (c :: pre) cs).cons_cons c
        · exact ih (c :: pre) cs
      unfold subN
      cases hh : (r.run ⟨pre, c :: cs, []⟩).head? with
      | none => exact hskip
      | some t =>
        dsimp only
        split
        · have ht := List.mem_of_head? hh
          obtain ⟨u, hu⟩ := run_eats r _ t ht
          rw [List.filter_append]
          have := h pre (c :: cs) t u ht hu
          have e : (c :: cs) = u ++ t.rest := hu.rest
          rw [e, List.filter_append]
          exact this.append (ih _ _)
        · exact hskip

theorem sub_filter (r : Re) (repl : St → Str) (q : Char → Bool)
    (h : ∀ pre rest t u, t ∈ r.run ⟨pre, rest, []⟩ → Eats ⟨pre, rest, []⟩ t u → ((repl t).filter q).Sublist (u.filter q))
    (s : Str) : ((sub r repl s).filter q).Sublist (s.filter q) := subN_filter r repl q h _ _ _

theorem sub_const_filter (r : Re) (x : Str) (q : Char → Bool) (hx : x.filter q = []) (s : Str) :
    ((sub r (const x) s).filter q).Sublist (s.filter q) := by
  apply sub_filter
  intro pre rest t u _ _
  simp [const, hx]

theorem sub_group_filter (r : Re) (n : Nat) (q : Char → Bool) (s : Str) :
    ((sub r (fun t => t.group n) s).filter q).Sublist (s.filter q) := by
  apply sub_filter
  intro pre rest t u _ hu
  exact (group_sublist r _ t rfl u hu n).filter q

/-- the characters of a position where nothing matches are copied -/
theorem subN_skip (r : Re) (repl : St → Str) (n : Nat) (pre : Str) (c : Char) (cs : Str) (h : r.run ⟨pre, c :: cs, []⟩ = []) :
    subN r repl (n + 1) pre (c :: cs) = c :: subN r repl n (c :: pre) cs := by
  rw [subN, h]
  rfl

/-- if nothing matches in the first part of a text, it is copied -/
theorem subN_prefix (r : Re) (repl : St → Str) (a b : Str) (n : Nat) (pre : Str)
    (h : ∀ x y : Str, a = x ++ y → y ≠ [] → r.run ⟨x.reverse ++ pre, y ++ b, []⟩ = []) :
    subN r repl (a.length + n) pre (a ++ b) = a ++ subN r repl n (a.reverse ++ pre) b := by
  induction a generalizing pre with
  | nil => simp
  | cons c a ih =>
    rw [List.cons_append, show (c :: a).length + n = (a.length + n) + 1 by simp; omega, subN_skip, ih]
    · simp
    · intro x y e hy
      have := h (c :: x) y (by rw [e]; rfl) hy
      simpa using this
    · exact h [] (c :: a) rfl (by simp)

/-- if nothing matches anywhere, nothing changes -/
theorem sub_none (r : Re) (repl : St → Str) (s : Str)
    (h : ∀ x y : Str, s = x ++ y → y ≠ [] → r.run ⟨x.reverse, y, []⟩ = []) : sub r repl s = s := by
  unfold sub
  have := subN_prefix r repl s [] 0 [] (by intro x y e hy; simpa using h x y e hy)
  simpa [subN] using this

/-- one match, in the middle of a text -/
theorem sub_one (r : Re) (repl : St → Str) (a m b : Str) (hm : m ≠ []) (v : Str)
    (ha : ∀ x y : Str, a = x ++ y → y ≠ [] → r.run ⟨x.reverse, y ++ (m ++ b), []⟩ = [])
    (h : ∃ t, (r.run ⟨a.reverse, m ++ b, []⟩).head? = some t ∧ t.rest = b ∧ t.pre = (a ++ m).reverse ∧ repl t = v)
    (hb : ∀ x y : Str, b = x ++ y → y ≠ [] → r.run ⟨(a ++ m ++ x).reverse, y, []⟩ = []) : sub r repl (a ++ (m ++ b)) = a ++ (v ++ b) := by
  unfold sub
  rw [show (a ++ (m ++ b)).length = a.length + (m ++ b).length by simp,
    subN_prefix r repl a (m ++ b) _ [] (by intro x y e hy; simpa using ha x y e hy)]
  congr 1
  obtain ⟨t, h1, h2, h3, h4⟩ := h
  cases m with
  | nil => exact absurd rfl hm
  | cons c m =>
    rw [List.cons_append, List.length_cons, subN]
    rw [List.cons_append] at h1
    rw [List.append_nil, h1]
    dsimp only
    rw [if_pos (by rw [h2]; simp; omega), h4, h2, h3]
    congr 1
    have : (m ++ b).length = b.length + m.length := by simp; omega
    rw [this]
    have := subN_prefix r repl b [] m.length (a ++ c :: m).reverse (by
      intro x y e hy
      have := hb x y e hy
      simpa using this)
    simp only [List.append_nil] at this
    rw [this]
    cases m.length <;> simp [subN]

/-! ### membership -/

theorem mem_chr (p : Char → Bool) (s t : St) :
    t ∈ (Re.chr p).run s ↔ ∃ c, p c = true ∧ s.rest = c :: t.rest ∧ t.pre = c :: s.pre ∧ t.caps = s.caps := by
  obtain ⟨pre, rest, caps⟩ := s
  obtain ⟨pre', rest', caps'⟩ := t
  unfold Re.run
  cases rest with
  | nil => simp
  | cons c cs =>
    dsimp only
    constructor
    · intro h
      split at h
      · rename_i hp
        have := List.mem_singleton.1 h
        injection this with h1 h2 h3
        exact ⟨c, hp, by rw [h2], h1, h3⟩
      · simp at h
    · rintro ⟨d, hp, h1, h2, h3⟩
      injection h1 with h1 h4
      subst h1
      rw [if_pos hp, h2, h3, h4]
      simp

theorem mem_seq (a b : Re) (s t : St) : t ∈ (Re.seq a b).run s ↔ ∃ v ∈ a.run s, t ∈ b.run v := List.mem_flatMap

theorem mem_alt (a b : Re) (s t : St) : t ∈ (Re.alt a b).run s ↔ t ∈ a.run s ∨ t ∈ b.run s := List.mem_append

theorem mem_cap (n : Nat) (r : Re) (s t : St) : t ∈ (Re.cap n r).run s ↔
    ∃ v ∈ r.run s, t = { v with caps := (n, s.rest.take (s.rest.length - v.rest.length)) :: v.caps } := by
  constructor
  · intro h
    obtain ⟨v, h1, h2⟩ := List.mem_map.1 h
    exact ⟨v, h1, h2.symm⟩
  · rintro ⟨v, h1, h2⟩; exact List.mem_map.2 ⟨v, h1, h2.symm⟩

theorem starN_chr (p : Char → Bool) (g : Bool) (n : Nat) (s t : St) (hn : s.rest.length ≤ n) :
    t ∈ starN (Re.chr p).run g n s ↔ ∃ u : Str, (∀ c ∈ u, p c = true) ∧ s.rest = u ++ t.rest ∧ t.pre = u.reverse ++ s.pre ∧ t.caps = s.caps := by
  induction n generalizing s with
  | zero =>
    have : s.rest = [] := List.length_eq_zero_iff.1 (Nat.le_zero.1 hn)
    simp only [starN, List.mem_singleton]
    constructor
    · rintro rfl; exact ⟨[], by simp, rfl, rfl, rfl⟩
    · rintro ⟨u, _, h1, h2, h3⟩
      rw [this] at h1
      obtain ⟨rfl, h4⟩ := List.append_eq_nil_iff.1 h1.symm
      obtain ⟨a, b, c⟩ := s
      obtain ⟨a', b', c'⟩ := t
      dsimp only at this h2 h3 h4
      rw [this, h2, h3, h4]
      rfl
  | succ n ih =>
    have hmem : t ∈ starN (Re.chr p).run g (n + 1) s ↔
        t = s ∨ t ∈ (((Re.chr p).run s).filter fun t => decide (t.rest.length < s.rest.length)).flatMap (starN (Re.chr p).run g n) := by
      unfold starN
      cases g with
      | true => simp only [if_true, List.mem_append, List.mem_singleton]; exact or_comm
      | false => simp only [Bool.false_eq_true, if_false, List.mem_cons]
    rw [hmem]
    constructor
    · rintro (rfl | h)
      · exact ⟨[], by simp, rfl, rfl, rfl⟩
      · obtain ⟨v, hv, h⟩ := List.mem_flatMap.1 h
        obtain ⟨c, h1, h2, h3, h4⟩ := (mem_chr p s v).1 (List.mem_filter.1 hv).1
        obtain ⟨u, h5, h6, h7, h8⟩ := (ih v (by rw [h2] at hn; simp at hn; omega)).1 h
        refine ⟨c :: u, ?_, by rw [h2, h6]; rfl, by rw [h7, h3]; simp, by rw [h8, h4]⟩
        intro x hx
        rcases List.mem_cons.1 hx with rfl | hx
        · exact h1
        · exact h5 x hx
    · rintro ⟨u, h1, h2, h3, h4⟩
      cases u with
      | nil =>
        left
        obtain ⟨a, b, c⟩ := s
        obtain ⟨a', b', c'⟩ := t
        simp_all
      | cons c u =>
        right
        refine List.mem_flatMap.2 ⟨⟨c :: s.pre, u ++ t.rest, s.caps⟩, List.mem_filter.2 ⟨?_, ?_⟩, ?_⟩
        · exact (mem_chr p s _).2 ⟨c, h1 c (by simp), h2, rfl, rfl⟩
        · rw [h2]; simp
        · refine (ih _ ?_).2 ⟨u, fun x hx => h1 x (by simp [hx]), rfl, by rw [h3]; simp, h4⟩
          rw [h2] at hn
          simp at hn ⊢
          omega

theorem mem_star_chr (p : Char → Bool) (g : Bool) (s t : St) : t ∈ (Re.star g (.chr p)).run s ↔
    ∃ u : Str, (∀ c ∈ u, p c = true) ∧ s.rest = u ++ t.rest ∧ t.pre = u.reverse ++ s.pre ∧ t.caps = s.caps :=
  starN_chr p g _ s t (Nat.le_refl _)

theorem mem_lit (w : Str) (s t : St) : t ∈ (lit w).run s ↔ s.rest = w ++ t.rest ∧ t.pre = w.reverse ++ s.pre ∧ t.caps = s.caps := by
  induction w generalizing s with
  | nil =>
    unfold lit Re.run
    rw [List.mem_singleton]
    obtain ⟨a, b, c⟩ := s
    obtain ⟨a', b', c'⟩ := t
    simp only [St.mk.injEq, List.nil_append, List.reverse_nil]
    constructor
    · rintro ⟨h1, h2, h3⟩; exact ⟨h2.symm, h1, h3⟩
    · rintro ⟨h1, h2, h3⟩; exact ⟨h2, h1.symm, h3⟩
  | cons c w ih =>
    rw [lit, mem_seq]
    constructor
    · rintro ⟨v, hv, ht⟩
      obtain ⟨d, h1, h2, h3, h4⟩ := (mem_chr _ s v).1 hv
      obtain ⟨h5, h6, h7⟩ := (ih v).1 ht
      have : d = c := by simpa using h1
      subst this
      exact ⟨by rw [h2, h5]; rfl, by rw [h6, h3]; simp, by rw [h7, h4]⟩
    · rintro ⟨h1, h2, h3⟩
      exact ⟨⟨c :: s.pre, w ++ t.rest, s.caps⟩, (mem_chr _ s _).2 ⟨c, by simp, h1, rfl, rfl⟩, (ih _).2 ⟨rfl, by rw [h2]; simp, h3⟩⟩

/-- an expression that begins with a character of a class does not match elsewhere -/
theorem run_head (p : Char → Bool) (r : Re) (s : St) (h : ∀ c, s.rest.head? = some c → p c = false) :
    (Re.seq (.chr p) r).run s = [] := by
  unfold Re.run
  have : (Re.chr p).run s = [] := by
    rw [List.eq_nil_iff_forall_not_mem]
    intro t ht
    obtain ⟨c, h1, h2, _⟩ := (mem_chr p s t).1 ht
    rw [h c (by rw [h2]; rfl)] at h1
    cases h1
  rw [this]
  rfl

/-- every match begins with a character of the class -/
def Starts (r : Re) (p : Char → Bool) : Prop := ∀ s t, t ∈ r.run s → ∃ c cs, s.rest = c :: cs ∧ p c = true

theorem starts_chr (p : Char → Bool) : Starts (.chr p) p := by
  intro s t h
  obtain ⟨c, h1, h2, _⟩ := (mem_chr p s t).1 h
  exact ⟨c, _, h2, h1⟩

theorem starts_seq {a : Re} {p : Char → Bool} (h : Starts a p) (b : Re) : Starts (.seq a b) p := by
  intro s t ht
  obtain ⟨v, hv, _⟩ := (mem_seq a b s t).1 ht
  exact h s v hv

theorem starts_alt {a b : Re} {p : Char → Bool} (ha : Starts a p) (hb : Starts b p) : Starts (.alt a b) p := by
  intro s t ht
  rcases (mem_alt a b s t).1 ht with h | h
  · exact ha s t h
  · exact hb s t h

theorem starts_lit (c : Char) (w : Str) : Starts (lit (c :: w)) (fun x => decide (x = c)) := starts_seq (starts_chr _) _

theorem starts_mono {r : Re} {p q : Char → Bool} (h : Starts r p) (hpq : ∀ c, p c = true → q c = true) : Starts r q := by
  intro s t ht
  obtain ⟨c, cs, h1, h2⟩ := h s t ht
  exact ⟨c, cs, h1, hpq c h2⟩

theorem starts_nil {r : Re} {p : Char → Bool} (h : Starts r p) (pre : Str) (rest : Str) (caps : List (Nat × Str))
    (hr : ∀ c cs, rest = c :: cs → p c = false) : r.run ⟨pre, rest, caps⟩ = [] := by
  rw [List.eq_nil_iff_forall_not_mem]
  intro t ht
  obtain ⟨c, cs, h1, h2⟩ := h _ t ht
  rw [hr c cs h1] at h2
  cases h2

theorem sub_starts {r : Re} {p : Char → Bool} (h : Starts r p) (repl : St → Str) (s : Str) (hs : ∀ c ∈ s, p c = false) :
    sub r repl s = s := by
  apply sub_none
  intro x y e _
  apply starts_nil h
  intro c cs hy
  apply hs
  rw [e, hy]
  simp

/-- every match needs one of these strings in what follows -/
def Needs (r : Re) (ws : List Str) : Prop := ∀ s t, t ∈ r.run s → ∃ w ∈ ws, w <:+: s.rest

theorem needs_lit (w : Str) (ws : List Str) (h : w ∈ ws) : Needs (lit w) ws := by
  intro s t ht
  exact ⟨w, h, by rw [((mem_lit w s t).1 ht).1]; exact (List.prefix_append _ _).isInfix⟩

theorem needs_left {a : Re} {ws : List Str} (h : Needs a ws) (b : Re) : Needs (.seq a b) ws := by
  intro s t ht
  obtain ⟨v, hv, _⟩ := (mem_seq a b s t).1 ht
  exact h s v hv

theorem needs_right {b : Re} {ws : List Str} (h : Needs b ws) (a : Re) : Needs (.seq a b) ws := by
  intro s t ht
  obtain ⟨v, hv, hb⟩ := (mem_seq a b s t).1 ht
  obtain ⟨w, hw, hi⟩ := h v t hb
  obtain ⟨u, hu⟩ := run_eats a s v hv
  refine ⟨w, hw, hi.trans ?_⟩
  rw [hu.rest]
  exact (List.suffix_append _ _).isInfix

theorem needs_alt {a b : Re} {ws : List Str} (ha : Needs a ws) (hb : Needs b ws) : Needs (.alt a b) ws := by
  intro s t ht
  rcases (mem_alt a b s t).1 ht with h | h
  · exact ha s t h
  · exact hb s t h

theorem sub_needs {r : Re} {ws : List Str} (h : Needs r ws) (repl : St → Str) (s : Str) (hs : ∀ w ∈ ws, ¬ w <:+: s) :
    sub r repl s = s := by
  apply sub_none
  intro x y e _
  rw [List.eq_nil_iff_forall_not_mem]
  intro t ht
  obtain ⟨w, hw, hi⟩ := h _ t ht
  refine hs w hw (hi.trans ?_)
  rw [e]
  exact (List.suffix_append _ _).isInfix

/-- a lazy repetition takes as little as possible -/
theorem lazyN_head (p : Char → Bool) (r : Re) (u : Str) (n : Nat) (hn : u.length ≤ n) (pre v : Str) (caps : List (Nat × Str))
    (hu : ∀ c ∈ u, p c = true) (h0 : ∀ x y : Str, u = x ++ y → y ≠ [] → r.run ⟨x.reverse ++ pre, y ++ v, caps⟩ = [])
    (h1 : r.run ⟨u.reverse ++ pre, v, caps⟩ ≠ []) :
    ((starN (Re.chr p).run false n ⟨pre, u ++ v, caps⟩).flatMap r.run).head? = (r.run ⟨u.reverse ++ pre, v, caps⟩).head? := by
  induction u generalizing n pre with
  | nil =>
    have : ∃ l, starN (Re.chr p).run false n ⟨pre, v, caps⟩ = ⟨pre, v, caps⟩ :: l := by
      cases n with
      | zero => exact ⟨[], rfl⟩
      | succ n => exact ⟨_, rfl⟩
    obtain ⟨l, hl⟩ := this
    rw [List.nil_append, hl, List.flatMap_cons, List.head?_append]
    simp only [List.reverse_nil, List.nil_append] at h1 ⊢
    cases hh : r.run ⟨pre, v, caps⟩ with
    | nil => exact absurd hh h1
    | cons a b => rfl
  | cons c u ih =>
    cases n with
    | zero => simp at hn
    | succ n =>
      have e0 := h0 [] (c :: u) rfl (by simp)
      simp only [List.reverse_nil, List.nil_append] at e0
      have hone : (Re.chr p).run ⟨pre, c :: u ++ v, caps⟩ = [⟨c :: pre, u ++ v, caps⟩] := by
        rw [List.cons_append]
        unfold Re.run
        dsimp only
        rw [if_pos (hu c (by simp))]
      unfold starN
      rw [hone]
      simp only [Bool.false_eq_true, if_false, List.flatMap_cons]
      rw [e0, List.nil_append]
      rw [List.filter_cons_of_pos (by simp), List.filter_nil, List.flatMap_cons, List.flatMap_nil, List.append_nil]
      rw [ih n (by simpa using hn) (c :: pre) (fun x hx => hu x (by simp [hx]))]
      · simp
      · intro x y e hy
        have := h0 (c :: x) y (by rw [e]; rfl) hy
        simpa using this
      · simpa using h1

theorem lazy_head (p : Char → Bool) (r : Re) (u : Str) (pre v : Str) (caps : List (Nat × Str))
    (hu : ∀ c ∈ u, p c = true) (h0 : ∀ x y : Str, u = x ++ y → y ≠ [] → r.run ⟨x.reverse ++ pre, y ++ v, caps⟩ = [])
    (h1 : r.run ⟨u.reverse ++ pre, v, caps⟩ ≠ []) :
    ((Re.seq (.star false (.chr p)) r).run ⟨pre, u ++ v, caps⟩).head? = (r.run ⟨u.reverse ++ pre, v, caps⟩).head? :=
  lazyN_head p r u _ (by simp) pre v caps hu h0 h1

/-- a literal in front -/
theorem lit_run (w : Str) (pre v : Str) (caps : List (Nat × Str)) :
    (lit w).run ⟨pre, w ++ v, caps⟩ = [⟨w.reverse ++ pre, v, caps⟩] := by
  induction w generalizing pre with
  | nil => rfl
  | cons c w ih =>
    have hone : (ch c).run ⟨pre, c :: w ++ v, caps⟩ = [⟨c :: pre, w ++ v, caps⟩] := by
      rw [List.cons_append]
      unfold ch Re.run
      dsimp only
      rw [if_pos (by simp)]
    rw [lit, Re.run, hone, List.flatMap_cons, List.flatMap_nil, List.append_nil, ih]
    simp

theorem lit_seq_run (w : Str) (r : Re) (pre v : Str) (caps : List (Nat × Str)) :
    (Re.seq (lit w) r).run ⟨pre, w ++ v, caps⟩ = r.run ⟨w.reverse ++ pre, v, caps⟩ := by
  rw [Re.run, lit_run, List.flatMap_cons, List.flatMap_nil, List.append_nil]

/-- a match that all results agree on -/
theorem head_of_all (l : List St) (P : St → Prop) (hne : l ≠ []) (h : ∀ t ∈ l, P t) : ∃ t, l.head? = some t ∧ P t := by
  cases l with
  | nil => exact absurd rfl hne
  | cons a l => exact ⟨a, rfl, h a (by simp)⟩

theorem run_nil_of (r : Re) (s : St) (h : ∀ t, t ∉ r.run s) : r.run s = [] := List.eq_nil_iff_forall_not_mem.2 h

end Verif.Regex
