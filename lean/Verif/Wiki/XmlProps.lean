import Verif.Wiki.XmlModel
import Mathlib.Tactic.ByContra
import Mathlib.Data.List.Forall2

/-!
# C156: reading pages from the XML of a dump
-/

namespace Verif.Wiki.Xml
open Verif Text

/-! ### Specification -/

mutual
/-- An element, written out. -/
def Elem.toks : Elem → List Tok
  | .mk t s ks => .open t :: ((s.map Tok.text).toList ++ (toksL ks ++ [.close]))
/-- Elements, written out one after the other. -/
def toksL : List Elem → List Tok
  | [] => []
  | k :: ks => k.toks ++ toksL ks
end

mutual
/-- The pages in an element, in the order of the document. -/
def Elem.pages (ns : Str) : Elem → List Elem
  | .mk t s ks => if t = ⟨ns, "page".toList⟩ then [.mk t s ks] else pagesL ns ks
/-- The pages in a list of elements. -/
def pagesL (ns : Str) : List Elem → List Elem
  | [] => []
  | k :: ks => k.pages ns ++ pagesL ns ks
end

/-- No page contains a page. -/
def Flat (ns : Str) (l : List Elem) : Prop := ∀ p ∈ l, pagesL ns p.kids = []

/-- The tag of the element that ends first. -/
def Elem.first : Elem → Tag
  | .mk t _ [] => t
  | .mk _ _ (k :: _) => k.first

/-- A namespace of MediaWiki dumps. -/
def IsDumpNamespace (ns : Str) : Prop := ∃ v, ns = "http://www.mediawiki.org/xml/export-".toList ++ v

/-- `k` is the first member of a list with some property. -/
def First {α : Type} (p : α → Prop) (l : List α) (k : α) : Prop :=
  ∃ pre post, l = pre ++ k :: post ∧ p k ∧ ∀ q ∈ pre, ¬ p q

/-- The children of the children of an element, with the child they are in, in the order of the document. -/
def grandchildren (e : Elem) : List (Elem × Elem) := e.kids.flatMap fun r => r.kids.map fun k => (r, k)

/-- What is to be read from a page: title, text and id; the text is that of the first revision that has one, and is
empty if the page is filtered out. -/
structure Reads (namespaces : List Str) (accept : Option (Elem → Option Str → Option Str → Bool)) (ns : Str) (e : Elem)
    (out : Option Str × Str × Option Str) : Prop where
  title : ∃ k, First (fun k : Elem => k.tag = ⟨ns, "title".toList⟩) e.kids k ∧ out.1 = k.text
  id : ∃ k, First (fun k : Elem => k.tag = ⟨ns, "id".toList⟩) e.kids k ∧ out.2.2 = k.text
  text : ∃ q, First (fun q : Elem × Elem => q.1.tag = ⟨ns, "revision".toList⟩ ∧ q.2.tag = ⟨ns, "text".toList⟩)
      (grandchildren e) q ∧
    ((namespaces ≠ [] → ∃ k, First (fun k : Elem => k.tag = ⟨ns, "ns".toList⟩) e.kids k) ∧
      ∃ kept : Option Str,
        (kept = q.2.text ∧ (namespaces = [] ∨ ∃ k n, First (fun k : Elem => k.tag = ⟨ns, "ns".toList⟩) e.kids k ∧
          k.text = some n ∧ n ∈ namespaces) ∨
         kept = none ∧ namespaces ≠ [] ∧ ∃ k, First (fun k : Elem => k.tag = ⟨ns, "ns".toList⟩) e.kids k ∧
          ∀ n ∈ namespaces, k.text ≠ some n) ∧
        ((∀ f, accept = some f → f e out.1 kept = true) ∧ out.2.1 = kept.getD [] ∨
         (∃ f, accept = some f ∧ f e out.1 kept = false) ∧ out.2.1 = []))

/-- What a loop over pages yields, and how it ends, if what happens after the pages is `k`. -/
def serve {α : Type} (handle : Elem → Except Err α) : List Elem → List α × Option Err → List α × Option Err
  | [], k => k
  | p :: ps, k =>
    match handle p with
    | .error e => ([], some e)
    | .ok a => (a :: (serve handle ps k).1, (serve handle ps k).2)

/-! ### Proofs -/

mutual
/-- An element without the contents of its pages. -/
def Elem.cleared (ns : Str) : Elem → Elem
  | .mk t s ks => if t = ⟨ns, "page".toList⟩ then .mk t none [] else .mk t s (clearedL ns ks)
/-- Elements without the contents of their pages. -/
def clearedL (ns : Str) : List Elem → List Elem
  | [] => []
  | k :: ks => k.cleared ns :: clearedL ns ks
end

mutual
theorem cleared_self (ns : Str) : ∀ e : Elem, e.pages ns = [] → e.cleared ns = e
  | .mk t s ks => by
    intro h
    unfold Elem.pages at h
    unfold Elem.cleared
    split at h
    · cases h
    next hn =>
      rw [if_neg hn, clearedL_self ns ks h]
theorem clearedL_self (ns : Str) : ∀ l : List Elem, pagesL ns l = [] → clearedL ns l = l
  | [] => fun _ => rfl
  | k :: ks => by
    intro h
    unfold pagesL at h
    obtain ⟨h1, h2⟩ := List.append_eq_nil_iff.1 h
    unfold clearedL
    rw [cleared_self ns k h1, clearedL_self ns ks h2]
end

variable {α : Type} (handle : Str → Elem → Except Err α)

theorem serve_append (h : Elem → Except Err α) (l l' : List Elem) (k) :
    serve h (l ++ l') k = serve h l (serve h l' k) := by
  induction l with
  | nil => rfl
  | cons p l ih =>
    simp only [List.cons_append, serve]
    rw [ih]

/-- The end of an element whose children have been read. -/
theorem loop_close (ns : Str) (t : Tag) (s : Option Str) (ks : List Elem) (st : Stack) (rest : List Tok)
    (hf : Flat ns (Elem.pages ns (.mk t s ks)))
    (r : List Tok → List α × Option Err)
    (hr : r (.close :: rest) = serve (handle ns) (pagesL ns ks)
      (loop handle (some ns) (⟨t, s, (clearedL ns ks).reverse⟩ :: st) (.close :: rest))) :
    r (.close :: rest) = serve (handle ns) (Elem.pages ns (.mk t s ks))
      (loop handle (some ns) (attach (Elem.cleared ns (.mk t s ks)) st) rest) := by
  rw [hr]
  unfold Elem.pages at hf ⊢
  unfold Elem.cleared
  by_cases ht : t = ⟨ns, "page".toList⟩
  · rw [if_pos ht] at hf ⊢
    have hks : pagesL ns ks = [] := hf _ List.mem_cons_self
    rw [if_pos ht, hks, clearedL_self ns ks hks]
    simp only [serve]
    conv_lhs => unfold loop
    have e1 : (Elem.mk t s ks).tag = t := rfl
    have : t = pageTag ns := ht
    simp only [List.reverse_reverse, e1, clear]
    rw [if_pos this]
    cases handle ns (Elem.mk t s ks) <;> rfl
  · rw [if_neg ht, if_neg ht]
    congr 1
    conv_lhs => unfold loop
    have : ¬ (Elem.mk t s (clearedL ns ks)).tag = pageTag ns := ht
    simp only [List.reverse_reverse, this, if_false]

/-- The start of an element and its text. -/
theorem loop_open (ns : Option Str) (t : Tag) (s : Option Str) (st : Stack) (rest : List Tok) :
    loop handle ns st (.open t :: ((s.map Tok.text).toList ++ rest)) = loop handle ns (⟨t, s, []⟩ :: st) rest := by
  rcases s with _ | s
  · simp only [Option.map_none, Option.toList_none, List.nil_append]
    conv_lhs => unfold loop
  · simp only [Option.map_some, Option.toList_some, List.singleton_append]
    conv_lhs => unfold loop
    conv_lhs => unfold loop
    simp [addText]

mutual
theorem loop_elem (ns : Str) : ∀ (e : Elem) (st : Stack) (rest : List Tok), Flat ns (e.pages ns) →
    loop handle (some ns) st (e.toks ++ rest)
      = serve (handle ns) (e.pages ns) (loop handle (some ns) (attach (e.cleared ns) st) rest)
  | .mk t s ks, st, rest => by
    intro hf
    unfold Elem.toks
    simp only [List.cons_append, List.append_assoc, List.nil_append]
    rw [loop_open]
    refine loop_close handle ns t s ks st rest hf (fun l => loop handle (some ns) (⟨t, s, []⟩ :: st) (toksL ks ++ l)) ?_
    have hks : Flat ns (pagesL ns ks) := by
      unfold Elem.pages at hf
      by_cases ht : t = ⟨ns, "page".toList⟩
      · rw [if_pos ht] at hf
        have : pagesL ns ks = [] := hf _ List.mem_cons_self
        rw [this]
        intro p hp
        cases hp
      · rwa [if_neg ht] at hf
    have := loop_list ns ks ⟨t, s, []⟩ st (.close :: rest) hks
    simpa using this
theorem loop_list (ns : Str) : ∀ (ks : List Elem) (f : Frame) (st : Stack) (rest : List Tok), Flat ns (pagesL ns ks) →
    loop handle (some ns) (f :: st) (toksL ks ++ rest)
      = serve (handle ns) (pagesL ns ks)
        (loop handle (some ns) ({ f with kids := (clearedL ns ks).reverse ++ f.kids } :: st) rest)
  | [], f, st, rest => by
    intro _
    simp [toksL, pagesL, clearedL, serve]
  | k :: ks, f, st, rest => by
    intro hf
    unfold toksL pagesL clearedL
    have h1 : Flat ns (k.pages ns) := fun p hp => hf p (by unfold pagesL; exact List.mem_append_left _ hp)
    have h2 : Flat ns (pagesL ns ks) := fun p hp => hf p (by unfold pagesL; exact List.mem_append_right _ hp)
    rw [List.append_assoc, loop_elem ns k _ _ h1, serve_append]
    congr 1
    unfold attach
    rw [loop_list ns ks _ st rest h2]
    simp
end

/-- The same before the namespace is known. -/
theorem loop_first (ns : Str) : ∀ (e : Elem) (st : Stack) (rest : List Tok), Flat ns (e.pages ns) →
    getNamespace e.first = .ok ns → e.first ≠ ⟨ns, "page".toList⟩ →
    loop handle none st (e.toks ++ rest)
      = serve (handle ns) (e.pages ns) (loop handle (some ns) (attach (e.cleared ns) st) rest)
  | .mk t s [], st, rest => by
    intro _ hg ht
    simp only [Elem.first] at hg ht
    unfold Elem.toks
    simp only [List.cons_append, List.append_assoc, List.nil_append, toksL]
    rw [loop_open]
    conv_lhs => unfold loop
    unfold Elem.pages Elem.cleared
    rw [if_neg ht, if_neg ht]
    simp [hg, pagesL, clearedL, serve]
  | .mk t s (k :: ks), st, rest => by
    intro hf hg ht
    simp only [Elem.first] at hg ht
    unfold Elem.toks
    simp only [List.cons_append, List.append_assoc, List.nil_append]
    rw [loop_open]
    refine loop_close handle ns t s (k :: ks) st rest hf
      (fun l => loop handle none (⟨t, s, []⟩ :: st) (toksL (k :: ks) ++ l)) ?_
    have hks : Flat ns (pagesL ns (k :: ks)) := by
      unfold Elem.pages at hf
      by_cases ht : t = ⟨ns, "page".toList⟩
      · rw [if_pos ht] at hf
        have : pagesL ns (k :: ks) = [] := hf _ List.mem_cons_self
        rw [this]
        intro p hp
        cases hp
      · rwa [if_neg ht] at hf
    have h1 : Flat ns (k.pages ns) := fun p hp => hks p (by unfold pagesL; exact List.mem_append_left _ hp)
    have h2 : Flat ns (pagesL ns ks) := fun p hp => hks p (by unfold pagesL; exact List.mem_append_right _ hp)
    unfold toksL pagesL clearedL
    simp only [List.append_assoc]
    rw [loop_first ns k _ _ h1 hg ht, serve_append]
    congr 1
    unfold attach
    rw [loop_list handle ns ks _ st (.close :: rest) h2]
    simp

theorem getNamespace_ok (t : Tag) (h : IsDumpNamespace t.ns) : getNamespace t = .ok t.ns := by
  obtain ⟨v, hv⟩ := h
  unfold getNamespace
  rw [if_pos]
  rw [List.isPrefixOf_iff_prefix]
  exact ⟨v, hv.symm⟩

theorem getNamespace_error (t : Tag) (h : ¬ IsDumpNamespace t.ns) : getNamespace t = .error .value := by
  unfold getNamespace
  rw [if_neg]
  rw [List.isPrefixOf_iff_prefix]
  rintro ⟨v, hv⟩
  exact h ⟨v, hv.symm⟩

/-- **C156.** A complete dump gives its pages, in order: each is handled once, until one raises an exception.  The namespace
is that of the element that ends first. -/
theorem C156_pages (dump : Elem) (hn : IsDumpNamespace dump.first.ns) (hp : dump.first.name ≠ "page".toList)
    (hf : Flat dump.first.ns (dump.pages dump.first.ns)) (namespaces : List Str)
    (accept : Option (Elem → Option Str → Option Str → Bool)) :
    extractPages namespaces accept dump.toks
      = serve (handlePage namespaces accept dump.first.ns) (dump.pages dump.first.ns) ([], none) ∧
    extractPageXmls dump.toks = (dump.pages dump.first.ns, none) := by
  have hne : dump.first ≠ ⟨dump.first.ns, "page".toList⟩ := fun h => hp (congrArg Tag.name h)
  have key : ∀ {α : Type} (handle : Str → Elem → Except Err α), loop handle none [] dump.toks
      = serve (handle dump.first.ns) (dump.pages dump.first.ns) ([], none) := by
    intro α handle
    have := loop_first handle dump.first.ns dump [] [] hf (getNamespace_ok _ hn) hne
    rw [List.append_nil] at this
    rw [this]
    congr 1
  refine ⟨key _, ?_⟩
  unfold extractPageXmls
  rw [key]
  generalize dump.pages dump.first.ns = l
  induction l with
  | nil => rfl
  | cons p l ih => simp only [serve, ih]

theorem loop_value (e : Elem) (h : ¬ IsDumpNamespace e.first.ns) : ∀ (st : Stack) (rest : List Tok),
    loop handle none st (e.toks ++ rest) = ([], some .value) := by
  have go : ∀ (e : Elem), ¬ IsDumpNamespace e.first.ns → ∀ (st : Stack) (rest : List Tok),
      loop handle none st (e.toks ++ rest) = ([], some .value) := by
    intro e
    induction e using Elem.first.induct with
    | case1 t s =>
      intro h st rest
      simp only [Elem.first] at h
      unfold Elem.toks
      simp only [List.cons_append, List.append_assoc, List.nil_append, toksL]
      rw [loop_open]
      conv_lhs => unfold loop
      simp [getNamespace_error t h]
    | case2 t s k ks ih =>
      intro h st rest
      simp only [Elem.first] at h
      unfold Elem.toks toksL
      simp only [List.cons_append, List.append_assoc, List.nil_append]
      rw [loop_open, ih h]
  exact go e h

/-- **C156.** Anything but a dump of MediaWiki is refused before a page is yielded. -/
theorem C156_refused (dump : Elem) (h : ¬ IsDumpNamespace dump.first.ns) (namespaces : List Str)
    (accept : Option (Elem → Option Str → Option Str → Bool)) :
    extractPages namespaces accept dump.toks = ([], some .value) ∧
    extractPageXmls dump.toks = ([], some .value) := by
  have k : ∀ {α : Type} (handle : Str → Elem → Except Err α), loop handle none [] dump.toks = ([], some .value) := by
    intro α handle
    have := loop_value handle dump h [] []
    rwa [List.append_nil] at this
  exact ⟨k _, k _⟩

/-! ### Fields of a page -/

theorem find_first {β : Type} (p : β → Prop) [DecidablePred p] (l : List β) (k : β) :
    l.find? (fun x => decide (p x)) = some k ↔ First p l k := by
  unfold First
  rw [List.find?_eq_some_iff_append]
  constructor
  · rintro ⟨h1, pre, post, h2, h3⟩
    exact ⟨pre, post, h2, by simpa using h1, fun q hq => by simpa using h3 q hq⟩
  · rintro ⟨pre, post, h2, h1, h3⟩
    exact ⟨by simpa using h1, pre, post, h2, fun q hq => by simpa using h3 q hq⟩

theorem childText_iff (ns : Str) (name : String) (e : Elem) (x : Option Str) :
    childText ns name e = .ok x ↔ ∃ k, First (fun k : Elem => k.tag = ⟨ns, name.toList⟩) e.kids k ∧ x = k.text := by
  unfold childText
  constructor
  · intro h
    split at h
    next k hk =>
      cases h
      exact ⟨k, (find_first _ _ _).1 hk, rfl⟩
    · cases h
  · rintro ⟨k, h1, h2⟩
    rw [(find_first _ _ _).2 h1, h2]

theorem first_unique {β : Type} (p : β → Prop) [DecidablePred p] (l : List β) (k k' : β) (h : First p l k)
    (h' : First p l k') : k = k' := by
  rw [← find_first] at h h'
  rw [h] at h'
  exact Option.some.inj h'

theorem revision_find (a b : Tag) (l : List Elem) :
    (((l.filter fun k => k.tag = a).flatMap fun r => r.kids).find? fun k => k.tag = b)
    = ((l.flatMap fun r => r.kids.map fun k => (r, k)).find? fun q : Elem × Elem =>
        q.1.tag = a ∧ q.2.tag = b).map Prod.snd := by
  induction l with
  | nil => rfl
  | cons r l ih =>
    rw [List.flatMap_cons, List.find?_append, List.find?_map]
    by_cases hr : r.tag = a
    · rw [List.filter_cons_of_pos (by simpa using hr), List.flatMap_cons, List.find?_append, ih]
      have : ((fun q : Elem × Elem => decide (q.1.tag = a ∧ q.2.tag = b))
          ∘ fun k => (r, k)) = fun k => decide (k.tag = b) := by
        funext k
        simp [hr]
      rw [this]
      cases r.kids.find? fun k => decide (k.tag = b) <;> rfl
    · rw [List.filter_cons_of_neg (by simpa using hr), ih]
      have : ((fun q : Elem × Elem => decide (q.1.tag = a ∧ q.2.tag = b))
          ∘ fun k => (r, k)) = fun _ => false := by
        funext k
        simp [hr]
      rw [this]
      have hf : r.kids.find? (fun _ => false) = none := by simp
      rw [hf]
      rfl

theorem revisionText_iff (ns : Str) (e : Elem) (x : Option Str) : revisionText ns e = .ok x ↔
    ∃ q, First (fun q : Elem × Elem => q.1.tag = ⟨ns, "revision".toList⟩ ∧ q.2.tag = ⟨ns, "text".toList⟩)
      (grandchildren e) q ∧ x = q.2.text := by
  unfold revisionText grandchildren
  rw [revision_find]
  constructor
  · intro h
    split at h
    next k hk =>
      cases h
      obtain ⟨q, hq, rfl⟩ := Option.map_eq_some_iff.1 hk
      exact ⟨q, (find_first _ _ _).1 hq, rfl⟩
    · cases h
  · rintro ⟨q, h1, h2⟩
    rw [(find_first _ _ _).2 h1, h2]
    rfl

theorem childText_err (ns : Str) (name : String) (e : Elem) (x : Err) (h : childText ns name e = .error x) :
    x = .attribute := by
  unfold childText at h
  split at h <;> cases h
  rfl

theorem revisionText_err (ns : Str) (e : Elem) (x : Err) (h : revisionText ns e = .error x) : x = .attribute := by
  unfold revisionText at h
  split at h <;> cases h
  rfl

/-- **C156.** What is yielded for a page is what is to be read from it, and there is exactly one such thing; a page without
a title, a text, an id or, if namespaces are asked for, a namespace raises `AttributeError`. -/
theorem C156_fields (namespaces : List Str) (accept : Option (Elem → Option Str → Option Str → Bool)) (ns : Str)
    (e : Elem) :
    (∀ out, handlePage namespaces accept ns e = .ok out ↔ Reads namespaces accept ns e out) ∧
    ((∃ err, handlePage namespaces accept ns e = .error err) ↔ ¬ ∃ out, Reads namespaces accept ns e out) ∧
    ∀ err, handlePage namespaces accept ns e = .error err → err = .attribute := by
  have main : ∀ out, handlePage namespaces accept ns e = .ok out ↔ Reads namespaces accept ns e out := by
    intro out
    constructor
    · intro h
      unfold handlePage at h
      rcases ht : childText ns "title" e with _ | title
      · rw [ht] at h; cases h
      rcases hx : revisionText ns e with _ | text
      · rw [ht, hx] at h; cases h
      rw [ht, hx] at h
      obtain ⟨kt, kt1, kt2⟩ := (childText_iff _ _ _ _).1 ht
      obtain ⟨q, q1, q2⟩ := (revisionText_iff _ _ _).1 hx
      rcases hi : childText ns "id" e with _ | pid
      · exfalso
        by_cases hN : namespaces = []
        · simp only [hi, hN, if_true, bind, Except.bind] at h
          cases h
        · rcases hn : childText ns "ns" e with _ | n
          · simp only [hN, hn, if_false, bind, Except.bind] at h
            cases h
          · simp only [hi, hN, hn, if_false, bind, Except.bind] at h
            cases h
      obtain ⟨ki, ki1, ki2⟩ := (childText_iff _ _ _ _).1 hi
      by_cases hN : namespaces = []
      · simp only [hi, hN, if_true, bind, Except.bind] at h
        cases h
        refine ⟨⟨kt, kt1, kt2⟩, ⟨ki, ki1, ki2⟩, q, q1, fun h => absurd hN h, text, Or.inl ⟨q2, Or.inl hN⟩, ?_⟩
        rcases accept with _ | f
        · exact Or.inl ⟨fun f hf => (nomatch hf), rfl⟩
        · rcases hf : f e title text
          · exact Or.inr ⟨⟨f, rfl, hf⟩, by simp [hf]⟩
          · refine Or.inl ⟨fun g hg => ?_, by simp [hf]⟩
            cases hg
            exact hf
      · rcases hn : childText ns "ns" e with _ | n
        · exfalso
          simp only [hi, hN, hn, if_false, bind, Except.bind] at h
          cases h
        · obtain ⟨kn, kn1, kn2⟩ := (childText_iff _ _ _ _).1 hn
          simp only [hi, hN, hn, if_false, bind, Except.bind] at h
          cases h
          refine ⟨⟨kt, kt1, kt2⟩, ⟨ki, ki1, ki2⟩, q, q1, fun _ => ⟨kn, kn1⟩,
            if n.any fun n => decide (n ∈ namespaces) then text else none, ?_, ?_⟩
          · rcases hm : n.any fun n => decide (n ∈ namespaces)
            · refine Or.inr ⟨by simp, hN, kn, kn1, ?_⟩
              intro n' hn' he
              rw [← kn2] at he
              rw [he] at hm
              simp [hn'] at hm
            · refine Or.inl ⟨by simpa using q2, Or.inr ?_⟩
              rcases n with _ | n
              · cases hm
              · exact ⟨kn, n, kn1, kn2.symm, by simpa using hm⟩
          · rcases accept with _ | f
            · exact Or.inl ⟨fun f hf => (nomatch hf), rfl⟩
            · dsimp only
              rcases hf : f e title (if n.any fun n => decide (n ∈ namespaces) then text else none)
              · exact Or.inr ⟨⟨f, rfl, hf⟩, by simp⟩
              · refine Or.inl ⟨fun g hg => ?_, by simp⟩
                cases hg
                exact hf
    · rintro ⟨⟨kt, kt1, kt2⟩, ⟨ki, ki1, ki2⟩, q, q1, hns, kept, hk, ha⟩
      obtain ⟨o1, o2, o3⟩ := out
      simp only at kt2 ki2 ha
      have ht := (childText_iff ns "title" e o1).2 ⟨kt, kt1, kt2⟩
      have hi := (childText_iff ns "id" e o3).2 ⟨ki, ki1, ki2⟩
      have hx := (revisionText_iff ns e q.2.text).2 ⟨q, q1, rfl⟩
      have fin : (accept.elim kept fun f => if f e o1 kept then kept else none).getD [] = o2 := by
        rcases ha with ⟨ha, hb⟩ | ⟨⟨f, hf, hf'⟩, hb⟩
        · rcases accept with _ | f
          · rw [hb]; rfl
          · rw [hb]
            simp [ha f rfl]
        · subst hf
          rw [hb]
          simp [hf']
      unfold handlePage
      rw [ht, hx]
      by_cases hN : namespaces = []
      · have hk' : q.2.text = kept := by
          rcases hk with ⟨hk, _⟩ | ⟨_, hk, _⟩
          · exact hk.symm
          · exact absurd hN hk
        rw [← hk'] at fin
        rw [← fin]
        simp only [hN, if_true, hi, bind, Except.bind]
        rcases accept with _ | f <;> rfl
      · obtain ⟨kn, kn1⟩ := hns hN
        have hn := (childText_iff ns "ns" e kn.text).2 ⟨kn, kn1, rfl⟩
        have hk' : (if kn.text.any fun n => decide (n ∈ namespaces) then q.2.text else none) = kept := by
          rcases hk with ⟨hk, hk2⟩ | ⟨hk, _, kn', kn1', hk2⟩
          · rcases hk2 with hk2 | ⟨kn', n, kn1', hn', hm⟩
            · exact absurd hk2 hN
            · have := first_unique _ _ _ _ kn1 kn1'
              subst this
              rw [hn', hk]
              simp [hm]
          · have := first_unique _ _ _ _ kn1 kn1'
            subst this
            rw [hk]
            rcases hkt : kn.text with _ | n
            · rfl
            · have : n ∉ namespaces := fun hm => hk2 n hm hkt
              simp [this]
        rw [← hk'] at fin
        rw [← fin]
        simp only [hN, hn, if_false, hi, bind, Except.bind]
        rcases accept with _ | f <;> rfl
  refine ⟨main, ?_, ?_⟩
  · constructor
    · rintro ⟨err, h⟩ ⟨out, ho⟩
      rw [(main out).2 ho] at h
      cases h
    · intro h
      rcases hh : handlePage namespaces accept ns e with err | out
      · exact ⟨err, rfl⟩
      · exact absurd ⟨out, (main out).1 hh⟩ h
  · intro err h
    unfold handlePage at h
    rcases ht : childText ns "title" e with x | title
    · rw [ht] at h; cases h; exact childText_err _ _ _ _ ht
    rcases hx : revisionText ns e with x | text
    · rw [ht, hx] at h; cases h; exact revisionText_err _ _ _ hx
    rw [ht, hx] at h
    have fin : ∀ x, childText ns "id" e = .error x → x = .attribute := fun x hx => childText_err _ _ _ _ hx
    by_cases hN : namespaces = []
    · rcases hi : childText ns "id" e with x | pid
      · simp only [hi, hN, if_true, bind, Except.bind] at h
        cases h
        exact fin _ hi
      · simp only [hi, hN, if_true, bind, Except.bind] at h
        cases h
    · rcases hn : childText ns "ns" e with x | n
      · simp only [hN, hn, if_false, bind, Except.bind] at h
        cases h
        exact childText_err _ _ _ _ hn
      · rcases hi : childText ns "id" e with x | pid
        · simp only [hi, hN, hn, if_false, bind, Except.bind] at h
          cases h
          exact fin _ hi
        · simp only [hi, hN, hn, if_false, bind, Except.bind] at h
          cases h

/-! ### Cut dumps -/

theorem loop_prefix (ts' : List Tok) : ∀ (ts : List Tok) (ns : Option Str) (st : Stack),
    (loop handle ns st ts).1 <+: (loop handle ns st (ts ++ ts')).1 := by
  intro ts
  induction ts with
  | nil => intro ns st; simp [loop]
  | cons t ts ih =>
    intro ns st
    rw [List.cons_append]
    rcases t with t | s | _
    · conv_lhs => unfold loop
      conv_rhs => unfold loop
      exact ih _ _
    · conv_lhs => unfold loop
      conv_rhs => unfold loop
      exact ih _ _
    · rcases st with _ | ⟨f, fs⟩
      · conv_lhs => unfold loop
        conv_rhs => unfold loop
        exact ih _ _
      · rcases ns with _ | ns
        · conv_lhs => unfold loop
          conv_rhs => unfold loop
          cases getNamespace f.tag with
          | error e => exact List.prefix_refl _
          | ok n => exact ih _ _
        · conv_lhs => unfold loop
          conv_rhs => unfold loop
          dsimp only
          split
          · cases handle ns (.mk f.tag f.text f.kids.reverse) with
            | error e => exact List.prefix_refl _
            | ok a => exact (List.cons_prefix_cons).2 ⟨rfl, ih _ _⟩
          · exact ih _ _

/-- How many elements are open at the end. -/
def depth : Nat → List Tok → Nat
  | d, [] => d
  | d, .open _ :: ts => depth (d + 1) ts
  | d, .text _ :: ts => depth d ts
  | d, .close :: ts => depth (d - 1) ts

theorem addText_length (s : Str) (st : Stack) : (addText s st).length = st.length := by
  cases st <;> simp [addText]

theorem attach_length (e : Elem) (st : Stack) : (attach e st).length = st.length := by
  cases st <;> simp [attach]

theorem loop_none : ∀ (ts : List Tok) (ns : Option Str) (st : Stack), (loop handle ns st ts).2 = none →
    depth st.length ts = 0 ∧ (ts = [] → ns ≠ none) := by
  intro ts
  induction ts with
  | nil =>
    intro ns st h
    unfold loop at h
    simp only at h
    split at h
    next hh => exact ⟨by rw [hh.1]; rfl, fun _ => hh.2⟩
    · cases h
  | cons t ts ih =>
    intro ns st h
    refine ⟨?_, fun hn => by cases hn⟩
    rcases t with t | s | _
    · unfold loop at h
      exact (ih _ _ h).1
    · unfold loop at h
      have := (ih _ _ h).1
      rwa [addText_length] at this
    · rcases st with _ | ⟨f, fs⟩
      · unfold loop at h
        exact (ih _ _ h).1
      · rcases ns with _ | ns
        · unfold loop at h
          cases hg : getNamespace f.tag with
          | error e => rw [hg] at h; cases h
          | ok n =>
            rw [hg] at h
            have := (ih _ _ h).1
            rwa [attach_length] at this
        · unfold loop at h
          dsimp only at h
          split at h
          · cases hh : handle ns (.mk f.tag f.text f.kids.reverse) with
            | error e => rw [hh] at h; cases h
            | ok a =>
              rw [hh] at h
              have := (ih _ _ h).1
              rwa [attach_length] at this
          · have := (ih _ _ h).1
            rwa [attach_length] at this

theorem depth_append (a b : List Tok) : ∀ d, depth d (a ++ b) = depth (depth d a) b := by
  induction a with
  | nil => intro d; rfl
  | cons t a ih => intro d; cases t <;> exact ih _

mutual
theorem depth_elem : ∀ (e : Elem) (d : Nat), depth d e.toks = d ∧
    ∀ p q, p ++ q = e.toks → q ≠ [] → p = [] ∨ d < depth d p
  | .mk t s ks, d => by
    have htx : ∀ d, depth d (s.map Tok.text).toList = d := by intro d; cases s <;> rfl
    obtain ⟨k1, k2⟩ := depth_list ks (d + 1)
    constructor
    · unfold Elem.toks
      show depth (d + 1) _ = d
      rw [depth_append, htx, depth_append, k1]
      rfl
    · intro p q hpq hq
      rcases p with _ | ⟨x, p⟩
      · exact Or.inl rfl
      · right
        unfold Elem.toks at hpq
        obtain ⟨hx, hpq'⟩ := List.cons.inj hpq
        subst hx
        show d < depth (d + 1) p
        -- the part read is a prefix of the text, or of the text and the children
        rcases List.append_eq_append_iff.1 hpq' with ⟨r, hr1, hr2⟩ | ⟨r, hr1, hr2⟩
        · have hp : depth (d + 1) p = d + 1 := by
            rcases s with _ | s
            · have : p = [] := (List.append_eq_nil_iff.1 hr1.symm).1
              rw [this]; rfl
            · rcases p with _ | ⟨y, p⟩
              · rfl
              · simp only [Option.map_some, Option.toList_some, List.cons_append] at hr1
                obtain ⟨hy, hr3⟩ := List.cons.inj hr1
                subst hy
                rw [(List.append_eq_nil_iff.1 hr3.symm).1]
                rfl
          omega
        · rw [hr1, depth_append, htx]
          rcases List.append_eq_append_iff.1 hr2.symm with ⟨u, hu1, hu2⟩ | ⟨u, hu1, hu2⟩
          · have := k2 r u hu1.symm
            omega
          · have hu : u = [] := by
              rcases u with _ | ⟨y, u⟩
              · rfl
              · rw [List.cons_append] at hu2
                obtain ⟨_, hu2⟩ := List.cons.inj hu2
                exact absurd (List.append_eq_nil_iff.1 hu2.symm).2 hq
            rw [hu1, hu, List.append_nil, k1]
            omega
theorem depth_list : ∀ (ks : List Elem) (d : Nat), depth d (toksL ks) = d ∧
    ∀ p q, p ++ q = toksL ks → d ≤ depth d p
  | [], d => by
    refine ⟨rfl, ?_⟩
    intro p q h
    have := (List.append_eq_nil_iff.1 (h.trans (by unfold toksL; rfl))).1
    rw [this]
    exact Nat.le_refl _
  | k :: ks, d => by
    obtain ⟨k1, k2⟩ := depth_elem k d
    obtain ⟨l1, l2⟩ := depth_list ks d
    constructor
    · unfold toksL
      rw [depth_append, k1, l1]
    · intro p q h
      unfold toksL at h
      rcases List.append_eq_append_iff.1 h with ⟨r, hr1, hr2⟩ | ⟨r, hr1, hr2⟩
      · by_cases hr : r = []
        · rw [hr, List.append_nil] at hr1
          rw [← hr1, k1]
          exact Nat.le_refl _
        · rcases k2 p r hr1.symm hr with h0 | h0
          · rw [h0]; exact Nat.le_refl _
          · exact Nat.le_of_lt h0
      · rw [hr1, depth_append, k1]
        exact l2 r q hr2.symm
end

/-- **C156.** A dump that was cut anywhere yields pages of the whole dump, the first ones, and then raises an exception. -/
theorem C156_cut (dump : Elem) (part lost : List Tok) (h : part ++ lost = dump.toks) (hl : lost ≠ []) (namespaces : List Str)
    (accept : Option (Elem → Option Str → Option Str → Bool)) :
    (extractPages namespaces accept part).1 <+: (extractPages namespaces accept dump.toks).1 ∧
    (extractPages namespaces accept part).2 ≠ none ∧
    (extractPageXmls part).1 <+: (extractPageXmls dump.toks).1 ∧ (extractPageXmls part).2 ≠ none := by
  have key : ∀ {α : Type} (handle : Str → Elem → Except Err α),
      (loop handle none [] part).1 <+: (loop handle none [] dump.toks).1 ∧ (loop handle none [] part).2 ≠ none := by
    intro α handle
    refine ⟨by rw [← h]; exact loop_prefix handle lost part none [], ?_⟩
    intro hn
    obtain ⟨h1, h2⟩ := loop_none handle part none [] hn
    rcases (depth_elem dump 0).2 part lost h hl with h0 | h0
    · exact h2 h0 rfl
    · rw [List.length_nil] at h1
      omega
  exact ⟨(key _).1, (key _).2, (key _).1, (key _).2⟩

/-! ### From the file to the texts -/

/-- The page of an element, as `Verif.Wiki.getTexts` takes it. -/
def Describes (ns : Str) (e : Elem) (p : Page) : Prop :=
  (∃ k, First (fun k : Elem => k.tag = ⟨ns, "title".toList⟩) e.kids k ∧ k.text = some p.title) ∧
  (∃ k, First (fun k : Elem => k.tag = ⟨ns, "ns".toList⟩) e.kids k ∧ k.text = some p.ns) ∧
  (∃ k, First (fun k : Elem => k.tag = ⟨ns, "id".toList⟩) e.kids k ∧ k.text = some p.pageid) ∧
  ∃ q, First (fun q : Elem × Elem => q.1.tag = ⟨ns, "revision".toList⟩ ∧ q.2.tag = ⟨ns, "text".toList⟩)
    (grandchildren e) q ∧ q.2.text = p.text

/-- **C156.** For a dump whose pages all have a title, a namespace, an id and a text, what is yielded is what the model of
`WikiCorpus.get_texts` (C70) starts from: title, filtered text and id of every page. -/
theorem C156_corpus (dump : Elem) (hn : IsDumpNamespace dump.first.ns) (hp : dump.first.name ≠ "page".toList)
    (hf : Flat dump.first.ns (dump.pages dump.first.ns)) (pages : List Page)
    (hd : List.Forall₂ (Describes dump.first.ns) (dump.pages dump.first.ns) pages) (namespaces : List Str) :
    extractPages namespaces none dump.toks
      = ((Wiki.extractPages namespaces none pages).map fun r => (some r.1, r.2.1, some r.2.2), none) := by
  rw [(C156_pages dump hn hp hf namespaces none).1]
  unfold Wiki.extractPages
  clear hf
  revert hd
  generalize dump.pages dump.first.ns = l
  intro hd
  induction hd with
  | nil => rfl
  | @cons e p l pages h hd ih =>
    obtain ⟨⟨kt, kt1, kt2⟩, ⟨kn, kn1, kn2⟩, ⟨ki, ki1, ki2⟩, q, q1, q2⟩ := h
    have : handlePage namespaces none dump.first.ns e
        = .ok (some p.title, (filterPage namespaces none p).getD [], some p.pageid) := by
      refine ((C156_fields namespaces none dump.first.ns e).1 _).2 ?_
      refine ⟨⟨kt, kt1, kt2.symm⟩, ⟨ki, ki1, ki2.symm⟩, q, q1, fun _ => ⟨kn, kn1⟩, filterPage namespaces none p, ?_,
        Or.inl ⟨fun f hf => (nomatch hf), rfl⟩⟩
      unfold filterPage
      by_cases hN : namespaces ≠ [] ∧ p.ns ∉ namespaces
      · refine Or.inr ⟨by simp [hN], hN.1, kn, kn1, ?_⟩
        intro n hm he
        rw [kn2] at he
        exact hN.2 (Option.some.inj he ▸ hm)
      · refine Or.inl ⟨by simp only [if_neg hN, q2], ?_⟩
        by_cases h0 : namespaces = []
        · exact Or.inl h0
        · exact Or.inr ⟨kn, p.ns, kn1, kn2, by
            by_contra hm
            exact hN ⟨h0, hm⟩⟩
    simp only [serve, this, ih, List.map_cons]

/-! ### Non-vacuity -/

def exNs : Str := "http://www.mediawiki.org/xml/export-0.10/".toList
def exTag (s : String) : Tag := ⟨exNs, s.toList⟩
def exLeaf (s t : String) : Elem := .mk (exTag s) (some t.toList) []

/-- A dump of two pages, the second one with two revisions. -/
def exDump : Elem := .mk (exTag "mediawiki") none [
  .mk (exTag "siteinfo") none [exLeaf "sitename" "W"],
  .mk (exTag "page") none [exLeaf "title" "A", exLeaf "ns" "0", exLeaf "id" "7",
    .mk (exTag "revision") none [exLeaf "text" "one"]],
  .mk (exTag "page") none [exLeaf "title" "B", exLeaf "ns" "1", exLeaf "id" "8",
    .mk (exTag "revision") none [exLeaf "text" "old"], .mk (exTag "revision") none [exLeaf "text" "new"]]]

example : IsDumpNamespace exDump.first.ns ∧ exDump.first.name ≠ "page".toList ∧
    Flat exDump.first.ns (exDump.pages exDump.first.ns) ∧ (exDump.pages exDump.first.ns).length = 2 := by
  refine ⟨⟨"0.10/".toList, by decide +kernel⟩, by decide +kernel, ?_, by decide +kernel⟩
  intro p hp
  have : exDump.pages exDump.first.ns = exDump.kids.tail := by rfl
  rw [this] at hp
  simp only [exDump, Elem.kids, List.tail_cons, List.mem_cons, List.not_mem_nil, or_false] at hp
  rcases hp with rfl | rfl <;> rfl

/-- Of the second page the older revision is read; in namespace 0 it is empty; cut in its middle, the dump gives the first
page and an exception. -/
example : extractPages [] none exDump.toks
      = ([(some ['A'], "one".toList, some ['7']), (some ['B'], "old".toList, some ['8'])], none) ∧
    extractPages [['0']] none exDump.toks = ([(some ['A'], "one".toList, some ['7']), (some ['B'], [], some ['8'])], none) ∧
    extractPages [] none (exDump.toks.take 40) = ([(some ['A'], "one".toList, some ['7'])], some .parse) :=
  ⟨by rfl, by rfl, by rfl⟩

end Verif.Wiki.Xml
