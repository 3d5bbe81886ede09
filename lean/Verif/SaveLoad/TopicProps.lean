import Verif.SaveLoad.TopicModel
import Verif.SaveLoad.Props

/-!
# C119: topic models are the same after saving and loading
-/

namespace Verif.SaveLoad
open Verif PyDict

variable {P A : Type}

/-! ## Which files are written -/

section frame
variable {N V : Type} [DecidableEq N]

theorem storeOne_frame (f : List N) (k : N) (q : Kind P A) (w : World N P A) (p : List N) (i : Nat)
    (hp : p ≠ f ++ [k]) : get? (storeOne f k q w).1.files (p, i) = get? w.files (p, i) := by
  have hne : ∀ i', (f ++ [k], i') ≠ (p, i) := fun i' he => hp (Prod.mk.inj he).1.symm
  cases q with
  | ignored => rfl
  | numpy a =>
    simp only [storeOne]
    split
    · rfl
    · rename_i h1
      simp only
      rw [write_files h1, get?_set_ne _ (hne _)]
  | scipy s d j l =>
    simp only [storeOne]
    split
    · rfl
    rename_i w1 h1
    have e1 : get? w1.files (p, i) = get? w.files (p, i) := by rw [write_files h1, get?_set_ne _ (hne _)]
    split
    · exact e1
    rename_i w2 h2
    have e2 : get? w2.files (p, i) = get? w.files (p, i) := by
      rw [write_files h2, get?_set_ne _ (hne _), e1]
    split
    · exact e2
    rename_i w3 h3
    have e3 : get? w3.files (p, i) = get? w.files (p, i) := by
      rw [write_files h3, get?_set_ne _ (hne _), e2]
    split
    · exact e3
    rename_i w4 h4
    simp only
    rw [write_files h4, get?_set_ne _ (hne _), e3]

theorem storeAll_frame (leaf : V → Option (Leaf P A)) (ig f : List N) (k0 : N) (hk0 : k0 ∈ ig)
    (p : List N) (i : Nat) (hp : f ++ [k0] <+: p) : ∀ (asides : PyDict N V) (w : World N P A),
    get? (storeAll leaf ig f asides w).1.files (p, i) = get? w.files (p, i) := by
  intro asides
  induction asides with
  | nil => intro w; rfl
  | cons x asides ih =>
    obtain ⟨k, v⟩ := x
    intro w
    have hone : get? (storeOne f k (kindOf ig k (leaf v)) w).1.files (p, i) = get? w.files (p, i) := by
      by_cases hk : k = k0
      · subst hk
        have : kindOf ig k (leaf v) = .ignored := by
          rcases kindOf_cases ig k (leaf v) with h | h | h
          · exact h.1
          · exact absurd hk0 h.1
          · exact absurd hk0 h.1
        rw [this]
        rfl
      · apply storeOne_frame
        rintro rfl
        have := prefix_snoc_inj hp (List.prefix_refl _)
        exact hk this.symm
    simp only [storeAll]
    split
    · rename_i w1 h1
      rw [h1] at hone
      exact hone
    · rename_i w1 h1
      rw [h1] at hone
      rw [ih]
      exact hone

/-- Saving an object writes no file below the name of an ignored attribute. -/
theorem smartSave_frame (big : Leaf P A → Bool) (hbig : ∀ l, big l = true → l.isArray = true)
    (ig : List N) (sep : Option (List N)) (n : Nat) (f : List N) (o o' main : Obj N (Val N P A n))
    (w w' : World N P A) (hu : WF o.attrs ∧ ∀ p ∈ o.attrs, Unique n p.2)
    (h : smartSave big ig sep f o w = (o', w', some main)) (k0 : N) (hk0 : k0 ∈ ig) (p : List N) (i : Nat)
    (hp : f ++ [k0] <+: p) : get? w'.files (p, i) = get? w.files (p, i) := by
  simp only [smartSave] at h
  split at h
  · simp at h
  rename_i o1 w1 rs hs
  split at h
  · simp at h
  simp only [Prod.mk.injEq, Option.some.injEq] at h
  obtain ⟨-, rfl, -⟩ := h
  simp only
  simp only [saveObj] at hs
  generalize sepNames (asLeaf n) big sep o.attrs = names at hs
  obtain ⟨h1, h2, h3, h4, h5⟩ := get?_putAside (names ++ ig) o.attrs [] hu.1 WF_nil (by simp)
  change WF (putAside (names ++ ig) o.attrs).1 at h1
  change ∀ k, get? (putAside (names ++ ig) o.attrs).1 k = _ at h3
  change ∀ p ∈ (putAside (names ++ ig) o.attrs).1, _ at h5
  generalize putAside (names ++ ig) o.attrs = pa at hs h1 h3 h5
  split at hs
  · simp at hs
  rename_i attrs w2 recs rr hc
  have g0 := (saveChildren_load (saveVal big ig n) (fun F => loadVal F n) (LoadedAs ig n) (Unique n)
      (fun g v w v' w' rs hv hs => (saveVal_load big hbig ig n g v w v' w' rs hv hs).1)
      (fun g v w v' w' rs hv hs => (saveVal_load big hbig ig n g v w v' w' rs hv hs).2)
      (LoadedAs_none big ig n) f pa.1 w attrs w2 recs rr h1 (fun p hp => hu.2 p (h5 p hp)) hc).1 p i
    (by
      intro k hk hkp
      have := prefix_snoc_inj hp hkp
      subst this
      have hn : get? pa.1 k0 = none := by
        rw [h3, if_pos (by simp [hk0])]
      exact (get?_eq_none_iff _ _).1 hn hk)
  have g1 := storeAll_frame (asLeaf n) ig f k0 hk0 p i hp pa.2 w2
  split at hs
  · simp at hs
  · rename_i w3 t ht
    simp only [Prod.mk.injEq] at hs
    obtain ⟨-, rfl, -⟩ := hs
    rw [ht] at g1
    rw [g1, g0]

end frame

theorem saveChildren_leaves {N : Type} [DecidableEq N] (big : Leaf P A → Bool) (ig : List N) (n : Nat)
    (f : List N) : ∀ (a : PyDict N (Val N P A n)) (w : World N P A),
    (∀ p ∈ a, (asLeaf n p.2).isSome = true) →
    saveChildren (saveVal big ig n) f a w = (a, w, some ([], [])) := by
  intro a
  induction a with
  | nil => intro w _; rfl
  | cons p a ih =>
    intro w h
    obtain ⟨k, v⟩ := p
    have e : saveVal big ig n (f ++ [k]) v w = none := by
      have h0 := h (k, v) (by simp)
      cases n with
      | zero => rfl
      | succ n =>
        cases v with
        | inl l => rfl
        | inr o => simp [asLeaf] at h0
    simp only [saveChildren, e, ih w fun p hp => h p (by simp [hp])]

/-- Whatever write raises, an object whose objects are all ignored or named for separate storing has all its
attributes with their values afterwards. -/
theorem smartSave_memory {N : Type} [DecidableEq N] (big : Leaf P A → Bool) (ig : List N)
    (sep : Option (List N)) (n : Nat) (f : List N) (o : Obj N (Val N P A n)) (w : World N P A)
    (hu : WF o.attrs)
    (hl : ∀ k v, get? o.attrs k = some v → k ∉ ig → (asLeaf n v).isSome = true) :
    Pointwise (fun _ => Same n) o.attrs (smartSave big ig sep f o w).1.attrs ∧
      WF (smartSave big ig sep f o w).1.attrs := by
  have hm : ∀ a' w' r, saveObj (saveVal big ig n) (asLeaf n) big ig sep f o w = (a', w', r) →
      ∀ x, (match r with | none => a'.attrs | some rs => rs.foldl (fun a f => f a) a'.attrs) = x →
      (Pointwise (fun _ => Same n) o.attrs x ∧ WF x) := by
    intro a' w' r hs x hx
    simp only [saveObj] at hs
    generalize sepNames (asLeaf n) big sep o.attrs = names at hs
    obtain ⟨h1, h2, h3, h4, h5⟩ := get?_putAside (names ++ ig) o.attrs [] hu WF_nil (by simp)
    change WF (putAside (names ++ ig) o.attrs).1 at h1
    change WF (putAside (names ++ ig) o.attrs).2 at h2
    change ∀ k, get? (putAside (names ++ ig) o.attrs).1 k = _ at h3
    change ∀ k, get? (putAside (names ++ ig) o.attrs).2 k = _ at h4
    change ∀ p ∈ (putAside (names ++ ig) o.attrs).1, _ at h5
    generalize putAside (names ++ ig) o.attrs = pa at hs h1 h2 h3 h4 h5
    rw [saveChildren_leaves big ig n f pa.1 w (by
      intro p hp
      have hg := get?_of_mem h1 (show (p.1, p.2) ∈ pa.1 from hp)
      have hg' := hg
      rw [h3] at hg'
      split at hg'
      · simp at hg'
      · rename_i hnot
        refine hl p.1 p.2 hg' ?_
        intro hig
        exact hnot (by simp [hig]))] at hs
    have hset : ∀ k, get? (setAll pa.1 pa.2) k = get? o.attrs k := by
      intro k
      rw [get?_setAll _ _ h2, h3, h4]
      by_cases hk : k ∈ names ++ ig <;> cases hg : get? o.attrs k <;> simp [hk]
    have hpt : Pointwise (fun _ => Same n) o.attrs (setAll pa.1 pa.2) := by
      intro k
      rw [hset]
      cases get? o.attrs k with
      | none => trivial
      | some v => exact Same_refl n v
    have hwf : WF (setAll pa.1 pa.2) := WF_foldl_set pa.2 h1
    dsimp only at hs
    split at hs
    · simp only [Prod.mk.injEq] at hs
      obtain ⟨rfl, -, rfl⟩ := hs
      subst hx
      exact ⟨hpt, hwf⟩
    · simp only [Prod.mk.injEq] at hs
      obtain ⟨rfl, -, rfl⟩ := hs
      subst hx
      exact ⟨hpt, hwf⟩
  simp only [smartSave]
  split
  · rename_i o1 w1 hs
    exact hm _ _ _ hs _ rfl
  · rename_i o1 w1 rs hs
    split
    · exact hm _ _ _ hs _ rfl
    · exact hm _ _ _ hs _ rfl

/-! ## Saving with a part -/

/-- Attribute names are unique, in the object and in the objects it has. -/
def NamesOk (o : Obj String (Val String P A 1)) : Prop := WF o.attrs ∧ ∀ p ∈ o.attrs, Unique 1 p.2

/-- Arrays and sparse matrices. -/
def IsArray (v : Val String P A 1) : Prop := (asLeaf 1 v).elim false Leaf.isArray = true

theorem savePart_ok (big : Leaf P A → Bool) (part : String) (fname : List String)
    (o o1 : Obj String (Val String P A 1)) (d d1 : Disk P A 0)
    (h : savePart big part fname o d = (o1, d1, true)) :
    (get? o.attrs part = some (ofLeaf 1 .none) ∧ o1 = o ∧ d1 = d) ∨
      ∃ s s' w main, get? o.attrs part = some (ofObj s) ∧
        smartSave big [] none (fname ++ [part]) s d.world = (s', w, some main) ∧
        o1 = { o with attrs := set o.attrs part (ofObj s') } ∧
        d1 = { d with world := w, parts := set d.parts (fname ++ [part]) main } := by
  unfold savePart at h
  split at h
  · rename_i hg
    simp only [Prod.mk.injEq, and_true] at h
    exact Or.inl ⟨hg, h.1.symm, h.2.symm⟩
  · rename_i s hg
    split at h
    · simp at h
    · rename_i s' w main hs
      simp only [Prod.mk.injEq, and_true] at h
      exact Or.inr ⟨s, s', w, main, hg, hs, h.1.symm, h.2.symm⟩
  · simp at h

theorem mem_set {V : Type} {a : PyDict String V} (hw : WF a) {k : String} {v : V} {p : String × V}
    (h : p ∈ set a k v) : p = (k, v) ∨ p ∈ a := by
  have hg := get?_of_mem (WF_set hw k v) (show (p.1, p.2) ∈ set a k v from h)
  rw [get?_set] at hg
  split at hg
  · rename_i he
    left
    rw [Option.some.injEq] at hg
    exact Prod.ext he.symm hg.symm
  · exact Or.inr (mem_of_get? hg)

theorem savePart_names (big : Leaf P A → Bool) (part : String) (fname : List String)
    (o o1 : Obj String (Val String P A 1)) (d d1 : Disk P A 0) (r : Bool) (ho : NamesOk o)
    (h : savePart big part fname o d = (o1, d1, r)) :
    NamesOk o1 ∧ Pointwise (fun _ => Same 1) o.attrs o1.attrs ∧
      (∀ k, k ≠ part → get? o1.attrs k = get? o.attrs k) ∧ d1.models = d.models ∧ d1.dicts = d.dicts := by
  have hrefl : Pointwise (fun _ => Same 1) o.attrs o.attrs := by
    intro k
    cases get? o.attrs k with
    | none => trivial
    | some v => exact Same_refl 1 v
  have hset : ∀ s w s', get? o.attrs part = some (ofObj s) →
      (smartSave big [] none (fname ++ [part]) s w).1 = s' →
      (NamesOk { o with attrs := PyDict.set o.attrs part (ofObj s') } ∧
        Pointwise (fun _ => Same 1) o.attrs (PyDict.set o.attrs part (ofObj s')) ∧
        ∀ k, k ≠ part → get? (PyDict.set o.attrs part (ofObj s')) k = get? o.attrs k) := by
    intro s w s' hg he
    have hs : WF s.attrs := (ho.2 _ (mem_of_get? hg)).1
    obtain ⟨m1, m2⟩ := smartSave_memory big [] none 0 (fname ++ [part]) s w hs (fun _ _ _ _ => rfl)
    rw [he] at m1 m2
    refine ⟨⟨WF_set ho.1 _ _, ?_⟩, ?_, ?_⟩
    · intro p hp
      rcases mem_set ho.1 hp with rfl | hp
      · exact ⟨m2, fun _ _ => trivial⟩
      · exact ho.2 p hp
    · intro k
      rw [get?_set]
      by_cases hk : part = k
      · subst hk
        rw [hg, if_pos rfl]
        exact m1
      · rw [if_neg hk]
        exact hrefl k
    · intro k hk
      rw [get?_set_ne _ (Ne.symm hk)]
  unfold savePart at h
  split at h
  · simp only [Prod.mk.injEq] at h
    obtain ⟨rfl, rfl, -⟩ := h
    exact ⟨ho, hrefl, fun _ _ => rfl, rfl, rfl⟩
  · rename_i s hg
    split at h
    · rename_i s' w hs
      obtain ⟨a1, a2, a3⟩ := hset s d.world s' hg (by rw [hs])
      simp only [Prod.mk.injEq] at h
      obtain ⟨rfl, rfl, -⟩ := h
      exact ⟨a1, a2, a3, rfl, rfl⟩
    · rename_i s' w main hs
      obtain ⟨a1, a2, a3⟩ := hset s d.world s' hg (by rw [hs])
      simp only [Prod.mk.injEq] at h
      obtain ⟨rfl, rfl, -⟩ := h
      exact ⟨a1, a2, a3, rfl, rfl⟩
  · simp only [Prod.mk.injEq] at h
    obtain ⟨rfl, rfl, -⟩ := h
    exact ⟨ho, hrefl, fun _ _ => rfl, rfl, rfl⟩

/-- What is loaded after the part and the object are stored. -/
theorem stored_loaded (big : Leaf P A → Bool) (hbig : ∀ l, big l = true → l.isArray = true)
    (part : String) (ig : List String) (hpart : part ∈ ig) (sep : Option (List String))
    (fname : List String) (o o1 o' : Obj String (Val String P A 1)) (d d1 d2 d' : Disk P A 0)
    (ho : NamesOk o) (h1 : savePart big part fname o d = (o1, d1, true))
    (hw : d2.world.files = d1.world.files) (hp : d2.parts = d1.parts)
    (h2 : saveMain big ig sep fname o1 d2 = (o', d', true)) :
    ∃ u, loadMain fname d' = some u ∧ d'.dicts = d2.dicts ∧ d'.parts = d1.parts ∧
      (∀ k v, get? o.attrs k = some v → k ∉ ig → (k ∈ sep.getD [] → IsArray v) →
        ∃ x, get? u.attrs k = some x ∧ LoadedAs ig 1 v x) ∧
      (∀ k v, get? o.attrs k = some v → k ∈ ig → get? u.attrs k = some (ofLeaf 1 .none)) ∧
      (∀ s, get? o.attrs part = some (ofObj s) → ∃ main s', get? d'.parts (fname ++ [part]) = some main ∧
        load d'.world.files (fname ++ [part]) main = some s' ∧ ∀ k, get? s'.attrs k = get? s.attrs k) ∧
      (get? o.attrs part = some (ofLeaf 1 .none) → d'.parts = d.parts ∧ ∀ p i, fname ++ [part] <+: p →
        get? d'.world.files (p, i) = get? d.world.files (p, i)) := by
  obtain ⟨ho1, -, hsame, -, -⟩ := savePart_names big part fname o o1 d d1 true ho h1
  unfold saveMain at h2
  split at h2
  · simp at h2
  rename_i o2 w main hs
  simp only [Prod.mk.injEq, and_true] at h2
  obtain ⟨rfl, rfl⟩ := h2
  obtain ⟨u, hu, hpt⟩ := C18_load_save big hbig ig sep 1 fname o1 o2 main d2.world w ho1 hs w.files
    (fun _ _ _ => rfl)
  have hframe : ∀ p i, fname ++ [part] <+: p → get? w.files (p, i) = get? d1.world.files (p, i) := by
    intro p i hpre
    rw [smartSave_frame big hbig ig sep 1 fname o1 o2 main d2.world w ho1 hs part hpart p i hpre, hw]
  refine ⟨u, ?_, rfl, hp, ?_, ?_, ?_, ?_⟩
  · unfold loadMain
    dsimp only
    rw [get?_set_self]
    exact hu
  · intro k v hg hk hsep
    have hk' : k ≠ part := fun he => hk (he ▸ hpart)
    have := hpt k
    rw [hsame k hk', hg] at this
    cases hx : get? u.attrs k with
    | none => rw [hx] at this; exact this.elim
    | some x =>
      rw [hx] at this
      refine ⟨x, rfl, ?_⟩
      dsimp only at this
      rw [if_neg] at this
      · exact this
      · rintro (h | ⟨h, h'⟩)
        · exact hk h
        · have := hsep h
          unfold IsArray at this
          rw [this] at h'
          simp at h'
  · intro k v hg hk
    have := hpt k
    have hsome : ∃ v', get? o1.attrs k = some v' := by
      by_cases hkp : k = part
      · subst hkp
        rcases savePart_ok big k fname o o1 d d1 h1 with ⟨e, e1, -⟩ | ⟨s, s', w, m, e, -, e1, -⟩
        · exact ⟨v, by rw [e1]; exact hg⟩
        · exact ⟨_, by rw [e1]; exact get?_set_self _ _ _⟩
      · exact ⟨v, by rw [hsame k hkp]; exact hg⟩
    obtain ⟨v', hv'⟩ := hsome
    rw [hv'] at this
    cases hx : get? u.attrs k with
    | none => rw [hx] at this; exact this.elim
    | some x =>
      rw [hx] at this
      dsimp only at this
      rw [if_pos (Or.inl hk)] at this
      rw [this]
  · intro s hg
    rcases savePart_ok big part fname o o1 d d1 h1 with ⟨e, -, -⟩ | ⟨s0, s', w1, m, e, e1, -, e3⟩
    · rw [hg] at e
      have := Option.some.inj e
      unfold ofObj ofLeaf at this
      cases this
    · rw [hg] at e
      obtain rfl : s = s0 := by
        have := Option.some.inj e
        unfold ofObj at this
        exact Sum.inr.inj this
      have hs0 : WF s.attrs := (ho.2 _ (mem_of_get? hg)).1
      obtain ⟨u', hu', hpt'⟩ := C18_load_save big hbig [] none 0 (fname ++ [part]) s s' m d.world w1
        ⟨hs0, fun _ _ => trivial⟩ e1 w.files (by
          intro p i hpre
          rw [hframe p i hpre, e3])
      refine ⟨m, u', ?_, hu', ?_⟩
      · dsimp only
        rw [hp, e3]
        exact get?_set_self _ _ _
      · intro k
        have := hpt' k
        cases hk : get? s.attrs k with
        | none =>
          rw [hk] at this
          cases hk2 : get? u'.attrs k with
          | none => rfl
          | some x => rw [hk2] at this; exact this.elim
        | some v =>
          rw [hk] at this
          cases hk2 : get? u'.attrs k with
          | none => rw [hk2] at this; exact this.elim
          | some x =>
            rw [hk2] at this
            simp [LoadedAs] at this
            rw [this]
  · intro hg
    rcases savePart_ok big part fname o o1 d d1 h1 with ⟨-, -, e⟩ | ⟨s0, s', w1, m, e, -, -, -⟩
    · subst e
      exact ⟨hp, hframe⟩
    · rw [hg] at e
      have := Option.some.inj e
      unfold ofObj ofLeaf at this
      cases this

/-! ## C119 -/

theorem Same_trans : ∀ (n : Nat) (a b c : Val String P A n), Same n a b → Same n b c → Same n a c
  | 0, _, _, _, h1, h2 => Eq.trans h2 h1
  | _ + 1, .inl l, b, c, h1, h2 => by
    have h1' : b = .inl l := h1
    subst h1'
    exact h2
  | _ + 1, .inr _, .inl _, _, h1, _ => h1.elim
  | _ + 1, .inr _, .inr _, .inl _, _, h2 => h2.elim
  | n + 1, .inr a, .inr b, .inr c, h1, h2 => by
    intro k
    have e1 := h1 k
    have e2 := h2 k
    cases ha : get? a.attrs k <;> cases hb : get? b.attrs k <;> cases hc : get? c.attrs k <;>
      rw [ha, hb] at e1 <;> rw [hb, hc] at e2
    · trivial
    all_goals first | exact e1.elim | exact e2.elim | exact Same_trans n _ _ _ e1 e2

theorem get?_withDefault {V : Type} (name : String) (v : V) (a : PyDict String V) (k : String) :
    get? (withDefault name v a) k
      = if k = name ∧ get? a name = none then some v else get? a k := by
  unfold withDefault
  by_cases hm : name ∈ keys a
  · rw [if_pos hm, if_neg]
    rintro ⟨-, h⟩
    exact (get?_eq_none_iff _ _).1 h hm
  · rw [if_neg hm, get?_set]
    by_cases hk : name = k
    · subst hk
      rw [if_pos rfl, if_pos ⟨rfl, (get?_eq_none_iff _ _).2 hm⟩]
    · rw [if_neg hk, if_neg fun h => hk h.1.symm]

theorem withDefault_some {V : Type} (name : String) (v x : V) (a : PyDict String V) (k : String)
    (h : get? a k = some x) : get? (withDefault name v a) k = some x := by
  rw [get?_withDefault, if_neg, h]
  rintro ⟨rfl, h'⟩
  rw [h] at h'
  simp at h'

theorem saveDict_ok (fname ignore : List String) (o : Obj String (Val String P A 1)) (d d2 : Disk P A 0)
    (h : saveDict fname ignore o d = (d2, true)) :
    d2.world.files = d.world.files ∧ d2.parts = d.parts ∧ d2.models = d.models ∧
      ("id2word" ∈ ignore → d2.dicts = d.dicts) ∧
      ("id2word" ∉ ignore → (get? o.attrs "id2word").isSome = true ∧
        get? d2.dicts (fname ++ ["id2word"]) = get? o.attrs "id2word") := by
  unfold saveDict at h
  split at h
  · rename_i hin
    simp only [Prod.mk.injEq, and_true] at h
    subst h
    exact ⟨rfl, rfl, rfl, fun _ => rfl, fun hn => absurd hin hn⟩
  · rename_i hin
    split at h
    · simp at h
    · rename_i v hv
      split at h
      · simp at h
      · simp only [Prod.mk.injEq, and_true] at h
        subst h
        refine ⟨rfl, rfl, rfl, fun h => absurd h hin, fun _ => ⟨by rw [hv]; rfl, ?_⟩⟩
        dsimp only
        rw [get?_set_self, hv]

theorem ldaSave_ok (big : Leaf P A → Bool) (several : A → Bool) (ignore : List String)
    (sep : Option (List String)) (fname : List String) (o o' : Obj String (Val String P A 1))
    (d d' : Disk P A 0) (h : ldaSave big several ignore sep fname o d = (o', d', true)) :
    ∃ o1 d1 d2, savePart big "state" fname o d = (o1, d1, true) ∧
      saveDict fname ignore o1 d1 = (d2, true) ∧
      saveMain big (["state", "dispatcher", "id2word"] ++ ignore)
        (some (ldaSeparately several o1 sep)) fname o1 d2 = (o', d', true) := by
  unfold ldaSave at h
  split at h
  · simp at h
  rename_i o1 d1 h1
  split at h
  · simp at h
  rename_i d2 h2
  exact ⟨o1, d1, d2, h1, h2, h⟩

theorem mem_ldaSeparately (several : A → Bool) (o : Obj String (Val String P A 1))
    (sep : Option (List String)) (k : String) (v : Val String P A 1) (hg : get? o.attrs k = some v)
    (h : k ∈ ldaSeparately several o sep) :
    k = "expElogbeta" ∨ k = "sstats" ∨ k ∈ sep.getD [] ∨ IsArray v := by
  unfold ldaSeparately at h
  simp only [List.mem_append, List.mem_cons, List.not_mem_nil, or_false] at h
  have hprior : ∀ name, k ∈ separatePrior several o name → IsArray v := by
    intro name hm
    unfold separatePrior at hm
    split at hm
    · rename_i a ha
      split at hm
      · rw [List.mem_singleton] at hm
        subst hm
        have := Option.some.inj (hg.symm.trans ha)
        rw [this]
        rfl
      · simp at hm
    · simp at hm
  rcases h with (((h | h) | h) | h) | h
  · exact Or.inl h
  · exact Or.inr (Or.inl h)
  · exact Or.inr (Or.inr (Or.inr (hprior _ h)))
  · exact Or.inr (Or.inr (Or.inr (hprior _ h)))
  · exact Or.inr (Or.inr (Or.inl h))

/-- The last steps of `LdaModel.load`. -/
theorem ldaLoad_eq (random float64 : P) (fname : List String) (d : Disk P A 0)
    (u : Obj String (Val String P A 1)) (h : loadMain fname d = some u) :
    ∃ r, ldaLoad random float64 fname d = some r ∧
      (∀ k x, get? u.attrs k = some x → k ≠ "state" → k ≠ "id2word" → get? r.attrs k = some x) ∧
      (get? r.attrs "id2word" = match get? d.dicts (fname ++ ["id2word"]) with
        | none => get? u.attrs "id2word"
        | some v => some v) ∧
      (∀ main s, get? d.parts (fname ++ ["state"]) = some main →
        load d.world.files (fname ++ ["state"]) main = some s →
        get? r.attrs "state" = some (ofObj { s with
          attrs := withDefault "dtype" (ofLeaf 0 (.plain float64)) s.attrs })) ∧
      (get? d.parts (fname ++ ["state"]) = none → get? r.attrs "state" = get? u.attrs "state") := by
  unfold ldaLoad
  rw [h]
  dsimp only
  generalize hu1 : ldaDefaults random float64 u = u1
  have hk : ∀ k x, get? u.attrs k = some x → get? u1.attrs k = some x := by
    intro k x hx
    rw [← hu1]
    unfold ldaDefaults
    exact withDefault_some _ _ _ _ _ (withDefault_some _ _ _ _ _ hx)
  have hk' : ∀ k, k ≠ "dtype" → k ≠ "random_state" → get? u1.attrs k = get? u.attrs k := by
    intro k h1 h2
    rw [← hu1]
    unfold ldaDefaults
    dsimp only
    rw [get?_withDefault, if_neg fun h => h1 h.1, get?_withDefault, if_neg fun h => h2 h.1]
  have hp1 : ∀ k, k ≠ "state" → get? (loadPart "state"
      (withDefault "dtype" (ofLeaf 0 (.plain float64))) fname d u1).attrs k = get? u1.attrs k := by
    intro k hks
    unfold loadPart
    split
    · rfl
    · split
      · rfl
      · dsimp only
        rw [get?_set_ne _ (Ne.symm hks)]
  have hp2 : ∀ main s, get? d.parts (fname ++ ["state"]) = some main →
      load d.world.files (fname ++ ["state"]) main = some s →
      get? (loadPart "state" (withDefault "dtype" (ofLeaf 0 (.plain float64))) fname d u1).attrs "state"
        = some (ofObj { s with attrs := withDefault "dtype" (ofLeaf 0 (.plain float64)) s.attrs }) := by
    intro main s h1 h2
    unfold loadPart
    rw [h1]
    dsimp only
    rw [h2]
    exact get?_set_self _ _ _
  have hp3 : get? d.parts (fname ++ ["state"]) = none →
      get? (loadPart "state" (withDefault "dtype" (ofLeaf 0 (.plain float64))) fname d u1).attrs "state"
        = get? u.attrs "state" := by
    intro h1
    unfold loadPart
    rw [h1]
    exact hk' _ (by decide) (by decide)
  cases hd : get? d.dicts (fname ++ ["id2word"]) with
  | none =>
    refine ⟨_, rfl, ?_, ?_, hp2, hp3⟩
    · intro k x hx h1 h2
      rw [hp1 k h1]
      exact hk k x hx
    · dsimp only
      rw [hp1 _ (by decide)]
      exact hk' _ (by decide) (by decide)
  | some v =>
    refine ⟨_, rfl, ?_, ?_, ?_, ?_⟩
    · intro k x hx h1 h2
      dsimp only
      rw [get?_set_ne _ (Ne.symm h2), hp1 k h1]
      exact hk k x hx
    · exact get?_set_self _ _ _
    · intro main s h1 h2
      dsimp only
      rw [get?_set_ne _ (by decide)]
      exact hp2 main s h1 h2
    · intro h1
      dsimp only
      rw [get?_set_ne _ (by decide)]
      exact hp3 h1

/-- **C119.** An LDA model that was saved without an exception is loaded with the same state, the same
dictionary and the same other attributes, whatever was on the disk before; `dispatcher` and what the caller
asked to ignore is `None`. -/
theorem C119_lda (big : Leaf P A → Bool) (hbig : ∀ l, big l = true → l.isArray = true)
    (several : A → Bool) (ignore : List String) (sep : Option (List String)) (random float64 : P)
    (fname : List String) (o o' : Obj String (Val String P A 1)) (d d' : Disk P A 0) (ho : NamesOk o)
    (h : ldaSave big several ignore sep fname o d = (o', d', true)) :
    ∃ u, ldaLoad random float64 fname d' = some u ∧
      (∀ s, get? o.attrs "state" = some (ofObj s) → "dtype" ∈ keys s.attrs →
        ∃ s', get? u.attrs "state" = some (ofObj s') ∧ ∀ k, get? s'.attrs k = get? s.attrs k) ∧
      ("id2word" ∉ ignore → get? u.attrs "id2word" = get? o.attrs "id2word") ∧
      (∀ k v, get? o.attrs k = some v → k ∉ ["state", "dispatcher", "id2word"] → k ∉ ignore →
        (k ∈ ["expElogbeta", "sstats"] ++ sep.getD [] → IsArray v) →
        ∃ x, get? u.attrs k = some x ∧
          LoadedAs (["state", "dispatcher", "id2word"] ++ ignore) 1 v x) ∧
      (∀ k v, get? o.attrs k = some v → k = "dispatcher" ∨ k ∈ ignore → k ≠ "state" → k ≠ "id2word" →
        get? u.attrs k = some (ofLeaf 1 .none)) := by
  obtain ⟨o1, d1, d2, h1, h2, h3⟩ := ldaSave_ok big several ignore sep fname o o' d d' h
  obtain ⟨e1, e2, e3, e4, e5⟩ := saveDict_ok fname ignore o1 d1 d2 h2
  obtain ⟨-, -, hsame, -, -⟩ := savePart_names big "state" fname o o1 d d1 true ho h1
  obtain ⟨u, hu, f1, f2, f3, f4, f5, f6⟩ := stored_loaded big hbig "state" _ (by simp) _ fname o o1 o' d d1
    d2 d' ho h1 e1 e2 h3
  obtain ⟨r, hr, g1, g2, g3, g4⟩ := ldaLoad_eq random float64 fname d' u hu
  refine ⟨r, hr, ?_, ?_, ?_, ?_⟩
  · intro s hs hdt
    obtain ⟨main, s', m1, m2, m3⟩ := f5 s hs
    refine ⟨_, g3 main s' m1 m2, ?_⟩
    intro k
    dsimp only
    rw [get?_withDefault, if_neg, m3]
    rintro ⟨-, hn⟩
    rw [m3] at hn
    exact (get?_eq_none_iff _ _).1 hn hdt
  · intro hi
    obtain ⟨i1, i2⟩ := e5 hi
    rw [g2, f1, i2, hsame _ (by decide)]
    rw [hsame _ (by decide)] at i1
    obtain ⟨v, hv⟩ := Option.isSome_iff_exists.1 i1
    rw [hv]
  · intro k v hg hk hi harr
    simp only [List.mem_cons, List.not_mem_nil, or_false, not_or] at hk
    obtain ⟨x, hx, hl⟩ := f3 k v hg (by simp [hk, hi]) (by
      intro hm
      simp only [Option.getD_some] at hm
      rcases mem_ldaSeparately several o1 sep k v (by rw [hsame k hk.1]; exact hg) hm
        with h | h | h | h
      · exact harr (by simp [h])
      · exact harr (by simp [h])
      · exact harr (by simp [h])
      · exact h)
    exact ⟨x, g1 k x hx hk.1 hk.2.2, hl⟩
  · intro k v hg hk h1 h2
    refine g1 k _ (f4 k v hg ?_) h1 h2
    rcases hk with rfl | hk
    · simp
    · simp [hk]

theorem load_congr (F G : PyDict (List String × Nat) (Leaf P A)) (f : List String)
    (main : Obj String (Val String P A 0)) (h : ∀ p i, f <+: p → get? F (p, i) = get? G (p, i)) :
    load F f main = load G f main := by
  have e1 : ∀ k i, get? F (f ++ [k], i) = get? G (f ++ [k], i) := fun k i => h _ _ (List.prefix_append _ _)
  unfold load loadObj
  simp only [readSp, readArr, e1]
  rfl

/-- **C119, finding.** What a save leaves out is taken from an earlier model of the same name: if the
dictionary is ignored, the loaded model has the dictionary of the model saved before under that name, and if
the model has no state, the earlier state. -/
theorem C119_stale (big : Leaf P A → Bool) (hbig : ∀ l, big l = true → l.isArray = true)
    (several : A → Bool) (ignore : List String) (sep : Option (List String)) (random float64 : P)
    (fname : List String) (o o' : Obj String (Val String P A 1)) (d d' : Disk P A 0) (ho : NamesOk o)
    (h : ldaSave big several ignore sep fname o d = (o', d', true)) :
    ∃ u, ldaLoad random float64 fname d' = some u ∧
      ("id2word" ∈ ignore → ∀ v, get? d.dicts (fname ++ ["id2word"]) = some v →
        get? u.attrs "id2word" = some v) ∧
      (get? o.attrs "state" = some (ofLeaf 1 .none) → ∀ main s,
        get? d.parts (fname ++ ["state"]) = some main →
        load d.world.files (fname ++ ["state"]) main = some s → "dtype" ∈ keys s.attrs →
        get? u.attrs "state" = some (ofObj s)) := by
  obtain ⟨o1, d1, d2, h1, h2, h3⟩ := ldaSave_ok big several ignore sep fname o o' d d' h
  obtain ⟨e1, e2, e3, e4, e5⟩ := saveDict_ok fname ignore o1 d1 d2 h2
  obtain ⟨-, -, hsame, -, hdicts⟩ := savePart_names big "state" fname o o1 d d1 true ho h1
  obtain ⟨u, hu, f1, f2, f3, f4, f5, f6⟩ := stored_loaded big hbig "state" _ (by simp) _ fname o o1 o' d d1
    d2 d' ho h1 e1 e2 h3
  obtain ⟨r, hr, g1, g2, g3, g4⟩ := ldaLoad_eq random float64 fname d' u hu
  refine ⟨r, hr, ?_, ?_⟩
  · intro hi v hv
    rw [g2, f1, e4 hi, hdicts, hv]
  · intro hn main s hm hs hdt
    obtain ⟨p1, p2⟩ := f6 hn
    rw [g3 main s (by rw [p1]; exact hm) (by rw [← hs]; exact load_congr _ _ _ _ p2)]
    unfold withDefault
    rw [if_pos hdt]

/-- **C119.** If the file of the state is gone, the model is loaded without a state: there is only a
warning. -/
theorem C119_missing_state (big : Leaf P A → Bool) (hbig : ∀ l, big l = true → l.isArray = true)
    (several : A → Bool) (ignore : List String) (sep : Option (List String)) (random float64 : P)
    (fname : List String) (o o' : Obj String (Val String P A 1)) (d d' : Disk P A 0) (ho : NamesOk o)
    (h : ldaSave big several ignore sep fname o d = (o', d', true)) :
    ∃ u, ldaLoad random float64 fname { d' with parts := erase d'.parts (fname ++ ["state"]) } = some u ∧
      get? u.attrs "state" = some (ofLeaf 1 .none) := by
  obtain ⟨o1, d1, d2, h1, h2, h3⟩ := ldaSave_ok big several ignore sep fname o o' d d' h
  obtain ⟨e1, e2, e3, e4, e5⟩ := saveDict_ok fname ignore o1 d1 d2 h2
  obtain ⟨u, hu, f1, f2, f3, f4, f5, f6⟩ := stored_loaded big hbig "state" _ (by simp) _ fname o o1 o' d d1
    d2 d' ho h1 e1 e2 h3
  obtain ⟨r, hr, g1, g2, g3, g4⟩ := ldaLoad_eq random float64 fname
    { d' with parts := erase d'.parts (fname ++ ["state"]) } u hu
  refine ⟨r, hr, ?_⟩
  rw [g4 (by dsimp only; rw [get?_erase, if_pos rfl])]
  have hst : ∃ v, get? o.attrs "state" = some v := by
    rcases savePart_ok big "state" fname o o1 d d1 h1 with ⟨e, -, -⟩ | ⟨s, s', w, m, e, -, -, -⟩
    · exact ⟨_, e⟩
    · exact ⟨_, e⟩
  obtain ⟨v, hv⟩ := hst
  exact f4 _ v hv (by simp)

/-- **C119.** A save that raises, at whatever write, leaves the stored model objects as they were: where
there was no model, loading raises instead of returning half of one. -/
theorem C119_crash (big : Leaf P A → Bool) (several : A → Bool) (ignore : List String)
    (sep : Option (List String)) (random float64 : P) (fname : List String)
    (o o' : Obj String (Val String P A 1)) (d d' : Disk P A 0) (ho : NamesOk o)
    (h : ldaSave big several ignore sep fname o d = (o', d', false)) :
    d'.models = d.models ∧
      (get? d.models fname = none → ldaLoad random float64 fname d' = none) := by
  have hm : d'.models = d.models := by
    unfold ldaSave at h
    split at h
    · rename_i o1 d1 h1
      obtain ⟨-, -, -, hm, -⟩ := savePart_names big "state" fname o o1 d d1 false ho h1
      simp only [Prod.mk.injEq, and_true] at h
      rw [← h.2, hm]
    · rename_i o1 d1 h1
      obtain ⟨-, -, -, hm, -⟩ := savePart_names big "state" fname o o1 d d1 true ho h1
      split at h
      · rename_i d2 h2
        simp only [Prod.mk.injEq, and_true] at h
        rw [← h.2, ← hm]
        unfold saveDict at h2
        split at h2
        · simp at h2
        · split at h2
          · simp only [Prod.mk.injEq, and_true] at h2
            rw [h2]
          · split at h2
            · simp only [Prod.mk.injEq, and_true] at h2
              rw [h2]
            · simp at h2
      · rename_i d2 h2
        obtain ⟨e1, e2, e3, e4, e5⟩ := saveDict_ok fname ignore o1 d1 d2 h2
        unfold saveMain at h
        split at h
        · simp only [Prod.mk.injEq, and_true] at h
          rw [← h.2]
          exact e3.trans hm
        · simp at h
  refine ⟨hm, ?_⟩
  intro hn
  unfold ldaLoad loadMain
  rw [hm, hn]

/-- **C119.** Whatever write raises, the model in memory is afterwards what it was, if the only objects
among its attributes are the state, the dictionary and the dispatcher. -/
theorem C119_memory (big : Leaf P A → Bool) (several : A → Bool) (ignore : List String)
    (sep : Option (List String)) (fname : List String) (o : Obj String (Val String P A 1))
    (d : Disk P A 0) (ho : NamesOk o)
    (hl : ∀ k v, get? o.attrs k = some v → k ∉ ["state", "dispatcher", "id2word"] →
      (asLeaf 1 v).isSome = true) :
    Pointwise (fun _ => Same 1) o.attrs (ldaSave big several ignore sep fname o d).1.attrs := by
  unfold ldaSave
  rcases hp : savePart big "state" fname o d with ⟨o1, d1, r⟩
  obtain ⟨hn, hsame, hother, -, -⟩ := savePart_names big "state" fname o o1 d d1 r ho hp
  cases r with
  | false => exact hsame
  | true =>
    dsimp only
    rcases hd : saveDict fname ignore o1 d1 with ⟨d2, r⟩
    cases r with
    | false => exact hsame
    | true =>
      dsimp only
      have hm := (smartSave_memory big (["state", "dispatcher", "id2word"] ++ ignore)
        (some (ldaSeparately several o1 sep)) 1 fname o1 d2.world hn.1 (by
          intro k v hg hk
          simp only [List.mem_append, not_or] at hk
          refine hl k v ?_ hk.1
          rw [← hg, hother k]
          rintro rfl
          exact hk.1 (by simp))).1
      have : (saveMain big (["state", "dispatcher", "id2word"] ++ ignore)
          (some (ldaSeparately several o1 sep)) fname o1 d2).1
          = (smartSave big (["state", "dispatcher", "id2word"] ++ ignore)
            (some (ldaSeparately several o1 sep)) fname o1 d2.world).1 := by
        unfold saveMain
        split
        · rename_i hs; rw [hs]
        · rename_i hs; rw [hs]
      rw [this]
      intro k
      have a1 := hsame k
      have a2 := hm k
      cases h1 : get? o.attrs k with
      | none =>
        rw [h1] at a1
        cases h2 : get? o1.attrs k with
        | some _ => rw [h2] at a1; exact a1.elim
        | none =>
          rw [h2] at a2
          exact a2
      | some v =>
        rw [h1] at a1
        cases h2 : get? o1.attrs k with
        | none => rw [h2] at a1; exact a1.elim
        | some v1 =>
          rw [h2] at a1 a2
          cases h3 : get? (smartSave big (["state", "dispatcher", "id2word"] ++ ignore)
            (some (ldaSeparately several o1 sep)) fname o1 d2.world).1.attrs k with
          | none => rw [h3] at a2; exact a2.elim
          | some v2 =>
            rw [h3] at a2
            exact Same_trans 1 v v1 v2 a1 a2

/-- **C119.** An LSI model that was saved without an exception is loaded with the same projection and the
same other attributes, whatever was on the disk before. -/
theorem C119_lsi (big : Leaf P A → Bool) (hbig : ∀ l, big l = true → l.isArray = true)
    (ignore sep : Option (List String)) (fname : List String) (o o' : Obj String (Val String P A 1))
    (d d' : Disk P A 0) (ho : NamesOk o) (h : lsiSave big ignore sep fname o d = (o', d', true)) :
    ∃ u, lsiLoad fname d' = some u ∧
      (∀ s, get? o.attrs "projection" = some (ofObj s) →
        ∃ s', get? u.attrs "projection" = some (ofObj s') ∧ ∀ k, get? s'.attrs k = get? s.attrs k) ∧
      (∀ k v, get? o.attrs k = some v → k ∉ ["projection", "dispatcher"] →
        (k ∈ sep.getD [] → IsArray v) →
        ∃ x, get? u.attrs k = some x ∧ LoadedAs ["projection", "dispatcher"] 1 v x) ∧
      (∀ v, get? o.attrs "dispatcher" = some v → get? u.attrs "dispatcher" = some (ofLeaf 1 .none)) := by
  unfold lsiSave at h
  split at h
  · simp at h
  rename_i o1 d1 h1
  split at h
  · simp at h
  obtain ⟨u, hu, f1, f2, f3, f4, f5, f6⟩ := stored_loaded big hbig "projection" _ (by simp) _ fname o o1 o'
    d d1 d1 d' ho h1 rfl rfl h
  have hp1 : ∀ k, k ≠ "projection" →
      get? (loadPart "projection" id fname d' u).attrs k = get? u.attrs k := by
    intro k hks
    unfold loadPart
    split
    · rfl
    · split
      · rfl
      · dsimp only
        rw [get?_set_ne _ (Ne.symm hks)]
  refine ⟨loadPart "projection" id fname d' u, ?_, ?_, ?_, ?_⟩
  · unfold lsiLoad
    rw [hu]
  · intro s hs
    obtain ⟨main, s', m1, m2, m3⟩ := f5 s hs
    refine ⟨s', ?_, m3⟩
    unfold loadPart
    rw [m1]
    dsimp only
    rw [m2]
    exact get?_set_self _ _ _
  · intro k v hg hk harr
    obtain ⟨x, hx, hl⟩ := f3 k v hg hk harr
    refine ⟨x, ?_, hl⟩
    rw [hp1 k (fun he => hk (by simp [he]))]
    exact hx
  · intro v hv
    rw [hp1 _ (by decide)]
    exact f4 _ v hv (by simp)

/-- **C119, finding.** `LsiModel.save` does not take `ignore`: it raises, after the projection of an earlier
model of that name was overwritten. -/
theorem C119_lsi_ignore (big : Leaf P A → Bool) (ignore : List String) (sep : Option (List String))
    (fname : List String) (o o1 : Obj String (Val String P A 1)) (d d1 : Disk P A 0)
    (h : savePart big "projection" fname o d = (o1, d1, true)) :
    lsiSave big (some ignore) sep fname o d = (o1, d1, false) := by
  unfold lsiSave
  rw [h]

/-- **C119.** `TfidfModel.load` completes models of earlier versions and changes nothing else. -/
theorem C119_tfidf_defaults {V : Type} (none slope : V) (attrs : PyDict String V) (k : String) :
    get? (tfidfUpgrade none slope attrs) k
      = match get? attrs k with
        | some v => some v
        | .none => if k = "pivot" ∨ k = "smartirs" then some none
          else if k = "slope" then some slope else .none := by
  unfold tfidfUpgrade
  simp only [get?_withDefault]
  by_cases h1 : k = "smartirs"
  · subst h1
    cases get? attrs "smartirs" <;> simp
  · by_cases h2 : k = "slope"
    · subst h2
      cases get? attrs "slope" <;> simp
    · by_cases h3 : k = "pivot"
      · subst h3
        cases get? attrs "pivot" <;> simp
      · cases get? attrs k <;> simp [h1, h2, h3]

/-! ### Examples -/

/-- An LDA model: a state with statistics, topics, a dictionary and a prior. -/
def exLda (stat topic word : Nat) : Obj String (Val String Nat Nat 1) :=
  { book := none
    attrs := [("state", ofObj { book := none, attrs := [("sstats", .arr stat), ("dtype", .plain 64)] }),
      ("id2word", .inl (.plain word)), ("expElogbeta", .inl (.arr topic)), ("alpha", .inl (.arr 3)),
      ("num_topics", .inl (.plain 2)), ("dispatcher", .inl (.plain 7))] }

/-- A disk on which `k` writes succeed. -/
def exDisk (k : Nat) : Disk Nat Nat 0 := ⟨⟨[], k⟩, [], [], []⟩

/-- An array is big if its number is above ten. -/
def topicBig : Leaf Nat Nat → Bool
  | .arr a => decide (10 < a)
  | _ => false


example : NamesOk (exLda 20 30 5) := by
  refine ⟨by unfold WF; decide, ?_⟩
  intro p hp
  simp only [exLda, List.mem_cons, List.not_mem_nil, or_false] at hp
  rcases hp with rfl | rfl | rfl | rfl | rfl | rfl
  · exact ⟨by unfold WF; decide, fun _ _ => trivial⟩
  all_goals trivial

/-- a save that succeeds, and what is loaded -/
example : ∃ o' d', ldaSave topicBig (fun _ => false) [] none ["m"] (exLda 20 30 5) (exDisk 100)
    = (o', d', true) := ⟨_, _, rfl⟩

example : (ldaLoad 0 64 ["m"] (ldaSave topicBig (fun _ => false) [] none ["m"] (exLda 20 30 5)
    (exDisk 100)).2.1).map (fun u => (get? u.attrs "expElogbeta", get? u.attrs "id2word",
      get? u.attrs "dispatcher"))
    = some (some (.inl (.arr 30)), some (.inl (.plain 5)), some (.inl .none)) := rfl

/-- The disk with the model `exLda 20 30 5`, on which `k` more writes succeed. -/
def exDisk2 (k : Nat) : Disk Nat Nat 0 :=
  let d := (ldaSave topicBig (fun _ => false) [] none ["m"] (exLda 20 30 5) (exDisk 100)).2.1
  { d with world := { d.world with budget := k } }

/-- The attribute of the state of a model. -/
def stateAttr (u : Obj String (Val String Nat Nat 1)) (k : String) : Option (Leaf Nat Nat) :=
  match get? u.attrs "state" with
  | some (.inr s) => get? s.attrs k
  | _ => none

/-- **C119, finding.** A save over an earlier model that raises half way leaves a model that loads without
an error and has the new state and the new dictionary with the old topics. -/
theorem C119_crash_mix : ∃ k,
    (ldaSave topicBig (fun _ => false) [] none ["m"] (exLda 21 31 6) (exDisk2 k)).2.2 = false ∧
    (ldaLoad 0 64 ["m"] (ldaSave topicBig (fun _ => false) [] none ["m"] (exLda 21 31 6)
      (exDisk2 k)).2.1).map (fun u => (stateAttr u "sstats", get? u.attrs "id2word",
        get? u.attrs "expElogbeta"))
      = some (some (.arr 21), some (.inl (.plain 6)), some (.inl (.arr 30))) :=
  ⟨3, rfl, rfl⟩

/-- the dictionary of the earlier model -/
example : (ldaLoad 0 64 ["m"] (ldaSave topicBig (fun _ => false) ["id2word"] none ["m"] (exLda 21 31 6)
    (exDisk2 100)).2.1).map (fun u => (get? u.attrs "id2word", get? u.attrs "expElogbeta"))
    = some (some (.inl (.plain 5)), some (.inl (.arr 31))) := rfl

/-- a save that raises at the dictionary -/
example : ∃ o' d', ldaSave topicBig (fun _ => false) [] none ["m"] (exLda 20 30 5) (exDisk 2)
    = (o', d', false) := ⟨_, _, rfl⟩

/-- An LSI model. -/
def exLsi : Obj String (Val String Nat Nat 1) :=
  { book := none
    attrs := [("projection", ofObj { book := none, attrs := [("u", .arr 40), ("s", .arr 2)] }),
      ("id2word", .inl (.plain 5)), ("dispatcher", .inl .none)] }

example : ∃ o' d', lsiSave topicBig none none ["m"] exLsi (exDisk 100) = (o', d', true) := ⟨_, _, rfl⟩

example : ∃ o' d', savePart topicBig "projection" ["m"] exLsi (exDisk 100) = (o', d', true) := ⟨_, _, rfl⟩

end Verif.SaveLoad
