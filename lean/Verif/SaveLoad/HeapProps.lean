import Verif.SaveLoad.Props
import Verif.SaveLoad.HeapModel

/-!
# `SaveLoad` objects that share other objects: properties (C147)
-/

namespace Verif.SaveLoad.Heap
open Verif PyDict Verif.SaveLoad

variable {N P A : Type} [DecidableEq N]

/-! ## Specification -/

/-- attribute `k` of object `i` -/
def attr (h : Heap N P A) (i : Nat) (k : N) : Option (HVal P A) := get? (h i).attrs k

/-- no object has two attributes of one name -/
def Heap.WF (h : Heap N P A) : Prop := ∀ i, PyDict.WF (h i).attrs

/-! ## What saving does to the heap -/

theorem attr_upd (h : Heap N P A) (i : Nat) (o : Obj N (HVal P A)) (j : Nat) (k : N) :
    attr (upd h i o) j k = if j = i then get? o.attrs k else attr h j k := by
  unfold attr upd
  split <;> rfl

theorem upd_self (h : Heap N P A) (i : Nat) (o : Obj N (HVal P A)) : upd h i o i = o := by simp [upd]

theorem upd_ne (h : Heap N P A) {i j : Nat} (hj : j ≠ i) (o : Obj N (HVal P A)) : upd h i o j = h j := by
  simp [upd, hj]

theorem wf_upd {h : Heap N P A} (hw : h.WF) {i : Nat} {o : Obj N (HVal P A)} (ho : PyDict.WF o.attrs) :
    Heap.WF (upd h i o) := by
  intro j
  by_cases hj : j = i
  · subst hj; rwa [upd_self]
  · rw [upd_ne h hj]; exact hw j

theorem aside_spec (names : List N) (a : PyDict N (HVal P A)) (ha : PyDict.WF a) :
    PyDict.WF (putAside names a).1 ∧ PyDict.WF (putAside names a).2 ∧
    (∀ k, get? (putAside names a).1 k = if k ∈ names then none else get? a k) ∧
    (∀ k, get? (putAside names a).2 k = if k ∈ names then get? a k else none) := by
  obtain ⟨h1, h2, h3, h4, _⟩ := get?_putAside names a [] ha WF_nil (by simp [keys])
  refine ⟨h1, h2, h3, fun k => ?_⟩
  refine (h4 k).trans ?_
  by_cases hk : k ∈ names
  · cases hg : get? a k <;> simp [hk]
  · simp [hk]

theorem wf_setAll (s : PyDict N (HVal P A)) : ∀ a, PyDict.WF a → PyDict.WF (setAll a s) := by
  intro a ha
  exact WF_foldl_set s ha

/-- attributes may disappear; none is added or changed -/
def Shrink (h h' : Heap N P A) : Prop := h'.WF ∧ ∀ j k v, attr h' j k = some v → attr h j k = some v

theorem Shrink.refl {h : Heap N P A} (hw : h.WF) : Shrink h h := ⟨hw, fun _ _ _ e => e⟩

theorem Shrink.trans {a b c : Heap N P A} (h1 : Shrink a b) (h2 : Shrink b c) : Shrink a c :=
  ⟨h2.1, fun j k v e => h1.2 j k v (h2.2 j k v e)⟩

abbrev Child (N P A : Type) := List N → Nat → Heap N P A → World N P A →
      Heap N P A × World N P A × Option (Restores N P A)

theorem hChildren_shrink (child : Child N P A)
    (hc : ∀ f j h w, Heap.WF h → Shrink h (child f j h w).1) (f : List N) :
    ∀ (l : PyDict N (HVal P A)) (h : Heap N P A) (w : World N P A), h.WF →
      Shrink h (hChildren child f l h w).1 := by
  intro l
  induction l with
  | nil => intro h w hw; exact Shrink.refl hw
  | cons p l ih =>
    intro h w hw
    obtain ⟨k, v⟩ := p
    cases v with
    | leaf v => exact ih h w hw
    | ref j =>
      have h1 := hc (f ++ [k]) j h w hw
      have e : hChildren child f ((k, .ref j) :: l) h w = (match child (f ++ [k]) j h w with
        | (h, w, none) => (h, w, none)
        | (h, w, some rs) => match hChildren child f l h w with
          | (h, w, none) => (h, w, none)
          | (h, w, some (ks, rs')) => (h, w, some (k :: ks, rs ++ rs'))) := rfl
      rw [e]
      rcases hr : child (f ++ [k]) j h w with ⟨h2, w2, r⟩
      rw [hr] at h1
      cases r with
      | none => exact h1
      | some rs =>
        have h3 := ih h2 w2 h1.1
        simp only
        rcases hr2 : hChildren child f l h2 w2 with ⟨h4, w4, r4⟩
        rw [hr2] at h3
        cases r4 with
        | none => exact h1.trans h3
        | some q => exact h1.trans h3

/-- putting attributes aside on one object -/
theorem shrink_aside {h : Heap N P A} (hw : h.WF) (i : Nat) (names : List N) :
    Shrink h (upd h i { h i with attrs := (putAside names (h i).attrs).1 }) := by
  obtain ⟨h1, _, h3, _⟩ := aside_spec names (h i).attrs (hw i)
  refine ⟨wf_upd hw h1, fun j k v e => ?_⟩
  rw [attr_upd] at e
  by_cases hj : j = i
  · rw [if_pos hj] at e
    simp only [h3 k] at e
    by_cases hk : k ∈ names
    · simp [hk] at e
    · rw [if_neg hk] at e; subst hj; exact e
  · rw [if_neg hj] at e; exact e

theorem hSave_shrink (big : Leaf P A → Bool) (ig : List N) : ∀ (n : Nat) (sep : Option (List N))
    (f : List N) (i : Nat) (h : Heap N P A) (w : World N P A), h.WF →
    Shrink h (hSave big ig n sep f i h w).1 := by
  intro n
  induction n with
  | zero => intro sep f i h w hw; exact Shrink.refl hw
  | succ n ih =>
    intro sep f i h w hw
    have h1 := shrink_aside hw i (sepNames hLeaf big sep (h i).attrs ++ ig)
    have ha := aside_spec (sepNames hLeaf big sep (h i).attrs ++ ig) (h i).attrs (hw i)
    have h2 := hChildren_shrink (hSave big ig n none) (fun f j h w => ih none f j h w) f
      (putAside (sepNames hLeaf big sep (h i).attrs ++ ig) (h i).attrs).1 _ w h1.1
    unfold hSave
    simp only
    rcases hr : hChildren (hSave big ig n none) f (putAside (sepNames hLeaf big sep (h i).attrs ++ ig) (h i).attrs).1
      (upd h i { h i with attrs := (putAside (sepNames hLeaf big sep (h i).attrs ++ ig) (h i).attrs).1 }) w
      with ⟨h3, w3, r⟩
    rw [hr] at h2
    have h4 := h1.trans h2
    cases r with
    | none => exact h4
    | some q =>
      obtain ⟨recs, rs⟩ := q
      simp only
      rcases hs : storeAll hLeaf ig f (putAside (sepNames hLeaf big sep (h i).attrs ++ ig) (h i).attrs).2 w3 with ⟨w5, r5⟩
      cases r5 with
      | none =>
        refine ⟨wf_upd h4.1 (wf_setAll _ _ (h4.1 i)), fun j k v e => ?_⟩
        rw [attr_upd] at e
        by_cases hj : j = i
        · rw [if_pos hj] at e
          simp only [get?_setAll _ _ ha.2.1 k, ha.2.2.2 k] at e
          subst hj
          by_cases hk : k ∈ sepNames hLeaf big sep (h j).attrs ++ ig
          · rw [if_pos hk] at e
            cases hg : get? (h j).attrs k with
            | none => rw [hg] at e; simp only at e; exact h4.2 j k v e
            | some u => rw [hg] at e; simp only at e; rw [← e]; exact hg
          · rw [if_neg hk] at e; simp only at e; exact h4.2 j k v e
        · rw [if_neg hj] at e; exact h4.2 j k v e
      | some q5 =>
        obtain ⟨nps, scs, igs⟩ := q5
        refine ⟨wf_upd h4.1 (h4.1 i), fun j k v e => ?_⟩
        rw [attr_upd] at e
        by_cases hj : j = i
        · rw [if_pos hj] at e; subst hj; exact h4.2 j k v e
        · rw [if_neg hj] at e; exact h4.2 j k v e

/-! ## The object in memory after a save -/

/-- every attribute of `h` is still in `h'` or in `rs`, and `rs` has nothing else -/
def Saved (h h' : Heap N P A) (rs : Restores N P A) : Prop :=
  Shrink h h' ∧ (∀ r ∈ rs, PyDict.WF r.2 ∧ ∀ k v, get? r.2 k = some v → attr h r.1 k = some v) ∧
  ∀ j k v, attr h j k = some v → attr h' j k = some v ∨ ∃ a, (j, a) ∈ rs ∧ get? a k = some v

theorem Saved.refl {h : Heap N P A} (hw : h.WF) : Saved h h [] :=
  ⟨Shrink.refl hw, by simp, fun _ _ _ e => .inl e⟩

theorem Saved.trans {a b c : Heap N P A} {r s : Restores N P A} (h1 : Saved a b r) (h2 : Saved b c s) :
    Saved a c (r ++ s) := by
  obtain ⟨p1, p2, p3⟩ := h1
  obtain ⟨q1, q2, q3⟩ := h2
  refine ⟨p1.trans q1, fun x hx => ?_, fun j k v e => ?_⟩
  · rcases List.mem_append.1 hx with hx | hx
    · exact p2 x hx
    · exact ⟨(q2 x hx).1, fun k v e => p1.2 _ _ _ ((q2 x hx).2 k v e)⟩
  · rcases p3 j k v e with e' | ⟨t, ht, e'⟩
    · rcases q3 j k v e' with e'' | ⟨t, ht, e''⟩
      · exact .inl e''
      · exact .inr ⟨t, List.mem_append_right _ ht, e''⟩
    · exact .inr ⟨t, List.mem_append_left _ ht, e'⟩

theorem hChildren_saved (child : Child N P A)
    (hc : ∀ f j h w h' w' rs, Heap.WF h → child f j h w = (h', w', some rs) → Saved h h' rs)
    (f : List N) : ∀ (l : PyDict N (HVal P A)) (h : Heap N P A) (w : World N P A) (h' w' ks rs), h.WF →
      hChildren child f l h w = (h', w', some (ks, rs)) → Saved h h' rs := by
  intro l
  induction l with
  | nil =>
    intro h w h' w' ks rs hw e
    simp only [hChildren, Prod.mk.injEq, Option.some.injEq] at e
    obtain ⟨rfl, rfl, rfl, rfl⟩ := e
    exact Saved.refl hw
  | cons p l ih =>
    intro h w h' w' ks rs hw e
    obtain ⟨k, v⟩ := p
    cases v with
    | leaf v => exact ih h w h' w' ks rs hw e
    | ref j =>
      have e' : hChildren child f ((k, .ref j) :: l) h w = (match child (f ++ [k]) j h w with
        | (h, w, none) => (h, w, none)
        | (h, w, some rs) => match hChildren child f l h w with
          | (h, w, none) => (h, w, none)
          | (h, w, some (ks, rs')) => (h, w, some (k :: ks, rs ++ rs'))) := rfl
      rw [e'] at e
      rcases hr : child (f ++ [k]) j h w with ⟨h2, w2, r⟩
      rw [hr] at e
      cases r with
      | none => simp at e
      | some rs2 =>
        have h1 := hc _ _ _ _ _ _ _ hw hr
        simp only at e
        rcases hr2 : hChildren child f l h2 w2 with ⟨h4, w4, r4⟩
        rw [hr2] at e
        cases r4 with
        | none => simp at e
        | some q =>
          obtain ⟨ks4, rs4⟩ := q
          simp only [Prod.mk.injEq, Option.some.injEq] at e
          obtain ⟨rfl, rfl, rfl, rfl⟩ := e
          exact h1.trans (ih h2 w2 h4 w4 ks4 rs4 h1.1.1 hr2)

/-- the parts of a save that did not raise -/
theorem hSave_some (big : Leaf P A → Bool) (ig : List N) {n : Nat} {sep : Option (List N)} {f : List N}
    {i : Nat} {h : Heap N P A} {w : World N P A} {h' : Heap N P A} {w' : World N P A}
    {rs : Restores N P A} (e : hSave big ig (n + 1) sep f i h w = (h', w', some rs)) :
    ∃ h1 w1 recs rs1 nps scs igs,
      hChildren (hSave big ig n none) f (putAside (sepNames hLeaf big sep (h i).attrs ++ ig) (h i).attrs).1
        (upd h i { h i with attrs := (putAside (sepNames hLeaf big sep (h i).attrs ++ ig) (h i).attrs).1 }) w
        = (h1, w1, some (recs, rs1)) ∧
      storeAll hLeaf ig f (putAside (sepNames hLeaf big sep (h i).attrs ++ ig) (h i).attrs).2 w1
        = (w', some (nps, scs, igs)) ∧
      h' = upd h1 i ⟨some ⟨nps, scs, igs, recs⟩, (h1 i).attrs⟩ ∧
      rs = rs1 ++ [(i, (putAside (sepNames hLeaf big sep (h i).attrs ++ ig) (h i).attrs).2)] := by
  unfold hSave at e
  simp only at e
  rcases hr : hChildren (hSave big ig n none) f (putAside (sepNames hLeaf big sep (h i).attrs ++ ig) (h i).attrs).1
      (upd h i { h i with attrs := (putAside (sepNames hLeaf big sep (h i).attrs ++ ig) (h i).attrs).1 }) w
      with ⟨h1, w1, r⟩
  rw [hr] at e
  cases r with
  | none => simp at e
  | some q =>
    obtain ⟨recs, rs1⟩ := q
    simp only at e
    rcases hs : storeAll hLeaf ig f (putAside (sepNames hLeaf big sep (h i).attrs ++ ig) (h i).attrs).2 w1 with ⟨w5, r5⟩
    rw [hs] at e
    cases r5 with
    | none => simp at e
    | some q5 =>
      obtain ⟨nps, scs, igs⟩ := q5
      simp only [Prod.mk.injEq, Option.some.injEq] at e
      obtain ⟨rfl, rfl, rfl⟩ := e
      exact ⟨h1, w1, recs, rs1, nps, scs, igs, rfl, hs, rfl, rfl⟩

theorem hSave_saved (big : Leaf P A → Bool) (ig : List N) : ∀ (n : Nat) (sep : Option (List N))
    (f : List N) (i : Nat) (h : Heap N P A) (w : World N P A) (h' w' rs), h.WF →
    hSave big ig n sep f i h w = (h', w', some rs) → Saved h h' rs := by
  intro n
  induction n with
  | zero => intro sep f i h w h' w' rs _ e; simp [hSave] at e
  | succ n ih =>
    intro sep f i h w h' w' rs hw e7
    have ha := aside_spec (sepNames hLeaf big sep (h i).attrs ++ ig) (h i).attrs (hw i)
    have h0 := shrink_aside hw i (sepNames hLeaf big sep (h i).attrs ++ ig)
    obtain ⟨h1, w1, recs, rs1, nps, scs, igs, e1, _, rfl, rfl⟩ := hSave_some big ig e7
    clear e7
    obtain ⟨s1, s2, s3⟩ := hChildren_saved _ (fun f j h w h' w' rs => ih none f j h w h' w' rs) f _ _ _ _ _ _ _ h0.1 e1
    have hat : ∀ j k, attr (upd h1 i ⟨some ⟨nps, scs, igs, recs⟩, (h1 i).attrs⟩) j k = attr h1 j k := by
      intro j k
      rw [attr_upd]
      split
      · rename_i hj; subst hj; rfl
      · rfl
    refine ⟨⟨wf_upd s1.1 (s1.1 i), fun j k v e => ?_⟩, fun r hr => ?_, fun j k v e => ?_⟩
    · rw [hat] at e
      exact (h0.trans s1).2 j k v e
    · rcases List.mem_append.1 hr with hr | hr
      · exact ⟨(s2 r hr).1, fun k v e => h0.2 _ _ _ ((s2 r hr).2 k v e)⟩
      · rw [List.mem_singleton] at hr
        subst hr
        refine ⟨ha.2.1, fun k v e => ?_⟩
        simp only [ha.2.2.2 k] at e
        split at e
        · exact e
        · simp at e
    · rw [hat]
      by_cases hk : j = i ∧ k ∈ sepNames hLeaf big sep (h i).attrs ++ ig
      · obtain ⟨rfl, hk⟩ := hk
        refine .inr ⟨_, List.mem_append_right _ (List.mem_singleton.2 rfl), ?_⟩
        rw [ha.2.2.2 k, if_pos hk]; exact e
      · have e2 : attr (upd h i { h i with attrs := (putAside (sepNames hLeaf big sep (h i).attrs ++ ig) (h i).attrs).1 }) j k = some v := by
          rw [attr_upd]
          by_cases hj : j = i
          · subst hj
            rw [if_pos rfl]
            simp only [ha.2.2.1 k]
            rw [if_neg (fun hk' => hk ⟨rfl, hk'⟩)]
            exact e
          · rw [if_neg hj]; exact e
        rcases s3 j k v e2 with e3 | ⟨a, ha', e3⟩
        · exact .inl e3
        · exact .inr ⟨a, List.mem_append_left _ ha', e3⟩

theorem restore_spec (h : Heap N P A) : ∀ (rs : Restores N P A) (g : Heap N P A),
    (∀ r ∈ rs, PyDict.WF r.2 ∧ ∀ k v, get? r.2 k = some v → attr h r.1 k = some v) →
    (∀ j k v, attr g j k = some v → attr h j k = some v) →
    (∀ j k v, attr h j k = some v → attr g j k = some v ∨ ∃ a, (j, a) ∈ rs ∧ get? a k = some v) →
    ∀ j k, attr (restore g rs) j k = attr h j k := by
  intro rs
  induction rs with
  | nil =>
    intro g _ h2 h3 j k
    change attr g j k = attr h j k
    cases hg : attr g j k with
    | some v => exact (h2 j k v hg).symm
    | none =>
      cases hh : attr h j k with
      | none => rfl
      | some v => rcases h3 j k v hh with e | ⟨a, ha, _⟩
                  · rw [hg] at e; simp at e
                  · simp at ha
  | cons r rs ih =>
    intro g h1 h2 h3
    obtain ⟨i, a⟩ := r
    have hr := h1 (i, a) (by simp)
    have hat : ∀ j k, attr (upd g i { g i with attrs := setAll (g i).attrs a }) j k =
        if j = i then (match get? a k with | some v => some v | none => attr g i k) else attr g j k := by
      intro j k
      rw [attr_upd]
      by_cases hj : j = i
      · rw [if_pos hj, if_pos hj]
        simp only [get?_setAll _ _ hr.1 k]
        cases get? a k <;> rfl
      · rw [if_neg hj, if_neg hj]
    change ∀ j k, attr (restore (upd g i { g i with attrs := setAll (g i).attrs a }) rs) j k = attr h j k
    refine ih _ (fun r hr' => h1 r (List.mem_cons_of_mem _ hr')) (fun j k v e => ?_) (fun j k v e => ?_)
    · rw [hat] at e
      by_cases hj : j = i
      · rw [if_pos hj] at e
        subst hj
        cases hg : get? a k with
        | some u => rw [hg] at e; simp only at e; rw [← e]; exact hr.2 k u hg
        | none => rw [hg] at e; simp only at e; exact h2 j k v e
      · rw [if_neg hj] at e; exact h2 j k v e
    · rw [hat]
      rcases h3 j k v e with e' | ⟨b, hb, e'⟩
      · left
        by_cases hj : j = i
        · rw [if_pos hj]
          subst hj
          cases hg : get? a k with
          | none => exact e'
          | some u =>
            have := hr.2 k u hg
            simp only at this ⊢
            rw [← e, this]
        · rw [if_neg hj]; exact e'
      · rcases List.mem_cons.1 hb with hb | hb
        · left
          obtain ⟨rfl, rfl⟩ := Prod.mk.inj hb
          rw [if_pos rfl, e']
        · exact .inr ⟨b, hb, e'⟩

/-- **C147** However objects are shared, once everything has been put aside and stored, every object in
memory has all its attributes back, whether writing the pickle itself succeeds or raises. -/
theorem C147_memory (big : Leaf P A → Bool) (ig : List N) (depth : Nat) (sep : Option (List N))
    (fname : List N) (i : Nat) (h : Heap N P A) (w : World N P A) (hw : h.WF)
    (hs : (hSave big ig depth sep fname i h w).2.2.isSome) (j : Nat) (k : N) :
    attr (hSmartSave big ig depth sep fname i h w).1 j k = attr h j k := by
  rcases hr : hSave big ig depth sep fname i h w with ⟨h', w', r⟩
  rw [hr] at hs
  cases r with
  | none => simp at hs
  | some rs =>
    obtain ⟨s1, s2, s3⟩ := hSave_saved big ig _ _ _ _ _ _ _ _ _ hw hr
    have := restore_spec h rs h' s2 s1.2 s3 j k
    unfold hSmartSave
    rw [hr]
    simp only
    split <;> exact this

/-! ## Objects that refer back to each other -/

/-- every object of `C` refers to an object of `C`, by an attribute that is not among `excluded` -/
def Cyclic (excluded : List N) (C : Nat → Prop) (h : Heap N P A) : Prop :=
  ∀ i, C i → ∃ k j, attr h i k = some (.ref j) ∧ C j ∧ k ∉ excluded

theorem ref_not_sep (big : Leaf P A → Bool) {a : PyDict N (HVal P A)} (ha : PyDict.WF a) {k : N} {j : Nat}
    (hk : get? a k = some (.ref j)) : k ∉ sepNames hLeaf big none a := by
  intro hm
  unfold sepNames keys at hm
  simp only [List.mem_map, List.mem_filter] at hm
  obtain ⟨⟨k', v⟩, ⟨hm, hb⟩, rfl⟩ := hm
  rw [get?_of_mem ha hm] at hk
  injection hk with hk
  subst hk
  simp [hLeaf] at hb

theorem hChildren_refs (ig : List N) (child : Child N P A)
    (hc : ∀ f j h w h' w' rs, Heap.WF h → child f j h w = (h', w', some rs) →
      Saved h h' rs ∧ ∀ r ∈ rs, ∀ k j, get? r.2 k = some (.ref j) → k ∈ ig)
    (f : List N) : ∀ (l : PyDict N (HVal P A)) (h : Heap N P A) (w : World N P A) (h' w' ks rs), h.WF →
      hChildren child f l h w = (h', w', some (ks, rs)) →
      ∀ r ∈ rs, ∀ k j, get? r.2 k = some (.ref j) → k ∈ ig := by
  intro l
  induction l with
  | nil =>
    intro h w h' w' ks rs hw e
    simp only [hChildren, Prod.mk.injEq, Option.some.injEq] at e
    obtain ⟨rfl, rfl, rfl, rfl⟩ := e
    simp
  | cons p l ih =>
    intro h w h' w' ks rs hw e
    obtain ⟨k, v⟩ := p
    cases v with
    | leaf v => exact ih h w h' w' ks rs hw e
    | ref j =>
      have e' : hChildren child f ((k, .ref j) :: l) h w = (match child (f ++ [k]) j h w with
        | (h, w, none) => (h, w, none)
        | (h, w, some rs) => match hChildren child f l h w with
          | (h, w, none) => (h, w, none)
          | (h, w, some (ks, rs')) => (h, w, some (k :: ks, rs ++ rs'))) := rfl
      rw [e'] at e
      rcases hr : child (f ++ [k]) j h w with ⟨h2, w2, r⟩
      rw [hr] at e
      cases r with
      | none => simp at e
      | some rs2 =>
        have h1 := hc _ _ _ _ _ _ _ hw hr
        simp only at e
        rcases hr2 : hChildren child f l h2 w2 with ⟨h4, w4, r4⟩
        rw [hr2] at e
        cases r4 with
        | none => simp at e
        | some q =>
          obtain ⟨ks4, rs4⟩ := q
          simp only [Prod.mk.injEq, Option.some.injEq] at e
          obtain ⟨rfl, rfl, rfl, rfl⟩ := e
          intro r hr'
          rcases List.mem_append.1 hr' with hr' | hr'
          · exact h1.2 r hr'
          · exact ih h2 w2 h4 w4 ks4 rs4 h1.1.1.1 hr2 r hr'

/-- objects put aside during a recursive call are those under ignored attributes -/
theorem hSave_refs (big : Leaf P A → Bool) (ig : List N) : ∀ (n : Nat)
    (f : List N) (i : Nat) (h : Heap N P A) (w : World N P A) (h' w' rs), h.WF →
    hSave big ig n none f i h w = (h', w', some rs) →
    ∀ r ∈ rs, ∀ k j, get? r.2 k = some (.ref j) → k ∈ ig := by
  intro n
  induction n with
  | zero => intro f i h w h' w' rs _ e; simp [hSave] at e
  | succ n ih =>
    intro f i h w h' w' rs hw e7
    have ha := aside_spec (sepNames hLeaf big none (h i).attrs ++ ig) (h i).attrs (hw i)
    have h0 := shrink_aside hw i (sepNames hLeaf big none (h i).attrs ++ ig)
    obtain ⟨h1, w1, recs, rs1, nps, scs, igs, e1, _, rfl, rfl⟩ := hSave_some big ig e7
    have hc := hChildren_refs ig _ (fun f j h w h' w' rs hw e =>
      ⟨hSave_saved big ig n none f j h w h' w' rs hw e, ih f j h w h' w' rs hw e⟩) f _ _ _ _ _ _ _ h0.1 e1
    intro r hr
    rcases List.mem_append.1 hr with hr | hr
    · exact hc r hr
    · rw [List.mem_singleton] at hr
      subst hr
      intro k j e
      simp only [ha.2.2.2 k] at e
      split at e
      · rename_i hk
        rcases List.mem_append.1 hk with hk | hk
        · exact absurd hk (ref_not_sep big (hw i) e)
        · exact hk
      · simp at e

/-- references survive a recursive call, unless they are ignored -/
theorem hSave_keeps (big : Leaf P A → Bool) (ig : List N) (n : Nat)
    (f : List N) (i : Nat) (h : Heap N P A) (w : World N P A) (h' w' rs) (hw : h.WF)
    (e : hSave big ig n none f i h w = (h', w', some rs)) (j : Nat) (k : N) (r : Nat) (hk : k ∉ ig)
    (ha : attr h j k = some (.ref r)) : attr h' j k = some (.ref r) := by
  rcases (hSave_saved big ig _ _ _ _ _ _ _ _ _ hw e).2.2 j k _ ha with h1 | ⟨a, h1, h2⟩
  · exact h1
  · exact absurd (hSave_refs big ig _ _ _ _ _ _ _ _ hw e _ h1 k r h2) hk

theorem Cyclic.keep {ex ig : List N} (hex : ∀ k ∈ ig, k ∈ ex) {C : Nat → Prop} {h h' : Heap N P A}
    (hc : Cyclic ex C h)
    (hk : ∀ j k r, k ∉ ig → attr h j k = some (.ref r) → attr h' j k = some (.ref r)) : Cyclic ex C h' := by
  intro i hi
  obtain ⟨k, j, h1, h2, h3⟩ := hc i hi
  exact ⟨k, j, hk i k j (fun hm => h3 (hex k hm)) h1, h2, h3⟩

theorem hChildren_cyclic (big : Leaf P A → Bool) (ig ex : List N) (hex : ∀ k ∈ ig, k ∈ ex)
    (C : Nat → Prop) (n : Nat)
    (ih : ∀ f i h (w : World N P A), Heap.WF h → Cyclic ex C h → C i → (hSave big ig n none f i h w).2.2 = none)
    (f : List N) : ∀ (l : PyDict N (HVal P A)) (h : Heap N P A) (w : World N P A), h.WF →
      Cyclic ex C h → (∃ k j, (k, .ref j) ∈ l ∧ C j) →
      (hChildren (hSave big ig n none) f l h w).2.2 = none := by
  intro l
  induction l with
  | nil => intro h w _ _ hj; simp at hj
  | cons p l ihl =>
    intro h w hw hc hj
    obtain ⟨k, v⟩ := p
    cases v with
    | leaf v =>
      refine ihl h w hw hc ?_
      obtain ⟨k', j', hm, hj'⟩ := hj
      refine ⟨k', j', ?_, hj'⟩
      rcases List.mem_cons.1 hm with hm | hm
      · simp at hm
      · exact hm
    | ref j =>
      have e' : hChildren (hSave big ig n none) f ((k, .ref j) :: l) h w =
        (match hSave big ig n none (f ++ [k]) j h w with
        | (h, w, none) => (h, w, none)
        | (h, w, some rs) => match hChildren (hSave big ig n none) f l h w with
          | (h, w, none) => (h, w, none)
          | (h, w, some (ks, rs')) => (h, w, some (k :: ks, rs ++ rs'))) := rfl
      rw [e']
      rcases hr : hSave big ig n none (f ++ [k]) j h w with ⟨h2, w2, r⟩
      cases r with
      | none => rfl
      | some rs2 =>
        simp only
        have hs := hSave_saved big ig _ _ _ _ _ _ _ _ _ hw hr
        have hcj : ¬ C j := by
          intro hcj
          have := ih (f ++ [k]) j h w hw hc hcj
          rw [hr] at this
          simp at this
        have h5 := ihl h2 w2 hs.1.1
          (hc.keep hex (fun j k r hk ha => hSave_keeps big ig _ _ _ _ _ _ _ _ hw hr j k r hk ha)) (by
            obtain ⟨k', j', hm, hj'⟩ := hj
            refine ⟨k', j', ?_, hj'⟩
            rcases List.mem_cons.1 hm with hm | hm
            · simp only [Prod.mk.injEq, HVal.ref.injEq] at hm
              exact absurd (hm.2 ▸ hj') hcj
            · exact hm)
        rcases hr2 : hChildren (hSave big ig n none) f l h2 w2 with ⟨h4, w4, r4⟩
        rw [hr2] at h5
        cases r4 with
        | none => rfl
        | some q => simp at h5

/-- the loop over the children raises when the object saved is in a cycle -/
theorem children_raise (big : Leaf P A → Bool) (ig : List N) (sep : Option (List N)) (C : Nat → Prop)
    (n : Nat)
    (ih : ∀ f i h (w : World N P A), Heap.WF h → Cyclic (ig ++ sep.getD []) C h → C i →
      (hSave big ig n none f i h w).2.2 = none)
    (f : List N) (i : Nat) (h : Heap N P A) (w : World N P A) (hw : h.WF)
    (hc : Cyclic (ig ++ sep.getD []) C h) (hi : C i) :
    (hChildren (hSave big ig n none) f (putAside (sepNames hLeaf big sep (h i).attrs ++ ig) (h i).attrs).1
        (upd h i { h i with attrs := (putAside (sepNames hLeaf big sep (h i).attrs ++ ig) (h i).attrs).1 }) w).2.2
      = none := by
  have ha := aside_spec (sepNames hLeaf big sep (h i).attrs ++ ig) (h i).attrs (hw i)
  have h0 := shrink_aside hw i (sepNames hLeaf big sep (h i).attrs ++ ig)
  have hn : ∀ k j, attr h i k = some (.ref j) → k ∉ ig ++ sep.getD [] →
      k ∉ sepNames hLeaf big sep (h i).attrs ++ ig := by
    intro k j hg hk hm
    rcases List.mem_append.1 hm with hm | hm
    · cases sep with
      | none => exact ref_not_sep big (hw i) hg hm
      | some s => exact hk (List.mem_append_right _ hm)
    · exact hk (List.mem_append_left _ hm)
  refine hChildren_cyclic big ig (ig ++ sep.getD []) (fun k hk => List.mem_append_left _ hk) C n ih f _ _ w
    h0.1 ?_ ?_
  · intro i' hi'
    obtain ⟨k, j, h1, h2, h3⟩ := hc i' hi'
    refine ⟨k, j, ?_, h2, h3⟩
    rw [attr_upd]
    by_cases hj : i' = i
    · subst hj
      rw [if_pos rfl]
      simp only [ha.2.2.1 k]
      rw [if_neg (hn k j h1 h3)]
      exact h1
    · rw [if_neg hj]; exact h1
  · obtain ⟨k, j, h1, h2, h3⟩ := hc i hi
    refine ⟨k, j, mem_of_get? ?_, h2⟩
    rw [ha.2.2.1 k, if_neg (hn k j h1 h3)]
    exact h1

theorem hSave_raises {big : Leaf P A → Bool} {ig : List N} {n : Nat} {sep : Option (List N)} {f : List N}
    {i : Nat} {h : Heap N P A} {w : World N P A}
    (e : (hChildren (hSave big ig n none) f (putAside (sepNames hLeaf big sep (h i).attrs ++ ig) (h i).attrs).1
        (upd h i { h i with attrs := (putAside (sepNames hLeaf big sep (h i).attrs ++ ig) (h i).attrs).1 }) w).2.2
      = none) :
    hSave big ig (n + 1) sep f i h w =
      ((hChildren (hSave big ig n none) f (putAside (sepNames hLeaf big sep (h i).attrs ++ ig) (h i).attrs).1
        (upd h i { h i with attrs := (putAside (sepNames hLeaf big sep (h i).attrs ++ ig) (h i).attrs).1 }) w).1,
      (hChildren (hSave big ig n none) f (putAside (sepNames hLeaf big sep (h i).attrs ++ ig) (h i).attrs).1
        (upd h i { h i with attrs := (putAside (sepNames hLeaf big sep (h i).attrs ++ ig) (h i).attrs).1 }) w).2.1,
      none) := by
  conv_lhs => unfold hSave
  simp only
  rcases hr : hChildren (hSave big ig n none) f (putAside (sepNames hLeaf big sep (h i).attrs ++ ig) (h i).attrs).1
      (upd h i { h i with attrs := (putAside (sepNames hLeaf big sep (h i).attrs ++ ig) (h i).attrs).1 }) w
      with ⟨h1, w1, r⟩
  rw [hr] at e
  simp only at e
  subst e
  rfl

theorem hSave_cyclic (big : Leaf P A → Bool) (ig : List N) (C : Nat → Prop) :
    ∀ (n : Nat) (f : List N) (i : Nat) (h : Heap N P A) (w : World N P A), h.WF →
    Cyclic ig C h → C i → (hSave big ig n none f i h w).2.2 = none := by
  intro n
  induction n with
  | zero => intro f i h w _ _ _; rfl
  | succ n ih =>
    intro f i h w hw hc hi
    have := children_raise big ig none C n (fun f i h w hw hc hi =>
      ih f i h w hw (by simpa using hc) hi) f i h w hw (by simpa using hc) hi
    rw [hSave_raises this]

theorem Cyclic.mono {ex ex' : List N} (hs : ∀ k ∈ ex, k ∈ ex') {C : Nat → Prop} {h : Heap N P A}
    (hc : Cyclic ex' C h) : Cyclic ex C h := by
  intro i hi
  obtain ⟨k, j, h1, h2, h3⟩ := hc i hi
  exact ⟨k, j, h1, h2, fun hk => h3 (hs k hk)⟩

/-- **C147** Saving an object that is part of a cycle of objects raises, however deep the interpreter
may recurse and whatever can be written. -/
theorem C147_cycle_raises (big : Leaf P A → Bool) (ig : List N) (depth : Nat) (sep : Option (List N))
    (fname : List N) (i : Nat) (h : Heap N P A) (w : World N P A) (hw : h.WF) (C : Nat → Prop)
    (hc : Cyclic (ig ++ sep.getD []) C h) (hi : C i) :
    (hSmartSave big ig depth sep fname i h w).2.2 = none := by
  have e : (hSave big ig depth sep fname i h w).2.2 = none := by
    cases depth with
    | zero => rfl
    | succ n =>
      rw [hSave_raises (children_raise big ig sep C n (fun f i h w hw hc hi =>
        hSave_cyclic big ig C n f i h w hw (hc.mono (fun k hk => List.mem_append_left _ hk)) hi)
        fname i h w hw hc hi)]
  unfold hSmartSave
  rcases hr : hSave big ig depth sep fname i h w with ⟨h', w', r⟩
  rw [hr] at e
  simp only at e
  subst e
  rfl

/-- **C147** ... and its big arrays are gone from memory afterwards. -/
theorem C147_cycle_loses (big : Leaf P A → Bool) (ig : List N) (depth : Nat)
    (fname : List N) (i : Nat) (h : Heap N P A) (w : World N P A) (hw : h.WF) (C : Nat → Prop)
    (hc : Cyclic ig C h) (hi : C i) (hd : 0 < depth) (x : N) (v : Leaf P A)
    (hx : attr h i x = some (.leaf v)) (hb : big v = true) :
    attr (hSmartSave big ig depth none fname i h w).1 i x = none := by
  obtain ⟨n, rfl⟩ : ∃ n, depth = n + 1 := ⟨depth - 1, by omega⟩
  have e := hSave_raises (children_raise big ig none C n (fun f i h w hw hc hi =>
        hSave_cyclic big ig C n f i h w hw (hc.mono (fun k hk => List.mem_append_left _ hk)) hi)
        fname i h w hw (by simpa using hc) hi)
  have ha := aside_spec (sepNames hLeaf big none (h i).attrs ++ ig) (h i).attrs (hw i)
  have h0 := shrink_aside hw i (sepNames hLeaf big none (h i).attrs ++ ig)
  have h1 := hChildren_shrink (hSave big ig n none) (fun f j h w => hSave_shrink big ig n none f j h w) fname
      (putAside (sepNames hLeaf big none (h i).attrs ++ ig) (h i).attrs).1 _ w h0.1
  have hxs : x ∈ sepNames hLeaf big none (h i).attrs ++ ig := by
    refine List.mem_append_left _ ?_
    unfold sepNames keys
    simp only [List.mem_map, List.mem_filter]
    exact ⟨(x, .leaf v), ⟨mem_of_get? hx, by simpa [hLeaf] using hb⟩, rfl⟩
  unfold hSmartSave
  rw [e]
  simp only
  cases hg : attr (hChildren (hSave big ig n none) fname (putAside (sepNames hLeaf big none (h i).attrs ++ ig) (h i).attrs).1
        (upd h i { h i with attrs := (putAside (sepNames hLeaf big none (h i).attrs ++ ig) (h i).attrs).1 }) w).1 i x with
  | none => rfl
  | some u =>
    have h2 := h1.2 i x u hg
    rw [attr_upd, if_pos rfl] at h2
    simp only [ha.2.2.1 x, if_pos hxs] at h2
    simp at h2

/-! ## An object held by two attributes -/

/-- nothing of object `c` would be put aside -/
def Clean (big : Leaf P A → Bool) (ig : List N) (h : Heap N P A) (c : Nat) : Prop :=
  ∀ k v, attr h c k = some v → k ∉ ig ∧ ∀ l, v = .leaf l → big l = false

/-- the bookkeeping of object `c` lists no array, no matrix and no ignored attribute -/
def NoBook (h : Heap N P A) (c : Nat) : Prop := ∃ recs, (h c).book = some ⟨[], [], [], recs⟩

theorem Clean.shrink {big : Leaf P A → Bool} {ig : List N} {h h' : Heap N P A} {c : Nat}
    (hc : Clean big ig h c) (hs : Shrink h h') : Clean big ig h' c :=
  fun k v e => hc k v (hs.2 c k v e)

/-- nothing is put aside when nothing has to be -/
theorem aside_clean {big : Leaf P A → Bool} {ig : List N} {h : Heap N P A} {c : Nat} (hw : h.WF)
    (hc : Clean big ig h c) :
    (putAside (sepNames hLeaf big none (h c).attrs ++ ig) (h c).attrs).2 = [] := by
  have ha := aside_spec (sepNames hLeaf big none (h c).attrs ++ ig) (h c).attrs (hw c)
  have hn : ∀ k, get? (putAside (sepNames hLeaf big none (h c).attrs ++ ig) (h c).attrs).2 k = none := by
    intro k
    rw [ha.2.2.2 k]
    split
    · rename_i hk
      cases hg : get? (h c).attrs k with
      | none => rfl
      | some v =>
        obtain ⟨h1, h2⟩ := hc k v hg
        rcases List.mem_append.1 hk with hk | hk
        · unfold sepNames keys at hk
          simp only [List.mem_map, List.mem_filter] at hk
          obtain ⟨⟨k', u⟩, ⟨hm, hb⟩, rfl⟩ := hk
          rw [get?_of_mem (hw c) hm] at hg
          injection hg with hg
          subst hg
          cases u with
          | leaf l => have := h2 l rfl; simp [hLeaf, this] at hb
          | ref j => simp [hLeaf] at hb
        · exact absurd hk h1
    · rfl
  rcases hl : (putAside (sepNames hLeaf big none (h c).attrs ++ ig) (h c).attrs).2 with _ | ⟨p, l⟩
  · rfl
  · have := hn p.1
    rw [hl] at this
    rw [show p :: l = (p.1, p.2) :: l from rfl, get?_cons] at this
    simp at this

/-- after an object was visited nothing of it would be put aside -/
theorem hSave_clean (big : Leaf P A → Bool) (ig : List N) (n : Nat)
    (f : List N) (c : Nat) (h : Heap N P A) (w : World N P A) (h' w' rs) (hw : h.WF)
    (e7 : hSave big ig n none f c h w = (h', w', some rs)) : Clean big ig h' c := by
  cases n with
  | zero => simp [hSave] at e7
  | succ n =>
    have ha := aside_spec (sepNames hLeaf big none (h c).attrs ++ ig) (h c).attrs (hw c)
    have h0 := shrink_aside hw c (sepNames hLeaf big none (h c).attrs ++ ig)
    obtain ⟨h1, w1, recs, rs1, nps, scs, igs, e1, _, rfl, rfl⟩ := hSave_some big ig e7
    have h2 := hChildren_shrink (hSave big ig n none) (fun f j h w => hSave_shrink big ig n none f j h w) f
      (putAside (sepNames hLeaf big none (h c).attrs ++ ig) (h c).attrs).1 _ w h0.1
    rw [e1] at h2
    intro k v e
    rw [attr_upd, if_pos rfl] at e
    have e2 := h2.2 c k v e
    rw [attr_upd, if_pos rfl] at e2
    simp only [ha.2.2.1 k] at e2
    split at e2
    · simp at e2
    · rename_i hk
      rw [List.mem_append, not_or] at hk
      refine ⟨hk.2, fun l hl => ?_⟩
      subst hl
      cases hb : big l with
      | false => rfl
      | true =>
        refine absurd ?_ hk.1
        unfold sepNames keys
        simp only [List.mem_map, List.mem_filter]
        exact ⟨(k, .leaf l), ⟨mem_of_get? e2, by simpa [hLeaf] using hb⟩, rfl⟩

/-- a property of the heap that recursive calls keep is kept by the loop over the children -/
theorem hChildren_inv (child : Child N P A) (I : Heap N P A → Prop)
    (hc : ∀ f j h w h' w' rs, I h → child f j h w = (h', w', some rs) → I h') (f : List N) :
    ∀ (l : PyDict N (HVal P A)) (h : Heap N P A) (w : World N P A) (h' w' ks rs), I h →
      hChildren child f l h w = (h', w', some (ks, rs)) → I h' := by
  intro l
  induction l with
  | nil =>
    intro h w h' w' ks rs hi e
    simp only [hChildren, Prod.mk.injEq] at e
    rw [← e.1]; exact hi
  | cons p l ih =>
    intro h w h' w' ks rs hi e
    obtain ⟨k, v⟩ := p
    cases v with
    | leaf v => exact ih h w h' w' ks rs hi e
    | ref j =>
      have e' : hChildren child f ((k, .ref j) :: l) h w = (match child (f ++ [k]) j h w with
        | (h, w, none) => (h, w, none)
        | (h, w, some rs) => match hChildren child f l h w with
          | (h, w, none) => (h, w, none)
          | (h, w, some (ks, rs')) => (h, w, some (k :: ks, rs ++ rs'))) := rfl
      rw [e'] at e
      rcases hr : child (f ++ [k]) j h w with ⟨h2, w2, r⟩
      rw [hr] at e
      cases r with
      | none => simp at e
      | some rs2 =>
        simp only at e
        rcases hr2 : hChildren child f l h2 w2 with ⟨h4, w4, r4⟩
        rw [hr2] at e
        cases r4 with
        | none => simp at e
        | some q =>
          obtain ⟨ks4, rs4⟩ := q
          simp only [Prod.mk.injEq] at e
          rw [← e.1]
          exact ih h2 w2 h4 w4 ks4 rs4 (hc _ _ _ _ _ _ _ hi hr) hr2

/-- the state of an object visited more than once -/
def Twice (big : Leaf P A → Bool) (ig : List N) (c : Nat) (h : Heap N P A) : Prop :=
  h.WF ∧ Clean big ig h c ∧ NoBook h c

/-- visiting an object from which everything was put aside leaves empty bookkeeping -/
theorem hSave_second (big : Leaf P A → Bool) (ig : List N) (n : Nat)
    (f : List N) (c : Nat) (h : Heap N P A) (w : World N P A) (h' w' rs) (hw : h.WF)
    (hc : Clean big ig h c)
    (e7 : hSave big ig n none f c h w = (h', w', some rs)) : Twice big ig c h' := by
  refine ⟨?_, hSave_clean big ig n f c h w h' w' rs hw e7, ?_⟩
  · have := (hSave_shrink big ig n none f c h w hw).1
    rwa [e7] at this
  · cases n with
    | zero => simp [hSave] at e7
    | succ n =>
      obtain ⟨h1, w1, recs, rs1, nps, scs, igs, _, e2, rfl, rfl⟩ := hSave_some big ig e7
      rw [aside_clean hw hc] at e2
      simp only [storeAll, Prod.mk.injEq, Option.some.injEq] at e2
      obtain ⟨_, rfl, rfl, rfl⟩ := e2
      exact ⟨recs, by rw [upd_self]⟩

theorem hSave_twice (big : Leaf P A → Bool) (ig : List N) (c : Nat) : ∀ (n : Nat)
    (f : List N) (i : Nat) (h : Heap N P A) (w : World N P A) (h' w' rs), Twice big ig c h →
    hSave big ig n none f i h w = (h', w', some rs) → Twice big ig c h' := by
  intro n
  induction n with
  | zero => intro f i h w h' w' rs _ e; simp [hSave] at e
  | succ n ih =>
    intro f i h w h' w' rs ht e7
    by_cases hi : i = c
    · subst hi; exact hSave_second big ig _ f i h w h' w' rs ht.1 ht.2.1 e7
    · have h0 := shrink_aside ht.1 i (sepNames hLeaf big none (h i).attrs ++ ig)
      obtain ⟨h1, w1, recs, rs1, nps, scs, igs, e1, _, rfl, rfl⟩ := hSave_some big ig e7
      obtain ⟨t1, t2, t3⟩ := hChildren_inv _ (Twice big ig c) (fun f j h w h' w' rs => ih f j h w h' w' rs) f _ _ _ _ _ _ _
        ⟨h0.1, ht.2.1.shrink h0, by
          obtain ⟨r, hr⟩ := ht.2.2
          exact ⟨r, by rw [upd_ne h (fun hc => hi hc.symm)]; exact hr⟩⟩ e1
      refine ⟨wf_upd t1 (t1 i), fun k v e => ?_, ?_⟩
      · rw [attr_upd, if_neg (fun hc => hi hc.symm)] at e
        exact t2 k v e
      · obtain ⟨r, hr⟩ := t3
        exact ⟨r, by rw [upd_ne h1 (fun hc => hi hc.symm)]; exact hr⟩

/-- the loop over the children, when one object was visited and is met again -/
theorem hChildren_again (big : Leaf P A → Bool) (ig : List N) (c : Nat) (n : Nat) (f : List N) :
    ∀ (l : PyDict N (HVal P A)) (h : Heap N P A) (w : World N P A) (h' w' ks rs), h.WF → Clean big ig h c →
      (∃ k, (k, .ref c) ∈ l) →
      hChildren (hSave big ig n none) f l h w = (h', w', some (ks, rs)) → Twice big ig c h' := by
  intro l
  induction l with
  | nil => intro h w h' w' ks rs _ _ hm; simp at hm
  | cons p l ih =>
    intro h w h' w' ks rs hw hc hm e
    obtain ⟨k, v⟩ := p
    cases v with
    | leaf v => exact ih h w h' w' ks rs hw hc (by simpa using hm) e
    | ref j =>
      have e' : hChildren (hSave big ig n none) f ((k, .ref j) :: l) h w =
        (match hSave big ig n none (f ++ [k]) j h w with
        | (h, w, none) => (h, w, none)
        | (h, w, some rs) => match hChildren (hSave big ig n none) f l h w with
          | (h, w, none) => (h, w, none)
          | (h, w, some (ks, rs')) => (h, w, some (k :: ks, rs ++ rs'))) := rfl
      rw [e'] at e
      rcases hr : hSave big ig n none (f ++ [k]) j h w with ⟨h2, w2, r⟩
      rw [hr] at e
      cases r with
      | none => simp at e
      | some rs2 =>
        simp only at e
        rcases hr2 : hChildren (hSave big ig n none) f l h2 w2 with ⟨h4, w4, r4⟩
        rw [hr2] at e
        cases r4 with
        | none => simp at e
        | some q =>
          obtain ⟨ks4, rs4⟩ := q
          simp only [Prod.mk.injEq] at e
          rw [← e.1]
          by_cases hj : j = c
          · subst hj
            exact hChildren_inv _ (Twice big ig j) (fun f i h w h' w' rs => hSave_twice big ig j n f i h w h' w' rs) f
              l h2 w2 h4 w4 ks4 rs4 (hSave_second big ig n _ j h w h2 w2 rs2 hw hc hr) hr2
          · have hs := (hSave_saved big ig _ _ _ _ _ _ _ _ _ hw hr).1
            refine ih h2 w2 h4 w4 ks4 rs4 hs.1 (hc.shrink hs) ?_ hr2
            obtain ⟨k', hk'⟩ := hm
            refine ⟨k', ?_⟩
            rcases List.mem_cons.1 hk' with hk' | hk'
            · simp only [Prod.mk.injEq, HVal.ref.injEq] at hk'
              exact absurd hk'.2.symm hj
            · exact hk'

/-- the loop over the children, when two attributes hold one object -/
theorem hChildren_shared (big : Leaf P A → Bool) (ig : List N) (c : Nat) (n : Nat) (f : List N) (a1 a2 : N)
    (hne : a1 ≠ a2) :
    ∀ (l : PyDict N (HVal P A)) (h : Heap N P A) (w : World N P A) (h' w' ks rs), h.WF →
      (a1, .ref c) ∈ l → (a2, .ref c) ∈ l →
      hChildren (hSave big ig n none) f l h w = (h', w', some (ks, rs)) → Twice big ig c h' := by
  intro l
  induction l with
  | nil => intro h w h' w' ks rs _ hm; simp at hm
  | cons p l ih =>
    intro h w h' w' ks rs hw hm1 hm2 e
    obtain ⟨k, v⟩ := p
    cases v with
    | leaf v => exact ih h w h' w' ks rs hw (by simpa using hm1) (by simpa using hm2) e
    | ref j =>
      have e' : hChildren (hSave big ig n none) f ((k, .ref j) :: l) h w =
        (match hSave big ig n none (f ++ [k]) j h w with
        | (h, w, none) => (h, w, none)
        | (h, w, some rs) => match hChildren (hSave big ig n none) f l h w with
          | (h, w, none) => (h, w, none)
          | (h, w, some (ks, rs')) => (h, w, some (k :: ks, rs ++ rs'))) := rfl
      rw [e'] at e
      rcases hr : hSave big ig n none (f ++ [k]) j h w with ⟨h2, w2, r⟩
      rw [hr] at e
      cases r with
      | none => simp at e
      | some rs2 =>
        simp only at e
        have hs := (hSave_saved big ig _ _ _ _ _ _ _ _ _ hw hr).1
        rcases hr2 : hChildren (hSave big ig n none) f l h2 w2 with ⟨h4, w4, r4⟩
        rw [hr2] at e
        cases r4 with
        | none => simp at e
        | some q =>
          obtain ⟨ks4, rs4⟩ := q
          simp only [Prod.mk.injEq] at e
          rw [← e.1]
          rcases List.mem_cons.1 hm1 with h1 | h1
          · simp only [Prod.mk.injEq, HVal.ref.injEq] at h1
            obtain ⟨rfl, rfl⟩ := h1
            rcases List.mem_cons.1 hm2 with h3 | h3
            · simp only [Prod.mk.injEq] at h3
              exact absurd h3.1.symm hne
            · exact hChildren_again big ig c n f l h2 w2 h4 w4 ks4 rs4 hs.1
                (hSave_clean big ig n _ c h w h2 w2 rs2 hw hr) ⟨a2, h3⟩ hr2
          · rcases List.mem_cons.1 hm2 with h3 | h3
            · simp only [Prod.mk.injEq, HVal.ref.injEq] at h3
              obtain ⟨rfl, rfl⟩ := h3
              exact hChildren_again big ig c n f l h2 w2 h4 w4 ks4 rs4 hs.1
                (hSave_clean big ig n _ c h w h2 w2 rs2 hw hr) ⟨a1, h1⟩ hr2
            · exact ih h2 w2 h4 w4 ks4 rs4 hs.1 h1 h3 hr2

/-- loading brings no attribute to an object whose bookkeeping is empty -/
theorem hLoad_missing (files : PyDict (List N × Nat) (Leaf P A)) (c : Nat) (x : N) : ∀ (m : Nat)
    (f : List N) (i : Nat) (h h' : Heap N P A), NoBook h c → attr h c x = none →
    hLoad files m f i h = some h' → NoBook h' c ∧ attr h' c x = none := by
  intro m
  induction m with
  | zero => intro f i h h' _ _ e; simp [hLoad] at e
  | succ m ih =>
    intro f i h h' hb hx e
    have hl : ∀ (ks : List N) (h h' : Heap N P A), NoBook h c → attr h c x = none →
        hLoadChildren (hLoad files m) f i ks h = some h' → NoBook h' c ∧ attr h' c x = none := by
      intro ks
      induction ks with
      | nil => intro h h' hb hx e; simp only [hLoadChildren, Option.some.injEq] at e; subst e; exact ⟨hb, hx⟩
      | cons k ks ihk =>
        intro h h' hb hx e
        simp only [hLoadChildren] at e
        split at e
        · rename_i j hj
          rcases hr : hLoad files m (f ++ [k]) j h with _ | h2
          · rw [hr] at e; simp at e
          · rw [hr] at e
            obtain ⟨b2, x2⟩ := ih _ _ _ _ hb hx hr
            exact ihk h2 h' b2 x2 e
        · simp at e
    unfold hLoad at e
    rcases hbk : (h i).book with _ | b
    · rw [hbk] at e; simp only [Option.some.injEq] at e; subst e; exact ⟨hb, hx⟩
    · rw [hbk] at e
      simp only at e
      rcases hr : hLoadChildren (hLoad files m) f i b.recs h with _ | h2
      · rw [hr] at e; simp at e
      · rw [hr] at e
        obtain ⟨b2, x2⟩ := hl _ _ _ hb hx hr
        simp only at e
        rcases hr3 : loadLeaves files f b (h2 i).attrs with _ | a
        · rw [hr3] at e; simp at e
        · rw [hr3] at e
          simp only [Option.some.injEq] at e
          subst e
          by_cases hi : c = i
          · subst hi
            obtain ⟨recs, hrecs⟩ := hb
            rw [hrecs] at hbk
            injection hbk with hbk
            subst hbk
            simp only [loadLeaves, readAll, List.foldl_nil, Option.some.injEq] at hr3
            subst hr3
            refine ⟨?_, ?_⟩
            · obtain ⟨r, hr⟩ := b2
              exact ⟨r, by rw [upd_self]; exact hr⟩
            · rw [attr_upd, if_pos rfl]; exact x2
          · refine ⟨?_, ?_⟩
            · obtain ⟨r, hr⟩ := b2
              exact ⟨r, by rw [upd_ne h2 hi]; exact hr⟩
            · rw [attr_upd, if_neg hi]; exact x2

/-- **C147** When two attributes of the object saved hold one object, its big arrays, and its ignored
attributes, are missing from it after loading: not even set to `None`. -/
theorem C147_shared_lost (big : Leaf P A → Bool) (ig : List N) (depth : Nat) (sep : Option (List N))
    (fname : List N) (i c : Nat) (h : Heap N P A) (w : World N P A) (hw : h.WF) (a1 a2 : N) (hne : a1 ≠ a2)
    (h1 : attr h i a1 = some (.ref c)) (h2 : attr h i a2 = some (.ref c))
    (hn1 : a1 ∉ ig ++ sep.getD []) (hn2 : a2 ∉ ig ++ sep.getD [])
    (x : N) (v : HVal P A) (hx : attr h c x = some v)
    (hb : x ∈ ig ∨ ∃ l, v = .leaf l ∧ big l = true)
    (mem : Heap N P A) (w' : World N P A) (pickled : Heap N P A)
    (hs : hSmartSave big ig depth sep fname i h w = (mem, w', some pickled))
    (depth' : Nat) (fname' : List N) (loaded : Heap N P A)
    (hl : hLoad w'.files depth' fname' i pickled = some loaded) : attr loaded c x = none := by
  unfold hSmartSave at hs
  rcases hr : hSave big ig depth sep fname i h w with ⟨g, w2, r⟩
  rw [hr] at hs
  cases r with
  | none => simp at hs
  | some rs =>
    simp only at hs
    split at hs
    · simp at hs
    · simp only [Prod.mk.injEq, Option.some.injEq] at hs
      obtain ⟨_, _, rfl⟩ := hs
      have hic : c ≠ i := by
        intro hci
        subst hci
        have := C147_cycle_raises big ig depth sep fname c h w hw (fun j => j = c) (by
          intro j hj; subst hj; exact ⟨a1, j, h1, rfl, hn1⟩) rfl
        unfold hSmartSave at this
        rw [hr] at this
        simp only at this
        split at this
        · contradiction
        · simp at this
      have ht : Clean big ig g c ∧ NoBook g c := by
        cases depth with
        | zero => simp [hSave] at hr
        | succ n =>
          have ha := aside_spec (sepNames hLeaf big sep (h i).attrs ++ ig) (h i).attrs (hw i)
          have h0 := shrink_aside hw i (sepNames hLeaf big sep (h i).attrs ++ ig)
          have hn : ∀ k, attr h i k = some (.ref c) → k ∉ ig ++ sep.getD [] →
              (k, .ref c) ∈ (putAside (sepNames hLeaf big sep (h i).attrs ++ ig) (h i).attrs).1 := by
            intro k hg hk
            refine mem_of_get? ?_
            rw [ha.2.2.1 k, if_neg]
            · exact hg
            · intro hm
              rcases List.mem_append.1 hm with hm | hm
              · cases sep with
                | none => exact ref_not_sep big (hw i) hg hm
                | some s => exact hk (List.mem_append_right _ hm)
              · exact hk (List.mem_append_left _ hm)
          obtain ⟨g1, w1, recs, rs1, nps, scs, igs, e1, _, rfl, rfl⟩ := hSave_some big ig hr
          obtain ⟨t1, t2, t3⟩ := hChildren_shared big ig c n fname a1 a2 hne _ _ _ _ _ _ _ h0.1 (hn a1 h1 hn1)
            (hn a2 h2 hn2) e1
          refine ⟨fun k v e => ?_, ?_⟩
          · rw [attr_upd, if_neg hic] at e
            exact t2 k v e
          · obtain ⟨r, hr⟩ := t3
            exact ⟨r, by rw [upd_ne g1 hic]; exact hr⟩
      refine (hLoad_missing w'.files c x depth' fname' i g loaded ht.2 ?_ hl).2
      cases hg : attr g c x with
      | none => rfl
      | some u =>
        have hsh := hSave_shrink big ig depth sep fname i h w hw
        rw [hr] at hsh
        have := hsh.2 c x u hg
        rw [hx] at this
        injection this with this
        subst this
        obtain ⟨q1, q2⟩ := ht.1 x v hg
        rcases hb with hb | ⟨l, hl, hb⟩
        · exact absurd hb q1
        · rw [q2 l hl] at hb; simp at hb

/-! ## Objects of which nothing is put aside -/

/-- the attributes that hold objects -/
def refNames : PyDict N (HVal P A) → List N
  | [] => []
  | (_, .leaf _) :: rest => refNames rest
  | (k, .ref _) :: rest => k :: refNames rest

theorem mem_refNames {l : PyDict N (HVal P A)} {k : N} (hk : k ∈ refNames l) : ∃ j, (k, .ref j) ∈ l := by
  induction l with
  | nil => simp [refNames] at hk
  | cons p l ih =>
    obtain ⟨k', v⟩ := p
    cases v with
    | leaf v => obtain ⟨j, hj⟩ := ih hk; exact ⟨j, List.mem_cons_of_mem _ hj⟩
    | ref j =>
      simp only [refNames, List.mem_cons] at hk
      rcases hk with rfl | hk
      · exact ⟨j, List.mem_cons_self⟩
      · obtain ⟨j, hj⟩ := ih hk; exact ⟨j, List.mem_cons_of_mem _ hj⟩

theorem putAside_none (names : List N) (a : PyDict N (HVal P A)) (hn : ∀ k ∈ names, get? a k = none) :
    putAside names a = (a, []) := by
  unfold putAside
  induction names with
  | nil => rfl
  | cons n names ih =>
    simp only [List.foldl_cons, hn n (by simp)]
    exact ih (fun k hk => hn k (List.mem_cons_of_mem _ hk))

theorem aside_clean_eq {big : Leaf P A → Bool} {ig : List N} {h : Heap N P A} {c : Nat} (hw : h.WF)
    (hc : Clean big ig h c) :
    putAside (sepNames hLeaf big none (h c).attrs ++ ig) (h c).attrs = ((h c).attrs, []) := by
  refine putAside_none _ _ (fun k hk => ?_)
  have ha := (aside_spec (sepNames hLeaf big none (h c).attrs ++ ig) (h c).attrs (hw c)).2.2.2 k
  rw [aside_clean hw hc, if_pos hk] at ha
  exact ha.symm

/-- the bookkeeping of an object of which nothing is put aside -/
def bookOf (h : Heap N P A) (i : Nat) : Book N := ⟨[], [], [], refNames (h i).attrs⟩

/-- everything within reach of `i`, at most `n` objects deep, has been visited -/
def Visited (h g : Heap N P A) : Nat → Nat → Prop
  | 0, _ => False
  | n + 1, i => (g i).book = some (bookOf h i) ∧ ∀ k j, (k, .ref j) ∈ (h i).attrs → Visited h g n j

/-- the dictionaries are those of `h`; the bookkeeping may have been set -/
def Later (h g g' : Heap N P A) : Prop :=
  (∀ j, (g' j).attrs = (h j).attrs) ∧ ∀ j, (g' j).book = (g j).book ∨ (g' j).book = some (bookOf h j)

theorem Visited.later {h g g' : Heap N P A} (hl : Later h g g') : ∀ {n i}, Visited h g n i → Visited h g' n i := by
  intro n
  induction n with
  | zero => intro i hv; exact hv
  | succ n ih =>
    intro i hv
    refine ⟨?_, fun k j hm => ih (hv.2 k j hm)⟩
    rcases hl.2 i with e | e
    · rw [e]; exact hv.1
    · exact e

theorem Later.trans {h a b c : Heap N P A} (h1 : Later h a b) (h2 : Later h b c) : Later h a c := by
  refine ⟨h2.1, fun j => ?_⟩
  rcases h2.2 j with e | e
  · rw [e]; exact h1.2 j
  · exact .inr e

theorem hChildren_visited (h : Heap N P A) (n : Nat) (child : Child N P A)
    (hc : ∀ f j g w g' w' rs, (∀ j, (g j).attrs = (h j).attrs) → child f j g w = (g', w', some rs) →
      Later h g g' ∧ Visited h g' n j) (f : List N) :
    ∀ (l : PyDict N (HVal P A)) (g : Heap N P A) (w : World N P A) (g' w' ks rs),
      (∀ j, (g j).attrs = (h j).attrs) →
      hChildren child f l g w = (g', w', some (ks, rs)) →
      Later h g g' ∧ ks = refNames l ∧ ∀ k j, (k, .ref j) ∈ l → Visited h g' n j := by
  intro l
  induction l with
  | nil =>
    intro g w g' w' ks rs hg e
    simp only [hChildren, Prod.mk.injEq, Option.some.injEq] at e
    obtain ⟨rfl, rfl, rfl, rfl⟩ := e
    exact ⟨⟨hg, fun j => .inl rfl⟩, rfl, by simp⟩
  | cons p l ih =>
    intro g w g' w' ks rs hg e
    obtain ⟨k, v⟩ := p
    cases v with
    | leaf v =>
      obtain ⟨q1, q2, q3⟩ := ih g w g' w' ks rs hg e
      refine ⟨q1, q2, fun k' j' hm => ?_⟩
      rcases List.mem_cons.1 hm with hm | hm
      · simp at hm
      · exact q3 k' j' hm
    | ref j =>
      have e' : hChildren child f ((k, .ref j) :: l) g w = (match child (f ++ [k]) j g w with
        | (h, w, none) => (h, w, none)
        | (h, w, some rs) => match hChildren child f l h w with
          | (h, w, none) => (h, w, none)
          | (h, w, some (ks, rs')) => (h, w, some (k :: ks, rs ++ rs'))) := rfl
      rw [e'] at e
      rcases hr : child (f ++ [k]) j g w with ⟨h2, w2, r⟩
      rw [hr] at e
      cases r with
      | none => simp at e
      | some rs2 =>
        simp only at e
        obtain ⟨p1, p2⟩ := hc _ _ _ _ _ _ _ hg hr
        rcases hr2 : hChildren child f l h2 w2 with ⟨h4, w4, r4⟩
        rw [hr2] at e
        cases r4 with
        | none => simp at e
        | some q =>
          obtain ⟨ks4, rs4⟩ := q
          simp only [Prod.mk.injEq, Option.some.injEq] at e
          obtain ⟨rfl, rfl, rfl, rfl⟩ := e
          obtain ⟨q1, q2, q3⟩ := ih h2 w2 h4 w4 ks4 rs4 p1.1 hr2
          refine ⟨p1.trans q1, by rw [q2]; rfl, fun k' j' hm => ?_⟩
          rcases List.mem_cons.1 hm with hm | hm
          · simp only [Prod.mk.injEq, HVal.ref.injEq] at hm
            rw [hm.2]; exact p2.later q1
          · exact q3 k' j' hm

theorem hSave_visited (big : Leaf P A → Bool) (ig : List N) (h : Heap N P A) (hw : h.WF)
    (hc : ∀ i, Clean big ig h i) : ∀ (n : Nat) (f : List N) (i : Nat) (g : Heap N P A) (w : World N P A)
    (g' w' rs), (∀ j, (g j).attrs = (h j).attrs) →
    hSave big ig n none f i g w = (g', w', some rs) → Later h g g' ∧ Visited h g' n i := by
  intro n
  induction n with
  | zero => intro f i g w g' w' rs _ e; simp [hSave] at e
  | succ n ih =>
    intro f i g w g' w' rs hg e
    have hgw : g.WF := fun j => by rw [hg j]; exact hw j
    have hgc : Clean big ig g i := fun k v e => hc i k v (by unfold attr at e ⊢; rw [← hg i]; exact e)
    obtain ⟨h1, w1, recs, rs1, nps, scs, igs, e1, e2, rfl, rfl⟩ := hSave_some big ig e
    rw [aside_clean_eq hgw hgc] at e1 e2
    simp only [storeAll, Prod.mk.injEq, Option.some.injEq] at e2
    obtain ⟨rfl, rfl, rfl, rfl⟩ := e2
    have hu : upd g i { g i with attrs := (g i).attrs } = g := by
      funext j
      unfold upd
      split
      · rename_i hj; subst hj; rfl
      · rfl
    simp only [hu] at e1
    obtain ⟨q1, q2, q3⟩ := hChildren_visited h n _ (fun f j g w g' w' rs => ih f j g w g' w' rs) f _ _ _ _ _ _ _ hg e1
    have hL : Later h h1 (upd h1 i ⟨some ⟨[], [], [], recs⟩, (h1 i).attrs⟩) := by
      refine ⟨fun j => ?_, fun j => ?_⟩
      · by_cases hj : j = i
        · subst hj; rw [upd_self]; exact q1.1 j
        · rw [upd_ne h1 hj]; exact q1.1 j
      · by_cases hj : j = i
        · subst hj; rw [upd_self, q2, hg j]; exact .inr rfl
        · rw [upd_ne h1 hj]; exact .inl rfl
    refine ⟨q1.trans hL, ?_, fun k j hm => ?_⟩
    · rw [upd_self, q2, hg i]; rfl
    · exact (q3 k j (by rw [hg i]; exact hm)).later hL

theorem hLoad_visited (files : PyDict (List N × Nat) (Leaf P A)) (h g : Heap N P A) (hw : h.WF)
    (hg : ∀ j, (g j).attrs = (h j).attrs) : ∀ (n : Nat) (f : List N) (i : Nat), Visited h g n i →
    hLoad files n f i g = some g := by
  intro n
  induction n with
  | zero => intro f i hv; exact hv.elim
  | succ n ih =>
    intro f i hv
    have hl : ∀ ks : List N, (∀ k ∈ ks, ∃ j, (k, .ref j) ∈ (h i).attrs) →
        hLoadChildren (hLoad files n) f i ks g = some g := by
      intro ks
      induction ks with
      | nil => intro _; rfl
      | cons k ks ihk =>
        intro hk
        obtain ⟨j, hj⟩ := hk k (by simp)
        have hgj : get? (g i).attrs k = some (.ref j) := by rw [hg i]; exact get?_of_mem (hw i) hj
        simp only [hLoadChildren, hgj, ih (f ++ [k]) j (hv.2 k j hj)]
        exact ihk (fun k' hk' => hk k' (List.mem_cons_of_mem _ hk'))
    unfold hLoad
    rw [hv.1]
    have := hl (bookOf h i).recs (fun k hk => mem_refNames hk)
    simp only [this]
    simp only [bookOf, loadLeaves, readAll, List.foldl_nil]
    congr 1
    funext j
    unfold upd
    split
    · rename_i hj; subst hj; rfl
    · rfl

/-- **C147** Sharing is harmless when nothing has to be put aside: when no object has a big array or an
ignored attribute, what was saved loads, every attribute of every object has its value, and attributes
that held one object still hold one object. -/
theorem C147_shared_small (big : Leaf P A → Bool) (ig : List N) (depth : Nat)
    (fname : List N) (i : Nat) (h : Heap N P A) (w : World N P A) (hw : h.WF)
    (hsmall : ∀ j k v, attr h j k = some v → k ∉ ig ∧ ∀ l, v = .leaf l → big l = false)
    (mem : Heap N P A) (w' : World N P A) (pickled : Heap N P A)
    (hs : hSmartSave big ig depth none fname i h w = (mem, w', some pickled)) (fname' : List N) :
    ∃ loaded, hLoad w'.files depth fname' i pickled = some loaded ∧ ∀ j k, attr loaded j k = attr h j k := by
  unfold hSmartSave at hs
  rcases hr : hSave big ig depth none fname i h w with ⟨g, w2, r⟩
  rw [hr] at hs
  cases r with
  | none => simp at hs
  | some rs =>
    simp only at hs
    split at hs
    · simp at hs
    · simp only [Prod.mk.injEq, Option.some.injEq] at hs
      obtain ⟨_, _, rfl⟩ := hs
      obtain ⟨q1, q2⟩ := hSave_visited big ig h hw (fun i k v => hsmall i k v) depth fname i h w g w2 rs
        (fun _ => rfl) hr
      refine ⟨g, hLoad_visited _ h g hw q1.1 depth fname' i q2, fun j k => ?_⟩
      unfold attr
      rw [q1.1 j]

/-! ## Concrete cases -/

/-- object 0 holds object 1 under the names 10 and 11; object 1 has an array under the name 20 -/
def twoNames : Heap Nat Nat Nat := fun i =>
  if i = 0 then ⟨none, [(10, .ref 1), (11, .ref 1)]⟩
  else if i = 1 then ⟨none, [(20, .leaf (.arr 7)), (21, .leaf (.plain 8))]⟩ else ⟨none, []⟩

/-- arrays above 5 are big -/
def above5 : Leaf Nat Nat → Bool
  | .arr a => decide (5 < a)
  | _ => false

/-- saving and loading succeed, the array is in a file, and it is missing from the loaded object: the
hypotheses of `C147_shared_lost` are met -/
example : ∃ mem w' pickled loaded,
    hSmartSave above5 ([] : List Nat) 3 none [] 0 twoNames ⟨[], 9⟩ = (mem, w', some pickled) ∧
    hLoad w'.files 3 [] 0 pickled = some loaded ∧ get? w'.files ([10, 20], 0) = some (.arr 7) ∧
    attr loaded 1 20 = none ∧ attr loaded 1 21 = some (.leaf (.plain 8)) ∧
    attr mem 1 20 = some (.leaf (.arr 7)) := by
  refine ⟨_, _, _, _, rfl, rfl, ?_, ?_, ?_, ?_⟩ <;> decide +kernel

/-- with a small array nothing is lost: the hypotheses of `C147_shared_small` are met -/
example : ∃ mem w' pickled, hSmartSave (fun _ => false) ([] : List Nat) 3 none [] 0 twoNames ⟨[], 9⟩ =
    (mem, w', some pickled) := ⟨_, _, _, rfl⟩

/-- object 0 holds object 1, which holds object 0 -/
def back : Heap Nat Nat Nat := fun i =>
  if i = 0 then ⟨none, [(10, .ref 1), (20, .leaf (.arr 7))]⟩
  else if i = 1 then ⟨none, [(11, .ref 0)]⟩ else ⟨none, []⟩

/-- the hypotheses of `C147_cycle_raises` and `C147_cycle_loses` are met -/
example : Cyclic [] (fun i => i = 0 ∨ i = 1) back ∧ attr back 0 20 = some (.leaf (.arr 7)) ∧
    attr (hSmartSave above5 ([] : List Nat) 4 none [] 0 back ⟨[], 9⟩).1 0 20 = none := by
  refine ⟨?_, by decide +kernel, by decide +kernel⟩
  intro i hi
  rcases hi with rfl | rfl
  · exact ⟨10, 1, by decide +kernel, .inr rfl, by simp⟩
  · exact ⟨11, 0, by decide +kernel, .inl rfl, by simp⟩

end Verif.SaveLoad.Heap
