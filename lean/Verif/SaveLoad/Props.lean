import Verif.SaveLoad.Model
import Mathlib.Tactic.Common

/-!
# C18: `SaveLoad.save` gives the object back, `load` gives an equal object
-/

namespace Verif.SaveLoad
open Verif PyDict

variable {N P A V : Type} [DecidableEq N]

/-! ## Specification -/

/-- two dictionaries have the same attributes, with related values -/
def Pointwise (R : N → V → V → Prop) (a b : PyDict N V) : Prop :=
  ∀ k, match get? a k, get? b k with
    | some v, some v' => R k v v'
    | none, none => True
    | _, _ => False

/-- the same value: leaves are equal, objects have the same attributes (in any order) with the same
values; the bookkeeping attributes do not count -/
def Same : (n : Nat) → Val N P A n → Val N P A n → Prop
  | 0, v, v' => v' = v
  | _ + 1, .inl l, v' => v' = .inl l
  | n + 1, .inr o, .inr o' => Pointwise (fun _ => Same n) o.attrs o'.attrs
  | _ + 1, .inr _, .inl _ => False

/-- `u` is what one expects to load after saving `v` ignoring the attributes `ig`: the same value,
except that the attributes in `ig`, at any depth, are `None` -/
def LoadedAs (ig : List N) : (n : Nat) → Val N P A n → Val N P A n → Prop
  | 0, v, u => u = v
  | _ + 1, .inl l, u => u = .inl l
  | n + 1, .inr o, .inr o' =>
    Pointwise (fun k v u => if k ∈ ig then u = ofLeaf n .none else LoadedAs ig n v u) o.attrs o'.attrs
  | _ + 1, .inr _, .inl _ => False

/-- attribute names are unique, at every level -/
def Unique : (n : Nat) → Val N P A n → Prop
  | 0, _ => True
  | _ + 1, .inl _ => True
  | n + 1, .inr o => WF o.attrs ∧ ∀ p ∈ o.attrs, Unique n p.2

/-! ## Lemmas about the dictionary operations -/

theorem get?_putAside (names : List N) : ∀ (a s : PyDict N V), WF a → WF s →
    (∀ k ∈ keys a, k ∉ keys s) →
    let r := names.foldl (fun s k => match get? s.1 k with
      | some v => (erase s.1 k, set s.2 k v)
      | none => s) (a, s)
    WF r.1 ∧ WF r.2 ∧ (∀ k, get? r.1 k = if k ∈ names then none else get? a k) ∧
    (∀ k, get? r.2 k = if k ∈ names ∧ (get? a k).isSome then get? a k else get? s k) ∧
    (∀ p ∈ r.1, p ∈ a) := by
  induction names with
  | nil => intro a s ha hs _; simp [ha, hs]
  | cons n names ih =>
    intro a s ha hs hd
    simp only [List.foldl_cons]
    cases hg : get? a n with
    | none =>
      obtain ⟨h1, h2, h3, h4, h5⟩ := ih a s ha hs hd
      refine ⟨h1, h2, fun k => ?_, fun k => ?_, h5⟩
      · simp only [hg] at h3 ⊢
        rw [h3 k]
        by_cases hk : k = n
        · subst hk; simp [hg]
        · simp [hk]
      · simp only [hg] at h4 ⊢
        rw [h4 k]
        by_cases hk : k = n
        · subst hk; simp [hg]
        · simp [hk]
    | some v =>
      have hks : n ∈ keys a := by
        rw [← get?_isSome_iff, hg]; rfl
      have he : WF (erase a n) := by
        have hsub : List.Sublist (erase a n) a := by
          clear * -
          induction a with
          | nil => simp [erase]
          | cons p a ih =>
            obtain ⟨k, v⟩ := p
            simp only [erase]
            split
            · exact List.Sublist.cons _ ih
            · exact List.Sublist.cons_cons _ ih
        exact List.Nodup.sublist (List.Sublist.map _ hsub) ha
      have hd' : ∀ k ∈ keys (erase a n), k ∉ keys (set s n v) := by
        intro k hk hk'
        rw [mem_keys_set] at hk'
        have hne : k ≠ n ∧ k ∈ keys a := by
          rw [← get?_isSome_iff, get?_erase] at hk
          split at hk
          · simp at hk
          · rename_i h; exact ⟨fun h' => h (by simp [h']), by rwa [← get?_isSome_iff]⟩
        rcases hk' with h | h
        · exact hne.1 (by simp [h])
        · exact hd k hne.2 h
      obtain ⟨h1, h2, h3, h4, h5⟩ := ih (erase a n) (set s n v) he (WF_set hs n v) hd'
      refine ⟨h1, h2, fun k => ?_, fun k => ?_, fun p hp => (mem_erase.1 (h5 p hp)).1⟩
      · simp only [hg] at h3 ⊢
        rw [h3 k, get?_erase]
        by_cases hk : n = k
        · subst hk; simp
        · have : ¬ k = n := fun h => hk h.symm
          simp [hk, this]
      · simp only [hg] at h4 ⊢
        rw [h4 k, get?_erase, get?_set]
        by_cases hk : n = k
        · subst hk; simp [hg]
        · have : ¬ k = n := fun h => hk h.symm
          simp [hk, this]

theorem get?_setAll : ∀ (s a : PyDict N V), WF s →
    ∀ k, get? (setAll a s) k = match get? s k with | some v => some v | none => get? a k := by
  intro s
  induction s with
  | nil => intro a _ k; simp [setAll]
  | cons p s ih =>
    obtain ⟨n, v⟩ := p
    intro a hs k
    have hs' : WF s ∧ n ∉ keys s := by
      simp only [WF, keys_cons, List.nodup_cons] at hs
      exact ⟨hs.2, hs.1⟩
    have := ih (set a n v) hs'.1 k
    simp only [setAll, List.foldl_cons] at this ⊢
    rw [this, get?_cons, get?_set]
    by_cases hk : n = k
    · subst hk
      rw [(get?_eq_none_iff s n).2 hs'.2]; simp
    · simp [hk]

theorem get?_liftAt (k : N) (f : V → V) (a : PyDict N V) (x : N) :
    get? (liftAt k f a) x = if x = k then (get? a x).map f else get? a x := by
  induction a with
  | nil => simp [liftAt]
  | cons p a ih =>
    obtain ⟨n, v⟩ := p
    simp only [liftAt, List.map_cons] at ih ⊢
    by_cases hn : n = k
    · subst hn
      simp only [if_true, get?_cons, ih]
      by_cases hx : n = x
      · subst hx; simp
      · have : ¬ x = n := fun h => hx h.symm
        simp [hx, this]
    · simp only [hn, if_false, get?_cons, ih]
      by_cases hx : n = x
      · subst hx; simp [hn]
      · simp [hx]

/-- what a list of changes does to one attribute -/
theorem get?_applyAll (rr : Restore N V) : ∀ (a : PyDict N V) (x : N),
    get? ((rr.map (fun p => liftAt p.1 p.2)).foldl (fun a f => f a) a) x =
      (get? a x).map (fun v => ((rr.filter (fun p => p.1 = x)).map (·.2)).foldl (fun v f => f v) v) := by
  induction rr with
  | nil => intro a x; simp
  | cons p rr ih =>
    intro a x
    obtain ⟨k, f⟩ := p
    simp only [List.map_cons, List.foldl_cons]
    rw [ih, get?_liftAt]
    by_cases hk : k = x
    · subst hk
      simp [Function.comp_def]
    · have : ¬ x = k := fun h => hk h.symm
      simp [hk, this]

theorem not_mem_of_WF_cons {k : N} {v : V} {a : PyDict N V} (h : WF ((k, v) :: a)) :
    k ∉ keys a ∧ WF a := by
  simp only [WF, keys_cons, List.nodup_cons] at h
  exact h

/-! ## Memory after a successful `_save_specials` -/

/-- the type of `child` -/
abbrev Child (N P A V : Type) :=
  List N → V → World N P A → Option (V × World N P A × Option (List (V → V)))

theorem saveChildren_mem (child : Child N P A V) (E : V → V → Prop) (hE : ∀ v, E v v)
    (U : V → Prop)
    (hc : ∀ f v w v' w' rs, U v → child f v w = some (v', w', some rs) →
      E v (rs.foldl (fun x g => g x) v'))
    (fname : List N) : ∀ (attrs : PyDict N V) (w : World N P A) (attrs' w' recs rr),
    WF attrs → (∀ p ∈ attrs, U p.2) →
    saveChildren child fname attrs w = (attrs', w', some (recs, rr)) →
    keys attrs' = keys attrs ∧ (∀ p ∈ rr, p.1 ∈ keys attrs) ∧
    Pointwise (fun _ => E) attrs
      ((rr.map (fun p => liftAt p.1 p.2)).foldl (fun a f => f a) attrs') := by
  intro attrs
  induction attrs with
  | nil =>
    intro w attrs' w' recs rr _ _ h
    simp only [saveChildren, Prod.mk.injEq, Option.some.injEq] at h
    obtain ⟨rfl, -, -, rfl⟩ := h
    simp [Pointwise]
  | cons p attrs ih =>
    obtain ⟨k, v⟩ := p
    intro w attrs' w' recs rr hwf hU h
    obtain ⟨hk, hwf'⟩ := not_mem_of_WF_cons hwf
    have hU' : ∀ p ∈ attrs, U p.2 := fun p hp => hU p (by simp [hp])
    simp only [saveChildren] at h
    split at h
    · -- not an object
      rename_i hn
      simp only [Prod.mk.injEq] at h
      obtain ⟨rfl, h2, h3⟩ := h
      obtain ⟨g1, g2, g3⟩ := ih w _ _ _ _ hwf' hU' (Prod.ext rfl (Prod.ext h2 h3))
      refine ⟨by simp [g1], fun p hp => by simp [g2 p hp], fun x => ?_⟩
      have hx := g3 x
      rw [get?_applyAll] at hx ⊢
      simp only [get?_cons]
      by_cases hkx : k = x
      · subst hkx
        have hf : rr.filter (fun p => decide (p.1 = k)) = [] := by
          rw [List.filter_eq_nil_iff]
          intro p hp
          have := g2 p hp
          simp only [decide_eq_true_eq]
          rintro rfl; exact hk this
        simp [hf, hE]
      · simp only [hkx, if_false]; exact hx
    · simp at h
    · rename_i v' w1 rs hchild
      simp only [Prod.mk.injEq, Option.map_eq_some_iff, Prod.exists] at h
      obtain ⟨rfl, h2, recs', rr', h3, rfl, rfl⟩ := h
      obtain ⟨g1, g2, g3⟩ := ih w1 _ _ _ _ hwf' hU' (Prod.ext rfl (Prod.ext h2 h3))
      refine ⟨by simp [g1], ?_, fun x => ?_⟩
      · intro p hp
        rcases List.mem_append.1 hp with hp | hp
        · obtain ⟨f, _, rfl⟩ := List.mem_map.1 hp; simp
        · simp [g2 p hp]
      · have hx := g3 x
        rw [get?_applyAll] at hx ⊢
        simp only [get?_cons]
        by_cases hkx : k = x
        · subst hkx
          have hf : rr'.filter (fun p => decide (p.1 = k)) = [] := by
            rw [List.filter_eq_nil_iff]
            intro p hp
            have := g2 p hp
            simp only [decide_eq_true_eq]
            rintro rfl; exact hk this
          have hf2 : (rs.map (fun f => (k, f))).filter (fun p => decide (p.1 = k)) =
              rs.map (fun f => (k, f)) := by
            rw [List.filter_eq_self]; intro p hp
            obtain ⟨f, _, rfl⟩ := List.mem_map.1 hp; simp
          simp only [if_true, Option.map_some, List.filter_append, hf, hf2, List.append_nil,
            List.map_map, Function.comp_def, List.map_id']
          exact hc _ _ _ _ _ _ (hU (k, v) (by simp)) hchild
        · simp only [hkx, if_false]
          have hf2 : (rs.map (fun f => (k, f))).filter (fun p => decide (p.1 = x)) = [] := by
            rw [List.filter_eq_nil_iff]; intro p hp
            obtain ⟨f, _, rfl⟩ := List.mem_map.1 hp
            simpa using hkx
          simp only [List.filter_append, hf2, List.nil_append]
          exact hx

theorem saveObj_mem (child : Child N P A V) (E : V → V → Prop) (hE : ∀ v, E v v) (U : V → Prop)
    (hc : ∀ f v w v' w' rs, U v → child f v w = some (v', w', some rs) →
      E v (rs.foldl (fun x g => g x) v'))
    (leaf : V → Option (Leaf P A)) (big : Leaf P A → Bool) (ig : List N) (sep : Option (List N))
    (fname : List N) (o o' : Obj N V) (w w' : World N P A) (rs)
    (hwf : WF o.attrs) (hU : ∀ p ∈ o.attrs, U p.2)
    (h : saveObj child leaf big ig sep fname o w = (o', w', some rs)) :
    Pointwise (fun _ => E) o.attrs (rs.foldl (fun a f => f a) o'.attrs) := by
  simp only [saveObj] at h
  generalize sepNames leaf big sep o.attrs = names at h
  obtain ⟨h1, h2, h3, h4, h5⟩ := get?_putAside (names ++ ig) o.attrs [] hwf WF_nil (by simp)
  change WF (putAside (names ++ ig) o.attrs).1 at h1
  change WF (putAside (names ++ ig) o.attrs).2 at h2
  change ∀ k, get? (putAside (names ++ ig) o.attrs).1 k = _ at h3
  change ∀ k, get? (putAside (names ++ ig) o.attrs).2 k = _ at h4
  change ∀ p ∈ (putAside (names ++ ig) o.attrs).1, _ at h5
  generalize putAside (names ++ ig) o.attrs = pa at h h1 h2 h3 h4 h5
  obtain ⟨attrs, asides⟩ := pa
  simp only at h h1 h2 h3 h4 h5
  split at h
  · simp at h
  · rename_i attrs1 w1 recs rr hsc
    obtain ⟨g1, g2, g3⟩ := saveChildren_mem child E hE U hc fname attrs w _ _ _ _ h1
      (fun p hp => hU p (h5 p hp)) hsc
    split at h
    · simp at h
    · rename_i w2 nps scs igs hst
      simp only [Prod.mk.injEq, Option.some.injEq] at h
      obtain ⟨rfl, rfl, rfl⟩ := h
      intro k
      simp only [List.foldl_append, List.foldl_cons, List.foldl_nil]
      rw [get?_setAll _ _ h2]
      have hk := g3 k
      rw [h3 k] at hk
      rw [h4 k]
      by_cases hn : k ∈ names ++ ig
      · simp only [hn, if_true, true_and] at hk ⊢
        cases hg : get? o.attrs k with
        | none =>
          simp only [Option.isSome_none, Bool.false_eq_true, if_false, get?_nil]
          cases hg2 : get? ((rr.map (fun p => liftAt p.1 p.2)).foldl (fun a f => f a) attrs1) k with
          | none => trivial
          | some u => rw [hg2] at hk; exact hk
        | some v => simp [hE]
      · simp only [hn, if_false, false_and, get?_nil] at hk ⊢
        exact hk

theorem Same_refl : ∀ (n : Nat) (v : Val N P A n), Same n v v
  | 0, _ => rfl
  | _ + 1, .inl _ => rfl
  | n + 1, .inr o => by
    intro k
    cases h : get? o.attrs k with
    | none => trivial
    | some v => exact Same_refl n v

theorem foldl_onObj {n : Nat} (fs : List (PyDict N (Val N P A n) → PyDict N (Val N P A n))) :
    ∀ (o : Obj N (Val N P A n)),
    (fs.map onObj).foldl (fun x g => g x) (.inr o : Val N P A (n + 1)) =
      .inr { o with attrs := fs.foldl (fun a f => f a) o.attrs } := by
  induction fs with
  | nil => intro o; rfl
  | cons f fs ih => intro o; exact ih { o with attrs := f o.attrs }

theorem saveVal_mem (big : Leaf P A → Bool) (ig : List N) : ∀ (n : Nat) (f : List N) (v : Val N P A n)
    (w : World N P A) (v' w' rs), Unique n v → saveVal big ig n f v w = some (v', w', some rs) →
    Same n v (rs.foldl (fun x g => g x) v')
  | 0, _, _, _, _, _, _, _, h => by simp [saveVal] at h
  | _ + 1, _, .inl _, _, _, _, _, _, h => by simp [saveVal] at h
  | n + 1, f, .inr o, w, v', w', rs, hu, h => by
    have h := Option.some.inj h
    obtain ⟨ha, hb⟩ := Prod.mk.inj h
    obtain ⟨hc, hd⟩ := Prod.mk.inj hb
    clear h hb
    subst ha hc
    have h := hd
    obtain ⟨fs, h3, rfl⟩ := Option.map_eq_some_iff.1 h
    have := saveObj_mem (saveVal big ig n) (Same n) (Same_refl n) (Unique n)
      (fun f v w v' w' rs hv => saveVal_mem big ig n f v w v' w' rs hv) (asLeaf n) big ig none f o
      _ w _ fs hu.1 hu.2 (Prod.ext rfl (Prod.ext rfl h3))
    exact (congrArg (Same (n + 1) (.inr o)) (foldl_onObj fs _)).mpr this

/-! ## Files -/

/-- two file systems agree on all files whose name starts with `f` -/
def Agree (f : List N) (F G : PyDict (List N × Nat) (Leaf P A)) : Prop :=
  ∀ p i, f <+: p → get? F (p, i) = get? G (p, i)

theorem Agree.refl (f : List N) (F : PyDict (List N × Nat) (Leaf P A)) : Agree f F F :=
  fun _ _ _ => rfl

theorem prefix_snoc_inj {f p : List N} {a b : N} (h1 : f ++ [a] <+: p) (h2 : f ++ [b] <+: p) :
    a = b := by
  obtain ⟨q, rfl⟩ := h1
  obtain ⟨q', h⟩ := h2
  simp only [List.append_assoc, List.append_cancel_left_eq, List.cons_append, List.nil_append,
    List.cons.injEq] at h
  exact h.1.symm

theorem write_files {w w' : World N P A} {key c} (h : w.write key c = some w') :
    w'.files = set w.files key c := by
  simp only [World.write] at h
  split at h
  · simp at h
  · simp only [Option.some.injEq] at h; rw [← h]

/-- the files of an attribute of this kind hold its value -/
def Stored (F : PyDict (List N × Nat) (Leaf P A)) (g : List N) : Kind P A → Prop
  | .ignored => True
  | .numpy a => readArr F (g, 0) = some a
  | .scipy p d i j => readSp F g = some (.sp p d i j)

theorem Stored.congr {F G : PyDict (List N × Nat) (Leaf P A)} {g : List N} {q : Kind P A}
    (h : ∀ i, get? G (g, i) = get? F (g, i)) (hs : Stored F g q) : Stored G g q := by
  cases q <;> simp_all [Stored, readArr, readSp]

/-- the list an attribute of this kind is in -/
def listOf : Kind P A → (List N × List N × List N) → List N
  | .numpy _, t => t.1
  | .scipy .., t => t.2.1
  | .ignored, t => t.2.2

/-- the files one attribute is read from after it was stored -/
theorem storeOne_files (f : List N) (k : N) (q : Kind P A) (w w' : World N P A)
    (h : storeOne f k q w = (w', true)) :
    (∀ p i, p ≠ f ++ [k] → get? w'.files (p, i) = get? w.files (p, i)) ∧
    Stored w'.files (f ++ [k]) q := by
  cases q with
  | ignored => simp only [storeOne, Prod.mk.injEq, and_true] at h; subst h; simp [Stored]
  | numpy a =>
    simp only [storeOne] at h
    split at h
    · simp at h
    · rename_i w1 h1
      simp only [Prod.mk.injEq, and_true] at h; subst h
      rw [write_files h1]
      refine ⟨fun p i hp => ?_, ?_⟩
      · rw [get?_set_ne]; intro he; exact hp (by simpa using (Prod.mk.inj he).1.symm)
      · simp [Stored, readArr]
  | scipy p d i j =>
    simp only [storeOne] at h
    split at h
    · simp at h
    rename_i w1 h1
    split at h
    · simp at h
    rename_i w2 h2
    split at h
    · simp at h
    rename_i w3 h3
    split at h
    · simp at h
    rename_i w4 h4
    simp only [Prod.mk.injEq, and_true] at h; subst h
    rw [write_files h4, write_files h3, write_files h2, write_files h1]
    refine ⟨fun p i hp => ?_, ?_⟩
    · have hne : ∀ i', (f ++ [k], i') ≠ (p, i) := fun i' he => hp (Prod.mk.inj he).1.symm
      rw [get?_set_ne _ (hne _), get?_set_ne _ (hne _), get?_set_ne _ (hne _), get?_set_ne _ (hne _)]
    · simp [Stored, readArr, readSp, get?_set]

/-- which list an attribute put aside ends up in, and what is in the files -/
theorem storeAll_files (leaf : V → Option (Leaf P A)) (ig f : List N) :
    ∀ (asides : PyDict N V) (w w' : World N P A) (nps scs igs), WF asides →
    storeAll leaf ig f asides w = (w', some (nps, scs, igs)) →
    (∀ p i, (∀ k ∈ keys asides, p ≠ f ++ [k]) → get? w'.files (p, i) = get? w.files (p, i)) ∧
    (∀ k, k ∈ nps ∨ k ∈ scs ∨ k ∈ igs → k ∈ keys asides) ∧
    (∀ k v, get? asides k = some v → Stored w'.files (f ++ [k]) (kindOf ig k (leaf v)) ∧
      ((k ∈ nps ↔ ∃ a, kindOf ig k (leaf v) = .numpy a) ∧
       (k ∈ scs ↔ ∃ p d i j, kindOf ig k (leaf v) = .scipy p d i j) ∧
       (k ∈ igs ↔ kindOf ig k (leaf v) = .ignored))) := by
  intro asides
  induction asides with
  | nil =>
    intro w w' nps scs igs _ h
    simp only [storeAll, Prod.mk.injEq, Option.some.injEq] at h
    obtain ⟨rfl, rfl, rfl, rfl⟩ := h
    simp
  | cons x asides ih =>
    obtain ⟨k, v⟩ := x
    intro w w' nps scs igs hwf h
    obtain ⟨hk, hwf'⟩ := not_mem_of_WF_cons hwf
    simp only [storeAll] at h
    split at h
    · simp at h
    rename_i w1 hone
    obtain ⟨hfr, hrd⟩ := storeOne_files _ _ _ _ _ hone
    simp only [Prod.mk.injEq] at h
    obtain ⟨h1, h2⟩ := h
    rw [Option.map_eq_some_iff] at h2
    obtain ⟨⟨n', s', i'⟩, h2, h3⟩ := h2
    obtain ⟨g1, g2, g3⟩ := ih w1 w' n' s' i' hwf' (Prod.ext h1 h2)
    have hkn : k ∉ n' ∧ k ∉ s' ∧ k ∉ i' := by
      have := fun h => hk (g2 k h)
      simpa [not_or] using this
    have hsame : ∀ i, get? w'.files (f ++ [k], i) = get? w1.files (f ++ [k], i) := by
      intro i
      apply g1
      rintro k' hk' he
      simp only [List.append_cancel_left_eq, List.cons.injEq, and_true] at he
      subst he; exact hk hk'
    refine ⟨fun p i hp => ?_, ?_, ?_⟩
    · rw [g1 p i (fun k' hk' => hp k' (by simp [hk'])), hfr p i (hp k (by simp))]
    · intro k' hk'
      simp only [keys_cons, List.mem_cons]
      have := g2 k'
      generalize kindOf ig k (leaf v) = q at h3
      cases q <;> simp only [Prod.mk.injEq] at h3 <;> obtain ⟨rfl, rfl, rfl⟩ := h3 <;>
        simp only [List.mem_cons] at hk' <;> tauto
    · intro k' v' hg
      rw [get?_cons] at hg
      by_cases hkk : k = k'
      · subst hkk
        simp only [if_true, Option.some.injEq] at hg
        subst hg
        refine ⟨Stored.congr hsame hrd, ?_⟩
        generalize kindOf ig k (leaf v) = q at h3 ⊢
        cases q <;> simp only [Prod.mk.injEq] at h3 <;> obtain ⟨rfl, rfl, rfl⟩ := h3 <;> simp [hkn]
      · simp only [hkk, if_false] at hg
        have hne : ¬ k' = k := fun h => hkk h.symm
        obtain ⟨e1, e2⟩ := g3 k' v' hg
        refine ⟨e1, ?_⟩
        generalize kindOf ig k (leaf v) = q at h3
        cases q <;> simp only [Prod.mk.injEq] at h3 <;> obtain ⟨rfl, rfl, rfl⟩ := h3 <;>
          simpa [hne] using e2

/-! ## Loading -/

theorem updAll_spec (g : N → V → Option V) : ∀ (ks : List N) (a : PyDict N V), ks.Nodup →
    (∀ k ∈ ks, ∃ v u, get? a k = some v ∧ g k v = some u) →
    ∃ a', updAll g ks a = some a' ∧ (∀ x, x ∉ ks → get? a' x = get? a x) ∧
      ∀ x ∈ ks, ∃ v u, get? a x = some v ∧ g x v = some u ∧ get? a' x = some u := by
  intro ks
  induction ks with
  | nil => intro a _ _; exact ⟨a, rfl, fun _ _ => rfl, by simp⟩
  | cons k ks ih =>
    intro a hnd h
    obtain ⟨v, u, h1, h2⟩ := h k (by simp)
    obtain ⟨hk, hnd'⟩ := List.nodup_cons.1 hnd
    obtain ⟨a', e1, e2, e3⟩ := ih (set a k u) hnd' (by
      intro k' hk'
      obtain ⟨v', u', h1', h2'⟩ := h k' (by simp [hk'])
      refine ⟨v', u', ?_, h2'⟩
      rw [get?_set_ne, h1']; rintro rfl; exact hk hk')
    refine ⟨a', by simp only [updAll, h1, h2]; exact e1, ?_, ?_⟩
    · intro x hx
      simp only [List.mem_cons, not_or] at hx
      rw [e2 x hx.2, get?_set_ne]; exact fun h => hx.1 h.symm
    · intro x hx
      by_cases hxk : x = k
      · subst hxk
        exact ⟨v, u, h1, h2, by rw [e2 _ hk, get?_set_self]⟩
      · have hx' : x ∈ ks := by simpa [hxk] using hx
        obtain ⟨v', u', f1, f2, f3⟩ := e3 x hx'
        refine ⟨v', u', ?_, f2, f3⟩
        rw [← f1, get?_set_ne]; exact fun h => hxk h.symm

theorem readAll_spec (h : N → Option V) : ∀ (ks : List N) (a : PyDict N V),
    (∀ k ∈ ks, (h k).isSome) →
    ∃ a', readAll h ks a = some a' ∧ (∀ x, x ∉ ks → get? a' x = get? a x) ∧
      ∀ x ∈ ks, get? a' x = h x := by
  intro ks
  induction ks with
  | nil => intro a _; exact ⟨a, rfl, fun _ _ => rfl, by simp⟩
  | cons k ks ih =>
    intro a hs
    obtain ⟨u, hu⟩ := Option.isSome_iff_exists.1 (hs k (by simp))
    obtain ⟨a', e1, e2, e3⟩ := ih (set a k u) (fun k' hk' => hs k' (by simp [hk']))
    refine ⟨a', by simp only [readAll, hu]; exact e1, ?_, ?_⟩
    · intro x hx
      simp only [List.mem_cons, not_or] at hx
      rw [e2 x hx.2, get?_set_ne]; exact fun h => hx.1 h.symm
    · intro x hx
      by_cases hx' : x ∈ ks
      · exact e3 x hx'
      · have : x = k := by simpa [hx'] using hx
        subst this
        rw [e2 x hx', get?_set_self, hu]

theorem setNone_spec (z : V) : ∀ (ks : List N) (a : PyDict N V),
    (∀ x, x ∉ ks → get? (ks.foldl (fun a k => set a k z) a) x = get? a x) ∧
      ∀ x ∈ ks, get? (ks.foldl (fun a k => set a k z) a) x = some z := by
  intro ks
  induction ks with
  | nil => intro a; simp
  | cons k ks ih =>
    intro a
    obtain ⟨e2, e3⟩ := ih (set a k z)
    refine ⟨?_, ?_⟩
    · intro x hx
      simp only [List.mem_cons, not_or] at hx
      rw [List.foldl_cons, e2 x hx.2, get?_set_ne]; exact fun h => hx.1 h.symm
    · intro x hx
      by_cases hx' : x ∈ ks
      · exact e3 x hx'
      · have : x = k := by simpa [hx'] using hx
        subst this
        rw [List.foldl_cons, e2 x hx', get?_set_self]

theorem saveChildren_load (child : Child N P A V)
    (ld : PyDict (List N × Nat) (Leaf P A) → List N → V → Option V) (L : V → V → Prop) (U : V → Prop)
    (hframe : ∀ g v w v' w' rs, U v → child g v w = some (v', w', some rs) →
      ∀ p i, ¬ g <+: p → get? w'.files (p, i) = get? w.files (p, i))
    (hload : ∀ g v w v' w' rs, U v → child g v w = some (v', w', some rs) →
      ∀ F, Agree g F w'.files → ∃ u, ld F g v' = some u ∧ L v u)
    (hnone : ∀ g v w, child g v w = none → L v v)
    (f : List N) : ∀ (attrs : PyDict N V) (w : World N P A) (attrs' w' recs rr),
    WF attrs → (∀ p ∈ attrs, U p.2) →
    saveChildren child f attrs w = (attrs', w', some (recs, rr)) →
    (∀ p i, (∀ k ∈ keys attrs, ¬ f ++ [k] <+: p) → get? w'.files (p, i) = get? w.files (p, i)) ∧
    keys attrs' = keys attrs ∧ recs.Nodup ∧ (∀ k ∈ recs, k ∈ keys attrs) ∧
    ∀ k v, get? attrs k = some v →
      (k ∉ recs → get? attrs' k = some v ∧ L v v) ∧
      (k ∈ recs → ∃ v', get? attrs' k = some v' ∧ ∀ F, Agree (f ++ [k]) F w'.files →
        ∃ u, ld F (f ++ [k]) v' = some u ∧ L v u) := by
  intro attrs
  induction attrs with
  | nil =>
    intro w attrs' w' recs rr _ _ h
    simp only [saveChildren, Prod.mk.injEq, Option.some.injEq] at h
    obtain ⟨rfl, rfl, rfl, rfl⟩ := h
    simp
  | cons p attrs ih =>
    obtain ⟨k, v⟩ := p
    intro w attrs' w' recs rr hwf hU h
    obtain ⟨hk, hwf'⟩ := not_mem_of_WF_cons hwf
    have hU' : ∀ p ∈ attrs, U p.2 := fun p hp => hU p (by simp [hp])
    simp only [saveChildren] at h
    split at h
    · rename_i hn
      simp only [Prod.mk.injEq] at h
      obtain ⟨rfl, h2, h3⟩ := h
      obtain ⟨g0, g1, g2, g3, g4⟩ := ih w _ _ _ _ hwf' hU' (Prod.ext rfl (Prod.ext h2 h3))
      refine ⟨fun p i hp => g0 p i (fun k' hk' => hp k' (by simp [hk'])), by simp [g1], g2,
        fun k' hk' => by simp [g3 k' hk'], fun k' v' hg => ?_⟩
      rw [get?_cons] at hg
      by_cases hkk : k = k'
      · subst hkk
        simp only [if_true, Option.some.injEq] at hg
        subst hg
        refine ⟨fun _ => ⟨by simp [get?_cons], hnone _ _ _ hn⟩, fun hr => absurd (g3 _ hr) hk⟩
      · simp only [hkk, if_false] at hg
        obtain ⟨e1, e2⟩ := g4 k' v' hg
        refine ⟨fun hr => ?_, fun hr => ?_⟩
        · simp only [get?_cons, hkk, if_false]; exact e1 hr
        · simp only [get?_cons, hkk, if_false]; exact e2 hr
    · simp at h
    · rename_i v' w1 rs hchild
      simp only [Prod.mk.injEq, Option.map_eq_some_iff, Prod.exists] at h
      obtain ⟨rfl, h2, recs', rr', h3, rfl, rfl⟩ := h
      obtain ⟨g0, g1, g2, g3, g4⟩ := ih w1 _ _ _ _ hwf' hU' (Prod.ext rfl (Prod.ext h2 h3))
      have hUv := hU (k, v) (by simp)
      refine ⟨fun p i hp => ?_, by simp [g1], ?_, ?_, fun k' v'' hg => ?_⟩
      · rw [g0 p i (fun k' hk' => hp k' (by simp [hk'])),
          hframe _ _ _ _ _ _ hUv hchild p i (hp k (by simp))]
      · exact List.nodup_cons.2 ⟨fun hr => hk (g3 _ hr), g2⟩
      · intro k' hk'
        rcases List.mem_cons.1 hk' with rfl | hk'
        · simp
        · simp [g3 k' hk']
      · rw [get?_cons] at hg
        by_cases hkk : k = k'
        · subst hkk
          simp only [if_true, Option.some.injEq] at hg
          subst hg
          refine ⟨fun hr => absurd (by simp) hr, fun _ => ⟨v', by simp [get?_cons], fun F hF => ?_⟩⟩
          apply hload _ _ _ _ _ _ hUv hchild
          intro p i hp
          rw [hF p i hp]
          apply g0
          intro k' hk' hp'
          have := prefix_snoc_inj hp hp'
          subst this; exact hk hk'
        · simp only [hkk, if_false] at hg
          have hne : ¬ k' = k := fun h => hkk h.symm
          obtain ⟨e1, e2⟩ := g4 k' v'' hg
          refine ⟨fun hr => ?_, fun hr => ?_⟩
          · simp only [get?_cons, hkk, if_false]
            exact e1 (by simpa [hne] using hr)
          · simp only [get?_cons, hkk, if_false]
            exact e2 (by simpa [hne] using hr)

/-- arrays and sparse matrices -/
def Leaf.isArray : Leaf P A → Bool
  | .arr _ => true
  | .sp .. => true
  | _ => false

theorem kindOf_cases (ig : List N) (k : N) (l : Option (Leaf P A)) :
    (kindOf ig k l = .ignored ∧ (k ∈ ig ∨ l.elim false Leaf.isArray = false)) ∨
    (k ∉ ig ∧ ∃ a, l = some (.arr a) ∧ kindOf ig k l = .numpy a) ∨
    (k ∉ ig ∧ ∃ p d i j, l = some (.sp p d i j) ∧ kindOf ig k l = .scipy p d i j) := by
  by_cases hk : k ∈ ig
  · left
    refine ⟨?_, Or.inl hk⟩
    unfold kindOf; split <;> simp_all
  · rcases l with _ | (_ | _ | _ | _) <;> simp [kindOf, hk, Leaf.isArray]

theorem saveObj_load (child : Child N P A V)
    (ld : PyDict (List N × Nat) (Leaf P A) → List N → V → Option V) (L : V → V → Prop) (U : V → Prop)
    (hframe : ∀ g v w v' w' rs, U v → child g v w = some (v', w', some rs) →
      ∀ p i, ¬ g <+: p → get? w'.files (p, i) = get? w.files (p, i))
    (hload : ∀ g v w v' w' rs, U v → child g v w = some (v', w', some rs) →
      ∀ F, Agree g F w'.files → ∃ u, ld F g v' = some u ∧ L v u)
    (hnone : ∀ g v w, child g v w = none → L v v)
    (leaf : V → Option (Leaf P A)) (mk : Leaf P A → V) (hmk : ∀ v l, leaf v = some l → L v (mk l))
    (big : Leaf P A → Bool) (hbig : ∀ l, big l = true → l.isArray = true)
    (ig : List N) (sep : Option (List N)) (f : List N) (o o' : Obj N V) (w w' : World N P A) (rs)
    (hwf : WF o.attrs) (hU : ∀ p ∈ o.attrs, U p.2)
    (h : saveObj child leaf big ig sep f o w = (o', w', some rs)) :
    (∀ p i, ¬ f <+: p → get? w'.files (p, i) = get? w.files (p, i)) ∧
    ∀ F, Agree f F w'.files → ∃ o'', loadObj (ld F) mk F f o' = some o'' ∧
      Pointwise (fun k v u =>
        if k ∈ ig ∨ (k ∈ sep.getD [] ∧ (leaf v).elim false Leaf.isArray = false) then u = mk .none
        else L v u) o.attrs o''.attrs := by
  have hsn : ∀ k v, k ∈ sepNames leaf big sep o.attrs → get? o.attrs k = some v →
      k ∈ sep.getD [] ∨ (leaf v).elim false Leaf.isArray = true := by
    intro k v hk hg
    cases sep with
    | some s => exact Or.inl hk
    | none =>
      right
      simp only [sepNames] at hk
      obtain ⟨⟨k', v'⟩, hm, rfl⟩ := List.mem_map.1 hk
      obtain ⟨hm1, hm2⟩ := List.mem_filter.1 hm
      rw [get?_of_mem hwf hm1, Option.some.injEq] at hg
      subst hg
      simp only at hm2
      cases hl : leaf v' with
      | none => simp [hl] at hm2
      | some l => simp only [hl, Option.elim_some] at hm2 ⊢; exact hbig l hm2
  simp only [saveObj] at h
  have hsub : ∀ k ∈ sep.getD [], k ∈ sepNames leaf big sep o.attrs := by
    cases sep <;> simp [sepNames]
  generalize sepNames leaf big sep o.attrs = names at h hsn hsub
  obtain ⟨h1, h2, h3, h4, h5⟩ := get?_putAside (names ++ ig) o.attrs [] hwf WF_nil (by simp)
  change WF (putAside (names ++ ig) o.attrs).1 at h1
  change WF (putAside (names ++ ig) o.attrs).2 at h2
  change ∀ k, get? (putAside (names ++ ig) o.attrs).1 k = _ at h3
  change ∀ k, get? (putAside (names ++ ig) o.attrs).2 k = _ at h4
  change ∀ p ∈ (putAside (names ++ ig) o.attrs).1, _ at h5
  generalize putAside (names ++ ig) o.attrs = pa at h h1 h2 h3 h4 h5
  obtain ⟨attrs, asides⟩ := pa
  simp only at h h1 h2 h3 h4 h5
  split at h
  · simp at h
  rename_i attrs1 w1 recs rr hsc
  obtain ⟨g0, g1, g2, g3, g4⟩ := saveChildren_load child ld L U hframe hload hnone f attrs w _ _ _ _ h1
    (fun p hp => hU p (h5 p hp)) hsc
  split at h
  · simp at h
  rename_i w2 nps scs igs hst
  simp only [Prod.mk.injEq, Option.some.injEq] at h
  obtain ⟨rfl, rfl, rfl⟩ := h
  obtain ⟨s1, s2, s3⟩ := storeAll_files leaf ig f asides w1 w2 nps scs igs h2 hst
  have hdisj : ∀ k, k ∈ keys asides → k ∉ keys attrs := by
    intro k hk hk'
    rw [← get?_isSome_iff, h3] at hk'
    rw [← get?_isSome_iff, h4] at hk
    by_cases hn : k ∈ names ++ ig <;> simp_all
  refine ⟨fun p i hp => ?_, fun F hF => ?_⟩
  · rw [s1 p i, g0 p i]
    · intro k _ hp'; exact hp ((List.prefix_append f [k]).trans hp')
    · rintro k _ rfl; exact hp (List.prefix_append f [k])
  · -- children
    have hF1 : ∀ k ∈ keys attrs, Agree (f ++ [k]) F w1.files := by
      intro k hk p i hp
      rw [hF p i ((List.prefix_append f [k]).trans hp)]
      apply s1
      rintro k' hk' rfl
      have : k = k' := prefix_snoc_inj hp (List.prefix_refl _)
      subst this; exact hdisj _ hk' hk
    have hchildren : ∀ k ∈ recs, ∃ v v' u, get? attrs k = some v ∧ get? attrs1 k = some v' ∧
        ld F (f ++ [k]) v' = some u ∧ L v u := by
      intro k hk
      have hka := g3 k hk
      obtain ⟨v, hv⟩ := Option.isSome_iff_exists.1 ((get?_isSome_iff attrs k).2 hka)
      obtain ⟨v', e1, e2⟩ := (g4 k v hv).2 hk
      obtain ⟨u, e3, e4⟩ := e2 F (hF1 k hka)
      exact ⟨v, v', u, hv, e1, e3, e4⟩
    obtain ⟨a1, u1, u2, u3⟩ := updAll_spec (fun k v => ld F (f ++ [k]) v) recs attrs1 g2 (by
      intro k hk
      obtain ⟨v, v', u, -, e1, e2, -⟩ := hchildren k hk
      exact ⟨v', u, e1, e2⟩)
    have hstored : ∀ k v, get? asides k = some v → Stored F (f ++ [k]) (kindOf ig k (leaf v)) := by
      intro k v hg
      exact Stored.congr (fun i => hF _ i (List.prefix_append f [k])) (s3 k v hg).1
    have haside : ∀ k, (k ∈ nps ∨ k ∈ scs ∨ k ∈ igs) → ∃ v, get? asides k = some v := fun k hk =>
      Option.isSome_iff_exists.1 ((get?_isSome_iff asides k).2 (s2 k hk))
    have hnp : ∀ k ∈ nps, ∃ v a, get? asides k = some v ∧ kindOf ig k (leaf v) = .numpy a ∧
        readArr F (f ++ [k], 0) = some a := by
      intro k hk
      obtain ⟨v, hv⟩ := haside k (Or.inl hk)
      obtain ⟨a, ha⟩ := (s3 k v hv).2.1.1 hk
      have := hstored k v hv
      rw [ha] at this
      exact ⟨v, a, hv, ha, this⟩
    have hsc' : ∀ k ∈ scs, ∃ v p d i j, get? asides k = some v ∧
        kindOf ig k (leaf v) = .scipy p d i j ∧ readSp F (f ++ [k]) = some (.sp p d i j) := by
      intro k hk
      obtain ⟨v, hv⟩ := haside k (Or.inr (Or.inl hk))
      obtain ⟨p, d, i, j, ha⟩ := (s3 k v hv).2.2.1.1 hk
      have := hstored k v hv
      rw [ha] at this
      exact ⟨v, p, d, i, j, hv, ha, this⟩
    obtain ⟨a2, r1, r2, r3⟩ := readAll_spec
      (fun k => (readArr F (f ++ [k], 0)).map (fun x => mk (.arr x))) nps a1 (by
        intro k hk
        obtain ⟨v, a, -, -, e⟩ := hnp k hk
        simp [e])
    obtain ⟨a3, t1, t2, t3⟩ := readAll_spec (fun k => (readSp F (f ++ [k])).map mk) scs a2 (by
        intro k hk
        obtain ⟨v, p, d, i, j, -, -, e⟩ := hsc' k hk
        simp [e])
    obtain ⟨n1, n2⟩ := setNone_spec (mk .none) igs a3
    refine ⟨_, by simp only [loadObj, u1, r1, t1]; rfl, fun k => ?_⟩
    simp only
    by_cases hka : k ∈ keys asides
    · -- put aside
      obtain ⟨v, hv⟩ := Option.isSome_iff_exists.1 ((get?_isSome_iff asides k).2 hka)
      have hvo : get? o.attrs k = some v ∧ k ∈ names ++ ig := by
        have := h4 k
        rw [hv] at this
        split at this
        · rename_i hc; exact ⟨this.symm, hc.1⟩
        · simp at this
      obtain ⟨-, q1, q2, q3⟩ := s3 k v hv
      rcases kindOf_cases ig k (leaf v) with ⟨hq, hc⟩ | ⟨hni, a, hl, hq⟩ | ⟨hni, p, d, i, j, hl, hq⟩
      · rw [n2 k (q3.2 hq), hvo.1]
        have hcond : k ∈ ig ∨ (k ∈ sep.getD [] ∧ (leaf v).elim false Leaf.isArray = false) := by
          rcases hc with hc | hc
          · exact Or.inl hc
          · rcases List.mem_append.1 hvo.2 with hm | hm
            · rcases hsn k v hm hvo.1 with hs | hs
              · exact Or.inr ⟨hs, hc⟩
              · rw [hs] at hc; simp at hc
            · exact Or.inl hm
        simp only [hcond, if_true]
      · have e1 : k ∉ igs := fun hh => by rw [q3.1 hh] at hq; simp at hq
        have e2 : k ∉ scs := fun hh => by
          obtain ⟨_, _, _, _, hh⟩ := q2.1 hh; rw [hh] at hq; simp at hq
        have e3 : k ∈ nps := q1.2 ⟨a, hq⟩
        obtain ⟨v', a', hv', hq', hr⟩ := hnp k e3
        rw [n1 k e1, t2 k e2, r3 k e3, hr, hvo.1]
        rw [hv, Option.some.injEq] at hv'; subst hv'
        rw [hq] at hq'; cases hq'
        have hcond : ¬ (k ∈ ig ∨ (k ∈ sep.getD [] ∧ (leaf v).elim false Leaf.isArray = false)) := by
          simp [hni, hl, Leaf.isArray]
        simp only [Option.map_some, hcond, if_false]
        exact hmk v _ hl
      · have e1 : k ∉ igs := fun hh => by rw [q3.1 hh] at hq; simp at hq
        have e2 : k ∈ scs := q2.2 ⟨p, d, i, j, hq⟩
        obtain ⟨v', p', d', i', j', hv', hq', hr⟩ := hsc' k e2
        rw [n1 k e1, t3 k e2, hr, hvo.1]
        rw [hv, Option.some.injEq] at hv'; subst hv'
        rw [hq] at hq'; cases hq'
        have hcond : ¬ (k ∈ ig ∨ (k ∈ sep.getD [] ∧ (leaf v).elim false Leaf.isArray = false)) := by
          simp [hni, hl, Leaf.isArray]
        simp only [Option.map_some, hcond, if_false]
        exact hmk v _ hl
    · have e : k ∉ nps ∧ k ∉ scs ∧ k ∉ igs :=
        ⟨fun hh => hka (s2 k (by simp [hh])), fun hh => hka (s2 k (by simp [hh])),
          fun hh => hka (s2 k (by simp [hh]))⟩
      rw [n1 k e.2.2, t2 k e.2.1, r2 k e.1]
      cases hvo : get? o.attrs k with
      | none =>
        have hak : get? attrs k = none := by rw [h3, hvo]; simp
        have hk1 : k ∉ keys attrs1 := by rw [g1]; exact (get?_eq_none_iff attrs k).1 hak
        have hkr : k ∉ recs := fun hh => (get?_eq_none_iff attrs k).1 hak (g3 k hh)
        rw [u2 k hkr, (get?_eq_none_iff attrs1 k).2 hk1]
        trivial
      | some v =>
        have hnn : k ∉ names ++ ig := by
          intro hn
          apply hka
          rw [← get?_isSome_iff, h4]; simp [hn, hvo]
        have hak : get? attrs k = some v := by rw [h3, hvo]; simp [hnn]
        have hcond : ¬ (k ∈ ig ∨ (k ∈ sep.getD [] ∧ (leaf v).elim false Leaf.isArray = false)) := by
          rintro (hh | hh)
          · exact hnn (by simp [hh])
          · exact hnn (by simp [hsub k hh.1])
        by_cases hkr : k ∈ recs
        · obtain ⟨v0, v', u, c1, c2, c3, c4⟩ := hchildren k hkr
          obtain ⟨v1, u', d1, d2, d3⟩ := u3 k hkr
          rw [c2, Option.some.injEq] at d1; subst d1
          rw [c3, Option.some.injEq] at d2; subst d2
          rw [hak, Option.some.injEq] at c1; subst c1
          rw [d3]
          simp only [hcond, if_false]; exact c4
        · obtain ⟨c1, c2⟩ := (g4 k v hak).1 hkr
          rw [u2 k hkr, c1]
          simp only [hcond, if_false]; exact c2

theorem LoadedAs_leaf (ig : List N) : ∀ (n : Nat) (v : Val N P A n) (l : Leaf P A),
    asLeaf n v = some l → LoadedAs ig n v (ofLeaf n l)
  | 0, v, l, h => (Option.some.inj h).symm
  | _ + 1, .inl l', l, h => by simp only [asLeaf, Option.some.injEq] at h; subst h; rfl
  | _ + 1, .inr o, l, h => by simp [asLeaf] at h

theorem LoadedAs_none (big : Leaf P A → Bool) (ig : List N) : ∀ (n : Nat) (g : List N)
    (v : Val N P A n) (w : World N P A), saveVal big ig n g v w = none → LoadedAs ig n v v
  | 0, _, _, _, _ => rfl
  | _ + 1, _, .inl _, _, _ => rfl
  | _ + 1, _, .inr _, _, h => by simp [saveVal] at h

theorem saveVal_load (big : Leaf P A → Bool) (hbig : ∀ l, big l = true → l.isArray = true)
    (ig : List N) : ∀ (n : Nat) (f : List N) (v : Val N P A n) (w : World N P A) (v' w' rs),
    Unique n v → saveVal big ig n f v w = some (v', w', some rs) →
    (∀ p i, ¬ f <+: p → get? w'.files (p, i) = get? w.files (p, i)) ∧
    ∀ F, Agree f F w'.files → ∃ u, loadVal F n f v' = some u ∧ LoadedAs ig n v u
  | 0, _, _, _, _, _, _, _, h => by simp [saveVal] at h
  | _ + 1, _, .inl _, _, _, _, _, _, h => by simp [saveVal] at h
  | n + 1, f, .inr o, w, v', w', rs, hu, h => by
    have h := Option.some.inj h
    obtain ⟨ha, hb⟩ := Prod.mk.inj h
    obtain ⟨hc, hd⟩ := Prod.mk.inj hb
    clear h hb
    subst ha hc
    obtain ⟨fs, h3, rfl⟩ := Option.map_eq_some_iff.1 hd
    obtain ⟨e1, e2⟩ := saveObj_load (saveVal big ig n) (fun F => loadVal F n) (LoadedAs ig n) (Unique n)
      (fun g v w v' w' rs hv hs => (saveVal_load big hbig ig n g v w v' w' rs hv hs).1)
      (fun g v w v' w' rs hv hs => (saveVal_load big hbig ig n g v w v' w' rs hv hs).2)
      (LoadedAs_none big ig n) (asLeaf n) (ofLeaf n) (LoadedAs_leaf ig n) big hbig ig none f o
      _ w _ fs hu.1 hu.2 (Prod.ext rfl (Prod.ext rfl h3))
    refine ⟨e1, fun F hF => ?_⟩
    obtain ⟨o'', e3, e4⟩ := e2 F hF
    refine ⟨.inr o'', by simp only [loadVal]; rw [e3]; rfl, ?_⟩
    simpa [LoadedAs] using e4

/-! ## C18 -/

/-- C18, a call that gets past the separate files: whether the object itself is then written or the
write raises, afterwards the object has all its attributes, with their values, at every level -/
theorem C18_save_restores (big : Leaf P A → Bool) (ig : List N) (sep : Option (List N)) (n : Nat)
    (f : List N) (o : Obj N (Val N P A n)) (w : World N P A)
    (hu : WF o.attrs ∧ ∀ p ∈ o.attrs, Unique n p.2)
    (hs : (saveObj (saveVal big ig n) (asLeaf n) big ig sep f o w).2.2.isSome) :
    Pointwise (fun _ => Same n) o.attrs (smartSave big ig sep f o w).1.attrs := by
  obtain ⟨rs, hs⟩ := Option.isSome_iff_exists.1 hs
  have h := saveObj_mem (saveVal big ig n) (Same n) (Same_refl n) (Unique n)
    (fun f v w v' w' rs hv => saveVal_mem big ig n f v w v' w' rs hv) (asLeaf n) big ig sep f o
    _ w _ rs hu.1 hu.2 (Prod.ext rfl (Prod.ext rfl hs))
  simp only [smartSave]
  split
  · rename_i h'; rw [h'] at hs; simp at hs
  · rename_i o' w' rs' h'
    rw [h'] at hs h
    simp only [Option.some.injEq] at hs
    subst hs
    split <;> exact h

/-- C18, a successful call: the object has all its attributes with their values, at every level -/
theorem C18_save_keeps_object (big : Leaf P A → Bool) (ig : List N) (sep : Option (List N)) (n : Nat)
    (f : List N) (o o' main : Obj N (Val N P A n)) (w w' : World N P A)
    (hu : WF o.attrs ∧ ∀ p ∈ o.attrs, Unique n p.2)
    (h : smartSave big ig sep f o w = (o', w', some main)) :
    Pointwise (fun _ => Same n) o.attrs o'.attrs := by
  have := C18_save_restores big ig sep n f o w hu (by
    simp only [smartSave] at h
    split at h
    · simp at h
    · rename_i h'; rw [h']; rfl)
  rwa [h] at this

/-- C18, an object without nested objects: whatever write raises, the object has all its attributes
with their values -/
theorem C18_flat_crash_safe (big : Leaf P A → Bool) (ig : List N) (sep : Option (List N))
    (f : List N) (o : Obj N (Val N P A 0)) (w : World N P A) (hu : WF o.attrs) :
    Pointwise (fun _ => Same 0) o.attrs (smartSave big ig sep f o w).1.attrs := by
  cases hs : (saveObj (saveVal big ig 0) (asLeaf 0) big ig sep f o w).2.2 with
  | some rs => exact C18_save_restores big ig sep 0 f o w ⟨hu, fun _ _ => trivial⟩ (by simp [hs])
  | none =>
    have hkids : ∀ (a : PyDict N (Val N P A 0)) (w : World N P A),
        saveChildren (saveVal big ig 0) f a w = (a, w, some ([], [])) := by
      intro a
      induction a with
      | nil => intro w; rfl
      | cons p a ih =>
        intro w
        obtain ⟨k, v⟩ := p
        have e : saveVal big ig 0 (f ++ [k]) v w = none := rfl
        simp only [saveChildren, e, ih]
    have hm : (smartSave big ig sep f o w).1 =
        (saveObj (saveVal big ig 0) (asLeaf 0) big ig sep f o w).1 := by
      simp only [smartSave]
      split
      · rename_i h'; rw [h']
      · rename_i h'; rw [h'] at hs; simp at hs
    rw [hm]
    simp only [saveObj, hkids] at hs ⊢
    generalize sepNames (asLeaf 0) big sep o.attrs ++ ig = names at hs ⊢
    obtain ⟨h1, h2, h3, h4, h5⟩ := get?_putAside names o.attrs [] hu WF_nil (by simp)
    change WF (putAside names o.attrs).2 at h2
    change ∀ k, get? (putAside names o.attrs).1 k = _ at h3
    change ∀ k, get? (putAside names o.attrs).2 k = _ at h4
    split
    · intro k
      simp only
      rw [get?_setAll _ _ h2, h3, h4]
      by_cases hk : k ∈ names <;> cases hg : get? o.attrs k <;> simp [hk, Same]
    · rename_i h'; rw [h'] at hs; simp at hs

/-- C18, `load` after a successful `save` to the same name, from any file system that still has the
files: every attribute is back with its value, at every level, except that `None` stands for the
ignored ones (at any depth) and for those named in `separately` that are not arrays -/
theorem C18_load_save (big : Leaf P A → Bool) (hbig : ∀ l, big l = true → l.isArray = true)
    (ig : List N) (sep : Option (List N)) (n : Nat) (f : List N) (o o' main : Obj N (Val N P A n))
    (w w' : World N P A) (hu : WF o.attrs ∧ ∀ p ∈ o.attrs, Unique n p.2)
    (h : smartSave big ig sep f o w = (o', w', some main))
    (F : PyDict (List N × Nat) (Leaf P A))
    (hF : ∀ p i, f <+: p → get? F (p, i) = get? w'.files (p, i)) :
    ∃ u, load F f main = some u ∧
      Pointwise (fun k v u =>
        if k ∈ ig ∨ (k ∈ sep.getD [] ∧ (asLeaf n v).elim false Leaf.isArray = false)
        then u = ofLeaf n .none else LoadedAs ig n v u) o.attrs u.attrs := by
  simp only [smartSave] at h
  split at h
  · simp at h
  rename_i o1 w1 rs hs
  split at h
  · simp at h
  simp only [Prod.mk.injEq, Option.some.injEq] at h
  obtain ⟨-, rfl, rfl⟩ := h
  exact (saveObj_load (saveVal big ig n) (fun F => loadVal F n) (LoadedAs ig n) (Unique n)
      (fun g v w v' w' rs hv hs => (saveVal_load big hbig ig n g v w v' w' rs hv hs).1)
      (fun g v w v' w' rs hv hs => (saveVal_load big hbig ig n g v w v' w' rs hv hs).2)
      (LoadedAs_none big ig n) (asLeaf n) (ofLeaf n) (LoadedAs_leaf ig n) big hbig ig sep f o
      o1 w w1 rs hu.1 hu.2 hs).2 F hF

/-! ### Concrete objects -/

/-- arrays of 3 or more elements are stored separately -/
def exBig : Leaf Nat (List Nat) → Bool
  | .arr a => decide (3 ≤ a.length)
  | .sp _ d _ _ => decide (3 ≤ d.length)
  | _ => false

/-- attribute 0 is a plain value, 1 a big array, 2 a nested object with a big array and a plain value,
3 a sparse matrix -/
def exObj : Obj Nat (Val Nat Nat (List Nat) 1) :=
  ⟨none, [(0, .inl (.plain 5)), (1, .inl (.arr [1, 2, 3])),
    (2, .inr ⟨none, [(0, (.arr [4, 5, 6] : Leaf Nat (List Nat))), (1, (.plain 8 : Leaf Nat (List Nat)))]⟩),
    (3, .inl (.sp 2 [1, 1, 1] [0, 1] [0, 1, 2]))]⟩

example : (exObj.attrs.WF ∧ ∀ p ∈ exObj.attrs, Unique 1 p.2) := by
  refine ⟨by unfold exObj WF; decide, ?_⟩
  intro p hp
  simp only [exObj, List.mem_cons, List.not_mem_nil, or_false] at hp
  rcases hp with rfl | rfl | rfl | rfl
  · trivial
  · trivial
  · exact ⟨by unfold WF; decide, fun _ _ => trivial⟩
  · trivial

example : ∃ o' w' main, smartSave exBig [] none [] exObj ⟨[], 100⟩ = (o', w', some main) ∧
    w'.files.length = 6 := ⟨_, _, _, rfl, rfl⟩

example : (saveObj (saveVal exBig [] 1) (asLeaf 1) exBig [] none [] exObj ⟨[], 6⟩).2.2.isSome = true :=
  rfl

/-- C18 is false of the code when a write raises after a nested object was stored: here the write of
the object's own array raises, the object gets it back, but the nested object has lost its array
(utils.py:651-655 restores `asides`, not `restores`) -/
theorem C18_nested_loses_arrays : ∃ o' : Obj Nat (Val Nat Nat (List Nat) 1),
    (smartSave exBig [] none [] exObj ⟨[], 1⟩).1 = o' ∧
    (smartSave exBig [] none [] exObj ⟨[], 1⟩).2.2 = none ∧
    get? o'.attrs 1 = some (.inl (.arr [1, 2, 3])) ∧
    ∃ c, get? o'.attrs 2 = some (.inr c) ∧ get? c.attrs 0 = none :=
  ⟨_, rfl, rfl, rfl, _, rfl, rfl⟩

/-- C18 is false of the code when storing a nested object raises: the object has lost its own arrays
(utils.py:601-605 is outside the `try`) -/
theorem C18_parent_loses_arrays : ∃ o' : Obj Nat (Val Nat Nat (List Nat) 1),
    (smartSave exBig [] none [] exObj ⟨[], 0⟩).1 = o' ∧
    (smartSave exBig [] none [] exObj ⟨[], 0⟩).2.2 = none ∧
    get? o'.attrs 1 = none ∧ get? o'.attrs 3 = none :=
  ⟨_, rfl, rfl, rfl, rfl⟩

end Verif.SaveLoad
