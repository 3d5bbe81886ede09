import Verif.SaveLoad.Props

/-!
# C18: saving succeeds exactly when every write does, and a missing file makes loading fail
-/

namespace Verif.SaveLoad
open Verif PyDict

variable {N P A : Type} [DecidableEq N]

/-- the outcome of a step that makes `b` writes: it succeeds exactly when the budget allows all of them, and then
uses up exactly `b` -/
def Costs (b : Nat) (w w' : World N P A) (ok : Bool) : Prop :=
  (ok = true ↔ b ≤ w.budget) ∧ (b ≤ w.budget → w'.budget = w.budget - b)

/-- the number of files an attribute put aside is stored in -/
def Kind.files : Kind P A → Nat
  | .numpy _ => 1
  | .scipy .. => 4
  | .ignored => 0

theorem storeOne_costs (f : List N) (k : N) (q : Kind P A) (w : World N P A) :
    Costs q.files w (storeOne f k q w).1 (storeOne f k q w).2 := by
  cases q with
  | ignored => simp [storeOne, Costs, Kind.files]
  | numpy a =>
    by_cases h : w.budget = 0
    · simp [storeOne, World.write, Costs, Kind.files, h]
    · have : 1 ≤ w.budget := by omega
      simp [storeOne, World.write, Costs, Kind.files, h, this]
  | scipy p d i j =>
    obtain ⟨fs, n⟩ := w
    match n with
    | 0 => simp [storeOne, World.write, Costs, Kind.files]
    | 1 => simp [storeOne, World.write, Costs, Kind.files]
    | 2 => simp [storeOne, World.write, Costs, Kind.files]
    | 3 => simp [storeOne, World.write, Costs, Kind.files]
    | n + 4 => simp [storeOne, World.write, Costs, Kind.files]

section generic
variable {V : Type}

theorem storeAll_costs (leaf : V → Option (Leaf P A)) (ig : List N) (f : List N) (l : PyDict N V) (w : World N P A) :
    Costs ((l.map fun p => (kindOf ig p.1 (leaf p.2)).files).sum) w (storeAll leaf ig f l w).1
      (storeAll leaf ig f l w).2.isSome := by
  induction l generalizing w with
  | nil => simp [storeAll, Costs]
  | cons p l ih =>
    obtain ⟨k, v⟩ := p
    have h1 := storeOne_costs f k (kindOf ig k (leaf v)) w
    rw [storeAll]
    simp only [List.map_cons, List.sum_cons]
    generalize storeOne f k (kindOf ig k (leaf v)) w = r at h1
    obtain ⟨w1, ok⟩ := r
    generalize (kindOf ig k (leaf v)).files = b at h1 ⊢
    obtain ⟨h1a, h1b⟩ := h1
    cases ok with
    | false =>
      simp only at h1a h1b ⊢
      have : ¬ b ≤ w.budget := fun h => by simpa using h1a.2 h
      refine ⟨?_, fun h => absurd h (by omega)⟩
      simp only [Option.isSome_none, Bool.false_eq_true, false_iff]
      omega
    | true =>
      have hb : b ≤ w.budget := h1a.1 rfl
      have hw := h1b hb
      simp only at hw
      obtain ⟨h2a, h2b⟩ := ih w1
      rw [hw] at h2a h2b
      refine ⟨?_, fun h => ?_⟩
      · simp only [Option.isSome_map]
        rw [h2a]; omega
      · show (storeAll leaf ig f l w1).1.budget = _
        rw [h2b (by omega)]; omega

/-- a child is not an object, or is saved with a number of writes that depends on nothing but the child -/
def ChildCosts (child : List N → V → World N P A → Option (V × World N P A × Option (List (V → V)))) : Prop :=
  ∀ f v, (∀ w, child f v w = none) ∨
    ∃ b, ∀ w, ∃ r, child f v w = some r ∧ Costs b w r.2.1 r.2.2.isSome

omit [DecidableEq N] in
theorem saveChildren_costs (child : List N → V → World N P A → Option (V × World N P A × Option (List (V → V))))
    (hc : ChildCosts child) (f : List N) (l : PyDict N V) :
    ∃ b, ∀ w, Costs b w (saveChildren child f l w).2.1 (saveChildren child f l w).2.2.isSome := by
  induction l with
  | nil => exact ⟨0, fun w => by simp [saveChildren, Costs]⟩
  | cons p l ih =>
    obtain ⟨k, v⟩ := p
    obtain ⟨b2, h2⟩ := ih
    rcases hc (f ++ [k]) v with h | ⟨b1, h1⟩
    · refine ⟨b2, fun w => ?_⟩
      rw [saveChildren, h w]
      exact h2 w
    · refine ⟨b1 + b2, fun w => ?_⟩
      obtain ⟨⟨v', w', r⟩, e, ha, hb⟩ := h1 w
      rw [saveChildren, e]
      simp only at ha hb
      cases r with
      | none =>
        simp only [Option.isSome_none, Bool.false_eq_true, false_iff] at ha
        refine ⟨?_, fun h => absurd h (by omega)⟩
        simp only [Option.isSome_none, Bool.false_eq_true, false_iff]
        omega
      | some rs =>
        have h3 : b1 ≤ w.budget := ha.1 rfl
        have hw := hb h3
        obtain ⟨h2a, h2b⟩ := h2 w'
        rw [hw] at h2a h2b
        refine ⟨?_, fun h => ?_⟩
        · simp only [Option.isSome_map]
          rw [h2a]; omega
        · show (saveChildren child f l w').2.1.budget = _
          rw [h2b (by omega)]; omega

theorem saveObj_costs (child : List N → V → World N P A → Option (V × World N P A × Option (List (V → V))))
    (hc : ChildCosts child) (leaf : V → Option (Leaf P A)) (big : Leaf P A → Bool) (ig : List N)
    (sep : Option (List N)) (f : List N) (o : Obj N V) :
    ∃ b, ∀ w, Costs b w (saveObj child leaf big ig sep f o w).2.1 (saveObj child leaf big ig sep f o w).2.2.isSome := by
  obtain ⟨b1, h1⟩ := saveChildren_costs child hc f (putAside (sepNames leaf big sep o.attrs ++ ig) o.attrs).1
  refine ⟨b1 + ((putAside (sepNames leaf big sep o.attrs ++ ig) o.attrs).2.map
    fun p => (kindOf ig p.1 (leaf p.2)).files).sum, fun w => ?_⟩
  obtain ⟨h1a, h1b⟩ := h1 w
  unfold saveObj
  simp only
  have h2' := fun w1 => storeAll_costs leaf ig f (putAside (sepNames leaf big sep o.attrs ++ ig) o.attrs).2 w1
  generalize ((putAside (sepNames leaf big sep o.attrs ++ ig) o.attrs).2.map
    fun p => (kindOf ig p.1 (leaf p.2)).files).sum = b2 at h2' ⊢
  generalize saveChildren child f (putAside (sepNames leaf big sep o.attrs ++ ig) o.attrs).1 w = r at h1a h1b
  obtain ⟨attrs, w1, r⟩ := r
  simp only at h1a h1b
  have h2 := h2' w1
  cases r with
  | none =>
    simp only [Option.isSome_none, Bool.false_eq_true, false_iff] at h1a
    refine ⟨?_, fun h => absurd h ?_⟩
    · simp only [Option.isSome_none, Bool.false_eq_true, false_iff]
      exact fun h => h1a (Nat.le_trans (Nat.le_add_right _ _) h)
    · exact fun h => h1a (Nat.le_trans (Nat.le_add_right _ _) h)
  | some q =>
    obtain ⟨recs, rr⟩ := q
    have h3 : b1 ≤ w.budget := h1a.1 rfl
    have hw := h1b h3
    simp only
    obtain ⟨h2a, h2b⟩ := h2
    rw [hw] at h2a h2b
    generalize storeAll leaf ig f (putAside (sepNames leaf big sep o.attrs ++ ig) o.attrs).2 w1 = z at h2a h2b
    obtain ⟨w2, z⟩ := z
    cases z with
    | none =>
      simp only [Option.isSome_none, Bool.false_eq_true, false_iff] at h2a
      refine ⟨?_, fun h => ?_⟩
      · simp only [Option.isSome_none, Bool.false_eq_true, false_iff]
        omega
      · omega
    | some t =>
      obtain ⟨nps, scs, igs⟩ := t
      have h4 : b2 ≤ w.budget - b1 := h2a.1 rfl
      refine ⟨?_, fun h => ?_⟩
      · simp only [Option.isSome_some, true_iff]
        omega
      · simp only at h2b ⊢
        rw [h2b h4]; omega

end generic

theorem saveVal_costs (big : Leaf P A → Bool) (ig : List N) (n : Nat) :
    ChildCosts (saveVal (N := N) (P := P) (A := A) big ig n) := by
  induction n with
  | zero => exact fun f v => .inl fun w => rfl
  | succ n ih =>
    intro f v
    cases v with
    | inl l => exact .inl fun w => rfl
    | inr o =>
      obtain ⟨b, hb⟩ := saveObj_costs (saveVal big ig n) ih (asLeaf n) big ig none f o
      refine .inr ⟨b, fun w => ⟨_, rfl, ?_⟩⟩
      have := hb w
      simpa using this

/-- C18: saving an object takes a number `b` of writes of separate files that depends only on the object, and one for the
main file; it succeeds exactly when all of them do.  (The files are `World.write` and the main file; there is no
other way to fail.) -/
theorem C18_save_succeeds (big : Leaf P A → Bool) (ig : List N) (sep : Option (List N)) (n : Nat) (f : List N)
    (o : Obj N (Val N P A n)) :
    ∃ b, ∀ w : World N P A, ((smartSave big ig sep f o w).2.2.isSome = true ↔ b + 1 ≤ w.budget) ∧
      (b + 1 ≤ w.budget → (smartSave big ig sep f o w).2.1.budget + (b + 1) = w.budget) := by
  obtain ⟨b, hb⟩ := saveObj_costs (saveVal big ig n) (saveVal_costs big ig n) (asLeaf n) big ig sep f o
  refine ⟨b, fun w => ?_⟩
  obtain ⟨h1, h2⟩ := hb w
  unfold smartSave
  generalize saveObj (saveVal big ig n) (asLeaf n) big ig sep f o w = r at h1 h2
  obtain ⟨o', w', r⟩ := r
  simp only at h1 h2
  cases r with
  | none =>
    simp only [Option.isSome_none, Bool.false_eq_true, false_iff] at h1 ⊢
    exact ⟨by omega, fun h => by omega⟩
  | some rs =>
    have hle : b ≤ w.budget := h1.1 rfl
    have hw := h2 hle
    by_cases h0 : w'.budget = 0
    · simp only [h0, if_true]
      simp only [Option.isSome_none, Bool.false_eq_true, false_iff]
      exact ⟨by omega, fun h => by omega⟩
    · simp only [h0, if_false]
      simp only [Option.isSome_some, true_iff]
      exact ⟨by omega, fun h => by omega⟩

/-! ## Missing files -/

theorem readAll_none {V : Type} (h : N → Option V) (ks : List N) (a : PyDict N V) (k : N) (hk : k ∈ ks)
    (hn : h k = none) : readAll h ks a = none := by
  induction ks generalizing a with
  | nil => cases hk
  | cons x ks ih =>
    rw [readAll]
    rcases List.mem_cons.1 hk with rfl | hk
    · rw [hn]
    · cases h x with
      | none => rfl
      | some u => exact ih _ hk

theorem updAll_none {V : Type} (g : N → V → Option V) (ks : List N) (a : PyDict N V) (k : N) (hk : k ∈ ks)
    (hn : ∀ v, get? a k = some v → g k v = none) : updAll g ks a = none := by
  induction ks generalizing a with
  | nil => cases hk
  | cons x ks ih =>
    rw [updAll]
    cases hx : get? a x with
    | none => rfl
    | some v =>
      simp only
      cases hg : g x v with
      | none => rfl
      | some u =>
        simp only
        rcases List.mem_cons.1 hk with rfl | hk
        · rw [hn v hx] at hg; cases hg
        · by_cases e : x = k
          · subst e; rw [hn v hx] at hg; cases hg
          · exact ih _ hk (fun v' hv' => hn v' (by rwa [get?_set_ne _ e] at hv'))

/-- C18: loading an object whose separately stored array has no file, or whose sparse matrix lacks one of its
four files, fails instead of giving an object without it. -/
theorem C18_load_missing (F : PyDict (List N × Nat) (Leaf P A)) (n : Nat) (f : List N) (main : Obj N (Val N P A n))
    (b : Book N) (hb : main.book = some b) (k : N)
    (h : (k ∈ b.numpys ∧ get? F (f ++ [k], 0) = none) ∨
      (k ∈ b.scipys ∧ ∃ i ∈ [1, 2, 3, 4], get? F (f ++ [k], i) = none)) : load F f main = none := by
  unfold load loadObj
  rw [hb]
  simp only
  cases updAll (fun k v => loadVal F n (f ++ [k]) v) b.recs main.attrs with
  | none => rfl
  | some a =>
    simp only
    rcases h with ⟨hk, hF⟩ | ⟨hk, i, hi, hF⟩
    · rw [readAll_none _ _ _ k hk (by simp [readArr, hF])]
    · have hr : readSp F (f ++ [k]) = none := by
        unfold readSp
        simp only [List.mem_cons, List.not_mem_nil, or_false] at hi
        have hn : ∀ j, get? F (f ++ [k], j) = none → readArr F (f ++ [k], j) = none := by
          intro j hj; simp [readArr, hj]
        rcases hi with rfl | rfl | rfl | rfl
        · rw [hn 1 hF]; split <;> simp_all
        · rw [hn 2 hF]; split <;> simp_all
        · rw [hn 3 hF]; split <;> simp_all
        · rw [hF]
      cases readAll (fun k => (readArr F (f ++ [k], 0)).map (fun x => ofLeaf n (.arr x))) b.numpys a with
      | none => rfl
      | some a' =>
        simp only
        rw [readAll_none _ _ _ k hk (by rw [hr]; rfl)]

/-- C18: loading fails when a nested object that was saved is not there, or its own loading fails. -/
theorem C18_load_missing_child (F : PyDict (List N × Nat) (Leaf P A)) (n : Nat) (f : List N)
    (main : Obj N (Val N P A (n + 1))) (b : Book N) (hb : main.book = some b) (k : N) (hk : k ∈ b.recs)
    (h : ∀ c, get? main.attrs k = some (.inr c) → load F (f ++ [k]) c = none) : load F f main = none := by
  unfold load loadObj
  rw [hb]
  simp only
  rw [updAll_none _ _ _ k hk]
  intro v hv
  cases v with
  | inl l => rfl
  | inr c =>
    have := h c hv
    rw [load] at this
    rw [loadVal, this]; rfl

/-- non-vacuity: the object of the examples needs six writes of separate files and one of the main file -/
example : (smartSave exBig [] none [] exObj ⟨[], 6⟩).2.2.isSome = false ∧
    (smartSave exBig [] none [] exObj ⟨[], 7⟩).2.2.isSome = true := by decide +kernel

end Verif.SaveLoad
