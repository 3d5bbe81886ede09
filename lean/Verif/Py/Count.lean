import Verif.Py.Dict
import Verif.Py.Sort

/-! # Counting dictionaries and `itertools.groupby` -/

namespace Verif
namespace PyDict

variable {κ : Type} [DecidableEq κ]

/-- `for k, n in ps: t[k] = t.get(k, 0) + n` -/
def accum (t : PyDict κ Nat) (ps : List (κ × Nat)) : PyDict κ Nat :=
  ps.foldl (fun t p => set t p.1 (getD t p.1 0 + p.2)) t

/-- the total weight of key `k` in a list of pairs -/
def weight (ps : List (κ × Nat)) (k : κ) : Nat :=
  (ps.map (fun p => if p.1 = k then p.2 else 0)).sum

@[simp] theorem accum_nil (t : PyDict κ Nat) : accum t [] = t := rfl

theorem accum_cons (t : PyDict κ Nat) (p : κ × Nat) (ps : List (κ × Nat)) :
    accum t (p :: ps) = accum (set t p.1 (getD t p.1 0 + p.2)) ps := rfl

theorem accum_append (t : PyDict κ Nat) (ps qs : List (κ × Nat)) :
    accum t (ps ++ qs) = accum (accum t ps) qs := by simp [accum]

@[simp] theorem getD_set_self {ν : Type} (t : PyDict κ ν) (k : κ) (v d : ν) :
    getD (set t k v) k d = v := by simp [getD]

theorem getD_set_ne {ν : Type} (t : PyDict κ ν) {k x : κ} (h : k ≠ x) (v d : ν) :
    getD (set t k v) x d = getD t x d := by simp [getD, get?_set_ne t h]

theorem getD_accum (t : PyDict κ Nat) (ps : List (κ × Nat)) (k : κ) :
    getD (accum t ps) k 0 = getD t k 0 + weight ps k := by
  induction ps generalizing t with
  | nil => simp [weight]
  | cons p ps ih =>
    rw [accum_cons, ih]
    unfold weight
    by_cases e : p.1 = k
    · subst e; simp; omega
    · rw [getD_set_ne _ e]; simp [e]

theorem mem_keys_accum (t : PyDict κ Nat) (ps : List (κ × Nat)) (k : κ) :
    k ∈ keys (accum t ps) ↔ k ∈ keys t ∨ k ∈ ps.map Prod.fst := by
  induction ps generalizing t with
  | nil => simp
  | cons p ps ih =>
    rw [accum_cons, ih, mem_keys_set, List.map_cons, List.mem_cons]
    constructor
    · rintro ((rfl | h) | h)
      · exact Or.inr (Or.inl rfl)
      · exact Or.inl h
      · exact Or.inr (Or.inr h)
    · rintro (h | rfl | h)
      · exact Or.inl (Or.inr h)
      · exact Or.inl (Or.inl rfl)
      · exact Or.inr h

theorem WF_accum {t : PyDict κ Nat} (h : WF t) (ps : List (κ × Nat)) : WF (accum t ps) := by
  induction ps generalizing t with
  | nil => exact h
  | cons p ps ih => rw [accum_cons]; exact ih (WF_set h _ _)

theorem sum_values_set (t : PyDict κ Nat) (k : κ) (n : Nat) :
    (values (set t k (getD t k 0 + n))).sum = (values t).sum + n := by
  induction t with
  | nil => simp [PyDict.set, values, getD]
  | cons p t ih =>
    obtain ⟨a, b⟩ := p
    by_cases e : a = k
    · subst e
      simp only [PyDict.set, if_true, values, List.map_cons, List.sum_cons, getD, get?, Option.getD_some]
      omega
    · have : getD ((a, b) :: t) k 0 = getD t k 0 := by simp [getD, get?, e]
      rw [this]
      simp only [PyDict.set, e, if_false, values, List.map_cons, List.sum_cons]
      simp only [values] at ih
      omega

theorem sum_values_accum (t : PyDict κ Nat) (ps : List (κ × Nat)) :
    (values (accum t ps)).sum = (values t).sum + (ps.map Prod.snd).sum := by
  induction ps generalizing t with
  | nil => simp
  | cons p ps ih => rw [accum_cons, ih, sum_values_set]; simp; omega

theorem get?_eq_getD_of_mem {ν : Type} {t : PyDict κ ν} {k : κ} (h : k ∈ keys t) (d : ν) :
    get? t k = some (getD t k d) := by
  obtain ⟨v, hv⟩ := Option.isSome_iff_exists.mp ((get?_isSome_iff _ _).mpr h)
  simp [getD, hv]

theorem getD_of_not_mem {ν : Type} {t : PyDict κ ν} {k : κ} (h : k ∉ keys t) (d : ν) :
    getD t k d = d := by simp [getD, (get?_eq_none_iff _ _).mpr h]

end PyDict

/-- `[(k, len(list(g))) for k, g in itertools.groupby(l)]`: runs of equal neighbours -/
def groupRuns {τ : Type} [DecidableEq τ] : List τ → List (τ × Nat)
  | [] => []
  | x :: xs => match groupRuns xs with
    | [] => [(x, 1)]
    | (y, n) :: r => if x = y then (y, n + 1) :: r else (x, 1) :: (y, n) :: r

section
variable {τ : Type} [DecidableEq τ]

theorem groupRuns_cons_ne_nil (x : τ) (xs : List τ) : groupRuns (x :: xs) ≠ [] := by
  unfold groupRuns
  split
  · simp
  · split <;> simp

theorem groupRuns_head (x : τ) (xs : List τ) : ∃ n r, groupRuns (x :: xs) = (x, n + 1) :: r := by
  unfold groupRuns
  split
  · exact ⟨0, [], rfl⟩
  · next y n r _ =>
    by_cases e : x = y
    · subst e; exact ⟨n, r, by simp⟩
    · exact ⟨0, (y, n) :: r, by simp [e]⟩

theorem mem_groupRuns_fst (l : List τ) (w : τ) : w ∈ (groupRuns l).map Prod.fst ↔ w ∈ l := by
  induction l with
  | nil => simp [groupRuns]
  | cons x xs ih =>
    cases xs with
    | nil => simp [groupRuns]
    | cons y ys =>
      obtain ⟨n, r, e⟩ := groupRuns_head y ys
      rw [e] at ih
      have : groupRuns (x :: y :: ys) =
          if x = y then (y, n + 1 + 1) :: r else (x, 1) :: (y, n + 1) :: r := by
        rw [groupRuns, e]
      rw [this]
      by_cases h : x = y
      · subst h; simp only [if_true, List.map_cons] at ih ⊢; rw [ih]; simp
      · simp only [h, if_false, List.map_cons] at ih ⊢; rw [List.mem_cons, ih, List.mem_cons (a := w) (b := x)]

theorem groupRuns_sorted {le : τ → τ → Bool} (anti : ∀ a b, le a b = true → le b a = true → a = b)
    (l : List τ) (hs : l.Pairwise (fun a b => le a b = true)) :
    ((groupRuns l).map Prod.fst).Nodup ∧ ∀ w n, (w, n) ∈ groupRuns l → n = l.count w := by
  induction l with
  | nil => simp [groupRuns]
  | cons x xs ih =>
    rw [List.pairwise_cons] at hs
    obtain ⟨ih1, ih2⟩ := ih hs.2
    cases xs with
    | nil => simp [groupRuns]
    | cons y ys =>
      obtain ⟨n, r, e⟩ := groupRuns_head y ys
      have hdef : groupRuns (x :: y :: ys) =
          if x = y then (y, n + 1 + 1) :: r else (x, 1) :: (y, n + 1) :: r := by
        rw [groupRuns, e]
      rw [hdef]
      by_cases h : x = y
      · subst h
        rw [e] at ih1 ih2
        simp only [if_true]
        refine ⟨ih1, ?_⟩
        intro w m hm
        rcases List.mem_cons.mp hm with hm' | hm'
        · cases hm'
          rw [List.count_cons_self, ← ih2 x (n + 1) (by simp)]
        · have hne : w ≠ x := by
            intro e'
            subst e'
            simp only [List.map_cons, List.nodup_cons] at ih1
            exact ih1.1 (List.mem_map.mpr ⟨(w, m), hm', rfl⟩)
          rw [List.count_cons_of_ne hne.symm]
          exact ih2 w m (by simp [hm'])
      · simp only [h, if_false]
        have hx : x ∉ y :: ys := by
          intro hmem
          rcases List.mem_cons.mp hmem with e' | hm
          · exact h e'
          · have h1 := hs.1 y (by simp)
            have h2 := (List.pairwise_cons.mp hs.2).1 x hm
            exact h (anti _ _ h1 h2)
        constructor
        · rw [List.map_cons, List.nodup_cons]
          rw [← e]
          refine ⟨?_, ih1⟩
          rw [mem_groupRuns_fst]; exact hx
        · intro w m hm
          rcases List.mem_cons.mp hm with hm | hm
          · cases hm
            rw [List.count_cons_self, List.count_eq_zero_of_not_mem hx]
          · have hw : w ∈ y :: ys := by
              rw [← mem_groupRuns_fst, e]
              exact List.mem_map.mpr ⟨(w, m), hm, rfl⟩
            have hne : x ≠ w := by rintro rfl; exact hx hw
            rw [List.count_cons_of_ne hne]
            exact ih2 w m (by rw [e]; exact hm)

theorem sum_groupRuns (l : List τ) : ((groupRuns l).map Prod.snd).sum = l.length := by
  induction l with
  | nil => rfl
  | cons x xs ih =>
    unfold groupRuns
    split
    · next h => rw [h] at ih; simp at ih; simp [← ih]
    · next y n r h =>
      rw [h] at ih
      simp only [List.map_cons, List.sum_cons] at ih
      split <;> simp <;> omega

theorem sum_groupRuns_if (p : τ → Bool) (l : List τ) :
    ((groupRuns l).map (fun g => if p g.1 then g.2 else 0)).sum = l.countP p := by
  induction l with
  | nil => rfl
  | cons x xs ih =>
    rw [List.countP_cons]
    unfold groupRuns
    split
    · next h => rw [h] at ih; simp only [List.map_nil, List.sum_nil] at ih; simp [← ih]
    · next y n r h =>
      rw [h] at ih
      simp only [List.map_cons, List.sum_cons] at ih
      split
      · next e => subst e; simp only [List.map_cons, List.sum_cons]; split at ih <;> simp_all <;> omega
      · simp only [List.map_cons, List.sum_cons]; omega
end

end Verif
