import Verif.Formats.LineProps

/-!
# C23: lines that cannot be read
-/

namespace Verif.Formats
open Verif Text PyDict

variable {V : Type}

theorem rsplit1_none {c : Char} : ∀ {s : Str}, rsplit1 c s = none → c ∉ s
  | [], _ => by simp
  | x :: xs, h => by
    unfold rsplit1 at h
    cases hr : rsplit1 c xs with
    | some p => rw [hr] at h; cases h
    | none =>
      rw [hr] at h
      simp only at h
      split at h
      · cases h
      · next hx =>
        have := rsplit1_none hr
        simp [this, Ne.symm hx]

theorem rsplit1_eq_some {c : Char} {s a b : Str} : rsplit1 c s = some (a, b) ↔ s = a ++ c :: b ∧ c ∉ b := by
  constructor
  · intro h
    induction s generalizing a with
    | nil => cases h
    | cons x xs ih =>
      unfold rsplit1 at h
      cases hr : rsplit1 c xs with
      | some p =>
        obtain ⟨a', b'⟩ := p
        rw [hr] at h
        simp only [Option.some.injEq, Prod.mk.injEq] at h
        obtain ⟨rfl, rfl⟩ := h
        obtain ⟨h1, h2⟩ := ih hr
        exact ⟨by rw [h1]; rfl, h2⟩
      | none =>
        rw [hr] at h
        simp only at h
        split at h
        · next hx =>
          simp only [Option.some.injEq, Prod.mk.injEq] at h
          obtain ⟨rfl, rfl⟩ := h
          exact ⟨by rw [hx]; rfl, rsplit1_none hr⟩
        · cases h
  · rintro ⟨rfl, hb⟩
    exact rsplit1_append hb

/-- **C23 (malformed lines).** Reading a line raises exactly if one of its fields after the label is neither a query
id (`qid:` and anything without a colon) nor a number and a value around its last colon. -/
theorem C23_raises (C : Codec V) (line target : Str) (fields : List Str)
    (h : splitWs uws (strip uws (cutComment line)) = target :: fields) :
    svmLine2doc C line = none ↔ ∃ f ∈ fields, ∀ a b, f = a ++ ':' :: b → ':' ∉ b →
      a ≠ ['q', 'i', 'd'] ∧ (readInt a = none ∨ C.dec b = none) := by
  have hfield : ∀ f, svmField C f = none ↔ ∀ a b, f = a ++ ':' :: b → ':' ∉ b →
      a ≠ ['q', 'i', 'd'] ∧ (readInt a = none ∨ C.dec b = none) := by
    intro f
    unfold svmField
    cases hr : rsplit1 ':' f with
    | none =>
      simp only [true_iff]
      intro a b h1 h2
      have := rsplit1_eq_some.2 ⟨h1, h2⟩
      rw [hr] at this
      cases this
    | some p =>
      obtain ⟨a, b⟩ := p
      have hab := rsplit1_eq_some.1 hr
      simp only
      constructor
      · intro h1 a' b' h2 h3
        have := rsplit1_eq_some.2 ⟨h2, h3⟩
        rw [hr] at this
        simp only [Option.some.injEq, Prod.mk.injEq] at this
        obtain ⟨rfl, rfl⟩ := this
        split at h1
        · cases h1
        · next hq =>
          refine ⟨hq, ?_⟩
          cases h4 : readInt a with
          | none => exact .inl rfl
          | some i =>
            cases h5 : C.dec b with
            | none => exact .inr rfl
            | some v => rw [h4, h5] at h1; cases h1
      · intro h1
        obtain ⟨h2, h3⟩ := h1 a b hab.1 hab.2
        rw [if_neg h2]
        rcases h3 with h3 | h3
        · rw [h3]
        · rw [h3]; cases readInt a <;> rfl
  have hmap : ∀ l : List Str, mapOpt (svmField C) l = none ↔ ∃ f ∈ l, svmField C f = none := by
    intro l
    induction l with
    | nil => simp [mapOpt]
    | cons f l ih =>
      unfold mapOpt
      cases hf : svmField C f with
      | none => simp [hf]
      | some v => simp [hf, ih]
  unfold svmLine2doc
  rw [h]
  simp only [Option.map_eq_none_iff, hmap, hfield]

/-- non-vacuity: a field without a colon -/
example (C : Codec V) : svmLine2doc C "1 x\n".toList = none :=
  (C23_raises C _ ['1'] [['x']] (by decide +kernel)).2 ⟨['x'], by simp, fun a b h => by
    have : ':' ∈ (['x'] : List Char) := by rw [h]; simp
    exact absurd this (by decide)⟩

end Verif.Formats
