import Verif.Termsim.WidthModel
import Verif.Termsim.Props

/-!
# C56: the counters of a term similarity matrix never overflow
-/

namespace Verif.Termsim
open Verif

variable {K : Type} [Field K] [LinearOrder K] [IsStrictOrderedRing K]

/-- C56 (type of the counters): the type holds every number up to the given one, and no shorter unsigned type does. -/
theorem C56_shortest_type (v : Int) (hv : v < 2 ^ 64) :
    shortestUint v ∈ [8, 16, 32, 64] ∧ v < 2 ^ shortestUint v ∧
    ∀ b ∈ [8, 16, 32, 64], v < 2 ^ b → shortestUint v ≤ b := by
  unfold shortestUint
  split
  · next h => exact ⟨by simp, h, by simp⟩
  · next h =>
    split
    · next h' => refine ⟨by simp, h', ?_⟩; simp; omega
    · next h' =>
      split
      · next h'' => refine ⟨by simp, h'', ?_⟩; simp; omega
      · next h'' => refine ⟨by simp, hv, ?_⟩; simp; omega

theorem populateW_eq (bits : Nat) (cfg : Cfg K) (st : St K) (t1 t2 : Nat) (sim : K) (h : st.nz t1 + 1 < 2 ^ bits) :
    populateW bits cfg st t1 t2 sim = populate cfg st t1 t2 sim := by
  unfold populateW populate
  simp only
  congr 1
  funext c
  by_cases hc : c = t1
  · subst hc; simp [Nat.mod_eq_of_lt h]
  · simp [hc]

theorem cellFull_below {cfg : Cfg K} {st : St K} {t1 t2 : Nat} {sim : K} (h : cellFull cfg st t1 t2 sim = some false) :
    st.nz t1 < cfg.limit := by
  unfold cellFull at h
  split at h
  · cases h
  · split at h
    · cases h
    · split at h
      · cases h
      · omega

theorem limit_lt (cfg : Cfg K) (hl : cfg.limit < 2 ^ 64) : cfg.limit < 2 ^ shortestUint cfg.limit := by
  have := (C56_shortest_type (cfg.limit : Int) (by exact_mod_cast hl)).2.1
  exact_mod_cast this

theorem rowStepW_eq (cfg : Cfg K) (hl : cfg.limit < 2 ^ 64) (t1 : Nat) (st : St K) (row : Nat × K) (hne : row.1 ≠ t1) :
    rowStepW (shortestUint cfg.limit) cfg t1 st row = rowStep cfg t1 st row := by
  have hlim := limit_lt cfg hl
  unfold rowStepW rowStep
  cases h1 : cellFull cfg st t1 row.1 row.2 with
  | none => rfl
  | some b =>
    cases b with
    | true => rfl
    | false =>
      have a1 := cellFull_below h1
      have e1 := populateW_eq (shortestUint cfg.limit) cfg st t1 row.1 row.2 (by omega)
      simp only [e1]
      split
      · cases h2 : cellFull cfg st row.1 t1 row.2 with
        | none => rfl
        | some b =>
          cases b with
          | true => rfl
          | false =>
            have a2 := cellFull_below h2
            have e2 := populateW_eq (shortestUint cfg.limit) cfg (populate cfg st t1 row.1 row.2) row.1 t1 row.2 (by
              have : (populate cfg st t1 row.1 row.2).nz row.1 = st.nz row.1 := by simp [populate, hne]
              omega)
            simp only [e2]
      · rfl

theorem foldlM_congr {α β : Type} {f g : β → α → Option β} : ∀ (l : List α) (b : β), (∀ x ∈ l, ∀ b, f b x = g b x) →
    l.foldlM f b = l.foldlM g b
  | [], _, _ => rfl
  | x :: l, b, h => by
    simp only [List.foldlM_cons]
    rw [h x (by simp) b]
    congr 1
    funext c
    exact foldlM_congr l c fun y hy => h y (by simp [hy])

/-- C56 (no overflow): for an index that never returns the term itself (as the indexes do) and any limit below
2^64, the matrix built with counters of the chosen type is the matrix built with unbounded counters. -/
theorem C56_counters_never_overflow (cfg : Cfg K) (index : Nat → Nat → List (Nat × K)) (hl : cfg.limit < 2 ^ 64)
    (hi : ∀ t topn, ∀ p ∈ index t topn, p.1 ≠ t) : createSourceW cfg index = createSource cfg index := by
  have hcol : ∀ (st : St K) (col : Nat × Nat),
      columnStepW (shortestUint cfg.limit) cfg index st col = columnStep cfg index st col := by
    intro st col
    unfold columnStepW columnStep
    split
    · rfl
    · simp only
      cases hs : sortRows cfg (if 0 < cfg.limit - st.nz col.1 then index col.1 (cfg.limit - st.nz col.1) else []) with
      | none => rfl
      | some rows =>
        refine foldlM_congr _ _ fun row hrow st' => rowStepW_eq cfg hl col.1 st' row ?_
        generalize hms : (if 0 < cfg.limit - st.nz col.1 then index col.1 (cfg.limit - st.nz col.1) else []) = ms at hs
        have hmem : row ∈ ms := by
          unfold sortRows at hs
          split at hs
          · cases hs
            exact ((pySort_perm _ _).mem_iff).1 hrow
          · split at hs
            · cases hs
              exact ((pySort_perm _ _).mem_iff).1 hrow
            · cases hs
        rw [← hms] at hmem
        split at hmem
        · exact hi _ _ row hmem
        · cases hmem
  have hf : columnStepW (shortestUint cfg.limit) cfg index = columnStep cfg index := by
    funext st col
    exact hcol st col
  unfold createSourceW createSource
  rw [hf]
  cases columns cfg <;> rfl

/-- non-vacuity: a limit that needs a type of 16 bits, and one that just fits into 8 -/
example : shortestUint 255 = 8 ∧ shortestUint 256 = 16 := by decide

example : createSourceW (K := ℚ) ⟨[0, 1], none, true, false, 300⟩ (fun t _ => [(1 - t, if t < 2 then 1 / 2 else 0)]) =
    createSource ⟨[0, 1], none, true, false, 300⟩ (fun t _ => [(1 - t, if t < 2 then 1 / 2 else 0)]) :=
  C56_counters_never_overflow _ _ (by show 300 < 2 ^ 64; norm_num) (by intro t topn p hp; simp only [List.mem_singleton] at hp; subst hp; simp only; omega)

end Verif.Termsim
