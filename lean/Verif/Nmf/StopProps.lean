import Verif.Nmf.StopModel
import Verif.Nmf.Props

/-!
# C170: when the loops of NMF stop
-/

namespace Verif.Nmf

variable {I K : Type} [Fintype I] [Fintype K] [DecidableEq K] [DecidableEq I]

/-! ## Specification -/

/-- The weights of the documents after the given rounds, each document on its own. -/
noncomputable def after (W : I → K → ℝ) (kappa : ℝ) (docs : List (I → ℝ)) (hs : List (K → ℝ)) (rounds : List (List K)) :
    List (K → ℝ) :=
  List.zipWith (solveProj (some W) kappa rounds) docs hs

/-- The error of round `j` (counted from 0). -/
noncomputable def roundError (W : I → K → ℝ) (kappa m : ℝ) (docs : List (I → ℝ)) (hs : List (K → ℝ))
    (perms : List (List K)) (j : ℕ) : Option ℝ :=
  (solveErr (gram W) kappa (docs.map (proj W)) (after W kappa docs hs (perms.take j)) (perms.getD j [])).map fun x => x / m

/-- Two errors that stop the loop: both are numbers, the earlier is not 0, and they are close. -/
def Close (stop : ℝ) (x y : Option ℝ) : Prop := ∃ a b, x = some a ∧ y = some b ∧ a ≠ 0 ∧ |a - b| < stop

/-! ## Lemmas -/

theorem hHalts_some (stop : ℝ) (x y : Option ℝ) : hHalts stop (some x) y ↔ Close stop x y := by
  unfold hHalts Close
  cases x <;> cases y <;> simp

theorem solveH_after (W : I → K → ℝ) (kappa : ℝ) (docs : List (I → ℝ)) (hs : List (K → ℝ)) (perm : List K) :
    solveH (gram W) kappa (docs.map (proj W)) hs perm = after W kappa docs hs [perm] := by
  unfold solveH after
  rw [List.zipWith_map_left]
  rfl

theorem after_cons (W : I → K → ℝ) (kappa : ℝ) (docs : List (I → ℝ)) (hs : List (K → ℝ)) (perm : List K)
    (rounds : List (List K)) :
    after W kappa docs (after W kappa docs hs [perm]) rounds = after W kappa docs hs (perm :: rounds) := by
  unfold after
  induction docs generalizing hs with
  | nil => simp
  | cons v docs ih =>
    cases hs with
    | nil => simp
    | cons h hs =>
      simp only [List.zipWith_cons_cons, List.cons.injEq]
      exact ⟨by simp [solveProj], ih hs⟩

theorem after_nil (W : I → K → ℝ) (kappa : ℝ) (docs : List (I → ℝ)) (hs : List (K → ℝ)) (hl : hs.length = docs.length) :
    after W kappa docs hs [] = hs := by
  unfold after
  induction docs generalizing hs with
  | nil => simp [List.length_eq_zero_iff.1 hl]
  | cons v docs ih =>
    cases hs with
    | nil => simp at hl
    | cons h hs =>
      simp only [List.zipWith_cons_cons, List.cons.injEq]
      exact ⟨by simp [solveProj], ih hs (by simpa using hl)⟩

theorem after_length (W : I → K → ℝ) (kappa : ℝ) (docs : List (I → ℝ)) (hs : List (K → ℝ)) (hl : hs.length = docs.length)
    (rounds : List (List K)) : (after W kappa docs hs rounds).length = docs.length := by
  unfold after; rw [List.length_zipWith, hl, Nat.min_self]

theorem hLoop_spec (W : I → K → ℝ) (kappa stop m : ℝ) (docs : List (I → ℝ)) (perms : List (List K)) :
    ∀ (last : Option (Option ℝ)) (hs : List (K → ℝ)), hs.length = docs.length →
    let E := roundError W kappa m docs hs perms
    let prev : ℕ → Option (Option ℝ) := fun j => if j = 0 then last else some (E (j - 1))
    ∃ n ≤ perms.length, hLoop (gram W) kappa stop m (docs.map (proj W)) perms last hs = after W kappa docs hs (perms.take n) ∧
      (n < perms.length → 0 < n ∧ hHalts stop (prev (n - 1)) (E (n - 1))) ∧
      ∀ j, j + 1 < n → ¬ hHalts stop (prev j) (E j) := by
  induction perms with
  | nil => intro last hs hl; exact ⟨0, le_rfl, by simp [hLoop, after_nil W kappa docs hs hl], by simp, by simp⟩
  | cons perm perms ih =>
    intro last hs hl E prev
    have hE0 : E 0 = (solveErr (gram W) kappa (docs.map (proj W)) hs perm).map fun x => x / m := by
      change Option.map _ (solveErr _ _ _ (after W kappa docs hs []) perm) = _
      rw [after_nil W kappa docs hs hl]
    unfold hLoop
    dsimp only
    rw [← hE0, solveH_after]
    by_cases hh : hHalts stop last (E 0)
    · rw [if_pos hh]
      exact ⟨1, by simp, by simp, fun _ => ⟨one_pos, hh⟩, by intro j hj; omega⟩
    · rw [if_neg hh]
      obtain ⟨n, hn, h1, h2, h3⟩ := ih (some (E 0)) (after W kappa docs hs [perm]) (after_length W kappa docs hs hl _)
      have hE : ∀ j, roundError W kappa m docs (after W kappa docs hs [perm]) perms j = E (j + 1) := by
        intro j
        change Option.map _ (solveErr _ _ _ _ _) = Option.map _ (solveErr _ _ _ _ _)
        rw [after_cons, List.take_succ_cons, List.getD_cons_succ]
      have hprev : ∀ j, (if j = 0 then some (E 0)
          else some (roundError W kappa m docs (after W kappa docs hs [perm]) perms (j - 1))) = prev (j + 1) := by
        intro j
        rcases Nat.eq_zero_or_pos j with rfl | hj
        · simp [prev]
        · rw [if_neg hj.ne', hE, Nat.sub_add_cancel hj]
          simp [prev]
      refine ⟨n + 1, by simpa using hn, ?_, fun hlt => ⟨Nat.succ_pos _, ?_⟩, fun j hj => ?_⟩
      · rw [h1, after_cons, List.take_succ_cons]
      · obtain ⟨q1, q2⟩ := h2 (by simpa using hlt)
        dsimp only at q2
        rw [hprev, hE, Nat.sub_add_cancel q1] at q2
        exact q2
      · rcases Nat.eq_zero_or_pos j with rfl | hj0
        · simpa [prev] using hh
        · have := h3 (j - 1) (by omega)
          dsimp only at this
          rw [hprev, hE, Nat.sub_add_cancel hj0] at this
          exact this

/-! ## Theorems -/

/-- All documents of a chunk get the same number of rounds, at least two of them if more than one is allowed: the loop
    stops after the first round whose error is close to that of the round before, and at the limit otherwise. -/
theorem C170_rounds (W : I → K → ℝ) (kappa stop m : ℝ) (docs : List (I → ℝ)) (hs : List (K → ℝ))
    (hl : hs.length = docs.length) (perms : List (List K)) :
    let E := roundError W kappa m docs hs perms
    ∃ n ≤ perms.length,
      hLoop (gram W) kappa stop m (docs.map (proj W)) perms none hs = after W kappa docs hs (perms.take n) ∧
      (n < perms.length → ∃ j, n = j + 2 ∧ Close stop (E j) (E (j + 1))) ∧
      ∀ j, j + 2 < n → ¬ Close stop (E j) (E (j + 1)) := by
  intro E
  obtain ⟨n, hn, h1, h2, h3⟩ := hLoop_spec W kappa stop m docs perms none hs hl
  refine ⟨n, hn, h1, fun hlt => ?_, fun j hj => ?_⟩
  · obtain ⟨q1, q2⟩ := h2 hlt
    rcases Nat.lt_or_ge n 2 with hlt2 | hge
    · have : n = 1 := by omega
      subst this
      exact absurd q2 (by simp [hHalts])
    · obtain ⟨j, rfl⟩ : ∃ j, n = j + 2 := ⟨n - 2, by omega⟩
      refine ⟨j, rfl, ?_⟩
      have e1 : j + 2 - 1 = j + 1 := rfl
      rw [e1] at q2
      dsimp only at q2
      rw [if_neg (Nat.succ_ne_zero j), Nat.add_sub_cancel, hHalts_some] at q2
      exact q2
  · have := h3 (j + 1) (by omega)
    dsimp only at this
    rw [if_neg (Nat.succ_ne_zero j), Nat.add_sub_cancel, hHalts_some] at this
    exact this

/-- The distance that training logs never grows with more rounds, so neither by the rounds that a looser stopping rule
    leaves out; it is the square root of the summed squared distances of the documents from their combinations of topics. -/
theorem C170_norm (W : I → K → ℝ) (kappa : ℝ) (h0 : 0 ≤ kappa) (h2 : kappa ≤ 2) (docs : List (I → ℝ)) (hs : List (K → ℝ))
    (hh : ∀ h ∈ hs, ∀ k, 0 ≤ h k) (rounds more : List (List K)) :
    l2Norm W docs (after W kappa docs hs (rounds ++ more)) ≤ l2Norm W docs (after W kappa docs hs rounds) ∧
    l2Norm W docs hs ^ 2 = (List.zipWith (fun v h => 2 * docLoss W v h) docs hs).sum := by
  have e : ∀ (docs : List (I → ℝ)) (hs : List (K → ℝ)),
      (List.zipWith (fun v h => ∑ i, (v i - ∑ k, h k * W i k) ^ 2) docs hs)
        = List.zipWith (fun v h => 2 * docLoss W v h) docs hs := by
    intro docs hs
    congr 1
    funext v h
    unfold docLoss
    rw [← mul_assoc, show (2 : ℝ) * (1 / 2) = 1 by norm_num, one_mul]
    simp only [mul_comm (h _)]
  constructor
  · unfold l2Norm
    rw [e, e]
    refine Real.sqrt_le_sqrt ?_
    unfold after
    clear e
    induction docs generalizing hs with
    | nil => simp
    | cons v docs ih =>
      cases hs with
      | nil => simp
      | cons h hs =>
        simp only [List.zipWith_cons_cons, List.sum_cons]
        have a := (C92_representation_descends W v kappa h0 h2 rounds more h (hh h List.mem_cons_self)).2.2
        have b := ih hs fun x hx => hh x (List.mem_cons_of_mem _ hx)
        linarith
  · unfold l2Norm
    rw [e, Real.sq_sqrt]
    refine List.sum_nonneg fun x hx => ?_
    rw [← List.map_uncurry_zip_eq_zipWith] at hx
    obtain ⟨y, -, rfl⟩ := List.mem_map.1 hx
    have : 0 ≤ docLoss W y.1 y.2 := by
      unfold docLoss
      exact mul_nonneg (by norm_num) (Finset.sum_nonneg fun i _ => sq_nonneg _)
    exact mul_nonneg (by norm_num) this

theorem coordErr_nonneg {G : K → K → ℝ} {b : K → ℝ} {kappa : ℝ} {h : K → ℝ} {k : K} {x : ℝ}
    (hx : coordErr G b kappa h k = some x) : 0 ≤ x := by
  unfold coordErr at hx
  split at hx
  · split at hx
    · exact (Option.some.inj hx).le
    · cases hx
  · rw [← Option.some.inj hx]
    exact mul_self_nonneg _

theorem coordErr_zero {G : K → K → ℝ} {b : K → ℝ} {kappa : ℝ} {h : K → ℝ} {k : K} (hh : 0 ≤ h k)
    (hx : coordErr G b kappa h k = some 0) : coord G b kappa h k = h := by
  unfold coordErr at hx
  unfold coord
  dsimp only at hx ⊢
  refine Function.update_eq_self_iff.2 ?_
  split at hx
  · next hG =>
    rw [if_pos hG]
    split at hx
    · next h0 => exact h0.symm
    · cases hx
  · next hG =>
    rw [if_neg hG]
    have := mul_self_eq_zero.1 (Option.some.inj hx)
    split at this
    · next h0 =>
      rw [h0, zero_sub]
      exact max_eq_right (by have := min_eq_left_iff.1 this; linarith)
    · rw [this, sub_zero]
      exact max_eq_left hh

theorem addNan_some {x y : Option ℝ} {c : ℝ} (h : addNan x y = some c) : ∃ a b, x = some a ∧ y = some b ∧ a + b = c := by
  cases x <;> cases y <;> simp [addNan] at h ⊢
  exact h

theorem sweepErr_nonneg {G : K → K → ℝ} {b : K → ℝ} {kappa : ℝ} (perm : List K) :
    ∀ {h : K → ℝ} {x : ℝ}, sweepErr G b kappa h perm = some x → 0 ≤ x := by
  induction perm with
  | nil => intro h x hx; exact (Option.some.inj hx).le
  | cons k ks ih =>
    intro h x hx
    obtain ⟨p, q, h1, h2, rfl⟩ := addNan_some hx
    exact add_nonneg (coordErr_nonneg h1) (ih h2)

theorem sweepErr_zero {G : K → K → ℝ} {b : K → ℝ} {kappa : ℝ} (perm : List K) {h : K → ℝ} (hh : ∀ k, 0 ≤ h k)
    (hx : sweepErr G b kappa h perm = some 0) : sweep G b kappa h perm = h := by
  induction perm with
  | nil => rfl
  | cons k ks ih =>
    obtain ⟨p, q, h1, h2, h3⟩ := addNan_some hx
    have hp := coordErr_nonneg h1
    have hq := sweepErr_nonneg ks h2
    have hp0 : p = 0 := by linarith
    have hq0 : q = 0 := by linarith
    subst hp0 hq0
    have e := coordErr_zero (hh k) h1
    rw [e] at h2
    change sweep G b kappa (coord G b kappa h k) ks = h
    rw [e]
    exact ih h2

/-- The error of a component is the square of its move, unless the move was cut short at 0. -/
theorem C170_component {G : K → K → ℝ} {b : K → ℝ} {kappa : ℝ} {h : K → ℝ} {k : K} {x : ℝ} (hh : 0 ≤ h k)
    (hx : coordErr G b kappa h k = some x) :
    (coord G b kappa h k k - h k) ^ 2 ≤ x ∧
    (h k = 0 ∨ 0 < coord G b kappa h k k → (coord G b kappa h k k - h k) ^ 2 = x) := by
  unfold coordErr at hx
  unfold coord
  dsimp only at hx ⊢
  rw [Function.update_self]
  split at hx
  · next hG =>
    rw [if_pos hG]
    split at hx
    · next h0 =>
      rw [← Option.some.inj hx, h0]
      exact ⟨by norm_num, fun _ => by norm_num⟩
    · cases hx
  · next hG =>
    rw [if_neg hG]
    set g := (-b k + ∑ l, G k l * h l) * kappa / G k k with hg
    have hx' := Option.some.inj hx
    split at hx'
    · next h0 =>
      rw [← hx', h0, zero_sub, sub_zero]
      have : max (-g) 0 = -min 0 g := by
        rcases le_total 0 g with hg0 | hg0
        · rw [min_eq_left hg0, max_eq_right (by linarith)]; ring
        · rw [min_eq_right hg0, max_eq_left (by linarith)]
      rw [this]
      exact ⟨by nlinarith, fun _ => by ring⟩
    · next h0 =>
      rw [← hx']
      rcases le_total 0 (h k - g) with hm | hm
      · rw [max_eq_left hm]
        exact ⟨by nlinarith, fun _ => by ring⟩
      · rw [max_eq_right hm]
        refine ⟨by nlinarith, fun hor => ?_⟩
        rcases hor with hor | hor
        · exact absurd hor h0
        · exact absurd hor (lt_irrefl _)

/-- The weights of a document move by at most the error in a round: the square of the error is at least the summed squares
    of the moves. -/
theorem C170_moves {G : K → K → ℝ} {b : K → ℝ} {kappa : ℝ} (perm : List K) (hp : perm.Nodup) :
    ∀ {h : K → ℝ} {x : ℝ}, (∀ k, 0 ≤ h k) → sweepErr G b kappa h perm = some x →
    ∑ k, (sweep G b kappa h perm k - h k) ^ 2 ≤ x := by
  have keep : ∀ (perm : List K) (g : K → ℝ) (k : K), k ∉ perm → sweep G b kappa g perm k = g k := by
    intro perm
    induction perm with
    | nil => intro g k _; rfl
    | cons a l ih =>
      intro g k hk
      change sweep G b kappa (coord G b kappa g a) l k = g k
      rw [ih _ k fun hm => hk (List.mem_cons_of_mem _ hm)]
      unfold coord
      exact Function.update_of_ne (fun e : k = a => hk (by rw [e]; exact List.mem_cons_self)) _ _
  induction perm with
  | nil =>
    intro h x _ hx
    rw [← Option.some.inj hx]
    simp [sweep]
  | cons a l ih =>
    intro h x hh hx
    obtain ⟨p, q, h1, h2, rfl⟩ := addNan_some hx
    obtain ⟨ha, hl⟩ := List.nodup_cons.1 hp
    have m1 := (C170_component (hh a) h1).1
    have m2 := ih hl (coord_nonneg G b kappa h hh a) h2
    change ∑ k, (sweep G b kappa (coord G b kappa h a) l k - h k) ^ 2 ≤ p + q
    have split : ∑ k, (sweep G b kappa (coord G b kappa h a) l k - h k) ^ 2
        = ∑ k, (sweep G b kappa (coord G b kappa h a) l k - coord G b kappa h a k) ^ 2
          + (coord G b kappa h a a - h a) ^ 2 := by
      rw [← Finset.add_sum_erase Finset.univ _ (Finset.mem_univ a),
        ← Finset.add_sum_erase Finset.univ (fun k => (sweep G b kappa (coord G b kappa h a) l k - coord G b kappa h a k) ^ 2)
          (Finset.mem_univ a), keep l _ a ha, sub_self]
      have : ∑ k ∈ Finset.univ.erase a, (sweep G b kappa (coord G b kappa h a) l k - h k) ^ 2
          = ∑ k ∈ Finset.univ.erase a, (sweep G b kappa (coord G b kappa h a) l k - coord G b kappa h a k) ^ 2 := by
        refine Finset.sum_congr rfl fun k hk => ?_
        have : coord G b kappa h a k = h k := by
          unfold coord
          exact Function.update_of_ne (Finset.ne_of_mem_erase hk) _ _
        rw [this]
      rw [this]
      ring
    rw [split]
    linarith

/-- A round with error 0 means that every document has its best weights already: the round changes nothing, and no other
    non-negative weights come closer to the document. -/
theorem C170_no_error (W : I → K → ℝ) (kappa : ℝ) (hk : 0 < kappa) (docs : List (I → ℝ)) (hs : List (K → ℝ))
    (hl : hs.length = docs.length) (hh : ∀ h ∈ hs, ∀ k, 0 ≤ h k) (perm : List K) (hp : perm.Nodup) (hall : ∀ k, k ∈ perm)
    (h0 : solveErr (gram W) kappa (docs.map (proj W)) hs perm = some 0) :
    solveH (gram W) kappa (docs.map (proj W)) hs perm = hs ∧
    ∀ x ∈ docs.zip hs, ∀ z : K → ℝ, (∀ k, 0 ≤ z k) → docLoss W x.1 x.2 ≤ docLoss W x.1 z := by
  obtain ⟨s, hs0, hs1⟩ := Option.map_eq_some_iff.1 h0
  have fold_nonneg : ∀ (l : List (Option ℝ)) (c : ℝ), (∀ x ∈ l, ∀ a, x = some a → 0 ≤ a) →
      l.foldr addNan (some 0) = some c → 0 ≤ c ∧ (c = 0 → ∀ x ∈ l, x = some 0) := by
    intro l
    induction l with
    | nil => intro c _ h; exact ⟨(Option.some.inj h).le, by simp⟩
    | cons x l ih =>
      intro c hx h
      obtain ⟨p, q, h1, h2, rfl⟩ := addNan_some h
      have hpn := hx x List.mem_cons_self p h1
      obtain ⟨i1, i2⟩ := ih q (fun y hy => hx y (List.mem_cons_of_mem _ hy)) h2
      refine ⟨add_nonneg hpn i1, fun hc y hy => ?_⟩
      rcases List.mem_cons.1 hy with rfl | hy
      · rw [h1]; congr 1; linarith
      · exact i2 (by linarith) y hy
  have hnn : ∀ x ∈ List.zipWith (fun b h => sweepErr (gram W) b kappa h perm) (docs.map (proj W)) hs,
      ∀ a, x = some a → 0 ≤ a := by
    intro x hx a ha
    rw [← List.map_uncurry_zip_eq_zipWith] at hx
    obtain ⟨y, -, rfl⟩ := List.mem_map.1 hx
    exact sweepErr_nonneg perm ha
  obtain ⟨q1, q2⟩ := fold_nonneg _ s hnn hs0
  have hs00 : s = 0 := (Real.sqrt_eq_zero q1).1 hs1
  have all := q2 hs00
  have fixed : ∀ x ∈ docs.zip hs, sweep (gram W) (proj W x.1) kappa x.2 perm = x.2 := by
    intro x hx
    refine sweepErr_zero perm (hh x.2 (List.of_mem_zip hx).2) ?_
    apply all
    rw [List.zipWith_map_left, ← List.map_uncurry_zip_eq_zipWith]
    exact List.mem_map.2 ⟨x, hx, rfl⟩
  refine ⟨?_, fun x hx z hz =>
    C92_fixed_point_is_optimal W x.1 kappa hk perm hp hall x.2 (hh x.2 (List.of_mem_zip hx).2) (fixed x hx) z hz⟩
  unfold solveH
  rw [List.zipWith_map_left, ← List.map_uncurry_zip_eq_zipWith]
  calc (docs.zip hs).map _ = (docs.zip hs).map Prod.snd := List.map_congr_left fun x hx => fixed x hx
    _ = hs := List.map_snd_zip (by omega)

/-- The steps of the topics: some number of steps within the limit, stopping before the first step at which the error has
    changed by less than the given share since it was last computed; the error remembered is the one before the last step,
    or the one of the earlier chunk if there was no step. -/
theorem C170_topic_steps (kappa stop : ℝ) (vMax : WithTop ℝ) (A : K → K → ℝ) (B : I → K → ℝ) (limit : ℕ)
    (last : Option ℝ) (W : I → K → ℝ) :
    let S : ℕ → I → K → ℝ := fun n => (wStep kappa vMax A B)^[n] W
    let seen : ℕ → Option ℝ := fun n => if n = 0 then last else some (wError A B (S (n - 1)))
    let Small : ℕ → Prop := fun n => ∃ x, seen n = some x ∧ x ≠ 0 ∧ |(wError A B (S n) - x) / x| < stop
    ∃ n ≤ limit, wLoop kappa stop vMax A B limit (last, W) = (seen n, S n) ∧
      (n < limit → Small n) ∧ ∀ j < n, ¬ Small j := by
  have hw : ∀ (l : Option ℝ) (e : ℝ), wHalts stop l e ↔ ∃ x, l = some x ∧ x ≠ 0 ∧ |(e - x) / x| < stop := by
    intro l e
    cases l <;> simp [wHalts]
  induction limit generalizing last W with
  | zero => exact ⟨0, le_rfl, by simp [wLoop], by simp, by simp⟩
  | succ limit ih =>
    intro S seen Small
    unfold wLoop
    dsimp only
    by_cases h : wHalts stop last (wError A B W)
    · rw [if_pos h]
      exact ⟨0, Nat.zero_le _, rfl, fun _ => (hw _ _).1 h, by simp⟩
    · rw [if_neg h]
      obtain ⟨n, hn, h1, h2, h3⟩ := ih (some (wError A B W)) (wStep kappa vMax A B W)
      have hS : ∀ j, (wStep kappa vMax A B)^[j] (wStep kappa vMax A B W) = S (j + 1) := fun j => rfl
      have hseen : ∀ j, (if j = 0 then some (wError A B W)
          else some (wError A B ((wStep kappa vMax A B)^[j - 1] (wStep kappa vMax A B W)))) = seen (j + 1) := by
        intro j
        rcases Nat.eq_zero_or_pos j with rfl | hj
        · simp [seen, S]
        · rw [if_neg hj.ne', hS, Nat.sub_add_cancel hj]
          simp [seen]
      refine ⟨n + 1, by omega, ?_, fun hlt => ?_, fun j hj => ?_⟩
      · rw [h1]
        dsimp only
        rw [hseen, hS]
      · have := h2 (by omega)
        dsimp only at this
        rw [hseen] at this
        exact this
      · rcases Nat.eq_zero_or_pos j with rfl | hj0
        · exact fun hsm => h ((hw _ _).2 hsm)
        · obtain ⟨i, rfl⟩ : ∃ i, j = i + 1 := ⟨j - 1, by omega⟩
          have := h3 i (by omega)
          dsimp only at this
          rw [hseen] at this
          exact this

/-- Finding: the error is compared with the one remembered from the chunk before, which is about other statistics.  With
    one word and one topic: after a chunk with one step allowed, the next chunk happens to start with the remembered error,
    and no step is made however many are allowed, though a step would make the error smaller. -/
theorem C170_step_skipped : ∃ (A A' : Unit → Unit → ℝ) (B B' W : Unit → Unit → ℝ), Feasible W ∧
    ∀ stop, 0 < stop → ∀ limit,
      let s := wLoop 1 stop ⊤ A B 1 (none, W)
      Feasible s.2 ∧ wLoop 1 stop ⊤ A' B' limit s = s ∧ wError A' B' (wStep 1 ⊤ A' B' s.2) < wError A' B' s.2 := by
  refine ⟨fun _ _ => 1, fun _ _ => 1, fun _ _ => 3 / 4, fun _ _ => 17 / 24, fun _ _ => 1 / 2, ?_, fun stop hs limit => ?_⟩
  · constructor
    · intro _ _; norm_num
    · intro _; norm_num
  have hf : frob (fun _ _ : Unit => (1 : ℝ)) = 1 := by simp [frob]
  have hstep : ∀ b w : ℝ, 0 ≤ b → b ≤ 1 → wStep 1 ⊤ (fun _ _ : Unit => (1 : ℝ)) (fun _ _ : Unit => b) (fun _ _ => w) = fun _ _ => b := by
    intro b w hb hb1
    funext i k
    unfold wStep transform
    rw [hf]
    have : ∀ j : Unit, clip ⊤ (w - 1 / 1 * (dotA (fun _ _ : Unit => w) (fun _ _ : Unit => (1 : ℝ)) j k - b)) = b := by
      intro j
      simp [clip, dotA, hb]
    simp only [this]
    rw [max_eq_right, div_one]
    simp only [Finset.univ_unique, Finset.sum_const, Finset.card_singleton, one_smul]
    rw [Real.sqrt_mul_self hb]
    exact hb1
  have herr : ∀ b w : ℝ, wError (fun _ _ : Unit => (1 : ℝ)) (fun _ _ : Unit => b) (fun _ _ => w) = 1 / 2 * (w * w) - w * b := by
    intro b w
    simp [wError, dotA]
  have hs1 : wLoop 1 stop ⊤ (fun _ _ : Unit => (1 : ℝ)) (fun _ _ : Unit => 3 / 4) 1 (none, fun _ _ => 1 / 2)
      = (some (-(1 / 4)), fun _ _ => 3 / 4) := by
    unfold wLoop
    dsimp only
    rw [if_neg (by simp [wHalts])]
    unfold wLoop
    rw [hstep _ _ (by norm_num) (by norm_num), herr]
    norm_num
  intro s
  have hse : s = (some (-(1 / 4)), fun _ _ => 3 / 4) := hs1
  rw [hse]
  refine ⟨⟨fun _ _ => by norm_num, fun _ => by norm_num⟩, ?_, ?_⟩
  · cases limit with
    | zero => rfl
    | succ n =>
      unfold wLoop
      dsimp only
      rw [if_pos]
      rw [herr]
      refine ⟨by norm_num, ?_⟩
      norm_num
      exact hs
  · dsimp only
    rw [hstep _ _ (by norm_num) (by norm_num), herr, herr]
    norm_num

/-! ## Non-vacuity -/

/-- one word, one topic, one document with weights that fit: the round has error 0 -/
example : solveErr (gram fun _ _ : Unit => (1 : ℝ)) 1 [proj (fun _ _ : Unit => (1 : ℝ)) fun _ => 2] [fun _ => 2] [()] = some 0 := by
  simp [solveErr, sweepErr, coordErr, gram, proj, addNan]

end Verif.Nmf
