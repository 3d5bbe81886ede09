/-
Properties C45 (merging and blending of LDA statistics) and C46 (every chunk enters exactly one
M-step per pass).
-/
import Verif.Lda.UpdateModel
import Verif.Utils.ChunkProps
import Mathlib.Algebra.Order.Field.Basic
import Mathlib.Algebra.BigOperators.Group.List.Basic
import Mathlib.Tactic.Ring
import Mathlib.Tactic.Positivity
import Mathlib.Tactic.FieldSimp
import Mathlib.Tactic.Linarith

namespace Verif.Lda

open Verif.Chunk

section C45

variable {ι K : Type} [Field K]

theorem merge_eq (l : List (State ι K)) (s : State ι K) :
    (l.foldl State.merge s).sstats = (fun j => s.sstats j + (l.map fun x => x.sstats j).sum) ∧
    (l.foldl State.merge s).numdocs = s.numdocs + (l.map State.numdocs).sum := by
  induction l generalizing s with
  | nil => simp
  | cons x l ih =>
    rw [List.foldl_cons]
    obtain ⟨h1, h2⟩ := ih (s.merge x)
    constructor
    · rw [h1]; funext j
      simp only [State.merge, List.map_cons, List.sum_cons]; ring
    · rw [h2]; simp only [State.merge, List.map_cons, List.sum_cons]; omega

/-- **C45**: merging worker states in any order gives the same state, the sum of them all. -/
theorem C45_merge_any_order (l₁ l₂ : List (State ι K)) (s : State ι K) (h : l₁.Perm l₂) :
    l₁.foldl State.merge s = l₂.foldl State.merge s ∧
    (l₁.foldl State.merge s).sstats = (fun j => s.sstats j + (l₁.map fun x => x.sstats j).sum) ∧
    (l₁.foldl State.merge s).numdocs = s.numdocs + (l₁.map State.numdocs).sum := by
  refine ⟨?_, merge_eq l₁ s⟩
  have h1 := merge_eq l₁ s
  have h2 := merge_eq l₂ s
  generalize l₁.foldl State.merge s = a at *
  generalize l₂.foldl State.merge s = b at *
  cases a; cases b
  simp only [State.mk.injEq]
  refine ⟨?_, ?_⟩
  · have e1 := h1.1; have e2 := h2.1
    dsimp only at e1 e2
    rw [e1, e2]; funext j
    rw [(h.map fun x => x.sstats j).sum_eq]
  · have e1 := h1.2; have e2 := h2.2
    dsimp only at e1 e2
    rw [e1, e2, (h.map State.numdocs).sum_eq]

variable [LinearOrder K] [IsStrictOrderedRing K]

theorem scaleTo_eq (target n : Nat) (h : 0 < n) : (scaleTo target n : K) = target / n := by
  have hn : (n : K) ≠ 0 := by exact_mod_cast h.ne'
  unfold scaleTo
  split
  · next h' =>
    rcases h' with h' | h'
    · omega
    · rw [h', div_self hn]
  · rfl

theorem scaleTo_nonneg (target n : Nat) : (0 : K) ≤ scaleTo target n := by
  unfold scaleTo
  split
  · exact zero_le_one
  · positivity

/-- **C45**: blending is the weighted average of the per-document statistics, at the target size
    (by default the current number of documents). -/
theorem C45_blend (s other : State ι K) (rho : K) (target : Option Nat) (hs : 0 < s.numdocs)
    (ho : 0 < other.numdocs) :
    (s.blend rho other target).numdocs = target.getD s.numdocs ∧
    ∀ j, (s.blend rho other target).sstats j =
      (target.getD s.numdocs : Nat) *
        ((1 - rho) * (s.sstats j / s.numdocs) + rho * (other.sstats j / other.numdocs)) := by
  refine ⟨rfl, fun j => ?_⟩
  unfold State.blend
  dsimp only
  rw [scaleTo_eq _ _ hs, scaleTo_eq _ _ ho]
  ring

/-- **C45**: with no documents behind one of the two sides, that side is taken unscaled. -/
theorem C45_blend_empty (s other : State ι K) (rho : K) (hs : s.numdocs = 0) :
    ∀ j, (s.blend rho other none).sstats j =
      (1 - rho) * s.sstats j + rho * (if other.numdocs = 0 then other.sstats j else 0) := by
  intro j
  unfold State.blend scaleTo
  simp only [hs, Option.getD_none, true_or, if_true]
  by_cases h : other.numdocs = 0
  · simp only [h, true_or, if_true]; ring
  · have : ¬ (other.numdocs = 0 ∨ 0 = other.numdocs) := by omega
    rw [if_neg this, if_neg h, Nat.cast_zero, zero_div]; ring

/-- **C45**: weights between 0 and 1 keep statistics non-negative. -/
theorem C45_blend_nonneg (s other : State ι K) (rho : K) (target : Option Nat) (h0 : 0 ≤ rho)
    (h1 : rho ≤ 1) (hs : ∀ j, 0 ≤ s.sstats j) (ho : ∀ j, 0 ≤ other.sstats j) (j : ι) :
    0 ≤ (s.blend rho other target).sstats j := by
  unfold State.blend
  dsimp only
  have a := scaleTo_nonneg (K := K) (target.getD s.numdocs) s.numdocs
  have b := scaleTo_nonneg (K := K) (target.getD s.numdocs) other.numdocs
  have c : 0 ≤ 1 - rho := by linarith
  have := hs j
  have := ho j
  positivity

/-- **C45**: weight 1 forgets the old statistics, weight 0 keeps them. -/
theorem C45_blend_extremes (s s' other : State ι K) (target : Option Nat)
    (hn : s.numdocs = s'.numdocs) :
    s.blend 1 other target = s'.blend 1 other target ∧ s.blend 0 other none = s := by
  constructor
  · unfold State.blend
    simp only [hn, sub_self, zero_mul, mul_zero, zero_add]
  · cases s
    simp [State.blend, scaleTo]

example : (⟨fun _ => 6, 3⟩ : State Unit ℚ).blend (1 / 2) ⟨fun _ => 8, 2⟩ none = ⟨fun _ => 9, 3⟩ := by
  have := (C45_blend (⟨fun _ => 6, 3⟩ : State Unit ℚ) ⟨fun _ => 8, 2⟩ (1 / 2) none (by decide) (by decide)).2
  simp only [State.blend, State.mk.injEq, Option.getD_none, and_true]
  funext j
  have h := this j
  simp only [State.blend, Option.getD_none] at h
  rw [h]; norm_num

end C45

section C46

variable {ι K A H G D : Type} [Field K]

/-! ### Specification -/

/-- One M-step that uses exactly the chunks of `g`: the E-steps of those chunks from a fresh state,
    then the M-step. -/
def mstepOn (nu : Numerics ι K A H G D) (pass : Nat) (t : Trainer ι K A H) (g : List (List D)) :
    Trainer ι K A H :=
  let e := g.foldl (estep nu pass) (t, State.zero)
  mstep nu pass e.1 e.2

/-! ### Proof -/

theorem partial_group (nu : Numerics ι K A H G D) (pass every : Nat) (g : List (List D)) :
    ∀ (l : Loop ι K A H), (every = 0 ∨ l.chunkNo % every + g.length < every) →
    g.foldl (chunkStep nu pass every) l =
      ⟨(g.foldl (estep nu pass) (l.tr, l.other)).1, (g.foldl (estep nu pass) (l.tr, l.other)).2,
        l.dirty || !g.isEmpty, l.chunkNo + g.length⟩ := by
  induction g with
  | nil => intro l _; simp
  | cons c g ih =>
    intro l h
    rw [List.foldl_cons, List.foldl_cons]
    have hstep : chunkStep nu pass every l c =
        ⟨(estep nu pass (l.tr, l.other) c).1, (estep nu pass (l.tr, l.other) c).2, true,
          l.chunkNo + 1⟩ := by
      unfold chunkStep
      dsimp only
      rw [if_neg]
      rintro ⟨h1, h2⟩
      rcases h with h | h
      · exact h1 h
      · rw [List.length_cons] at h
        have hlt := Nat.mod_lt l.chunkNo (Nat.pos_of_ne_zero h1)
        rw [Nat.add_mod] at h2
        have h3 : 1 % every = 1 := Nat.mod_eq_of_lt (by omega)
        rw [h3, Nat.mod_eq_of_lt (by omega)] at h2
        omega
    rw [hstep, ih]
    · simp only [Loop.mk.injEq, List.length_cons, List.isEmpty_cons]
      refine ⟨trivial, trivial, by simp, by omega⟩
    · rcases h with h | h
      · exact Or.inl h
      · right
        rw [List.length_cons] at h
        dsimp only
        rw [Nat.add_mod]
        have h3 : 1 % every = 1 := Nat.mod_eq_of_lt (by omega)
        rw [h3, Nat.mod_eq_of_lt (by omega)]
        omega

theorem full_group (nu : Numerics ι K A H G D) (pass every : Nat) (he : 0 < every) (g : List (List D))
    (hg : g.length = every) (t : Trainer ι K A H) (n : Nat) (hn : n % every = 0) (d : Bool) :
    g.foldl (chunkStep nu pass every) ⟨t, State.zero, d, n⟩ =
      ⟨mstepOn nu pass t g, State.zero, false, n + every⟩ := by
  have hne : g ≠ [] := by intro h; rw [h] at hg; simp at hg; omega
  obtain ⟨g', c, rfl⟩ : ∃ g' c, g = g' ++ [c] := ⟨g.dropLast, g.getLast hne, (List.dropLast_append_getLast hne).symm⟩
  rw [List.length_append, List.length_singleton] at hg
  rw [List.foldl_append, partial_group nu pass every g' _ (Or.inr (by dsimp only; omega))]
  unfold mstepOn
  rw [List.foldl_cons, List.foldl_nil, List.foldl_append, List.foldl_cons, List.foldl_nil]
  unfold chunkStep
  dsimp only
  rw [if_pos]
  · congr 1; omega
  · refine ⟨by omega, ?_⟩
    have : n + g'.length + 1 = n + every := by omega
    rw [this, Nat.add_mod_right]; exact hn

theorem run_groups (nu : Numerics ι K A H G D) (pass every : Nat) (he : 0 < every)
    (cs : List (List D)) : ∀ (t : Trainer ι K A H) (n : Nat), n % every = 0 →
    (let l := cs.foldl (chunkStep nu pass every) ⟨t, State.zero, false, n⟩
     if l.dirty then mstep nu pass l.tr l.other else l.tr) =
      (chunks every cs).foldl (mstepOn nu pass) t := by
  refine chunk_ind (P := fun cs => ∀ (t : Trainer ι K A H) (n : Nat), n % every = 0 →
    (let l := cs.foldl (chunkStep nu pass every) ⟨t, State.zero, false, n⟩
     if l.dirty then mstep nu pass l.tr l.other else l.tr) =
      (chunks every cs).foldl (mstepOn nu pass) t) he ?_ ?_ cs
  · intro t n _; rw [chunks_nil]; rfl
  · intro l hl ih t n hn
    rw [chunks_cons he hl, List.foldl_cons]
    by_cases hlen : every ≤ l.length
    · have h1 := full_group nu pass every he (l.take every) (by rw [List.length_take]; omega) t n hn false
      have h2 := ih (mstepOn nu pass t (l.take every)) (n + every) (by rw [Nat.add_mod_right]; exact hn)
      rw [← h2, ← h1, ← List.foldl_append, List.take_append_drop]
    · have e1 : l.take every = l := List.take_of_length_le (by omega)
      have e2 : l.drop every = [] := List.drop_of_length_le (by omega)
      rw [e1, e2, chunks_nil, List.foldl_nil,
        partial_group nu pass every l _ (Or.inr (by dsimp only; omega))]
      dsimp only
      have : (false || !l.isEmpty) = true := by
        cases l with
        | nil => exact absurd rfl hl
        | cons => rfl
      rw [if_pos this]; rfl

/-- **C46**: one pass performs one M-step for every group of `update_every * numworkers` consecutive
    chunks (the last group may be smaller; in batch mode all chunks form one group).  The groups cover
    the chunks of the pass exactly once, in order, and none is empty or left over. -/
theorem C46_pass (nu : Numerics ι K A H G D) (every chunksize : Nat) (corpus : List D)
    (t : Trainer ι K A H) (pass : Nat) :
    ∃ groups : List (List (List D)), groups.flatten = chunks chunksize corpus ∧
      (∀ g ∈ groups, g ≠ []) ∧ (0 < every → ∀ g ∈ groups.dropLast, g.length = every) ∧
      (0 < every → ∀ g ∈ groups, g.length ≤ every) ∧ (every = 0 → groups.length ≤ 1) ∧
      runPass nu every chunksize corpus t pass = groups.foldl (mstepOn nu pass) t := by
  rcases Nat.eq_zero_or_pos every with he | he
  · refine ⟨if chunks chunksize corpus = [] then [] else [chunks chunksize corpus], ?_, ?_,
      fun h => by omega, fun h => by omega, ?_, ?_⟩
    · split
      · next h => rw [h]; rfl
      · simp
    · intro g hg
      split at hg
      · simp at hg
      · next h => rw [List.mem_singleton] at hg; rw [hg]; exact h
    · intro _; split <;> simp
    · unfold runPass
      rw [partial_group nu pass every _ _ (Or.inl he)]
      dsimp only
      split
      · next h =>
        split
        · next h2 => simp [h2] at h
        · rfl
      · next h =>
        split
        · next h2 => rw [h2]; rfl
        · next h2 =>
          exfalso; apply h
          cases hc : chunks chunksize corpus with
          | nil => exact absurd hc h2
          | cons => rfl
  · refine ⟨chunks every (chunks chunksize corpus), C15_concat he _, ?_, ?_, ?_, fun h => by omega, ?_⟩
    · intro g hg
      have h := C15_sizes he (chunks chunksize corpus)
      exact List.length_pos_iff.1 (h.1 g hg).1
    · intro _ g hg
      have h := C15_sizes he (chunks chunksize corpus)
      exact h.2 g hg
    · intro _ g hg
      have h := C15_sizes he (chunks chunksize corpus)
      exact (h.1 g hg).2
    · have := run_groups nu pass every he (chunks chunksize corpus) t 0 (Nat.zero_mod _)
      rw [← this]; rfl

/-- The statistics an M-step receives: the number of documents of its chunks and, when `alpha` is not
    re-estimated, the sum of the chunks' statistics under the model the group started with. -/
theorem C46_group_statistics (nu : Numerics ι K A H G D) (pass : Nat) (t : Trainer ι K A H)
    (g : List (List D)) :
    let e := g.foldl (estep nu pass) (t, State.zero)
    e.2.numdocs = (g.map List.length).sum ∧ e.1.state = t.state ∧
    ((∀ a x r, nu.updAlpha a x r = a) →
      e.1 = t ∧ ∀ j, e.2.sstats j = (g.map fun c => (nu.infer t c).1 j).sum) := by
  have H : ∀ (o : State ι K),
      (g.foldl (estep nu pass) (t, o)).2.numdocs = o.numdocs + (g.map List.length).sum ∧
      (g.foldl (estep nu pass) (t, o)).1.state = t.state ∧
      ((∀ a x r, nu.updAlpha a x r = a) →
        (g.foldl (estep nu pass) (t, o)).1 = t ∧
        ∀ j, (g.foldl (estep nu pass) (t, o)).2.sstats j =
          o.sstats j + (g.map fun c => (nu.infer t c).1 j).sum) := by
    induction g generalizing t with
    | nil => intro o; simp
    | cons c g ih =>
      intro o
      rw [List.foldl_cons]
      have h := ih (estep nu pass (t, o) c).1 (estep nu pass (t, o) c).2
      refine ⟨?_, ?_, ?_⟩
      · have := h.1
        simp only [estep, List.map_cons, List.sum_cons] at this ⊢
        rw [this]; omega
      · rw [show estep nu pass (t, o) c =
          ((estep nu pass (t, o) c).1, (estep nu pass (t, o) c).2) from rfl, h.2.1]
        rfl
      · intro hid
        have e1 : (estep nu pass (t, o) c).1 = t := by
          cases t; simp [estep, hid]
        have h3 := h.2.2 hid
        rw [e1] at h3
        have e2 : estep nu pass (t, o) c = (t, (estep nu pass (t, o) c).2) :=
          Prod.ext e1 rfl
        rw [e2]
        refine ⟨h3.1, fun j => ?_⟩
        rw [h3.2 j]
        simp only [estep, List.map_cons, List.sum_cons]; ring
  have h := H State.zero
  simpa [State.zero] using h

theorem mstepOn_counts (nu : Numerics ι K A H G D) (pass : Nat) (gs : List (List (List D))) :
    ∀ t : Trainer ι K A H,
    (gs.foldl (mstepOn nu pass) t).state.numdocs = t.state.numdocs ∧
    (gs.foldl (mstepOn nu pass) t).numUpdates =
      if pass > 0 then t.numUpdates else t.numUpdates + (gs.flatten.map List.length).sum := by
  induction gs with
  | nil => intro t; simp
  | cons g gs ih =>
    intro t
    rw [List.foldl_cons]
    obtain ⟨h1, h2⟩ := ih (mstepOn nu pass t g)
    have hg := C46_group_statistics nu pass t g
    have hu : ∀ (l : List (List D)) (x : Trainer ι K A H × State ι K),
        (l.foldl (estep nu pass) x).1.numUpdates = x.1.numUpdates := by
      intro l
      induction l with
      | nil => intro x; rfl
      | cons c l ih => intro x; rw [List.foldl_cons, ih]; rfl
    have e1 : (mstepOn nu pass t g).state.numdocs = t.state.numdocs := by
      unfold mstepOn mstep State.blend
      simp only [Option.getD_none]
      rw [hg.2.1]
    have e2 : (mstepOn nu pass t g).numUpdates =
        if pass > 0 then t.numUpdates else t.numUpdates + (g.map List.length).sum := by
      unfold mstepOn mstep
      simp only [hu, hg.1]
    refine ⟨by rw [h1, e1], ?_⟩
    rw [h2, e2]
    split
    · rfl
    · rw [List.flatten_cons, List.map_append, List.sum_append]; omega

theorem chunks_total (k : Nat) (hk : 0 < k) (corpus : List D) :
    ((chunks k corpus).map List.length).sum = corpus.length := by
  have := congrArg List.length (C15_concat hk corpus)
  rwa [List.length_flatten] at this

/-- **C46**: `update` is the passes one after the other, and it accounts for every document: the model
    has seen `len(corpus)` more documents, and `num_updates` grows by `len(corpus)` exactly once,
    however many passes are made. -/
theorem C46_update (nu : Numerics ι K A H G D) (every chunksize passes : Nat) (corpus : List D)
    (t : Trainer ι K A H) (hc : 0 < chunksize) (hp : 0 < passes) :
    (update nu every chunksize passes corpus t).state.numdocs = t.state.numdocs + corpus.length ∧
    (update nu every chunksize passes corpus t).numUpdates = t.numUpdates + corpus.length := by
  unfold update
  split
  · next h => rw [h]; exact ⟨rfl, rfl⟩
  · next h =>
    have hk : 0 < min corpus.length chunksize := by omega
    have hpass : ∀ (x : Trainer ι K A H) pass,
        (runPass nu every (min corpus.length chunksize) corpus x pass).state.numdocs = x.state.numdocs ∧
        (runPass nu every (min corpus.length chunksize) corpus x pass).numUpdates =
          if pass > 0 then x.numUpdates else x.numUpdates + corpus.length := by
      intro x pass
      obtain ⟨gs, h1, -, -, -, -, h2⟩ := C46_pass nu every (min corpus.length chunksize) corpus x pass
      rw [h2]
      have := mstepOn_counts nu pass gs x
      rw [h1, chunks_total _ hk] at this
      exact this
    obtain ⟨p, rfl⟩ : ∃ p, passes = p + 1 := ⟨passes - 1, by omega⟩
    clear hp
    induction p with
    | zero =>
      have := hpass { t with state := { t.state with numdocs := t.state.numdocs + corpus.length } } 0
      simpa using this
    | succ p ih =>
      rw [List.range_succ, List.foldl_append, List.foldl_cons, List.foldl_nil]
      have := hpass ((List.range (p + 1)).foldl (runPass nu every (min corpus.length chunksize) corpus)
        { t with state := { t.state with numdocs := t.state.numdocs + corpus.length } }) (p + 1)
      rw [this.1, this.2, if_pos (by omega)]
      exact ih

/-- A concrete run: chunks of one document, an M-step after every two chunks, two passes. -/
example :
    let nu : Numerics Unit ℚ Unit Unit Unit ℚ :=
      ⟨fun _ c => (fun _ => c.sum, ()), fun a _ _ => a, fun h _ _ => h, fun p n => 1 / (1 + p + n)⟩
    let t := update nu 2 1 2 [1, 2, 3] ⟨⟨fun _ => 0, 0⟩, (), (), 0⟩
    t.numUpdates = 3 ∧ t.state.numdocs = 3 := by decide +kernel

end C46

end Verif.Lda
