import Verif.Lda.TrainProps

/-!
# C91: what a history of updates adds up to
-/

namespace Verif.LdaTrain

open Verif.Dirichlet Verif.LdaInfer Verif.Lda Verif.Chunk

variable {T W : Type} [Fintype T] [Fintype W] [DecidableEq W]

theorem inference_length (p : Params T W) (chunk : List (List (W × ℝ) × (T → ℝ))) :
    (inference p chunk).1.length = chunk.length := by
  have : ∀ (l : List (List (W × ℝ) × (T → ℝ))) (r : List (T → ℝ) × (T → W → ℝ)),
      (l.foldl (docBody p) r).1.length = r.1.length + l.length := by
    intro l
    induction l with
    | nil => intro r; simp
    | cons d l ih =>
      intro r
      rw [List.foldl_cons, ih, List.length_cons]
      simp [docBody]
      omega
  exact (this chunk _).trans (by simp)

theorem drawn_pass (c : Config T W) (offset decay : ℝ) (cs every k : ℕ) (hk : 0 < k) (corpus : List (List (W × ℝ)))
    (t : Trainer (T × W) ℝ (AlphaSt T) (BetaSt T W)) (pass : ℕ) :
    (runPass (numerics c offset decay cs) every k corpus t pass).alpha.drawn = t.alpha.drawn + corpus.length := by
  obtain ⟨gs, h1, -, -, -, -, h2⟩ := C46_pass (numerics c offset decay cs) every k corpus t pass
  rw [h2, ← chunks_total k hk corpus, ← h1]
  clear h2 h1
  have step : ∀ (g : List (List (List (W × ℝ)))) (u : Trainer (T × W) ℝ (AlphaSt T) (BetaSt T W)) (s : State (T × W) ℝ),
      (g.foldl (estep (numerics c offset decay cs) pass) (u, s)).1.alpha.drawn = u.alpha.drawn + (g.map List.length).sum := by
    intro g
    induction g with
    | nil => intro u s; simp
    | cons ch g ih =>
      intro u s
      rw [List.foldl_cons, ih]
      have : (estep (numerics c offset decay cs) pass (u, s) ch).1.alpha.drawn = u.alpha.drawn + ch.length := by
        change u.alpha.drawn + (inference _ _).1.length = _
        rw [inference_length, List.length_map, List.length_zipIdx]
      rw [this, List.map_cons, List.sum_cons]
      omega
  induction gs generalizing t with
  | nil => simp
  | cons g gs ih =>
    rw [List.foldl_cons, ih]
    have : (mstepOn (numerics c offset decay cs) pass t g).alpha.drawn = t.alpha.drawn + (g.map List.length).sum :=
      step g t State.zero
    rw [this, List.flatten_cons, List.map_append, List.sum_append]
    omega

/-- A new model has seen nothing; after any history of updates it has counted every document of every call once, in both
    counters, and has drawn one initial gamma per document and pass. -/
theorem C91_history (c : Config T W) (alpha : T → ℝ) (eta : W → ℝ) (s0 : T × W → ℝ) (calls : List (Call W))
    (hc : ∀ u ∈ calls, 0 < u.chunksize ∧ 0 < u.passes) :
    let t := train c (initModel alpha eta s0) calls
    t.state.numdocs = (calls.map fun u => u.corpus.length).sum ∧
    t.numUpdates = (calls.map fun u => u.corpus.length).sum ∧
    t.alpha.drawn = (calls.map fun u => u.passes * u.corpus.length).sum := by
  have main : ∀ (t : Trainer (T × W) ℝ (AlphaSt T) (BetaSt T W)),
      (train c t calls).state.numdocs = t.state.numdocs + (calls.map fun u => u.corpus.length).sum ∧
      (train c t calls).numUpdates = t.numUpdates + (calls.map fun u => u.corpus.length).sum ∧
      (train c t calls).alpha.drawn = t.alpha.drawn + (calls.map fun u => u.passes * u.corpus.length).sum := by
    unfold train
    induction calls with
    | nil => intro t; simp
    | cons u calls ih =>
      intro t
      rw [List.foldl_cons]
      obtain ⟨h1, h2⟩ := hc u List.mem_cons_self
      obtain ⟨a, b⟩ := C46_update (numerics c u.offset u.decay u.chunksize) u.updateEvery u.chunksize u.passes u.corpus t h1 h2
      have hd : (trainCall c t u).alpha.drawn = t.alpha.drawn + u.passes * u.corpus.length := by
        unfold trainCall update
        split
        · next h => rw [h]; simp
        · next h =>
          have : ∀ n (x : Trainer (T × W) ℝ (AlphaSt T) (BetaSt T W)), ((List.range n).foldl
              (runPass (numerics c u.offset u.decay u.chunksize) u.updateEvery (min u.corpus.length u.chunksize) u.corpus)
              x).alpha.drawn = x.alpha.drawn + n * u.corpus.length := by
            intro n x
            induction n with
            | zero => simp
            | succ n ihn =>
              rw [List.range_succ, List.foldl_append, List.foldl_cons, List.foldl_nil, drawn_pass _ _ _ _ _ _ (by omega), ihn]
              ring
          exact this u.passes _
      obtain ⟨i1, i2, i3⟩ := ih (fun v hv => hc v (List.mem_cons_of_mem _ hv)) (trainCall c t u)
      simp only [List.map_cons, List.sum_cons]
      unfold trainCall at *
      rw [i1, i2, i3, a, b, hd]
      omega
  obtain ⟨a, b, d⟩ := main (initModel alpha eta s0)
  exact ⟨a.trans (Nat.zero_add _), b.trans (Nat.zero_add _), d.trans (Nat.zero_add _)⟩

example (c : Config (Fin 2) (Fin 2)) (d : List (Fin 2 × ℝ)) :
    (train c (initModel (fun _ => 1 / 2) (fun _ => 1 / 2) fun _ => 1)
      [⟨[d, d, d], 2, 1 / 2, 1, 4, 1, none, none⟩, ⟨[d], 1, 1 / 2, 1, 1, 0, none, none⟩]).alpha.drawn = 13 :=
  (C91_history c _ _ _ _ (by simp)).2.2

end Verif.LdaTrain
