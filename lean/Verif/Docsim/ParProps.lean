import Verif.Docsim.ParModel

/-!
# C55: querying shards one after another and in parallel
-/

namespace Verif.Docsim.Par

/-- C55: without parallel queries (the default) every shard is asked the query, in order. -/
theorem C55_serial {Q S R : Type} (f : Q × S → R) (parallel : Nat) (hp : parallel ≤ 1) (query : Q) (shards : List S) :
    queryShards f parallel query shards = .ok (shards.map fun s => f (query, s)) := by
  rw [queryShards, if_neg (by omega), List.map_map]
  rfl

/-- Finding for C55: with `PARALLEL_SHARDS` set to two or more processes every query of an index with at least
one shard raises `ValueError`: the piece size handed to `imap` is a float.  Only an index without shards can
be asked. -/
theorem C55_parallel {Q S R : Type} (f : Q × S → R) (parallel : Nat) (hp : 2 ≤ parallel) (query : Q) (shards : List S) :
    queryShards f parallel query shards = if shards = [] then .ok [] else .error .value := by
  rw [queryShards, if_pos (by omega)]
  have hq : (0 : ℚ) < (parallel : ℚ) := by exact_mod_cast (by omega : 0 < parallel)
  cases shards with
  | nil => simp [imap, onePlus, trueDiv, Num.val]
  | cons s ss =>
    have hpos : (0 : ℚ) < (((s :: ss).length : ℤ) : ℚ) / ((parallel : ℤ) : ℚ) := by
      apply div_pos
      · exact_mod_cast (by simp : 0 < (s :: ss).length)
      · exact_mod_cast hq
    have hv : (onePlus (trueDiv ((s :: ss).length : ℕ) (parallel : ℕ))).val =
        1 + (((s :: ss).length : ℤ) : ℚ) / ((parallel : ℤ) : ℚ) := rfl
    unfold imap
    rw [if_neg (by rw [hv]; intro h; linarith), if_neg (by rw [hv]; intro h; linarith), if_neg (by simp)]
    rfl

/-- non-vacuity: three shards asked in turn, and with two processes -/
example : queryShards (fun p : Nat × Nat => p.1 + p.2) 0 5 [1, 2, 3] = .ok [6, 7, 8] := rfl
example : queryShards (fun p : Nat × Nat => p.1 + p.2) 2 5 [1, 2, 3] = .error .value := by
  rw [C55_parallel _ _ (by decide)]; rfl

end Verif.Docsim.Par
