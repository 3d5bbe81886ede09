import Verif.Downloader.HelpModel

/-!
# C96: the helpers of downloads

The data folder is created by whichever process comes first; the checksum is the checksum of the whole
file, however it is read; the progress bar is fifty characters long while the size is known and not exceeded.
-/

namespace Verif.Downloader.Help

/-! ## The data folder -/

theorem step_node (w : Bool) (s : St) (i : Nat) :
    (step w s i).node = s.node ∨ (s.node = .absent ∧ (step w s i).node = .folder ∧ w = true) := by
  unfold step
  split
  · exact .inl rfl
  · rename_i pc _
    cases pc <;> simp only [stepPc]
    · simp
    · by_cases ha : s.node = .absent
      · cases w
        · simp [ha]
        · simp [ha]
      · simp [ha]
    · simp
    · simp
    · simp

theorem run_snoc (w : Bool) (s : St) (l : List Nat) (i : Nat) :
    run w s (l ++ [i]) = step w (run w s l) i := by
  simp [run]

/-- the invariant of the processes started on a path in state `n0` -/
def Inv (w : Bool) (n0 : Node) (s : St) : Prop :=
  (s.node = n0 ∨ (n0 = .absent ∧ s.node = .folder ∧ w = true)) ∧
  (∀ pc ∈ s.pcs, (pc = .done → s.node = .folder) ∧ (pc = .fileExists → s.node ≠ .absent ∧ n0 ≠ .folder) ∧
    (pc = .cannotCreate → w = false ∧ n0 = .absent) ∧ (pc = .making → n0 ≠ .folder))

theorem inv_step (w : Bool) (n0 : Node) (s : St) (i : Nat) (h : Inv w n0 s) : Inv w n0 (step w s i) := by
  obtain ⟨hn, hp⟩ := h
  have hnode := step_node w s i
  unfold step at hnode ⊢
  cases hi : s.pcs[i]? with
  | none => exact ⟨hn, hp⟩
  | some pc =>
    rw [hi] at hnode
    have hmem : pc ∈ s.pcs := List.mem_of_getElem? hi
    have hpc := hp pc hmem
    simp only at hnode ⊢
    have hold : ∀ q ∈ s.pcs, (q = .done → (stepPc w s.node pc).1 = .folder) ∧
        (q = .fileExists → (stepPc w s.node pc).1 ≠ .absent ∧ n0 ≠ .folder) ∧
        (q = .cannotCreate → w = false ∧ n0 = .absent) ∧ (q = .making → n0 ≠ .folder) := by
      intro q hq
      obtain ⟨h1, h2, h3, h4⟩ := hp q hq
      refine ⟨fun e => ?_, fun e => ⟨?_, (h2 e).2⟩, h3, h4⟩
      · rcases hnode with e' | ⟨ha, _⟩
        · rw [e']; exact h1 e
        · rw [h1 e] at ha; cases ha
      · rcases hnode with e' | ⟨ha, _⟩
        · rw [e']; exact (h2 e).1
        · exact absurd ha (h2 e).1
    refine ⟨?_, fun q hq => ?_⟩
    · rcases hnode with e | ⟨ha, hf, hw⟩
      · rw [e]; exact hn
      · rcases hn with e0 | ⟨_, e1, _⟩
        · exact .inr ⟨by rw [← e0, ha], hf, hw⟩
        · rw [ha] at e1; cases e1
    · rcases List.mem_or_eq_of_mem_set hq with hq | rfl
      · exact hold q hq
      · cases pc with
        | start =>
          simp only [stepPc]
          by_cases hf : s.node = .folder
          · simp [hf]
          · simp only [hf, if_false]
            refine ⟨by simp, by simp, by simp, fun _ e => ?_⟩
            rcases hn with h' | ⟨h', _⟩
            · exact hf (h'.trans e)
            · rw [e] at h'; cases h'
        | making =>
          simp only [stepPc]
          by_cases ha : s.node = .absent
          · have h0 : n0 = .absent := by
              rcases hn with h' | ⟨h', _⟩
              · rw [← h', ha]
              · exact h'
            cases w <;> simp [ha, h0]
          · simp only [ha, if_false]
            exact ⟨by simp, fun _ => ⟨ha, hpc.2.2.2 rfl⟩, by simp, by simp⟩
        | done => exact hold _ hmem
        | fileExists => exact hold _ hmem
        | cannotCreate => exact hold _ hmem

theorem inv_run (w : Bool) (n0 : Node) (k : Nat) (l : List Nat) :
    Inv w n0 (run w ⟨n0, List.replicate k .start⟩ l) := by
  induction l using List.reverseRecOn with
  | nil =>
    refine ⟨.inl rfl, fun pc hpc => ?_⟩
    rw [List.eq_of_mem_replicate hpc]
    simp
  | append_singleton l i ih => rw [run_snoc]; exact inv_step w n0 _ i ih

/-- C96: whatever number of processes create the data folder in whatever order, a process that comes back
without error finds a folder; an existing file or folder is never replaced; "no permission" is reported
only when the parent folder cannot be written to; and when the folder existed from the start no process fails. -/
theorem C96_base_dir (w : Bool) (n0 : Node) (k : Nat) (schedule : List Nat) :
    let s := run w ⟨n0, List.replicate k .start⟩ schedule
    (.done ∈ s.pcs → s.node = .folder) ∧ (n0 ≠ .absent → s.node = n0) ∧
    (.cannotCreate ∈ s.pcs → w = false ∧ n0 = .absent) ∧
    (n0 = .folder → .fileExists ∉ s.pcs ∧ .cannotCreate ∉ s.pcs) := by
  obtain ⟨hn, hp⟩ := inv_run w n0 k schedule
  refine ⟨fun h => (hp _ h).1 rfl, fun h => ?_, fun h => (hp _ h).2.2.1 rfl, fun h => ⟨fun hf => ?_, fun hf => ?_⟩⟩
  · rcases hn with h' | ⟨h', _⟩
    · exact h'
    · exact absurd h' h
  · exact ((hp _ hf).2.1 rfl).2 h
  · have := ((hp _ hf).2.2.1 rfl).2
    rw [h] at this; cases this

/-- C96: one process alone returns with the folder in place if there was one, or if nothing was there and the
parent may be written to; it reports an existing file exactly when there is a file. -/
theorem C96_base_dir_alone (w : Bool) (n0 : Node) :
    run w ⟨n0, [.start]⟩ [0, 0] =
      match n0, w with
      | .folder, _ => ⟨.folder, [.done]⟩
      | .file, _ => ⟨.file, [.fileExists]⟩
      | .absent, true => ⟨.folder, [.done]⟩
      | .absent, false => ⟨.absent, [.cannotCreate]⟩ := by
  cases n0 <;> cases w <;> rfl

/-- Finding for C96: with nothing at the path and every permission, a process whose test came before another
process created the folder raises "File gensim-data exists in the directory already", although there is no
such file and the folder is there. -/
theorem C96_base_dir_race :
    run true ⟨.absent, [.start, .start]⟩ [0, 1, 0, 1] = ⟨.folder, [.done, .fileExists]⟩ := rfl

/-! ## Checksums -/

/-- the contract of `hashlib`: feeding pieces is feeding their concatenation -/
def Streaming {β σ δ : Type} (h : Hasher β σ δ) : Prop :=
  (∀ s a b, h.update (h.update s a) b = h.update s (a ++ b)) ∧ ∀ s, h.update s [] = s

theorem feed_eq {β σ δ : Type} (h : Hasher β σ δ) (hs : Streaming h) (n : Nat) (s : σ) (left : List β) :
    feed h n s left = h.update s left := by
  induction hl : left.length using Nat.strong_induction_on generalizing s left with
  | _ m ih =>
    cases left with
    | nil => rw [feed]; exact (hs.2 s).symm
    | cons b bs =>
      rw [feed, ih _ (by rw [← hl]; simp; omega) _ _ rfl, hs.1, List.take_append_drop]

/-- C96: the checksum that is compared is that of the whole content of the file, for every content. -/
theorem C96_checksum {β σ δ : Type} (h : Hasher β σ δ) (hs : Streaming h) (content : List β) :
    checksum h content = h.digest (h.update h.fresh content) := by
  rw [checksum, feed_eq h hs]

/-- non-vacuity: a hash that is sensitive to order satisfies the contract -/
example : Streaming (⟨0, fun s l => l.foldl (fun a b => 31 * a + b) s, id⟩ : Hasher Nat Nat Nat) := by
  constructor
  · intro s a b; simp [List.foldl_append]
  · intro s; rfl

/-! ## Progress -/

theorem bar_of_total (chunks size : Nat) (total : Int) (ht : total ≠ 0) :
    bar chunks size total = some (times '=' ⌊((50 * (chunks * size : Nat) : ℚ)) / (total : ℚ)⌋ ++
      times '-' (50 - ⌊((50 * (chunks * size : Nat) : ℚ)) / (total : ℚ)⌋)) := by
  simp [bar, filledLen, ht]

/-- C96: while no more than the announced size has arrived, the bar has fifty characters: `k` signs `=` followed
by `50 - k` signs `-`, where `k` is fifty times the fraction that has arrived, rounded down. -/
theorem C96_progress (chunks size : Nat) (total : Int) (ht : 0 < total) (hd : (chunks * size : Nat) ≤ total) :
    ∃ k : Nat, k ≤ 50 ∧ bar chunks size total = some (List.replicate k '=' ++ List.replicate (50 - k) '-') ∧
      (k : ℤ) * total ≤ 50 * (chunks * size : Nat) ∧ 50 * (chunks * size : Nat) < ((k : ℤ) + 1) * total := by
  have htq : (0 : ℚ) < (total : ℚ) := by exact_mod_cast ht
  have hdq : ((chunks * size : Nat) : ℚ) ≤ (total : ℚ) := by exact_mod_cast hd
  set x : ℚ := ((50 * (chunks * size : Nat) : ℚ)) / (total : ℚ) with hx
  have hx0 : 0 ≤ x := by positivity
  have hx50 : x ≤ 50 := by rw [hx, div_le_iff₀ htq]; linarith
  have h0 : 0 ≤ ⌊x⌋ := Int.floor_nonneg.2 hx0
  have h50 : ⌊x⌋ ≤ 50 := by
    have : (⌊x⌋ : ℚ) ≤ 50 := le_trans (Int.floor_le x) hx50
    exact_mod_cast this
  have hk : ((⌊x⌋.toNat : Nat) : ℤ) = ⌊x⌋ := Int.toNat_of_nonneg h0
  refine ⟨⌊x⌋.toNat, by omega, ?_, ?_, ?_⟩
  · rw [bar_of_total _ _ _ (ne_of_gt ht), ← hx]
    unfold times
    have : (50 - ⌊x⌋).toNat = 50 - ⌊x⌋.toNat := by omega
    rw [this]
  · rw [hk]
    have h := Int.floor_le x
    rw [hx, le_div_iff₀ htq, ← hx] at h
    exact_mod_cast h
  · rw [hk]
    have h := Int.lt_floor_add_one x
    rw [hx, div_lt_iff₀ htq, ← hx] at h
    exact_mod_cast h

/-- Finding for C96: a last chunk that is not full makes the bar claim more than everything; the exact
condition under which the bar is longer than fifty characters for an announced size. -/
theorem C96_progress_overshoot (chunks size : Nat) (total : Int) (ht : 0 < total) :
    (∀ b, bar chunks size total = some b → (50 < b.length ↔ 51 * total ≤ 50 * (chunks * size : Nat))) := by
  intro b hb
  have htq : (0 : ℚ) < (total : ℚ) := by exact_mod_cast ht
  rw [bar_of_total _ _ _ (ne_of_gt ht), Option.some.injEq] at hb
  subst hb
  set x : ℚ := ((50 * (chunks * size : Nat) : ℚ)) / (total : ℚ) with hx
  have hx0 : 0 ≤ ⌊x⌋ := Int.floor_nonneg.2 (by positivity)
  have key : (51 : ℤ) ≤ ⌊x⌋ ↔ 51 * total ≤ 50 * (chunks * size : Nat) := by
    rw [Int.le_floor, hx, le_div_iff₀ htq]
    constructor
    · intro h; exact_mod_cast h
    · intro h; exact_mod_cast h
  rw [← key]
  simp only [times, List.length_append, List.length_replicate]
  omega

/-- Finding for C96: an empty file (announced size 0) ends the download with a division by zero. -/
theorem C96_progress_empty (chunks size : Nat) : bar chunks size 0 = none := rfl

/-- Finding for C96: when the server does not announce the size (`urlretrieve` then reports -1), the bar
grows by fifty characters with every byte that arrives. -/
theorem C96_progress_unknown (chunks size : Nat) :
    bar chunks size (-1) = some (List.replicate (50 + 50 * (chunks * size)) '-') := by
  rw [bar_of_total _ _ _ (by decide)]
  have h : ⌊((50 * (chunks * size : Nat) : ℚ)) / ((-1 : ℤ) : ℚ)⌋ = -(50 * (chunks * size : Nat) : ℤ) := by
    rw [← Int.floor_intCast (R := ℚ) (-(50 * (chunks * size : Nat) : ℤ))]
    congr 1
    push_cast
    ring
  rw [h]
  have e1 : times '=' (-(50 * (chunks * size : Nat) : ℤ)) = [] := by
    unfold times
    have : (-(50 * (chunks * size : Nat) : ℤ)).toNat = 0 := by omega
    rw [this]; rfl
  have e2 : (50 - -(50 * (chunks * size : Nat) : ℤ)).toNat = 50 + 50 * (chunks * size) := by omega
  rw [e1, times, e2]; rfl

/-- non-vacuity: half of the data gives half of the bar; the last chunk of 8192 bytes of a file of 10000 -/
example : bar 5 100 1000 = some (List.replicate 25 '=' ++ List.replicate 25 '-') := by
  rw [bar_of_total _ _ _ (by decide)]; norm_num [times]; rfl
example : (51 : ℤ) * 10000 ≤ 50 * ((2 * 8192 : Nat) : ℤ) := by decide

end Verif.Downloader.Help
