import Mathlib.Tactic
import Mathlib.Order.Fin.Basic
import Verif.Hdp.Props

/-!
# C98: which chunks `update` uses, the topics, the derived LDA model and queries
-/

namespace Verif.Hdp

open Verif

variable {W : Type} [Fintype W] [DecidableEq W] {n m : ℕ}

/-! ## Which chunks are used -/

theorem updateChunk_some (cfg : Cfg) (hvc : cfg.varConverge < 1)
    (order : (Fin (n + 1) → ℝ) → Equiv.Perm (Fin (n + 1))) (chunk : List (Doc W)) (u o : Bool) (s : St n W) :
    ∃ s', updateChunk m cfg order chunk u o s = some s' := by
  unfold updateChunk
  obtain ⟨ss, h⟩ := chunkStats_some (m := m) cfg hvc (catchUp cfg (wordList chunk) s).elogbeta
    (expectLogSticks cfg.psi (catchUp cfg (wordList chunk) s).sticks0 (catchUp cfg (wordList chunk) s).sticks1)
    (wordList chunk) chunk ⟨fun _ => 0, fun _ _ => 0⟩
  simp only [h]
  exact ⟨_, rfl⟩

/-- One turn of `update`. -/
theorem run_cons (cfg : Cfg) (hvc : cfg.varConverge < 1)
    (order : (Fin (n + 1) → ℝ) → Equiv.Perm (Fin (n + 1))) (maxChunks : ℕ) (maxTime : Bool) (late : ℕ → Bool)
    (saveFreq : ℕ) (chunks : List (List (Doc W))) (fuel : ℕ) (ch : List (Doc W)) (rest : List (List (Doc W)))
    (p : Progress n W) :
    ∃ s1 s2, run m cfg order maxChunks maxTime late saveFreq chunks (fuel + 1) (ch :: rest) p =
      if finished maxChunks maxTime (late (p.done.length + 1)) cfg.D (p.done.length + 1) (p.docs + ch.length) then
        .returned ⟨s1, p.docs + ch.length, p.done ++ [ch]⟩
      else run m cfg order maxChunks maxTime late saveFreq chunks fuel rest
        ⟨s2, p.docs + ch.length, p.done ++ [ch]⟩ := by
  obtain ⟨s, hs⟩ := updateChunk_some (m := m) cfg hvc order ch true true p.model
  simp only [run, hs, List.length_append, List.length_singleton]
  exact ⟨_, _, rfl⟩

theorem run_first (cfg : Cfg) (hvc : cfg.varConverge < 1)
    (order : (Fin (n + 1) → ℝ) → Equiv.Perm (Fin (n + 1))) (late : ℕ → Bool) (saveFreq : ℕ)
    (chunks : List (List (Doc W))) : ∀ (rest : List (List (Doc W))) (fuel : ℕ) (p : Progress n W),
      rest ≠ [] → (∀ c ∈ rest, c ≠ []) → rest.length ≤ fuel → p.docs + rest.flatten.length = cfg.D →
      ∃ s, run m cfg order 0 false late saveFreq chunks fuel rest p
        = .returned ⟨s, cfg.D, p.done ++ rest⟩ := by
  intro rest
  induction rest with
  | nil => intro _ _ h; exact absurd rfl h
  | cons ch rest ih =>
    intro fuel p _ hne hfuel hD
    cases fuel with
    | zero => simp at hfuel
    | succ fuel =>
      obtain ⟨s1, s2, h⟩ := run_cons (m := m) cfg hvc order 0 false late saveFreq chunks fuel ch rest p
      rw [h]
      have hD' : p.docs + ch.length + rest.flatten.length = cfg.D := by
        rw [← hD]; simp [Nat.add_assoc]
      cases rest with
      | nil =>
        have : p.docs + ch.length = cfg.D := by simpa using hD'
        rw [if_pos (by simp [finished, this]), this]
        exact ⟨s1, rfl⟩
      | cons c2 rest =>
        have hc2 := List.length_pos_iff.2 (hne c2 (by simp))
        have hlt : ¬ cfg.D ≤ p.docs + ch.length := by
          simp only [List.flatten_cons, List.length_append] at hD'
          omega
        rw [if_neg (by simp [finished, hlt])]
        obtain ⟨s, hs⟩ := ih fuel ⟨s2, p.docs + ch.length, p.done ++ [ch]⟩ (by simp)
          (fun c hc => hne c (by simp [hc])) (by simpa using hfuel) hD'
        refine ⟨s, ?_⟩
        rw [hs, List.append_assoc]
        rfl

/-- **C98.** Without limits, the training of a new model uses every document of the corpus exactly once,
in order. -/
theorem C98_first_update (cfg : Cfg) (hvc : cfg.varConverge < 1)
    (order : (Fin (n + 1) → ℝ) → Equiv.Perm (Fin (n + 1))) (late : ℕ → Bool) (chunksize : ℕ) (hcs : 0 < chunksize)
    (corpus : List (Doc W)) (hne : corpus ≠ []) (hD : cfg.D = corpus.length) (s : St n W) (fuel : ℕ)
    (hfuel : corpus.length ≤ fuel) :
    ∃ p, update m cfg order 0 false late chunksize corpus fuel s 0 = .returned p ∧
      p.done = Chunk.chunks chunksize corpus ∧ p.done.flatten = corpus ∧ p.docs = corpus.length := by
  have hflat := Chunk.C15_concat hcs corpus
  have hnil : ∀ c ∈ Chunk.chunks chunksize corpus, c ≠ [] := by
    intro c hc
    obtain ⟨h, _⟩ := Chunk.C15_sizes hcs corpus
    have := h c hc
    intro e
    rw [e] at this
    simp at this
  have hlen : (Chunk.chunks chunksize corpus).length ≤ corpus.length := by
    have : ∀ l : List (List (Doc W)), (∀ c ∈ l, c ≠ []) → l.length ≤ l.flatten.length := by
      intro l
      induction l with
      | nil => intro _; simp
      | cons c l ih =>
        intro h
        have h1 := List.length_pos_iff.2 (h c (by simp))
        have h2 := ih fun x hx => h x (by simp [hx])
        simp only [List.length_cons, List.flatten_cons, List.length_append]
        omega
    have := this _ hnil
    rwa [hflat] at this
  obtain ⟨s', hs⟩ := run_first (m := m) cfg hvc order late (max 1 (10000 / chunksize)) (Chunk.chunks chunksize corpus)
    (Chunk.chunks chunksize corpus) fuel ⟨s, 0, []⟩
    (by intro e; rw [e] at hflat; exact hne hflat.symm) hnil (hlen.trans hfuel) (by rw [hflat, hD]; simp)
  exact ⟨_, hs, rfl, hflat, hD⟩

/-- **C98 (finding).** Without limits, every later `update` uses only the first chunk of its corpus, as soon
as the model has seen as many documents as its first corpus had; and so does the first `update` of a model
created without a corpus. -/
theorem C98_later_update (cfg : Cfg) (hvc : cfg.varConverge < 1)
    (order : (Fin (n + 1) → ℝ) → Equiv.Perm (Fin (n + 1))) (late : ℕ → Bool) (chunksize : ℕ) (hcs : 0 < chunksize)
    (corpus : List (Doc W)) (hne : corpus ≠ []) (s : St n W) (docs : ℕ) (hD : cfg.D ≤ docs) (fuel : ℕ) :
    ∃ p, update m cfg order 0 false late chunksize corpus (fuel + 1) s docs = .returned p ∧
      p.done = [corpus.take chunksize] := by
  unfold update
  have hc := Chunk.chunks_cons hcs hne
  rw [hc]
  obtain ⟨s1, s2, h⟩ := run_cons (m := m) cfg hvc order 0 false late (max 1 (10000 / chunksize))
    (corpus.take chunksize :: Chunk.chunks chunksize (corpus.drop chunksize)) fuel (corpus.take chunksize)
    (Chunk.chunks chunksize (corpus.drop chunksize)) ⟨s, docs, []⟩
  rw [h, if_pos (by simp only [finished]; simp; omega)]
  exact ⟨_, rfl, rfl⟩

theorem run_max (cfg : Cfg) (hvc : cfg.varConverge < 1)
    (order : (Fin (n + 1) → ℝ) → Equiv.Perm (Fin (n + 1))) (late : ℕ → Bool) (saveFreq : ℕ)
    (chunks : List (List (Doc W))) (hch : chunks ≠ []) (limit : ℕ) : ∀ (k : ℕ) (rest : List (List (Doc W)))
      (p : Progress n W), p.done.length + k = limit → 0 < k →
      ∃ fuel p', run m cfg order limit false late saveFreq chunks fuel rest p = .returned p' ∧
        p'.done.length = limit ∧ p'.done <+: p.done ++ rest ++ (List.replicate k chunks).flatten := by
  intro k
  induction k with
  | zero => intro _ _ _ h; exact absurd h (lt_irrefl 0)
  | succ k ih =>
    intro rest
    have main : ∀ (ch : List (Doc W)) (rest : List (List (Doc W))) (p : Progress n W),
        p.done.length + (k + 1) = limit →
        ∃ fuel p', run m cfg order limit false late saveFreq chunks fuel (ch :: rest) p = .returned p' ∧
          p'.done.length = limit ∧ p'.done <+: p.done ++ (ch :: rest) ++ (List.replicate k chunks).flatten := by
      intro ch rest p hp
      cases k with
      | zero =>
        obtain ⟨s1, s2, h⟩ := run_cons (m := m) cfg hvc order limit false late saveFreq chunks 0 ch rest p
        refine ⟨1, ⟨s1, p.docs + ch.length, p.done ++ [ch]⟩, ?_, ?_, ?_⟩
        · rw [h, if_pos (by simp only [finished]; simp; omega)]
        · simp; omega
        · simp only [List.replicate_zero, List.flatten_nil, List.append_nil]
          refine ⟨rest, ?_⟩
          simp
      | succ k =>
        have hlt : p.done.length + 1 ≠ limit := by omega
        have hl0 : limit ≠ 0 := by omega
        -- the model after this turn does not depend on the number of turns left
        obtain ⟨s, hs⟩ := updateChunk_some (m := m) cfg hvc order ch true true p.model
        have hstep : ∀ fuel, run m cfg order limit false late saveFreq chunks (fuel + 1) (ch :: rest) p
            = run m cfg order limit false late saveFreq chunks fuel rest
              ⟨if (p.done ++ [ch]).length % saveFreq = 0 then updateExpectations cfg s else s,
                p.docs + ch.length, p.done ++ [ch]⟩ := by
          intro fuel
          simp only [run, hs]
          rw [if_neg]
          simp [finished, hlt, hl0]
        obtain ⟨fuel, p', h1, h2, h3⟩ := ih rest
          ⟨if (p.done ++ [ch]).length % saveFreq = 0 then updateExpectations cfg s else s,
            p.docs + ch.length, p.done ++ [ch]⟩ (by simp; omega) (by omega)
        refine ⟨fuel + 1, p', by rw [hstep, h1], h2, ?_⟩
        simpa using h3
    cases rest with
    | nil =>
      intro p hp _
      obtain ⟨ch, chs, hchs⟩ := List.exists_cons_of_ne_nil hch
      obtain ⟨fuel, p', h1, h2, h3⟩ := main ch chs p hp
      refine ⟨fuel + 1, p', ?_, h2, ?_⟩
      · simp only [run]
        rw [← hchs] at h1
        exact h1
      · rw [← hchs] at h3
        simpa [List.replicate_succ] using h3
    | cons ch rest =>
      intro p hp _
      obtain ⟨fuel, p', h1, h2, h3⟩ := main ch rest p hp
      refine ⟨fuel, p', h1, h2, h3.trans ?_⟩
      rw [List.replicate_succ', List.flatten_append, ← List.append_assoc]
      exact List.prefix_append _ _

/-- **C98.** With `max_chunks`, training ends after exactly that many chunks, taken from the corpus in order
and from its beginning again when it is exhausted. -/
theorem C98_max_chunks (cfg : Cfg) (hvc : cfg.varConverge < 1)
    (order : (Fin (n + 1) → ℝ) → Equiv.Perm (Fin (n + 1))) (late : ℕ → Bool) (chunksize : ℕ) (hcs : 0 < chunksize)
    (corpus : List (Doc W)) (hne : corpus ≠ []) (s : St n W) (docs maxChunks : ℕ) (hmax : 0 < maxChunks) :
    ∃ fuel p, update m cfg order maxChunks false late chunksize corpus fuel s docs = .returned p ∧
      p.done.length = maxChunks ∧
      p.done <+: (List.replicate (maxChunks + 1) (Chunk.chunks chunksize corpus)).flatten := by
  have hflat := Chunk.C15_concat hcs corpus
  obtain ⟨fuel, p, h1, h2, h3⟩ := run_max (m := m) cfg hvc order late (max 1 (10000 / chunksize))
    (Chunk.chunks chunksize corpus) (by intro e; rw [e] at hflat; exact hne hflat.symm) maxChunks maxChunks
    (Chunk.chunks chunksize corpus) ⟨s, docs, []⟩ (by simp) hmax
  refine ⟨fuel, p, h1, h2, ?_⟩
  simpa [List.replicate_succ] using h3

/-- **C98 (finding).** Training on an empty corpus never ends. -/
theorem C98_empty_corpus (cfg : Cfg) (order : (Fin (n + 1) → ℝ) → Equiv.Perm (Fin (n + 1))) (maxChunks : ℕ)
    (maxTime : Bool) (late : ℕ → Bool) (chunksize : ℕ) (s : St n W) (docs fuel : ℕ) :
    update m cfg order maxChunks maxTime late chunksize ([] : List (Doc W)) fuel s docs = .running := by
  unfold update
  rw [Chunk.chunks_nil]
  induction fuel with
  | zero => rfl
  | succ fuel ih => simp only [run]; exact ih

/-! ## Reachable models -/

/-- The models that can be reached from a new one by `update`, with the number of documents processed. -/
inductive Reach (m : ℕ) (cfg : Cfg) (order : (Fin (n + 1) → ℝ) → Equiv.Perm (Fin (n + 1))) :
    St n W → ℕ → Prop
  /-- A new model; the draws of the gamma distribution are positive. -/
  | new (g : Fin (n + 1) → W → ℝ) (hg : ∀ t w, 0 < g t w) : Reach m cfg order (init cfg g) 0
  /-- `update` on a corpus with non-negative counts. -/
  | upd (s : St n W) (docs maxChunks : ℕ) (maxTime : Bool) (late : ℕ → Bool) (chunksize : ℕ)
      (corpus : List (Doc W)) (fuel : ℕ) (p : Progress n W) (hs : Reach m cfg order s docs)
      (hcs : 0 < chunksize) (hc : ∀ doc ∈ corpus, ∀ q ∈ doc, 0 ≤ q.2)
      (h : update m cfg order maxChunks maxTime late chunksize corpus fuel s docs = .returned p) :
      Reach m cfg order p.model p.docs

/-- Usual settings. -/
structure CfgOk (cfg : Cfg) : Prop where
  eta : 0 < cfg.eta
  alpha : 0 < cfg.alpha
  gamma : 0 < cfg.gamma
  D : 0 < cfg.D
  rho : ∀ c, rhot cfg c < 1

/-- All weights are positive. -/
structure FullPos (cfg : Cfg) (f : Full n W) : Prop where
  lam : ∀ t w, 0 < cfg.eta + f.Lam t w
  varphi : ∀ t, 0 ≤ f.varphi t
  sticks0 : ∀ i, 0 < f.sticks0 i
  sticks1 : ∀ i, 0 < f.sticks1 i

theorem fullStep_pos (cfg : Cfg) (hcfg : CfgOk cfg) (order : (Fin (n + 1) → ℝ) → Equiv.Perm (Fin (n + 1)))
    (chunk : List (Doc W)) (hc : ∀ doc ∈ chunk, ∀ q ∈ doc, 0 ≤ q.2) (f f' : Full n W) (hf : FullPos cfg f)
    (h : fullStep m cfg order chunk f = some f') : FullPos cfg f' := by
  unfold fullStep at h
  cases hss : chunkStats m cfg (fullElog cfg f.Lam) (expectLogSticks cfg.psi f.sticks0 f.sticks1)
      (wordList chunk) chunk ⟨fun _ => 0, fun _ _ => 0⟩ with
  | none => rw [hss] at h; cases h
  | some ss =>
    rw [hss] at h
    simp only [Option.some.injEq] at h
    obtain ⟨_, hm⟩ := wordList_spec chunk
    obtain ⟨_, _, h3⟩ := chunkStats_spec cfg _ _ (wordList chunk) chunk
      (fun doc hd p hp => (hm p.1).2 ⟨doc, hd, p, hp, rfl⟩) _ ss hss
    obtain ⟨hb, hst⟩ := h3 hc (fun _ _ => le_refl _) (fun _ => le_refl _)
    have hr0 := rhot_nonneg cfg f.count
    have hr1 := hcfg.rho f.count
    set rho := rhot cfg f.count with hrho
    have hstat : ∀ t w, 0 ≤ stat (wordList chunk) ss t w := by
      intro t w; unfold stat; split
      · exact hb _ _
      · exact le_refl _
    have hlam : ∀ t w, 0 < cfg.eta + ((1 - rho) * f.Lam t w
        + rho * (cfg.D * stat (wordList chunk) ss t w / chunk.length)) := by
      intro t w
      have h1 : 0 < (1 - rho) * (cfg.eta + f.Lam t w) := mul_pos (by linarith) (hf.lam t w)
      have h2 : 0 ≤ rho * (cfg.D * stat (wordList chunk) ss t w / chunk.length) :=
        mul_nonneg hr0 (div_nonneg (mul_nonneg (Nat.cast_nonneg _) (hstat t w)) (Nat.cast_nonneg _))
      have h3 : 0 ≤ rho * cfg.eta := mul_nonneg hr0 hcfg.eta.le
      nlinarith
    have hvar : ∀ t, 0 ≤ (1 - rho) * f.varphi t + rho * (cfg.D * ss.sticks t / chunk.length) := by
      intro t
      exact add_nonneg (mul_nonneg (by linarith) (hf.varphi t))
        (mul_nonneg hr0 (div_nonneg (mul_nonneg (Nat.cast_nonneg _) (hst t)) (Nat.cast_nonneg _)))
    rw [← h]
    refine ⟨fun t w => hlam _ w, fun t => hvar _, ?_, ?_⟩
    · intro i
      simp only
      have := hvar (order (fun t => ∑ w, ((1 - rho) * f.Lam t w
        + rho * (cfg.D * stat (wordList chunk) ss t w / chunk.length))) i.castSucc)
      linarith
    · intro i
      simp only
      refine add_pos_of_pos_of_nonneg hcfg.gamma (Finset.sum_nonneg fun j _ => ?_)
      split
      · exact hvar _
      · exact le_refl _

theorem fullTrain_pos (cfg : Cfg) (hcfg : CfgOk cfg) (order : (Fin (n + 1) → ℝ) → Equiv.Perm (Fin (n + 1))) :
    ∀ (chunks : List (List (Doc W))), (∀ ch ∈ chunks, ∀ doc ∈ ch, ∀ q ∈ doc, 0 ≤ q.2) →
      ∀ f f' : Full n W, FullPos cfg f → fullTrain m cfg order chunks f = some f' → FullPos cfg f' := by
  intro chunks
  induction chunks with
  | nil => intro _ f f' hf h; simp only [fullTrain] at h; cases h; exact hf
  | cons ch chunks ih =>
    intro hc f f' hf h
    simp only [fullTrain] at h
    cases hs : fullStep m cfg order ch f with
    | none => rw [hs] at h; cases h
    | some f1 =>
      rw [hs] at h
      exact ih (fun c hcm => hc c (by simp [hcm])) f1 f'
        (fullStep_pos cfg hcfg order ch (hc ch (by simp)) f f1 hf hs) h

theorem run_done (cfg : Cfg) (order : (Fin (n + 1) → ℝ) → Equiv.Perm (Fin (n + 1))) (maxChunks : ℕ)
    (maxTime : Bool) (late : ℕ → Bool) (saveFreq : ℕ) (chunks : List (List (Doc W))) :
    ∀ (fuel : ℕ) (rest : List (List (Doc W))) (p p' : Progress n W), (∀ c ∈ rest, c ∈ chunks) →
      (∀ c ∈ p.done, c ∈ chunks) →
      run m cfg order maxChunks maxTime late saveFreq chunks fuel rest p = .returned p' →
      p'.done ≠ [] ∧ ∀ c ∈ p'.done, c ∈ chunks := by
  intro fuel
  induction fuel with
  | zero => intro _ _ _ _ _ h; cases h
  | succ fuel ih =>
    intro rest p p' hr hd h
    cases rest with
    | nil => exact ih chunks p p' (fun _ h => h) hd h
    | cons ch rest =>
      simp only [run] at h
      cases hs : updateChunk m cfg order ch true true p.model with
      | none => rw [hs] at h; cases h
      | some s =>
        rw [hs] at h
        have hd' : ∀ c ∈ p.done ++ [ch], c ∈ chunks := by
          intro c hc
          rcases List.mem_append.1 hc with hc | hc
          · exact hd c hc
          · rw [List.mem_singleton] at hc; rw [hc]; exact hr ch (by simp)
        simp only at h
        split at h
        · cases h
          exact ⟨by simp, hd'⟩
        · exact ih rest _ p' (fun c hc => hr c (by simp [hc])) hd' h

theorem mem_chunks {α : Type} {k : ℕ} (hk : 0 < k) (l : List α) (c : List α) (hc : c ∈ Chunk.chunks k l) :
    ∀ x ∈ c, x ∈ l := by
  intro x hx
  rw [← Chunk.C15_concat hk l]
  exact List.mem_flatten.2 ⟨c, hc, hx⟩

theorem fullTrain_sorted (cfg : Cfg) (order : (Fin (n + 1) → ℝ) → Equiv.Perm (Fin (n + 1))) (ho : OrderOk order) :
    ∀ (chunks : List (List (Doc W))), chunks ≠ [] → ∀ f f' : Full n W, fullTrain m cfg order chunks f = some f' →
      Antitone fun t => ∑ w, f'.Lam t w := by
  intro chunks
  induction chunks with
  | nil => intro h; exact absurd rfl h
  | cons ch chunks ih =>
    intro _ f f' h
    simp only [fullTrain] at h
    cases hs : fullStep m cfg order ch f with
    | none => rw [hs] at h; cases h
    | some f1 =>
      rw [hs] at h
      cases chunks with
      | cons c2 chunks => exact ih (by simp) f1 f' h
      | nil =>
        simp only [fullTrain] at h
        cases h
        unfold fullStep at hs
        cases hss : chunkStats m cfg (fullElog cfg f.Lam) (expectLogSticks cfg.psi f.sticks0 f.sticks1)
            (wordList ch) ch ⟨fun _ => 0, fun _ _ => 0⟩ with
        | none => rw [hss] at hs; cases hs
        | some ss =>
          rw [hss] at hs
          simp only [Option.some.injEq] at hs
          rw [← hs]
          exact ho fun t => ∑ w, ((1 - rhot cfg f.count) * f.Lam t w
            + rhot cfg f.count * (cfg.D * stat (wordList ch) ss t w / ch.length))

/-- What holds of every reachable model. -/
theorem reach_inv [Nonempty W] (cfg : Cfg) (hcfg : CfgOk cfg)
    (order : (Fin (n + 1) → ℝ) → Equiv.Perm (Fin (n + 1))) (s : St n W) (docs : ℕ)
    (h : Reach m cfg order s docs) :
    ∃ f, Agrees s f ∧ s.lam = f.Lam ∧ FullPos cfg f ∧ s.upToDate = true := by
  induction h with
  | new g hg =>
    refine ⟨_, agrees_init cfg g, rfl, ⟨?_, fun _ => le_refl _, fun _ => one_pos, ?_⟩, rfl⟩
    · intro t w
      simp only [fullOf, init]
      have hc : (0 : ℝ) < Fintype.card W := by exact_mod_cast Fintype.card_pos
      have hD : (0 : ℝ) < cfg.D := by exact_mod_cast hcfg.D
      have : 0 < g t w * cfg.D * 100 / ((n + 1 : ℕ) * Fintype.card W) := by
        apply div_pos (mul_pos (mul_pos (hg t w) hD) (by norm_num))
        exact mul_pos (by exact_mod_cast Nat.succ_pos n) hc
      linarith
    · intro i
      simp only [fullOf, init]
      have : 0 < n - i.val := by have := i.isLt; omega
      exact_mod_cast this
  | upd s docs maxChunks maxTime late chunksize corpus fuel p _ hcs hc h ih =>
    obtain ⟨f, ha, _, hp, _⟩ := ih
    obtain ⟨f', h1, h2, h3, _, _, _, _, _, h9⟩ :=
      C98_lazy_updates cfg order hcfg.rho maxChunks maxTime late chunksize corpus fuel s docs p f ha h
    have hmem := (run_done cfg order maxChunks maxTime late _ _ fuel _ ⟨s, docs, []⟩ p (fun _ h => h) (by simp) h).2
    exact ⟨f', h2, h3, fullTrain_pos cfg hcfg order p.done
      (fun ch hch doc hd => hc doc (mem_chunks hcs corpus ch (hmem ch hch) doc hd)) f f' hp h1, h9⟩

theorem fullTrain_const (cfg : Cfg) (hD : cfg.D = 0) (order : (Fin (n + 1) → ℝ) → Equiv.Perm (Fin (n + 1))) :
    ∀ (chunks : List (List (Doc W))) (f f' : Full n W) (x : ℝ), (∀ t w, f.Lam t w = x) →
      fullTrain m cfg order chunks f = some f' → ∃ y, ∀ t w, f'.Lam t w = y := by
  intro chunks
  induction chunks with
  | nil => intro f f' x hx h; simp only [fullTrain] at h; cases h; exact ⟨x, hx⟩
  | cons ch chunks ih =>
    intro f f' x hx h
    simp only [fullTrain] at h
    cases hs : fullStep m cfg order ch f with
    | none => rw [hs] at h; cases h
    | some f1 =>
      rw [hs] at h
      refine ih f1 f' ((1 - rhot cfg f.count) * x) ?_ h
      unfold fullStep at hs
      cases hss : chunkStats m cfg (fullElog cfg f.Lam) (expectLogSticks cfg.psi f.sticks0 f.sticks1)
          (wordList ch) ch ⟨fun _ => 0, fun _ _ => 0⟩ with
      | none => rw [hss] at hs; cases hs
      | some ss =>
        rw [hss] at hs
        simp only [Option.some.injEq] at hs
        rw [← hs]
        intro t w
        simp [hx, hD]

/-- **C98 (finding).** A model created without a corpus learns nothing from `update`, because the size of
its corpus stays 0: all words keep the same weight in all topics. -/
theorem C98_no_corpus_learns_nothing (cfg : Cfg) (hD : cfg.D = 0) (hrho : ∀ c, rhot cfg c < 1)
    (order : (Fin (n + 1) → ℝ) → Equiv.Perm (Fin (n + 1))) (g : Fin (n + 1) → W → ℝ) (maxChunks : ℕ)
    (maxTime : Bool) (late : ℕ → Bool) (chunksize : ℕ) (corpus : List (Doc W)) (fuel : ℕ) (p : Progress n W)
    (h : update m cfg order maxChunks maxTime late chunksize corpus fuel (init cfg g) 0 = .returned p) :
    ∃ y, ∀ t w, p.model.lam t w = y := by
  obtain ⟨f', h1, _, h3, _⟩ := C98_lazy_updates cfg order hrho maxChunks maxTime late chunksize corpus fuel
    (init cfg g) 0 p _ (agrees_init cfg g) h
  obtain ⟨y, hy⟩ := fullTrain_const cfg hD order p.done _ f' (-cfg.eta) (by
    intro t w
    simp [fullOf, init, hD]) h1
  exact ⟨y, fun t w => by rw [h3, hy]⟩

/-! ## The derived LDA model -/

theorem stickLeft_pos (s0 s1 : Fin n → ℝ) (h0 : ∀ i, 0 < s0 i) (h1 : ∀ i, 0 < s1 i) :
    ∀ i, 0 < stickLeft s0 s1 i := by
  intro i
  induction i with
  | zero => exact one_pos
  | succ i ih =>
    simp only [stickLeft]
    split
    · rename_i h
      have ha := h0 ⟨i, h⟩
      have hb := h1 ⟨i, h⟩
      have : s0 ⟨i, h⟩ / (s0 ⟨i, h⟩ + s1 ⟨i, h⟩) < 1 := (div_lt_one (by linarith)).2 (by linarith)
      have := mul_lt_mul_of_pos_right this ih
      linarith
    · exact ih

theorem stick_sum (s0 s1 : Fin n → ℝ) : ∀ k ≤ n,
    (∑ i ∈ Finset.range k, if h : i < n then s0 ⟨i, h⟩ / (s0 ⟨i, h⟩ + s1 ⟨i, h⟩) * stickLeft s0 s1 i else 0)
      + stickLeft s0 s1 k = 1 := by
  intro k
  induction k with
  | zero => intro _; simp [stickLeft]
  | succ k ih =>
    intro hk
    have := ih (by omega)
    rw [Finset.sum_range_succ, dif_pos (by omega : k < n)]
    simp only [stickLeft, dif_pos (by omega : k < n)]
    linarith

/-- **C98.** The LDA model derived from any trained model is one: the prior of every topic is positive and
they add up to the concentration `alpha`; every topic is a distribution over the words, all positive, and is
what `get_topics` shows. -/
theorem C98_hdp_to_lda [Nonempty W] (cfg : Cfg) (hcfg : CfgOk cfg)
    (order : (Fin (n + 1) → ℝ) → Equiv.Perm (Fin (n + 1))) (s : St n W) (docs : ℕ)
    (h : Reach m cfg order s docs) :
    (∀ t, 0 < ldaAlpha cfg s t) ∧ ∑ t, ldaAlpha cfg s t = cfg.alpha ∧
    (∀ t w, 0 < ldaBeta cfg s t w) ∧ (∀ t, ∑ w, ldaBeta cfg s t w = 1) ∧
    getTopics cfg s = ldaBeta cfg s := by
  obtain ⟨f, ha, hl, hp, _⟩ := reach_inv cfg hcfg order s docs h
  have hs0 : ∀ i, 0 < s.sticks0 i := by rw [ha.sticks0]; exact hp.sticks0
  have hs1 : ∀ i, 0 < s.sticks1 i := by rw [ha.sticks1]; exact hp.sticks1
  have hleft := stickLeft_pos s.sticks0 s.sticks1 hs0 hs1
  have hsum : ∀ t, Fintype.card W * cfg.eta + s.lamSum t = ∑ w, (s.lam t w + cfg.eta) := by
    intro t
    rw [ha.sum, Finset.sum_add_distrib, Finset.sum_const, Finset.card_univ, nsmul_eq_mul, hl]
    ring
  have hpos : ∀ t w, 0 < s.lam t w + cfg.eta := by
    intro t w; rw [hl]; have := hp.lam t w; linarith
  have hspos : ∀ t, 0 < ∑ w, (s.lam t w + cfg.eta) :=
    fun t => Finset.sum_pos (fun w _ => hpos t w) Finset.univ_nonempty
  refine ⟨?_, ?_, ?_, ?_, ?_⟩
  · intro t
    unfold ldaAlpha
    apply mul_pos _ hcfg.alpha
    split
    · rename_i ht
      exact mul_pos (div_pos (hs0 _) (by have := hs0 ⟨t, ht⟩; have := hs1 ⟨t, ht⟩; linarith)) (hleft _)
    · exact hleft n
  · unfold ldaAlpha
    rw [← Finset.sum_mul]
    have hsk := stick_sum s.sticks0 s.sticks1 n (le_refl n)
    have : (∑ t : Fin (n + 1), if h : t.val < n then
        s.sticks0 ⟨t, h⟩ / (s.sticks0 ⟨t, h⟩ + s.sticks1 ⟨t, h⟩) * stickLeft s.sticks0 s.sticks1 t
        else stickLeft s.sticks0 s.sticks1 n) = 1 := by
      rw [Fin.sum_univ_castSucc]
      simp only [Fin.val_last, lt_irrefl, dif_neg, not_false_eq_true, Fin.val_castSucc]
      rw [Finset.sum_range] at hsk
      rw [← hsk]
      congr 1
      refine Finset.sum_congr rfl fun i _ => ?_
      rw [dif_pos i.isLt, dif_pos i.isLt]
    rw [this, one_mul]
  · intro t w
    unfold ldaBeta
    rw [hsum]
    exact div_pos (hpos t w) (hspos t)
  · intro t
    unfold ldaBeta
    rw [hsum, ← Finset.sum_div, div_self (hspos t).ne']
  · funext t w
    unfold getTopics ldaBeta
    rw [hsum]

/-- **C98 (finding).** `hdp_to_lda` does not bring the weights up to date: after `update_chunk` alone, the
derived topics are not distributions; what they add up to is off by the pending decays. -/
theorem C98_stale_topics (cfg : Cfg) (s : St n W) (f : Full n W) (h : Agrees s f) (t : Fin (n + 1))
    (hne : Fintype.card W * cfg.eta + s.lamSum t ≠ 0) :
    ∑ w, ldaBeta cfg s t w
      = 1 + (∑ w, s.lam t w * (1 - decay s w)) / (Fintype.card W * cfg.eta + s.lamSum t) := by
  unfold ldaBeta
  rw [← Finset.sum_div]
  have e : ∑ w, (s.lam t w + cfg.eta)
      = (Fintype.card W * cfg.eta + s.lamSum t) + ∑ w, s.lam t w * (1 - decay s w) := by
    rw [h.sum, Finset.sum_add_distrib, Finset.sum_const, Finset.card_univ, nsmul_eq_mul]
    simp only [mul_sub, mul_one, Finset.sum_sub_distrib, h.lam]
    ring
  rw [e, add_div, div_self hne]

/-- **C98 (finding).** `update_chunk(chunk, update=False)` is not a read-only operation: the decays that
are pending for the words of the chunk are applied but not marked as applied, and so take place twice. -/
theorem C98_probe_decays_again (cfg : Cfg) (order : (Fin (n + 1) → ℝ) → Equiv.Perm (Fin (n + 1)))
    (chunk : List (Doc W)) (optO : Bool) (s s' : St n W)
    (h : updateChunk m cfg order chunk false optO s = some s') :
    (∀ w ∈ wordList chunk, decay s' w = decay s w ∧
      ∀ t, (updateExpectations cfg s').lam t w = (updateExpectations cfg s).lam t w * decay s w) ∧
    ∀ w, w ∉ wordList chunk → ∀ t, (updateExpectations cfg s').lam t w = (updateExpectations cfg s).lam t w := by
  unfold updateChunk at h
  simp only [Bool.false_eq_true, if_false] at h
  cases hss : chunkStats m cfg (catchUp cfg (wordList chunk) s).elogbeta
      (expectLogSticks cfg.psi (catchUp cfg (wordList chunk) s).sticks0 (catchUp cfg (wordList chunk) s).sticks1)
      (wordList chunk) chunk ⟨fun _ => 0, fun _ _ => 0⟩ with
  | none => rw [hss] at h; cases h
  | some ss =>
    rw [hss] at h
    simp only [Option.some.injEq] at h
    rw [← h]
    refine ⟨fun w hw => ⟨rfl, fun t => ?_⟩, fun w hw t => ?_⟩
    · simp only [updateExpectations, catchUp, if_pos hw, decay]
    · simp only [updateExpectations, catchUp, if_neg hw]

/-- A word that is not in a chunk has a decay pending after training on the chunk. -/
theorem pending_decay (cfg : Cfg) (order : (Fin (n + 1) → ℝ) → Equiv.Perm (Fin (n + 1)))
    (hrho : ∀ c, 0 < rhot cfg c ∧ rhot cfg c < 1) (chunk : List (Doc W)) (g : Fin (n + 1) → W → ℝ) (s : St n W)
    (h : updateChunk m cfg order chunk true true (init cfg g) = some s) (w : W) (hw : w ∉ wordList chunk) :
    decay s w = 1 - rhot cfg 0 := by
  unfold updateChunk at h
  simp only at h
  cases hss : chunkStats m cfg (catchUp cfg (wordList chunk) (init cfg g)).elogbeta
      (expectLogSticks cfg.psi (catchUp cfg (wordList chunk) (init cfg g)).sticks0
        (catchUp cfg (wordList chunk) (init cfg g)).sticks1)
      (wordList chunk) chunk ⟨fun _ => 0, fun _ _ => 0⟩ with
  | none => rw [hss] at h; cases h
  | some ss =>
    rw [hss] at h
    simp only [if_true, Option.some.injEq] at h
    rw [← h]
    unfold updateLambda optimalOrdering decay
    simp only [if_true, if_neg hw, catchUp, init]
    simp only [List.getLastD_eq_getLast?, List.cons_append, List.nil_append]
    simp
    rw [Real.exp_log (by have := (hrho 0).2; linarith)]

/-- **C98 (finding).** The topics that the suggested LDA model shows are those of its own random
initialisation: they do not depend on the trained model. -/
theorem C98_suggested_lda_topics (cfg : Cfg) (s s' : St n W) (random : Fin (n + 1) → W → ℝ) :
    (suggestedLda cfg s random).topics = (suggestedLda cfg s' random).topics ∧
    (suggestedLda cfg s random).expElogbeta = ldaBeta cfg s ∧ (suggestedLda cfg s random).alpha = ldaAlpha cfg s :=
  ⟨rfl, rfl, rfl⟩

/-! ## Topic numbers -/

theorem perm_eq_of_antitone {k : ℕ} (f : Fin k → ℝ) (hf : StrictAnti f) (σ : Equiv.Perm (Fin k))
    (h : Antitone fun i => f (σ i)) : ∀ i, σ i = i := by
  have hmono : StrictMono σ := by
    intro a b hab
    rcases lt_trichotomy (σ a) (σ b) with h1 | h1 | h1
    · exact h1
    · exact absurd (σ.injective h1) hab.ne
    · exact absurd (hf h1) (not_lt.2 (h hab.le))
  have hinv : StrictMono σ.symm := by
    intro a b hab
    rw [← hmono.lt_iff_lt]
    simpa using hab
  intro i
  refine le_antisymm ?_ hmono.le_apply
  have := hinv.le_apply (x := σ i)
  simpa using this

/-- **C98.** Showing topics brings the weights up to date first: after any history the topics shown are those of
the fully updated model, plus the prior, heaviest first. -/
theorem C98_show_refreshes (cfg : Cfg) (order : (Fin (n + 1) → ℝ) → Equiv.Perm (Fin (n + 1)))
    (s : St n W) (f : Full n W) (h : Agrees s f) (hu : s.upToDate = false) :
    shownTopics cfg order s = fun k w =>
      f.Lam (order (fun t => ∑ w, (f.Lam t w + cfg.eta)) k) w + cfg.eta := by
  have e : ∀ t w, s.lam t w * Real.exp (s.r.getLastD 0 - s.r.getD (s.ts w) 0) = f.Lam t w := h.lam
  simp only [shownTopics, hu, updateExpectations, Bool.false_eq_true, if_false, e]

/-- **C98.** After every training the topics are sorted by weight; and as long as no two topics weigh the
same, `show_topics` and `show_topic` number them as `hdp[bow]` and `hdp_to_lda` do. -/
theorem C98_topic_numbers [Nonempty W] (cfg : Cfg) (hcfg : CfgOk cfg)
    (order : (Fin (n + 1) → ℝ) → Equiv.Perm (Fin (n + 1))) (ho : OrderOk order) (s : St n W)
    (docs maxChunks : ℕ) (maxTime : Bool) (late : ℕ → Bool) (chunksize : ℕ)
    (corpus : List (Doc W)) (fuel : ℕ) (p : Progress n W) (hs : Reach m cfg order s docs)
    (h : update m cfg order maxChunks maxTime late chunksize corpus fuel s docs = .returned p) :
    Antitone p.model.lamSum ∧
    (Function.Injective p.model.lamSum →
      shownTopics cfg order p.model = fun k w => p.model.lam k w + cfg.eta) := by
  obtain ⟨f, ha, _, _, _⟩ := reach_inv cfg hcfg order s docs hs
  obtain ⟨f', h1, h2, h3, h4, _, _, _, _, h9⟩ :=
    C98_lazy_updates cfg order hcfg.rho maxChunks maxTime late chunksize corpus fuel s docs p f ha h
  have hdone := (run_done cfg order maxChunks maxTime late _ _ fuel _ ⟨s, docs, []⟩ p (fun _ h => h) (by simp) h).1
  have hsort : Antitone p.model.lamSum := by
    have := fullTrain_sorted cfg order ho p.done hdone f f' h1
    have e : p.model.lamSum = fun t => ∑ w, f'.Lam t w := funext h4
    rw [e]; exact this
  refine ⟨hsort, fun hinj => ?_⟩
  have hstrict : StrictAnti p.model.lamSum := hsort.strictAnti_of_injective hinj
  unfold shownTopics
  simp only [h9, if_true]
  have hb : (fun t => ∑ w, (p.model.lam t w + cfg.eta)) = fun t => p.model.lamSum t + Fintype.card W * cfg.eta := by
    funext t
    rw [h4, Finset.sum_add_distrib, Finset.sum_const, Finset.card_univ, nsmul_eq_mul, h3]
  rw [hb]
  set x := fun t => p.model.lamSum t + Fintype.card W * cfg.eta with hx
  have hid := perm_eq_of_antitone x (fun a b hab => by simp only [hx]; linarith [hstrict hab]) (order x) (ho x)
  funext k w
  rw [hid k]

/-! ## Inference on new documents -/

theorem ldaTurn_bounds {N : ℕ} (alpha : Fin (n + 1) → ℝ) (beta : Fin (n + 1) → Fin N → ℝ)
    (hbeta : ∀ t i, 0 ≤ beta t i) (c : Fin N → ℝ) (hc : ∀ i, 0 ≤ c i) (theta : Fin (n + 1) → ℝ)
    (htheta : ∀ t, 0 < theta t) :
    (∀ t, alpha t ≤ ldaTurn alpha beta c theta t) ∧
    ∑ t, ldaTurn alpha beta c theta t ≤ ∑ t, alpha t + ∑ i, c i := by
  have hden : ∀ i, 0 < ∑ u, theta u * beta u i + 1 / 10 ^ 100 := by
    intro i
    have : 0 ≤ ∑ u, theta u * beta u i := Finset.sum_nonneg fun u _ => mul_nonneg (htheta u).le (hbeta u i)
    have : (0 : ℝ) < 1 / 10 ^ 100 := by positivity
    linarith
  constructor
  · intro t
    unfold ldaTurn
    have : 0 ≤ theta t * ∑ i, c i / (∑ u, theta u * beta u i + 1 / 10 ^ 100) * beta t i :=
      mul_nonneg (htheta t).le (Finset.sum_nonneg fun i _ =>
        mul_nonneg (div_nonneg (hc i) (hden i).le) (hbeta t i))
    linarith
  · unfold ldaTurn
    rw [Finset.sum_add_distrib]
    have e : ∑ t, theta t * ∑ i, c i / (∑ u, theta u * beta u i + 1 / 10 ^ 100) * beta t i
        = ∑ i, c i * ((∑ u, theta u * beta u i) / (∑ u, theta u * beta u i + 1 / 10 ^ 100)) := by
      simp only [Finset.mul_sum]
      rw [Finset.sum_comm]
      refine Finset.sum_congr rfl fun i _ => ?_
      rw [Finset.sum_div, Finset.mul_sum]
      refine Finset.sum_congr rfl fun t _ => ?_
      ring
    rw [e]
    have : ∑ i, c i * ((∑ u, theta u * beta u i) / (∑ u, theta u * beta u i + 1 / 10 ^ 100)) ≤ ∑ i, c i := by
      refine Finset.sum_le_sum fun i _ => ?_
      have hle : (∑ u, theta u * beta u i) / (∑ u, theta u * beta u i + 1 / 10 ^ 100) ≤ 1 := by
        rw [div_le_one (hden i)]
        have : (0 : ℝ) < 1 / 10 ^ 100 := by positivity
        linarith
      calc c i * ((∑ u, theta u * beta u i) / (∑ u, theta u * beta u i + 1 / 10 ^ 100)) ≤ c i * 1 := by
            gcongr
            exact hc i
        _ = c i := mul_one _
    linarith

theorem ldaLoop_bounds {N : ℕ} (psi : ℝ → ℝ) (alpha : Fin (n + 1) → ℝ) (beta : Fin (n + 1) → Fin N → ℝ)
    (hbeta : ∀ t i, 0 ≤ beta t i) (c : Fin N → ℝ) (hc : ∀ i, 0 ≤ c i) :
    ∀ (left : ℕ) (gamma : Fin (n + 1) → ℝ),
      (∀ t, alpha t ≤ ldaLoop psi alpha beta c (left + 1) gamma t) ∧
      ∑ t, ldaLoop psi alpha beta c (left + 1) gamma t ≤ ∑ t, alpha t + ∑ i, c i := by
  intro left
  induction left with
  | zero =>
    intro gamma
    have hb := ldaTurn_bounds alpha beta hbeta c hc (expElog psi gamma) fun t => Real.exp_pos _
    simp only [ldaLoop, ite_self]
    exact hb
  | succ left ih =>
    intro gamma
    have hb := ldaTurn_bounds alpha beta hbeta c hc (expElog psi gamma) fun t => Real.exp_pos _
    rw [ldaLoop]
    split
    · exact hb
    · exact ih _

/-- **C98.** The topics of a new document: an error before training, nothing for an empty document; else the
topics with probability at least `eps`, in order, where the probabilities of all topics are positive and add
up to one, and weigh at most the prior and the words of the document. -/
theorem C98_inference (cfg : Cfg) (alpha : Fin (n + 1) → ℝ) (ha : ∀ t, 0 < alpha t) (beta : Fin (n + 1) → W → ℝ)
    (hb : ∀ t w, 0 ≤ beta t w) (eps : ℝ) (doc : Doc W) (hdoc : ∀ q ∈ doc, 0 ≤ q.2) :
    getItem cfg (none : Option ((Fin (n + 1) → ℝ) × (Fin (n + 1) → W → ℝ))) eps doc = none ∧
    getItem cfg (some (alpha, beta)) eps [] = some [] ∧
    (doc ≠ [] → ∃ prob : Fin (n + 1) → ℝ, (∀ t, 0 < prob t) ∧ ∑ t, prob t = 1 ∧
      (∀ t, alpha t / (∑ u, alpha u + (doc.map Prod.snd).sum) ≤ prob t) ∧
      getItem cfg (some (alpha, beta)) eps doc
        = some (((List.finRange (n + 1)).filter fun t => eps ≤ prob t).map fun t => (t, prob t))) := by
  refine ⟨rfl, by simp [getItem, inferDoc], fun hne => ?_⟩
  obtain ⟨h1, h2⟩ := ldaLoop_bounds cfg.psi alpha (fun t (i : Fin doc.length) => beta t doc[i].1)
    (fun t i => hb t _) (fun i : Fin doc.length => doc[i].2) (fun i => hdoc _ (List.getElem_mem _)) 99 fun _ => 1
  set gamma := inferDoc cfg.psi alpha beta doc with hg
  have hge : gamma = ldaLoop cfg.psi alpha (fun t (i : Fin doc.length) => beta t doc[i].1)
      (fun i => doc[i].2) (99 + 1) fun _ => 1 := by
    rw [hg, inferDoc, if_neg hne]
  rw [← hge] at h1 h2
  have hpos : ∀ t, 0 < gamma t := fun t => lt_of_lt_of_le (ha t) (h1 t)
  have hsum : 0 < ∑ t, gamma t := Finset.sum_pos (fun t _ => hpos t) Finset.univ_nonempty
  have hcs : ∑ i : Fin doc.length, doc[i].2 = (doc.map Prod.snd).sum := by
    rw [← List.sum_ofFn]
    congr 1
    apply List.ext_getElem
    · simp
    · intro i h1 h2; simp
  refine ⟨fun t => gamma t / ∑ u, gamma u, fun t => div_pos (hpos t) hsum, ?_, ?_, ?_⟩
  · rw [← Finset.sum_div, div_self hsum.ne']
  · intro t
    rw [hcs] at h2
    exact div_le_div₀ (hpos t).le (h1 t) hsum h2
  · unfold getItem
    show some (if ∑ t, gamma t = 0 then [] else _) = _
    rw [if_neg hsum.ne', List.filter_map]
    rfl

/-! ## Example -/

/-- A configuration that meets the conditions. -/
noncomputable def exampleCfg : Cfg :=
  { psi := Real.log, gammaln := fun x => x, eta := 1 / 100, alpha := 1, gamma := 1, tau := 64, kappa := 1
    scale := 1, varConverge := 1 / 10000, D := 2 }

theorem exampleCfg_ok : CfgOk exampleCfg :=
  ⟨by norm_num [exampleCfg], by norm_num [exampleCfg], by norm_num [exampleCfg], by norm_num [exampleCfg],
    fun c => (rhot_lt_one exampleCfg (by norm_num [exampleCfg]) (by norm_num [exampleCfg])
      (by norm_num [exampleCfg]) (by norm_num [exampleCfg]) c).2⟩

/-- Two topics, the heavier one first. -/
noncomputable def exampleOrder (x : Fin 2 → ℝ) : Equiv.Perm (Fin 2) :=
  open Classical in if x 1 ≤ x 0 then Equiv.refl _ else Equiv.swap 0 1

theorem exampleOrder_ok : OrderOk exampleOrder := by
  intro x a b hab
  unfold exampleOrder
  by_cases h : x 1 ≤ x 0
  · simp only [if_pos h, Equiv.refl_apply]
    fin_cases a <;> fin_cases b <;> simp_all
  · have h' := (not_le.1 h).le
    simp only [if_neg h]
    fin_cases a <;> fin_cases b <;> simp_all

/-- Training a new model on two documents is possible, and reaches a model. -/
example : ∃ p : Progress 1 (Fin 3), Reach 1 exampleCfg exampleOrder p.model p.docs ∧ p.docs = 2 := by
  obtain ⟨p, h1, _, _, h4⟩ := C98_first_update (m := 1) exampleCfg (by norm_num [exampleCfg]) exampleOrder
    (fun _ => false) 1 one_pos [[((0 : Fin 3), 1), (1, 2)], [(1, 1)]] (by simp) (by norm_num [exampleCfg])
    (init exampleCfg fun _ _ => 1) 2 (by simp)
  refine ⟨p, Reach.upd (init exampleCfg fun _ _ => 1) 0 0 false (fun _ => false) 1
    [[((0 : Fin 3), 1), (1, 2)], [(1, 1)]] 2 p (Reach.new _ fun _ _ => one_pos) one_pos ?_ h1, by simpa using h4⟩
  intro doc hd q hq
  simp only [List.mem_cons, List.not_mem_nil, or_false] at hd
  rcases hd with rfl | rfl <;> simp only [List.mem_cons, List.not_mem_nil, or_false] at hq
  · rcases hq with rfl | rfl <;> norm_num
  · rw [hq]; norm_num

end Verif.Hdp
