import Mathlib.Tactic.Ring
import Mathlib.Tactic.Linarith
import Mathlib.Tactic.FieldSimp
import Mathlib.Tactic.Common
import Mathlib.Algebra.Order.Ring.Rat
import Verif.W2V.TrainModel

/-!
# C28: batching loses no sentence.  C32: the learning rate schedule.
-/

namespace Verif.W2V

variable {α : Type} {K : Type} [Field K] [LinearOrder K]

/-! ## C28 -/

/-- the number of words of a batch -/
def words (cfg : ProdCfg α K) (b : List α) : Nat := (b.map cfg.len).sum

/-- no batch could have taken the first sentence of the next one -/
def Greedy (cfg : ProdCfg α K) : List (List α) → Prop
  | b :: c :: rest => (∀ d, c.head? = some d → cfg.batchWords < words cfg b + cfg.len d) ∧ Greedy cfg (c :: rest)
  | _ => True

structure BatchInv (cfg : ProdCfg α K) (done : List α) (s : Prod α K) : Prop where
  all : (s.jobs.map Prod.fst).flatten ++ s.batch = done
  size : s.size = words cfg s.batch
  fits : s.size ≤ cfg.batchWords ∨ s.batch.length = 1
  jfits : ∀ j ∈ s.jobs, words cfg j.1 ≤ cfg.batchWords ∨ j.1.length = 1
  empty : ∀ (i : Nat) (j : List α × K), s.jobs[i]? = some j → j.1 = [] → i = 0
  start : s.batch = [] → s.jobs = []
  greedy : Greedy cfg (s.jobs.map Prod.fst ++ [s.batch])

theorem greedy_concat (cfg : ProdCfg α K) (l : List (List α)) (b c : List α) (h : Greedy cfg (l ++ [b]))
    (hc : ∀ d, c.head? = some d → cfg.batchWords < words cfg b + cfg.len d) : Greedy cfg (l ++ [b] ++ [c]) := by
  induction l with
  | nil => exact ⟨hc, trivial⟩
  | cons x l ih =>
    cases l with
    | nil => exact ⟨h.1, ih h.2⟩
    | cons y l => exact ⟨h.1, ih h.2⟩

theorem greedy_last (cfg : ProdCfg α K) (l : List (List α)) (b c : List α) (h : Greedy cfg (l ++ [b]))
    (hc : b ≠ [] ∧ c.head? = b.head?) : Greedy cfg (l ++ [c]) := by
  induction l with
  | nil => trivial
  | cons x l ih =>
    cases l with
    | nil => exact ⟨by rw [hc.2]; exact h.1, trivial⟩
    | cons y l => exact ⟨h.1, ih h.2⟩

theorem greedy_init (cfg : ProdCfg α K) (l : List (List α)) (b : List α) (h : Greedy cfg (l ++ [b])) : Greedy cfg l := by
  induction l with
  | nil => trivial
  | cons x l ih =>
    cases l with
    | nil => trivial
    | cons y l => exact ⟨h.1, ih h.2⟩

theorem words_append (cfg : ProdCfg α K) (a b : List α) : words cfg (a ++ b) = words cfg a + words cfg b := by
  simp [words]

theorem batchInv_init (cfg : ProdCfg α K) : BatchInv cfg [] (prodInit cfg) :=
  ⟨rfl, rfl, .inl (Nat.zero_le _), by simp [prodInit], by simp [prodInit], fun _ => rfl, trivial⟩

theorem batchInv_step (cfg : ProdCfg α K) {done : List α} {s : Prod α K} (h : BatchInv cfg done s) (d : α) :
    BatchInv cfg (done ++ [d]) (prodStep cfg s d) := by
  obtain ⟨h1, h2, h3, h4, h5, h6, h7⟩ := h
  unfold prodStep
  split
  · rename_i hle
    refine ⟨?_, ?_, .inl hle, h4, h5, ?_, ?_⟩
    · rw [← h1]; simp
    · simp only [words_append, ← h2]; simp [words]
    · simp
    · by_cases hb : s.batch = []
      · simp [h6 hb, Greedy]
      · refine greedy_last cfg _ _ _ h7 ⟨hb, ?_⟩
        cases hs : s.batch with
        | nil => exact absurd hs hb
        | cons x l => rfl
  · rename_i hgt
    refine ⟨?_, ?_, .inr rfl, ?_, ?_, by simp, ?_⟩
    · rw [← h1]; simp
    · simp [words]
    · intro j hj
      simp only [List.mem_append, List.mem_singleton] at hj
      rcases hj with hj | rfl
      · exact h4 j hj
      · rw [← h2]; exact h3
    · intro i j hi hj
      simp only [List.getElem?_append] at hi
      split at hi
      · exact h5 i j hi hj
      · rename_i hlen
        rcases hn : i - s.jobs.length with _ | n
        · rw [hn] at hi
          simp only [List.getElem?_cons_zero, Option.some.injEq] at hi
          subst hi
          have := h6 hj
          rw [this] at hlen hn
          simp at hn
          exact hn
        · rw [hn] at hi; simp at hi
    · simp only [List.map_append, List.map_cons, List.map_nil]
      apply greedy_concat cfg _ _ _ h7
      intro x hx
      simp only [List.head?_cons, Option.some.injEq] at hx
      subst hx
      rw [← h2]; omega

theorem batchInv (cfg : ProdCfg α K) (data : List α) :
    BatchInv cfg data (data.foldl (prodStep cfg) (prodInit cfg)) := by
  have key : ∀ (l done : List α) (s : Prod α K), BatchInv cfg done s → BatchInv cfg (done ++ l) (l.foldl (prodStep cfg) s) := by
    intro l
    induction l with
    | nil => intro done s h; simpa using h
    | cons d l ih =>
      intro done s h
      have := ih _ _ (batchInv_step cfg h d)
      simpa using this
  simpa using key data [] _ (batchInv_init cfg)

/-- **C28.** The jobs in order concatenate to the sentences in order; a job with more than `batch_words`
words is a single sentence; only the first job can be empty; and batching is greedy. -/
theorem C28_batches (cfg : ProdCfg α K) (data : List α) :
    ((jobs cfg data).map Prod.fst).flatten = data ∧
    (∀ j ∈ jobs cfg data, words cfg j.1 ≤ cfg.batchWords ∨ j.1.length = 1) ∧
    (∀ (i : Nat) (j : List α × K), (jobs cfg data)[i]? = some j → j.1 = [] → i = 0) ∧
    Greedy cfg ((jobs cfg data).map Prod.fst) := by
  obtain ⟨h1, h2, h3, h4, h5, h6, h7⟩ := batchInv cfg data
  unfold jobs
  simp only
  split
  · rename_i hb
    refine ⟨?_, h4, h5, greedy_init cfg _ _ h7⟩
    rw [hb] at h1
    simpa using h1
  · rename_i hb
    refine ⟨by simpa using h1, ?_, ?_, by simpa using h7⟩
    · intro j hj
      simp only [List.mem_append, List.mem_singleton] at hj
      rcases hj with hj | rfl
      · exact h4 j hj
      · rw [← h2]; exact h3
    · intro i j hi hj
      simp only [List.getElem?_append] at hi
      split at hi
      · exact h5 i j hi hj
      · rcases hn : i - (data.foldl (prodStep cfg) (prodInit cfg)).jobs.length with _ | n
        · rw [hn] at hi
          simp only [List.getElem?_cons_zero, Option.some.injEq] at hi
          subst hi
          exact absurd hj hb
        · rw [hn] at hi; simp at hi

def exCfg : ProdCfg Nat ℚ := ⟨10, id, 1, 0, 1, 0, .inl 4⟩

/-- an empty job is put when the first sentence is longer than `batch_words` -/
example : jobs exCfg [12, 3, 4, 9] = [([], 1), ([12], 1), ([3, 4], 3/4), ([9], 1/4)] := by decide +kernel

/-! ## C32 -/

variable [IsStrictOrderedRing K]

/-- the learning rate never leaves its bounds and never increases with progress -/
theorem nextAlpha_bounds {a b : K} (hab : b ≤ a) (E : Nat) {p : K} (hp : 0 ≤ p) (c : Nat) :
    b ≤ nextAlpha a b E p c ∧ nextAlpha a b E p c ≤ a := by
  refine ⟨le_max_left _ _, max_le hab ?_⟩
  have : 0 ≤ (a - b) * (((c : K) + p) / E) :=
    mul_nonneg (by linarith) (div_nonneg (add_nonneg (Nat.cast_nonneg c) hp) (Nat.cast_nonneg E))
  linarith

theorem nextAlpha_antitone {a b : K} (hab : b ≤ a) (E : Nat) {p q : K} {c d : Nat} (h : (c : K) + p ≤ d + q) :
    nextAlpha a b E q d ≤ nextAlpha a b E p c := by
  unfold nextAlpha
  apply max_le_max (le_refl _)
  have h1 : ((c : K) + p) / E ≤ (d + q) / E := div_le_div_of_nonneg_right h (Nat.cast_nonneg E)
  have := mul_le_mul_of_nonneg_left h1 (show 0 ≤ a - b by linarith)
  linarith

/-- the work that counts as progress: sentences or words -/
def measure (cfg : ProdCfg α K) (l : List α) : Nat :=
  match cfg.total with
  | .inl _ => l.length
  | .inr _ => words cfg l

/-- the work the user announced -/
def announced (cfg : ProdCfg α K) : Nat :=
  match cfg.total with
  | .inl n => n
  | .inr n => n

/-- the rate after the work `m` of the current epoch -/
def rate (cfg : ProdCfg α K) (m : Nat) : K :=
  nextAlpha cfg.startAlpha cfg.endAlpha cfg.epochs ((m : K) / announced cfg) cfg.curEpoch

theorem rate_antitone (cfg : ProdCfg α K) (hab : cfg.endAlpha ≤ cfg.startAlpha) {m n : Nat} (h : m ≤ n) :
    rate cfg n ≤ rate cfg m := by
  apply nextAlpha_antitone hab
  have : (m : K) / announced cfg ≤ (n : K) / announced cfg :=
    div_le_div_of_nonneg_right (by exact_mod_cast h) (Nat.cast_nonneg _)
  linarith

structure RateInv (cfg : ProdCfg α K) (done : List α) (s : Prod α K) : Prop where
  cur : ∃ m, s.alpha = rate cfg m ∧ m + measure cfg s.batch = measure cfg done ∧
    (match cfg.total with
      | .inl _ => s.pushedExamples = m
      | .inr _ => s.pushedWords = m)
  below : ∀ j ∈ s.jobs, s.alpha ≤ j.2 ∧ j.2 ≤ rate cfg 0
  sorted : (s.jobs.map Prod.snd).Pairwise (fun a b => b ≤ a)
  top : s.alpha ≤ rate cfg 0

theorem measure_append (cfg : ProdCfg α K) (a b : List α) :
    measure cfg (a ++ b) = measure cfg a + measure cfg b := by
  unfold measure
  split
  · simp
  · exact words_append cfg a b

theorem rateInv_init (cfg : ProdCfg α K) : RateInv cfg [] (prodInit cfg) := by
  have e : (prodInit cfg).alpha = rate cfg 0 := by simp [prodInit, rate]
  refine ⟨⟨0, e, by simp [prodInit], by split <;> rfl⟩, by simp [prodInit], by simp [prodInit], le_of_eq e⟩

theorem rateInv_step (cfg : ProdCfg α K) (hab : cfg.endAlpha ≤ cfg.startAlpha) {done : List α} {s : Prod α K}
    (h : RateInv cfg done s) (d : α) : RateInv cfg (done ++ [d]) (prodStep cfg s d) := by
  obtain ⟨⟨m, h1, h2, h3⟩, h4, h5, h6⟩ := h
  unfold prodStep
  split
  · refine ⟨⟨m, h1, ?_, h3⟩, h4, h5, h6⟩
    rw [measure_append, measure_append, ← h2]; omega
  · have hnew : ∃ m' : Nat, (progress cfg s).2.2 = (m' : K) / announced cfg ∧ m' = m + measure cfg s.batch ∧
        (match cfg.total with
          | .inl _ => (progress cfg s).2.1 = m'
          | .inr _ => (progress cfg s).1 = m') := by
      unfold progress announced measure words
      cases ht : cfg.total with
      | inl n =>
        rw [ht] at h3
        simp only at h3
        subst h3
        exact ⟨_, rfl, rfl, rfl⟩
      | inr n =>
        rw [ht] at h3
        simp only at h3
        subst h3
        exact ⟨_, rfl, rfl, rfl⟩
    obtain ⟨m', e1, e2, e3⟩ := hnew
    have hrate : nextAlpha cfg.startAlpha cfg.endAlpha cfg.epochs (progress cfg s).2.2 cfg.curEpoch = rate cfg m' := by
      rw [e1]; rfl
    have hle : rate cfg m' ≤ s.alpha := by rw [h1]; exact rate_antitone cfg hab (by omega)
    refine ⟨⟨m', hrate, ?_, e3⟩, ?_, ?_, ?_⟩
    · rw [measure_append, ← h2, e2]
    · intro j hj
      simp only [List.mem_append, List.mem_singleton] at hj
      simp only [hrate]
      rcases hj with hj | rfl
      · exact ⟨le_trans hle (h4 j hj).1, (h4 j hj).2⟩
      · exact ⟨hle, h6⟩
    · simp only [List.map_append, List.map_cons, List.map_nil]
      rw [List.pairwise_append]
      refine ⟨h5, by simp, ?_⟩
      intro a ha b hb
      simp only [List.mem_singleton] at hb
      subst hb
      obtain ⟨j, hj, rfl⟩ := List.mem_map.mp ha
      exact (h4 j hj).1
    · simp only [hrate]
      exact le_trans hle h6

/-- the sentences of the first `i` jobs -/
def before (js : List (List α × K)) (i : Nat) : List α := ((js.take i).map Prod.fst).flatten

theorem rates_exact (cfg : ProdCfg α K) (hab : cfg.endAlpha ≤ cfg.startAlpha) (data : List α) :
    ∀ (i : Nat) (j : List α × K), (jobs cfg data)[i]? = some j → j.2 = rate cfg (measure cfg (before (jobs cfg data) i)) := by
  have key : ∀ (l done : List α) (s : Prod α K), RateInv cfg done s → BatchInv cfg done s →
      (∀ (i : Nat) (j : List α × K), s.jobs[i]? = some j → j.2 = rate cfg (measure cfg (before s.jobs i))) →
      ∀ (i : Nat) (j : List α × K), ((l.foldl (prodStep cfg) s).jobs ++
        [((l.foldl (prodStep cfg) s).batch, (l.foldl (prodStep cfg) s).alpha)])[i]? = some j →
        j.2 = rate cfg (measure cfg (before ((l.foldl (prodStep cfg) s).jobs ++
        [((l.foldl (prodStep cfg) s).batch, (l.foldl (prodStep cfg) s).alpha)]) i)) := by
    have last : ∀ (done : List α) (s : Prod α K), RateInv cfg done s → BatchInv cfg done s →
      (∀ (i : Nat) (j : List α × K), s.jobs[i]? = some j → j.2 = rate cfg (measure cfg (before s.jobs i))) →
      ∀ (i : Nat) (j : List α × K), (s.jobs ++ [(s.batch, s.alpha)])[i]? = some j →
        j.2 = rate cfg (measure cfg (before (s.jobs ++ [(s.batch, s.alpha)]) i)) := by
      intro done s hr hb he i j hij
      by_cases hi : i < s.jobs.length
      · rw [List.getElem?_append_left hi] at hij
        rw [he i j hij]
        unfold before
        rw [List.take_append_of_le_length (by omega)]
      · rw [List.getElem?_append_right (by omega)] at hij
        have h0 : i - s.jobs.length = 0 := by
          rcases hn : i - s.jobs.length with _ | n
          · rfl
          · rw [hn] at hij; simp at hij
        have h0' : i = s.jobs.length := by omega
        subst h0'
        simp only [Nat.sub_self, List.getElem?_cons_zero, Option.some.injEq] at hij
        subst hij
        obtain ⟨m, h1, h2, _⟩ := hr.cur
        have h3 := hb.all
        rw [← h3, measure_append] at h2
        have hm : m = measure cfg (s.jobs.map Prod.fst).flatten := by omega
        simp only [h1, hm, before, List.take_left]
    intro l
    induction l with
    | nil => exact fun done s => last done s
    | cons d l ih =>
      intro done s hr hb he
      refine ih _ _ (rateInv_step cfg hab hr d) (batchInv_step cfg hb d) ?_
      unfold prodStep
      split
      · exact he
      · exact last done s hr hb he
  have := key data [] _ (rateInv_init cfg) (batchInv_init cfg) (by simp [prodInit])
  unfold jobs
  simp only
  split
  · intro i j hij
    have hi := (List.getElem?_eq_some_iff.mp hij).1
    have h := this i j (by rw [List.getElem?_append_left hi]; exact hij)
    rw [h]
    unfold before
    rw [List.take_append_of_le_length (by omega)]
  · exact this

/-- **C32.** The rate of every job is the linear interpolation between `alpha` and `min_alpha` at the
fraction of the announced work done before it (never below `min_alpha`). -/
theorem C32_linear (cfg : ProdCfg α K) (hab : cfg.endAlpha ≤ cfg.startAlpha) (data : List α)
    (i : Nat) (j : List α × K) (h : (jobs cfg data)[i]? = some j) :
    j.2 = max cfg.endAlpha (cfg.startAlpha - (cfg.startAlpha - cfg.endAlpha) *
      ((cfg.curEpoch + (measure cfg (before (jobs cfg data) i) : K) / announced cfg) / cfg.epochs)) :=
  rates_exact cfg hab data i j h

/-- the learning rates of the jobs of one epoch -/
def alphas (cfg : ProdCfg α K) (data : List α) : List K := (jobs cfg data).map Prod.snd

theorem alphas_ok (cfg : ProdCfg α K) (hab : cfg.endAlpha ≤ cfg.startAlpha) (data : List α) :
    (alphas cfg data).Pairwise (fun a b => b ≤ a) ∧
    ∀ a ∈ alphas cfg data, rate cfg (measure cfg data) ≤ a ∧ a ≤ rate cfg 0 := by
  have key : ∀ (l done : List α) (s : Prod α K), RateInv cfg done s → RateInv cfg (done ++ l) (l.foldl (prodStep cfg) s) := by
    intro l
    induction l with
    | nil => intro done s h; simpa using h
    | cons d l ih =>
      intro done s h
      have := ih _ _ (rateInv_step cfg hab h d)
      simpa using this
  obtain ⟨⟨m, h1, h2, h3⟩, h4, h5, h6⟩ := key data [] _ (rateInv_init cfg)
  rw [List.nil_append] at h2
  have hlow : rate cfg (measure cfg data) ≤ (data.foldl (prodStep cfg) (prodInit cfg)).alpha := by
    rw [h1]; exact rate_antitone cfg hab (by omega)
  unfold alphas jobs
  simp only
  split
  · refine ⟨h5, ?_⟩
    intro a ha
    obtain ⟨j, hj, rfl⟩ := List.mem_map.mp ha
    exact ⟨le_trans hlow (h4 j hj).1, (h4 j hj).2⟩
  · simp only [List.map_append, List.map_cons, List.map_nil]
    refine ⟨?_, ?_⟩
    · rw [List.pairwise_append]
      refine ⟨h5, by simp, ?_⟩
      intro a ha b hb
      simp only [List.mem_singleton] at hb
      subst hb
      obtain ⟨j, hj, rfl⟩ := List.mem_map.mp ha
      exact (h4 j hj).1
    · intro a ha
      simp only [List.mem_append, List.mem_singleton] at ha
      rcases ha with ha | rfl
      · obtain ⟨j, hj, rfl⟩ := List.mem_map.mp ha
        exact ⟨le_trans hlow (h4 j hj).1, (h4 j hj).2⟩
      · exact ⟨hlow, h6⟩

/-- **C32.** Within an epoch the learning rates of the jobs stay between `min_alpha` and `alpha` and never
increase, whatever totals were announced. -/
theorem C32_epoch (cfg : ProdCfg α K) (hab : cfg.endAlpha ≤ cfg.startAlpha) (data : List α) :
    (alphas cfg data).Pairwise (fun a b => b ≤ a) ∧
    ∀ a ∈ alphas cfg data, cfg.endAlpha ≤ a ∧ a ≤ cfg.startAlpha := by
  obtain ⟨h1, h2⟩ := alphas_ok cfg hab data
  refine ⟨h1, fun a ha => ⟨le_trans ?_ (h2 a ha).1, le_trans (h2 a ha).2 ?_⟩⟩
  · exact le_max_left _ _
  · exact (nextAlpha_bounds hab _ (by simp) _).2

/-- **C32.** Over a whole training of any number of epochs, if each epoch's data do not exceed the
announced total, the learning rates never increase from job to job, also across epochs. -/
theorem C32_training (cfg : ProdCfg α K) (hab : cfg.endAlpha ≤ cfg.startAlpha) (data : Nat → List α)
    (htot : ∀ e, measure cfg (data e) ≤ announced cfg) (n : Nat) :
    (((List.range n).map (fun e => alphas { cfg with curEpoch := e } (data e))).flatten).Pairwise (fun a b => b ≤ a) := by
  induction n with
  | zero => simp
  | succ n ih =>
    rw [List.range_succ, List.map_append, List.flatten_append, List.pairwise_append]
    refine ⟨ih, by simpa using (alphas_ok { cfg with curEpoch := n } hab (data n)).1, ?_⟩
    intro a ha b hb
    obtain ⟨l, hl, ha⟩ := List.mem_flatten.mp ha
    obtain ⟨e, he, rfl⟩ := List.mem_map.mp hl
    simp only [List.map_cons, List.map_nil, List.flatten_cons, List.flatten_nil, List.append_nil] at hb
    have hb' := ((alphas_ok { cfg with curEpoch := n } hab (data n)).2 b hb).2
    have ha' := ((alphas_ok { cfg with curEpoch := e } hab (data e)).2 a ha).1
    refine le_trans hb' (le_trans ?_ ha')
    apply nextAlpha_antitone hab
    have h1 : measure { cfg with curEpoch := e } (data e) ≤ announced cfg := htot e
    have h2 : ((measure { cfg with curEpoch := e } (data e) : Nat) : K) / (announced cfg : K) ≤ 1 := by
      apply div_le_one_of_le₀ (by exact_mod_cast h1) (Nat.cast_nonneg _)
    have h3 : (e : K) + 1 ≤ n := by
      have : e + 1 ≤ n := List.mem_range.mp he
      exact_mod_cast this
    have h4 : ((0 : Nat) : K) / (announced cfg : K) = 0 := by simp
    show (e : K) + _ / (announced cfg : K) ≤ n + ((0 : Nat) : K) / (announced cfg : K)
    rw [h4]
    linarith

/-- **C32, the hypothesis is needed.** If the announced total is too small, the rate rises again at the start
of the next epoch. -/
theorem C32_underestimated_rises :
    (((List.range 2).map (fun e => alphas { exCfg with curEpoch := e, epochs := 2, total := .inl 1 }
      [9, 9, 9, 9])).flatten) = [1, 1/2, 0, 0, 1/2, 0, 0, 0] := by decide +kernel

theorem inferLoop_eq (delta : K) (n : Nat) : ∀ a : K,
    inferLoop delta n a = (List.range n).map (fun i : Nat => a - (i : K) * delta) := by
  induction n with
  | zero => intro a; rfl
  | succ n ih =>
    intro a
    rw [inferLoop, ih, List.range_succ_eq_map, List.map_cons, List.map_map]
    simp only [Nat.cast_zero, zero_mul, sub_zero]
    congr 1
    apply List.map_congr_left
    intro i _
    simp only [Function.comp_apply, Nat.succ_eq_add_one, Nat.cast_add, Nat.cast_one]
    ring

/-- **C32.** `infer_vector` uses one rate per epoch, starting at `alpha`, never increasing, never below
`min_alpha`, and ending at `min_alpha` if there are at least two epochs. -/
theorem C32_infer {alpha minAlpha : K} (hab : minAlpha ≤ alpha) (epochs : Nat) :
    (inferAlphas alpha minAlpha epochs).length = epochs ∧
    (inferAlphas alpha minAlpha epochs).Pairwise (fun a b => b ≤ a) ∧
    (∀ a ∈ inferAlphas alpha minAlpha epochs, minAlpha ≤ a ∧ a ≤ alpha) ∧
    (1 ≤ epochs → (inferAlphas alpha minAlpha epochs)[0]? = some alpha) ∧
    (2 ≤ epochs → (inferAlphas alpha minAlpha epochs)[epochs - 1]? = some minAlpha) := by
  unfold inferAlphas
  set D : Nat := max (epochs - 1) 1 with hD
  rw [inferLoop_eq]
  have hDpos : (0 : K) < (D : K) := by
    have : 0 < D := by omega
    exact_mod_cast this
  have hdelta : 0 ≤ (alpha - minAlpha) / (D : K) := div_nonneg (by linarith) (le_of_lt hDpos)
  refine ⟨by simp, ?_, ?_, ?_, ?_⟩
  · rw [List.pairwise_map]
    apply List.Pairwise.imp _ List.pairwise_lt_range
    intro i j hij
    have : (i : K) ≤ j := by exact_mod_cast (le_of_lt hij)
    have := mul_le_mul_of_nonneg_right this hdelta
    linarith
  · intro a ha
    obtain ⟨i, hi, rfl⟩ := List.mem_map.mp ha
    have hi := List.mem_range.mp hi
    have h1 : (i : K) ≤ D := by
      have : i ≤ D := by omega
      exact_mod_cast this
    have h2 := mul_le_mul_of_nonneg_right h1 hdelta
    have h3 : (D : K) * ((alpha - minAlpha) / (D : K)) = alpha - minAlpha := by field_simp
    have h4 : 0 ≤ (i : K) * ((alpha - minAlpha) / (D : K)) := mul_nonneg (Nat.cast_nonneg _) hdelta
    constructor <;> linarith
  · intro h
    simp [show 0 < epochs by omega]
  · intro h
    have hDe : D = epochs - 1 := by omega
    simp only [List.getElem?_map]
    rw [List.getElem?_range (by omega)]
    simp only [Option.map_some, Option.some.injEq, ← hDe]
    field_simp
    ring

example : inferAlphas (1 : ℚ) 0 5 = [1, 3/4, 1/2, 1/4, 0] := by decide +kernel

end Verif.W2V
