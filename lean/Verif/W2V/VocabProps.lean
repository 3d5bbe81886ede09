import Mathlib.Data.List.Basic
import Mathlib.Data.List.Nodup
import Mathlib.Data.List.Range
import Mathlib.Data.List.Perm.Basic
import Mathlib.Tactic.Common
import Verif.W2V.VocabModel
import Verif.Utils.VocabProps

/-!
# C27: the Word2Vec vocabulary is exactly what `min_count` and `max_final_vocab` allow
-/

namespace Verif.W2V
open Verif PyDict Vocab

variable {τ : Type} [DecidableEq τ]

/-! ## Specification -/

/-- a vocabulary: positions and words correspond one to one, and there is a count per position -/
structure Good (wv : WV τ) : Prop where
  inverse : ∀ w i, get? wv.k2i w = some i ↔ wv.i2k[i]? = some w
  counts : wv.counts.length = wv.i2k.length

/-- what is known about `numpy.argsort` on integers -/
def ArgsortOk (argsort : List Nat → List Nat) : Prop :=
  ∀ x, (argsort x).Perm (List.range x.length) ∧ (argsort x).Pairwise (fun i j => x.getD i 0 ≤ x.getD j 0)

/-- is a word with this raw count retained by a call with these settings? -/
def Kept (b : Build τ) (w : τ) (c : Nat) : Prop := keepItem b.cfg.rule w c (effective b.cfg b.raw) = true

instance (b : Build τ) (w : τ) (c : Nat) : Decidable (Kept b w c) := by unfold Kept; infer_instance

/-- the count of `w` after one more call: `none` if `w` is not in the vocabulary.  A fresh build forgets
everything; an update adds the new raw count of the words already there and adds the retained new ones. -/
def expected (old : Option Nat) (b : Build τ) (w : τ) : Option Nat :=
  match b.update, old with
  | true, some c => some (c + getD b.raw w 0)
  | _, _ => match get? b.raw w with
    | some c => if Kept b w c then some c else none
    | none => none

/-! ## Bijection -/

/-- positions and words correspond -/
def Inverse (i2k : List τ) (k2i : PyDict τ Nat) : Prop := ∀ w i, get? k2i w = some i ↔ i2k[i]? = some w

theorem inverse_nodup {i2k : List τ} {k2i : PyDict τ Nat} (h : Inverse i2k k2i) : i2k.Nodup := by
  rw [List.nodup_iff_getElem?_ne_getElem?]
  intro i j hij hj he
  rw [List.getElem?_eq_getElem hj] at he
  have h1 := (h _ _).mpr he
  have h2 := (h i2k[j] j).mpr (List.getElem?_eq_getElem hj)
  rw [h1] at h2
  simp only [Option.some.injEq] at h2
  omega

theorem inverse_mem {i2k : List τ} {k2i : PyDict τ Nat} (h : Inverse i2k k2i) (w : τ) :
    w ∈ keys k2i ↔ w ∈ i2k := by
  rw [← get?_isSome_iff]
  constructor
  · intro hs
    obtain ⟨i, hi⟩ := Option.isSome_iff_exists.mp hs
    exact List.mem_of_getElem? ((h w i).mp hi)
  · intro hm
    obtain ⟨i, hi⟩ := List.mem_iff_getElem?.mp hm
    rw [(h w i).mpr hi]; rfl

theorem inverse_add {i2k : List τ} {k2i : PyDict τ Nat} (h : Inverse i2k k2i) {w : τ} (hw : w ∉ i2k) :
    Inverse (i2k ++ [w]) (PyDict.set k2i w i2k.length) := by
  intro x i
  rw [get?_set, List.getElem?_append]
  by_cases hx : x = w
  · subst hx
    simp only [if_pos]
    constructor
    · intro e
      simp only [Option.some.injEq] at e
      subst e
      simp
    · intro e
      split at e
      · exact absurd (List.mem_of_getElem? e) hw
      · have : i - i2k.length = 0 := by
          by_contra hne
          rw [List.getElem?_eq_none_iff.mpr (by simp; omega)] at e
          simp at e
        congr 1; omega
  · have hx' : w ≠ x := fun e => hx e.symm
    simp only [if_neg hx, if_neg hx', h x i]
    split
    · rfl
    · rename_i hi
      rw [List.getElem?_eq_none_iff.mpr (by omega)]
      constructor
      · intro e; simp at e
      · intro e
        rcases hn : i - i2k.length with _ | n
        · rw [hn] at e; simp at e; exact absurd e hx'
        · rw [hn] at e; simp at e

theorem inverse_zipIdx {l : List τ} (h : l.Nodup) : Inverse l (ofPairs l.zipIdx) := by
  have hk : keys (l.zipIdx) = l := by simp [keys]
  have hwf : WF (l.zipIdx) := by unfold WF; rw [hk]; exact h
  intro w i
  rw [ofPairs_of_WF hwf, get?_eq_some_iff hwf]
  simp [List.mem_zipIdx_iff_getElem?]

/-! ## The loops -/

theorem freshLoop (cfg : Cfg τ) (eff : Nat) (raw : PyDict τ Nat) : ∀ wv : WV τ, WF raw →
    Inverse wv.i2k wv.k2i → (∀ w ∈ keys raw, w ∉ wv.i2k) →
    (raw.foldl (freshWord cfg eff) wv).i2k =
      wv.i2k ++ keys (raw.filter (fun p => keepItem cfg.rule p.1 p.2 eff)) ∧
    Inverse (raw.foldl (freshWord cfg eff) wv).i2k (raw.foldl (freshWord cfg eff) wv).k2i ∧
    (raw.foldl (freshWord cfg eff) wv).counts = wv.counts := by
  induction raw with
  | nil => intro wv _ h _; exact ⟨by simp, h, rfl⟩
  | cons p raw ih =>
    intro wv hwf h hd
    obtain ⟨w, c⟩ := p
    have hwf' : WF raw := (List.nodup_cons.mp hwf).2
    have hw : w ∉ keys raw := (List.nodup_cons.mp hwf).1
    simp only [List.foldl_cons, freshWord]
    by_cases hk : keepItem cfg.rule w c eff = true
    · rw [if_pos hk]
      have hinv := inverse_add h (hd w (by simp))
      obtain ⟨h1, h2, h3⟩ := ih (addWord wv w) hwf' hinv (by
        intro x hx
        simp only [addWord, List.mem_append, List.mem_singleton, not_or]
        exact ⟨hd x (by simp [hx]), fun e => hw (e ▸ hx)⟩)
      refine ⟨?_, h2, h3⟩
      rw [h1]
      simp [addWord, hk]
    · rw [if_neg hk]
      obtain ⟨h1, h2, h3⟩ := ih wv hwf' h (fun x hx => hd x (by simp [hx]))
      refine ⟨?_, h2, h3⟩
      rw [h1]
      simp [hk]

theorem updateLoop (cfg : Cfg τ) (eff : Nat) (raw : PyDict τ Nat) : ∀ wv : WV τ, WF raw →
    Inverse wv.i2k wv.k2i →
    (raw.foldl (updateWord cfg eff) wv).i2k =
      wv.i2k ++ (keys (raw.filter (fun p => keepItem cfg.rule p.1 p.2 eff))).filter (fun w => decide (w ∉ wv.i2k)) ∧
    Inverse (raw.foldl (updateWord cfg eff) wv).i2k (raw.foldl (updateWord cfg eff) wv).k2i ∧
    (raw.foldl (updateWord cfg eff) wv).counts = wv.counts := by
  induction raw with
  | nil => intro wv _ h; exact ⟨by simp, h, rfl⟩
  | cons p raw ih =>
    intro wv hwf h
    obtain ⟨w, c⟩ := p
    have hwf' : WF raw := (List.nodup_cons.mp hwf).2
    have hw : w ∉ keys raw := (List.nodup_cons.mp hwf).1
    simp only [List.foldl_cons, updateWord]
    by_cases hk : keepItem cfg.rule w c eff = true
    · rw [if_pos hk]
      by_cases hc : contains wv.k2i w = true
      · rw [if_pos hc]
        obtain ⟨h1, h2, h3⟩ := ih wv hwf' h
        refine ⟨?_, h2, h3⟩
        rw [contains_iff, inverse_mem h] at hc
        rw [h1]
        simp [hk, hc]
      · rw [if_neg hc]
        rw [contains_iff, inverse_mem h] at hc
        obtain ⟨h1, h2, h3⟩ := ih (addWord wv w) hwf' (inverse_add h hc)
        refine ⟨?_, h2, h3⟩
        rw [h1]
        simp only [addWord, List.filter_cons, hk, if_true, keys_cons, hc, not_false_eq_true, decide_true,
          List.append_assoc, List.singleton_append]
        congr 2
        apply List.filter_congr
        intro x hx
        have : x ≠ w := by
          rintro rfl
          apply hw
          simp only [keys, List.mem_map] at hx ⊢
          obtain ⟨q, hq, rfl⟩ := hx
          exact ⟨q, (List.mem_filter.mp hq).1, rfl⟩
        simp [this]
    · rw [if_neg hk]
      obtain ⟨h1, h2, h3⟩ := ih wv hwf' h
      refine ⟨?_, h2, h3⟩
      rw [h1]
      simp [hk]

theorem resize_length (l : List Nat) (n : Nat) : (resize l n).length = n := by
  simp [resize]; omega

theorem resize_self (l : List Nat) : resize l l.length = l := by simp [resize]

theorem getElem?_resize (l : List Nat) (n i : Nat) :
    (resize l n)[i]? = if i < n then some (l.getD i 0) else none := by
  unfold resize
  rw [List.getElem?_append]
  simp only [List.length_take, List.getElem?_take, List.getElem?_replicate, List.getD_eq_getElem?_getD]
  by_cases h : i < n
  · by_cases h2 : i < l.length
    · rw [if_pos (by omega), if_pos h, if_pos h, List.getElem?_eq_getElem h2]; rfl
    · rw [if_neg (by omega), if_pos (by omega), if_pos h, List.getElem?_eq_none_iff.mpr (by omega)]; rfl
  · rw [if_neg (by omega), if_neg (by omega), if_neg h]

/-- setting the counts of the words `ws` one after the other -/
theorem countsLoop (f : τ → Nat → Nat) (ws : List τ) : ∀ wv : WV τ, Good wv → ws.Nodup →
    Good (ws.foldl (fun wv w => setCount wv w (f w ((getCount wv w).getD 0))) wv) ∧
    (ws.foldl (fun wv w => setCount wv w (f w ((getCount wv w).getD 0))) wv).i2k = wv.i2k ∧
    (ws.foldl (fun wv w => setCount wv w (f w ((getCount wv w).getD 0))) wv).k2i = wv.k2i ∧
    ∀ w, getCount (ws.foldl (fun wv w => setCount wv w (f w ((getCount wv w).getD 0))) wv) w =
      if w ∈ ws then (getCount wv w).map (f w) else getCount wv w := by
  induction ws with
  | nil => intro wv h _; simp [h]
  | cons x ws ih =>
    intro wv h hn
    rw [List.nodup_cons] at hn
    simp only [List.foldl_cons]
    set wv1 := setCount wv x (f x ((getCount wv x).getD 0)) with hwv1
    have e1 : wv1.i2k = wv.i2k := rfl
    have e2 : wv1.k2i = wv.k2i := rfl
    have hr : resize wv.counts wv.i2k.length = wv.counts := by rw [← h.counts]; exact resize_self _
    have hg1 : Good wv1 := by
      refine ⟨h.inverse, ?_⟩
      rw [e1, ← h.counts, hwv1]
      simp only [setCount, hr]
      split <;> simp
    have hc : ∀ w, getCount wv1 w = if w = x then (getCount wv w).map (f w) else getCount wv w := by
      intro w
      simp only [getCount, e2]
      cases hw : get? wv.k2i w with
      | none => simp
      | some i =>
        have hi := (h.inverse w i).mp hw
        simp only [Option.bind_some]
        simp only [hwv1, setCount, hr]
        by_cases hwx : w = x
        · subst hwx
          have hlt : i < wv.counts.length := by
            rw [h.counts]
            exact (List.getElem?_eq_some_iff.mp hi).1
          simp [hw, getCount, hlt]
        · rw [if_neg hwx]
          cases hx : get? wv.k2i x with
          | none => rfl
          | some j =>
            have hj := (h.inverse x j).mp hx
            simp only
            rw [List.getElem?_set_ne]
            rintro rfl
            rw [hj] at hi
            exact hwx (Option.some.inj hi).symm
    obtain ⟨h1, h2, h3, h4⟩ := ih wv1 hg1 hn.2
    refine ⟨h1, h2, h3, ?_⟩
    intro w
    rw [h4, hc]
    by_cases hwx : w = x
    · subst hwx
      rw [if_neg hn.1, if_pos rfl, if_pos (by simp)]
    · rw [if_neg hwx]
      simp [hwx]

theorem getCount_isSome {wv : WV τ} (h : Good wv) (w : τ) : (getCount wv w).isSome ↔ w ∈ wv.i2k := by
  rw [← inverse_mem h.inverse, ← get?_isSome_iff]
  unfold getCount
  cases hw : get? wv.k2i w with
  | none => simp
  | some i =>
    have hi := (h.inverse w i).mp hw
    have : i < wv.counts.length := by rw [h.counts]; exact (List.getElem?_eq_some_iff.mp hi).1
    simp [this]

/-! ## Sorting -/

theorem filterMap_range {α : Type} (l : List α) (n : Nat) (h : n = l.length) :
    (List.range n).filterMap (fun i => l[i]?) = l := by
  have key : ∀ n, n ≤ l.length → (List.range n).filterMap (fun i => l[i]?) = l.take n := by
    intro n
    induction n with
    | zero => intro _; rfl
    | succ n ih =>
      intro hn
      rw [List.range_succ, List.filterMap_append, ih (by omega), List.take_add_one]
      congr 1
  subst h
  rw [key _ (Nat.le_refl _), List.take_length]

theorem filterMap_eq_map {α : Type} (l : List α) (idx : List Nat) (h : ∀ i ∈ idx, i < l.length) :
    (idx.filterMap (fun i => l[i]?)).length = idx.length ∧
    ∀ k : Nat, (idx.filterMap (fun i => l[i]?))[k]? = (idx[k]?).bind (fun i => l[i]?) := by
  induction idx with
  | nil => simp
  | cons i idx ih =>
    have hi := h i (by simp)
    obtain ⟨h1, h2⟩ := ih (fun j hj => h j (by simp [hj]))
    rw [List.filterMap_cons, List.getElem?_eq_getElem hi]
    refine ⟨by simp [h1], ?_⟩
    intro k
    cases k with
    | zero => simp [List.getElem?_eq_getElem hi]
    | succ k => simpa using h2 k

/-- sorting keeps the words and their counts, and puts the most frequent first -/
theorem sortDesc_ok {argsort : List Nat → List Nat} (ha : ArgsortOk argsort) {wv : WV τ} (h : Good wv) :
    Good (sortDesc argsort wv) ∧ (sortDesc argsort wv).i2k.Perm wv.i2k ∧
    (∀ w, getCount (sortDesc argsort wv) w = getCount wv w) ∧
    (sortDesc argsort wv).counts.Pairwise (fun a b => b ≤ a) := by
  unfold sortDesc
  split
  · rename_i h0
    have hc0 : wv.counts = [] := List.length_eq_zero_iff.mp (by rw [h.counts]; exact h0)
    exact ⟨h, List.Perm.refl _, fun _ => rfl, by rw [hc0]; exact List.Pairwise.nil⟩
  · obtain ⟨p1, p2⟩ := ha wv.counts
    have hperm : (argsort wv.counts).reverse.Perm (List.range wv.i2k.length) := by
      rw [← h.counts]; exact (List.reverse_perm _).trans p1
    have hmem : ∀ i ∈ (argsort wv.counts).reverse, i < wv.i2k.length := by
      intro i hi
      simpa using hperm.mem_iff.mp hi
    obtain ⟨a1, a2⟩ := filterMap_eq_map wv.i2k _ hmem
    have hperm2 : ((argsort wv.counts).reverse.filterMap (fun i => wv.i2k[i]?)).Perm wv.i2k := by
      have := hperm.filterMap (fun i => wv.i2k[i]?)
      rwa [filterMap_range wv.i2k _ rfl] at this
    have hlen : ((argsort wv.counts).reverse.filterMap (fun i => wv.i2k[i]?)).length = wv.i2k.length :=
      hperm2.length_eq
    have hrs : resize wv.counts ((argsort wv.counts).reverse.filterMap (fun i => wv.i2k[i]?)).length = wv.counts := by
      rw [hlen, ← h.counts, resize_self]
    have hmem' : ∀ i ∈ (argsort wv.counts).reverse, i < wv.counts.length := by rw [h.counts]; exact hmem
    obtain ⟨b1, b2⟩ := filterMap_eq_map wv.counts _ hmem'
    have hnd := inverse_nodup h.inverse
    have hinv := inverse_zipIdx (hperm2.nodup_iff.mpr hnd)
    dsimp only
    rw [hrs]
    refine ⟨⟨hinv, by rw [b1, a1]⟩, hperm2, ?_, ?_⟩
    · intro w
      by_cases hw : w ∈ wv.i2k
      · obtain ⟨k, hk⟩ := List.mem_iff_getElem?.mp (hperm2.mem_iff.mpr hw)
        have hk' := (hinv w k).mpr hk
        rw [a2] at hk
        obtain ⟨i, hi, hi'⟩ := Option.bind_eq_some_iff.mp hk
        simp only [getCount, hk', Option.bind_some, b2, hi, (h.inverse w i).mpr hi']
      · have e1 : get? wv.k2i w = none := by
          rw [get?_eq_none_iff, inverse_mem h.inverse]; exact hw
        have e2 : get? (ofPairs ((argsort wv.counts).reverse.filterMap (fun i => wv.i2k[i]?)).zipIdx) w = none := by
          rw [get?_eq_none_iff, inverse_mem hinv, hperm2.mem_iff]; exact hw
        simp only [getCount, e1, e2, Option.bind_none]
    · rw [List.pairwise_iff_getElem]
      intro i j hi hj hij
      have hp := List.pairwise_reverse.mpr p2
      rw [List.pairwise_iff_getElem] at hp
      have hi' : i < (argsort wv.counts).reverse.length := by rw [← b1]; exact hi
      have hj' : j < (argsort wv.counts).reverse.length := by rw [← b1]; exact hj
      have hle := hp i j hi' hj' hij
      have gi := b2 i
      have gj := b2 j
      rw [List.getElem?_eq_getElem hi, List.getElem?_eq_getElem hi', Option.bind_some,
        List.getElem?_eq_getElem (hmem' _ (List.getElem_mem hi'))] at gi
      rw [List.getElem?_eq_getElem hj, List.getElem?_eq_getElem hj', Option.bind_some,
        List.getElem?_eq_getElem (hmem' _ (List.getElem_mem hj'))] at gj
      rw [Option.some.inj gi, Option.some.inj gj]
      rw [List.getD_eq_getElem?_getD, List.getD_eq_getElem?_getD,
        List.getElem?_eq_getElem (hmem' _ (List.getElem_mem hi')),
        List.getElem?_eq_getElem (hmem' _ (List.getElem_mem hj'))] at hle
      exact hle

/-! ## `prepare_vocab` -/

theorem mem_kept {raw : PyDict τ Nat} (hr : WF raw) (f : τ × Nat → Bool) (w : τ) :
    w ∈ keys (raw.filter f) ↔ ∃ c, get? raw w = some c ∧ f (w, c) = true := by
  simp only [keys, List.mem_map, List.mem_filter]
  constructor
  · rintro ⟨⟨x, c⟩, ⟨h1, h2⟩, rfl⟩
    exact ⟨c, get?_of_mem hr h1, h2⟩
  · rintro ⟨c, h1, h2⟩
    exact ⟨(w, c), ⟨mem_of_get? h1, h2⟩, rfl⟩

theorem resize_resize (l : List Nat) (n : Nat) : resize (resize l n) n = resize l n := by
  have := resize_self (resize l n)
  rwa [resize_length] at this

theorem fresh_ok {argsort : List Nat → List Nat} (ha : ArgsortOk argsort) (cfg : Cfg τ) {raw : PyDict τ Nat}
    (hr : WF raw) (wv : WV τ) (hne : ∃ w c, get? raw w = some c ∧ Kept ⟨false, cfg, raw⟩ w c) :
    Good (prepareFresh argsort cfg raw wv) ∧
    (prepareFresh argsort cfg raw wv).i2k.Perm
      (keys (raw.filter (fun p => keepItem cfg.rule p.1 p.2 (effective cfg raw)))) ∧
    (∀ w, getCount (prepareFresh argsort cfg raw wv) w = expected none ⟨false, cfg, raw⟩ w) ∧
    (cfg.sorted = true → (prepareFresh argsort cfg raw wv).counts.Pairwise (fun a b => b ≤ a)) := by
  obtain ⟨h1, h2, h3⟩ := freshLoop cfg (effective cfg raw) raw { wv with i2k := [], k2i := [] } hr
    (by intro w i; simp) (by simp)
  unfold prepareFresh
  set wv1 := raw.foldl (freshWord cfg (effective cfg raw)) { wv with i2k := [], k2i := [] } with hwv1
  simp only [List.nil_append] at h1
  have hset : ∀ ws : List τ, ws ≠ [] → ws.foldl (fun wv w => setCount wv w (getD raw w 0)) wv1 =
      ws.foldl (fun wv w => setCount wv w (getD raw w 0)) { wv1 with counts := resize wv1.counts wv1.i2k.length } := by
    intro ws hne
    cases ws with
    | nil => exact absurd rfl hne
    | cons x ws =>
      simp only [List.foldl_cons]
      congr 1
      simp only [setCount, resize_resize]
  have hne1 : wv1.i2k ≠ [] := by
    obtain ⟨w, c, hw, hk⟩ := hne
    have : w ∈ wv1.i2k := by rw [h1, mem_kept hr]; exact ⟨c, hw, hk⟩
    exact List.ne_nil_of_mem this
  have hg1 : Good { wv1 with counts := resize wv1.counts wv1.i2k.length } := ⟨h2, resize_length _ _⟩
  obtain ⟨c1, c2, c3, c4⟩ := countsLoop (fun w _ => getD raw w 0) wv1.i2k _ hg1 (inverse_nodup h2)
  dsimp only
  rw [hset _ hne1]
  set wv2 := wv1.i2k.foldl (fun wv w => setCount wv w (getD raw w 0))
    { wv1 with counts := resize wv1.counts wv1.i2k.length } with hwv2
  have hcount : ∀ w, getCount wv2 w = expected none ⟨false, cfg, raw⟩ w := by
    intro w
    rw [c4]
    have hs := getCount_isSome hg1 w
    dsimp only at hs
    simp only [expected, Kept]
    by_cases hw : w ∈ wv1.i2k
    · rw [if_pos hw]
      obtain ⟨n, hn⟩ := Option.isSome_iff_exists.mp (hs.mpr hw)
      rw [hn]
      rw [h1, mem_kept hr] at hw
      obtain ⟨c, hc, hk⟩ := hw
      simp [hc, hk, getD]
    · rw [if_neg hw]
      have : getCount { wv1 with counts := resize wv1.counts wv1.i2k.length } w = none := by
        rw [← Option.not_isSome_iff_eq_none, hs]; exact hw
      rw [this]
      rw [h1, mem_kept hr] at hw
      cases hc : get? raw w with
      | none => rfl
      | some c =>
        exact (if_neg (fun hk => hw ⟨c, hc, hk⟩)).symm
  have hperm2 : wv2.i2k = keys (raw.filter (fun p => keepItem cfg.rule p.1 p.2 (effective cfg raw))) := by
    rw [c2]; exact h1
  split
  · obtain ⟨d1, d2, d3, d4⟩ := sortDesc_ok ha c1
    refine ⟨d1, d2.trans (by rw [hperm2]), ?_, fun _ => d4⟩
    intro w
    rw [d3, hcount]
  · rename_i hns
    exact ⟨c1, by rw [hperm2], hcount, fun e => absurd e hns⟩

theorem update_ok (cfg : Cfg τ) {raw : PyDict τ Nat} (hr : WF raw) {wv : WV τ} (h : Good wv) :
    Good (prepareUpdate cfg raw wv) ∧
    (∀ w, getCount (prepareUpdate cfg raw wv) w = expected (getCount wv w) ⟨true, cfg, raw⟩ w) ∧
    wv.i2k <+: (prepareUpdate cfg raw wv).i2k := by
  obtain ⟨h1, h2, h3⟩ := updateLoop cfg (effective cfg raw) raw wv hr h.inverse
  unfold prepareUpdate
  set wv1 := raw.foldl (updateWord cfg (effective cfg raw)) wv with hwv1
  have hg1 : Good { wv1 with counts := resize wv1.counts wv1.i2k.length } := ⟨h2, resize_length _ _⟩
  obtain ⟨c1, c2, c3, c4⟩ := countsLoop (fun w n => n + getD raw w 0) wv1.i2k _ hg1 (inverse_nodup h2)
  dsimp only
  refine ⟨c1, ?_, by rw [c2, h1]; exact List.prefix_append _ _⟩
  intro w
  rw [c4]
  have hs := getCount_isSome hg1 w
  dsimp only at hs
  have hs0 := getCount_isSome h w
  by_cases hw0 : w ∈ wv.i2k
  · have hw : w ∈ wv1.i2k := by rw [h1]; simp [hw0]
    rw [if_pos hw]
    obtain ⟨i, hi⟩ := List.mem_iff_getElem?.mp hw0
    have hlt : i < wv.i2k.length := (List.getElem?_eq_some_iff.mp hi).1
    have hi1 : wv1.i2k[i]? = some w := by rw [h1, List.getElem?_append_left hlt]; exact hi
    have e1 : getCount { wv1 with counts := resize wv1.counts wv1.i2k.length } w = getCount wv w := by
      simp only [getCount, (h2 w i).mpr hi1, (h.inverse w i).mpr hi, Option.bind_some]
      rw [getElem?_resize, if_pos (List.getElem?_eq_some_iff.mp hi1).1, h3, List.getD_eq_getElem?_getD,
        List.getElem?_eq_getElem (by rw [h.counts]; exact hlt)]
      rfl
    rw [e1]
    obtain ⟨n, hn⟩ := Option.isSome_iff_exists.mp (hs0.mpr hw0)
    rw [hn]; rfl
  · have e0 : getCount wv w = none := by rw [← Option.not_isSome_iff_eq_none, hs0]; exact hw0
    rw [e0]
    simp only [expected, Kept]
    by_cases hw : w ∈ wv1.i2k
    · rw [if_pos hw]
      obtain ⟨i, hi⟩ := List.mem_iff_getElem?.mp hw
      have hge : wv.i2k.length ≤ i := by
        by_contra hlt
        rw [h1, List.getElem?_append_left (by omega)] at hi
        exact hw0 (List.mem_of_getElem? hi)
      have e1 : getCount { wv1 with counts := resize wv1.counts wv1.i2k.length } w = some 0 := by
        simp only [getCount, (h2 w i).mpr hi, Option.bind_some]
        rw [getElem?_resize, if_pos (List.getElem?_eq_some_iff.mp hi).1, h3, List.getD_eq_getElem?_getD,
          List.getElem?_eq_none_iff.mpr (by rw [h.counts]; exact hge)]
        rfl
      rw [e1]
      rw [h1, List.mem_append, List.mem_filter, mem_kept hr] at hw
      rcases hw with hw | ⟨⟨c, hc, hk⟩, -⟩
      · exact absurd hw hw0
      · simp [hc, hk, getD]
    · rw [if_neg hw]
      have : getCount { wv1 with counts := resize wv1.counts wv1.i2k.length } w = none := by
        rw [← Option.not_isSome_iff_eq_none, hs]; exact hw
      rw [this]
      rw [h1, List.mem_append, List.mem_filter, mem_kept hr] at hw
      cases hc : get? raw w with
      | none => rfl
      | some c =>
        exact (if_neg (fun hk => hw (.inr ⟨⟨c, hc, hk⟩, by simp [hw0]⟩))).symm

/-- the effective minimum count without `max_final_vocab` is `min_count` -/
theorem effective_none (cfg : Cfg τ) (raw : PyDict τ Nat) (h : cfg.maxFinal = none) :
    effective cfg raw = cfg.minCount := by simp [effective, h]

/-- how many raw words have a count of at least `n` -/
def atLeast (raw : PyDict τ Nat) (n : Nat) : Nat := raw.countP (fun p => decide (n ≤ p.2))

theorem atLeast_keys {raw : PyDict τ Nat} (hr : WF raw) (n : Nat) :
    atLeast raw n = (keys raw).countP (fun w => decide (n ≤ getD raw w 0)) := by
  unfold atLeast keys
  rw [List.countP_map]
  apply List.countP_congr
  rintro ⟨w, c⟩ hm
  simp [getD, get?_of_mem hr hm]

/-- `max_final_vocab=m`: the effective minimum count is the smallest one, at least `min_count` and 1,
with which at most `m` raw words remain -/
theorem effective_some (cfg : Cfg τ) {raw : PyDict τ Nat} (hr : WF raw) {m : Nat} (h : cfg.maxFinal = some m) :
    atLeast raw (effective cfg raw) ≤ m ∧ cfg.minCount ≤ effective cfg raw ∧ 1 ≤ effective cfg raw ∧
    ∀ n, cfg.minCount ≤ n → 1 ≤ n → atLeast raw n ≤ m → effective cfg raw ≤ n := by
  set S := pySort (fun a b => decide (getD raw b 0 ≤ getD raw a 0)) (keys raw) with hS
  have hperm : S.Perm (keys raw) := pySort_perm _ _
  have hsort : S.Pairwise (fun a b => getD raw b 0 ≤ getD raw a 0) := by
    have := pySort_sorted (le := fun a b => decide (getD raw b 0 ≤ getD raw a 0))
      (by intro a b; simp; omega) (by intro a b c; simp; omega) (keys raw)
    simpa using this
  have hcount : ∀ n, atLeast raw n = S.countP (fun w => decide (n ≤ getD raw w 0)) := by
    intro n
    rw [atLeast_keys hr, hperm.countP_eq]
  have heff : effective cfg raw = max (match S[m]? with
      | some w => getD raw w 0 + 1
      | none => 1) cfg.minCount := by unfold effective; rw [h]; rfl
  have split_at : S = S.take m ++ S.drop m := (List.take_append_drop m S).symm
  cases hm : S[m]? with
  | none =>
    rw [hm] at heff
    simp only at heff
    have hlen : S.length ≤ m := by simpa using hm
    refine ⟨?_, by omega, by omega, by intro n h1 h2 _; omega⟩
    rw [hcount]
    exact Nat.le_trans List.countP_le_length hlen
  | some w =>
    rw [hm] at heff
    simp only at heff
    have hlt : m < S.length := (List.getElem?_eq_some_iff.mp hm).1
    have hdrop : S.drop m = w :: S.drop (m + 1) := by
      rw [List.drop_eq_getElem_cons hlt]
      congr 1
      exact (List.getElem?_eq_some_iff.mp hm).2
    rw [split_at, hdrop, List.pairwise_append, List.pairwise_cons] at hsort
    obtain ⟨_, ⟨s1, _⟩, s2⟩ := hsort
    refine ⟨?_, by omega, by omega, ?_⟩
    · rw [hcount, split_at, List.countP_append]
      have : (S.drop m).countP (fun x => decide (effective cfg raw ≤ getD raw x 0)) = 0 := by
        rw [List.countP_eq_zero]
        intro x hx
        simp only [decide_eq_true_eq]
        rw [hdrop, List.mem_cons] at hx
        rcases hx with rfl | hx
        · omega
        · have := s1 x hx
          omega
      rw [this]
      have := List.countP_le_length (p := fun x => decide (effective cfg raw ≤ getD raw x 0)) (l := S.take m)
      rw [List.length_take] at this
      omega
    · intro n h1 h2 h3
      by_contra hlt2
      have hnw : n ≤ getD raw w 0 := by omega
      rw [hcount, split_at, List.countP_append, hdrop, List.countP_cons_of_pos (by simpa using hnw)] at h3
      have : (S.take m).countP (fun x => decide (n ≤ getD raw x 0)) = (S.take m).length := by
        rw [List.countP_eq_length]
        intro x hx
        have := s2 x hx w (by simp)
        simp only [decide_eq_true_eq]
        omega
      rw [this, List.length_take] at h3
      omega

/-- **C27.** After any history of `build_vocab` calls, fresh or `update=True`, each with its own settings
and raw counts: positions and words correspond one to one, and the count recorded for each word is the
one expected (`none`: the word is not in the vocabulary). -/
theorem C27_history {argsort : List Nat → List Nat} (ha : ArgsortOk argsort) (builds : List (Build τ))
    (hwf : ∀ b ∈ builds, WF b.raw)
    (hne : ∀ b ∈ builds, b.update = false → ∃ w c, get? b.raw w = some c ∧ Kept b w c) :
    Good (builds.foldl (build argsort) ⟨[], [], []⟩) ∧
    ∀ w, getCount (builds.foldl (build argsort) ⟨[], [], []⟩) w = builds.foldl (fun o b => expected o b w) none := by
  have key : ∀ (l : List (Build τ)) (wv : WV τ), Good wv → (∀ b ∈ l, WF b.raw) →
      (∀ b ∈ l, b.update = false → ∃ w c, get? b.raw w = some c ∧ Kept b w c) →
      Good (l.foldl (build argsort) wv) ∧
      ∀ w, getCount (l.foldl (build argsort) wv) w = l.foldl (fun o b => expected o b w) (getCount wv w) := by
    intro l
    induction l with
    | nil => intro wv h _ _; exact ⟨h, fun _ => rfl⟩
    | cons b l ih =>
      intro wv h h1 h2
      simp only [List.foldl_cons]
      have hb : Good (build argsort wv b) ∧ ∀ w, getCount (build argsort wv b) w = expected (getCount wv w) b w := by
        obtain ⟨u, cfg, raw⟩ := b
        cases u with
        | true =>
          obtain ⟨a1, a2, _⟩ := update_ok cfg (h1 _ List.mem_cons_self) h
          exact ⟨a1, a2⟩
        | false =>
          obtain ⟨a1, _, a2, _⟩ := fresh_ok ha cfg (h1 _ List.mem_cons_self) wv (h2 _ List.mem_cons_self rfl)
          refine ⟨a1, fun w => ?_⟩
          exact (a2 w).trans (by simp only [expected])
      obtain ⟨g1, g2⟩ := ih _ hb.1 (fun b hb => h1 b (by simp [hb])) (fun b hb => h2 b (by simp [hb]))
      refine ⟨g1, fun w => ?_⟩
      rw [g2, hb.2]
  exact key builds ⟨[], [], []⟩ ⟨by intro w i; simp, rfl⟩ hwf hne

theorem mem_scan (sents : List (List τ)) (w : τ) :
    w ∈ keys (scanVocab none none sents).1.vocab ↔ 0 < occ sents w := by
  have key : ∀ (l : List (List τ)) (s : Scan τ),
      w ∈ keys (l.foldl (scanSentence none none) s).vocab ↔ w ∈ keys s.vocab ∨ w ∈ l.flatten := by
    intro l
    induction l with
    | nil => intro s; simp
    | cons x l ih =>
      intro s
      rw [List.foldl_cons, ih]
      simp only [scanSentence, Option.elim_none, Bool.false_eq_true, if_false, mem_keys_countWords,
        List.flatten_cons, List.mem_append]
      tauto
  unfold scanVocab occ
  rw [key, List.count_pos_iff]
  simp

theorem get?_scan (sents : List (List τ)) (w : τ) :
    get? (scanVocab none none sents).1.vocab w = if 0 < occ sents w then some (occ sents w) else none := by
  have h := C14_counts_exact none none sents w (.inl rfl)
  split
  · rename_i hp
    rw [get?_eq_getD_of_mem ((mem_scan sents w).mpr hp) 0, h]
  · rename_i hp
    rw [get?_eq_none_iff, mem_scan]; exact hp

/-- **C27.** A fresh build on a corpus, without `trim_rule` and `max_vocab_size`: the words retained are
exactly those occurring at least `effective_min_count` times (and at least once), their recorded counts are
their numbers of occurrences, and with `sorted_vocab` they come in order of non-increasing count. -/
theorem C27_fresh {argsort : List Nat → List Nat} (ha : ArgsortOk argsort) (cfg : Cfg τ) (hrule : cfg.rule = none)
    (sents : List (List τ)) (wv : WV τ) (eff : Nat)
    (heff : eff = effective cfg (scanVocab none none sents).1.vocab)
    (hne : ∃ w, eff ≤ occ sents w ∧ 0 < occ sents w) :
    Good (prepareFresh argsort cfg (scanVocab none none sents).1.vocab wv) ∧
    (∀ w, w ∈ (prepareFresh argsort cfg (scanVocab none none sents).1.vocab wv).i2k ↔
      eff ≤ occ sents w ∧ 0 < occ sents w) ∧
    (∀ w ∈ (prepareFresh argsort cfg (scanVocab none none sents).1.vocab wv).i2k,
      getCount (prepareFresh argsort cfg (scanVocab none none sents).1.vocab wv) w = some (occ sents w)) ∧
    (cfg.sorted = true → (prepareFresh argsort cfg (scanVocab none none sents).1.vocab wv).counts.Pairwise
      (fun a b => b ≤ a)) := by
  have hwf := (scanInv none none sents).wf
  have hkept : ∀ w c, Kept ⟨false, cfg, (scanVocab none none sents).1.vocab⟩ w c ↔ eff ≤ c := by
    intro w c
    simp [Kept, keepItem, hrule, heff]
  obtain ⟨h1, h2, h3, h4⟩ := fresh_ok ha cfg hwf wv (by
    obtain ⟨w, e1, e2⟩ := hne
    refine ⟨w, occ sents w, ?_, (hkept _ _).mpr e1⟩
    rw [get?_scan, if_pos e2])
  have hmem : ∀ w, w ∈ (prepareFresh argsort cfg (scanVocab none none sents).1.vocab wv).i2k ↔
      eff ≤ occ sents w ∧ 0 < occ sents w := by
    intro w
    rw [h2.mem_iff, mem_kept hwf]
    constructor
    · rintro ⟨c, hc, hk⟩
      rw [get?_scan] at hc
      split at hc
      · rename_i hp
        simp only [Option.some.injEq] at hc
        subst hc
        exact ⟨(hkept w _).mp hk, hp⟩
      · simp at hc
    · rintro ⟨e1, e2⟩
      exact ⟨occ sents w, by rw [get?_scan, if_pos e2], (hkept w _).mpr e1⟩
  refine ⟨h1, hmem, ?_, h4⟩
  intro w hw
  obtain ⟨e1, e2⟩ := (hmem w).mp hw
  rw [h3]
  simp only [expected, get?_scan, if_pos e2]
  rw [if_pos ((hkept w _).mpr e1)]

/-- **C27.** `max_final_vocab=m` without `trim_rule`: at most `m` words are retained, `min_count` is
respected, and the threshold chosen is the smallest that achieves this. -/
theorem C27_max_final {argsort : List Nat → List Nat} (ha : ArgsortOk argsort) (cfg : Cfg τ) (hrule : cfg.rule = none)
    {raw : PyDict τ Nat} (hr : WF raw) (wv : WV τ) {m : Nat} (hm : cfg.maxFinal = some m)
    (hne : ∃ w c, get? raw w = some c ∧ effective cfg raw ≤ c) :
    (prepareFresh argsort cfg raw wv).i2k.length ≤ m ∧ cfg.minCount ≤ effective cfg raw ∧
    ∀ n, cfg.minCount ≤ n → 1 ≤ n → atLeast raw n ≤ m → effective cfg raw ≤ n := by
  obtain ⟨e1, e2, e3, e4⟩ := effective_some cfg hr hm
  obtain ⟨h1, h2, h3, h4⟩ := fresh_ok ha cfg hr wv (by
    obtain ⟨w, c, hw, hc⟩ := hne
    exact ⟨w, c, hw, by simp [Kept, keepItem, hrule, hc]⟩)
  refine ⟨?_, e2, e4⟩
  rw [h2.length_eq]
  simp only [keys, List.length_map]
  have : (raw.filter (fun p => keepItem cfg.rule p.1 p.2 (effective cfg raw))).length = atLeast raw (effective cfg raw) := by
    unfold atLeast
    rw [List.countP_eq_length_filter]
    simp [keepItem, hrule]
  rw [this]; exact e1

/-- a sort of positions meeting the contract -/
def exArgsort (x : List Nat) : List Nat := pySort (fun i j => decide (x.getD i 0 ≤ x.getD j 0)) (List.range x.length)

theorem exArgsort_ok : ArgsortOk exArgsort := by
  intro x
  refine ⟨pySort_perm _ _, ?_⟩
  have := pySort_sorted (le := fun i j => decide (x.getD i 0 ≤ x.getD j 0))
      (by intro a b; simp; omega) (by intro a b c; simp; omega) (List.range x.length)
  simpa [exArgsort] using this

example : (prepareFresh exArgsort ⟨none, 2, none, true⟩ (scanVocab none none [["a", "b", "c"], ["b", "c", "c"]]).1.vocab
    ⟨["old"], [("old", 0)], [9]⟩) = ⟨["c", "b"], [("c", 0), ("b", 1)], [3, 2]⟩ := by decide +kernel

example : build exArgsort (build exArgsort ⟨[], [], []⟩ ⟨false, ⟨none, 2, none, true⟩, [("a", 1), ("b", 5), ("c", 2)]⟩)
    ⟨true, ⟨none, 2, none, true⟩, [("a", 3), ("b", 1)]⟩ = ⟨["b", "c", "a"], [("b", 0), ("c", 1), ("a", 2)], [6, 2, 3]⟩ := by
  decide +kernel

end Verif.W2V
