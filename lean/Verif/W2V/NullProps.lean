import Mathlib.Data.List.Basic
import Mathlib.Data.List.Nodup
import Mathlib.Data.List.Duplicate
import Mathlib.Data.List.NodupEquivFin
import Mathlib.Algebra.Order.BigOperators.Group.List
import Mathlib.Tactic.Common
import Mathlib.Tactic.Linarith
import Verif.W2V.NullModel
import Verif.W2V.VocabProps
import Verif.W2V.NegProps

/-!
# C129: the null word of concatenating models
-/

namespace Verif.W2V
open Verif PyDict Vocab

variable {τ : Type} [DecidableEq τ]

/-! ## Specification -/

/-- a vocabulary holding null words: every other word has exactly one row, the null word is looked up at
the last of its rows, there is a count per row, and every row of the null word counts once -/
structure NullGood (nul : τ) (wv : WV τ) : Prop where
  inverse : ∀ w, w ≠ nul → ∀ i, get? wv.k2i w = some i ↔ wv.i2k[i]? = some w
  last : ∀ i, get? wv.k2i nul = some i ↔ (wv.i2k[i]? = some nul ∧ ∀ j : Nat, wv.i2k[j]? = some nul → j ≤ i)
  counts : wv.counts.length = wv.i2k.length
  ones : ∀ i : Nat, wv.i2k[i]? = some nul → wv.counts[i]? = some 1

/-- the rows of the null word after a history: one, and one more for each update since -/
def nullRows (builds : List (Build τ)) : Nat := builds.foldl (fun n b => if b.update then n + 1 else 1) 0

/-! ## Adding the null word -/

theorem getElem?_append_singleton (l : List τ) (x w : τ) (i : Nat) :
    (l ++ [x])[i]? = some w ↔ l[i]? = some w ∨ (i = l.length ∧ x = w) := by
  rw [List.getElem?_append]
  split
  · rename_i h
    constructor
    · exact .inl
    · rintro (h1 | ⟨h1, -⟩)
      · exact h1
      · omega
  · rename_i h
    rw [List.getElem?_eq_none_iff.mpr (by omega : l.length ≤ i)]
    rcases hn : i - l.length with _ | n
    · have : i = l.length := by omega
      simp [this]
    · have : i ≠ l.length := by omega
      simp [this]

theorem addWord_weak {nul : τ} {wv : WV τ} {w : τ} (hw : w ≠ nul) (hn : w ∉ wv.i2k)
    (h1 : ∀ w, w ≠ nul → ∀ i, get? wv.k2i w = some i ↔ wv.i2k[i]? = some w)
    (h2 : ∀ i, get? wv.k2i nul = some i ↔ (wv.i2k[i]? = some nul ∧ ∀ j : Nat, wv.i2k[j]? = some nul → j ≤ i)) :
    (∀ x, x ≠ nul → ∀ i, get? (addWord wv w).k2i x = some i ↔ (addWord wv w).i2k[i]? = some x) ∧
    (∀ i, get? (addWord wv w).k2i nul = some i ↔
      ((addWord wv w).i2k[i]? = some nul ∧ ∀ j : Nat, (addWord wv w).i2k[j]? = some nul → j ≤ i)) := by
  simp only [addWord]
  constructor
  · intro x hx i
    rw [getElem?_append_singleton, get?_set]
    by_cases hxw : x = w
    · subst hxw
      rw [if_pos rfl]
      constructor
      · intro e; exact .inr ⟨(Option.some.inj e).symm, rfl⟩
      · rintro (e | ⟨rfl, -⟩)
        · exact absurd (List.mem_of_getElem? e) hn
        · rfl
    · have hxw' : w ≠ x := fun e => hxw e.symm
      rw [if_neg (by assumption), h1 x hx]
      simp [hxw']
  · intro i
    rw [get?_set, if_neg (by first | exact hw | exact fun e => hw e.symm), h2 i]
    simp [getElem?_append_singleton, hw]

theorem addNull_i2k (nul : τ) (wv : WV τ) : (addNull nul wv).i2k = wv.i2k ++ [nul] := rfl

theorem addNull_k2i (nul w : τ) (wv : WV τ) :
    get? (addNull nul wv).k2i w = if w = nul then some wv.i2k.length else get? wv.k2i w := by
  simp only [addNull, setCount, addWord, get?_set]
  by_cases h : w = nul
  · subst h; simp
  · have h' : nul ≠ w := fun e => h e.symm
    simp [h, h']

theorem addNull_counts (nul : τ) {wv : WV τ} (h : wv.counts.length = wv.i2k.length) :
    (addNull nul wv).counts = wv.counts ++ [1] := by
  have e : get? (addWord wv nul).k2i nul = some wv.i2k.length := by simp [addWord, get?_set]
  simp only [addNull, setCount, e]
  have : resize (addWord wv nul).counts (addWord wv nul).i2k.length = wv.counts ++ [0] := by
    simp only [addWord, resize, List.length_append, List.length_singleton]
    rw [List.take_of_length_le (by omega), show wv.i2k.length + 1 - wv.counts.length = 1 by omega]; rfl
  rw [this, ← h]
  simp

theorem addNull_ok {nul : τ} {wv : WV τ} (h : NullGood nul wv) :
    NullGood nul (addNull nul wv) ∧ ∀ w, w ≠ nul → getCount (addNull nul wv) w = getCount wv w := by
  have hc := addNull_counts nul h.counts
  refine ⟨⟨?_, ?_, ?_, ?_⟩, ?_⟩
  · intro w hw i
    rw [addNull_k2i, if_neg hw, addNull_i2k, getElem?_append_singleton, h.inverse w hw]
    have hw' : nul ≠ w := fun e => hw e.symm
    simp [hw']
  · intro i
    rw [addNull_k2i, if_pos rfl, addNull_i2k, Option.some.injEq]
    constructor
    · rintro rfl
      refine ⟨by simp, fun j hj => ?_⟩
      have := (List.getElem?_eq_some_iff.mp hj).1
      simp at this; omega
    · rintro ⟨h1, h2⟩
      have h3 := h2 wv.i2k.length (by simp)
      have h4 := (List.getElem?_eq_some_iff.mp h1).1
      simp at h4; omega
  · rw [hc, addNull_i2k]; simp [h.counts]
  · intro i hi
    rw [addNull_i2k, getElem?_append_singleton] at hi
    rw [hc]
    rcases hi with hi | ⟨rfl, -⟩
    · have hlt := (List.getElem?_eq_some_iff.mp hi).1
      rw [List.getElem?_append_left (by rw [h.counts]; exact hlt)]
      exact h.ones i hi
    · rw [← h.counts]; simp
  · intro w hw
    simp only [getCount]
    rw [addNull_k2i, if_neg hw, hc]
    cases hg : get? wv.k2i w with
    | none => rfl
    | some i =>
      have hlt := (List.getElem?_eq_some_iff.mp ((h.inverse w hw i).mp hg)).1
      simp only [Option.bind_some]
      rw [List.getElem?_append_left (by rw [h.counts]; exact hlt)]

theorem nullGood_of_good {nul : τ} {wv : WV τ} (h : Good wv) (h1 : nul ∈ wv.i2k → getCount wv nul = some 1) :
    NullGood nul wv := by
  refine ⟨fun w _ => h.inverse w, ?_, h.counts, ?_⟩
  · intro i
    rw [h.inverse]
    constructor
    · intro hi
      refine ⟨hi, fun j hj => ?_⟩
      have e1 := (h.inverse _ _).mpr hi
      have e2 := (h.inverse _ _).mpr hj
      rw [e1] at e2
      exact Nat.le_of_eq (Option.some.inj e2).symm
    · exact fun hi => hi.1
  · intro i hi
    have := h1 (List.mem_of_getElem? hi)
    simp only [getCount, (h.inverse _ _).mpr hi, Option.bind_some] at this
    exact this

theorem good_of_nullGood {nul : τ} {wv : WV τ} (h : NullGood nul wv) (h1 : ∀ i j : Nat, wv.i2k[i]? = some nul →
    wv.i2k[j]? = some nul → i = j) : Good wv := by
  refine ⟨?_, h.counts⟩
  intro w i
  by_cases hw : w = nul
  · subst hw
    rw [h.last]
    exact ⟨fun x => x.1, fun x => ⟨x, fun j hj => Nat.le_of_eq (h1 _ _ hj x)⟩⟩
  · exact h.inverse w hw i

theorem getCount_nul {nul : τ} {wv : WV τ} (h : NullGood nul wv) (hm : nul ∈ wv.i2k) : getCount wv nul = some 1 := by
  -- the last row of the null word
  have hex : ∃ i, wv.i2k[i]? = some nul ∧ ∀ j : Nat, wv.i2k[j]? = some nul → j ≤ i := by
    have hb : ∀ j : Nat, wv.i2k[j]? = some nul → j ≤ wv.i2k.length := fun j hj =>
      Nat.le_of_lt (List.getElem?_eq_some_iff.mp hj).1
    obtain ⟨i0, hi0⟩ := List.mem_iff_getElem?.mp hm
    have key : ∀ n : Nat, (∀ j : Nat, wv.i2k[j]? = some nul → j ≤ n) →
        ∃ i, wv.i2k[i]? = some nul ∧ ∀ j : Nat, wv.i2k[j]? = some nul → j ≤ i := by
      intro n
      induction n with
      | zero => intro hn; exact ⟨i0, hi0, fun j hj => by have := hn j hj; omega⟩
      | succ n ih =>
        intro hn
        by_cases hx : wv.i2k[n + 1]? = some nul
        · exact ⟨n + 1, hx, hn⟩
        · apply ih
          intro j hj
          have := hn j hj
          rcases Nat.lt_or_ge n j with h1 | h1
          · have : j = n + 1 := by omega
            subst this; exact absurd hj hx
          · exact h1
    exact key _ hb
  obtain ⟨i, hi, hl⟩ := hex
  simp only [getCount, (h.last i).mpr ⟨hi, hl⟩, Option.bind_some]
  exact h.ones i hi

/-! ## A fresh vocabulary -/

theorem kept_empty {cfg : Cfg τ} {raw : PyDict τ Nat} (hr : WF raw) (wv : WV τ)
    (hne : ¬ ∃ w c, get? raw w = some c ∧ Kept ⟨false, cfg, raw⟩ w c) (argsort : List Nat → List Nat) :
    prepareFresh argsort { cfg with sorted := false } raw wv = ⟨[], [], wv.counts⟩ := by
  have key : ∀ (l : PyDict τ Nat) (wv : WV τ), (∀ p ∈ l, keepItem cfg.rule p.1 p.2 (effective cfg raw) = false) →
      l.foldl (freshWord cfg (effective cfg raw)) wv = wv := by
    intro l
    induction l with
    | nil => intro wv _; rfl
    | cons p l ih =>
      intro wv hp
      rw [List.foldl_cons, show freshWord cfg (effective cfg raw) wv p = wv by
        simp [freshWord, hp p (by simp)]]
      exact ih wv (fun q hq => hp q (by simp [hq]))
  have e : raw.foldl (freshWord { cfg with sorted := false } (effective { cfg with sorted := false } raw))
      { wv with i2k := [], k2i := [] } = { wv with i2k := [], k2i := [] } := by
    apply key
    intro p hp
    rw [Bool.eq_false_iff]
    intro hk
    exact hne ⟨p.1, p.2, get?_of_mem hr hp, hk⟩
  unfold prepareFresh
  rw [e]
  rfl

theorem freshNull_ok {argsort : List Nat → List Nat} (ha : ArgsortOk argsort) (nul : τ) (cfg : Cfg τ)
    {raw : PyDict τ Nat} (hr : WF raw) (hn : nul ∉ keys raw) (wv : WV τ) :
    Good (prepareFreshNull argsort nul cfg raw wv) ∧
    (prepareFreshNull argsort nul cfg raw wv).i2k.Perm
      (keys (raw.filter (fun p => keepItem cfg.rule p.1 p.2 (effective cfg raw))) ++ [nul]) ∧
    getCount (prepareFreshNull argsort nul cfg raw wv) nul = some 1 ∧
    (∀ w, w ≠ nul → getCount (prepareFreshNull argsort nul cfg raw wv) w = expected none ⟨false, cfg, raw⟩ w) ∧
    (cfg.sorted = true → (prepareFreshNull argsort nul cfg raw wv).counts.Pairwise (fun a b => b ≤ a)) := by
  have pre : ∃ wv1 : WV τ, Good wv1 ∧ addNull nul (prepareFresh argsort { cfg with sorted := false } raw wv) =
      addNull nul wv1 ∧ wv1.i2k.Perm (keys (raw.filter (fun p => keepItem cfg.rule p.1 p.2 (effective cfg raw)))) ∧
      ∀ w, getCount wv1 w = expected none ⟨false, cfg, raw⟩ w := by
    by_cases hne : ∃ w c, get? raw w = some c ∧ Kept ⟨false, cfg, raw⟩ w c
    · obtain ⟨a1, a2, a3, -⟩ := fresh_ok ha { cfg with sorted := false } hr wv hne
      exact ⟨_, a1, rfl, a2, a3⟩
    · have hk : keys (raw.filter (fun p => keepItem cfg.rule p.1 p.2 (effective cfg raw))) = [] := by
        rw [List.eq_nil_iff_forall_not_mem]
        intro w hw
        obtain ⟨c, h1, h2⟩ := (mem_kept hr _ w).mp hw
        exact hne ⟨w, c, h1, h2⟩
      refine ⟨⟨[], [], []⟩, ⟨by intro w i; simp, rfl⟩, ?_, by rw [hk], ?_⟩
      · rw [kept_empty hr wv hne]
        have e : ∀ l : List Nat, addNull nul (⟨[], [], l⟩ : WV τ) = ⟨[nul], [(nul, 0)], [1]⟩ := by
          intro l
          cases l <;> simp [addNull, setCount, addWord, resize, PyDict.set, get?_set, get?]
        rw [e, e]
      · intro w
        have e0 : getCount (⟨[], [], []⟩ : WV τ) w = none := rfl
        rw [e0]
        simp only [expected]
        cases hc : get? raw w with
        | none => rfl
        | some c => exact (if_neg (fun hk => hne ⟨w, c, hc, hk⟩)).symm
  obtain ⟨wv1, g1, e1, p1, c1⟩ := pre
  have hnm : nul ∉ wv1.i2k := by
    rw [p1.mem_iff]
    intro hm
    obtain ⟨c, h1, -⟩ := (mem_kept hr _ nul).mp hm
    exact hn ((get?_isSome_iff _ _).mp (by rw [h1]; rfl))
  obtain ⟨n1, n2⟩ := addNull_ok (nullGood_of_good (nul := nul) g1 (fun h => absurd h hnm))
  have g2 : Good (addNull nul wv1) := by
    apply good_of_nullGood n1
    intro i j hi hj
    rw [addNull_i2k, getElem?_append_singleton] at hi hj
    rcases hi with hi | ⟨rfl, -⟩
    · exact absurd (List.mem_of_getElem? hi) hnm
    · rcases hj with hj | ⟨rfl, -⟩
      · exact absurd (List.mem_of_getElem? hj) hnm
      · rfl
  have c2 : getCount (addNull nul wv1) nul = some 1 := getCount_nul n1 (by simp [addNull_i2k])
  have p2 : (addNull nul wv1).i2k.Perm
      (keys (raw.filter (fun p => keepItem cfg.rule p.1 p.2 (effective cfg raw))) ++ [nul]) := by
    rw [addNull_i2k]; exact p1.append_right _
  unfold prepareFreshNull
  dsimp only
  rw [e1]
  split
  · obtain ⟨d1, d2, d3, d4⟩ := sortDesc_ok ha g2
    refine ⟨d1, d2.trans p2, by rw [d3, c2], ?_, fun _ => d4⟩
    intro w hw
    rw [d3, n2 w hw, c1]
  · rename_i hns
    exact ⟨g2, p2, c2, fun w hw => by rw [n2 w hw, c1], fun e => absurd e hns⟩

/-! ## An update -/

theorem updateLoop_weak (nul : τ) (cfg : Cfg τ) (eff : Nat) (raw : PyDict τ Nat) : ∀ wv : WV τ, WF raw →
    nul ∉ keys raw →
    (∀ w, w ≠ nul → ∀ i, get? wv.k2i w = some i ↔ wv.i2k[i]? = some w) →
    (∀ i, get? wv.k2i nul = some i ↔ (wv.i2k[i]? = some nul ∧ ∀ j : Nat, wv.i2k[j]? = some nul → j ≤ i)) →
    (raw.foldl (updateWord cfg eff) wv).i2k =
      wv.i2k ++ (keys (raw.filter (fun p => keepItem cfg.rule p.1 p.2 eff))).filter (fun w => decide (w ∉ wv.i2k)) ∧
    (∀ w, w ≠ nul → ∀ i, get? (raw.foldl (updateWord cfg eff) wv).k2i w = some i ↔
      (raw.foldl (updateWord cfg eff) wv).i2k[i]? = some w) ∧
    (∀ i, get? (raw.foldl (updateWord cfg eff) wv).k2i nul = some i ↔
      ((raw.foldl (updateWord cfg eff) wv).i2k[i]? = some nul ∧
        ∀ j : Nat, (raw.foldl (updateWord cfg eff) wv).i2k[j]? = some nul → j ≤ i)) ∧
    (raw.foldl (updateWord cfg eff) wv).counts = wv.counts := by
  induction raw with
  | nil => intro wv _ _ h1 h2; exact ⟨by simp, h1, h2, rfl⟩
  | cons p raw ih =>
    intro wv hwf hn h1 h2
    obtain ⟨w, c⟩ := p
    have hwf' : WF raw := (List.nodup_cons.mp hwf).2
    have hw : w ∉ keys raw := (List.nodup_cons.mp hwf).1
    have hwn : w ≠ nul := by rintro rfl; simp at hn
    have hn' : nul ∉ keys raw := fun hm => hn (by simp [hm])
    have hmem : contains wv.k2i w = true ↔ w ∈ wv.i2k := by
      rw [contains_iff, ← get?_isSome_iff]
      constructor
      · intro hs
        obtain ⟨i, hi⟩ := Option.isSome_iff_exists.mp hs
        exact List.mem_of_getElem? ((h1 w hwn i).mp hi)
      · intro hm
        obtain ⟨i, hi⟩ := List.mem_iff_getElem?.mp hm
        rw [(h1 w hwn i).mpr hi]; rfl
    simp only [List.foldl_cons, updateWord]
    by_cases hk : keepItem cfg.rule w c eff = true
    · rw [if_pos hk]
      by_cases hc : contains wv.k2i w = true
      · rw [if_pos hc]
        obtain ⟨a1, a2⟩ := ih wv hwf' hn' h1 h2
        refine ⟨?_, a2⟩
        rw [hmem] at hc
        rw [a1]
        simp [hk, hc]
      · rw [if_neg hc]
        rw [hmem] at hc
        obtain ⟨b1, b2⟩ := addWord_weak hwn hc h1 h2
        obtain ⟨a1, a2⟩ := ih (addWord wv w) hwf' hn' b1 b2
        refine ⟨?_, a2⟩
        rw [a1]
        simp only [addWord, List.filter_cons, hk, if_true, keys_cons, hc, not_false_eq_true, decide_true,
          List.append_assoc, List.singleton_append]
        congr 2
        apply List.filter_congr
        intro x hx
        have : x ≠ w := by
          rintro rfl
          apply hw
          simp only [keys, List.mem_map] at hx ⊢
          obtain ⟨q, hq, rfl⟩ := hx
          exact ⟨q, (List.mem_filter.mp hq).1, rfl⟩
        simp [this]
    · rw [if_neg hk]
      obtain ⟨a1, a2⟩ := ih wv hwf' hn' h1 h2
      refine ⟨?_, a2⟩
      rw [a1]
      simp [hk]

/-- setting the counts of the words `ws` one after the other, the null word's staying as it is -/
theorem countsLoop_weak (nul : τ) (f : τ → Nat → Nat) (hf : f nul 1 = 1) (ws : List τ) :
    ∀ wv : WV τ, (∀ w, w ≠ nul → ∀ i, get? wv.k2i w = some i ↔ wv.i2k[i]? = some w) →
    (∀ i, get? wv.k2i nul = some i → wv.i2k[i]? = some nul) → wv.counts.length = wv.i2k.length →
    (∀ i : Nat, wv.i2k[i]? = some nul → wv.counts[i]? = some 1) → (ws.filter (fun w => decide (w ≠ nul))).Nodup →
    let r := ws.foldl (fun wv w => setCount wv w (f w ((getCount wv w).getD 0))) wv
    r.i2k = wv.i2k ∧ r.k2i = wv.k2i ∧ r.counts.length = wv.counts.length ∧
    (∀ i : Nat, wv.i2k[i]? = some nul → r.counts[i]? = some 1) ∧
    ∀ w, w ≠ nul → getCount r w = if w ∈ ws then (getCount wv w).map (f w) else getCount wv w := by
  induction ws with
  | nil => intro wv _ _ _ h4 _; exact ⟨rfl, rfl, rfl, h4, fun w _ => by simp⟩
  | cons x ws ih =>
    intro wv h1 h2 h3 h4 hn
    simp only [List.foldl_cons]
    set wv1 := setCount wv x (f x ((getCount wv x).getD 0)) with hwv1
    have e1 : wv1.i2k = wv.i2k := rfl
    have e2 : wv1.k2i = wv.k2i := rfl
    have hr : resize wv.counts wv.i2k.length = wv.counts := by rw [← h3]; exact resize_self _
    have hlen : wv1.counts.length = wv.counts.length := by
      rw [hwv1]
      simp only [setCount, hr]
      split <;> simp
    have hones : ∀ i : Nat, wv.i2k[i]? = some nul → wv1.counts[i]? = some 1 := by
      intro i hi
      rw [hwv1]
      simp only [setCount, hr]
      cases hx : get? wv.k2i x with
      | none => exact h4 i hi
      | some j =>
        simp only
        by_cases hij : j = i
        · subst hij
          have hxn : x = nul := by
            by_contra hxn
            have := (h1 x hxn j).mp hx
            rw [this] at hi
            exact hxn (Option.some.inj hi)
          subst hxn
          have h5 := h4 j hi
          have hlt := (List.getElem?_eq_some_iff.mp h5).1
          simp only [getCount, hx, Option.bind_some, h5, Option.getD_some, hf]
          simp [hlt]
        · rw [List.getElem?_set_ne hij]
          exact h4 i hi
    have hc : ∀ w, w ≠ nul → getCount wv1 w = if w = x then (getCount wv w).map (f w) else getCount wv w := by
      intro w hwn
      simp only [getCount, e2]
      cases hw : get? wv.k2i w with
      | none => simp
      | some i =>
        have hi := (h1 w hwn i).mp hw
        simp only [Option.bind_some]
        simp only [hwv1, setCount, hr]
        by_cases hwx : w = x
        · subst hwx
          have hlt : i < wv.counts.length := by
            rw [h3]
            exact (List.getElem?_eq_some_iff.mp hi).1
          simp [hw, getCount, hlt]
        · rw [if_neg hwx]
          cases hx : get? wv.k2i x with
          | none => rfl
          | some j =>
            have hj : wv.i2k[j]? = some x := by
              by_cases hxn : x = nul
              · subst hxn; exact h2 j hx
              · exact (h1 x hxn j).mp hx
            simp only
            rw [List.getElem?_set_ne]
            rintro rfl
            rw [hj] at hi
            exact hwx (Option.some.inj hi).symm
    have hn' : (ws.filter (fun w => decide (w ≠ nul))).Nodup := by
      rw [List.filter_cons] at hn
      split at hn
      · exact (List.nodup_cons.mp hn).2
      · exact hn
    obtain ⟨a1, a2, a3, a4, a5⟩ := ih wv1 h1 h2 (by rw [hlen, e1]; exact h3) hones hn'
    refine ⟨a1, a2, a3.trans hlen, a4, ?_⟩
    intro w hwn
    rw [a5 w hwn, hc w hwn]
    by_cases hwx : w = x
    · subst hwx
      have : w ∉ ws := by
        intro hm
        rw [List.filter_cons, if_pos (by simpa using hwn)] at hn
        exact (List.nodup_cons.mp hn).1 (by simp [List.mem_filter, hm, hwn])
      rw [if_neg this, if_pos rfl, if_pos (by simp)]
    · rw [if_neg hwx]
      simp [hwx]

theorem weak_nodup {nul : τ} {wv : WV τ} (h1 : ∀ w, w ≠ nul → ∀ i, get? wv.k2i w = some i ↔ wv.i2k[i]? = some w) :
    (wv.i2k.filter (fun w => decide (w ≠ nul))).Nodup := by
  rw [List.nodup_iff_count_le_one]
  intro w
  by_cases hw : w = nul
  · subst hw
    rw [List.count_eq_zero.mpr (by simp)]; omega
  · rw [List.count_filter (by simpa using hw)]
    by_contra hcon
    have h2 : 2 ≤ wv.i2k.count w := by omega
    have hd := List.duplicate_iff_two_le_count.mpr h2
    obtain ⟨i, j, hij, hi, hj⟩ : ∃ i j : Nat, i < j ∧ wv.i2k[i]? = some w ∧ wv.i2k[j]? = some w := by
      rw [List.duplicate_iff_exists_distinct_get] at hd
      obtain ⟨n, m, hnm, ha, hb⟩ := hd
      refine ⟨n, m, hnm, ?_, ?_⟩
      · rw [List.getElem?_eq_getElem n.2]; rw [ha]; rfl
      · rw [List.getElem?_eq_getElem m.2]; rw [hb]; rfl
    have e1 := (h1 w hw i).mpr hi
    have e2 := (h1 w hw j).mpr hj
    rw [e1] at e2
    have := Option.some.inj e2
    omega

theorem weak_isSome {nul : τ} {wv : WV τ} (h1 : ∀ w, w ≠ nul → ∀ i, get? wv.k2i w = some i ↔ wv.i2k[i]? = some w)
    (h3 : wv.counts.length = wv.i2k.length) {w : τ} (hw : w ≠ nul) : (getCount wv w).isSome ↔ w ∈ wv.i2k := by
  constructor
  · intro hs
    cases hg : get? wv.k2i w with
    | none => simp [getCount, hg] at hs
    | some i => exact List.mem_of_getElem? ((h1 w hw i).mp hg)
  · intro hm
    obtain ⟨i, hi⟩ := List.mem_iff_getElem?.mp hm
    have : i < wv.counts.length := by rw [h3]; exact (List.getElem?_eq_some_iff.mp hi).1
    simp [getCount, (h1 w hw i).mpr hi, this]

theorem update_weak {nul : τ} (cfg : Cfg τ) {raw : PyDict τ Nat} (hr : WF raw) (hnul : nul ∉ keys raw) {wv : WV τ}
    (h : NullGood nul wv) :
    NullGood nul (prepareUpdate cfg raw wv) ∧
    (∀ w, w ≠ nul → getCount (prepareUpdate cfg raw wv) w = expected (getCount wv w) ⟨true, cfg, raw⟩ w) ∧
    (prepareUpdate cfg raw wv).i2k = wv.i2k ++
      (keys (raw.filter (fun p => keepItem cfg.rule p.1 p.2 (effective cfg raw)))).filter (fun w => decide (w ∉ wv.i2k)) := by
  obtain ⟨h1, h2, h2', h3⟩ := updateLoop_weak nul cfg (effective cfg raw) raw wv hr hnul h.inverse h.last
  unfold prepareUpdate
  set wv1 := raw.foldl (updateWord cfg (effective cfg raw)) wv with hwv1
  have hold : ∀ i : Nat, wv1.i2k[i]? = some nul → i < wv.i2k.length ∧ wv.i2k[i]? = some nul := by
    intro i hi
    by_cases hlt : i < wv.i2k.length
    · rw [h1, List.getElem?_append_left hlt] at hi; exact ⟨hlt, hi⟩
    · rw [h1, List.getElem?_append_right (by omega)] at hi
      have hm := List.mem_of_getElem? hi
      obtain ⟨hm, -⟩ := List.mem_filter.mp hm
      obtain ⟨c, hc, -⟩ := (mem_kept hr _ nul).mp hm
      exact absurd ((get?_isSome_iff _ _).mp (by rw [hc]; rfl)) hnul
  have hones : ∀ i : Nat, wv1.i2k[i]? = some nul → (resize wv1.counts wv1.i2k.length)[i]? = some 1 := by
    intro i hi
    obtain ⟨hlt, hi0⟩ := hold i hi
    rw [getElem?_resize, if_pos (List.getElem?_eq_some_iff.mp hi).1, h3, List.getD_eq_getElem?_getD, h.ones i hi0]
    rfl
  have hgn : getD raw nul 0 = 0 := by
    rw [← get?_eq_none_iff] at hnul
    simp [getD, hnul]
  obtain ⟨c1, c2, c3, c4, c5⟩ := countsLoop_weak nul (fun w n => n + getD raw w 0) (by simp [hgn]) wv1.i2k
    { wv1 with counts := resize wv1.counts wv1.i2k.length } h2 (fun i hi => ((h2' i).mp hi).1) (resize_length _ _)
    hones (weak_nodup h2)
  dsimp only at c1 c2 c3 c4 c5 ⊢
  refine ⟨⟨?_, ?_, ?_, ?_⟩, ?_, by rw [c1]; exact h1⟩
  · rw [c1, c2]; exact h2
  · rw [c1, c2]; exact h2'
  · rw [c1, c3]; exact resize_length _ _
  · rw [c1]; exact c4
  intro w hwn
  rw [c5 w hwn]
  have hs := weak_isSome (wv := { wv1 with counts := resize wv1.counts wv1.i2k.length }) h2 (resize_length _ _) hwn
  dsimp only at hs
  have hs0 := weak_isSome h.inverse h.counts hwn
  by_cases hw0 : w ∈ wv.i2k
  · have hw : w ∈ wv1.i2k := by rw [h1]; simp [hw0]
    rw [if_pos hw]
    obtain ⟨i, hi⟩ := List.mem_iff_getElem?.mp hw0
    have hlt : i < wv.i2k.length := (List.getElem?_eq_some_iff.mp hi).1
    have hi1 : wv1.i2k[i]? = some w := by rw [h1, List.getElem?_append_left hlt]; exact hi
    have e1 : getCount { wv1 with counts := resize wv1.counts wv1.i2k.length } w = getCount wv w := by
      simp only [getCount, (h2 w hwn i).mpr hi1, (h.inverse w hwn i).mpr hi, Option.bind_some]
      rw [getElem?_resize, if_pos (List.getElem?_eq_some_iff.mp hi1).1, h3, List.getD_eq_getElem?_getD,
        List.getElem?_eq_getElem (by rw [h.counts]; exact hlt)]
      rfl
    rw [e1]
    obtain ⟨n, hn⟩ := Option.isSome_iff_exists.mp (hs0.mpr hw0)
    rw [hn]; rfl
  · have e0 : getCount wv w = none := by rw [← Option.not_isSome_iff_eq_none, hs0]; exact hw0
    rw [e0]
    simp only [expected, Kept]
    by_cases hw : w ∈ wv1.i2k
    · rw [if_pos hw]
      obtain ⟨i, hi⟩ := List.mem_iff_getElem?.mp hw
      have hge : wv.i2k.length ≤ i := by
        by_contra hlt
        rw [h1, List.getElem?_append_left (by omega)] at hi
        exact hw0 (List.mem_of_getElem? hi)
      have e1 : getCount { wv1 with counts := resize wv1.counts wv1.i2k.length } w = some 0 := by
        simp only [getCount, (h2 w hwn i).mpr hi, Option.bind_some]
        rw [getElem?_resize, if_pos (List.getElem?_eq_some_iff.mp hi).1, h3, List.getD_eq_getElem?_getD,
          List.getElem?_eq_none_iff.mpr (by rw [h.counts]; exact hge)]
        rfl
      rw [e1]
      rw [h1, List.mem_append, List.mem_filter, mem_kept hr] at hw
      rcases hw with hw | ⟨⟨c, hc, hk⟩, -⟩
      · exact absurd hw hw0
      · simp [hc, hk, getD]
    · rw [if_neg hw]
      have : getCount { wv1 with counts := resize wv1.counts wv1.i2k.length } w = none := by
        rw [← Option.not_isSome_iff_eq_none, hs]; exact hw
      rw [this]
      rw [h1, List.mem_append, List.mem_filter, mem_kept hr] at hw
      cases hc : get? raw w with
      | none => rfl
      | some c =>
        exact (if_neg (fun hk => hw (.inr ⟨⟨c, hc, hk⟩, by simp [hw0]⟩))).symm

/-! ## The properties -/

/-- **C129.** A fresh vocabulary of a model with a null word, over a corpus that does not hold it: the words
that `min_count` and the trim rule retain, each with its count, and the null word once, with the count 1;
rows and words correspond one to one; with `sorted_vocab` the counts descend, so that every word seen twice
comes before the null word. -/
theorem C129_fresh {argsort : List Nat → List Nat} (ha : ArgsortOk argsort) (nul : τ) (cfg : Cfg τ)
    {raw : PyDict τ Nat} (hr : WF raw) (hn : nul ∉ keys raw) (wv : WV τ) :
    Good (prepareFreshNull argsort nul cfg raw wv) ∧
    (∀ w, getCount (prepareFreshNull argsort nul cfg raw wv) w =
      if w = nul then some 1 else expected none ⟨false, cfg, raw⟩ w) ∧
    (cfg.sorted = true → ∀ w c i j, getCount (prepareFreshNull argsort nul cfg raw wv) w = some c → 2 ≤ c →
      get? (prepareFreshNull argsort nul cfg raw wv).k2i w = some i →
      get? (prepareFreshNull argsort nul cfg raw wv).k2i nul = some j → i < j) := by
  obtain ⟨a1, a2, a3, a4, a5⟩ := freshNull_ok ha nul cfg hr hn wv
  refine ⟨a1, ?_, ?_⟩
  · intro w
    split
    · rename_i h; subst h; exact a3
    · rename_i h; exact a4 w h
  · intro hs w c i j hc h2 hi hj
    have hp := a5 hs
    simp only [getCount, hi, Option.bind_some] at hc
    simp only [getCount, hj, Option.bind_some] at a3
    rcases Nat.lt_trichotomy i j with h | h | h
    · exact h
    · subst h
      rw [hc] at a3
      have := Option.some.inj a3
      omega
    · obtain ⟨hi', ei⟩ := List.getElem?_eq_some_iff.mp hc
      obtain ⟨hj', ej⟩ := List.getElem?_eq_some_iff.mp a3
      have := List.pairwise_iff_getElem.mp hp j i hj' hi' h
      omega

/-- **C129.** After any history of `build_vocab` calls of a model with a null word over corpora that do not
hold it: every other word has exactly one row and the count of C27; the null word has one row for the last
fresh build and one more for every update since, each counting 1, and is looked up at the last of them. -/
theorem C129_history {argsort : List Nat → List Nat} (ha : ArgsortOk argsort) (nul : τ) (builds : List (Build τ))
    (hwf : ∀ b ∈ builds, WF b.raw) (hnul : ∀ b ∈ builds, nul ∉ keys b.raw) :
    NullGood nul (builds.foldl (buildNull argsort nul) ⟨[], [], []⟩) ∧
    (∀ w, w ≠ nul → getCount (builds.foldl (buildNull argsort nul) ⟨[], [], []⟩) w =
      builds.foldl (fun o b => expected o b w) none) ∧
    (builds.foldl (buildNull argsort nul) ⟨[], [], []⟩).i2k.count nul = nullRows builds := by
  have key : ∀ (l : List (Build τ)) (wv : WV τ), NullGood nul wv → (∀ b ∈ l, WF b.raw) →
      (∀ b ∈ l, nul ∉ keys b.raw) →
      NullGood nul (l.foldl (buildNull argsort nul) wv) ∧
      (∀ w, w ≠ nul → getCount (l.foldl (buildNull argsort nul) wv) w =
        l.foldl (fun o b => expected o b w) (getCount wv w)) ∧
      (l.foldl (buildNull argsort nul) wv).i2k.count nul =
        l.foldl (fun n b => if b.update then n + 1 else 1) (wv.i2k.count nul) := by
    intro l
    induction l with
    | nil => intro wv h _ _; exact ⟨h, fun _ _ => rfl, rfl⟩
    | cons b l ih =>
      intro wv h h1 h2
      simp only [List.foldl_cons]
      have hb : NullGood nul (buildNull argsort nul wv b) ∧
          (∀ w, w ≠ nul → getCount (buildNull argsort nul wv b) w = expected (getCount wv w) b w) ∧
          (buildNull argsort nul wv b).i2k.count nul = if b.update then wv.i2k.count nul + 1 else 1 := by
        obtain ⟨u, cfg, raw⟩ := b
        have hr := h1 _ List.mem_cons_self
        have hn := h2 _ List.mem_cons_self
        have hno : ∀ f : τ × Nat → Bool, nul ∉ keys (raw.filter f) := by
          intro f hm
          obtain ⟨c, hc, -⟩ := (mem_kept hr _ nul).mp hm
          exact hn ((get?_isSome_iff _ _).mp (by rw [hc]; rfl))
        cases u with
        | true =>
          obtain ⟨a1, a2, a3⟩ := update_weak cfg hr hn h
          obtain ⟨b1, b2⟩ := addNull_ok a1
          refine ⟨b1, fun w hw => (b2 w hw).trans (a2 w hw), ?_⟩
          simp only [buildNull, prepareUpdateNull, if_true, addNull_i2k, a3, List.count_append]
          rw [List.count_eq_zero.mpr (fun hm => hno _ (List.mem_filter.mp hm).1)]
          simp
        | false =>
          obtain ⟨a1, a2, a3, a4, -⟩ := freshNull_ok ha nul cfg hr hn wv
          refine ⟨nullGood_of_good a1 (fun _ => a3), ?_, ?_⟩
          · intro w hw
            exact (a4 w hw).trans (by simp only [expected])
          · simp only [buildNull, Bool.false_eq_true, if_false]
            rw [a2.count_eq, List.count_append, List.count_eq_zero.mpr (hno _)]
            simp
      obtain ⟨g1, g2, g3⟩ := ih _ hb.1 (fun b hb => h1 b (by simp [hb])) (fun b hb => h2 b (by simp [hb]))
      refine ⟨g1, fun w hw => ?_, ?_⟩
      · rw [g2 w hw, hb.2.1 w hw]
      · rw [g3, hb.2.2]
  exact key builds ⟨[], [], []⟩ ⟨by intro w _ i; simp, by intro i; simp, rfl, by intro i; simp⟩ hwf hnul

/-- **C129 (finding).** An update gives the null word a new row: wherever it was looked up before, it is now
looked up behind all the rows there were, in the last row, so the row trained for the padding is abandoned. -/
theorem C129_update_moves {nul : τ} (cfg : Cfg τ) {raw : PyDict τ Nat} (hr : WF raw) (hn : nul ∉ keys raw) {wv : WV τ}
    (h : NullGood nul wv) (i : Nat) (hi : get? wv.k2i nul = some i) :
    ∃ j, get? (prepareUpdateNull nul cfg raw wv).k2i nul = some j ∧ i < wv.i2k.length ∧ wv.i2k.length ≤ j ∧
      j + 1 = (prepareUpdateNull nul cfg raw wv).i2k.length ∧
      (prepareUpdateNull nul cfg raw wv).i2k[i]? = some nul := by
  obtain ⟨-, -, a3⟩ := update_weak cfg hr hn h
  have hi' := ((h.last i).mp hi).1
  have hlt := (List.getElem?_eq_some_iff.mp hi').1
  refine ⟨(prepareUpdate cfg raw wv).i2k.length, ?_, hlt, ?_, ?_, ?_⟩
  · rw [prepareUpdateNull, addNull_k2i, if_pos rfl]
  · rw [a3]; simp
  · rw [prepareUpdateNull, addNull_i2k]; simp
  · rw [prepareUpdateNull, addNull_i2k, a3, List.append_assoc, List.getElem?_append_left hlt]; exact hi'

/-- **C129 (finding).** A corpus that holds the null word itself as a retained word gives it two rows: the
rows and words of the vocabulary do not correspond. -/
theorem C129_collision (argsort : List Nat → List Nat) (nul : τ) (cfg : Cfg τ) (hs : cfg.sorted = false)
    {raw : PyDict τ Nat} (hr : WF raw) (c : Nat) (hc : get? raw nul = some c) (hk : Kept ⟨false, cfg, raw⟩ nul c) (wv : WV τ) :
    (prepareFreshNull argsort nul cfg raw wv).i2k.count nul = 2 ∧ ¬ Good (prepareFreshNull argsort nul cfg raw wv) := by
  obtain ⟨h1, h2, -⟩ := freshLoop cfg (effective cfg raw) raw { wv with i2k := [], k2i := [] } hr
    (by intro w i; simp) (by simp)
  have hloop : ∀ (ws : List τ) (wv : WV τ), (ws.foldl (fun wv w => setCount wv w (getD raw w 0)) wv).i2k = wv.i2k := by
    intro ws
    induction ws with
    | nil => intro wv; rfl
    | cons x ws ih => intro wv; rw [List.foldl_cons, ih]; rfl
  have e : (prepareFreshNull argsort nul cfg raw wv).i2k =
      keys (raw.filter (fun p => keepItem cfg.rule p.1 p.2 (effective cfg raw))) ++ [nul] := by
    unfold prepareFreshNull prepareFresh
    rw [hs]
    simp only [Bool.false_eq_true, if_false, addNull_i2k]
    rw [hloop]
    have : effective { cfg with sorted := false } raw = effective cfg raw := rfl
    rw [this]
    simp only [List.nil_append] at h1
    rw [← h1]
    rfl
  have hnd : (keys (raw.filter (fun p => keepItem cfg.rule p.1 p.2 (effective cfg raw)))).Nodup := by
    have := inverse_nodup h2
    rw [h1] at this
    simpa using this
  have hcount : (prepareFreshNull argsort nul cfg raw wv).i2k.count nul = 2 := by
    rw [e, List.count_append, List.count_eq_one_of_mem hnd ((mem_kept hr _ nul).mpr ⟨c, hc, hk⟩)]
    simp
  refine ⟨hcount, fun hg => ?_⟩
  have := List.nodup_iff_count_le_one.mp (inverse_nodup hg.inverse) nul
  omega

/-- **C129 (finding).** The null word is described as only ever an input and never predicted, but it has a
place in the table of negative sampling like any other word: whenever the table is fine enough to tell the
weight 1 from the weights of all rows together, it is drawn from every state of the generator. -/
theorem C129_predicted {K : Type} [Field K] [LinearOrder K] [IsStrictOrderedRing K] {round : K → Nat}
    (hround : RoundOk round) (domain : Nat) (hdom : domain ≤ 2 ^ 32) (pow : Nat → K) (hpow : ∀ n, 0 ≤ pow n)
    (hone : pow 1 = 1) (nul : τ) {wv : WV τ} (h : NullGood nul wv) (i : Nat) (hi : get? wv.k2i nul = some i)
    (hfine : 2 * (rowWeights pow wv).sum < domain) (s : Nat) (hs : s < 2 ^ 48) :
    ∃ k, drawWord (cumTable round domain (rowWeights pow wv)) (nextRandom^[k] s) = i := by
  have hrow := h.ones i ((h.last i).mp hi).1
  have hget : (rowWeights pow wv)[i]? = some 1 := by simp [rowWeights, hrow, hone]
  have hw : ∀ w ∈ rowWeights pow wv, 0 ≤ w := by
    intro w hw
    simp only [rowWeights, List.mem_map] at hw
    obtain ⟨n, -, rfl⟩ := hw
    exact hpow n
  have htot : 0 < (rowWeights pow wv).sum :=
    lt_of_lt_of_le zero_lt_one (List.single_le_sum hw 1 (List.mem_of_getElem? hget))
  have hp := C31_proportion hround domain (rowWeights pow wv) hw htot i 1 hget
  obtain ⟨-, -, hlast, -⟩ := C31_table hround domain (rowWeights pow wv) (List.ne_nil_of_mem (List.mem_of_getElem? hget)) hw htot
  have hbig : (2 : K) < 1 / (rowWeights pow wv).sum * domain := by
    rw [one_div_mul_eq_div, lt_div_iff₀ htot]; exact hfine
  have hpos : (0 : K) < ((draws (cumTable round domain (rowWeights pow wv)) i).length : K) := by
    have := (abs_le.mp hp).1
    linarith
  have hpos' : 0 < (draws (cumTable round domain (rowWeights pow wv)) i).length := by exact_mod_cast hpos
  obtain ⟨x, hx⟩ := List.exists_mem_of_length_pos hpos'
  exact C31_every_word_drawn _ (by rw [hlast]; exact hdom) i x hx s hs

/-! ## Cases -/

example : buildNull exArgsort "\x00" ⟨[], [], []⟩ ⟨false, ⟨none, 2, none, true⟩, [("a", 1), ("b", 5), ("c", 7)]⟩ =
    ⟨["c", "b", "\x00"], [("c", 0), ("b", 1), ("\x00", 2)], [7, 5, 1]⟩ := by decide +kernel

example : [(⟨false, ⟨none, 2, none, true⟩, [("a", 1), ("b", 5)]⟩ : Build String),
    ⟨true, ⟨none, 2, none, true⟩, [("a", 3), ("b", 1)]⟩].foldl (buildNull exArgsort "\x00") ⟨[], [], []⟩ =
    ⟨["b", "\x00", "a", "\x00"], [("b", 0), ("\x00", 3), ("a", 2)], [6, 1, 3, 1]⟩ := by decide +kernel

example : (prepareFreshNull exArgsort "\x00" ⟨none, 1, none, false⟩ [("a", 2), ("\x00", 4)] ⟨[], [], []⟩).i2k =
    ["a", "\x00", "\x00"] := by decide +kernel

end Verif.W2V
