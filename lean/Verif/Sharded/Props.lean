import Mathlib.Tactic.Common
import Verif.Sharded.Model
import Verif.Utils.ChunkProps

/-!
# C26: a ShardedCorpus returns the rows it was built from
-/

namespace Verif.Sharded
open Verif.Chunk

variable {R : Type}

/-- rows `a` to `b` (excluded) -/
def seg (rows : List R) (a b : Nat) : List R := (rows.take b).drop a

/-! ## Specification -/

/-- the answer a user expects of an operation on a corpus holding `rows` -/
def Answers (rows : List R) : Op → Option (List R) → Prop
  | .get i, r => r = if 0 ≤ i then (rows[i.toNat]?).map (fun x => [x]) else none
  | .many is, r => r = if ∀ i ∈ is, 0 ≤ i ∧ i < rows.length then some (is.filterMap (fun i => rows[i.toNat]?)) else none
  | .iter, r => r = some rows
  | .slice a b, r =>
    (0 ≤ a → a ≤ b → b ≤ rows.length → a < rows.length → r = some (seg rows a.toNat b.toNat)) ∧
    (0 ≤ b → b < a → a < rows.length → r = none ∨ r = some []) ∧
    (a < 0 ∨ b < 0 ∨ (rows.length : Int) < b ∨ (rows.length : Int) ≤ a → r = none)
  | .resize n, r => r = if n = 0 then none else some []
  | _, r => r = some []

/-- histories in which the corpus is never reopened with metadata that do not describe the files:
`cur` is the shard size in use, `sav` the shard size when `save` was last called -/
def Allowed : Nat → Nat → List Op → Prop
  | _, _, [] => True
  | cur, sav, .resize n :: ops => Allowed (if n = 0 then cur else n) sav ops
  | cur, _, .save :: ops => Allowed cur cur ops
  | cur, sav, .load :: ops => cur = sav ∧ Allowed cur sav ops
  | cur, sav, .clone n :: ops => cur = sav ∧ n = cur ∧ Allowed cur sav ops
  | cur, sav, _ :: ops => Allowed cur sav ops

/-! ## Invariant -/

structure Inv (rows : List R) (s : SC R) : Prop where
  pos : 0 < s.shardsize
  docs : s.nDocs = rows.length
  files : ∀ k, s.files[k]? =
    if k * s.shardsize < rows.length then some (seg rows (k * s.shardsize) (k * s.shardsize + s.shardsize)) else none
  offs : ∀ k, s.offsets[k]? =
    if k * s.shardsize < rows.length + s.shardsize then some (min (k * s.shardsize) rows.length) else none
  lo : rows.length ≤ s.nShards * s.shardsize
  hi : s.nShards * s.shardsize < rows.length + s.shardsize
  cur : ∀ k sh o, s.cur = some (k, sh, o) → s.files[k]? = some sh ∧ s.offsets[k]? = some o

/-- the object with shard `k` cached -/
def at' (rows : List R) (k : Nat) (s : SC R) : SC R :=
  { s with cur := some (k, seg rows (k * s.shardsize) (k * s.shardsize + s.shardsize), k * s.shardsize) }

theorem inv_at {rows : List R} {s : SC R} (h : Inv rows s) {k : Nat} (hk : k * s.shardsize < rows.length) :
    Inv rows (at' rows k s) := by
  refine ⟨h.pos, h.docs, h.files, h.offs, h.lo, h.hi, ?_⟩
  intro k' sh o hc
  simp only [at', Option.some.injEq, Prod.mk.injEq] at hc
  obtain ⟨rfl, rfl, rfl⟩ := hc
  refine ⟨?_, ?_⟩
  · show s.files[k]? = _
    rw [h.files, if_pos hk]
  · show s.offsets[k]? = _
    rw [h.offs, if_pos (by omega), Nat.min_eq_left (by omega)]

theorem loadShard_ok {rows : List R} {s : SC R} (h : Inv rows s) {k : Nat}
    (hk : k * s.shardsize < rows.length) : loadShard k s = (some (), at' rows k s) := by
  have hf := h.files k
  have ho := h.offs k
  rw [if_pos hk] at hf
  rw [if_pos (by omega), Nat.min_eq_left (by omega)] at ho
  unfold loadShard
  split
  · rename_i hc
    match hcur : s.cur, hc with
    | some (k', sh, o), hc =>
      simp only [Option.map_some, Option.some.injEq] at hc
      subst hc
      obtain ⟨h1, h2⟩ := h.cur _ _ _ hcur
      rw [h1] at hf
      rw [h2] at ho
      simp only [Option.some.injEq] at hf ho
      subst hf
      subst ho
      simp only [at', ← hcur]
  · rw [hf, ho]
    rfl

theorem shardByOffset_eq {rows : List R} {s : SC R} (h : Inv rows s) (i : Int) :
    shardByOffset s i = if 0 ≤ i ∧ i < rows.length then some (i.toNat / s.shardsize) else none := by
  unfold shardByOffset
  rw [h.docs]
  split_ifs <;> first | rfl | omega

theorem div_bounds {i sz : Nat} (h : 0 < sz) : i / sz * sz ≤ i ∧ i < i / sz * sz + sz := by
  have h1 := Nat.div_mul_le_self i sz
  have h2 := Nat.lt_div_mul_add (a := i) h
  omega

theorem eq_div {i sz k : Nat} (h : 0 < sz) (h1 : k * sz ≤ i) (h2 : i < (k + 1) * sz) : i / sz = k := by
  rw [Nat.div_eq_iff h]
  rw [Nat.add_mul] at h2
  omega

theorem loadFor_ok {rows : List R} {s : SC R} (h : Inv rows s) {i : Int} (h0 : 0 ≤ i) (h1 : i < rows.length) :
    loadFor i s = (some (), at' rows (i.toNat / s.shardsize) s) := by
  unfold loadFor
  rw [shardByOffset_eq h, if_pos ⟨h0, h1⟩]
  have := (div_bounds (i := i.toNat) h.pos).1
  exact loadShard_ok h (by omega)

theorem loadFor_bad {rows : List R} {s : SC R} (h : Inv rows s) {i : Int} (hi : ¬ (0 ≤ i ∧ i < rows.length)) :
    loadFor i s = (none, s) := by
  unfold loadFor
  rw [shardByOffset_eq h, if_neg hi]

theorem ensure_ok {rows : List R} {s : SC R} (h : Inv rows s) {i : Int} (h0 : 0 ≤ i) (h1 : i < rows.length) :
    ensureShard i s = (some (), at' rows (i.toNat / s.shardsize) s) := by
  unfold ensureShard
  match hcur : s.cur with
  | none => exact loadFor_ok h h0 h1
  | some (n, sh, o) =>
    obtain ⟨hf, ho⟩ := h.cur _ _ _ hcur
    rw [h.files] at hf
    rw [h.offs] at ho
    split at hf
    case isFalse => simp at hf
    rename_i hn
    rw [if_pos (by omega), Nat.min_eq_left (by omega)] at ho
    simp only [Option.some.injEq] at ho hf
    have hmul1 : (n + 1) * s.shardsize = n * s.shardsize + s.shardsize := by rw [Nat.add_mul, Nat.one_mul]
    have hmul2 : (n + 2) * s.shardsize = n * s.shardsize + s.shardsize + s.shardsize := by
      rw [Nat.add_mul]; omega
    have ho1 := h.offs (n + 1)
    rw [if_pos (by omega)] at ho1
    dsimp only
    unfold inCurrent
    rw [ho1]
    have hns : n ≠ s.nShards := by
      rintro rfl
      have := h.lo
      omega
    by_cases hc : (o : Int) ≤ i ∧ i < (min ((n + 1) * s.shardsize) rows.length : Nat)
    · rw [if_pos hc.1]
      simp only [Option.map_some, hc.2, decide_true]
      have hd : i.toNat / s.shardsize = n := eq_div h.pos (by omega) (by omega)
      rw [hd]
      simp only [at']
      rw [hf, ho, ← hcur]
    · have : (if (o : Int) ≤ i then Option.map (fun o : Nat => decide (i < o)) (some (min ((n + 1) * s.shardsize) rows.length))
          else some false) = some false := by
        split
        · rename_i hle
          simp only [Option.map_some, Option.some.injEq, decide_eq_false_iff_not]
          intro hlt; exact hc ⟨hle, hlt⟩
        · rfl
      rw [this]
      dsimp only
      unfold inNext
      rw [if_neg hns, ho1]
      dsimp only
      by_cases hle : ((min ((n + 1) * s.shardsize) rows.length : Nat) : Int) ≤ i
      · rw [if_pos hle]
        have ho2 := h.offs (n + 2)
        rw [if_pos (by omega)] at ho2
        rw [ho2]
        simp only [Option.map_some]
        by_cases hlt : i < ((min ((n + 2) * s.shardsize) rows.length : Nat) : Int)
        · simp only [hlt, decide_true]
          have hd : i.toNat / s.shardsize = n + 1 := eq_div h.pos (by omega) (by
            show i.toNat < (n + 2) * _
            omega)
          rw [hd]
          exact loadShard_ok h (by omega)
        · simp only [hlt, decide_false]
          exact loadFor_ok h h0 h1
      · rw [if_neg hle]
        exact loadFor_ok h h0 h1

theorem ensure_bad {rows : List R} {s : SC R} (h : Inv rows s) {i : Int} (hi : ¬ (0 ≤ i ∧ i < rows.length)) :
    ensureShard i s = (none, s) := by
  unfold ensureShard
  match hcur : s.cur with
  | none => exact loadFor_bad h hi
  | some (n, sh, o) =>
    obtain ⟨hf, ho⟩ := h.cur _ _ _ hcur
    rw [h.files] at hf
    split at hf
    case isFalse => simp at hf
    rename_i hn
    have hmul1 : (n + 1) * s.shardsize = n * s.shardsize + s.shardsize := by rw [Nat.add_mul, Nat.one_mul]
    have ho1 := h.offs (n + 1)
    rw [if_pos (by omega)] at ho1
    dsimp only
    unfold inCurrent
    rw [ho1]
    have : (if (o : Int) ≤ i then Option.map (fun o : Nat => decide (i < o)) (some (min ((n + 1) * s.shardsize) rows.length))
        else some false) = some false := by
      split
      · rename_i hle
        simp only [Option.map_some, Option.some.injEq, decide_eq_false_iff_not]
        omega
      · rfl
    rw [this]
    dsimp only
    unfold inNext
    have hns : n ≠ s.nShards := by
      rintro rfl
      have := h.lo
      omega
    rw [if_neg hns, ho1]
    dsimp only
    split
    · rename_i heq
      rfl
    · rename_i heq
      exfalso
      split at heq
      · have ho2 := h.offs (n + 2)
        rw [ho2] at heq
        split at heq
        · simp only [Option.map_some, Option.some.injEq, decide_eq_true_eq] at heq
          omega
        · simp at heq
      · simp at heq
    · exact loadFor_bad h hi

theorem seg_getElem? (rows : List R) (a b i : Nat) :
    (seg rows a b)[i]? = if a + i < b then rows[a + i]? else none := by
  unfold seg
  rw [List.getElem?_drop, List.getElem?_take]

theorem get_ok {rows : List R} {s : SC R} (h : Inv rows s) {i : Int} (h0 : 0 ≤ i) (h1 : i < rows.length) :
    getByOffset i s = (rows[i.toNat]?, at' rows (i.toNat / s.shardsize) s) := by
  unfold getByOffset
  rw [ensure_ok h h0 h1]
  simp only [andThen, at']
  congr 1
  have hd := div_bounds (i := i.toNat) h.pos
  unfold pyIndex
  rw [if_pos (by omega), seg_getElem?, if_pos (by omega)]
  congr 1
  omega

theorem get_bad {rows : List R} {s : SC R} (h : Inv rows s) {i : Int} (hi : ¬ (0 ≤ i ∧ i < rows.length)) :
    getByOffset i s = (none, s) := by
  unfold getByOffset
  rw [ensure_bad h hi]
  rfl

/-- `t` is `s` with another shard cached -/
def Same (s t : SC R) : Prop := ∃ c, t = { s with cur := c }

theorem Same.refl (s : SC R) : Same s s := ⟨s.cur, rfl⟩

theorem Same.trans {s t u : SC R} (h1 : Same s t) (h2 : Same t u) : Same s u := by
  obtain ⟨c, rfl⟩ := h1
  obtain ⟨d, rfl⟩ := h2
  exact ⟨d, rfl⟩

theorem same_at (rows : List R) (k : Nat) (s : SC R) : Same s (at' rows k s) := ⟨_, rfl⟩

theorem getMany_ok {rows : List R} (is : List Int) : ∀ {s : SC R}, Inv rows s →
    (getMany is s).1 = (if ∀ i ∈ is, 0 ≤ i ∧ i < rows.length then some (is.filterMap (fun i => rows[i.toNat]?)) else none)
    ∧ Inv rows (getMany is s).2 ∧ Same s (getMany is s).2 := by
  induction is with
  | nil => intro s h; simp [getMany, h, Same.refl]
  | cons i is ih =>
    intro s h
    unfold getMany
    by_cases hi : 0 ≤ i ∧ i < rows.length
    · rw [get_ok h hi.1 hi.2]
      have hlt : i.toNat < rows.length := by omega
      rw [List.getElem?_eq_getElem hlt]
      have hd := (div_bounds (i := i.toNat) h.pos).1
      obtain ⟨e1, e2, e3⟩ := ih (inv_at h (k := i.toNat / s.shardsize) (by omega))
      simp only [andThen]
      revert e1 e2 e3
      generalize getMany is (at' rows (i.toNat / s.shardsize) s) = g
      obtain ⟨g1, g2⟩ := g
      intro e1 e2 e3
      dsimp only at e1 e2 e3
      subst e1
      by_cases hall : ∀ j ∈ is, 0 ≤ j ∧ j < rows.length
      · rw [if_pos hall, if_pos (by simpa [hi] using hall)]
        exact ⟨by simp [List.getElem?_eq_getElem hlt], e2, (same_at rows _ s).trans e3⟩
      · rw [if_neg hall, if_neg (by simp only [List.forall_mem_cons]; tauto)]
        exact ⟨rfl, e2, (same_at rows _ s).trans e3⟩
    · rw [get_bad h hi, if_neg (by simp only [List.forall_mem_cons]; tauto)]
      exact ⟨rfl, h, Same.refl s⟩

/-! ## Slices -/

theorem seg_length (rows : List R) {a b : Nat} (hb : b ≤ rows.length) : (seg rows a b).length = b - a := by
  simp [seg, Nat.min_eq_left hb]

theorem seg_append (rows : List R) {a b c : Nat} (h1 : a ≤ b) (h2 : b ≤ c) (hc : b ≤ rows.length) :
    seg rows a b ++ seg rows b c = seg rows a c := by
  apply List.ext_getElem?
  intro i
  rw [List.getElem?_append, seg_length rows hc, seg_getElem?, seg_getElem?, seg_getElem?]
  split
  · rw [if_pos (by omega), if_pos (by omega)]
  · rw [show b + (i - (b - a)) = a + i by omega]

theorem bound_nat (n i : Nat) : bound n (i : Int) = min i n := by simp [bound]

theorem pySlice_seg (rows : List R) {a b c d : Nat} (h : d ≤ b - a) (hcd : c ≤ d) :
    pySlice (seg rows a b) c d = seg rows (a + c) (a + d) := by
  apply List.ext_getElem?
  intro i
  unfold pySlice
  rw [bound_nat, bound_nat]
  rw [List.getElem?_drop, List.getElem?_take, seg_getElem?, seg_getElem?]
  have hl : (seg rows a b).length = min b rows.length - a := by simp [seg]
  rw [hl]
  by_cases hlt : a + c + i < rows.length
  · rw [show a + (min c (min b rows.length - a) + i) = a + c + i by omega]
    by_cases h2 : a + c + i < a + d
    · rw [if_pos (by omega), if_pos (by omega), if_pos h2]
    · rw [if_neg h2, if_neg (by omega)]
  · have : rows[a + c + i]? = none := List.getElem?_eq_none_iff.mpr (by omega)
    rw [this, ite_self]
    split
    · rw [if_pos (by omega)]
      exact List.getElem?_eq_none_iff.mpr (by omega)
    · rfl

/-- the result being built when the rows `d` of `T` are in place -/
def acc (sparse : Bool) (zero : R) (d : List R) (T : Nat) : List R :=
  if sparse then d else d ++ List.replicate (T - d.length) zero

theorem addToSlice_ok (sparse : Bool) (zero : R) {shard d part : List R} {T m c : Nat} (hm : d.length + m ≤ T)
    (hp : pySlice shard c (c + m : Nat) = part) (hpl : part.length = m) :
    addToSlice sparse shard (acc sparse zero d T) d.length (d.length + m : Nat) c (c + m : Nat) =
      some (acc sparse zero (d ++ part) T) := by
  unfold addToSlice
  rw [if_neg (by omega)]
  simp only [hp]
  cases sparse with
  | true => simp [acc]
  | false =>
    have hl : (acc false zero d T).length = T := by simp [acc]; omega
    simp only [Bool.false_eq_true, if_false, hl, bound_nat]
    rw [if_neg (by omega), Nat.min_eq_left (by omega)]
    simp only [acc, Bool.false_eq_true, if_false, Option.some.injEq]
    rw [List.take_left', List.drop_append]
    · simp only [List.drop_replicate, List.length_append]
      rw [List.drop_eq_nil_of_le (by omega)]
      simp only [List.nil_append, List.append_assoc]
      congr 3
      omega
    · rfl

theorem middle_ok (sparse : Bool) (zero : R) {rows : List R} {a T : Nat} (j : Nat) : ∀ {s : SC R} (n : Nat),
    Inv rows s → a ≤ n * s.shardsize → (n + j) * s.shardsize ≤ rows.length → (n + j) * s.shardsize - a ≤ T →
    ∃ t, middle sparse j n (acc sparse zero (seg rows a (n * s.shardsize)) T) (n * s.shardsize - a : Nat) s =
      (some (acc sparse zero (seg rows a ((n + j) * s.shardsize)) T, (((n + j) * s.shardsize - a : Nat) : Int)), t)
      ∧ Inv rows t ∧ Same s t := by
  induction j with
  | zero => intro s n h h1 h2 h3; exact ⟨s, rfl, h, Same.refl s⟩
  | succ j ih =>
    intro s n h h1 h2 h3
    have hp := h.pos
    have e1 : (n + (j + 1)) * s.shardsize = n * s.shardsize + j * s.shardsize + s.shardsize := by
      rw [Nat.add_mul, Nat.add_mul]; omega
    have e2 : (n + 1) * s.shardsize = n * s.shardsize + s.shardsize := by rw [Nat.add_mul]; omega
    unfold middle
    rw [loadShard_ok h (by omega)]
    simp only [andThen, at']
    have hlen : (seg rows a (n * s.shardsize)).length = n * s.shardsize - a := seg_length rows (by omega)
    have key := addToSlice_ok sparse zero (T := T) (d := seg rows a (n * s.shardsize)) (m := s.shardsize) (c := 0)
      (shard := seg rows (n * s.shardsize) (n * s.shardsize + s.shardsize))
      (part := seg rows (n * s.shardsize) (n * s.shardsize + s.shardsize))
      (by omega) (by rw [pySlice_seg rows (by omega) (by omega)]; simp)
      (by rw [seg_length rows (by omega)]; omega)
    rw [hlen, seg_append rows h1 (by omega) (by omega)] at key
    simp only [Nat.zero_add, Int.natCast_add, show ((0 : Nat) : Int) = 0 from rfl] at key
    rw [key]
    dsimp only
    obtain ⟨t, k1, k2, k3⟩ := ih (n + 1) (inv_at h (k := n) (by omega)) (by show a ≤ (n + 1) * s.shardsize; omega)
      (by show (n + 1 + j) * s.shardsize ≤ _; rw [show n + 1 + j = n + (j + 1) by omega]; omega)
      (by show (n + 1 + j) * s.shardsize - a ≤ _; rw [show n + 1 + j = n + (j + 1) by omega]; omega)
    refine ⟨t, ?_, k2, (same_at rows n s).trans k3⟩
    rw [show n + (j + 1) = n + 1 + j by omega]
    have e3 : seg rows a (n * s.shardsize + s.shardsize) = seg rows a ((n + 1) * s.shardsize) := by rw [e2]
    rw [e3, show ((n * s.shardsize - a : Nat) : Int) + s.shardsize = (((n + 1) * s.shardsize - a : Nat) : Int) by omega]
    exact k1

theorem acc_full (sparse : Bool) (zero : R) {d : List R} {T : Nat} (h : T = d.length) : acc sparse zero d T = d := by
  subst h; cases sparse <;> simp [acc]

theorem lastShard_ok {rows : List R} {s : SC R} (h : Inv rows s) {b : Nat} (hb : b ≤ rows.length) (hn : 0 < rows.length) :
    ∃ k, lastShard s b = some k ∧ k * s.shardsize < rows.length ∧ k * s.shardsize ≤ b ∧
      b ≤ k * s.shardsize + s.shardsize := by
  have hp := h.pos
  unfold lastShard
  rw [h.docs]
  split
  · rename_i he
    have hlo := h.lo
    have hhi := h.hi
    refine ⟨_, rfl, ?_⟩
    have : 1 ≤ s.nShards := by
      rcases Nat.eq_zero_or_pos s.nShards with h0 | h0
      · rw [h0] at hlo; omega
      · exact h0
    have e : s.nShards * s.shardsize = (s.nShards - 1) * s.shardsize + s.shardsize := by
      conv_lhs => rw [← Nat.sub_add_cancel this, Nat.add_mul, Nat.one_mul]
    omega
  · rename_i he
    rw [shardByOffset_eq h, if_pos (by omega)]
    refine ⟨_, rfl, ?_⟩
    have := div_bounds (i := b) hp
    simp only [Int.toNat_natCast]
    omega

theorem manyShards_ok (sparse : Bool) (zero : R) {rows : List R} {s : SC R} (h : Inv rows s) {a b k l : Nat}
    (hkl : k < l) (hk : k * s.shardsize ≤ a) (hka : a < k * s.shardsize + s.shardsize)
    (hl : l * s.shardsize < rows.length) (hlb : l * s.shardsize ≤ b) (hb : b ≤ l * s.shardsize + s.shardsize)
    (hbn : b ≤ rows.length) :
    ∃ t, manyShards sparse zero k l a b (at' rows k s) = (some (seg rows a b), t) ∧ Inv rows t ∧ Same s t := by
  have hp := h.pos
  have e2 : (k + 1) * s.shardsize = k * s.shardsize + s.shardsize := by rw [Nat.add_mul]; omega
  have hmono : (k + 1) * s.shardsize ≤ l * s.shardsize := Nat.mul_le_mul_right _ hkl
  have ho1 := h.offs (k + 1)
  rw [if_pos (by omega), Nat.min_eq_left (by omega)] at ho1
  unfold manyShards
  simp only [at']
  rw [ho1]
  dsimp only
  rw [if_neg (by omega)]
  have key := addToSlice_ok sparse zero (T := b - a) (d := []) (m := (k + 1) * s.shardsize - a) (c := a - k * s.shardsize)
      (shard := seg rows (k * s.shardsize) (k * s.shardsize + s.shardsize))
      (part := seg rows a ((k + 1) * s.shardsize))
      (by simp only [List.length_nil]; omega)
      (by rw [pySlice_seg rows (by omega) (by omega)]; congr 1 <;> omega)
      (by rw [seg_length rows (by omega)])
  have hacc : acc sparse zero [] (b - a) = if sparse = true then [] else List.replicate ((b : Int) - a).toNat zero := by
    have : ((b : Int) - a).toNat = b - a := by omega
    simp [acc]
  rw [hacc] at key
  simp only [List.length_nil, Nat.zero_add, List.nil_append] at key
  rw [show (((k + 1) * s.shardsize - a : Nat) : Int) = (((k + 1) * s.shardsize : Nat) : Int) - a by omega,
    show ((a - k * s.shardsize : Nat) : Int) = (a : Int) - (k * s.shardsize : Nat) by omega,
    show ((a - k * s.shardsize + ((k + 1) * s.shardsize - a) : Nat) : Int) =
      (((k + 1) * s.shardsize : Nat) : Int) - (k * s.shardsize : Nat) by omega] at key
  rw [show ((0 : Nat) : Int) = 0 from rfl] at key
  rw [key]
  dsimp only
  have hi := inv_at h (k := k) (by omega)
  obtain ⟨t, k1, k2, k3⟩ := middle_ok sparse zero (a := a) (T := b - a) (l - (k + 1)) (k + 1) hi
    (by show a ≤ (k + 1) * s.shardsize; omega)
    (by show (k + 1 + (l - (k + 1))) * s.shardsize ≤ _; rw [show k + 1 + (l - (k + 1)) = l by omega]; omega)
    (by show (k + 1 + (l - (k + 1))) * s.shardsize - a ≤ _; rw [show k + 1 + (l - (k + 1)) = l by omega]; omega)
  have hz : (at' rows k s).shardsize = s.shardsize := rfl
  rw [show k + 1 + (l - (k + 1)) = l by omega, hz,
    show (((k + 1) * s.shardsize - a : Nat) : Int) = (((k + 1) * s.shardsize : Nat) : Int) - a by omega] at k1
  simp only [at'] at k1
  rw [k1]
  simp only [andThen]
  obtain ⟨c, hc⟩ := k3
  have hz' : t.shardsize = s.shardsize := by rw [hc]; rfl
  rw [loadShard_ok k2 (by rw [hz']; omega)]
  simp only [at', hz']
  have key2 := addToSlice_ok sparse zero (T := b - a) (d := seg rows a (l * s.shardsize)) (m := b - l * s.shardsize) (c := 0)
      (shard := seg rows (l * s.shardsize) (l * s.shardsize + s.shardsize))
      (part := seg rows (l * s.shardsize) b)
      (by rw [seg_length rows (by omega)]; omega)
      (by rw [pySlice_seg rows (by omega) (by omega)]; congr 1; omega)
      (by rw [seg_length rows (by omega)])
  rw [seg_append rows (by omega) (by omega) (by omega), seg_length rows (by omega),
    acc_full (d := seg rows a b) sparse zero (by rw [seg_length rows hbn])] at key2
  refine ⟨at' rows l t, ?_, inv_at k2 (by rw [hz']; omega), (same_at rows k s).trans (Same.trans ⟨c, hc⟩ (same_at rows l t))⟩
  simp only [Nat.zero_add] at key2
  rw [show ((l * s.shardsize - a + (b - l * s.shardsize) : Nat) : Int) =
      ((l * s.shardsize - a : Nat) : Int) + ((b : Int) - (l * s.shardsize : Nat)) by omega,
    show ((b - l * s.shardsize : Nat) : Int) = (b : Int) - (l * s.shardsize : Nat) by omega] at key2
  simp only [at', hz']
  rw [Prod.mk.injEq]
  exact ⟨key2, rfl⟩

theorem slice_ok (sparse : Bool) (zero : R) {rows : List R} {s : SC R} (h : Inv rows s) {a b : Nat}
    (hab : a ≤ b) (hb : b ≤ rows.length) (ha : a < rows.length) :
    ∃ t, getSlice sparse zero a b s = (some (seg rows a b), t) ∧ Inv rows t ∧ Same s t := by
  have hp := h.pos
  have hd := div_bounds (i := a) hp
  obtain ⟨l, l1, l2, l3, l4⟩ := lastShard_ok h hb (by omega)
  unfold getSlice
  rw [if_neg (by rw [h.docs]; omega), shardByOffset_eq h, if_pos (by omega), l1]
  simp only [Int.toNat_natCast]
  rw [loadShard_ok h (by omega)]
  simp only [andThen]
  split
  · rename_i he
    subst he
    refine ⟨at' rows (a / s.shardsize) s, ?_, inv_at h (by omega), same_at rows _ s⟩
    simp only [at']
    rw [show (a : Int) - (a / s.shardsize * s.shardsize : Nat) = ((a - a / s.shardsize * s.shardsize : Nat) : Int) by omega,
      show (b : Int) - (a / s.shardsize * s.shardsize : Nat) = ((b - a / s.shardsize * s.shardsize : Nat) : Int) by omega,
      pySlice_seg rows (by omega) (by omega)]
    congr 3 <;> omega
  · rename_i hne
    refine manyShards_ok sparse zero h ?_ hd.1 hd.2 l2 l3 l4 hb
    by_contra hlt
    have hlt' : l + 1 ≤ a / s.shardsize := by omega
    have := Nat.mul_le_mul_right s.shardsize hlt'
    rw [Nat.add_mul] at this
    have : b = a := by omega
    subst this
    by_cases hbn : (b : Int) = rows.length
    · omega
    · unfold lastShard at l1
      rw [h.docs, if_neg hbn, shardByOffset_eq h, if_pos (by omega)] at l1
      simp only [Int.toNat_natCast, Option.some.injEq] at l1
      exact hne l1

theorem slice_bad (sparse : Bool) (zero : R) {rows : List R} {s : SC R} (h : Inv rows s) {a b : Int}
    (hab : a < 0 ∨ b < 0 ∨ (rows.length : Int) < b ∨ (rows.length : Int) ≤ a) :
    getSlice sparse zero a b s = (none, s) := by
  unfold getSlice
  rw [h.docs]
  split
  · rfl
  · rename_i hb
    rw [shardByOffset_eq h]
    by_cases ha : 0 ≤ a ∧ a < rows.length
    · have : lastShard s b = none := by
        unfold lastShard
        rw [h.docs, if_neg (by omega), shardByOffset_eq h, if_neg (by omega)]
      rw [this]
      split
      · rename_i h1 h2; simp at h2
      · rfl
    · rw [if_neg ha]

theorem slice_rev (sparse : Bool) (zero : R) {rows : List R} {s : SC R} (h : Inv rows s) {a b : Nat}
    (hab : b < a) (ha : a < rows.length) :
    ∃ r t, getSlice sparse zero a b s = (r, t) ∧ (r = none ∨ r = some []) ∧ Inv rows t ∧ Same s t := by
  have hp := h.pos
  have hd := div_bounds (i := a) hp
  obtain ⟨l, l1, l2, l3, l4⟩ := lastShard_ok h (b := b) (by omega) (by omega)
  unfold getSlice
  rw [if_neg (by rw [h.docs]; omega), shardByOffset_eq h, if_pos (by omega), l1]
  simp only [Int.toNat_natCast]
  rw [loadShard_ok h (by omega)]
  simp only [andThen]
  split
  · rename_i he
    subst he
    refine ⟨_, at' rows (a / s.shardsize) s, rfl, .inr ?_, inv_at h (by omega), same_at rows _ s⟩
    rw [show (a : Int) - (a / s.shardsize * s.shardsize : Nat) = ((a - a / s.shardsize * s.shardsize : Nat) : Int) by omega,
      show (b : Int) - (a / s.shardsize * s.shardsize : Nat) = ((b - a / s.shardsize * s.shardsize : Nat) : Int) by omega]
    unfold pySlice
    rw [bound_nat, bound_nat, List.drop_eq_nil_of_le]
    simp only [List.length_take]
    omega
  · refine ⟨_, at' rows (a / s.shardsize) s, ?_, .inl rfl, inv_at h (by omega), same_at rows _ s⟩
    unfold manyShards
    simp only [at']
    split
    · rfl
    · rw [if_pos (by omega)]

/-! ## Resizing -/

theorem resizeLoop_ok (sparse : Bool) (zero : R) {rows : List R} {size : Nat} (hz : 0 < size) (k : Nat) :
    ∀ {s : SC R} (i : Nat), Inv rows s → (k ≠ 0 → size * (i + k) < rows.length + size) →
    ∃ t, resizeLoop sparse zero size k i s =
      (some ((List.range' i k).map (fun j => seg rows (j * size) (min (j * size + size) rows.length)),
        (List.range' i k).map (fun j => min (j * size + size) rows.length)), t) ∧ Inv rows t ∧ Same s t := by
  induction k with
  | zero => intro s i h _; exact ⟨s, rfl, h, Same.refl s⟩
  | succ k ih =>
    intro s i h hk
    have hk := hk (by omega)
    have e : size * (i + (k + 1)) = i * size + size * k + size := by
      rw [Nat.mul_add, Nat.mul_add, Nat.mul_comm size i]; omega
    have e1 : size * i = i * size := Nat.mul_comm _ _
    have e2 : size * (i + 1 + k) = size * (i + (k + 1)) := by congr 1; omega
    unfold resizeLoop
    obtain ⟨t, t1, t2, t3⟩ := slice_ok sparse zero h (a := i * size) (b := min (i * size + size) rows.length)
      (by omega) (by omega) (by omega)
    simp only [h.docs, e1, t1, andThen]
    obtain ⟨u, u1, u2, u3⟩ := ih (i + 1) t2 (by intro _; omega)
    rw [u1]
    exact ⟨u, by simp [List.range'_succ], u2, t3.trans u3⟩

theorem seg_min (rows : List R) (a b : Nat) : seg rows a (min b rows.length) = seg rows a b := by
  unfold seg
  congr 1
  rcases Nat.le_total b rows.length with h | h
  · rw [Nat.min_eq_left h]
  · rw [Nat.min_eq_right h, List.take_of_length_le (Nat.le_refl _), List.take_of_length_le h]

theorem ceil_facts {n size : Nat} (hz : 0 < size) :
    n ≤ (n / size + if n % size ≠ 0 then 1 else 0) * size ∧
    (n / size + if n % size ≠ 0 then 1 else 0) * size < n + size := by
  have h1 := Nat.div_add_mod n size
  have h2 := Nat.mod_lt n hz
  rw [Nat.mul_comm] at h1
  split
  · rw [Nat.add_mul]; omega
  · rename_i h
    simp only [ne_eq, not_not] at h
    rw [Nat.add_zero]; omega

/-- a state whose shards are the ones `init_shards` and `resize_shards` produce -/
theorem inv_of {rows : List R} {size N : Nat} {s : SC R} (hz : 0 < size) (hN1 : rows.length ≤ N * size)
    (hN2 : N * size < rows.length + size) (h1 : s.shardsize = size) (h2 : s.nDocs = rows.length) (h3 : s.nShards = N)
    (h4 : s.files = (List.range' 0 N).map (fun j => seg rows (j * size) (j * size + size)))
    (h5 : s.offsets = 0 :: (List.range' 0 N).map (fun j => min (j * size + size) rows.length))
    (h6 : s.cur = none) : Inv rows s := by
  have mono : ∀ k, k < N ↔ k * size < rows.length := by
    intro k
    constructor
    · intro hk
      have := Nat.mul_le_mul_right size (show k + 1 ≤ N from hk)
      rw [Nat.add_mul] at this
      omega
    · intro hk
      by_contra hge
      have := Nat.mul_le_mul_right size (Nat.le_of_not_lt hge)
      omega
  refine ⟨by omega, h2, ?_, ?_, by rw [h3, h1]; exact hN1, by rw [h3, h1]; exact hN2, by simp [h6]⟩
  · intro k
    rw [h4, h1]
    simp only [List.getElem?_map]
    by_cases hk : k < N
    · rw [List.getElem?_range' hk, if_pos ((mono k).mp hk)]; simp
    · rw [List.getElem?_eq_none_iff.mpr (by simp; omega), if_neg (fun h => hk ((mono k).mpr h))]; rfl
  · intro k
    rw [h5, h1]
    cases k with
    | zero => simp; omega
    | succ k =>
      rw [List.getElem?_cons_succ]
      simp only [List.getElem?_map]
      have e : (k + 1) * size = k * size + size := by rw [Nat.add_mul]; omega
      by_cases hk : k < N
      · have := (mono k).mp hk
        rw [List.getElem?_range' hk, if_pos (by omega), e]; simp
      · rw [List.getElem?_eq_none_iff.mpr (by simp; omega), if_neg (by rw [e]; intro h; exact hk ((mono k).mpr (by omega)))]; rfl

theorem resize_ok (sparse : Bool) (zero : R) {rows : List R} {s : SC R} (h : Inv rows s) {size : Nat} (hz : 0 < size) :
    ∃ t, resize sparse zero size s = (some (), t) ∧ Inv rows t ∧ t.shardsize = size ∧ t.saved = s.saved := by
  unfold resize
  rw [if_neg (by omega)]
  have hc := ceil_facts (n := s.nDocs) hz
  rw [h.docs] at hc
  obtain ⟨t, t1, t2, t3⟩ := resizeLoop_ok sparse zero hz (rows := rows)
    (s.nDocs / size + if s.nDocs % size ≠ 0 then 1 else 0) 0 h (by
      intro _; rw [h.docs, Nat.zero_add, Nat.mul_comm]; exact hc.2)
  simp only [t1, andThen]
  refine ⟨_, rfl, ?_, rfl, ?_⟩
  · refine inv_of (N := s.nDocs / size + if s.nDocs % size ≠ 0 then 1 else 0) hz (by rw [h.docs]; exact hc.1)
      (by rw [h.docs]; exact hc.2) rfl t2.docs rfl ?_ rfl rfl
    simp only [seg_min]
  · obtain ⟨c, rfl⟩ := t3; rfl

/-! ## Building -/

theorem foldl_saveShard (cs : List (List R)) : ∀ s : SC R,
    (cs.foldl saveShard s).files = s.files ++ cs ∧ (cs.foldl saveShard s).nDocs = s.nDocs + cs.flatten.length ∧
    (cs.foldl saveShard s).nShards = s.nShards + cs.length ∧ (cs.foldl saveShard s).shardsize = s.shardsize ∧
    (cs.foldl saveShard s).cur = s.cur := by
  induction cs with
  | nil => intro s; simp
  | cons c cs ih =>
    intro s
    obtain ⟨h1, h2, h3, h4, h5⟩ := ih (saveShard s c)
    rw [List.foldl_cons, h1, h2, h3, h4, h5]
    refine ⟨by simp [saveShard], ?_, ?_, rfl, rfl⟩
    · simp only [saveShard, List.flatten_cons, List.length_append]; omega
    · simp only [saveShard, List.length_cons]; omega

theorem chunks_seg {size : Nat} (hz : 0 < size) (rows : List R) :
    chunks size rows = (List.range' 0 (chunks size rows).length).map (fun j => seg rows (j * size) (j * size + size)) := by
  induction rows using chunk_ind hz with
  | h0 => simp [chunks_nil]
  | h1 l hl ih =>
    rw [chunks_cons hz hl, List.length_cons, List.range'_succ, List.map_cons]
    congr 1
    · simp [seg]
    · conv_lhs => rw [ih]
      rw [List.range'_eq_map_range, List.range'_eq_map_range, List.map_map, List.map_map]
      apply List.map_congr_left
      intro j _
      simp only [Function.comp_apply, Nat.zero_add]
      apply List.ext_getElem?
      intro i
      rw [seg_getElem?, seg_getElem?, List.getElem?_drop]
      have e : (1 + j) * size = size + j * size := by rw [Nat.add_mul, Nat.one_mul]
      rw [e, show size + (j * size + i) = size + j * size + i by omega]
      exact if_congr (by omega) rfl rfl

theorem foldl_offsets {rows : List R} {size : Nat} (k : Nat) : ∀ (i : Nat) (s : SC R),
    s.offsets.getLastD 0 = i * size → (k ≠ 0 → (i + k) * size < rows.length + size) →
    (((List.range' i k).map (fun j => seg rows (j * size) (j * size + size))).foldl saveShard s).offsets =
      s.offsets ++ (List.range' i k).map (fun j => min (j * size + size) rows.length) := by
  induction k with
  | zero => intro i s _ _; simp
  | succ k ih =>
    intro i s h1 h2
    have h2 := h2 (by omega)
    have e : (i + (k + 1)) * size = i * size + k * size + size := by rw [Nat.add_mul, Nat.add_mul]; omega
    have e1 : (i + 1) * size = i * size + size := by rw [Nat.add_mul]; omega
    have e2 : (i + 1 + k) * size = (i + (k + 1)) * size := by congr 1; omega
    have hl : i * size + (seg rows (i * size) (i * size + size)).length = min (i * size + size) rows.length := by
      rw [← seg_min, seg_length rows (by omega)]; omega
    simp only [List.range'_succ, List.map_cons, List.foldl_cons]
    by_cases hk : k = 0
    · subst hk
      simp only [saveShard, h1, hl, List.range'_zero, List.map_nil, List.foldl_nil]
    · have hk1 : size ≤ k * size := Nat.le_mul_of_pos_left _ (by omega)
      rw [ih (i + 1)]
      · simp only [saveShard, h1, hl, List.append_assoc, List.singleton_append]
      · simp only [saveShard, List.getLastD_concat, h1, hl]
        omega
      · intro _; omega

theorem build_inv {size : Nat} (hz : 0 < size) (rows : List R) : Inv rows (build size rows) := by
  have hc : (chunks size rows).length = rows.length / size + if rows.length % size ≠ 0 then 1 else 0 := by
    rw [C15_count hz]
    have h1 := ceil_facts (n := rows.length) hz
    rw [Nat.div_eq_iff hz]
    omega
  have hf := ceil_facts (n := rows.length) hz
  rw [← hc] at hf
  obtain ⟨h1, h2, h3, h4, h5⟩ := foldl_saveShard (chunks size rows) (⟨[], ⟨0, 0, [], 0⟩, 0, 0, [0], size, none⟩ : SC R)
  refine inv_of (N := (chunks size rows).length) hz hf.1 hf.2 h4 ?_ ?_ ?_ ?_ h5
  · show SC.nDocs (List.foldl saveShard _ _) = _
    rw [h2, C15_concat hz]; simp
  · show SC.nShards (List.foldl saveShard _ _) = _
    rw [h3]; simp
  · show SC.files (List.foldl saveShard _ _) = _
    rw [h1, List.nil_append]; exact chunks_seg hz rows
  · show SC.offsets (List.foldl saveShard _ _) = _
    conv_lhs => rw [chunks_seg hz rows]
    rw [foldl_offsets]
    · rfl
    · simp
    · intro _; rw [Nat.zero_add]; exact hf.2

/-! ## Histories -/

/-- the metadata of a corpus -/
def meta' (s : SC R) : Saved := ⟨s.nShards, s.nDocs, s.offsets, s.shardsize⟩

/-- the rows and the shard size determine the metadata -/
theorem meta_unique {rows : List R} {s t : SC R} (hs : Inv rows s) (ht : Inv rows t)
    (h : s.shardsize = t.shardsize) : meta' s = meta' t := by
  have e1 : s.nShards = t.nShards := by
    have a1 := hs.lo
    have a2 := hs.hi
    have a3 := ht.lo
    have a4 := ht.hi
    rw [h] at a1 a2
    rcases Nat.lt_trichotomy s.nShards t.nShards with hlt | heq | hgt
    · have := Nat.mul_le_mul_right t.shardsize (show s.nShards + 1 ≤ t.nShards from hlt)
      rw [Nat.add_mul] at this
      omega
    · exact heq
    · have := Nat.mul_le_mul_right t.shardsize (show t.nShards + 1 ≤ s.nShards from hgt)
      rw [Nat.add_mul] at this
      omega
  have e2 : s.offsets = t.offsets := by
    apply List.ext_getElem?
    intro k
    rw [hs.offs, ht.offs, h]
  simp only [meta', e1, e2, h, hs.docs, ht.docs]

/-- the saved metadata are those of the same rows in shards of size `sav` -/
def SavedOk (rows : List R) (sav : Nat) (s : SC R) : Prop :=
  ∃ s0 : SC R, Inv rows s0 ∧ s0.shardsize = sav ∧ s.saved = meta' s0

theorem inv_meta {rows : List R} {s t : SC R} (h : Inv rows s) (h1 : t.files = s.files) (h2 : t.nShards = s.nShards)
    (h3 : t.nDocs = s.nDocs) (h4 : t.offsets = s.offsets) (h5 : t.shardsize = s.shardsize)
    (h6 : t.cur = none ∨ t.cur = s.cur) : Inv rows t := by
  obtain ⟨a1, a2, a3, a4, a5, a6, a7⟩ := h
  refine ⟨h5 ▸ a1, h3 ▸ a2, ?_, ?_, ?_, ?_, ?_⟩
  · rw [h1, h5]; exact a3
  · rw [h4, h5]; exact a4
  · rw [h2, h5]; exact a5
  · rw [h2, h5]; exact a6
  · rcases h6 with h6 | h6
    · simp [h6]
    · rw [h6, h1, h4]; exact a7

theorem same_meta {s t : SC R} (h : Same s t) : t.shardsize = s.shardsize ∧ t.saved = s.saved ∧
    t.nShards = s.nShards ∧ t.nDocs = s.nDocs ∧ t.offsets = s.offsets := by
  obtain ⟨c, rfl⟩ := h
  exact ⟨rfl, rfl, rfl, rfl, rfl⟩

theorem all_rows (rows : List R) :
    ((List.range rows.length).map Int.ofNat).filterMap (fun i => rows[i.toNat]?) = rows := by
  rw [List.filterMap_map]
  have : ((fun i : Int => rows[i.toNat]?) ∘ Int.ofNat) = fun i : Nat => rows[i]? := by funext i; simp
  rw [this]
  have key : ∀ n, n ≤ rows.length → (List.range n).filterMap (fun i => rows[i]?) = rows.take n := by
    intro n
    induction n with
    | zero => intro _; rfl
    | succ n ih =>
      intro hn
      rw [List.range_succ, List.filterMap_append, ih (by omega), List.take_add_one]
      congr 1
  rw [key _ (Nat.le_refl _), List.take_length]

theorem history_inv (sparse : Bool) (zero : R) (rows : List R) (ops : List Op) : ∀ (s : SC R) (sav : Nat),
    Inv rows s → SavedOk rows sav s → Allowed s.shardsize sav ops →
    List.Forall₂ (Answers rows) ops (run sparse zero ops s) := by
  induction ops with
  | nil => intro s sav _ _ _; exact .nil
  | cons op ops ih =>
    intro s sav h hs ha
    unfold run
    cases op with
    | get i =>
      simp only [step]
      by_cases hi : 0 ≤ i ∧ i < rows.length
      · rw [get_ok h hi.1 hi.2, List.getElem?_eq_getElem (by omega)]
        have hd := (div_bounds (i := i.toNat) h.pos).1
        refine .cons ?_ (ih _ sav (inv_at h (by omega)) hs ha)
        simp only [Answers, andThen]
        rw [if_pos hi.1, List.getElem?_eq_getElem (by omega)]; rfl
      · rw [get_bad h hi]
        refine .cons ?_ (ih _ sav h hs ha)
        simp only [Answers, andThen]
        split
        · rw [List.getElem?_eq_none_iff.mpr (by omega)]; rfl
        · rfl
    | many is =>
      obtain ⟨h1, h2, h3⟩ := getMany_ok is h
      have hm := same_meta h3
      refine .cons h1 (ih _ sav h2 ?_ ?_)
      · simp only [step, SavedOk, hm]
        exact hs
      · simp only [step, hm]; exact ha
    | iter =>
      obtain ⟨h1, h2, h3⟩ := getMany_ok ((List.range s.nDocs).map Int.ofNat) h
      have hm := same_meta h3
      refine .cons ?_ (ih _ sav h2 ?_ ?_)
      · simp only [Answers, step]
        rw [h1, if_pos, h.docs, all_rows]
        simp [h.docs]
      · simp only [step, SavedOk, hm]
        exact hs
      · simp only [step, hm]; exact ha
    | slice a b =>
      have key : Answers rows (.slice a b) (getSlice sparse zero a b s).1 ∧ Inv rows (getSlice sparse zero a b s).2 ∧
          Same s (getSlice sparse zero a b s).2 := by
        by_cases hbad : a < 0 ∨ b < 0 ∨ (rows.length : Int) < b ∨ (rows.length : Int) ≤ a
        · rw [slice_bad sparse zero h hbad]
          refine ⟨⟨?_, ?_, fun _ => rfl⟩, h, Same.refl s⟩
          · intro _ _ _ _; omega
          · intro _ _ _; exact .inl rfl
        · obtain ⟨a, rfl⟩ := Int.eq_ofNat_of_zero_le (show 0 ≤ a by omega)
          obtain ⟨b, rfl⟩ := Int.eq_ofNat_of_zero_le (show 0 ≤ b by omega)
          by_cases hab : a ≤ b
          · obtain ⟨t, t1, t2, t3⟩ := slice_ok sparse zero h hab (by omega) (by omega)
            rw [t1]
            exact ⟨⟨fun _ _ _ _ => by simp, by omega, fun hx => absurd hx hbad⟩, t2, t3⟩
          · obtain ⟨r, t, t1, t2, t3, t4⟩ := slice_rev sparse zero h (a := a) (b := b) (by omega) (by omega)
            rw [t1]
            exact ⟨⟨by omega, fun _ _ _ => t2, fun hx => absurd hx hbad⟩, t3, t4⟩
      obtain ⟨h1, h2, h3⟩ := key
      have hm := same_meta h3
      refine .cons h1 (ih _ sav h2 ?_ ?_)
      · simp only [step, SavedOk, hm]
        exact hs
      · simp only [step, hm]; exact ha
    | resize n =>
      by_cases hn : n = 0
      · subst hn
        simp only [step, resize, if_pos, andThen]
        refine .cons (by simp [Answers]) (ih _ sav h hs ?_)
        simpa [Allowed] using ha
      · obtain ⟨t, t1, t2, t3, t4⟩ := resize_ok sparse zero h (size := n) (by omega)
        simp only [step, t1, andThen]
        simp only [Allowed, if_neg hn] at ha
        refine .cons (by simp [Answers, hn]) (ih _ sav t2 ?_ (by rw [t3]; exact ha))
        simp only [SavedOk, t4]
        exact hs
    | reset =>
      refine .cons rfl (ih _ sav (inv_meta h rfl rfl rfl rfl rfl (.inl rfl)) ?_ ?_)
      · exact hs
      · exact ha
    | save =>
      refine .cons rfl (ih _ s.shardsize (inv_meta h rfl rfl rfl rfl rfl (.inr rfl)) ?_ ?_)
      · exact ⟨s, h, rfl, rfl⟩
      · exact ha
    | load =>
      obtain ⟨s0, h0, hz0, hsv⟩ := hs
      obtain ⟨ha1, ha2⟩ := ha
      have hmu := meta_unique h0 h (hz0.trans ha1.symm)
      have hsv' := hsv.trans hmu
      refine .cons rfl (ih _ sav (inv_meta h rfl ?_ ?_ ?_ ?_ (.inl rfl)) ⟨s0, h0, hz0, hsv⟩ ?_)
      all_goals simp only [step, load, hsv', meta']
      exact ha2
    | clone n =>
      obtain ⟨s0, h0, hz0, hsv⟩ := hs
      obtain ⟨ha1, rfl, ha2⟩ := ha
      have hmu := meta_unique h0 h (hz0.trans ha1.symm)
      have hsv' := hsv.trans hmu
      refine .cons rfl (ih _ sav (inv_meta h rfl ?_ ?_ ?_ ?_ (.inl rfl)) ⟨s0, h0, hz0, hsv⟩ ?_)
      all_goals simp only [step, clone, load, hsv', meta']
      exact ha2

/-- **C26.** Build a ShardedCorpus from any rows with any positive shard size, then use it in any way:
random access, lists, whole iterations, slices, resizing, dropping the cache, saving and reopening.
Every answer is the one the original rows give, whatever was asked before. -/
theorem C26_history (sparse : Bool) (zero : R) {size : Nat} (hz : 0 < size) (rows : List R) (ops : List Op)
    (ha : Allowed size size ops) :
    List.Forall₂ (Answers rows) ops (run sparse zero ops (build size rows)) := by
  have hb := build_inv hz rows
  have hsz : (build size rows).shardsize = size := (foldl_saveShard (chunks size rows) _).2.2.2.1
  refine history_inv sparse zero rows ops _ size hb ⟨_, hb, hsz, rfl⟩ ?_
  rw [hsz]; exact ha

/-- the number of documents is the number of rows -/
theorem C26_length {size : Nat} (hz : 0 < size) (rows : List R) : (build size rows).nDocs = rows.length :=
  (build_inv hz rows).docs

example : Allowed 2 2 [.get 3, .slice 1 5, .resize 3, .iter, .save, .load, .clone 3, .many [4, 0]] := by
  simp [Allowed]

example : run false 0 [.get 3, .slice 1 5, .resize 3, .iter, .save, .load, .clone 3, .many [4, 0], .get 7, .get (-1)]
    (build 2 [10, 11, 12, 13, 14]) =
    [some [13], some [11, 12, 13, 14], some [], some [10, 11, 12, 13, 14], some [], some [], some [],
      some [14, 10], none, none] := by decide +kernel

/-- **C26, refuted without its hypothesis.** Opening existing files with another `shardsize` argument:
the constructor keeps the argument, and document 1 is answered with row 3. -/
theorem C26_reopen_other_size_wrong :
    run false 0 [.clone 1, .get 1] (build 2 [10, 11, 12, 13]) = [some [], some [13]] := by decide +kernel

/-- **C26, refuted without its hypothesis.** After `resize_shards` without `save`, reopening uses the old
metadata with the new files: document 2 is answered with row 3. -/
theorem C26_resize_unsaved_wrong :
    run false 0 [.resize 3, .load, .get 2] (build 2 [10, 11, 12, 13, 14, 15]) = [some [], some [], some [13]] := by
  decide +kernel

end Verif.Sharded
