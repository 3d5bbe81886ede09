import Mathlib.Tactic.Common
import Mathlib.Tactic.ByContra
import Verif.Sharded.FormatModel
import Verif.Sharded.Props
import Verif.Matutils.SparseProps

/-!
# C143: the formats of a ShardedCorpus
-/

namespace Verif.Sharded
open Verif Verif.Matutils

/-! ## Specification -/

/-- the entries of a vector that satisfy `keep`, in order of position, with their positions -/
def entries (keep : ℚ → Bool) (r : Row) : Bow :=
  ((List.range r.length).map (fun j => (j, r.getD j 0))).filter (fun p => keep p.2)

/-- the gensim document of a vector: stored sparsely all its non-zero entries, stored densely those above `eps` -/
def docOf (eps : ℚ) (ser : Bool) (r : Row) : Bow :=
  if ser then entries (fun x => decide (x ≠ 0)) r else entries (fun x => decide (eps < |x|)) r

/-- the answer for one document.  Documents of sparsely serialized data come in something of one row. -/
def single (eps : ℚ) (c : Cfg) (r : Row) : Out :=
  match c.gensim, c.ret, c.ser with
  | true, _, true => .bows [docOf eps true r]
  | true, _, false => .bow (docOf eps false r)
  | false, true, _ => .csr [r]
  | false, false, true => .mat [r]
  | false, false, false => .vec r

/-- the answer for a batch of documents -/
def batch (eps : ℚ) (c : Cfg) (rows : List Row) : Out :=
  match c.gensim, c.ret with
  | true, _ => .bows (rows.map (docOf eps c.ser))
  | false, true => .csr rows
  | false, false => .mat rows

/-- the answer a user gets of an operation on a corpus holding `rows`, with the formats `c` -/
def FAnswers (eps : ℚ) (rows : List Row) (c : Cfg) : FOp → Option (List Out) → Prop
  | .get i, r => r = if 0 ≤ i then (rows[i.toNat]?).map (fun x => [single eps c x]) else none
  | .many is, r => is ≠ [] →
    r = if ∀ i ∈ is, 0 ≤ i ∧ i < rows.length then some [batch eps c (is.filterMap (fun i => rows[i.toNat]?))] else none
  | .iter, r => r = some (rows.map (single eps c))
  | .slice a b, r =>
    (0 ≤ a → a ≤ b → b ≤ rows.length → a < rows.length → r = some [batch eps c (seg rows a.toNat b.toNat)]) ∧
    (0 ≤ b → b < a → a < rows.length → r = none ∨ r = some [batch eps c []]) ∧
    (a < 0 ∨ b < 0 ∨ (rows.length : Int) < b ∨ (rows.length : Int) ≤ a → r = none)
  | .resize n, r => r = if n = 0 ∨ c.gensim = true then none else some []
  | _, r => r = some []

/-- the formats in use, and the saved ones, after an operation -/
def next : FOp → Cfg × Cfg → Cfg × Cfg
  | .save, p => (p.1, p.1)
  | .load, p => (p.2, p.2)
  | .reopen _ c, p => (c, p.2)
  | .setRetrieval b, p => ({ p.1 with ret := b }, p.2)
  | .setGensim b, p => ({ p.1 with gensim := b }, p.2)
  | _, p => p

/-- each answer is right for the formats at its time -/
def AllRight (eps : ℚ) (rows : List Row) : Cfg × Cfg → List FOp → List (Option (List Out)) → Prop
  | _, [], rs => rs = []
  | _, _ :: _, [] => False
  | p, op :: ops, r :: rs => FAnswers eps rows p.1 op r ∧ AllRight eps rows (next op p) ops rs

/-- histories in which the corpus is reopened only with metadata that describe the files, with the serialization it was
built with, and resized only when retrieval is in the format of the files (or when resizing is refused).
`cur` and `sav`: the shard size in use and the saved one. -/
def FAllowed (ser : Bool) : Nat → Nat → Cfg × Cfg → List FOp → Prop
  | _, _, _, [] => True
  | cur, sav, p, .resize n :: ops =>
    if n = 0 ∨ p.1.gensim = true then FAllowed ser cur sav p ops else p.1.ret = ser ∧ FAllowed ser n sav p ops
  | cur, _, p, .save :: ops => FAllowed ser cur cur (next .save p) ops
  | cur, sav, p, .load :: ops => cur = sav ∧ FAllowed ser cur sav (next .load p) ops
  | cur, sav, p, .reopen n c :: ops => cur = sav ∧ n = cur ∧ c.ser = ser ∧ FAllowed ser cur sav (c, p.2) ops
  | cur, sav, p, op :: ops => FAllowed ser cur sav (next op p) ops

/-- the weight of an id in a document: the last one given, 0 if there is none -/
def lastWeight (d : Bow) (j : Nat) : ℚ := ((d.filter fun p => p.1 = j).map (·.2)).getLastD 0

/-- the vector of a document -/
def VecOf (dim : Nat) (d : Bow) (r : Row) : Prop := r = (List.range dim).map (lastWeight d)

/-- some attribute of a source corpus that tells its number of features -/
def Feat.Tells (f : Feat) (n : Nat) : Prop :=
  f.dim = some n ∨ (f.dim = none ∧ (f.dictionary = some n ∨ (f.dictionary = none ∧
    (f.nOut = some n ∨ (f.nOut = none ∧ f.numTerms = some n)))))

/-- no attribute tells the number of features -/
def Feat.Silent (f : Feat) : Prop := f.dim = none ∧ f.dictionary = none ∧ f.nOut = none ∧ f.numTerms = none

/-! ## Documents of vectors -/

theorem zipIdx_eq_range (r : Row) : r.zipIdx = (List.range r.length).map (fun j => (r.getD j 0, j)) := by
  apply List.ext_getElem
  · simp
  · intro i h1 h2
    simp at h1
    simp [h1]

theorem nonzero_eq (r : Row) : nonzero r = entries (fun x => decide (x ≠ 0)) r := by
  unfold nonzero entries
  rw [zipIdx_eq_range, List.filterMap_map, List.filter_map, ← List.filterMap_eq_map, ← List.filterMap_eq_filter,
    List.filterMap_filterMap]
  congr 1
  funext j
  simp only [Function.comp, Option.guard, decide_eq_true_eq]
  split_ifs <;> simp_all

theorem full2sparse_eq (eps : ℚ) (r : Row) : full2sparse eps r = entries (fun x => decide (eps < |x|)) r := by
  unfold full2sparse entries
  rw [zipIdx_eq_range, List.filterMap_map, List.filter_map, ← List.filterMap_eq_map, ← List.filterMap_eq_filter,
    List.filterMap_filterMap]
  congr 1
  funext j
  simp only [Function.comp, Option.guard, decide_eq_true_eq]
  split_ifs <;> simp_all

theorem format_one (eps : ℚ) (c : Cfg) (r : Row) : format eps c (oneRow c.ser r) = some (single eps c r) := by
  obtain ⟨ser, ret, g⟩ := c
  cases ser <;> cases ret <;> cases g <;>
    simp [format, oneRow, single, sparse2gensim, dense2gensim, toDense, toCsr, docOf, nonzero_eq, full2sparse_eq]

theorem format_some (eps : ℚ) (c : Cfg) (rows : List Row) :
    format eps c (someRows c.ser rows) = some (batch eps c rows) := by
  have h1 : nonzero = entries (fun x => decide (x ≠ 0)) := funext nonzero_eq
  have h2 : full2sparse eps = entries (fun x => decide (eps < |x|)) := funext (full2sparse_eq eps)
  have h3 : docOf eps true = entries (fun x => decide (x ≠ 0)) := by funext r; rfl
  have h4 : docOf eps false = entries (fun x => decide (eps < |x|)) := by funext r; rfl
  obtain ⟨ser, ret, g⟩ := c
  cases ser <;> cases ret <;> cases g <;>
    simp only [format, someRows, batch, sparse2gensim, dense2gensim, toDense, toCsr, h1, h2, h3, h4] <;> rfl

theorem gather_ok (ser : Bool) (rows : List Row) (h : rows ≠ []) : gather ser ser rows = some (someRows ser rows) := by
  have : rows.length ≠ 0 := by simpa using h
  cases ser <;> simp [gather, someRows, h]

/-! ## Histories -/

/-- the corpus holds `rows`, in files of the kind its settings say -/
structure FInv (rows : List Row) (s : FC) : Prop where
  inv : Inv rows s.sc
  kind : s.csr = s.cfg.ser

theorem fget_ok (eps : ℚ) {rows : List Row} {s : FC} (h : FInv rows s) {i : Int} (h0 : 0 ≤ i) (h1 : i < rows.length) :
    ∃ t, fget eps i s = ((rows[i.toNat]?).map (single eps s.cfg), { s with sc := t }) ∧ Inv rows t ∧ Same s.sc t := by
  have hd := (div_bounds (i := i.toNat) h.inv.pos).1
  refine ⟨_, ?_, inv_at h.inv (k := i.toNat / s.sc.shardsize) (by omega), same_at rows _ s.sc⟩
  unfold fget put
  rw [get_ok h.inv h0 h1, List.getElem?_eq_getElem (by omega)]
  simp only [andThen, Option.map_some]
  rw [h.kind, format_one]

theorem fget_bad (eps : ℚ) {rows : List Row} {s : FC} (h : FInv rows s) {i : Int}
    (hi : ¬ (0 ≤ i ∧ i < rows.length)) : fget eps i s = (none, s) := by
  unfold fget put
  rw [get_bad h.inv hi]
  rfl

theorem fiter_ok (eps : ℚ) {rows : List Row} (is : List Int) (hi : ∀ i ∈ is, 0 ≤ i ∧ i < rows.length) :
    ∀ {s : FC}, FInv rows s → ∃ t, fiter eps is s =
      (some ((is.filterMap (fun i => rows[i.toNat]?)).map (single eps s.cfg)), { s with sc := t }) ∧ Inv rows t ∧
      Same s.sc t := by
  induction is with
  | nil => intro s h; exact ⟨s.sc, rfl, h.inv, Same.refl _⟩
  | cons i is ih =>
    intro s h
    obtain ⟨t, t1, t2, t3⟩ := fget_ok eps h (hi i (by simp)).1 (hi i (by simp)).2
    obtain ⟨u, u1, u2, u3⟩ := ih (fun j hj => hi j (by simp [hj])) (s := { s with sc := t }) ⟨t2, h.kind⟩
    refine ⟨u, ?_, u2, t3.trans u3⟩
    have hr : ∃ r, rows[i.toNat]? = some r := by
      have := hi i (by simp)
      exact ⟨_, List.getElem?_eq_getElem (by omega)⟩
    obtain ⟨r, hr⟩ := hr
    unfold fiter
    rw [t1, hr]
    simp only [andThen, Option.map_some]
    rw [u1]
    simp [List.filterMap_cons, hr]

theorem slice_any (sparse : Bool) (zero : Row) {rows : List Row} {s : SC Row} (h : Inv rows s) (a b : Int) :
    Answers rows (.slice a b) (getSlice sparse zero a b s).1 ∧ Inv rows (getSlice sparse zero a b s).2 ∧
      Same s (getSlice sparse zero a b s).2 := by
  by_cases hbad : a < 0 ∨ b < 0 ∨ (rows.length : Int) < b ∨ (rows.length : Int) ≤ a
  · rw [slice_bad sparse zero h hbad]
    refine ⟨⟨?_, ?_, fun _ => rfl⟩, h, Same.refl s⟩
    · intro _ _ _ _; omega
    · intro _ _ _; exact .inl rfl
  · obtain ⟨a, rfl⟩ := Int.eq_ofNat_of_zero_le (show 0 ≤ a by omega)
    obtain ⟨b, rfl⟩ := Int.eq_ofNat_of_zero_le (show 0 ≤ b by omega)
    by_cases hab : a ≤ b
    · obtain ⟨t, t1, t2, t3⟩ := slice_ok sparse zero h hab (by omega) (by omega)
      rw [t1]
      exact ⟨⟨fun _ _ _ _ => by simp, by omega, fun hx => absurd hx hbad⟩, t2, t3⟩
    · obtain ⟨r, t, t1, t2, t3, t4⟩ := slice_rev sparse zero h (a := a) (b := b) (by omega) (by omega)
      rw [t1]
      exact ⟨⟨by omega, fun _ _ _ => t2, fun hx => absurd hx hbad⟩, t3, t4⟩

theorem fslice_eq (odd : Odd) (eps : ℚ) {rows : List Row} {s : FC} (h : FInv rows s) (a b : Int) :
    fslice odd eps a b s = ((getSlice s.cfg.ser (List.replicate s.dim 0) a b s.sc).1.map (batch eps s.cfg),
      { s with sc := (getSlice s.cfg.ser (List.replicate s.dim 0) a b s.sc).2 }) := by
  unfold fslice
  rw [if_neg (by rintro ⟨h1, _⟩; exact h1 h.kind)]
  unfold put
  cases hr : (getSlice s.cfg.ser (List.replicate s.dim 0) a b s.sc).1 with
  | none => rfl
  | some r =>
    simp only [andThen, Option.map_some]
    rw [h.kind, format_some]

theorem fhistory (odd : Odd) (eps : ℚ) (rows : List Row) (hne : rows ≠ []) (ops : List FOp) :
    ∀ (s : FC) (sav : Nat), FInv rows s → SavedOk rows sav s.sc → s.savedCfg.ser = s.cfg.ser →
      FAllowed s.cfg.ser s.sc.shardsize sav (s.cfg, s.savedCfg) ops →
      AllRight eps rows (s.cfg, s.savedCfg) ops (frun odd eps ops s) := by
  have hpos : 0 < rows.length := List.length_pos_iff.mpr hne
  induction ops with
  | nil => intro s sav _ _ _ _; rfl
  | cons op ops ih =>
    intro s sav h hs hc ha
    unfold frun
    have savedSame : ∀ {t : SC Row}, Same s.sc t → SavedOk rows sav t := by
      intro t ht
      have hm := same_meta ht
      simp only [SavedOk, hm]
      exact hs
    have go : ∀ {t : SC Row} {r : Option (List Out)}, Inv rows t → Same s.sc t → FAnswers eps rows s.cfg op r →
        next op (s.cfg, s.savedCfg) = (s.cfg, s.savedCfg) →
        FAllowed s.cfg.ser s.sc.shardsize sav (s.cfg, s.savedCfg) ops →
        fstep odd eps op s = (r, { s with sc := t }) →
        AllRight eps rows (s.cfg, s.savedCfg) (op :: ops)
          ((fstep odd eps op s).1 :: frun odd eps ops (fstep odd eps op s).2) := by
      intro t r t1 t2 ha1 hn ha2 he
      rw [he]
      refine ⟨ha1, ?_⟩
      rw [hn]
      refine ih { s with sc := t } sav ⟨t1, h.kind⟩ (savedSame t2) hc ?_
      have hm := same_meta t2
      simp only [hm]
      exact ha2
    cases op with
    | get i =>
      by_cases hi : 0 ≤ i ∧ i < rows.length
      · obtain ⟨t, t1, t2, t3⟩ := fget_ok eps h hi.1 hi.2
        refine go t2 t3 (r := (rows[i.toNat]?).map (fun x => [single eps s.cfg x])) ?_ rfl ha ?_
        · simp only [FAnswers]; rw [if_pos hi.1]
        · simp only [fstep]
          rw [t1, List.getElem?_eq_getElem (by omega)]
          rfl
      · refine go h.inv (Same.refl _) (r := none) ?_ rfl ha ?_
        · simp only [FAnswers]
          split
          · rw [List.getElem?_eq_none_iff.mpr (by omega)]; rfl
          · rfl
        · simp only [fstep]
          rw [fget_bad eps h hi]
          rfl
    | many is =>
      obtain ⟨h1, h2, h3⟩ := getMany_ok is h.inv
      refine go h2 h3 (r := ((getMany is s.sc).1.bind (fun rows =>
        (gather s.cfg.ser s.csr rows).bind (format eps s.cfg))).map (fun o => [o])) ?_ rfl ha ?_
      · intro hn
        simp only [h1]
        split
        · next hall =>
          have : is.filterMap (fun i => rows[i.toNat]?) ≠ [] := by
            obtain ⟨i, is', rfl⟩ := List.exists_cons_of_ne_nil hn
            have := hall i (by simp)
            rw [List.filterMap_cons, List.getElem?_eq_getElem (by omega)]
            simp
          rw [h.kind]
          simp only [Option.bind_some]
          rw [gather_ok _ _ this, Option.bind_some, format_some]
          rfl
        · rfl
      · simp only [fstep, fmany, put]
        cases (getMany is s.sc).1 with
        | none => rfl
        | some r =>
          simp only [andThen, Option.bind_some]
          cases (gather s.cfg.ser s.csr r).bind (format eps s.cfg) <;> rfl
    | iter =>
      obtain ⟨t, t1, t2, t3⟩ := fiter_ok eps ((List.range s.sc.nDocs).map Int.ofNat)
        (by simp [h.inv.docs]) h
      refine go t2 t3 (r := some (rows.map (single eps s.cfg))) rfl rfl ha ?_
      simp only [fstep]
      rw [t1, h.inv.docs, all_rows]
    | slice a b =>
      obtain ⟨h1, h2, h3⟩ := slice_any s.cfg.ser (List.replicate s.dim 0) h.inv a b
      refine go h2 h3 (r := ((getSlice s.cfg.ser (List.replicate s.dim 0) a b s.sc).1.map (batch eps s.cfg)).map
        (fun o => [o])) ?_ rfl ha ?_
      · obtain ⟨g1, g2, g3⟩ := h1
        refine ⟨?_, ?_, ?_⟩
        · intro a1 a2 a3 a4
          rw [g1 a1 a2 a3 a4]; rfl
        · intro a1 a2 a3
          rcases g2 a1 a2 a3 with g | g
          · rw [g]; exact .inl rfl
          · rw [g]; exact .inr rfl
        · intro hx
          rw [g3 hx]; rfl
      · simp only [fstep]
        rw [fslice_eq odd eps h]
        cases (getSlice s.cfg.ser (List.replicate s.dim 0) a b s.sc).1 <;> rfl
    | resize n =>
      simp only [FAllowed] at ha
      by_cases hn : n = 0
      · rw [if_pos (.inl hn)] at ha
        refine go h.inv (Same.refl _) (r := none) ?_ rfl ha ?_
        · simp [FAnswers, hn]
        · simp [fstep, fresize, hn, andThen]
      · by_cases hg : s.cfg.gensim = true
        · rw [if_pos (.inr hg)] at ha
          obtain ⟨h1, h2, h3⟩ := slice_any s.cfg.ser (List.replicate s.dim 0) h.inv 0 (min n s.sc.nDocs : Nat)
          refine go h2 h3 (r := none) ?_ rfl ha ?_
          · simp [FAnswers, hg]
          · simp only [fstep, fresize]
            rw [if_neg hn, if_pos ⟨hg, by rw [h.inv.docs]; exact hpos⟩, fslice_eq odd eps h]
            rfl
        · rw [if_neg (by simp [hn, hg])] at ha
          obtain ⟨ha1, ha2⟩ := ha
          obtain ⟨t, t1, t2, t3, t4⟩ := resize_ok s.cfg.ser (List.replicate s.dim 0) h.inv (size := n) (by omega)
          have he : fstep odd eps (.resize n) s = (some [], { s with sc := t, csr := s.cfg.ret }) := by
            simp only [fstep, fresize]
            rw [if_neg hn, if_neg (by rintro ⟨h1, _⟩; exact hg h1), if_neg (by simpa using h.kind)]
            unfold put
            rw [t1]
            rfl
          rw [he]
          refine ⟨?_, ih { s with sc := t, csr := s.cfg.ret } sav ⟨t2, ha1⟩ ?_ hc ?_⟩
          · simp [FAnswers, hn, hg]
          · simp only [SavedOk, t4]
            exact hs
          · simp only [t3]
            exact ha2
    | reset =>
      refine ⟨rfl, ih (fstep odd eps .reset s).2 sav ⟨inv_meta h.inv rfl rfl rfl rfl rfl (.inl rfl), h.kind⟩ hs hc ha⟩
    | save =>
      refine ⟨rfl, ih (fstep odd eps .save s).2 s.sc.shardsize ⟨inv_meta h.inv rfl rfl rfl rfl rfl (.inr rfl), h.kind⟩ ?_ rfl ha⟩
      exact ⟨s.sc, h.inv, rfl, rfl⟩
    | load =>
      obtain ⟨s0, h0, hz0, hsv⟩ := hs
      obtain ⟨ha1, ha2⟩ := ha
      have hmu := meta_unique h0 h.inv (hz0.trans ha1.symm)
      have hsv' := hsv.trans hmu
      refine ⟨rfl, ih (fstep odd eps .load s).2 sav ⟨inv_meta h.inv rfl ?_ ?_ ?_ ?_ (.inl rfl), h.kind.trans hc.symm⟩ ⟨s0, h0, hz0, hsv⟩ rfl ?_⟩
      all_goals simp only [fstep, load, hsv', meta']
      rw [hc]
      exact ha2
    | reopen n c =>
      obtain ⟨s0, h0, hz0, hsv⟩ := hs
      obtain ⟨ha1, rfl, ha3, ha2⟩ := ha
      have hmu := meta_unique h0 h.inv (hz0.trans ha1.symm)
      have hsv' := hsv.trans hmu
      refine ⟨rfl, ih (fstep odd eps (.reopen s.sc.shardsize c) s).2 sav
        ⟨inv_meta h.inv rfl ?_ ?_ ?_ ?_ (.inl rfl), h.kind.trans ha3.symm⟩ ⟨s0, h0, hz0, hsv⟩
        (hc.trans ha3.symm) ?_⟩
      all_goals simp only [fstep, clone, load, hsv', meta']
      rw [ha3]
      exact ha2
    | setRetrieval b => exact ⟨rfl, ih (fstep odd eps (.setRetrieval b) s).2 sav ⟨h.inv, h.kind⟩ hs hc ha⟩
    | setGensim b => exact ⟨rfl, ih (fstep odd eps (.setGensim b) s).2 sav ⟨h.inv, h.kind⟩ hs hc ha⟩

/-! ## Building -/

theorem foldl_set_last (doc : Bow) (d : PyDict Nat ℚ) (i : Nat) :
    PyDict.getD (doc.foldl (fun d p => PyDict.set d p.1 p.2) d) i 0 =
      ((doc.filter fun p => p.1 = i).map (·.2)).getLastD (PyDict.getD d i 0) := by
  induction doc generalizing d with
  | nil => rfl
  | cons p t ih =>
    rw [List.foldl_cons, ih]
    by_cases h : p.1 = i
    · rw [List.filter_cons_of_pos (by simpa using h), List.map_cons, List.getLastD_cons]
      congr 1
      unfold PyDict.getD
      rw [PyDict.get?_set]
      simp [h]
    · rw [List.filter_cons_of_neg (by simpa using h)]
      congr 1
      unfold PyDict.getD
      rw [PyDict.get?_set]
      simp [Ne.symm h, h]

theorem mem_keys_doc (doc : Bow) (i : Nat) :
    i ∈ PyDict.keys (PyDict.ofPairs doc) ↔ i ∈ doc.map (·.1) := by
  have h : ∀ (l : Bow) (d : PyDict Nat ℚ), i ∈ PyDict.keys (l.foldl (fun d p => PyDict.set d p.1 p.2) d) ↔
      i ∈ PyDict.keys d ∨ i ∈ l.map (·.1) := by
    intro l
    induction l with
    | nil => intro d; simp
    | cons p t ih =>
      intro d
      rw [List.foldl_cons, ih, PyDict.mem_keys_set, List.map_cons, List.mem_cons]
      tauto
  have := h doc []
  rw [show PyDict.keys ([] : PyDict Nat ℚ) = [] from rfl] at this
  simp only [List.not_mem_nil, false_or] at this
  exact this

theorem vec_some (doc : Bow) (n : Nat) (h : ∀ p ∈ doc, p.1 < n) :
    sparse2full doc n = some ((List.range n).map (lastWeight doc)) := by
  unfold sparse2full
  rw [if_pos]
  · congr 1
    apply List.map_congr_left
    intro i _
    exact foldl_set_last doc [] i
  · rw [List.all_eq_true]
    intro i hi
    obtain ⟨p, hp, rfl⟩ := List.mem_map.1 ((mem_keys_doc doc i).1 hi)
    simpa using h p hp

theorem vec_none (doc : Bow) (n : Nat) (h : ¬ ∀ p ∈ doc, p.1 < n) : sparse2full doc n = none := by
  push Not at h
  obtain ⟨p, hp, h⟩ := h
  unfold sparse2full
  rw [if_neg]
  intro hc
  rw [List.all_eq_true] at hc
  have := hc p.1 ((mem_keys_doc doc p.1).2 (List.mem_map.2 ⟨p, hp, rfl⟩))
  simp at this
  omega

theorem rowsOf_some (dim : Nat) (docs : List Bow) (h : ∀ d ∈ docs, ∀ p ∈ d, p.1 < dim) :
    rowsOf dim docs = some (docs.map (fun d => (List.range dim).map (lastWeight d))) := by
  unfold rowsOf
  induction docs with
  | nil => rfl
  | cons d ds ih =>
    rw [List.mapM_cons, vec_some d dim (h d (by simp)), ih (fun e he => h e (by simp [he]))]
    rfl

theorem rowsOf_none (dim : Nat) (docs : List Bow) (h : ¬ ∀ d ∈ docs, ∀ p ∈ d, p.1 < dim) : rowsOf dim docs = none := by
  unfold rowsOf
  induction docs with
  | nil => exact absurd (by simp) h
  | cons d ds ih =>
    rw [List.mapM_cons]
    by_cases hd : ∀ p ∈ d, p.1 < dim
    · rw [vec_some d dim hd, ih (fun hh => h (by
        intro e he
        rcases List.mem_cons.1 he with rfl | he
        · exact hd
        · exact hh e he))]
      rfl
    · rw [vec_none d dim hd]
      rfl

theorem first_some {f : Feat} {n : Nat} : f.first = some n ↔ f.Tells n := by
  obtain ⟨a, b, c, d⟩ := f
  cases a <;> cases b <;> cases c <;> cases d <;> simp [Feat.first, Feat.Tells]

theorem first_none {f : Feat} : f.first = none ↔ f.Silent := by
  obtain ⟨a, b, c, d⟩ := f
  cases a <;> cases b <;> cases c <;> cases d <;> simp [Feat.first, Feat.Silent]

/-- **C143.** The number of features of a new ShardedCorpus is the one the source corpus advertises (`dim`, else the
size of its dictionary, else `n_out`, else `num_terms`), whatever the argument `dim` says.  Only a corpus that
advertises none gets the argument, and without a positive argument building fails.  A transformed corpus that
advertises none is measured by its transformation; if that fails, by the corpus under it; and with a positive
argument the corpus under it is never asked. -/
theorem C143_dimension (arg : Option Nat) :
    (∀ f n, f.Tells n → guess arg (.plain f) = some n ∧ ∀ o u, guess arg (.transformed f o u) = some n) ∧
    (∀ f, f.Silent → guess arg (.plain f) = if arg = some 0 then none else arg) ∧
    (∀ f o u, f.Silent → guess arg (.transformed f o u) =
      if guess arg o = none then guess arg u else guess arg o) ∧
    (∀ f o u, f.Silent → arg ≠ none → arg ≠ some 0 → guess arg (.transformed f o u) = guess arg o) := by
  have main : ∀ f o u, f.Silent → guess arg (.transformed f o u) =
      if guess arg o = none then guess arg u else guess arg o := by
    intro f o u h
    conv_lhs => unfold guess
    rw [first_none.2 h]
    cases h2 : guess arg o <;> simp
  have pos : arg ≠ none → arg ≠ some 0 → ∀ o, guess arg o ≠ none := by
    intro h1 h2 o
    induction o with
    | plain f =>
      unfold guess
      cases f.first with
      | none => simp [h1, h2]
      | some n => simp
    | transformed f a b iha ihb =>
      unfold guess
      cases f.first with
      | some n => simp
      | none =>
        cases h3 : guess arg a with
        | none => exact absurd h3 iha
        | some n => simp
  refine ⟨?_, ?_, main, ?_⟩
  · intro f n h
    have := first_some.2 h
    exact ⟨by unfold guess; rw [this], fun o u => by unfold guess; rw [this]⟩
  · intro f h
    unfold guess
    rw [first_none.2 h]
  · intro f o u h h1 h2
    rw [main f o u h, if_neg (pos h1 h2 o)]

theorem build_facts {size : Nat} (hz : 0 < size) {arg : Option Nat} {src : Src} {c : Cfg} {docs : List Bow} {s : FC}
    (hb : fbuild size arg src c docs = some s) :
    guess arg src = some s.dim ∧ (∀ d ∈ docs, ∀ p ∈ d, p.1 < s.dim) ∧
      s.cfg = c ∧ s.savedCfg = c ∧ s.csr = c.ser ∧ s.sc.shardsize = size ∧
      Inv (docs.map (fun d => (List.range s.dim).map (lastWeight d))) s.sc ∧
      SavedOk (docs.map (fun d => (List.range s.dim).map (lastWeight d))) size s.sc := by
  unfold fbuild at hb
  cases hg : guess arg src with
  | none => rw [hg] at hb; exact absurd hb (by simp)
  | some dim =>
    rw [hg] at hb
    by_cases hd : ∀ d ∈ docs, ∀ p ∈ d, p.1 < dim
    · simp only [rowsOf_some dim docs hd, Option.some.injEq] at hb
      subst hb
      have hi := build_inv hz (docs.map (fun d => (List.range dim).map (lastWeight d)))
      have hsz : (build size (docs.map (fun d => (List.range dim).map (lastWeight d)))).shardsize = size :=
        (foldl_saveShard (Verif.Chunk.chunks size _) _).2.2.2.1
      exact ⟨rfl, hd, rfl, rfl, rfl, hsz, hi, ⟨_, hi, hsz, rfl⟩⟩
    · simp only [rowsOf_none dim docs hd] at hb
      exact absurd hb (by simp)

/-- **C143.** Building succeeds exactly when the number of features is known and no document has an id beyond it; the
formats are the arguments. -/
theorem C143_build {size : Nat} (hz : 0 < size) (arg : Option Nat) (src : Src) (c : Cfg) (docs : List Bow) :
    ((∃ s, fbuild size arg src c docs = some s) ↔
      ∃ n, guess arg src = some n ∧ ∀ d ∈ docs, ∀ p ∈ d, p.1 < n) ∧
    ∀ s, fbuild size arg src c docs = some s → guess arg src = some s.dim ∧ s.cfg = c ∧ s.sc.nDocs = docs.length := by
  refine ⟨⟨?_, ?_⟩, ?_⟩
  · rintro ⟨s, hs⟩
    have := build_facts hz hs
    exact ⟨s.dim, this.1, this.2.1⟩
  · rintro ⟨n, hg, hd⟩
    refine ⟨⟨build size (docs.map (fun d => (List.range n).map (lastWeight d))), c.ser, n, c, c⟩, ?_⟩
    unfold fbuild
    rw [hg]
    simp only [rowsOf_some n docs hd]
  · intro s hs
    have := build_facts hz hs
    refine ⟨this.1, this.2.2.1, ?_⟩
    rw [this.2.2.2.2.2.2.1.docs, List.length_map]

/-- **C143.** Build a ShardedCorpus from any documents in any format, then use it in any way, changing the retrieval
formats on the way: every answer holds the vectors of the original documents, in the format set at that time.  Lists of
documents and slices come as an array, as a csr matrix or as a generator of gensim documents; resizing is refused while
the corpus retrieves gensim documents. -/
theorem C143_history (odd : Odd) (eps : ℚ) {size : Nat} (hz : 0 < size) (arg : Option Nat) (src : Src) (c : Cfg)
    (docs : List Bow) (hne : docs ≠ []) (s : FC) (hb : fbuild size arg src c docs = some s) :
    ∃ rows, List.Forall₂ (VecOf s.dim) docs rows ∧
      ∀ ops, FAllowed c.ser size size (c, c) ops → AllRight eps rows (c, c) ops (frun odd eps ops s) := by
  obtain ⟨-, -, h3, h4, h5, h6, h7, h8⟩ := build_facts hz hb
  refine ⟨docs.map (fun d => (List.range s.dim).map (lastWeight d)), ?_, fun ops ha => ?_⟩
  · rw [List.forall₂_map_right_iff]
    exact List.forall₂_same.2 (fun d _ => rfl)
  · have := fhistory odd eps _ (by simpa using hne) ops s size ⟨h7, by rw [h5, h3]⟩ h8 (by rw [h3, h4])
      (by rw [h3, h4, h6]; exact ha)
    rw [h3, h4] at this
    exact this

/-- **C143.** Retrieved as gensim documents, a document with increasing ids comes back as it was stored: from sparse
shards if it has no zero weights, from dense shards if its weights are above the threshold. -/
theorem C143_documents (eps : ℚ) (he : 0 ≤ eps) (dim : Nat) (d : Bow) (r : Row) (hr : VecOf dim d r)
    (hinc : (d.map (·.1)).Pairwise (· < ·)) (hd : ∀ p ∈ d, p.1 < dim) :
    ((∀ p ∈ d, p.2 ≠ 0) → docOf eps true r = d) ∧ ((∀ p ∈ d, eps < |p.2|) → docOf eps false r = d) := by
  have hv : sparse2full d dim = some r := by rw [vec_some d dim hd, hr]
  constructor
  · intro h
    have := C19_sparse_roundtrip 0 (le_refl 0) d dim hinc hd (fun p hp => abs_pos.2 (h p hp))
    rw [hv] at this
    simp only [Option.map_some, Option.some.injEq] at this
    conv_rhs => rw [← this]
    rw [full2sparse_eq]
    simp only [docOf, if_true, abs_pos]
  · intro h
    have := C19_sparse_roundtrip eps he d dim hinc hd h
    rw [hv] at this
    simp only [Option.map_some, Option.some.injEq] at this
    conv_rhs => rw [← this]
    rw [full2sparse_eq]
    rfl

/-! ## Findings -/

theorem fget_any (eps : ℚ) {rows : List Row} {s : FC} (h : Inv rows s.sc) (i : Int) :
    (fget eps i s).1 = if 0 ≤ i then (rows[i.toNat]?).bind (fun r => format eps s.cfg (oneRow s.csr r)) else none := by
  unfold fget put
  by_cases hi : 0 ≤ i ∧ i < rows.length
  · rw [get_ok h hi.1 hi.2, if_pos hi.1, List.getElem?_eq_getElem (by omega)]
    simp [andThen]
  · rw [get_bad h hi]
    simp only [andThen]
    split
    · rw [List.getElem?_eq_none_iff.mpr (by omega)]; rfl
    · rfl

theorem fstep_get (odd : Odd) (eps : ℚ) (i : Int) (s : FC) :
    (fstep odd eps (.get i) s).1 = ((fget eps i s).1).map (fun o => [o]) := by
  simp only [fstep]
  cases fget eps i s with
  | mk x y => cases x <;> rfl

theorem resized (odd : Odd) (eps : ℚ) {size n : Nat} (hz : 0 < size) (hn : 0 < n) {arg : Option Nat} {src : Src} {c : Cfg}
    (hg : c.gensim = false) {docs : List Bow} {s : FC} (hb : fbuild size arg src c docs = some s) :
    ∃ t, fstep odd eps (.resize n) s = (some [], { s with sc := t, csr := c.ret }) ∧
      Inv (docs.map (fun d => (List.range s.dim).map (lastWeight d))) t ∧ t.shardsize = n := by
  obtain ⟨-, -, h3, h4, h5, h6, h7, h8⟩ := build_facts hz hb
  obtain ⟨t, t1, t2, t3, t4⟩ := resize_ok s.cfg.ser (List.replicate s.dim 0) h7 hn
  refine ⟨t, ?_, t2, t3⟩
  simp only [fstep, fresize]
  rw [if_neg (by omega), if_neg (by rw [h3, hg]; simp), if_neg (by rw [h5, h3]; simp)]
  unfold put
  rw [t1, ← h3]
  rfl

/-- **C143, finding.** Sparse data retrieved as arrays (`sparse_serialization=True`, the default retrieval): after
`resize_shards`, which reports success, every access to a document and every list of documents raises. -/
theorem C143_resize_sparse_broken (odd : Odd) (eps : ℚ) {size n : Nat} (hz : 0 < size) (hn : 0 < n) (arg : Option Nat)
    (src : Src) (docs : List Bow) (s : FC) (hb : fbuild size arg src ⟨true, false, false⟩ docs = some s) :
    (∀ i, frun odd eps [.resize n, .get i] s = [some [], none]) ∧
    ∀ is, frun odd eps [.resize n, .many is] s = [some [], none] := by
  obtain ⟨-, -, h3, h4, h5, h6, h7, h8⟩ := build_facts hz hb
  obtain ⟨t, t1, t2, t3⟩ := resized odd eps hz hn rfl hb
  constructor
  · intro i
    simp only [frun, t1]
    congr 2
    rw [fstep_get, fget_any eps (s := { s with sc := t, csr := false }) t2 i]
    simp only [h3, format, oneRow, toDense]
    split
    · cases (List.map (fun d => List.map (lastWeight d) (List.range s.dim)) docs)[i.toNat]? <;> rfl
    · rfl
  · intro is
    simp only [frun, t1]
    congr 2
    simp only [fstep, fmany, put]
    cases (getMany is t).1 with
    | none => rfl
    | some rows =>
      simp only [andThen, h3, gather]
      by_cases h0 : rows.length = 0 <;> simp [h0]

/-- **C143, finding.** Dense data retrieved as sparse matrices (`sparse_retrieval=True`): after `resize_shards`, which
reports success, every slice that reaches over the end of a shard raises; and when retrieval is set back to arrays, a
document comes as a csr matrix all the same. -/
theorem C143_resize_dense_broken (odd : Odd) (eps : ℚ) {size n : Nat} (hz : 0 < size) (hn : 0 < n) (arg : Option Nat)
    (src : Src) (docs : List Bow) (s : FC) (hb : fbuild size arg src ⟨false, true, false⟩ docs = some s) :
    (∀ a b : Nat, b ≤ docs.length → a / n < (b - 1) / n →
      frun odd eps [.resize n, .slice a b] s = [some [], none]) ∧
    ∀ i : Nat, i < docs.length → ∃ d r, docs[i]? = some d ∧ VecOf s.dim d r ∧
      frun odd eps [.resize n, .setRetrieval false, .get i] s = [some [], some [], some [.csr [r]]] := by
  obtain ⟨-, -, h3, h4, h5, h6, h7, h8⟩ := build_facts hz hb
  obtain ⟨t, t1, t2, t3⟩ := resized odd eps hz hn rfl hb
  have hlen : t.nDocs = docs.length := by rw [t2.docs, List.length_map]
  constructor
  · intro a b hb1 hab
    have hba : a < b ∧ 1 ≤ b := by
      have := Nat.div_le_div_right (c := n) (Nat.le_of_lt_succ (Nat.lt_succ_of_lt (Nat.lt_of_not_le (fun h =>
        absurd (Nat.div_le_div_right (c := n) (show b - 1 ≤ a from h)) (by omega)))))
      constructor
      · by_contra hc
        exact absurd (Nat.div_le_div_right (c := n) (show b - 1 ≤ a by omega)) (by omega)
      · by_contra hc
        have : b = 0 := by omega
        subst this
        simp at hab
    have hf : shardByOffset t a = some (a / n) := by
      unfold shardByOffset
      rw [if_neg (by omega), if_neg (by omega), t3]
      simp
    have hcross : crosses t a b = true := by
      unfold crosses
      rw [hf]
      simp only [decide_eq_true_eq]
      intro hc
      unfold lastShard at hc
      split at hc
      · next hbe =>
        have hbe' : b = docs.length := by omega
        have h9 := t2.lo
        rw [t3, List.length_map] at h9
        simp only [Option.some.injEq] at hc
        have h10 : (b - 1) / n < t.nShards := by
          rw [Nat.div_lt_iff_lt_mul hn]; omega
        omega
      · unfold shardByOffset at hc
        rw [if_neg (by omega), if_neg (by omega), t3] at hc
        simp only [Int.toNat_natCast, Option.some.injEq] at hc
        have := Nat.div_le_div_right (c := n) (show b - 1 ≤ b by omega)
        omega
    simp only [frun, t1]
    congr 2
    simp only [fstep, fslice]
    rw [if_pos ⟨by simp [h3], hcross⟩, if_neg (by simp [h3])]
    unfold put failFirst
    rw [hf]
    simp only
    cases loadShard (a / n) t with
    | mk x y => cases x <;> rfl
  · intro i hi
    refine ⟨docs[i], _, List.getElem?_eq_getElem hi, rfl, ?_⟩
    have hs : frun odd eps [.resize n, .setRetrieval false, .get i] s = [some [], some [],
        (fstep odd eps (.get i) { s with sc := t, csr := true, cfg := { s.cfg with ret := false } }).1] := by
      simp only [frun, t1]
      rfl
    rw [hs, fstep_get, fget_any eps (s := { s with sc := t, csr := true, cfg := { s.cfg with ret := false } }) t2 i,
      if_pos (by omega), List.getElem?_eq_getElem (by simpa using hi)]
    simp only [h3, format, oneRow, Option.bind_some, List.getElem_map, Int.toNat_natCast]
    rfl

/-- **C143, finding.** Data serialized as sparse matrices and opened again by the constructor without
`sparse_serialization=True`: the setting is not read from the files.  A document comes as a csr matrix although arrays
are to be retrieved, and raises if gensim documents are. -/
theorem C143_reopen_forgets (odd : Odd) (eps : ℚ) {size : Nat} (hz : 0 < size) (arg : Option Nat) (src : Src)
    (ret gensim : Bool) (docs : List Bow) (s : FC) (hb : fbuild size arg src ⟨true, ret, gensim⟩ docs = some s) (i : Nat)
    (hi : i < docs.length) : ∃ d r, docs[i]? = some d ∧ VecOf s.dim d r ∧
      frun odd eps [.reopen size ⟨false, false, false⟩, .get i] s = [some [], some [.csr [r]]] ∧
      frun odd eps [.reopen size ⟨false, false, true⟩, .get i] s = [some [], none] := by
  obtain ⟨-, -, h3, h4, h5, h6, h7, h8⟩ := build_facts hz hb
  obtain ⟨s0, h0, hz0, hsv⟩ := h8
  have hmu := meta_unique h0 h7 (hz0.trans h6.symm)
  have hsv' := hsv.trans hmu
  have hinv : Inv (docs.map (fun d => (List.range s.dim).map (lastWeight d))) (clone size s.sc) := by
    refine inv_meta h7 rfl ?_ ?_ ?_ ?_ (.inl rfl) <;> simp only [clone, load, hsv', meta', h6]
  refine ⟨docs[i], _, List.getElem?_eq_getElem hi, rfl, ?_, ?_⟩
  · have hs : frun odd eps [.reopen size ⟨false, false, false⟩, .get i] s = [some [],
        (fstep odd eps (.get i) { s with sc := clone size s.sc, cfg := ⟨false, false, false⟩ }).1] := rfl
    rw [hs, fstep_get, fget_any eps (s := { s with sc := clone size s.sc, cfg := ⟨false, false, false⟩ }) hinv i,
      if_pos (by omega), List.getElem?_eq_getElem (by simpa using hi)]
    simp only [h5, format, oneRow, Option.bind_some, List.getElem_map, Int.toNat_natCast]
    rfl
  · have hs : frun odd eps [.reopen size ⟨false, false, true⟩, .get i] s = [some [],
        (fstep odd eps (.get i) { s with sc := clone size s.sc, cfg := ⟨false, false, true⟩ }).1] := rfl
    rw [hs, fstep_get, fget_any eps (s := { s with sc := clone size s.sc, cfg := ⟨false, false, true⟩ }) hinv i,
      if_pos (by omega), List.getElem?_eq_getElem (by simpa using hi)]
    simp only [h5, format, oneRow, Option.bind_some, List.getElem_map, Int.toNat_natCast]
    rfl

/-! ## Concrete cases -/

/-- some behaviour for what is left open -/
def anyOdd : Odd := ⟨fun _ _ => none, fun _ s => (none, s)⟩

/-- a source that advertises two terms -/
def twoTerms : Src := .plain ⟨none, none, none, some 2⟩

/-- three documents -/
def threeDocs : List Bow := [[(0, 1)], [], [(1, 2), (1, 3)]]

example : (fbuild 2 none twoTerms ⟨true, true, false⟩ threeDocs).map (fun s => frun anyOdd 0
    [.get 2, .resize 1, .slice 0 3, .setGensim true, .iter, .resize 2, .many [2, 0], .setRetrieval false, .setGensim false, .get 0,
      .save, .load, .get 3] s) = some
    [some [.csr [[0, 3]]], some [], some [.csr [[1, 0], [0, 0], [0, 3]]], some [],
      some [.bows [[(0, 1)]], .bows [[]], .bows [[(1, 3)]]], none, some [.bows [[(1, 3)], [(0, 1)]]], some [], some [],
      some [.mat [[1, 0]]], some [], some [], none] := by decide +kernel

example : FAllowed true 2 2 (⟨true, true, false⟩, ⟨true, true, false⟩) [.get 2, .resize 1, .slice 0 3, .setGensim true, .iter,
    .resize 2, .many [2, 0], .setRetrieval false, .setGensim false, .get 0, .save, .load, .get 3] := by
  simp [FAllowed, next]

example : (fbuild 2 (some 9) twoTerms ⟨true, false, false⟩ threeDocs).map (fun s =>
    frun anyOdd 0 [.get 0, .resize 2, .get 0] s) = some [some [.mat [[1, 0]]], some [], none] := by decide +kernel

example : fbuild 2 (some 9) twoTerms ⟨true, false, false⟩ [[(2, 1)]] = none := by decide +kernel

end Verif.Sharded
