import Verif.Dictionary.Spec
import Verif.Dictionary.Invariant

/-! What each operation does to ids and frequencies, in terms of `idOf`, `dfOf`, `cfOf`. -/

namespace Verif.Dictionary
open Verif PyDict

variable {τ : Type} [LinearOrder τ]

theorem known_iff (d : Dct τ) (w : τ) : known d w ↔ w ∈ keys d.token2id := get?_isSome_iff _ _

theorem idOf_lt {d : Dct τ} (h : Inv d) {w : τ} {i : Nat} (hw : idOf d w = some i) : i < d.len :=
  (h.mem_values i).mp (mem_values_of_mem (mem_of_get? hw))

theorem idOf_inj {d : Dct τ} (h : Inv d) {w w' : τ} {i : Nat} (h1 : idOf d w = some i)
    (h2 : idOf d w' = some i) : w = w' :=
  values_nodup_inj h.nodup (mem_of_get? h1) (mem_of_get? h2)

/-! ### update -/

theorem idOf_update_old {d : Dct τ} (h : Inv d) (doc : List τ) {w : τ} {i : Nat}
    (hw : idOf d w = some i) : idOf (update d doc) w = some i := get?_update_old h.wf doc hw

theorem known_update {d : Dct τ} (h : Inv d) (doc : List τ) (w : τ) :
    known (update d doc) w ↔ known d w ∨ w ∈ doc := by
  rw [known_iff, known_iff, keys_update h.wf]

/-- an id assigned by this update to a word not known before is larger than all old ids -/
theorem idOf_update_new {d : Dct τ} (h : Inv d) (doc : List τ) {w : τ} {i : Nat}
    (hw : idOf (update d doc) w = some i) (hn : ¬ known d w) : d.len ≤ i := by
  have hnone : get? d.token2id w = none := by
    cases hh : get? d.token2id w with
    | none => rfl
    | some j => exact absurd (by simp [known, idOf, hh]) hn
  unfold idOf at hw
  rw [update_token2id d h.wf, get?_append, hnone, Option.none_or] at hw
  have := mem_values_of_mem (mem_of_get? hw)
  rw [values_zip _ _ (by simp), List.mem_range'_1] at this
  exact this.1

theorem tbl_update {d : Dct τ} (h : Inv d) (doc : List τ) (inc : Nat → Nat) (tbl : PyDict Nat Nat)
    (hk : ∀ i ∈ keys tbl, i < d.len) (w : τ) :
    (idOf (update d doc) w).bind (fun i => get?
        (bump inc tbl (bowDict (update d doc).token2id (counter doc))) i) =
      if w ∈ doc then
        some (((idOf d w).bind (fun i => get? tbl i)).getD 0 + inc (doc.count w))
      else (idOf d w).bind (fun i => get? tbl i) := by
  have h' := inv_update h doc
  have hr : WF (bowDict (update d doc).token2id (counter doc)) := WF_bowDict _ _
  by_cases hw : w ∈ doc
  · have hkn : known (update d doc) w := (known_update h doc w).mpr (Or.inr hw)
    obtain ⟨i, hi⟩ := Option.isSome_iff_exists.mp hkn
    have hb : get? (bowDict (update d doc).token2id (counter doc)) i = some (doc.count w) :=
      get?_of_mem hr ((mem_bowDict h'.nodup doc i _).mpr ⟨w, hi, hw, rfl⟩)
    simp only [hi, Option.bind_some, get?_bump _ _ _ hr, hb, hw, if_true]
    congr 2
    by_cases ho : known d w
    · obtain ⟨j, hj⟩ := Option.isSome_iff_exists.mp ho
      have := idOf_update_old h doc hj
      rw [hi] at this; cases this
      simp [hj, getD]
    · have hge := idOf_update_new h doc hi ho
      have hnone : get? tbl i = none := by
        rw [get?_eq_none_iff]; intro hm; have := hk i hm; omega
      have hidn : idOf d w = none := by
        cases hh : idOf d w with
        | none => rfl
        | some j => exact absurd (by simp [known, hh]) ho
      simp [hidn, getD, hnone]
  · simp only [hw, if_false]
    by_cases ho : known d w
    · obtain ⟨j, hj⟩ := Option.isSome_iff_exists.mp ho
      have hj' := idOf_update_old h doc hj
      have hb : get? (bowDict (update d doc).token2id (counter doc)) j = none := by
        rw [get?_eq_none_iff]
        intro hm
        obtain ⟨⟨a, n⟩, hp, rfl⟩ := List.mem_map.mp hm
        obtain ⟨w', hw', hd', _⟩ := (mem_bowDict h'.nodup doc a n).mp hp
        have := idOf_inj h' hj' hw'
        subst this; exact hw hd'
      simp [hj, hj', get?_bump _ _ _ hr, hb]
    · have hn' : ¬ known (update d doc) w := by
        rw [known_update h]; tauto
      have e1 : idOf d w = none := by
        cases hh : idOf d w with
        | none => rfl
        | some j => exact absurd (by simp [known, hh]) ho
      have e2 : idOf (update d doc) w = none := by
        cases hh : idOf (update d doc) w with
        | none => rfl
        | some j => exact absurd (by simp [known, hh]) hn'
      simp [e1, e2]

theorem dfOf_update {d : Dct τ} (h : Inv d) (doc : List τ) (w : τ) :
    dfOf (update d doc) w = if w ∈ doc then some ((dfOf d w).getD 0 + 1) else dfOf d w :=
  tbl_update h doc (fun _ => 1) d.dfs (fun i hi => (h.dfsKeys i).mp hi) w

theorem cfOf_update {d : Dct τ} (h : Inv d) (doc : List τ) (w : τ) :
    cfOf (update d doc) w =
      if w ∈ doc then some ((cfOf d w).getD 0 + doc.count w) else cfOf d w :=
  tbl_update h doc (fun f => f) d.cfs h.cfsKeys w

theorem length_counter (doc : List τ) : (counter doc).length = doc.dedup.length := by
  have : (keys (counter doc)).Perm doc.dedup := by
    rw [List.perm_ext_iff_of_nodup (WF_counter doc) (List.nodup_dedup doc)]
    intro a; rw [mem_keys_counter, List.mem_dedup]
  simpa using this.length_eq

theorem numNnz_update {d : Dct τ} (h : Inv d) (doc : List τ) :
    (update d doc).numNnz = d.numNnz + doc.dedup.length := by
  have h' := inv_update h doc
  show d.numNnz + (bowDict (update d doc).token2id (counter doc)).length = _
  rw [bowDict_eq h'.nodup (WF_counter doc), ← length_counter]
  congr 1
  have : ∀ c : PyDict τ Nat, (∀ p ∈ c, p.1 ∈ keys (update d doc).token2id) →
      (c.filterMap (fun p => (get? (update d doc).token2id p.1).map (fun i => (i, p.2)))).length
        = c.length := by
    intro c hc
    induction c with
    | nil => rfl
    | cons p c ih =>
      have := (get?_isSome_iff _ _).mpr (hc p (by simp))
      obtain ⟨i, hi⟩ := Option.isSome_iff_exists.mp this
      simp only [List.filterMap_cons, hi, Option.map_some, List.length_cons]
      rw [ih (fun q hq => hc q (by simp [hq]))]
  apply this
  intro p hp
  rw [keys_update h.wf]
  exact Or.inr ((mem_keys_counter doc p.1).mp (mem_keys_of_mem (v := p.2) hp))

theorem numPos_update (d : Dct τ) (doc : List τ) :
    (update d doc).numPos = d.numPos + doc.length := by
  show d.numPos + (values (counter doc)).sum = _
  rw [sum_counter]

theorem len_update_le {d : Dct τ} (h : Inv d) (doc : List τ) :
    (update d doc).len ≤ d.len + doc.dedup.length := by
  unfold Dct.len
  rw [length_update h.wf, ← length_counter]
  have : (missing d.token2id (counter doc)).length ≤ (counter doc).length := by
    unfold missing; rw [length_pySort]; exact List.length_filter_le _ _
  omega

/-! ### filtering -/

theorem idOf_filtered {d : Dct τ} (h : Inv d) (keep : Nat → Bool) (w : τ) :
    idOf (filtered d keep) w =
      ((idOf d w).filter keep).map (rank (restrict d keep).token2id) := by
  have e : (filtered d keep).token2id =
      mapVal (fun _ i => rank (restrict d keep).token2id i) (restrict d keep).token2id := by
    simp [filtered, mapVal]
  unfold idOf
  rw [e, get?_mapVal]
  show (get? (d.token2id.filter (fun p => keep p.2)) w).map _ = _
  rw [get?_filter h.wf]

theorem mem_restrict {d : Dct τ} {keep : Nat → Bool} {w : τ} {i : Nat}
    (hi : idOf d w = some i) (hk : keep i = true) : i ∈ values (restrict d keep).token2id :=
  List.mem_map.mpr ⟨(w, i), List.mem_filter.mpr ⟨mem_of_get? hi, hk⟩, rfl⟩

theorem known_filtered {d : Dct τ} (h : Inv d) (keep : Nat → Bool) (w : τ) :
    known (filtered d keep) w ↔ ∃ i, idOf d w = some i ∧ keep i = true := by
  unfold known
  rw [idOf_filtered h]
  cases hw : idOf d w with
  | none => simp
  | some i => by_cases hk : keep i = true <;> simp [Option.filter, hk]

theorem dfOf_filtered {d : Dct τ} (h : Inv d) (keep : Nat → Bool) {w : τ}
    (hw : known (filtered d keep) w) : dfOf (filtered d keep) w = dfOf d w := by
  obtain ⟨i, hi, hk⟩ := (known_filtered h keep w).mp hw
  have hc := compactable_restrict h keep
  unfold dfOf
  rw [idOf_filtered h, hi]
  simp only [Option.filter, hk, if_true, Option.map_some, Option.bind_some]
  show get? (reKey (restrict d keep).token2id (restrict d keep).dfs) _ = _
  rw [get?_reKey _ hc.dfsKeys (mem_restrict hi hk)]
  show get? (d.dfs.filter (fun p => keep p.1)) i = _
  rw [get?_filter h.dfsWF]
  cases get? d.dfs i <;> simp [Option.filter, hk]

theorem cfOf_filtered {d : Dct τ} (h : Inv d) (keep : Nat → Bool) {w : τ}
    (hw : known (filtered d keep) w) : cfOf (filtered d keep) w = cfOf d w := by
  obtain ⟨i, hi, hk⟩ := (known_filtered h keep w).mp hw
  have hc := compactable_restrict h keep
  unfold cfOf
  rw [idOf_filtered h, hi]
  simp only [Option.filter, hk, if_true, Option.map_some, Option.bind_some]
  show get? (reKey (restrict d keep).token2id (restrict d keep).cfs) _ = _
  rw [get?_reKey _ hc.cfsKeys (mem_restrict hi hk)]
  show get? (d.cfs.filter (fun p => keep p.1)) i = _
  rw [get?_filter h.cfsWF]
  cases get? d.cfs i <;> simp [Option.filter, hk]

theorem order_filtered {d : Dct τ} (h : Inv d) (keep : Nat → Bool) {w w' : τ} {i j i' j' : Nat}
    (h1 : idOf d w = some i) (h2 : idOf d w' = some j)
    (h1' : idOf (filtered d keep) w = some i') (h2' : idOf (filtered d keep) w' = some j') :
    i < j ↔ i' < j' := by
  rw [idOf_filtered h, h1] at h1'
  rw [idOf_filtered h, h2] at h2'
  by_cases hi : keep i = true
  · by_cases hj : keep j = true
    · simp [Option.filter, hi, hj] at h1' h2'
      subst h1' h2'
      constructor
      · exact fun hlt => rank_lt_rank _ (mem_restrict h1 hi) hlt
      · intro hlt
        rcases Nat.lt_trichotomy i j with h' | h' | h'
        · exact h'
        · subst h'; omega
        · have := rank_lt_rank (restrict d keep).token2id (mem_restrict h2 hj) h'; omega
    · simp [Option.filter, hj] at h2'
  · simp [Option.filter, hi] at h1'

/-- ids are handed out in the order words entered the dictionary: listing `token2id` lists the ids
0, 1, 2, … -/
def Ordered (d : Dct τ) : Prop := values d.token2id = List.range d.token2id.length

theorem ordered_update {d : Dct τ} (h : Inv d) (ho : Ordered d) (doc : List τ) :
    Ordered (update d doc) := by
  unfold Ordered
  rw [length_update h.wf, update_token2id d h.wf, values_append, values_zip _ _ (by simp), ho,
    List.range_eq_range', List.range_eq_range', ← List.range'_append_1]
  simp

theorem ordered_filtered {d : Dct τ} (h : Inv d) (ho : Ordered d) (keep : Nat → Bool) :
    Ordered (filtered d keep) := by
  have hc := compactable_restrict h keep
  unfold Ordered
  rw [length_filtered]
  have hvals : values (filtered d keep).token2id =
      (values (restrict d keep).token2id).map (rank (restrict d keep).token2id) := by
    simp [filtered, values, Function.comp_def]
  have hsub : (values (restrict d keep).token2id).Sublist (values d.token2id) :=
    sublist_values List.filter_sublist
  have hs : (values (restrict d keep).token2id).Pairwise (· < ·) := by
    rw [ho] at hsub
    exact List.Pairwise.sublist hsub List.pairwise_lt_range
  have he : pySort (fun a b : Nat => decide (a ≤ b)) (values (restrict d keep).token2id) =
      values (restrict d keep).token2id :=
    pySort_of_sorted (hs.imp (by intro a b hab; simp; omega))
  rw [hvals]
  have : rank (restrict d keep).token2id =
      fun i => (values (restrict d keep).token2id).idxOf i := by
    funext i; unfold rank; rw [he]
  rw [this, map_idxOf_eq_range _ hc.nodup]
  simp [values]

theorem ordered_mergeTok {d : Dct τ} (ho : Ordered d) (tok : τ) : Ordered (mergeTok d tok).1 := by
  unfold mergeTok
  cases hg : get? d.token2id tok with
  | some i => exact ho
  | none =>
    have hn : tok ∉ keys d.token2id := (get?_eq_none_iff _ _).mp hg
    show values (set d.token2id tok d.token2id.length) =
      List.range (set d.token2id tok d.token2id.length).length
    rw [set_of_not_mem hn, values_append, ho]
    simp [List.range_succ, values]

theorem mergeDf_token2id (odfs : PyDict Nat Nat) (d : Dct τ) (i o : Nat) :
    (mergeDf odfs d i o).token2id = d.token2id := by
  unfold mergeDf; split <;> rfl

theorem ordered_mergeLoop (odfs : PyDict Nat Nat) (its : List (Nat × τ)) {d : Dct τ}
    (h : Ordered d) (m : PyDict Nat Nat) : Ordered (mergeLoop odfs its (d, m)).1 := by
  induction its generalizing d m with
  | nil => exact h
  | cons p its ih =>
    obtain ⟨oid, tok⟩ := p
    rw [mergeLoop_cons]
    refine ih ?_ _
    have := ordered_mergeTok h tok
    unfold Ordered at this ⊢
    rw [mergeDf_token2id]; exact this

theorem Reachable.ordered {d : Dct τ} (h : Reachable d) : Ordered d := by
  induction h with
  | empty => rfl
  | update doc hr ih => exact ordered_update hr.inv ih doc
  | addDocuments docs p hr e ih =>
    obtain ⟨d'', e', _, h'⟩ := addDocumentsFrom_induct (P := Ordered) p
      (fun _ _ hP hi _ _ => ordered_filtered hi hP _) (fun _ _ hP hi => ordered_update hi hP _)
      docs 0 _ hr.inv ih
    rw [Verif.Dictionary.addDocuments, e'] at e; cases e; exact h'
  | filterTokens b g hr e ih =>
    rw [filterTokens_some hr.inv] at e; cases e; exact ordered_filtered hr.inv ih _
  | filterExtremes nb na kn k hr e ih =>
    rw [filterExtremes_some hr.inv] at e; cases e; exact ordered_filtered hr.inv ih _
  | filterNMostFrequent n hr e ih =>
    rw [filterNMostFrequent_some hr.inv] at e; cases e; exact ordered_filtered hr.inv ih _
  | compactify hr e ih =>
    rw [compactify_some hr.inv] at e; cases e; exact ordered_filtered hr.inv ih _
  | @lookup d i _ ih =>
    show Ordered (refresh d)
    rcases refresh_cases d with e | ⟨e, _⟩ <;> rw [e] <;> exact ih
  | mergeWith hr1 hr2 e ih1 ih2 =>
    rw [mergeWith_some hr2.inv] at e
    injection e with e
    injection e with e1 e2
    rw [← e1]
    exact ordered_mergeLoop _ _ ih1 []
  | mergeWithPlain o _ ih => exact ordered_mergeLoop [] o ih []

end Verif.Dictionary
