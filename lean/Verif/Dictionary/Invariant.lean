import Mathlib.Data.List.Perm.Subperm
import Verif.Dictionary.Lemmas

/-! The representation invariant of the Dictionary model and its preservation by every operation. -/

namespace Verif.Dictionary
open Verif PyDict

variable {τ : Type} [LinearOrder τ]

/-- The representation invariant. -/
structure Inv (d : Dct τ) : Prop where
  wf : WF d.token2id
  dense : (values d.token2id).Perm (List.range d.token2id.length)
  dfsWF : WF d.dfs
  cfsWF : WF d.cfs
  dfsKeys : ∀ i, i ∈ keys d.dfs ↔ i < d.token2id.length
  cfsKeys : ∀ i ∈ keys d.cfs, i < d.token2id.length
  cacheWF : WF d.id2token
  cache : ∀ p ∈ d.id2token, (p.2, p.1) ∈ d.token2id

theorem Inv.nodup {d : Dct τ} (h : Inv d) : (values d.token2id).Nodup :=
  h.dense.nodup_iff.mpr List.nodup_range

theorem Inv.mem_values {d : Dct τ} (h : Inv d) (i : Nat) :
    i ∈ values d.token2id ↔ i < d.token2id.length := by
  rw [h.dense.mem_iff, List.mem_range]

theorem Inv.compactable {d : Dct τ} (h : Inv d) : Compactable d where
  wf := h.wf
  nodup := h.nodup
  dfsWF := h.dfsWF
  cfsWF := h.cfsWF
  dfsKeys := fun i hi => (h.mem_values i).mpr ((h.dfsKeys i).mp hi)
  cfsKeys := fun i hi => (h.mem_values i).mpr (h.cfsKeys i hi)

theorem inv_empty : Inv (empty : Dct τ) := by
  constructor <;> simp [empty, values]

/-! ### lookups -/

theorem revdict_eq {t : PyDict τ Nat} (hv : (values t).Nodup) :
    revdict t = t.map (fun p => (p.2, p.1)) := by
  apply ofPairs_of_WF
  simpa [WF, keys, Function.comp_def, values] using hv

theorem refresh_cases (d : Dct τ) :
    refresh d = { d with id2token := revdict d.token2id } ∨
      (refresh d = d ∧ d.id2token.length = d.token2id.length) := by
  by_cases h : d.id2token.length = d.token2id.length
  · right; exact ⟨by simp [refresh, h], h⟩
  · left; simp [refresh, h]

theorem inv_refresh {d : Dct τ} (h : Inv d) : Inv (refresh d) := by
  rcases refresh_cases d with e | ⟨e, _⟩
  · rw [e]
    refine { wf := h.wf, dense := h.dense, dfsWF := h.dfsWF, cfsWF := h.cfsWF,
             dfsKeys := h.dfsKeys, cfsKeys := h.cfsKeys, cacheWF := WF_ofPairs _, cache := ?_ }
    intro p hp
    rw [show ({ d with id2token := revdict d.token2id } : Dct τ).id2token
        = d.token2id.map (fun p => (p.2, p.1)) from revdict_eq h.nodup] at hp
    obtain ⟨q, hq, rfl⟩ := List.mem_map.mp hp
    exact hq
  · rw [e]; exact h

theorem getitem_spec {d : Dct τ} (h : Inv d) (i : Nat) (w : τ) :
    (getitem d i).2 = some w ↔ get? d.token2id w = some i := by
  unfold getitem
  rcases refresh_cases d with e | ⟨e, hl⟩
  · rw [e]
    show get? (revdict d.token2id) i = some w ↔ _
    have hw : WF (revdict d.token2id) := WF_ofPairs _
    rw [get?_eq_some_iff hw, get?_eq_some_iff h.wf, revdict_eq h.nodup]
    simp
  · rw [e]
    show get? d.id2token i = some w ↔ _
    rw [get?_eq_some_iff h.cacheWF, get?_eq_some_iff h.wf]
    constructor
    · exact fun hp => h.cache _ hp
    · intro hp
      -- the cached ids are distinct ids in use, and there are as many of them as ids in use
      have hsub : keys d.id2token ⊆ List.range d.token2id.length := by
        intro j hj
        obtain ⟨q, hq, rfl⟩ := List.mem_map.mp hj
        exact List.mem_range.mpr ((h.mem_values _).mp (mem_values_of_mem (h.cache q hq)))
      have hperm : (keys d.id2token).Perm (List.range d.token2id.length) :=
        (List.subperm_of_subset h.cacheWF hsub).perm_of_length_le (by simp [hl])
      have hi : i ∈ keys d.id2token := by
        rw [hperm.mem_iff, List.mem_range]
        exact (h.mem_values _).mp (mem_values_of_mem hp)
      obtain ⟨⟨j, w'⟩, hq, e'⟩ := List.mem_map.mp hi
      simp at e'; subst e'
      have := values_nodup_inj h.nodup hp (h.cache _ hq)
      subst this; exact hq

theorem getitem_isSome {d : Dct τ} (h : Inv d) {i : Nat} (hi : i ∈ values d.token2id) :
    (getitem d i).2.isSome = true := by
  obtain ⟨p, hp, rfl⟩ := List.mem_map.mp hi
  have := (getitem_spec h p.2 p.1).mpr (get?_of_mem h.wf hp)
  simp [this]

/-! ### update -/

theorem keys_update {d : Dct τ} (h : WF d.token2id) (doc : List τ) (w : τ) :
    w ∈ keys (update d doc).token2id ↔ w ∈ keys d.token2id ∨ w ∈ doc := by
  rw [update_token2id d h, keys_append, keys_zip _ _ (by simp), List.mem_append,
    mem_keys_missing, mem_keys_counter]
  by_cases hw : w ∈ keys d.token2id <;> simp [hw]

theorem WF_update_token2id {d : Dct τ} (h : WF d.token2id) (doc : List τ) :
    WF (update d doc).token2id := by
  unfold WF
  rw [update_token2id d h, keys_append, keys_zip _ _ (by simp)]
  exact nodup_keys_missing h (WF_counter doc)

theorem length_update {d : Dct τ} (h : WF d.token2id) (doc : List τ) :
    (update d doc).token2id.length =
      d.token2id.length + (missing d.token2id (counter doc)).length := by
  rw [update_token2id d h]; simp

theorem dense_update {d : Dct τ} (hw : WF d.token2id)
    (h : (values d.token2id).Perm (List.range d.token2id.length)) (doc : List τ) :
    (values (update d doc).token2id).Perm (List.range (update d doc).token2id.length) := by
  rw [length_update hw, update_token2id d hw, values_append, values_zip _ _ (by simp)]
  refine (List.Perm.append_right _ h).trans ?_
  rw [List.range_eq_range', List.range_eq_range', ← List.range'_append_1]
  simp

theorem get?_update_old {d : Dct τ} (h : WF d.token2id) (doc : List τ) {w : τ} {i : Nat}
    (hw : get? d.token2id w = some i) : get? (update d doc).token2id w = some i := by
  rw [update_token2id d h, get?_append, hw]; rfl

theorem inv_update {d : Dct τ} (h : Inv d) (doc : List τ) : Inv (update d doc) := by
  have hwf := WF_update_token2id h.wf doc
  have hdense := dense_update h.wf h.dense doc
  have hnd : (values (update d doc).token2id).Nodup := hdense.nodup_iff.mpr List.nodup_range
  have hle : d.token2id.length ≤ (update d doc).token2id.length := by
    rw [length_update h.wf]; omega
  have hr : WF (bowDict (update d doc).token2id (counter doc)) := WF_bowDict _ _
  have hrlt : ∀ i ∈ keys (bowDict (update d doc).token2id (counter doc)),
      i < (update d doc).token2id.length := by
    intro i hi
    obtain ⟨⟨j, n⟩, hp, rfl⟩ := List.mem_map.mp hi
    obtain ⟨w, hw, _, _⟩ := (mem_bowDict hnd doc j n).mp hp
    have := mem_values_of_mem (mem_of_get? hw)
    rwa [hdense.mem_iff, List.mem_range] at this
  refine { wf := hwf, dense := hdense, dfsWF := WF_bump (fun _ => 1) h.dfsWF (bowDict (update d doc).token2id (counter doc)),
           cfsWF := WF_bump (fun f => f) h.cfsWF (bowDict (update d doc).token2id (counter doc)),
           dfsKeys := ?_, cfsKeys := ?_, cacheWF := h.cacheWF, cache := ?_ }
  · intro i
    show i ∈ keys (bump (fun _ => 1) d.dfs (bowDict (update d doc).token2id (counter doc))) ↔ _
    rw [mem_keys_bump _ _ _ hr, h.dfsKeys]
    constructor
    · rintro (hi | hi)
      · exact hrlt i hi
      · omega
    · intro hi
      by_cases hold : i < d.token2id.length
      · exact Or.inr hold
      · left
        have : i ∈ values (update d doc).token2id := by rw [hdense.mem_iff, List.mem_range]; exact hi
        obtain ⟨⟨w, j⟩, hp, hj⟩ := List.mem_map.mp this
        simp at hj; subst hj
        have hg := get?_of_mem hwf hp
        have hwdoc : w ∈ doc := by
          rcases (keys_update h.wf doc w).mp (mem_keys_of_mem hp) with hk | hk
          · exfalso
            obtain ⟨⟨w', j'⟩, hq, e⟩ := List.mem_map.mp hk
            simp at e; subst e
            have h1 := get?_update_old h.wf doc (get?_of_mem h.wf hq)
            rw [hg] at h1; cases h1
            exact hold ((h.mem_values _).mp (mem_values_of_mem hq))
          · exact hk
        exact mem_keys_of_mem ((mem_bowDict hnd doc j (doc.count w)).mpr ⟨w, hg, hwdoc, rfl⟩)
  · intro i hi
    have hi' : i ∈ keys (bump (fun f => f) d.cfs (bowDict (update d doc).token2id (counter doc))) := hi
    rw [mem_keys_bump _ _ _ hr] at hi'
    rcases hi' with hi' | hi'
    · exact hrlt i hi'
    · have := h.cfsKeys i hi'; omega
  · intro p hp
    have := h.cache p hp
    rw [update_token2id d h.wf]
    exact List.mem_append_left _ this

/-! ### filtering -/

/-- the state just before `compactify` inside `filter_tokens` -/
def restrict (d : Dct τ) (keep : Nat → Bool) : Dct τ :=
  { d with token2id := d.token2id.filter (fun p => keep p.2)
           cfs := d.cfs.filter (fun p => keep p.1)
           dfs := d.dfs.filter (fun p => keep p.1) }

/-- the predicate on ids described by the arguments of `filter_tokens` -/
def keepPred (bad good : Option (List Nat)) (i : Nat) : Bool :=
  (match bad with | none => true | some b => !decide (i ∈ b)) &&
  (match good with | none => true | some g => decide (i ∈ g))

theorem filterTokens_eq (d : Dct τ) (bad good : Option (List Nat)) :
    filterTokens d bad good = compactify (restrict d (keepPred bad good)) := by
  cases bad <;> cases good <;>
    simp only [filterTokens, restrict, keepPred, Bool.true_and, Bool.and_true, List.filter_filter,
      Bool.and_comm] <;> (try rw [List.filter_eq_self.mpr, List.filter_eq_self.mpr,
        List.filter_eq_self.mpr]) <;> simp

theorem compactable_restrict {d : Dct τ} (h : Inv d) (keep : Nat → Bool) :
    Compactable (restrict d keep) := by
  have hsub : ∀ i, i ∈ values d.token2id → keep i = true →
      i ∈ values (restrict d keep).token2id := by
    intro i hi hk
    obtain ⟨p, hp, rfl⟩ := List.mem_map.mp hi
    exact List.mem_map.mpr ⟨p, List.mem_filter.mpr ⟨hp, hk⟩, rfl⟩
  refine { wf := WF_filter h.wf _, nodup := ?_, dfsWF := WF_filter h.dfsWF _,
           cfsWF := WF_filter h.cfsWF _, dfsKeys := ?_, cfsKeys := ?_ }
  · exact h.nodup.sublist (sublist_values List.filter_sublist)
  · intro i hi
    obtain ⟨p, hp, rfl⟩ := List.mem_map.mp hi
    obtain ⟨hp, hk⟩ := List.mem_filter.mp hp
    exact hsub _ ((h.mem_values _).mpr ((h.dfsKeys _).mp (List.mem_map.mpr ⟨p, hp, rfl⟩))) hk
  · intro i hi
    obtain ⟨p, hp, rfl⟩ := List.mem_map.mp hi
    obtain ⟨hp, hk⟩ := List.mem_filter.mp hp
    exact hsub _ ((h.mem_values _).mpr (h.cfsKeys _ (List.mem_map.mpr ⟨p, hp, rfl⟩))) hk

/-- result of `filter_tokens` on a well-formed dictionary -/
def filtered (d : Dct τ) (keep : Nat → Bool) : Dct τ :=
  let r := restrict d keep
  { r with token2id := r.token2id.map (fun p => (p.1, rank r.token2id p.2))
           id2token := []
           dfs := reKey r.token2id r.dfs
           cfs := reKey r.token2id r.cfs }

theorem filterTokens_some {d : Dct τ} (h : Inv d) (bad good : Option (List Nat)) :
    filterTokens d bad good = some (filtered d (keepPred bad good)) := by
  rw [filterTokens_eq, compactify_eq (compactable_restrict h _)]
  rfl

theorem length_filtered (d : Dct τ) (keep : Nat → Bool) :
    (filtered d keep).token2id.length = (restrict d keep).token2id.length := by
  simp [filtered]

theorem inv_filtered {d : Dct τ} (h : Inv d) (keep : Nat → Bool) : Inv (filtered d keep) := by
  have hc := compactable_restrict h keep
  have hkeys : keys (filtered d keep).token2id = keys (restrict d keep).token2id := by
    simp [filtered, keys, Function.comp_def]
  have hvals : values (filtered d keep).token2id =
      (values (restrict d keep).token2id).map (rank (restrict d keep).token2id) := by
    simp [filtered, values, Function.comp_def]
  refine { wf := ?_, dense := ?_, dfsWF := WF_reKey _ hc.dfsWF hc.dfsKeys,
           cfsWF := WF_reKey _ hc.cfsWF hc.cfsKeys,
           dfsKeys := ?_, cfsKeys := ?_, cacheWF := WF_nil, cache := ?_ }
  · unfold WF; rw [hkeys]; exact hc.wf
  · rw [hvals, length_filtered]; exact map_rank_perm _ hc.nodup
  · intro j
    show j ∈ keys (reKey (restrict d keep).token2id (restrict d keep).dfs) ↔ _
    rw [mem_keys_reKey, length_filtered]
    constructor
    · rintro ⟨i, hi, rfl⟩
      exact rank_lt _ (hc.dfsKeys i hi)
    · intro hj
      have : j ∈ List.map (rank (restrict d keep).token2id) (values (restrict d keep).token2id) :=
        (map_rank_perm _ hc.nodup).mem_iff.mpr (List.mem_range.mpr hj)
      obtain ⟨i, hi, rfl⟩ := List.mem_map.mp this
      refine ⟨i, ?_, rfl⟩
      obtain ⟨p, hp, rfl⟩ := List.mem_map.mp hi
      obtain ⟨hp, hk⟩ := List.mem_filter.mp hp
      have := (h.dfsKeys p.2).mpr ((h.mem_values _).mp (mem_values_of_mem hp))
      obtain ⟨q, hq, e⟩ := List.mem_map.mp this
      exact List.mem_map.mpr ⟨q, List.mem_filter.mpr ⟨hq, by rw [e]; exact hk⟩, e⟩
  · intro j hj
    have hj' : j ∈ keys (reKey (restrict d keep).token2id (restrict d keep).cfs) := hj
    rw [mem_keys_reKey] at hj'
    obtain ⟨i, hi, rfl⟩ := hj'
    rw [length_filtered]
    exact rank_lt _ (hc.cfsKeys i hi)
  · intro p hp; simp [filtered] at hp

theorem compactify_some {d : Dct τ} (h : Inv d) :
    compactify d = some (filtered d (fun _ => true)) := by
  have := filterTokens_some h none none
  rw [filterTokens_eq] at this
  have e : restrict d (keepPred none none) = d := by simp [restrict, keepPred]
  rw [e] at this
  exact this

theorem dfsKeyRaises_false {d : Dct τ} (h : Inv d) {l : List Nat}
    (hl : ∀ v ∈ l, v ∈ values d.token2id) : dfsKeyRaises d l = false := by
  have : l.any (fun v => !contains d.dfs v) = false := by
    rw [List.any_eq_false]
    intro v hv
    have := (contains_iff d.dfs v).mpr ((h.dfsKeys v).mpr ((h.mem_values v).mp (hl v hv)))
    simp [this]
  simp [dfsKeyRaises, this]

/-- the list of ids `filter_extremes` decides to keep -/
def goodIds (d : Dct τ) (nb na : Int) (keepN : Option Nat) (keep : List τ) : List Nat :=
  let inRange := fun v : Nat =>
    decide (nb ≤ ((getD d.dfs v 0 : Nat) : Int)) && decide (((getD d.dfs v 0 : Nat) : Int) ≤ na)
  let keepIds := keep.filterMap (fun w => get? d.token2id w)
  let g := sortDesc (fun v => if v ∈ keepIds then d.numDocs else getD d.dfs v 0)
      ((values d.token2id).filter (fun v => inRange v || decide (v ∈ keepIds)))
  match keepN with
  | none => g
  | some n => g.take n

theorem filterExtremes_some {d : Dct τ} (h : Inv d) (nb na : Int) (keepN : Option Nat)
    (keep : List τ) :
    filterExtremes d nb na keepN keep =
      some (filtered d (fun i => decide (i ∈ goodIds d nb na keepN keep))) := by
  have key : ∀ g : List Nat,
      (((values d.token2id).filter (fun v => !decide (v ∈ g))).all
        (fun i => (getitem d i).2.isSome)) = true := by
    intro g
    rw [List.all_eq_true]
    intro i hi
    exact getitem_isSome h (List.mem_filter.mp hi).1
  have kp : ∀ g : List Nat, keepPred none (some g) = fun i => decide (i ∈ g) := by
    intro g; funext i; simp [keepPred]
  by_cases hk : keep = []
  · subst hk
    have hr := dfsKeyRaises_false h (l := (values d.token2id).filter (fun v =>
      decide (nb ≤ ((getD d.dfs v 0 : Nat) : Int)) && decide (((getD d.dfs v 0 : Nat) : Int) ≤ na)))
      (fun v hv => (List.mem_filter.mp hv).1)
    cases keepN <;>
    simp [filterExtremes, hr, key, filterTokens_some h, kp, goodIds]
  · cases keepN <;>
    simp [filterExtremes, hk, key, filterTokens_some h, kp, goodIds]

theorem filterNMostFrequent_some {d : Dct τ} (h : Inv d) (n : Nat) :
    filterNMostFrequent d n = some (filtered d (fun i =>
      !decide (i ∈ (sortDesc (fun v => getD d.dfs v 0) (values d.token2id)).take n))) := by
  have hr := dfsKeyRaises_false h (l := values d.token2id) (fun v hv => hv)
  have hall : ((sortDesc (fun v => getD d.dfs v 0) (values d.token2id)).take n).all
      (fun i => (getitem d i).2.isSome) = true := by
    rw [List.all_eq_true]
    intro i hi
    exact getitem_isSome h (mem_pySort.mp (List.mem_of_mem_take hi))
  have kp : ∀ b : List Nat, keepPred (some b) none = fun i => !decide (i ∈ b) := by
    intro b; funext i; simp [keepPred]
  simp only [filterNMostFrequent, hr, hall, filterTokens_some h, kp]
  simp

/-! ### add_documents -/

theorem addDocumentsFrom_induct {P : Dct τ → Prop} (pruneAt : Option Nat)
    (hprune : ∀ d k, P d → Inv d → pruneAt = some k → d.len > k →
      P (filtered d (fun i => decide (i ∈ goodIds d 0 d.numDocs (some k) []))))
    (hupd : ∀ d doc, P d → Inv d → P (update d doc))
    (docs : List (List τ)) (n : Nat) (d : Dct τ) (hd : Inv d) (hP : P d) :
    ∃ d', addDocumentsFrom pruneAt n d docs = some d' ∧ Inv d' ∧ P d' := by
  induction docs generalizing n d with
  | nil => exact ⟨d, rfl, hd, hP⟩
  | cons doc docs ih =>
    unfold addDocumentsFrom
    by_cases hn : n % 10000 = 0
    · cases hp : pruneAt with
      | none =>
        simp only [hn, if_true]
        rw [hp] at ih
        exact ih (n + 1) _ (inv_update hd doc) (hupd d doc hP hd)
      | some k =>
        rw [hp] at ih
        by_cases hk : d.len > k
        · simp only [hn, if_true, hk, filterExtremes_some hd]
          have hi := inv_filtered hd (fun i => decide (i ∈ goodIds d 0 d.numDocs (some k) []))
          exact ih (n + 1) _ (inv_update hi doc) (hupd _ doc (hprune d k hP hd hp hk) hi)
        · simp only [hn, if_true, hk, if_false]
          exact ih (n + 1) _ (inv_update hd doc) (hupd d doc hP hd)
    · simp only [hn, if_false]
      exact ih (n + 1) _ (inv_update hd doc) (hupd d doc hP hd)

theorem addDocuments_some {d : Dct τ} (h : Inv d) (docs : List (List τ)) (pruneAt : Option Nat) :
    ∃ d', addDocuments d docs pruneAt = some d' ∧ Inv d' := by
  obtain ⟨d', h1, h2, _⟩ := addDocumentsFrom_induct (P := fun _ => True) pruneAt
    (fun _ _ _ _ _ _ => trivial) (fun _ _ _ _ => trivial) docs 0 d h trivial
  exact ⟨d', h1, h2⟩

/-! ### merging -/

/-- one iteration of the merge loop, dictionary part up to the new id -/
def mergeTok (d : Dct τ) (tok : τ) : Dct τ × Nat :=
  match get? d.token2id tok with
  | some i => (d, i)
  | none => ({ d with token2id := set d.token2id tok d.token2id.length,
                      dfs := set d.dfs d.token2id.length 0 }, d.token2id.length)

/-- one iteration of the merge loop, document frequency part -/
def mergeDf (odfs : PyDict Nat Nat) (d : Dct τ) (newId oid : Nat) : Dct τ :=
  match get? d.dfs newId, get? odfs oid with
  | some a, some b => { d with dfs := set d.dfs newId (a + b) }
  | _, _ => d

theorem mergeLoop_cons (odfs : PyDict Nat Nat) (oid : Nat) (tok : τ) (its : List (Nat × τ))
    (d : Dct τ) (m : PyDict Nat Nat) :
    mergeLoop odfs ((oid, tok) :: its) (d, m) =
      mergeLoop odfs its (mergeDf odfs (mergeTok d tok).1 (mergeTok d tok).2 oid,
        set m oid (mergeTok d tok).2) := by
  unfold mergeTok mergeDf
  cases h : get? d.token2id tok with
  | none =>
    simp only [mergeLoop, h]
    congr 2
  | some i =>
    simp only [mergeLoop, h]
    congr 2

theorem inv_mergeTok {d : Dct τ} (h : Inv d) (tok : τ) : Inv (mergeTok d tok).1 := by
  unfold mergeTok
  cases hg : get? d.token2id tok with
  | some i => exact h
  | none =>
    have hn : tok ∉ keys d.token2id := (get?_eq_none_iff _ _).mp hg
    have hset : set d.token2id tok d.token2id.length = d.token2id ++ [(tok, d.token2id.length)] :=
      set_of_not_mem hn _
    refine { wf := WF_set h.wf _ _, dense := ?_, dfsWF := WF_set h.dfsWF _ _, cfsWF := h.cfsWF,
             dfsKeys := ?_, cfsKeys := ?_, cacheWF := h.cacheWF, cache := ?_ }
    · show (values (set d.token2id tok d.token2id.length)).Perm
        (List.range (set d.token2id tok d.token2id.length).length)
      rw [hset, values_append]
      simp only [List.length_append, List.length_singleton, List.range_succ]
      exact List.Perm.append_right _ h.dense
    · intro i
      show i ∈ keys (set d.dfs d.token2id.length 0) ↔ i < (set d.token2id tok d.token2id.length).length
      rw [mem_keys_set, h.dfsKeys, hset]
      simp; omega
    · intro i hi
      have := h.cfsKeys i hi
      show i < (set d.token2id tok d.token2id.length).length
      rw [hset]; simp; omega
    · intro p hp
      show (p.2, p.1) ∈ set d.token2id tok d.token2id.length
      rw [hset]; exact List.mem_append_left _ (h.cache p hp)

theorem mergeTok_get {d : Dct τ} (tok : τ) :
    get? (mergeTok d tok).1.token2id tok = some (mergeTok d tok).2 := by
  unfold mergeTok
  cases hg : get? d.token2id tok with
  | some i => simpa using hg
  | none => simp

theorem inv_mergeDf (odfs : PyDict Nat Nat) {d : Dct τ} (h : Inv d) (i o : Nat) :
    Inv (mergeDf odfs d i o) := by
  unfold mergeDf
  split
  · rename_i a b ha hb
    refine { wf := h.wf, dense := h.dense, dfsWF := WF_set h.dfsWF _ _, cfsWF := h.cfsWF,
             dfsKeys := ?_, cfsKeys := h.cfsKeys, cacheWF := h.cacheWF, cache := h.cache }
    intro j
    have hm : i ∈ keys d.dfs := (get?_isSome_iff _ _).mp (by simp [ha])
    show j ∈ keys (set d.dfs i (a + b)) ↔ _
    rw [keys_set_of_mem hm]
    exact h.dfsKeys j
  · exact h

theorem inv_mergeLoop (odfs : PyDict Nat Nat) (its : List (Nat × τ)) {d : Dct τ} (h : Inv d)
    (m : PyDict Nat Nat) : Inv (mergeLoop odfs its (d, m)).1 := by
  induction its generalizing d m with
  | nil => exact h
  | cons p its ih =>
    obtain ⟨oid, tok⟩ := p
    rw [mergeLoop_cons]
    exact ih (inv_mergeDf odfs (inv_mergeTok h tok) _ _) _

theorem items_some {o : Dct τ} (h : Inv o) :
    items o = some (o.token2id.map (fun p => (p.2, p.1))) := by
  have : ∀ t : PyDict τ Nat, (∀ p ∈ t, p ∈ o.token2id) →
      mapOpt (fun i => (getitem o i).2.map (fun w => (i, w))) (values t) =
        some (t.map (fun p => (p.2, p.1))) := by
    intro t ht
    induction t with
    | nil => rfl
    | cons p t ih =>
      have hp := (getitem_spec h p.2 p.1).mpr (get?_of_mem h.wf (ht p (by simp)))
      have ih' := ih (fun q hq => ht q (by simp [hq]))
      simp only [values, List.map_cons, mapOpt] at *
      rw [hp, ih']; rfl
  exact this _ (fun _ hp => hp)

theorem mergeWith_some {d o : Dct τ} (ho : Inv o) :
    mergeWith d o = some (
      let s := mergeLoop o.dfs (o.token2id.map (fun p => (p.2, p.1))) (d, [])
      ({ s.1 with numDocs := s.1.numDocs + o.numDocs, numNnz := s.1.numNnz + o.numNnz,
                  numPos := s.1.numPos + o.numPos }, s.2)) := by
  simp [mergeWith, items_some ho]

/-! ### all together -/

theorem Reachable.inv {d : Dct τ} (h : Reachable d) : Inv d := by
  induction h with
  | empty => exact inv_empty
  | update doc _ ih => exact inv_update ih doc
  | addDocuments docs p _ e ih =>
    obtain ⟨d'', e', h'⟩ := addDocuments_some ih docs p
    rw [e'] at e; cases e; exact h'
  | filterTokens b g _ e ih =>
    rw [filterTokens_some ih] at e; cases e; exact inv_filtered ih _
  | filterExtremes nb na kn k _ e ih =>
    rw [filterExtremes_some ih] at e; cases e; exact inv_filtered ih _
  | filterNMostFrequent n _ e ih =>
    rw [filterNMostFrequent_some ih] at e; cases e; exact inv_filtered ih _
  | compactify _ e ih =>
    rw [compactify_some ih] at e; cases e; exact inv_filtered ih _
  | lookup i _ ih => exact inv_refresh ih
  | mergeWith _ _ e ih1 ih2 =>
    rw [mergeWith_some ih2] at e
    injection e with e
    injection e with e1 e2
    have := fun odfs its => inv_mergeLoop (τ := τ) odfs its ih1 []
    rw [← e1]
    exact ⟨(this _ _).wf, (this _ _).dense, (this _ _).dfsWF, (this _ _).cfsWF, (this _ _).dfsKeys,
      (this _ _).cfsKeys, (this _ _).cacheWF, (this _ _).cache⟩
  | mergeWithPlain o _ ih => exact inv_mergeLoop [] o ih []

end Verif.Dictionary
