import Verif.Dictionary.Model

/-! Helper lemmas about the Dictionary model (no property statements here). -/

namespace Verif.Dictionary
open Verif PyDict

section general
variable {α β : Type}

theorem idxOf_cons_ne' {x i : Nat} (l : List Nat) (h : ¬ x = i) :
    (x :: l).idxOf i = l.idxOf i + 1 := by
  have : (x == i) = false := by simpa using h
  simp [List.idxOf_cons, this]

theorem mapOpt_eq_some_map {f : α → Option β} {g : α → β} {l : List α}
    (h : ∀ x ∈ l, f x = some (g x)) : mapOpt f l = some (l.map g) := by
  induction l with
  | nil => rfl
  | cons x xs ih =>
    simp [mapOpt, h x (by simp), ih (fun y hy => h y (by simp [hy]))]

theorem sublist_values {κ ν : Type} {a b : PyDict κ ν} (h : a.Sublist b) :
    (values a).Sublist (values b) := List.Sublist.map _ h

end general

variable {τ : Type} [LinearOrder τ]

/-! ### counter -/

theorem counter_aux (doc : List τ) (c : PyDict τ Nat) (w : τ) :
    get? (doc.foldl (fun c w => set c w (getD c w 0 + 1)) c) w =
      if w ∈ doc then some (getD c w 0 + doc.count w) else get? c w := by
  induction doc generalizing c with
  | nil => simp
  | cons x xs ih =>
    rw [List.foldl_cons, ih]
    by_cases hx : x = w
    · subst hx
      by_cases hm : x ∈ xs
      · simp [hm, getD]; omega
      · simp [hm, List.count_eq_zero_of_not_mem hm]
    · have hx' : ¬ w = x := fun e => hx e.symm
      simp [hx', get?_set_ne _ hx, getD, List.count_cons, hx]

theorem get?_counter (doc : List τ) (w : τ) :
    get? (counter doc) w = if w ∈ doc then some (doc.count w) else none := by
  have := counter_aux doc [] w
  simpa [counter, getD] using this

theorem WF_counter_aux (doc : List τ) (c : PyDict τ Nat) (hc : WF c) :
    WF (doc.foldl (fun c w => set c w (getD c w 0 + 1)) c) := by
  induction doc generalizing c with
  | nil => exact hc
  | cons x xs ih => exact ih _ (WF_set hc _ _)

theorem WF_counter (doc : List τ) : WF (counter doc) := WF_counter_aux doc [] WF_nil

theorem mem_keys_counter (doc : List τ) (w : τ) : w ∈ keys (counter doc) ↔ w ∈ doc := by
  rw [← get?_isSome_iff, get?_counter]
  by_cases h : w ∈ doc <;> simp [h]

theorem mem_counter (doc : List τ) (w : τ) (n : Nat) :
    (w, n) ∈ counter doc ↔ w ∈ doc ∧ n = doc.count w := by
  rw [← get?_eq_some_iff (WF_counter doc), get?_counter]
  by_cases h : w ∈ doc <;> simp [h, eq_comm]

theorem sum_values_set {κ : Type} [DecidableEq κ] (c : PyDict κ Nat) (w : κ) (n : Nat) :
    (values (set c w (getD c w 0 + n))).sum = (values c).sum + n := by
  induction c with
  | nil => simp [PyDict.set, values, getD]
  | cons p c ih =>
    obtain ⟨a, v⟩ := p
    by_cases h : a = w
    · simp [PyDict.set, h, values, getD, get?_cons]; omega
    · have e : getD ((a, v) :: c) w 0 = getD c w 0 := by simp [getD, get?_cons, h]
      simp only [PyDict.set, h, if_false, values, List.map_cons, List.sum_cons, e] at *
      omega

theorem sum_counter_aux (doc : List τ) (c : PyDict τ Nat) :
    (values (doc.foldl (fun c w => set c w (getD c w 0 + 1)) c)).sum =
      (values c).sum + doc.length := by
  induction doc generalizing c with
  | nil => simp
  | cons x xs ih => rw [List.foldl_cons, ih, sum_values_set]; simp; omega

theorem sum_counter (doc : List τ) : (values (counter doc)).sum = doc.length := by
  have := sum_counter_aux doc []
  simpa [counter, values] using this

/-! ### assigning ids to new tokens -/

theorem addMissing_eq (t : PyDict τ Nat) (ms : List (τ × Nat))
    (h : (keys t ++ keys ms).Nodup) :
    addMissing t ms = t ++ (keys ms).zip (List.range' t.length ms.length) := by
  induction ms generalizing t with
  | nil => simp [addMissing]
  | cons p ms ih =>
    obtain ⟨w, n⟩ := p
    have hw : w ∉ keys t := by
      intro hm; rw [List.nodup_append] at h; exact h.2.2 w hm w (by simp) rfl
    have : addMissing t ((w, n) :: ms) = addMissing (set t w t.length) ms := rfl
    rw [this, set_of_not_mem hw, ih]
    · simp [List.range'_succ]
    · simpa using h

theorem mem_keys_missing (t c : PyDict τ Nat) (w : τ) :
    w ∈ keys (missing t c) ↔ w ∈ keys c ∧ w ∉ keys t := by
  simp only [keys, missing, List.mem_map, mem_pySort, List.mem_filter]
  constructor
  · rintro ⟨p, ⟨hp, hc⟩, rfl⟩
    refine ⟨⟨p, hp, rfl⟩, ?_⟩
    intro hm
    have : contains t p.1 = true := (contains_iff _ _).mpr (List.mem_map.mpr hm)
    simp [this] at hc
  · rintro ⟨⟨p, hp, rfl⟩, hn⟩
    refine ⟨p, ⟨hp, ?_⟩, rfl⟩
    have : ¬ contains t p.1 = true := fun h => hn (List.mem_map.mp ((contains_iff _ _).mp h))
    simpa using this

theorem WF_missing (t : PyDict τ Nat) {c : PyDict τ Nat} (hc : WF c) : WF (missing t c) := by
  have h1 : WF (c.filter (fun x => !contains t x.1)) := WF_filter hc _
  exact ((pySort_perm _ _).map Prod.fst).nodup_iff.mpr h1

theorem nodup_keys_missing {t c : PyDict τ Nat} (ht : WF t) (hc : WF c) :
    (keys t ++ keys (missing t c)).Nodup := by
  rw [List.nodup_append]
  refine ⟨ht, WF_missing t hc, ?_⟩
  rintro a ha b hb rfl
  exact ((mem_keys_missing t c a).mp hb).2 ha

/-- token2id after `doc2bow(doc, allow_update=True)` -/
theorem update_token2id (d : Dct τ) (ht : WF d.token2id) (doc : List τ) :
    (update d doc).token2id = d.token2id ++
      (keys (missing d.token2id (counter doc))).zip
        (List.range' d.token2id.length (missing d.token2id (counter doc)).length) :=
  addMissing_eq _ _ (nodup_keys_missing ht (WF_counter doc))

theorem keys_zip {κ : Type} {ν : Type} (a : List κ) (b : List ν) (h : a.length = b.length) :
    keys (a.zip b) = a := by
  simp [keys, List.map_fst_zip, h]

theorem values_zip {κ : Type} {ν : Type} (a : List κ) (b : List ν) (h : a.length = b.length) :
    values (a.zip b) = b := by
  simp [values, List.map_snd_zip, h]

theorem values_append {κ ν : Type} (a b : PyDict κ ν) : values (a ++ b) = values a ++ values b := by
  simp [values]

/-! ### the bag-of-words dict -/

theorem get?_ofPairs_of_WF {κ ν : Type} [DecidableEq κ] {ps : List (κ × ν)} (h : WF ps) (k : κ) :
    get? (ofPairs ps) k = get? ps k := by rw [ofPairs_of_WF h]

theorem values_nodup_inj {κ ν : Type} {t : PyDict κ ν} (hv : (values t).Nodup) {a b : κ} {i : ν}
    (ha : (a, i) ∈ t) (hb : (b, i) ∈ t) : a = b := by
  induction t with
  | nil => simp at ha
  | cons p t ih =>
    simp only [values, List.map_cons, List.nodup_cons] at hv
    rcases List.mem_cons.mp ha with h1 | h1 <;> rcases List.mem_cons.mp hb with h2 | h2
    · exact congrArg Prod.fst (h1.trans h2.symm)
    · exfalso; apply hv.1; rw [← h1]; exact List.mem_map.mpr ⟨(b, i), h2, rfl⟩
    · exfalso; apply hv.1; rw [← h2]; exact List.mem_map.mpr ⟨(a, i), h1, rfl⟩
    · exact ih hv.2 h1 h2

theorem bowPairs_WF {t : PyDict τ Nat} (hv : (values t).Nodup) {c : PyDict τ Nat} (hc : WF c) :
    WF (c.filterMap (fun p => (get? t p.1).map (fun i => (i, p.2)))) := by
  induction c with
  | nil => simp [WF]
  | cons p c ih =>
    obtain ⟨w, n⟩ := p
    simp only [WF, keys_cons, List.nodup_cons] at hc
    rw [List.filterMap_cons]
    cases hw : get? t w with
    | none => simpa [hw] using ih hc.2
    | some i =>
      simp only [hw, Option.map_some]
      have ih' := ih hc.2
      simp only [WF, keys_cons, List.nodup_cons] at ih' ⊢
      refine ⟨?_, ih'⟩
      intro hm
      obtain ⟨q, hq, hqi⟩ := List.mem_map.mp hm
      obtain ⟨⟨w', n'⟩, hp, hpq⟩ := List.mem_filterMap.mp hq
      cases hw' : get? t w' with
      | none => simp [hw'] at hpq
      | some j =>
        simp [hw'] at hpq
        subst hpq
        simp at hqi
        subst hqi
        have := values_nodup_inj hv (mem_of_get? hw) (mem_of_get? hw')
        subst this
        exact hc.1 (mem_keys_of_mem hp)

theorem bowDict_eq {t : PyDict τ Nat} (hv : (values t).Nodup) {c : PyDict τ Nat} (hc : WF c) :
    bowDict t c = c.filterMap (fun p => (get? t p.1).map (fun i => (i, p.2))) :=
  ofPairs_of_WF (bowPairs_WF hv hc)

theorem WF_bowDict (t : PyDict τ Nat) (c : PyDict τ Nat) : WF (bowDict t c) := WF_ofPairs _

theorem mem_bowDict {t : PyDict τ Nat} (hv : (values t).Nodup) (doc : List τ) (i n : Nat) :
    (i, n) ∈ bowDict t (counter doc) ↔ ∃ w, get? t w = some i ∧ w ∈ doc ∧ n = doc.count w := by
  rw [bowDict_eq hv (WF_counter doc), List.mem_filterMap]
  constructor
  · rintro ⟨⟨w, m⟩, hp, hq⟩
    cases hw : get? t w with
    | none => simp [hw] at hq
    | some j =>
      simp [hw] at hq
      obtain ⟨rfl, rfl⟩ := hq
      have := (mem_counter doc w m).mp hp
      exact ⟨w, hw, this⟩
  · rintro ⟨w, hw, hm, rfl⟩
    exact ⟨(w, doc.count w), (mem_counter _ _ _).mpr ⟨hm, rfl⟩, by simp [hw]⟩

/-! ### bump -/

theorem WF_bump (inc : Nat → Nat) {tbl : PyDict Nat Nat} (h : WF tbl) (r : PyDict Nat Nat) :
    WF (bump inc tbl r) := by
  induction r generalizing tbl with
  | nil => exact h
  | cons p r ih => exact ih (WF_set h _ _)

theorem get?_bump (inc : Nat → Nat) (tbl r : PyDict Nat Nat) (hr : WF r) (i : Nat) :
    get? (bump inc tbl r) i = match get? r i with
      | some f => some (getD tbl i 0 + inc f)
      | none => get? tbl i := by
  induction r generalizing tbl with
  | nil => simp [bump]
  | cons p r ih =>
    obtain ⟨j, f⟩ := p
    simp only [WF, keys_cons, List.nodup_cons] at hr
    have : bump inc tbl ((j, f) :: r) = bump inc (set tbl j (getD tbl j 0 + inc f)) r := rfl
    rw [this, ih _ hr.2, get?_cons]
    by_cases hij : j = i
    · subst hij
      have : get? r j = none := (get?_eq_none_iff _ _).mpr hr.1
      simp [this]
    · simp only [hij, if_false, getD, get?_set_ne _ hij]

theorem mem_keys_bump (inc : Nat → Nat) (tbl r : PyDict Nat Nat) (hr : WF r) (i : Nat) :
    i ∈ keys (bump inc tbl r) ↔ i ∈ keys r ∨ i ∈ keys tbl := by
  rw [← get?_isSome_iff, get?_bump _ _ _ hr, ← get?_isSome_iff r, ← get?_isSome_iff tbl]
  cases get? r i <;> simp

/-! ### idmap and compactify -/

/-- position of an id among the sorted ids in use -/
def rank (t : PyDict τ Nat) (i : Nat) : Nat :=
  (pySort (fun a b => decide (a ≤ b)) (values t)).idxOf i

theorem get?_zip_range' (s : List Nat) (k i : Nat) :
    get? (s.zip (List.range' k s.length)) i =
      if i ∈ s then some (k + s.idxOf i) else none := by
  induction s generalizing k with
  | nil => simp
  | cons x xs ih =>
    rw [List.length_cons, List.range'_succ, List.zip_cons_cons, get?_cons]
    by_cases h : x = i
    · subst h; simp
    · have h' : ¬ i = x := fun e => h e.symm
      rw [if_neg h, ih]
      by_cases hm : i ∈ xs
      · simp [hm, idxOf_cons_ne' _ h]; omega
      · simp [hm, h']

theorem get?_idmap (t : PyDict τ Nat) (hv : (values t).Nodup) {i : Nat} (hi : i ∈ values t) :
    get? (idmap t) i = some (rank t i) := by
  have hp := pySort_perm (fun a b : Nat => decide (a ≤ b)) (values t)
  have hl : t.length = (pySort (fun a b : Nat => decide (a ≤ b)) (values t)).length := by
    rw [length_pySort]; simp [values]
  unfold idmap rank
  rw [hl, List.range_eq_range', get?_ofPairs_of_WF, get?_zip_range', if_pos (hp.mem_iff.mpr hi)]
  · simp
  · unfold WF; rw [keys_zip _ _ (by simp)]
    exact hp.nodup_iff.mpr hv

theorem sorted_values (t : PyDict τ Nat) :
    (pySort (fun a b : Nat => decide (a ≤ b)) (values t)).Pairwise (· ≤ ·) := by
  have := pySort_sorted (le := fun a b : Nat => decide (a ≤ b))
    (by intro a b; simp; omega) (by intro a b c; simp; omega) (values t)
  exact this.imp (by simp)

theorem idxOf_lt_idxOf {l : List Nat} (hs : l.Pairwise (· ≤ ·)) {i j : Nat}
    (hi : i ∈ l) (hij : i < j) : l.idxOf i < l.idxOf j := by
  induction l with
  | nil => simp at hi
  | cons x xs ih =>
    rw [List.pairwise_cons] at hs
    rcases List.mem_cons.mp hi with rfl | hi
    · have : ¬ i = j := by omega
      simp [idxOf_cons_ne' _ this]
    · have hx := hs.1 i hi
      by_cases hxi : x = i
      · subst hxi
        have : ¬ x = j := by omega
        simp [idxOf_cons_ne' _ this]
      · have hxj : ¬ x = j := by omega
        simp [idxOf_cons_ne' _ hxi, idxOf_cons_ne' _ hxj, ih hs.2 hi]

theorem rank_lt_rank (t : PyDict τ Nat) {i j : Nat} (hi : i ∈ values t) (hij : i < j) :
    rank t i < rank t j :=
  idxOf_lt_idxOf (sorted_values t) (mem_pySort.mpr hi) hij

theorem rank_inj (t : PyDict τ Nat) {i j : Nat} (hi : i ∈ values t) (hj : j ∈ values t)
    (h : rank t i = rank t j) : i = j := by
  rcases Nat.lt_trichotomy i j with h' | h' | h'
  · have := rank_lt_rank t hi h'; omega
  · exact h'
  · have := rank_lt_rank t hj h'; omega

theorem map_idxOf_eq_range (l : List Nat) (h : l.Nodup) :
    l.map (fun i => l.idxOf i) = List.range l.length := by
  apply List.ext_getElem
  · simp
  · intro n h1 h2
    simp only [List.getElem_map, List.getElem_range]
    exact h.idxOf_getElem n (by simpa using h1)

theorem map_rank_perm (t : PyDict τ Nat) (hv : (values t).Nodup) :
    ((values t).map (rank t)).Perm (List.range t.length) := by
  have hp := pySort_perm (fun a b : Nat => decide (a ≤ b)) (values t)
  have h1 : ((pySort (fun a b : Nat => decide (a ≤ b)) (values t)).map (rank t)).Perm
      ((values t).map (rank t)) := hp.map _
  refine h1.symm.trans ?_
  have h2 := map_idxOf_eq_range _ (hp.nodup_iff.mpr hv)
  unfold rank
  rw [h2, length_pySort]
  simp [values]

theorem rank_lt (t : PyDict τ Nat) {i : Nat} (hi : i ∈ values t) : rank t i < t.length := by
  have := List.idxOf_lt_length_of_mem
    (mem_pySort (le := fun a b : Nat => decide (a ≤ b)).mpr hi)
  rw [length_pySort] at this
  simpa [rank, values] using this

/-- renumber the keys of a frequency table -/
def reKey (t : PyDict τ Nat) (m : PyDict Nat Nat) : PyDict Nat Nat :=
  m.map (fun p => (rank t p.1, p.2))

theorem WF_reKey (t : PyDict τ Nat) {m : PyDict Nat Nat} (hm : WF m)
    (hk : ∀ i ∈ keys m, i ∈ values t) : WF (reKey t m) := by
  unfold WF reKey keys at *
  rw [List.map_map]
  induction m with
  | nil => simp
  | cons p m ih =>
    simp only [List.map_cons, List.nodup_cons] at hm ⊢
    refine ⟨?_, ih hm.2 (fun i hi => hk i (by simp only [List.map_cons, List.mem_cons]; exact Or.inr hi))⟩
    intro h
    obtain ⟨q, hq, e⟩ := List.mem_map.mp h
    have h1 : q.1 ∈ values t := hk _ (by simp; exact Or.inr ⟨_, hq⟩)
    have h2 : p.1 ∈ values t := hk _ (by simp)
    have := rank_inj t h1 h2 e
    exact hm.1 (List.mem_map.mpr ⟨q, hq, this⟩)

theorem get?_reKey (t : PyDict τ Nat) {m : PyDict Nat Nat}
    (hk : ∀ i ∈ keys m, i ∈ values t) {i : Nat} (hi : i ∈ values t) :
    get? (reKey t m) (rank t i) = get? m i := by
  induction m with
  | nil => simp [reKey]
  | cons p m ih =>
    have ih' := ih (fun j hj => hk j (by simp only [keys, List.map_cons, List.mem_cons]; exact Or.inr hj))
    obtain ⟨j, f⟩ := p
    have hj : j ∈ values t := hk j (by simp)
    simp only [reKey, List.map_cons, get?_cons] at *
    by_cases hji : j = i
    · simp [hji]
    · have : ¬ rank t j = rank t i := fun e => hji (rank_inj t hj hi e)
      simp [hji, this, ih']

theorem mem_keys_reKey (t : PyDict τ Nat) (m : PyDict Nat Nat) (j : Nat) :
    j ∈ keys (reKey t m) ↔ ∃ i ∈ keys m, rank t i = j := by
  simp [keys, reKey]

/-- what `compactify` needs in order not to raise -/
structure Compactable (d : Dct τ) : Prop where
  wf : WF d.token2id
  nodup : (values d.token2id).Nodup
  dfsWF : WF d.dfs
  cfsWF : WF d.cfs
  dfsKeys : ∀ i ∈ keys d.dfs, i ∈ values d.token2id
  cfsKeys : ∀ i ∈ keys d.cfs, i ∈ values d.token2id

theorem mem_values_of_mem {κ ν : Type} {t : PyDict κ ν} {p : κ × ν} (h : p ∈ t) : p.2 ∈ values t :=
  List.mem_map.mpr ⟨p, h, rfl⟩

theorem compactify_eq {d : Dct τ} (h : Compactable d) :
    compactify d = some { d with
      token2id := d.token2id.map (fun p => (p.1, rank d.token2id p.2))
      id2token := []
      dfs := reKey d.token2id d.dfs
      cfs := reKey d.token2id d.cfs } := by
  have e1 : mapOpt (fun p : τ × Nat => (get? (idmap d.token2id) p.2).map (fun i => (p.1, i)))
      d.token2id = some (d.token2id.map (fun p => (p.1, rank d.token2id p.2))) :=
    mapOpt_eq_some_map (fun p hp => by
      simp [get?_idmap _ h.nodup (mem_values_of_mem hp)])
  have e2 : mapOpt (fun p : Nat × Nat => (get? (idmap d.token2id) p.1).map (fun i => (i, p.2)))
      d.dfs = some (reKey d.token2id d.dfs) :=
    mapOpt_eq_some_map (fun p hp => by
      simp [get?_idmap _ h.nodup (h.dfsKeys p.1 (List.mem_map.mpr ⟨p, hp, rfl⟩))])
  have e3 : mapOpt (fun p : Nat × Nat => (get? (idmap d.token2id) p.1).map (fun i => (i, p.2)))
      d.cfs = some (reKey d.token2id d.cfs) :=
    mapOpt_eq_some_map (fun p hp => by
      simp [get?_idmap _ h.nodup (h.cfsKeys p.1 (List.mem_map.mpr ⟨p, hp, rfl⟩))])
  have w1 : WF (d.token2id.map (fun p => (p.1, rank d.token2id p.2))) := by
    have : keys (d.token2id.map (fun p => (p.1, rank d.token2id p.2))) = keys d.token2id := by
      simp [keys, Function.comp_def]
    unfold WF; rw [this]; exact h.wf
  simp only [compactify, e1, e2, e3, Option.bind_eq_bind, Option.bind_some]
  rw [ofPairs_of_WF w1, ofPairs_of_WF (WF_reKey _ h.dfsWF h.dfsKeys),
    ofPairs_of_WF (WF_reKey _ h.cfsWF h.cfsKeys)]

end Verif.Dictionary
