/-!
# Python dictionaries as association lists in insertion order

`PyDict κ ν` is a list of key/value pairs.  `set` keeps the position of an
existing key and appends a new key, exactly as CPython's `dict` does.  The
well-formedness condition `PyDict.WF` (no key twice) is preserved by every
operation used by the models.
-/

namespace Verif

/-- A Python `dict`: key/value pairs in insertion order. -/
abbrev PyDict (κ ν : Type) := List (κ × ν)

namespace PyDict

variable {κ ν μ : Type} [DecidableEq κ]

/-- `d.keys()` -/
def keys (d : PyDict κ ν) : List κ := d.map Prod.fst

/-- `d.values()` -/
def values (d : PyDict κ ν) : List ν := d.map Prod.snd

/-- `d.get(k)` -/
def get? : PyDict κ ν → κ → Option ν
  | [], _ => none
  | (k, v) :: d, x => if k = x then some v else get? d x

/-- `d.get(k, dflt)` -/
def getD (d : PyDict κ ν) (k : κ) (dflt : ν) : ν := (get? d k).getD dflt

/-- `k in d` -/
def contains (d : PyDict κ ν) (k : κ) : Bool := (get? d k).isSome

/-- `d[k] = v` -/
def set : PyDict κ ν → κ → ν → PyDict κ ν
  | [], x, w => [(x, w)]
  | (k, v) :: d, x, w => if k = x then (k, w) :: d else (k, v) :: set d x w

/-- `del d[k]` for a present key (`d.pop(k, None)` in general) -/
def erase : PyDict κ ν → κ → PyDict κ ν
  | [], _ => []
  | (k, v) :: d, x => if k = x then erase d x else (k, v) :: erase d x

/-- No key occurs twice. -/
def WF (d : PyDict κ ν) : Prop := (keys d).Nodup

omit [DecidableEq κ] in
@[simp] theorem keys_nil : keys ([] : PyDict κ ν) = [] := rfl
omit [DecidableEq κ] in
@[simp] theorem keys_cons (k : κ) (v : ν) (d : PyDict κ ν) : keys ((k, v) :: d) = k :: keys d := rfl
omit [DecidableEq κ] in
@[simp] theorem keys_append (d e : PyDict κ ν) : keys (d ++ e) = keys d ++ keys e := by
  simp [keys]
omit [DecidableEq κ] in
@[simp] theorem length_keys (d : PyDict κ ν) : (keys d).length = d.length := by simp [keys]

@[simp] theorem get?_nil (k : κ) : get? ([] : PyDict κ ν) k = none := rfl
theorem get?_cons (k : κ) (v : ν) (d : PyDict κ ν) (x : κ) :
    get? ((k, v) :: d) x = if k = x then some v else get? d x := rfl

theorem get?_eq_none_iff (d : PyDict κ ν) (k : κ) : get? d k = none ↔ k ∉ keys d := by
  induction d with
  | nil => simp
  | cons p d ih =>
    obtain ⟨a, v⟩ := p
    by_cases h : a = k
    · simp [get?_cons, h]
    · have h' : ¬ k = a := fun e => h e.symm
      simp [get?_cons, h, h', ih]

theorem get?_isSome_iff (d : PyDict κ ν) (k : κ) : (get? d k).isSome ↔ k ∈ keys d := by
  have h := get?_eq_none_iff d k
  cases hk : get? d k with
  | none => simp [h.mp hk]
  | some v =>
    have : k ∈ keys d := Classical.byContradiction fun hc => by
      have := h.mpr hc; rw [hk] at this; cases this
    simp [this]

theorem contains_iff (d : PyDict κ ν) (k : κ) : contains d k = true ↔ k ∈ keys d :=
  get?_isSome_iff d k

theorem mem_of_get? {d : PyDict κ ν} {k : κ} {v : ν} (h : get? d k = some v) : (k, v) ∈ d := by
  induction d with
  | nil => simp at h
  | cons p d ih =>
    obtain ⟨a, w⟩ := p
    by_cases hk : a = k
    · simp [get?_cons, hk] at h; simp [hk, h]
    · simp [get?_cons, hk] at h; exact List.mem_cons_of_mem _ (ih h)

omit [DecidableEq κ] in
theorem mem_keys_of_mem {d : PyDict κ ν} {k : κ} {v : ν} (h : (k, v) ∈ d) : k ∈ keys d :=
  List.mem_map.mpr ⟨(k, v), h, rfl⟩

theorem get?_of_mem {d : PyDict κ ν} (hd : WF d) {k : κ} {v : ν} (h : (k, v) ∈ d) :
    get? d k = some v := by
  induction d with
  | nil => simp at h
  | cons p d ih =>
    obtain ⟨a, w⟩ := p
    simp only [WF, keys_cons, List.nodup_cons] at hd
    rcases List.mem_cons.mp h with h | h
    · cases h; simp [get?_cons]
    · have : a ≠ k := by
        intro e; subst e; exact hd.1 (mem_keys_of_mem h)
      simp [get?_cons, this, ih hd.2 h]

theorem get?_eq_some_iff {d : PyDict κ ν} (hd : WF d) {k : κ} {v : ν} :
    get? d k = some v ↔ (k, v) ∈ d := ⟨mem_of_get?, get?_of_mem hd⟩

theorem get?_set (d : PyDict κ ν) (k x : κ) (v : ν) :
    get? (set d k v) x = if k = x then some v else get? d x := by
  induction d with
  | nil => simp [set, get?_cons]
  | cons p d ih =>
    obtain ⟨a, w⟩ := p
    by_cases h : a = k
    · subst h; by_cases hx : a = x <;> simp [set, get?_cons, hx]
    · by_cases hx : k = x
      · subst hx; simp [set, h, get?_cons, ih]
      · simp only [set, h, if_false, get?_cons, ih, hx]

@[simp] theorem get?_set_self (d : PyDict κ ν) (k : κ) (v : ν) : get? (set d k v) k = some v := by
  simp [get?_set]

theorem get?_set_ne (d : PyDict κ ν) {k x : κ} (h : k ≠ x) (v : ν) :
    get? (set d k v) x = get? d x := by simp [get?_set, h]

theorem keys_set_of_mem {d : PyDict κ ν} {k : κ} (h : k ∈ keys d) (v : ν) :
    keys (set d k v) = keys d := by
  induction d with
  | nil => simp at h
  | cons p d ih =>
    obtain ⟨a, w⟩ := p
    by_cases hk : a = k
    · simp [set, hk]
    · have h' : ¬ k = a := fun e => hk e.symm
      simp [h'] at h; simp [set, hk, ih h]

theorem set_of_not_mem {d : PyDict κ ν} {k : κ} (h : k ∉ keys d) (v : ν) :
    set d k v = d ++ [(k, v)] := by
  induction d with
  | nil => simp [set]
  | cons p d ih =>
    obtain ⟨a, w⟩ := p
    simp only [keys_cons, List.mem_cons, not_or] at h
    have : ¬ a = k := fun e => h.1 e.symm
    simp [set, this, ih h.2]

theorem keys_set_of_not_mem {d : PyDict κ ν} {k : κ} (h : k ∉ keys d) (v : ν) :
    keys (set d k v) = keys d ++ [k] := by simp [set_of_not_mem h]

theorem mem_keys_set (d : PyDict κ ν) (k x : κ) (v : ν) :
    x ∈ keys (set d k v) ↔ x = k ∨ x ∈ keys d := by
  by_cases h : k ∈ keys d
  · rw [keys_set_of_mem h]; constructor
    · exact Or.inr
    · rintro (rfl | h') <;> assumption
  · rw [keys_set_of_not_mem h]; simp [or_comm]

theorem WF_set {d : PyDict κ ν} (hd : WF d) (k : κ) (v : ν) : WF (set d k v) := by
  by_cases h : k ∈ keys d
  · simpa [WF, keys_set_of_mem h] using hd
  · simp only [WF, keys_set_of_not_mem h]
    rw [List.nodup_append]
    refine ⟨hd, by simp, ?_⟩
    intro a ha b hb; simp at hb; subst hb; intro e; subst e; exact h ha

omit [DecidableEq κ] in
@[simp] theorem WF_nil : WF ([] : PyDict κ ν) := by simp [WF]

theorem length_set_of_not_mem {d : PyDict κ ν} {k : κ} (h : k ∉ keys d) (v : ν) :
    (set d k v).length = d.length + 1 := by simp [set_of_not_mem h]

theorem length_set_of_mem {d : PyDict κ ν} {k : κ} (h : k ∈ keys d) (v : ν) :
    (set d k v).length = d.length := by
  rw [← length_keys, keys_set_of_mem h, length_keys]

theorem get?_erase (d : PyDict κ ν) (k x : κ) :
    get? (erase d k) x = if k = x then none else get? d x := by
  induction d with
  | nil => simp [erase]
  | cons p d ih =>
    obtain ⟨a, w⟩ := p
    by_cases h : a = k
    · subst h; rw [erase, if_pos rfl, ih]; by_cases hx : a = x <;> simp [get?_cons, hx]
    · by_cases hx : k = x
      · subst hx; simp [erase, h, get?_cons, ih]
      · simp only [erase, h, if_false, get?_cons, ih, hx]

theorem mem_erase {d : PyDict κ ν} {k : κ} {p : κ × ν} : p ∈ erase d k ↔ p ∈ d ∧ p.1 ≠ k := by
  induction d with
  | nil => simp [erase]
  | cons q d ih =>
    obtain ⟨a, w⟩ := q
    by_cases h : a = k
    · subst h; simp only [erase, if_true, ih, List.mem_cons]
      constructor
      · rintro ⟨h1, h2⟩; exact ⟨Or.inr h1, h2⟩
      · rintro ⟨rfl | h1, h2⟩
        · exact absurd rfl h2
        · exact ⟨h1, h2⟩
    · simp only [erase, h, if_false, List.mem_cons, ih]
      constructor
      · rintro (rfl | ⟨h1, h2⟩)
        · exact ⟨Or.inl rfl, h⟩
        · exact ⟨Or.inr h1, h2⟩
      · rintro ⟨rfl | h1, h2⟩
        · exact Or.inl rfl
        · exact Or.inr ⟨h1, h2⟩

omit [DecidableEq κ] in
theorem WF_filter {d : PyDict κ ν} (hd : WF d) (p : κ × ν → Bool) : WF (d.filter p) := by
  unfold WF keys at *
  exact List.Nodup.sublist (List.Sublist.map _ List.filter_sublist) hd

theorem get?_filter {d : PyDict κ ν} (hd : WF d) (p : κ × ν → Bool) (k : κ) :
    get? (d.filter p) k = (get? d k).filter (fun v => p (k, v)) := by
  induction d with
  | nil => simp
  | cons q d ih =>
    obtain ⟨a, w⟩ := q
    have hd' := hd
    simp only [WF, keys_cons, List.nodup_cons] at hd
    by_cases hk : a = k
    · subst hk
      by_cases hp : p (a, w)
      · simp [hp, get?_cons, Option.filter]
      · have : get? d a = none := (get?_eq_none_iff _ _).mpr hd.1
        simp [hp, get?_cons, ih hd.2, this, Option.filter]
    · by_cases hp : p (a, w) <;> simp [hp, get?_cons, hk, ih hd.2]

theorem get?_append (d e : PyDict κ ν) (k : κ) :
    get? (d ++ e) k = (get? d k).or (get? e k) := by
  induction d with
  | nil => simp
  | cons q d ih =>
    obtain ⟨a, w⟩ := q
    by_cases h : a = k <;> simp [get?_cons, h, ih]

/-- dict comprehension over the values, keys unchanged -/
def mapVal (f : κ → ν → μ) (d : PyDict κ ν) : PyDict κ μ := d.map (fun p => (p.1, f p.1 p.2))

omit [DecidableEq κ] in
@[simp] theorem keys_mapVal (f : κ → ν → μ) (d : PyDict κ ν) : keys (mapVal f d) = keys d := by
  simp [keys, mapVal, Function.comp_def]

theorem get?_mapVal (f : κ → ν → μ) (d : PyDict κ ν) (k : κ) :
    get? (mapVal f d) k = (get? d k).map (f k) := by
  induction d with
  | nil => simp [mapVal]
  | cons q d ih =>
    obtain ⟨a, w⟩ := q
    simp only [mapVal, List.map_cons, get?_cons] at *
    by_cases h : a = k
    · subst h; simp
    · simp [h, ih]

/-- Build a dict from pairs, later assignments winning: `{k: v for k, v in pairs}`. -/
def ofPairs (ps : List (κ × ν)) : PyDict κ ν := ps.foldl (fun d p => set d p.1 p.2) []

theorem WF_foldl_set (ps : List (κ × ν)) {d : PyDict κ ν} (hd : WF d) :
    WF (ps.foldl (fun d p => set d p.1 p.2) d) := by
  induction ps generalizing d with
  | nil => exact hd
  | cons p ps ih => exact ih (WF_set hd _ _)

theorem WF_ofPairs (ps : List (κ × ν)) : WF (ofPairs ps) := WF_foldl_set ps WF_nil

theorem foldl_set_of_nodup (ps : List (κ × ν)) (d : PyDict κ ν)
    (h : (keys d ++ keys ps).Nodup) :
    ps.foldl (fun d p => set d p.1 p.2) d = d ++ ps := by
  induction ps generalizing d with
  | nil => simp
  | cons p ps ih =>
    obtain ⟨k, v⟩ := p
    have hk : k ∉ keys d := by
      intro hm
      rw [List.nodup_append] at h
      exact h.2.2 k hm k (by simp) rfl
    rw [List.foldl_cons, set_of_not_mem hk, ih]
    · simp
    · simpa using h

theorem ofPairs_of_WF {ps : List (κ × ν)} (h : WF ps) : ofPairs ps = ps := by
  have := foldl_set_of_nodup ps [] (by simpa [WF] using h)
  simpa [ofPairs] using this

end PyDict
end Verif
