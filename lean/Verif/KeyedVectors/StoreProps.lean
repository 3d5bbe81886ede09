import Mathlib.Tactic.Common
import Mathlib.Data.List.Nodup
import Verif.KeyedVectors.Model

/-!
# C38: KeyedVectors returns what was stored
-/

namespace Verif.KV

open Verif PyDict

variable {κ V N : Type} [DecidableEq κ]

/-! ## Specification: a dictionary -/

/-- store a vector for a key, unless there is one and it is not to be replaced -/
def put (replace : Bool) (d : PyDict κ V) (p : κ × V) : PyDict κ V :=
  if d.contains p.1 = true ∧ replace = false then d else d.set p.1 p.2

/-- the effect of an operation on the dictionary -/
def specStep (d : PyDict κ V) : Op κ V → PyDict κ V
  | .addVectors items r => items.foldl (put r) d
  | .addVector k v => put false d (k, v)
  | .fillNorms => d

/-- what is asked of the caller: keys are not integers; a batch does not contain the same new key twice; `add_vector`
into a preallocated slot is given a new key -/
def Allowed (asInt : κ → Option Int) (s : Store κ V N) (d : PyDict κ V) : Op κ V → Prop
  | .addVectors items _ => (∀ p ∈ items, asInt p.1 = none) ∧ ((items.map Prod.fst).filter (fun k => k ∉ d.keys)).Nodup
  | .addVector k _ => asInt k = none ∧ (k ∈ d.keys → ¬ s.indexToKey[s.nextIndex]? = some none)
  | .fillNorms => True

/-- a history, every operation of which is allowed -/
inductive History (asInt : κ → Option Int) (norm : V → N) : Store κ V N → PyDict κ V → List (Op κ V) →
    Store κ V N → PyDict κ V → Prop where
  | nil (s d) : History asInt norm s d [] s d
  | cons {s d op ops t e} : Allowed asInt s d op →
      History asInt norm (step asInt norm s op) (specStep d op) ops t e → History asInt norm s d (op :: ops) t e

/-- the store represents the dictionary -/
structure Repr (s : Store κ V N) (d : PyDict κ V) : Prop where
  wf : WF d
  kwf : WF s.keyToIndex
  len : s.vectors.length = s.indexToKey.length
  bij : ∀ (k : κ) (i : Nat), s.keyToIndex.get? k = some i ↔ s.indexToKey[i]? = some (some k)
  val : ∀ k : κ, d.get? k = (s.keyToIndex.get? k).bind (fun i => s.vectors[i]?)

/-! ## Proofs -/

theorem repr_new (zero : V) (count : Nat) : Repr (new zero count : Store κ V N) [] := by
  refine ⟨WF_nil, WF_nil, by simp [new], ?_, ?_⟩
  · intro k i
    constructor
    · intro h; simp [new] at h
    · intro h
      simp only [new, List.getElem?_replicate] at h
      split at h <;> simp at h
  · intro k; simp [new]

theorem Repr.isSome {s : Store κ V N} {d : PyDict κ V} (h : Repr s d) (k : κ) :
    (s.keyToIndex.get? k).isSome = (d.get? k).isSome := by
  rw [h.val k]
  cases hk : s.keyToIndex.get? k with
  | none => rfl
  | some i =>
    have hi := (List.getElem?_eq_some_iff.mp ((h.bij k i).mp hk)).1
    rw [← h.len] at hi
    simp [List.getElem?_eq_getElem hi]

theorem getIndex_eq {asInt : κ → Option Int} {k : κ} (hk : asInt k = none) (s : Store κ V N) :
    getIndex asInt s k = s.keyToIndex.get? k := by
  unfold getIndex
  cases s.keyToIndex.get? k with
  | none => simp [hk]
  | some i => rfl

theorem Repr.has_iff {asInt : κ → Option Int} {s : Store κ V N} {d : PyDict κ V} (h : Repr s d) {k : κ}
    (hk : asInt k = none) : has asInt s k = d.contains k := by
  unfold has contains
  rw [getIndex_eq hk, h.isSome]

theorem contains_false_iff {d : PyDict κ V} {k : κ} : d.contains k = false ↔ k ∉ d.keys := by
  rw [← contains_iff]; simp

/-- append one new key with its vector -/
def append1 (s : Store κ V N) (p : κ × V) : Store κ V N :=
  { s with keyToIndex := s.keyToIndex.set p.1 s.indexToKey.length,
           indexToKey := s.indexToKey ++ [some p.1], vectors := s.vectors ++ [p.2] }

theorem repr_append1 {s : Store κ V N} {d : PyDict κ V} (h : Repr s d) {k : κ} {v : V} (hk : k ∉ d.keys) :
    Repr (append1 s (k, v)) (d.set k v) := by
  have hnone : s.keyToIndex.get? k = none := by
    have := h.isSome k
    rw [(get?_eq_none_iff d k).mpr hk] at this
    simpa using this
  refine ⟨WF_set h.wf _ _, WF_set h.kwf _ _, by simp [append1, h.len], ?_, ?_⟩
  · intro x i
    simp only [append1, get?_set]
    split
    · rename_i hx
      subst hx
      constructor
      · intro e
        obtain rfl := Option.some.inj e
        simp
      · intro e
        rcases Nat.lt_trichotomy i s.indexToKey.length with hi | hi | hi
        · rw [List.getElem?_append_left hi] at e
          rw [(h.bij k i).mpr e] at hnone
          simp at hnone
        · rw [hi]
        · rw [List.getElem?_eq_none (by simp; omega)] at e; simp at e
    · rename_i hx
      rw [h.bij x i]
      constructor
      · intro e
        rw [List.getElem?_append_left (List.getElem?_eq_some_iff.mp e).1]; exact e
      · intro e
        rcases Nat.lt_trichotomy i s.indexToKey.length with hi | hi | hi
        · rwa [List.getElem?_append_left hi] at e
        · subst hi
          simp at e; exact absurd e hx
        · rw [List.getElem?_eq_none (by simp; omega)] at e; simp at e
  · intro x
    simp only [append1, get?_set]
    split
    · rw [Option.bind_some, ← h.len]; simp
    · rw [h.val x]
      cases hx : s.keyToIndex.get? x with
      | none => rfl
      | some i =>
        have hi := (List.getElem?_eq_some_iff.mp ((h.bij x i).mp hx)).1
        rw [Option.bind_some, Option.bind_some, List.getElem?_append_left (by rw [h.len]; exact hi)]

theorem addKeys_eq (l : List (κ × V)) : ∀ s : Store κ V N,
    { addKeys s l with vectors := (addKeys s l).vectors ++ l.map Prod.snd } = l.foldl append1 s := by
  have hv : ∀ (l : List (κ × V)) (s : Store κ V N) (vs : List V),
      addKeys { s with vectors := vs } l = { addKeys s l with vectors := vs } := by
    intro l
    induction l with
    | nil => intro s vs; rfl
    | cons p l ih =>
      intro s vs
      simp only [addKeys, List.foldl_cons] at ih ⊢
      rw [← ih]
  induction l with
  | nil => intro s; simp [addKeys]
  | cons p l ih =>
    intro s
    rw [List.foldl_cons, ← ih]
    have e : addKeys (append1 s p) l = { addKeys s (p :: l) with vectors := s.vectors ++ [p.2] } := by
      have := hv l { s with keyToIndex := s.keyToIndex.set p.1 s.indexToKey.length,
                            indexToKey := s.indexToKey ++ [some p.1] } (s.vectors ++ [p.2])
      exact this
    have e2 : (addKeys s (p :: l)).vectors = s.vectors := by
      have := congrArg Store.vectors (hv (p :: l) s s.vectors)
      exact this
    rw [e]
    simp [e2]

theorem repr_foldl_append1 : ∀ (l : List (κ × V)) {s : Store κ V N} {d : PyDict κ V}, Repr s d →
    (l.map Prod.fst).Nodup → (∀ p ∈ l, p.1 ∉ d.keys) →
    Repr (l.foldl append1 s) (l.foldl (fun d p => d.set p.1 p.2) d) := by
  intro l
  induction l with
  | nil => intro s d h _ _; exact h
  | cons p l ih =>
    intro s d h hn hd
    rw [List.map_cons, List.nodup_cons] at hn
    apply ih (repr_append1 h (hd p List.mem_cons_self)) hn.2
    intro q hq
    rw [mem_keys_set]
    rintro (e | e)
    · exact hn.1 (e ▸ List.mem_map_of_mem hq)
    · exact hd q (List.mem_cons_of_mem _ hq) e

theorem repr_setRow {s : Store κ V N} {d : PyDict κ V} (h : Repr s d) {k : κ} {v : V} {i : Nat}
    (hi : s.keyToIndex.get? k = some i) : Repr { s with vectors := s.vectors.set i v } (d.set k v) := by
  refine ⟨WF_set h.wf _ _, h.kwf, by simp [h.len], h.bij, ?_⟩
  intro x
  have hil := (List.getElem?_eq_some_iff.mp ((h.bij k i).mp hi)).1
  rw [get?_set]
  dsimp only
  split
  · rename_i hx
    subst hx
    rw [hi, Option.bind_some, List.getElem?_set_self (by rw [h.len]; exact hil)]
  · rename_i hx
    rw [h.val x]
    cases hj : s.keyToIndex.get? x with
    | none => rfl
    | some j =>
      have hij : i ≠ j := by
        rintro rfl
        have h1 := (h.bij k i).mp hi
        have h2 := (h.bij x i).mp hj
        rw [h1] at h2
        exact hx (Option.some.inj (Option.some.inj h2))
      rw [Option.bind_some, Option.bind_some, List.getElem?_set_ne hij]

theorem repr_setRows (asInt : κ → Option Int) : ∀ (l : List (κ × V)) {s : Store κ V N} {d : PyDict κ V}, Repr s d →
    (∀ p ∈ l, p.1 ∈ d.keys ∧ asInt p.1 = none) →
    Repr { s with vectors := setRows s.vectors (l.filterMap (fun p => (getIndex asInt s p.1).map (fun i => (i, p.2)))) }
      (l.foldl (fun d p => d.set p.1 p.2) d) := by
  intro l
  induction l with
  | nil => intro s d h _; exact h
  | cons p l ih =>
    intro s d h hp
    obtain ⟨hpd, hpi⟩ := hp p List.mem_cons_self
    have hsome := h.isSome p.1
    rw [(get?_isSome_iff d p.1).mpr hpd] at hsome
    obtain ⟨i, hi⟩ := Option.isSome_iff_exists.mp hsome
    have h1 := repr_setRow h (v := p.2) hi
    have h2 := ih h1 (by
      intro q hq
      refine ⟨?_, (hp q (List.mem_cons_of_mem _ hq)).2⟩
      rw [mem_keys_set]
      exact .inr (hp q (List.mem_cons_of_mem _ hq)).1)
    have e : getIndex asInt s p.1 = some i := by rw [getIndex_eq hpi, hi]
    have e3 : ∀ q : κ × V, getIndex asInt { s with vectors := s.vectors.set i p.2 } q.1 = getIndex asInt s q.1 :=
      fun q => rfl
    rw [List.filterMap_cons_some (by rw [e]; rfl)]
    simp only [e3] at h2
    exact h2

theorem get?_foldl_filter (p : κ → Bool) (x : κ) (hx : p x = true) : ∀ (l : List (κ × V)) (d d' : PyDict κ V),
    d.get? x = d'.get? x →
    ((l.filter (fun q => p q.1)).foldl (fun d q => d.set q.1 q.2) d).get? x =
      (l.foldl (fun d q => d.set q.1 q.2) d').get? x := by
  intro l
  induction l with
  | nil => intro d d' h; exact h
  | cons q l ih =>
    intro d d' h
    by_cases hq : p q.1 = true
    · rw [List.filter_cons_of_pos (p := fun q : κ × V => p q.1) hq]
      apply ih
      simp only [get?_set, h]
    · rw [List.filter_cons_of_neg (p := fun q : κ × V => p q.1) hq]
      apply ih
      rw [get?_set_ne _ (by rintro e; exact hq (e ▸ hx))]
      exact h

theorem get?_foldl_filter_not (p : κ → Bool) (x : κ) (hx : p x = false) : ∀ (l : List (κ × V)) (d : PyDict κ V),
    ((l.filter (fun q => p q.1)).foldl (fun d q => d.set q.1 q.2) d).get? x = d.get? x := by
  intro l
  induction l with
  | nil => intro d; rfl
  | cons q l ih =>
    intro d
    by_cases hq : p q.1 = true
    · rw [List.filter_cons_of_pos (p := fun q : κ × V => p q.1) hq, List.foldl_cons, ih, get?_set_ne]
      rintro e
      rw [e, hx] at hq
      simp at hq
    · rw [List.filter_cons_of_neg (p := fun q : κ × V => p q.1) hq, ih]

theorem WF_foldl (l : List (κ × V)) : ∀ {d : PyDict κ V}, WF d → WF (l.foldl (fun d p => d.set p.1 p.2) d) := by
  induction l with
  | nil => intro d h; exact h
  | cons p l ih => intro d h; exact ih (WF_set h _ _)

/-- without replacing, the batch adds its new keys -/
theorem foldl_put_false : ∀ (l : List (κ × V)) (d : PyDict κ V),
    ((l.map Prod.fst).filter (fun k => k ∉ d.keys)).Nodup →
    l.foldl (put false) d = (l.filter (fun q => !d.contains q.1)).foldl (fun d p => d.set p.1 p.2) d := by
  intro l
  induction l with
  | nil => intro d _; rfl
  | cons p l ih =>
    intro d hn
    rw [List.foldl_cons, put]
    by_cases hp : d.contains p.1 = true
    · rw [if_pos ⟨hp, rfl⟩, List.filter_cons_of_neg (by simp [hp])]
      apply ih
      rw [List.map_cons, List.filter_cons_of_neg (by simpa using (contains_iff d p.1).mp hp)] at hn
      exact hn
    · have hp' : d.contains p.1 = false := by simpa using hp
      have hpk := contains_false_iff.mp hp'
      rw [if_neg (by simp [hp']), List.filter_cons_of_pos (by simp [hp']), List.foldl_cons]
      rw [List.map_cons, List.filter_cons_of_pos (by simpa using hpk), List.nodup_cons] at hn
      have hnot : ∀ q ∈ l, q.1 ≠ p.1 := by
        intro q hq e
        apply hn.1
        rw [List.mem_filter]
        exact ⟨e ▸ List.mem_map_of_mem hq, by simpa using hpk⟩
      have e1 : l.filter (fun q => !(d.set p.1 p.2).contains q.1) = l.filter (fun q => !d.contains q.1) := by
        apply List.filter_congr
        intro q hq
        unfold contains
        rw [get?_set_ne _ (fun e => hnot q hq e.symm)]
      rw [ih, e1]
      have e2 : (l.map Prod.fst).filter (fun k => k ∉ (d.set p.1 p.2).keys) =
          (l.map Prod.fst).filter (fun k => k ∉ d.keys) := by
        apply List.filter_congr
        intro k hk
        obtain ⟨q, hq, rfl⟩ := List.mem_map.mp hk
        have := hnot q hq
        simp [mem_keys_set, this]
      rw [e2]
      exact hn.2

theorem foldl_put_true (l : List (κ × V)) (d : PyDict κ V) :
    l.foldl (put true) d = l.foldl (fun d p => d.set p.1 p.2) d := by
  have : (put true : PyDict κ V → κ × V → PyDict κ V) = fun d p => d.set p.1 p.2 := by
    funext d p; simp [put]
  rw [this]

theorem mem_foldl_set (l : List (κ × V)) : ∀ (d : PyDict κ V) (x : κ), x ∈ d.keys →
    x ∈ (l.foldl (fun d p => d.set p.1 p.2) d).keys := by
  induction l with
  | nil => intro d x h; exact h
  | cons p l ih => intro d x h; exact ih _ x ((mem_keys_set _ _ _ _).mpr (.inr h))

theorem repr_congr {s : Store κ V N} {d e : PyDict κ V} (h : Repr s d) (hw : WF e) (he : ∀ k, d.get? k = e.get? k) :
    Repr s e := ⟨hw, h.kwf, h.len, h.bij, fun k => by rw [← he, h.val]⟩

theorem addVectors_eq (asInt : κ → Option Int) (s : Store κ V N) (items : List (κ × V)) (r : Bool) :
    addVectors asInt s items r =
      if r then
        { (items.filter (fun p => !has asInt s p.1)).foldl append1 s with
          vectors := setRows ((items.filter (fun p => !has asInt s p.1)).foldl append1 s).vectors
            ((items.filter (fun p => has asInt s p.1)).filterMap (fun p =>
              (getIndex asInt ((items.filter (fun p => !has asInt s p.1)).foldl append1 s) p.1).map (fun i => (i, p.2)))) }
      else (items.filter (fun p => !has asInt s p.1)).foldl append1 s := by
  rw [← addKeys_eq]
  rfl

theorem repr_addVectors {asInt : κ → Option Int} {s : Store κ V N} {d : PyDict κ V} (h : Repr s d)
    (items : List (κ × V)) (r : Bool) (hi : ∀ p ∈ items, asInt p.1 = none)
    (hn : ((items.map Prod.fst).filter (fun k => k ∉ d.keys)).Nodup) :
    Repr (addVectors asInt s items r) (items.foldl (put r) d) := by
  have ek : items.filter (fun p => has asInt s p.1) = items.filter (fun p => d.contains p.1) :=
    List.filter_congr (fun p hp => h.has_iff (hi p hp))
  have eu : items.filter (fun p => !has asInt s p.1) = items.filter (fun p => !d.contains p.1) :=
    List.filter_congr (fun p hp => by rw [h.has_iff (hi p hp)])
  have hnew : Repr ((items.filter (fun p => !d.contains p.1)).foldl append1 s)
      ((items.filter (fun p => !d.contains p.1)).foldl (fun d p => d.set p.1 p.2) d) := by
    apply repr_foldl_append1 _ h
    · have : (items.filter (fun p => !d.contains p.1)).map Prod.fst =
          (items.map Prod.fst).filter (fun k => k ∉ d.keys) := by
        rw [List.filter_map]
        congr 1
        apply List.filter_congr
        intro p _
        by_cases hp : p.1 ∈ d.keys
        · have := (contains_iff d p.1).mpr hp
          simp [hp, this]
        · have := contains_false_iff.mpr hp
          simp [hp, this]
      rw [this]
      exact hn
    · intro p hp
      have := (List.mem_filter.mp hp).2
      exact contains_false_iff.mp (by simpa using this)
  rw [addVectors_eq, ek, eu]
  cases r with
  | false =>
    rw [if_neg (by simp), foldl_put_false _ _ hn]
    exact hnew
  | true =>
    rw [if_pos rfl, foldl_put_true]
    have h2 := repr_setRows asInt (items.filter (fun p => d.contains p.1)) hnew (by
      intro p hp
      obtain ⟨hp1, hp2⟩ := List.mem_filter.mp hp
      exact ⟨mem_foldl_set _ _ _ ((contains_iff d p.1).mp hp2), hi p hp1⟩)
    apply repr_congr h2 (WF_foldl _ h.wf)
    intro x
    cases hx : d.contains x with
    | true =>
      apply get?_foldl_filter (fun k => d.contains k) x hx
      exact get?_foldl_filter_not (fun k => !d.contains k) x (by simp [hx]) items d
    | false =>
      rw [get?_foldl_filter_not (fun k => d.contains k) x hx]
      exact get?_foldl_filter (fun k => !d.contains k) x (by simp [hx]) items d d rfl

theorem repr_addVector {asInt : κ → Option Int} {s : Store κ V N} {d : PyDict κ V} (h : Repr s d) (k : κ) (v : V)
    (hi : asInt k = none) (hk : k ∈ d.keys → ¬ s.indexToKey[s.nextIndex]? = some none) :
    Repr (addVector asInt s k v).1 (put false d (k, v)) := by
  unfold addVector
  split
  · have := repr_addVectors h [(k, v)] false (by simpa using hi)
      ((List.nodup_singleton _).sublist List.filter_sublist)
    exact ⟨this.wf, this.kwf, this.len, this.bij, this.val⟩
  · rename_i hc
    have hslot : s.indexToKey[s.nextIndex]? = some none := by
      by_contra hcon; exact hc (.inr hcon)
    have hlt : s.nextIndex < s.indexToKey.length := (List.getElem?_eq_some_iff.mp hslot).1
    have hkd : k ∉ d.keys := fun hcon => hk hcon hslot
    have hnone : s.keyToIndex.get? k = none := by
      have := h.isSome k
      rw [(get?_eq_none_iff d k).mpr hkd] at this
      simpa using this
    rw [put, if_neg (by simp [contains_false_iff.mpr hkd])]
    refine ⟨WF_set h.wf _ _, WF_set h.kwf _ _, by simp [h.len], ?_, ?_⟩
    · intro x i
      dsimp only
      rw [get?_set]
      split
      · rename_i hx
        subst hx
        constructor
        · intro e
          obtain rfl := Option.some.inj e
          rw [List.getElem?_set_self hlt]
        · intro e
          by_cases hii : s.nextIndex = i
          · rw [hii]
          · rw [List.getElem?_set_ne hii] at e
            rw [(h.bij k i).mpr e] at hnone
            simp at hnone
      · rename_i hx
        rw [h.bij x i]
        by_cases hii : s.nextIndex = i
        · subst hii
          rw [List.getElem?_set_self hlt, hslot]
          simp [hx]
        · rw [List.getElem?_set_ne hii]
    · intro x
      dsimp only
      rw [get?_set, get?_set]
      split
      · rw [Option.bind_some, List.getElem?_set_self (by rw [h.len]; exact hlt)]
      · rw [h.val x]
        cases hx : s.keyToIndex.get? x with
        | none => rfl
        | some i =>
          have hii : s.nextIndex ≠ i := by
            rintro rfl
            have := (h.bij x s.nextIndex).mp hx
            rw [hslot] at this
            simp at this
          rw [Option.bind_some, Option.bind_some, List.getElem?_set_ne hii]

theorem repr_step {asInt : κ → Option Int} {norm : V → N} {s : Store κ V N} {d : PyDict κ V} (h : Repr s d)
    (op : Op κ V) (ha : Allowed asInt s d op) : Repr (step asInt norm s op) (specStep d op) := by
  cases op with
  | addVectors items r => exact repr_addVectors h items r ha.1 ha.2
  | addVector k v => exact repr_addVector h k v ha.1 ha.2
  | fillNorms =>
    change Repr (fillNorms norm s) d
    unfold fillNorms
    split
    · exact ⟨h.wf, h.kwf, h.len, h.bij, h.val⟩
    · exact h

theorem repr_history {asInt : κ → Option Int} {norm : V → N} {s t : Store κ V N} {d e : PyDict κ V} {ops : List (Op κ V)}
    (hist : History asInt norm s d ops t e) (h : Repr s d) : Repr t e := by
  induction hist with
  | nil => exact h
  | cons ha _ ih => exact ih (repr_step h _ ha)

/-- **C38.** After every allowed history, starting with any number of preallocated slots: `kv[k]` is what a
dictionary with the same history holds for `k` (the last vector stored, or the first if not replaced), `k in kv`
says whether there is one, and `key_to_index` and `index_to_key` are inverse to each other. -/
theorem C38_lookup {asInt : κ → Option Int} {norm : V → N} (zero : V) (count : Nat) {s : Store κ V N} {d : PyDict κ V}
    {ops : List (Op κ V)} (hist : History asInt norm (new zero count) [] ops s d) (k : κ) (hk : asInt k = none) :
    getVector asInt s k = d.get? k ∧ has asInt s k = d.contains k ∧
    (∀ i, s.keyToIndex.get? k = some i ↔ s.indexToKey[i]? = some (some k)) ∧
    s.vectors.length = s.indexToKey.length := by
  have h := repr_history hist (repr_new zero count)
  refine ⟨?_, h.has_iff hk, h.bij k, h.len⟩
  unfold getVector
  rw [getIndex_eq hk, h.val]

/-! ### Without preallocated slots: the rows are the keys in order of insertion -/

theorem keys_foldl_put (r : Bool) : ∀ (l : List (κ × V)) (d : PyDict κ V),
    ((l.map Prod.fst).filter (fun k => k ∉ d.keys)).Nodup →
    (l.foldl (put r) d).keys = d.keys ++ (l.map Prod.fst).filter (fun k => k ∉ d.keys) := by
  intro l
  induction l with
  | nil => intro d _; simp
  | cons p l ih =>
    intro d hn
    rw [List.foldl_cons]
    by_cases hp : p.1 ∈ d.keys
    · rw [List.map_cons, List.filter_cons_of_neg (by simpa using hp)] at hn ⊢
      have ek : (put r d p).keys = d.keys := by
        unfold put
        split
        · rfl
        · exact keys_set_of_mem hp _
      rw [ih _ (by rw [ek]; exact hn), ek]
    · rw [List.map_cons, List.filter_cons_of_pos (by simpa using hp)] at hn ⊢
      rw [List.nodup_cons] at hn
      have ek : (put r d p).keys = d.keys ++ [p.1] := by
        unfold put
        rw [if_neg (by simp [contains_false_iff.mpr hp]), keys_set_of_not_mem hp]
      have e2 : (l.map Prod.fst).filter (fun k => k ∉ (put r d p).keys) =
          (l.map Prod.fst).filter (fun k => k ∉ d.keys) := by
        apply List.filter_congr
        intro k hk
        have : k ∉ d.keys → k ≠ p.1 := by
          rintro h rfl
          exact hn.1 (List.mem_filter.mpr ⟨hk, by simpa using h⟩)
        rw [ek, decide_eq_decide]
        simp only [List.mem_append, List.mem_singleton, not_or]
        exact ⟨fun h => h.1, fun h => ⟨h, this h⟩⟩
      rw [ih _ (by rw [e2]; exact hn.2), e2, ek, List.append_assoc]
      rfl

theorem addKeys_indexToKey (l : List (κ × V)) : ∀ s : Store κ V N,
    (addKeys s l).indexToKey = s.indexToKey ++ l.map (fun p => some p.1) := by
  induction l with
  | nil => intro s; simp [addKeys]
  | cons p l ih =>
    intro s
    have := ih { s with keyToIndex := s.keyToIndex.set p.1 s.indexToKey.length,
                        indexToKey := s.indexToKey ++ [some p.1] }
    simp only [addKeys, List.foldl_cons] at this ⊢
    rw [this]
    simp

theorem addVectors_indexToKey {asInt : κ → Option Int} {s : Store κ V N} {d : PyDict κ V} (h : Repr s d)
    (ho : s.indexToKey = d.keys.map some) (items : List (κ × V)) (r : Bool) (hi : ∀ p ∈ items, asInt p.1 = none)
    (hn : ((items.map Prod.fst).filter (fun k => k ∉ d.keys)).Nodup) :
    (addVectors asInt s items r).indexToKey = (items.foldl (put r) d).keys.map some := by
  have e : (addVectors asInt s items r).indexToKey =
      (addKeys s (items.filter (fun p => !has asInt s p.1))).indexToKey := by
    unfold addVectors
    dsimp only
    split <;> rfl
  rw [e, addKeys_indexToKey, keys_foldl_put r _ _ hn, ho, List.map_append]
  congr 1
  rw [List.filter_map, List.map_map]
  have : items.filter (fun p => !has asInt s p.1) = items.filter ((fun k => decide (k ∉ d.keys)) ∘ Prod.fst) := by
    apply List.filter_congr
    intro p hp
    rw [h.has_iff (hi p hp)]
    by_cases hpd : p.1 ∈ d.keys
    · have := (contains_iff d p.1).mpr hpd
      simp [hpd, this]
    · have := contains_false_iff.mpr hpd
      simp [hpd, this]
  rw [this]
  rfl

theorem order_step {asInt : κ → Option Int} {norm : V → N} {s : Store κ V N} {d : PyDict κ V} (h : Repr s d)
    (ho : s.indexToKey = d.keys.map some) (op : Op κ V) (ha : Allowed asInt s d op) :
    (step asInt norm s op).indexToKey = (specStep d op).keys.map some := by
  cases op with
  | addVectors items r => exact addVectors_indexToKey h ho items r ha.1 ha.2
  | addVector k v =>
    have hc : s.indexToKey.length ≤ s.nextIndex ∨ s.indexToKey[s.nextIndex]? ≠ some none := by
      right
      rw [ho, List.getElem?_map]
      cases d.keys[s.nextIndex]? <;> simp
    change (addVector asInt s k v).1.indexToKey = (put false d (k, v)).keys.map some
    unfold addVector
    rw [if_pos hc]
    exact addVectors_indexToKey h ho [(k, v)] false (by simpa using ha.1)
      ((List.nodup_singleton _).sublist List.filter_sublist)
  | fillNorms =>
    change (fillNorms norm s).indexToKey = d.keys.map some
    unfold fillNorms
    split
    · exact ho
    · exact ho

/-- **C38.** Without preallocated slots `index_to_key` lists exactly the keys in order of their first insertion;
so `len(kv)` is the number of keys. -/
theorem C38_order {asInt : κ → Option Int} {norm : V → N} (zero : V) {s : Store κ V N} {d : PyDict κ V}
    {ops : List (Op κ V)} (hist : History asInt norm (new zero 0) [] ops s d) :
    s.indexToKey = d.keys.map some ∧ d.keys.Nodup := by
  have : ∀ {s t : Store κ V N} {d e : PyDict κ V} {ops : List (Op κ V)}, History asInt norm s d ops t e → Repr s d →
      s.indexToKey = d.keys.map some → t.indexToKey = e.keys.map some := by
    intro s t d e ops hist
    induction hist with
    | nil => intro _ h; exact h
    | cons ha _ ih => intro h ho; exact ih (repr_step h _ ha) (order_step h ho _ ha)
  exact ⟨this hist (repr_new zero 0) (by simp [new]), (repr_history hist (repr_new zero 0)).wf⟩

/-- **C38.** An integer that is not a key addresses a row by its number. -/
theorem C38_row_number {asInt : κ → Option Int} (s : Store κ V N) (k : κ) (i : Nat) (hk : asInt k = some (i : Int))
    (hn : s.keyToIndex.get? k = none) (hi : i < s.indexToKey.length) : getVector asInt s k = s.vectors[i]? := by
  unfold getVector getIndex
  rw [hn, hk]
  simp [hi]

/-! ### What goes wrong otherwise -/

/-- keys for the witnesses: integers and strings -/
def exInt : Int ⊕ String → Option Int
  | .inl i => some i
  | .inr _ => none

/-- a batch with the same new key twice: the key occupies two rows -/
theorem C38_duplicate_in_batch :
    (addVectors exInt (new 0 0 : Store (Int ⊕ String) Nat Nat) [(.inr "a", 1), (.inr "a", 2)] false).indexToKey =
      [some (.inr "a"), some (.inr "a")] := by decide +kernel

/-- an integer key below the number of rows is taken for a row number: it is not added, and with `replace` it
overwrites the vector of another key -/
theorem C38_integer_key :
    let kv := addVectors exInt (new 0 0 : Store (Int ⊕ String) Nat Nat) [(.inr "a", 1), (.inr "b", 2)] false
    getVector exInt (addVectors exInt kv [(.inl 0, 7)] false) (.inl 0) = some 1 ∧
    getVector exInt (addVectors exInt kv [(.inl 0, 7)] true) (.inr "a") = some 7 := by decide +kernel

/-- `add_vector` with a key that is present stores nothing but returns an index that is no row -/
theorem C38_add_vector_index :
    let kv := addVectors exInt (new 0 0 : Store (Int ⊕ String) Nat Nat) [(.inr "a", 1)] false
    (addVector exInt kv (.inr "a") 5).2 = 1 ∧ (addVector exInt kv (.inr "a") 5).1.vectors = [1] := by decide +kernel

/-- cached norms are not dropped when vectors change: `get_vector(k, norm=True)` divides by the old norm -/
theorem C38_stale_norm :
    let kv := addVectors exInt (new 0 0 : Store (Int ⊕ String) Nat Nat) [(.inr "a", 1)] false
    let kv := step exInt (fun v : Nat => v) kv .fillNorms
    let kv := step exInt (fun v : Nat => v) kv (.addVectors [(.inr "a", 5)] true)
    getNormed exInt (fun v : Nat => v) kv (.inr "a") = some (5, 1) := by decide +kernel

/-- **C38.** As long as no norms are cached, the norm is that of the vector. -/
theorem C38_norm {asInt : κ → Option Int} (norm : V → N) (s : Store κ V N) (hs : s.norms = none) (k : κ) :
    getNormed asInt norm s k = (getVector asInt s k).map (fun v => (v, norm v)) := by
  unfold getNormed getVector fillNorms
  rw [hs]
  dsimp only
  have e : getIndex asInt ({ s with norms := some (s.vectors.map norm) } : Store κ V N) k = getIndex asInt s k := rfl
  rw [e]
  cases getIndex asInt s k with
  | none => rfl
  | some i =>
    simp only [Option.bind_some, List.getElem?_map]
    cases s.vectors[i]? with
    | none => rfl
    | some v => rfl

/-- a history with every operation -/
example : History exInt (fun v : Nat => v) (new 0 1 : Store (Int ⊕ String) Nat Nat) []
    [.addVector (.inr "a") 1, .addVectors [(.inr "b", 2), (.inr "a", 3), (.inr "c", 4)] true, .fillNorms,
      .addVectors [(.inr "a", 9)] false]
    ⟨[some (.inr "a"), some (.inr "b"), some (.inr "c")], [(.inr "a", 0), (.inr "b", 1), (.inr "c", 2)], [3, 2, 4], 1,
      some [3, 2, 4]⟩ [(.inr "a", 3), (.inr "b", 2), (.inr "c", 4)] :=
  .cons ⟨by decide +kernel, fun h => absurd h List.not_mem_nil⟩ (.cons (by constructor <;> decide +kernel)
    (.cons trivial (.cons (by constructor <;> decide +kernel) (.nil _ _))))

end Verif.KV
