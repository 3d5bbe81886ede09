import Verif.SaveLoad.TotalProps
import Mathlib.Data.List.Nodup

/-!
# C149: a save interrupted by a crash, over the files of an older save

The process may stop at any moment: `World.budget` is the number of writes that took place before.  The main file
(the pickle) is written last, so until the end it is the one of the older save, or there is none.  Simplified: one write
is one step (a file half written is not modelled; the finding does not need one).
-/

namespace Verif.SaveLoad
open Verif PyDict

variable {N P A : Type} [DecidableEq N]

/-! ## Specification -/

/-- a file written: its key and its content -/
abbrev Write (N P A : Type) := (List N × Nat) × Leaf P A

/-- the files after some writes, in order -/
def applyWrites (files : PyDict (List N × Nat) (Leaf P A)) (l : List (Write N P A)) :
    PyDict (List N × Nat) (Leaf P A) := l.foldl (fun fs e => set fs e.1 e.2) files

/-- the separate files after a crash: `t` writes of saving `o` took place, on top of the files that were there -/
def crashFiles (big : Leaf P A → Bool) (ig : List N) (sep : Option (List N)) {n : Nat} (f : List N)
    (o : Obj N (Val N P A n)) (files : PyDict (List N × Nat) (Leaf P A)) (t : Nat) :
    PyDict (List N × Nat) (Leaf P A) := (smartSave big ig sep f o ⟨files, t⟩).2.1.files

/-! ## A save is a sequence of writes -/

/-- a step makes the writes `l`, as many of them as the budget allows -/
def Logs (l : List (Write N P A)) (w w' : World N P A) (ok : Bool) : Prop :=
  w'.files = applyWrites w.files (l.take w.budget) ∧ (ok = true ↔ l.length ≤ w.budget) ∧
  w'.budget = w.budget - l.length

theorem Logs.append {l m : List (Write N P A)} {w w1 w2 : World N P A} {ok : Bool} (h1 : Logs l w w1 true)
    (h2 : Logs m w1 w2 ok) : Logs (l ++ m) w w2 ok := by
  obtain ⟨a1, a2, a3⟩ := h1
  obtain ⟨b1, b2, b3⟩ := h2
  have hl := a2.1 rfl
  refine ⟨?_, ?_, ?_⟩
  · rw [b1, a1, a3, List.take_of_length_le hl, List.take_append, List.take_of_length_le hl]
    unfold applyWrites
    rw [List.foldl_append]
  · rw [b2, a3, List.length_append]; omega
  · rw [b3, a3, List.length_append]; omega

theorem Logs.stop {l m : List (Write N P A)} {w w1 : World N P A} (h1 : Logs l w w1 false) :
    Logs (l ++ m) w w1 false := by
  obtain ⟨a1, a2, a3⟩ := h1
  have hl : ¬ l.length ≤ w.budget := fun h => by simpa using a2.2 h
  refine ⟨?_, ?_, ?_⟩
  · rw [a1, List.take_append, show w.budget - l.length = 0 by omega, List.take_zero, List.append_nil]
  · simp only [Bool.false_eq_true, List.length_append, false_iff]; omega
  · rw [a3, List.length_append]; omega

theorem Logs.nil (w : World N P A) : Logs [] w w true := by
  refine ⟨?_, ?_, ?_⟩ <;> simp [applyWrites]

/-- the files an attribute put aside is stored in -/
def Kind.log (f : List N) : Kind P A → List (Write N P A)
  | .numpy a => [((f, 0), .arr a)]
  | .scipy p d i j => [((f, 1), .arr d), ((f, 2), .arr i), ((f, 3), .arr j), ((f, 4), .plain p)]
  | .ignored => []

theorem storeOne_logs (f : List N) (k : N) (q : Kind P A) (w : World N P A) :
    Logs (q.log (f ++ [k])) w (storeOne f k q w).1 (storeOne f k q w).2 := by
  cases q with
  | ignored => exact Logs.nil w
  | numpy a =>
    obtain ⟨fs, n⟩ := w
    match n with
    | 0 => simp [storeOne, World.write, Logs, Kind.log, applyWrites]
    | n + 1 => simp [storeOne, World.write, Logs, Kind.log, applyWrites]
  | scipy p d i j =>
    obtain ⟨fs, n⟩ := w
    match n with
    | 0 => simp [storeOne, World.write, Logs, Kind.log, applyWrites]
    | 1 => simp [storeOne, World.write, Logs, Kind.log, applyWrites]
    | 2 => simp [storeOne, World.write, Logs, Kind.log, applyWrites]
    | 3 => simp [storeOne, World.write, Logs, Kind.log, applyWrites]
    | n + 4 => simp [storeOne, World.write, Logs, Kind.log, applyWrites]

section generic
variable {V : Type}

/-- the files of everything put aside -/
def storeLog (leaf : V → Option (Leaf P A)) (ig : List N) (f : List N) (l : PyDict N V) : List (Write N P A) :=
  l.flatMap fun p => (kindOf ig p.1 (leaf p.2)).log (f ++ [p.1])

theorem storeAll_logs (leaf : V → Option (Leaf P A)) (ig : List N) (f : List N) (l : PyDict N V) (w : World N P A) :
    Logs (storeLog leaf ig f l) w (storeAll leaf ig f l w).1 (storeAll leaf ig f l w).2.isSome := by
  induction l generalizing w with
  | nil => exact Logs.nil w
  | cons p l ih =>
    obtain ⟨k, v⟩ := p
    have h1 := storeOne_logs f k (kindOf ig k (leaf v)) w
    rw [storeAll]
    simp only [storeLog, List.flatMap_cons]
    rcases hr : storeOne f k (kindOf ig k (leaf v)) w with ⟨w1, ok⟩
    rw [hr] at h1
    cases ok with
    | false => exact h1.stop
    | true =>
      simp only
      have := h1.append (ih w1)
      rw [Option.isSome_map]
      exact this

/-- all keys begin with `f` and go on -/
def Under (f : List N) (l : List (Write N P A)) : Prop := ∀ e ∈ l, ∃ s, s ≠ [] ∧ e.1.1 = f ++ s

/-- a child is not an object, or its save is a sequence of writes of distinct files under its name -/
def ChildLogs (ok : V → Prop) (child : List N → V → World N P A → Option (V × World N P A × Option (List (V → V)))) : Prop :=
  ∀ f v, ok v → (∀ w, child f v w = none) ∨
    ∃ l, Under f l ∧ (l.map Prod.fst).Nodup ∧ ∀ w, ∃ r, child f v w = some r ∧ Logs l w r.2.1 r.2.2.isSome

theorem saveChildren_logs (ok : V → Prop)
    (child : List N → V → World N P A → Option (V × World N P A × Option (List (V → V))))
    (hc : ChildLogs ok child) (f : List N) (l : PyDict N V) (hw : WF l) (hok : ∀ p ∈ l, ok p.2) :
    ∃ L : List (Write N P A), (∀ e ∈ L, ∃ k ∈ keys l, ∃ s, s ≠ [] ∧ e.1.1 = f ++ [k] ++ s) ∧ (L.map Prod.fst).Nodup ∧
      ∀ w, Logs L w (saveChildren child f l w).2.1 (saveChildren child f l w).2.2.isSome := by
  induction l with
  | nil => exact ⟨[], by simp, by simp, fun w => by simpa [saveChildren] using Logs.nil w⟩
  | cons p l ih =>
    obtain ⟨k, v⟩ := p
    have hwl : WF l := by
      unfold WF keys at hw ⊢
      exact (List.nodup_cons.1 hw).2
    have hkl : k ∉ keys l := by
      unfold WF keys at hw
      exact (List.nodup_cons.1 hw).1
    obtain ⟨L2, u2, n2, h2⟩ := ih hwl (fun p hp => hok p (List.mem_cons_of_mem _ hp))
    rcases hc (f ++ [k]) v (hok (k, v) (by simp)) with h | ⟨L1, u1, n1, h1⟩
    · refine ⟨L2, fun e he => ?_, n2, fun w => ?_⟩
      · obtain ⟨k', hk', s, hs, e'⟩ := u2 e he
        exact ⟨k', by simp only [keys, List.map_cons]; exact List.mem_cons_of_mem _ hk', s, hs, e'⟩
      · rw [saveChildren, h w]
        exact h2 w
    · refine ⟨L1 ++ L2, fun e he => ?_, ?_, fun w => ?_⟩
      · rcases List.mem_append.1 he with he | he
        · obtain ⟨s, hs, e'⟩ := u1 e he
          exact ⟨k, by simp [keys], s, hs, e'⟩
        · obtain ⟨k', hk', s, hs, e'⟩ := u2 e he
          exact ⟨k', by simp only [keys, List.map_cons]; exact List.mem_cons_of_mem _ hk', s, hs, e'⟩
      · rw [List.map_append]
        refine List.Nodup.append n1 n2 ?_
        intro x hx1 hx2
        obtain ⟨e1, he1, rfl⟩ := List.mem_map.1 hx1
        obtain ⟨e2, he2, hx⟩ := List.mem_map.1 hx2
        obtain ⟨s1, _, q1⟩ := u1 e1 he1
        obtain ⟨k', hk', s2, _, q2⟩ := u2 e2 he2
        rw [hx, q1] at q2
        rw [List.append_assoc, List.append_assoc] at q2
        have q3 := List.append_cancel_left q2
        simp only [List.cons_append, List.nil_append, List.cons.injEq] at q3
        exact hkl (q3.1 ▸ hk')
      · obtain ⟨⟨v', w', r⟩, e, hr⟩ := h1 w
        rw [saveChildren, e]
        cases r with
        | none => exact hr.stop
        | some rs =>
          have := hr.append (h2 w')
          simp only [Option.isSome_map]
          exact this

theorem Kind.log_keys (f : List N) (q : Kind P A) : ((q.log f).map Prod.fst).Nodup ∧ ∀ e ∈ q.log f, e.1.1 = f := by
  cases q <;> simp [Kind.log]

theorem storeLog_keys (leaf : V → Option (Leaf P A)) (ig : List N) (f : List N) (l : PyDict N V) (hw : WF l) :
    ((storeLog leaf ig f l).map Prod.fst).Nodup ∧ ∀ e ∈ storeLog leaf ig f l, ∃ k ∈ keys l, e.1.1 = f ++ [k] := by
  induction l with
  | nil => simp [storeLog]
  | cons p l ih =>
    obtain ⟨k, v⟩ := p
    unfold WF keys at hw
    obtain ⟨h1, h2⟩ := List.nodup_cons.1 hw
    obtain ⟨i1, i2⟩ := ih h2
    obtain ⟨q1, q2⟩ := Kind.log_keys (f ++ [k]) (kindOf ig k (leaf v))
    have e0 : storeLog leaf ig f ((k, v) :: l) = (kindOf ig k (leaf v)).log (f ++ [k]) ++ storeLog leaf ig f l := rfl
    rw [e0]
    constructor
    · rw [List.map_append]
      refine List.Nodup.append q1 i1 ?_
      intro x hx1 hx2
      obtain ⟨e1, he1, rfl⟩ := List.mem_map.1 hx1
      obtain ⟨e2, he2, hx⟩ := List.mem_map.1 hx2
      obtain ⟨k', hk', q3⟩ := i2 e2 he2
      rw [hx, q2 e1 he1] at q3
      have := List.append_cancel_left q3
      simp only [List.cons.injEq, and_true] at this
      subst this
      exact h1 hk'
    · intro e he
      rcases List.mem_append.1 he with he | he
      · exact ⟨k, by simp [keys], q2 e he⟩
      · obtain ⟨k', hk', q3⟩ := i2 e he
        exact ⟨k', by simp only [keys, List.map_cons]; exact List.mem_cons_of_mem _ hk', q3⟩

theorem saveObj_logs (ok : V → Prop)
    (child : List N → V → World N P A → Option (V × World N P A × Option (List (V → V))))
    (hc : ChildLogs ok child) (leaf : V → Option (Leaf P A)) (big : Leaf P A → Bool) (ig : List N)
    (sep : Option (List N)) (f : List N) (o : Obj N V) (hw : WF o.attrs) (hok : ∀ p ∈ o.attrs, ok p.2) :
    ∃ L : List (Write N P A), Under f L ∧ (L.map Prod.fst).Nodup ∧
      ∀ w, Logs L w (saveObj child leaf big ig sep f o w).2.1 (saveObj child leaf big ig sep f o w).2.2.isSome := by
  obtain ⟨a1, a2, _, _, a5⟩ := get?_putAside (sepNames leaf big sep o.attrs ++ ig) o.attrs [] hw WF_nil (by simp [keys])
  obtain ⟨L1, u1, n1, h1⟩ := saveChildren_logs ok child hc f (putAside (sepNames leaf big sep o.attrs ++ ig) o.attrs).1
    a1 (fun p hp => hok p (a5 p hp))
  obtain ⟨n2, u2⟩ := storeLog_keys leaf ig f (putAside (sepNames leaf big sep o.attrs ++ ig) o.attrs).2 a2
  refine ⟨L1 ++ storeLog leaf ig f (putAside (sepNames leaf big sep o.attrs ++ ig) o.attrs).2, ?_, ?_, fun w => ?_⟩
  · intro e he
    rcases List.mem_append.1 he with he | he
    · obtain ⟨k, _, s, _, q⟩ := u1 e he
      exact ⟨k :: s, by simp, by rw [q, List.append_assoc]; rfl⟩
    · obtain ⟨k, _, q⟩ := u2 e he
      exact ⟨[k], by simp, q⟩
  · rw [List.map_append]
    refine List.Nodup.append n1 n2 ?_
    intro x hx1 hx2
    obtain ⟨e1, he1, rfl⟩ := List.mem_map.1 hx1
    obtain ⟨e2, he2, hx⟩ := List.mem_map.1 hx2
    obtain ⟨k, _, s, hs, q1⟩ := u1 e1 he1
    obtain ⟨k', _, q2⟩ := u2 e2 he2
    rw [hx, q1, List.append_assoc] at q2
    have := List.append_cancel_left q2
    simp only [List.cons_append, List.nil_append, List.cons.injEq] at this
    exact hs this.2
  · have hs := h1 w
    unfold saveObj
    simp only
    rcases hr : saveChildren child f (putAside (sepNames leaf big sep o.attrs ++ ig) o.attrs).1 w with ⟨at', w1, r⟩
    rw [hr] at hs
    cases r with
    | none => exact hs.stop
    | some q =>
      obtain ⟨recs, rr⟩ := q
      have h2 := hs.append (storeAll_logs leaf ig f (putAside (sepNames leaf big sep o.attrs ++ ig) o.attrs).2 w1)
      simp only
      rcases hr2 : storeAll leaf ig f (putAside (sepNames leaf big sep o.attrs ++ ig) o.attrs).2 w1 with ⟨w2, r2⟩
      rw [hr2] at h2
      cases r2 with
      | none => exact h2
      | some q2 => exact h2

end generic

theorem saveVal_logs (big : Leaf P A → Bool) (ig : List N) : ∀ n : Nat, ChildLogs (Unique n) (saveVal (P := P) (A := A) big ig n) := by
  intro n
  induction n with
  | zero => intro f v _; exact .inl fun w => rfl
  | succ n ih =>
    intro f v hv
    cases v with
    | inl l => exact .inl fun w => rfl
    | inr o =>
      right
      obtain ⟨L, u, nd, h⟩ := saveObj_logs (Unique n) (saveVal big ig n) ih (asLeaf n) big ig none f o hv.1 hv.2
      refine ⟨L, u, nd, fun w => ⟨_, rfl, ?_⟩⟩
      simp only [Option.isSome_map]
      exact h w

/-- **C149** A save is a fixed sequence of writes of distinct files, all under the name given, followed by the main
file: a crash after `t` of them leaves the files that were there with the first `t` writes on top, and the main file is
written exactly when all others are. -/
theorem C149_sequence (big : Leaf P A → Bool) (ig : List N) (sep : Option (List N)) (n : Nat) (f : List N)
    (o : Obj N (Val N P A n)) (hu : WF o.attrs ∧ ∀ p ∈ o.attrs, Unique n p.2) :
    ∃ L : List (Write N P A), (∀ e ∈ L, f <+: e.1.1) ∧ (L.map Prod.fst).Nodup ∧
      ∀ files t, crashFiles big ig sep f o files t = applyWrites files (L.take t) ∧
        ((smartSave big ig sep f o ⟨files, t⟩).2.2.isSome ↔ L.length < t) := by
  obtain ⟨L, u, nd, h⟩ := saveObj_logs (Unique n) (saveVal big ig n) (saveVal_logs big ig n) (asLeaf n) big ig sep f o
    hu.1 hu.2
  refine ⟨L, fun e he => ?_, nd, fun files t => ?_⟩
  · obtain ⟨s, _, q⟩ := u e he
    rw [q]; exact List.prefix_append _ _
  · obtain ⟨h1, h2, h3⟩ := h ⟨files, t⟩
    unfold crashFiles smartSave
    rcases hr : saveObj (saveVal big ig n) (asLeaf n) big ig sep f o ⟨files, t⟩ with ⟨o', w', r⟩
    rw [hr] at h1 h2 h3
    simp only at h1 h2 h3
    cases r with
    | none =>
      refine ⟨h1, ?_⟩
      simp only [Option.isSome_none, Bool.false_eq_true, false_iff] at h2 ⊢
      omega
    | some rs =>
      have hl := h2.1 rfl
      simp only
      by_cases hb : w'.budget = 0
      · rw [if_pos hb]
        refine ⟨h1, ?_⟩
        simp only [Option.isSome_none, Bool.false_eq_true, false_iff]
        omega
      · rw [if_neg hb]
        refine ⟨h1, ?_⟩
        simp only [Option.isSome_some, true_iff]
        omega

theorem get?_applyWrites (files : PyDict (List N × Nat) (Leaf P A)) : ∀ (l : List (Write N P A)) (key : List N × Nat),
    (l.map Prod.fst).Nodup → (∀ c, (key, c) ∈ l → get? (applyWrites files l) key = some c) ∧
      ((∀ c, (key, c) ∉ l) → get? (applyWrites files l) key = get? files key) := by
  intro l
  induction l generalizing files with
  | nil => intro key _; exact ⟨by simp, fun _ => rfl⟩
  | cons e l ih =>
    intro key hn
    obtain ⟨k0, c0⟩ := e
    rw [List.map_cons, List.nodup_cons] at hn
    obtain ⟨i1, i2⟩ := ih (set files k0 c0) key hn.2
    have e0 : applyWrites files ((k0, c0) :: l) = applyWrites (set files k0 c0) l := rfl
    rw [e0]
    constructor
    · intro c hc
      rcases List.mem_cons.1 hc with hc | hc
      · obtain ⟨rfl, rfl⟩ := Prod.mk.inj hc
        rw [i2, get?_set]
        · simp
        · intro c hc'
          exact hn.1 (List.mem_map.2 ⟨(key, c), hc', rfl⟩)
      · exact i1 c hc
    · intro hc
      rw [i2 (fun c hc' => hc c (List.mem_cons_of_mem _ hc')), get?_set_ne]
      intro hk
      exact hc c0 (by rw [hk]; exact List.mem_cons_self)

/-- **C149** After a crash every file is as it was before, or as the completed save would leave it. -/
theorem C149_old_or_new (big : Leaf P A → Bool) (ig : List N) (sep : Option (List N)) (n : Nat) (f : List N)
    (o : Obj N (Val N P A n)) (hu : WF o.attrs ∧ ∀ p ∈ o.attrs, Unique n p.2)
    (files : PyDict (List N × Nat) (Leaf P A)) (t done : Nat)
    (hd : (smartSave big ig sep f o ⟨files, done⟩).2.2.isSome) (key : List N × Nat) :
    get? (crashFiles big ig sep f o files t) key = get? files key ∨
      get? (crashFiles big ig sep f o files t) key = get? (smartSave big ig sep f o ⟨files, done⟩).2.1.files key := by
  obtain ⟨L, _, nd, h⟩ := C149_sequence big ig sep n f o hu
  have hlt := (h files done).2.1 hd
  have e1 := (h files done).1
  unfold crashFiles at e1
  rw [List.take_of_length_le (by omega : L.length ≤ done)] at e1
  rw [e1, (h files t).1]
  have nt : ((L.take t).map Prod.fst).Nodup := by
    rw [List.map_take]
    exact List.Nodup.sublist (List.take_sublist _ _) nd
  obtain ⟨a1, a2⟩ := get?_applyWrites files (L.take t) key nt
  obtain ⟨b1, _⟩ := get?_applyWrites files L key nd
  by_cases hk : ∃ c, (key, c) ∈ L.take t
  · obtain ⟨c, hc⟩ := hk
    right
    rw [a1 c hc, b1 c (List.mem_of_mem_take hc)]
  · left
    exact a2 (fun c hc => hk ⟨c, hc⟩)

/-- **C149** If nothing of the new object is stored separately, a crash changes no separate file: until the main file
is replaced the older save loads as before. -/
theorem C149_nothing_separate (big : Leaf P A → Bool) (ig : List N) (sep : Option (List N)) (n : Nat) (f : List N)
    (o : Obj N (Val N P A n)) (hu : WF o.attrs ∧ ∀ p ∈ o.attrs, Unique n p.2)
    (files : PyDict (List N × Nat) (Leaf P A)) (hone : (smartSave big ig sep f o ⟨files, 1⟩).2.2.isSome)
    (t : Nat) : crashFiles big ig sep f o files t = files := by
  obtain ⟨L, _, _, h⟩ := C149_sequence big ig sep n f o hu
  have := (h files 1).2.1 hone
  have hL : L = [] := List.eq_nil_of_length_eq_zero (by omega)
  rw [(h files t).1, hL, List.take_nil]
  rfl

/-! ## The mixture -/

/-- an object whose attributes are arrays -/
def arrays (names : List N) (a : N → A) : Obj N (Val N P A 0) := ⟨none, names.map fun k => (k, .arr (a k))⟩

theorem putAside_all {V : Type} (rest : List N) (g : N → V) : ∀ (acc : PyDict N V), rest.Nodup →
    (∀ k ∈ rest, k ∉ keys acc) →
    rest.foldl (fun s k => match get? s.1 k with
      | some v => (erase s.1 k, set s.2 k v)
      | none => s) (rest.map fun k => (k, g k), acc) = ([], acc ++ rest.map fun k => (k, g k)) := by
  induction rest with
  | nil => intro acc _ _; simp
  | cons k rest ih =>
    intro acc hn ha
    rw [List.nodup_cons] at hn
    simp only [List.map_cons, List.foldl_cons, get?_cons, if_true]
    have e0 : ∀ r : List N, k ∉ r → erase (r.map fun k => (k, g k)) k = r.map fun k => (k, g k) := by
      intro r
      induction r with
      | nil => intro _; rfl
      | cons x r ihr =>
        intro hx
        have hxk : ¬ x = k := fun h => hx (by simp [h])
        simp only [List.map_cons, erase]
        rw [if_neg hxk, ihr (fun h => hx (List.mem_cons_of_mem _ h))]
    have e1 : erase ((k, g k) :: rest.map fun k => (k, g k)) k = rest.map fun k => (k, g k) := by
      simp only [erase, if_true]
      exact e0 rest hn.1
    rw [e1, set_of_not_mem (ha k (by simp)), ih _ hn.2]
    · simp
    · intro k' hk'
      unfold keys
      rw [List.map_append, List.mem_append]
      rintro (h | h)
      · exact ha k' (List.mem_cons_of_mem _ hk') h
      · simp only [List.map_cons, List.map_nil, List.mem_singleton] at h
        exact hn.1 (h ▸ hk')

theorem sepNames_arrays (big : Leaf P A → Bool) (hb : ∀ x, big (.arr x) = true) (names : List N) (a : N → A) :
    sepNames (asLeaf 0) big none (arrays (P := P) names a).attrs = names := by
  unfold sepNames arrays keys
  simp only
  rw [List.filter_eq_self.2]
  · rw [List.map_map]
    exact List.map_id'' (fun _ => rfl) _
  · intro p hp
    obtain ⟨k, _, rfl⟩ := List.mem_map.1 hp
    exact hb _

theorem aside_arrays (big : Leaf P A → Bool) (hb : ∀ x, big (.arr x) = true) (names : List N) (hn : names.Nodup)
    (a : N → A) : putAside (sepNames (asLeaf 0) big none (arrays (P := P) names a).attrs ++ []) (arrays (P := P) names a).attrs =
      ([], (arrays names a).attrs) := by
  rw [List.append_nil, sepNames_arrays big hb names a]
  exact putAside_all (V := Val N P A 0) names (fun k => .arr (a k)) [] hn (by simp [keys])

theorem storeAll_arrays {V : Type} (leaf : V → Option (Leaf P A)) (f : List N) (a : N → A) (g : N → V)
    (hg : ∀ k, leaf (g k) = some (.arr (a k))) : ∀ (names : List N) (w : World N P A),
    names.length ≤ w.budget →
    (storeAll leaf [] f (names.map fun k => (k, g k)) w).2 = some (names, [], []) := by
  intro names
  induction names with
  | nil => intro w _; rfl
  | cons k names ih =>
    intro w hw
    obtain ⟨fs, b⟩ := w
    obtain ⟨b, rfl⟩ : ∃ c, b = c + 1 := ⟨b - 1, by simp only [List.length_cons] at hw; omega⟩
    have := ih ⟨set fs (f ++ [k], 0) (.arr (a k)), b⟩ (by simp only [List.length_cons] at hw; simp only; omega)
    simp only [List.map_cons, storeAll, hg, kindOf, List.not_mem_nil, not_false_eq_true, if_true, storeOne,
      World.write, Nat.add_eq_zero_iff, Nat.one_ne_zero, and_false, if_false, Nat.add_sub_cancel]
    rw [this]
    rfl

theorem storeLog_arrays {V : Type} (leaf : V → Option (Leaf P A)) (f : List N) (a : N → A) (g : N → V)
    (hg : ∀ k, leaf (g k) = some (.arr (a k))) (names : List N) :
    storeLog leaf [] f (names.map fun k => (k, g k)) =
      names.map fun k => ((f ++ [k], 0), .arr (a k)) := by
  induction names with
  | nil => rfl
  | cons k names ih =>
    simp only [List.map_cons]
    rw [← ih]
    simp [storeLog, hg, kindOf, Kind.log]

/-- saving arrays -/
theorem save_arrays (big : Leaf P A → Bool) (hb : ∀ x, big (.arr x) = true) (names : List N) (hn : names.Nodup)
    (a : N → A) (f : List N) (files : PyDict (List N × Nat) (Leaf P A)) (t : Nat) :
    crashFiles big [] none f (arrays (P := P) names a) files t =
      applyWrites files ((names.map fun k => ((f ++ [k], 0), .arr (a k))).take t) ∧
    ∀ main, (smartSave big [] none f (arrays (P := P) names a) ⟨files, t⟩).2.2 = some main →
      main = ⟨some ⟨names, [], [], []⟩, []⟩ ∧ names.length ≤ t := by
  have hs := storeAll_logs (asLeaf 0) [] f (arrays (P := P) names a).attrs ⟨files, t⟩
  have e1 : saveObj (saveVal big [] 0) (asLeaf 0) big [] none f (arrays (P := P) names a) ⟨files, t⟩ =
      (match storeAll (asLeaf 0) [] f (arrays (P := P) names a).attrs ⟨files, t⟩ with
        | (w, none) => ({ (arrays (P := P) names a) with attrs := setAll [] (arrays (P := P) names a).attrs }, w, none)
        | (w, some (nps, scs, igs)) =>
          (⟨some ⟨nps, scs, igs, []⟩, []⟩, w, some ([] ++ [fun at' => setAll at' (arrays (P := P) names a).attrs]))) := by
    unfold saveObj
    rw [aside_arrays big hb names hn a]
    rfl
  rw [show storeLog (asLeaf 0) [] f (arrays (P := P) names a).attrs = _ from storeLog_arrays (V := Val N P A 0) (asLeaf 0) f a (fun k => .arr (a k)) (fun _ => rfl) names] at hs
  obtain ⟨s1, s2, s3⟩ := hs
  simp only [List.length_map] at s2 s3
  have s4 : names.length ≤ t → (storeAll (asLeaf 0) [] f (arrays (P := P) names a).attrs ⟨files, t⟩).2 = some (names, [], []) :=
    fun h => storeAll_arrays (V := Val N P A 0) (asLeaf 0) f a (fun k => .arr (a k)) (fun _ => rfl) names ⟨files, t⟩ h
  unfold crashFiles smartSave
  rw [e1]
  rcases hr : storeAll (asLeaf 0) [] f (arrays (P := P) names a).attrs ⟨files, t⟩ with ⟨w', r⟩
  rw [hr] at s1 s2 s3 s4
  simp only at s1 s2 s3 s4
  cases r with
  | none =>
    refine ⟨s1, ?_⟩
    intro main h
    simp at h
  | some q =>
    obtain ⟨nps, scs, igs⟩ := q
    have hl := s2.1 rfl
    have s5 := s4 hl
    simp only [Option.some.injEq, Prod.mk.injEq] at s5
    obtain ⟨rfl, rfl, rfl⟩ := s5
    simp only
    by_cases hb' : w'.budget = 0
    · rw [if_pos hb']
      refine ⟨s1, fun main h => by simp at h⟩
    · rw [if_neg hb']
      refine ⟨s1, fun main h => ?_⟩
      simp only [Option.some.injEq] at h
      exact ⟨h.symm, hl⟩

theorem readAll_get {V : Type} (h : N → Option V) (g : N → V) : ∀ (ks : List N) (a : PyDict N V), (∀ k ∈ ks, h k = some (g k)) →
    ∃ u, readAll h ks a = some u ∧ ∀ k, get? u k = if k ∈ ks then some (g k) else get? a k := by
  intro ks
  induction ks with
  | nil => intro a _; exact ⟨a, rfl, by simp⟩
  | cons k ks ih =>
    intro a hk
    obtain ⟨u, h1, h2⟩ := ih (set a k (g k)) (fun x hx => hk x (List.mem_cons_of_mem _ hx))
    refine ⟨u, ?_, fun x => ?_⟩
    · simp only [readAll, hk k (by simp)]
      exact h1
    · rw [h2 x]
      by_cases hx : x ∈ ks
      · simp [hx]
      · rw [if_neg hx, get?_set]
        by_cases hxk : x = k
        · subst hxk; simp
        · rw [if_neg (fun h => hxk h.symm), if_neg (by simp [hxk, hx])]

/-- **C149** The mixture: an object of big arrays is saved, and later a save of new arrays under the same name crashes after
`t` writes.  Loading succeeds, and gives an object of which the first `t` arrays are new and the others old. -/
theorem C149_mixture (big : Leaf P A → Bool) (hb : ∀ x, big (.arr x) = true) (names : List N) (hn : names.Nodup)
    (old new : N → A) (f : List N) (w : World N P A) (mem : Obj N (Val N P A 0)) (w' : World N P A)
    (main : Obj N (Val N P A 0))
    (hsave : smartSave big [] none f (arrays (P := P) names old) w = (mem, w', some main)) (t : Nat) :
    ∃ u, load (crashFiles big [] none f (arrays (P := P) names new) w'.files t) f main = some u ∧
      ∀ (i : Nat) (k : N), names[i]? = some k → get? u.attrs k = some (.arr (if i < t then new k else old k)) := by
  obtain ⟨p1, p2⟩ := save_arrays big hb names hn old f w.files w.budget
  obtain ⟨q1, _⟩ := save_arrays big hb names hn new f w'.files t
  have hw : (⟨w.files, w.budget⟩ : World N P A) = w := rfl
  rw [hw] at p2
  unfold crashFiles at p1
  rw [hw, hsave] at p1
  rw [hsave] at p2
  obtain ⟨rfl, hle⟩ := p2 main rfl
  simp only at p1
  rw [List.take_of_length_le (by simpa using hle)] at p1
  rw [q1, p1]
  have nd : ∀ g : N → A, ((names.map fun k => (((f ++ [k], 0) : List N × Nat), (.arr (g k) : Leaf P A))).map Prod.fst).Nodup := by
    intro g
    rw [List.map_map]
    refine List.Nodup.map ?_ hn
    intro x y hxy
    simpa using hxy
  have hget : ∀ (i : Nat) (k : N), names[i]? = some k →
      readArr (applyWrites (applyWrites w.files (names.map fun k => ((f ++ [k], 0), .arr (old k))))
        ((names.map fun k => ((f ++ [k], 0), .arr (new k))).take t)) (f ++ [k], 0) =
        some (if i < t then new k else old k) := by
    intro i k hk
    have nt : (((names.map fun k => (((f ++ [k], 0) : List N × Nat), (.arr (new k) : Leaf P A))).take t).map Prod.fst).Nodup := by
      rw [List.map_take]
      exact List.Nodup.sublist (List.take_sublist _ _) (nd new)
    obtain ⟨a1, a2⟩ := get?_applyWrites (applyWrites w.files (names.map fun k => ((f ++ [k], 0), .arr (old k)))) _ (f ++ [k], 0) nt
    obtain ⟨b1, _⟩ := get?_applyWrites w.files _ (f ++ [k], 0) (nd old)
    have hb1 := b1 (.arr (old k)) (List.mem_map.2 ⟨k, List.mem_of_getElem? hk, rfl⟩)
    unfold readArr
    by_cases ht : i < t
    · rw [if_pos ht, a1 (.arr (new k))]
      rw [List.mem_iff_getElem?]
      refine ⟨i, ?_⟩
      rw [List.getElem?_take, if_pos ht, List.getElem?_map, hk]
      rfl
    · rw [if_neg ht, a2, hb1]
      intro c hc
      obtain ⟨j, hj⟩ := List.mem_iff_getElem?.1 hc
      rw [List.getElem?_take] at hj
      split at hj
      · rename_i hjt
        rw [List.getElem?_map, Option.map_eq_some_iff] at hj
        obtain ⟨k', hk', e⟩ := hj
        have : k' = k := by simpa using (Prod.mk.inj e).1
        subst this
        have hi := (List.getElem?_eq_some_iff.1 hk).1
        have := (List.getElem?_inj hi hn).1 (hk.trans hk'.symm)
        omega
      · simp at hj
  have hidx : ∀ k ∈ names, names[names.idxOf k]? = some k := by
    intro k hk
    rw [List.getElem?_eq_getElem (List.idxOf_lt_length_iff.2 hk), List.getElem_idxOf]
  obtain ⟨u, h1, h2⟩ := readAll_get
    (fun k => (readArr (applyWrites (applyWrites w.files (names.map fun k => ((f ++ [k], 0), .arr (old k))))
        ((names.map fun k => ((f ++ [k], 0), .arr (new k))).take t)) (f ++ [k], 0)).map
          (fun x => (ofLeaf 0 (.arr x) : Val N P A 0)))
    (fun k => .arr (if names.idxOf k < t then new k else old k)) names [] (fun k hk => by
      rw [hget _ k (hidx k hk)]; rfl)
  refine ⟨⟨some ⟨names, [], [], []⟩, u⟩, ?_, ?_⟩
  · unfold load loadObj
    simp only [updAll]
    simp only [h1]
    rfl
  · intro i k hk
    have hm := List.mem_of_getElem? hk
    have hi := (List.getElem?_eq_some_iff.1 hk).1
    have : i = names.idxOf k := (List.getElem?_inj hi hn).1 (hk.trans (hidx k hm).symm)
    rw [h2 k, if_pos hm, this]

/-- saving [1, 2], then crashing after one of the two writes of [3, 4]: loading gives [3, 2], which was never saved -/
example : ∃ mem w' main u,
    smartSave (fun _ => true) ([] : List Nat) none [] (arrays (P := Nat) [7, 8] (fun k => k - 6)) ⟨[], 5⟩ = (mem, w', some main) ∧
    load (crashFiles (fun _ => true) [] none [] (arrays (P := Nat) [7, 8] (fun k => k - 4)) w'.files 1) [] main = some u ∧
    get? u.attrs 7 = some (.arr 3) ∧ get? u.attrs 8 = some (.arr 2) :=
  ⟨_, _, _, _, rfl, rfl, rfl, rfl⟩

end Verif.SaveLoad
