import Verif.Docsim.Model
import Mathlib.Order.Defs.LinearOrder
import Mathlib.Algebra.Order.Ring.Rat
import Mathlib.Data.List.Basic

/-!
# C54: the sharded index holds every document at its insertion position
-/

namespace Verif.Docsim

variable {D V : Type}

/-! ## Specification -/

/-- The documents added by a history, in order. -/
def addedDocs : List (Op D) → List D
  | [] => []
  | .add docs :: ops => docs ++ addedDocs ops
  | .read :: ops => addedDocs ops

/-- No weight of any document vanishes: a document is counted with exactly the entries that end up in
a sparse shard. -/
def NoVanishing (e : Env D V) (docs : List D) : Prop := ∀ d ∈ docs, e.kept (e.prep d) = e.doclen d

theorem mem_of_dropLast {A : Type} {l : List A} {x : A} (h : x ∈ l.dropLast) : x ∈ l :=
  (List.dropLast_sublist l).subset h

/-! ## Invariant -/

/-- The invariant of the index. -/
structure Inv (e : Env D V) (shardsize : Nat) (s : Sim V) (docs : List D) : Prop where
  rows : s.allRows ++ s.fresh = docs.map e.prep
  lens : ∀ sh ∈ s.shards, sh.rows.length = sh.len ∧ 0 < sh.len ∧ sh.len ≤ shardsize ∧
    sh.nnz = (sh.rows.map e.kept).sum
  full : ∀ sh ∈ s.shards.dropLast, sh.len = shardsize
  last : s.fresh ≠ [] → ∀ sh ∈ s.shards, sh.len = shardsize
  fresh : s.fresh.length < shardsize
  nnz : s.freshNnz = (s.fresh.map e.kept).sum
  files : ∀ (i : Nat) (sh : Shard V), s.shards[i]? = some sh → s.files[i]? = some sh.rows
  nfiles : s.shards.length ≤ s.files.length

theorem inv_empty (e : Env D V) {shardsize : Nat} (h : 1 ≤ shardsize) :
    Inv e shardsize Sim.empty [] := by
  refine ⟨rfl, ?_, ?_, ?_, ?_, rfl, ?_, le_rfl⟩
  · simp [Sim.empty]
  · simp [Sim.empty]
  · simp [Sim.empty]
  · exact h
  · simp [Sim.empty]

theorem getElem?_writeFile (files : List (List V)) (i j : Nat) (rows : List V)
    (hi : i ≤ files.length) :
    (writeFile files i rows)[j]? = if j = i then some rows else files[j]? := by
  unfold writeFile
  by_cases h : i < files.length
  · rw [if_pos h, List.getElem?_set]
    by_cases hj : j = i
    · subst hj
      simp [h]
    · have : ¬ i = j := fun e => hj e.symm
      simp [hj, this]
  · have hil : i = files.length := by omega
    subst hil
    rw [if_neg (by omega)]
    by_cases hj : j = files.length
    · subst hj
      simp
    · rw [if_neg hj]
      rcases Nat.lt_or_gt_of_ne hj with hlt | hgt
      · rw [List.getElem?_append_left hlt]
      · rw [List.getElem?_eq_none (by simp; omega), List.getElem?_eq_none (by omega)]

theorem length_writeFile (files : List (List V)) (i : Nat) (rows : List V)
    (hi : i ≤ files.length) : i + 1 ≤ (writeFile files i rows).length := by
  unfold writeFile
  split
  · rw [List.length_set]
    omega
  · rw [List.length_append, List.length_singleton]
    omega

/-- Closing a shard of at most `shardsize` documents when all earlier ones are full. -/
theorem inv_close_core (e : Env D V) {shardsize numFeatures : Nat} {s : Sim V} {docs : List D}
    (hss : 1 ≤ shardsize)
    (hrows : s.allRows ++ s.fresh = docs.map e.prep)
    (hlens : ∀ sh ∈ s.shards, sh.rows.length = sh.len ∧ 0 < sh.len ∧ sh.len ≤ shardsize ∧
      sh.nnz = (sh.rows.map e.kept).sum)
    (hfull : ∀ sh ∈ s.shards, sh.len = shardsize)
    (hne : s.fresh ≠ []) (hle : s.fresh.length ≤ shardsize)
    (hnnz : s.freshNnz = (s.fresh.map e.kept).sum)
    (hfiles : ∀ (i : Nat) (sh : Shard V), s.shards[i]? = some sh → s.files[i]? = some sh.rows)
    (hnf : s.shards.length ≤ s.files.length) :
    ∃ s', closeShard e numFeatures s = some s' ∧ Inv e shardsize s' docs ∧ s'.fresh = [] := by
  unfold closeShard
  have h1 : s.fresh.isEmpty = false := by simpa using hne
  rw [h1, if_neg (by simp), if_neg (fun h => h.2 hnnz.symm)]
  refine ⟨_, rfl, ⟨?_, ?_, ?_, ?_, ?_, ?_, ?_, ?_⟩, rfl⟩
  · simpa [Sim.allRows] using hrows
  · intro sh hsh
    rcases List.mem_append.1 hsh with h | h
    · exact hlens sh h
    · rw [List.mem_singleton] at h
      subst h
      exact ⟨rfl, List.length_pos_iff.2 hne, hle, hnnz⟩
  · intro sh hsh
    have : sh ∈ s.shards := by simpa using hsh
    exact hfull sh this
  · intro h
    exact absurd rfl h
  · exact hss
  · rfl
  · intro i sh hi
    rw [getElem?_writeFile _ _ _ _ hnf]
    by_cases h : i = s.shards.length
    · subst h
      simp only [List.getElem?_concat_length, Option.some.injEq] at hi
      subst hi
      simp
    · rw [if_neg h]
      have hlt : i < s.shards.length := by
        have := List.getElem?_eq_some_iff.1 hi
        obtain ⟨hh, _⟩ := this
        simp only [List.length_append, List.length_singleton] at hh
        omega
      rw [List.getElem?_append_left hlt] at hi
      exact hfiles i sh hi
  · dsimp only
    rw [List.length_append, List.length_singleton]
    exact length_writeFile _ _ _ hnf

theorem inv_close (e : Env D V) {shardsize : Nat} (numFeatures : Nat) {s : Sim V} {docs : List D}
    (h : Inv e shardsize s docs) :
    ∃ s', closeShard e numFeatures s = some s' ∧ Inv e shardsize s' docs ∧ s'.fresh = [] := by
  by_cases hne : s.fresh = []
  · refine ⟨s, ?_, h, hne⟩
    simp [closeShard, hne]
  · exact inv_close_core e (by have := h.fresh; omega) h.rows h.lens (h.last hne) hne
      (Nat.le_of_lt h.fresh) h.nnz h.files h.nfiles

theorem inv_addOne (e : Env D V) {shardsize : Nat} (numFeatures : Nat) {s : Sim V} {docs : List D}
    {d : D} (hk : e.kept (e.prep d) = e.doclen d)
    (h : Inv e shardsize s docs) (hfull : ∀ sh ∈ s.shards, sh.len = shardsize) :
    ∃ s', addOne e numFeatures shardsize s d = some s' ∧ Inv e shardsize s' (docs ++ [d]) ∧
      ∀ sh ∈ s'.shards, sh.len = shardsize := by
  have hrows : s.allRows ++ (s.fresh ++ [e.prep d]) = (docs ++ [d]).map e.prep := by
    rw [← List.append_assoc, h.rows, List.map_append, List.map_singleton]
  have hnnz : s.freshNnz + e.doclen d = ((s.fresh ++ [e.prep d]).map e.kept).sum := by
    rw [List.map_append, List.sum_append, h.nnz]
    simp [hk]
  unfold addOne
  dsimp only
  by_cases hs : shardsize ≤ (s.fresh ++ [e.prep d]).length
  · rw [if_pos hs]
    have hlen : (s.fresh ++ [e.prep d]).length = shardsize := by
      have := h.fresh
      simp only [List.length_append, List.length_singleton] at hs ⊢
      omega
    obtain ⟨s', h1, h2, h3⟩ := inv_close_core e (numFeatures := numFeatures)
      (s := { s with fresh := s.fresh ++ [e.prep d], freshNnz := s.freshNnz + e.doclen d })
      (docs := docs ++ [d]) (shardsize := shardsize) (by have := h.fresh; omega)
      hrows h.lens hfull (by simp) (le_of_eq hlen) hnnz h.files h.nfiles
    refine ⟨s', h1, h2, ?_⟩
    unfold closeShard at h1
    have hne : (s.fresh ++ [e.prep d]).isEmpty = false := by simp
    dsimp only at h1
    rw [hne, if_neg (by simp), if_neg (fun hh => hh.2 hnnz.symm), Option.some.injEq] at h1
    subst h1
    intro sh hsh
    rcases List.mem_append.1 hsh with hh | hh
    · exact hfull sh hh
    · rw [List.mem_singleton] at hh
      subst hh
      exact hlen
  · rw [if_neg hs]
    refine ⟨_, rfl, ⟨hrows, h.lens, h.full, fun _ => hfull, Nat.lt_of_not_le hs, hnnz, h.files, h.nfiles⟩,
      hfull⟩

theorem inv_addMany (e : Env D V) {shardsize : Nat} (numFeatures : Nat) (new : List D) {s : Sim V}
    {docs : List D} (hk : NoVanishing e new)
    (h : Inv e shardsize s docs) (hfull : ∀ sh ∈ s.shards, sh.len = shardsize) :
    ∃ s', new.foldlM (addOne e numFeatures shardsize) s = some s' ∧
      Inv e shardsize s' (docs ++ new) ∧ ∀ sh ∈ s'.shards, sh.len = shardsize := by
  induction new generalizing s docs with
  | nil => exact ⟨s, rfl, by simpa using h, hfull⟩
  | cons d new ih =>
    obtain ⟨s1, h1, h2, h3⟩ := inv_addOne e numFeatures (hk d (by simp)) h hfull
    obtain ⟨s2, h4, h5, h6⟩ := ih (fun x hx => hk x (by simp [hx])) h2 h3
    refine ⟨s2, ?_, by simpa using h5, h6⟩
    rw [List.foldlM_cons, h1]
    exact h4

theorem inv_reopen (e : Env D V) {shardsize : Nat} {s : Sim V} {docs : List D}
    (h : Inv e shardsize s docs) :
    ∃ s', reopenIfIncomplete shardsize s = some s' ∧ Inv e shardsize s' docs ∧
      ∀ sh ∈ s'.shards, sh.len = shardsize := by
  unfold reopenIfIncomplete
  cases hl : s.shards.getLast? with
  | none =>
    have : s.shards = [] := List.getLast?_eq_none_iff.1 hl
    refine ⟨s, rfl, h, by simp [this]⟩
  | some last =>
    dsimp only
    have hsplit : s.shards = s.shards.dropLast ++ [last] := by
      have hne : s.shards ≠ [] := by
        intro hh
        rw [hh] at hl
        cases hl
      have := List.dropLast_concat_getLast hne
      rw [List.getLast?_eq_some_getLast hne, Option.some.injEq] at hl
      rw [hl] at this
      exact this.symm
    have hmem : last ∈ s.shards := by
      rw [hsplit]
      simp
    by_cases hlt : last.len < shardsize
    · rw [if_pos hlt]
      have hfresh : s.fresh = [] := by
        by_contra hne
        have := h.last hne last hmem
        omega
      unfold reopenShard
      rw [hl]
      dsimp only
      rw [hfresh, if_pos (by rfl)]
      obtain ⟨l1, l2, l3, l4⟩ := h.lens last hmem
      have hdl : ∀ sh ∈ s.shards.dropLast, sh ∈ s.shards := fun sh hh => mem_of_dropLast hh
      refine ⟨_, rfl, ⟨?_, ?_, ?_, ?_, ?_, l4, ?_, ?_⟩, h.full⟩
      · have hr := h.rows
        rw [hfresh, List.append_nil] at hr
        unfold Sim.allRows at hr ⊢
        rw [hsplit] at hr
        simpa using hr
      · exact fun sh hh => h.lens sh (hdl sh hh)
      · exact fun sh hh => h.full sh (mem_of_dropLast hh)
      · exact fun _ sh hh => h.full sh hh
      · dsimp only
        omega
      · intro i sh hi
        apply h.files i sh
        rw [hsplit]
        have hlt' : i < s.shards.dropLast.length := (List.getElem?_eq_some_iff.1 hi).1
        rw [List.getElem?_append_left hlt']
        exact hi
      · dsimp only
        have := h.nfiles
        rw [List.length_dropLast]
        omega
    · rw [if_neg hlt]
      refine ⟨s, rfl, h, ?_⟩
      intro sh hsh
      rw [hsplit] at hsh
      rcases List.mem_append.1 hsh with hh | hh
      · exact h.full sh hh
      · rw [List.mem_singleton] at hh
        subst hh
        have := (h.lens sh hmem).2.2.1
        omega

theorem inv_op (e : Env D V) {shardsize : Nat} (numFeatures : Nat) {s : Sim V} {docs : List D}
    (h : Inv e shardsize s docs) (op : Op D) (hk : NoVanishing e (addedDocs [op])) :
    ∃ s', runOp e numFeatures shardsize s op = some s' ∧
      Inv e shardsize s' (docs ++ addedDocs [op]) := by
  cases op with
  | add new =>
    obtain ⟨s1, h1, h2, h3⟩ := inv_reopen e h
    have hk' : NoVanishing e new := by simpa [addedDocs] using hk
    obtain ⟨s2, h4, h5, _⟩ := inv_addMany e numFeatures new hk' h2 h3
    refine ⟨s2, ?_, by simpa [addedDocs] using h5⟩
    simp only [runOp, addDocuments, h1, Option.bind_some]
    exact h4
  | read =>
    obtain ⟨s1, h1, h2, _⟩ := inv_close e numFeatures h
    exact ⟨s1, h1, by simpa [addedDocs] using h2⟩

theorem addedDocs_cons (op : Op D) (ops : List (Op D)) :
    addedDocs (op :: ops) = addedDocs [op] ++ addedDocs ops := by
  cases op <;> simp [addedDocs]

theorem inv_ops (e : Env D V) {shardsize : Nat} (numFeatures : Nat) (ops : List (Op D)) {s : Sim V}
    {docs : List D} (h : Inv e shardsize s docs) (hk : NoVanishing e (addedDocs ops)) :
    ∃ s', ops.foldlM (runOp e numFeatures shardsize) s = some s' ∧
      Inv e shardsize s' (docs ++ addedDocs ops) := by
  induction ops generalizing s docs with
  | nil => exact ⟨s, rfl, by simpa [addedDocs] using h⟩
  | cons op ops ih =>
    rw [addedDocs_cons] at hk
    obtain ⟨s1, h1, h2⟩ := inv_op e numFeatures h op (fun x hx => hk x (List.mem_append_left _ hx))
    obtain ⟨s2, h3, h4⟩ := ih h2 (fun x hx => hk x (List.mem_append_right _ hx))
    refine ⟨s2, ?_, ?_⟩
    · rw [List.foldlM_cons, h1]
      exact h3
    · rw [addedDocs_cons, ← List.append_assoc]
      exact h4

/-! ## vector_by_id -/

theorem findShard_ge {docpos pos : Int} (shards : List (Shard V)) (last : Option (Shard V))
    (h : pos + ((shards.map fun sh => sh.len).sum : Nat) ≤ docpos) :
    (findShard docpos pos shards last).1 = pos + ((shards.map fun sh => sh.len).sum : Nat) := by
  induction shards generalizing pos last with
  | nil => simp [findShard]
  | cons sh rest ih =>
    simp only [List.map_cons, List.sum_cons, Nat.cast_add] at h ⊢
    unfold findShard
    rw [if_neg (by omega), ih _ (by omega)]
    omega

theorem findShard_lt {docpos pos : Int} (shards : List (Shard V)) (last : Option (Shard V))
    (hr : ∀ sh ∈ shards, sh.rows.length = sh.len) (h0 : pos ≤ docpos)
    (h : docpos < pos + ((shards.map fun sh => sh.len).sum : Nat)) :
    ∃ sh p, findShard docpos pos shards last = (p, some sh) ∧ docpos < p ∧ p - sh.len ≤ docpos ∧
      sh.rows[(docpos - p + sh.len).toNat]?
        = ((shards.map fun sh => sh.rows).flatten)[(docpos - pos).toNat]? := by
  induction shards generalizing pos last with
  | nil =>
    simp only [List.map_nil, List.sum_nil, Nat.cast_zero] at h
    omega
  | cons sh rest ih =>
    have hl := hr sh (by simp)
    unfold findShard
    by_cases hlt : docpos < pos + sh.len
    · refine ⟨sh, pos + sh.len, by rw [if_pos hlt], hlt, by omega, ?_⟩
      rw [List.map_cons, List.flatten_cons, List.getElem?_append_left (by omega)]
      congr 1
      omega
    · rw [if_neg hlt]
      simp only [List.map_cons, List.sum_cons, Nat.cast_add] at h
      obtain ⟨sh', p, h1, h2, h3, h4⟩ := ih (pos := pos + sh.len) (some sh)
        (fun x hx => hr x (by simp [hx])) (by omega) (by omega)
      refine ⟨sh', p, h1, h2, h3, ?_⟩
      rw [h4, List.map_cons, List.flatten_cons, List.getElem?_append_right (by omega)]
      congr 1
      omega

theorem sum_lens (shards : List (Shard V)) (hr : ∀ sh ∈ shards, sh.rows.length = sh.len) :
    (shards.map fun sh => sh.len).sum = (shards.map fun sh => sh.rows).flatten.length := by
  induction shards with
  | nil => rfl
  | cons sh rest ih =>
    rw [List.map_cons, List.sum_cons, List.map_cons, List.flatten_cons, List.length_append,
      ih fun x hx => hr x (by simp [hx]), hr sh (by simp)]

theorem lookupVector_spec {s : Sim V} (hr : ∀ sh ∈ s.shards, sh.rows.length = sh.len) (i : Int) :
    lookupVector s i = if i < 0 then none else s.allRows[i.toNat]? := by
  unfold lookupVector
  have hlen := sum_lens s.shards hr
  by_cases h0 : i < 0
  · rw [if_pos h0]
    rcases hf : findShard i 0 s.shards none with ⟨p, _ | sh⟩
    · rfl
    · dsimp only
      rw [if_pos (Or.inl h0)]
  · rw [if_neg h0]
    by_cases hlt : i < (0 : Int) + ((s.shards.map fun sh => sh.len).sum : Nat)
    · obtain ⟨sh, p, h1, h2, h3, h4⟩ := findShard_lt s.shards none hr (by omega) hlt
      rw [h1]
      dsimp only
      rw [if_neg (by omega)]
      unfold Shard.getDocument
      rw [if_pos (by omega), h4, Int.sub_zero]
      rfl
    · have hge := findShard_ge s.shards none (docpos := i) (pos := 0) (by omega)
      have hnone : s.allRows[i.toNat]? = none := by
        rw [List.getElem?_eq_none]
        unfold Sim.allRows
        omega
      rw [hnone]
      rcases hf : findShard i 0 s.shards none with ⟨p, _ | sh⟩
      · rfl
      · dsimp only
        rw [hf] at hge
        dsimp only at hge
        rw [if_pos (Or.inr (by omega))]

/-! ## C54 -/

/-- **C54.** Every history of additions and reads, with any shard size of at least one and documents
without vanishing weights, succeeds; afterwards the length is the number of documents added, the
vector at position `i` is the `i`-th document added, and asking outside the range fails. -/
theorem C54_history (e : Env D V) (numFeatures shardsize : Nat) (h1 : 1 ≤ shardsize)
    (ops : List (Op D)) (hk : NoVanishing e (addedDocs ops)) :
    ∃ s, runOps e numFeatures shardsize ops = some s ∧
      s.length = (addedDocs ops).length ∧
      (∀ i : Nat, vectorById e numFeatures s i = ((addedDocs ops)[i]?).map e.prep) ∧
      (∀ i : Int, i < 0 → vectorById e numFeatures s i = none) := by
  obtain ⟨s, hs, hi⟩ := inv_ops e numFeatures ops (inv_empty e h1) hk
  rw [List.nil_append] at hi
  have hlen : s.length = (addedDocs ops).length := by
    unfold Sim.length
    rw [sum_lens s.shards fun sh hh => (hi.lens sh hh).1]
    have := congrArg List.length hi.rows
    simp only [List.length_append, List.length_map] at this
    unfold Sim.allRows at this
    omega
  obtain ⟨s', hc, hi', hf⟩ := inv_close e numFeatures hi
  have hrows : s'.allRows = (addedDocs ops).map e.prep := by
    have := hi'.rows
    rwa [hf, List.append_nil] at this
  refine ⟨s, hs, hlen, ?_, ?_⟩
  · intro i
    unfold vectorById
    rw [hc, Option.bind_some, lookupVector_spec fun sh hh => (hi'.lens sh hh).1, hrows,
      if_neg (by omega)]
    simp
  · intro i hneg
    unfold vectorById
    rw [hc, Option.bind_some, lookupVector_spec fun sh hh => (hi'.lens sh hh).1, if_pos hneg]

/-- **C54.** All shards but the last hold exactly `shardsize` documents, the last one between one and
`shardsize`, and fewer than `shardsize` documents are waiting. -/
theorem C54_shard_sizes (e : Env D V) (numFeatures shardsize : Nat) (h1 : 1 ≤ shardsize)
    (ops : List (Op D)) (hk : NoVanishing e (addedDocs ops)) (s : Sim V)
    (hs : runOps e numFeatures shardsize ops = some s) :
    (∀ (i : Nat) (sh : Shard V), s.shards[i]? = some sh → i + 1 < s.shards.length → sh.rows.length = shardsize) ∧
      (∀ sh ∈ s.shards, 1 ≤ sh.rows.length ∧ sh.rows.length ≤ shardsize) ∧
      s.fresh.length < shardsize := by
  obtain ⟨s', hs', hi⟩ := inv_ops e numFeatures ops (inv_empty e h1) hk
  unfold runOps at hs
  rw [hs] at hs'
  cases hs'
  refine ⟨?_, ?_, hi.fresh⟩
  · intro i sh h hlt
    have hm : sh ∈ s.shards.dropLast := by
      apply List.mem_of_getElem? (i := i)
      rw [List.getElem?_dropLast, if_pos (by omega)]
      exact h
    rw [(hi.lens sh (mem_of_dropLast hm)).1]
    exact hi.full sh hm
  · intro sh hsh
    obtain ⟨a, b, c, _⟩ := hi.lens sh hsh
    omega

theorem loadShards_spec (files : List (List V)) (shards : List (Shard V)) (i : Nat)
    (h : ∀ j sh, shards[j]? = some sh → files[i + j]? = some sh.rows) :
    loadShards files i (shards.map fun sh => (sh.len, sh.nnz)) = some shards := by
  induction shards generalizing i with
  | nil => rfl
  | cons sh rest ih =>
    have h0 := h 0 sh rfl
    rw [Nat.add_zero] at h0
    simp only [List.map_cons, loadShards, h0]
    rw [ih (i + 1) (by
      intro j sh' hj
      have := h (j + 1) sh' (by simpa using hj)
      rwa [Nat.add_assoc, Nat.add_comm 1 j])]
    rfl

/-- **C54.** Saving after any history and loading what was saved gives an index with the same
vectors at the same positions. -/
theorem C54_save_load (e : Env D V) (numFeatures shardsize : Nat) (h1 : 1 ≤ shardsize)
    (ops : List (Op D)) (hk : NoVanishing e (addedDocs ops)) :
    ∃ s l, runOps e numFeatures shardsize (ops ++ [.read]) = some s ∧
      loadIndex s.files (pickled s) = some l ∧ l.length = (addedDocs ops).length ∧
      ∀ i : Nat, vectorById e numFeatures l i = ((addedDocs ops)[i]?).map e.prep := by
  obtain ⟨s0, hs0, hi0⟩ := inv_ops e numFeatures ops (inv_empty e h1) hk
  rw [List.nil_append] at hi0
  obtain ⟨s, hc, hi, hf⟩ := inv_close e numFeatures hi0
  have hrows : s.allRows = (addedDocs ops).map e.prep := by
    have := hi.rows
    rwa [hf, List.append_nil] at this
  have hload := loadShards_spec s.files s.shards 0 (by
    intro j sh hj
    rw [Nat.zero_add]
    exact hi.files j sh hj)
  refine ⟨s, { shards := s.shards, fresh := [], freshNnz := 0, files := s.files }, ?_, ?_, ?_, ?_⟩
  · unfold runOps
    rw [List.foldlM_append, hs0]
    change (([Op.read] : List (Op D)).foldlM (runOp e numFeatures shardsize) s0) = some s
    rw [List.foldlM_cons]
    change (closeShard e numFeatures s0).bind _ = some s
    rw [hc]
    rfl
  · unfold loadIndex pickled
    rw [hload]
    rfl
  · unfold Sim.length
    dsimp only
    rw [sum_lens s.shards fun sh hh => (hi.lens sh hh).1]
    have := congrArg List.length hrows
    unfold Sim.allRows at this
    simp only [List.length_map, List.length_nil] at this ⊢
    omega
  · intro i
    unfold vectorById closeShard
    rw [if_pos (by rfl), Option.bind_some, lookupVector_spec
      (s := { shards := s.shards, fresh := [], freshNnz := 0, files := s.files })
      (fun sh hh => (hi.lens sh hh).1), if_neg (by omega)]
    change s.allRows[_]? = _
    rw [hrows]
    simp

/-! ## Failures -/

/-- Concrete documents: sparse vectors with integer weights; entries of weight 0 vanish. -/
def exEnv : Env (List (Nat × Int)) (List (Nat × Int)) where
  prep := fun d => d
  doclen := fun d => d.length
  kept := fun v => (v.filter fun p => decide (p.2 ≠ 0)).length

/-- **C54 (failure).** A document with a weight of zero is accepted by `add_documents`, but the index
cannot be read any more: closing the (sparse) shard fails, also after adding other documents. -/
theorem C54_zero_weight_unusable :
    (∃ s, addDocuments exEnv 10 3 Sim.empty [[(0, 0), (1, 5)]] = some s ∧
      closeShard exEnv 10 s = none ∧ vectorById exEnv 10 s 0 = none ∧
      ∃ s', addDocuments exEnv 10 3 s [[(2, 1)]] = some s' ∧ closeShard exEnv 10 s' = none) := by
  refine ⟨{ shards := [], fresh := [[(0, 0), (1, 5)]], freshNnz := 2, files := [] },
    by decide +kernel, by decide +kernel, by decide +kernel,
    { shards := [], fresh := [[(0, 0), (1, 5)], [(2, 1)]], freshNnz := 3, files := [] },
    by decide +kernel, by decide +kernel⟩

/-- **C54 (failure).** If documents are added after saving, the shard file on disk is replaced while
the saved index still describes the old one: loading it gives an index of length 1 whose shard
answers queries with 2 documents. -/
theorem C54_add_after_save_breaks_saved :
    ∃ s s', runOps exEnv 10 3 [.add [[(1, 5)]], .read] = some s ∧
      runOps exEnv 10 3 [.add [[(1, 5)]], .read, .add [[(2, 7)]], .read] = some s' ∧
      ((loadIndex s'.files (pickled s)).map fun l => (l.length, l.allRows.length)) = some (1, 2) :=
  ⟨{ shards := [⟨1, [[(1, 5)]], 1⟩], fresh := [], freshNnz := 0, files := [[[(1, 5)]]] },
    { shards := [⟨2, [[(1, 5)], [(2, 7)]], 2⟩], fresh := [], freshNnz := 0,
      files := [[[(1, 5)], [(2, 7)]]] },
    by decide +kernel, by decide +kernel, by decide +kernel⟩

example : NoVanishing exEnv (addedDocs [.add [[(1, 5)], [(2, 7)]], .read, .add [[(3, 1)]]]) ∧
    ((runOps exEnv 10 2 [.add [[(1, 5)], [(2, 7)]], .read, .add [[(3, 1)]], .read,
      .add [[(4, 4)]], .add [[(5, 5)]]]).map fun s => (s.length, s.shards.length)) = some (5, 2) := by
  constructor
  · intro d hd
    simp only [addedDocs, List.append_nil, List.cons_append, List.nil_append, List.mem_cons,
      List.not_mem_nil, or_false] at hd
    rcases hd with rfl | rfl | rfl <;> decide
  · decide +kernel

end Verif.Docsim
