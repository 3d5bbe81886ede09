import Verif.TextCorpus.DirModel
import Mathlib.Data.List.Nodup
import Mathlib.Data.List.Flatten

/-!
# C72: corpora made of the files of a directory
-/

namespace Verif.TextCorpus
open Verif Text

/-! ## Specification -/

/-- There is a file `name` with these lines in the directory reached by `dirs`, none of which is a
symbolic link. -/
def HasFile : Entries → List Str → Str → List Str → Prop
  | .nil, _, _, _ => False
  | .file n l rest, dirs, name, lines => (dirs = [] ∧ n = name ∧ l = lines) ∨ HasFile rest dirs name lines
  | .dir n link inner rest, dirs, name, lines =>
    (link = false ∧ ∃ ds, dirs = n :: ds ∧ HasFile inner ds name lines) ∨ HasFile rest dirs name lines

/-- The file name matches the pattern, and does not match the pattern for exclusion, if they are set. -/
def NameOk (cfg : Config) (name : Str) : Prop :=
  (∀ p, cfg.pattern = some p → p name = true) ∧ (∀ p, cfg.exclude = some p → p name = false)

/-- The names in a directory. -/
def names : Entries → List Str
  | .nil => []
  | .file n _ rest => n :: names rest
  | .dir n _ _ rest => n :: names rest

/-- No name appears twice in a directory. -/
def Distinct : Entries → Prop
  | .nil => True
  | .file n _ rest => n ∉ names rest ∧ Distinct rest
  | .dir n _ inner rest => n ∉ names rest ∧ Distinct inner ∧ Distinct rest

/-! ## Proofs -/

theorem nameOk_iff (cfg : Config) (name : Str) : nameOk cfg name = true ↔ NameOk cfg name := by
  unfold nameOk NameOk
  cases cfg.pattern <;> cases cfg.exclude <;> simp

theorem mem_files (E : Entries) (name : Str) (lines : List Str) :
    (name, lines) ∈ files E ↔ HasFile E [] name lines := by
  induction E with
  | nil => simp [files, HasFile]
  | file n l rest ih =>
    simp only [files, HasFile, List.mem_cons, Prod.mk.injEq, ih, true_and]
    constructor
    · rintro (⟨h1, h2⟩ | h)
      · exact Or.inl ⟨h1.symm, h2.symm⟩
      · exact Or.inr h
    · rintro (⟨h1, h2⟩ | h)
      · exact Or.inl ⟨h1.symm, h2.symm⟩
      · exact Or.inr h
  | dir n link inner rest _ ih =>
    simp only [files, HasFile, ih]
    constructor
    · exact Or.inr
    · rintro (⟨_, ds, h, _⟩ | h)
      · simp at h
      · exact h

theorem mem_walkSubs (E : Entries) : ∀ (depth : Nat) (path : List Str) (d : Nat) (p : List Str)
    (name : Str) (lines : List Str),
    (∃ fs, (d, p, fs) ∈ walkSubs depth path E ∧ (name, lines) ∈ fs) ↔
      ∃ ds, ds ≠ [] ∧ p = path ++ ds ∧ d = depth + ds.length ∧ HasFile E ds name lines := by
  induction E with
  | nil =>
    intro depth path d p name lines
    simp [walkSubs, HasFile]
  | file n l rest ih =>
    intro depth path d p name lines
    rw [walkSubs, ih]
    constructor
    · rintro ⟨ds, h1, h2, h3, h4⟩
      exact ⟨ds, h1, h2, h3, Or.inr h4⟩
    · rintro ⟨ds, h1, h2, h3, h4⟩
      rcases h4 with ⟨h, _⟩ | h
      · exact absurd h h1
      · exact ⟨ds, h1, h2, h3, h⟩
  | dir n link inner rest ih1 ih2 =>
    intro depth path d p name lines
    rw [walkSubs]
    constructor
    · rintro ⟨fs, hm, hf⟩
      rcases List.mem_append.1 hm with hm | hm
      · cases link with
        | true => simp at hm
        | false =>
          simp only [Bool.false_eq_true, if_false] at hm
          rcases List.mem_cons.1 hm with h | h
          · simp only [Prod.mk.injEq] at h
            obtain ⟨rfl, rfl, rfl⟩ := h
            exact ⟨[n], by simp, rfl, by simp,
              Or.inl ⟨rfl, [], rfl, (mem_files inner name lines).1 hf⟩⟩
          · obtain ⟨ds, h1, h2, h3, h4⟩ := (ih1 _ _ _ _ _ _).1 ⟨fs, h, hf⟩
            exact ⟨n :: ds, by simp, by rw [h2]; simp, by rw [h3, List.length_cons]; omega,
              Or.inl ⟨rfl, ds, rfl, h4⟩⟩
      · obtain ⟨ds, h1, h2, h3, h4⟩ := (ih2 _ _ _ _ _ _).1 ⟨fs, hm, hf⟩
        exact ⟨ds, h1, h2, h3, Or.inr h4⟩
    · rintro ⟨ds, h1, h2, h3, h4⟩
      rcases h4 with ⟨rfl, ds', rfl, h5⟩ | h4
      · by_cases hd : ds' = []
        · subst hd
          refine ⟨files inner, ?_, (mem_files inner name lines).2 h5⟩
          simp only [Bool.false_eq_true, if_false, List.mem_append]
          left
          rw [h2, h3]
          simp
        · obtain ⟨fs, hm, hf⟩ := (ih1 (depth + 1) (path ++ [n]) d p name lines).2
            ⟨ds', hd, by rw [h2]; simp, by rw [h3, List.length_cons]; omega, h5⟩
          refine ⟨fs, ?_, hf⟩
          simp only [Bool.false_eq_true, if_false, List.mem_append]
          exact Or.inl (List.mem_cons_of_mem _ hm)
      · obtain ⟨fs, hm, hf⟩ := (ih2 depth path d p name lines).2 ⟨ds, h1, h2, h3, h4⟩
        exact ⟨fs, List.mem_append_right _ hm, hf⟩

theorem mem_walk (E : Entries) (d : Nat) (p : List Str) (name : Str) (lines : List Str) :
    (∃ fs, (d, p, fs) ∈ walk E ∧ (name, lines) ∈ fs) ↔ d = p.length ∧ HasFile E p name lines := by
  unfold walk
  constructor
  · rintro ⟨fs, hm, hf⟩
    rcases List.mem_cons.1 hm with h | h
    · simp only [Prod.mk.injEq] at h
      obtain ⟨rfl, rfl, rfl⟩ := h
      exact ⟨rfl, (mem_files E name lines).1 hf⟩
    · obtain ⟨ds, h1, h2, h3, h4⟩ := (mem_walkSubs E 0 [] d p name lines).1 ⟨fs, h, hf⟩
      simp only [List.nil_append, Nat.zero_add] at h2 h3
      rw [h2]
      exact ⟨h3, h4⟩
  · rintro ⟨rfl, h⟩
    by_cases hp : p = []
    · subst hp
      exact ⟨files E, List.mem_cons_self, (mem_files E name lines).2 h⟩
    · obtain ⟨fs, hm, hf⟩ := (mem_walkSubs E 0 [] p.length p name lines).2
        ⟨p, hp, rfl, by simp, h⟩
      exact ⟨fs, List.mem_cons_of_mem _ hm, hf⟩

/-- **C72.** The files read are exactly those whose directory is between `min_depth` and `max_depth`
levels below the top (without passing through a symbolic link) and whose name fits the patterns. -/
theorem C72_files (cfg : Config) (top : Entries) (path : List Str) (lines : List Str) :
    (path, lines) ∈ iterFilepaths cfg top ↔
      ∃ dirs name, path = dirs ++ [name] ∧ HasFile top dirs name lines ∧
        cfg.minDepth ≤ dirs.length ∧ dirs.length ≤ cfg.maxDepth ∧ NameOk cfg name := by
  unfold iterFilepaths
  rw [List.mem_flatMap]
  constructor
  · rintro ⟨⟨d, p, fs⟩, hw, hm⟩
    unfold dirFiles at hm
    dsimp only at hm
    split at hm
    · rename_i hd
      obtain ⟨⟨name, l⟩, hf, he⟩ := List.mem_map.1 hm
      obtain ⟨hf1, hf2⟩ := List.mem_filter.1 hf
      simp only [Prod.mk.injEq] at he
      obtain ⟨rfl, rfl⟩ := he
      obtain ⟨rfl, hh⟩ := (mem_walk top d p name l).1 ⟨fs, hw, hf1⟩
      exact ⟨p, name, rfl, hh, hd.1, hd.2, (nameOk_iff cfg name).1 hf2⟩
    · simp at hm
  · rintro ⟨dirs, name, rfl, hh, h1, h2, h3⟩
    obtain ⟨fs, hw, hf⟩ := (mem_walk top dirs.length dirs name lines).2 ⟨rfl, hh⟩
    refine ⟨(dirs.length, dirs, fs), hw, ?_⟩
    unfold dirFiles
    rw [if_pos ⟨h1, h2⟩]
    exact List.mem_map.2 ⟨(name, lines), List.mem_filter.2 ⟨hf, (nameOk_iff cfg name).2 h3⟩, rfl⟩

/-- The paths of all files below the directories of a walk. -/
def allPaths (ds : List (Nat × List Str × List (Str × List Str))) : List (List Str) :=
  ds.flatMap fun d => d.2.2.map fun f => d.2.1 ++ [f.1]

theorem files_names (E : Entries) : ∀ f ∈ files E, f.1 ∈ names E := by
  induction E with
  | nil => simp [files]
  | file n l rest ih =>
    intro f hf
    rcases List.mem_cons.1 hf with rfl | hf
    · exact List.mem_cons_self
    · exact List.mem_cons_of_mem _ (ih f hf)
  | dir n link inner rest _ ih =>
    intro f hf
    exact List.mem_cons_of_mem _ (ih f hf)

theorem files_nodup (E : Entries) (h : Distinct E) : ((files E).map (·.1)).Nodup := by
  induction E with
  | nil => simp [files]
  | file n l rest ih =>
    rw [files, List.map_cons, List.nodup_cons]
    refine ⟨?_, ih h.2⟩
    intro hm
    obtain ⟨f, hf, rfl⟩ := List.mem_map.1 hm
    exact h.1 (files_names rest f hf)
  | dir n link inner rest _ ih => exact ih h.2.2

theorem dirPaths_nodup (E : Entries) (h : Distinct E) (path : List Str) :
    ((files E).map fun f => path ++ [f.1]).Nodup := by
  have := (files_nodup E h).map (f := fun n => path ++ [n]) (by
    intro a b hab
    simpa using hab)
  rwa [List.map_map] at this

theorem mem_allPaths_subs (E : Entries) (depth : Nat) (path : List Str) (q : List Str)
    (h : q ∈ allPaths (walkSubs depth path E)) :
    ∃ n r, q = path ++ n :: r ∧ n ∈ names E ∧ r ≠ [] := by
  induction E generalizing depth path with
  | nil => simp [allPaths, walkSubs] at h
  | file n l rest ih =>
    obtain ⟨m, r, h1, h2, h3⟩ := ih depth path h
    exact ⟨m, r, h1, List.mem_cons_of_mem _ h2, h3⟩
  | dir n link inner rest ih1 ih2 =>
    unfold allPaths at h
    rw [walkSubs, List.flatMap_append, List.mem_append] at h
    rcases h with h | h
    · cases link with
      | true => simp at h
      | false =>
        simp only [Bool.false_eq_true, if_false, List.flatMap_cons, List.mem_append] at h
        rcases h with h | h
        · obtain ⟨f, _, rfl⟩ := List.mem_map.1 h
          exact ⟨n, [f.1], by simp, List.mem_cons_self, by simp⟩
        · obtain ⟨m, r, h1, _, _⟩ := ih1 _ _ h
          exact ⟨n, m :: r, by rw [h1]; simp, List.mem_cons_self, by simp⟩
    · obtain ⟨m, r, h1, h2, h3⟩ := ih2 _ _ h
      exact ⟨m, r, h1, List.mem_cons_of_mem _ h2, h3⟩

theorem allPaths_subs_nodup (E : Entries) : ∀ (depth : Nat) (path : List Str), Distinct E →
    (allPaths (walkSubs depth path E)).Nodup := by
  induction E with
  | nil =>
    intro depth path _
    simp [allPaths, walkSubs]
  | file n l rest ih =>
    intro depth path h
    exact ih depth path h.2
  | dir n link inner rest ih1 ih2 =>
    intro depth path h
    obtain ⟨h1, h2, h3⟩ := h
    unfold allPaths
    rw [walkSubs, List.flatMap_append]
    have hrest := ih2 depth path h3
    cases link with
    | true => simpa [allPaths] using hrest
    | false =>
      simp only [Bool.false_eq_true, if_false, List.flatMap_cons]
      rw [List.nodup_append']
      refine ⟨?_, hrest, ?_⟩
      · rw [List.nodup_append']
        refine ⟨dirPaths_nodup inner h2 _, ih1 _ _ h2, ?_⟩
        intro q hq1 hq2
        obtain ⟨f, _, rfl⟩ := List.mem_map.1 hq1
        obtain ⟨m, r, he, _, hr⟩ := mem_allPaths_subs inner (depth + 1) (path ++ [n]) _ hq2
        have := List.append_cancel_left he
        simp only [List.cons.injEq] at this
        exact hr this.2.symm
      · intro q hq1 hq2
        obtain ⟨m, r, rfl, hm, _⟩ := mem_allPaths_subs rest depth path q hq2
        have hn : m = n := by
          rcases List.mem_append.1 hq1 with hq | hq
          · obtain ⟨f, _, he⟩ := List.mem_map.1 hq
            rw [List.append_assoc] at he
            have := List.append_cancel_left he
            simp only [List.cons_append, List.cons.injEq] at this
            exact this.1.symm
          · obtain ⟨m', r', he, _, _⟩ := mem_allPaths_subs inner (depth + 1) (path ++ [n]) _ hq
            rw [List.append_assoc] at he
            have := List.append_cancel_left he
            simp only [List.cons_append, List.cons.injEq] at this
            exact this.1
        rw [hn] at hm
        exact h1 hm

/-- **C72.** No file is read twice, if no directory lists a name twice. -/
theorem C72_once (cfg : Config) (top : Entries) (h : Distinct top) :
    ((iterFilepaths cfg top).map (·.1)).Nodup := by
  have hall : (allPaths (walk top)).Nodup := by
    unfold walk allPaths
    rw [List.flatMap_cons, List.nodup_append']
    refine ⟨dirPaths_nodup top h [], allPaths_subs_nodup top 0 [] h, ?_⟩
    intro q hq1 hq2
    obtain ⟨f, _, rfl⟩ := List.mem_map.1 hq1
    obtain ⟨m, r, he, _, hr⟩ := mem_allPaths_subs top 0 [] _ hq2
    have := List.append_cancel_left he
    simp only [List.cons.injEq] at this
    exact hr this.2.symm
  have hsub : List.Sublist ((iterFilepaths cfg top).map (·.1)) (allPaths (walk top)) := by
    unfold iterFilepaths allPaths
    rw [List.map_flatMap]
    generalize walk top = W
    induction W with
    | nil => simp
    | cons d W ih =>
      rw [List.flatMap_cons, List.flatMap_cons]
      apply List.Sublist.append _ ih
      unfold dirFiles
      split
      · rw [List.map_map]
        exact List.Sublist.map _ List.filter_sublist
      · simp
  exact hall.sublist hsub

theorem countDocs_eq (strip : Str → Str) (cfg : Config) (top : Entries) :
    countDocs strip cfg top = (stream strip cfg top).length := by
  unfold countDocs
  split
  · rfl
  · rename_i h
    unfold stream fileDocs
    simp only [h]
    generalize iterFilepaths cfg top = l
    induction l with
    | nil => rfl
    | cons a l ih =>
      rw [List.flatMap_cons, List.length_cons, List.length_append, ih]
      simp
      omega

/-- **C72.** After any sequence of changes of the settings, complete and abandoned iterations and calls
of `len`, the length reported is the number of documents an iteration yields. -/
theorem C72_length (strip : Str → Str) (top : Entries) (cfg : Config) (ops : List Op) :
    let c := ops.foldl (apply strip top) { cfg := cfg, length := none }
    (len strip top c).1 = (stream strip c.cfg top).length := by
  have inv : ∀ (ops : List Op) (c : Corpus),
      (∀ n, c.length = some n → n = (stream strip c.cfg top).length) →
      ∀ n, (ops.foldl (apply strip top) c).length = some n →
        n = (stream strip (ops.foldl (apply strip top) c).cfg top).length := by
    intro ops
    induction ops with
    | nil => exact fun c h => h
    | cons op ops ih =>
      intro c h
      rw [List.foldl_cons]
      apply ih
      cases op with
      | configure cfg => intro n hn; simp [apply] at hn
      | iterate =>
        intro n hn
        simp only [apply, Option.some.injEq] at hn ⊢
        exact hn.symm
      | abandon => exact h
      | length =>
        intro n hn
        simp only [apply] at hn ⊢
        unfold len at hn ⊢
        cases hc : c.length with
        | some m =>
          rw [hc] at hn
          dsimp only at hn ⊢
          exact h n hn
        | none =>
          rw [hc] at hn
          dsimp only at hn ⊢
          rw [countDocs_eq] at hn
          exact (Option.some.inj hn).symm
  have h := inv ops { cfg := cfg, length := none } (by simp)
  dsimp only
  unfold len
  split
  · rename_i n hn
    exact h n hn
  · exact countDocs_eq _ _ _

/-- A directory with a file "a" of two lines and a subdirectory "d" with a file "b". -/
def sampleTop : Entries :=
  .file "a".toList ["x".toList, "y".toList]
    (.dir "d".toList false (.file "b".toList ["z".toList] .nil) .nil)

def sampleCfg (p : Option (Str → Bool)) : Config :=
  { minDepth := 0, maxDepth := 5, pattern := p, exclude := none, linesAreDocuments := true }

/-- **C72.** A change of the settings during an iteration leaves a wrong length behind: the iteration
begins without a pattern, the pattern "b" is set after the top directory was read, and from then on
`len` gives 3 although the corpus has one document. -/
theorem C72_length_changed_during :
    let c := iterateChanging id sampleTop { cfg := sampleCfg none, length := none } 1
      (sampleCfg (some fun n => decide (n = "b".toList)))
    (len id sampleTop c).1 = 3 ∧ (stream id c.cfg sampleTop).length = 1 := by
  decide +kernel

example : (iterFilepaths (sampleCfg none) sampleTop).map (·.1)
    = [["a".toList], ["d".toList, "b".toList]] := by decide +kernel

example : Distinct sampleTop := by simp [sampleTop, Distinct, names]

end Verif.TextCorpus
