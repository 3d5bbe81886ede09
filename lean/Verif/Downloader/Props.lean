import Mathlib.Tactic
import Verif.Downloader.Model

/-!
# C96: downloads are installed completely and verified, or not at all
-/

namespace Verif.Downloader

open Verif

variable {D : Type} [DecidableEq D]

/-! ### Specification -/

/-- A folder with the verified data of `name`: `__init__.py`, and one file with the parts one after the
other, as many as the list of data sets says and each with the checksum listed there. -/
def Verified (md5 : Bytes → D) (cat : Catalogue D) (name : Name) (files : List (Name × Bytes)) : Prop :=
  ∃ e init parts, lookup cat name = some e ∧
    files = [("__init__.py".toList, init), (name ++ ".gz".toList, parts.flatten)] ∧
    (1 < e.parts → parts.length = e.parts ∧
      ∀ (i : ℕ) b, parts[i]? = some b → e.partChecksum i = some (md5 b)) ∧
    (e.parts ≤ 1 → ∃ b, parts = [b] ∧ e.checksum = some (md5 b))

/-- A completely installed data set. -/
def Installed (md5 : Bytes → D) (cat : Catalogue D) (name : Name) (x : Node) : Prop :=
  ∃ d, x = .dir d ∧ Verified md5 cat name d.files

/-- No data set is called like the temporary folder of another. -/
def Sane (cat : Catalogue D) : Prop :=
  ∀ a b, lookup cat a ≠ none → lookup cat b ≠ none → b ≠ tmpName a

/-- No process is at work. -/
def Alone (s : State) : Prop := ∀ pid p, s.procs pid = some p → p.pc = .done ∨ p.pc = .dead

/-- Every installed data set is complete. -/
def AllInstalled (md5 : Bytes → D) (cat : Catalogue D) (fs : Fs) : Prop :=
  ∀ name, lookup cat name ≠ none → ∀ x, fs name = some x → Installed md5 cat name x

/-! ### Lemmas -/

theorem tmpName_inj {a b : Name} (h : tmpName a = tmpName b) : a = b := List.append_cancel_right h

/-- What is known of a process that fetches. -/
def FetchOk (md5 : Bytes → D) (cat : Catalogue D) (name : Name) : Pc → Prop
  | .fetchPart _ got => ∀ e, lookup cat name = some e →
      (1 < e.parts → got.length < e.parts ∧
        ∀ (i : ℕ) b, got[i]? = some b → e.partChecksum i = some (md5 b)) ∧ (e.parts ≤ 1 → got = [])
  | .check files => Verified md5 cat name files
  | .move files => Verified md5 cat name files
  | _ => True

theorem netStep_name (md5 : Bytes → D) (cat : Catalogue D) (p : Proc) (a : Option Bytes) :
    (netStep md5 cat p a).name = p.name := by
  unfold netStep
  repeat' split
  all_goals rfl

theorem netStep_pc (md5 : Bytes → D) (cat : Catalogue D) (p : Proc) (a : Option Bytes) :
    (∃ i g, (netStep md5 cat p a).pc = .fetchPart i g) ∨ (∃ f, (netStep md5 cat p a).pc = .check f) ∨
      (netStep md5 cat p a).pc = .dead ∨ netStep md5 cat p a = p := by
  unfold netStep
  repeat' split
  all_goals simp

theorem netStep_ok (md5 : Bytes → D) (cat : Catalogue D) (p : Proc) (a : Option Bytes)
    (h : FetchOk md5 cat p.name p.pc) :
    FetchOk md5 cat p.name (netStep md5 cat p a).pc := by
  obtain ⟨name, pc⟩ := p
  unfold netStep
  cases pc with
  | fetchInit =>
    cases a with
    | none => trivial
    | some b =>
      intro e he
      refine ⟨fun h1 => ⟨by simp only [List.length_nil]; omega, by simp⟩, fun _ => rfl⟩
  | fetchPart init got =>
    cases a with
    | none => trivial
    | some b =>
      simp only
      cases he : lookup cat name with
      | none => trivial
      | some e =>
        simp only
        obtain ⟨h1, h2⟩ := h e he
        by_cases hp : 1 < e.parts
        · rw [if_pos hp]
          obtain ⟨hl, hg⟩ := h1 hp
          by_cases hc : some (md5 b) = e.partChecksum got.length
          · rw [if_pos hc]
            have hg' : ∀ (i : ℕ) c, (got ++ [b])[i]? = some c → e.partChecksum i = some (md5 c) := by
              intro i c hi
              rw [List.getElem?_append] at hi
              split at hi
              · exact hg i c hi
              · rename_i hlt
                have : i - got.length = 0 := by
                  by_contra hne
                  rw [List.getElem?_eq_none (by simp only [List.length_singleton]; omega)] at hi
                  cases hi
                have hi' : i = got.length := by omega
                subst hi'
                simp at hi
                subst hi
                exact hc.symm
            split
            · rename_i hlen
              refine ⟨e, init, got ++ [b], he, rfl, fun _ => ⟨by simpa using hlen, hg'⟩, fun h => by omega⟩
            · rename_i hlen
              intro e' he'
              simp only [he, Option.some.injEq] at he'
              subst he'
              refine ⟨fun _ => ⟨?_, hg'⟩, fun h => by omega⟩
              simp only [List.length_append, List.length_singleton]
              omega
          · rw [if_neg hc]; trivial
        · rw [if_neg hp]
          split
          · rename_i hc
            exact ⟨e, init, [b], he, rfl, fun h => absurd h hp, fun _ => ⟨b, rfl, hc.symm⟩⟩
          · trivial
  | check f => cases a <;> exact h
  | move f => cases a <;> exact h
  | copy n l => cases a <;> exact h
  | rename => cases a <;> exact h
  | done => cases a <;> exact h
  | dead => cases a <;> exact h

/-! ### One file system: any number of processes -/

/-- The invariant on one file system. -/
structure Inv1 (md5 : Bytes → D) (cat : Catalogue D) (s : State) : Prop where
  final : AllInstalled md5 cat s.fs
  tmp : ∀ name, lookup cat name ≠ none → ∀ x, s.fs (tmpName name) = some x →
    Installed md5 cat name x ∨ ∃ b, x = .file b
  known : ∀ pid p, s.procs pid = some p → p.pc ≠ .dead → lookup cat p.name ≠ none
  fetch : ∀ pid p, s.procs pid = some p → FetchOk md5 cat p.name p.pc
  nocopy : ∀ pid p n l, s.procs pid = some p → p.pc ≠ .copy n l
  ren : ∀ pid p b, s.procs pid = some p → p.pc = .rename → s.fs (tmpName p.name) ≠ some (.file b)

theorem inv1_proc {md5 : Bytes → D} {cat : Catalogue D} {s : State} (h : Inv1 md5 cat s) (pid : ℕ)
    (q : Proc) (hk : q.pc ≠ .dead → lookup cat q.name ≠ none) (hf : FetchOk md5 cat q.name q.pc)
    (hc : ∀ n l, q.pc ≠ .copy n l)
    (hr : ∀ b, q.pc = .rename → s.fs (tmpName q.name) ≠ some (.file b)) :
    Inv1 md5 cat ⟨s.fs, Function.update s.procs pid (some q)⟩ := by
  have key : ∀ i p, Function.update s.procs pid (some q) i = some p → p = q ∨ s.procs i = some p := by
    intro i p hi
    by_cases e : i = pid
    · subst e; simp only [Function.update_self] at hi; left; exact (Option.some.inj hi).symm
    · simp only [Function.update_of_ne e] at hi; right; exact hi
  refine ⟨h.final, h.tmp, ?_, ?_, ?_, ?_⟩
  · intro i p hi
    rcases key i p hi with rfl | h'
    · exact hk
    · exact h.known i p h'
  · intro i p hi
    rcases key i p hi with rfl | h'
    · exact hf
    · exact h.fetch i p h'
  · intro i p n l hi
    rcases key i p hi with rfl | h'
    · exact hc n l
    · exact h.nocopy i p n l h'
  · intro i p b hi
    rcases key i p hi with rfl | h'
    · exact hr b
    · exact h.ren i p b h'

/-- Changing the temporary folder of `name`. -/
theorem inv1_tmp {md5 : Bytes → D} {cat : Catalogue D} (hsane : Sane cat) {s : State}
    (h : Inv1 md5 cat s) (name : Name) (hn : lookup cat name ≠ none) (x : Option Node)
    (hx : ∀ y, x = some y → Installed md5 cat name y) :
    Inv1 md5 cat ⟨Function.update s.fs (tmpName name) x, s.procs⟩ := by
  refine ⟨?_, ?_, h.known, h.fetch, h.nocopy, ?_⟩
  · intro a ha y hy
    simp only [Function.update_of_ne (hsane name a hn ha)] at hy
    exact h.final a ha y hy
  · intro a ha y hy
    by_cases e : a = name
    · subst e
      simp only [Function.update_self] at hy
      exact Or.inl (hx y hy)
    · simp only [Function.update_of_ne (fun h => e (tmpName_inj h))] at hy
      exact h.tmp a ha y hy
  · intro i p b hi hp hb
    by_cases e : p.name = name
    · rw [e] at hb; simp only [Function.update_self] at hb
      obtain ⟨d, hd, _⟩ := hx _ hb
      cases hd
    · simp only [Function.update_of_ne (fun h => e (tmpName_inj h))] at hb
      exact h.ren i p b hi hp hb

/-- Installing the data set `name`. -/
theorem inv1_final {md5 : Bytes → D} {cat : Catalogue D} (hsane : Sane cat) {s : State}
    (h : Inv1 md5 cat s) (name : Name) (hn : lookup cat name ≠ none) (x : Node)
    (hx : Installed md5 cat name x) :
    Inv1 md5 cat ⟨Function.update s.fs name (some x), s.procs⟩ := by
  refine ⟨?_, ?_, h.known, h.fetch, h.nocopy, ?_⟩
  · intro a ha y hy
    by_cases e : a = name
    · subst e
      simp only [Function.update_self] at hy
      cases hy
      exact hx
    · simp only [Function.update_of_ne e] at hy
      exact h.final a ha y hy
  · intro a ha y hy
    simp only [Function.update_of_ne (fun e => hsane a name ha hn e.symm)] at hy
    exact h.tmp a ha y hy
  · intro i p b hi hp hb
    by_cases hl : lookup cat p.name = none
    · exact absurd hl (h.known i p hi (by rw [hp]; simp))
    · simp only [Function.update_of_ne (fun e => hsane p.name name hl hn e.symm)] at hb
      exact h.ren i p b hi hp hb

theorem inv1_step {md5 : Bytes → D} {cat : Catalogue D} (hsane : Sane cat) (s : State)
    (h : Inv1 md5 cat s) (e : Event) : Inv1 md5 cat (step md5 cat false s e) := by
  cases e with
  | load pid name =>
    simp only [step]
    cases hp : s.procs pid with
    | some p => exact h
    | none =>
      apply inv1_proc h
      · unfold loadStart
        cases hl : lookup cat name with
        | none => simp
        | some e =>
          simp only
          split <;> simp [hl]
      · unfold loadStart
        repeat' split
        all_goals trivial
      · unfold loadStart
        repeat' split
        all_goals simp
      · unfold loadStart
        repeat' split
        all_goals simp
  | net pid a =>
    simp only [step]
    cases hp : s.procs pid with
    | none => exact h
    | some p =>
      have hpc := netStep_pc md5 cat p a
      apply inv1_proc h
      · rw [netStep_name]
        intro hd
        apply h.known pid p hp
        intro hdead
        apply hd
        unfold netStep
        obtain ⟨n, pc⟩ := p
        simp only at hdead
        subst hdead
        cases a <;> rfl
      · rw [netStep_name]
        exact netStep_ok md5 cat p a (h.fetch pid p hp)
      · intro n l
        rcases hpc with ⟨_, _, e⟩ | ⟨_, e⟩ | e | e
        · rw [e]; simp
        · rw [e]; simp
        · rw [e]; simp
        · rw [e]; exact h.nocopy pid p n l hp
      · rw [netStep_name]
        intro b
        rcases hpc with ⟨_, _, e⟩ | ⟨_, e⟩ | e | e
        · rw [e]; simp
        · rw [e]; simp
        · rw [e]; simp
        · rw [e]; exact h.ren pid p b hp
  | kill pid =>
    simp only [step]
    cases hp : s.procs pid with
    | none => exact h
    | some p => apply inv1_proc h <;> simp [FetchOk]
  | go pid n =>
    simp only [step]
    cases hp : s.procs pid with
    | none => exact h
    | some p =>
      obtain ⟨name, pc⟩ := p
      have hkn := h.known pid _ hp
      have hfe := h.fetch pid _ hp
      simp only at hkn hfe ⊢
      cases pc with
      | fetchInit => exact inv1_proc h pid _ (fun _ => hkn (by simp)) trivial (by simp [diskStep]) (by simp [diskStep])
      | fetchPart i g => exact inv1_proc h pid _ (fun _ => hkn (by simp)) hfe (by simp [diskStep]) (by simp [diskStep])
      | done => exact inv1_proc h pid _ (fun _ => hkn (by simp)) trivial (by simp [diskStep]) (by simp [diskStep])
      | dead => exact inv1_proc h pid _ (fun h => absurd rfl h) trivial (by simp [diskStep]) (by simp [diskStep])
      | copy a b => exact absurd rfl (h.nocopy pid _ a b hp)
      | check files =>
        have hl := hkn (by simp)
        simp only [diskStep]
        cases ht : s.fs (tmpName name) with
        | none => exact inv1_proc h pid _ (fun _ => hl) hfe (by simp) (by simp)
        | some x =>
          cases x with
          | dir d => exact inv1_proc h pid _ (by simp) trivial (by simp) (by simp)
          | file b =>
            exact inv1_proc (inv1_tmp hsane h name hl none (by simp)) pid _ (fun _ => hl) hfe (by simp)
              (by simp)
      | move files =>
        have hl := hkn (by simp)
        simp only [diskStep, moveStep]
        cases ht : s.fs (tmpName name) with
        | none =>
          simp only [Bool.false_eq_true, if_false]
          refine inv1_proc (inv1_tmp hsane h name hl _ ?_) pid _ (fun _ => hl) trivial (by simp) ?_
          · intro y hy; cases hy; exact ⟨_, rfl, hfe⟩
          · intro b _; simp only [Function.update_self]; simp
        | some x =>
          cases x with
          | dir d =>
            simp only [Bool.false_eq_true, if_false]
            refine inv1_proc (inv1_tmp hsane h name hl _ ?_) pid _ (fun _ => hl) trivial (by simp) ?_
            · intro y hy
              cases hy
              rcases h.tmp name hl _ ht with ⟨d', hd', hv⟩ | ⟨b, hb⟩
              · cases hd'; exact ⟨_, rfl, hv⟩
              · cases hb
            · intro b _; simp only [Function.update_self]; simp
          | file b => exact inv1_proc h pid _ (by simp) trivial (by simp) (by simp)
      | rename =>
        have hl := hkn (by simp)
        have hnf := fun b => h.ren pid _ b hp rfl
        simp only at hnf
        have hins : ∀ x, s.fs (tmpName name) = some x → Installed md5 cat name x := by
          intro x hx
          rcases h.tmp name hl x hx with hi | ⟨b, rfl⟩
          · exact hi
          · exact absurd hx (hnf b)
        simp only [diskStep, renameStep]
        split
        · rename_i x hx _
          exact inv1_proc (inv1_final hsane (inv1_tmp hsane h name hl none (by simp)) name hl x
            (hins x hx)) pid _ (fun _ => hl) trivial (by simp) (by simp)
        · rename_i d hx _
          exact inv1_proc (inv1_final hsane (inv1_tmp hsane h name hl none (by simp)) name hl _
            (hins _ hx)) pid _ (fun _ => hl) trivial (by simp) (by simp)
        · exact inv1_proc h pid _ (by simp) trivial (by simp) (by simp)

/-- **C96.** When the temporary folders live on the file system of `BASE_DIR`: whatever any number of
processes do at the same time, wherever they are killed, and whatever the network delivers, a data set that
is installed is complete and verified. -/
theorem C96_installed_is_verified (md5 : Bytes → D) (cat : Catalogue D) (hsane : Sane cat) (s : State)
    (hidle : ∀ pid, s.procs pid = none) (hfinal : AllInstalled md5 cat s.fs)
    (htmp : ∀ name, lookup cat name ≠ none → ∀ d, s.fs (tmpName name) ≠ some (.dir d))
    (es : List Event) : AllInstalled md5 cat (run md5 cat false s es).fs := by
  have h0 : Inv1 md5 cat s := by
    refine ⟨hfinal, ?_, ?_, ?_, ?_, ?_⟩
    · intro name hn x hx
      cases x with
      | file b => exact Or.inr ⟨b, rfl⟩
      | dir d => exact absurd hx (htmp name hn d)
    all_goals (intro pid p; simp [hidle])
  have : ∀ (es : List Event) s, Inv1 md5 cat s → Inv1 md5 cat (run md5 cat false s es) := by
    intro es
    induction es with
    | nil => intro s h; exact h
    | cons e es ih => intro s h; exact ih _ (inv1_step hsane s h e)
  exact (this es s h0).final

/-! ### Two file systems: one process at a time -/

/-- A schedule in which a process starts only when no other is at work. -/
def OneAtATime (md5 : Bytes → D) (cat : Catalogue D) (cross : Bool) : State → List Event → Prop
  | _, [] => True
  | s, e :: es => (∀ pid name, e = .load pid name → Alone s) ∧
      OneAtATime md5 cat cross (step md5 cat cross s e) es

/-- Writing out the rest of a copy. -/
def finish (done : List (Name × Bytes)) (left : List (Name × Bytes)) : List (Name × Bytes) :=
  left.foldl (fun acc fb => writeBlock acc fb.1 fb.2) done

theorem writeBlock_append (l : List (Name × Bytes)) (f : Name) (a b : Bytes) :
    writeBlock (writeBlock l f a) f b = writeBlock l f (a ++ b) := by
  induction l with
  | nil => simp [writeBlock]
  | cons x xs ih =>
    obtain ⟨g, c⟩ := x
    by_cases h : g = f
    · simp [writeBlock, h]
    · simp [writeBlock, h, ih]

theorem finish_filled (name : Name) (a b : Bytes) :
    finish [] [("__init__.py".toList, a), (name ++ ".gz".toList, b)]
      = [("__init__.py".toList, a), (name ++ ".gz".toList, b)] := by
  have h : "__init__.py".toList ≠ name ++ ".gz".toList := by
    intro h
    have := congrArg List.getLast? h
    rw [List.getLast?_append_of_ne_nil _ (by decide)] at this
    exact absurd this (by decide)
  simp only [finish, List.foldl_cons, List.foldl_nil, writeBlock]
  rw [if_neg h]

/-- What is known of the only process at work. -/
def SoloOk (md5 : Bytes → D) (cat : Catalogue D) (fs : Fs) (p : Proc) : Prop :=
  match p.pc with
  | .move files => Verified md5 cat p.name files ∧ fs (tmpName p.name) = none
  | .copy nested left => nested = false ∧ ∃ d, fs (tmpName p.name) = some (.dir d) ∧
      Verified md5 cat p.name (finish d.files left)
  | .rename => ∃ x, fs (tmpName p.name) = some x ∧ Installed md5 cat p.name x
  | pc => FetchOk md5 cat p.name pc

/-- The invariant with one process at a time. -/
structure Inv2 (md5 : Bytes → D) (cat : Catalogue D) (s : State) : Prop where
  final : AllInstalled md5 cat s.fs
  known : ∀ pid p, s.procs pid = some p → p.pc ≠ .dead → lookup cat p.name ≠ none
  one : ∀ i j p q, s.procs i = some p → s.procs j = some q → p.pc ≠ .done → p.pc ≠ .dead →
    q.pc ≠ .done → q.pc ≠ .dead → i = j
  solo : ∀ pid p, s.procs pid = some p → SoloOk md5 cat s.fs p

theorem soloOk_idle {md5 : Bytes → D} {cat : Catalogue D} {fs : Fs} {p : Proc}
    (h : p.pc = .done ∨ p.pc = .dead) : SoloOk md5 cat fs p := by
  obtain ⟨n, pc⟩ := p
  rcases h with h | h <;> (simp only at h; subst h; trivial)

/-- A step of the process `pid`. -/
theorem inv2_proc {md5 : Bytes → D} {cat : Catalogue D} {s : State} (h : Inv2 md5 cat s) (pid : ℕ)
    (q : Proc) (fs : Fs) (hfin : AllInstalled md5 cat fs)
    (hothers : ∀ j p, j ≠ pid → s.procs j = some p → p.pc = .done ∨ p.pc = .dead)
    (hk : q.pc ≠ .dead → lookup cat q.name ≠ none) (hs : SoloOk md5 cat fs q) :
    Inv2 md5 cat ⟨fs, Function.update s.procs pid (some q)⟩ := by
  have key : ∀ i p, Function.update s.procs pid (some q) i = some p →
      (i = pid ∧ p = q) ∨ (i ≠ pid ∧ s.procs i = some p) := by
    intro i p hi
    by_cases e : i = pid
    · subst e; simp only [Function.update_self] at hi; left; exact ⟨rfl, (Option.some.inj hi).symm⟩
    · simp only [Function.update_of_ne e] at hi; right; exact ⟨e, hi⟩
  refine ⟨hfin, ?_, ?_, ?_⟩
  · intro i p hi
    rcases key i p hi with ⟨_, rfl⟩ | ⟨_, h'⟩
    · exact hk
    · exact h.known i p h'
  · intro i j p p' hi hj h1 h2 h3 h4
    rcases key i p hi with ⟨rfl, _⟩ | ⟨hne, h'⟩
    · rcases key j p' hj with ⟨e, _⟩ | ⟨hne', h''⟩
      · exact e.symm
      · rcases hothers j p' hne' h'' with e | e
        · exact absurd e h3
        · exact absurd e h4
    · rcases hothers i p hne h' with e | e
      · exact absurd e h1
      · exact absurd e h2
  · intro i p hi
    rcases key i p hi with ⟨_, rfl⟩ | ⟨hne, h'⟩
    · exact hs
    · exact soloOk_idle (hothers i p hne h')

theorem allInstalled_tmp {md5 : Bytes → D} {cat : Catalogue D} (hsane : Sane cat) {fs : Fs}
    (h : AllInstalled md5 cat fs) (name : Name) (hn : lookup cat name ≠ none) (x : Option Node) :
    AllInstalled md5 cat (Function.update fs (tmpName name) x) := by
  intro a ha y hy
  simp only [Function.update_of_ne (hsane name a hn ha)] at hy
  exact h a ha y hy

theorem allInstalled_final {md5 : Bytes → D} {cat : Catalogue D} {fs : Fs}
    (h : AllInstalled md5 cat fs) (name : Name) (x : Node) (hx : Installed md5 cat name x) :
    AllInstalled md5 cat (Function.update fs name (some x)) := by
  intro a ha y hy
  by_cases e : a = name
  · subst e; simp only [Function.update_self] at hy; cases hy; exact hx
  · simp only [Function.update_of_ne e] at hy; exact h a ha y hy

theorem inv2_step {md5 : Bytes → D} {cat : Catalogue D} (hsane : Sane cat) (cross : Bool) (s : State)
    (h : Inv2 md5 cat s) (e : Event) (hal : ∀ pid name, e = .load pid name → Alone s) :
    Inv2 md5 cat (step md5 cat cross s e) := by
  have others : ∀ pid p, s.procs pid = some p → p.pc ≠ .done → p.pc ≠ .dead →
      ∀ j q, j ≠ pid → s.procs j = some q → q.pc = .done ∨ q.pc = .dead := by
    intro pid p hp h1 h2 j q hne hq
    by_contra hc
    push Not at hc
    exact hne (h.one j pid q p hq hp hc.1 hc.2 h1 h2)
  cases e with
  | load pid name =>
    simp only [step]
    cases hp : s.procs pid with
    | some p => exact h
    | none =>
      refine inv2_proc h pid _ s.fs h.final (fun j p _ hj => hal pid name rfl j p hj) ?_ ?_
      · unfold loadStart
        cases hl : lookup cat name with
        | none => simp
        | some e =>
          simp only
          split <;> simp [hl]
      · unfold loadStart
        repeat' split
        all_goals trivial
  | net pid a =>
    simp only [step]
    cases hp : s.procs pid with
    | none => exact h
    | some p =>
      by_cases hidle : p.pc = .done ∨ p.pc = .dead
      · have : netStep md5 cat p a = p := by
          obtain ⟨n, pc⟩ := p
          rcases hidle with e | e <;> (simp only at e; subst e; cases a <;> rfl)
        simp only [this]
        have hu : Function.update s.procs pid (some p) = s.procs := by
          rw [← hp]; exact Function.update_eq_self _ _
        rw [hu]
        exact h
      · push Not at hidle
        refine inv2_proc h pid _ s.fs h.final (others pid p hp hidle.1 hidle.2) ?_ ?_
        · rw [netStep_name]; intro _; exact h.known pid p hp hidle.2
        · rcases netStep_pc md5 cat p a with ⟨i, g, e⟩ | ⟨f, e⟩ | e | e
          · have hf : FetchOk md5 cat p.name p.pc := by
              have := h.solo pid p hp
              obtain ⟨n, pc⟩ := p
              cases pc <;> first | exact this | exact this.1 | (cases a <;> simp [netStep] at e)
            have := netStep_ok md5 cat p a hf
            rw [e] at this
            unfold SoloOk
            rw [e, netStep_name]
            exact this
          · have hf : FetchOk md5 cat p.name p.pc := by
              have := h.solo pid p hp
              obtain ⟨n, pc⟩ := p
              cases pc <;> first | exact this | exact this.1 | (cases a <;> simp [netStep] at e)
            have := netStep_ok md5 cat p a hf
            rw [e] at this
            unfold SoloOk
            rw [e, netStep_name]
            exact this
          · exact soloOk_idle (Or.inr e)
          · rw [e]; exact h.solo pid p hp
  | kill pid =>
    simp only [step]
    cases hp : s.procs pid with
    | none => exact h
    | some p =>
      by_cases hidle : p.pc = .done ∨ p.pc = .dead
      · refine ⟨h.final, ?_, ?_, ?_⟩
        · intro i q hi
          by_cases e : i = pid
          · subst e; simp only [Function.update_self] at hi; cases hi; simp
          · simp only [Function.update_of_ne e] at hi; exact h.known i q hi
        · intro i j q r hi hj h1 h2 h3 h4
          by_cases e : i = pid
          · subst e; simp only [Function.update_self] at hi; cases hi; simp at h2
          · by_cases e' : j = pid
            · subst e'; simp only [Function.update_self] at hj; cases hj; simp at h4
            · simp only [Function.update_of_ne e] at hi
              simp only [Function.update_of_ne e'] at hj
              exact h.one i j q r hi hj h1 h2 h3 h4
        · intro i q hi
          by_cases e : i = pid
          · subst e; simp only [Function.update_self] at hi; cases hi; exact soloOk_idle (Or.inr rfl)
          · simp only [Function.update_of_ne e] at hi; exact h.solo i q hi
      · push Not at hidle
        exact inv2_proc h pid _ s.fs h.final (others pid p hp hidle.1 hidle.2) (by simp)
          (soloOk_idle (Or.inr rfl))
  | go pid n =>
    simp only [step]
    cases hp : s.procs pid with
    | none => exact h
    | some p =>
      by_cases hidle : p.pc = .done ∨ p.pc = .dead
      · have hd : diskStep cross s.fs p n = (s.fs, p.pc) := by
          obtain ⟨nm, pc⟩ := p
          rcases hidle with e | e <;> (simp only at e; subst e; rfl)
        simp only [hd]
        have hu : Function.update s.procs pid (some p) = s.procs := by
          rw [← hp]; exact Function.update_eq_self _ _
        rw [hu]
        exact h
      · push Not at hidle
        have hoth := others pid p hp hidle.1 hidle.2
        have hl := h.known pid p hp hidle.2
        have hso := h.solo pid p hp
        obtain ⟨name, pc⟩ := p
        simp only at hl
        cases pc with
        | fetchInit => exact inv2_proc h pid _ s.fs h.final hoth (fun _ => hl) hso
        | fetchPart i g => exact inv2_proc h pid _ s.fs h.final hoth (fun _ => hl) hso
        | done => exact absurd rfl hidle.1
        | dead => exact absurd rfl hidle.2
        | check files =>
          have hv : Verified md5 cat name files := hso
          simp only [diskStep]
          cases ht : s.fs (tmpName name) with
          | none => exact inv2_proc h pid _ s.fs h.final hoth (fun _ => hl) ⟨hv, ht⟩
          | some x =>
            cases x with
            | dir d => exact inv2_proc h pid _ s.fs h.final hoth (by simp) trivial
            | file b =>
              exact inv2_proc h pid _ _ (allInstalled_tmp hsane h.final name hl none) hoth
                (fun _ => hl) ⟨hv, Function.update_self _ _ _⟩
        | move files =>
          obtain ⟨hv, ht⟩ := hso
          simp only at ht hv
          simp only [diskStep, moveStep, ht]
          cases cross
          · exact inv2_proc h pid _ _ (allInstalled_tmp hsane h.final name hl _) hoth (fun _ => hl)
              ⟨_, Function.update_self _ _ _, _, rfl, hv⟩
          · refine inv2_proc h pid _ _ (allInstalled_tmp hsane h.final name hl _) hoth (fun _ => hl)
              ⟨rfl, _, Function.update_self _ _ _, ?_⟩
            obtain ⟨e, init, parts, h1, h2, h3⟩ := hv
            refine ⟨e, init, parts, h1, ?_, h3⟩
            subst h2
            exact finish_filled name init parts.flatten
        | copy nested left =>
          obtain ⟨hn, d, ht, hv⟩ := hso
          simp only at ht hv hn
          subst hn
          simp only [diskStep, copyStep, ht]
          cases left with
          | nil =>
            exact inv2_proc h pid _ s.fs h.final hoth (fun _ => hl) ⟨_, ht, d, rfl, hv⟩
          | cons fb rest =>
            obtain ⟨f, b⟩ := fb
            simp only [Bool.false_eq_true, if_false]
            refine inv2_proc h pid _ _ (allInstalled_tmp hsane h.final name hl _) hoth (fun _ => hl)
              ⟨rfl, _, Function.update_self _ _ _, ?_⟩
            have hw : writeBlock (writeBlock d.files f (b.take n)) f (b.drop n)
                = writeBlock d.files f b := by
              rw [writeBlock_append, List.take_append_drop]
            have hv' : Verified md5 cat name (finish (writeBlock d.files f b) rest) := hv
            by_cases hd : b.drop n = []
            · rw [if_pos hd]
              have hb : b.take n = b := by
                have := List.take_append_drop n b
                rw [hd, List.append_nil] at this
                exact this
              simp only [hb]
              exact hv'
            · rw [if_neg hd]
              simp only [finish, List.foldl_cons]
              rw [hw]
              exact hv'
        | rename =>
          obtain ⟨x, hx, hi⟩ := hso
          simp only at hx hi
          simp only [diskStep, renameStep, hx]
          split
          · rename_i y hy _
            cases hy
            exact inv2_proc h pid _ _ (allInstalled_final (allInstalled_tmp hsane h.final name hl none)
              name x hi) hoth (fun _ => hl) trivial
          · rename_i y hy _
            cases hy
            exact inv2_proc h pid _ _ (allInstalled_final (allInstalled_tmp hsane h.final name hl none)
              name _ hi) hoth (fun _ => hl) trivial
          · exact inv2_proc h pid _ s.fs h.final hoth (by simp) trivial

/-- **C96.** When temporary folders are copied to `BASE_DIR` from another file system, and one process
downloads at a time: wherever processes are killed, in the middle of a copy too, and whatever the network
delivers, a data set that is installed is complete and verified. -/
theorem C96_installed_is_verified_across_file_systems (md5 : Bytes → D) (cat : Catalogue D)
    (hsane : Sane cat) (cross : Bool) (s : State) (hidle : ∀ pid, s.procs pid = none)
    (hfinal : AllInstalled md5 cat s.fs) (es : List Event) (hes : OneAtATime md5 cat cross s es) :
    AllInstalled md5 cat (run md5 cat cross s es).fs := by
  have h0 : Inv2 md5 cat s :=
    ⟨hfinal, by intro pid p; simp [hidle], by intro i j p q; simp [hidle], by intro pid p; simp [hidle]⟩
  have : ∀ (es : List Event) s, Inv2 md5 cat s → OneAtATime md5 cat cross s es →
      Inv2 md5 cat (run md5 cat cross s es) := by
    intro es
    induction es with
    | nil => intro s h _; exact h
    | cons e es ih => intro s h ho; exact ih _ (inv2_step hsane cross s h e ho.1) ho.2
  exact (this es s h0 hes).final

/-! ### A killed process can block all later downloads -/

/-- The invariant of a blocked data set. -/
structure Blocked (cat : Catalogue D) (name : Name) (d : Dir) (old : ℕ → Prop) (s : State) : Prop where
  absent : s.fs name = none
  tmp : s.fs (tmpName name) = some (.dir d)
  known : ∀ pid p, s.procs pid = some p → p.pc ≠ .dead → p.pc ≠ .done → lookup cat p.name ≠ none
  stuck : ∀ pid p, s.procs pid = some p → p.name = name →
    (p.pc = .fetchInit ∨ (∃ i g, p.pc = .fetchPart i g) ∨ (∃ f, p.pc = .check f) ∨ p.pc = .dead) ∨
      (old pid ∧ p.pc = .done)

theorem blocked_proc {cat : Catalogue D} {name : Name} {d : Dir} {old : ℕ → Prop} {s : State}
    (h : Blocked cat name d old s) (pid : ℕ) (q : Proc) (fs : Fs) (hn : fs name = none)
    (ht : fs (tmpName name) = some (.dir d))
    (hk : q.pc ≠ .dead → q.pc ≠ .done → lookup cat q.name ≠ none)
    (hs : q.name = name →
      (q.pc = .fetchInit ∨ (∃ i g, q.pc = .fetchPart i g) ∨ (∃ f, q.pc = .check f) ∨ q.pc = .dead) ∨
      (old pid ∧ q.pc = .done)) :
    Blocked cat name d old ⟨fs, Function.update s.procs pid (some q)⟩ := by
  refine ⟨hn, ht, ?_, ?_⟩
  · intro i p hi
    by_cases e : i = pid
    · subst e; simp only [Function.update_self] at hi; cases hi; exact hk
    · simp only [Function.update_of_ne e] at hi; exact h.known i p hi
  · intro i p hi
    by_cases e : i = pid
    · subst e; simp only [Function.update_self] at hi; cases hi; exact hs
    · simp only [Function.update_of_ne e] at hi; exact h.stuck i p hi

theorem blocked_step {md5 : Bytes → D} {cat : Catalogue D} (hsane : Sane cat) (cross : Bool)
    {name : Name} (hname : lookup cat name ≠ none) {d : Dir} {old : ℕ → Prop} (s : State)
    (h : Blocked cat name d old s) (e : Event) :
    Blocked cat name d old (step md5 cat cross s e) := by
  cases e with
  | load pid n =>
    simp only [step]
    cases hp : s.procs pid with
    | some p => exact h
    | none =>
      refine blocked_proc h pid _ s.fs h.absent h.tmp ?_ ?_
      · unfold loadStart
        cases hl : lookup cat n with
        | none => simp
        | some e => simp only; split <;> simp [hl]
      · unfold loadStart
        cases hl : lookup cat n with
        | none => simp
        | some e =>
          simp only
          split
          · rename_i hsome
            intro hn
            simp only at hn
            subst hn
            rw [h.absent] at hsome
            cases hsome
          · simp
  | net pid a =>
    simp only [step]
    cases hp : s.procs pid with
    | none => exact h
    | some p =>
      refine blocked_proc h pid _ s.fs h.absent h.tmp ?_ ?_
      · rw [netStep_name]
        intro h1 h2
        apply h.known pid p hp
        · intro hd
          apply h1
          obtain ⟨n, pc⟩ := p
          simp only at hd
          subst hd
          cases a <;> rfl
        · intro hd
          apply h2
          obtain ⟨n, pc⟩ := p
          simp only at hd
          subst hd
          cases a <;> rfl
      · rw [netStep_name]
        intro hn
        rcases netStep_pc md5 cat p a with ⟨i, g, e⟩ | ⟨f, e⟩ | e | e
        · exact Or.inl (Or.inr (Or.inl ⟨i, g, e⟩))
        · exact Or.inl (Or.inr (Or.inr (Or.inl ⟨f, e⟩)))
        · exact Or.inl (Or.inr (Or.inr (Or.inr e)))
        · rw [e]; exact h.stuck pid p hp hn
  | kill pid =>
    simp only [step]
    cases hp : s.procs pid with
    | none => exact h
    | some p =>
      exact blocked_proc h pid _ s.fs h.absent h.tmp (by simp) (fun _ => Or.inl (Or.inr (Or.inr (Or.inr rfl))))
  | go pid n =>
    simp only [step]
    cases hp : s.procs pid with
    | none => exact h
    | some p =>
      obtain ⟨nm, pc⟩ := p
      by_cases hnm : nm = name
      · subst hnm
        rcases h.stuck pid _ hp rfl with (hpc | ⟨i, g, hpc⟩ | ⟨f, hpc⟩ | hpc) | ⟨ho, hpc⟩ <;>
          (simp only at hpc; subst hpc)
        · exact blocked_proc h pid _ s.fs h.absent h.tmp (fun _ _ => hname) (fun _ => Or.inl (Or.inl rfl))
        · exact blocked_proc h pid _ s.fs h.absent h.tmp (fun _ _ => hname)
            (fun _ => Or.inl (Or.inr (Or.inl ⟨i, g, rfl⟩)))
        · simp only [diskStep, h.tmp]
          exact blocked_proc h pid _ s.fs h.absent h.tmp (by simp)
            (fun _ => Or.inl (Or.inr (Or.inr (Or.inr rfl))))
        · exact blocked_proc h pid _ s.fs h.absent h.tmp (by simp [diskStep])
            (fun _ => Or.inl (Or.inr (Or.inr (Or.inr rfl))))
        · exact blocked_proc h pid _ s.fs h.absent h.tmp (by simp [diskStep]) (fun _ => Or.inr ⟨ho, rfl⟩)
      · by_cases hidle : pc = .dead ∨ pc = .done
        · have hd : diskStep cross s.fs ⟨nm, pc⟩ n = (s.fs, pc) := by
            rcases hidle with e | e <;> (subst e; rfl)
          simp only [hd]
          exact blocked_proc h pid _ s.fs h.absent h.tmp (fun h1 h2 => by
            rcases hidle with e | e
            · exact absurd e h1
            · exact absurd e h2) (fun h => absurd h hnm)
        · push Not at hidle
          have hl : lookup cat nm ≠ none := h.known pid _ hp hidle.1 hidle.2
          have hfs : (diskStep cross s.fs ⟨nm, pc⟩ n).1 name = none ∧
              (diskStep cross s.fs ⟨nm, pc⟩ n).1 (tmpName name) = some (.dir d) := by
            have n1 : name ≠ tmpName nm := hsane nm name hl hname
            have n2 : tmpName name ≠ tmpName nm := fun e => hnm (tmpName_inj e).symm
            have n3 : name ≠ nm := fun e => hnm e.symm
            have n4 : tmpName name ≠ nm := fun e => hsane name nm hname hl e.symm
            have u : ∀ x, Function.update s.fs (tmpName nm) x name = none ∧
                Function.update s.fs (tmpName nm) x (tmpName name) = some (.dir d) := by
              intro x
              rw [Function.update_of_ne n1, Function.update_of_ne n2]
              exact ⟨h.absent, h.tmp⟩
            have u2 : ∀ x y, Function.update (Function.update s.fs (tmpName nm) x) nm y name
                  = none ∧
                Function.update (Function.update s.fs (tmpName nm) x) nm y (tmpName name)
                  = some (.dir d) := by
              intro x y
              rw [Function.update_of_ne n3, Function.update_of_ne n4]
              exact u x
            unfold diskStep moveStep copyStep renameStep
            dsimp only
            repeat' split
            all_goals first
              | exact ⟨h.absent, h.tmp⟩
              | exact u _
              | exact u2 _ _
          exact blocked_proc h pid _ _ hfs.1 hfs.2 (fun _ _ => hl) (fun h => absurd h hnm)

/-- **C96 (finding).** If the folder `<name>_tmp` is left behind, no later call of `load(name)` by any
process succeeds, for ever: `os.remove` cannot remove a folder. -/
theorem C96_leftover_blocks (md5 : Bytes → D) (cat : Catalogue D) (hsane : Sane cat) (cross : Bool)
    (name : Name) (hname : lookup cat name ≠ none) (s : State) (halone : Alone s)
    (hnone : s.fs name = none) (d : Dir) (htmp : s.fs (tmpName name) = some (.dir d))
    (es : List Event) :
    (run md5 cat cross s es).fs name = none ∧
    ∀ pid p, s.procs pid = none → (run md5 cat cross s es).procs pid = some p → p.name = name →
      p.pc ≠ .done := by
  have h0 : Blocked cat name d (fun pid => s.procs pid ≠ none) s := by
    refine ⟨hnone, htmp, ?_, ?_⟩
    · intro pid p hp h1 h2
      rcases halone pid p hp with e | e
      · exact absurd e h2
      · exact absurd e h1
    · intro pid p hp _
      rcases halone pid p hp with e | e
      · exact Or.inr ⟨by simp [hp], e⟩
      · exact Or.inl (Or.inr (Or.inr (Or.inr e)))
  have : ∀ (es : List Event) t, Blocked cat name d (fun pid => s.procs pid ≠ none) t →
      Blocked cat name d (fun pid => s.procs pid ≠ none) (run md5 cat cross t es) := by
    intro es
    induction es with
    | nil => intro t h; exact h
    | cons e es ih => intro t h; exact ih _ (blocked_step hsane cross hname t h e)
  have hb := this es s h0
  refine ⟨hb.absent, fun pid p hp hpp hn hd => ?_⟩
  rcases hb.stuck pid p hpp hn with (e | ⟨_, _, e⟩ | ⟨_, e⟩ | e) | ⟨ho, _⟩
  · rw [hd] at e; cases e
  · rw [hd] at e; cases e
  · rw [hd] at e; cases e
  · rw [hd] at e; cases e
  · exact ho hp

/-! ### Successful and failed downloads -/

/-- The downloads of a process. -/
def nets (pid : ℕ) (bs : List Bytes) : List Event := bs.map fun b => .net pid (some b)

theorem run_cons (md5 : Bytes → D) (cat : Catalogue D) (cross : Bool) (s : State) (e : Event)
    (es : List Event) : run md5 cat cross s (e :: es) = run md5 cat cross (step md5 cat cross s e) es :=
  rfl

theorem run_append (md5 : Bytes → D) (cat : Catalogue D) (cross : Bool) (s : State)
    (es fs : List Event) :
    run md5 cat cross s (es ++ fs) = run md5 cat cross (run md5 cat cross s es) fs := by
  simp [run, List.foldl_append]

theorem run_parts (md5 : Bytes → D) (cat : Catalogue D) (cross : Bool) (pid : ℕ) (name : Name)
    (e : Entry D) (he : lookup cat name = some e) (hp : 1 < e.parts) (init : Bytes) :
    ∀ (bs got : List Bytes) (s : State), bs ≠ [] → s.procs pid = some ⟨name, .fetchPart init got⟩ →
      (got ++ bs).length = e.parts →
      (∀ (i : ℕ) b, (got ++ bs)[i]? = some b → e.partChecksum i = some (md5 b)) →
      run md5 cat cross s (nets pid bs)
        = ⟨s.fs, Function.update s.procs pid (some ⟨name, .check (filled name init (got ++ bs))⟩)⟩ := by
  intro bs
  induction bs with
  | nil => intro _ _ h; exact absurd rfl h
  | cons b bs ih =>
    intro got s _ hs hlen hck
    have hc : some (md5 b) = e.partChecksum got.length := by
      rw [hck got.length b (by simp)]
    have hstep : step md5 cat cross s (.net pid (some b))
        = ⟨s.fs, Function.update s.procs pid (some (if got.length + 1 = e.parts
            then ⟨name, .check (filled name init (got ++ [b]))⟩
            else ⟨name, .fetchPart init (got ++ [b])⟩))⟩ := by
      simp only [step, hs, netStep, he, if_pos hp, if_pos hc]
    show run md5 cat cross s (.net pid (some b) :: nets pid bs) = _
    rw [run_cons, hstep]
    cases bs with
    | nil =>
      have : got.length + 1 = e.parts := by simpa using hlen
      rw [if_pos this]
      rfl
    | cons c cs =>
      have : ¬ got.length + 1 = e.parts := by
        simp only [List.length_append, List.length_cons] at hlen
        omega
      rw [if_neg this]
      rw [ih (got ++ [b]) _ (by simp) (Function.update_self _ _ _) (by simpa using hlen)
        (by simpa using hck)]
      simp [Function.update_idem]

theorem go_upd (md5 : Bytes → D) (cat : Catalogue D) (cross : Bool) (fs : Fs)
    (procs : ℕ → Option Proc) (pid : ℕ) (p : Proc) (n : ℕ) :
    step md5 cat cross ⟨fs, Function.update procs pid (some p)⟩ (.go pid n)
      = ⟨(diskStep cross fs p n).1,
          Function.update procs pid (some ⟨p.name, (diskStep cross fs p n).2⟩)⟩ := by
  simp [step, Function.update_idem]

/-- What the listing demands of the parts. -/
def PartsOk (md5 : Bytes → D) (e : Entry D) (parts : List Bytes) : Prop :=
  (1 < e.parts → parts.length = e.parts ∧
    ∀ (i : ℕ) b, parts[i]? = some b → e.partChecksum i = some (md5 b)) ∧
  (e.parts ≤ 1 → ∃ b, parts = [b] ∧ e.checksum = some (md5 b))

theorem run_fetch (md5 : Bytes → D) (cat : Catalogue D) (cross : Bool) (pid : ℕ) (name : Name)
    (e : Entry D) (he : lookup cat name = some e) (init : Bytes) (parts : List Bytes)
    (hok : PartsOk md5 e parts) (s : State) (hfree : s.procs pid = none) (hnew : s.fs name = none) :
    run md5 cat cross s (.load pid name :: .net pid (some init) :: nets pid parts)
      = ⟨s.fs, Function.update s.procs pid (some ⟨name, .check (filled name init parts)⟩)⟩ := by
  rw [run_cons, run_cons]
  have h1 : step md5 cat cross (step md5 cat cross s (.load pid name)) (.net pid (some init))
      = ⟨s.fs, Function.update s.procs pid (some ⟨name, .fetchPart init []⟩)⟩ := by
    simp [step, hfree, loadStart, he, hnew, netStep, Function.update_idem]
  rw [h1]
  by_cases hp : 1 < e.parts
  · obtain ⟨hl, hck⟩ := hok.1 hp
    rw [run_parts md5 cat cross pid name e he hp init parts [] _ ?_ (Function.update_self _ _ _)
      (by simpa using hl) (by simpa using hck)]
    · simp [Function.update_idem]
    · intro h; rw [h] at hl; simp at hl; omega
  · obtain ⟨b, rfl, hb⟩ := hok.2 (by omega)
    simp [nets, run, step, netStep, he, hp, hb, Function.update_idem]

/-- **C96.** A download that is not disturbed and delivers parts with the listed checksums installs exactly
`__init__.py` and the concatenation of the parts, leaves everything else in `BASE_DIR` as it was (the
temporary folder is gone), and `load` returns; on one file system and across file systems. -/
theorem C96_download_succeeds (md5 : Bytes → D) (cat : Catalogue D) (pid : ℕ) (name : Name)
    (e : Entry D) (he : lookup cat name = some e) (init : Bytes) (parts : List Bytes)
    (hok : PartsOk md5 e parts) (s : State) (hfree : s.procs pid = none) (hnew : s.fs name = none)
    (htmp : s.fs (tmpName name) = none) (n : ℕ) (hn : init.length ≤ n)
    (hn' : parts.flatten.length ≤ n) :
    let installed : State := ⟨Function.update s.fs name (some (.dir
          ⟨[("__init__.py".toList, init), (name ++ ".gz".toList, parts.flatten)], []⟩)),
        Function.update s.procs pid (some ⟨name, .done⟩)⟩
    run md5 cat false s (.load pid name :: .net pid (some init) :: nets pid parts ++
      [.go pid n, .go pid n, .go pid n]) = installed ∧
    run md5 cat true s (.load pid name :: .net pid (some init) :: nets pid parts ++
      [.go pid n, .go pid n, .go pid n, .go pid n, .go pid n, .go pid n]) = installed := by
  intro installed
  have hne : name ≠ tmpName name := by
    intro h
    have := congrArg List.length h
    simp [tmpName] at this
  have hfin : ∀ x : Option Node, Function.update (Function.update (Function.update s.fs (tmpName name) x)
      (tmpName name) none) name (some (Node.dir ⟨filled name init parts, []⟩))
      = Function.update s.fs name (some (Node.dir ⟨filled name init parts, []⟩)) := by
    intro x
    rw [Function.update_idem]
    have : Function.update s.fs (tmpName name) none = s.fs := by
      rw [← htmp]; exact Function.update_eq_self _ _
    rw [this]
  have hd1 : init.drop n = [] := List.drop_eq_nil_of_le hn
  have hd2 : parts.flatten.drop n = [] := List.drop_eq_nil_of_le hn'
  have ht1 : init.take n = init := List.take_of_length_le hn
  have ht2 : parts.flatten.take n = parts.flatten := List.take_of_length_le hn'
  have hw := finish_filled name init parts.flatten
  simp only [finish, List.foldl_cons, List.foldl_nil] at hw
  constructor
  · rw [run_append, run_fetch md5 cat false pid name e he init parts hok s hfree hnew]
    simp only [run, List.foldl_cons, List.foldl_nil, step, Function.update_self, diskStep, htmp, moveStep,
      Bool.false_eq_true, if_false, renameStep, Function.update_of_ne hne, hnew, Function.update_idem]
    have := hfin none
    simp only [Function.update_idem] at this
    rw [this]
    rfl
  · rw [run_append, run_fetch md5 cat true pid name e he init parts hok s hfree hnew]
    have d1 : diskStep true s.fs ⟨name, .check (filled name init parts)⟩ n
        = (s.fs, .move (filled name init parts)) := by
      simp only [diskStep, htmp]
    have d2 : diskStep true s.fs ⟨name, .move (filled name init parts)⟩ n
        = (Function.update s.fs (tmpName name) (some (.dir ⟨[], []⟩)),
            .copy false (filled name init parts)) := by
      simp only [diskStep, moveStep, htmp, if_true]
    have dc : ∀ d f b rest, b.drop n = [] → b.take n = b →
        diskStep true (Function.update s.fs (tmpName name) (some (.dir d)))
          ⟨name, .copy false ((f, b) :: rest)⟩ n
        = (Function.update s.fs (tmpName name) (some (.dir ⟨writeBlock d.files f b, d.subs⟩)),
            .copy false rest) := by
      intro d f b rest h1 h2
      simp only [diskStep, copyStep, Function.update_self, h1, h2, if_true, Bool.false_eq_true, if_false,
        Function.update_idem]
    have d5 : ∀ d, diskStep true (Function.update s.fs (tmpName name) (some (.dir d)))
          ⟨name, .copy false []⟩ n
        = (Function.update s.fs (tmpName name) (some (.dir d)), .rename) := by
      intro d
      simp only [diskStep, copyStep, Function.update_self]
    have d6 : ∀ d, diskStep true (Function.update s.fs (tmpName name) (some (.dir d)))
          ⟨name, .rename⟩ n
        = (Function.update s.fs name (some (.dir d)), .done) := by
      intro d
      simp only [diskStep, renameStep, Function.update_self, Function.update_of_ne hne, hnew,
        Function.update_idem]
      have : Function.update s.fs (tmpName name) none = s.fs := by
        rw [← htmp]; exact Function.update_eq_self _ _
      rw [this]
    have d3 := dc ⟨[], []⟩ initName init [(gzName name, parts.flatten)] hd1 ht1
    have d4 := dc ⟨writeBlock [] initName init, []⟩ (gzName name) parts.flatten [] hd2 ht2
    have hw' : writeBlock (writeBlock [] initName init) (gzName name) parts.flatten
        = filled name init parts := hw
    rw [run_cons, go_upd, d1, run_cons, go_upd, d2, run_cons, go_upd]
    rw [show filled name init parts = [(initName, init), (gzName name, parts.flatten)] from rfl, d3]
    rw [run_cons, go_upd, d4, run_cons, go_upd, d5, run_cons, go_upd, d6]
    simp only [hw']
    rfl

/-- **C96.** A part (or the only file) whose checksum is not the listed one ends the download without
touching `BASE_DIR`. -/
theorem C96_bad_checksum (md5 : Bytes → D) (cat : Catalogue D) (cross : Bool) (pid : ℕ) (name : Name)
    (e : Entry D) (he : lookup cat name = some e) (init : Bytes) (got : List Bytes) (b : Bytes)
    (s : State) (hs : s.procs pid = some ⟨name, .fetchPart init got⟩)
    (hbad : (if 1 < e.parts then e.partChecksum got.length else e.checksum) ≠ some (md5 b)) :
    step md5 cat cross s (.net pid (some b))
      = ⟨s.fs, Function.update s.procs pid (some ⟨name, .dead⟩)⟩ := by
  simp only [step, hs, netStep, he]
  by_cases hp : 1 < e.parts
  · rw [if_pos hp] at hbad
    rw [if_pos hp, if_neg (fun h => hbad h.symm)]
  · rw [if_neg hp] at hbad
    rw [if_neg hp, if_neg (fun h => hbad h.symm)]

/-- **C96.** A data set already installed is neither fetched nor checked again. -/
theorem C96_installed_not_fetched (md5 : Bytes → D) (cat : Catalogue D) (cross : Bool) (pid : ℕ)
    (name : Name) (hname : lookup cat name ≠ none) (s : State) (hfree : s.procs pid = none)
    (hin : s.fs name ≠ none) :
    step md5 cat cross s (.load pid name)
      = ⟨s.fs, Function.update s.procs pid (some ⟨name, .done⟩)⟩ := by
  cases hl : lookup cat name with
  | none => exact absurd hl hname
  | some e =>
    have : (s.fs name).isSome = true := Option.isSome_iff_ne_none.2 hin
    simp [step, hfree, loadStart, hl, this]

/-- **C96 (finding).** A process killed after moving its folder and before renaming it leaves the folder
`<name>_tmp` behind, so that `C96_leftover_blocks` applies: one unlucky kill makes a data set unavailable. -/
theorem C96_kill_can_block (md5 : Bytes → D) (cat : Catalogue D) (pid : ℕ) (name : Name)
    (e : Entry D) (he : lookup cat name = some e) (init : Bytes) (parts : List Bytes)
    (hok : PartsOk md5 e parts) (s : State) (halone : Alone s) (hfree : s.procs pid = none)
    (hnew : s.fs name = none) (htmp : s.fs (tmpName name) = none) (cross : Bool) (n : ℕ) :
    let s' := run md5 cat cross s (.load pid name :: .net pid (some init) :: nets pid parts ++
      [.go pid n, .go pid n, .kill pid])
    Alone s' ∧ s'.fs name = none ∧ ∃ d, s'.fs (tmpName name) = some (.dir d) := by
  intro s'
  have hne : name ≠ tmpName name := by
    intro h
    have := congrArg List.length h
    simp [tmpName] at this
  have hal : ∀ q : Proc, q.pc = .dead → ∀ fs, Alone ⟨fs, Function.update s.procs pid (some q)⟩ := by
    intro q hq fs i p hi
    by_cases e : i = pid
    · subst e; simp only [Function.update_self] at hi; cases hi; exact Or.inr hq
    · simp only [Function.update_of_ne e] at hi; exact halone i p hi
  have hs' : ∃ d, s' = ⟨Function.update s.fs (tmpName name) (some (.dir d)),
      Function.update s.procs pid (some ⟨name, .dead⟩)⟩ := by
    simp only [s']
    rw [run_append, run_fetch md5 cat cross pid name e he init parts hok s hfree hnew]
    cases cross
    · exact ⟨⟨filled name init parts, []⟩, by
        simp [run, step, diskStep, htmp, moveStep, Function.update_idem]⟩
    · exact ⟨⟨[], []⟩, by
        simp [run, step, diskStep, htmp, moveStep, Function.update_idem]⟩
  obtain ⟨d, hd⟩ := hs'
  rw [hd]
  refine ⟨hal _ rfl _, ?_, d, ?_⟩
  · simp only [Function.update_of_ne hne]; exact hnew
  · simp only [Function.update_self]

/-- **C96 (finding).** When temporary folders are on another file system, two processes that download the
same data set at the same time can install an empty folder: one moves its copy into the unfinished folder
of the other and renames that. -/
theorem C96_two_processes_install_empty (md5 : Bytes → D) (cat : Catalogue D) (name : Name)
    (e : Entry D) (he : lookup cat name = some e) (init : Bytes) (parts : List Bytes)
    (hok : PartsOk md5 e parts) :
    let start : State := ⟨fun _ => none, fun _ => none⟩
    ∃ es, (run md5 cat true start es).fs name = some (.dir ⟨[], [[]]⟩) ∧
      (run md5 cat true start es).procs 1 = some ⟨name, .done⟩ := by
  intro start
  have hne : name ≠ tmpName name := by
    intro h
    have := congrArg List.length h
    simp [tmpName] at this
  refine ⟨(.load 0 name :: .net 0 (some init) :: nets 0 parts) ++
    ((.load 1 name :: .net 1 (some init) :: nets 1 parts) ++
      [.go 0 0, .go 1 0, .go 0 0, .go 1 0,
       .go 1 (init.length + parts.flatten.length), .go 1 (init.length + parts.flatten.length),
       .go 1 0, .go 1 0]), ?_⟩
  rw [run_append, run_fetch md5 cat true 0 name e he init parts hok start rfl rfl, run_append,
    run_fetch md5 cat true 1 name e he init parts hok _ (by simp [start]) rfl]
  have hd1 : init.drop (init.length + parts.flatten.length) = [] :=
    List.drop_eq_nil_of_le (by omega)
  have hd2 : parts.flatten.drop (init.length + parts.flatten.length) = [] :=
    List.drop_eq_nil_of_le (by omega)
  simp [run, step, diskStep, moveStep, copyStep, renameStep, filled, start, hd1, hd2, hne,
    Function.update_of_ne, -List.length_flatten, -List.drop_eq_nil_iff]

/-! ### Which names are accepted -/

/-- **C96.** `load` accepts a name exactly if `info()` lists it, that is, if the listing does not mark it as
outdated. -/
theorem C96_load_accepts (cat : Catalogue D) (h1 : PyDict.WF cat.corpora) (h2 : PyDict.WF cat.models)
    (fs : Fs) (name : Name) :
    (loadStart cat fs name).pc ≠ .dead ↔
      ∃ e, ((name, e) ∈ cat.corpora ∨ (name, e) ∈ cat.models) ∧ e.latest ≠ some false := by
  have hd : (loadStart cat fs name).pc ≠ .dead ↔ lookup cat name ≠ none := by
    unfold loadStart
    cases hl : lookup cat name with
    | none => simp
    | some e => simp only; split <;> simp
  rw [hd]
  have hget : ∀ d : PyDict Name (Entry D), PyDict.WF d →
      (PyDict.get? (onlyLatest d) name ≠ none ↔ ∃ e, (name, e) ∈ d ∧ e.latest ≠ some false) := by
    intro d hd
    constructor
    · intro h
      obtain ⟨e, he⟩ := Option.ne_none_iff_exists'.1 h
      have := PyDict.mem_of_get? he
      unfold onlyLatest at this
      rw [List.mem_filter] at this
      refine ⟨e, this.1, fun hc => ?_⟩
      have h2 := this.2
      simp [Entry.isLatest, hc] at h2
    · rintro ⟨e, he, hl⟩
      have hm : (name, e) ∈ onlyLatest d := by
        unfold onlyLatest
        rw [List.mem_filter]
        refine ⟨he, ?_⟩
        unfold Entry.isLatest
        cases hle : e.latest with
        | none => rfl
        | some b =>
          cases b
          · exact absurd hle hl
          · rfl
      intro hn
      rw [PyDict.get?_eq_none_iff] at hn
      exact hn (List.mem_map_of_mem hm)
  unfold lookup infoName infoLatest
  simp only
  constructor
  · intro h
    cases hc : PyDict.get? (onlyLatest cat.corpora) name with
    | some e =>
      obtain ⟨e', he', hl⟩ := (hget _ h1).1 (by rw [hc]; simp)
      exact ⟨e', Or.inl he', hl⟩
    | none =>
      rw [hc] at h
      obtain ⟨e', he', hl⟩ := (hget _ h2).1 h
      exact ⟨e', Or.inr he', hl⟩
  · rintro ⟨e, he | he, hl⟩
    · obtain ⟨e', he'⟩ := Option.ne_none_iff_exists'.1 ((hget _ h1).2 ⟨e, he, hl⟩)
      rw [he']
      simp
    · cases hc : PyDict.get? (onlyLatest cat.corpora) name with
      | some e => simp
      | none => exact (hget _ h2).2 ⟨e, he, hl⟩

/-- **C96 (finding).** An outdated data set is shown by `info(name)` and listed by `info(name_only=True)`,
but `load` calls its name incorrect. -/
theorem C96_outdated_refused (name : Name) (e : Entry D) (h : e.latest = some false) (fs : Fs) :
    let cat : Catalogue D := ⟨[], [(name, e)]⟩
    infoName cat name = some e ∧ name ∈ (infoNames cat).2 ∧ (loadStart cat fs name).pc = .dead := by
  intro cat
  refine ⟨by simp [cat, infoName, PyDict.get?], by simp [cat, infoNames, PyDict.keys], ?_⟩
  have : lookup cat name = none := by
    simp [lookup, infoName, infoLatest, onlyLatest, cat, PyDict.get?, Entry.isLatest, h]
  simp [loadStart, this]

/-! ### The cached list -/

/-- The cache after some calls with these answers of the server. -/
def cacheAfter {I : Type} (parse : Bytes → Option I) (answers : List (Option Bytes))
    (cache : Option Bytes) : Option Bytes :=
  answers.foldl (fun c a => (loadInfo parse a c).2) cache

/-- **C96.** The list of data sets is the one the server gives now; without a connection it is the one the
server gave last, after any history of calls. -/
theorem C96_listing {I : Type} (parse : Bytes → Option I) (answers : List (Option Bytes))
    (cache : Option Bytes) :
    (∀ b, (loadInfo parse (some b) (cacheAfter parse answers cache)).1 = parse b) ∧
    (∀ b before after, answers = before ++ some b :: after → (∀ a ∈ after, a = none) →
      (loadInfo parse none (cacheAfter parse answers cache)).1 = parse b) := by
  refine ⟨fun b => rfl, ?_⟩
  rintro b before after rfl hn
  have h : ∀ (l : List (Option Bytes)) (c : Bytes), (∀ a ∈ l, a = none) →
      cacheAfter parse l (some c) = some c := by
    intro l
    induction l with
    | nil => intro c _; rfl
    | cons a l ih =>
      intro c hl
      have ha := hl a (by simp)
      subst ha
      show cacheAfter parse l _ = _
      exact ih c (fun x hx => hl x (by simp [hx]))
  have : cacheAfter parse (before ++ some b :: after) cache = some b := by
    unfold cacheAfter
    rw [List.foldl_append, List.foldl_cons]
    exact h after b hn
  rw [this]
  rfl

/-- **C96 (finding).** An answer that is not a list of data sets (a login page, say) overwrites the cached
list: the next call without a connection fails although a good list had been cached. -/
theorem C96_bad_answer_destroys_cache {I : Type} (parse : Bytes → Option I) (good bad : Bytes)
    (i : I) (hg : parse good = some i) (hb : parse bad = none) :
    (loadInfo parse none (cacheAfter parse [some good] none)).1 = some i ∧
    (loadInfo parse none (cacheAfter parse [some good, some bad] none)).1 = none := by
  constructor
  · exact hg
  · exact hb

/-! ### Examples -/

/-- One data set in two parts; the checksum is the sum of the bytes. -/
def exampleCat : Catalogue ℕ :=
  ⟨[("a".toList, ⟨"a.gz".toList, 2, none, fun i => some (i + 3), none⟩)], []⟩

example : PartsOk (fun b : Bytes => b.sum) ⟨"a.gz".toList, 2, none, fun i => some (i + 3), none⟩
    [[1, 2], [4]] := by
  refine ⟨fun _ => ⟨rfl, ?_⟩, fun h => by simp at h⟩
  intro i b hb
  match i with
  | 0 => simp at hb; subst hb; rfl
  | 1 => simp at hb; subst hb; rfl
  | n + 2 => simp at hb

example : lookup exampleCat "a".toList ≠ none ∧ Sane exampleCat := by
  have key : ∀ x, lookup exampleCat x ≠ none → x = "a".toList := by
    intro x hx
    by_contra hne
    apply hx
    have hne' : ¬ "a".toList = x := fun e => hne e.symm
    simp [lookup, infoName, infoLatest, onlyLatest, exampleCat, PyDict.get?, Entry.isLatest] at hne' ⊢
    simp [hne']
  refine ⟨by decide, fun a b ha hb => ?_⟩
  rw [key a ha, key b hb]
  decide

end Verif.Downloader
