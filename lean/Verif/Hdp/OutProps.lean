import Verif.Hdp.OutModel

/-!
# C98: the files an `HdpModel` writes by itself
-/

namespace Verif.Hdp.Out
open Verif

/-- Finding for C98: `HdpModel(…, outputdir=…)` never gives a model: the options are written as text to a file
opened for bytes.  An existing folder is left with an empty `options.dat`, whatever was in it before. -/
theorem C98_outputdir {γ M : Type} (fs : Fs γ) (outputdir : Name) (first : List γ) (rest : List (List γ))
    (train : Fs γ → M) (hd : outputdir ≠ []) :
    construct fs outputdir first rest train =
      if outputdir ∈ fs.folders then
        (.error .typeError, { fs with files := PyDict.set fs.files (outputdir ++ '/' :: "options.dat".toList) [] })
      else (.error .noFolder, fs) := by
  unfold construct saveOptions writeBinary
  rw [if_neg hd, if_neg hd]
  by_cases h : outputdir ∈ fs.folders
  · rw [if_pos h, if_pos h]; rfl
  · rw [if_neg h, if_neg h]

/-- C98: without an output folder the constructor writes nothing. -/
theorem C98_no_outputdir {γ M : Type} (fs : Fs γ) (first : List γ) (rest : List (List γ)) (train : Fs γ → M) :
    construct fs [] first rest train = (.ok (train fs), fs) := rfl

/-- C98: `save_topics` with an existing output folder stores exactly the table of the topics and changes no other
file. -/
theorem C98_save_topics {γ : Type} (fs : Fs γ) (dir : Name) (hd : dir ∈ fs.folders) (docCount : Option Nat)
    (table : List γ) :
    ∃ path, (saveTopics fs (some dir) docCount table).1 = .ok () ∧
      PyDict.get? (saveTopics fs (some dir) docCount table).2.files path = some table ∧
      (∀ p, p ≠ path → PyDict.get? (saveTopics fs (some dir) docCount table).2.files p = PyDict.get? fs.files p) ∧
      path = dir ++ '/' :: topicFile docCount := by
  refine ⟨_, ?_, ?_, ?_, rfl⟩
  · simp [saveTopics, writeBinary, hd, writeBinary.go]
  · simp [saveTopics, writeBinary, hd, writeBinary.go, PyDict.getD]
  · intro p hp
    simp only [saveTopics, writeBinary, hd, if_true, writeBinary.go]
    rw [PyDict.get?_set_ne _ (Ne.symm hp), PyDict.get?_set_ne _ (Ne.symm hp)]

/-- Finding for C98: `save_topics` of a model without output folder does not stop at the error it logs: it writes
to a folder called `None` if there is one, and otherwise fails because there is none. -/
theorem C98_save_topics_none {γ : Type} (fs : Fs γ) (table : List γ) :
    saveTopics fs none none table =
      if "None".toList ∈ fs.folders then
        (.ok (), ⟨fs.folders, PyDict.set (PyDict.set fs.files "None/final.topics".toList [])
          "None/final.topics".toList table⟩)
      else (.error .noFolder, fs) := by
  have hp : "None".toList ++ '/' :: topicFile none = "None/final.topics".toList := by decide
  generalize hd : "None".toList = d at hp ⊢
  generalize "None/final.topics".toList = q at hp ⊢
  unfold saveTopics writeBinary
  simp only [hd]
  by_cases h : d ∈ fs.folders
  · rw [if_pos h, if_pos h, hp]
    simp only [writeBinary.go]
    rw [PyDict.getD, PyDict.get?_set_self]
    rfl
  · rw [if_neg h, if_neg h]

/-- non-vacuity -/
example : (construct (M := Nat) (⟨["out".toList], [("out/options.dat".toList, [1, 2])]⟩ : Fs Nat) "out".toList [7] [[8]]
    (fun _ => 0)).1 = .error .typeError := rfl
example : (saveTopics (⟨["out".toList], []⟩ : Fs Nat) (some "out".toList) (some 20) [5, 6]).2.files =
    [("out/doc-20.topics".toList, [5, 6])] := by decide +kernel

end Verif.Hdp.Out
