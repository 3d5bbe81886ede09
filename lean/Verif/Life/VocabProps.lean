import Verif.Life.Model

/-!
# C112: a vocabulary is built in one reading
-/

namespace Verif.Life
variable {α : Type}

/-- **C112.** `build_vocab` reads its sentences once, so every iterable will do, a generator included: the vocabulary
is that of all sentences and their numbers of sentences and words are remembered; a generator or an iterator is used up
afterwards, so that training from it sees nothing, in its one epoch.  Anything else is refused and leaves the model as
it is. -/
theorem C112_build_vocab (kept : List α → Nat) (len : α → Nat) (m : Mdl) (l : List α) :
    (∀ c, c = Corpus.seq l ∨ c = Corpus.gen l ∨ c = Corpus.iter l →
      (buildVocab kept len m (some c)).result = .ok () ∧
      (buildVocab kept len m (some c)).model.vocab = kept l ∧
      (buildVocab kept len m (some c)).model.vecs = kept l ∧
      (buildVocab kept len m (some c)).model.corpusCount = l.length ∧
      (buildVocab kept len m (some c)).model.totalWords = (l.map len).sum ∧
      (buildVocab kept len m (some c)).model.trainCount = m.trainCount) ∧
    (buildVocab kept len m (some (.seq l))).corpus = some (.seq l) ∧
    (buildVocab kept len m (some (.gen l))).corpus = some (.gen []) ∧
    (buildVocab kept len m (some (.iter l))).corpus = some (.iter []) ∧
    (∀ c, c = some Corpus.other ∨ c = none →
      (buildVocab kept len m c).result = .error .type ∧ (buildVocab kept len m c).model = m) ∧
    (kept l ≠ 0 → ∀ n,
      let o := train (buildVocab kept len m (some (.gen l))).model (buildVocab kept len m (some (.gen l))).corpus none
        ⟨some n, none, some 1, none, none, 0⟩
      o.result = .ok () ∧ o.events = [.epoch (some [])]) := by
  refine ⟨?_, rfl, rfl, rfl, ?_, ?_⟩
  · rintro c (h | h | h) <;> subst h <;> exact ⟨rfl, rfl, rfl, rfl, rfl, rfl⟩
  · rintro c (h | h) <;> subst h <;> exact ⟨rfl, rfl⟩
  · intro hk n
    simp [buildVocab, checkCorpus, Corpus.iterable, Corpus.isGen, Corpus.pass, train, checkTraining, hk, epochLoop]

/-- Three sentences from a generator. -/
example : (buildVocab (fun l : List (List Nat) => l.flatten.eraseDups.length) List.length (fresh (1 / 40) (1 / 1000) 5)
    (some (.gen [[1, 2], [2, 3], [4]]))).model.vocab = 4 := by decide +kernel

end Verif.Life
