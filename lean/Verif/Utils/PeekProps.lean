import Verif.Utils.PeekModel

/-!
# C150: telling a corpus from a document by its first element
-/

namespace Verif.Peek

/-! ## Specification -/

/-- a bag-of-words document: pairs of numbers -/
def bow (d : List (ℚ × ℚ)) : PyV := .list (d.map fun p => .list [.num p.1, .num p.2])

/-- a document of words -/
def tokens (d : List (List Char)) : PyV := .list (d.map .str)

/-- a dense vector -/
def vector (d : List ℚ) : PyV := .list (d.map .num)

/-- an object with these items: a collection or an iterator, of a class not called a corpus -/
def Plain (s : Src) (l : List PyV) : Prop := s = .seq false l ∨ s = .iter false l

/-- the items of a value that is a list -/
def itemsOf : PyV → List PyV
  | .list l => l
  | _ => []

/-! ## Theorems -/

/-- **C150** Nothing is lost: iterating over the returned object gives every item there was, whatever the object and
whatever the answer. -/
theorem C150_nothing_lost (ps : Parse) (s : Src) : (isCorpus ps s).returned.items = s.items := by
  rcases s with _ | ⟨b, l⟩ | ⟨b, l⟩
  · rfl
  · cases b <;> cases l <;> rfl
  · cases b <;> cases l <;> rfl

/-- **C150** The object that was passed is as before if it is a collection, or called a corpus; an iterator has lost its
first item. -/
theorem C150_passed (ps : Parse) (s : Src) :
    (∀ b l, s = .seq b l → (isCorpus ps s).passed = s) ∧
    (∀ l, s = .iter true l → (isCorpus ps s).passed = s) ∧
    (∀ d l, s = .iter false (d :: l) → (isCorpus ps s).passed.items = some l) := by
  refine ⟨?_, ?_, ?_⟩
  · rintro b l rfl; cases b <;> cases l <;> rfl
  · rintro l rfl; rfl
  · rintro d l rfl; rfl

/-- **C150** Asking again gives the same answer about the returned object, and the same items. -/
theorem C150_twice (ps : Parse) (s : Src) :
    (isCorpus ps (isCorpus ps s).returned).answer = (isCorpus ps s).answer ∧
    (isCorpus ps (isCorpus ps s).returned).returned.items = s.items := by
  refine ⟨?_, ?_⟩
  · rcases s with _ | ⟨b, l⟩ | ⟨b, l⟩
    · rfl
    · cases b <;> cases l <;> rfl
    · cases b <;> cases l <;> rfl
  · rw [C150_nothing_lost, C150_nothing_lost]

/-- **C150** Only the class and the first item matter. -/
theorem C150_first_only (ps : Parse) (d : PyV) (l l' : List PyV) (s s' : Src) (h : Plain s (d :: l)) (h' : Plain s' (d :: l')) :
    (isCorpus ps s).answer = (isCorpus ps s').answer := by
  rcases h with rfl | rfl <;> rcases h' with rfl | rfl <;> rfl

/-- **C150** Bag-of-words documents, at least one, are a corpus; one bag-of-words document is none, a list of vectors
is none unless the first is empty, and neither is a vector, or an empty collection. -/
theorem C150_bow (ps : Parse) (s : Src) :
    (∀ d ds, Plain s (bow d :: ds) → (isCorpus ps s).answer = true) ∧
    (∀ d, Plain s (itemsOf (bow d)) → (isCorpus ps s).answer = false) ∧
    (∀ v ds, v ≠ [] → Plain s (vector v :: ds) → (isCorpus ps s).answer = false) ∧
    (∀ v, Plain s (itemsOf (vector v)) → (isCorpus ps s).answer = false) ∧
    (Plain s [] → (isCorpus ps s).answer = false) := by
  refine ⟨?_, ?_, ?_, ?_, ?_⟩
  · intro d ds h
    rcases d with _ | ⟨p, d⟩ <;> rcases h with rfl | rfl <;> rfl
  · intro d h
    rcases d with _ | ⟨p, d⟩ <;> rcases h with rfl | rfl <;> rfl
  · intro v ds hv h
    rcases v with _ | ⟨p, v⟩
    · exact absurd rfl hv
    · rcases h with rfl | rfl <;> rfl
  · intro v h
    rcases v with _ | ⟨p, v⟩ <;> rcases h with rfl | rfl <;> rfl
  · rintro (rfl | rfl) <;> rfl

/-- **C150** A class whose name contains `Corpus` is believed, whatever it holds. -/
theorem C150_believed (ps : Parse) (l : List PyV) :
    (isCorpus ps (.seq true l)).answer = true ∧ (isCorpus ps (.iter true l)).answer = true := ⟨rfl, rfl⟩

/-- **C150** A document of words is taken for a corpus exactly if its first word is empty; documents of words are taken
for a corpus of bags of words exactly if the first has no words, or its first word is of two characters of which the
first reads as an integer and the second as a number. -/
theorem C150_words (ps : Parse) (s : Src) :
    (∀ d, Plain s (itemsOf (tokens d)) → ((isCorpus ps s).answer = true ↔ d.head? = some [])) ∧
    (∀ d ds, Plain s (tokens d :: ds) → ((isCorpus ps s).answer = true ↔
      d = [] ∨ ∃ a b, d.head? = some [a, b] ∧ ps.int [a] = true ∧ ps.float [b] = true)) := by
  refine ⟨?_, ?_⟩
  · intro d h
    rcases d with _ | ⟨w, d⟩
    · rcases h with rfl | rfl <;> simp [tokens, itemsOf, isCorpus]
    · rcases w with _ | ⟨c, w⟩ <;> rcases h with rfl | rfl <;> simp [tokens, itemsOf, isCorpus, firstDoc, elems]
  · intro d ds h
    have e : (isCorpus ps s).answer = firstDoc ps (tokens d) := by rcases h with rfl | rfl <;> rfl
    rw [e]
    rcases d with _ | ⟨w, d⟩
    · simp [tokens, firstDoc, elems]
    · rcases w with _ | ⟨a, _ | ⟨b, _ | ⟨c, w⟩⟩⟩
      · simp [tokens, firstDoc, elems]
      · simp [tokens, firstDoc, elems]
      · simp [tokens, firstDoc, elems, intOk, floatOk]
      · simp [tokens, firstDoc, elems]

/-- digits are read, other characters are not -/
def digits : Parse := ⟨fun s => s.all Char.isDigit && !s.isEmpty, fun s => s.all Char.isDigit && !s.isEmpty⟩

/-- a corpus of two documents from a generator: recognised, nothing lost, the generator itself is one document short -/
example :
    let r := isCorpus digits (.iter false [bow [(0, 1)], bow [(1, 2), (2, 1)]])
    r.answer = true ∧ r.returned.items = some [bow [(0, 1)], bow [(1, 2), (2, 1)]] ∧
      r.passed.items = some [bow [(1, 2), (2, 1)]] := ⟨rfl, rfl, rfl⟩

/-- texts of words: the first starts with the word `42`, and they are taken for a corpus of bags of words -/
example : (isCorpus digits (.seq false [tokens ["42".toList, "is".toList]])).answer = true ∧
    (isCorpus digits (.seq false [tokens ["is".toList, "42".toList]])).answer = false := ⟨rfl, rfl⟩

/-- **C150** Documents whose first item is a pair: they are a corpus exactly if its parts are numbers or strings that read as an
integer and as a number. -/
theorem C150_pairs (ps : Parse) (s : Src) (a b : PyV) (rest ds : List PyV) (h : Plain s (.list (.list [a, b] :: rest) :: ds)) :
    (isCorpus ps s).answer = true ↔
      ((∃ x, a = .num x) ∨ ∃ w, a = .str w ∧ ps.int w = true) ∧ ((∃ x, b = .num x) ∨ ∃ w, b = .str w ∧ ps.float w = true) := by
  have e : (isCorpus ps s).answer = (intOk ps a && floatOk ps b) := by rcases h with rfl | rfl <;> rfl
  rw [e, Bool.and_eq_true]
  apply and_congr
  · cases a <;> simp [intOk]
  · cases b <;> simp [floatOk]

end Verif.Peek
