import Verif.Dictionary.Model

/-! # Model of `Dictionary.patch_with_special_tokens` and `Dictionary.from_corpus` -/

namespace Verif.Dictionary
open Verif PyDict

variable {τ : Type} [LinearOrder τ]

/-- models dictionary.py:619-632, the body of the loop of `patch_with_special_tokens` for one pair
`(token, idx)`, with the list `possible_ids`; `none` is the `KeyError` of `self[idx]` -/
def patchOne (d : Dct τ) (possible : List Nat) (tok : τ) (idx : Nat) : Option (Dct τ × List Nat) :=
  if get? d.token2id tok = some idx then some (d, possible) else
  let (d, possible) := match get? d.token2id tok with
    | some i => ({ d with token2id := erase d.token2id tok }, possible ++ [i])
    | none => (d, possible)
  match getitem d idx with
  | (_, none) => none
  | (d, some old) =>
    let t := set d.token2id tok idx
    match possible.getLast? with
    | some i => some ({ d with token2id := set t old i }, possible.dropLast)
    | none => some ({ d with token2id := set t old (t.length - 1) }, possible)

/-- models dictionary.py:619-632, the loop -/
def patchLoop : List (τ × Nat) → Dct τ → List Nat → Option (Dct τ)
  | [], d, _ => some d
  | (tok, idx) :: ps, d, possible => match patchOne d possible tok idx with
    | none => none
    | some (d, possible) => patchLoop ps d possible

/-- models dictionary.py:589-633, `patch_with_special_tokens` (the argument as the list of items of
the dict; line 633 clears the reverse map) -/
def patchWithSpecialTokens (d : Dct τ) (special : List (τ × Nat)) : Option (Dct τ) :=
  (patchLoop special d []).map (fun d => { d with id2token := [] })

/-- models dictionary.py:726-735, the scan of one document of `from_corpus` (integer weights) -/
def scanDoc (d : Dct τ) (doc : List (Nat × Nat)) : Dct τ :=
  { d with numDocs := d.numDocs + 1
           numNnz := d.numNnz + doc.length
           numPos := d.numPos + (doc.map Prod.snd).sum
           dfs := doc.foldl (fun t p => set t p.1 (getD t p.1 0 + 1)) d.dfs }

/-- models dictionary.py:741-746, ids without a document frequency get 0 -/
def fillDfs (dfs : PyDict Nat Nat) (ids : List Nat) : PyDict Nat Nat :=
  ids.foldl (fun t i => set t i (getD t i 0)) dfs

/-- models dictionary.py:691-753, `from_corpus(corpus, id2word)` with a mapping given -/
def fromCorpus (corpus : List (List (Nat × Nat))) (id2word : List (Nat × τ)) : Dct τ :=
  let d := corpus.foldl scanDoc empty
  let t := ofPairs (id2word.map (fun p => (p.2, p.1)))
  { d with token2id := t, dfs := fillDfs d.dfs (values t) }

/-- models dictionary.py:691-753, `from_corpus(corpus)` without a mapping: the words are `str(i)`
(`name`) for the ids up to the largest one -/
def fromCorpusPlain (name : Nat → τ) (corpus : List (List (Nat × Nat))) : Dct τ :=
  let n := (corpus.flatten.map (fun p => p.1 + 1)).foldl max 0
  fromCorpus corpus ((List.range n).map (fun i => (i, name i)))

end Verif.Dictionary
