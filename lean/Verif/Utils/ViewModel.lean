/-!
# Model of corpus views: `gensim/utils.py` `RepeatCorpus`, `RepeatCorpusNTimes`, `ClippedCorpus`,
`SlicedCorpus`, `is_corpus`

A corpus is the list of its documents.
-/

namespace Verif.View

variable {α : Type}

/-- `itertools.islice(it, start, stop, step)` for non-negative `start`, `stop` (`none`: to the end) and
`step ≥ 1`: `skip` elements are dropped before the next one is taken, `i` is the index of the first
element of the list -/
def isliceAux (stop : Option Nat) (step : Nat) : Nat → Nat → List α → List α
  | _, _, [] => []
  | i, skip, x :: xs =>
    if stop.elim false (fun s => decide (s ≤ i)) then []
    else if skip = 0 then x :: isliceAux stop step (i + 1) (step - 1) xs
    else isliceAux stop step (i + 1) (skip - 1) xs

/-- `itertools.islice(corpus, start, stop, step)`; `none`: ValueError (negative argument or step < 1;
`None` for start is 0, for step is 1) -/
def islice (start stop step : Option Int) (l : List α) : Option (List α) :=
  let st := start.getD 0
  let sp := step.getD 1
  if st < 0 || stop.elim false (fun s => decide (s < 0)) || sp < 1 then none
  else some (isliceAux (stop.map Int.toNat) sp.toNat 0 st.toNat l)

/-- `slice(start, stop, step).indices(n)`, CPython `PySlice_AdjustIndices`; `none`: step 0 -/
def sliceIndices (start stop step : Option Int) (n : Nat) : Option (Int × Int × Int) :=
  let sp := step.getD 1
  if sp = 0 then none else
  let lo : Int := if sp < 0 then -1 else 0
  let hi : Int := if sp < 0 then (n : Int) - 1 else n
  let clip := fun x : Int => if x < 0 then max (x + n) lo else min x hi
  let st := match start with
    | none => if sp < 0 then hi else lo
    | some x => clip x
  let en := match stop with
    | none => if sp < 0 then lo else hi
    | some x => clip x
  some (st, en, sp)

/-- `range(start, stop, step)` for `step ≠ 0` (fuel: any number at least the length) -/
def pyRangeAux (stop step : Int) : Nat → Int → List Int
  | 0, _ => []
  | f + 1, i => if (0 < step ∧ i < stop) ∨ (step < 0 ∧ stop < i) then i :: pyRangeAux stop step f (i + step) else []

/-- `range(start, stop, step)` -/
def pyRange (start stop step : Int) : List Int := pyRangeAux stop step (stop - start).natAbs start

/-- `l[start:stop:step]` (the elements at the indices `range(*slice.indices(len))`);
`none`: step 0 -/
def pySlice (start stop step : Option Int) (l : List α) : Option (List α) :=
  (sliceIndices start stop step l.length).map
    (fun p => (pyRange p.1 p.2.1 p.2.2).filterMap (fun i => if i < 0 then none else l[i.toNat]?))

/-- models utils.py:1037-1040, `SlicedCorpus.__iter__`: an indexed corpus is sliced through its
index, any other one with `islice` -/
def slicedIter (indexed : Bool) (start stop step : Option Int) (l : List α) : Option (List α) :=
  if indexed && decide (0 < l.length) then pySlice start stop step l else islice start stop step l

/-- models utils.py:1048-1050, `SlicedCorpus.__len__` for a slice of an indexed corpus: the value
computed (`len()` itself raises ValueError if it is negative); `//` and `%` are Python's floor
division and remainder -/
def slicedLen (start stop step : Option Int) (n : Nat) : Option Int :=
  (sliceIndices start stop step n).map (fun p =>
    let diff := p.2.1 - p.1
    diff.fdiv p.2.2 + (if diff.fmod p.2.2 > 0 then 1 else 0))

/-- models utils.py:1006, `ClippedCorpus.__iter__` (`max_docs = none` is `None`) -/
def clippedIter (maxDocs : Option Nat) (l : List α) : List α :=
  isliceAux maxDocs 1 0 0 l

/-- models utils.py:1009, `ClippedCorpus.__len__`; `none`: `min(None, n)` is a TypeError -/
def clippedLen (maxDocs : Option Nat) (l : List α) : Option Nat := maxDocs.map (fun m => min m l.length)

/-- `itertools.islice(itertools.cycle(full), n)`: `cur` is what is left of the current pass -/
def cycleTake (full : List α) : Nat → List α → List α
  | 0, _ => []
  | n + 1, x :: cur => x :: cycleTake full n cur
  | n + 1, [] => match full with
    | [] => []
    | x :: cur => x :: cycleTake full n cur

/-- models utils.py:947, `RepeatCorpus.__iter__` -/
def repeatIter (reps : Nat) (l : List α) : List α := cycleTake l reps l

/-- models utils.py:978-981, `RepeatCorpusNTimes.__iter__` -/
def repeatNTimesIter : Nat → List α → List α
  | 0, _ => []
  | n + 1, l => l ++ repeatNTimesIter n l

end Verif.View
