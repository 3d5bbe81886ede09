/-!
# Model of reading a matrix from a stream in batches (`gensim/models/_fasttext_bin.py` 289-311)

Used for compressed files, where `np.fromfile` does not work.  The stream is the list of the floats left in it,
of any type.
-/

namespace Verif.FastText.Batch

variable {α : Type}

/-- models _fasttext_bin.py:166-168 with the format `'@%df' % k`: the next `k` floats and the stream after them,
or `none` for `struct.error` when there are fewer -/
def unpackFloats (k : Nat) (s : List α) : Option (List α × List α) :=
  if k ≤ s.length then some (s.take k, s.drop k) else none

/-- models _fasttext_bin.py:289-306 `_batched_generator`: the batches read and the stream after the last, or `none`
when a read fails.  The batch size is `b + 1`. -/
def batches (b count : Nat) (s : List α) : Option (List (List α) × List α) :=
  if b + 1 < count then
    match unpackFloats (b + 1) s with
    | none => none
    | some (batch, s) =>
      match batches b (count - (b + 1)) s with
      | none => none
      | some (rest, s) => some (batch :: rest, s)
  else
    match unpackFloats count s with
    | none => none
    | some (batch, s) => some ([batch], s)
termination_by count

/-- models _fasttext_bin.py:309-311 `_fromfile`, `np.fromiter(_batched_generator(fin, count), dtype=dtype)`:
the floats of the batches one after another; an exception in the generator ends it -/
def fromFile (b count : Nat) (s : List α) : Option (List α × List α) :=
  (batches b count s).map fun r => (r.1.flatten, r.2)

end Verif.FastText.Batch
