/-
Model of gensim/models/_fasttext_bin.py (Facebook's binary fastText format: save and load) and of
the reconstruction of a gensim model from it (gensim/models/fasttext.py:777-839).

A file is a list of bytes.  Machine integers are modelled by their value, floats by their bit
pattern (`Nat` below 2³² or 2⁶⁴), so "restored exactly" is meant bit by bit.  The platform is
little-endian with the usual sizes (`struct` native mode, x86-64).
-/
import Verif.FastText.NgramModel
import Verif.Py.Dict

namespace Verif.FastText.Bin

open Verif

/-! ### Fixed-width values -/

/-- `k` bytes of `v`, least significant first. -/
def leBytes : Nat → Nat → List Nat
  | 0, _ => []
  | k + 1, v => v % 256 :: leBytes k (v / 256)

/-- The value of bytes, least significant first. -/
def leVal : List Nat → Nat
  | [] => 0
  | b :: bs => b + 256 * leVal bs

/-- `np.int32(v).tobytes()`, `np.int64(v).tobytes()`, `struct.pack('@q', v)`: two's complement on
    `k` bytes (_fasttext_bin.py:405-425, 538-554, 582, 608). -/
def packInt (k : Nat) (v : Int) : List Nat := leBytes k (v % (256 ^ k : Nat)).toNat

/-- `struct.unpack` of a signed integer. -/
def unpackInt (k : Nat) (bs : List Nat) : Int :=
  if leVal bs < 256 ^ k / 2 then leVal bs else (leVal bs : Int) - (256 ^ k : Nat)

/-- A reader: consumes a prefix of the file, or fails (`struct.error`, assertion, …). -/
abbrev Rd (α : Type) := List Nat → Option (α × List Nat)

/-- `fin.read(n)` followed by `struct.unpack` of `n` bytes, which fails when fewer are left
    (`_struct_unpack`, _fasttext_bin.py:166-168). -/
def take (n : Nat) : Rd (List Nat) := fun f =>
  if n ≤ f.length then some (f.take n, f.drop n) else none

/-- One signed integer of `k` bytes. -/
def rdInt (k : Nat) : Rd Int := fun f => (take k f).map fun p => (unpackInt k p.1, p.2)

/-- One float of `k` bytes, as its bit pattern. -/
def rdBits (k : Nat) : Rd Nat := fun f => (take k f).map fun p => (leVal p.1, p.2)

/-- `n` times the reader `r` (`for i in range(n)`). -/
def rdMany {α : Type} (r : Rd α) : Nat → Rd (List α)
  | 0, f => some ([], f)
  | n + 1, f => do
    let (x, f) ← r f
    let (xs, f) ← rdMany r n f
    return (x :: xs, f)

/-! ### The data -/

/-- A matrix of float32 bit patterns. -/
abbrev Mat := List (List Nat)

/-- The hyper-parameters, named as in `_NEW_HEADER_FORMAT` (_fasttext_bin.py:68-82). -/
structure Header where
  dim : Int
  ws : Int
  epoch : Int
  minCount : Int
  neg : Int
  wordNgrams : Int
  loss : Int
  model : Int
  bucket : Int
  minn : Int
  maxn : Int
  lrUpdateRate : Int
  t : Nat
deriving DecidableEq

/-- The attributes of a gensim `FastText` model that `save` reads. -/
structure FTModel (W : Type) where
  vectorSize : Int
  window : Int
  epochs : Int
  minCount : Int
  negative : Int
  hs : Int
  sg : Int
  bucket : Int
  minN : Int
  maxN : Int
  sample : Nat
  corpusTotalWords : Int
  /-- `index_to_key` with the `count` attribute -/
  words : List (W × Int)
  vocab : Mat
  ngrams : Mat
  syn1 : Option Mat
  syn1neg : Option Mat
deriving DecidableEq

/-- `_get_field_from_model(model, 'loss')` (_fasttext_bin.py:447-458); `none` is Python's `None`. -/
def lossField (hs : Int) : Option Int := if hs = 1 then some 1 else if hs = 0 then some 2 else none

/-- The header fields of a model (`_get_field_from_model`, _fasttext_bin.py:430-485), before
    `fb_fasttext_parameters` overrides. -/
def headerOf {W : Type} (m : FTModel W) : Option Header := do
  let loss ← lossField m.hs
  return { dim := m.vectorSize, ws := m.window, epoch := m.epochs, minCount := m.minCount,
           neg := m.negative, wordNgrams := 1, loss := loss, model := if m.sg = 1 then 2 else 1,
           bucket := m.bucket, minn := m.minN, maxn := m.maxN, lrUpdateRate := 100,
           t := m.sample }

/-- `fb_fasttext_parameters`: gensim passes at most the two fields it cannot derive
    (fasttext.py:842-930 documents `lr_update_rate` and `word_ngrams`); other overrides are not
    modelled (`_args_save`, _fasttext_bin.py:488-511). -/
structure Overrides where
  wordNgrams : Option Int
  lrUpdateRate : Option Int

/-- Apply the overrides (_fasttext_bin.py:507-510). -/
def Overrides.apply (o : Overrides) (h : Header) : Header :=
  { h with wordNgrams := o.wordNgrams.getD h.wordNgrams
           lrUpdateRate := o.lrUpdateRate.getD h.lrUpdateRate }

/-- `_FASTTEXT_FILEFORMAT_MAGIC` (_fasttext_bin.py:61). -/
def magic : Int := 793712314

/-- `_sign_model` (_fasttext_bin.py:393-406). -/
def signBytes : List Nat := packInt 4 magic ++ packInt 4 12

/-- `_args_save` (_fasttext_bin.py:488-511). -/
def headerBytes (h : Header) : List Nat :=
  packInt 4 h.dim ++ packInt 4 h.ws ++ packInt 4 h.epoch ++ packInt 4 h.minCount ++
  packInt 4 h.neg ++ packInt 4 h.wordNgrams ++ packInt 4 h.loss ++ packInt 4 h.model ++
  packInt 4 h.bucket ++ packInt 4 h.minn ++ packInt 4 h.maxn ++ packInt 4 h.lrUpdateRate ++
  leBytes 8 h.t

/-- One dictionary entry (_fasttext_bin.py:550-555): the encoded word, NUL, its count, type 0. -/
def entryBytes {W : Type} (enc : W → List Nat) (e : W × Int) : List Nat :=
  enc e.1 ++ [0] ++ packInt 8 e.2 ++ [0]

/-- `_dict_save` (_fasttext_bin.py:514-557). -/
def dictBytes {W : Type} (enc : W → List Nat) (m : FTModel W) : List Nat :=
  packInt 4 m.words.length ++ packInt 4 m.words.length ++ packInt 4 0 ++
  packInt 8 m.corpusTotalWords ++ packInt 8 (-1) ++ m.words.flatMap (entryBytes enc)

/-- `matrix.tobytes()`: row after row, each value as four bytes. -/
def matBytes (rows : Mat) : List Nat := rows.flatMap fun r => r.flatMap (leBytes 4)

/-- The number of columns, `shape[1]`, of a matrix known to have rows of `dim` columns. -/
def rowsOk (dim : Nat) (rows : Mat) : Bool := rows.all fun r => r.length == dim

/-- `_input_save` (_fasttext_bin.py:560-584) for arrays with `dim` columns; the assertions fail with
    `none`. -/
def inputBytes {W : Type} (dim : Nat) (m : FTModel W) : Option (List Nat) :=
  if m.vocab.length = m.words.length ∧ (m.ngrams.length : Int) = m.bucket then
    some (packInt 8 (m.vocab.length + m.ngrams.length : Nat) ++ packInt 8 dim ++
      matBytes m.vocab ++ matBytes m.ngrams)
  else none

/-- The matrix `_output_save` writes (_fasttext_bin.py:602-605): `syn1neg` wins when both losses are
    used; `none` when neither is (`UnboundLocalError`) or the array is missing. -/
def hiddenOf {W : Type} (m : FTModel W) : Option Mat :=
  if m.negative ≠ 0 then m.syn1neg else if m.hs ≠ 0 then m.syn1 else none

/-- `_output_save` (_fasttext_bin.py:587-609) for an array with `dim` columns. -/
def outputBytes {W : Type} (dim : Nat) (m : FTModel W) : Option (List Nat) := do
  let h ← hiddenOf m
  return packInt 8 (h.length : Nat) ++ packInt 8 dim ++ matBytes h

/-- `_save_to_stream` (_fasttext_bin.py:612-639). -/
def save {W : Type} (enc : W → List Nat) (dim : Nat) (o : Overrides) (m : FTModel W) :
    Option (List Nat) := do
  let h ← headerOf m
  let i ← inputBytes dim m
  let out ← outputBytes dim m
  return signBytes ++ headerBytes (o.apply h) ++ dictBytes enc m ++ [0] ++ i ++ [0] ++ out

/-! ### Loading -/

/-- The word bytes up to the NUL marker (_fasttext_bin.py:208-215).  At the end of the file
    `fin.read(1)` returns `b''` for ever and the loop does not terminate: `none`. -/
def rdWord : Rd (List Nat)
  | [] => none
  | b :: f => if b = 0 then some ([], f) else (rdWord f).map fun p => (b :: p.1, p.2)

/-- One entry of the vocabulary (_fasttext_bin.py:207-225). -/
def rdEntry {W : Type} (dec : List Nat → W) : Rd (W × Int) := fun f => do
  let (w, f) ← rdWord f
  let (c, f) ← rdInt 8 f
  let (_, f) ← take 1 f
  return ((dec w, c), f)

/-- What `_load_vocab` returns. -/
structure Vocab (W : Type) where
  rawVocab : PyDict W Int
  vocabSize : Int
  nwords : Int
  ntokens : Int

/-- `_load_vocab` (_fasttext_bin.py:171-231). -/
def loadVocab {W : Type} [DecidableEq W] (dec : List Nat → W) (newFormat : Bool) : Rd (Vocab W) :=
  fun f => do
    let (vocabSize, f) ← rdInt 4 f
    let (nwords, f) ← rdInt 4 f
    let (nlabels, f) ← rdInt 4 f
    if nlabels > 0 then none
    else do
      let (ntokens, f) ← rdInt 8 f
      let (prune, f) ← if newFormat then rdInt 8 f else some (0, f)
      let (es, f) ← rdMany (rdEntry dec) vocabSize.toNat f
      let (_, f) ← rdMany (take 8) (if newFormat then prune.toNat else 0) f
      return (⟨PyDict.ofPairs es, vocabSize, nwords, ntokens⟩, f)

/-- `matrix.reshape((num_vectors, dim))`. -/
def reshape (dim : Nat) : Nat → List Nat → Mat
  | 0, _ => []
  | n + 1, l => l.take dim :: reshape dim n (l.drop dim)

/-- `_load_matrix` (_fasttext_bin.py:234-286); `np.fromfile` and the gzip work-around `_fromfile`
    both read `count` floats and fail the assertion (or `struct.error`) when the file is too short; with a
    negative number of rows or columns the assertion or `reshape` fails. -/
def loadMatrix (newFormat : Bool) : Rd Mat := fun f => do
  let (_, f) ← if newFormat then take 1 f else some ([], f)
  let (n, f) ← rdInt 8 f
  let (dim, f) ← rdInt 8 f
  if n < 0 ∨ dim < 0 then none
  else do
    let (vals, f) ← rdMany (rdBits 4) (n * dim).toNat f
    return (reshape dim.toNat n.toNat vals, f)

/-- The fields common to both header formats, from `epoch` on (_fasttext_bin.py:84-96). -/
def rdHeaderTail (dim ws : Int) : Rd Header := fun f => do
  let (epoch, f) ← rdInt 4 f
  let (minCount, f) ← rdInt 4 f
  let (neg, f) ← rdInt 4 f
  let (wordNgrams, f) ← rdInt 4 f
  let (loss, f) ← rdInt 4 f
  let (model, f) ← rdInt 4 f
  let (bucket, f) ← rdInt 4 f
  let (minn, f) ← rdInt 4 f
  let (maxn, f) ← rdInt 4 f
  let (lrUpdateRate, f) ← rdInt 4 f
  let (t, f) ← rdBits 8 f
  return (⟨dim, ws, epoch, minCount, neg, wordNgrams, loss, model, bucket, minn, maxn,
    lrUpdateRate, t⟩, f)

/-- The namedtuple `Model` (_fasttext_bin.py:108-163). -/
structure Loaded (W : Type) where
  header : Header
  vocab : Vocab W
  vectors : Mat
  hidden : Option Mat

/-- `load` (_fasttext_bin.py:314-358). -/
def load {W : Type} [DecidableEq W] (dec : List Nat → W) (fullModel : Bool) (f : List Nat) :
    Option (Loaded W) := do
  let (mg, f) ← rdInt 4 f
  let (version, f) ← rdInt 4 f
  let newFormat : Bool := mg = magic
  let (dim, f) ← if newFormat then rdInt 4 f else some (mg, f)
  let (ws, f) ← if newFormat then rdInt 4 f else some (version, f)
  let (h, f) ← rdHeaderTail dim ws f
  let (v, f) ← loadVocab dec newFormat f
  let (vs, f) ← loadMatrix newFormat f
  if fullModel then do
    let (hid, f) ← loadMatrix newFormat f
    if f = [] then some ⟨h, v, vs, some hid⟩ else none
  else some ⟨h, v, vs, none⟩

/-! ### Rebuilding a gensim model -/

/-- `model.prepare_vocab(update=True, min_count=1)` on an empty model (word2vec.py:655-691 with
    `keep_vocab_item`, utils.py: `count >= min_count`): words are appended in file order, with their
    counts; words with a count below 1 are dropped. -/
def keptWords {W : Type} (raw : PyDict W Int) : List (W × Int) := raw.filter fun e => decide (1 ≤ e.2)

/-- `bucket` after the constructor: 0 when no n-gram length is possible (fasttext.py:419-421). -/
def effBucket (h : Header) : Int := if h.maxn < h.minn then 0 else h.bucket

/-- `_load_fasttext_format` (fasttext.py:777-839) with `init_post_load` (fasttext.py:1135-1161) and
    `_init_post_load` (fasttext.py:437-455).  The constructor sets `bucket = 0` when
    `max_n < min_n` (fasttext.py:419-421). -/
def rebuild {W : Type} (l : Loaded W) : Option (FTModel W) :=
  let words := keptWords l.vocab.rawVocab
  let bucket := effBucket l.header
  if (l.vectors.length : Int) = words.length + bucket ∧
      rowsOk l.header.dim.toNat l.vectors ∧ 0 < words.length then
    let hs : Int := if l.header.loss = 1 then 1 else 0
    some { vectorSize := l.header.dim, window := l.header.ws, epochs := l.header.epoch,
           minCount := l.header.minCount, negative := l.header.neg, hs := hs,
           sg := if l.header.model = 2 then 1 else 0, bucket := bucket,
           minN := l.header.minn, maxN := l.header.maxn, sample := l.header.t,
           corpusTotalWords := l.vocab.ntokens, words := words,
           vocab := l.vectors.take words.length, ngrams := l.vectors.drop words.length,
           syn1 := if hs ≠ 0 then l.hidden else none,
           syn1neg := if l.header.neg ≠ 0 then l.hidden else none }
  else none

/-- `load_facebook_model(path)` (fasttext.py:655-717). -/
def loadFacebookModel {W : Type} [DecidableEq W] (dec : List Nat → W) (f : List Nat) :
    Option (FTModel W) := do
  let l ← load dec true f
  rebuild l

/-! ### A UTF-8 decoder -/

/-- Decode one character from well-formed UTF-8; ill-formed input takes the `backslashreplace`
    branch (_fasttext_bin.py:218-223), which is not modelled and gives `none` here. -/
def decChar : List Nat → Option (Char × List Nat)
  | [] => none
  | a :: f =>
    if a < 0x80 then some (Char.ofNat a, f)
    else if a < 0xE0 then
      match f with
      | b :: f => some (Char.ofNat ((a - 0xC0) * 64 + (b - 0x80)), f)
      | _ => none
    else if a < 0xF0 then
      match f with
      | b :: c :: f => some (Char.ofNat ((a - 0xE0) * 4096 + (b - 0x80) * 64 + (c - 0x80)), f)
      | _ => none
    else
      match f with
      | b :: c :: d :: f =>
        some (Char.ofNat ((a - 0xF0) * 262144 + (b - 0x80) * 4096 + (c - 0x80) * 64 + (d - 0x80)), f)
      | _ => none

/-- `word_bytes.decode('utf-8')`; `fuel` is the number of bytes. -/
def decodeAux : Nat → List Nat → List Char
  | 0, _ => []
  | n + 1, f => match decChar f with
    | none => []
    | some (c, f) => c :: decodeAux n f

/-- `bytes.decode('utf-8')`. -/
def decode (f : List Nat) : List Char := decodeAux f.length f

end Verif.FastText.Bin
