# A Lean 4 model of gensim: design

Source modelled: `/repo` (RaRe-Technologies/gensim at the pinned commit). The
model is written by hand from the source text; nothing in `/repo` was run.

## Conventions

* Every definition that models code carries a comment `models <file>:<lines>`.
  Simplifications are stated in the same comment.
* Exceptions are values (`Option` / `Except`), never `panic`/default values.
* Python `dict` is an association list in insertion order (`Verif/Py/Dict.lean`):
  assignment to an existing key keeps its position, a new key goes to the end.
* Python `sorted` is a stable insertion sort (`Verif/Py/Sort.lean`); all stable
  sorts compute the same function, so nothing depends on the algorithm.
* Numbers: Python ints are `Int`/`Nat`. Floats are modelled by `ℚ` or `ℝ`
  (exact arithmetic): rounding is **not** modelled and each theorem that
  involves weights is about exact arithmetic only. This is recorded per property.
* Concurrency is a nondeterministic transition system; one atomic action per
  queue operation, all interleavings allowed.
* Random numbers are universally quantified inputs.
* Files `Model*.lean` (or the top part of a file) hold definitions,
  `Spec` sections hold the independent specification, and theorems named in
  `MANIFEST.json` are the property theorems. Each is followed by an `example`
  exhibiting a concrete non-trivial instance of its hypotheses.
* Where the code does not satisfy the English claim, the negation is proved on a
  concrete witness (`..._fails`, `..._witness`) and the part that holds is proved
  with suffix `_partial`.

## Trusted base

* Lean 4.33.0 kernel. Axioms used by theorems: at most `propext`,
  `Classical.choice`, `Quot.sound` (see the table of axioms at the end of this file, produced with `#print axioms` by `scripts/axioms.py`).
* The hand translation from Python/Cython to Lean. It is not verified by
  machine; source line citations make it reviewable.
* Python/numpy/scipy primitives taken at their documented meaning: dict order,
  stable sort, slicing, `collections.Counter/defaultdict`, `itertools.groupby`,
  `queue.Queue` FIFO + bounded blocking, numpy element-wise arithmetic over
  exact numbers.

## Plan per property

| id | modelled | proof |
|----|----------|-------|
| C01 | Dictionary state + all mutators as `step` of a transition system | invariant by induction over operation histories |
| C02 | doc2bow branch by branch | direct, against `List.count` |
| C03 | fold of doc2bow | induction over documents, against counting spec |
| C04 | doc2bow(no update), doc2idx | direct |
| C05 | filter_extremes/filter_tokens/compactify | refinement to filter/take spec; negative witness for keep_tokens |
| C06 | lazy id2token cache in the state | invariant over histories with lookups |
| C07 | text format over character lists | round trip |
| C08 | merge_with + VocabTransform | refinement; witness for cfs |
| C09 | add_documents with pruning | invariant relating to true counts |
| C10 | HashDictionary | direct + invariant. Text export (`HashDict/TextModel`): lines as triples, ordering by stability of the sort. |
| C11 | analyze_sentence state machine | induction, join/split spec |
| C12 | _learn_vocab/add_vocab | induction over batches |
| C13 | FrozenPhrases vs Phrases | equality of decision functions |
| C14 | prune_vocab & counting loop | invariant with lower/upper bounds |
| C15 | chunkize_serial | induction |
| C16 | InputQueue/chunkize | transition system: safety invariant + progress measure |
| C17 | corpus views | direct; witness for `__len__` |
| C18 | SaveLoad over attribute trees with failure points | structural induction |
| C19 | matutils conversions over ℚ | direct |
| C20 | unitvec over ℝ, on gensim vectors, dense vectors and scipy matrices, with the argument after the call | algebra |
| C21 | cossim/hellinger/jaccard over ℝ | Cauchy–Schwarz, algebra |
| C22 | MmWriter/MmReader over lines | round trip by induction |
| C23-C25 | line formats | round trip; witnesses |
| C26 | ShardedCorpus with cache state | invariant + refinement to list indexing |
| C27 | _scan_vocab/prepare_vocab | refinement to filter spec |
| C28 | _job_producer | induction |
| C29 | train_epoch threads | transition system: safety, deadlock freedom, termination measure |
| C30 | Huffman with nondeterministic ties | induction on merge steps (forest invariant) |
| C31 | cum table + bisect | binary search correctness |
| C32 | alpha schedules over ℚ | inequalities |
| C33 | Text8Corpus/LineSentence | induction over blocks |
| C34 | next_batch | invariant; witnesses for data loss |
| C35 | window loop | direct |
| C36 | offsets | invariant over lines |
| C37 | doctag scan | invariant |
| C38 | KeyedVectors store | invariant over histories; witness |
| C39 | most_similar | top-n spec |
| C40 | w2v formats | parser correctness, chunk independence |
| C41 | rank/closer_than | direct |
| C42 | ngrams | list/UTF-8 spec |
| C43 | FNV hash on BitVec 32 | direct; witness |
| C44 | binary format | serializer/parser round trip. Batched reading (`FastText/BatchModel`): equal to one read, by strong induction on the count. |
| C45-C48 | LDA state/schedules/dispatcher | algebra, invariants, transition systems |
| C49 | tfidf | counting + algebra |
| C50-C53 | coherence | list combinatorics, invariants, schedule independence |
| C54-C55 | Similarity | invariant, top-k merge lemma. Parallel shard queries (`Docsim/ParModel`): decision by the type of the piece size |
| C56 | termsim | loop invariant |
| C57 | Porter | bounds invariant per step |
| C58 | TransformedCorpus | from C15 |
| C59 | remove_template | state machine vs. grammar |
| C60 | sample_texts | induction over the stream |
| C61 | patch_with_special_tokens incl. cache | loop invariant; witnesses for known tokens |
| C62 | from_corpus | counting; refinement to the original dictionary |

| C63 | sort_by_descending_frequency, set_vecattr | permutation of rows; direct |
| C64 | FastTextKeyedVectors rows, save/load | invariant over histories; witnesses |
| C65 | dispatcher + add_documents | transition system from C48 |
| C66 | LogEntropyModel over ℝ | entropy bounds (concavity of log) |
| C67 | InvertedIndexAccumulator | window counting; iff for the exception |
| C68 | Similarity iteration as a state machine | invariant over nested/overlapping histories |
| C69 | inner_product, soft cosine over ℝ | Cauchy–Schwarz for the dominant matrix |
| C70 | extract_pages/get_texts with imap in any finishing order | schedule independence |
| C71 | step_through_preprocess | direct; witness |
| C72 | directory trees and settings histories | structural induction; invariant |
| C73 | vector_distance over real vectors | hyperboloid embedding, reverse Cauchy–Schwarz |
| C74 | loss and gradients over real vectors | HasGradientAt calculus |
| C75 | update of a batch, duplicates, clipping | invariant of the ball; witness for large dimensions |
| C76 | relations, cumulative table, rejection loop with arbitrary random numbers | induction; counting; witnesses |
| C77 | closest child/parent, ancestors, descendants, most_similar | measure: nodes above; argsort contract; witnesses |
| C78 | ranks, average precision, max_n | counting; sorted lists |
| C79 | direct measures over the accumulators of C52 | counts refine to document/window frequencies; log inequalities; witness |
| C80 | context vectors with both caches | cache invariant |
| C81 | coherence model as a state machine | invariant over histories; witnesses |
| C82 | skip-gram step of word2vec_inner.pyx over a real inner product space, sigmoid tables, scoring | derivatives in Mathlib; error bound of the tables; witnesses |
| C83 | CBOW step | derivatives; witnesses |
| C84 | thresholds, probabilities, `sample_int`, generator, sentence loop | real analysis, counting of states; witnesses |
| C85 | vectors and output rows during `build_vocab` | invariant over histories; characterisation of the rebuild |
| C86 | `Projection.merge`, `clip_spectrum`, `add_documents` of given chunk decompositions, fold-in, over real matrices; QR and SVD by their equations | matrix algebra, Bessel's inequality, induction on chunks; existence of the decompositions proved |
| C87 | the three document training functions over a real inner product space, output layers, windows, choice of words | Fréchet derivatives of the losses, chain rules for bags and blocks; frozen parts have rate 0 |
| C88 | `infer_vector` in all modes, arguments, learning rates, draws universally quantified | frozen weights by induction over epochs and words; gradient steps from C87 |
| C89 | the loops over a file in the three `d2v_train_epoch_*`, offsets of C36, lines as `FastLineSentence` reads them | lines of the reader = lines of the file; prefix characterisation by induction; witnesses by kernel evaluation |
| C90 | `inference` over the reals with the true digamma function, numpy's `+=` with repeated ids, the document part of `bound` | Jensen's inequality and the tangent inequality of the Dirichlet log-normaliser, itself proved from log-convexity of the Beta function (Hölder) by stick breaking; lists of documents by induction |
| C91 | priors, `rho`, the training loop of C46 with the inference of C90, queries and their settings | invariant and simulation over E and M steps, then over any list of calls; Newton's equation by algebra |
| C92 | `solve_h`, `_solveproj`, `_solve_w`, `_transform`, the loop of `update`, queries with their writes through views | coordinate descent on a quadratic, KKT conditions at fixed points, projected gradient descent with the Frobenius norm as Lipschitz bound, induction over chunks and calls |
| C93 | `AuthorTopicModel`: table construction, `update` before training, `inference` on rows, `get_author_topics`, `get_new_author_topics` with rollback, author lookup of `bound` | consistency invariant over all histories; exact restore after a query; explicit round of a document and conservation of counts; witnesses for the findings |
| C94 | `wmdistance`: distance matrix loops, word shares, early exits; `pyemd.emd` as least transport cost | loop invariants for the matrix; equivalence of the id and token transport problems; gluing of plans; witness for equal vectors |
| C95 | `Verif/KeyedVectors/EvalModel.lean`: folded vocabulary, loop over analogy lines, suggestion loop, sections, total, word-pair loop, swapping of `key_to_index` | refinement of the stateful loops to a per-section / per-line specification; characterisation of the folded table; findings on the failing paths |
| C96 | `Verif/Downloader/Model.lean`: listing and its cache, `load`/`_download` as a transition system of any number of processes over one shared folder, with kills, network failures, atomic rename and block-wise copy | inductive invariants over all schedules (one file system: any number of processes; two file systems: one at a time); invariant that a leftover folder blocks for ever; witnesses for the races. Helpers (`Downloader/HelpModel`): processes creating the folder as a transition system, streaming hash with its contract, progress bar over exact rationals. |
| C97 | `Verif/KeyedVectors/GeomModel.lean`: the similarity functions of `KeyedVectors` and `predict_output_word` over exact real vectors | Cauchy-Schwarz and scaling lemmas; each query function reduced to the cosine; sorting and argmax characterised; softmax sums; findings as theorems |
| C98 | `Verif/Hdp/Model.lean`: `HdpModel` initialisation, document e-step with its likelihood, chunk statistics, lazy columns with time stamps, update, ordering, expectations, training loop with limits, `hdp_to_lda`, inference, topic formatter | simulation relation between lazy and full training, preserved by every step and the whole loop; conservation of counts; invariants over reachable models; stick-breaking sums; findings as theorems. Output folder (`Hdp/OutModel`): files and folders as dictionaries, `str` to a binary file raises. |
| C99 | `LdaSeqModel`: `LdaPost` (phi, gamma, likelihood loop), `inferDTMseq` with its slice counter, `sslm` (Kalman filter and smoother, zeta, expected log probabilities, initialisation, `update_obs`, `fit_sslm`, the word loop of `compute_bound`, `compute_mean_deriv`), the EM loop counter, `print_topic`, `doc_topics`, `model[doc]` | completing the square along the chain: the energy of a path is the minimum plus squares, forwards and backwards; invariant over documents for the slice counter; optimiser and special functions are parameters |
| C100 | `str.split`, `join`, the regular expressions as run scanners, the stop list, all filters of `preprocessing.py`, `tokenize`, `simple_preprocess`, `deaccent` | an inductive specification of "longest runs" shown equivalent to splitting; induction on the length of the text; the stems come from C57 |
| C101 | spaces with their last-index dictionaries, training, the sampled space, the score matrix, double argsort, the answer dictionary, the back mapping; `lstsq`, `argsort`, set order and random choice are parameters with contracts | row-by-row evaluation; permutations sorted by score; a counting argument for ranks; expansion of squares for exact fits |
| C102 | `AnnoyIndexer` and `NmslibIndexer` (construction, save, load, query) over files as functions of names; the indexer path of `most_similar`; the libraries are parameters with a contract | Cauchy-Schwarz for the range of cosines, algebra of `1 - sqrt(2(1-c))/2`, case analysis of save/load, an exact index shown to meet the contract |
| C103 | `levdist`, `levsim`, `LevenshteinSimilarityIndex.most_similar`; the library's distance is a parameter equal to the least number of edits | induction on edits (symmetry, bound by the longer length), monotonicity of real powers and floor, sortedness of the stable sort |
| C104 | `RpModel.initialize`, `__getitem__` with the random bits as a parameter; `NormModel` | moments of sums with random signs by induction on the number of terms, independence of the rows by splitting sums over functions, Chebyshev's inequality as a count; list lemmas for the sparse answer |
| C105 | `scipy.stats.entropy` over the reals with infinity, Jensen-Shannon, dense Hellinger, conversion of bags, `LdaModel.diff` for abstract models and `ConvergenceMetric` (`LdaDiff`); Gibbs' inequality term by term, characterisation of every cell, norming through the greatest cell. |
| C106 | Labels, `Callback` with its queue and windows, and the chunk and pass loops of `LdaModel.update` around abstract E and M steps (`Callbacks`); invariant over passes for values, queue, windows and plots. |
| C107 | `IndexedCorpus` over an abstract file format and file system with resolved names (`Indexed`): opening, length, items, fancy indexing, `serialize` with stopping points, `smart_extension` on characters, the constructor of `CsvCorpus`; invariant "an index belongs to its data" over histories. |
| C108 | The four training functions and the batch loop of `fasttext_inner.pyx` (`FtTrain`) over any real Hilbert space, input rows of words and n-grams as one function; one lemma for all loops with a multiplier near the derivative gives exact and approximate gradient steps; specification of C82. |
| C109 | `MatrixSimilarity`, `SparseMatrixSimilarity`, `SimilarityABC.__getitem__`/`__iter__`, `scipy2scipy_clipped`, `is_corpus` (`MatSim`), built on the conversions of C19-C20; both indexes are shown to compute one separately specified cosine; iteration by induction over chunks. |
| C110 | `corpus2dense`, `Dense2Corpus`, `Sparse2Corpus`, `Scipy2Corpus`, `any2sparse`, `pad`, `isbow` with `hellinger` and `jaccard` on matrices (`Convert`): entry-wise specification of matrices; round trips by the theorems of C19; negative indices computed as numpy does. |
| C111 | `Word2Vec.score` (`Score`): transition system of the calling thread, the workers, the two bounded queues and the shared array; invariant accounting for every job and every sentence; no-deadlock from the bound of the second queue; termination by a decreasing cost. |
| C112 | Constructor, `train`, argument checks, job producer without totals, `reset_from` (`Life`): corpora as re-iterable, generator or iterator; `train` as a function to model, events and result; induction over histories; the thread system of C29 started without end markers; models as references into a heap of vocabulary objects. |
| C113 | `_load_specials` and the conversions it calls (`Upgrade`): objects as records of optional attributes, models as partial maps from attribute names; invariant over the writes of the old vocabulary; table of all attributes after loading, proved pointwise. |
| C114 | `_word2vec_detect_sizes_text`, loading without header, `glove2word2vec`, `word2vec2tensor`, `intersect_word2vec_format` (`VecFile`): files as lists of characters, on top of the model of the word2vec format; induction over the lines or records, the merged state described word by word (`Merged`). |
| C115 | `argsort` on top of a contract for numpy's `argsort` and `argpartition` (order of equal values unspecified), and the display methods of the topic models (`Show`): the result described by `Top`; sums by sub-permutations; stability of `sorted` for HDP and `top_topics`. |
| C116 | `stochastic_svd` for streamed corpora and for sparse matrices, `add_documents` in one and in several passes, over real matrices with the library of C86 and arbitrary draws (`Lsi/Svd*`): sums over chunks; uniqueness of the positive root for the covariance; the directions keep capturing the documents through power iterations; truncation lemma; merging by C86. |
| C117 | `original_scorer`, `npmi_scorer` over the reals, the checks of `Phrases.__init__`, `_is_single`, `load` of stored objects with arbitrary attributes and UTF-8 as a parameter (`Phrases/Score*`): the counts of every reachable model are bounded by those of its words and by the number of words; monotony of the logarithm; case analysis of the upgrades. |
| C118 | The index arithmetic of `_prepare_training_batch` and `_update_vectors_batch` with the gradients of C74 and the updates of C75; `train` and `_train_batchwise` with the work on a batch as a parameter (`Poincare/Step*`): sums over the flattened arrays regrouped by node; gradients of sums; induction on batches, epochs and calls. |
| C119 | `SaveLoad/TopicModel.lean`: the disk with arrays, pickled models, parts and dictionaries and a budget of writes; the saves of LDA and LSI models over the model of `SaveLoad.save` (C18), and the loads. Round trip by C18 for the model and for its part with a frame lemma: storing the model writes no file of the part. |
| C120 | `MatSim/SoftModel.lean`: both indexes over the inner products of C69 and any distance, with the inherited query and iteration code of C109. Answers by C69, best matches by C19/C109, iteration by induction over the chunks; the distance of C94 is an instance. |
| C121 | `Termsim/IndexModel.lean`: the two indexes and the translation of their terms to ids. List reasoning; the matrix by C56 (`C56_plain_columns`) with the ids of the first other terms. |
| C122 | `Verif/W2V/DirModel.lean`, `DirProps.lean`. The iterator over an open file as a state machine of pending pieces, lines left and file position; the files of a directory as a function from paths; the sorted listing is characterised as the sorted permutation. Induction over the lines and files; tags are decoded from the last underscore. |
| C123 | `Verif/TextCorpus/CorpusModel.lean`, `CorpusProps.lean`. Corpus state (dictionary, metadata, length) over the dictionary model of C01–C03; the preprocessing is a function that may raise. UCI: vocabulary file as text, words tagged as `str` or `bytes`. Proofs from C01–C03, C24 and inductions over lines and documents. |
| C124 | The transition system of C53 with two more kinds of steps: a worker that raises after any number of windows and replies with what it has, and interruptions of the master and of waiting workers. Upper bounds are an invariant; deadlocks are proved from reachable states from which no run returns. The measure is composed from the models of the segmentation, of `n_similarity` and of the means. |
| C125 | The two regular expressions as matchers, `re.split` and `re.findall` as scans; sound and complete for the language of headings, uniqueness of the leftmost decomposition, so that assembled texts are recovered; the pool as in C70; `json.dumps` of the records is modelled character by character (`Verif/Wiki/JsonModel.lean`) and inverted by an independent reader of JSON. |
| C126 | evaluation data: reading relations, means over sets in any order, lexical entailment scores. Sets as duplicate-free lists up to permutation; fold invariant for the least distance. |
| C127 | file-based training: rates of the batches of a thread, totals over all interleavings of the progress queue, loss under lost updates. Induction over batches and schedules; permutations. |
| C128 | logsumexp, digamma (AS 103), Dirichlet expectation over the reals. The truncated de Moivre series brackets the digamma function: the gap of one step has a derivative of constant sign (explicit polynomial) and vanishes at infinity. |
| C129 | `add_null_word` inside the vocabulary model of C27; the weak invariant (other words bijective, null word at its last row) by induction over the history; the share in the table from C31. |
| C130 | Transition system of C48 with request loops, failing jobs, dying workers and client exceptions; refinement to the faultless system, in which a lost job is one that stays held; counting invariants for the loops. |
| C131 | `Lda/BoundModel.lean`: bound, log_perplexity and evaluate_test_corpus over the reals with the digamma function of C90. The specification is the divergence of two Dirichlet distributions; non-positivity follows from the tangent inequality of log Γ (convexity of the log normaliser), with Elog ≤ log E from Γ(x+1) = xΓ(x). |
| C132 | `LdaSeq/FitModel.lean`: f_obs, compute_obs_deriv and df_obs over the reals with the posterior means of C99, the constructor as a decision function, dtm_vis and dtm_coherence. Gradient by `HasDerivAt` of a sum of squares and exponentials of affine functions; convexity by the tangent inequality; the wrong matrix by linearity in the counts. |
| C133 | `Utils/HelperModel.lean`: the entity pattern with its backtracking as a matcher over code points (word characters, int and the name table are parameters), nested lists, open_file, copytree_hardlink as steps of threads on the global function, upload_chunked. Round trip by induction on the text with the digits of a number; race by a schedule. |
| C134 | Transition system: an object's state, the lock's holder, threads with queues of calls, each call a list of atomic steps; a ghost list of acquisitions. Invariant: only the holder is active, and finishing its body gives the serial run of the acquisitions. The counters of the dispatcher as a machine over histories with an accounting invariant. |
| C135 | The swaps as a fold over the filtered dictionary items. If hashes below the number of packed rows come in exchanging pairs the swaps touch disjoint rows, hence commute and place every vector; permutation of rows in general by induction; two packings for which it fails. |
| C136 | Generators as shared references in a world of objects; constructing, calling, reloading and global use as operations. Invariant: the generator of a seeded object belongs to nobody else, and its state is that of the object alone. Draws of LDA counted in a stream; every worker of parallel LDA with a copy; the schedules of C29 for Word2Vec. |
| C137 | `for_models`, `for_topics`, `compare_models` and the lookup of words over the model of the dictionary, the sorting of weights and the state of a coherence model; end-to-end equality with fresh coherences, and the statistics kept through the whole comparison by induction over models and grid. |
| C138 | both `save_word2vec_format` functions with the files they write (mode, header, total, vocabulary, exceptions), over the tags produced by the scan of a corpus (C37) and the readers of C40; the loaded rows follow from the records written in order. |
| C139 | A backtracking matcher for Python regular expressions (`Verif/Py/Regex.lean`), the patterns of wikicorpus as its expressions, and `remove_markup` on top of them; priorities (greedy, lazy) by lemmas on the first result, order of characters by a sublist invariant of substitution. |
| C140 | `filter_wiki` and `find_interlinks` as the composition of entity decoding (a parameter), the modelled `remove_markup` (C139) and the modelled link search (C125); induction over the links of the page, with lemmas on where brackets can stand. |
| C141 | `Verif/Preprocess/ReModel.lean` writes the filters, the tokeniser, the scanners of links and headings, the example filter and the reading of the namespace with the expressions of the source and the backtracking matcher of `Verif/Py/Regex.lean`. Each is proved equal, for every text, to the scanner of `Verif/Preprocess/Model.lean` or `Verif/Wiki/SegModel.lean`, about which C100 and C125 speak, or to a specification by concatenation; runs, lazy and greedy stars each have a lemma by induction on the text. |
| C142 | `Verif/Doc2Vec/LifeModel.lean` adds to the models of the tags (C37) and of the word weights (C85) the constructor with its order of assignments, `build_vocab`, `build_vocab_from_freq`, `reset_from`, `_do_train_job` and `__getitem__`; the invariant is one vector for each row that a tag can have. The training functions are parameters here; they are modelled for C87. |
| C143 | the model of C26 with vectors as rows, the kind of the files (array or csr matrix), the three format flags and the conversions of `__getitem__`; what scipy makes of shards of the wrong kind is a parameter. Histories by the invariant of C26 plus "the files are of the kind the settings say"; findings for every corpus built with the formats named. |
| C144 | `Verif/W2V/DryModel.lean`: `prepare_vocab` with all its arguments over the existing models of its loops, of sorting and of the null word, and the reports of `estimate_memory`. The report is compared with the vocabulary a real run leaves; the effect of a dry run on a built model follows from the theorems on sorting. |
| C145 | `Verif/W2V/HsModel.lean`: paths of words from the assigned codes, known words of a sentence, the scores by CBOW and (existing model) skip-gram. The distribution is proved by induction on the Huffman tree, the scores as sums over positions. |
| C146 | `Verif/Poincare/QueryModel.lean`: arguments as key, number or vector, floats with `nan` and `inf`, `distances`, `distance`, `norm`, `difference_in_hierarchy`; agreement with the distance of C73 inside the ball, exact outcome for numbers. The check of gradients (`_check_gradients`) belongs to C74. |
| C147 | A heap of numbered objects in place of the tree of C18 (`SaveLoad/HeapModel`), with the recursion depth as an argument; invariants over the recursion (attributes only disappear, restores hold exactly what disappeared, an object visited twice has empty bookkeeping). |
| C148 | The readers of `Formats/MmModel` and `Formats/LineModel` on arbitrary lines: an invariant relates the state of the loop to the entries read so far, and gives an exact characterisation of the files accepted and of the result (`Formats/AnyProps`). |
| C149 | A save is a list of writes determined by the object (induction over the nesting), of which a budget of t performs the first t; the keys are distinct because they extend the path by distinct attribute names; the mixture is computed for objects of arrays of any number. |
| C150 | Objects as collections or iterators of nested values; the answer is a case analysis of the first element; what the returned object yields is compared with what there was. |
| C151 | What a crash leaves is `take t` of the stream; the lines of a prefix are the first lines and possibly a piece of the next (induction on the text); readers that map lines are compared through that; for the two formats with a header filled in last, the blank header is shown to be refused. |
| C152 | Readers of the fastText format as functions from bytes to a value and the rest; each is shown to use exactly the bytes it consumes (it fails on every proper prefix of them), closed under sequencing; the word loop with the behaviour of `read(1)` at the end of the file, run for any number of rounds. |
| C153 | The transition systems of C29 and C47 with failures as additional transitions at any time; an invariant counting lost workers, end markers and chunks; a measure that some step of every unfinished state decreases. |
| C154 | A corpus as documents with two flags (can be read once, has a length) and a read operation that may use it up; the seven constructors as functions from mapping and corpus to the number of terms and the rest of the corpus; the documents seen in each pass. |
| C155 | The constructor as a function from all arguments to an exception or an object; streams are sequences or iterators, `is_corpus` takes the first document of an iterator. Acceptance is characterised by an explicit predicate; what successive estimations read, and what is shown after any history of `topn`, by induction. |
| C156 | XML as a stream of start tags, texts and end tags, read by a parser with a stack that hands out elements when they end and clears pages; documents as trees. By mutual induction over the tree, reading a written-out tree serves its pages in order; prefixes of the stream by induction over the stream and over the depth. |
| C157 | Modelled: the loop over words and topics of get_document_topics on top of inference (Verif/Lda/PerWordModel.lean). Proved from C90_inference and the sort lemmas: the listing is exactly the topics reaching the bound, its orders, its mass by splitting the sum over topics, and the two findings. |
| C158 | Modelled: inference of the author-topic model with its statistics over exact reals (Verif/AuthorTopic/InferModel.lean), sharing dirichlet_expectation, phinorm and the statistics update with the model of LDA. Proved: the trace of rounds and where it stops, the shares sum to 1, positivity as an invariant of the loop over documents, the mass of statistics by induction on the chunk, commutation of documents with disjoint authors, a simulation by LDA's inference in the single-author case. |
| C159 | Composes existing models (Dictionary, its text format, Matrix Market files, TfidfModel); no new model. Proved by C07, C22 and C49, with a simulation between agreeing dictionaries for further documents. |
| C160 | Model `csv.reader` as the state machine of CPython, line by line, with the field size limit; prove a simulation that reads on in the middle of a line, field by field and row by row, then the effects of open quotes, empty lines and unreadable characters. |
| C161 | Model the sums of `bound` and `log_perplexity` over the reals, with the truncation of counts; identify them with divergences of Dirichlet distributions, which are not negative, and bound the likelihood by Jensen's inequality as for LDA. |
| C162 | the constructor of TfidfModel as a decision procedure on its arguments, followed by the transformation. |
| C163 | lda_e_step with its carried variables, refined to the model of LDA inference (C90), likelihood = bound (C131), evaluation of a test corpus. |
| C164 | The training model of C46 with its abstract numerics replaced by inference (C90), fixed priors and the learning rate (C91). Gain of documents by the tangent of log-sum-exp, gain of topics by convexity of the Dirichlet normaliser along the segment to the new topics; then over all groups of a pass. |
| C165 | The turns of doc_e_step (model of C98) with digamma and log-gamma; coordinate ascent: Gibbs' inequality for both assignments, tangent of the log-Beta function for the sticks; the likelihood of the code against the bound. |
| C166 | The rounds of C158's model; tangent of log-sum-exp over authors and topics, and the divergences of Dirichlet distributions: a round is an exact maximisation for a blended prior. |
| C167 | The rounds of C99's model with digamma and log-gamma: both updates are exact maximisations of the bound (Gibbs' inequality, divergences); the code's likelihood equals the bound except before the first round. |
| C168 | The loop of C90's model: every round gains the divergence of the gammas (C166), which for equal totals is at least the squared distance, because log-gamma plus the logarithm is convex (functional equation of the gamma function); the bound has a ceiling. |
| C169 | The loop of C46 with inference of C158 as its numerical part; induction over chunks, groups and passes for the sum of the statistics of a word; the product over the passes for batch mode. |
| C170 | The loops of C92 with their stopping rules (errors may be NaN); induction over the permutations and the steps; an error of 0 is a sum of squares that vanish, hence C92's fixed point; a witness with one word and topic for the remembered error. |
| C171 | The function over exact reals, NaN as a value; sums over lists by induction, the variance identity, squares that add up to 0. |
| C172 | The dictionary is one run of assignments over everything yielded; last assignment by induction, the scan of C11 for what is yielded, the state threaded through the sentences for live models. |
| C173 | Encoder and strict decoder from RFC 3629; one character in both directions by arithmetic, induction over the text; an ASCII byte is in no longer sequence, hence splitting commutes; prefix-freeness for cut files. It is what entitles the file models to work on characters. |

## Where the code and the expected property disagree

Each of these is proved about the model as a theorem on a concrete input (the
names are in `MANIFEST.json`), beside the positive theorem with the hypothesis
that excludes it. They are listed so that a reader does not look for a mistake
in the model.

* C05 keep_tokens do not survive keep_n; C07 tokens with tab/newline; C08/C62 cfs not merged/rebuilt.
* C13 live phrase model depends on earlier lookups; freezing can raise with the delimiter inside tokens.
* C16 an exception in the producer process hangs the consumer; C17 wrong `len` of some slices.
* C18 an exception while nested arrays are written loses attributes.
* C21 `jaccard` of equal bags is not 0; C23 last character lost without final newline; C24 near-zero entries.
* C26 reopening a sharded corpus with another shard size; C28 first job empty; C31 last word never drawn.
* C32 learning rate rises at an epoch boundary; C34 data loss and overflow of corpus_file training.
* C37 stale tags after rebuilding; C38/C63 stale norms, duplicate keys, integer keys; C40 limits and repeated words.
* C43 fastText hash of non-ASCII text; C44 both losses; C64 assigned vectors lost, unloadable models.
* C47 online multicore LDA can drop the last chunk; C65 distributed LSI forgets earlier calls.
* C49 combinations of tf-idf options that always raise; C52/C67 window counts; C54/C55/C68 similarity index.
* C56/C69 self-returning indices, half-precision dtype, mixed normalised soft cosine.
* C60 sampling with metadata; C61 known special tokens; C70 article_min_tokens=0; C71 chained filters; C72 settings changed while iterating.
* C75 clipping leaves the ball when epsilon·dim is large; C76 own negatives, more than 2000 negatives; C77 first node in its own result, descendants of leaves; C78 self counted in ranks, max_n + 1 items.
* C79 NPMI −1 for words in every window, unseen words score 0; C81 raising topn or evaluating given segments leaves stale statistics; ids as topics raise KeyError.
* C82 hierarchical-softmax loss has the wrong labels, saturated pairs are not trained; C83 CBOW step of the context scaled by the number of context words, words without context add to the loss; C84 `sample ≥ 1` threshold too large by a factor of about 6.85, update=True uses only new counts; C85 second `build_vocab` does not reset the vectors, or raises.
* C86 `LsiModel.__getitem__(corpus, scaled=True)` ignores `scaled`.
* C87 `train_document_dm` reads `words_lockf[index % doctags_lockf_len]`: locked words move, reads can be out of bounds.
* C88 `infer_vector` with `dm_concat` and `dm_tag_count != 1` never trains; zero arguments mean defaults.
* C89 corpus files: empty lines shift document tags; with several workers documents are trained twice or never; `dm_concat` ignores `start_doctag` and adds the error of a window word to the tag; DM uses uninitialised `reduced_windows`.
* C90 repeated ids of a document: `sstats[:, ids] += ...` keeps the last one only.
* C91 `offset < 1` gives negative topics; learnt `eta` is never used; `update(iterations=, gamma_threshold=)` ignored; `get_document_topics(corpus)` changes the model's settings; `show_topics(0)` shows all.
* C92 `Nmf.update` forgets earlier statistics and can turn the model into NaN; `get_topic_terms`, `get_term_topics` and `get_document_topics` change the model.
* C93 (`AuthorTopicModel.update`): the re-indexing loop assigns a local variable, so a second update's tables overwrite old documents; an author with an empty document list gets a second id; `bound` ignores the given `doc2author`.
* C94 (`wmdistance`): an all-zero distance matrix returns infinity, so distinct words with equal vectors are infinitely far apart.
* C95 `evaluate_word_pairs` replaces `key_to_index` before opening the file, and neither evaluation restores it when a query raises: the model is left with the restricted, upper-cased table. An analogy whose expected word is one of its inputs can be counted right. A file with headers only raises `ZeroDivisionError`.
* C96 `_download` calls `os.remove` on a leftover folder `<name>_tmp`, which always fails: one kill between `shutil.move` and `os.rename` makes the data set unavailable until the folder is deleted by hand. Two simultaneous downloads across file systems can install an empty folder. `load` refuses outdated data sets that `info` shows. A bad server answer destroys the cached listing. `__init__.py` is not verified.
* C97 `distances(w, [])` answers for all words; `doesnt_match` of two words is decided by the alphabet alone; `most_similar_cosmul` does not normalise raw vectors; `relative_cosine_similarity` can divide by zero.
* C98 `HdpModel.update` called again trains on the first chunk only (`m_num_docs_processed` is never reset and `m_D` is the size of the first corpus); created without a corpus it learns nothing (`m_D = 0`); an empty corpus loops forever; `update_chunk(update=False)` corrupts the lazily updated weights; `suggested_lda_model` sets `expElogbeta` only, so its shown topics are random.
* C99 `inferDTMseq` compares `doc_index > time_slice[time]`: the first document of every later slice is put into the slice before. `fit_lda_seq` sets `convergence = 1.0` when it has converged and so never stops early. `compute_bound` loops `for w in range(w)` and drops one word per slice. `compute_mean_deriv` takes the posterior variances for the forward ones. `update_obs` leaves all rare words but the first unfitted. `__getitem__` uses the last slice only.
* C100 `strip_tags` replaces a tag by nothing: `one<br>two` becomes the one word `onetwo`; `split_alphanum` knows a-z only; `preprocess_string` stems after the stop list and the length filter, so `ones` gives `on`; `tokenize` is documented as "alphabetic" but underscores belong to tokens.
* C101 `TranslationMatrix` checks only the first pair; `translate` raises `IndexError` for topn above the target vocabulary and `AxisError` for no words; the corrected method samples with replacement, can raise `ValueError` on repeated words, and adds unnormalised products to ranks, so its answer depends on the scale of the matrix.
* C102 Annoy scores are not cosines; a loaded Annoy indexer cannot be saved; NMSLIB query time parameters are lost on load; `most_similar` with an indexer returns the query key and ignores the clipping parameters.
* C103 `levsim` exceeds 1 with its default parameters; empty terms, zero parameters and thresholds above 1 are special.
* C104 `RpModel.initialize` fails on a model that made its own `FakeDict`; `str(NormModel())` and `NormModel[corpus]` fail.
- C105: `kullback_leibler` and `jensen_shannon` of bags of words take the number of entries for the dimension (IndexError for larger identifiers); `LdaModel.diff` reads `self.__name__` for its error message (AttributeError); normed differences always reach 1, which makes `ConvergenceMetric(normed=True)` at least 1.
- C106: metrics with equal labels overwrite each other; metrics are computed before the final M step of a pass (always in batch mode); visdom windows are indexed by the position among all metrics (IndexError); array metrics need a `DiffMetric` or `ConvergenceMetric` next to them.
- C107: `serialize` refuses only equal names (views and aliases of the target are emptied first); data and index are written separately (stale index after a crash, after `save_corpus`, after a failing source); `CsvCorpus` opens the file in binary mode and joins with a text, so that its constructor always fails under Python 3.
- C108: skip-gram divides the sum of n+1 rows by n, lookup divides by n+1; the error is added to every row without division; CBOW with negative sampling clips saturated scores while the three other functions skip them.
- C109: a one-document chunk of `SparseMatrixSimilarity` is flattened during iteration; `scipy2scipy_clipped` reads row numbers as column numbers of a one-row csc matrix; the two index classes treat repeated terms differently.
- C110: `Sparse2Corpus[-1]` is an empty document and `[-2]` the last one; `isbow` accepts arrays whose first row has two columns.
- C111: `score` of no sentences raises UnboundLocalError (`job_no` is read before it is assigned).
- C112: `train` stores its arguments before checking them; totals of 0 make it hang; iterators are used up by the vocabulary; `reset_from` shares the vocabulary objects.
- C113: old document vectors can never be loaded (`vocab` setter raises); `syn1` is deleted when `trainables` is re-integrated; `vocabulary.ns_exponent` is ignored; integer keys confuse `set_vecattr(old_v.index, …)`.
- C114: `intersect_word2vec_format` always ends in an exception (`self.wv` in its last log statement), leaves stale norms, needs one lock factor per word although the default is one for all, and reads a truncated binary file for ever; `glove2word2vec` on repeated words writes a header with too many vectors.
- C115: `HdpModel.show_topics(num_topics=-1)` is documented to print all topics and prints none.
- C116: `LsiModel(onepass=False)` of a corpus that can be read only once (a generator): the second reading is empty, so the covariance is zero and the model has a single topic of value 0; nothing is reported (`C116_once`). And `docs_processed` is not increased if the corpus has no `__len__` (`C116_docs_processed`).
- C117: `_PhrasesTransformation.load` sets `connector_words` to the empty set for every model without `common_terms`, that is for every model of the current version; and for phrases stored as tuples with plain scores its comprehension uses the first key and score for all, so that one phrase is left. `npmi_scorer` catches ValueError, but zero counts raise ZeroDivisionError.
- C118: `train` calls `np.seterr` and puts the settings back only if nothing raised. `range(0, n, batch_size)` is empty for a negative batch size, so that `train` does nothing and sets `_burn_in_done`. `build_vocab(update=True)` keeps the buffer of negatives.
- C119: `LdaModel.save` over an earlier model of the same name leaves stale files in place: the dictionary (if ignored) or the state (if `None`) of the earlier model is loaded with the new one; a save that raises half way leaves a mixture of both models that loads without an error; `LsiModel.save(ignore=…)` raises `TypeError` after the projection was overwritten.
- C120: `SoftCosineSimilarity` answers the same document differently alone and in a list, answers an empty document by a number and raises for an empty index (`numpy.array()` without argument); `WmdSimilarity` answers a list of one document by a vector, so that iterating yields numbers for the last document if the number of documents leaves remainder 1 when divided by the chunk size; both raise on iterating with chunk size 1.
- C121: `WordEmbeddingSimilarityIndex` with a negative threshold squares negative similarities into large positive ones; `nonzero_limit` of the matrix is applied before the terms outside of the dictionary are dropped.
- C122: `LineSentence` over an open file rewinds the file when an iteration begins, so a second iteration begun during the first makes the first repeat sentences and the second miss some.
- C123: `UciCorpus` reads its vocabulary in binary mode and keeps the words as bytes; `create_dictionary` therefore makes a dictionary in which `doc2bow`, which looks up strings, finds nothing. Ids that share a word (the filler `---` of missing ids) collapse to the last of them.
- C123: `UciCorpus.save_corpus` without `id2word` first scans the corpus for the highest id, which exhausts a generator: nothing is written.
- C123: `TextCorpus.init_dictionary` switches metadata off while it reads and does not switch it on again when the preprocessing raises.
- C124: `AccumulatingWorker.run` swallows every exception and replies with a partial accumulator, in which `_occurrences` of the failed batch are kept and its co-occurrences dropped; with all workers dead the master blocks on the bounded input queue; `WordVectorsAccumulator.accumulate` sets `kwargs['hs'] = kwargs.get('hw', 0)`.
- C125: the heading expression of `segment_wiki.segment` consumes the newlines around a heading and wants two characters: one-letter headings and the second of two adjacent headings stay in the text.
- C126: `max_n` makes the mean rank depend on the order of a Python set; ties between sense pairs are decided by the order of the trie.
- C127: with several workers the learning rate of file-based training does not decay to `min_alpha`; without `total_words` almost nothing is trained; a failing thread hangs `train`; the training loss loses updates of concurrent threads.
- C129: every `build_vocab(update=True)` of a model with a null word appends another null word and redirects the padding to the new, untrained row; the null word also takes part in negative sampling, contrary to the comment at `word2vec.py:734-735`.
- C130: an exception in a worker's `processjob` is swallowed by the one-way call and the job is never reported: `getstate` of both dispatchers waits for ever, and the worker asks for no further jobs in this pass; the LSI dispatcher does not even notice dead workers while it waits.
- C131: `bound` sums a matrix prior over all topics; the argument `gamma` of `bound` leads to a ValueError of the compiled logsumexp; empty chunks divide by zero.
- C132: the gradient of `df_obs` is computed with posterior instead of forward variances; `LdaSeqModel` needs `time_slice` although it defaults to None; `dtm_vis` returns entry numbers as document lengths.
- C133: `decode_htmlentities` drops a leading x of entity names; `flatten` opens bytes; `copytree_hardlink` is not safe with threads; `upload_chunked` destroys the texts of its input.
- C134: `initialize` of dispatchers and workers replaces the lock and resets the counters without acquiring the lock, and jobs of an aborted training are counted for the next one, so `getstate` may return early.
- C135: `_unpack` swaps rows in dictionary order; with packings such as {1: 0, 2: 1, 0: 2} or {2: 0, 0: 1} vectors end in the wrong rows (the function has no caller any more, only tests).
- C136: `LdaModel.show_topics` (fewer than all topics) and inference advance the generator used for training; `LdaMulticore` with a seed depends on the distribution of chunks to workers; `HdpModel.suggested_lda_model` shares the generator; `Word2Vec._load_specials` installs a `Generator`, which has no `randint`; file-based training with `negative=0, sample=0` reads an uninitialised `next_random`.
- C137: `top_topics_as_word_lists` and `_ids_to_words` fill in `id2token` only when it is empty, so after a lookup and a further document with new words valid ids raise `KeyError` (`C137_stale`); `for_topics` takes the longest topic as `topn`, which `compare_model_topics` then refuses for shorter topics (`C137_uneven`).
- C138: `Doc2Vec.save_word2vec_format` with `fvocab` and only integer tags raises `ValueError` after the words have been written, leaving a file that cannot be loaded (`C138_vocab_integers`); the tags `1` and `'1'` are written under the same name and the second is lost on loading (`C138_confused`).
- C139: `remove_markup` leaves page names of links nested four deep, deletes plain lines that begin with words such as "rowspan", leaves the rest of a footnote that contains an empty element, cuts captions at links, and takes a picture in small letters at the end for a language link (`C139_findings`).
- C140: `find_interlinks` does not find `[[a|-b]]` (the `|-` is removed as a row of a table, with the rest of the line) nor `[[a  |b]]` (the bar is replaced by a line break as a cell of a table), although both are links in the text (`C140_findings`).
- C142: `Doc2Vec(dm_mean=0)` behaves as `dm_mean=1`, because the constructor of `Word2Vec` overwrites `cbow_mean`; `build_vocab(update=True)` adds no document vectors although the index is replaced; `reset_from` does not reset vectors; `model[0]` is the vector of a word.
- C143: `resize_shards` stores what retrieval returns, so it breaks a corpus whose retrieval format differs from its serialization (later accesses raise) and always fails with `gensim=True`; the constructor on existing files forgets `sparse_serialization`; single documents of sparse data are nested.
- C144: `prepare_vocab(dry_run=True)` still adds the null word and sorts the vocabulary (word2vec.py:733-739 do not look at `dry_run`), without moving the output rows; `min_count=0` and `sample=0` are ignored (`or`); with `update=True` the report counts only the words of the new corpus; `estimate_memory(report=...)` adds the old total again; `FastText.estimate_memory` ignores `vocab_size`.
- C145: `score` leaves out every inner product of absolute value 6 or more (word2vec_inner.pyx 795-796, 905-906), also when its log probability would be very small, so a very improbable word gets the best score.
- C55: with `PARALLEL_SHARDS` of two or more every query raises `ValueError` (docsim.py 496 passes a float as chunksize).
- C96: `_create_base_dir` races with itself (downloader.py 150-159 reports EEXIST as a file); `_progress` divides by zero for size 0 and draws a bar growing with every byte for an unknown size (119-121).
- C98: `HdpModel(outputdir=…)` always raises `TypeError` (hdpmodel.py 864-865 writes text to a binary file); `save_topics` without output folder writes to `None/` (839-846).
- C146: `PoincareKeyedVectors.distances` and `norm` treat a row number as a vector (poincare.py 1215-1218, 1260-1263), unlike `distance` and their documentation.
- C147: an object held by two attributes is visited twice by `_save_specials`; the second visit finds no big array left and overwrites the bookkeeping with empty lists, so `load` gives an object without its arrays. A cycle of objects makes `save` raise `RecursionError` outside the `try`, so the arrays already put aside are lost from memory.
- C148: the docstring of `MmReader.__iter__` says that the number of vectors is always the number of rows in the header; an entry with a greater document number makes it more. `num_nnz` is not compared with the number of entries, so truncated files go unnoticed.
- C149: a save over an older one that crashes after some of the separate files leaves files that load without complaint as a mixture of the two.
- C150: tokenised texts are taken for a bag-of-words corpus if the first begins with a two-character number, and a tokenised document if its first word is empty.
- C151: a corpus file left by a crash in the SVMlight, Blei, list-of-words or Mallet format, or a dictionary saved as text, reads without complaint although its last document or entry is cut and may have another weight, word or document frequency.
- C152: a fastText file cut inside a word of the vocabulary makes `load` run for ever (it appends empty reads) instead of raising (`C152_hangs`).
- C153: an exception in a training thread (or in a callback, or raised by the corpus) leaves `train` waiting for ever instead of being raised; likewise `LdaMulticore.update` after a worker died.
- C154: `LdaModel(generator)` without `id2word` returns an untrained model (the generator is used up by `dict_from_corpus`); `HdpModel`, `Nmf` and `LdaSeqModel` use `len(id2word)` as the number of terms; `Nmf.update` checks `self.passes` instead of `passes`.
- C155: a corpus that is an iterator loses its first document in `CoherenceModel.__init__` (the object returned by `is_corpus` is not used); an unknown measure raises `KeyError`; texts for `u_mass` with a plain mapping raise `AttributeError`; explicit topics are replaced by those of the model when `topn` grows.
- C156: of a page with several revisions only the text of the first is read.
- C157: the docstring calls `minimum_phi_value` a lower bound on the term probabilities; it is compared with probability times count, so words of weight below it are listed without topics.
- C158: `np.fromiter(..., dtype=np.int)` in author-topic inference drops the fractions of counts, where LDA keeps them.
- C159: `load_from_text` leaves `cfs`, `num_nnz` and `num_pos` empty, so `TfidfModel(dictionary=loaded, smartirs='..u')` computes the pivot 0 and `'..b'` raises `KeyError`.
- C160: a quote at the start of a node that is never closed swallows the rest of a relations file without an error, and `CsvCorpus` raises `TypeError` (or `csv.Error` for an empty file) for every file, since it joins lines of a file opened as binary with `''.join`.
- C20: `unitvec` changes a scipy CSR matrix of floats in place (and no other scipy matrix), and with `norm='unique'` counts explicitly stored zeros.
- C161: `AuthorTopicModel.bound` converts counts to integers, so documents with weights below 1 add nothing to it, while `log_perplexity` divides by their full weight.
- C162: `TfidfModel` with a code ending in `b` fails without a dictionary (AttributeError), silently gets the pivot 0 with an empty one, and raises KeyError on unknown terms.
- C165: `HdpModel.doc_e_step` computes a likelihood in which the part of the topic assignments is not weighted by the counts of the words, unlike the words' own part: for documents with repeated words it is not the variational bound but lies above it (`C165_likelihood`, `C165_overstated`), and the convergence test and its warning look at this number.
- C167: `LdaPost.init_lda_post` does not reset `log_phi`, so the likelihood that the first round of `fit_lda_post` is compared with uses the rows of the previous document (zeros for the first one) and is not a bound (`C167_stale_start`).
- C169: `AuthorTopicModel.update()` without a corpus adds the number of stored documents to `state.numdocs` at every call, so continued training inflates the topics.
- C170: `Nmf._solve_w` compares the first error of a chunk with the error remembered from the chunk before (`C170_step_skipped`), and in `Nmf._solveproj` an error of exactly 0 is taken for no error.
* C172 the score that `find_phrases` of a live model reports for a phrase depends on what was looked up before.

## What is modelled and what is not

The generated table below lists, per Lean module, the source lines its
definitions cite. A source line not cited there is not modelled. In particular:

* Floating point rounding, overflow and NaN are not modelled; weights are exact rationals or reals
  (or an arbitrary ordered field). Where bit widths matter (fastText hash, random generator) bit
  vectors or modular arithmetic are used.
* The contents of pickles, numpy/scipy binary formats, compression, the file system (except where a
  property is about files), logging, progress output and Pyro transport are not modelled.
* Regular expressions, unicode tables, tokenizers, user callbacks and trim rules are parameters of
  the model (any function), with the contract stated in the theorem.
* Numerical kernels (SVD, BLAS, optimisers) appear only as parameters. The variational inference of LDA, HDP,
  author-topic and dynamic topic models is modelled over exact reals; digamma and log-gamma are parameters where
  nothing about them is needed, and the true functions elsewhere.
* Numpy sorting is any permutation that sorts (`argsort` with unspecified ties), heap order is any
  order consistent with the comparison, `imap`/thread/process timing is any interleaving.

### Source lines cited per module

| module | source |
|---|---|
| Ann/Model | models/keyedvectors.py 417-441, 730-773; similarities/annoy.py 70-85, 104-107, 137-152, 185-188; similarities/nmslib.py 117-142, 160-164, 176-186, 202-210, 228-232 |
| AuthorTopic/BoundModel | models/atmodel.py 393-396, 576-605, 889-1014; models/ldamodel.py 1115-1124 |
| AuthorTopic/InferModel | models/atmodel.py 377-396, 398-538 |
| AuthorTopic/Model | models/atmodel.py 102-125, 128-155, 252-268, 303, 374-396, 398-538, 697-778, 828-853, 937-978, 1035-1105, 1107-1164 |
| AuthorTopic/TrainModel | models/atmodel.py 55-77, 140-290, 398-538, 540-575, 780-887; models/ldamodel.py 667-736, 1062-1063 |
| Callbacks/Model | models/callbacks.py 109-442, 477-492, 515-568; models/ldamodel.py 949-1025 |
| Coherence/AccumModel | topic_coherence/text_analysis.py 107-111, 134-136, 141-143, 194-200, 209-213, 240-241, 243-244, 246-249, 259-264, 266-270, 290-298, 300-307, 309-314, 320-323, 329-335, 340-344, 346-364, 366-371, 373-382, 384-396, 398-399, 401-402; utils.py 1877-1889, 1892-1917, 1920-1927 |
| Coherence/AggregateModel | topic_coherence/direct_confirmation_measure.py 87-125 |
| Coherence/CompareModel | models/coherencemodel.py 252-255, 278-286, 304-323, 446-451, 491-494, 625-626; topic_coherence/text_analysis.py 56-57, 59-65 |
| Coherence/ContextModel | topic_coherence/indirect_confirmation_measure.py 169-182, 244-245, 266-271, 288-300, 322-327, 330-337 |
| Coherence/FailModel | models/coherencemodel.py 63-68; topic_coherence/direct_confirmation_measure.py 100-108; topic_coherence/indirect_confirmation_measure.py 90-117; topic_coherence/text_analysis.py 346-364, 444-449, 522, 570-580, 634-653, 655-658, 660-665 |
| Coherence/InitModel | models/coherencemodel.py 46-47, 83-89, 126-217, 350-358, 378-390, 412-415, 427-444, 491-494, 531-546, 568-584; utils.py 855-877 |
| Coherence/MeasureModel | models/coherencemodel.py 51-56, 69-80, 534-535, 537-544, 568-584, 601-613; topic_coherence/aggregation.py 39; topic_coherence/direct_confirmation_measure.py 65-84, 186-210; topic_coherence/probability_estimation.py 255-263; topic_coherence/text_analysis.py 113-115, 128-143 |
| Coherence/ParallelModel | topic_coherence/text_analysis.py 404-407, 430-436, 442-452, 454-480, 482-492, 526-528, 539-552 |
| Coherence/SegmentModel | topic_coherence/segmentation.py 45-53, 56-95, 98-134 |
| Coherence/StateModel | models/coherencemodel.py 211-215, 378-388, 412-415, 427-444, 446-451, 453-468, 531-546, 568-584, 653-662, 679-680, 682-703 |
| Convert/Model | matutils.py 168-194, 240-260, 317-336, 359-364, 468-508, 527-555, 557, 571-585, 587-597, 599-600, 602-616, 817-840, 918-949, 967-995 |
| Dictionary/Model | corpora/dictionary.py 69-76, 81-104, 139, 164-204, 206-270, 272-304, 348-375, 377-409, 411-453, 455-466, 528-587; models/__init__.py 52-61; utils.py 1385-1402 |
| Dictionary/MoreModel | corpora/dictionary.py 589-633, 691-753 |
| Dictionary/TextModel | corpora/dictionary.py 515-526, 635-689 |
| Doc2Vec/LifeModel | models/doc2vec.py 275-303, 336-339, 356-364, 411-432, 665-669, 872-881, 915-931, 986; models/keyedvectors.py 386-399, 551-563; models/word2vec.py 374, 384, 396, 408-409, 819-858 |
| Doc2Vec/SaveModel | models/doc2vec.py 732-749, 998-1001; models/keyedvectors.py 1503-1579 |
| Doc2Vec/StepModel | models/doc2vec.py 373-389, 504-506, 616-649; models/doc2vec_corpusfile.pyx 174-229, 314-382, 458, 467-541; models/doc2vec_inner.pyx 29, 37-60, 63-102, 116-125, 141-160, 176-185, 202-221, 226-281, 348-364, 376-410, 508-555, 623-690 |
| Doc2Vec/TagsModel | models/doc2vec.py 106-162, 933-1003; models/keyedvectors.py 386-399 |
| Docsim/IterModel | interfaces.py 337-353; similarities/docsim.py 537-574, 665-670, 694-703; utils.py 855-875 |
| Docsim/Model | matutils.py 143, 307-336, 402-426; similarities/docsim.py 93-116, 133-146, 151-163, 165-186, 345-351, 356-358, 365-412, 435-462, 464-476, 582-618, 711-749, 1167-1169 |
| Docsim/ParModel | similarities/docsim.py 213-228, 478-501 |
| Docsim/QueryModel | interfaces.py 337-353; similarities/docsim.py 234-255, 547-550, 554-564, 566-574 |
| Downloader/HelpModel | downloader.py 118-119, 121, 150-165, 168-186 |
| Downloader/Model | downloader.py 195-225, 270-278, 283-284, 286-289, 308-320, 337-343, 362, 365-403, 405-409, 426-432, 489-496 |
| FastText/BatchModel | models/_fasttext_bin.py 166-168, 289-311 |
| FastText/BinModel | models/_fasttext_bin.py 61, 68-82, 84-96, 108-163, 166-168, 171-231, 234-286, 314-358, 393-425, 430-485, 488-511, 514-557, 560-584, 587-609, 612-639; models/fasttext.py 419-421, 437-455, 655-717, 777-839, 842-930, 1135-1161; models/word2vec.py 655-691 |
| FastText/NgramModel | models/fasttext.py 1285-1319; models/fasttext_inner.pyx 605-715 |
| FastText/UnpackModel | models/fasttext.py 646-654, 1201-1283 |
| FastText/VectorModel | models/fasttext.py 455-462, 935-1198; models/keyedvectors.py 420-560 |
| Formats/LineModel | corpora/bleicorpus.py 75-78, 80-93, 95-114, 141-146, 152-156, 159-163, 168-184; corpora/lowcorpus.py 19-33, 99-101, 116-133, 141-179, 181-194, 196-246, 248-274; corpora/malletcorpus.py 77-102, 104-139, 141-242, 244-272; corpora/svmlightcorpus.py 66-83, 86-122, 124-141, 143-168, 171-189; utils.py 1385-1409 |
| Formats/MmModel | corpora/_mmreader.pyx 41-79, 89-101, 103-161, 163-212; corpora/ucicorpus.py 42-54, 61-72, 81-98, 100-156; matutils.py 1152, 1216-1239, 1242-1326 |
| FtTrain/Model | models/fasttext_inner.pyx 73-144, 147-220, 223-305, 308-372, 394-432, 489-493, 517-571, 728-730 |
| HashDict/Model | corpora/hashdictionary.py 80-82, 85-93, 98-117, 134-137, 187-190, 196-260, 292-302 |
| HashDict/TextModel | corpora/hashdictionary.py 341-349 |
| Hdp/Model | matutils.py 672-676; models/hdpmodel.py 86-94, 124-133, 149-164, 340-382, 416-422, 446-448, 463-487, 509-517, 538-577, 608-617, 622-676, 680-681, 698-725, 729-733, 741-747, 796-797, 887-894, 897, 912-917, 992-994; models/ldamodel.py 259-268, 511, 1211-1212 |
| Hdp/OutModel | models/hdpmodel.py 384-390, 479-480, 825-875 |
| Hdp/ScoreModel | models/hdpmodel.py 97-140, 934-953 |
| Indexed/Model | corpora/csvcorpus.py 48-52; corpora/indexedcorpus.py 60-69, 109-135, 150-155, 180-188; utils.py 1037-1040, 1339-1347 |
| KeyedVectors/EvalModel | models/keyedvectors.py 1183-1319, 1336-1434 |
| KeyedVectors/FormatModel | models/keyedvectors.py 1535-1548, 1562-1567, 1570-1578, 1747-1764, 1773-1788, 1791-1804, 1807-1813, 1816-1819, 1835-1917 |
| KeyedVectors/GeomModel | matutils.py 739-760; models/keyedvectors.py 367-384, 401-434, 565-567, 761-770, 775, 1011-1013, 1038-1049, 1065, 1084-1088, 1113-1122, 1141, 1143-1159, 1177-1181, 1497-1501; models/word2vec.py 1792-1817 |
| KeyedVectors/Model | models/keyedvectors.py 220-227, 386-399, 401-433, 440-478, 480-528, 530-549, 551-563, 613-622 |
| KeyedVectors/SimModel | models/keyedvectors.py 290-306, 308-329, 331-350, 569-575, 581-583, 659-672, 690-784, 946-1011 |
| KeyedVectors/WmdModel | models/keyedvectors.py 842-944 |
| Lda/BoundModel | _matutils.pyx 75-99; models/atmodel.py 573-605; models/hdpmodel.py 918-953; models/ldamodel.py 548-601, 806-833, 1055-1126 |
| Lda/DispatcherModel | models/lda_dispatcher.py 90-292; models/lda_worker.py 81-207; models/lsi_dispatcher.py 84-274; models/lsi_worker.py 76-181; models/lsimodel.py 486-521 |
| Lda/EmModel | models/lda_dispatcher.py 227-231; models/lda_worker.py 150-152, 204-207; models/ldamodel.py 254-263, 265-275, 341-349, 624-728, 738-753, 948-949, 962-1007, 1062 |
| Lda/FaultModel | models/lda_dispatcher.py 90-292; models/lda_worker.py 81-207; models/lsi_dispatcher.py 84-274; models/lsi_worker.py 76-181 |
| Lda/InferModel | _matutils.pyx 44-72; matutils.py 1069-1087; models/ldamodel.py 624-728, 1097-1108 |
| Lda/MulticoreModel | models/ldamulticore.py 187-316 |
| Lda/PerWordModel | models/ldamodel.py 1318-1367 |
| Lda/TrainModel | interfaces.py 152-155, 176-178; models/ldamodel.py 109-145, 259-268, 270-278, 460-512, 546-589, 614-616, 738-804, 835-1028, 1047-1059, 1152-1163, 1201-1212, 1318-1324, 1327-1334, 1337-1342, 1510-1531 |
| Lda/UpdateModel | models/ldamodel.py 148-176, 178-193, 195-233, 738-753, 835-1028, 1030-1063 |
| LdaDiff/Model | matutils.py 842-866, 869-888, 891-914, 917-950; models/callbacks.py 437-442; models/ldamodel.py 1447-1508 |
| LdaSeq/FitModel | models/ldaseqmodel.py 124-192, 611-631, 651-658, 1096-1097, 1195-1242, 1560-1604, 1633-1645; utils.py 729-733, 821 |
| LdaSeq/Model | models/ldaseqmodel.py 263-307, 404-445, 556-562, 582-583, 674-687, 742-744, 789-795, 798-804, 849-852, 855-861, 877-879, 898-919, 941-978, 1011-1013, 1019-1023, 1078-1116, 1147-1170, 1317-1336, 1354-1362, 1381-1418, 1451-1495, 1519-1529 |
| Lev/Model | similarities/levenshtein.py 46-51, 88-99, 132-137, 139-150 |
| Life/Model | models/keyedvectors.py 367-423; models/word2vec.py 415-421, 476-483, 516-532, 618-642, 655-680, 1007-1062, 1172-1200, 1464-1477, 1501-1517, 1840-1846 |
| Lsi/ProjModel | models/lsimodel.py 80-105, 152-214, 227-317, 489-513, 569-575, 577-609 |
| Lsi/SvdModel | models/lsimodel.py 394-400, 473-482, 485-522, 860, 905-1016 |
| MatSim/Model | interfaces.py 326-353, 365-398; matutils.py 281-315; similarities/docsim.py 795-833, 838-875, 1143-1177, 1183-1228; utils.py 855-877 |
| MatSim/SoftModel | interfaces.py 337-353, 365-398; similarities/docsim.py 944, 967-979, 1041, 1065-1089 |
| Matutils/LogNormModel | matutils.py 662-682 |
| Matutils/NormModel | matutils.py 640-659, 739-760, 762-781, 786-814, 939-946, 975-995, 998-1019 |
| Matutils/PsiModel | _matutils.pyx 120-139, 236-248, 264-279, 325-357 |
| Matutils/SparseModel | matutils.py 48-79, 130-164, 370-399, 402-426, 432-465 |
| Matutils/UnitModel | matutils.py 718-736, 739-760, 762-781 |
| Nmf/Model | models/nmf.py 194-208, 213-233, 333-360, 417-461, 485-510, 512-531, 543-659, 661-686, 709-714, 739-740, 744-771; models/nmf_pgd.pyx 43-60 |
| Nmf/StopModel | models/nmf.py 533-541, 670-686, 755-769; models/nmf_pgd.pyx 42-62 |
| Phrases/FindModel | models/phrases.py 300-336 |
| Phrases/Model | models/phrases.py 226-274, 276-321, 524-561, 578-610, 612-665, 667-690, 708-725, 783-788 |
| Phrases/ScoreModel | models/phrases.py 118-121, 155-167, 188-203, 353-421, 524-567 |
| Poincare/BallModel | models/poincare.py 317-350, 769-776, 798-802, 804-808, 825, 827-834, 837-843, 890-933, 1108 |
| Poincare/CsvModel | corpora/csvcorpus.py 31-56; models/poincare.py 1335-1354 |
| Poincare/DataModel | models/poincare.py 1422-1434, 1494-1508, 1527-1541, 1604-1619, 1634-1641, 1663-1679, 1698-1700, 1723-1726, 1742-1758 |
| Poincare/EvalModel | models/poincare.py 1454-1460, 1496-1507, 1568-1570, 1606-1618 |
| Poincare/NavModel | models/poincare.py 950-958, 975-983, 1001-1008, 1024-1030, 1148-1171 |
| Poincare/QueryModel | models/keyedvectors.py 390-399, 401-440; models/poincare.py 890-933, 1032-1070, 1173-1294; poincare.py 493-504, 907, 926-933, 1068-1070, 1215-1224, 1260-1264, 1294 |
| Poincare/SampleModel | models/poincare.py 150-152, 207-229, 250, 262-270, 286-315, 1357-1370, 1372-1381, 1402-1405 |
| Poincare/StepModel | models/poincare.py 432-467, 575-600, 628-656, 674-699 |
| Poincare/TrainModel | models/poincare.py 378-385, 544-573, 575-600 |
| Porter/Model | parsing/porter.py 46-49, 51-82, 84-136, 138-161, 163-191, 193-229, 231-263, 265-274, 276-278, 302-324, 326-329, 331-391, 393-413, 415-470, 474-480, 505-524 |
| Preprocess/Model | parsing/preprocessing.py 30-59, 62-64, 66-67, 92-93, 117-118, 145-146, 174-175, 199-200, 228-229, 254-255, 279-281, 305-307, 313-317, 357-360, 384; utils.py 39, 186-191, 251-257, 274-275, 300-304 |
| Preprocess/ReModel | corpora/wikicorpus.py 76, 87-150, 366-384; parsing/preprocessing.py 62-68, 117-118, 145-146, 199-200, 228-229, 254-255, 279-281; scripts/segment_wiki.py 232-233; utils.py 39, 274-275 |
| Rp/Model | matutils.py 713-715, 762-781; models/normmodel.py 45-80, 98-113; models/rpmodel.py 50-69, 83-107, 138-152; utils.py 711-733, 757-760, 821 |
| SaveLoad/HeapModel | utils.py 427-492, 512-552, 554-656 |
| SaveLoad/Model | utils.py 390-425, 427-492, 512-552, 554-656 |
| SaveLoad/TopicModel | models/ldamodel.py 1577-1612, 1644-1677; models/lsimodel.py 755-757, 791-798; models/tfidfmodel.py 422-435 |
| Score/Model | models/word2vec.py 1676-1771 |
| Sharded/FormatModel | corpora/sharded_corpus.py 225-301, 411-482, 495-535, 564-581, 583-660, 662-666, 708-719, 721-735, 737-744, 747-753, 755-777 |
| Sharded/Model | corpora/sharded_corpus.py 225-255, 260-301, 303-324, 326-347, 349-365, 376-390, 392-397, 399-409, 411-482, 540-551, 553-557, 583-660, 668-706, 747-753, 755-770, 772-777 |
| Show/Model | matutils.py 67-79; models/hdpmodel.py 1042-1065, 1124-1148; models/ldamodel.py 1152-1163, 1165-1180, 1199, 1231-1234, 1279-1286, 1386-1399; models/lsimodel.py 629-636, 662-667, 691-703; models/nmf.py 265-303, 352-360, 408-415 |
| Termsim/IndexModel | similarities/termsim.py 91, 94-97, 133-140, 255-262 |
| Termsim/Model | similarities/termsim.py 170-288 |
| Termsim/SoftModel | similarities/termsim.py 312-325, 349-361, 385-397, 520-594 |
| Termsim/WidthModel | similarities/termsim.py 143-167, 170-288 |
| TextCorpus/CorpusModel | corpora/dictionary.py 242-268; corpora/textcorpus.py 243-345, 378-393, 450-470; corpora/ucicorpus.py 182-293; utils.py 736-797 |
| TextCorpus/DirModel | corpora/textcorpus.py 473-690 |
| TextCorpus/SampleModel | corpora/textcorpus.py 341-348, 368-376, 425-451 |
| Tfidf/InitModel | models/tfidfmodel.py 363-414, 472-548 |
| Tfidf/LogEntropyModel | models/logentropy_model.py 81-123, 125-152 |
| Tfidf/Model | matutils.py 762-781; models/tfidfmodel.py 29-105, 108-129, 132-153, 156-183, 186-211, 376-390, 409-414, 440-470, 472-548 |
| Topic/InputModel | models/atmodel.py 226-242; models/hdpmodel.py 352; models/ldamodel.py 427-446, 519-521, 902-909, 960-1012; models/ldamulticore.py 216-223; models/ldaseqmodel.py 124-137; models/lsimodel.py 399-409, 442-443, 487-520; models/nmf.py 196-199, 210-211, 569-612; models/rpmodel.py 66-91; utils.py 729-733, 743-797, 821 |
| TransMat/Model | models/translation_matrix.py 108-127, 146-161, 163-165, 231-234, 245-256, 277, 304-365, 438-442, 458 |
| Upgrade/Model | models/fasttext.py 628-634, 994-1011; models/keyedvectors.py 239-259, 261-272, 287-292, 297-305, 308-329, 331-349, 386-399, 1693-1712; models/word2vec.py 1875-1880, 1917-1953 |
| Utils/ChunkModel | interfaces.py 172-178, 203-204; utils.py 1158-1169, 1205-1224, 1298-1307 |
| Utils/HelperModel | utils.py 40, 125-131, 149-161, 209-214, 1072-1078, 1106-1126, 1128, 1519-1542, 1962-1967, 2002-2008 |
| Utils/PeekModel | utils.py 826-877 |
| Utils/RandomModel | models/atmodel.py 292; models/doc2vec_inner.pyx 273, 368, 500; models/fasttext.py 1256-1257; models/fasttext_inner.pyx 422, 604; models/hdpmodel.py 347, 914; models/ldamodel.py 471, 658, 1093-1096, 1151-1163; models/ldamulticore.py 274, 314-341; models/lsimodel.py 923, 955; models/nmf.py 192; models/translation_matrix.py 226; models/word2vec.py 379; models/word2vec_corpusfile.pyx 226-228; models/word2vec_inner.pyx 154-157, 491-492, 569, 665; poincare.py 167; utils.py 79-85 |
| Utils/SyncModel | models/lda_dispatcher.py 133-137, 221, 270; models/lda_worker.py 106, 135-137; models/lsi_dispatcher.py 124-128, 180-183, 201, 233-253; models/lsi_worker.py 99; utils.py 98-106 |
| Utils/Utf8Model | utils.py 307-358 |
| Utils/ViewModel | utils.py 947, 978-981, 1006, 1009, 1037-1040, 1048-1050 |
| Utils/VocabModel | models/word2vec.py 534-564; utils.py 1646-1676, 1679-1698, 1701-1720, 1744-1746, 1749-1781 |
| VecFile/Model | models/keyedvectors.py 1536, 1656-1691, 1822-1832, 1881-1917; scripts/glove2word2vec.py 85-89, 109-114; scripts/word2vec2tensor.py 72-76 |
| W2V/DirModel | models/doc2vec.py 1100-1123, 1151-1170; models/word2vec.py 1975-1990, 2047-2058, 2097-2108, 2111-2121 |
| W2V/DryModel | models/doc2vec.py 336-339, 574-583, 809-831; models/fasttext.py 462-490, 1121-1128; models/keyedvectors.py 352-356; models/word2vec.py 580-748, 750-779, 819-839 |
| W2V/FailModel | models/word2vec.py 1127-1130, 1132-1133, 1173-1209 |
| W2V/FileTrainModel | models/doc2vec_corpusfile.pyx 286-388; models/fasttext_corpusfile.pyx 120-182; models/word2vec.py 1007-1062, 1094-1099, 1258-1270; models/word2vec_corpusfile.pyx 231-349, 446; models/word2vec_inner.pyx 476, 592, 685 |
| W2V/HsModel | models/word2vec.py 1704-1707, 2177-2180; models/word2vec_inner.pyx 722-754, 838-850, 856-868, 885-896 |
| W2V/HuffmanModel | models/word2vec.py 2134-2136, 2140, 2142-2147, 2165-2190 |
| W2V/NegModel | models/word2vec.py 795-817; models/word2vec_inner.pyx 142-150, 156, 215-231 |
| W2V/NullModel | models/word2vec.py 437-503, 580-748, 781-785, 803-815 |
| W2V/OnlineModel | models/keyedvectors.py 669-671, 1938-1955; models/word2vec.py 476-484, 733-736, 819-863 |
| W2V/ReadersModel | models/doc2vec.py 515-556; models/fast_line_sentence.h 11-17, 20-38; models/word2vec.py 1335-1339, 2000-2018, 2044-2067; models/word2vec_corpusfile.pyx 104-120, 137-182, 303-313 |
| W2V/StepModel | models/word2vec_inner.pyx 74-138, 159-247, 250-345, 348-464, 467-499, 573-590, 669-683, 764-777, 781-798, 934-936 |
| W2V/SubsampleModel | models/word2vec.py 690-715; models/word2vec_inner.pyx 154-157, 543-556 |
| W2V/TrainModel | models/doc2vec.py 629-647; models/word2vec.py 1120-1125, 1130, 1135, 1142-1211, 1257-1270, 1386-1402, 1411-1433 |
| W2V/VocabModel | models/keyedvectors.py 274-306, 308-327, 329-346, 659-672; models/word2vec.py 580-748 |
| W2V/WindowModel | models/word2vec_corpusfile.pyx 195-224; models/word2vec_inner.pyx 540-566, 573-590 |
| Wiki/CorpusModel | corpora/wikicorpus.py 84-88, 421-440, 671-715 |
| Wiki/JsonModel | scripts/segment_wiki.py 147-165 |
| Wiki/MarkupModel | corpora/wikicorpus.py 44, 46, 48, 54, 56, 62, 64, 66, 68, 70, 72, 74, 78-82, 209-265, 314-334 |
| Wiki/PageModel | corpora/wikicorpus.py 153-181, 184-206 |
| Wiki/SegModel | corpora/wikicorpus.py 76, 153-181; scripts/segment_wiki.py 138-169, 224-259, 326-361 |
| Wiki/TemplateModel | corpora/wikicorpus.py 268-311 |
| Wiki/XmlModel | corpora/wikicorpus.py 367-447; scripts/segment_wiki.py 174-210 |

### Axioms of the property theorems

P = `propext`, C = `Classical.choice`, Q = `Quot.sound`; no other axiom occurs.

| property | theorems (axioms) |
|---|---|
| C01 | C01_ids_dense_bijection (PCQ), C01_operations_never_raise (PCQ), C01_listing_order (PCQ) |
| C02 | C02_doc2bow_exact (PCQ), C02_missing_exact (PQ), C02_update_knows_all (PCQ) |
| C03 | C03_statistics_exact (PCQ), C03_statistics_additive (PCQ), C03_order_independent (PCQ), C03_df_le_num_docs (PCQ) |
| C04 | C04_doc2bow_pure (none), C04_doc2idx (P) |
| C05 | C05_filter_extremes (PCQ), C05_keep_tokens_survive_without_cut (PCQ), C05_keep_tokens_fails (PQ), C05_filter_n_most_frequent (PCQ), C05_filter_tokens (PCQ) |
| C06 | C06_reverse_lookup (PCQ), C06_lookup_harmless (P) |
| C07 | C07_text_roundtrip (PCQ), C07_tab_token_unreadable (PCQ), C07_newline_token_unreadable (PCQ) |
| C08 | C08_merge_with (PCQ), C08_translation (PCQ), C08_merge_equals_joint (PCQ), C08_cfs_not_merged (PCQ) |
| C09 | C09_pruned_counts_never_exceed (PCQ), C09_pruned_size_bounded (PCQ), C09_check_leaves_at_most_k (PCQ), C09_check_leaves_exactly (PCQ) |
| C10 | C10_history_independent (P), C10_vector_exact (PCQ), C10_counters (PCQ), C10_debug_statistics (PCQ), C10_debug_tables_agree (PCQ), C10_filter_extremes (PCQ), C10_keep_n (PCQ), C10_nodebug_no_tables (PQ), C10_save_as_text (PCQ), C10_save_as_text_nodebug (PQ) |
| C11 | C11_greedy_scan (PQ), C11_segments (PQ), C11_segments_frozen (PQ), C11_empty_token_dropped (PCQ) |
| C12 | C12_counts_never_exceed (PCQ), C12_counts_exact (PCQ), C12_batching_independent (PCQ) |
| C13 | C13_frozen_decides_as_live (PCQ), C13_frozen_same_on_known (PCQ), C13_frozen_same (PCQ), C13_live_depends_on_history (PCQ), C13_export_raises (PCQ) |
| C14 | C14_prune_exact (PQ), C14_prune_members (PQ), C14_trim_by_freq (PQ), C14_merge_counts (PCQ), C14_counts_never_exceed (PCQ), C14_lost_at_most (PCQ), C14_counts_exact (PCQ) |
| C15 | C15_concat (PQ), C15_sizes (PCQ), C15_count (PQ), C15_transformed_same (PQ) |
| C16 | C16_same_as_serial (PQ), C16_no_deadlock (PQ), C16_terminates (PQ), C16_producer_failure_hangs (P) |
| C17 | C17_repeat (PCQ), C17_repeat_n_times (none), C17_clipped (PQ), C17_sliced_unindexed (PCQ), C17_sliced_len (PCQ), C17_sliced_len_negative (PCQ), C17_sliced_len_negative_step_fails (P), C17_sliced_len_empty_slice_fails (P), C17_sliced_indexed (PCQ), C17_bounds (PQ) |
| C18 | C18_save_restores (PCQ), C18_save_keeps_object (PCQ), C18_flat_crash_safe (PCQ), C18_load_save (PCQ), C18_nested_loses_arrays (P), C18_parent_loses_arrays (P), C18_save_succeeds (PCQ), C18_load_missing (P), C18_load_missing_child (PQ) |
| C19 | C19_ids_increasing (PQ), C19_full2sparse_entries (PQ), C19_dense_roundtrip (PQ), C19_sparse_roundtrip (PCQ), C19_clipped (PCQ), C19_csc_paths_agree (PCQ), C19_csc_wrong_nnz (PQ), C19_csc_entries (PCQ) |
| C20 | C20_sparse_unit (PCQ), C20_sparse_idempotent (PCQ), C20_sparse_zero (PCQ), C20_unique (PCQ), C20_dense_unit (PCQ), C20_scipy_unit (PCQ), C20_scipy_argument (PCQ), C20_scipy_unique (PCQ), C20_formats_agree (PCQ), C20_stored_zeros (PCQ) |
| C21 | C21_cossim_symm (PCQ), C21_cossim_bounded (PCQ), C21_cossim_self (PCQ), C21_cossim_defined (PCQ), C21_hellinger_symm (PCQ), C21_hellinger_zero (PCQ), C21_hellinger_le_one (PCQ), C21_jaccard_bow_self (PCQ), C21_jaccard_bow_symm (PCQ), C21_jaccard_distance (PCQ), C21_jaccard_sets (PCQ) |
| C22 | C22_roundtrip (PCQ), C22_exact (PCQ), C22_refused (PCQ) |
| C23 | C23_raises (PQ), C23_roundtrip (PCQ), C23_comment (PCQ), C23_last_char_lost (P), C23_corpus (PCQ), C23_len_counts_comments (PCQ) |
| C24 | C24_roundtrip (PCQ), C24_near_zero_unreadable (PCQ), C24_corpus (PCQ), C24_vocab (PCQ) |
| C25 | C25_uci_roundtrip (PCQ), C25_uci_saves (PCQ), C25_low_roundtrip (PCQ), C25_low_merged (PCQ), C25_low_refused (PCQ), C25_mallet_roundtrip (PCQ), C25_mallet_refused (PCQ) |
| C26 | C26_history (PCQ), C26_length (PCQ), C26_reopen_other_size_wrong (PQ), C26_resize_unsaved_wrong (PQ) |
| C27 | C27_history (PCQ), C27_fresh (PCQ), C27_max_final (PCQ) |
| C28 | C28_batches (PCQ) |
| C29 | C29_exactly_once (PCQ), C29_no_deadlock (PCQ), C29_terminates (PCQ), C29_one_worker_in_order (PCQ) |
| C30 | C30_codes (PCQ), C30_total (PQ), C30_optimal (PCQ), C30_frequent_no_longer (PCQ) |
| C31 | C31_bisect (PQ), C31_share (PCQ), C31_last_word_lost (PCQ), C31_table (PCQ), C31_proportion (PCQ), C31_every_word_drawn (PCQ), C31_negatives (PQ), C31_negatives_are_draws (PQ) |
| C32 | C32_linear (PCQ), C32_epoch (PCQ), C32_training (PCQ), C32_underestimated_rises (PCQ), C32_infer (PCQ) |
| C33 | C33_text8 (PQ), C33_block_size_irrelevant (PQ), C33_newline_at_block_end (PCQ), C33_line_sentence (PQ) |
| C34 | C34_next_batch (PCQ), C34_train_loop (PCQ), C34_loop_stops (PCQ), C34_complete (PCQ), C34_buffer_lost (P), C34_lines (P), C34_words (PCQ), C34_threads_overlap (PCQ), C34_threads_gap (PCQ), C34_single_thread (PCQ), C34_sentence_idx_overflow (P), C34_truncated (P) |
| C35 | C35_prepare (PQ), C35_words_fit (PQ), C35_sentences_fit (PQ), C35_pairs (PCQ), C35_pairs_nodup (PCQ), C35_batch (PCQ) |
| C36 | C36_offsets (PCQ), C36_order (PCQ), C36_empty (none) |
| C37 | C37_rows (PCQ), C37_negative (PQ), C37_injective (PCQ), C37_counts (PCQ), C37_rebuild (none), C37_foreign_integer (none) |
| C38 | C38_lookup (PCQ), C38_order (PCQ), C38_row_number (P), C38_duplicate_in_batch (none), C38_integer_key (P), C38_add_vector_index (P), C38_stale_norm (P), C38_norm (PQ) |
| C39 | C39_most_similar (PCQ), C39_answers (PQ), C39_topn_zero (PQ), C39_searched_rows (PQ), C39_no_input_key (PCQ), C39_cosmul (PCQ) |
| C40 | C40_binary_reader (PCQ), C40_chunk_size_matters (P), C40_binary_roundtrip (PCQ), C40_text_roundtrip (PCQ), C40_order (PQ), C40_limit (PCQ), C40_text_too_short (PCQ), C40_integer_keys_twice (none) |
| C41 | C41_closer_than (PCQ), C41_rank (PCQ) |
| C63 | C63_sort (PCQ), C63_stale_norms (PCQ), C63_set_vecattr (PQ), C63_add_keeps_attrs (PQ) |
| C42 | C42_byte_ngrams (PCQ), C42_spans (PCQ), C42_ngrams (PCQ), C42_same_ngrams (PCQ) |
| C43 | C43_ascii (P), C43_sign_extended (P), C43_not_standard (P), C43_bucket_range (PCQ) |
| C44 | C44_batched (PCQ), C44_batch_size (PCQ), C44_load_save (PCQ), C44_model_roundtrip (PCQ), C44_both_losses (PCQ), C44_zero_count (PQ), C44_utf8 (PCQ), C44_nul_word (P) |
| C64 | C64_save_load (PQ), C64_total (PQ), C64_known_word (PCQ), C64_known_word_no_buckets (PCQ), C64_unknown_word (PCQ), C64_rows_exist (PQ), C64_contains_lies (PQ), C64_assignment_lost (PQ), C64_added_word_unloadable (PQ) |
| C45 | C45_merge_any_order (PQ), C45_blend (PCQ), C45_blend_empty (PQ), C45_blend_nonneg (PCQ), C45_blend_extremes (PQ) |
| C46 | C46_pass (PCQ), C46_group_statistics (PQ), C46_update (PCQ) |
| C47 | C47_at_most_once (PQ), C47_batch (PQ), C47_forced_complete (PQ), C47_online_loss (none) |
| C48 | C48_exactly_once (PQ), C48_statistics (PQ), C48_completes (PQ), C48_protocol_needed (P) |
| C65 | C65_distributed_lsi_forgets (PQ) |
| C49 | C49_document_frequencies (PCQ), C49_repeated_ids_overcount (PCQ), C49_from_dictionary (PCQ), C49_from_dictionary_vectors (PCQ), C49_ids_order (PCQ), C49_unit_or_empty (PCQ), C49_plain (PCQ), C49_pivot_fixed_point (PCQ), C49_zero_frequency_raises (PCQ), C49_augmented_empty_raises (PCQ), C49_byte_length_needs_dictionary (PCQ), C49_byte_length_pivot_raises (PCQ), C49_plain_pivot_raises (PCQ), C49_idf (PCQ), C49_ubiquitous_dropped (PCQ), C49_resolve_weights (PQ), C49_pivot_unique (PCQ), C49_pivot_bytes (PCQ), C49_smart_global (PCQ), C49_smart_local (PCQ) |
| C66 | C66_weights (PCQ), C66_generators (PCQ), C66_empty_corpus_rejected (PCQ), C66_transform (PCQ) |
| C50 | C50_one_pre (PCQ), C50_one_one (PQ), C50_one_set (P), C50_one_list_per_topic (P), C50_pairs_spec (PQ) |
| C51 | C51_exact (PCQ), C51_bounds (PCQ) |
| C52 | C52_never_over (PCQ), C52_exact_iff (PCQ), C52_exact_pairs (PCQ), C52_distinct_words (PCQ), C52_num_windows (PQ), C52_irrelevant (PQ), C52_undercounts (PQ), C52_second_call_doubles (PCQ) |
| C53 | C53_parallel_eq_serial (PQ), C53_no_deadlock (PQ), C53_terminates (PQ), C53_needs_two (P), C53_example_run (PQ) |
| C54 | C54_history (PCQ), C54_shard_sizes (PCQ), C54_save_load (PCQ), C54_zero_weight_unusable (P), C54_add_after_save_breaks_saved (P) |
| C55 | C55_generator_one_shard (PQ), C55_generator_many_shards (PQ), C55_serial (PCQ), C55_parallel (PCQ), C55_topk (PCQ), C55_values_independent (PCQ), C55_all (PQ), C55_corpus (PQ), C55_empty_index_corpus (PQ) |
| C56 | C56_constraints (PCQ), C56_origin (PCQ), C56_plain_columns (PCQ), C56_self_similarity (PCQ), C56_tfidf_missing (PCQ), C56_float16 (PCQ), C56_refused (PCQ), C56_shortest_type (PCQ), C56_counters_never_overflow (PCQ) |
| C57 | C57_total (PCQ), C57_measure (PQ), C57_history (PCQ), C57_rules (PCQ) |
| C58 | C58_chunked_same (PQ) |
| C59 | C59_removes (PCQ), C59_every_text (PCQ), C59_done (PCQ) |
| C60 | C60_exact (PCQ), C60_rejected (PQ), C60_too_long (PCQ), C60_uniform (PCQ), C60_metadata (P) |
| C67 | C67_raises_iff (PCQ), C67_counts (PCQ), C67_raises_witness (PQ) |
| C68 | C68_nested (PCQ), C68_abandoned (PQ), C68_overlapping (none), C68_iterate (PQ), C68_iterate_dense (PCQ), C68_dense_raises_iff (PCQ) |
| C69 | C69_normalizations (PCQ), C69_maintain (PCQ), C69_negative_norm (PCQ), C69_positive_definite (PCQ), C69_cosine (PCQ), C69_documents (PCQ), C69_corpora (PCQ), C69_related (PCQ), C69_mixed_unnormalized (PCQ), C69_mixed_normalized (PCQ), C69_mixed_all_related (PCQ), C69_mixed_wrong (PCQ) |
| C70 | C70_texts (PCQ), C70_no_minimum (PCQ) |
| C71 | C71_shown (none), C71_order (PQ), C71_last (P), C71_last_wrong (PCQ) |
| C72 | C72_files (PQ), C72_once (PQ), C72_length (PQ), C72_length_changed_during (PCQ) |
| C73 | C73_metric (PCQ), C73_similarity (PCQ) |
| C74 | C74_distance (PCQ), C74_gradient_u (PCQ), C74_gradient_v (PCQ), C74_check_passes (PCQ), C74_check_detects (PCQ) |
| C75 | C75_all_updates (PCQ), C75_ball (PCQ), C75_others_unchanged (PCQ), C75_leaves_ball (PCQ) |
| C76 | C76_vocab (PCQ), C76_proportional (PCQ), C76_negatives (PCQ), C76_error (PCQ), C76_too_few (PQ), C76_can_end (PCQ), C76_own_negative (PQ) |
| C77 | C77_child (PQ), C77_parent (PQ), C77_ancestors (PCQ), C77_descendants (PCQ), C77_descendants_raises (PCQ), C77_most_similar (PQ), C77_most_similar_vector (PCQ), C77_first_node (PCQ), C77_first_node_ball (PCQ), C77_topn_zero (P) |
| C78 | C78_ranks (PQ), C78_average_precision (PCQ), C78_average_precision_range (PCQ), C78_self_counts (PCQ), C78_max_n (PCQ) |
| C79 | C79_u_mass (PCQ), C79_relevant (PCQ), C79_u_mass_sign (PCQ), C79_symmetric (PCQ), C79_npmi_range (PCQ), C79_uci_npmi (PCQ), C79_npmi_always_together (PCQ), C79_mean_bounds (PCQ) |
| C80 | C80_cosine (PCQ), C80_symmetric (PCQ), C80_range (PCQ), C80_single (PCQ) |
| C81 | C81_history (PCQ), C81_compare (PCQ), C81_compare_raises (PCQ), C81_topn_raised (PCQ), C81_segments_given (PCQ), C81_ids (PQ) |
| C82 | C82_lock_factors (PCQ), C82_sg_neg (PCQ), C82_sg_hs (PCQ), C82_hs_loss_reversed (PCQ), C82_draw (PCQ), C82_saturated (PCQ), C82_tables (PCQ), C82_table_step (PCQ), C82_targets (P), C82_pair_neg (PCQ), C82_pair_hs (PCQ), C82_pair_both (PCQ), C82_batch (PCQ), C82_frame (PCQ), C82_score (PCQ) |
| C83 | C83_input (PCQ), C83_cbow_neg (PCQ), C83_cbow_hs (PCQ), C83_no_context (PCQ), C83_word_neg (PCQ), C83_word_hs (PCQ), C83_word_both (PCQ), C83_batch (PCQ), C83_frame (PCQ) |
| C84 | C84_probability (PCQ), C84_kept (PCQ), C84_sentence (PCQ), C84_build (PCQ), C84_zero (PCQ), C84_shorthand (PCQ), C84_shorthand_witness (PCQ), C84_update_forgets (PCQ) |
| C85 | C85_update (PCQ), C85_first (PCQ), C85_history (PCQ), C85_rebuild (PCQ) |
| C86 | C86_clip (PCQ), C86_merge (PCQ), C86_history (PCQ), C86_schedule (PCQ), C86_library (PCQ), C86_fold_in (PCQ), C86_scaled_ignored (PCQ) |
| C87 | C87_dbow_tag (PCQ), C87_dbow_word (PCQ), C87_dbow_both (PCQ), C87_dbow_document (PCQ), C87_dm_input (PCQ), C87_dm (PCQ), C87_dm_document (PCQ), C87_dm_lock (PCQ), C87_dm_lock_wrong (PCQ), C87_dm_locked_word_moves (PCQ), C87_concat (PCQ), C87_concat_window (PCQ), C87_concat_skips (PCQ), C87_words (PCQ) |
| C88 | C88_model_unchanged (PCQ), C88_concat_model_unchanged (PCQ), C88_rates (PCQ), C88_rates_bounds (PCQ), C88_dbow (PCQ), C88_dm (PCQ), C88_concat (PCQ), C88_unknown_words (PCQ), C88_concat_tag_count (PCQ), C88_zero_is_default (PCQ), C88_arguments (PCQ) |
| C89 | C89_tags (PCQ), C89_share (PCQ), C89_one_worker (PCQ), C89_empty_lines (PCQ), C89_shift_wrong (PCQ), C89_twice (PCQ), C89_never (PCQ), C89_concat_start (PCQ), C89_concat_tags (PQ), C89_concat_block_wrong (PCQ), C89_dm_windows (PCQ) |
| C90 | C90_gamma (PCQ), C90_phi (PCQ), C90_gamma_bag_of_words (PCQ), C90_inference (PCQ), C90_statistics_mass (PCQ), C90_chunks_add (PCQ), C90_bound_never_decreases (PCQ), C90_repeated_id_lost (PCQ), C90_stops (PCQ) |
| C91 | C91_history (PCQ), C91_prior_gradient (PCQ), C91_initial_prior (PCQ), C91_prior_stays_positive (PCQ), C91_prior_newton (PCQ), C91_prior_fixed (PCQ), C91_rho (PCQ), C91_topics_are_distributions (PCQ), C91_learned_eta_ignored (PCQ), C91_update_arguments_ignored (PCQ), C91_small_offset_negative (PCQ), C91_document_topics (PCQ), C91_show_topics (PCQ), C91_settings (PCQ) |
| C92 | C92_representation_descends (PCQ), C92_fixed_point_is_optimal (PCQ), C92_topic_step (PCQ), C92_nonnegative (PCQ), C92_statistics_of_the_call_only (PCQ), C92_empty_documents_destroy (PCQ), C92_topics (PCQ), C92_queries_change_the_model (PCQ), C92_query_order_matters (PCQ), C92_document_topics (PCQ) |
| C93 | C93_constructed_tables (PCQ), C93_author_ids (PCQ), C93_first_update (PCQ), C93_trained_documents (PCQ), C93_author_keeps_id (PCQ), C93_author_without_documents (PCQ), C93_second_update_not_reindexed (PCQ), C93_second_update_example (PQ), C93_shifted_update (PCQ), C93_query_restores (PCQ), C93_query_refusals (PCQ), C93_document_numbers (PCQ), C93_rows_stay_positive (PCQ), C93_document_round (PCQ), C93_document_step (PCQ), C93_author_topics (PCQ), C93_bound_ignores_given_authors (PCQ), C93_bound_inputs (PQ), C93_continue (PCQ), C93_rounds (PCQ) |
| C94 | C94_value (PCQ), C94_symmetric (PCQ), C94_bounds (PCQ), C94_bag_of_words (PCQ), C94_equal_vectors_infinite (PCQ) |
| C95 | C95_vocabulary (PCQ), C95_analogies (PCQ), C95_counts (PCQ), C95_missing_header (PCQ), C95_excluded_word_predicted (PCQ), C95_failure_leaves_folded_table (PCQ), C95_failure_example (PCQ), C95_pairs (PCQ) |
| C96 | C96_base_dir (PQ), C96_base_dir_alone (P), C96_base_dir_race (P), C96_checksum (PQ), C96_progress (PCQ), C96_progress_overshoot (PCQ), C96_progress_empty (PCQ), C96_progress_unknown (PCQ), C96_installed_is_verified (PCQ), C96_installed_is_verified_across_file_systems (PCQ), C96_leftover_blocks (PCQ), C96_download_succeeds (PCQ), C96_bad_checksum (PCQ), C96_installed_not_fetched (PCQ), C96_kill_can_block (PCQ), C96_two_processes_install_empty (PCQ), C96_load_accepts (PQ), C96_outdated_refused (PQ), C96_listing (PQ), C96_bad_answer_destroys_cache (none) |
| C97 | C97_similarity (PCQ), C97_distances (PCQ), C97_most_similar_scores (PCQ), C97_cosmul (PCQ), C97_cosmul_vectors (PCQ), C97_n_similarity (PCQ), C97_most_similar_to_given (PCQ), C97_rank_by_centrality (PCQ), C97_doesnt_match (PCQ), C97_doesnt_match_two (PCQ), C97_relative_cosine (PCQ), C97_predict_output_word (PCQ) |
| C98 | C98_outputdir (PCQ), C98_no_outputdir (PCQ), C98_save_topics (PCQ), C98_save_topics_none (PCQ), C98_statistics (PCQ), C98_repeated_word (PCQ), C98_lazy_updates (PCQ), C98_first_update (PCQ), C98_later_update (PCQ), C98_max_chunks (PCQ), C98_empty_corpus (PCQ), C98_no_corpus_learns_nothing (PCQ), C98_hdp_to_lda (PCQ), C98_stale_topics (PCQ), C98_probe_decays_again (PCQ), C98_suggested_lda_topics (PCQ), C98_show_refreshes (PCQ), C98_topic_numbers (PCQ), C98_inference (PCQ) |
| C99 | C99_variances (PCQ), C99_mean_is_the_most_probable_path (PCQ), C99_variance_is_the_posterior_variance (PCQ), C99_derivative_with_forward_variances (PCQ), C99_derivative_is_wrong (PCQ), C99_document_weights (PCQ), C99_chunksize (PCQ), C99_slices (PCQ), C99_one_slice (PCQ), C99_first_document_of_a_slice (PCQ), C99_corpus_too_long (PCQ), C99_bound_drops_words (PCQ), C99_training_never_converges (PCQ), C99_rare_words (PCQ), C99_fitted_chain (PCQ), C99_initial_chain (PCQ), C99_print_topic (PCQ), C99_new_document (PCQ), C99_training_documents (PCQ), C99_stops (PCQ) |
| C100 | C100_split (PQ), C100_remove_stopwords (PCQ), C100_strip_short (PQ), C100_strip_punctuation (PCQ), C100_strip_multiple_whitespaces (PQ), C100_strip_numeric (PCQ), C100_strip_non_alphanum (PQ), C100_strip_tags (PQ), C100_tags_glue_words (PCQ), C100_split_alphanum (PQ), C100_split_alphanum_upper (PQ), C100_stem_text (PCQ), C100_preprocess_string (PCQ), C100_preprocess_documents (PCQ), C100_preprocess_with (PQ), C100_tokens_after_stemming (PCQ), C100_tokenize (PQ), C100_simple_preprocess (PQ), C100_underscores (PQ), C100_deaccent (PQ) |
| C101 | C101_train (PCQ), C101_train_exact (PCQ), C101_train_errors (PCQ), C101_long_entry_accepted (PCQ), C101_back_mapping (PCQ), C101_translate (PCQ), C101_training_words (PCQ), C101_translate_errors (PCQ), C101_gc_sample (PCQ), C101_gc_sample_repeats (PCQ), C101_gc_repeated_words (PCQ), C101_gc_ranks (PCQ), C101_gc_order (PCQ), C101_gc_depends_on_scale (PCQ) |
| C102 | C102_annoy_query (PCQ), C102_annoy_score_not_cosine (PCQ), C102_annoy_save_load (PCQ), C102_annoy_loaded_cannot_be_saved (PCQ), C102_annoy_saved_with_other_size (PCQ), C102_annoy_nothing_built (PCQ), C102_nmslib_query (PCQ), C102_nmslib_save_load (PCQ), C102_most_similar_with_indexer (PCQ), C102_indexer_returns_the_query (PCQ) |
| C103 | C103_levdist (PCQ), C103_levsim (PCQ), C103_symmetric (PCQ), C103_range (PCQ), C103_exceeds_one (PCQ), C103_empty (PCQ), C103_parameters (PCQ), C103_threshold_above_one (PCQ), C103_most_similar (PCQ), C103_most_similar_errors (PCQ) |
| C104 | C104_linear (PCQ), C104_expectation (PCQ), C104_variance (PCQ), C104_distances (PCQ), C104_construct (PCQ), C104_getitem (PCQ), C104_dropped (PCQ), C104_initialize_again (PCQ), C104_norm_document (PCQ), C104_norm_errors (PCQ), C104_norm_statistics (PCQ), C104_norm_corpus (PCQ) |
| C105 | C105_kl_nonneg (PCQ), C105_kl_infinite (PCQ), C105_kl_value (PCQ), C105_kl_scale (PCQ), C105_kl_asymmetric (PCQ), C105_js_symm (PCQ), C105_js_range (PCQ), C105_js_disjoint (PCQ), C105_hellinger (PCQ), C105_bow_features (PCQ), C105_bow_dense (PCQ), C105_bow_no_features (PCQ), C105_diff_errors (PCQ), C105_diff_cells (PCQ), C105_diff_diagonal (PCQ), C105_diff_normed (PCQ), C105_diff_normed_one (PCQ), C105_diff_self (PCQ), C105_diff_no_words (PCQ), C105_diff_transpose (PCQ), C105_annotation (PCQ), C105_convergence (PCQ), C105_convergence_normed (PCQ) |
| C106 | C106_values (PCQ), C106_distinct_labels (PCQ), C106_same_label (PCQ), C106_label (PCQ), C106_label_cut (PCQ), C106_shell (PCQ), C106_seen (PQ), C106_batch (PCQ), C106_plots (PCQ), C106_plotted_later (PCQ), C106_no_visdom (PCQ), C106_array_alone (PCQ) |
| C107 | C107_index_name (PCQ), C107_index_names_differ (PCQ), C107_serialize (PQ), C107_history (PQ), C107_same_name (P), C107_overwrites_itself (PQ), C107_stale_index (PQ), C107_failed_source (P), C107_name_of_index (P), C107_no_index (P), C107_empty_fancy (P), C107_csv (none), C107_extension (PQ) |
| C108 | C108_input (PCQ), C108_looked_up (PCQ), C108_table (PCQ), C108_sg_neg (PCQ), C108_sg_hs (PCQ), C108_sg_neg_table (PCQ), C108_saturated_skipped (PCQ), C108_cbow_neg (PCQ), C108_cbow_hs (PCQ), C108_cbow_neg_table (PCQ), C108_cbow_saturated (PCQ), C108_no_context (PCQ), C108_pair (PCQ), C108_word (PCQ), C108_batch (PCQ), C108_frame (PCQ), C108_locks (PCQ), C108_no_buckets (PCQ) |
| C109 | C109_matrix (PCQ), C109_matrix_width (PCQ), C109_dense (PCQ), C109_dense_corpus (PCQ), C109_dense_iter (PCQ), C109_sparse (PCQ), C109_sparse_corpus (PCQ), C109_sparse_iter (PCQ), C109_sparse_iter_broken (PCQ), C109_num_best (PCQ), C109_cosine (PCQ), C109_cossim (PCQ), C109_empty_query (PCQ), C109_zero_weights (PCQ), C109_maintain_single (PCQ), C109_maintain_corpus (PCQ), C109_maintain_no_match (PCQ), C109_maintain_one (PCQ), C109_repeated_term (PCQ), C109_abandoned (PCQ), C109_features (PCQ) |
| C110 | C110_corpus2dense (PCQ), C110_corpus2dense_wrong (PCQ), C110_dense_roundtrip (PCQ), C110_dense_corpus (PQ), C110_sparse_roundtrip (PCQ), C110_sparse_getitem (PCQ), C110_sparse_negative (PCQ), C110_any2sparse (PCQ), C110_scipy_corpus (PQ), C110_pad (PQ), C110_hellinger_row (PCQ), C110_hellinger_two (PCQ), C110_hellinger_wrong (PCQ), C110_jaccard_rows (PCQ), C110_jaccard_two (PCQ) |
| C111 | C111_result (PCQ), C111_no_deadlock (PCQ), C111_terminates (PQ), C111_empty_crashes (PQ), C111_reads (PQ), C111_no_workers (PCQ), C111_guard (P) |
| C112 | C112_train_iff (PCQ), C112_train_run (PCQ), C112_callbacks (PCQ), C112_train_failed (PQ), C112_alpha (PCQ), C112_construct (PCQ), C112_construct_generator (PQ), C112_construct_iterator (PCQ), C112_construct_errors (PCQ), C112_train_count (PCQ), C112_zero_total_hangs (PQ), C112_zero_total_accepted (PCQ), C112_producer_ends (PQ), C112_reset_from (PQ), C112_reset_shares (PCQ), C112_reset_counts (PQ), C112_build_vocab (PQ) |
| C113 | C113_old_vectors (PCQ), C113_current_vectors (PCQ), C113_doctags (PCQ), C113_integer_keys (PCQ), C113_load_iff (PCQ), C113_load_attrs (PCQ), C113_syn1_lost (PCQ), C113_exponent_lost (PCQ), C113_save_load (PCQ), C113_bucket (P), C113_fasttext (PQ) |
| C114 | C114_no_header (PCQ), C114_no_header_errors (P), C114_no_header_loads (PCQ), C114_glove (PCQ), C114_glove_load (PCQ), C114_glove_duplicates (PCQ), C114_glove_info (P), C114_tensor (PQ), C114_tensor_lines (PQ), C114_tensor_findings (P), C114_merge_never_returns (P), C114_merge_text (PCQ), C114_merge_binary (PCQ), C114_merge_truncated (PCQ), C114_merge_default_lock (PQ), C114_merge_size (PCQ), C114_merge_bad_line (PCQ), C114_merge_no_lock (P), C114_merge_stale_norms (PCQ) |
| C115 | C115_argsort (PCQ), C115_index (PQ), C115_lda_show_topic (PCQ), C115_lda_probabilities (PCQ), C115_lda_show_topics (PCQ), C115_chosen (PCQ), C115_noise (PCQ), C115_top_topics (PCQ), C115_term_topics (PCQ), C115_term_topics_word (PQ), C115_nmf_terms (PCQ), C115_nmf_show_topics (PQ), C115_nmf_chosen (PCQ), C115_nmf_again (PCQ), C115_lsi_show_topic (PCQ), C115_lsi_length (PCQ), C115_lsi_show_topics (PQ), C115_hdp_terms (PCQ), C115_hdp_show_topics (PQ), C115_hdp_all (PQ) |
| C116 | C116_chunks (PCQ), C116_values (PCQ), C116_values_sparse (PCQ), C116_energy (PCQ), C116_exact (PCQ), C116_exact_sparse (PCQ), C116_onepass (PCQ), C116_docs_processed (PCQ), C116_once (PCQ), C116_samples (PCQ), C116_twopass (PCQ) |
| C117 | C117_default (PCQ), C117_npmi (PCQ), C117_default_found (PCQ), C117_npmi_found (PCQ), C117_npmi_collision (PCQ), C117_npmi_errors (PCQ), C117_arguments (PCQ), C117_single (PQ), C117_load_current (PCQ), C117_connectors_matter (PCQ), C117_load_collapse (PCQ), C117_load_pairs (PQ), C117_load_vocab (PQ), C117_load_scoring (PCQ) |
| C118 | C118_step (PCQ), C118_step_inside (PCQ), C118_session (PCQ), C118_burn_in_once (PCQ), C118_settings_lost (PQ), C118_workers (PQ), C118_negative_batch_size (PQ), C118_zero (PQ), C118_stale_negatives (P) |
| C119 | C119_lda (PCQ), C119_stale (PCQ), C119_missing_state (PCQ), C119_crash (PCQ), C119_memory (PCQ), C119_lsi (PCQ), C119_lsi_ignore (P), C119_tfidf_defaults (PCQ), C119_crash_mix (P) |
| C120 | C120_soft_documents (PCQ), C120_soft_document (PCQ), C120_soft_agree (PCQ), C120_soft_iter (PCQ), C120_soft_self (PCQ), C120_soft_edges (PCQ), C120_soft_alone (PCQ), C120_wmd_query (PCQ), C120_wmd_one (PCQ), C120_wmd_similarity (PCQ), C120_wmd_best (PCQ), C120_wmd_iter (PCQ), C120_wmd_iter_broken (PCQ), C120_wmd_iter_one (PCQ), C120_wmd_distance (PCQ) |
| C121 | C121_uniform (P), C121_embedding (PCQ), C121_embedding_range (PCQ), C121_negative_threshold (PCQ), C121_fits (PQ), C121_uniform_matrix (PCQ), C121_limit_outside (PCQ) |
| C122 | C122_rewind (PQ), C122_interleaved_broken (PCQ), C122_path_directory (PCQ), C122_path_listing (PCQ), C122_path_other (P), C122_path_subdirectory (P), C122_brown (PCQ), C122_brown_listing (PQ), C122_tagged_brown (PCQ), C122_tags_distinct (PCQ), C122_tagged_lines (PQ) |
| C123 | C123_text_built (PCQ), C123_text_given (PCQ), C123_text_len (PQ), C123_text_raises (PQ), C123_metadata_lost (PQ), C123_uci_vocab (PCQ), C123_uci_numbers (PCQ), C123_uci_token2id (PQ), C123_uci_blind (PQ), C123_uci_counts (PQ), C123_uci_generator (P) |
| C124 | C124_never_more (PCQ), C124_silent_loss (PQ), C124_pairs_lost (PCQ), C124_one_survivor (PCQ), C124_hang (PCQ), C124_interrupt_hang (PQ), C124_w2v (PCQ), C124_statistics (PCQ), C124_w2v_nan (PCQ), C124_w2v_key (PCQ), C124_w2v_kwargs (PCQ), C124_w2v_hs (PCQ) |
| C125 | C125_json (PCQ), C125_json_ascii (PCQ), C125_file_json (PCQ), C125_json_injective (PCQ), C125_sections (PCQ), C125_recovers (PCQ), C125_missed_headings (PCQ), C125_other_pages (PCQ), C125_articles (PCQ), C125_length (none), C125_file (P), C125_links_sound (PQ), C125_links (PQ), C125_links_lost (PCQ) |
| C126 | C126_read (PQ), C126_read_error (PQ), C126_read_links (PQ), C126_evaluate (PCQ), C126_reconstruction (PCQ), C126_link_prediction (PCQ), C126_max_n_order (PCQ), C126_score (PQ), C126_direction (PCQ), C126_pairs (PCQ), C126_last_row (PQ), C126_spearman (PCQ), C126_tie (PCQ) |
| C127 | C127_rates (PCQ), C127_bounds (PCQ), C127_floor (PCQ), C127_full (PCQ), C127_no_total_words (PCQ), C127_one_batch (PQ), C127_totals (PCQ), C127_hangs (PCQ), C127_train (PCQ), C127_loss_serial (PQ), C127_loss (PCQ), C127_loss_lost (PQ) |
| C128 | C128_lognorm_vector (PCQ), C128_lognorm_rows (PCQ), C128_lognorm_columns (PCQ), C128_lognorm_refused (PCQ), C128_lognorm_safe (PCQ), C128_loop (PCQ), C128_digamma (PCQ), C128_digamma_small (PCQ), C128_recurrence (PCQ), C128_dirichlet (PCQ), C128_dirichlet_rows (PCQ), C128_logsumexp (PCQ), C128_logsumexp_safe (PCQ) |
| C129 | C129_fresh (PCQ), C129_history (PCQ), C129_update_moves (PCQ), C129_collision (PCQ), C129_predicted (PCQ) |
| C130 | C130_results (PQ), C130_lost_job_blocks (PQ), C130_no_exception_while_alive (P), C130_lsi_silent (PQ), C130_no_result_after_death (PCQ), C130_lda_reports_death (P), C130_loops (PCQ), C130_starved (PCQ) |
| C131 | C131_topics (PCQ), C131_bound (PCQ), C131_parts (PCQ), C131_nonpositive (PCQ), C131_per_word (PCQ), C131_perplexity (PCQ), C131_empty (PCQ), C131_given_gamma (PCQ), C131_matrix_eta (PCQ), C131_matrix_eta_positive (PCQ), C131_hdp (PCQ), C131_hdp_empty (PCQ) |
| C132 | C132_objective (PCQ), C132_gradient (PCQ), C132_convex (PCQ), C132_exact_derivatives (PCQ), C132_wrong_gradient (PCQ), C132_construct (PCQ), C132_construct_fails (PQ), C132_vis (PCQ), C132_vis_lengths (PCQ), C132_coherence (PCQ) |
| C133 | C133_plain (PQ), C133_round_trip (PCQ), C133_names (PCQ), C133_names_with_x (PCQ), C133_no_code_point (PCQ), C133_no_entity (PCQ), C133_flatten (PQ), C133_flatten_bytes (PQ), C133_open_file (P), C133_hardlink (PQ), C133_hardlink_race (PQ), C133_upload (PCQ), C133_upload_twice (PQ), C133_jobs (PCQ) |
| C134 | C134_mutual_exclusion (PCQ), C134_serial (PCQ), C134_no_deadlock (PCQ), C134_jobs_counted (PCQ), C134_lost_without_lock (PQ), C134_getstate (PCQ), C134_stale_job (none), C134_relock (P) |
| C135 | C135_unpack (PCQ), C135_no_row_lost (PQ), C135_sizes (PQ), C135_cycle (P), C135_overwritten (P), C135_pad_ones (PQ) |
| C136 | C136_reproducible (PCQ), C136_reload (PCQ), C136_refused (P), C136_shared (none), C136_lda_draws (PQ), C136_queries_matter (none), C136_multicore (PCQ), C136_multicore_schedule (none), C136_one_worker (PCQ), C136_two_workers (none), C136_loaded (PQ), C136_file_windows (PCQ), C136_same_generator (PCQ) |
| C137 | C137_words_right (PCQ), C137_words_found (PCQ), C137_stale (PCQ), C137_once (PCQ), C137_compare_models (PCQ), C137_refused (PQ), C137_uneven (PCQ) |
| C138 | C138_text (PCQ), C138_binary (PCQ), C138_parts (PCQ), C138_vocab (PCQ), C138_vocab_integers (PCQ), C138_confused (PCQ) |
| C139 | C139_cell_before (P), C139_link (PCQ), C139_link_bare (PCQ), C139_url (PCQ), C139_category (PCQ), C139_file (PCQ), C139_languages (PCQ), C139_template (PCQ), C139_findings (PCQ), C139_plain (PCQ), C139_order (PCQ), C139_no_brackets (PCQ), C139_no_tags (PCQ), C139_tag (PCQ), C139_comment (PCQ), C139_element (PCQ) |
| C140 | C140_text (PCQ), C140_unchanged (PCQ), C140_links (PCQ), C140_findings (PCQ) |
| C141 | C141_filters (PCQ), C141_split (PCQ), C141_tokens (PQ), C141_wiki (PCQ), C141_example (PCQ), C141_namespace (PCQ) |
| C142 | C142_settings (PQ), C142_dm_mean (P), C142_first (PCQ), C142_job (PQ), C142_update (PCQ), C142_reset (PCQ), C142_freq (PQ), C142_getitem (PCQ), C142_warning (PCQ), C142_findings (P) |
| C143 | C143_dimension (P), C143_build (PCQ), C143_history (PCQ), C143_documents (PCQ), C143_resize_sparse_broken (PCQ), C143_resize_dense_broken (PCQ), C143_reopen_forgets (PCQ) |
| C144 | C144_memory (PCQ), C144_memory_doc (PCQ), C144_memory_fasttext (PCQ), C144_report_twice (PCQ), C144_fasttext_ignores (PCQ), C144_predicts (PCQ), C144_dry_scanned (PCQ), C144_dry_unsorted (PCQ), C144_dry_built (PCQ), C144_dry_strict (PCQ), C144_dry_scrambles (PCQ), C144_dry_null (PCQ), C144_zero_ignored (PCQ), C144_update_report (PCQ) |
| C145 | C145_distribution (PCQ), C145_score_cbow (PCQ), C145_score_sg (PCQ), C145_score_alone (PCQ), C145_known (PCQ), C145_all_count (PCQ), C145_single (PCQ), C145_nonpos (PCQ), C145_overstates (PCQ), C145_saturated (PCQ), C145_tables (PCQ) |
| C146 | C146_distances (PCQ), C146_distance (PCQ), C146_all (PCQ), C146_by_vector (PCQ), C146_unknown (PCQ), C146_hierarchy (PCQ), C146_norm (PCQ), C146_distance_number (PCQ), C146_distances_number (PCQ), C146_norm_number (PCQ) |
| C147 | C147_memory (PCQ), C147_cycle_raises (PCQ), C147_cycle_loses (PCQ), C147_shared_lost (PCQ), C147_shared_small (PCQ) |
| C148 | C148_read (PCQ), C148_truncated (PCQ), C148_empty (PCQ), C148_at (PQ), C148_blei (PCQ) |
| C149 | C149_sequence (PCQ), C149_old_or_new (PCQ), C149_nothing_separate (PCQ), C149_mixture (PCQ) |
| C150 | C150_nothing_lost (P), C150_passed (P), C150_twice (P), C150_first_only (P), C150_bow (P), C150_believed (P), C150_words (PQ), C150_pairs (PQ) |
| C151 | C151_dictionary (PCQ), C151_dictionary_cut (PCQ), C151_streams (PCQ), C151_svm (PCQ), C151_blei (PCQ), C151_mallet (PCQ), C151_low (PCQ), C151_mm (PCQ), C151_uci (PQ), C151_cut_documents (PCQ) |
| C152 | C152_word_loop (PQ), C152_cut (PQ), C152_cut_vectors (PCQ), C152_hang_no_result (PQ), C152_hangs (PCQ) |
| C153 | C153_multicore_waits (PQ), C153_multicore_can_end (PCQ), C153_word2vec_waits (PCQ), C153_word2vec_stops (PCQ), C153_word2vec_returned (PCQ) |
| C154 | C154_largest (PQ), C154_gaps (PQ), C154_complete (PQ), C154_from_corpus (PQ), C154_refused (none), C154_replayable (PQ), C154_generator_lda (PQ), C154_generator_lsi (P), C154_generator_nmf (PQ) |
| C155 | C155_accepts (PCQ), C155_errors (PCQ), C155_settings (PQ), C155_sees_all (PCQ), C155_iterators (PCQ), C155_topn_of_model (PQ), C155_topics_replaced (P) |
| C156 | C156_pages (PCQ), C156_refused (PCQ), C156_fields (PCQ), C156_cut (PCQ), C156_corpus (PCQ) |
| C157 | C157_words (PCQ), C157_shares (PCQ), C157_order (PCQ), C157_mass (PCQ), C157_light_words (PCQ), C157_repeated_word (PCQ) |
| C158 | C158_shares (PCQ), C158_counts (PCQ), C158_rows (PCQ), C158_sequential (PCQ), C158_gamma (PCQ), C158_document_statistics (PCQ), C158_statistics (PCQ), C158_disjoint_documents (PCQ), C158_lda (PCQ), C158_fractions_dropped (PCQ) |
| C159 | C159_dictionary (PCQ), C159_continues (PCQ), C159_corpus (PCQ), C159_tfidf (PCQ), C159_pivot_lost (PCQ) |
| C160 | C160_rows (PCQ), C160_last_line (PQ), C160_empty_line (PCQ), C160_open_quote (PCQ), C160_error (PCQ), C160_csv_corpus (none) |
| C161 | C161_bound (PCQ), C161_nonpositive (PCQ), C161_order (PCQ), C161_lda (PCQ), C161_per_word (PCQ), C161_refused (PCQ), C161_fractions (PCQ) |
| C162 | C162_source (PCQ), C162_corpus_ignored (PCQ), C162_pivot (PCQ), C162_refused (PCQ), C162_accepted (PCQ), C162_empty_dictionary (PCQ), C162_untrained (PCQ), C162_unknown_term (PCQ), C162_usable (PCQ) |
| C163 | C163_e_step (PCQ), C163_no_turns (PCQ), C163_likelihood (PCQ), C163_inference (PCQ), C163_evaluate (PCQ), C163_trained (PCQ) |
| C164 | C164_keeps (PCQ), C164_update (PCQ), C164_bound (PCQ), C164_pass (PCQ), C164_topics (PCQ), C164_distributed (PCQ) |
| C165 | C165_turn (PCQ), C165_likelihood (PCQ), C165_no_warning (PCQ), C165_loop (PCQ), C165_overstated (PCQ), C165_topics (PCQ) |
| C166 | C166_round (PCQ), C166_document (PCQ), C166_fixed (PCQ), C166_lda (PCQ) |
| C167 | C167_round (PCQ), C167_fit (PCQ), C167_at_most (PCQ), C167_ends (PCQ), C167_stale_start (PCQ) |
| C168 | C168_gain (PCQ), C168_rounds (PCQ), C168_ends (PCQ) |
| C169 | C169_step (PCQ), C169_pass (PCQ), C169_counts (PCQ), C169_batch (PCQ), C169_kept (PCQ), C169_first (PCQ), C169_counted_again (PCQ), C169_counted_often (PCQ), C169_chunks (PCQ), C169_authors (PCQ) |
| C170 | C170_rounds (PCQ), C170_norm (PCQ), C170_component (PCQ), C170_moves (PCQ), C170_no_error (PCQ), C170_topic_steps (PCQ), C170_step_skipped (PCQ) |
| C171 | C171_form (PCQ), C171_mean (PCQ), C171_order (PCQ), C171_empty (PCQ) |
| C172 | C172_frozen (PQ), C172_scores (PQ), C172_live (PCQ), C172_live_last (PQ), C172_live_model (P), C172_live_drifts (PCQ) |
| C173 | C173_decode (PCQ), C173_bytes (PCQ), C173_injective (PCQ), C173_ascii (PQ), C173_split (PQ), C173_lines (PCQ), C173_seek (PCQ), C173_cut (PCQ), C173_cut_inside (PCQ) |
| C61 | C61_patch_new_tokens (PCQ), C61_patch_known_tokens_fails (PQ), C61_patch_one_known_token_fails (PQ), C61_patch_leaves_dfs (PQ) |
| C62 | C62_from_corpus_counts (PQ), C62_from_corpus_rebuilds (PCQ), C62_from_corpus_no_cfs (none), C62_from_corpus_plain (PCQ) |
