# A Lean 4 model of gensim: design

Source modelled: `/repo` (RaRe-Technologies/gensim at the pinned commit). The
model is written by hand from the source text; nothing in `/repo` was run.

## Conventions

* Every definition that models code carries a comment `models <file>:<lines>`.
  Simplifications are stated in the same comment.
* Exceptions are values (`Option` / `Except`), never `panic`/default values.
* Python `dict` is an association list in insertion order (`Verif/Py/Dict.lean`):
  assignment to an existing key keeps its position, a new key goes to the end.
* Python `sorted` is a stable insertion sort (`Verif/Py/Sort.lean`); all stable
  sorts compute the same function, so nothing depends on the algorithm.
* Numbers: Python ints are `Int`/`Nat`. Floats are modelled by `ℚ` or `ℝ`
  (exact arithmetic): rounding is **not** modelled and each theorem that
  involves weights is about exact arithmetic only. This is recorded per property.
* Concurrency is a nondeterministic transition system; one atomic action per
  queue operation, all interleavings allowed.
* Random numbers are universally quantified inputs.
* Files `Model*.lean` (or the top part of a file) hold definitions,
  `Spec` sections hold the independent specification, and theorems named in
  `MANIFEST.json` are the property theorems. Each is followed by an `example`
  exhibiting a concrete non-trivial instance of its hypotheses.
* Where the code does not satisfy the English claim, the negation is proved on a
  concrete witness (`..._fails`, `..._witness`) and the part that holds is proved
  with suffix `_partial`.

## Trusted base

* Lean 4.33.0 kernel. Axioms used by theorems: at most `propext`,
  `Classical.choice`, `Quot.sound` (see the table of axioms at the end of this file, produced with `#print axioms` by `scripts/axioms.py`).
* The hand translation from Python/Cython to Lean. It is not verified by
  machine; source line citations make it reviewable.
* Python/numpy/scipy primitives taken at their documented meaning: dict order,
  stable sort, slicing, `collections.Counter/defaultdict`, `itertools.groupby`,
  `queue.Queue` FIFO + bounded blocking, numpy element-wise arithmetic over
  exact numbers.

## Plan per property

| id | modelled | proof |
|----|----------|-------|
| C01 | Dictionary state + all mutators as `step` of a transition system | invariant by induction over operation histories |
| C02 | doc2bow branch by branch | direct, against `List.count` |
| C03 | fold of doc2bow | induction over documents, against counting spec |
| C04 | doc2bow(no update), doc2idx | direct |
| C05 | filter_extremes/filter_tokens/compactify | refinement to filter/take spec; negative witness for keep_tokens |
| C06 | lazy id2token cache in the state | invariant over histories with lookups |
| C07 | text format over character lists | round trip |
| C08 | merge_with + VocabTransform | refinement; witness for cfs |
| C09 | add_documents with pruning | invariant relating to true counts |
| C10 | HashDictionary | direct + invariant. Text export (`HashDict/TextModel`): lines as triples, ordering by stability of the sort. |
| C11 | analyze_sentence state machine | induction, join/split spec |
| C12 | _learn_vocab/add_vocab | induction over batches |
| C13 | FrozenPhrases vs Phrases | equality of decision functions |
| C14 | prune_vocab & counting loop | invariant with lower/upper bounds |
| C15 | chunkize_serial | induction |
| C16 | InputQueue/chunkize | transition system: safety invariant + progress measure |
| C17 | corpus views | direct; witness for `__len__` |
| C18 | SaveLoad over attribute trees with failure points | structural induction |
| C19 | matutils conversions over ℚ | direct |
| C20 | unitvec over ℝ, on gensim vectors, dense vectors and scipy matrices, with the argument after the call | algebra |
| C21 | cossim/hellinger/jaccard over ℝ | Cauchy–Schwarz, algebra |
| C22 | MmWriter/MmReader over lines | round trip by induction |
| C23-C25 | line formats | round trip; witnesses |
| C26 | ShardedCorpus with cache state | invariant + refinement to list indexing |
| C27 | _scan_vocab/prepare_vocab | refinement to filter spec |
| C28 | _job_producer | induction |
| C29 | train_epoch threads | transition system: safety, deadlock freedom, termination measure |
| C30 | Huffman with nondeterministic ties | induction on merge steps (forest invariant) |
| C31 | cum table + bisect | binary search correctness |
| C32 | alpha schedules over ℚ | inequalities |
| C33 | Text8Corpus/LineSentence | induction over blocks |
| C34 | next_batch | invariant; witnesses for data loss |
| C35 | window loop | direct |
| C36 | offsets | invariant over lines |
| C37 | doctag scan | invariant |
| C38 | KeyedVectors store | invariant over histories; witness |
| C39 | most_similar | top-n spec |
| C40 | w2v formats | parser correctness, chunk independence |
| C41 | rank/closer_than | direct |
| C42 | ngrams | list/UTF-8 spec |
| C43 | FNV hash on BitVec 32 | direct; witness |
| C44 | binary format | serializer/parser round trip. Batched reading (`FastText/BatchModel`): equal to one read, by strong induction on the count. |
| C45-C48 | LDA state/schedules/dispatcher | algebra, invariants, transition systems |
| C49 | tfidf | counting + algebra |
| C50-C53 | coherence | list combinatorics, invariants, schedule independence |
| C54-C55 | Similarity | invariant, top-k merge lemma. Parallel shard queries (`Docsim/ParModel`): decision by the type of the piece size |
| C56 | termsim | loop invariant |
| C57 | Porter | bounds invariant per step |
| C58 | TransformedCorpus | from C15 |
| C59 | remove_template | state machine vs. grammar |
| C60 | sample_texts | induction over the stream |
| C61 | patch_with_special_tokens incl. cache | loop invariant; witnesses for known tokens |
| C62 | from_corpus | counting; refinement to the original dictionary |

| C63 | sort_by_descending_frequency, set_vecattr | permutation of rows; direct |
| C64 | FastTextKeyedVectors rows, save/load | invariant over histories; witnesses |
| C65 | dispatcher + add_documents | transition system from C48 |
| C66 | LogEntropyModel over ℝ | entropy bounds (concavity of log) |
| C67 | InvertedIndexAccumulator | window counting; iff for the exception |
| C68 | Similarity iteration as a state machine | invariant over nested/overlapping histories |
| C69 | inner_product, soft cosine over ℝ | Cauchy–Schwarz for the dominant matrix |
| C70 | extract_pages/get_texts with imap in any finishing order | schedule independence |
| C71 | step_through_preprocess | direct; witness |
| C72 | directory trees and settings histories | structural induction; invariant |
| C73 | vector_distance over real vectors | hyperboloid embedding, reverse Cauchy–Schwarz |
| C74 | loss and gradients over real vectors | HasGradientAt calculus |
| C75 | update of a batch, duplicates, clipping | invariant of the ball; witness for large dimensions |
| C76 | relations, cumulative table, rejection loop with arbitrary random numbers | induction; counting; witnesses |
| C77 | closest child/parent, ancestors, descendants, most_similar | measure: nodes above; argsort contract; witnesses |
| C78 | ranks, average precision, max_n | counting; sorted lists |
| C79 | direct measures over the accumulators of C52 | counts refine to document/window frequencies; log inequalities; witness |
| C80 | context vectors with both caches | cache invariant |
| C81 | coherence model as a state machine | invariant over histories; witnesses |
| C82 | skip-gram step of word2vec_inner.pyx over a real inner product space, sigmoid tables, scoring | derivatives in Mathlib; error bound of the tables; witnesses |
| C83 | CBOW step | derivatives; witnesses |
| C84 | thresholds, probabilities, `sample_int`, generator, sentence loop | real analysis, counting of states; witnesses |
| C85 | vectors and output rows during `build_vocab` | invariant over histories; characterisation of the rebuild |
| C86 | `Projection.merge`, `clip_spectrum`, `add_documents` of given chunk decompositions, fold-in, over real matrices; QR and SVD by their equations | matrix algebra, Bessel's inequality, induction on chunks; existence of the decompositions proved |
| C87 | the three document training functions over a real inner product space, output layers, windows, choice of words | Fréchet derivatives of the losses, chain rules for bags and blocks; frozen parts have rate 0 |
| C88 | `infer_vector` in all modes, arguments, learning rates, draws universally quantified | frozen weights by induction over epochs and words; gradient steps from C87 |
| C89 | the loops over a file in the three `d2v_train_epoch_*`, offsets of C36, lines as `FastLineSentence` reads them | lines of the reader = lines of the file; prefix characterisation by induction; witnesses by kernel evaluation |
| C90 | `inference` over the reals with the true digamma function, numpy's `+=` with repeated ids, the document part of `bound` | Jensen's inequality and the tangent inequality of the Dirichlet log-normaliser, itself proved from log-convexity of the Beta function (Hölder) by stick breaking; lists of documents by induction |
| C91 | priors, `rho`, the training loop of C46 with the inference of C90, queries and their settings | invariant and simulation over E and M steps, then over any list of calls; Newton's equation by algebra |
| C92 | `solve_h`, `_solveproj`, `_solve_w`, `_transform`, the loop of `update`, queries with their writes through views | coordinate descent on a quadratic, KKT conditions at fixed points, projected gradient descent with the Frobenius norm as Lipschitz bound, induction over chunks and calls |
| C93 | `AuthorTopicModel`: table construction, `update` before training, `inference` on rows, `get_author_topics`, `get_new_author_topics` with rollback, author lookup of `bound` | consistency invariant over all histories; exact restore after a query; explicit round of a document and conservation of counts; witnesses for the findings |
| C94 | `wmdistance`: distance matrix loops, word shares, early exits; `pyemd.emd` as least transport cost | loop invariants for the matrix; equivalence of the id and token transport problems; gluing of plans; witness for equal vectors |
| C95 | `Verif/KeyedVectors/EvalModel.lean`: folded vocabulary, loop over analogy lines, suggestion loop, sections, total, word-pair loop, swapping of `key_to_index` | refinement of the stateful loops to a per-section / per-line specification; characterisation of the folded table; findings on the failing paths |
| C96 | `Verif/Downloader/Model.lean`: listing and its cache, `load`/`_download` as a transition system of any number of processes over one shared folder, with kills, network failures, atomic rename and block-wise copy | inductive invariants over all schedules (one file system: any number of processes; two file systems: one at a time); invariant that a leftover folder blocks for ever; witnesses for the races. Helpers (`Downloader/HelpModel`): processes creating the folder as a transition system, streaming hash with its contract, progress bar over exact rationals. |
| C97 | `Verif/KeyedVectors/GeomModel.lean`: the similarity functions of `KeyedVectors` and `predict_output_word` over exact real vectors | Cauchy-Schwarz and scaling lemmas; each query function reduced to the cosine; sorting and argmax characterised; softmax sums; findings as theorems |
| C98 | `Verif/Hdp/Model.lean`: `HdpModel` initialisation, document e-step with its likelihood, chunk statistics, lazy columns with time stamps, update, ordering, expectations, training loop with limits, `hdp_to_lda`, inference, topic formatter | simulation relation between lazy and full training, preserved by every step and the whole loop; conservation of counts; invariants over reachable models; stick-breaking sums; findings as theorems. Output folder (`Hdp/OutModel`): files and folders as dictionaries, `str` to a binary file raises. |
| C99 | `LdaSeqModel`: `LdaPost` (phi, gamma, likelihood loop), `inferDTMseq` with its slice counter, `sslm` (Kalman filter and smoother, zeta, expected log probabilities, initialisation, `update_obs`, `fit_sslm`, the word loop of `compute_bound`, `compute_mean_deriv`), the EM loop counter, `print_topic`, `doc_topics`, `model[doc]` | completing the square along the chain: the energy of a path is the minimum plus squares, forwards and backwards; invariant over documents for the slice counter; optimiser and special functions are parameters |
| C100 | `str.split`, `join`, the regular expressions as run scanners, the stop list, all filters of `preprocessing.py`, `tokenize`, `simple_preprocess`, `deaccent` | an inductive specification of "longest runs" shown equivalent to splitting; induction on the length of the text; the stems come from C57 |
| C101 | spaces with their last-index dictionaries, training, the sampled space, the score matrix, double argsort, the answer dictionary, the back mapping; `lstsq`, `argsort`, set order and random choice are parameters with contracts | row-by-row evaluation; permutations sorted by score; a counting argument for ranks; expansion of squares for exact fits |
| C102 | `AnnoyIndexer` and `NmslibIndexer` (construction, save, load, query) over files as functions of names; the indexer path of `most_similar`; the libraries are parameters with a contract | Cauchy-Schwarz for the range of cosines, algebra of `1 - sqrt(2(1-c))/2`, case analysis of save/load, an exact index shown to meet the contract |
| C103 | `levdist`, `levsim`, `LevenshteinSimilarityIndex.most_similar`; the library's distance is a parameter equal to the least number of edits | induction on edits (symmetry, bound by the longer length), monotonicity of real powers and floor, sortedness of the stable sort |
| C104 | `RpModel.initialize`, `__getitem__` with the random bits as a parameter; `NormModel` | moments of sums with random signs by induction on the number of terms, independence of the rows by splitting sums over functions, Chebyshev's inequality as a count; list lemmas for the sparse answer |
| C105 | `scipy.stats.entropy` over the reals with infinity, Jensen-Shannon, dense Hellinger, conversion of bags, `LdaModel.diff` for abstract models and `ConvergenceMetric` (`LdaDiff`); Gibbs' inequality term by term, characterisation of every cell, norming through the greatest cell. |
| C106 | Labels, `Callback` with its queue and windows, and the chunk and pass loops of `LdaModel.update` around abstract E and M steps (`Callbacks`); invariant over passes for values, queue, windows and plots. |
| C107 | `IndexedCorpus` over an abstract file format and file system with resolved names (`Indexed`): opening, length, items, fancy indexing, `serialize` with stopping points, `smart_extension` on characters, the constructor of `CsvCorpus`; invariant "an index belongs to its data" over histories. |
| C108 | The four training functions and the batch loop of `fasttext_inner.pyx` (`FtTrain`) over any real Hilbert space, input rows of words and n-grams as one function; one lemma for all loops with a multiplier near the derivative gives exact and approximate gradient steps; specification of C82. |
| C109 | `MatrixSimilarity`, `SparseMatrixSimilarity`, `SimilarityABC.__getitem__`/`__iter__`, `scipy2scipy_clipped`, `is_corpus` (`MatSim`), built on the conversions of C19-C20; both indexes are shown to compute one separately specified cosine; iteration by induction over chunks. |
| C110 | `corpus2dense`, `Dense2Corpus`, `Sparse2Corpus`, `Scipy2Corpus`, `any2sparse`, `pad`, `isbow` with `hellinger` and `jaccard` on matrices (`Convert`): entry-wise specification of matrices; round trips by the theorems of C19; negative indices computed as numpy does. |
| C111 | `Word2Vec.score` (`Score`): transition system of the calling thread, the workers, the two bounded queues and the shared array; invariant accounting for every job and every sentence; no-deadlock from the bound of the second queue; termination by a decreasing cost. |
| C112 | Constructor, `train`, argument checks, job producer without totals, `reset_from` (`Life`): corpora as re-iterable, generator or iterator; `train` as a function to model, events and result; induction over histories; the thread system of C29 started without end markers; models as references into a heap of vocabulary objects. |
| C113 | `_load_specials` and the conversions it calls (`Upgrade`): objects as records of optional attributes, models as partial maps from attribute names; invariant over the writes of the old vocabulary; table of all attributes after loading, proved pointwise. |
| C114 | `_word2vec_detect_sizes_text`, loading without header, `glove2word2vec`, `word2vec2tensor`, `intersect_word2vec_format` (`VecFile`): files as lists of characters, on top of the model of the word2vec format; induction over the lines or records, the merged state described word by word (`Merged`). |
| C115 | `argsort` on top of a contract for numpy's `argsort` and `argpartition` (order of equal values unspecified), and the display methods of the topic models (`Show`): the result described by `Top`; sums by sub-permutations; stability of `sorted` for HDP and `top_topics`. |
| C116 | `stochastic_svd` for streamed corpora and for sparse matrices, `add_documents` in one and in several passes, over real matrices with the library of C86 and arbitrary draws (`Lsi/Svd*`): sums over chunks; uniqueness of the positive root for the covariance; the directions keep capturing the documents through power iterations; truncation lemma; merging by C86. |
| C117 | `original_scorer`, `npmi_scorer` over the reals, the checks of `Phrases.__init__`, `_is_single`, `load` of stored objects with arbitrary attributes and UTF-8 as a parameter (`Phrases/Score*`): the counts of every reachable model are bounded by those of its words and by the number of words; monotony of the logarithm; case analysis of the upgrades. |
| C118 | The index arithmetic of `_prepare_training_batch` and `_update_vectors_batch` with the gradients of C74 and the updates of C75; `train` and `_train_batchwise` with the work on a batch as a parameter (`Poincare/Step*`): sums over the flattened arrays regrouped by node; gradients of sums; induction on batches, epochs and calls. |
| C119 | `SaveLoad/TopicModel.lean`: the disk with arrays, pickled models, parts and dictionaries and a budget of writes; the saves of LDA and LSI models over the model of `SaveLoad.save` (C18), and the loads. Round trip by C18 for the model and for its part with a frame lemma: storing the model writes no file of the part. |
| C120 | `MatSim/SoftModel.lean`: both indexes over the inner products of C69 and any distance, with the inherited query and iteration code of C109. Answers by C69, best matches by C19/C109, iteration by induction over the chunks; the distance of C94 is an instance. |
| C121 | `Termsim/IndexModel.lean`: the two indexes and the translation of their terms to ids. List reasoning; the matrix by C56 (`C56_plain_columns`) with the ids of the first other terms. |
| C122 | `Verif/W2V/DirModel.lean`, `DirProps.lean`. The iterator over an open file as a state machine of pending pieces, lines left and file position; the files of a directory as a function from paths; the sorted listing is characterised as the sorted permutation. Induction over the lines and files; tags are decoded from the last underscore. |
| C123 | `Verif/TextCorpus/CorpusModel.lean`, `CorpusProps.lean`. Corpus state (dictionary, metadata, length) over the dictionary model of C01–C03; the preprocessing is a function that may raise. UCI: vocabulary file as text, words tagged as `str` or `bytes`. Proofs from C01–C03, C24 and inductions over lines and documents. |
| C124 | The transition system of C53 with two more kinds of steps: a worker that raises after any number of windows and replies with what it has, and interruptions of the master and of waiting workers. Upper bounds are an invariant; deadlocks are proved from reachable states from which no run returns. The measure is composed from the models of the segmentation, of `n_similarity` and of the means. |
| C125 | The two regular expressions as matchers, `re.split` and `re.findall` as scans; sound and complete for the language of headings, uniqueness of the leftmost decomposition, so that assembled texts are recovered; the pool as in C70; `json.dumps` of the records is modelled character by character (`Verif/Wiki/JsonModel.lean`) and inverted by an independent reader of JSON. |
| C126 | evaluation data: reading relations, means over sets in any order, lexical entailment scores. Sets as duplicate-free lists up to permutation; fold invariant for the least distance. |
| C127 | file-based training: rates of the batches of a thread, totals over all interleavings of the progress queue, loss under lost updates. Induction over batches and schedules; permutations. |
| C128 | logsumexp, digamma (AS 103), Dirichlet expectation over the reals. The truncated de Moivre series brackets the digamma function: the gap of one step has a derivative of constant sign (explicit polynomial) and vanishes at infinity. |
| C129 | `add_null_word` inside the vocabulary model of C27; the weak invariant (other words bijective, null word at its last row) by induction over the history; the share in the table from C31. |
| C130 | Transition system of C48 with request loops, failing jobs, dying workers and client exceptions; refinement to the faultless system, in which a lost job is one that stays held; counting invariants for the loops. |
| C131 | `Lda/BoundModel.lean`: bound, log_perplexity and evaluate_test_corpus over the reals with the digamma function of C90. The specification is the divergence of two Dirichlet distributions; non-positivity follows from the tangent inequality of log Γ (convexity of the log normaliser), with Elog ≤ log E from Γ(x+1) = xΓ(x). |
| C132 | `LdaSeq/FitModel.lean`: f_obs, compute_obs_deriv and df_obs over the reals with the posterior means of C99, the constructor as a decision function, dtm_vis and dtm_coherence. Gradient by `HasDerivAt` of a sum of squares and exponentials of affine functions; convexity by the tangent inequality; the wrong matrix by linearity in the counts. |
| C133 | `Utils/HelperModel.lean`: the entity pattern with its backtracking as a matcher over code points (word characters, int and the name table are parameters), nested lists, open_file, copytree_hardlink as steps of threads on the global function, upload_chunked. Round trip by induction on the text with the digits of a number; race by a schedule. |
| C134 | Transition system: an object's state, the lock's holder, threads with queues of calls, each call a list of atomic steps; a ghost list of acquisitions. Invariant: only the holder is active, and finishing its body gives the serial run of the acquisitions. The counters of the dispatcher as a machine over histories with an accounting invariant. |
| C135 | The swaps as a fold over the filtered dictionary items. If hashes below the number of packed rows come in exchanging pairs the swaps touch disjoint rows, hence commute and place every vector; permutation of rows in general by induction; two packings for which it fails. |
| C136 | Generators as shared references in a world of objects; constructing, calling, reloading and global use as operations. Invariant: the generator of a seeded object belongs to nobody else, and its state is that of the object alone. Draws of LDA counted in a stream; every worker of parallel LDA with a copy; the schedules of C29 for Word2Vec. |
| C137 | `for_models`, `for_topics`, `compare_models` and the lookup of words over the model of the dictionary, the sorting of weights and the state of a coherence model; end-to-end equality with fresh coherences, and the statistics kept through the whole comparison by induction over models and grid. |
| C138 | both `save_word2vec_format` functions with the files they write (mode, header, total, vocabulary, exceptions), over the tags produced by the scan of a corpus (C37) and the readers of C40; the loaded rows follow from the records written in order. |
| C139 | A backtracking matcher for Python regular expressions (`Verif/Py/Regex.lean`), the patterns of wikicorpus as its expressions, and `remove_markup` on top of them; priorities (greedy, lazy) by lemmas on the first result, order of characters by a sublist invariant of substitution. |
| C140 | `filter_wiki` and `find_interlinks` as the composition of entity decoding (a parameter), the modelled `remove_markup` (C139) and the modelled link search (C125); induction over the links of the page, with lemmas on where brackets can stand. |
| C141 | `Verif/Preprocess/ReModel.lean` writes the filters, the tokeniser, the scanners of links and headings, the example filter and the reading of the namespace with the expressions of the source and the backtracking matcher of `Verif/Py/Regex.lean`. Each is proved equal, for every text, to the scanner of `Verif/Preprocess/Model.lean` or `Verif/Wiki/SegModel.lean`, about which C100 and C125 speak, or to a specification by concatenation; runs, lazy and greedy stars each have a lemma by induction on the text. |
| C142 | `Verif/Doc2Vec/LifeModel.lean` adds to the models of the tags (C37) and of the word weights (C85) the constructor with its order of assignments, `build_vocab`, `build_vocab_from_freq`, `reset_from`, `_do_train_job` and `__getitem__`; the invariant is one vector for each row that a tag can have. The training functions are parameters here; they are modelled for C87. |
| C143 | the model of C26 with vectors as rows, the kind of the files (array or csr matrix), the three format flags and the conversions of `__getitem__`; what scipy makes of shards of the wrong kind is a parameter. Histories by the invariant of C26 plus "the files are of the kind the settings say"; findings for every corpus built with the formats named. |
| C144 | `Verif/W2V/DryModel.lean`: `prepare_vocab` with all its arguments over the existing models of its loops, of sorting and of the null word, and the reports of `estimate_memory`. The report is compared with the vocabulary a real run leaves; the effect of a dry run on a built model follows from the theorems on sorting. |
| C145 | `Verif/W2V/HsModel.lean`: paths of words from the assigned codes, known words of a sentence, the scores by CBOW and (existing model) skip-gram. The distribution is proved by induction on the Huffman tree, the scores as sums over positions. |
| C146 | `Verif/Poincare/QueryModel.lean`: arguments as key, number or vector, floats with `nan` and `inf`, `distances`, `distance`, `norm`, `difference_in_hierarchy`; agreement with the distance of C73 inside the ball, exact outcome for numbers. The check of gradients (`_check_gradients`) belongs to C74. |
| C147 | A heap of numbered objects in place of the tree of C18 (`SaveLoad/HeapModel`), with the recursion depth as an argument; invariants over the recursion (attributes only disappear, restores hold exactly what disappeared, an object visited twice has empty bookkeeping). |
| C148 | The readers of `Formats/MmModel` and `Formats/LineModel` on arbitrary lines: an invariant relates the state of the loop to the entries read so far, and gives an exact characterisation of the files accepted and of the result (`Formats/AnyProps`). |
| C149 | A save is a list of writes determined by the object (induction over the nesting), of which a budget of t performs the first t; the keys are distinct because they extend the path by distinct attribute names; the mixture is computed for objects of arrays of any number. |
| C150 | Objects as collections or iterators of nested values; the answer is a case analysis of the first element; what the returned object yields is compared with what there was. |
| C151 | What a crash leaves is `take t` of the stream; the lines of a prefix are the first lines and possibly a piece of the next (induction on the text); readers that map lines are compared through that; for the two formats with a header filled in last, the blank header is shown to be refused. |
| C152 | Readers of the fastText format as functions from bytes to a value and the rest; each is shown to use exactly the bytes it consumes (it fails on every proper prefix of them), closed under sequencing; the word loop with the behaviour of `read(1)` at the end of the file, run for any number of rounds. |
| C153 | The transition systems of C29 and C47 with failures as additional transitions at any time; an invariant counting lost workers, end markers and chunks; a measure that some step of every unfinished state decreases. |
| C154 | A corpus as documents with two flags (can be read once, has a length) and a read operation that may use it up; the seven constructors as functions from mapping and corpus to the number of terms and the rest of the corpus; the documents seen in each pass. |
| C155 | The constructor as a function from all arguments to an exception or an object; streams are sequences or iterators, `is_corpus` takes the first document of an iterator. Acceptance is characterised by an explicit predicate; what successive estimations read, and what is shown after any history of `topn`, by induction. |
| C156 | XML as a stream of start tags, texts and end tags, read by a parser with a stack that hands out elements when they end and clears pages; documents as trees. By mutual induction over the tree, reading a written-out tree serves its pages in order; prefixes of the stream by induction over the stream and over the depth. |
| C157 | Modelled: the loop over words and topics of get_document_topics on top of inference (Verif/Lda/PerWordModel.lean). Proved from C90_inference and the sort lemmas: the listing is exactly the topics reaching the bound, its orders, its mass by splitting the sum over topics, and the two findings. |
| C158 | Modelled: inference of the author-topic model with its statistics over exact reals (Verif/AuthorTopic/InferModel.lean), sharing dirichlet_expectation, phinorm and the statistics update with the model of LDA. Proved: the trace of rounds and where it stops, the shares sum to 1, positivity as an invariant of the loop over documents, the mass of statistics by induction on the chunk, commutation of documents with disjoint authors, a simulation by LDA's inference in the single-author case. |
| C159 | Composes existing models (Dictionary, its text format, Matrix Market files, TfidfModel); no new model. Proved by C07, C22 and C49, with a simulation between agreeing dictionaries for further documents. |
| C160 | Model `csv.reader` as the state machine of CPython, line by line, with the field size limit; prove a simulation that reads on in the middle of a line, field by field and row by row, then the effects of open quotes, empty lines and unreadable characters. |
| C161 | Model the sums of `bound` and `log_perplexity` over the reals, with the truncation of counts; identify them with divergences of Dirichlet distributions, which are not negative, and bound the likelihood by Jensen's inequality as for LDA. |
| C162 | the constructor of TfidfModel as a decision procedure on its arguments, followed by the transformation. |
| C163 | lda_e_step with its carried variables, refined to the model of LDA inference (C90), likelihood = bound (C131), evaluation of a test corpus. |
| C164 | The training model of C46 with its abstract numerics replaced by inference (C90), fixed priors and the learning rate (C91). Gain of documents by the tangent of log-sum-exp, gain of topics by convexity of the Dirichlet normaliser along the segment to the new topics; then over all groups of a pass. |
| C165 | The turns of doc_e_step (model of C98) with digamma and log-gamma; coordinate ascent: Gibbs' inequality for both assignments, tangent of the log-Beta function for the sticks; the likelihood of the code against the bound. |
| C166 | The rounds of C158's model; tangent of log-sum-exp over authors and topics, and the divergences of Dirichlet distributions: a round is an exact maximisation for a blended prior. |
| C167 | The rounds of C99's model with digamma and log-gamma: both updates are exact maximisations of the bound (Gibbs' inequality, divergences); the code's likelihood equals the bound except before the first round. |
| C168 | The loop of C90's model: every round gains the divergence of the gammas (C166), which for equal totals is at least the squared distance, because log-gamma plus the logarithm is convex (functional equation of the gamma function); the bound has a ceiling. |
| C169 | The loop of C46 with inference of C158 as its numerical part; induction over chunks, groups and passes for the sum of the statistics of a word; the product over the passes for batch mode. |
| C170 | The loops of C92 with their stopping rules (errors may be NaN); induction over the permutations and the steps; an error of 0 is a sum of squares that vanish, hence C92's fixed point; a witness with one word and topic for the remembered error. |
| C171 | The function over exact reals, NaN as a value; sums over lists by induction, the variance identity, squares that add up to 0. |
| C172 | The dictionary is one run of assignments over everything yielded; last assignment by induction, the scan of C11 for what is yielded, the state threaded through the sentences for live models. |
| C173 | Encoder and strict decoder from RFC 3629; one character in both directions by arithmetic, induction over the text; an ASCII byte is in no longer sequence, hence splitting commutes; prefix-freeness for cut files. It is what entitles the file models to work on characters. |
@@PLAN@@

## Where the code and the expected property disagree

Each of these is proved about the model as a theorem on a concrete input (the
names are in `MANIFEST.json`), beside the positive theorem with the hypothesis
that excludes it. They are listed so that a reader does not look for a mistake
in the model.

* C05 keep_tokens do not survive keep_n; C07 tokens with tab/newline; C08/C62 cfs not merged/rebuilt.
* C13 live phrase model depends on earlier lookups; freezing can raise with the delimiter inside tokens.
* C16 an exception in the producer process hangs the consumer; C17 wrong `len` of some slices.
* C18 an exception while nested arrays are written loses attributes.
* C21 `jaccard` of equal bags is not 0; C23 last character lost without final newline; C24 near-zero entries.
* C26 reopening a sharded corpus with another shard size; C28 first job empty; C31 last word never drawn.
* C32 learning rate rises at an epoch boundary; C34 data loss and overflow of corpus_file training.
* C37 stale tags after rebuilding; C38/C63 stale norms, duplicate keys, integer keys; C40 limits and repeated words.
* C43 fastText hash of non-ASCII text; C44 both losses; C64 assigned vectors lost, unloadable models.
* C47 online multicore LDA can drop the last chunk; C65 distributed LSI forgets earlier calls.
* C49 combinations of tf-idf options that always raise; C52/C67 window counts; C54/C55/C68 similarity index.
* C56/C69 self-returning indices, half-precision dtype, mixed normalised soft cosine.
* C60 sampling with metadata; C61 known special tokens; C70 article_min_tokens=0; C71 chained filters; C72 settings changed while iterating.
* C75 clipping leaves the ball when epsilon·dim is large; C76 own negatives, more than 2000 negatives; C77 first node in its own result, descendants of leaves; C78 self counted in ranks, max_n + 1 items.
* C79 NPMI −1 for words in every window, unseen words score 0; C81 raising topn or evaluating given segments leaves stale statistics; ids as topics raise KeyError.
* C82 hierarchical-softmax loss has the wrong labels, saturated pairs are not trained; C83 CBOW step of the context scaled by the number of context words, words without context add to the loss; C84 `sample ≥ 1` threshold too large by a factor of about 6.85, update=True uses only new counts; C85 second `build_vocab` does not reset the vectors, or raises.
* C86 `LsiModel.__getitem__(corpus, scaled=True)` ignores `scaled`.
* C87 `train_document_dm` reads `words_lockf[index % doctags_lockf_len]`: locked words move, reads can be out of bounds.
* C88 `infer_vector` with `dm_concat` and `dm_tag_count != 1` never trains; zero arguments mean defaults.
* C89 corpus files: empty lines shift document tags; with several workers documents are trained twice or never; `dm_concat` ignores `start_doctag` and adds the error of a window word to the tag; DM uses uninitialised `reduced_windows`.
* C90 repeated ids of a document: `sstats[:, ids] += ...` keeps the last one only.
* C91 `offset < 1` gives negative topics; learnt `eta` is never used; `update(iterations=, gamma_threshold=)` ignored; `get_document_topics(corpus)` changes the model's settings; `show_topics(0)` shows all.
* C92 `Nmf.update` forgets earlier statistics and can turn the model into NaN; `get_topic_terms`, `get_term_topics` and `get_document_topics` change the model.
* C93 (`AuthorTopicModel.update`): the re-indexing loop assigns a local variable, so a second update's tables overwrite old documents; an author with an empty document list gets a second id; `bound` ignores the given `doc2author`.
* C94 (`wmdistance`): an all-zero distance matrix returns infinity, so distinct words with equal vectors are infinitely far apart.
* C95 `evaluate_word_pairs` replaces `key_to_index` before opening the file, and neither evaluation restores it when a query raises: the model is left with the restricted, upper-cased table. An analogy whose expected word is one of its inputs can be counted right. A file with headers only raises `ZeroDivisionError`.
* C96 `_download` calls `os.remove` on a leftover folder `<name>_tmp`, which always fails: one kill between `shutil.move` and `os.rename` makes the data set unavailable until the folder is deleted by hand. Two simultaneous downloads across file systems can install an empty folder. `load` refuses outdated data sets that `info` shows. A bad server answer destroys the cached listing. `__init__.py` is not verified.
* C97 `distances(w, [])` answers for all words; `doesnt_match` of two words is decided by the alphabet alone; `most_similar_cosmul` does not normalise raw vectors; `relative_cosine_similarity` can divide by zero.
* C98 `HdpModel.update` called again trains on the first chunk only (`m_num_docs_processed` is never reset and `m_D` is the size of the first corpus); created without a corpus it learns nothing (`m_D = 0`); an empty corpus loops forever; `update_chunk(update=False)` corrupts the lazily updated weights; `suggested_lda_model` sets `expElogbeta` only, so its shown topics are random.
* C99 `inferDTMseq` compares `doc_index > time_slice[time]`: the first document of every later slice is put into the slice before. `fit_lda_seq` sets `convergence = 1.0` when it has converged and so never stops early. `compute_bound` loops `for w in range(w)` and drops one word per slice. `compute_mean_deriv` takes the posterior variances for the forward ones. `update_obs` leaves all rare words but the first unfitted. `__getitem__` uses the last slice only.
* C100 `strip_tags` replaces a tag by nothing: `one<br>two` becomes the one word `onetwo`; `split_alphanum` knows a-z only; `preprocess_string` stems after the stop list and the length filter, so `ones` gives `on`; `tokenize` is documented as "alphabetic" but underscores belong to tokens.
* C101 `TranslationMatrix` checks only the first pair; `translate` raises `IndexError` for topn above the target vocabulary and `AxisError` for no words; the corrected method samples with replacement, can raise `ValueError` on repeated words, and adds unnormalised products to ranks, so its answer depends on the scale of the matrix.
* C102 Annoy scores are not cosines; a loaded Annoy indexer cannot be saved; NMSLIB query time parameters are lost on load; `most_similar` with an indexer returns the query key and ignores the clipping parameters.
* C103 `levsim` exceeds 1 with its default parameters; empty terms, zero parameters and thresholds above 1 are special.
* C104 `RpModel.initialize` fails on a model that made its own `FakeDict`; `str(NormModel())` and `NormModel[corpus]` fail.
- C105: `kullback_leibler` and `jensen_shannon` of bags of words take the number of entries for the dimension (IndexError for larger identifiers); `LdaModel.diff` reads `self.__name__` for its error message (AttributeError); normed differences always reach 1, which makes `ConvergenceMetric(normed=True)` at least 1.
- C106: metrics with equal labels overwrite each other; metrics are computed before the final M step of a pass (always in batch mode); visdom windows are indexed by the position among all metrics (IndexError); array metrics need a `DiffMetric` or `ConvergenceMetric` next to them.
- C107: `serialize` refuses only equal names (views and aliases of the target are emptied first); data and index are written separately (stale index after a crash, after `save_corpus`, after a failing source); `CsvCorpus` opens the file in binary mode and joins with a text, so that its constructor always fails under Python 3.
- C108: skip-gram divides the sum of n+1 rows by n, lookup divides by n+1; the error is added to every row without division; CBOW with negative sampling clips saturated scores while the three other functions skip them.
- C109: a one-document chunk of `SparseMatrixSimilarity` is flattened during iteration; `scipy2scipy_clipped` reads row numbers as column numbers of a one-row csc matrix; the two index classes treat repeated terms differently.
- C110: `Sparse2Corpus[-1]` is an empty document and `[-2]` the last one; `isbow` accepts arrays whose first row has two columns.
- C111: `score` of no sentences raises UnboundLocalError (`job_no` is read before it is assigned).
- C112: `train` stores its arguments before checking them; totals of 0 make it hang; iterators are used up by the vocabulary; `reset_from` shares the vocabulary objects.
- C113: old document vectors can never be loaded (`vocab` setter raises); `syn1` is deleted when `trainables` is re-integrated; `vocabulary.ns_exponent` is ignored; integer keys confuse `set_vecattr(old_v.index, …)`.
- C114: `intersect_word2vec_format` always ends in an exception (`self.wv` in its last log statement), leaves stale norms, needs one lock factor per word although the default is one for all, and reads a truncated binary file for ever; `glove2word2vec` on repeated words writes a header with too many vectors.
- C115: `HdpModel.show_topics(num_topics=-1)` is documented to print all topics and prints none.
- C116: `LsiModel(onepass=False)` of a corpus that can be read only once (a generator): the second reading is empty, so the covariance is zero and the model has a single topic of value 0; nothing is reported (`C116_once`). And `docs_processed` is not increased if the corpus has no `__len__` (`C116_docs_processed`).
- C117: `_PhrasesTransformation.load` sets `connector_words` to the empty set for every model without `common_terms`, that is for every model of the current version; and for phrases stored as tuples with plain scores its comprehension uses the first key and score for all, so that one phrase is left. `npmi_scorer` catches ValueError, but zero counts raise ZeroDivisionError.
- C118: `train` calls `np.seterr` and puts the settings back only if nothing raised. `range(0, n, batch_size)` is empty for a negative batch size, so that `train` does nothing and sets `_burn_in_done`. `build_vocab(update=True)` keeps the buffer of negatives.
- C119: `LdaModel.save` over an earlier model of the same name leaves stale files in place: the dictionary (if ignored) or the state (if `None`) of the earlier model is loaded with the new one; a save that raises half way leaves a mixture of both models that loads without an error; `LsiModel.save(ignore=…)` raises `TypeError` after the projection was overwritten.
- C120: `SoftCosineSimilarity` answers the same document differently alone and in a list, answers an empty document by a number and raises for an empty index (`numpy.array()` without argument); `WmdSimilarity` answers a list of one document by a vector, so that iterating yields numbers for the last document if the number of documents leaves remainder 1 when divided by the chunk size; both raise on iterating with chunk size 1.
- C121: `WordEmbeddingSimilarityIndex` with a negative threshold squares negative similarities into large positive ones; `nonzero_limit` of the matrix is applied before the terms outside of the dictionary are dropped.
- C122: `LineSentence` over an open file rewinds the file when an iteration begins, so a second iteration begun during the first makes the first repeat sentences and the second miss some.
- C123: `UciCorpus` reads its vocabulary in binary mode and keeps the words as bytes; `create_dictionary` therefore makes a dictionary in which `doc2bow`, which looks up strings, finds nothing. Ids that share a word (the filler `---` of missing ids) collapse to the last of them.
- C123: `UciCorpus.save_corpus` without `id2word` first scans the corpus for the highest id, which exhausts a generator: nothing is written.
- C123: `TextCorpus.init_dictionary` switches metadata off while it reads and does not switch it on again when the preprocessing raises.
- C124: `AccumulatingWorker.run` swallows every exception and replies with a partial accumulator, in which `_occurrences` of the failed batch are kept and its co-occurrences dropped; with all workers dead the master blocks on the bounded input queue; `WordVectorsAccumulator.accumulate` sets `kwargs['hs'] = kwargs.get('hw', 0)`.
- C125: the heading expression of `segment_wiki.segment` consumes the newlines around a heading and wants two characters: one-letter headings and the second of two adjacent headings stay in the text.
- C126: `max_n` makes the mean rank depend on the order of a Python set; ties between sense pairs are decided by the order of the trie.
- C127: with several workers the learning rate of file-based training does not decay to `min_alpha`; without `total_words` almost nothing is trained; a failing thread hangs `train`; the training loss loses updates of concurrent threads.
- C129: every `build_vocab(update=True)` of a model with a null word appends another null word and redirects the padding to the new, untrained row; the null word also takes part in negative sampling, contrary to the comment at `word2vec.py:734-735`.
- C130: an exception in a worker's `processjob` is swallowed by the one-way call and the job is never reported: `getstate` of both dispatchers waits for ever, and the worker asks for no further jobs in this pass; the LSI dispatcher does not even notice dead workers while it waits.
- C131: `bound` sums a matrix prior over all topics; the argument `gamma` of `bound` leads to a ValueError of the compiled logsumexp; empty chunks divide by zero.
- C132: the gradient of `df_obs` is computed with posterior instead of forward variances; `LdaSeqModel` needs `time_slice` although it defaults to None; `dtm_vis` returns entry numbers as document lengths.
- C133: `decode_htmlentities` drops a leading x of entity names; `flatten` opens bytes; `copytree_hardlink` is not safe with threads; `upload_chunked` destroys the texts of its input.
- C134: `initialize` of dispatchers and workers replaces the lock and resets the counters without acquiring the lock, and jobs of an aborted training are counted for the next one, so `getstate` may return early.
- C135: `_unpack` swaps rows in dictionary order; with packings such as {1: 0, 2: 1, 0: 2} or {2: 0, 0: 1} vectors end in the wrong rows (the function has no caller any more, only tests).
- C136: `LdaModel.show_topics` (fewer than all topics) and inference advance the generator used for training; `LdaMulticore` with a seed depends on the distribution of chunks to workers; `HdpModel.suggested_lda_model` shares the generator; `Word2Vec._load_specials` installs a `Generator`, which has no `randint`; file-based training with `negative=0, sample=0` reads an uninitialised `next_random`.
- C137: `top_topics_as_word_lists` and `_ids_to_words` fill in `id2token` only when it is empty, so after a lookup and a further document with new words valid ids raise `KeyError` (`C137_stale`); `for_topics` takes the longest topic as `topn`, which `compare_model_topics` then refuses for shorter topics (`C137_uneven`).
- C138: `Doc2Vec.save_word2vec_format` with `fvocab` and only integer tags raises `ValueError` after the words have been written, leaving a file that cannot be loaded (`C138_vocab_integers`); the tags `1` and `'1'` are written under the same name and the second is lost on loading (`C138_confused`).
- C139: `remove_markup` leaves page names of links nested four deep, deletes plain lines that begin with words such as "rowspan", leaves the rest of a footnote that contains an empty element, cuts captions at links, and takes a picture in small letters at the end for a language link (`C139_findings`).
- C140: `find_interlinks` does not find `[[a|-b]]` (the `|-` is removed as a row of a table, with the rest of the line) nor `[[a  |b]]` (the bar is replaced by a line break as a cell of a table), although both are links in the text (`C140_findings`).
- C142: `Doc2Vec(dm_mean=0)` behaves as `dm_mean=1`, because the constructor of `Word2Vec` overwrites `cbow_mean`; `build_vocab(update=True)` adds no document vectors although the index is replaced; `reset_from` does not reset vectors; `model[0]` is the vector of a word.
- C143: `resize_shards` stores what retrieval returns, so it breaks a corpus whose retrieval format differs from its serialization (later accesses raise) and always fails with `gensim=True`; the constructor on existing files forgets `sparse_serialization`; single documents of sparse data are nested.
- C144: `prepare_vocab(dry_run=True)` still adds the null word and sorts the vocabulary (word2vec.py:733-739 do not look at `dry_run`), without moving the output rows; `min_count=0` and `sample=0` are ignored (`or`); with `update=True` the report counts only the words of the new corpus; `estimate_memory(report=...)` adds the old total again; `FastText.estimate_memory` ignores `vocab_size`.
- C145: `score` leaves out every inner product of absolute value 6 or more (word2vec_inner.pyx 795-796, 905-906), also when its log probability would be very small, so a very improbable word gets the best score.
- C55: with `PARALLEL_SHARDS` of two or more every query raises `ValueError` (docsim.py 496 passes a float as chunksize).
- C96: `_create_base_dir` races with itself (downloader.py 150-159 reports EEXIST as a file); `_progress` divides by zero for size 0 and draws a bar growing with every byte for an unknown size (119-121).
- C98: `HdpModel(outputdir=…)` always raises `TypeError` (hdpmodel.py 864-865 writes text to a binary file); `save_topics` without output folder writes to `None/` (839-846).
- C146: `PoincareKeyedVectors.distances` and `norm` treat a row number as a vector (poincare.py 1215-1218, 1260-1263), unlike `distance` and their documentation.
- C147: an object held by two attributes is visited twice by `_save_specials`; the second visit finds no big array left and overwrites the bookkeeping with empty lists, so `load` gives an object without its arrays. A cycle of objects makes `save` raise `RecursionError` outside the `try`, so the arrays already put aside are lost from memory.
- C148: the docstring of `MmReader.__iter__` says that the number of vectors is always the number of rows in the header; an entry with a greater document number makes it more. `num_nnz` is not compared with the number of entries, so truncated files go unnoticed.
- C149: a save over an older one that crashes after some of the separate files leaves files that load without complaint as a mixture of the two.
- C150: tokenised texts are taken for a bag-of-words corpus if the first begins with a two-character number, and a tokenised document if its first word is empty.
- C151: a corpus file left by a crash in the SVMlight, Blei, list-of-words or Mallet format, or a dictionary saved as text, reads without complaint although its last document or entry is cut and may have another weight, word or document frequency.
- C152: a fastText file cut inside a word of the vocabulary makes `load` run for ever (it appends empty reads) instead of raising (`C152_hangs`).
- C153: an exception in a training thread (or in a callback, or raised by the corpus) leaves `train` waiting for ever instead of being raised; likewise `LdaMulticore.update` after a worker died.
- C154: `LdaModel(generator)` without `id2word` returns an untrained model (the generator is used up by `dict_from_corpus`); `HdpModel`, `Nmf` and `LdaSeqModel` use `len(id2word)` as the number of terms; `Nmf.update` checks `self.passes` instead of `passes`.
- C155: a corpus that is an iterator loses its first document in `CoherenceModel.__init__` (the object returned by `is_corpus` is not used); an unknown measure raises `KeyError`; texts for `u_mass` with a plain mapping raise `AttributeError`; explicit topics are replaced by those of the model when `topn` grows.
- C156: of a page with several revisions only the text of the first is read.
- C157: the docstring calls `minimum_phi_value` a lower bound on the term probabilities; it is compared with probability times count, so words of weight below it are listed without topics.
- C158: `np.fromiter(..., dtype=np.int)` in author-topic inference drops the fractions of counts, where LDA keeps them.
- C159: `load_from_text` leaves `cfs`, `num_nnz` and `num_pos` empty, so `TfidfModel(dictionary=loaded, smartirs='..u')` computes the pivot 0 and `'..b'` raises `KeyError`.
- C160: a quote at the start of a node that is never closed swallows the rest of a relations file without an error, and `CsvCorpus` raises `TypeError` (or `csv.Error` for an empty file) for every file, since it joins lines of a file opened as binary with `''.join`.
- C20: `unitvec` changes a scipy CSR matrix of floats in place (and no other scipy matrix), and with `norm='unique'` counts explicitly stored zeros.
- C161: `AuthorTopicModel.bound` converts counts to integers, so documents with weights below 1 add nothing to it, while `log_perplexity` divides by their full weight.
- C162: `TfidfModel` with a code ending in `b` fails without a dictionary (AttributeError), silently gets the pivot 0 with an empty one, and raises KeyError on unknown terms.
- C165: `HdpModel.doc_e_step` computes a likelihood in which the part of the topic assignments is not weighted by the counts of the words, unlike the words' own part: for documents with repeated words it is not the variational bound but lies above it (`C165_likelihood`, `C165_overstated`), and the convergence test and its warning look at this number.
- C167: `LdaPost.init_lda_post` does not reset `log_phi`, so the likelihood that the first round of `fit_lda_post` is compared with uses the rows of the previous document (zeros for the first one) and is not a bound (`C167_stale_start`).
- C169: `AuthorTopicModel.update()` without a corpus adds the number of stored documents to `state.numdocs` at every call, so continued training inflates the topics.
- C170: `Nmf._solve_w` compares the first error of a chunk with the error remembered from the chunk before (`C170_step_skipped`), and in `Nmf._solveproj` an error of exactly 0 is taken for no error.
* C172 the score that `find_phrases` of a live model reports for a phrase depends on what was looked up before.
@@DISAGREE@@

## What is modelled and what is not

The generated table below lists, per Lean module, the source lines its
definitions cite. A source line not cited there is not modelled. In particular:

* Floating point rounding, overflow and NaN are not modelled; weights are exact rationals or reals
  (or an arbitrary ordered field). Where bit widths matter (fastText hash, random generator) bit
  vectors or modular arithmetic are used.
* The contents of pickles, numpy/scipy binary formats, compression, the file system (except where a
  property is about files), logging, progress output and Pyro transport are not modelled.
* Regular expressions, unicode tables, tokenizers, user callbacks and trim rules are parameters of
  the model (any function), with the contract stated in the theorem.
* Numerical kernels (SVD, BLAS, optimisers) appear only as parameters. The variational inference of LDA, HDP,
  author-topic and dynamic topic models is modelled over exact reals; digamma and log-gamma are parameters where
  nothing about them is needed, and the true functions elsewhere.
* Numpy sorting is any permutation that sorts (`argsort` with unspecified ties), heap order is any
  order consistent with the comparison, `imap`/thread/process timing is any interleaving.
