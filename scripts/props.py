#!/usr/bin/env python3
"""Source of /verif/properties.jsonl: run to regenerate the file."""
import json, os
P = []
def p(id, title, statement, quantifier, why, *anchors):
    P.append(dict(id=id, title=title, statement=statement, quantifier=quantifier,
                  why_tests_cant=why, anchors=list(anchors)))

D = "gensim/corpora/dictionary.py:"
p("C01", "Dictionary ids stay a dense bijection",
  "After any sequence of Dictionary operations (doc2bow with update, add_documents with its periodic pruning, filter_extremes, filter_n_most_frequent, filter_tokens, compactify, merge_with) starting from an empty Dictionary, distinct tokens have distinct ids and the ids in use are exactly 0..len(dictionary)-1.",
  "every finite history of operations, every document contents, every threshold, every prune_at",
  "histories are unbounded; tests only try a handful of short ones and never interleave pruning, filtering and merging arbitrarily",
  D+"Dictionary.doc2bow", D+"Dictionary.filter_tokens", D+"Dictionary.compactify", D+"Dictionary.merge_with", D+"Dictionary.add_documents")
p("C02", "doc2bow output is the exact bag of words",
  "doc2bow(doc) returns a list strictly increasing in token id with one entry per distinct known token of doc; the count is the number of times the token occurs in doc. With return_missing, the missing dictionary is exactly the unknown tokens with their counts. With allow_update every token is known afterwards.",
  "every dictionary reachable by any history, every document",
  "universally quantified over documents and dictionary states",
  D+"Dictionary.doc2bow")
p("C03", "Dictionary statistics are exact counts of the corpus",
  "After feeding any list of documents (no filtering, no pruning triggered) into a Dictionary, dfs[id] is the number of fed documents containing the token, cfs[id] the total number of its occurrences, num_docs the number of documents, num_pos the total number of tokens, num_nnz the sum over documents of distinct tokens; the order in which documents are fed does not change a token's df and cf.",
  "every list of documents",
  "an inductive statement over all corpora",
  D+"Dictionary.doc2bow", D+"Dictionary.add_documents")
p("C04", "Read-only dictionary calls do not change the dictionary",
  "doc2bow without allow_update and doc2idx leave token2id, dfs, cfs and all counters unchanged; doc2idx returns, position by position, the token's id or unknown_word_index.",
  "every dictionary state, every document",
  "frame condition over all states",
  D+"Dictionary.doc2bow", D+"Dictionary.doc2idx")
p("C05", "filter_extremes keeps exactly the tokens its documentation promises",
  "After filter_extremes(no_below, no_above, keep_n, keep_tokens) a token survives iff its document frequency is in range (or it is in keep_tokens) and it is among the keep_n most frequent of those; survivors keep their df and cf and their relative id order. The documented guarantee that keep_tokens always survive is false when keep_n cuts them off.",
  "every reachable dictionary, every threshold combination",
  "all thresholds times all frequency tables",
  D+"Dictionary.filter_extremes", D+"Dictionary.filter_tokens", D+"Dictionary.compactify")
p("C06", "Reverse lookup agrees with token2id",
  "For every token w in the dictionary, dictionary[dictionary.token2id[w]] == w and looking up an id not in use raises KeyError, at any point of any history in which lookups, updates, filters and merges are interleaved, although the reverse map is built lazily and only rebuilt when its size differs.",
  "every interleaving of lookups with updates/filters/merges",
  "a stale cache shows up only for particular interleavings",
  D+"Dictionary.__getitem__", D+"Dictionary.compactify")
p("C07", "Dictionary text format round-trips",
  "load_from_text(save_as_text(d)) restores num_docs, token2id and dfs for every dictionary whose tokens contain no tab or newline, for both sort orders; tokens with a tab or newline are where it breaks.",
  "every dictionary",
  "all token strings",
  D+"Dictionary.save_as_text", D+"Dictionary.load_from_text")
p("C08", "merge_with yields a faithful translation of the other dictionary's vectors",
  "After d1.merge_with(d2) the returned transformation maps every bag-of-words vector produced by d2 to the vector d1 (after merging) produces for the same document; ids already used by d1 are unchanged; document frequencies and num_docs, num_pos, num_nnz add up. Collection frequencies (cfs) are not merged.",
  "every pair of dictionaries, every document",
  "quantifies over pairs of histories",
  D+"Dictionary.merge_with", "gensim/models/__init__.py:VocabTransform.__getitem__")
p("C09", "Dictionary pruning keeps the size bounded and counts correct for survivors",
  "add_documents(docs, prune_at=k): whenever the periodic check fires the dictionary has at most k tokens afterwards, and every df/cf reported never exceeds the true value over the documents seen so far.",
  "every stream of documents and every prune_at",
  "needs corpora of more than 10000 documents and all frequency ties",
  D+"Dictionary.add_documents", D+"Dictionary.filter_extremes")
p("C10", "HashDictionary vectors are history independent and lose no tokens",
  "HashDictionary.doc2bow(doc) is the same whatever documents were seen before, ids are in [0, id_range), strictly increasing, and counts sum to len(doc); the weight at id i is the number of tokens of doc hashing to i. dfs[id] counts the documents having a token with that id. In debug mode save_as_text writes every id with remembered words once, in increasing order and with its document frequency, and every such word exactly once, in the line of its id, with its own frequency, most frequent first; without debug the file is empty.",
  "every hash function, every id_range>0, every document and history",
  "all hash collisions patterns",
  "gensim/corpora/hashdictionary.py:HashDictionary.doc2bow", "gensim/corpora/hashdictionary.py:HashDictionary.restricted_hash", "gensim/corpora/hashdictionary.py:HashDictionary.save_as_text")
H = "gensim/models/phrases.py:"
p("C11", "Phrase detection only joins, never drops, reorders or invents tokens",
  "For every sentence of non-empty tokens and every scoring function/threshold, splitting the emitted tokens of phrases[sentence] back gives the original sentence: the output is the input with some runs 'a (connectors) b' joined by the delimiter. A run is joined only if it starts and ends with a non-connector word and only connectors are between.",
  "every sentence, every connector set, every scorer",
  "the scan is a state machine over arbitrary sentences",
  H+"_PhrasesTransformation.analyze_sentence", H+"_PhrasesTransformation.__getitem__")
p("C12", "Phrase counts are exact and independent of batching",
  "Without pruning, after add_vocab over any split of the corpus into batches, vocab[w] is the number of occurrences of w and vocab[a+delim+connectors+delim+b] the number of scanned occurrences of that bigram, and corpus_word_count the number of tokens; any two ways to batch the same sentences give the same counts.",
  "every corpus and every batching",
  "quantifies over all splits",
  H+"Phrases._learn_vocab", H+"Phrases.add_vocab")
p("C13", "A frozen phrase model makes the same decisions as the live one",
  "For tokens that are non-empty and do not contain the delimiter: freezing a Phrases model succeeds, and on every candidate the frozen model decides and scores as the live model at that moment; on sentences whose words and candidates are in the vocabulary, and for scorings that ignore the vocabulary size on all sentences and after any use of the live model, both give the same output. With the default scoring the live model's output depends on what it was applied to before (lookups insert keys), so the two can differ; with tokens containing the delimiter freezing can raise.",
  "every corpus, every sentence",
  "all sentences",
  H+"FrozenPhrases.__init__", H+"FrozenPhrases.score_candidate", H+"Phrases.export_phrases", H+"Phrases.score_candidate")
U = "gensim/utils.py:"
p("C14", "Vocabulary pruning is sound",
  "prune_vocab(min_reduce) removes exactly the words with count < min_reduce (or as trim_rule says) and keeps the other counts; trimming by frequency keeps the most frequent words; while counting a corpus with pruning a reported count never exceeds the true count, with no pruning it is exact, and after K pruning passes at most K(K-1)/2 occurrences of any word are missing from its count.",
  "every word stream, every max_vocab_size, every prune schedule",
  "all streams",
  U+"prune_vocab", U+"keep_vocab_item", H+"Phrases._learn_vocab", "gensim/models/word2vec.py:Word2Vec._scan_vocab")
p("C15", "Chunking a stream loses nothing",
  "chunkize_serial/grouper: the chunks concatenated in order are the input, every chunk but the last has exactly chunksize items, no chunk is empty; a transformed corpus read in chunks gives the same documents as read one document at a time.",
  "every stream and every chunksize >= 1",
  "all lengths",
  U+"chunkize_serial", "gensim/interfaces.py:TransformedCorpus.__iter__")
p("C16", "Background chunking equals serial chunking for every schedule",
  "chunkize(corpus, chunksize, maxsize>0) yields the same chunks as the serial version under every interleaving of the producer process and the consumer; as long as the corpus iterator does not raise it never blocks forever, and the queue never exceeds its limit. If the iterator raises in the producer process, the consumer waits forever.",
  "every interleaving of producer and consumer",
  "schedules cannot be enumerated by tests",
  U+"InputQueue.run", U+"chunkize")
p("C17", "Corpus views have the advertised length and contents",
  "ClippedCorpus yields the first min(max_docs, n) documents and len() says so; SlicedCorpus yields the documents Python slicing would yield; RepeatCorpus yields exactly `reps` documents cycling through the corpus; RepeatCorpusNTimes yields the corpus n times. len(SlicedCorpus) equals the number of documents yielded — false for some negative steps and empty slices.",
  "every corpus, slice and repetition count",
  "all slices",
  U+"ClippedCorpus", U+"SlicedCorpus", U+"RepeatCorpus", U+"RepeatCorpusNTimes")
p("C18", "save() gives the in-memory object back; load() restores every attribute",
  "SaveLoad.save moves big arrays and ignored attributes away while it works. After a successful call, and after a call interrupted by an exception while the object itself is written, the object has all its attributes with their values, at every level of nested SaveLoad objects; an object without nested SaveLoad objects has them back whatever write raises. With nested objects this fails: an exception while a nested object's arrays are written loses the outer object's arrays, and one while the outer object's arrays are written loses the nested object's. load after save gives an object with every attribute and its value at every level, except that ignored attributes (at any depth), and attributes named in separately that are not arrays, are None. Saving succeeds exactly when each of its writes does, and makes the same number of them whatever was stored before; loading fails, rather than giving an incomplete object, when a file of an array, of a sparse matrix or of a nested object is missing.",
  "every tree of objects of any depth, every separately/ignore set, every failure point",
  "all crash points",
  U+"SaveLoad._smart_save", U+"SaveLoad._save_specials", U+"SaveLoad._load_specials")
M = "gensim/matutils.py:"
p("C19", "Sparse/dense conversions are inverse",
  "sparse2full(full2sparse(v), len(v)) equals v up to entries of magnitude below eps set to zero; full2sparse output has strictly increasing ids; corpus2csc with and without the known-size shortcut yields the same matrix; full2sparse_clipped returns the topn entries of largest magnitude.",
  "every vector, every eps, every topn",
  "all vectors",
  M+"full2sparse", M+"sparse2full", M+"corpus2csc", M+"full2sparse_clipped")
p("C20", "unitvec normalises",
  "unitvec with the l1 or l2 norm, on a sparse or dense vector with a non-zero entry, returns the vector divided by one positive number (same ids, same order), with norm 1; applying it twice equals applying it once; a zero dense vector and an empty sparse vector are returned unchanged, a non-empty sparse vector of zeros raises. The norm 'unique' divides by the number of entries each time, so it is not idempotent. The three formats (gensim, dense, scipy) of a vector without explicitly stored zeros give the same vector and the same returned length, 1 for a zero vector. (Findings, proved as such: a scipy CSR matrix of floats is changed in place, every other scipy matrix is left as it was; with 'unique' a scipy matrix counts stored zeros, a dense vector does not.)",
  "every sparse or dense vector over the reals",
  "real-valued identity",
  M+"unitvec")
p("C21", "Similarity and distance measures are symmetric and bounded",
  "cossim is symmetric, within [-1,1] and 1 on a vector with itself; hellinger is symmetric, 0 on equal input and at most 1 on probability vectors; jaccard_distance on sets is symmetric, within [0,1], 0 iff equal non-empty sets. jaccard on bag-of-words inputs is not 0 on equal arguments.",
  "every pair of vectors",
  "real inequality over all inputs",
  M+"cossim", M+"hellinger", M+"jaccard", M+"jaccard_distance")
p("C22", "Matrix Market corpora round-trip with random access",
  "Writing any corpus with MmWriter.write_corpus and reading it with MmReader/MmCorpus yields the same documents (entries sorted by id, zero weights dropped, empty documents kept), the header states the true numbers of docs, terms and non-zeros, and the stored offset of document i gives docbyoffset = i-th document.",
  "every corpus",
  "all corpora, incl. empty documents anywhere",
  M+"MmWriter.write_corpus", M+"MmWriter.write_vector", M+"MmWriter.fake_headers", "gensim/corpora/_mmreader.pyx:MmReader.__iter__", "gensim/corpora/_mmreader.pyx:MmReader.docbyoffset")
p("C23", "SVMlight corpora round-trip",
  "SvmLightCorpus.line2doc(doc2line(doc, label)) returns the document and the label for every document (also with a trailing comment); a saved corpus comes back by iteration, with its labels, and by offset. A line is refused exactly if a field after its label is neither a query id nor a number and a value around its last colon. As the code is, a file whose last line has no newline loses the last character of that line, and len() after a full iteration counts comment lines.",
  "every document and every label without whitespace or '#'", "all documents and files",
  "gensim/corpora/svmlightcorpus.py:SvmLightCorpus.line2doc", "gensim/corpora/svmlightcorpus.py:SvmLightCorpus.doc2line", "gensim/corpora/svmlightcorpus.py:SvmLightCorpus.save_corpus", "gensim/corpora/svmlightcorpus.py:SvmLightCorpus.docbyoffset")
p("C24", "Blei LDA-C corpora round-trip",
  "A corpus saved by BleiCorpus.save_corpus comes back by iteration and by offset when it has no near-zero entries and its weights are printed exactly by %g; the vocabulary file gives every word back at its id. As the code is, a document with a near-zero entry is written as a line that cannot be read at all.",
  "every corpus and mapping", "all documents",
  "gensim/corpora/bleicorpus.py:BleiCorpus.save_corpus", "gensim/corpora/bleicorpus.py:BleiCorpus.line2doc", "gensim/corpora/bleicorpus.py:BleiCorpus.docbyoffset")
p("C25", "List-of-words, UCI and Mallet corpora round-trip",
  "For each format, saving a bag-of-words corpus with integer counts and a word mapping and reading it back with the same mapping yields the same documents, by iteration and by offset; list-of-words documents with repeated ids come back merged with the counts added; saving fails only when an id has no word. UCI needs header numbers of at most 20 digits.",
  "every corpus over a vocabulary of distinct words without whitespace", "all corpora",
  "gensim/corpora/lowcorpus.py:LowCorpus.line2doc", "gensim/corpora/lowcorpus.py:LowCorpus.save_corpus", "gensim/corpora/ucicorpus.py:UciWriter.write_corpus", "gensim/corpora/malletcorpus.py:MalletCorpus.line2doc", "gensim/corpora/malletcorpus.py:MalletCorpus.save_corpus")
p("C26", "ShardedCorpus random access equals the original rows",
  "After building a ShardedCorpus that retrieves rows in the form they are serialized in (other formats: C143), any history of index accesses, index lists, whole iterations, slices, resize_shards, reset, save and reopening answers every request with the original rows: index i gives row i, a slice a:b (0<=a<=b<=n, a<n) gives rows a..b, an offset out of range raises. Reopening must use metadata that fit the files: opening with a different shardsize argument, or reopening after resize_shards without save(), can silently return a wrong row.",
  "every dataset, shard size, dense or sparse serialization, operation history", "cache-state dependent",
  "gensim/corpora/sharded_corpus.py:ShardedCorpus.__getitem__", "gensim/corpora/sharded_corpus.py:ShardedCorpus.get_by_offset", "gensim/corpora/sharded_corpus.py:ShardedCorpus.init_shards", "gensim/corpora/sharded_corpus.py:ShardedCorpus.init_by_clone", "gensim/corpora/sharded_corpus.py:ShardedCorpus.resize_shards")
W = "gensim/models/word2vec.py:"
p("C27", "Word2Vec vocabulary is exactly what min_count and max_final_vocab allow",
  "After build_vocab: the retained words are exactly those with raw count >= the effective minimum count; index_to_key/key_to_index are inverse; with sorted_vocab words are in non-increasing frequency order; at most max_final_vocab words are retained and the threshold chosen is the smallest such; the recorded counts are the raw counts. After any history of fresh and update=True builds the bijection still holds, and an update adds the new raw counts of known words and adds exactly the retained new words. (Every fresh build must retain at least one word.)",
  "every corpus, min_count, max_final_vocab, history of builds", "all frequency ties",
  W+"Word2Vec.prepare_vocab", W+"Word2Vec._scan_vocab", "gensim/models/keyedvectors.py:KeyedVectors.sort_by_descending_frequency")
p("C28", "Training job batching loses no sentence",
  "The jobs produced by _job_producer, concatenated in order, are exactly the input sentences in order; a job exceeds batch_words only if it is a single sentence; batching is greedy (a job could not have taken the first sentence of the next); only the first job can be empty, which happens when the first sentence alone exceeds batch_words.",
  "every sentence stream, every batch size", "all length sequences",
  W+"Word2Vec._job_producer")
p("C29", "Multi-threaded training processes every job exactly once and terminates",
  "Under every interleaving of job producer, workers and the progress consumer with bounded queues: every job is trained on exactly once, the reported totals are the sums over all jobs, no thread blocks forever, and the epoch ends after finitely many steps; with one worker the jobs are trained in corpus order.",
  "every schedule, any number of workers and jobs, any queue size >= 1", "all schedules",
  W+"Word2Vec._worker_loop", W+"Word2Vec._job_producer", W+"Word2Vec._log_epoch_progress", W+"Word2Vec._train_epoch")
p("C30", "Hierarchical softmax codes form a complete prefix code",
  "For every non-empty vocabulary the binary codes assigned are pairwise prefix-free and complete (Kraft sum is one for two or more words), code and point lists have the same length, points are valid inner-node indices below vocab_size-1 starting with the root, and each point stands for one code prefix, whatever way ties in the heap are broken. The code is optimal: no prefix-free code has a smaller total length over the corpus, and a more frequent word never has a longer code.",
  "every frequency table, every tie-breaking", "all tables and tie-breaks",
  W+"_build_heap", W+"_assign_binary_codes")
p("C31", "Negative sampling always draws a valid word, in proportion to the table",
  "For every non-decreasing cumulative table and every random value below its last entry, the binary search returns a valid word index, namely the first whose cumulative value is at least the drawn number; a word is returned for as many numbers as its table increment, except that the first word has one more and the last one less, so a last word with increment one is never drawn (witness). make_cum_table produces a non-decreasing table ending in the domain bound, each word being drawn for a number of values within two of its exact share; the linear congruential generator reaches every such value from every state; the negatives used for a word are valid, differ from the word and number at most `negative`.",
  "every frequency table, every random state", "all random states",
  W+"Word2Vec.make_cum_table", "gensim/models/word2vec_inner.pyx:bisect_left", "gensim/models/word2vec_inner.pyx:random_int32")
p("C32", "Learning rate schedule stays within bounds and never increases",
  "The learning rate used for each job is within [min_alpha, start_alpha] and non-increasing within an epoch, for min_alpha <= start_alpha and any announced totals; over all epochs it is non-increasing if no epoch has more data than announced (otherwise it can rise again at an epoch boundary: witness). infer_vector's rate starts at alpha, never increases, never falls below min_alpha and ends at min_alpha if there are two epochs or more.",
  "every number of epochs/jobs/examples", "all parameters",
  W+"Word2Vec._get_next_alpha", W+"Word2Vec._job_producer", "gensim/models/doc2vec.py:Doc2Vec.infer_vector")
p("C33", "Streaming sentence readers are independent of the read block size",
  "Text8Corpus yields the tokens of the file in order, in groups of max_sentence_length, independently of where block reads split the data (space-separated text); LineSentence yields each line's tokens split in pieces of at most max_sentence_length.",
  "every file, every read size", "block boundaries",
  W+"Text8Corpus.__iter__", W+"LineSentence.__iter__")
p("C34", "corpus_file batches keep all data",
  "The batches next_batch returns, followed by what is still buffered and unread, are the (chunked) sentences of the file in order; the training loop stops at end of file or when the thread has its share of words; if no line exceeds the batch limit and the share covers the file, every word is trained on exactly once by a single thread. Otherwise (witnesses): the loop stops at end of file with data still buffered; a batch may exceed the word limit so that its last words are not trained on, and may hold one non-empty sentence more than the sentence index array has room for; with several threads of Word2Vec the threads start inside words, overlap and leave gaps.",
  "every file", "all line length sequences",
  "gensim/models/word2vec_corpusfile.pyx:CythonLineSentence.next_batch", "gensim/models/word2vec_corpusfile.pyx:prepare_c_structures_for_batch", "gensim/models/word2vec_corpusfile.pyx:train_epoch_sg")
p("C35", "Training windows never cross sentence boundaries and never pair a word with itself",
  "For every batch and all random window reductions, a (centre, context) pair is trained on exactly if both words lie in the same sentence, differ in position and are at most the reduced window apart, each pair once; neighbours in a sentence are always paired and words further apart than `window` never. Out-of-vocabulary and down-sampled words are removed before windows are formed, at most MAX_SENTENCE_LEN words of a batch are used, and for batches of at most that many words no buffer overflows.",
  "every batch, all random draws", "all random draws",
  "gensim/models/word2vec_inner.pyx:train_batch_sg", "gensim/models/word2vec_corpusfile.pyx:prepare_c_structures_for_batch")
p("C36", "Doc2Vec file offsets are line starts with the right document numbers",
  "For a corpus file and number of workers, each returned offset is the start of a line and the matching start doctag is that line's number, offsets are non-decreasing and start with 0.",
  "every file, every worker count", "all line length sequences",
  "gensim/models/doc2vec.py:Doc2Vec._get_offsets_and_start_doctags_for_corpusfile")
p("C37", "Doc2Vec tag indexing is consistent",
  "After scanning any corpus of tagged documents into a fresh model, every string tag and every non-negative integer tag resolves to an in-range row, different tags of the corpus have different rows, no other string has a row, negative integer tags have none, and tag counts equal occurrences (a tag twice in one document counts twice). Rebuilding the vocabulary on the same model leaves stale tags.",
  "every corpus of tagged documents", "all tag mixes",
  "gensim/models/doc2vec.py:Doc2Vec._scan_vocab")
K = "gensim/models/keyedvectors.py:"
p("C38", "KeyedVectors returns what was stored",
  "After any history of add_vector/add_vectors/`kv[k]=v` (also into preallocated slots) with non-integer keys and distinct new keys per batch, kv[k] and `k in kv` are what a dictionary with the same history says (the last vector stored for k, or when not replacing the first), index_to_key and key_to_index are inverse to each other, and without preallocated slots index_to_key lists the keys in order of insertion. A batch with a repeated new key breaks the bijection; an integer key below len(kv) is taken for a row number; cached norms are not dropped when vectors change; add_vector of a present key returns an index that is no row.",
  "every history", "all histories",
  K+"KeyedVectors.add_vectors", K+"KeyedVectors.add_vector", K+"KeyedVectors.get_vector", K+"KeyedVectors.__setitem__")
p("C39", "most_similar excludes its inputs, is sorted and complete",
  "most_similar returns at most topn keys, none of which is an input key, in non-increasing similarity, and every key not returned (and not an input) has similarity no greater than the last returned one; if the vocabulary has at least topn non-input keys in range exactly topn are returned.",
  "every vocabulary, similarity table, topn, positive/negative lists", "all score patterns",
  K+"KeyedVectors.most_similar", M+"argsort")
p("C40", "word2vec text and binary formats round-trip for every read chunk size",
  "save_word2vec_format then load_word2vec_format restores the same keys in frequency order with the same vectors (text: keys without space and newline; binary: without space and leading newline); the binary reader gives the same result whatever size of chunks the file is read in, if the file has no more records than are to be read or their words are distinct; repeated words leave trailing empty slots; too few records are an error. With a limit and repeated words the chunk size matters. Integer document tags are written twice when there is no count attribute.",
  "every key set without whitespace, every chunk size", "block boundaries",
  K+"_word2vec_read_binary", K+"_add_bytes_to_kv", K+"_word2vec_read_text", K+"KeyedVectors.save_word2vec_format", K+"_load_word2vec_format")
p("C41", "rank and closer_than agree",
  "rank(a,b) = number of keys strictly closer to a than b, plus one; closer_than never contains a or b.",
  "every vocabulary and distances", "all distance tables",
  K+"KeyedVectors.rank", K+"KeyedVectors.closer_than")
p("C63", "Sorting by frequency and per-key attributes keep keys, vectors and attributes together",
  "sort_by_descending_frequency leaves every key with its vector and its count, whatever order numpy gives to ties, and puts the rows in non-increasing order of count; set_vecattr changes the attribute of that key only (an array that is too short is extended with zeros); adding vectors leaves the attributes of present keys as they are. Cached norms are not renumbered with the rows.",
  "every store, counts and order of ties", "all permutations",
  K+"KeyedVectors.sort_by_descending_frequency", K+"KeyedVectors.set_vecattr", K+"KeyedVectors.get_vecattr", K+"KeyedVectors.allocate_vecattrs")
F = "gensim/models/fasttext_inner.pyx:"
p("C42", "fastText n-grams are exactly the substrings of the bracketed word",
  "compute_ngrams yields exactly the substrings of '<word>' with length in [min_n, max_n]; compute_ngrams_bytes yields the UTF-8 encodings of exactly those except single boundary characters, never splitting a multi-byte character.",
  "every word, every min_n <= max_n", "all unicode words",
  F+"compute_ngrams", F+"compute_ngrams_bytes")
p("C43", "fastText bucket indices are always valid and hash-compatible",
  "ft_hash_bytes is the 32-bit FNV-1a hash with sign-extended bytes; for pure ASCII it equals standard FNV-1a, for other bytes it may not; every n-gram bucket index is in [0, bucket).",
  "every byte string, every bucket > 0", "all byte strings",
  F+"ft_hash_bytes", "gensim/models/fasttext.py:ft_ngram_hashes")
p("C44", "Facebook fastText binary format round-trips",
  "Loading what _fasttext_bin.save writes restores hyper-parameters, vocabulary with counts, input and output matrices exactly, for words free of NUL bytes; load_facebook_model of that file is the saved model itself (same words in the same order, counts, vectors, output layer, parameters) when exactly one loss is used and every count is positive. With both losses the hierarchical-softmax layer comes back as the negative-sampling layer; a stored count below 1 makes loading fail. Matrices of compressed files, read in batches, are the same for every batch size and number of values; too few values are an error.",
  "every model within field ranges", "all byte contents",
  "gensim/models/_fasttext_bin.py:load", "gensim/models/_fasttext_bin.py:save", "gensim/models/_fasttext_bin.py:_load_vocab", "gensim/models/_fasttext_bin.py:_dict_save")
FV = "gensim/models/fasttext.py:FastTextKeyedVectors."
p("C64", "fastText word vectors are averages of the stored rows, before and after saving",
  "After building, training, saving and loading in any order, the vector of a vocabulary word is the average of its own row and the rows of its n-grams, the vector of an unknown word is the average of its n-gram rows (the origin if it has none), and saving and loading changes no vector. A vector assigned with kv[word] = v is lost by saving, a model extended with add_vector cannot be loaded again, and with bucket=0 unknown words raise KeyError although 'word in kv' is True.",
  "every history of build/train/save/load, every word", "all histories and words",
  FV+"get_vector", FV+"adjust_vectors", FV+"recalc_char_ngram_buckets", FV+"_load_specials", FV+"_save_specials")
L = "gensim/models/ldamodel.py:"
p("C45", "LDA statistics merging is order independent and blending is a weighted average",
  "Merging worker states in any order gives the same statistics and document count; blend with weight rho yields (1-rho)*old + rho*new rescaled to the target document count, keeps statistics non-negative, and rho=1 forgets the old statistics.",
  "every states, any merge order", "all permutations",
  L+"LdaState.merge", L+"LdaState.blend")
p("C46", "LDA training uses every chunk exactly once per pass",
  "In serial LdaModel.update every document chunk of each pass is included in exactly one M-step of that pass and none is left pending at the end.",
  "every corpus size, chunksize, update_every, passes", "all parameter combinations",
  L+"LdaModel.update", L+"LdaModel.do_mstep")
p("C47", "LdaMulticore uses every chunk exactly once under every schedule",
  "In batch mode every chunk's statistics enter exactly one M-step whatever the workers' timing; in online mode a schedule exists in which the last chunk's statistics are silently discarded.",
  "every schedule", "timing dependent",
  "gensim/models/ldamulticore.py:LdaMulticore.update", "gensim/models/ldamulticore.py:worker_e_step")
p("C48", "Distributed LDA/LSI: getstate reflects every submitted job exactly once",
  "When the dispatcher returns the merged state, each job put since the last reset has been processed by exactly one worker and contributes exactly once, whatever the timing of workers.",
  "every schedule of workers, jobs and callbacks", "all schedules",
  "gensim/models/lda_dispatcher.py:Dispatcher", "gensim/models/lda_worker.py:Worker", "gensim/models/lsi_dispatcher.py:Dispatcher", "gensim/models/lsi_worker.py:Worker")
p("C65", "Distributed LSI keeps only the documents of the last add_documents call",
  "With a distributed one-pass LsiModel, after any sequence of add_documents calls and under every schedule the projection is computed from exactly the chunks of the last call: earlier documents are forgotten, whereas the serial model merges the chunks of all calls.",
  "every number of workers, sequence of calls, chunking and schedule", "needs a cluster; every schedule",
  "gensim/models/lsimodel.py:LsiModel.add_documents", "gensim/models/lsi_dispatcher.py:Dispatcher", "gensim/models/lsi_worker.py:Worker")
p("C49", "TF-IDF transformation",
  "TfidfModel built from a corpus counts document frequencies exactly (documents without repeated ids), and equals the one built from the Dictionary of that corpus: same statistics, same transformed vectors. The transform keeps ids and their order and drops unknown terms and terms occurring in every document; with normalisation it returns an empty vector or a unit vector without its negligible entries; a pivot equal to the norm changes nothing. The pivot of code u is the mean number of different terms of a document, that of code b the mean number of characters; the weights of the SMART codes are the logarithms and ratios they are documented to be. resolve_weights accepts exactly the documented codes and returns a canonical code. (Some documented combinations always raise: an empty document with augmented frequencies, byte-size normalisation without a dictionary, a pivot with normalize=False.)",
  "every corpus, weighting function, SMART code and vector", "all inputs",
  "gensim/models/tfidfmodel.py:TfidfModel.initialize", "gensim/models/tfidfmodel.py:TfidfModel.__getitem__", "gensim/models/tfidfmodel.py:resolve_weights")
p("C66", "Log-entropy weights lie in (0, 1]",
  "LogEntropyModel trained on any non-empty corpus (no repeated ids, positive frequencies) that can be iterated twice has a weight exactly for the ids of the corpus, equal to one minus the normalised entropy of the term over the documents and always in (0, 1]; transformed vectors keep order, drop unknown ids, never raise for positive frequencies and are unit vectors when normalising. One-shot iterables are rejected, except one with a single document, which silently yields a model without weights; the empty corpus is rejected too.",
  "every corpus and vector", "needs the entropy bound for all distributions",
  "gensim/models/logentropy_model.py:LogEntropyModel.initialize", "gensim/models/logentropy_model.py:LogEntropyModel.__getitem__")
T = "gensim/topic_coherence/"
p("C50", "Coherence segmentations enumerate the right pairs",
  "s_one_pre yields each pair (later word, earlier word) exactly once, s_one_one each ordered pair of different positions exactly once, s_one_set each word with the full topic.",
  "every topic list", "all lengths",
  T+"segmentation.py:s_one_pre", T+"segmentation.py:s_one_one", T+"segmentation.py:s_one_set")
p("C51", "Boolean document co-occurrence counts are exact",
  "CorpusAccumulator: occurrences(w) is the number of documents containing w; co-occurrences(a,b) the number containing both, symmetric and at most either occurrence count.",
  "every corpus and relevant id set", "all corpora",
  T+"text_analysis.py:CorpusAccumulator", T+"text_analysis.py:InvertedIndexBased")
p("C52", "Sliding window counts",
  "For one accumulate call on a fresh WordOccurrenceAccumulator: the counts are symmetric and never exceed the true numbers of sliding windows containing the word (both words); the occurrence count of a word is exact if and only if, whenever the word leaves a window in which it occurs again, it is also the word entering the next window (in particular for texts without repeated words), and pairs of such words are counted exactly. In general counts are too low, because the token leaving the window is marked absent even if it occurs again inside the window. num_docs counts only windows of texts with a relevant word. A second accumulate call counts the co-occurrences of the first twice.",
  "every text, window size", "all texts",
  T+"text_analysis.py:WordOccurrenceAccumulator._slide_window", T+"text_analysis.py:WordOccurrenceAccumulator.analyze_text", U+"iter_windows")
p("C53", "Parallel accumulation equals serial accumulation",
  "ParallelWordOccurrenceAccumulator returns the same occurrence and co-occurrence counts as the serial accumulator for every batch size, number of processes, and assignment/timing of batches.",
  "every schedule", "all schedules",
  T+"text_analysis.py:ParallelWordOccurrenceAccumulator", T+"text_analysis.py:AccumulatingWorker", T+"text_analysis.py:WordOccurrenceAccumulator.merge")
S = "gensim/similarities/"
p("C54", "Sharded Similarity index holds every document at its insertion position",
  "After any history of add_documents, queries and reads of a Similarity index whose documents have no vanishing weights, len(index) is the number of documents added, vector_by_id(i) is the i-th added (normalised) document (an error for every other i), all shards but the last are exactly shardsize long and adding never fails with 'cannot reopen a shard'; saving and loading gives an index with the same documents. (A zero weight in a document of a sparse shard makes every later read raise AssertionError; documents added after save() change the shard files, and the index loaded from that save disagrees with its own length.)",
  "every history, every shardsize >= 1", "all histories",
  S+"docsim.py:Similarity.add_documents", S+"docsim.py:Similarity.close_shard", S+"docsim.py:Similarity.reopen_shard", S+"docsim.py:Similarity.vector_by_id", S+"docsim.py:Similarity.save")
p("C55", "Sharded top-k equals global top-k",
  "A num_best query against a sharded index returns the num_best documents of largest absolute similarity over the whole index (those above the threshold), at their global positions and in order of magnitude, for every way documents are split into shards and every tie-breaking inside a shard; the magnitudes returned do not depend on the sharding; a query with a list of documents answers each as if asked alone; without num_best all similarities come in document order. (An empty index raises without num_best and returns [] for a list of queries; a generator of query documents with num_best loses its first document on one shard, and gets [] on several; with PARALLEL_SHARDS set to two or more processes every query of a non-empty index raises ValueError, because the piece size handed to imap is a float.)",
  "every sharding, every tie-break, every number of query documents", "all splits",
  S+"docsim.py:Similarity.__getitem__", S+"docsim.py:_nlargest", M+"full2sparse_clipped", U+"is_corpus")
p("C56", "Term similarity matrix constraints hold",
  "SparseTermSimilarityMatrix built from any similarity index that never returns the query term, over a dictionary with ids 0..n-1 (and a TF-IDF model knowing these ids, if given), is built without error; its diagonal is all ones; with symmetric=True it is symmetric and every value comes from the index; every column has at most nonzero_limit non-zero off-diagonal values; with dominant=True it is strictly diagonally dominant; without constraints each column is exactly the index's answer. An empty dictionary, or a TF-IDF model that does not know the last id or knows a later one, is refused. The counters of the columns, kept in the shortest unsigned type that holds nonzero_limit, never overflow. (An index returning the query term itself doubles the diagonal or trips an assertion; a TF-IDF model missing ids leaves zeros on the diagonal; dtype=float16 always fails.)",
  "every index, dictionary, limits, column order", "all indices",
  S+"termsim.py:_create_source")
p("C57", "Porter stemmer is total",
  "stem(w) terminates without an index error for every string, never lengthens the (lower-cased) word, never returns an empty string for a non-empty word and keeps its first letter. The index arithmetic on the shared buffer computes the published rewriting rules (suffix, condition on the measure of what precedes it, replacement) on the word, so the stem of a word does not depend on which words the same stemmer object stemmed before.",
  "every string", "all strings",
  "gensim/parsing/porter.py:PorterStemmer.stem")
p("C58", "Chunked corpus transformation equals document-wise transformation",
  "Iterating a TransformedCorpus with chunksize set yields the same documents in the same order as without, for every model whose chunk transform is document-wise.",
  "every corpus, chunksize", "all lengths",
  "gensim/interfaces.py:TransformedCorpus.__iter__")
p("C59", "Wiki template removal deletes exactly the balanced templates",
  "remove_template leaves text without braces unchanged, and deletes precisely top-level {{...}} spans of well nested text, keeping everything outside in order; with an unterminated '{{' everything from it to the end is dropped. The result never contains '{{', and removing templates again changes nothing.",
  "every text", "arbitrary nesting",
  "gensim/corpora/wikicorpus.py:remove_template")
p("C60", "sample_texts returns exactly n documents in order",
  "TextCorpus.sample_texts(n) yields exactly n of the corpus documents, in corpus order without repetition, for every outcome of the random generator, if the length given/known is right. Every choice of n documents has the same probability. n < 0 or n > length raises before anything is yielded; a length larger than the real one gives fewer documents for some outcomes and then an error, never a silent shortfall. (With metadata=True the code preprocesses the first character of the sampled line instead of the line.)",
  "every random outcome", "all random outcomes",
  "gensim/corpora/textcorpus.py:TextCorpus.sample_texts")
p("C67", "Windowed inverted index",
  "InvertedIndexAccumulator.accumulate raises exactly when some text contains both a relevant and an irrelevant word (the guard against irrelevant tokens compares object identities and never skips anything); when it does not raise its counts are exactly the numbers of sliding windows containing the word (both words), repeated words included.",
  "every set of texts, relevant set and window size >= 1", "all texts",
  T+"text_analysis.py:InvertedIndexAccumulator.analyze_text", T+"text_analysis.py:WindowedTextsAnalyzer.accumulate", U+"iter_windows")
p("C68", "Iterating over a similarity index",
  "Iterating over a Similarity index yields one answer per indexed document, in document order, for every chunk size and sharding; with num_best and a dense shard it raises exactly when some shard length leaves remainder 1 on division by the chunk size. In every history where iterations are run to the end and overlap only by nesting, queries made outside iterations are normalised as configured. (An iteration that is abandoned, or two that overlap otherwise, leave query normalisation switched off for good.)",
  "every history of queries and iterations, every sharding and chunk size", "depends on how far earlier iterators were advanced",
  S+"docsim.py:Similarity.__iter__", S+"docsim.py:Similarity.iter_chunks", S+"docsim.py:Similarity.similarity_by_id")
p("C69", "Soft cosine similarity",
  "With a matrix built with symmetric=True and dominant=True: the soft norm of every non-zero vector is positive; inner_product of two documents is the soft inner product, normalised it is the soft cosine similarity, in [-1,1], symmetric, 1 for a document with itself; two corpora give the same values; with 'maintain' a document keeps its plain length; for any matrix, the product raises exactly if a document to be normalised has a negative soft norm. A document against a corpus gives the unnormalised value correctly, but the normalised one is the similarity with only those words of the corpus document that are related to the query: correct if all are, wrong in general (plain cosine of {a} with {a,b} comes out as 1).",
  "every index, matrix and documents", "all matrices and documents",
  S+"termsim.py:SparseTermSimilarityMatrix.inner_product", S+"termsim.py:_normalize_dense_vector", S+"termsim.py:_normalize_dense_corpus", S+"docsim.py:SoftCosineSimilarity.get_similarities")
p("C70", "The texts of a Wikipedia dump do not depend on the worker processes",
  "WikiCorpus.get_texts yields, in dump order, exactly the processed articles that pass the namespace filter, the article filter, the minimum number of tokens and the title prefixes, for every number of processes and every order in which the workers finish, if article_min_tokens >= 1. (With article_min_tokens <= 0 pages rejected by the filters are yielded too, as empty articles.)",
  "every dump, number of processes, finishing order", "all schedules of the worker pool",
  "gensim/corpora/wikicorpus.py:WikiCorpus.get_texts", "gensim/corpora/wikicorpus.py:extract_pages")
p("C71", "step_through_preprocess shows the intermediate results",
  "TextCorpus.step_through_preprocess shows the text after each character filter, the tokens, and then each token filter applied to the tokenizer's output; the last thing shown is preprocess_text(text) if there is at most one token filter. (With two it is not: the filters are not chained.)",
  "every text and every list of filters", "all texts and filters",
  "gensim/corpora/textcorpus.py:TextCorpus.step_through_preprocess", "gensim/corpora/textcorpus.py:TextCorpus.preprocess_text")
p("C72", "A directory corpus reads the right files and knows its length",
  "TextDirectoryCorpus reads exactly the files whose depth is between min_depth and max_depth, not below a symbolic link, and whose names fit the patterns, none twice; after every sequence of changes of the settings, complete or abandoned iterations and len calls, len is the number of documents an iteration yields. (A setting changed during an iteration leaves a wrong cached length behind.)",
  "every directory tree, settings, operation history", "all trees and histories",
  "gensim/corpora/textcorpus.py:TextDirectoryCorpus.iter_filepaths", "gensim/corpora/textcorpus.py:TextDirectoryCorpus.__len__", "gensim/corpora/textcorpus.py:TextDirectoryCorpus.getstream", "gensim/corpora/textcorpus.py:walk")
p("C73", "The Poincaré distance is a distance",
  "For all points of the open unit ball, the distance is non-negative, zero exactly for equal points, symmetric and satisfies the triangle inequality; the similarity lies in (0, 1], is 1 exactly for equal points and orders pairs opposite to the distance.",
  "every dimension, all points of the open unit ball (real arithmetic)", "a statement about all real vectors",
  "gensim/models/poincare.py:PoincareKeyedVectors.vector_distance", "gensim/models/poincare.py:PoincareKeyedVectors.similarity", "gensim/models/poincare.py:PoincareBatch.compute_distances")
p("C74", "Poincaré training follows the gradient of its loss",
  "The gradients computed for a training example are the gradients of the documented loss (negative log of the softmax of the negative distances, plus the regularisation term) with respect to the node and to every related or negative vector, for distinct points of the ball. The built-in check against automatically derived gradients passes for every batch of such examples, and fails when any component of any gradient is off by the tolerance or more.",
  "every dimension, number of negatives, all points of the ball that differ from the node", "the gradient is an identity of real functions",
  "gensim/models/poincare.py:PoincareBatch.compute_distance_gradients", "gensim/models/poincare.py:PoincareBatch.compute_loss_gradients", "gensim/models/poincare.py:PoincareModel._loss_fn")
p("C75", "A Poincaré update keeps the vectors in the ball",
  "After a batch update all vectors are inside the unit ball and all vectors of nodes outside the batch are unchanged, and a node occurring several times in a batch receives the sum of its updates, as long as epsilon times the dimension is small enough (dim·epsilon < 2·(1 − epsilon)). (For larger values the clipping itself leaves the ball.)",
  "every dimension, batch with repetitions, gradients, learning rate", "all batches and vectors",
  "gensim/models/poincare.py:PoincareModel._update_vectors_batch", "gensim/models/poincare.py:PoincareModel._handle_duplicates", "gensim/models/poincare.py:PoincareModel._clip_vectors")
p("C76", "Negative samples are fresh, distinct and drawn by frequency",
  "After any relations are loaded in any number of calls, nodes, counts and relations are exactly those of the data; the candidate for a negative sample is drawn with probability exactly proportional to its count; whatever the random numbers, a returned sample has the number of nodes asked for, all different, none related to the node; an error is raised exactly if there are too few unrelated nodes, and otherwise the loop can end from every state. (A node may be its own negative; with more than 2000 negatives, fewer are returned.)",
  "every list of relations, every sequence of random numbers, buffer state and number of negatives", "all random outcomes",
  "gensim/models/poincare.py:PoincareModel._load_relations", "gensim/models/poincare.py:PoincareModel._sample_negatives", "gensim/models/poincare.py:PoincareModel._get_candidate_negatives", "gensim/models/poincare.py:NegativesBuffer")
p("C77", "Moving in the hierarchy and the nearest nodes",
  "closest_child and closest_parent return the nearest of the nodes of larger (smaller) norm, None exactly if there are none; ancestors always ends, with strictly decreasing norms, at a node of least norm; most_similar returns the topn nearest other nodes in order of distance. (The first node of the vocabulary is not left out of its own result and comes first in it; descendants raises whenever the chain of children is too short.)",
  "every embedding, node, topn and depth", "all embeddings",
  "gensim/models/poincare.py:PoincareKeyedVectors.closest_child", "gensim/models/poincare.py:PoincareKeyedVectors.closest_parent", "gensim/models/poincare.py:PoincareKeyedVectors.ancestors", "gensim/models/poincare.py:PoincareKeyedVectors.descendants", "gensim/models/poincare.py:PoincareKeyedVectors.most_similar")
p("C78", "Ranks and average precision of the Poincaré evaluations",
  "The rank of a relation is one more than the number of unrelated nodes strictly nearer; the average precision is the mean of the precisions at the relations in order of distance, lies in (0, 1] and is 1 exactly when no unrelated node is nearer than a related one. (The node itself counts as an unrelated node, so that no rank is 1; with max_n one item more is evaluated.)",
  "every table of distances, relations, item list and max_n", "all tables",
  "gensim/models/poincare.py:ReconstructionEvaluation", "gensim/models/poincare.py:LinkPredictionEvaluation")
p("C79", "Direct coherence measures",
  "u_mass is the mean over the topics of the mean over all ordered pairs of words (a later, an earlier one) of log((D(a,b)/D + eps)/(D(b)/D)) for the document frequencies of the corpus, with 0 for words that never occur; a pair is negative, zero or positive exactly if the words do not always occur together, the word never occurs, or they do. c_uci and c_npmi are the same with the window counts and all ordered pairs; both are symmetric; NPMI is at least -1, and above 1 (by the smoothing) exactly if the words only occur together. (Two words in every window get the worst value -1; unseen words get a better u_mass than words seen apart.)",
  "every corpus, topics, window size, smoothing constant", "all corpora and all count combinations",
  "gensim/topic_coherence/direct_confirmation_measure.py:log_conditional_probability", "gensim/topic_coherence/direct_confirmation_measure.py:log_ratio_measure", "gensim/topic_coherence/aggregation.py:arithmetic_mean", "gensim/models/coherencemodel.py:CoherenceModel.get_coherence")
p("C80", "c_v coherence does not depend on its caches",
  "For topics segmented as in c_v, the coherence of a topic is the mean over its words of the cosine between the context vector of the word and the sum of the context vectors of the topic, whatever is cached from earlier topics; it lies in [-1, 1].",
  "every list of topics with shared and repeated words, every symmetric similarity", "the cached similarities and vectors depend on the order of all earlier topics",
  "gensim/topic_coherence/indirect_confirmation_measure.py:cosine_similarity", "gensim/topic_coherence/indirect_confirmation_measure.py:ContextVectorComputer")
p("C81", "A coherence model forgets its statistics when it must",
  "After any history of setting topics, lowering topn, estimating and evaluating, a u_mass coherence model returns what a fresh model returns; compare_model_topics returns for every model and every number of words what a fresh model returns and restores topics and topn, if all topics have topn words, and raises otherwise. (Raising topn, or evaluating given segments first, keeps statistics without the new words, which then silently score 0; topics given as ids raise KeyError while the reverse mapping of the dictionary is empty.)",
  "every history of settings and evaluations, every corpus", "histories",
  "gensim/models/coherencemodel.py:CoherenceModel.topics", "gensim/models/coherencemodel.py:CoherenceModel.topn", "gensim/models/coherencemodel.py:CoherenceModel.estimate_probabilities", "gensim/models/coherencemodel.py:CoherenceModel.get_coherence_per_topic", "gensim/models/coherencemodel.py:CoherenceModel.compare_model_topics")
p("C82", "Skip-gram training follows the gradient",
  "Training on a word and a context word moves the vector of the context word and the output vectors of the word and of its negative samples (or the nodes on its path in the tree) by the learning rate times the gradient of the negative log-likelihood, and nothing else, if no score is saturated and the samples are distinct; the tables for the sigmoid change the step by a bounded amount; a batch trains all pairs within the reduced windows in order; rows with lock factor 0 never change; score() is the log-likelihood of a sentence. (The loss reported for hierarchical softmax is that of the opposite labels, so it rises as the model improves; pairs with a score of 6 or more in absolute value are not trained at all, even if they are wrong.)",
  "every vector space, every state of all vectors, all words, samples, paths, sentences", "real-valued vectors of any dimension; tests compare a few trained similarities",
  "gensim/models/word2vec_inner.pyx:w2v_fast_sentence_sg_neg", "gensim/models/word2vec_inner.pyx:w2v_fast_sentence_sg_hs", "gensim/models/word2vec_inner.pyx:train_batch_sg", "gensim/models/word2vec_inner.pyx:score_sentence_sg")
p("C83", "CBOW training follows the gradient",
  "Training on a word with its context moves the output vectors of the word and its negative samples (or the nodes on its path) by the learning rate times the gradient of the negative log-likelihood given the mean (or the sum) of the context vectors, and moves the vectors of the context words along the gradient. (The step of the context words is the number of context words times the learning rate with cbow_mean=1 and the learning rate divided by that number with cbow_mean=0; a word without context changes nothing but adds log 2 per sample to the loss.)",
  "every vector space, every state of all vectors, all contexts with repeated words", "real-valued vectors of any dimension",
  "gensim/models/word2vec_inner.pyx:w2v_fast_sentence_cbow_neg", "gensim/models/word2vec_inner.pyx:w2v_fast_sentence_cbow_hs", "gensim/models/word2vec_inner.pyx:train_batch_cbow")
p("C84", "Frequent words are downsampled as documented",
  "The probability of keeping a word is in (0, 1], falls with its count and is the square root plus the value of threshold/count above the threshold times 2.618; over all states of the generator a word is kept with its probability up to 2^-32, words of probability 1 always; the trained words of a sentence are a subsequence of it. sample=0 keeps all words. (For sample >= 1, documented as the count above which words are downsampled, words of up to four times that count are always kept; build_vocab(update=True) uses only the new counts, so a frequent word that is rare in the added corpus is never downsampled afterwards.)",
  "every count, threshold, sentence and state of the generator", "probabilities and generator states",
  "gensim/models/word2vec.py:Word2Vec.prepare_vocab", "gensim/models/word2vec_inner.pyx:random_int32", "gensim/models/word2vec_inner.pyx:train_batch_sg")
p("C85", "Adding words keeps the trained weights",
  "After a first vocabulary, every history of training and build_vocab(update=True) succeeds; each word has a vector and an output row; adding words keeps the index, the vector and the output row of every word and gives new words random vectors and zero output rows. (A second build_vocab without update is meant to reset the weights but keeps the old vectors: with the default sorting it raises IndexError if there are more words than before and otherwise gives the words permuted old vectors; without sorting it raises ValueError if there are fewer words.)",
  "every history of trainings and vocabularies", "histories",
  "gensim/models/word2vec.py:Word2Vec.init_weights", "gensim/models/word2vec.py:Word2Vec.update_weights", "gensim/models/keyedvectors.py:prep_vectors", "gensim/models/keyedvectors.py:KeyedVectors.resize_vectors", "gensim/models/keyedvectors.py:KeyedVectors.sort_by_descending_frequency")
p("C86", "Merging keeps what the decompositions represent",
  "After any number of chunks an LSI model has orthonormal topics with positive descending singular values, at most num_topics of them after a merge, with non-negative first components. What it represents (u s^2 u^T) plus a remainder that is positive semi-definite is the sum of what the chunks represent, each weighted by decay squared per later merge; in no direction is the remainder of a merge larger than any kept squared value, and if fewer than num_topics topics result it is at most a thousandth of the whole. Transforming a document is linear, does not lengthen it, and recovers the coordinates of documents in the span of the topics. (scaled=True is ignored when a corpus is transformed.)",
  "all matrices, any number of chunks, every library satisfying the equations of the decompositions", "real matrices of any size; histories",
  "gensim/models/lsimodel.py:Projection.merge", "gensim/models/lsimodel.py:clip_spectrum", "gensim/models/lsimodel.py:LsiModel.add_documents", "gensim/models/lsimodel.py:LsiModel.__getitem__")
p("C87", "Training of document vectors follows the gradient",
  "Training Doc2Vec on a word of a document moves the vector of the tag (DBOW), of the tags and of the words of the window (DM, DM with concatenation) and the output rows along the gradient of the negative log-likelihood of the word, with the learning rate times the lock factor (for DM with mean or sum the step is longer or shorter by the number of context vectors, as in C83); the pairs trained are exactly the words of the document with each tag and, with dbow_words, with the words of the reduced window; DM with concatenation takes the `window` words before and after, padded with the null word, and skips documents without dm_tag_count tags; words that are unknown or downsampled are left out and only the first 10000 are used. (train_document_dm looks up the lock factors of words modulo the number of lock factors of the tags: by default all words get the factor of word 0, a locked word is changed, and with more tag than word factors memory after the array is read.)",
  "every vector space, every state of all vectors, all documents, windows and tags, every state of the generator", "real-valued vectors of any dimension",
  "gensim/models/doc2vec_inner.pyx:train_document_dbow", "gensim/models/doc2vec_inner.pyx:train_document_dm", "gensim/models/doc2vec_inner.pyx:train_document_dm_concat")
p("C88", "Inference leaves the model alone and descends",
  "infer_vector changes no word vector and no output row, in all three modes, for all words, arguments and random draws; it uses one learning rate per epoch, falling in equal steps from alpha to min_alpha; each of its steps is a gradient step on the negative log-likelihood of a known word of the document for the trained weights (for DM up to the number of context vectors); a document without known words keeps the start vector. (With dm_concat and dm_tag_count other than 1 nothing is trained and the start vector is returned for every document. alpha=0, min_alpha=0 and epochs=0 mean the defaults.)",
  "every model, document, argument and random draw", "real-valued vectors of any dimension; all draws",
  "gensim/models/doc2vec.py:Doc2Vec.infer_vector", "gensim/models/doc2vec_inner.pyx:train_document_dbow", "gensim/models/doc2vec_inner.pyx:train_document_dm", "gensim/models/doc2vec_inner.pyx:train_document_dm_concat")
p("C89", "Documents of a corpus file are trained with their own tags",
  "Training Doc2Vec on a corpus file without empty lines, each worker trains consecutive lines, starting with the one its offset is in, each exactly with its line number as tag, and stops at the first line before which it has trained more words than its share; with one worker each document is trained exactly once. (Empty lines are not counted, which shifts the tags of all later documents against TaggedLineDocument. With several workers a document can be trained twice or never. With dm_concat every worker counts tags from 0, and the vector of the tag gets the error of a word of the window. DM never draws the reduced windows: what is in memory decides the contexts.)",
  "every file, number of workers and number of words", "all files; several workers",
  "gensim/models/doc2vec_corpusfile.pyx:d2v_train_epoch_dbow", "gensim/models/doc2vec_corpusfile.pyx:d2v_train_epoch_dm", "gensim/models/doc2vec_corpusfile.pyx:d2v_train_epoch_dm_concat", "gensim/models/doc2vec.py:Doc2Vec._do_train_epoch")
p("C90", "LDA inference never makes a document's bound worse and accounts for every word",
  "For any document with non-negative counts, any initial gamma, number of iterations and threshold, LDA inference does not lower the variational bound of the document (the one `bound` computes, with the epsilon of inference inside the logarithm), and more iterations never give a lower one; after at least one iteration every topic weighs at least its alpha and the weights add up to the sum of alpha plus the length of the document, up to epsilon; it stops at the first iteration whose mean change of a topic's weight is below the threshold; gammas depend only on how often each word occurs; documents do not influence one another within a chunk, and statistics of chunks add up however documents are divided; per word, the statistics of all topics add up to the occurrences of the word, up to epsilon. (A document that lists an id several times counts in full for its gamma but only its last pair reaches the statistics.)",
  "every number of topics and words, every document, chunk, prior, topic matrix and initial gamma", "real-valued parameters; convexity of the log-normaliser of the Dirichlet distribution",
  "gensim/models/ldamodel.py:LdaModel.inference", "gensim/models/ldamodel.py:LdaModel.bound", "gensim/matutils.py:dirichlet_expectation")
p("C91", "LDA topics stay probability distributions and priors positive through any training",
  "With offset >= 1, decay >= 0, positive priors and non-negative counts, after any history of update calls alpha and eta are positive, statistics are not negative and every topic of get_topics is a distribution with positive probabilities; the learning rate is in (0, 1] and never grows; a learnt prior moves by a Newton step towards a larger expected log density of what it is learnt from, and only if it stays positive; get_document_topics lists exactly the topics at or above the threshold in order, missing less than the threshold per omitted topic; show_topics(n) shows n different topics; a new model has counted no documents, and after any history it has counted every document of every call once, whatever the passes, and drawn one initial gamma per document and pass. (offset < 1 makes topic weights negative. eta='auto' learns an eta that nothing uses: state, topics and inference are as without it. The iterations and gamma_threshold arguments of update have no effect. get_document_topics(corpus, ...) stores its thresholds in the model, changing later queries and lazy results obtained earlier; without minimum_phi_value it uses minimum_probability. show_topics(0) shows all topics.)",
  "every history of update calls with any corpora and parameters, every gamma, every threshold", "unbounded histories; real-valued parameters",
  "gensim/models/ldamodel.py:LdaModel.update", "gensim/models/ldamodel.py:LdaModel.get_topics", "gensim/models/ldamodel.py:update_dir_prior", "gensim/models/ldamodel.py:LdaModel.get_document_topics", "gensim/models/ldamodel.py:LdaModel.show_topics", "gensim/interfaces.py:TransformedCorpus.__init__")
p("C92", "NMF descends, stays non-negative and is not disturbed by queries",
  "Finding the representation of a document with NMF keeps weights non-negative and never increases the squared error, for any topics, start, order and number of iterations and every kappa in [0, 2], and weights that an iteration does not change are the best non-negative ones; a step on the topics keeps them non-negative with length at most 1 and does not increase the error when nothing is cut off at v_max; both hold through any history of updates; the statistics are averages over the chunks of one update call. (update discards the statistics of earlier calls. A call whose first chunk has only empty documents fills the model with NaN. get_topic_terms and get_term_topics overwrite the model with normalised weights, so the order of queries changes their answers. get_document_topics removes the v_max bound of later training.)",
  "every matrix, document, order of topics, number of iterations, history of updates", "real-valued matrices of any size; unbounded histories",
  "gensim/models/nmf.py:Nmf.update", "gensim/models/nmf.py:Nmf._solveproj", "gensim/models/nmf.py:Nmf._solve_w", "gensim/models/nmf.py:Nmf.get_topic_terms", "gensim/models/nmf.py:Nmf.get_term_topics", "gensim/models/nmf.py:Nmf.get_document_topics", "gensim/models/nmf_pgd.pyx:solve_h")
p("C93", "Author-topic model: author tables, ids, training rows and queries about new authors",
  "An author-topic model keeps its author and document tables consistent over any history of updates, training passes and queries: either table can be built from the other; the id of an author leads back to the author, no two authors share an id, there is one topic row per id and one stored document per counted document; authors with documents keep their id and documents; training changes only the rows of a document's own authors, distributes each document's counts over its authors and topics without loss, and keeps rows positive; author topics are the shares of the author's row; a query about a new author answers from the given documents alone and leaves the model exactly as it was, also when it fails. (Findings, proved as such: documents of a second update are not re-indexed, so tables numbered from 0 replace the authors of old documents and the new documents are never trained on - only tables numbered from the old total work; an author entered with no documents is taken for a new author again and gets a second id; the bound of held-out documents ignores the authors given for them; training covers the documents of all authors, not of the input's authors.)",
  "All histories of updates, training passes and queries; all tables, corpora, rates, priors and topic parameters; all orders of set iteration; all drawn rows.",
  "The tables are four dictionaries updated in several places; only an invariant over every history shows that they agree, and tests use one update per model.",
  "gensim/models/atmodel.py:construct_doc2author", "gensim/models/atmodel.py:construct_author2doc", "gensim/models/atmodel.py:AuthorTopicModel.update", "gensim/models/atmodel.py:AuthorTopicModel.inference", "gensim/models/atmodel.py:AuthorTopicModel.bound", "gensim/models/atmodel.py:AuthorTopicModel.get_new_author_topics", "gensim/models/atmodel.py:AuthorTopicModel.get_author_topics")
p("C94", "Word mover's distance is the least cost of moving one document onto the other",
  "wmdistance of two documents is the least cost of a plan moving the known words of one onto those of the other, when some pair of their words differs in vector; it is symmetric, not negative, satisfies the triangle inequality through any third document when finite, depends on the known words' shares only, is zero for equal shares, at least the distance of the mean vectors and at most the largest word distance; it is infinite when a document has no known word. (Finding, proved as such: documents with several tokens that all have the same vector are at infinite distance although moving costs nothing, and then the triangle inequality fails.)",
  "All documents, vocabularies and vectors; all numberings and iteration orders of the temporary dictionary.",
  "Optimality over all transport plans and the triangle inequality over all triples of documents are statements about infinitely many plans and documents.",
  "gensim/models/keyedvectors.py:KeyedVectors.wmdistance")
p("C95", "Evaluation on analogies and word pairs counts exactly the lines it should",
  "`evaluate_word_analogies` uses the first `restrict_vocab` keys, folding case so that the most frequent of several variants wins; it returns one section per section of the file, in order, holding exactly the analogies judged right and wrong, then their total with its accuracy; analogies with unknown words are left out, or counted wrong with `dummy4unknown`; an analogy is right when the first suggestion that is in the vocabulary and not an input word is the expected one; the model's vocabulary is afterwards as before. `evaluate_word_pairs` compares the two aligned lists of similarities of the pairs, and reports the percentage of pairs with an unknown word. (Findings, proved as such: an analogy that expects one of its own words can be counted right; a file with headers but no analogy fails with a division by zero; a similarity query that fails, or a word-pair file that cannot be opened, leaves the model with the restricted upper-cased vocabulary.)",
  "every vocabulary, evaluation file, case folding, set of options and behaviour of the similarity queries",
  "The files in the test suite contain a few dozen analogies and never trigger failures between replacing and restoring the vocabulary.",
  "gensim/models/keyedvectors.py:KeyedVectors.evaluate_word_analogies", "gensim/models/keyedvectors.py:KeyedVectors.evaluate_word_pairs")
p("C96", "A downloaded data set is installed completely and verified, or not at all",
  "`downloader.load(name)`: at every moment, whatever the network delivers, wherever processes are killed and however any number of processes interleave, a data set found in the data folder consists of `__init__.py` and the concatenation of exactly the listed number of parts, each with its listed checksum; across file systems (where the move is a copy) this holds with one process at a time. An undisturbed download installs exactly that and removes its temporary folder; a wrong checksum ends it without touching the data folder; installed data is not fetched again. The list of data sets is the server's, or without connection the last one it gave. (Findings, proved as such: a process killed between moving and renaming leaves `<name>_tmp` behind, after which no call of `load(name)` by any process ever succeeds, because `os.remove` cannot remove a folder; with temporary folders on another file system two simultaneous downloads can install an empty folder; an outdated data set is shown by `info(name)` and listed by `info(name_only=True)`, but `load` calls its name incorrect; an answer that is not a listing overwrites the cached listing; the checksum of `__init__.py`, which is executed, is not checked; of two processes creating the data folder at the same time one can fail, claiming that a file of that name exists; the progress bar divides by zero for an announced size of 0, grows by fifty characters per byte when the size is not announced, and is longer than fifty characters when the last piece overshoots by two percent.) The data folder is created by any number of processes without replacing anything, the checksum compared is that of the whole file, and the progress bar shows the fraction that has arrived in fifty characters.",
  "every listing, every answer of the network, every number of processes, interleaving, kill point and size of written blocks",
  "Tests cannot enumerate kill points and interleavings of several processes, and need the network.",
  "gensim/downloader.py:load", "gensim/downloader.py:_download", "gensim/downloader.py:info", "gensim/downloader.py:_load_info", "gensim/downloader.py:_get_checksum")
p("C97", "Similarity values agree with each other and with the geometry of the vectors",
  "similarity(w1, w2) is the cosine of the angle between the two vectors: symmetric, within [-1, 1], 1 for a word with itself unless its vector is zero, independent of the lengths of the vectors; distance is one minus that, and distances(word, others) agrees with it entry by entry. The scores of most_similar are cosines with the weighted mean of the inputs, hence within [-1, 1] and equal to similarity for one input word. The scores of most_similar_cosmul for words lie in [0, 10^6], and a word at least as similar to every positive and at most as similar to every negative word never scores lower. n_similarity is symmetric, independent of word order, equal to similarity for single words. rank_by_centrality lists exactly the known words from most to least central, doesnt_match returns the least central known word whatever the order of the words, most_similar_to_given the first of the most similar candidates. The relative cosine similarities of a word's topn neighbours add up to 1. predict_output_word answers from a probability distribution over the vocabulary (all positive, sum 1), best first, ignoring unknown words and the order of the context, and None without known words. (Findings, proved as such: distances with an empty list of others gives the distances to all words; a zero vector has distance 1 but an undefined entry in distances; inputs that cancel out give every word score 0; raw vectors given to most_similar_cosmul are not normalised, so an opposite word can beat a neutral one; doesnt_match of two words always returns the alphabetically smaller one; relative_cosine_similarity raises ZeroDivisionError for similarities that cancel out and AssertionError for a vocabulary of one word.)",
  "every vector table, word, list of words, context and topn, over exact real arithmetic",
  "The relations between the query functions range over all vectors; tests compare a few queries on one trained model with rounded constants",
  "gensim/models/keyedvectors.py:KeyedVectors.similarity", "gensim/models/keyedvectors.py:KeyedVectors.distances", "gensim/models/keyedvectors.py:KeyedVectors.n_similarity", "gensim/models/keyedvectors.py:KeyedVectors.most_similar_cosmul", "gensim/models/keyedvectors.py:KeyedVectors.rank_by_centrality", "gensim/models/keyedvectors.py:KeyedVectors.doesnt_match", "gensim/models/keyedvectors.py:KeyedVectors.relative_cosine_similarity", "gensim/models/keyedvectors.py:KeyedVectors.most_similar_to_given", "gensim/models/word2vec.py:Word2Vec.predict_output_word")
p("C98", "HDP: lazy training equals full training, topics are distributions, topic numbers agree",
  "HdpModel.update leaves exactly the model that would result from updating the weights of all words with every chunk, although it only touches the words of a chunk and catches up later; for every corpus, chunk size, limit and history. The statistics of a chunk, summed over topics, are exactly the word counts of its documents. Without limits, training a new model uses every document once in order; with max_chunks it ends after exactly that many chunks, cycling through the corpus. For every trained model hdp_to_lda gives positive priors that add up to alpha and topics that are positive word distributions, equal to get_topics. After training the topics are ordered by weight, and when no two weigh the same show_topics and show_topic number them as hdp[bow] does. hdp[bow] returns exactly the topics with probability at least eps of a positive distribution; nothing for an empty document; an error before training. (Findings, proved as such: every later update uses only the first chunk of its corpus once as many documents as in the first corpus were seen; a model created without a corpus learns nothing from update; training on an empty corpus never ends; update_chunk with update=False applies pending decays twice; hdp_to_lda after update_chunk alone gives topics that do not add up to one; a word listed twice in a document counts only with its last count; the topics shown by suggested_lda_model are its own random initialisation; HdpModel with an output folder can never be constructed, it raises TypeError and leaves an emptied options.dat; save_topics without an output folder goes on after the error it logs and writes to a folder called None.)",
  "every corpus, chunk size, limit, initial draw, sequence of updates and document; digamma and gammaln arbitrary functions; learning rate below 1; exact reals",
  "Equality with eager updates and conservation of counts are statements about all corpora and histories; tests only look at one small trained model",
  "gensim/models/hdpmodel.py:HdpModel.update", "gensim/models/hdpmodel.py:HdpModel.update_chunk", "gensim/models/hdpmodel.py:HdpModel.update_lambda", "gensim/models/hdpmodel.py:HdpModel.update_expectations", "gensim/models/hdpmodel.py:HdpModel.doc_e_step", "gensim/models/hdpmodel.py:HdpModel.hdp_to_lda", "gensim/models/hdpmodel.py:HdpModel.suggested_lda_model", "gensim/models/hdpmodel.py:lda_e_step", "gensim/models/hdpmodel.py:HdpTopicFormatter")
p("C99", "The dynamic topic model assigns documents to slices, smooths topics over time and answers queries as distributions",
  "In a dynamic topic model (`LdaSeqModel`) fitting a document distributes its tokens over the topics (every word's weights are positive and sum to one; the document's weights sum to the prior plus the number of tokens); rounds are repeated until one changes the bound by at most 1e-8 per token for the first time; the e-step does not depend on the chunk size and counts every word of every document exactly once, in one time slice; the means and variances a topic computes for a word are exactly the posterior mean path (the unique most probable one) and the posterior variances of a Gaussian random walk observed with noise; after a topic is fitted its expected probabilities are normalised in every slice, whatever the optimiser returned; a topic starts half and half from the static topic and the uniform one; topics and document mixtures are distributions and print_topic shows the most probable words first. (Findings, proved as such: document i is counted in the slice of document i - 1, so the first document of every slice but the first goes to the slice before; time_slice is not checked: one surplus document is accepted, two fail; training never stops early: a small change of the bound is overwritten by 1.0; the bound of a topic loses one word with every slice; the derivative handed to the optimiser uses the posterior instead of the forward variances and is too small for every model; rare words other than the first are never fitted; model[doc] uses the last slice only.)",
  "all topics, vocabularies, numbers of slices, positive variances, corpora, special functions and optimiser results",
  "tests train one small model and compare a few numbers with recorded values; they cannot show what the means minimise, or that every document is counted in the wrong slice at a boundary",
  "gensim/models/ldaseqmodel.py:LdaSeqModel.inferDTMseq", "gensim/models/ldaseqmodel.py:LdaSeqModel.fit_lda_seq", "gensim/models/ldaseqmodel.py:LdaSeqModel.print_topic", "gensim/models/ldaseqmodel.py:LdaSeqModel.__getitem__", "gensim/models/ldaseqmodel.py:sslm.compute_post_mean", "gensim/models/ldaseqmodel.py:sslm.compute_post_variance", "gensim/models/ldaseqmodel.py:sslm.update_obs", "gensim/models/ldaseqmodel.py:LdaPost.fit_lda_post")
p("C100", "Text preprocessing yields exactly the documented tokens",
  "For every text: each filter does what it says and nothing else. remove_stopwords and strip_short keep exactly the other words, in order; strip_punctuation and strip_multiple_whitespaces leave the words between punctuation and white space, and no punctuation or repeated white space; strip_numeric deletes exactly the digits 0-9; strip_tags deletes exactly the tags, from left to right, and leaves none; split_alphanum inserts a space at every boundary between a-z and 0-9; each of the deleting filters applied twice is the same as once. preprocess_string with the default filters never fails and returns the stems of the words that remain, in order; preprocess_documents treats documents independently; own filters are applied from left to right. tokenize returns exactly the longest runs of word characters that are not digits; simple_preprocess keeps those within the length bounds, both included, that do not start with an underscore; deaccent leaves no accent. (Findings, proved as such: a tag is replaced by nothing, so the words on its two sides become one word; split_alphanum does not separate upper-case letters from digits; the default filters stem last, so that a returned token can be a stop word and shorter than the minimum length, as for \"ones\"; tokens documented as alphabetic contain underscores.)",
  "all texts, all word lists, all filter lists, all state left in the stemmer, every Unicode table with the stated laws",
  "The texts are unbounded; tests compare a few sentences.",
  "gensim/parsing/preprocessing.py:remove_stopwords", "gensim/parsing/preprocessing.py:strip_punctuation", "gensim/parsing/preprocessing.py:strip_tags", "gensim/parsing/preprocessing.py:split_alphanum", "gensim/parsing/preprocessing.py:stem_text", "gensim/parsing/preprocessing.py:preprocess_string", "gensim/utils.py:tokenize", "gensim/utils.py:simple_preprocess", "gensim/utils.py:deaccent")
p("C101", "Translations are the nearest words under the least-squares map",
  "Training on word pairs finds the linear map with the least sum of squared distances between mapped unit source vectors and unit target vectors of the pairs, whatever the order in which Python lists sets, every repetition counting; if a linear map fits the pairs exactly, so does the trained one, and every training word is translated first to a word with the direction of its partner. Plain translation returns, for every word asked for, the topn target words of largest cosine with the mapped vector, nearest first. The globally corrected method ranks target words by how few source words of the sampled space are nearer to them, then by the product, provided the similarities are distinct and small; the sampled space holds the words asked for and at most sample_num others. The back mapping is the least-squares map from target to source documents. Unknown words raise KeyError, a missing sample size RuntimeError. (Findings, proved as such: only the first training entry is checked, later triples are silently cut; asking for more translations than there are target words raises IndexError; no words raise AxisError; the sample is drawn with replacement and may collapse to one word; repeated words can make the corrected method raise ValueError; the mapped vectors are not normalised, so that scaling the matrix, which changes no cosine and no rank, changes the corrected translation.)",
  "all vector sets, word pairs, words, sizes, orders of sets, random draws and orders of ties",
  "The vectors are unbounded and the sets unordered; a test uses one pair of small models.",
  "gensim/models/translation_matrix.py:TranslationMatrix.train", "gensim/models/translation_matrix.py:TranslationMatrix.translate", "gensim/models/translation_matrix.py:Space.build", "gensim/models/translation_matrix.py:BackMappingTranslationMatrix.train", "gensim/models/translation_matrix.py:BackMappingTranslationMatrix.infer_vector")
p("C102", "Approximate nearest neighbour indexers",
  "A query of an Annoy or NMSLIB indexer built from a model returns at most the number of neighbours asked for, as distinct keys of the model, each with a score determined by its cosine with the query, highest first. NMSLIB scores are the cosines. Saving an indexer and loading it preserves the answers (Annoy), the labels, the index and the recorded parameters (NMSLIB), and touches no other file; loading needs both files. most_similar with an indexer asks it for the unit vector of the mean of the weighted unit vectors of the query. (Findings, proved as such: an Annoy score is 1 - d/2 of the angular distance, which is the cosine only when that is 1 or 1/2, is too low between and too high below; an Annoy indexer loaded as documented cannot be saved, and the failing save leaves an index file that cannot be loaded; saved from the indexer of a model of another size it cannot be loaded; an empty model or zero trees are accepted and every later query and save fails; a loaded NMSLIB index is queried without its query time parameters; with an indexer, most_similar ignores restrict_vocab and clip_start/clip_end and returns the queried key itself.)",
  "all models, vectors, queries, numbers of neighbours, file contents, indexers loaded into, and all library answers meeting the documented contract",
  "the relation of score and cosine, and of saved and loaded answers, must hold for all vectors and queries; tests compare a few neighbours of small models",
  "gensim/similarities/annoy.py:AnnoyIndexer", "gensim/similarities/nmslib.py:NmslibIndexer", "gensim/models/keyedvectors.py:KeyedVectors.most_similar")
p("C103", "Levenshtein similarities",
  "The distance of two terms is the least number of insertions, deletions and replacements, or the longer length if that exceeds the given maximum. For positive parameters the similarity of two terms is alpha * (1 - distance / longer length) ** beta if this reaches the threshold and 0 otherwise: computing a maximal distance first never changes the result. It is symmetric, lies between 0 and alpha, is alpha exactly for equal terms and decreases with the distance. most_similar returns the first topn of the ranking of the other terms with positive similarity by similarity, then term, in descending order. (Findings, proved as such: the similarity is documented to be at most 1 but with the default parameters it is 1.8 for equal terms and above 1 for terms of ten characters one edit apart; two empty terms have similarity 1 whatever the parameters and threshold; zero parameters pass the assertions and cause a division by zero; a threshold above 1 is taken as 1.)",
  "all terms, dictionaries, parameters, thresholds and topn",
  "that the shortcut through the maximal distance is exact for all parameters and all pairs of terms is a statement about real powers and floors that a sample of terms cannot settle",
  "gensim/similarities/levenshtein.py:levdist", "gensim/similarities/levenshtein.py:levsim", "gensim/similarities/levenshtein.py:LevenshteinSimilarityIndex.most_similar")
p("C104", "Random projections keep distances; NormModel normalises",
  "The representation of a document under a random projection lists, in increasing topic order, the coordinates above 1e-8 of a linear map: each coordinate is the sum of the weights of the document with signs +1 or -1, divided by the root of the number of topics. The number of terms is one above the highest id of the mapping, or of the corpus. Averaged over the drawn signs the map keeps squared lengths and inner products; its mean squared error on the squared length is at most 2/k of the square, so the proportion of draws that distort the squared distance of two documents by a factor eps or more is at most 2/(k eps^2). NormModel divides the weights of a document by its norm, keeps the ids, gives a document of norm 1 and is idempotent. (Findings, proved as such: a random projection that made its own id mapping cannot be initialised again: iterating over that mapping raises ValueError; a NormModel made without a corpus cannot be printed, and unlike other transformations it cannot be applied to a corpus.)",
  "all corpora, mappings, numbers of topics and terms, documents, and all draws of the signs (the statements on averages count all sign matrices)",
  "distance preservation is a statement about the distribution over all sign matrices; a test sees a few draws",
  "gensim/models/rpmodel.py:RpModel", "gensim/models/normmodel.py:NormModel", "gensim/utils.py:FakeDict", "gensim/utils.py:get_max_id")
p("C105","Distances between distributions, and comparing two topic models topic by topic",
  "For non-negative vectors that are not zero the Kullback-Leibler divergence is never negative, is zero exactly on proportional vectors, does not change when either is scaled, and is infinite exactly when the first gives weight to an item the second excludes; the Jensen-Shannon divergence is symmetric, lies between 0 and log 2 for distributions, is 0 exactly on equal ones and log 2 on disjoint ones; the Hellinger distance of dense vectors is symmetric, zero exactly on equal vectors and at most 1. Comparing two models gives, for each pair of topics, that distance of the two topics (the set distance of their top words for 'jaccard'); the diagonal form is the diagonal of the full one; a model compared with itself has zeroes there; symmetric distances give the transposed matrix the other way round; the annotation of a cell lists words both topics show and words exactly one shows. (Findings, proved as such: bags of words without a number of features are refused with an IndexError if an identifier reaches the number of entries of the longer one; a model of another class gives an AttributeError, not the intended ValueError; normed results always have a cell equal to 1 unless every distance is at most 1e-8, so the convergence metric with its defaults is at least 1 however close the models are; asked for no words, the set distance of a model to itself is 1.)",
  "all vectors and bags of words, all pairs of models, distances, word counts and options",
  "identities and bounds over all real vectors; a test compares a few models",
  "gensim/matutils.py:kullback_leibler","gensim/matutils.py:jensen_shannon","gensim/matutils.py:hellinger","gensim/matutils.py:_convert_vec","gensim/models/ldamodel.py:LdaModel.diff","gensim/models/callbacks.py:ConvergenceMetric")
p("C106","The metrics recorded while a topic model is trained",
  "After training with metrics, every label has one value per pass, computed from the model as seen at the end of that pass and, for metrics that compare models, from the model seen at the end of the pass before (the untrained one in the first pass); with different labels every metric finds its values under its label, and the log has one line per pass and metric reported there. With the plotted metrics first, each has one window, opened in the first pass and updated in every later one, and a heat map shows the whole history of its own metric. If the number of chunks is a multiple of the number between updates, the model seen is the one the pass ends with. (Findings, proved as such: of two metrics with one label only the last is recorded, and labels of classes whose name does not end in 'Metric' are cut; if the number of chunks is not such a multiple the metrics are computed before the last update of the pass, and in batch training they always see the model from before the pass, so the first comparison is of the untrained model with itself; a metric that is not plotted listed before one that is stops training of two or more passes with an IndexError; a plotted array-valued metric without a comparing metric stops it with an AttributeError.)",
  "all lists of metrics, training functions, chunkings, numbers of passes and values",
  "the recorded history depends on the order of metrics and on how chunks, updates and passes interleave; tests run one arrangement",
  "gensim/models/callbacks.py:Callback.on_epoch_end","gensim/models/callbacks.py:Callback.set_model","gensim/models/callbacks.py:Metric.__str__","gensim/models/ldamodel.py:LdaModel.update")
p("C107","Indexed corpora on disk hold what was serialised, as long as data and index belong together",
  "A corpus serialised to a file and opened again has exactly the given documents in order: by iteration, by length, by number from either end, and by a list of numbers; other numbers give an IndexError and other keys a ValueError. This stays true, for every file, after any sequence of completed serialisations from memory, from other corpora and from views. The index file of a name is never the file itself, and different names have different index files. Without a usable index file the length is found by iterating and numbers are refused. A corpus is not serialised to the name it was opened with. (Findings, proved as such: only equal names are refused, so a view of a corpus, or the corpus under another name of its file, is emptied before it is read and the documents are lost; a process that stops between data and index, a plain save_corpus, and a source that cannot be read leave the old index, so that the length and the documents by number belong to the old data; a corpus named like the index of another is overwritten; the length found by iterating is kept although the file changes; asking an empty corpus for a list of documents is an AttributeError; CsvCorpus cannot be constructed at all.)",
  "all formats that read back what they write, all file systems, documents, names, keys, sequences of serialisations and points where the process stops",
  "it speaks of every history of the files and every crash point",
  "gensim/corpora/indexedcorpus.py:IndexedCorpus","gensim/corpora/indexedcorpus.py:IndexedCorpus.serialize","gensim/utils.py:smart_extension","gensim/utils.py:SlicedCorpus","gensim/corpora/csvcorpus.py:CsvCorpus")
p("C108","fastText training follows the gradient",
  "Training fastText on a word and its window moves the output vectors (of the predicted word and of its negative samples, or of the nodes on its path) by the learning rate times the gradient of the negative log-likelihood, and moves the rows of the input words and of their n-grams along the gradient, and nothing else, if the samples are distinct and no score is saturated; the table for the sigmoid is read within its bounds and changes the step by a bounded amount; a batch trains the words within the reduced windows in order; rows with lock factor 0 never change, nor rows that belong to no word of the batch; without buckets no n-gram row changes. (Findings, proved as such: the step of the input rows is the learning rate times the number n of n-grams in skip-gram, times the number of rows in CBOW with cbow_mean=1, and divided by it with cbow_mean=0; skip-gram trains the vector (n+1)/n times as long as the one looked up afterwards; a sample with a score beyond 8 is skipped even if wrong, except in CBOW with negative sampling, where a wrong one gets a full step.)",
  "every vector space, every state of all vectors, all words, n-grams with repeated buckets, samples, paths, sentences and lock factors",
  "real-valued vectors of any dimension; tests compare a few trained similarities",
  "gensim/models/fasttext_inner.pyx:fasttext_fast_sentence_sg_neg","gensim/models/fasttext_inner.pyx:fasttext_fast_sentence_sg_hs","gensim/models/fasttext_inner.pyx:fasttext_fast_sentence_cbow_neg","gensim/models/fasttext_inner.pyx:fasttext_fast_sentence_cbow_hs","gensim/models/fasttext_inner.pyx:fasttext_train_any")
p("C109","In-memory similarity indexes return cosines",
  "A query to MatrixSimilarity or SparseMatrixSimilarity with a document returns its cosine to every document of the corpus, in their order: between -1 and 1, symmetric, 1 for the document itself, 0 for documents without words, independent of the scale of the query, and equal to matutils.cossim; a query with a list of documents returns the answers to its documents; a matrix as a query is not normalised: each of its rows is answered by the cosines times the length of the row; num_best returns the best of them; iterating over the index yields the answer for every document in order. (Findings, proved as such: iterating over SparseMatrixSimilarity when the last chunk has one document yields loose numbers in its place; documents that repeat a term are indexed differently by the two classes, and the sparse one reports similarities above 1; a document whose weights are all zero raises as query and in the sparse corpus; the empty list as query counts as one document; with maintain_sparsity and num_best, a single document raises, a list of one document has all its results reported for document 0, and a list that matches nothing raises; an abandoned iteration leaves later queries without normalisation.)",
  "every corpus, query, number of features, chunk size and num_best, any tie-breaking of the sort",
  "real-valued weights of any number of documents and terms; tests query one small index",
  "gensim/similarities/docsim.py:MatrixSimilarity","gensim/similarities/docsim.py:SparseMatrixSimilarity","gensim/interfaces.py:SimilarityABC","gensim/matutils.py:scipy2scipy_clipped","gensim/utils.py:is_corpus")
p("C110","Matrices as corpora and back",
  "corpus2dense holds the weight of term t in document j at row t, column j, whether or not the number of documents is given; Dense2Corpus(corpus2dense(corpus)) gives back every corpus in canonical form, and Sparse2Corpus(corpus2csc(corpus)) gives back every corpus whatever the order of its ids; Dense2Corpus yields exactly the entries above the threshold, by columns or by rows; Sparse2Corpus[i] is document i; any2sparse and Scipy2Corpus give the same list for the dense, sparse and list form of a vector; pad keeps the entries and adds zeros; a wrong number of documents raises. (Findings, proved as such: negative indices of Sparse2Corpus are off by one, [-1] being always empty; a one-row matrix with two columns is taken for a bag of words, so that hellinger returns a wrong number for two-topic distributions; jaccard raises for every other sparse matrix; corpus2dense of an empty corpus raises unless the number of documents is given.)",
  "every corpus, matrix, threshold, index and content of uninitialised arrays",
  "matrices of any shape and content; tests convert a few small ones",
  "gensim/matutils.py:corpus2dense","gensim/matutils.py:Dense2Corpus","gensim/matutils.py:Sparse2Corpus","gensim/matutils.py:Scipy2Corpus","gensim/matutils.py:any2sparse","gensim/matutils.py:pad","gensim/matutils.py:isbow","gensim/matutils.py:hellinger")
p("C111","Scoring with several threads",
  "For every interleaving of the threads, Word2Vec.score ends and returns the scores of the first total_sentences sentences in the order of the sentences, for every number of workers above 0, queue factor and chunk size; no schedule deadlocks and none runs for ever; at most three chunks more than total_sentences are read from the input, however long it is; models without vocabulary or without hierarchical softmax are refused. (Findings, proved as such: with no sentences the call always fails with UnboundLocalError; with workers=0 it never returns.)",
  "every list of sentences, scoring function, total, chunk size, queue factor, number of workers and schedule",
  "the order in which workers take jobs, write scores and report; a test sees a few schedules",
  "gensim/models/word2vec.py:Word2Vec.score")
p("C112","Life cycle of a Word2Vec model",
  "train passes all of its checks exactly when there is a vocabulary with vectors, a total is given, the number of epochs is given and positive and the corpus can be read that often; then every epoch sees all sentences of a sequence, every callback is told of the beginning and end of the training and of each epoch in turn, and train_count goes up by one; over any history train_count counts the calls that returned. The constructor trains every epoch on all sentences, and refuses generators before reading from them; build_vocab alone accepts every iterable and reads it once. After b.reset_from(a) the model b has the vocabulary of a and a fresh vector for every word, and a is unchanged. (Findings, proved as such: a call of train that fails still replaces the model's epochs and learning rates; a learning rate of 0 is ignored; iterators other than generators are accepted and used up by the vocabulary, so that every epoch sees nothing; totals of 0, as after build_vocab_from_freq without corpus_count, pass the checks but the call never returns once the sentences do not fit into one job; after reset_from the vocabulary is shared, so that a word learnt by one model is in the other one's vocabulary without a vector, and a new vocabulary of one replaces the counts of the other.)",
  "every model, corpus, argument, number of callbacks, history of calls and schedule of the threads",
  "combinations of arguments, histories and schedules; object sharing shows only in later calls",
  "gensim/models/word2vec.py:Word2Vec.__init__","gensim/models/word2vec.py:Word2Vec.train","gensim/models/word2vec.py:Word2Vec._check_corpus_sanity","gensim/models/word2vec.py:Word2Vec._check_training_sanity","gensim/models/word2vec.py:Word2Vec._job_producer","gensim/models/word2vec.py:Word2Vec.reset_from","gensim/models/word2vec.py:Word2Vec.build_vocab_from_freq")
p("C113","Loading models of earlier versions",
  "Loading word vectors of an earlier version (index2word or index2entity, syn0 or vectors, vocab) gives the same words at the same positions with the same rows, every attribute of a word has its old value (sample_int cast to 32 bits), an attribute only other words had is 0, and one that no word had is unknown; loading word vectors of the current version changes nothing. Loading a Word2Vec model succeeds exactly when negative, random or seed, epochs or iter, and the six attributes of an old vocabulary object are there, and raises AttributeError otherwise; every attribute afterwards is the one of the old helper objects, its own, or the documented default; saving and loading a current model gives it back. For fastText, bucket moves to the word vectors, and vectors not known to use the standard hash function are refused with TypeError. (Findings, proved as such: document vectors of an earlier version can never be loaded, since the conversion assigns to the property vocab, whose setter raises; the weights of hierarchical softmax are deleted from every model with a trainables object; an exponent of negative sampling stored in vocabulary is replaced by 0.75; attributes of integer keys may be given to the wrong vectors.)",
  "every old object, vocabulary, set of attributes",
  "old objects come in arbitrarily many shapes; the tests load a few stored files",
  "gensim/models/keyedvectors.py:KeyedVectors._load_specials","gensim/models/keyedvectors.py:KeyedVectors._upconvert_old_vocab","gensim/models/keyedvectors.py:KeyedVectors._upconvert_old_d2vkv","gensim/models/word2vec.py:Word2Vec._load_specials","gensim/models/fasttext.py:FastText._load_specials","gensim/models/fasttext.py:FastTextKeyedVectors._load_specials")
p("C114","Vector files without header, conversions and merging",
  "A text file of vectors without a header is loaded as the same words in the same order with the vectors of their first lines, at most limit of them; an empty file, a limit of 0, or a first line that cannot be read is an error. glove2word2vec writes a file with the header that loads as exactly these vectors and returns its size. word2vec2tensor writes the words and the vectors in the same order, one per line. Merging a file into a model (intersect_word2vec_format) gives each known word the vector of its last record and the given lock factor, and changes no other word, vector, lock factor or key; a file of another vector length changes nothing; after a line with the wrong number of fields exactly the earlier lines have been merged. (Findings, proved as such: merging never returns, since its last statement uses an attribute that does not exist; norms are not cleared; with the default lock factors the call fails at the first known word other than the first of the vocabulary, after overwriting its vector; a truncated binary file is read for ever; with repeated words glove2word2vec writes a file that cannot be loaded, and word2vec2tensor fails; a newline inside a word puts the two files of word2vec2tensor out of step.)",
  "every file, limit, vocabulary, vector length, lock factors",
  "files, words and repetitions are unbounded; the tests merge into a model only by way of fixed files",
  "gensim/models/keyedvectors.py:KeyedVectors.intersect_word2vec_format","gensim/models/keyedvectors.py:_word2vec_detect_sizes_text","gensim/models/keyedvectors.py:_load_word2vec_format","gensim/scripts/glove2word2vec.py:glove2word2vec","gensim/scripts/glove2word2vec.py:get_glove_info","gensim/scripts/word2vec2tensor.py:word2vec2tensor")
p("C115","Showing the words of topics",
  "show_topic and get_topic_terms of LdaModel, Nmf, LsiModel and HdpModel give the topn words with the greatest weights (for LSI: absolute weights), each word once, in descending order, no word left out having a greater weight than one listed, whatever the sorting functions do with equal weights; the weights are those of get_topics: probabilities with sum at most 1 for LDA, length 1 for LSI. show_topics shows for each topic it lists the same as show_topic; with fewer topics than there are it lists one half with the least and one half with the greatest alpha (up to noise less than 0.0001) or sparsity. top_topics lists every topic once with its own words and coherence, by descending coherence. get_term_topics lists exactly the topics in which the word reaches the threshold. What Nmf.get_topic_terms leaves behind in the model does not change what is shown with normalisation afterwards. (Finding, proved as such: HdpModel.show_topics(-1), documented as showing all topics, shows none.)",
  "every matrix of topics, vocabulary, number of topics and words, order of equal weights",
  "ties, thresholds and sizes are unbounded and numpy does not specify the order of equal values; the tests look at the shape of the output",
  "gensim/matutils.py:argsort","gensim/models/ldamodel.py:LdaModel.show_topics","gensim/models/ldamodel.py:LdaModel.show_topic","gensim/models/ldamodel.py:LdaModel.top_topics","gensim/models/ldamodel.py:LdaModel.get_term_topics","gensim/models/nmf.py:Nmf.show_topics","gensim/models/nmf.py:Nmf.get_topic_terms","gensim/models/lsimodel.py:LsiModel.show_topic","gensim/models/lsimodel.py:LsiModel.show_topics","gensim/models/hdpmodel.py:HdpTopicFormatter.show_topics")
p("C116", "Decomposing a corpus for latent semantic indexing",
  "Whatever random numbers are drawn, and whatever the number of samples, of power iterations and of documents in a chunk, decomposing a corpus that can be read repeatedly gives at most num_topics orthonormal topics with descending values along which the documents are exactly as the values say: the coordinates of the documents along two different topics are orthogonal, and along one topic they have the length of its value. So the squares of the values never exceed those of the documents, and the difference is what the topics do not explain. The chunk size is of no consequence. If the samples capture the documents, the result represents the term-document matrix up to a remainder bounded by the least value kept and by the tolerance; and training in one pass over chunks gives a model that represents the whole corpus (weighted by the decay) up to a non-negative remainder. In several passes at most a millionth is lost if topics are left over. Documents are counted. (Findings, proved as such: a corpus that can be read only once gives, in the multi-pass algorithm, a model of at most one topic of value 0 and no error; a corpus without a length leaves docs_processed unchanged in the multi-pass algorithm.)",
  "all corpora, chunk sizes, random draws, numbers of samples and of power iterations, tolerances, decays, and all libraries that decompose correctly",
  "Tests compare a few small decompositions up to a tolerance; the claims are for every draw and every corpus",
  "gensim/models/lsimodel.py:stochastic_svd", "gensim/models/lsimodel.py:LsiModel.add_documents", "gensim/models/lsimodel.py:Projection.__init__", "gensim/models/lsimodel.py:clip_spectrum")
p("C117", "Scoring, arguments and loading of phrase models",
  "With npmi scoring, for every model trained and used with tokens that do not contain the delimiter, whatever was pruned, scoring a candidate raises nothing and gives -inf for a phrase seen less than min_count times and a number between -1 and 1 for every other; the default score is symmetric, grows with the count and is positive exactly for phrases seen more than min_count times, so with a non-negative threshold only those are found. Phrases accepts exactly a positive min_count with the default scoring and a positive threshold, npmi and a threshold in [-1, 1], or a function with the six parameters. A sentence is told from a corpus by its first item and nothing of an iterator is lost. Loading keeps the phrases of models that stored a count and a score, decodes vocabularies of byte strings with the same counts in the same order, and chooses the scoring function by name. (Findings, proved as such: loading a model of the current version always loses its connector words, which changes its output; loading a model that stored tuples with plain scores keeps only the first phrase; npmi exceeds 1 with tokens that contain the delimiter, and raises ZeroDivisionError for a word never seen and for a loaded model without a word count.)",
  "all corpora, histories of training and use, candidates, thresholds, stored models",
  "Tests load a few stored models without connector words and check a few scores",
  "gensim/models/phrases.py:npmi_scorer", "gensim/models/phrases.py:original_scorer", "gensim/models/phrases.py:_is_single", "gensim/models/phrases.py:Phrases.__init__", "gensim/models/phrases.py:_PhrasesTransformation.load")
p("C118", "Training sessions of Poincaré models are gradient descent over every relation",
  "Training on a batch moves the vector of every node, in whatever places and however often it occurs in the batch, by the learning rate times (1 - |v|^2)^2 / 4 times the gradient of the loss of the whole batch in that vector (a step of Riemannian gradient descent), pulled back if it leaves the ball of radius 1 - epsilon. A call of train that returns has run the burn-in epochs with their own learning rate if no earlier call has, then the epochs asked for with the learning rate for training, each using every relation exactly once in batches of batch_size, and has left numpy's error settings as they were; however training is divided into calls, the burn-in happens once. More than one worker, a zero batch size and a zero print_every raise before anything is trained. (Findings, proved as such: an exception during training leaves numpy ignoring divisions by zero in the whole program; a negative batch size trains on nothing, raises nothing and marks the burn-in as done; after more relations are loaded, negatives still come from the old buffer.)",
  "all vectors, batches, learning rates, shuffles, numbers of epochs, histories of calls, behaviours of a batch",
  "Tests train a few epochs on one file and compare two runs",
  "gensim/models/poincare.py:PoincareModel.train", "gensim/models/poincare.py:PoincareModel._train_batchwise", "gensim/models/poincare.py:PoincareModel._prepare_training_batch", "gensim/models/poincare.py:PoincareModel._update_vectors_batch")
p("C119","Topic models are stored in several files and loaded whole","After LdaModel.save returned without an exception, LdaModel.load with the same name returns a model with the same state (statistics, data type), the same dictionary and the same value of every other attribute, arrays included, with None for the dispatcher and for what the caller asked to ignore, whatever models were on the disk before; the same holds for LsiModel and its projection. A save that raises, at whatever write, leaves the pickled models as they were, so that under a new name loading raises instead of returning half a model, and leaves the model in memory as it was. TfidfModel.load completes models of earlier versions with default settings and changes nothing else. (Findings, proved as such: what a save leaves out is taken from an earlier model of the same name - the dictionary if it is ignored, the state if the model has none; without the file of the state the model is loaded without a state and without an error; a save over an earlier model that raises half way leaves a model that loads without an error and has the new state and dictionary with the old topics; LsiModel.save with an ignore argument raises after the projection of an earlier model was overwritten.)","all models (objects whose attributes are values, arrays, sparse matrices or objects of such), thresholds for storing arrays separately, ignore and separately lists, earlier contents of the disk and points at which writing fails","the number of attributes, the earlier contents of the disk and the failing write are unbounded","gensim/models/ldamodel.py:LdaModel.save","gensim/models/ldamodel.py:LdaModel.load","gensim/models/ldamodel.py:LdaState.load","gensim/models/lsimodel.py:LsiModel.save","gensim/models/lsimodel.py:LsiModel.load","gensim/models/tfidfmodel.py:TfidfModel.load")
p("C120","Soft cosine and word mover's indexes answer every query by the similarities to all documents","SoftCosineSimilarity with a symmetric, dominant matrix answers a list of documents by the soft cosine similarity of each to every indexed document, in order, 0 for documents without words, and iterating over it yields this for every indexed document for every chunk size above 1; similarities are symmetric, at most 1, and 1 of a document with itself. A single document is answered by its similarity to those words of each indexed document that are related to it, which is the same if all are. WmdSimilarity answers a document, and each of at least two documents, by 1/(1+d) for the distance d to every indexed document, which is in [0,1], 0 exactly for infinite and 1 exactly for zero distance, and larger exactly when d is smaller; with num_best it lists documents by non-decreasing distance and leaves out none that is nearer; iterating yields this for every document, unless the number of documents leaves remainder 1 when divided by the chunk size. (Findings, proved as such: the same document gets different soft cosine similarities alone and in a list; a document without words is answered by the number 0 and an index without documents raises TypeError; WmdSimilarity answers a list of one document by one answer instead of a list, so that iterating with remainder 1 yields the numbers of the last answer one by one; with chunk size 1 iterating over either index raises.)","all matrices, documents, queries, distances, chunk sizes and numbers of matches","the corpora, queries and chunk sizes are unbounded","gensim/similarities/docsim.py:SoftCosineSimilarity.get_similarities","gensim/similarities/docsim.py:SoftCosineSimilarity.__init__","gensim/similarities/docsim.py:WmdSimilarity.get_similarities","gensim/similarities/docsim.py:WmdSimilarity.__init__","gensim/interfaces.py:SimilarityABC.__getitem__","gensim/interfaces.py:SimilarityABC.__iter__")
p("C121","Term similarity indexes return related terms, never the term itself","UniformTermSimilarityIndex returns the first topn other terms of the dictionary by id, each with the given similarity; a matrix built from it without constraints has this similarity in each column at exactly the first nonzero_limit ids other than its own. WordEmbeddingSimilarityIndex returns, for a word with a vector, exactly those of the topn most similar words whose similarity exceeds the threshold, in their order, with the similarity raised to the exponent, and nothing for other words; with threshold and exponent not negative the results are in [0,1] and stay ordered. A matrix built from any index that never returns the term asked about satisfies the constraints of C56 for every dictionary of distinct tokens. (Findings, proved as such: with a negative threshold and the default exponent a word pointing the opposite way gets a larger similarity than a related one; nonzero_limit counts words that are not in the dictionary, so that a column can stay empty although the index knows related words of the dictionary.)","all dictionaries, terms, limits, thresholds, exponents and vectors","the dictionaries and answers are unbounded","gensim/similarities/termsim.py:UniformTermSimilarityIndex.most_similar","gensim/similarities/termsim.py:WordEmbeddingSimilarityIndex.most_similar","gensim/similarities/termsim.py:_create_source")
p("C122","Readers of directories, of open files and of tagged documents",
  "A LineSentence over an open file gives the same sentences on every pass, whatever was read from the file before. PathLineSentences over a directory yields the sentences of its files in the order of their names, whatever the order in which the system lists them, with the line limit applied to each file; over a single file it is LineSentence; over anything else it is a ValueError; a directory inside the directory ends the iteration with an error after exactly the sentences of the files before it. BrownCorpus yields, for every file and line, the tokens with exactly one slash whose tag begins with letters, as lower-case word and the first two characters of the tag, and no empty sentence; TaggedBrownCorpus yields the same sentences with tags that tell file and line and are all different. TaggedLineDocument yields one document for every line, tagged with the number of the line. (Finding, proved as such: two iterators over a LineSentence of the same open file disturb each other: one yields a sentence twice and the other misses it.)",
  "all texts, limits, piece lengths, positions of the open file, directories and orders of listing, letter classes and lower-casing functions",
  "a test lists one directory on one system and reads one file from its start",
  "gensim/models/word2vec.py:LineSentence","gensim/models/word2vec.py:PathLineSentences","gensim/models/word2vec.py:BrownCorpus","gensim/models/doc2vec.py:TaggedBrownCorpus","gensim/models/doc2vec.py:TaggedLineDocument")
p("C123","Corpora of texts, and the vocabulary and dictionary of UCI corpora",
  "A TextCorpus made without a dictionary has a dictionary of exactly the words of its texts, and iterating over it gives, for every line in order, the vector of its text with the number of occurrences of every word, sorted by id, losing none; with metadata the number of the line comes with it. A dictionary that is given is used as it is and never changed. The length is the number of lines whatever was done before. If the preprocessing of a line raises, the vectors of the lines before it have been given and the corpus is as before. UciCorpus.save_corpus writes every word at its id and reading gives it back; without a mapping the words are the numbers; the dictionary of a UCI corpus counts documents and positions exactly. (Findings, proved as such: the dictionary made by UciCorpus.create_dictionary has bytes as words and finds no word, so doc2bow of every document is empty; of several ids with the same word, such as the filler ---, it knows only the last; a generator saved without a mapping is used up before it is written; a failed init_dictionary turns metadata off.)",
  "all files, preprocessing functions, dictionaries, histories of iterations and length queries, vocabularies and corpora",
  "a test builds a corpus of nine short texts once and looks at one vocabulary",
  "gensim/corpora/textcorpus.py:TextCorpus","gensim/corpora/ucicorpus.py:UciCorpus","gensim/utils.py:dict_from_corpus")
p("C124","Parallel coherence statistics with failing processes; coherence from word vectors","When word statistics for topic coherence are accumulated in parallel and workers fail or processes are interrupted, at any point and in any schedule, a result that is returned never counts more than the serial accumulation would; as long as one worker has not failed the computation goes on. The coherence of a topic from word vectors (c_w2v) is the mean, over its words with a vector, of the cosine between the word's vector and the mean vector of those words: words without a vector do not matter, the support is the number of words with one, and each topic with unknown words is reported with their number; word ids the dictionary does not know are refused. (Findings, proved as such: a failure in a worker is silent: the statistics returned lack its counts, and the pairs of words of the batch it failed in are lost while their single occurrences are kept; if there are more batches than workers and all workers fail, the call never returns nor raises; nor does it if only the master is interrupted; one topic without any known word makes the coherence of all topics nan; the user's hs is never used for the trained word vectors, because it is overwritten by an argument named hw; the last warning counts topics and calls them terms.)","all relevant words, texts, numbers of processes, batch sizes and window sizes; all schedules and all points at which workers fail or processes are interrupted; all dictionaries, vectors and topics; all arguments for training","failures of workers in the middle of batches and their interleavings are not exercised by tests, and the loss they cause looks like a normal result","gensim/topic_coherence/text_analysis.py:AccumulatingWorker","gensim/topic_coherence/text_analysis.py:ParallelWordOccurrenceAccumulator","gensim/topic_coherence/text_analysis.py:WordVectorsAccumulator","gensim/topic_coherence/indirect_confirmation_measure.py:word2vec_similarity")
p("C125","Sections, links and articles of a segmented Wikipedia dump","Segmenting an article of the main namespace never fails on its text and loses nothing: the text is the concatenation of an introduction and sections with their heading lines, the sections returned are these in order with stripped headings and filtered contents, and no heading is left inside a part; a text made of ordinary headings and bodies without hidden headings gives back exactly its sections. For every number of workers and every order in which they finish, the articles yielded are those pages of the dump that have an ordinary title, belong to the main namespace, have text, are no redirections and are long enough, each once and in order, up to the first page that lacks an element; the output file has one line per article, also if the run fails; every line is printable ASCII whatever the article holds, reading it as JSON gives back the title, the titles and texts of the sections and the links (present exactly if asked for), and different articles have different lines. Every link found stands in the text between double brackets, and all links between stretches of ordinary text are found in order with target and label. (Findings, proved as such: headings of one character, headings on the first line and the second of two adjacent heading lines are not recognised, and a line that begins with == followed by a line == is taken as a heading; a link inside another link's label hides both; of a link with several bars the second part is the label.)","all texts, introductions, headings and bodies; all dumps, numbers of processes and schedules; all filters and minimal lengths","the regular expressions and the parallel pipeline are tested on one small dump; the interplay of adjacent headings and the order of results depend on all texts and schedules","gensim/scripts/segment_wiki.py:segment","gensim/scripts/segment_wiki.py:_WikiSectionsCorpus","gensim/scripts/segment_wiki.py:segment_and_write_all_articles","gensim/corpora/wikicorpus.py:find_interlinks")
p("C126", "Evaluation data of Poincaré embeddings",
  "Reading a relation file gives the set of its pairs; a row without exactly two fields is an AssertionError and an unknown node a KeyError. The mean rank is the mean over the distinct pairs of the file and MAP the mean over the distinct first nodes, whatever the order of the sets; link prediction ranks the pairs of the test file against nodes related in neither file. The lexical entailment score of two words is -(1 + 1000·(norm2 - norm1))·distance for a pair of their senses (keys starting with the word and a dot) at the least distance; it is higher towards the more general word; pairs with a word without senses are skipped and the expected and predicted scores of the others are aligned; a repeated pair counts once, with its last score. (Findings, proved as such: with max_n the result depends on the order of the set; with several closest pairs the score depends on the order of the trie.)",
  "every file, embedding, order of the sets and of the trie", "all files and all orders",
  "gensim/models/poincare.py:ReconstructionEvaluation", "gensim/models/poincare.py:LinkPredictionEvaluation", "gensim/models/poincare.py:LexicalEntailmentEvaluation")
p("C127", "Training from a file: learning rates, totals and loss",
  "In corpus_file mode the rate of a thread's batch stays within [min_alpha, alpha], never rises within an epoch and comes from what this thread alone has read; train() returns the sums of the words over all threads and epochs in whatever order the threads report; with one worker the training loss is the sum over the jobs, with several it is the sum over some of them including the last stored, never more than the whole sum. (Findings, proved as such: with several workers each reads only a part f of the file, so the rate never gets below min_alpha + (alpha - min_alpha)(1 - f)/epochs; with total_examples but no total_words - which is accepted - nothing, or one batch per thread, is trained on; a failing thread makes train() wait forever; when all threads start before one ends the reported loss is that of the last one alone.)",
  "every file, number of workers and epochs, every interleaving of the threads", "all interleavings",
  "gensim/models/word2vec_corpusfile.pyx:train_epoch_sg", "gensim/models/word2vec_corpusfile.pyx:get_next_alpha", "gensim/models/word2vec.py:Word2Vec._train_epoch_corpusfile", "gensim/models/word2vec.py:Word2Vec._log_epoch_progress", "gensim/models/word2vec.py:Word2Vec.get_latest_training_loss")
p("C128", "Numeric kernels: logsumexp, digamma, expectation of log Dirichlet",
  "In exact arithmetic, logsumexp is the logarithm of the sum of the exponentials, computed with exponents that are never positive, and lies between the maximum and the maximum plus the logarithm of the number of entries; digamma differs from the derivative of log Gamma by at most 1.5e-13 for every x above 1e-6, by at most 2x + 1e-8 below, and satisfies digamma(x+1) = digamma(x) + 1/x exactly for 1e-6 < x < 8.5; dirichlet_expectation gives psi(alpha_k) - psi(sum alpha) up to 3e-13, row by row. ret_log_normalize_vec returns the logarithm of the sum of the exponentials of a vector, of every row or of every column, subtracts it so that the exponentials then sum to 1, takes exponentials whose sum lies between e^100/(n+1) and e^100 however large or small the numbers are, and refuses other axes and empty rows. (Finding, proved as such: a vector passed to it is changed in place, a matrix is not.)",
  "every real number or matrix of real numbers", "all arguments: an error bound over a continuum",
  "gensim/_matutils.pyx:logsumexp", "gensim/_matutils.pyx:digamma", "gensim/_matutils.pyx:dirichlet_expectation", "gensim/matutils.py:ret_log_normalize_vec")
p("C129","The null word of concatenating models","In a model built with a null word (Doc2Vec with dm_concat, Word2Vec with null_word), a fresh vocabulary holds the retained words with their counts and the null word exactly once, with the count 1; with sorted_vocab every word seen at least twice comes before it. After any history of build_vocab calls every other word has exactly one row and its accumulated count, and the null word is looked up at the last of its rows. (Findings, proved as such: every update adds one more row for the null word and looks it up there, so the row trained for the padding is abandoned; a corpus that itself holds the null word gives it two rows; and although described as never predicted, the null word has its share of the negative-sampling table and is drawn.)","all histories of fresh and updating vocabulary builds, settings, trim rules, corpora and outcomes of argsort; all states of the random generator","The rows depend on the whole history of builds and on how numpy orders ties; a test builds one vocabulary once.","gensim/models/word2vec.py:Word2Vec.add_null_word","gensim/models/word2vec.py:Word2Vec.prepare_vocab","gensim/models/word2vec.py:Word2Vec.make_cum_table","gensim/models/keyedvectors.py:KeyedVectors.sort_by_descending_frequency")
p("C130","Distributed training with failing and dying workers","However the processing of jobs fails (with whatever traces left in the worker's state) and whenever workers die, a getstate call of the LDA or LSI dispatcher that returns has returned the statistics of exactly the jobs put since the last reset, each once; a failure never leads to a silently incomplete model. After a worker died no later getstate returns, and the LDA dispatcher raises while it waits. (Findings, proved as such: a job whose processing raises is never reported, so getstate never returns and, as long as the workers live, never raises either; the LSI dispatcher does not check its workers and stays silent even when they died; a worker whose job failed never asks for another one, so that after as many failures as there are workers the queue is not served any more.)","all numbers of workers, client scripts following the protocol, schedules, failing jobs, partial effects of failing jobs and moments of death","Failures at particular moments of a distributed run are not reproducible in a test, and that a call never returns cannot be observed.","gensim/models/lda_dispatcher.py:Dispatcher.getstate","gensim/models/lda_dispatcher.py:Dispatcher.jobdone","gensim/models/lda_worker.py:Worker.requestjob","gensim/models/lsi_dispatcher.py:Dispatcher.getstate","gensim/models/lsi_worker.py:Worker.requestjob")
p("C131","bound and log_perplexity are a bound on a log probability","LdaModel.bound(corpus) is the sum over the documents of their expected log likelihood minus the divergence of the document's topic distribution from the prior, times subsample_ratio, minus the divergence of every topic from the prior: for every corpus with non-negative counts, every trained state, every random start of the inference and every scalar or vector eta it is never positive, does not depend on the order of the documents, and the bounds of two parts of a corpus add up to that of the whole except that the topics' part counts once. log_perplexity divides by the words of the chunk scaled to total_docs: it is the documents' bound per word plus the topics' part spread over the expected words of total_docs documents, never positive (so the reported perplexity 2**-x is at least 1) and never decreasing in total_docs. HdpModel.evaluate_test_corpus is the sum of the likelihoods of the documents that have words. (Findings, proved as such: with a prior given as a matrix the sum over the whole matrix is used where the sum of the topic's row belongs, so the value is not a bound and can be positive; bound with the argument gamma raises ValueError as soon as a document has a word; log_perplexity of an empty chunk and evaluate_test_corpus of a corpus without words raise ZeroDivisionError.)","all corpora with non-negative counts, priors, topics, starts of the inference and values of total_docs","Tests compare the bound of one model on one corpus with a recorded number; non-positivity is an inequality between digamma and gamma functions over all positive parameters.","gensim/models/ldamodel.py:LdaModel.bound","gensim/models/ldamodel.py:LdaModel.log_perplexity","gensim/models/hdpmodel.py:HdpModel.evaluate_test_corpus","gensim/models/atmodel.py:AuthorTopicModel.log_perplexity")
p("C132","Dynamic topic models: fitting, constructing and showing","While a word of a topic is fitted over the time slices, the function handed to the optimiser is the negative of the word's part of the bound at the posterior mean path for the observations tried (random walk prior plus expected log probability of the counts); it is a convex function of the observations, and with the exact derivatives of the means, which exist for every model, the derivative code computes exactly its gradient, so a point where it vanishes is a global minimum. LdaSeqModel(...) succeeds only with a corpus or a mapping and with time slices; its vocabulary is the mapping's size or the largest word id plus one, and it is trained exactly if a corpus is given, from the statistics asked for. dtm_vis reports each term's frequency in the corpus; dtm_coherence gives the words of every topic in the order of print_topic. (Findings, proved as such: the matrix of derivatives in use is not that of the means, so for every model and every observations, of two values of the newest count at least one is fitted with a wrong gradient; time_slice has the default None but a call without it always raises TypeError; an unknown way to initialise, or a missing model or statistics, end in AttributeError or TypeError; dtm_vis gives the numbers of distinct entries as document lengths.)","all variances, numbers of slices, counts, normalisers and observations; all constructor arguments; all corpora","Tests fit one small corpus and compare with stored numbers to a low precision; that a function is the gradient of another is a statement about all points.","gensim/models/ldaseqmodel.py:f_obs","gensim/models/ldaseqmodel.py:df_obs","gensim/models/ldaseqmodel.py:sslm.compute_obs_deriv","gensim/models/ldaseqmodel.py:LdaSeqModel.__init__","gensim/models/ldaseqmodel.py:LdaSeqModel.dtm_vis")
p("C133","Helpers for HTML entities, nested lists, opened files, hard links and uploads","utils.decode_htmlentities leaves text without ampersands alone, recovers every text from its decimal and its hexadecimal numeric entities, replaces a known entity name by its character and leaves unknown names and numbers that are no code point as they are, in one pass (what was decoded is not decoded again). utils.flatten keeps the order, opens lists of any depth, keeps strings whole and is idempotent. utils.open_file closes a file it opened however the body ends, rewinds and never closes a file passed in, and passes every exception on. copytree_hardlink makes hard links and restores shutil.copy2, also when copying fails. upload_chunked sends every document once, in order, in non-empty chunks of at most chunksize. effective_n_jobs is at least one for every argument but zero. (Findings, proved as such: in an entity name beginning with x or X the letter is ignored, so &xi; is never decoded and &xlt; becomes a character; bytes in nested lists come out as numbers; two calls of copytree_hardlink in different threads can leave shutil.copy2 replaced by os.link for good; upload_chunked with a preprocessing function removes the text from the caller's documents, so a second upload fails at once.)","all texts, tables of entity names, nested lists, ways a with-body ends, thread schedules, document lists and chunk sizes","Tests decode a few entities and flatten one list; backtracking of the pattern, interleavings and repeated calls are not exercised.","gensim/utils.py:decode_htmlentities","gensim/utils.py:flatten","gensim/utils.py:open_file","gensim/utils.py:copytree_hardlink","gensim/utils.py:upload_chunked","gensim/utils.py:effective_n_jobs")
p("C134","Synchronous methods and counting jobs","Calls of synchronous methods of one object from any number of threads never overlap, have the effect of the same calls made one after the other in an order that respects the order of every thread (also when calls raise), and never block each other for ever; therefore the dispatcher of distributed training counts every notification about a finished job, which it would not do without the lock. In any history of repeated trainings on one dispatcher, asking for the result returns exactly when no more jobs of the current training are missing than workers have reported jobs of earlier trainings since it was started; so if there are no such reports, exactly when every job is done. (Findings, proved as such: a training started while a worker is still busy with a job of an aborted one can return a result with a job missing; and initialising an object again replaces the lock without acquiring it, so that two threads are then inside its synchronous methods.)","all objects, method bodies as sequences of atomic steps (with exceptions), numbers of threads, queues of calls and schedules; all histories of initialisations, jobs put, finished and reported late","The effects show only in particular interleavings of threads and for particular crash histories of distributed runs.","gensim/utils.py:synchronous","gensim/models/lda_dispatcher.py:Dispatcher.jobdone","gensim/models/lda_dispatcher.py:Dispatcher.getstate","gensim/models/lda_dispatcher.py:Dispatcher.initialize","gensim/models/lsi_dispatcher.py:Dispatcher.jobdone")
p("C135","Unpacking matrices of n-gram vectors","Restoring a packed matrix of n-gram vectors to one row per bucket never loses or repeats a vector; it returns a complete matrix as it is and refuses one that is too large. If those hashes that are themselves numbers of packed rows come in pairs that exchange places (in particular if there are none), every hash finds its vector in the row with its own number and all other new rows hold the new values. Lock factors are prolonged by ones and never shortened. (Findings, proved as such: for other packings the order of the swaps matters, the vectors of two hashes are exchanged, or a hash loses its vector to another one and is left with a random row.)","all matrices, numbers of buckets, dictionaries from hashes to rows and new rows","The result depends on the cycles of the permutation the dictionary describes; the tests use three dictionaries of three entries.","gensim/models/fasttext.py:_unpack","gensim/models/fasttext.py:_pad_ones","gensim/models/fasttext.py:_pad_random")
p("C136","Random generators and reproducibility","A model constructed with an integer as its seed is determined by the seed and its own calls, whatever was done before and whatever other models and users of the global generator do in between; a model that is stored and loaded goes on as the stored one would have gone on; a seed of a wrong kind is refused. With one worker the result of an epoch of word vector training is that of training on the jobs in corpus order, for every timing of the threads. Inference of topics takes number-of-documents times number-of-topics numbers from the generator of an LDA model; showing all topics and bounds with given topic weights take none. With parallel LDA the numbers for a chunk depend only on how many documents its worker had before. (Limits and findings, proved as such: without a seed, or with a shared generator as in the LDA model suggested by an HDP model, other models interfere; queries for topics of documents and showing some of the topics change what later training of an LDA model gives, and the same query may be answered differently; parallel LDA depends on which worker gets which chunk although seeded, and its workers draw the same numbers; with two workers the order of training depends on the timing; a Word2Vec model stored without generator gets one with which every batch raises; training from a file without negative sampling and downsampling takes its windows from uninitialised memory.)","all histories of constructing, calling, storing and loading models and of using the global generator; all generators, seeds, chunks, schedules and batches","Reproducibility quantifies over everything else that happens in the process and over all timings of threads and processes.","gensim/utils.py:get_random_state","gensim/models/ldamodel.py:LdaModel.inference","gensim/models/ldamodel.py:LdaModel.show_topics","gensim/models/ldamulticore.py:worker_e_step","gensim/models/word2vec.py:Word2Vec._load_specials","gensim/models/hdpmodel.py:HdpModel.suggested_lda_model")
p("C137","Comparing topic models by coherence gives each model its own coherences and reads the corpus once",
  "For topic models over the words of a dictionary and coherence 'u_mass', for_models builds a coherence model whose topn is the number asked for (or the number of words, if smaller); compare_models on it returns for each topic model, in order, and for each number of words of the grid, exactly the coherences that a fresh computation over the corpus gives for its heaviest words, and the statistics collected by for_models are used unchanged, so the corpus is read only once. Ids are turned into the right words or raise KeyError, and every id in use has its word if no word was added since the reverse mapping was built. No listing, or an empty listing, is refused. (Findings, proved as such: if words were added to the dictionary after its reverse mapping was built, some valid id raises KeyError in for_models; if topics have different lengths, a model made by for_topics without topn raises when it compares a listing whose first topic is not one of the longest.)",
  "all reachable dictionaries, all topic models with any weights, all corpora, topn and grids",
  "the heaviest words, the shared statistics and the state of the reverse mapping depend on arbitrary models and histories of the dictionary",
  "gensim/models/coherencemodel.py:CoherenceModel.for_models","gensim/models/coherencemodel.py:CoherenceModel.for_topics","gensim/models/coherencemodel.py:CoherenceModel.compare_models")
p("C138","The vectors of words and tags of a Doc2Vec model saved together are all loaded again",
  "After Doc2Vec.save_word2vec_format with words and tags, in text or binary format, loading the file gives every word its vector and every tag, under the prefix followed by the tag, its vector: the words ordered by count, then the integer tags, then the string tags by number of documents; this holds also when there are only integer tags, which are written twice. Saving only words, only tags or nothing writes exactly that. With a vocabulary file, the words with their counts and the string tags with their numbers of documents are listed. Keys must contain no spaces or newlines, and the names of words and tags must differ. (Findings, proved as such: with a vocabulary file and only integer tags an exception is raised after the words have been written, and the file left behind cannot be loaded; a string tag that looks like an integer tag loses its vector.)",
  "all models whose tags come from any tagged corpus, all vectors, prefixes, encodings of numbers and read sizes",
  "the layout of the file depends on the kinds of tags, the counts and the mode of opening the file",
  "gensim/models/doc2vec.py:Doc2Vec.save_word2vec_format","gensim/models/keyedvectors.py:KeyedVectors.save_word2vec_format","gensim/models/keyedvectors.py:KeyedVectors.load_word2vec_format")
p("C139","Removing the markup of a page of Wikipedia leaves its text and only its text",
  "Text without markup is returned unchanged by remove_markup. A tag, a comment, a footnote, formula or nowiki element with its content, a category, a template and the list of languages at the end are removed and the text around them is left as it is; of a link with a description, of an address with a description and of a picture with a caption, the description or caption is left; of a link without description the name of the page is left. For every text, the result contains no '<' that is followed anywhere by '>', no brackets if they are to be promoted, and its characters other than line breaks and bars are characters of the text in the same order. Formatting of a table cell is recognised only after the two characters that the pattern asks for. (Findings, proved as such: links nested four deep leave a page name; a plain line beginning with a word such as rowspan is deleted; a footnote ends at the first empty element inside it, and its rest is left in the text; a caption is cut at a link inside it; a picture in small letters in the last line is taken for a language; braces that meet when a tag is removed are left.)",
  "all texts; all surrounding texts without markup, all names, descriptions, contents and lists of languages; every class of word characters that excludes the punctuation of the markup",
  "the result depends on the interplay of seventeen regular expressions, applied in a loop to texts of any length",
  "gensim/corpora/wikicorpus.py:remove_markup","gensim/corpora/wikicorpus.py:remove_file","gensim/corpora/wikicorpus.py:RE_P11")
p("C140","Text and links of a Wikipedia page with any number of links","For a page that consists of plain text and any number of links to articles, written [[target]] or [[target|label]], filter_wiki returns exactly the text with each link replaced by what a reader sees (the label, or the target if there is none), and find_interlinks returns exactly the pairs (target, label shown), in the order of the page, without losing, merging or inventing one; with promote_remaining off, the links without label stay and the others become the label in single brackets, and with both flags off the page is not changed. (Findings, proved as such: a link whose label begins with '-' is taken for a row of a table and one whose target ends with two spaces for a cell of a table, so that find_interlinks loses both although the text shows them.)","every page of that form, every number of links, every target and label without markup of their own","A test has a page or two; each of a dozen substitutions looks at the whole page, so that one link could change how another is read.","gensim/corpora/wikicorpus.py:filter_wiki","gensim/corpora/wikicorpus.py:find_interlinks","gensim/corpora/wikicorpus.py:remove_markup")
p("C141","The filters and scanners are what their regular expressions do","For every text, replacing with the regular expressions of the source by a backtracking matcher gives what the text filters promise: every maximal run of punctuation or of whitespace becomes one space, digits are deleted, every character that is not alphanumeric becomes a space, the tags `<...>` with a name are deleted, letters and digits that touch are put apart, and the tokens are the maximal runs of alphabetic characters. The links found in a page are the texts between two opening and the next two closing brackets on the same line, and splitting at top-level headings and collecting them give the same headings and the parts between them. The example filter keeps a page exactly if one of its two templates stands anywhere in the text. The namespace of a dump is the text in braces before the name of the root element, and a file whose namespace is not the one of MediaWiki exports is refused.","every text, every Unicode table of spaces, letters and digits, every optional page text and every tag of a root element","Greedy, lazy and possessive reading of an expression differ only on particular texts, and a test has to hit one of them.","gensim/parsing/preprocessing.py:strip_punctuation","gensim/parsing/preprocessing.py:strip_tags","gensim/parsing/preprocessing.py:strip_numeric","gensim/parsing/preprocessing.py:strip_non_alphanum","gensim/parsing/preprocessing.py:strip_multiple_whitespaces","gensim/parsing/preprocessing.py:split_alphanum","gensim/utils.py:simple_tokenize","gensim/corpora/wikicorpus.py:filter_example","gensim/corpora/wikicorpus.py:get_namespace","gensim/scripts/segment_wiki.py:segment")
p("C142","The kind of training, the vocabulary and the vectors of Doc2Vec models","A Doc2Vec model trains in the kind that its arguments ask for (DBOW with or without words, DM concatenating or averaging) with a layer of the size for it; after the first vocabulary every tag of the corpus has a vector of its own, newly made, and training is only ever given rows of existing vectors; every document of a batch is trained once, with the rows of its known tags in order. Vocabularies from frequencies leave the tags alone. Resetting from another model takes over its words and tags with as many vectors. A key in square brackets is a word if there is one and otherwise a tag, and several keys give all vectors or fail. (Findings, proved as such: the argument `dm_mean` has no effect whatsoever, so `dm_mean=0` averages all the same; adding documents with `update=True` replaces the index of the tags but adds no vectors, so new documents take over vectors of old ones or are trained on rows that do not exist; resetting keeps vectors that the model already has and fails if it has more; an integer key smaller than the number of words gives the vector of a word and never that of the document with this tag; the warning about unused rows is missing when one row is unused and given for corpora without unused rows.)","all settings, all corpora of documents with integer and string tags, all vocabularies, all vectors, every way of training and all keys","Tests build one vocabulary, look up string tags, and compare whether training improves similarities, which averaging and summing both do.","gensim/models/doc2vec.py:Doc2Vec.__init__","gensim/models/doc2vec.py:Doc2Vec.build_vocab","gensim/models/doc2vec.py:Doc2Vec.build_vocab_from_freq","gensim/models/doc2vec.py:Doc2Vec.reset_from","gensim/models/doc2vec.py:Doc2Vec._do_train_job","gensim/models/doc2vec.py:Doc2Vec.__getitem__","gensim/models/doc2vec.py:Doc2Vec.init_weights","gensim/models/word2vec.py:Word2Vec.__init__")
p("C143", "The formats of a ShardedCorpus",
  "A ShardedCorpus built from any non-empty collection of documents, with any shard size, serialization and retrieval, and then used in any history of accesses, lists, iterations, slices, resizing, saving, reopening and changes of the retrieval formats answers with the vectors of the original documents (last weight of a repeated id, zero elsewhere) in the format set at that time: arrays, csr matrices or gensim documents; a document with increasing ids and weights above the threshold of the conversion (not zero, if serialized as sparse) comes back as it was. Building succeeds exactly when the number of features is known and no id lies beyond it; that number is the one the source advertises, and the argument dim counts only if it advertises none. (Findings, proved as such: single documents of sparsely serialized data come wrapped in something of one row, so iterating with gensim=True yields generators instead of documents; resize_shards writes back what retrieval returns: with gensim=True it always raises, with sparse serialization and array retrieval it reports success and afterwards every access raises, with dense serialization and sparse retrieval every later slice over the end of a shard raises; reopening by the constructor does not read sparse_serialization from the saved object; a differing dim argument is overruled although the warning says otherwise.)",
  "every collection of documents, every history, every combination of formats",
  "depends on the history of formats and on the kind of the files written earlier",
  "gensim/corpora/sharded_corpus.py:ShardedCorpus.__getitem__", "gensim/corpora/sharded_corpus.py:ShardedCorpus._getitem_format", "gensim/corpora/sharded_corpus.py:ShardedCorpus.resize_shards", "gensim/corpora/sharded_corpus.py:ShardedCorpus._guess_n_features", "gensim/corpora/sharded_corpus.py:ShardedCorpus.init_shards")
p("C144","A dry run of the vocabulary predicts the real one, and the memory estimate is the size of the arrays",
"After the corpus of a new model is scanned, a dry run of prepare_vocab reports exactly what the real run does: how many different words are kept and dropped, how many words of the corpus are left, how many words are downsampled and how many words of the corpus are expected to remain; both runs return the same report. A dry run changes neither the words, the counts nor the vectors of a model if the model does not sort its words or if the words are updated; if it sorts, words keep their counts and vectors, and if in addition the counts strictly decrease everything stays in place. estimate_memory gives the bytes of all arrays a model of that size holds plus a fixed amount per word, tag and n-gram. (Findings, proved as such: a dry run sorts the words of a trained model without its output rows, so that after an online update words get the output rows of others; with a null word a dry run adds that word to the vocabulary, or raises IndexError on a model with vectors; min_count=0 and sample=0 are taken as not given; an update reports only the words of the new corpus, so build_vocab underestimates the memory; a report passed back in counts its own total; FastText ignores vocab_size and leaves out one array of word vectors.)",
"every scanned corpus, settings and arguments of prepare_vocab, state of a model (vocabulary, vectors, output rows), result of argsort on ties, and sizes",
"tests run prepare_vocab on one small corpus and never compare the reports of dry and real runs or the state after a dry run",
"gensim/models/word2vec.py:Word2Vec.prepare_vocab","gensim/models/word2vec.py:Word2Vec.estimate_memory","gensim/models/doc2vec.py:Doc2Vec.estimate_memory","gensim/models/fasttext.py:FastText.estimate_memory")
p("C145","Hierarchical softmax is a distribution over the vocabulary, and score() gives its log probabilities",
"For every vocabulary, all vectors and every way of breaking ties among equal counts, the probabilities that the codes assign to the words given an input are positive and add up to one. Word2Vec.score gives a CBOW sentence the sum of the log probabilities of its words given the mean (or sum) of the words in the window, and a skip-gram sentence that of every word given each word in its window, if no inner product reaches 6 in absolute value; unknown words count as absent, words after the first 10000 known ones are ignored, a single known word scores its code length times log 1/2 with CBOW, and a model with one word scores everything 0. Scores are never positive; the tables change a score by at most 0.06 per bit and input. (Findings, proved as such: inner products of 6 or more in absolute value are left out even if they speak against the word, so a score is only an upper bound of the log probability, the exponentials of the scores of all words add up to one or more, and words that are as improbable as one likes get the best score 0.)",
"every vocabulary and its counts, tie-breaking in the heap, vectors, window, sentence, and content of uninitialised memory",
"a test scores a few sentences and checks that the number is finite; that probabilities add up to one for all weights needs the structure of the codes",
"gensim/models/word2vec_inner.pyx:score_sentence_cbow","gensim/models/word2vec_inner.pyx:score_sentence_sg","gensim/models/word2vec.py:Word2Vec.score","gensim/models/word2vec.py:_assign_binary_codes")
p("C146", "Poincaré queries by key, number and vector agree",
  "For an embedding as training leaves it (distinct keys, all vectors in the ball): distance(a, b) of two nodes is the Poincaré distance of their vectors, by key or by row number; distances(key, others) is the list of these distances in the order asked, and distances(key) that of all nodes in the order of the rows; asking by key is asking by the key's vector, for distances and norm; an unknown key anywhere is an error. difference_in_hierarchy is the difference of the norms: positive exactly when the first node is nearer to the origin, opposite when exchanged, additive along chains. (Findings, proved as such: distances takes a row number, although documented, as a vector: 0 means the origin, 1 and -1 are infinitely far from everything, every other number gives nan everywhere; norm of a row number is its absolute value, so difference_in_hierarchy of two row numbers does not depend on the embedding; an empty list of other nodes means all nodes.)",
  "every dimension, embedding in the ball, key, number, vector and list of other nodes, over exact reals",
  "Tests query a handful of nodes of one embedding, by key only.",
  "gensim/models/poincare.py:PoincareKeyedVectors.distances", "gensim/models/poincare.py:PoincareKeyedVectors.distance", "gensim/models/poincare.py:PoincareKeyedVectors.norm", "gensim/models/poincare.py:PoincareKeyedVectors.difference_in_hierarchy", "gensim/models/poincare.py:PoincareKeyedVectors.vector_distance_batch")
p("C147","Saving objects that share other objects",
"When several attributes hold the same SaveLoad object, or objects refer back to each other: once everything has been put aside and stored, every object in memory has all its attributes back, whether writing the pickle succeeds or raises; and if no object has a big array or an ignored attribute, what was saved loads with every attribute, and attributes that held one object still hold one object. (Findings, proved as such: if two attributes of the saved object hold the same object, its big arrays and its ignored attributes are missing after loading, although saving and loading succeed; saving an object that is part of a cycle raises whatever the recursion limit, and its big arrays are then gone from memory.)",
"every graph of objects, every sep_limit, separately and ignore, every recursion limit and failing write",
"the number of ways objects can refer to each other is unbounded, and no test saves an object that is held twice",
"gensim/utils.py:SaveLoad._smart_save","gensim/utils.py:SaveLoad._save_specials","gensim/utils.py:SaveLoad._load_specials")
p("C148","Reading any Matrix Market, UCI or Blei file",
"For any file, not only those this library wrote: iterating over a Matrix Market or UCI file succeeds exactly when every line after the headers holds an entry, document numbers never decrease and none is below 1; then the documents come numbered from 0 without gaps, each with all its entries in the order of the file, and docbyoffset at the first entry of a document gives the same entries. A line in Blei's format is accepted only with as many entries as it announces. (Findings, proved as such: an entry of a document beyond the number in the header makes iteration yield more documents than len() says, against the documentation; a file cut short after a whole line is read without complaint, its missing entries left out; an empty file is accepted as an empty corpus.)",
"every text file, both orders of rows and columns, every point at which a file can be cut after a line",
"tests read a handful of well-formed files; the claim is about every file and every truncation",
"gensim/corpora/_mmreader.pyx:MmReader.__iter__","gensim/corpora/_mmreader.pyx:MmReader.docbyoffset","gensim/corpora/ucicorpus.py:UciReader","gensim/corpora/bleicorpus.py:BleiCorpus.line2doc")
p("C149","A save interrupted by a crash, over the files of an older save",
 "Saving an object is a fixed sequence of writes of files, no two of the same file and all under the name given, and the main file is written only after all of them: it exists in its new form exactly if every write before took place. After a crash at any moment every separate file is as the older save left it or as the new save would have left it. If nothing of the new object is stored separately, a crash before the main file is replaced leaves the older save as it was. (Finding, proved as such: otherwise nothing protects the older save. An object of big arrays is saved, and a later save of new values under the same name crashes after any number t of writes: loading succeeds without complaint, and returns an object of which the first t arrays are the new ones and the others the old ones, which was never saved.)",
 "all objects of any nesting depth, all choices of what is stored separately or ignored, all older files, all crash points",
 "tests save to fresh temporary files and never crash in the middle",
 "gensim/utils.py:SaveLoad._smart_save","gensim/utils.py:SaveLoad._save_specials","gensim/utils.py:SaveLoad.load","gensim/utils.py:SaveLoad._load_specials")
p("C150","Telling a corpus from a document by its first element",
 "is_corpus decides from the class and the first element of an object: iterating over the object it returns gives every element there was, whatever the answer, and asking again gives the same answer; the object passed is untouched unless it is an iterator, which then lacks its first element. Documents of (id, number) pairs, at least one, are a corpus, whatever follows the first; a single such document, a dense vector, a list of vectors with a non-empty first one and an empty collection are not. A class whose name contains 'Corpus' is believed whatever it holds. (Findings, proved as such: a tokenised document whose first word is the empty string is taken for a corpus; so are tokenised documents of which the first begins with a word of two characters that read as an integer and a number, such as '42'.)",
 "all objects: collections, iterators and objects that cannot be iterated, with elements of any nesting, any rule for reading numbers from strings",
 "tests try a dozen objects",
 "gensim/utils.py:is_corpus")
p("C151","A crash while a corpus or a dictionary is written",
 "If the process dies while a corpus is saved, the file left is a beginning of what was being written. In the one-line-per-document formats (SVMlight, Blei, list of words, Mallet), reading it raises or gives the first documents, whole and in order, and at most one more, which may be cut; the same holds for the tokens and ids of a dictionary saved as text. In Matrix Market and UCI the numbers of the header are filled in last, so a file left before that cannot be opened: the reader raises at every crash point but those named below. Both writers end by filling in the header of exactly that stream. (Findings, proved as such: the cut document is read without complaint with another weight or another word: 12 becomes 1, 'ab' becomes 'a'; in SVMlight and in the dictionary's text the missing last newline is enough. Once its first line is out, a cut list-of-words file announces the full number of documents, and a cut dictionary the full number of documents, however little follows. A Matrix Market file cut right after its first line, or empty, is read as a corpus without documents.)",
 "all corpora and vocabularies, all crash points (lengths of what reached the disk), all writers and readers of floats",
 "tests never cut a file at every byte",
 "gensim/matutils.py:MmWriter.write_corpus","gensim/corpora/_mmreader.pyx:MmReader","gensim/corpora/ucicorpus.py:UciWriter.write_corpus","gensim/corpora/svmlightcorpus.py:SvmLightCorpus.save_corpus","gensim/corpora/bleicorpus.py:BleiCorpus.save_corpus","gensim/corpora/lowcorpus.py:LowCorpus.save_corpus","gensim/corpora/malletcorpus.py:MalletCorpus.save_corpus","gensim/corpora/dictionary.py:Dictionary.load_from_text")
p("C152","A fastText binary file that was cut short",
  "A file from which load_facebook_model reads a model does not load as a whole model when bytes are missing at its end, wherever it was cut: no prefix of it ever yields a model. load_facebook_vectors needs the file up to the end of the first matrix, and accepts every longer prefix with the same vectors. (Finding, proved as such: where the file is cut at or inside a word of the vocabulary, or just before the byte that ends it, loading does not raise but loops for ever, since the end of the file is not the end-of-word marker; for a saved model exactly these cut points hang.)",
  "all files, all cut points, all vocabularies",
  "A test cuts a file at one place; the claim is about every byte of every file.",
  "gensim/models/_fasttext_bin.py:load","gensim/models/_fasttext_bin.py:_load_vocab","gensim/models/_fasttext_bin.py:_load_matrix","gensim/models/_fasttext_bin.py:_struct_unpack","gensim/models/fasttext.py:load_facebook_model","gensim/models/fasttext.py:load_facebook_vectors")
p("C153","Training with a failing thread or process",
  "If Word2Vec (or Doc2Vec, FastText) training returns, then no worker thread and not the thread that reads the corpus ended with an exception, and every job was trained exactly once. As long as no worker process dies, a pass of LdaMulticore can end from every state that any schedule leads to. (Finding, proved as such: after an exception in a worker thread, in a callback or while iterating over the corpus, training never returns and raises nothing: all threads stand still after a bounded number of steps; after a worker process of LdaMulticore died with a chunk, the pass never ends.)",
  "all corpora, numbers of workers and queue sizes, all schedules, all points and numbers of failures",
  "A test would have to wait for ever, for every point of failure and every schedule.",
  "gensim/models/word2vec.py:Word2Vec._worker_loop","gensim/models/word2vec.py:Word2Vec._job_producer","gensim/models/word2vec.py:Word2Vec._log_epoch_progress","gensim/models/ldamulticore.py:LdaMulticore.update","gensim/models/ldamulticore.py:worker_e_step")
p("C154","The number of terms of topic models and corpora that can be read once",
  "For a word mapping with the ids 0..n-1 every topic model (LDA, author-topic, LSI, random projections, NMF, HDP, sequential LDA) has n terms; for a mapping with missing ids LDA, author-topic, LSI and random projections have one term more than the largest id, so every id is in range; without a mapping the number of terms is one more than the largest id of the corpus, and nothing is constructed from neither. A corpus that can be read repeatedly, with or without a length, is read whole in every pass when an LDA, LSI or NMF model is constructed. (Findings, proved as such: HDP, NMF and sequential LDA count the ids, so with a missing id some id is out of range; a generator given to LdaModel raises with a mapping and silently leaves the model untrained without one; LsiModel and Nmf without a mapping also train on nothing; Nmf.update compares the number of passes of the constructor instead of its own, so repeated passes over an iterator go through and read nothing.)",
  "all corpora, mappings, numbers of passes",
  "A test has one corpus and one mapping, usually without gaps and as a list.",
  "gensim/models/ldamodel.py:LdaModel.__init__","gensim/models/ldamodel.py:LdaModel.update","gensim/models/atmodel.py:AuthorTopicModel.__init__","gensim/models/lsimodel.py:LsiModel.__init__","gensim/models/lsimodel.py:LsiModel.add_documents","gensim/models/rpmodel.py:RpModel.initialize","gensim/models/nmf.py:Nmf.__init__","gensim/models/nmf.py:Nmf.update","gensim/models/hdpmodel.py:HdpModel.__init__","gensim/models/ldaseqmodel.py:LdaSeqModel.__init__","gensim/utils.py:dict_from_corpus","gensim/utils.py:get_max_id")
p("C155","Constructing a coherence model, what its estimations read, and its topics",
  "CoherenceModel(...) succeeds exactly if there is a topic model or there are topics with a dictionary, the mapping is explicit or not a FakeDict, and the measure has what it needs (u_mass: something recognised as a corpus, or texts with a Dictionary; c_v, c_uci, c_npmi: texts; c_w2v: texts or word vectors). The window is the one given or the documented default, and at least one process is used. If corpus and texts can be read repeatedly, every estimation goes through all of them. A coherence model of a topic model shows as many of the heaviest words as it was last told to, whatever it was told before. (Findings, proved as such: a corpus that is an iterator loses its first document when the model is constructed, and every estimation after the first goes through no document, or no text, of an iterator; an unknown measure raises KeyError instead of the intended ValueError unless a window size is given; texts for u_mass raise AttributeError if id2word is a plain mapping; topics given together with a topic model are replaced by those of the topic model when topn is raised above their length.)",
  "all combinations of arguments, all corpora and texts, all numbers of estimations and histories of setting topn",
  "Tests construct a few valid combinations with lists; the combinations of arguments and kinds of streams are too many to enumerate",
  "gensim/models/coherencemodel.py:CoherenceModel.__init__","gensim/models/coherencemodel.py:CoherenceModel.topn","gensim/models/coherencemodel.py:CoherenceModel.model","gensim/models/coherencemodel.py:CoherenceModel.estimate_probabilities","gensim/utils.py:is_corpus")
p("C156","Reading the pages of a MediaWiki dump",
  "From the XML of a dump in which no page contains a page, extract_pages yields for every page, in the order of the dump and once, its title, its id and its text (empty if the page is filtered out), where the namespace of the dump is that of the element that ends first; a page without title, text, id or (if namespaces are filtered) namespace element raises AttributeError after the pages before it were yielded; extract_page_xmls yields the same pages. A file with another namespace is refused before anything is yielded. A dump that was cut anywhere yields the first pages of the whole dump unchanged, and then raises an exception. So WikiCorpus.get_texts starts from exactly the pages of the dump. (Finding, proved as such: of a page with several revisions only the text of the first one, the oldest in history dumps, is read.)",
  "all XML documents, page contents, filters, and all points at which a file can be cut",
  "Tests read one or two small complete dumps; the claims are about every tree and every cut",
  "gensim/corpora/wikicorpus.py:extract_pages","gensim/corpora/wikicorpus.py:get_namespace","gensim/scripts/segment_wiki.py:extract_page_xmls")
p("C157","The topics reported for the words of a document are those with enough of the word",
"get_document_topics(bow, per_word_topics=True) of an LDA model returns, for every pair of the document in order, the topics whose share of the word (probability of the topic for an occurrence, times the count) reaches the bound, with the shares in ascending order of topic; and the same topics by decreasing share, ties by decreasing topic number. The shares listed for a word add up to at most its count, and what is missing is at most the bound for every topic left out. The topics of the document are those of a call without per_word_topics. (Findings, proved as such: the bound is compared with the share, not with the probability, so a word whose weight is below the bound has no topics however certain its topic is; and of a word listed twice only the last count enters, in both entries.)",
"every model with positive weights, document, bounds, settings and random start of inference",
"The listing depends on real-valued variational parameters of every document; tests look at one trained model.",
"gensim/models/ldamodel.py:LdaModel.get_document_topics","gensim/models/ldamodel.py:LdaModel.inference")
p("C158","Author-topic inference splits every word among the authors and topics of its document",
"For every chunk of documents with their authors, inference of an author-topic model handles the documents one after the other. For each one it repeats rounds in which every occurrence of a word is split among the authors and topics of the document (shares not negative, adding up to 1), and every author's row steps from its value before the document towards the row in which the document stands for all documents of the author, until the mean change falls below gamma_threshold or the allowed rounds are over. Gammas stay positive; authors of no document of the chunk keep theirs; the statistics of a word add up to its count; neighbouring documents without a common author can change places; and with one author per document who wrote nothing else and a full step, rows and statistics are those of LDA. (Finding, proved as such: counts are converted to integers, so a document with weights below 1 contributes nothing and pulls its authors towards the prior, whatever its words.)",
"every model with positive weights, step size in [0,1], gammas, chunk, lists of authors and counts",
"Tests train on one small corpus and look at shapes; the relation to LDA, the mass of the statistics and the independence of documents hold for all real parameters.",
"gensim/models/atmodel.py:AuthorTopicModel.inference","gensim/models/atmodel.py:AuthorTopicModel.compute_phinorm")
p("C159","A bag-of-words pipeline gives the same results after its parts went through files",
"A Dictionary stored with save_as_text and loaded with load_from_text gives every text the same vector, unknown words and ids, and goes on giving the same ids and frequencies when the same documents are added to both. The vectors of texts written to a Matrix Market file are read back unchanged. TF-IDF models of the corpus in memory, of the corpus read from its file, of the dictionary and of the loaded dictionary transform every vector alike. (Finding, proved as such: the text format loses the collection frequencies and the counts of positions and entries, so for every collection with a word the automatic pivot of a TF-IDF model of the loaded dictionary is 0 with the SMART code u, instead of the mean number of different words, and its construction raises with the code b.)",
"every list of texts whose words have no tab or newline, sort order, number format that is exact on counts, weighting, normalisation, vector and further documents",
"Each part has tests of its own; that their composition changes nothing is a statement about all inputs of all parts at once.",
"gensim/corpora/dictionary.py:Dictionary.load_from_text","gensim/corpora/mmcorpus.py:MmCorpus","gensim/models/tfidfmodel.py:TfidfModel")
p("C160","Relations are read from a file as they are written there",
"PoincareRelations yields exactly the rows of its file, in their order: fields separated by the delimiter, each written as it is or in quotes with quotes doubled (then it may contain delimiters, quotes and line ends), lines ended by line feed or carriage return and line feed, the end of the last line optional. An empty line yields an empty row. What follows a complete row is read independently of it. At a carriage return inside a line or a NUL csv.Error is raised, after all rows before it were yielded. (Findings, proved as such: a node that begins with a quote that is never closed swallows all following relations of the file, as long as the field size limit permits, without an error; and CsvCorpus cannot be constructed from any file, because it joins bytes with a str.)",
"every file contents, delimiter, number of rows and fields, field contents and field size limit",
"Quotes, line ends and delimiters can be combined in unboundedly many ways and a quote may take effect arbitrarily far away; tests read one well-behaved file.",
"gensim/models/poincare.py:PoincareRelations.__iter__","gensim/corpora/csvcorpus.py:CsvCorpus.__init__")
p("C161","The bound of an author-topic model is a bound on a log probability",
"AuthorTopicModel.bound is, for counts that are natural numbers, the expected log likelihood of the documents (each word given by an author drawn evenly from the document's authors) times subsample_ratio, minus the divergences of the authors' topic distributions from the prior scaled to all authors of the model, minus those of the topics from their prior. It is never above 1e-100 per word, does not depend on the order of documents, of authors or of the authors and words of a document, and agrees, except for the guard 1e-100 of the logarithm, with LDA's bound when every document has an author of its own. log_perplexity divides it by the words of the chunk scaled to total_docs. Documents without authors, chunks without documents and empty author tables raise. (Finding, proved as such: counts lose their fractions, so documents with weights below 1, such as TF-IDF vectors, add nothing to the bound, whatever their words, while log_perplexity divides by their full weight.)",
"every trained state, prior, chunk, assignment of authors to documents, subsample ratio and total number of documents",
"Non-positivity is an inequality between digamma and gamma functions over all positive parameters; tests only compare perplexities of one corpus before and after training.",
"gensim/models/atmodel.py:AuthorTopicModel.bound","gensim/models/atmodel.py:AuthorTopicModel.log_perplexity","gensim/models/atmodel.py:AuthorTopicModel.compute_phinorm")
p("C162", "What a constructed TfidfModel has counted, and when it can be used",
  "TfidfModel(...) takes its statistics from the dictionary if it has tokens (the corpus then makes no difference), otherwise from the corpus unless that is known to be empty, otherwise from nothing. With a SMART code the weights and the normalisation of the code replace those of the user, without one the user's are kept. A pivot given by the user is kept; without one only the codes u and b set it, if something was counted: u to the mean number of entries of a document, b to the mean number of characters of a document. A bad code raises ValueError, codes u and b raise ZeroDivisionError if no documents were counted, and any other call without a pivot to compute never raises. For the dictionary of any collection with a token and any documented code, the construction succeeds and every document of known terms can be transformed. (Findings, proved as such: the code b with a corpus and no dictionary raises AttributeError; with a corpus and an empty dictionary it succeeds with the pivot 0 and then raises on every document; with a dictionary it raises on a document with a term unknown to the dictionary, which every other code drops; a model without a source is constructed without complaint and raises on every document with a term.)",
  "every combination of corpus, dictionary, SMART code, pivot and weighting functions, and every document",
  "the branches of the constructor interact; tests use a handful of combinations",
  "gensim/models/tfidfmodel.py:TfidfModel.__init__", "gensim/models/tfidfmodel.py:TfidfModel.__getitem__")
p("C163", "The topics an HDP model infers and the likelihood of its test corpus",
  "hdp[bow] is computed from the gammas an LdaModel with the same priors and topics infers (started at 1, with the constants of hdpmodel.py). The likelihood that comes with them is the variational bound of the document at these gammas: at least that of the uniform start, never lowered by more turns, and for topics that are distributions never above 10^-100 for every word of the document. evaluate_test_corpus is the sum of these bounds over the documents that are not empty, so for every trained model it is (up to that constant) never positive; without a non-empty document it raises ZeroDivisionError, and inference without turns raises.",
  "every trained model, every document with non-negative counts, every number of turns",
  "inequality between sums of special functions over all inputs",
  "gensim/models/hdpmodel.py:lda_e_step", "gensim/models/hdpmodel.py:HdpModel.evaluate_test_corpus", "gensim/models/hdpmodel.py:HdpModel.inference")
p("C164", "An update of the topics of an LDA model never makes the bound of its documents worse",
  "With priors that are not learnt, an offset of at least 1 and a decay that is not negative, every update of the topics during training (the E steps on its chunks and its M step) moves the topics by the learning rate towards the prior plus the weighted statistics of its documents, and the bound of these documents (weighted as log_perplexity does, at the gammas of the E steps) is not lower afterwards than before, whatever the learning rate, the number of documents, the size of the chunks and the initial gammas; nor are the gammas of the E steps worse than the initial ones. A pass is a sequence of such updates, covers the corpus once, and leaves a model of which the same holds, so no update of any pass lowers the bound of its documents. In distributed mode the update is the same, however the chunks were spread over the workers.",
  "every model with positive priors, every corpus of documents with distinct ids and non-negative counts, every chunking, update_every, pass and learning rate schedule",
  "convexity of special functions over all models and corpora; a test sees one run whose bound happens to grow",
  "gensim/models/ldamodel.py:LdaModel.update", "gensim/models/ldamodel.py:LdaModel.do_mstep", "gensim/models/ldamodel.py:LdaModel.do_estep", "gensim/models/ldamodel.py:LdaState.blend", "gensim/models/ldamodel.py:LdaModel.bound")
p("C165", "Training of an HDP model ascends: inference on a document and the update of the topics",
  "From its fourth turn on, the inference that HDP training runs on every document never lowers the variational bound of the document, whatever its counts, the topics and the sticks, and wherever the loop stops; and the update of the topics with a chunk never lowers the part of the bound that depends on the topics, for the statistics of the chunk scaled up to the corpus and every learning rate between 0 and 1. If every word of the document has count 1, the likelihood it computes is this bound, so from the fifth turn on the likelihood never decreases, the warning 'likelihood is decreasing!' never appears and the loop does not go on because of a negative rate. (Finding, proved as such: for documents with repeated words the likelihood is not the bound, because the part of the topic assignments is not weighted by the counts; with counts of at least 1 it is never below the bound.)",
  "every document with non-negative counts, every topics, sticks, number of topics and turns",
  "convexity of special functions over all documents; a test sees one run without the warning",
  "gensim/models/hdpmodel.py:HdpModel.doc_e_step", "gensim/models/hdpmodel.py:expect_log_sticks", "gensim/matutils.py:ret_log_normalize_vec")
p("C166", "The rounds of author-topic inference ascend",
  "Every round in which an author-topic model adapts the rows of the authors of a document makes the document worth more, by at least the divergences of the rows before the round from the rows after it: worth is the expected log likelihood of its words minus, for every author, the divergence of the row from a prior that lies between the row before the document and alpha according to the step size, divided by the step size and the number of documents of the author. Wherever the rounds stop, the document is worth no less than before; a round that gains nothing has moved no author. With a full step and one author with one document this is the bound of LDA.",
  "every model with positive weights, step size in (0, 1], positive gammas, list of authors with at least one document each, document with non-negative counts, and number of rounds",
  "convexity of special functions over all documents and rows; tests look at shapes after training",
  "gensim/models/atmodel.py:AuthorTopicModel.inference", "gensim/models/atmodel.py:AuthorTopicModel.compute_phinorm")
p("C167", "Fitting a document of a dynamic topic model ascends",
  "The likelihood that a dynamic topic model reports for a fitted document is the variational bound at its weights and topic probabilities. It never decreases from round to round, so it never falls when more rounds are allowed; every round gains at least the divergence of the weights before from those after; it is never below the bound of even topic probabilities and never above what the tokens would have if every word had the largest probability, so never positive. For words with probabilities below 1 the rounds come to an end by themselves: from some number of allowed rounds on, allowing more changes nothing. (Finding, proved as such: the number that the first round is compared with is not a bound: the logarithms of the topic probabilities of the previous document are read, which makes it too high by the counts times a divergence, and too low by the logarithm of the number of topics for every token of the first document.)",
  "every prior with positive weights, topics, document with non-negative counts, contents of the table of the previous document and number of rounds",
  "convexity of special functions over all documents; the first number only decides whether a second round is made",
  "gensim/models/ldaseqmodel.py:LdaPost.fit_lda_post", "gensim/models/ldaseqmodel.py:LdaPost.compute_lda_lhood", "gensim/models/ldaseqmodel.py:LdaPost.update_phi", "gensim/models/ldaseqmodel.py:LdaPost.update_gamma")
p("C168", "Inference on a document of an LDA model ends by itself",
  "If the constant that keeps divisors off 0 is left out, every update of a document's gamma after the first raises the bound of the document by at least the squared distance that the gamma moves, divided by the square of twice its total (the priors plus the number of tokens). The number of updates that move the weights by gamma_threshold or more on average is therefore limited by an explicit expression in the threshold, the number of topics, the total and what the bound can still gain: whatever the document, the topics and the initial gamma, from some number of allowed iterations on, allowing more changes nothing, and the last update has moved the weights by less than the threshold.",
  "every model with positive weights and positive gamma_threshold, document with non-negative counts, initial gamma and number of iterations",
  "termination for all real-valued inputs; tests look at one corpus with 50 iterations allowed",
  "gensim/models/ldamodel.py:LdaModel.inference")
p("C169", "Training of an author-topic model uses every word of every document once per pass",
  "A pass of AuthorTopicModel.update goes through the documents in groups of chunks that together are all documents, each once and in order: update_every * numworkers chunks per update of the topics, the rest at the end, or all of them in batch mode. If the constant that keeps divisors off 0 is left out, each update of the topics moves the weight of every word, summed over the topics, by the learning rate towards the number of its occurrences in the group, stretched to the number of documents that the model has counted, however many authors a document has. With priors that are not learnt, it does not matter between two updates of the topics how the documents are cut into chunks: authors and topics are those of inference on all these documents at once. Documents are counted once per call, whatever the number of passes. In batch mode the distance that is left after a call is the product of what the passes leave, and after the first call of a model with the default offset the weights of every word add up to exactly its occurrences. Authors keep positive weights for all topics, and those who wrote none of the documents keep the weights they had. (Finding, proved as such: update() without a corpus, which continues training, counts the documents that the model already has once more at every call: after m calls the model believes in m times the documents, and the weights of all words exceed their occurrences and head for m times as many, which more passes in one call do not do.)",
  "every model with positive alpha, corpus of documents with authors and whole counts, number of passes and of calls, update_every, chunk size and way of learning the priors",
  "the weights after any number of passes and calls; tests check shapes and that values change",
  "gensim/models/atmodel.py:AuthorTopicModel.update, gensim/models/atmodel.py:AuthorTopicModel.do_estep, gensim/models/ldamodel.py:LdaModel.do_mstep")
p("C170", "When the loops of NMF training stop",
  "All documents of a chunk get the same number of rounds of updates of their weights: the loop stops after the first round whose error differs from that of the round before by less than h_stop_condition, hence never after the first, and otherwise at h_max_iter. The error of a round is at least the distance that it moves the weights, component by component equal to the move unless the move was cut short at 0. A round with error 0 means that every document already has its best non-negative weights. The logged L2 norm is the distance of the documents from their combinations of topics, and more rounds never make it larger. The topics are moved by some number of steps within w_max_iter, stopping before the first step at which the relative change of the error since it was last computed is below w_stop_condition. (Findings, proved as such: a previous error of exactly 0 never stops the rounds. The error of the topics is remembered across chunks, so the first comparison of a chunk is with an error for other statistics: a chunk may not move the topics at all, though a step would make the error smaller.)",
  "every matrix of topics, chunk of documents, warm start, sequence of permutations, limit and stopping threshold, and every earlier chunk",
  "stopping rules over real-valued histories; tests train on one small corpus",
  "gensim/models/nmf.py:Nmf._solveproj, gensim/models/nmf.py:Nmf._solve_w, gensim/models/nmf.py:Nmf.l2_norm, gensim/models/nmf_pgd.pyx:solve_h")
p("C171", "The coherence of a topic is the mean of the confirmations of its segments",
  "The value of a topic is the mean of the confirmations of its segments: the number that they differ from by 0 in total, within every range that contains all of them, and independent of the order of the segments. With with_std and with_support a tuple is returned instead, always with the mean first, then the standard deviation, then the number of segments. The deviation is not negative, at most the width of every range that contains the values, 0 exactly if all segments have the same value, and its square is the mean of the squares less the square of the mean. Without segments mean and deviation are not numbers.",
  "every list of confirmations and every combination of the two flags",
  "for all real-valued lists; tests use the default flags on one corpus",
  "gensim/topic_coherence/direct_confirmation_measure.py:aggregate_segment_sims")
p("C172", "find_phrases returns exactly the phrases that detection joins",
  "find_phrases(sentences) of a frozen model maps p to s exactly when the left-to-right scan of one of the sentences joins words into p with the score s; the scores are those the model has stored, all above its threshold. A live model returns exactly the phrases that looking the sentences up one after another joins, each with the score of its last occurrence, and is left as looking them up would leave it. (Finding, proved as such: the score a live model reports depends on what was looked up before, because looking up inserts unknown words and the number of keys enters the score: asking twice gives two scores.)",
  "every model, live or frozen, every scoring and every list of sentences of non-empty tokens",
  "for all models and all histories of lookups; tests ask once, on one model",
  "gensim/models/phrases.py:_PhrasesTransformation.find_phrases, _PhrasesTransformation.analyze_sentence, Phrases.score_candidate, FrozenPhrases.score_candidate")
p("C173", "Text survives UTF-8, and working on bytes is working on characters",
  "any2unicode(bytes) is s exactly when any2utf8(s) gives these bytes: encoding loses nothing, different texts have different bytes, and nothing else is read as s. any2utf8 of bytes returns them unchanged or raises, the latter exactly for bytes that encode no text (overlong forms, surrogates, values above U+10FFFF, cut sequences). Splitting the bytes at an ASCII character gives the encodings of the parts of the text, the lines of a file read as bytes are the encodings of the lines of its text, and decoding line by line is decoding at once. From the byte position behind n characters one reads the encoding of the rest, and different positions stay different. A file that was cut anywhere never decodes to another text: what its beginning decodes to is a beginning of the text, and a cut inside a character is an error.",
  "every text of Unicode scalar values, every byte string, every ASCII separator and every point where a file is cut",
  "for all texts and all cut points; tests encode a few accented words",
  "gensim/utils.py:any2utf8, any2unicode")
p("C61", "Special tokens get the ids asked for",
  "patch_with_special_tokens on any dictionary, with special tokens it does not know yet at distinct existing ids, gives every special token its id, keeps the ids of the tokens at other ids, loses no token and leaves the ids a gap-free bijection. (It raises KeyError for some inputs with already known tokens, depending on earlier lookups, and leaves document frequencies at the old ids.)",
  "every operation history, every set of special tokens", "the failing cases depend on the lookup history through a cached reverse map",
  "gensim/corpora/dictionary.py:Dictionary.patch_with_special_tokens")
p("C62", "from_corpus rebuilds the dictionary a corpus was made with",
  "Dictionary.from_corpus applied to the vectors d.doc2bow(doc) of all documents with id2word=d has the ids, document frequencies and counters of d; in general its document frequencies count the vectors containing the id. Collection frequencies are not rebuilt.",
  "every list of documents, every corpus of vectors", "all corpora",
  "gensim/corpora/dictionary.py:Dictionary.from_corpus")

if __name__ == "__main__":
    out = os.path.join(os.path.dirname(os.path.dirname(os.path.abspath(__file__))), "properties.jsonl")
    with open(out, "w") as f:
        for x in P:
            f.write(json.dumps(x, ensure_ascii=False) + "\n")
    print(len(P), "properties")
