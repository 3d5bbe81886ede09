{
 "claims": [
  {
   "property": "C01",
   "status": "proved",
   "theorems": [
    "Verif.Dictionary.C01_ids_dense_bijection",
    "Verif.Dictionary.C01_operations_never_raise",
    "Verif.Dictionary.C01_listing_order"
   ],
   "note": ""
  },
  {
   "property": "C02",
   "status": "proved",
   "theorems": [
    "Verif.Dictionary.C02_doc2bow_exact",
    "Verif.Dictionary.C02_missing_exact",
    "Verif.Dictionary.C02_update_knows_all"
   ],
   "note": ""
  },
  {
   "property": "C03",
   "status": "proved",
   "theorems": [
    "Verif.Dictionary.C03_statistics_exact",
    "Verif.Dictionary.C03_statistics_additive",
    "Verif.Dictionary.C03_order_independent",
    "Verif.Dictionary.C03_df_le_num_docs"
   ],
   "note": ""
  },
  {
   "property": "C04",
   "status": "proved",
   "theorems": [
    "Verif.Dictionary.C04_doc2bow_pure",
    "Verif.Dictionary.C04_doc2idx"
   ],
   "note": ""
  },
  {
   "property": "C05",
   "status": "proved",
   "theorems": [
    "Verif.Dictionary.C05_filter_extremes",
    "Verif.Dictionary.C05_keep_tokens_survive_without_cut",
    "Verif.Dictionary.C05_keep_tokens_fails",
    "Verif.Dictionary.C05_filter_n_most_frequent",
    "Verif.Dictionary.C05_filter_tokens"
   ],
   "note": "The documented keep_tokens guarantee is false (C05_keep_tokens_fails, as the property says); it holds when keep_n does not cut (C05_keep_tokens_survive_without_cut). no_above is the integer int(no_above*num_docs), universally quantified."
  },
  {
   "property": "C06",
   "status": "proved",
   "theorems": [
    "Verif.Dictionary.C06_reverse_lookup",
    "Verif.Dictionary.C06_lookup_harmless"
   ],
   "note": ""
  },
  {
   "property": "C07",
   "status": "proved",
   "theorems": [
    "Verif.Dictionary.C07_text_roundtrip",
    "Verif.Dictionary.C07_tab_token_unreadable",
    "Verif.Dictionary.C07_newline_token_unreadable"
   ],
   "note": ""
  },
  {
   "property": "C08",
   "status": "proved",
   "theorems": [
    "Verif.Dictionary.C08_merge_with",
    "Verif.Dictionary.C08_translation",
    "Verif.Dictionary.C08_merge_equals_joint",
    "Verif.Dictionary.C08_cfs_not_merged"
   ],
   "note": "cfs are not merged by the code: stated as C08_cfs_not_merged."
  },
  {
   "property": "C09",
   "status": "proved",
   "theorems": [
    "Verif.Dictionary.C09_pruned_counts_never_exceed",
    "Verif.Dictionary.C09_pruned_size_bounded",
    "Verif.Dictionary.C09_check_leaves_at_most_k",
    "Verif.Dictionary.C09_check_leaves_exactly"
   ],
   "note": ""
  },
  {
   "property": "C10",
   "status": "proved",
   "theorems": [
    "Verif.HashDict.C10_history_independent",
    "Verif.HashDict.C10_vector_exact",
    "Verif.HashDict.C10_counters",
    "Verif.HashDict.C10_debug_statistics",
    "Verif.HashDict.C10_debug_tables_agree",
    "Verif.HashDict.C10_filter_extremes",
    "Verif.HashDict.C10_keep_n",
    "Verif.HashDict.C10_nodebug_no_tables",
    "Verif.HashDict.C10_save_as_text",
    "Verif.HashDict.C10_save_as_text_nodebug"
   ],
   "note": ""
  },
  {
   "property": "C11",
   "status": "proved",
   "theorems": [
    "Verif.Phrases.C11_greedy_scan",
    "Verif.Phrases.C11_segments",
    "Verif.Phrases.C11_segments_frozen",
    "Verif.Phrases.C11_empty_token_dropped"
   ],
   "note": "Non-empty tokens; C11_empty_token_dropped shows the hypothesis is needed."
  },
  {
   "property": "C12",
   "status": "proved",
   "theorems": [
    "Verif.Phrases.C12_counts_never_exceed",
    "Verif.Phrases.C12_counts_exact",
    "Verif.Phrases.C12_batching_independent"
   ],
   "note": ""
  },
  {
   "property": "C13",
   "status": "proved",
   "theorems": [
    "Verif.Phrases.C13_frozen_decides_as_live",
    "Verif.Phrases.C13_frozen_same_on_known",
    "Verif.Phrases.C13_frozen_same",
    "Verif.Phrases.C13_live_depends_on_history",
    "Verif.Phrases.C13_export_raises"
   ],
   "note": "One-character delimiters. The failures for default scoring (C13_live_depends_on_history) and for tokens with the delimiter (C13_export_raises) are proved as witnesses."
  },
  {
   "property": "C14",
   "status": "proved",
   "theorems": [
    "Verif.Vocab.C14_prune_exact",
    "Verif.Vocab.C14_prune_members",
    "Verif.Vocab.C14_trim_by_freq",
    "Verif.Vocab.C14_merge_counts",
    "Verif.Vocab.C14_counts_never_exceed",
    "Verif.Vocab.C14_lost_at_most",
    "Verif.Vocab.C14_counts_exact"
   ],
   "note": "The word counting loop of Word2Vec (word2vec.py:534-564) with prune_vocab; Phrases._learn_vocab has the same loop over words and bigrams (see C11)."
  },
  {
   "property": "C15",
   "status": "proved",
   "theorems": [
    "Verif.Chunk.C15_concat",
    "Verif.Chunk.C15_sizes",
    "Verif.Chunk.C15_count",
    "Verif.Chunk.C15_transformed_same"
   ],
   "note": ""
  },
  {
   "property": "C16",
   "status": "proved",
   "theorems": [
    "Verif.Chunk.C16_same_as_serial",
    "Verif.Chunk.C16_no_deadlock",
    "Verif.Chunk.C16_terminates",
    "Verif.Chunk.C16_producer_failure_hangs"
   ],
   "note": "The no-deadlock theorem is for corpora whose iterator does not raise; C16_producer_failure_hangs shows the consumer stuck when it does."
  },
  {
   "property": "C17",
   "status": "proved",
   "theorems": [
    "Verif.View.C17_repeat",
    "Verif.View.C17_repeat_n_times",
    "Verif.View.C17_clipped",
    "Verif.View.C17_sliced_unindexed",
    "Verif.View.C17_sliced_len",
    "Verif.View.C17_sliced_len_negative",
    "Verif.View.C17_sliced_len_negative_step_fails",
    "Verif.View.C17_sliced_len_empty_slice_fails",
    "Verif.View.C17_sliced_indexed",
    "Verif.View.C17_bounds"
   ],
   "note": ""
  },
  {
   "property": "C18",
   "status": "proved",
   "theorems": [
    "Verif.SaveLoad.C18_save_restores",
    "Verif.SaveLoad.C18_save_keeps_object",
    "Verif.SaveLoad.C18_flat_crash_safe",
    "Verif.SaveLoad.C18_load_save",
    "Verif.SaveLoad.C18_nested_loses_arrays",
    "Verif.SaveLoad.C18_parent_loses_arrays",
    "Verif.SaveLoad.C18_save_succeeds",
    "Verif.SaveLoad.C18_load_missing",
    "Verif.SaveLoad.C18_load_missing_child"
   ],
   "note": "Objects are trees of any depth (no object shared by two attributes). The two failures the property describes are the witnesses C18_nested_loses_arrays and C18_parent_loses_arrays."
  },
  {
   "property": "C19",
   "status": "proved",
   "theorems": [
    "Verif.Matutils.C19_ids_increasing",
    "Verif.Matutils.C19_full2sparse_entries",
    "Verif.Matutils.C19_dense_roundtrip",
    "Verif.Matutils.C19_sparse_roundtrip",
    "Verif.Matutils.C19_clipped",
    "Verif.Matutils.C19_csc_paths_agree",
    "Verif.Matutils.C19_csc_wrong_nnz",
    "Verif.Matutils.C19_csc_entries"
   ],
   "note": ""
  },
  {
   "property": "C20",
   "status": "proved",
   "theorems": [
    "Verif.Matutils.C20_sparse_unit",
    "Verif.Matutils.C20_sparse_idempotent",
    "Verif.Matutils.C20_sparse_zero",
    "Verif.Matutils.C20_unique",
    "Verif.Matutils.C20_dense_unit",
    "Verif.Matutils.C20_scipy_unit",
    "Verif.Matutils.C20_scipy_argument",
    "Verif.Matutils.C20_scipy_unique",
    "Verif.Matutils.C20_formats_agree",
    "Verif.Matutils.C20_stored_zeros"
   ],
   "note": ""
  },
  {
   "property": "C21",
   "status": "proved",
   "theorems": [
    "Verif.Matutils.C21_cossim_symm",
    "Verif.Matutils.C21_cossim_bounded",
    "Verif.Matutils.C21_cossim_self",
    "Verif.Matutils.C21_cossim_defined",
    "Verif.Matutils.C21_hellinger_symm",
    "Verif.Matutils.C21_hellinger_zero",
    "Verif.Matutils.C21_hellinger_le_one",
    "Verif.Matutils.C21_jaccard_bow_self",
    "Verif.Matutils.C21_jaccard_bow_symm",
    "Verif.Matutils.C21_jaccard_distance",
    "Verif.Matutils.C21_jaccard_sets"
   ],
   "note": ""
  },
  {
   "property": "C22",
   "status": "proved",
   "theorems": [
    "Verif.Formats.C22_roundtrip",
    "Verif.Formats.C22_exact",
    "Verif.Formats.C22_refused"
   ],
   "note": ""
  },
  {
   "property": "C23",
   "status": "proved",
   "theorems": [
    "Verif.Formats.C23_raises",
    "Verif.Formats.C23_roundtrip",
    "Verif.Formats.C23_comment",
    "Verif.Formats.C23_last_char_lost",
    "Verif.Formats.C23_corpus",
    "Verif.Formats.C23_len_counts_comments"
   ],
   "note": ""
  },
  {
   "property": "C24",
   "status": "proved",
   "theorems": [
    "Verif.Formats.C24_roundtrip",
    "Verif.Formats.C24_near_zero_unreadable",
    "Verif.Formats.C24_corpus",
    "Verif.Formats.C24_vocab"
   ],
   "note": ""
  },
  {
   "property": "C25",
   "status": "proved",
   "theorems": [
    "Verif.Formats.C25_uci_roundtrip",
    "Verif.Formats.C25_uci_saves",
    "Verif.Formats.C25_low_roundtrip",
    "Verif.Formats.C25_low_merged",
    "Verif.Formats.C25_low_refused",
    "Verif.Formats.C25_mallet_roundtrip",
    "Verif.Formats.C25_mallet_refused"
   ],
   "note": ""
  },
  {
   "property": "C26",
   "status": "proved",
   "theorems": [
    "Verif.Sharded.C26_history",
    "Verif.Sharded.C26_length",
    "Verif.Sharded.C26_reopen_other_size_wrong",
    "Verif.Sharded.C26_resize_unsaved_wrong"
   ],
   "note": ""
  },
  {
   "property": "C27",
   "status": "proved",
   "theorems": [
    "Verif.W2V.C27_history",
    "Verif.W2V.C27_fresh",
    "Verif.W2V.C27_max_final"
   ],
   "note": ""
  },
  {
   "property": "C28",
   "status": "proved",
   "theorems": [
    "Verif.W2V.C28_batches"
   ],
   "note": ""
  },
  {
   "property": "C29",
   "status": "proved",
   "theorems": [
    "Verif.W2V.C29_exactly_once",
    "Verif.W2V.C29_no_deadlock",
    "Verif.W2V.C29_terminates",
    "Verif.W2V.C29_one_worker_in_order"
   ],
   "note": ""
  },
  {
   "property": "C30",
   "status": "proved",
   "theorems": [
    "Verif.W2V.C30_codes",
    "Verif.W2V.C30_total",
    "Verif.W2V.C30_optimal",
    "Verif.W2V.C30_frequent_no_longer"
   ],
   "note": ""
  },
  {
   "property": "C31",
   "status": "proved",
   "theorems": [
    "Verif.W2V.C31_bisect",
    "Verif.W2V.C31_share",
    "Verif.W2V.C31_last_word_lost",
    "Verif.W2V.C31_table",
    "Verif.W2V.C31_proportion",
    "Verif.W2V.C31_every_word_drawn",
    "Verif.W2V.C31_negatives",
    "Verif.W2V.C31_negatives_are_draws"
   ],
   "note": ""
  },
  {
   "property": "C32",
   "status": "proved",
   "theorems": [
    "Verif.W2V.C32_linear",
    "Verif.W2V.C32_epoch",
    "Verif.W2V.C32_training",
    "Verif.W2V.C32_underestimated_rises",
    "Verif.W2V.C32_infer"
   ],
   "note": ""
  },
  {
   "property": "C33",
   "status": "proved",
   "theorems": [
    "Verif.W2V.C33_text8",
    "Verif.W2V.C33_block_size_irrelevant",
    "Verif.W2V.C33_newline_at_block_end",
    "Verif.W2V.C33_line_sentence"
   ],
   "note": ""
  },
  {
   "property": "C34",
   "status": "proved",
   "theorems": [
    "Verif.W2V.C34_next_batch",
    "Verif.W2V.C34_train_loop",
    "Verif.W2V.C34_loop_stops",
    "Verif.W2V.C34_complete",
    "Verif.W2V.C34_buffer_lost",
    "Verif.W2V.C34_lines",
    "Verif.W2V.C34_words",
    "Verif.W2V.C34_threads_overlap",
    "Verif.W2V.C34_threads_gap",
    "Verif.W2V.C34_single_thread",
    "Verif.W2V.C34_sentence_idx_overflow",
    "Verif.W2V.C34_truncated"
   ],
   "note": ""
  },
  {
   "property": "C35",
   "status": "proved",
   "theorems": [
    "Verif.W2V.C35_prepare",
    "Verif.W2V.C35_words_fit",
    "Verif.W2V.C35_sentences_fit",
    "Verif.W2V.C35_pairs",
    "Verif.W2V.C35_pairs_nodup",
    "Verif.W2V.C35_batch"
   ],
   "note": ""
  },
  {
   "property": "C36",
   "status": "proved",
   "theorems": [
    "Verif.W2V.C36_offsets",
    "Verif.W2V.C36_order",
    "Verif.W2V.C36_empty"
   ],
   "note": ""
  },
  {
   "property": "C37",
   "status": "proved",
   "theorems": [
    "Verif.Doc2Vec.C37_rows",
    "Verif.Doc2Vec.C37_negative",
    "Verif.Doc2Vec.C37_injective",
    "Verif.Doc2Vec.C37_counts",
    "Verif.Doc2Vec.C37_rebuild",
    "Verif.Doc2Vec.C37_foreign_integer"
   ],
   "note": ""
  },
  {
   "property": "C38",
   "status": "proved",
   "theorems": [
    "Verif.KV.C38_lookup",
    "Verif.KV.C38_order",
    "Verif.KV.C38_row_number",
    "Verif.KV.C38_duplicate_in_batch",
    "Verif.KV.C38_integer_key",
    "Verif.KV.C38_add_vector_index",
    "Verif.KV.C38_stale_norm",
    "Verif.KV.C38_norm"
   ],
   "note": ""
  },
  {
   "property": "C39",
   "status": "proved",
   "theorems": [
    "Verif.KV.C39_most_similar",
    "Verif.KV.C39_answers",
    "Verif.KV.C39_topn_zero",
    "Verif.KV.C39_searched_rows",
    "Verif.KV.C39_no_input_key",
    "Verif.KV.C39_cosmul"
   ],
   "note": ""
  },
  {
   "property": "C40",
   "status": "proved",
   "theorems": [
    "Verif.KV.C40_binary_reader",
    "Verif.KV.C40_chunk_size_matters",
    "Verif.KV.C40_binary_roundtrip",
    "Verif.KV.C40_text_roundtrip",
    "Verif.KV.C40_order",
    "Verif.KV.C40_limit",
    "Verif.KV.C40_text_too_short",
    "Verif.KV.C40_integer_keys_twice"
   ],
   "note": ""
  },
  {
   "property": "C41",
   "status": "proved",
   "theorems": [
    "Verif.KV.C41_closer_than",
    "Verif.KV.C41_rank"
   ],
   "note": ""
  },
  {
   "property": "C63",
   "status": "proved",
   "theorems": [
    "Verif.KV.C63_sort",
    "Verif.KV.C63_stale_norms",
    "Verif.KV.C63_set_vecattr",
    "Verif.KV.C63_add_keeps_attrs"
   ],
   "note": ""
  },
  {
   "property": "C42",
   "status": "proved",
   "theorems": [
    "Verif.FastText.C42_byte_ngrams",
    "Verif.FastText.C42_spans",
    "Verif.FastText.C42_ngrams",
    "Verif.FastText.C42_same_ngrams"
   ],
   "note": ""
  },
  {
   "property": "C43",
   "status": "proved",
   "theorems": [
    "Verif.FastText.C43_ascii",
    "Verif.FastText.C43_sign_extended",
    "Verif.FastText.C43_not_standard",
    "Verif.FastText.C43_bucket_range"
   ],
   "note": ""
  },
  {
   "property": "C44",
   "status": "proved",
   "theorems": [
    "Verif.FastText.Batch.C44_batched",
    "Verif.FastText.Batch.C44_batch_size",
    "Verif.FastText.Bin.C44_load_save",
    "Verif.FastText.Bin.C44_model_roundtrip",
    "Verif.FastText.Bin.C44_both_losses",
    "Verif.FastText.Bin.C44_zero_count",
    "Verif.FastText.Bin.C44_utf8",
    "Verif.FastText.Bin.C44_nul_word"
   ],
   "note": ""
  },
  {
   "property": "C64",
   "status": "proved",
   "theorems": [
    "Verif.FastText.C64_save_load",
    "Verif.FastText.C64_total",
    "Verif.FastText.C64_known_word",
    "Verif.FastText.C64_known_word_no_buckets",
    "Verif.FastText.C64_unknown_word",
    "Verif.FastText.C64_rows_exist",
    "Verif.FastText.C64_contains_lies",
    "Verif.FastText.C64_assignment_lost",
    "Verif.FastText.C64_added_word_unloadable"
   ],
   "note": ""
  },
  {
   "property": "C45",
   "status": "proved",
   "theorems": [
    "Verif.Lda.C45_merge_any_order",
    "Verif.Lda.C45_blend",
    "Verif.Lda.C45_blend_empty",
    "Verif.Lda.C45_blend_nonneg",
    "Verif.Lda.C45_blend_extremes"
   ],
   "note": ""
  },
  {
   "property": "C46",
   "status": "proved",
   "theorems": [
    "Verif.Lda.C46_pass",
    "Verif.Lda.C46_group_statistics",
    "Verif.Lda.C46_update"
   ],
   "note": ""
  },
  {
   "property": "C47",
   "status": "proved",
   "theorems": [
    "Verif.Lda.Multicore.C47_at_most_once",
    "Verif.Lda.Multicore.C47_batch",
    "Verif.Lda.Multicore.C47_forced_complete",
    "Verif.Lda.Multicore.C47_online_loss"
   ],
   "note": ""
  },
  {
   "property": "C48",
   "status": "proved",
   "theorems": [
    "Verif.Lda.Dispatch.C48_exactly_once",
    "Verif.Lda.Dispatch.C48_statistics",
    "Verif.Lda.Dispatch.C48_completes",
    "Verif.Lda.Dispatch.C48_protocol_needed"
   ],
   "note": ""
  },
  {
   "property": "C65",
   "status": "proved",
   "theorems": [
    "Verif.Lda.Dispatch.C65_distributed_lsi_forgets"
   ],
   "note": ""
  },
  {
   "property": "C49",
   "status": "proved",
   "theorems": [
    "Verif.Tfidf.C49_document_frequencies",
    "Verif.Tfidf.C49_repeated_ids_overcount",
    "Verif.Tfidf.C49_from_dictionary",
    "Verif.Tfidf.C49_from_dictionary_vectors",
    "Verif.Tfidf.C49_ids_order",
    "Verif.Tfidf.C49_unit_or_empty",
    "Verif.Tfidf.C49_plain",
    "Verif.Tfidf.C49_pivot_fixed_point",
    "Verif.Tfidf.C49_zero_frequency_raises",
    "Verif.Tfidf.C49_augmented_empty_raises",
    "Verif.Tfidf.C49_byte_length_needs_dictionary",
    "Verif.Tfidf.C49_byte_length_pivot_raises",
    "Verif.Tfidf.C49_plain_pivot_raises",
    "Verif.Tfidf.C49_idf",
    "Verif.Tfidf.C49_ubiquitous_dropped",
    "Verif.Tfidf.C49_resolve_weights",
    "Verif.Tfidf.C49_pivot_unique",
    "Verif.Tfidf.C49_pivot_bytes",
    "Verif.Tfidf.C49_smart_global",
    "Verif.Tfidf.C49_smart_local"
   ],
   "note": ""
  },
  {
   "property": "C66",
   "status": "proved",
   "theorems": [
    "Verif.LogEntropy.C66_weights",
    "Verif.LogEntropy.C66_generators",
    "Verif.LogEntropy.C66_empty_corpus_rejected",
    "Verif.LogEntropy.C66_transform"
   ],
   "note": ""
  },
  {
   "property": "C50",
   "status": "proved",
   "theorems": [
    "Verif.Coherence.C50_one_pre",
    "Verif.Coherence.C50_one_one",
    "Verif.Coherence.C50_one_set",
    "Verif.Coherence.C50_one_list_per_topic",
    "Verif.Coherence.C50_pairs_spec"
   ],
   "note": ""
  },
  {
   "property": "C51",
   "status": "proved",
   "theorems": [
    "Verif.Coherence.C51_exact",
    "Verif.Coherence.C51_bounds"
   ],
   "note": ""
  },
  {
   "property": "C52",
   "status": "proved",
   "theorems": [
    "Verif.Coherence.C52_never_over",
    "Verif.Coherence.C52_exact_iff",
    "Verif.Coherence.C52_exact_pairs",
    "Verif.Coherence.C52_distinct_words",
    "Verif.Coherence.C52_num_windows",
    "Verif.Coherence.C52_irrelevant",
    "Verif.Coherence.C52_undercounts",
    "Verif.Coherence.C52_second_call_doubles"
   ],
   "note": ""
  },
  {
   "property": "C53",
   "status": "proved",
   "theorems": [
    "Verif.Coherence.Parallel.C53_parallel_eq_serial",
    "Verif.Coherence.Parallel.C53_no_deadlock",
    "Verif.Coherence.Parallel.C53_terminates",
    "Verif.Coherence.Parallel.C53_needs_two",
    "Verif.Coherence.Parallel.C53_example_run"
   ],
   "note": ""
  },
  {
   "property": "C54",
   "status": "proved",
   "theorems": [
    "Verif.Docsim.C54_history",
    "Verif.Docsim.C54_shard_sizes",
    "Verif.Docsim.C54_save_load",
    "Verif.Docsim.C54_zero_weight_unusable",
    "Verif.Docsim.C54_add_after_save_breaks_saved"
   ],
   "note": ""
  },
  {
   "property": "C55",
   "status": "proved",
   "theorems": [
    "Verif.Docsim.C55_generator_one_shard",
    "Verif.Docsim.C55_generator_many_shards",
    "Verif.Docsim.Par.C55_serial",
    "Verif.Docsim.Par.C55_parallel",
    "Verif.Docsim.C55_topk",
    "Verif.Docsim.C55_values_independent",
    "Verif.Docsim.C55_all",
    "Verif.Docsim.C55_corpus",
    "Verif.Docsim.C55_empty_index_corpus"
   ],
   "note": ""
  },
  {
   "property": "C56",
   "status": "proved",
   "theorems": [
    "Verif.Termsim.C56_constraints",
    "Verif.Termsim.C56_origin",
    "Verif.Termsim.C56_plain_columns",
    "Verif.Termsim.C56_self_similarity",
    "Verif.Termsim.C56_tfidf_missing",
    "Verif.Termsim.C56_float16",
    "Verif.Termsim.C56_refused",
    "Verif.Termsim.C56_shortest_type",
    "Verif.Termsim.C56_counters_never_overflow"
   ],
   "note": ""
  },
  {
   "property": "C57",
   "status": "proved",
   "theorems": [
    "Verif.Porter.C57_total",
    "Verif.Porter.C57_measure",
    "Verif.Porter.C57_history",
    "Verif.Porter.C57_rules"
   ],
   "note": ""
  },
  {
   "property": "C58",
   "status": "proved",
   "theorems": [
    "Verif.Chunk.C58_chunked_same"
   ],
   "note": ""
  },
  {
   "property": "C59",
   "status": "proved",
   "theorems": [
    "Verif.Wiki.C59_removes",
    "Verif.Wiki.C59_every_text",
    "Verif.Wiki.C59_done"
   ],
   "note": ""
  },
  {
   "property": "C60",
   "status": "proved",
   "theorems": [
    "Verif.TextCorpus.C60_exact",
    "Verif.TextCorpus.C60_rejected",
    "Verif.TextCorpus.C60_too_long",
    "Verif.TextCorpus.C60_uniform",
    "Verif.TextCorpus.C60_metadata"
   ],
   "note": ""
  },
  {
   "property": "C67",
   "status": "proved",
   "theorems": [
    "Verif.Coherence.C67_raises_iff",
    "Verif.Coherence.C67_counts",
    "Verif.Coherence.C67_raises_witness"
   ],
   "note": ""
  },
  {
   "property": "C68",
   "status": "proved",
   "theorems": [
    "Verif.Docsim.C68_nested",
    "Verif.Docsim.C68_abandoned",
    "Verif.Docsim.C68_overlapping",
    "Verif.Docsim.C68_iterate",
    "Verif.Docsim.C68_iterate_dense",
    "Verif.Docsim.C68_dense_raises_iff"
   ],
   "note": ""
  },
  {
   "property": "C69",
   "status": "proved",
   "theorems": [
    "Verif.Termsim.C69_normalizations",
    "Verif.Termsim.C69_maintain",
    "Verif.Termsim.C69_negative_norm",
    "Verif.Termsim.C69_positive_definite",
    "Verif.Termsim.C69_cosine",
    "Verif.Termsim.C69_documents",
    "Verif.Termsim.C69_corpora",
    "Verif.Termsim.C69_related",
    "Verif.Termsim.C69_mixed_unnormalized",
    "Verif.Termsim.C69_mixed_normalized",
    "Verif.Termsim.C69_mixed_all_related",
    "Verif.Termsim.C69_mixed_wrong"
   ],
   "note": ""
  },
  {
   "property": "C70",
   "status": "proved",
   "theorems": [
    "Verif.Wiki.C70_texts",
    "Verif.Wiki.C70_no_minimum"
   ],
   "note": ""
  },
  {
   "property": "C71",
   "status": "proved",
   "theorems": [
    "Verif.TextCorpus.C71_shown",
    "Verif.TextCorpus.C71_order",
    "Verif.TextCorpus.C71_last",
    "Verif.TextCorpus.C71_last_wrong"
   ],
   "note": ""
  },
  {
   "property": "C72",
   "status": "proved",
   "theorems": [
    "Verif.TextCorpus.C72_files",
    "Verif.TextCorpus.C72_once",
    "Verif.TextCorpus.C72_length",
    "Verif.TextCorpus.C72_length_changed_during"
   ],
   "note": ""
  },
  {
   "property": "C73",
   "status": "proved",
   "theorems": [
    "Verif.Poincare.C73_metric",
    "Verif.Poincare.C73_similarity"
   ],
   "note": ""
  },
  {
   "property": "C74",
   "status": "proved",
   "theorems": [
    "Verif.Poincare.C74_distance",
    "Verif.Poincare.C74_gradient_u",
    "Verif.Poincare.C74_gradient_v",
    "Verif.Poincare.C74_check_passes",
    "Verif.Poincare.C74_check_detects"
   ],
   "note": ""
  },
  {
   "property": "C75",
   "status": "proved",
   "theorems": [
    "Verif.Poincare.C75_all_updates",
    "Verif.Poincare.C75_ball",
    "Verif.Poincare.C75_others_unchanged",
    "Verif.Poincare.C75_leaves_ball"
   ],
   "note": ""
  },
  {
   "property": "C76",
   "status": "proved",
   "theorems": [
    "Verif.Poincare.C76_vocab",
    "Verif.Poincare.C76_proportional",
    "Verif.Poincare.C76_negatives",
    "Verif.Poincare.C76_error",
    "Verif.Poincare.C76_too_few",
    "Verif.Poincare.C76_can_end",
    "Verif.Poincare.C76_own_negative"
   ],
   "note": ""
  },
  {
   "property": "C77",
   "status": "proved",
   "theorems": [
    "Verif.Poincare.C77_child",
    "Verif.Poincare.C77_parent",
    "Verif.Poincare.C77_ancestors",
    "Verif.Poincare.C77_descendants",
    "Verif.Poincare.C77_descendants_raises",
    "Verif.Poincare.C77_most_similar",
    "Verif.Poincare.C77_most_similar_vector",
    "Verif.Poincare.C77_first_node",
    "Verif.Poincare.C77_first_node_ball",
    "Verif.Poincare.C77_topn_zero"
   ],
   "note": ""
  },
  {
   "property": "C78",
   "status": "proved",
   "theorems": [
    "Verif.Poincare.C78_ranks",
    "Verif.Poincare.C78_average_precision",
    "Verif.Poincare.C78_average_precision_range",
    "Verif.Poincare.C78_self_counts",
    "Verif.Poincare.C78_max_n"
   ],
   "note": ""
  },
  {
   "property": "C79",
   "status": "proved",
   "theorems": [
    "Verif.Coherence.C79_u_mass",
    "Verif.Coherence.C79_relevant",
    "Verif.Coherence.C79_u_mass_sign",
    "Verif.Coherence.C79_symmetric",
    "Verif.Coherence.C79_npmi_range",
    "Verif.Coherence.C79_uci_npmi",
    "Verif.Coherence.C79_npmi_always_together",
    "Verif.Coherence.C79_mean_bounds"
   ],
   "note": ""
  },
  {
   "property": "C80",
   "status": "proved",
   "theorems": [
    "Verif.Coherence.C80_cosine",
    "Verif.Coherence.C80_symmetric",
    "Verif.Coherence.C80_range",
    "Verif.Coherence.C80_single"
   ],
   "note": ""
  },
  {
   "property": "C81",
   "status": "proved",
   "theorems": [
    "Verif.Coherence.C81_history",
    "Verif.Coherence.C81_compare",
    "Verif.Coherence.C81_compare_raises",
    "Verif.Coherence.C81_topn_raised",
    "Verif.Coherence.C81_segments_given",
    "Verif.Coherence.C81_ids"
   ],
   "note": ""
  },
  {
   "property": "C82",
   "status": "proved",
   "theorems": [
    "Verif.W2V.Step.C82_lock_factors",
    "Verif.W2V.Step.C82_sg_neg",
    "Verif.W2V.Step.C82_sg_hs",
    "Verif.W2V.Step.C82_hs_loss_reversed",
    "Verif.W2V.Step.C82_draw",
    "Verif.W2V.Step.C82_saturated",
    "Verif.W2V.Step.C82_tables",
    "Verif.W2V.Step.C82_table_step",
    "Verif.W2V.Step.C82_targets",
    "Verif.W2V.Step.C82_pair_neg",
    "Verif.W2V.Step.C82_pair_hs",
    "Verif.W2V.Step.C82_pair_both",
    "Verif.W2V.Step.C82_batch",
    "Verif.W2V.Step.C82_frame",
    "Verif.W2V.Step.C82_score"
   ],
   "note": ""
  },
  {
   "property": "C83",
   "status": "proved",
   "theorems": [
    "Verif.W2V.Step.C83_input",
    "Verif.W2V.Step.C83_cbow_neg",
    "Verif.W2V.Step.C83_cbow_hs",
    "Verif.W2V.Step.C83_no_context",
    "Verif.W2V.Step.C83_word_neg",
    "Verif.W2V.Step.C83_word_hs",
    "Verif.W2V.Step.C83_word_both",
    "Verif.W2V.Step.C83_batch",
    "Verif.W2V.Step.C83_frame"
   ],
   "note": ""
  },
  {
   "property": "C84",
   "status": "proved",
   "theorems": [
    "Verif.W2V.C84_probability",
    "Verif.W2V.C84_kept",
    "Verif.W2V.C84_sentence",
    "Verif.W2V.C84_build",
    "Verif.W2V.C84_zero",
    "Verif.W2V.C84_shorthand",
    "Verif.W2V.C84_shorthand_witness",
    "Verif.W2V.C84_update_forgets"
   ],
   "note": ""
  },
  {
   "property": "C85",
   "status": "proved",
   "theorems": [
    "Verif.W2V.C85_update",
    "Verif.W2V.C85_first",
    "Verif.W2V.C85_history",
    "Verif.W2V.C85_rebuild"
   ],
   "note": ""
  },
  {
   "property": "C86",
   "status": "proved",
   "theorems": [
    "Verif.Lsi.C86_clip",
    "Verif.Lsi.C86_merge",
    "Verif.Lsi.C86_history",
    "Verif.Lsi.C86_schedule",
    "Verif.Lsi.C86_library",
    "Verif.Lsi.C86_fold_in",
    "Verif.Lsi.C86_scaled_ignored"
   ],
   "note": ""
  },
  {
   "property": "C87",
   "status": "proved",
   "theorems": [
    "Verif.D2VStep.C87_dbow_tag",
    "Verif.D2VStep.C87_dbow_word",
    "Verif.D2VStep.C87_dbow_both",
    "Verif.D2VStep.C87_dbow_document",
    "Verif.D2VStep.C87_dm_input",
    "Verif.D2VStep.C87_dm",
    "Verif.D2VStep.C87_dm_document",
    "Verif.D2VStep.C87_dm_lock",
    "Verif.D2VStep.C87_dm_lock_wrong",
    "Verif.D2VStep.C87_dm_locked_word_moves",
    "Verif.D2VStep.C87_concat",
    "Verif.D2VStep.C87_concat_window",
    "Verif.D2VStep.C87_concat_skips",
    "Verif.D2VStep.C87_words"
   ],
   "note": ""
  },
  {
   "property": "C88",
   "status": "proved",
   "theorems": [
    "Verif.D2VStep.C88_model_unchanged",
    "Verif.D2VStep.C88_concat_model_unchanged",
    "Verif.D2VStep.C88_rates",
    "Verif.D2VStep.C88_rates_bounds",
    "Verif.D2VStep.C88_dbow",
    "Verif.D2VStep.C88_dm",
    "Verif.D2VStep.C88_concat",
    "Verif.D2VStep.C88_unknown_words",
    "Verif.D2VStep.C88_concat_tag_count",
    "Verif.D2VStep.C88_zero_is_default",
    "Verif.D2VStep.C88_arguments"
   ],
   "note": ""
  },
  {
   "property": "C89",
   "status": "proved",
   "theorems": [
    "Verif.D2VStep.C89_tags",
    "Verif.D2VStep.C89_share",
    "Verif.D2VStep.C89_one_worker",
    "Verif.D2VStep.C89_empty_lines",
    "Verif.D2VStep.C89_shift_wrong",
    "Verif.D2VStep.C89_twice",
    "Verif.D2VStep.C89_never",
    "Verif.D2VStep.C89_concat_start",
    "Verif.D2VStep.C89_concat_tags",
    "Verif.D2VStep.C89_concat_block_wrong",
    "Verif.D2VStep.C89_dm_windows"
   ],
   "note": ""
  },
  {
   "property": "C90",
   "status": "proved",
   "theorems": [
    "Verif.LdaInfer.C90_gamma",
    "Verif.LdaInfer.C90_phi",
    "Verif.LdaInfer.C90_gamma_bag_of_words",
    "Verif.LdaInfer.C90_inference",
    "Verif.LdaInfer.C90_statistics_mass",
    "Verif.LdaInfer.C90_chunks_add",
    "Verif.LdaInfer.C90_bound_never_decreases",
    "Verif.LdaInfer.C90_repeated_id_lost",
    "Verif.LdaInfer.C90_stops"
   ],
   "note": ""
  },
  {
   "property": "C91",
   "status": "proved",
   "theorems": [
    "Verif.LdaTrain.C91_history",
    "Verif.LdaTrain.C91_prior_gradient",
    "Verif.LdaTrain.C91_initial_prior",
    "Verif.LdaTrain.C91_prior_stays_positive",
    "Verif.LdaTrain.C91_prior_newton",
    "Verif.LdaTrain.C91_prior_fixed",
    "Verif.LdaTrain.C91_rho",
    "Verif.LdaTrain.C91_topics_are_distributions",
    "Verif.LdaTrain.C91_learned_eta_ignored",
    "Verif.LdaTrain.C91_update_arguments_ignored",
    "Verif.LdaTrain.C91_small_offset_negative",
    "Verif.LdaTrain.C91_document_topics",
    "Verif.LdaTrain.C91_show_topics",
    "Verif.LdaTrain.C91_settings"
   ],
   "note": ""
  },
  {
   "property": "C92",
   "status": "proved",
   "theorems": [
    "Verif.Nmf.C92_representation_descends",
    "Verif.Nmf.C92_fixed_point_is_optimal",
    "Verif.Nmf.C92_topic_step",
    "Verif.Nmf.C92_nonnegative",
    "Verif.Nmf.C92_statistics_of_the_call_only",
    "Verif.Nmf.C92_empty_documents_destroy",
    "Verif.Nmf.C92_topics",
    "Verif.Nmf.C92_queries_change_the_model",
    "Verif.Nmf.C92_query_order_matters",
    "Verif.Nmf.C92_document_topics"
   ],
   "note": ""
  },
  {
   "property": "C93",
   "status": "proved",
   "theorems": [
    "Verif.AuthorTopic.C93_constructed_tables",
    "Verif.AuthorTopic.C93_author_ids",
    "Verif.AuthorTopic.C93_first_update",
    "Verif.AuthorTopic.C93_trained_documents",
    "Verif.AuthorTopic.C93_author_keeps_id",
    "Verif.AuthorTopic.C93_author_without_documents",
    "Verif.AuthorTopic.C93_second_update_not_reindexed",
    "Verif.AuthorTopic.C93_second_update_example",
    "Verif.AuthorTopic.C93_shifted_update",
    "Verif.AuthorTopic.C93_query_restores",
    "Verif.AuthorTopic.C93_query_refusals",
    "Verif.AuthorTopic.C93_document_numbers",
    "Verif.AuthorTopic.C93_rows_stay_positive",
    "Verif.AuthorTopic.C93_document_round",
    "Verif.AuthorTopic.C93_document_step",
    "Verif.AuthorTopic.C93_author_topics",
    "Verif.AuthorTopic.C93_bound_ignores_given_authors",
    "Verif.AuthorTopic.C93_bound_inputs",
    "Verif.AuthorTopic.C93_continue",
    "Verif.AuthorTopic.C93_rounds"
   ],
   "note": ""
  },
  {
   "property": "C94",
   "status": "proved",
   "theorems": [
    "Verif.Wmd.C94_value",
    "Verif.Wmd.C94_symmetric",
    "Verif.Wmd.C94_bounds",
    "Verif.Wmd.C94_bag_of_words",
    "Verif.Wmd.C94_equal_vectors_infinite"
   ],
   "note": ""
  },
  {
   "property": "C95",
   "status": "proved",
   "theorems": [
    "Verif.KvEval.C95_vocabulary",
    "Verif.KvEval.C95_analogies",
    "Verif.KvEval.C95_counts",
    "Verif.KvEval.C95_missing_header",
    "Verif.KvEval.C95_excluded_word_predicted",
    "Verif.KvEval.C95_failure_leaves_folded_table",
    "Verif.KvEval.C95_failure_example",
    "Verif.KvEval.C95_pairs"
   ],
   "note": ""
  },
  {
   "property": "C96",
   "status": "proved",
   "theorems": [
    "Verif.Downloader.Help.C96_base_dir",
    "Verif.Downloader.Help.C96_base_dir_alone",
    "Verif.Downloader.Help.C96_base_dir_race",
    "Verif.Downloader.Help.C96_checksum",
    "Verif.Downloader.Help.C96_progress",
    "Verif.Downloader.Help.C96_progress_overshoot",
    "Verif.Downloader.Help.C96_progress_empty",
    "Verif.Downloader.Help.C96_progress_unknown",
    "Verif.Downloader.C96_installed_is_verified",
    "Verif.Downloader.C96_installed_is_verified_across_file_systems",
    "Verif.Downloader.C96_leftover_blocks",
    "Verif.Downloader.C96_download_succeeds",
    "Verif.Downloader.C96_bad_checksum",
    "Verif.Downloader.C96_installed_not_fetched",
    "Verif.Downloader.C96_kill_can_block",
    "Verif.Downloader.C96_two_processes_install_empty",
    "Verif.Downloader.C96_load_accepts",
    "Verif.Downloader.C96_outdated_refused",
    "Verif.Downloader.C96_listing",
    "Verif.Downloader.C96_bad_answer_destroys_cache"
   ],
   "note": ""
  },
  {
   "property": "C97",
   "status": "proved",
   "theorems": [
    "Verif.KvGeom.C97_similarity",
    "Verif.KvGeom.C97_distances",
    "Verif.KvGeom.C97_most_similar_scores",
    "Verif.KvGeom.C97_cosmul",
    "Verif.KvGeom.C97_cosmul_vectors",
    "Verif.KvGeom.C97_n_similarity",
    "Verif.KvGeom.C97_most_similar_to_given",
    "Verif.KvGeom.C97_rank_by_centrality",
    "Verif.KvGeom.C97_doesnt_match",
    "Verif.KvGeom.C97_doesnt_match_two",
    "Verif.KvGeom.C97_relative_cosine",
    "Verif.KvGeom.C97_predict_output_word"
   ],
   "note": ""
  },
  {
   "property": "C98",
   "status": "proved",
   "theorems": [
    "Verif.Hdp.Out.C98_outputdir",
    "Verif.Hdp.Out.C98_no_outputdir",
    "Verif.Hdp.Out.C98_save_topics",
    "Verif.Hdp.Out.C98_save_topics_none",
    "Verif.Hdp.C98_statistics",
    "Verif.Hdp.C98_repeated_word",
    "Verif.Hdp.C98_lazy_updates",
    "Verif.Hdp.C98_first_update",
    "Verif.Hdp.C98_later_update",
    "Verif.Hdp.C98_max_chunks",
    "Verif.Hdp.C98_empty_corpus",
    "Verif.Hdp.C98_no_corpus_learns_nothing",
    "Verif.Hdp.C98_hdp_to_lda",
    "Verif.Hdp.C98_stale_topics",
    "Verif.Hdp.C98_probe_decays_again",
    "Verif.Hdp.C98_suggested_lda_topics",
    "Verif.Hdp.C98_show_refreshes",
    "Verif.Hdp.C98_topic_numbers",
    "Verif.Hdp.C98_inference"
   ],
   "note": ""
  },
  {
   "property": "C99",
   "status": "proved",
   "theorems": [
    "Verif.LdaSeq.C99_variances",
    "Verif.LdaSeq.C99_mean_is_the_most_probable_path",
    "Verif.LdaSeq.C99_variance_is_the_posterior_variance",
    "Verif.LdaSeq.C99_derivative_with_forward_variances",
    "Verif.LdaSeq.C99_derivative_is_wrong",
    "Verif.LdaSeq.C99_document_weights",
    "Verif.LdaSeq.C99_chunksize",
    "Verif.LdaSeq.C99_slices",
    "Verif.LdaSeq.C99_one_slice",
    "Verif.LdaSeq.C99_first_document_of_a_slice",
    "Verif.LdaSeq.C99_corpus_too_long",
    "Verif.LdaSeq.C99_bound_drops_words",
    "Verif.LdaSeq.C99_training_never_converges",
    "Verif.LdaSeq.C99_rare_words",
    "Verif.LdaSeq.C99_fitted_chain",
    "Verif.LdaSeq.C99_initial_chain",
    "Verif.LdaSeq.C99_print_topic",
    "Verif.LdaSeq.C99_new_document",
    "Verif.LdaSeq.C99_training_documents",
    "Verif.LdaSeq.C99_stops"
   ],
   "note": ""
  },
  {
   "property": "C100",
   "status": "proved",
   "theorems": [
    "Verif.Preprocess.C100_split",
    "Verif.Preprocess.C100_remove_stopwords",
    "Verif.Preprocess.C100_strip_short",
    "Verif.Preprocess.C100_strip_punctuation",
    "Verif.Preprocess.C100_strip_multiple_whitespaces",
    "Verif.Preprocess.C100_strip_numeric",
    "Verif.Preprocess.C100_strip_non_alphanum",
    "Verif.Preprocess.C100_strip_tags",
    "Verif.Preprocess.C100_tags_glue_words",
    "Verif.Preprocess.C100_split_alphanum",
    "Verif.Preprocess.C100_split_alphanum_upper",
    "Verif.Preprocess.C100_stem_text",
    "Verif.Preprocess.C100_preprocess_string",
    "Verif.Preprocess.C100_preprocess_documents",
    "Verif.Preprocess.C100_preprocess_with",
    "Verif.Preprocess.C100_tokens_after_stemming",
    "Verif.Preprocess.C100_tokenize",
    "Verif.Preprocess.C100_simple_preprocess",
    "Verif.Preprocess.C100_underscores",
    "Verif.Preprocess.C100_deaccent"
   ],
   "note": ""
  },
  {
   "property": "C101",
   "status": "proved",
   "theorems": [
    "Verif.TransMat.C101_train",
    "Verif.TransMat.C101_train_exact",
    "Verif.TransMat.C101_train_errors",
    "Verif.TransMat.C101_long_entry_accepted",
    "Verif.TransMat.C101_back_mapping",
    "Verif.TransMat.C101_translate",
    "Verif.TransMat.C101_training_words",
    "Verif.TransMat.C101_translate_errors",
    "Verif.TransMat.C101_gc_sample",
    "Verif.TransMat.C101_gc_sample_repeats",
    "Verif.TransMat.C101_gc_repeated_words",
    "Verif.TransMat.C101_gc_ranks",
    "Verif.TransMat.C101_gc_order",
    "Verif.TransMat.C101_gc_depends_on_scale"
   ],
   "note": ""
  },
  {
   "property": "C102",
   "status": "proved",
   "theorems": [
    "Verif.Ann.C102_annoy_query",
    "Verif.Ann.C102_annoy_score_not_cosine",
    "Verif.Ann.C102_annoy_save_load",
    "Verif.Ann.C102_annoy_loaded_cannot_be_saved",
    "Verif.Ann.C102_annoy_saved_with_other_size",
    "Verif.Ann.C102_annoy_nothing_built",
    "Verif.Ann.C102_nmslib_query",
    "Verif.Ann.C102_nmslib_save_load",
    "Verif.Ann.C102_most_similar_with_indexer",
    "Verif.Ann.C102_indexer_returns_the_query"
   ],
   "note": ""
  },
  {
   "property": "C103",
   "status": "proved",
   "theorems": [
    "Verif.Lev.C103_levdist",
    "Verif.Lev.C103_levsim",
    "Verif.Lev.C103_symmetric",
    "Verif.Lev.C103_range",
    "Verif.Lev.C103_exceeds_one",
    "Verif.Lev.C103_empty",
    "Verif.Lev.C103_parameters",
    "Verif.Lev.C103_threshold_above_one",
    "Verif.Lev.C103_most_similar",
    "Verif.Lev.C103_most_similar_errors"
   ],
   "note": ""
  },
  {
   "property": "C104",
   "status": "proved",
   "theorems": [
    "Verif.Rp.C104_linear",
    "Verif.Rp.C104_expectation",
    "Verif.Rp.C104_variance",
    "Verif.Rp.C104_distances",
    "Verif.Rp.C104_construct",
    "Verif.Rp.C104_getitem",
    "Verif.Rp.C104_dropped",
    "Verif.Rp.C104_initialize_again",
    "Verif.Rp.C104_norm_document",
    "Verif.Rp.C104_norm_errors",
    "Verif.Rp.C104_norm_statistics",
    "Verif.Rp.C104_norm_corpus"
   ],
   "note": ""
  },
  {
   "property": "C105",
   "status": "proved",
   "theorems": [
    "Verif.LdaDiff.C105_kl_nonneg",
    "Verif.LdaDiff.C105_kl_infinite",
    "Verif.LdaDiff.C105_kl_value",
    "Verif.LdaDiff.C105_kl_scale",
    "Verif.LdaDiff.C105_kl_asymmetric",
    "Verif.LdaDiff.C105_js_symm",
    "Verif.LdaDiff.C105_js_range",
    "Verif.LdaDiff.C105_js_disjoint",
    "Verif.LdaDiff.C105_hellinger",
    "Verif.LdaDiff.C105_bow_features",
    "Verif.LdaDiff.C105_bow_dense",
    "Verif.LdaDiff.C105_bow_no_features",
    "Verif.LdaDiff.C105_diff_errors",
    "Verif.LdaDiff.C105_diff_cells",
    "Verif.LdaDiff.C105_diff_diagonal",
    "Verif.LdaDiff.C105_diff_normed",
    "Verif.LdaDiff.C105_diff_normed_one",
    "Verif.LdaDiff.C105_diff_self",
    "Verif.LdaDiff.C105_diff_no_words",
    "Verif.LdaDiff.C105_diff_transpose",
    "Verif.LdaDiff.C105_annotation",
    "Verif.LdaDiff.C105_convergence",
    "Verif.LdaDiff.C105_convergence_normed"
   ],
   "note": ""
  },
  {
   "property": "C106",
   "status": "proved",
   "theorems": [
    "Verif.Callbacks.C106_values",
    "Verif.Callbacks.C106_distinct_labels",
    "Verif.Callbacks.C106_same_label",
    "Verif.Callbacks.C106_label",
    "Verif.Callbacks.C106_label_cut",
    "Verif.Callbacks.C106_shell",
    "Verif.Callbacks.C106_seen",
    "Verif.Callbacks.C106_batch",
    "Verif.Callbacks.C106_plots",
    "Verif.Callbacks.C106_plotted_later",
    "Verif.Callbacks.C106_no_visdom",
    "Verif.Callbacks.C106_array_alone"
   ],
   "note": ""
  },
  {
   "property": "C107",
   "status": "proved",
   "theorems": [
    "Verif.Indexed.C107_index_name",
    "Verif.Indexed.C107_index_names_differ",
    "Verif.Indexed.C107_serialize",
    "Verif.Indexed.C107_history",
    "Verif.Indexed.C107_same_name",
    "Verif.Indexed.C107_overwrites_itself",
    "Verif.Indexed.C107_stale_index",
    "Verif.Indexed.C107_failed_source",
    "Verif.Indexed.C107_name_of_index",
    "Verif.Indexed.C107_no_index",
    "Verif.Indexed.C107_empty_fancy",
    "Verif.Indexed.C107_csv",
    "Verif.Indexed.C107_extension"
   ],
   "note": ""
  },
  {
   "property": "C108",
   "status": "proved",
   "theorems": [
    "Verif.FtTrain.C108_input",
    "Verif.FtTrain.C108_looked_up",
    "Verif.FtTrain.C108_table",
    "Verif.FtTrain.C108_sg_neg",
    "Verif.FtTrain.C108_sg_hs",
    "Verif.FtTrain.C108_sg_neg_table",
    "Verif.FtTrain.C108_saturated_skipped",
    "Verif.FtTrain.C108_cbow_neg",
    "Verif.FtTrain.C108_cbow_hs",
    "Verif.FtTrain.C108_cbow_neg_table",
    "Verif.FtTrain.C108_cbow_saturated",
    "Verif.FtTrain.C108_no_context",
    "Verif.FtTrain.C108_pair",
    "Verif.FtTrain.C108_word",
    "Verif.FtTrain.C108_batch",
    "Verif.FtTrain.C108_frame",
    "Verif.FtTrain.C108_locks",
    "Verif.FtTrain.C108_no_buckets"
   ],
   "note": ""
  },
  {
   "property": "C109",
   "status": "proved",
   "theorems": [
    "Verif.MatSim.C109_matrix",
    "Verif.MatSim.C109_matrix_width",
    "Verif.MatSim.C109_dense",
    "Verif.MatSim.C109_dense_corpus",
    "Verif.MatSim.C109_dense_iter",
    "Verif.MatSim.C109_sparse",
    "Verif.MatSim.C109_sparse_corpus",
    "Verif.MatSim.C109_sparse_iter",
    "Verif.MatSim.C109_sparse_iter_broken",
    "Verif.MatSim.C109_num_best",
    "Verif.MatSim.C109_cosine",
    "Verif.MatSim.C109_cossim",
    "Verif.MatSim.C109_empty_query",
    "Verif.MatSim.C109_zero_weights",
    "Verif.MatSim.C109_maintain_single",
    "Verif.MatSim.C109_maintain_corpus",
    "Verif.MatSim.C109_maintain_no_match",
    "Verif.MatSim.C109_maintain_one",
    "Verif.MatSim.C109_repeated_term",
    "Verif.MatSim.C109_abandoned",
    "Verif.MatSim.C109_features"
   ],
   "note": ""
  },
  {
   "property": "C110",
   "status": "proved",
   "theorems": [
    "Verif.Convert.C110_corpus2dense",
    "Verif.Convert.C110_corpus2dense_wrong",
    "Verif.Convert.C110_dense_roundtrip",
    "Verif.Convert.C110_dense_corpus",
    "Verif.Convert.C110_sparse_roundtrip",
    "Verif.Convert.C110_sparse_getitem",
    "Verif.Convert.C110_sparse_negative",
    "Verif.Convert.C110_any2sparse",
    "Verif.Convert.C110_scipy_corpus",
    "Verif.Convert.C110_pad",
    "Verif.Convert.C110_hellinger_row",
    "Verif.Convert.C110_hellinger_two",
    "Verif.Convert.C110_hellinger_wrong",
    "Verif.Convert.C110_jaccard_rows",
    "Verif.Convert.C110_jaccard_two"
   ],
   "note": ""
  },
  {
   "property": "C111",
   "status": "proved",
   "theorems": [
    "Verif.Score.C111_result",
    "Verif.Score.C111_no_deadlock",
    "Verif.Score.C111_terminates",
    "Verif.Score.C111_empty_crashes",
    "Verif.Score.C111_reads",
    "Verif.Score.C111_no_workers",
    "Verif.Score.C111_guard"
   ],
   "note": ""
  },
  {
   "property": "C112",
   "status": "proved",
   "theorems": [
    "Verif.Life.C112_train_iff",
    "Verif.Life.C112_train_run",
    "Verif.Life.C112_callbacks",
    "Verif.Life.C112_train_failed",
    "Verif.Life.C112_alpha",
    "Verif.Life.C112_construct",
    "Verif.Life.C112_construct_generator",
    "Verif.Life.C112_construct_iterator",
    "Verif.Life.C112_construct_errors",
    "Verif.Life.C112_train_count",
    "Verif.Life.C112_zero_total_hangs",
    "Verif.Life.C112_zero_total_accepted",
    "Verif.Life.C112_producer_ends",
    "Verif.Life.C112_reset_from",
    "Verif.Life.C112_reset_shares",
    "Verif.Life.C112_reset_counts",
    "Verif.Life.C112_build_vocab"
   ],
   "note": ""
  },
  {
   "property": "C113",
   "status": "proved",
   "theorems": [
    "Verif.Upgrade.C113_old_vectors",
    "Verif.Upgrade.C113_current_vectors",
    "Verif.Upgrade.C113_doctags",
    "Verif.Upgrade.C113_integer_keys",
    "Verif.Upgrade.C113_load_iff",
    "Verif.Upgrade.C113_load_attrs",
    "Verif.Upgrade.C113_syn1_lost",
    "Verif.Upgrade.C113_exponent_lost",
    "Verif.Upgrade.C113_save_load",
    "Verif.Upgrade.C113_bucket",
    "Verif.Upgrade.C113_fasttext"
   ],
   "note": ""
  },
  {
   "property": "C114",
   "status": "proved",
   "theorems": [
    "Verif.VecFile.C114_no_header",
    "Verif.VecFile.C114_no_header_errors",
    "Verif.VecFile.C114_no_header_loads",
    "Verif.VecFile.C114_glove",
    "Verif.VecFile.C114_glove_load",
    "Verif.VecFile.C114_glove_duplicates",
    "Verif.VecFile.C114_glove_info",
    "Verif.VecFile.C114_tensor",
    "Verif.VecFile.C114_tensor_lines",
    "Verif.VecFile.C114_tensor_findings",
    "Verif.VecFile.C114_merge_never_returns",
    "Verif.VecFile.C114_merge_text",
    "Verif.VecFile.C114_merge_binary",
    "Verif.VecFile.C114_merge_truncated",
    "Verif.VecFile.C114_merge_default_lock",
    "Verif.VecFile.C114_merge_size",
    "Verif.VecFile.C114_merge_bad_line",
    "Verif.VecFile.C114_merge_no_lock",
    "Verif.VecFile.C114_merge_stale_norms"
   ],
   "note": ""
  },
  {
   "property": "C115",
   "status": "proved",
   "theorems": [
    "Verif.Show.C115_argsort",
    "Verif.Show.C115_index",
    "Verif.Show.C115_lda_show_topic",
    "Verif.Show.C115_lda_probabilities",
    "Verif.Show.C115_lda_show_topics",
    "Verif.Show.C115_chosen",
    "Verif.Show.C115_noise",
    "Verif.Show.C115_top_topics",
    "Verif.Show.C115_term_topics",
    "Verif.Show.C115_term_topics_word",
    "Verif.Show.C115_nmf_terms",
    "Verif.Show.C115_nmf_show_topics",
    "Verif.Show.C115_nmf_chosen",
    "Verif.Show.C115_nmf_again",
    "Verif.Show.C115_lsi_show_topic",
    "Verif.Show.C115_lsi_length",
    "Verif.Show.C115_lsi_show_topics",
    "Verif.Show.C115_hdp_terms",
    "Verif.Show.C115_hdp_show_topics",
    "Verif.Show.C115_hdp_all"
   ],
   "note": ""
  },
  {
   "property": "C116",
   "status": "proved",
   "theorems": [
    "Verif.Lsi.C116_chunks",
    "Verif.Lsi.C116_values",
    "Verif.Lsi.C116_values_sparse",
    "Verif.Lsi.C116_energy",
    "Verif.Lsi.C116_exact",
    "Verif.Lsi.C116_exact_sparse",
    "Verif.Lsi.C116_onepass",
    "Verif.Lsi.C116_docs_processed",
    "Verif.Lsi.C116_once",
    "Verif.Lsi.C116_samples",
    "Verif.Lsi.C116_twopass"
   ],
   "note": ""
  },
  {
   "property": "C117",
   "status": "proved",
   "theorems": [
    "Verif.Phrases.C117_default",
    "Verif.Phrases.C117_npmi",
    "Verif.Phrases.C117_default_found",
    "Verif.Phrases.C117_npmi_found",
    "Verif.Phrases.C117_npmi_collision",
    "Verif.Phrases.C117_npmi_errors",
    "Verif.Phrases.C117_arguments",
    "Verif.Phrases.C117_single",
    "Verif.Phrases.C117_load_current",
    "Verif.Phrases.C117_connectors_matter",
    "Verif.Phrases.C117_load_collapse",
    "Verif.Phrases.C117_load_pairs",
    "Verif.Phrases.C117_load_vocab",
    "Verif.Phrases.C117_load_scoring"
   ],
   "note": ""
  },
  {
   "property": "C118",
   "status": "proved",
   "theorems": [
    "Verif.Poincare.C118_step",
    "Verif.Poincare.C118_step_inside",
    "Verif.Poincare.C118_session",
    "Verif.Poincare.C118_burn_in_once",
    "Verif.Poincare.C118_settings_lost",
    "Verif.Poincare.C118_workers",
    "Verif.Poincare.C118_negative_batch_size",
    "Verif.Poincare.C118_zero",
    "Verif.Poincare.C118_stale_negatives"
   ],
   "note": ""
  },
  {
   "property": "C119",
   "status": "proved",
   "theorems": [
    "Verif.SaveLoad.C119_lda",
    "Verif.SaveLoad.C119_stale",
    "Verif.SaveLoad.C119_missing_state",
    "Verif.SaveLoad.C119_crash",
    "Verif.SaveLoad.C119_memory",
    "Verif.SaveLoad.C119_lsi",
    "Verif.SaveLoad.C119_lsi_ignore",
    "Verif.SaveLoad.C119_tfidf_defaults",
    "Verif.SaveLoad.C119_crash_mix"
   ],
   "note": ""
  },
  {
   "property": "C120",
   "status": "proved",
   "theorems": [
    "Verif.MatSim.C120_soft_documents",
    "Verif.MatSim.C120_soft_document",
    "Verif.MatSim.C120_soft_agree",
    "Verif.MatSim.C120_soft_iter",
    "Verif.MatSim.C120_soft_self",
    "Verif.MatSim.C120_soft_edges",
    "Verif.MatSim.C120_soft_alone",
    "Verif.MatSim.C120_wmd_query",
    "Verif.MatSim.C120_wmd_one",
    "Verif.MatSim.C120_wmd_similarity",
    "Verif.MatSim.C120_wmd_best",
    "Verif.MatSim.C120_wmd_iter",
    "Verif.MatSim.C120_wmd_iter_broken",
    "Verif.MatSim.C120_wmd_iter_one",
    "Verif.MatSim.C120_wmd_distance"
   ],
   "note": ""
  },
  {
   "property": "C121",
   "status": "proved",
   "theorems": [
    "Verif.Termsim.C121_uniform",
    "Verif.Termsim.C121_embedding",
    "Verif.Termsim.C121_embedding_range",
    "Verif.Termsim.C121_negative_threshold",
    "Verif.Termsim.C121_fits",
    "Verif.Termsim.C121_uniform_matrix",
    "Verif.Termsim.C121_limit_outside"
   ],
   "note": ""
  },
  {
   "property": "C122",
   "status": "proved",
   "theorems": [
    "Verif.Readers.C122_rewind",
    "Verif.Readers.C122_interleaved_broken",
    "Verif.Readers.C122_path_directory",
    "Verif.Readers.C122_path_listing",
    "Verif.Readers.C122_path_other",
    "Verif.Readers.C122_path_subdirectory",
    "Verif.Readers.C122_brown",
    "Verif.Readers.C122_brown_listing",
    "Verif.Readers.C122_tagged_brown",
    "Verif.Readers.C122_tags_distinct",
    "Verif.Readers.C122_tagged_lines"
   ],
   "note": ""
  },
  {
   "property": "C123",
   "status": "proved",
   "theorems": [
    "Verif.TextCorpus.Text.C123_text_built",
    "Verif.TextCorpus.Text.C123_text_given",
    "Verif.TextCorpus.Text.C123_text_len",
    "Verif.TextCorpus.Text.C123_text_raises",
    "Verif.TextCorpus.Text.C123_metadata_lost",
    "Verif.TextCorpus.Text.C123_uci_vocab",
    "Verif.TextCorpus.Text.C123_uci_numbers",
    "Verif.TextCorpus.Text.C123_uci_token2id",
    "Verif.TextCorpus.Text.C123_uci_blind",
    "Verif.TextCorpus.Text.C123_uci_counts",
    "Verif.TextCorpus.Text.C123_uci_generator"
   ],
   "note": ""
  },
  {
   "property": "C124",
   "status": "proved",
   "theorems": [
    "Verif.Coherence.Fail.C124_never_more",
    "Verif.Coherence.Fail.C124_silent_loss",
    "Verif.Coherence.Fail.C124_pairs_lost",
    "Verif.Coherence.Fail.C124_one_survivor",
    "Verif.Coherence.Fail.C124_hang",
    "Verif.Coherence.Fail.C124_interrupt_hang",
    "Verif.Coherence.Fail.C124_w2v",
    "Verif.Coherence.Fail.C124_statistics",
    "Verif.Coherence.Fail.C124_w2v_nan",
    "Verif.Coherence.Fail.C124_w2v_key",
    "Verif.Coherence.Fail.C124_w2v_kwargs",
    "Verif.Coherence.Fail.C124_w2v_hs"
   ],
   "note": ""
  },
  {
   "property": "C125",
   "status": "proved",
   "theorems": [
    "Verif.WikiSeg.C125_json",
    "Verif.WikiSeg.C125_json_ascii",
    "Verif.WikiSeg.C125_file_json",
    "Verif.WikiSeg.C125_json_injective",
    "Verif.WikiSeg.C125_sections",
    "Verif.WikiSeg.C125_recovers",
    "Verif.WikiSeg.C125_missed_headings",
    "Verif.WikiSeg.C125_other_pages",
    "Verif.WikiSeg.C125_articles",
    "Verif.WikiSeg.C125_length",
    "Verif.WikiSeg.C125_file",
    "Verif.WikiSeg.C125_links_sound",
    "Verif.WikiSeg.C125_links",
    "Verif.WikiSeg.C125_links_lost"
   ],
   "note": ""
  },
  {
   "property": "C126",
   "status": "proved",
   "theorems": [
    "Verif.PoincareEval.C126_read",
    "Verif.PoincareEval.C126_read_error",
    "Verif.PoincareEval.C126_read_links",
    "Verif.PoincareEval.C126_evaluate",
    "Verif.PoincareEval.C126_reconstruction",
    "Verif.PoincareEval.C126_link_prediction",
    "Verif.PoincareEval.C126_max_n_order",
    "Verif.PoincareEval.C126_score",
    "Verif.PoincareEval.C126_direction",
    "Verif.PoincareEval.C126_pairs",
    "Verif.PoincareEval.C126_last_row",
    "Verif.PoincareEval.C126_spearman",
    "Verif.PoincareEval.C126_tie"
   ],
   "note": ""
  },
  {
   "property": "C127",
   "status": "proved",
   "theorems": [
    "Verif.FileTrain.C127_rates",
    "Verif.FileTrain.C127_bounds",
    "Verif.FileTrain.C127_floor",
    "Verif.FileTrain.C127_full",
    "Verif.FileTrain.C127_no_total_words",
    "Verif.FileTrain.C127_one_batch",
    "Verif.FileTrain.C127_totals",
    "Verif.FileTrain.C127_hangs",
    "Verif.FileTrain.C127_train",
    "Verif.FileTrain.C127_loss_serial",
    "Verif.FileTrain.C127_loss",
    "Verif.FileTrain.C127_loss_lost"
   ],
   "note": ""
  },
  {
   "property": "C128",
   "status": "proved",
   "theorems": [
    "Verif.PsiNum.C128_lognorm_vector",
    "Verif.PsiNum.C128_lognorm_rows",
    "Verif.PsiNum.C128_lognorm_columns",
    "Verif.PsiNum.C128_lognorm_refused",
    "Verif.PsiNum.C128_lognorm_safe",
    "Verif.PsiNum.C128_loop",
    "Verif.PsiNum.C128_digamma",
    "Verif.PsiNum.C128_digamma_small",
    "Verif.PsiNum.C128_recurrence",
    "Verif.PsiNum.C128_dirichlet",
    "Verif.PsiNum.C128_dirichlet_rows",
    "Verif.PsiNum.C128_logsumexp",
    "Verif.PsiNum.C128_logsumexp_safe"
   ],
   "note": ""
  },
  {
   "property": "C129",
   "status": "proved",
   "theorems": [
    "Verif.W2V.C129_fresh",
    "Verif.W2V.C129_history",
    "Verif.W2V.C129_update_moves",
    "Verif.W2V.C129_collision",
    "Verif.W2V.C129_predicted"
   ],
   "note": ""
  },
  {
   "property": "C130",
   "status": "proved",
   "theorems": [
    "Verif.Lda.Dispatch.C130_results",
    "Verif.Lda.Dispatch.C130_lost_job_blocks",
    "Verif.Lda.Dispatch.C130_no_exception_while_alive",
    "Verif.Lda.Dispatch.C130_lsi_silent",
    "Verif.Lda.Dispatch.C130_no_result_after_death",
    "Verif.Lda.Dispatch.C130_lda_reports_death",
    "Verif.Lda.Dispatch.C130_loops",
    "Verif.Lda.Dispatch.C130_starved"
   ],
   "note": ""
  },
  {
   "property": "C131",
   "status": "proved",
   "theorems": [
    "Verif.LdaBound.C131_topics",
    "Verif.LdaBound.C131_bound",
    "Verif.LdaBound.C131_parts",
    "Verif.LdaBound.C131_nonpositive",
    "Verif.LdaBound.C131_per_word",
    "Verif.LdaBound.C131_perplexity",
    "Verif.LdaBound.C131_empty",
    "Verif.LdaBound.C131_given_gamma",
    "Verif.LdaBound.C131_matrix_eta",
    "Verif.LdaBound.C131_matrix_eta_positive",
    "Verif.LdaBound.C131_hdp",
    "Verif.LdaBound.C131_hdp_empty"
   ],
   "note": ""
  },
  {
   "property": "C132",
   "status": "proved",
   "theorems": [
    "Verif.LdaSeq.C132_objective",
    "Verif.LdaSeq.C132_gradient",
    "Verif.LdaSeq.C132_convex",
    "Verif.LdaSeq.C132_exact_derivatives",
    "Verif.LdaSeq.C132_wrong_gradient",
    "Verif.LdaSeq.C132_construct",
    "Verif.LdaSeq.C132_construct_fails",
    "Verif.LdaSeq.C132_vis",
    "Verif.LdaSeq.C132_vis_lengths",
    "Verif.LdaSeq.C132_coherence"
   ],
   "note": ""
  },
  {
   "property": "C133",
   "status": "proved",
   "theorems": [
    "Verif.Helper.C133_plain",
    "Verif.Helper.C133_round_trip",
    "Verif.Helper.C133_names",
    "Verif.Helper.C133_names_with_x",
    "Verif.Helper.C133_no_code_point",
    "Verif.Helper.C133_no_entity",
    "Verif.Helper.C133_flatten",
    "Verif.Helper.C133_flatten_bytes",
    "Verif.Helper.C133_open_file",
    "Verif.Helper.C133_hardlink",
    "Verif.Helper.C133_hardlink_race",
    "Verif.Helper.C133_upload",
    "Verif.Helper.C133_upload_twice",
    "Verif.Helper.C133_jobs"
   ],
   "note": ""
  },
  {
   "property": "C134",
   "status": "proved",
   "theorems": [
    "Verif.Sync.C134_mutual_exclusion",
    "Verif.Sync.C134_serial",
    "Verif.Sync.C134_no_deadlock",
    "Verif.Sync.C134_jobs_counted",
    "Verif.Sync.C134_lost_without_lock",
    "Verif.Sync.C134_getstate",
    "Verif.Sync.C134_stale_job",
    "Verif.Sync.C134_relock"
   ],
   "note": ""
  },
  {
   "property": "C135",
   "status": "proved",
   "theorems": [
    "Verif.FastText.Unpack.C135_unpack",
    "Verif.FastText.Unpack.C135_no_row_lost",
    "Verif.FastText.Unpack.C135_sizes",
    "Verif.FastText.Unpack.C135_cycle",
    "Verif.FastText.Unpack.C135_overwritten",
    "Verif.FastText.Unpack.C135_pad_ones"
   ],
   "note": ""
  },
  {
   "property": "C136",
   "status": "proved",
   "theorems": [
    "Verif.Random.C136_reproducible",
    "Verif.Random.C136_reload",
    "Verif.Random.C136_refused",
    "Verif.Random.C136_shared",
    "Verif.Random.C136_lda_draws",
    "Verif.Random.C136_queries_matter",
    "Verif.Random.C136_multicore",
    "Verif.Random.C136_multicore_schedule",
    "Verif.Random.C136_one_worker",
    "Verif.Random.C136_two_workers",
    "Verif.Random.C136_loaded",
    "Verif.Random.C136_file_windows",
    "Verif.Random.C136_same_generator"
   ],
   "note": ""
  },
  {
   "property": "C137",
   "status": "proved",
   "theorems": [
    "Verif.Coherence.C137_words_right",
    "Verif.Coherence.C137_words_found",
    "Verif.Coherence.C137_stale",
    "Verif.Coherence.C137_once",
    "Verif.Coherence.C137_compare_models",
    "Verif.Coherence.C137_refused",
    "Verif.Coherence.C137_uneven"
   ],
   "note": ""
  },
  {
   "property": "C138",
   "status": "proved",
   "theorems": [
    "Verif.Doc2Vec.C138_text",
    "Verif.Doc2Vec.C138_binary",
    "Verif.Doc2Vec.C138_parts",
    "Verif.Doc2Vec.C138_vocab",
    "Verif.Doc2Vec.C138_vocab_integers",
    "Verif.Doc2Vec.C138_confused"
   ],
   "note": ""
  },
  {
   "property": "C139",
   "status": "proved",
   "theorems": [
    "Verif.Wiki.C139_cell_before",
    "Verif.Wiki.C139_link",
    "Verif.Wiki.C139_link_bare",
    "Verif.Wiki.C139_url",
    "Verif.Wiki.C139_category",
    "Verif.Wiki.C139_file",
    "Verif.Wiki.C139_languages",
    "Verif.Wiki.C139_template",
    "Verif.Wiki.C139_findings",
    "Verif.Wiki.C139_plain",
    "Verif.Wiki.C139_order",
    "Verif.Wiki.C139_no_brackets",
    "Verif.Wiki.C139_no_tags",
    "Verif.Wiki.C139_tag",
    "Verif.Wiki.C139_comment",
    "Verif.Wiki.C139_element"
   ],
   "note": ""
  },
  {
   "property": "C140",
   "status": "proved",
   "theorems": [
    "Verif.Wiki.C140_text",
    "Verif.Wiki.C140_unchanged",
    "Verif.Wiki.C140_links",
    "Verif.Wiki.C140_findings"
   ],
   "note": ""
  },
  {
   "property": "C141",
   "status": "proved",
   "theorems": [
    "Verif.Res.C141_filters",
    "Verif.Res.C141_split",
    "Verif.Res.C141_tokens",
    "Verif.Res.C141_wiki",
    "Verif.Res.C141_example",
    "Verif.Res.C141_namespace"
   ],
   "note": ""
  },
  {
   "property": "C142",
   "status": "proved",
   "theorems": [
    "Verif.Doc2Vec.Life.C142_settings",
    "Verif.Doc2Vec.Life.C142_dm_mean",
    "Verif.Doc2Vec.Life.C142_first",
    "Verif.Doc2Vec.Life.C142_job",
    "Verif.Doc2Vec.Life.C142_update",
    "Verif.Doc2Vec.Life.C142_reset",
    "Verif.Doc2Vec.Life.C142_freq",
    "Verif.Doc2Vec.Life.C142_getitem",
    "Verif.Doc2Vec.Life.C142_warning",
    "Verif.Doc2Vec.Life.C142_findings"
   ],
   "note": ""
  },
  {
   "property": "C143",
   "status": "proved",
   "theorems": [
    "Verif.Sharded.C143_dimension",
    "Verif.Sharded.C143_build",
    "Verif.Sharded.C143_history",
    "Verif.Sharded.C143_documents",
    "Verif.Sharded.C143_resize_sparse_broken",
    "Verif.Sharded.C143_resize_dense_broken",
    "Verif.Sharded.C143_reopen_forgets"
   ],
   "note": ""
  },
  {
   "property": "C144",
   "status": "proved",
   "theorems": [
    "Verif.W2V.Dry.C144_memory",
    "Verif.W2V.Dry.C144_memory_doc",
    "Verif.W2V.Dry.C144_memory_fasttext",
    "Verif.W2V.Dry.C144_report_twice",
    "Verif.W2V.Dry.C144_fasttext_ignores",
    "Verif.W2V.Dry.C144_predicts",
    "Verif.W2V.Dry.C144_dry_scanned",
    "Verif.W2V.Dry.C144_dry_unsorted",
    "Verif.W2V.Dry.C144_dry_built",
    "Verif.W2V.Dry.C144_dry_strict",
    "Verif.W2V.Dry.C144_dry_scrambles",
    "Verif.W2V.Dry.C144_dry_null",
    "Verif.W2V.Dry.C144_zero_ignored",
    "Verif.W2V.Dry.C144_update_report"
   ],
   "note": ""
  },
  {
   "property": "C145",
   "status": "proved",
   "theorems": [
    "Verif.W2V.Hs.C145_distribution",
    "Verif.W2V.Hs.C145_score_cbow",
    "Verif.W2V.Hs.C145_score_sg",
    "Verif.W2V.Hs.C145_score_alone",
    "Verif.W2V.Hs.C145_known",
    "Verif.W2V.Hs.C145_all_count",
    "Verif.W2V.Hs.C145_single",
    "Verif.W2V.Hs.C145_nonpos",
    "Verif.W2V.Hs.C145_overstates",
    "Verif.W2V.Hs.C145_saturated",
    "Verif.W2V.Hs.C145_tables"
   ],
   "note": ""
  },
  {
   "property": "C146",
   "status": "proved",
   "theorems": [
    "Verif.Poincare.C146_distances",
    "Verif.Poincare.C146_distance",
    "Verif.Poincare.C146_all",
    "Verif.Poincare.C146_by_vector",
    "Verif.Poincare.C146_unknown",
    "Verif.Poincare.C146_hierarchy",
    "Verif.Poincare.C146_norm",
    "Verif.Poincare.C146_distance_number",
    "Verif.Poincare.C146_distances_number",
    "Verif.Poincare.C146_norm_number"
   ],
   "note": ""
  },
  {
   "property": "C147",
   "status": "proved",
   "theorems": [
    "Verif.SaveLoad.Heap.C147_memory",
    "Verif.SaveLoad.Heap.C147_cycle_raises",
    "Verif.SaveLoad.Heap.C147_cycle_loses",
    "Verif.SaveLoad.Heap.C147_shared_lost",
    "Verif.SaveLoad.Heap.C147_shared_small"
   ],
   "note": ""
  },
  {
   "property": "C148",
   "status": "proved",
   "theorems": [
    "Verif.Formats.C148_read",
    "Verif.Formats.C148_truncated",
    "Verif.Formats.C148_empty",
    "Verif.Formats.C148_at",
    "Verif.Formats.C148_blei"
   ],
   "note": ""
  },
  {
   "property": "C149",
   "status": "proved",
   "theorems": [
    "Verif.SaveLoad.C149_sequence",
    "Verif.SaveLoad.C149_old_or_new",
    "Verif.SaveLoad.C149_nothing_separate",
    "Verif.SaveLoad.C149_mixture"
   ],
   "note": ""
  },
  {
   "property": "C150",
   "status": "proved",
   "theorems": [
    "Verif.Peek.C150_nothing_lost",
    "Verif.Peek.C150_passed",
    "Verif.Peek.C150_twice",
    "Verif.Peek.C150_first_only",
    "Verif.Peek.C150_bow",
    "Verif.Peek.C150_believed",
    "Verif.Peek.C150_words",
    "Verif.Peek.C150_pairs"
   ],
   "note": ""
  },
  {
   "property": "C151",
   "status": "proved",
   "theorems": [
    "Verif.Dictionary.C151_dictionary",
    "Verif.Dictionary.C151_dictionary_cut",
    "Verif.Formats.C151_streams",
    "Verif.Formats.C151_svm",
    "Verif.Formats.C151_blei",
    "Verif.Formats.C151_mallet",
    "Verif.Formats.C151_low",
    "Verif.Formats.C151_mm",
    "Verif.Formats.C151_uci",
    "Verif.Formats.C151_cut_documents"
   ],
   "note": ""
  },
  {
   "property": "C152",
   "status": "proved",
   "theorems": [
    "Verif.FastText.Bin.C152_word_loop",
    "Verif.FastText.Bin.C152_cut",
    "Verif.FastText.Bin.C152_cut_vectors",
    "Verif.FastText.Bin.C152_hang_no_result",
    "Verif.FastText.Bin.C152_hangs"
   ],
   "note": ""
  },
  {
   "property": "C153",
   "status": "proved",
   "theorems": [
    "Verif.Lda.Multicore.C153_multicore_waits",
    "Verif.Lda.Multicore.C153_multicore_can_end",
    "Verif.W2V.C153_word2vec_waits",
    "Verif.W2V.C153_word2vec_stops",
    "Verif.W2V.C153_word2vec_returned"
   ],
   "note": ""
  },
  {
   "property": "C154",
   "status": "proved",
   "theorems": [
    "Verif.Topic.C154_largest",
    "Verif.Topic.C154_gaps",
    "Verif.Topic.C154_complete",
    "Verif.Topic.C154_from_corpus",
    "Verif.Topic.C154_refused",
    "Verif.Topic.C154_replayable",
    "Verif.Topic.C154_generator_lda",
    "Verif.Topic.C154_generator_lsi",
    "Verif.Topic.C154_generator_nmf"
   ],
   "note": ""
  },
  {
   "property": "C155",
   "status": "proved",
   "theorems": [
    "Verif.Coherence.Init.C155_accepts",
    "Verif.Coherence.Init.C155_errors",
    "Verif.Coherence.Init.C155_settings",
    "Verif.Coherence.Init.C155_sees_all",
    "Verif.Coherence.Init.C155_iterators",
    "Verif.Coherence.Init.C155_topn_of_model",
    "Verif.Coherence.Init.C155_topics_replaced"
   ],
   "note": ""
  },
  {
   "property": "C156",
   "status": "proved",
   "theorems": [
    "Verif.Wiki.Xml.C156_pages",
    "Verif.Wiki.Xml.C156_refused",
    "Verif.Wiki.Xml.C156_fields",
    "Verif.Wiki.Xml.C156_cut",
    "Verif.Wiki.Xml.C156_corpus"
   ],
   "note": ""
  },
  {
   "property": "C157",
   "status": "proved",
   "theorems": [
    "Verif.LdaPerWord.C157_words",
    "Verif.LdaPerWord.C157_shares",
    "Verif.LdaPerWord.C157_order",
    "Verif.LdaPerWord.C157_mass",
    "Verif.LdaPerWord.C157_light_words",
    "Verif.LdaPerWord.C157_repeated_word"
   ],
   "note": ""
  },
  {
   "property": "C158",
   "status": "proved",
   "theorems": [
    "Verif.AuthorInfer.C158_shares",
    "Verif.AuthorInfer.C158_counts",
    "Verif.AuthorInfer.C158_rows",
    "Verif.AuthorInfer.C158_sequential",
    "Verif.AuthorInfer.C158_gamma",
    "Verif.AuthorInfer.C158_document_statistics",
    "Verif.AuthorInfer.C158_statistics",
    "Verif.AuthorInfer.C158_disjoint_documents",
    "Verif.AuthorInfer.C158_lda",
    "Verif.AuthorInfer.C158_fractions_dropped"
   ],
   "note": ""
  },
  {
   "property": "C159",
   "status": "proved",
   "theorems": [
    "Verif.Pipeline.C159_dictionary",
    "Verif.Pipeline.C159_continues",
    "Verif.Pipeline.C159_corpus",
    "Verif.Pipeline.C159_tfidf",
    "Verif.Pipeline.C159_pivot_lost"
   ],
   "note": ""
  },
  {
   "property": "C160",
   "status": "proved",
   "theorems": [
    "Verif.Csv.C160_rows",
    "Verif.Csv.C160_last_line",
    "Verif.Csv.C160_empty_line",
    "Verif.Csv.C160_open_quote",
    "Verif.Csv.C160_error",
    "Verif.Csv.C160_csv_corpus"
   ],
   "note": ""
  },
  {
   "property": "C161",
   "status": "proved",
   "theorems": [
    "Verif.AuthorBound.C161_bound",
    "Verif.AuthorBound.C161_nonpositive",
    "Verif.AuthorBound.C161_order",
    "Verif.AuthorBound.C161_lda",
    "Verif.AuthorBound.C161_per_word",
    "Verif.AuthorBound.C161_refused",
    "Verif.AuthorBound.C161_fractions"
   ],
   "note": ""
  },
  {
   "property": "C162",
   "status": "proved",
   "theorems": [
    "Verif.Tfidf.C162_source",
    "Verif.Tfidf.C162_corpus_ignored",
    "Verif.Tfidf.C162_pivot",
    "Verif.Tfidf.C162_refused",
    "Verif.Tfidf.C162_accepted",
    "Verif.Tfidf.C162_empty_dictionary",
    "Verif.Tfidf.C162_untrained",
    "Verif.Tfidf.C162_unknown_term",
    "Verif.Tfidf.C162_usable"
   ],
   "note": ""
  },
  {
   "property": "C163",
   "status": "proved",
   "theorems": [
    "Verif.HdpScore.C163_e_step",
    "Verif.HdpScore.C163_no_turns",
    "Verif.HdpScore.C163_likelihood",
    "Verif.HdpScore.C163_inference",
    "Verif.HdpScore.C163_evaluate",
    "Verif.HdpScore.C163_trained"
   ],
   "note": ""
  },
  {
   "property": "C164",
   "status": "proved",
   "theorems": [
    "Verif.LdaEm.C164_keeps",
    "Verif.LdaEm.C164_update",
    "Verif.LdaEm.C164_bound",
    "Verif.LdaEm.C164_pass",
    "Verif.LdaEm.C164_topics",
    "Verif.LdaEm.C164_distributed"
   ],
   "note": ""
  },
  {
   "property": "C165",
   "status": "proved",
   "theorems": [
    "Verif.Hdp.C165_turn",
    "Verif.Hdp.C165_likelihood",
    "Verif.Hdp.C165_no_warning",
    "Verif.Hdp.C165_loop",
    "Verif.Hdp.C165_overstated",
    "Verif.Hdp.C165_topics"
   ],
   "note": ""
  },
  {
   "property": "C166",
   "status": "proved",
   "theorems": [
    "Verif.AuthorInfer.C166_round",
    "Verif.AuthorInfer.C166_document",
    "Verif.AuthorInfer.C166_fixed",
    "Verif.AuthorInfer.C166_lda"
   ],
   "note": ""
  },
  {
   "property": "C167",
   "status": "proved",
   "theorems": [
    "Verif.LdaSeq.C167_round",
    "Verif.LdaSeq.C167_fit",
    "Verif.LdaSeq.C167_at_most",
    "Verif.LdaSeq.C167_ends",
    "Verif.LdaSeq.C167_stale_start"
   ],
   "note": ""
  },
  {
   "property": "C168",
   "status": "proved",
   "theorems": [
    "Verif.LdaInfer.C168_gain",
    "Verif.LdaInfer.C168_rounds",
    "Verif.LdaInfer.C168_ends"
   ],
   "note": ""
  },
  {
   "property": "C169",
   "status": "proved",
   "theorems": [
    "Verif.AuthorTrain.C169_step",
    "Verif.AuthorTrain.C169_pass",
    "Verif.AuthorTrain.C169_counts",
    "Verif.AuthorTrain.C169_batch",
    "Verif.AuthorTrain.C169_kept",
    "Verif.AuthorTrain.C169_first",
    "Verif.AuthorTrain.C169_counted_again",
    "Verif.AuthorTrain.C169_counted_often",
    "Verif.AuthorTrain.C169_chunks",
    "Verif.AuthorTrain.C169_authors"
   ],
   "note": ""
  },
  {
   "property": "C170",
   "status": "proved",
   "theorems": [
    "Verif.Nmf.C170_rounds",
    "Verif.Nmf.C170_norm",
    "Verif.Nmf.C170_component",
    "Verif.Nmf.C170_moves",
    "Verif.Nmf.C170_no_error",
    "Verif.Nmf.C170_topic_steps",
    "Verif.Nmf.C170_step_skipped"
   ],
   "note": ""
  },
  {
   "property": "C171",
   "status": "proved",
   "theorems": [
    "Verif.Aggregate.C171_form",
    "Verif.Aggregate.C171_mean",
    "Verif.Aggregate.C171_order",
    "Verif.Aggregate.C171_empty"
   ],
   "note": ""
  },
  {
   "property": "C172",
   "status": "proved",
   "theorems": [
    "Verif.Phrases.C172_frozen",
    "Verif.Phrases.C172_scores",
    "Verif.Phrases.C172_live",
    "Verif.Phrases.C172_live_last",
    "Verif.Phrases.C172_live_model",
    "Verif.Phrases.C172_live_drifts"
   ],
   "note": ""
  },
  {
   "property": "C173",
   "status": "proved",
   "theorems": [
    "Verif.Utf8.C173_decode",
    "Verif.Utf8.C173_bytes",
    "Verif.Utf8.C173_injective",
    "Verif.Utf8.C173_ascii",
    "Verif.Utf8.C173_split",
    "Verif.Utf8.C173_lines",
    "Verif.Utf8.C173_seek",
    "Verif.Utf8.C173_cut",
    "Verif.Utf8.C173_cut_inside"
   ],
   "note": ""
  },
  {
   "property": "C61",
   "status": "proved",
   "theorems": [
    "Verif.Dictionary.C61_patch_new_tokens",
    "Verif.Dictionary.C61_patch_known_tokens_fails",
    "Verif.Dictionary.C61_patch_one_known_token_fails",
    "Verif.Dictionary.C61_patch_leaves_dfs"
   ],
   "note": ""
  },
  {
   "property": "C62",
   "status": "proved",
   "theorems": [
    "Verif.Dictionary.C62_from_corpus_counts",
    "Verif.Dictionary.C62_from_corpus_rebuilds",
    "Verif.Dictionary.C62_from_corpus_no_cfs",
    "Verif.Dictionary.C62_from_corpus_plain"
   ],
   "note": ""
  }
 ]
}