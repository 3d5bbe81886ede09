{
"Verif.Aggregate.C171_empty": [
"propext",
"Classical.choice",
"Quot.sound"
],
"Verif.Aggregate.C171_form": [
"propext",
"Classical.choice",
"Quot.sound"
],
"Verif.Aggregate.C171_mean": [
"propext",
"Classical.choice",
"Quot.sound"
],
"Verif.Aggregate.C171_order": [
"propext",
"Classical.choice",
"Quot.sound"
],
"Verif.Ann.C102_annoy_loaded_cannot_be_saved": [
"propext",
"Classical.choice",
"Quot.sound"
],
"Verif.Ann.C102_annoy_nothing_built": [
"propext",
"Classical.choice",
"Quot.sound"
],
"Verif.Ann.C102_annoy_query": [
"propext",
"Classical.choice",
"Quot.sound"
],
"Verif.Ann.C102_annoy_save_load": [
"propext",
"Classical.choice",
"Quot.sound"
],
"Verif.Ann.C102_annoy_saved_with_other_size": [
"propext",
"Classical.choice",
"Quot.sound"
],
"Verif.Ann.C102_annoy_score_not_cosine": [
"propext",
"Classical.choice",
"Quot.sound"
],
"Verif.Ann.C102_indexer_returns_the_query": [
"propext",
"Classical.choice",
"Quot.sound"
],
"Verif.Ann.C102_most_similar_with_indexer": [
"propext",
"Classical.choice",
"Quot.sound"
],
"Verif.Ann.C102_nmslib_query": [
"propext",
"Classical.choice",
"Quot.sound"
],
"Verif.Ann.C102_nmslib_save_load": [
"propext",
"Classical.choice",
"Quot.sound"
],
"Verif.AuthorBound.C161_bound": [
"propext",
"Classical.choice",
"Quot.sound"
],
"Verif.AuthorBound.C161_fractions": [
"propext",
"Classical.choice",
"Quot.sound"
],
"Verif.AuthorBound.C161_lda": [
"propext",
"Classical.choice",
"Quot.sound"
],
"Verif.AuthorBound.C161_nonpositive": [
"propext",
"Classical.choice",
"Quot.sound"
],
"Verif.AuthorBound.C161_order": [
"propext",
"Classical.choice",
"Quot.sound"
],
"Verif.AuthorBound.C161_per_word": [
"propext",
"Classical.choice",
"Quot.sound"
],
"Verif.AuthorBound.C161_refused": [
"propext",
"Classical.choice",
"Quot.sound"
],
"Verif.AuthorInfer.C158_counts": [
"propext",
"Classical.choice",
"Quot.sound"
],
"Verif.AuthorInfer.C158_disjoint_documents": [
"propext",
"Classical.choice",
"Quot.sound"
],
"Verif.AuthorInfer.C158_document_statistics": [
"propext",
"Classical.choice",
"Quot.sound"
],
"Verif.AuthorInfer.C158_fractions_dropped": [
"propext",
"Classical.choice",
"Quot.sound"
],
"Verif.AuthorInfer.C158_gamma": [
"propext",
"Classical.choice",
"Quot.sound"
],
"Verif.AuthorInfer.C158_lda": [
"propext",
"Classical.choice",
"Quot.sound"
],
"Verif.AuthorInfer.C158_rows": [
"propext",
"Classical.choice",
"Quot.sound"
],
"Verif.AuthorInfer.C158_sequential": [
"propext",
"Classical.choice",
"Quot.sound"
],
"Verif.AuthorInfer.C158_shares": [
"propext",
"Classical.choice",
"Quot.sound"
],
"Verif.AuthorInfer.C158_statistics": [
"propext",
"Classical.choice",
"Quot.sound"
],
"Verif.AuthorInfer.C166_document": [
"propext",
"Classical.choice",
"Quot.sound"
],
"Verif.AuthorInfer.C166_fixed": [
"propext",
"Classical.choice",
"Quot.sound"
],
"Verif.AuthorInfer.C166_lda": [
"propext",
"Classical.choice",
"Quot.sound"
],
"Verif.AuthorInfer.C166_round": [
"propext",
"Classical.choice",
"Quot.sound"
],
"Verif.AuthorTopic.C93_author_ids": [
"propext",
"Classical.choice",
"Quot.sound"
],
"Verif.AuthorTopic.C93_author_keeps_id": [
"propext",
"Classical.choice",
"Quot.sound"
],
"Verif.AuthorTopic.C93_author_topics": [
"propext",
"Classical.choice",
"Quot.sound"
],
"Verif.AuthorTopic.C93_author_without_documents": [
"propext",
"Classical.choice",
"Quot.sound"
],
"Verif.AuthorTopic.C93_bound_ignores_given_authors": [
"propext",
"Classical.choice",
"Quot.sound"
],
"Verif.AuthorTopic.C93_bound_inputs": [
"propext",
"Quot.sound"
],
"Verif.AuthorTopic.C93_constructed_tables": [
"propext",
"Classical.choice",
"Quot.sound"
],
"Verif.AuthorTopic.C93_continue": [
"propext",
"Classical.choice",
"Quot.sound"
],
"Verif.AuthorTopic.C93_document_numbers": [
"propext",
"Classical.choice",
"Quot.sound"
],
"Verif.AuthorTopic.C93_document_round": [
"propext",
"Classical.choice",
"Quot.sound"
],
"Verif.AuthorTopic.C93_document_step": [
"propext",
"Classical.choice",
"Quot.sound"
],
"Verif.AuthorTopic.C93_first_update": [
"propext",
"Classical.choice",
"Quot.sound"
],
"Verif.AuthorTopic.C93_query_refusals": [
"propext",
"Classical.choice",
"Quot.sound"
],
"Verif.AuthorTopic.C93_query_restores": [
"propext",
"Classical.choice",
"Quot.sound"
],
"Verif.AuthorTopic.C93_rounds": [
"propext",
"Classical.choice",
"Quot.sound"
],
"Verif.AuthorTopic.C93_rows_stay_positive": [
"propext",
"Classical.choice",
"Quot.sound"
],
"Verif.AuthorTopic.C93_second_update_example": [
"propext",
"Quot.sound"
],
"Verif.AuthorTopic.C93_second_update_not_reindexed": [
"propext",
"Classical.choice",
"Quot.sound"
],
"Verif.AuthorTopic.C93_shifted_update": [
"propext",
"Classical.choice",
"Quot.sound"
],
"Verif.AuthorTopic.C93_trained_documents": [
"propext",
"Classical.choice",
"Quot.sound"
],
"Verif.AuthorTrain.C169_authors": [
"propext",
"Classical.choice",
"Quot.sound"
],
"Verif.AuthorTrain.C169_batch": [
"propext",
"Classical.choice",
"Quot.sound"
],
"Verif.AuthorTrain.C169_chunks": [
"propext",
"Classical.choice",
"Quot.sound"
],
"Verif.AuthorTrain.C169_counted_again": [
"propext",
"Classical.choice",
"Quot.sound"
],
"Verif.AuthorTrain.C169_counted_often": [
"propext",
"Classical.choice",
"Quot.sound"
],
"Verif.AuthorTrain.C169_counts": [
"propext",
"Classical.choice",
"Quot.sound"
],
"Verif.AuthorTrain.C169_first": [
"propext",
"Classical.choice",
"Quot.sound"
],
"Verif.AuthorTrain.C169_kept": [
"propext",
"Classical.choice",
"Quot.sound"
],
"Verif.AuthorTrain.C169_pass": [
"propext",
"Classical.choice",
"Quot.sound"
],
"Verif.AuthorTrain.C169_step": [
"propext",
"Classical.choice",
"Quot.sound"
],
"Verif.Callbacks.C106_array_alone": [
"propext",
"Classical.choice",
"Quot.sound"
],
"Verif.Callbacks.C106_batch": [
"propext",
"Classical.choice",
"Quot.sound"
],
"Verif.Callbacks.C106_distinct_labels": [
"propext",
"Classical.choice",
"Quot.sound"
],
"Verif.Callbacks.C106_label": [
"propext",
"Classical.choice",
"Quot.sound"
],
"Verif.Callbacks.C106_label_cut": [
"propext",
"Classical.choice",
"Quot.sound"
],
"Verif.Callbacks.C106_no_visdom": [
"propext",
"Classical.choice",
"Quot.sound"
],
"Verif.Callbacks.C106_plots": [
"propext",
"Classical.choice",
"Quot.sound"
],
"Verif.Callbacks.C106_plotted_later": [
"propext",
"Classical.choice",
"Quot.sound"
],
"Verif.Callbacks.C106_same_label": [
"propext",
"Classical.choice",
"Quot.sound"
],
"Verif.Callbacks.C106_seen": [
"propext",
"Quot.sound"
],
"Verif.Callbacks.C106_shell": [
"propext",
"Classical.choice",
"Quot.sound"
],
"Verif.Callbacks.C106_values": [
"propext",
"Classical.choice",
"Quot.sound"
],
"Verif.Chunk.C15_concat": [
"propext",
"Quot.sound"
],
"Verif.Chunk.C15_count": [
"propext",
"Quot.sound"
],
"Verif.Chunk.C15_sizes": [
"propext",
"Classical.choice",
"Quot.sound"
],
"Verif.Chunk.C15_transformed_same": [
"propext",
"Quot.sound"
],
"Verif.Chunk.C16_no_deadlock": [
"propext",
"Quot.sound"
],
"Verif.Chunk.C16_producer_failure_hangs": [
"propext"
],
"Verif.Chunk.C16_same_as_serial": [
"propext",
"Quot.sound"
],
"Verif.Chunk.C16_terminates": [
"propext",
"Quot.sound"
],
"Verif.Chunk.C58_chunked_same": [
"propext",
"Quot.sound"
],
"Verif.Coherence.C137_compare_models": [
"propext",
"Classical.choice",
"Quot.sound"
],
"Verif.Coherence.C137_once": [
"propext",
"Classical.choice",
"Quot.sound"
],
"Verif.Coherence.C137_refused": [
"propext",
"Quot.sound"
],
"Verif.Coherence.C137_stale": [
"propext",
"Classical.choice",
"Quot.sound"
],
"Verif.Coherence.C137_uneven": [
"propext",
"Classical.choice",
"Quot.sound"
],
"Verif.Coherence.C137_words_found": [
"propext",
"Classical.choice",
"Quot.sound"
],
"Verif.Coherence.C137_words_right": [
"propext",
"Classical.choice",
"Quot.sound"
],
"Verif.Coherence.C50_one_list_per_topic": [
"propext"
],
"Verif.Coherence.C50_one_one": [
"propext",
"Quot.sound"
],
"Verif.Coherence.C50_one_pre": [
"propext",
"Classical.choice",
"Quot.sound"
],
"Verif.Coherence.C50_one_set": [
"propext"
],
"Verif.Coherence.C50_pairs_spec": [
"propext",
"Quot.sound"
],
"Verif.Coherence.C51_bounds": [
"propext",
"Classical.choice",
"Quot.sound"
],
"Verif.Coherence.C51_exact": [
"propext",
"Classical.choice",
"Quot.sound"
],
"Verif.Coherence.C52_distinct_words": [
"propext",
"Classical.choice",
"Quot.sound"
],
"Verif.Coherence.C52_exact_iff": [
"propext",
"Classical.choice",
"Quot.sound"
],
"Verif.Coherence.C52_exact_pairs": [
"propext",
"Classical.choice",
"Quot.sound"
],
"Verif.Coherence.C52_irrelevant": [
"propext",
"Quot.sound"
],
"Verif.Coherence.C52_never_over": [
"propext",
"Classical.choice",
"Quot.sound"
],
"Verif.Coherence.C52_num_windows": [
"propext",
"Quot.sound"
],
"Verif.Coherence.C52_second_call_doubles": [
"propext",
"Classical.choice",
"Quot.sound"
],
"Verif.Coherence.C52_undercounts": [
"propext",
"Quot.sound"
],
"Verif.Coherence.C67_counts": [
"propext",
"Classical.choice",
"Quot.sound"
],
"Verif.Coherence.C67_raises_iff": [
"propext",
"Classical.choice",
"Quot.sound"
],
"Verif.Coherence.C67_raises_witness": [
"propext",
"Quot.sound"
],
"Verif.Coherence.C79_mean_bounds": [
"propext",
"Classical.choice",
"Quot.sound"
],
"Verif.Coherence.C79_npmi_always_together": [
"propext",
"Classical.choice",
"Quot.sound"
],
"Verif.Coherence.C79_npmi_range": [
"propext",
"Classical.choice",
"Quot.sound"
],
"Verif.Coherence.C79_relevant": [
"propext",
"Classical.choice",
"Quot.sound"
],
"Verif.Coherence.C79_symmetric": [
"propext",
"Classical.choice",
"Quot.sound"
],
"Verif.Coherence.C79_u_mass": [
"propext",
"Classical.choice",
"Quot.sound"
],
"Verif.Coherence.C79_u_mass_sign": [
"propext",
"Classical.choice",
"Quot.sound"
],
"Verif.Coherence.C79_uci_npmi": [
"propext",
"Classical.choice",
"Quot.sound"
],
"Verif.Coherence.C80_cosine": [
"propext",
"Classical.choice",
"Quot.sound"
],
"Verif.Coherence.C80_range": [
"propext",
"Classical.choice",
"Quot.sound"
],
"Verif.Coherence.C80_single": [
"propext",
"Classical.choice",
"Quot.sound"
],
"Verif.Coherence.C80_symmetric": [
"propext",
"Classical.choice",
"Quot.sound"
],
"Verif.Coherence.C81_compare": [
"propext",
"Classical.choice",
"Quot.sound"
],
"Verif.Coherence.C81_compare_raises": [
"propext",
"Classical.choice",
"Quot.sound"
],
"Verif.Coherence.C81_history": [
"propext",
"Classical.choice",
"Quot.sound"
],
"Verif.Coherence.C81_ids": [
"propext",
"Quot.sound"
],
"Verif.Coherence.C81_segments_given": [
"propext",
"Classical.choice",
"Quot.sound"
],
"Verif.Coherence.C81_topn_raised": [
"propext",
"Classical.choice",
"Quot.sound"
],
"Verif.Coherence.Fail.C124_hang": [
"propext",
"Classical.choice",
"Quot.sound"
],
"Verif.Coherence.Fail.C124_interrupt_hang": [
"propext",
"Quot.sound"
],
"Verif.Coherence.Fail.C124_never_more": [
"propext",
"Classical.choice",
"Quot.sound"
],
"Verif.Coherence.Fail.C124_one_survivor": [
"propext",
"Classical.choice",
"Quot.sound"
],
"Verif.Coherence.Fail.C124_pairs_lost": [
"propext",
"Classical.choice",
"Quot.sound"
],
"Verif.Coherence.Fail.C124_silent_loss": [
"propext",
"Quot.sound"
],
"Verif.Coherence.Fail.C124_statistics": [
"propext",
"Classical.choice",
"Quot.sound"
],
"Verif.Coherence.Fail.C124_w2v": [
"propext",
"Classical.choice",
"Quot.sound"
],
"Verif.Coherence.Fail.C124_w2v_hs": [
"propext",
"Classical.choice",
"Quot.sound"
],
"Verif.Coherence.Fail.C124_w2v_key": [
"propext",
"Classical.choice",
"Quot.sound"
],
"Verif.Coherence.Fail.C124_w2v_kwargs": [
"propext",
"Classical.choice",
"Quot.sound"
],
"Verif.Coherence.Fail.C124_w2v_nan": [
"propext",
"Classical.choice",
"Quot.sound"
],
"Verif.Coherence.Init.C155_accepts": [
"propext",
"Classical.choice",
"Quot.sound"
],
"Verif.Coherence.Init.C155_errors": [
"propext",
"Classical.choice",
"Quot.sound"
],
"Verif.Coherence.Init.C155_iterators": [
"propext",
"Classical.choice",
"Quot.sound"
],
"Verif.Coherence.Init.C155_sees_all": [
"propext",
"Classical.choice",
"Quot.sound"
],
"Verif.Coherence.Init.C155_settings": [
"propext",
"Quot.sound"
],
"Verif.Coherence.Init.C155_topics_replaced": [
"propext"
],
"Verif.Coherence.Init.C155_topn_of_model": [
"propext",
"Quot.sound"
],
"Verif.Coherence.Parallel.C53_example_run": [
"propext",
"Quot.sound"
],
"Verif.Coherence.Parallel.C53_needs_two": [
"propext"
],
"Verif.Coherence.Parallel.C53_no_deadlock": [
"propext",
"Quot.sound"
],
"Verif.Coherence.Parallel.C53_parallel_eq_serial": [
"propext",
"Quot.sound"
],
"Verif.Coherence.Parallel.C53_terminates": [
"propext",
"Quot.sound"
],
"Verif.Convert.C110_any2sparse": [
"propext",
"Classical.choice",
"Quot.sound"
],
"Verif.Convert.C110_corpus2dense": [
"propext",
"Classical.choice",
"Quot.sound"
],
"Verif.Convert.C110_corpus2dense_wrong": [
"propext",
"Classical.choice",
"Quot.sound"
],
"Verif.Convert.C110_dense_corpus": [
"propext",
"Quot.sound"
],
"Verif.Convert.C110_dense_roundtrip": [
"propext",
"Classical.choice",
"Quot.sound"
],
"Verif.Convert.C110_hellinger_row": [
"propext",
"Classical.choice",
"Quot.sound"
],
"Verif.Convert.C110_hellinger_two": [
"propext",
"Classical.choice",
"Quot.sound"
],
"Verif.Convert.C110_hellinger_wrong": [
"propext",
"Classical.choice",
"Quot.sound"
],
"Verif.Convert.C110_jaccard_rows": [
"propext",
"Classical.choice",
"Quot.sound"
],
"Verif.Convert.C110_jaccard_two": [
"propext",
"Classical.choice",
"Quot.sound"
],
"Verif.Convert.C110_pad": [
"propext",
"Quot.sound"
],
"Verif.Convert.C110_scipy_corpus": [
"propext",
"Quot.sound"
],
"Verif.Convert.C110_sparse_getitem": [
"propext",
"Classical.choice",
"Quot.sound"
],
"Verif.Convert.C110_sparse_negative": [
"propext",
"Classical.choice",
"Quot.sound"
],
"Verif.Convert.C110_sparse_roundtrip": [
"propext",
"Classical.choice",
"Quot.sound"
],
"Verif.Csv.C160_csv_corpus": [],
"Verif.Csv.C160_empty_line": [
"propext",
"Classical.choice",
"Quot.sound"
],
"Verif.Csv.C160_error": [
"propext",
"Classical.choice",
"Quot.sound"
],
"Verif.Csv.C160_last_line": [
"propext",
"Quot.sound"
],
"Verif.Csv.C160_open_quote": [
"propext",
"Classical.choice",
"Quot.sound"
],
"Verif.Csv.C160_rows": [
"propext",
"Classical.choice",
"Quot.sound"
],
"Verif.D2VStep.C87_concat": [
"propext",
"Classical.choice",
"Quot.sound"
],
"Verif.D2VStep.C87_concat_skips": [
"propext",
"Classical.choice",
"Quot.sound"
],
"Verif.D2VStep.C87_concat_window": [
"propext",
"Classical.choice",
"Quot.sound"
],
"Verif.D2VStep.C87_dbow_both": [
"propext",
"Classical.choice",
"Quot.sound"
],
"Verif.D2VStep.C87_dbow_document": [
"propext",
"Classical.choice",
"Quot.sound"
],
"Verif.D2VStep.C87_dbow_tag": [
"propext",
"Classical.choice",
"Quot.sound"
],
"Verif.D2VStep.C87_dbow_word": [
"propext",
"Classical.choice",
"Quot.sound"
],
"Verif.D2VStep.C87_dm": [
"propext",
"Classical.choice",
"Quot.sound"
],
"Verif.D2VStep.C87_dm_document": [
"propext",
"Classical.choice",
"Quot.sound"
],
"Verif.D2VStep.C87_dm_input": [
"propext",
"Classical.choice",
"Quot.sound"
],
"Verif.D2VStep.C87_dm_lock": [
"propext",
"Classical.choice",
"Quot.sound"
],
"Verif.D2VStep.C87_dm_lock_wrong": [
"propext",
"Classical.choice",
"Quot.sound"
],
"Verif.D2VStep.C87_dm_locked_word_moves": [
"propext",
"Classical.choice",
"Quot.sound"
],
"Verif.D2VStep.C87_words": [
"propext",
"Classical.choice",
"Quot.sound"
],
"Verif.D2VStep.C88_arguments": [
"propext",
"Classical.choice",
"Quot.sound"
],
"Verif.D2VStep.C88_concat": [
"propext",
"Classical.choice",
"Quot.sound"
],
"Verif.D2VStep.C88_concat_model_unchanged": [
"propext",
"Classical.choice",
"Quot.sound"
],
"Verif.D2VStep.C88_concat_tag_count": [
"propext",
"Classical.choice",
"Quot.sound"
],
"Verif.D2VStep.C88_dbow": [
"propext",
"Classical.choice",
"Quot.sound"
],
"Verif.D2VStep.C88_dm": [
"propext",
"Classical.choice",
"Quot.sound"
],
"Verif.D2VStep.C88_model_unchanged": [
"propext",
"Classical.choice",
"Quot.sound"
],
"Verif.D2VStep.C88_rates": [
"propext",
"Classical.choice",
"Quot.sound"
],
"Verif.D2VStep.C88_rates_bounds": [
"propext",
"Classical.choice",
"Quot.sound"
],
"Verif.D2VStep.C88_unknown_words": [
"propext",
"Classical.choice",
"Quot.sound"
],
"Verif.D2VStep.C88_zero_is_default": [
"propext",
"Classical.choice",
"Quot.sound"
],
"Verif.D2VStep.C89_concat_block_wrong": [
"propext",
"Classical.choice",
"Quot.sound"
],
"Verif.D2VStep.C89_concat_start": [
"propext",
"Classical.choice",
"Quot.sound"
],
"Verif.D2VStep.C89_concat_tags": [
"propext",
"Quot.sound"
],
"Verif.D2VStep.C89_dm_windows": [
"propext",
"Classical.choice",
"Quot.sound"
],
"Verif.D2VStep.C89_empty_lines": [
"propext",
"Classical.choice",
"Quot.sound"
],
"Verif.D2VStep.C89_never": [
"propext",
"Classical.choice",
"Quot.sound"
],
"Verif.D2VStep.C89_one_worker": [
"propext",
"Classical.choice",
"Quot.sound"
],
"Verif.D2VStep.C89_share": [
"propext",
"Classical.choice",
"Quot.sound"
],
"Verif.D2VStep.C89_shift_wrong": [
"propext",
"Classical.choice",
"Quot.sound"
],
"Verif.D2VStep.C89_tags": [
"propext",
"Classical.choice",
"Quot.sound"
],
"Verif.D2VStep.C89_twice": [
"propext",
"Classical.choice",
"Quot.sound"
],
"Verif.Dictionary.C01_ids_dense_bijection": [
"propext",
"Classical.choice",
"Quot.sound"
],
"Verif.Dictionary.C01_listing_order": [
"propext",
"Classical.choice",
"Quot.sound"
],
"Verif.Dictionary.C01_operations_never_raise": [
"propext",
"Classical.choice",
"Quot.sound"
],
"Verif.Dictionary.C02_doc2bow_exact": [
"propext",
"Classical.choice",
"Quot.sound"
],
"Verif.Dictionary.C02_missing_exact": [
"propext",
"Quot.sound"
],
"Verif.Dictionary.C02_update_knows_all": [
"propext",
"Classical.choice",
"Quot.sound"
],
"Verif.Dictionary.C03_df_le_num_docs": [
"propext",
"Classical.choice",
"Quot.sound"
],
"Verif.Dictionary.C03_order_independent": [
"propext",
"Classical.choice",
"Quot.sound"
],
"Verif.Dictionary.C03_statistics_additive": [
"propext",
"Classical.choice",
"Quot.sound"
],
"Verif.Dictionary.C03_statistics_exact": [
"propext",
"Classical.choice",
"Quot.sound"
],
"Verif.Dictionary.C04_doc2bow_pure": [],
"Verif.Dictionary.C04_doc2idx": [
"propext"
],
"Verif.Dictionary.C05_filter_extremes": [
"propext",
"Classical.choice",
"Quot.sound"
],
"Verif.Dictionary.C05_filter_n_most_frequent": [
"propext",
"Classical.choice",
"Quot.sound"
],
"Verif.Dictionary.C05_filter_tokens": [
"propext",
"Classical.choice",
"Quot.sound"
],
"Verif.Dictionary.C05_keep_tokens_fails": [
"propext",
"Quot.sound"
],
"Verif.Dictionary.C05_keep_tokens_survive_without_cut": [
"propext",
"Classical.choice",
"Quot.sound"
],
"Verif.Dictionary.C06_lookup_harmless": [
"propext"
],
"Verif.Dictionary.C06_reverse_lookup": [
"propext",
"Classical.choice",
"Quot.sound"
],
"Verif.Dictionary.C07_newline_token_unreadable": [
"propext",
"Classical.choice",
"Quot.sound"
],
"Verif.Dictionary.C07_tab_token_unreadable": [
"propext",
"Classical.choice",
"Quot.sound"
],
"Verif.Dictionary.C07_text_roundtrip": [
"propext",
"Classical.choice",
"Quot.sound"
],
"Verif.Dictionary.C08_cfs_not_merged": [
"propext",
"Classical.choice",
"Quot.sound"
],
"Verif.Dictionary.C08_merge_equals_joint": [
"propext",
"Classical.choice",
"Quot.sound"
],
"Verif.Dictionary.C08_merge_with": [
"propext",
"Classical.choice",
"Quot.sound"
],
"Verif.Dictionary.C08_translation": [
"propext",
"Classical.choice",
"Quot.sound"
],
"Verif.Dictionary.C09_check_leaves_at_most_k": [
"propext",
"Classical.choice",
"Quot.sound"
],
"Verif.Dictionary.C09_check_leaves_exactly": [
"propext",
"Classical.choice",
"Quot.sound"
],
"Verif.Dictionary.C09_pruned_counts_never_exceed": [
"propext",
"Classical.choice",
"Quot.sound"
],
"Verif.Dictionary.C09_pruned_size_bounded": [
"propext",
"Classical.choice",
"Quot.sound"
],
"Verif.Dictionary.C151_dictionary": [
"propext",
"Classical.choice",
"Quot.sound"
],
"Verif.Dictionary.C151_dictionary_cut": [
"propext",
"Classical.choice",
"Quot.sound"
],
"Verif.Dictionary.C61_patch_known_tokens_fails": [
"propext",
"Quot.sound"
],
"Verif.Dictionary.C61_patch_leaves_dfs": [
"propext",
"Quot.sound"
],
"Verif.Dictionary.C61_patch_new_tokens": [
"propext",
"Classical.choice",
"Quot.sound"
],
"Verif.Dictionary.C61_patch_one_known_token_fails": [
"propext",
"Quot.sound"
],
"Verif.Dictionary.C62_from_corpus_counts": [
"propext",
"Quot.sound"
],
"Verif.Dictionary.C62_from_corpus_no_cfs": [],
"Verif.Dictionary.C62_from_corpus_plain": [
"propext",
"Classical.choice",
"Quot.sound"
],
"Verif.Dictionary.C62_from_corpus_rebuilds": [
"propext",
"Classical.choice",
"Quot.sound"
],
"Verif.Doc2Vec.C138_binary": [
"propext",
"Classical.choice",
"Quot.sound"
],
"Verif.Doc2Vec.C138_confused": [
"propext",
"Classical.choice",
"Quot.sound"
],
"Verif.Doc2Vec.C138_parts": [
"propext",
"Classical.choice",
"Quot.sound"
],
"Verif.Doc2Vec.C138_text": [
"propext",
"Classical.choice",
"Quot.sound"
],
"Verif.Doc2Vec.C138_vocab": [
"propext",
"Classical.choice",
"Quot.sound"
],
"Verif.Doc2Vec.C138_vocab_integers": [
"propext",
"Classical.choice",
"Quot.sound"
],
"Verif.Doc2Vec.C37_counts": [
"propext",
"Classical.choice",
"Quot.sound"
],
"Verif.Doc2Vec.C37_foreign_integer": [],
"Verif.Doc2Vec.C37_injective": [
"propext",
"Classical.choice",
"Quot.sound"
],
"Verif.Doc2Vec.C37_negative": [
"propext",
"Quot.sound"
],
"Verif.Doc2Vec.C37_rebuild": [],
"Verif.Doc2Vec.C37_rows": [
"propext",
"Classical.choice",
"Quot.sound"
],
"Verif.Doc2Vec.Life.C142_dm_mean": [
"propext"
],
"Verif.Doc2Vec.Life.C142_findings": [
"propext"
],
"Verif.Doc2Vec.Life.C142_first": [
"propext",
"Classical.choice",
"Quot.sound"
],
"Verif.Doc2Vec.Life.C142_freq": [
"propext",
"Quot.sound"
],
"Verif.Doc2Vec.Life.C142_getitem": [
"propext",
"Classical.choice",
"Quot.sound"
],
"Verif.Doc2Vec.Life.C142_job": [
"propext",
"Quot.sound"
],
"Verif.Doc2Vec.Life.C142_reset": [
"propext",
"Classical.choice",
"Quot.sound"
],
"Verif.Doc2Vec.Life.C142_settings": [
"propext",
"Quot.sound"
],
"Verif.Doc2Vec.Life.C142_update": [
"propext",
"Classical.choice",
"Quot.sound"
],
"Verif.Doc2Vec.Life.C142_warning": [
"propext",
"Classical.choice",
"Quot.sound"
],
"Verif.Docsim.C54_add_after_save_breaks_saved": [
"propext"
],
"Verif.Docsim.C54_history": [
"propext",
"Classical.choice",
"Quot.sound"
],
"Verif.Docsim.C54_save_load": [
"propext",
"Classical.choice",
"Quot.sound"
],
"Verif.Docsim.C54_shard_sizes": [
"propext",
"Classical.choice",
"Quot.sound"
],
"Verif.Docsim.C54_zero_weight_unusable": [
"propext"
],
"Verif.Docsim.C55_all": [
"propext",
"Quot.sound"
],
"Verif.Docsim.C55_corpus": [
"propext",
"Quot.sound"
],
"Verif.Docsim.C55_empty_index_corpus": [
"propext",
"Quot.sound"
],
"Verif.Docsim.C55_generator_many_shards": [
"propext",
"Quot.sound"
],
"Verif.Docsim.C55_generator_one_shard": [
"propext",
"Quot.sound"
],
"Verif.Docsim.C55_topk": [
"propext",
"Classical.choice",
"Quot.sound"
],
"Verif.Docsim.C55_values_independent": [
"propext",
"Classical.choice",
"Quot.sound"
],
"Verif.Docsim.C68_abandoned": [
"propext",
"Quot.sound"
],
"Verif.Docsim.C68_dense_raises_iff": [
"propext",
"Classical.choice",
"Quot.sound"
],
"Verif.Docsim.C68_iterate": [
"propext",
"Quot.sound"
],
"Verif.Docsim.C68_iterate_dense": [
"propext",
"Classical.choice",
"Quot.sound"
],
"Verif.Docsim.C68_nested": [
"propext",
"Classical.choice",
"Quot.sound"
],
"Verif.Docsim.C68_overlapping": [],
"Verif.Docsim.Par.C55_parallel": [
"propext",
"Classical.choice",
"Quot.sound"
],
"Verif.Docsim.Par.C55_serial": [
"propext",
"Classical.choice",
"Quot.sound"
],
"Verif.Downloader.C96_bad_answer_destroys_cache": [],
"Verif.Downloader.C96_bad_checksum": [
"propext",
"Classical.choice",
"Quot.sound"
],
"Verif.Downloader.C96_download_succeeds": [
"propext",
"Classical.choice",
"Quot.sound"
],
"Verif.Downloader.C96_installed_is_verified": [
"propext",
"Classical.choice",
"Quot.sound"
],
"Verif.Downloader.C96_installed_is_verified_across_file_systems": [
"propext",
"Classical.choice",
"Quot.sound"
],
"Verif.Downloader.C96_installed_not_fetched": [
"propext",
"Classical.choice",
"Quot.sound"
],
"Verif.Downloader.C96_kill_can_block": [
"propext",
"Classical.choice",
"Quot.sound"
],
"Verif.Downloader.C96_leftover_blocks": [
"propext",
"Classical.choice",
"Quot.sound"
],
"Verif.Downloader.C96_listing": [
"propext",
"Quot.sound"
],
"Verif.Downloader.C96_load_accepts": [
"propext",
"Quot.sound"
],
"Verif.Downloader.C96_outdated_refused": [
"propext",
"Quot.sound"
],
"Verif.Downloader.C96_two_processes_install_empty": [
"propext",
"Classical.choice",
"Quot.sound"
],
"Verif.Downloader.Help.C96_base_dir": [
"propext",
"Quot.sound"
],
"Verif.Downloader.Help.C96_base_dir_alone": [
"propext"
],
"Verif.Downloader.Help.C96_base_dir_race": [
"propext"
],
"Verif.Downloader.Help.C96_checksum": [
"propext",
"Quot.sound"
],
"Verif.Downloader.Help.C96_progress": [
"propext",
"Classical.choice",
"Quot.sound"
],
"Verif.Downloader.Help.C96_progress_empty": [
"propext",
"Classical.choice",
"Quot.sound"
],
"Verif.Downloader.Help.C96_progress_overshoot": [
"propext",
"Classical.choice",
"Quot.sound"
],
"Verif.Downloader.Help.C96_progress_unknown": [
"propext",
"Classical.choice",
"Quot.sound"
],
"Verif.FastText.Batch.C44_batch_size": [
"propext",
"Classical.choice",
"Quot.sound"
],
"Verif.FastText.Batch.C44_batched": [
"propext",
"Classical.choice",
"Quot.sound"
],
"Verif.FastText.Bin.C152_cut": [
"propext",
"Quot.sound"
],
"Verif.FastText.Bin.C152_cut_vectors": [
"propext",
"Classical.choice",
"Quot.sound"
],
"Verif.FastText.Bin.C152_hang_no_result": [
"propext",
"Quot.sound"
],
"Verif.FastText.Bin.C152_hangs": [
"propext",
"Classical.choice",
"Quot.sound"
],
"Verif.FastText.Bin.C152_word_loop": [
"propext",
"Quot.sound"
],
"Verif.FastText.Bin.C44_both_losses": [
"propext",
"Classical.choice",
"Quot.sound"
],
"Verif.FastText.Bin.C44_load_save": [
"propext",
"Classical.choice",
"Quot.sound"
],
"Verif.FastText.Bin.C44_model_roundtrip": [
"propext",
"Classical.choice",
"Quot.sound"
],
"Verif.FastText.Bin.C44_nul_word": [
"propext"
],
"Verif.FastText.Bin.C44_utf8": [
"propext",
"Classical.choice",
"Quot.sound"
],
"Verif.FastText.Bin.C44_zero_count": [
"propext",
"Quot.sound"
],
"Verif.FastText.C42_byte_ngrams": [
"propext",
"Classical.choice",
"Quot.sound"
],
"Verif.FastText.C42_ngrams": [
"propext",
"Classical.choice",
"Quot.sound"
],
"Verif.FastText.C42_same_ngrams": [
"propext",
"Classical.choice",
"Quot.sound"
],
"Verif.FastText.C42_spans": [
"propext",
"Classical.choice",
"Quot.sound"
],
"Verif.FastText.C43_ascii": [
"propext"
],
"Verif.FastText.C43_bucket_range": [
"propext",
"Classical.choice",
"Quot.sound"
],
"Verif.FastText.C43_not_standard": [
"propext"
],
"Verif.FastText.C43_sign_extended": [
"propext"
],
"Verif.FastText.C64_added_word_unloadable": [
"propext",
"Quot.sound"
],
"Verif.FastText.C64_assignment_lost": [
"propext",
"Quot.sound"
],
"Verif.FastText.C64_contains_lies": [
"propext",
"Quot.sound"
],
"Verif.FastText.C64_known_word": [
"propext",
"Classical.choice",
"Quot.sound"
],
"Verif.FastText.C64_known_word_no_buckets": [
"propext",
"Classical.choice",
"Quot.sound"
],
"Verif.FastText.C64_rows_exist": [
"propext",
"Quot.sound"
],
"Verif.FastText.C64_save_load": [
"propext",
"Quot.sound"
],
"Verif.FastText.C64_total": [
"propext",
"Quot.sound"
],
"Verif.FastText.C64_unknown_word": [
"propext",
"Classical.choice",
"Quot.sound"
],
"Verif.FastText.Unpack.C135_cycle": [
"propext"
],
"Verif.FastText.Unpack.C135_no_row_lost": [
"propext",
"Quot.sound"
],
"Verif.FastText.Unpack.C135_overwritten": [
"propext"
],
"Verif.FastText.Unpack.C135_pad_ones": [
"propext",
"Quot.sound"
],
"Verif.FastText.Unpack.C135_sizes": [
"propext",
"Quot.sound"
],
"Verif.FastText.Unpack.C135_unpack": [
"propext",
"Classical.choice",
"Quot.sound"
],
"Verif.FileTrain.C127_bounds": [
"propext",
"Classical.choice",
"Quot.sound"
],
"Verif.FileTrain.C127_floor": [
"propext",
"Classical.choice",
"Quot.sound"
],
"Verif.FileTrain.C127_full": [
"propext",
"Classical.choice",
"Quot.sound"
],
"Verif.FileTrain.C127_hangs": [
"propext",
"Classical.choice",
"Quot.sound"
],
"Verif.FileTrain.C127_loss": [
"propext",
"Classical.choice",
"Quot.sound"
],
"Verif.FileTrain.C127_loss_lost": [
"propext",
"Quot.sound"
],
"Verif.FileTrain.C127_loss_serial": [
"propext",
"Quot.sound"
],
"Verif.FileTrain.C127_no_total_words": [
"propext",
"Classical.choice",
"Quot.sound"
],
"Verif.FileTrain.C127_one_batch": [
"propext",
"Quot.sound"
],
"Verif.FileTrain.C127_rates": [
"propext",
"Classical.choice",
"Quot.sound"
],
"Verif.FileTrain.C127_totals": [
"propext",
"Classical.choice",
"Quot.sound"
],
"Verif.FileTrain.C127_train": [
"propext",
"Classical.choice",
"Quot.sound"
],
"Verif.Formats.C148_at": [
"propext",
"Quot.sound"
],
"Verif.Formats.C148_blei": [
"propext",
"Classical.choice",
"Quot.sound"
],
"Verif.Formats.C148_empty": [
"propext",
"Classical.choice",
"Quot.sound"
],
"Verif.Formats.C148_read": [
"propext",
"Classical.choice",
"Quot.sound"
],
"Verif.Formats.C148_truncated": [
"propext",
"Classical.choice",
"Quot.sound"
],
"Verif.Formats.C151_blei": [
"propext",
"Classical.choice",
"Quot.sound"
],
"Verif.Formats.C151_cut_documents": [
"propext",
"Classical.choice",
"Quot.sound"
],
"Verif.Formats.C151_low": [
"propext",
"Classical.choice",
"Quot.sound"
],
"Verif.Formats.C151_mallet": [
"propext",
"Classical.choice",
"Quot.sound"
],
"Verif.Formats.C151_mm": [
"propext",
"Classical.choice",
"Quot.sound"
],
"Verif.Formats.C151_streams": [
"propext",
"Classical.choice",
"Quot.sound"
],
"Verif.Formats.C151_svm": [
"propext",
"Classical.choice",
"Quot.sound"
],
"Verif.Formats.C151_uci": [
"propext",
"Quot.sound"
],
"Verif.Formats.C22_exact": [
"propext",
"Classical.choice",
"Quot.sound"
],
"Verif.Formats.C22_refused": [
"propext",
"Classical.choice",
"Quot.sound"
],
"Verif.Formats.C22_roundtrip": [
"propext",
"Classical.choice",
"Quot.sound"
],
"Verif.Formats.C23_comment": [
"propext",
"Classical.choice",
"Quot.sound"
],
"Verif.Formats.C23_corpus": [
"propext",
"Classical.choice",
"Quot.sound"
],
"Verif.Formats.C23_last_char_lost": [
"propext"
],
"Verif.Formats.C23_len_counts_comments": [
"propext",
"Classical.choice",
"Quot.sound"
],
"Verif.Formats.C23_raises": [
"propext",
"Quot.sound"
],
"Verif.Formats.C23_roundtrip": [
"propext",
"Classical.choice",
"Quot.sound"
],
"Verif.Formats.C24_corpus": [
"propext",
"Classical.choice",
"Quot.sound"
],
"Verif.Formats.C24_near_zero_unreadable": [
"propext",
"Classical.choice",
"Quot.sound"
],
"Verif.Formats.C24_roundtrip": [
"propext",
"Classical.choice",
"Quot.sound"
],
"Verif.Formats.C24_vocab": [
"propext",
"Classical.choice",
"Quot.sound"
],
"Verif.Formats.C25_low_merged": [
"propext",
"Classical.choice",
"Quot.sound"
],
"Verif.Formats.C25_low_refused": [
"propext",
"Classical.choice",
"Quot.sound"
],
"Verif.Formats.C25_low_roundtrip": [
"propext",
"Classical.choice",
"Quot.sound"
],
"Verif.Formats.C25_mallet_refused": [
"propext",
"Classical.choice",
"Quot.sound"
],
"Verif.Formats.C25_mallet_roundtrip": [
"propext",
"Classical.choice",
"Quot.sound"
],
"Verif.Formats.C25_uci_roundtrip": [
"propext",
"Classical.choice",
"Quot.sound"
],
"Verif.Formats.C25_uci_saves": [
"propext",
"Classical.choice",
"Quot.sound"
],
"Verif.FtTrain.C108_batch": [
"propext",
"Classical.choice",
"Quot.sound"
],
"Verif.FtTrain.C108_cbow_hs": [
"propext",
"Classical.choice",
"Quot.sound"
],
"Verif.FtTrain.C108_cbow_neg": [
"propext",
"Classical.choice",
"Quot.sound"
],
"Verif.FtTrain.C108_cbow_neg_table": [
"propext",
"Classical.choice",
"Quot.sound"
],
"Verif.FtTrain.C108_cbow_saturated": [
"propext",
"Classical.choice",
"Quot.sound"
],
"Verif.FtTrain.C108_frame": [
"propext",
"Classical.choice",
"Quot.sound"
],
"Verif.FtTrain.C108_input": [
"propext",
"Classical.choice",
"Quot.sound"
],
"Verif.FtTrain.C108_locks": [
"propext",
"Classical.choice",
"Quot.sound"
],
"Verif.FtTrain.C108_looked_up": [
"propext",
"Classical.choice",
"Quot.sound"
],
"Verif.FtTrain.C108_no_buckets": [
"propext",
"Classical.choice",
"Quot.sound"
],
"Verif.FtTrain.C108_no_context": [
"propext",
"Classical.choice",
"Quot.sound"
],
"Verif.FtTrain.C108_pair": [
"propext",
"Classical.choice",
"Quot.sound"
],
"Verif.FtTrain.C108_saturated_skipped": [
"propext",
"Classical.choice",
"Quot.sound"
],
"Verif.FtTrain.C108_sg_hs": [
"propext",
"Classical.choice",
"Quot.sound"
],
"Verif.FtTrain.C108_sg_neg": [
"propext",
"Classical.choice",
"Quot.sound"
],
"Verif.FtTrain.C108_sg_neg_table": [
"propext",
"Classical.choice",
"Quot.sound"
],
"Verif.FtTrain.C108_table": [
"propext",
"Classical.choice",
"Quot.sound"
],
"Verif.FtTrain.C108_word": [
"propext",
"Classical.choice",
"Quot.sound"
],
"Verif.HashDict.C10_counters": [
"propext",
"Classical.choice",
"Quot.sound"
],
"Verif.HashDict.C10_debug_statistics": [
"propext",
"Classical.choice",
"Quot.sound"
],
"Verif.HashDict.C10_debug_tables_agree": [
"propext",
"Classical.choice",
"Quot.sound"
],
"Verif.HashDict.C10_filter_extremes": [
"propext",
"Classical.choice",
"Quot.sound"
],
"Verif.HashDict.C10_history_independent": [
"propext"
],
"Verif.HashDict.C10_keep_n": [
"propext",
"Classical.choice",
"Quot.sound"
],
"Verif.HashDict.C10_nodebug_no_tables": [
"propext",
"Quot.sound"
],
"Verif.HashDict.C10_save_as_text": [
"propext",
"Classical.choice",
"Quot.sound"
],
"Verif.HashDict.C10_save_as_text_nodebug": [
"propext",
"Quot.sound"
],
"Verif.HashDict.C10_vector_exact": [
"propext",
"Classical.choice",
"Quot.sound"
],
"Verif.Hdp.C165_likelihood": [
"propext",
"Classical.choice",
"Quot.sound"
],
"Verif.Hdp.C165_loop": [
"propext",
"Classical.choice",
"Quot.sound"
],
"Verif.Hdp.C165_no_warning": [
"propext",
"Classical.choice",
"Quot.sound"
],
"Verif.Hdp.C165_overstated": [
"propext",
"Classical.choice",
"Quot.sound"
],
"Verif.Hdp.C165_topics": [
"propext",
"Classical.choice",
"Quot.sound"
],
"Verif.Hdp.C165_turn": [
"propext",
"Classical.choice",
"Quot.sound"
],
"Verif.Hdp.C98_empty_corpus": [
"propext",
"Classical.choice",
"Quot.sound"
],
"Verif.Hdp.C98_first_update": [
"propext",
"Classical.choice",
"Quot.sound"
],
"Verif.Hdp.C98_hdp_to_lda": [
"propext",
"Classical.choice",
"Quot.sound"
],
"Verif.Hdp.C98_inference": [
"propext",
"Classical.choice",
"Quot.sound"
],
"Verif.Hdp.C98_later_update": [
"propext",
"Classical.choice",
"Quot.sound"
],
"Verif.Hdp.C98_lazy_updates": [
"propext",
"Classical.choice",
"Quot.sound"
],
"Verif.Hdp.C98_max_chunks": [
"propext",
"Classical.choice",
"Quot.sound"
],
"Verif.Hdp.C98_no_corpus_learns_nothing": [
"propext",
"Classical.choice",
"Quot.sound"
],
"Verif.Hdp.C98_probe_decays_again": [
"propext",
"Classical.choice",
"Quot.sound"
],
"Verif.Hdp.C98_repeated_word": [
"propext",
"Classical.choice",
"Quot.sound"
],
"Verif.Hdp.C98_show_refreshes": [
"propext",
"Classical.choice",
"Quot.sound"
],
"Verif.Hdp.C98_stale_topics": [
"propext",
"Classical.choice",
"Quot.sound"
],
"Verif.Hdp.C98_statistics": [
"propext",
"Classical.choice",
"Quot.sound"
],
"Verif.Hdp.C98_suggested_lda_topics": [
"propext",
"Classical.choice",
"Quot.sound"
],
"Verif.Hdp.C98_topic_numbers": [
"propext",
"Classical.choice",
"Quot.sound"
],
"Verif.Hdp.Out.C98_no_outputdir": [
"propext",
"Classical.choice",
"Quot.sound"
],
"Verif.Hdp.Out.C98_outputdir": [
"propext",
"Classical.choice",
"Quot.sound"
],
"Verif.Hdp.Out.C98_save_topics": [
"propext",
"Classical.choice",
"Quot.sound"
],
"Verif.Hdp.Out.C98_save_topics_none": [
"propext",
"Classical.choice",
"Quot.sound"
],
"Verif.HdpScore.C163_e_step": [
"propext",
"Classical.choice",
"Quot.sound"
],
"Verif.HdpScore.C163_evaluate": [
"propext",
"Classical.choice",
"Quot.sound"
],
"Verif.HdpScore.C163_inference": [
"propext",
"Classical.choice",
"Quot.sound"
],
"Verif.HdpScore.C163_likelihood": [
"propext",
"Classical.choice",
"Quot.sound"
],
"Verif.HdpScore.C163_no_turns": [
"propext",
"Classical.choice",
"Quot.sound"
],
"Verif.HdpScore.C163_trained": [
"propext",
"Classical.choice",
"Quot.sound"
],
"Verif.Helper.C133_flatten": [
"propext",
"Quot.sound"
],
"Verif.Helper.C133_flatten_bytes": [
"propext",
"Quot.sound"
],
"Verif.Helper.C133_hardlink": [
"propext",
"Quot.sound"
],
"Verif.Helper.C133_hardlink_race": [
"propext",
"Quot.sound"
],
"Verif.Helper.C133_jobs": [
"propext",
"Classical.choice",
"Quot.sound"
],
"Verif.Helper.C133_names": [
"propext",
"Classical.choice",
"Quot.sound"
],
"Verif.Helper.C133_names_with_x": [
"propext",
"Classical.choice",
"Quot.sound"
],
"Verif.Helper.C133_no_code_point": [
"propext",
"Classical.choice",
"Quot.sound"
],
"Verif.Helper.C133_no_entity": [
"propext",
"Classical.choice",
"Quot.sound"
],
"Verif.Helper.C133_open_file": [
"propext"
],
"Verif.Helper.C133_plain": [
"propext",
"Quot.sound"
],
"Verif.Helper.C133_round_trip": [
"propext",
"Classical.choice",
"Quot.sound"
],
"Verif.Helper.C133_upload": [
"propext",
"Classical.choice",
"Quot.sound"
],
"Verif.Helper.C133_upload_twice": [
"propext",
"Quot.sound"
],
"Verif.Indexed.C107_csv": [],
"Verif.Indexed.C107_empty_fancy": [
"propext"
],
"Verif.Indexed.C107_extension": [
"propext",
"Quot.sound"
],
"Verif.Indexed.C107_failed_source": [
"propext"
],
"Verif.Indexed.C107_history": [
"propext",
"Quot.sound"
],
"Verif.Indexed.C107_index_name": [
"propext",
"Classical.choice",
"Quot.sound"
],
"Verif.Indexed.C107_index_names_differ": [
"propext",
"Classical.choice",
"Quot.sound"
],
"Verif.Indexed.C107_name_of_index": [
"propext"
],
"Verif.Indexed.C107_no_index": [
"propext"
],
"Verif.Indexed.C107_overwrites_itself": [
"propext",
"Quot.sound"
],
"Verif.Indexed.C107_same_name": [
"propext"
],
"Verif.Indexed.C107_serialize": [
"propext",
"Quot.sound"
],
"Verif.Indexed.C107_stale_index": [
"propext",
"Quot.sound"
],
"Verif.KV.C38_add_vector_index": [
"propext"
],
"Verif.KV.C38_duplicate_in_batch": [],
"Verif.KV.C38_integer_key": [
"propext"
],
"Verif.KV.C38_lookup": [
"propext",
"Classical.choice",
"Quot.sound"
],
"Verif.KV.C38_norm": [
"propext",
"Quot.sound"
],
"Verif.KV.C38_order": [
"propext",
"Classical.choice",
"Quot.sound"
],
"Verif.KV.C38_row_number": [
"propext"
],
"Verif.KV.C38_stale_norm": [
"propext"
],
"Verif.KV.C39_answers": [
"propext",
"Quot.sound"
],
"Verif.KV.C39_cosmul": [
"propext",
"Classical.choice",
"Quot.sound"
],
"Verif.KV.C39_most_similar": [
"propext",
"Classical.choice",
"Quot.sound"
],
"Verif.KV.C39_no_input_key": [
"propext",
"Classical.choice",
"Quot.sound"
],
"Verif.KV.C39_searched_rows": [
"propext",
"Quot.sound"
],
"Verif.KV.C39_topn_zero": [
"propext",
"Quot.sound"
],
"Verif.KV.C40_binary_reader": [
"propext",
"Classical.choice",
"Quot.sound"
],
"Verif.KV.C40_binary_roundtrip": [
"propext",
"Classical.choice",
"Quot.sound"
],
"Verif.KV.C40_chunk_size_matters": [
"propext"
],
"Verif.KV.C40_integer_keys_twice": [],
"Verif.KV.C40_limit": [
"propext",
"Classical.choice",
"Quot.sound"
],
"Verif.KV.C40_order": [
"propext",
"Quot.sound"
],
"Verif.KV.C40_text_roundtrip": [
"propext",
"Classical.choice",
"Quot.sound"
],
"Verif.KV.C40_text_too_short": [
"propext",
"Classical.choice",
"Quot.sound"
],
"Verif.KV.C41_closer_than": [
"propext",
"Classical.choice",
"Quot.sound"
],
"Verif.KV.C41_rank": [
"propext",
"Classical.choice",
"Quot.sound"
],
"Verif.KV.C63_add_keeps_attrs": [
"propext",
"Quot.sound"
],
"Verif.KV.C63_set_vecattr": [
"propext",
"Quot.sound"
],
"Verif.KV.C63_sort": [
"propext",
"Classical.choice",
"Quot.sound"
],
"Verif.KV.C63_stale_norms": [
"propext",
"Classical.choice",
"Quot.sound"
],
"Verif.KvEval.C95_analogies": [
"propext",
"Classical.choice",
"Quot.sound"
],
"Verif.KvEval.C95_counts": [
"propext",
"Classical.choice",
"Quot.sound"
],
"Verif.KvEval.C95_excluded_word_predicted": [
"propext",
"Classical.choice",
"Quot.sound"
],
"Verif.KvEval.C95_failure_example": [
"propext",
"Classical.choice",
"Quot.sound"
],
"Verif.KvEval.C95_failure_leaves_folded_table": [
"propext",
"Classical.choice",
"Quot.sound"
],
"Verif.KvEval.C95_missing_header": [
"propext",
"Classical.choice",
"Quot.sound"
],
"Verif.KvEval.C95_pairs": [
"propext",
"Classical.choice",
"Quot.sound"
],
"Verif.KvEval.C95_vocabulary": [
"propext",
"Classical.choice",
"Quot.sound"
],
"Verif.KvGeom.C97_cosmul": [
"propext",
"Classical.choice",
"Quot.sound"
],
"Verif.KvGeom.C97_cosmul_vectors": [
"propext",
"Classical.choice",
"Quot.sound"
],
"Verif.KvGeom.C97_distances": [
"propext",
"Classical.choice",
"Quot.sound"
],
"Verif.KvGeom.C97_doesnt_match": [
"propext",
"Classical.choice",
"Quot.sound"
],
"Verif.KvGeom.C97_doesnt_match_two": [
"propext",
"Classical.choice",
"Quot.sound"
],
"Verif.KvGeom.C97_most_similar_scores": [
"propext",
"Classical.choice",
"Quot.sound"
],
"Verif.KvGeom.C97_most_similar_to_given": [
"propext",
"Classical.choice",
"Quot.sound"
],
"Verif.KvGeom.C97_n_similarity": [
"propext",
"Classical.choice",
"Quot.sound"
],
"Verif.KvGeom.C97_predict_output_word": [
"propext",
"Classical.choice",
"Quot.sound"
],
"Verif.KvGeom.C97_rank_by_centrality": [
"propext",
"Classical.choice",
"Quot.sound"
],
"Verif.KvGeom.C97_relative_cosine": [
"propext",
"Classical.choice",
"Quot.sound"
],
"Verif.KvGeom.C97_similarity": [
"propext",
"Classical.choice",
"Quot.sound"
],
"Verif.Lda.C45_blend": [
"propext",
"Classical.choice",
"Quot.sound"
],
"Verif.Lda.C45_blend_empty": [
"propext",
"Quot.sound"
],
"Verif.Lda.C45_blend_extremes": [
"propext",
"Quot.sound"
],
"Verif.Lda.C45_blend_nonneg": [
"propext",
"Classical.choice",
"Quot.sound"
],
"Verif.Lda.C45_merge_any_order": [
"propext",
"Quot.sound"
],
"Verif.Lda.C46_group_statistics": [
"propext",
"Quot.sound"
],
"Verif.Lda.C46_pass": [
"propext",
"Classical.choice",
"Quot.sound"
],
"Verif.Lda.C46_update": [
"propext",
"Classical.choice",
"Quot.sound"
],
"Verif.Lda.Dispatch.C130_lda_reports_death": [
"propext"
],
"Verif.Lda.Dispatch.C130_loops": [
"propext",
"Classical.choice",
"Quot.sound"
],
"Verif.Lda.Dispatch.C130_lost_job_blocks": [
"propext",
"Quot.sound"
],
"Verif.Lda.Dispatch.C130_lsi_silent": [
"propext",
"Quot.sound"
],
"Verif.Lda.Dispatch.C130_no_exception_while_alive": [
"propext"
],
"Verif.Lda.Dispatch.C130_no_result_after_death": [
"propext",
"Classical.choice",
"Quot.sound"
],
"Verif.Lda.Dispatch.C130_results": [
"propext",
"Quot.sound"
],
"Verif.Lda.Dispatch.C130_starved": [
"propext",
"Classical.choice",
"Quot.sound"
],
"Verif.Lda.Dispatch.C48_completes": [
"propext",
"Quot.sound"
],
"Verif.Lda.Dispatch.C48_exactly_once": [
"propext",
"Quot.sound"
],
"Verif.Lda.Dispatch.C48_protocol_needed": [
"propext"
],
"Verif.Lda.Dispatch.C48_statistics": [
"propext",
"Quot.sound"
],
"Verif.Lda.Dispatch.C65_distributed_lsi_forgets": [
"propext",
"Quot.sound"
],
"Verif.Lda.Multicore.C153_multicore_can_end": [
"propext",
"Classical.choice",
"Quot.sound"
],
"Verif.Lda.Multicore.C153_multicore_waits": [
"propext",
"Quot.sound"
],
"Verif.Lda.Multicore.C47_at_most_once": [
"propext",
"Quot.sound"
],
"Verif.Lda.Multicore.C47_batch": [
"propext",
"Quot.sound"
],
"Verif.Lda.Multicore.C47_forced_complete": [
"propext",
"Quot.sound"
],
"Verif.Lda.Multicore.C47_online_loss": [],
"Verif.LdaBound.C131_bound": [
"propext",
"Classical.choice",
"Quot.sound"
],
"Verif.LdaBound.C131_empty": [
"propext",
"Classical.choice",
"Quot.sound"
],
"Verif.LdaBound.C131_given_gamma": [
"propext",
"Classical.choice",
"Quot.sound"
],
"Verif.LdaBound.C131_hdp": [
"propext",
"Classical.choice",
"Quot.sound"
],
"Verif.LdaBound.C131_hdp_empty": [
"propext",
"Classical.choice",
"Quot.sound"
],
"Verif.LdaBound.C131_matrix_eta": [
"propext",
"Classical.choice",
"Quot.sound"
],
"Verif.LdaBound.C131_matrix_eta_positive": [
"propext",
"Classical.choice",
"Quot.sound"
],
"Verif.LdaBound.C131_nonpositive": [
"propext",
"Classical.choice",
"Quot.sound"
],
"Verif.LdaBound.C131_parts": [
"propext",
"Classical.choice",
"Quot.sound"
],
"Verif.LdaBound.C131_per_word": [
"propext",
"Classical.choice",
"Quot.sound"
],
"Verif.LdaBound.C131_perplexity": [
"propext",
"Classical.choice",
"Quot.sound"
],
"Verif.LdaBound.C131_topics": [
"propext",
"Classical.choice",
"Quot.sound"
],
"Verif.LdaDiff.C105_annotation": [
"propext",
"Classical.choice",
"Quot.sound"
],
"Verif.LdaDiff.C105_bow_dense": [
"propext",
"Classical.choice",
"Quot.sound"
],
"Verif.LdaDiff.C105_bow_features": [
"propext",
"Classical.choice",
"Quot.sound"
],
"Verif.LdaDiff.C105_bow_no_features": [
"propext",
"Classical.choice",
"Quot.sound"
],
"Verif.LdaDiff.C105_convergence": [
"propext",
"Classical.choice",
"Quot.sound"
],
"Verif.LdaDiff.C105_convergence_normed": [
"propext",
"Classical.choice",
"Quot.sound"
],
"Verif.LdaDiff.C105_diff_cells": [
"propext",
"Classical.choice",
"Quot.sound"
],
"Verif.LdaDiff.C105_diff_diagonal": [
"propext",
"Classical.choice",
"Quot.sound"
],
"Verif.LdaDiff.C105_diff_errors": [
"propext",
"Classical.choice",
"Quot.sound"
],
"Verif.LdaDiff.C105_diff_no_words": [
"propext",
"Classical.choice",
"Quot.sound"
],
"Verif.LdaDiff.C105_diff_normed": [
"propext",
"Classical.choice",
"Quot.sound"
],
"Verif.LdaDiff.C105_diff_normed_one": [
"propext",
"Classical.choice",
"Quot.sound"
],
"Verif.LdaDiff.C105_diff_self": [
"propext",
"Classical.choice",
"Quot.sound"
],
"Verif.LdaDiff.C105_diff_transpose": [
"propext",
"Classical.choice",
"Quot.sound"
],
"Verif.LdaDiff.C105_hellinger": [
"propext",
"Classical.choice",
"Quot.sound"
],
"Verif.LdaDiff.C105_js_disjoint": [
"propext",
"Classical.choice",
"Quot.sound"
],
"Verif.LdaDiff.C105_js_range": [
"propext",
"Classical.choice",
"Quot.sound"
],
"Verif.LdaDiff.C105_js_symm": [
"propext",
"Classical.choice",
"Quot.sound"
],
"Verif.LdaDiff.C105_kl_asymmetric": [
"propext",
"Classical.choice",
"Quot.sound"
],
"Verif.LdaDiff.C105_kl_infinite": [
"propext",
"Classical.choice",
"Quot.sound"
],
"Verif.LdaDiff.C105_kl_nonneg": [
"propext",
"Classical.choice",
"Quot.sound"
],
"Verif.LdaDiff.C105_kl_scale": [
"propext",
"Classical.choice",
"Quot.sound"
],
"Verif.LdaDiff.C105_kl_value": [
"propext",
"Classical.choice",
"Quot.sound"
],
"Verif.LdaEm.C164_bound": [
"propext",
"Classical.choice",
"Quot.sound"
],
"Verif.LdaEm.C164_distributed": [
"propext",
"Classical.choice",
"Quot.sound"
],
"Verif.LdaEm.C164_keeps": [
"propext",
"Classical.choice",
"Quot.sound"
],
"Verif.LdaEm.C164_pass": [
"propext",
"Classical.choice",
"Quot.sound"
],
"Verif.LdaEm.C164_topics": [
"propext",
"Classical.choice",
"Quot.sound"
],
"Verif.LdaEm.C164_update": [
"propext",
"Classical.choice",
"Quot.sound"
],
"Verif.LdaInfer.C168_ends": [
"propext",
"Classical.choice",
"Quot.sound"
],
"Verif.LdaInfer.C168_gain": [
"propext",
"Classical.choice",
"Quot.sound"
],
"Verif.LdaInfer.C168_rounds": [
"propext",
"Classical.choice",
"Quot.sound"
],
"Verif.LdaInfer.C90_bound_never_decreases": [
"propext",
"Classical.choice",
"Quot.sound"
],
"Verif.LdaInfer.C90_chunks_add": [
"propext",
"Classical.choice",
"Quot.sound"
],
"Verif.LdaInfer.C90_gamma": [
"propext",
"Classical.choice",
"Quot.sound"
],
"Verif.LdaInfer.C90_gamma_bag_of_words": [
"propext",
"Classical.choice",
"Quot.sound"
],
"Verif.LdaInfer.C90_inference": [
"propext",
"Classical.choice",
"Quot.sound"
],
"Verif.LdaInfer.C90_phi": [
"propext",
"Classical.choice",
"Quot.sound"
],
"Verif.LdaInfer.C90_repeated_id_lost": [
"propext",
"Classical.choice",
"Quot.sound"
],
"Verif.LdaInfer.C90_statistics_mass": [
"propext",
"Classical.choice",
"Quot.sound"
],
"Verif.LdaInfer.C90_stops": [
"propext",
"Classical.choice",
"Quot.sound"
],
"Verif.LdaPerWord.C157_light_words": [
"propext",
"Classical.choice",
"Quot.sound"
],
"Verif.LdaPerWord.C157_mass": [
"propext",
"Classical.choice",
"Quot.sound"
],
"Verif.LdaPerWord.C157_order": [
"propext",
"Classical.choice",
"Quot.sound"
],
"Verif.LdaPerWord.C157_repeated_word": [
"propext",
"Classical.choice",
"Quot.sound"
],
"Verif.LdaPerWord.C157_shares": [
"propext",
"Classical.choice",
"Quot.sound"
],
"Verif.LdaPerWord.C157_words": [
"propext",
"Classical.choice",
"Quot.sound"
],
"Verif.LdaSeq.C132_coherence": [
"propext",
"Classical.choice",
"Quot.sound"
],
"Verif.LdaSeq.C132_construct": [
"propext",
"Classical.choice",
"Quot.sound"
],
"Verif.LdaSeq.C132_construct_fails": [
"propext",
"Quot.sound"
],
"Verif.LdaSeq.C132_convex": [
"propext",
"Classical.choice",
"Quot.sound"
],
"Verif.LdaSeq.C132_exact_derivatives": [
"propext",
"Classical.choice",
"Quot.sound"
],
"Verif.LdaSeq.C132_gradient": [
"propext",
"Classical.choice",
"Quot.sound"
],
"Verif.LdaSeq.C132_objective": [
"propext",
"Classical.choice",
"Quot.sound"
],
"Verif.LdaSeq.C132_vis": [
"propext",
"Classical.choice",
"Quot.sound"
],
"Verif.LdaSeq.C132_vis_lengths": [
"propext",
"Classical.choice",
"Quot.sound"
],
"Verif.LdaSeq.C132_wrong_gradient": [
"propext",
"Classical.choice",
"Quot.sound"
],
"Verif.LdaSeq.C167_at_most": [
"propext",
"Classical.choice",
"Quot.sound"
],
"Verif.LdaSeq.C167_ends": [
"propext",
"Classical.choice",
"Quot.sound"
],
"Verif.LdaSeq.C167_fit": [
"propext",
"Classical.choice",
"Quot.sound"
],
"Verif.LdaSeq.C167_round": [
"propext",
"Classical.choice",
"Quot.sound"
],
"Verif.LdaSeq.C167_stale_start": [
"propext",
"Classical.choice",
"Quot.sound"
],
"Verif.LdaSeq.C99_bound_drops_words": [
"propext",
"Classical.choice",
"Quot.sound"
],
"Verif.LdaSeq.C99_chunksize": [
"propext",
"Classical.choice",
"Quot.sound"
],
"Verif.LdaSeq.C99_corpus_too_long": [
"propext",
"Classical.choice",
"Quot.sound"
],
"Verif.LdaSeq.C99_derivative_is_wrong": [
"propext",
"Classical.choice",
"Quot.sound"
],
"Verif.LdaSeq.C99_derivative_with_forward_variances": [
"propext",
"Classical.choice",
"Quot.sound"
],
"Verif.LdaSeq.C99_document_weights": [
"propext",
"Classical.choice",
"Quot.sound"
],
"Verif.LdaSeq.C99_first_document_of_a_slice": [
"propext",
"Classical.choice",
"Quot.sound"
],
"Verif.LdaSeq.C99_fitted_chain": [
"propext",
"Classical.choice",
"Quot.sound"
],
"Verif.LdaSeq.C99_initial_chain": [
"propext",
"Classical.choice",
"Quot.sound"
],
"Verif.LdaSeq.C99_mean_is_the_most_probable_path": [
"propext",
"Classical.choice",
"Quot.sound"
],
"Verif.LdaSeq.C99_new_document": [
"propext",
"Classical.choice",
"Quot.sound"
],
"Verif.LdaSeq.C99_one_slice": [
"propext",
"Classical.choice",
"Quot.sound"
],
"Verif.LdaSeq.C99_print_topic": [
"propext",
"Classical.choice",
"Quot.sound"
],
"Verif.LdaSeq.C99_rare_words": [
"propext",
"Classical.choice",
"Quot.sound"
],
"Verif.LdaSeq.C99_slices": [
"propext",
"Classical.choice",
"Quot.sound"
],
"Verif.LdaSeq.C99_stops": [
"propext",
"Classical.choice",
"Quot.sound"
],
"Verif.LdaSeq.C99_training_documents": [
"propext",
"Classical.choice",
"Quot.sound"
],
"Verif.LdaSeq.C99_training_never_converges": [
"propext",
"Classical.choice",
"Quot.sound"
],
"Verif.LdaSeq.C99_variance_is_the_posterior_variance": [
"propext",
"Classical.choice",
"Quot.sound"
],
"Verif.LdaSeq.C99_variances": [
"propext",
"Classical.choice",
"Quot.sound"
],
"Verif.LdaTrain.C91_document_topics": [
"propext",
"Classical.choice",
"Quot.sound"
],
"Verif.LdaTrain.C91_history": [
"propext",
"Classical.choice",
"Quot.sound"
],
"Verif.LdaTrain.C91_initial_prior": [
"propext",
"Classical.choice",
"Quot.sound"
],
"Verif.LdaTrain.C91_learned_eta_ignored": [
"propext",
"Classical.choice",
"Quot.sound"
],
"Verif.LdaTrain.C91_prior_fixed": [
"propext",
"Classical.choice",
"Quot.sound"
],
"Verif.LdaTrain.C91_prior_gradient": [
"propext",
"Classical.choice",
"Quot.sound"
],
"Verif.LdaTrain.C91_prior_newton": [
"propext",
"Classical.choice",
"Quot.sound"
],
"Verif.LdaTrain.C91_prior_stays_positive": [
"propext",
"Classical.choice",
"Quot.sound"
],
"Verif.LdaTrain.C91_rho": [
"propext",
"Classical.choice",
"Quot.sound"
],
"Verif.LdaTrain.C91_settings": [
"propext",
"Classical.choice",
"Quot.sound"
],
"Verif.LdaTrain.C91_show_topics": [
"propext",
"Classical.choice",
"Quot.sound"
],
"Verif.LdaTrain.C91_small_offset_negative": [
"propext",
"Classical.choice",
"Quot.sound"
],
"Verif.LdaTrain.C91_topics_are_distributions": [
"propext",
"Classical.choice",
"Quot.sound"
],
"Verif.LdaTrain.C91_update_arguments_ignored": [
"propext",
"Classical.choice",
"Quot.sound"
],
"Verif.Lev.C103_empty": [
"propext",
"Classical.choice",
"Quot.sound"
],
"Verif.Lev.C103_exceeds_one": [
"propext",
"Classical.choice",
"Quot.sound"
],
"Verif.Lev.C103_levdist": [
"propext",
"Classical.choice",
"Quot.sound"
],
"Verif.Lev.C103_levsim": [
"propext",
"Classical.choice",
"Quot.sound"
],
"Verif.Lev.C103_most_similar": [
"propext",
"Classical.choice",
"Quot.sound"
],
"Verif.Lev.C103_most_similar_errors": [
"propext",
"Classical.choice",
"Quot.sound"
],
"Verif.Lev.C103_parameters": [
"propext",
"Classical.choice",
"Quot.sound"
],
"Verif.Lev.C103_range": [
"propext",
"Classical.choice",
"Quot.sound"
],
"Verif.Lev.C103_symmetric": [
"propext",
"Classical.choice",
"Quot.sound"
],
"Verif.Lev.C103_threshold_above_one": [
"propext",
"Classical.choice",
"Quot.sound"
],
"Verif.Life.C112_alpha": [
"propext",
"Classical.choice",
"Quot.sound"
],
"Verif.Life.C112_build_vocab": [
"propext",
"Quot.sound"
],
"Verif.Life.C112_callbacks": [
"propext",
"Classical.choice",
"Quot.sound"
],
"Verif.Life.C112_construct": [
"propext",
"Classical.choice",
"Quot.sound"
],
"Verif.Life.C112_construct_errors": [
"propext",
"Classical.choice",
"Quot.sound"
],
"Verif.Life.C112_construct_generator": [
"propext",
"Quot.sound"
],
"Verif.Life.C112_construct_iterator": [
"propext",
"Classical.choice",
"Quot.sound"
],
"Verif.Life.C112_producer_ends": [
"propext",
"Quot.sound"
],
"Verif.Life.C112_reset_counts": [
"propext",
"Quot.sound"
],
"Verif.Life.C112_reset_from": [
"propext",
"Quot.sound"
],
"Verif.Life.C112_reset_shares": [
"propext",
"Classical.choice",
"Quot.sound"
],
"Verif.Life.C112_train_count": [
"propext",
"Classical.choice",
"Quot.sound"
],
"Verif.Life.C112_train_failed": [
"propext",
"Quot.sound"
],
"Verif.Life.C112_train_iff": [
"propext",
"Classical.choice",
"Quot.sound"
],
"Verif.Life.C112_train_run": [
"propext",
"Classical.choice",
"Quot.sound"
],
"Verif.Life.C112_zero_total_accepted": [
"propext",
"Classical.choice",
"Quot.sound"
],
"Verif.Life.C112_zero_total_hangs": [
"propext",
"Quot.sound"
],
"Verif.LogEntropy.C66_empty_corpus_rejected": [
"propext",
"Classical.choice",
"Quot.sound"
],
"Verif.LogEntropy.C66_generators": [
"propext",
"Classical.choice",
"Quot.sound"
],
"Verif.LogEntropy.C66_transform": [
"propext",
"Classical.choice",
"Quot.sound"
],
"Verif.LogEntropy.C66_weights": [
"propext",
"Classical.choice",
"Quot.sound"
],
"Verif.Lsi.C116_chunks": [
"propext",
"Classical.choice",
"Quot.sound"
],
"Verif.Lsi.C116_docs_processed": [
"propext",
"Classical.choice",
"Quot.sound"
],
"Verif.Lsi.C116_energy": [
"propext",
"Classical.choice",
"Quot.sound"
],
"Verif.Lsi.C116_exact": [
"propext",
"Classical.choice",
"Quot.sound"
],
"Verif.Lsi.C116_exact_sparse": [
"propext",
"Classical.choice",
"Quot.sound"
],
"Verif.Lsi.C116_once": [
"propext",
"Classical.choice",
"Quot.sound"
],
"Verif.Lsi.C116_onepass": [
"propext",
"Classical.choice",
"Quot.sound"
],
"Verif.Lsi.C116_samples": [
"propext",
"Classical.choice",
"Quot.sound"
],
"Verif.Lsi.C116_twopass": [
"propext",
"Classical.choice",
"Quot.sound"
],
"Verif.Lsi.C116_values": [
"propext",
"Classical.choice",
"Quot.sound"
],
"Verif.Lsi.C116_values_sparse": [
"propext",
"Classical.choice",
"Quot.sound"
],
"Verif.Lsi.C86_clip": [
"propext",
"Classical.choice",
"Quot.sound"
],
"Verif.Lsi.C86_fold_in": [
"propext",
"Classical.choice",
"Quot.sound"
],
"Verif.Lsi.C86_history": [
"propext",
"Classical.choice",
"Quot.sound"
],
"Verif.Lsi.C86_library": [
"propext",
"Classical.choice",
"Quot.sound"
],
"Verif.Lsi.C86_merge": [
"propext",
"Classical.choice",
"Quot.sound"
],
"Verif.Lsi.C86_scaled_ignored": [
"propext",
"Classical.choice",
"Quot.sound"
],
"Verif.Lsi.C86_schedule": [
"propext",
"Classical.choice",
"Quot.sound"
],
"Verif.MatSim.C109_abandoned": [
"propext",
"Classical.choice",
"Quot.sound"
],
"Verif.MatSim.C109_cosine": [
"propext",
"Classical.choice",
"Quot.sound"
],
"Verif.MatSim.C109_cossim": [
"propext",
"Classical.choice",
"Quot.sound"
],
"Verif.MatSim.C109_dense": [
"propext",
"Classical.choice",
"Quot.sound"
],
"Verif.MatSim.C109_dense_corpus": [
"propext",
"Classical.choice",
"Quot.sound"
],
"Verif.MatSim.C109_dense_iter": [
"propext",
"Classical.choice",
"Quot.sound"
],
"Verif.MatSim.C109_empty_query": [
"propext",
"Classical.choice",
"Quot.sound"
],
"Verif.MatSim.C109_features": [
"propext",
"Classical.choice",
"Quot.sound"
],
"Verif.MatSim.C109_maintain_corpus": [
"propext",
"Classical.choice",
"Quot.sound"
],
"Verif.MatSim.C109_maintain_no_match": [
"propext",
"Classical.choice",
"Quot.sound"
],
"Verif.MatSim.C109_maintain_one": [
"propext",
"Classical.choice",
"Quot.sound"
],
"Verif.MatSim.C109_maintain_single": [
"propext",
"Classical.choice",
"Quot.sound"
],
"Verif.MatSim.C109_matrix": [
"propext",
"Classical.choice",
"Quot.sound"
],
"Verif.MatSim.C109_matrix_width": [
"propext",
"Classical.choice",
"Quot.sound"
],
"Verif.MatSim.C109_num_best": [
"propext",
"Classical.choice",
"Quot.sound"
],
"Verif.MatSim.C109_repeated_term": [
"propext",
"Classical.choice",
"Quot.sound"
],
"Verif.MatSim.C109_sparse": [
"propext",
"Classical.choice",
"Quot.sound"
],
"Verif.MatSim.C109_sparse_corpus": [
"propext",
"Classical.choice",
"Quot.sound"
],
"Verif.MatSim.C109_sparse_iter": [
"propext",
"Classical.choice",
"Quot.sound"
],
"Verif.MatSim.C109_sparse_iter_broken": [
"propext",
"Classical.choice",
"Quot.sound"
],
"Verif.MatSim.C109_zero_weights": [
"propext",
"Classical.choice",
"Quot.sound"
],
"Verif.MatSim.C120_soft_agree": [
"propext",
"Classical.choice",
"Quot.sound"
],
"Verif.MatSim.C120_soft_alone": [
"propext",
"Classical.choice",
"Quot.sound"
],
"Verif.MatSim.C120_soft_document": [
"propext",
"Classical.choice",
"Quot.sound"
],
"Verif.MatSim.C120_soft_documents": [
"propext",
"Classical.choice",
"Quot.sound"
],
"Verif.MatSim.C120_soft_edges": [
"propext",
"Classical.choice",
"Quot.sound"
],
"Verif.MatSim.C120_soft_iter": [
"propext",
"Classical.choice",
"Quot.sound"
],
"Verif.MatSim.C120_soft_self": [
"propext",
"Classical.choice",
"Quot.sound"
],
"Verif.MatSim.C120_wmd_best": [
"propext",
"Classical.choice",
"Quot.sound"
],
"Verif.MatSim.C120_wmd_distance": [
"propext",
"Classical.choice",
"Quot.sound"
],
"Verif.MatSim.C120_wmd_iter": [
"propext",
"Classical.choice",
"Quot.sound"
],
"Verif.MatSim.C120_wmd_iter_broken": [
"propext",
"Classical.choice",
"Quot.sound"
],
"Verif.MatSim.C120_wmd_iter_one": [
"propext",
"Classical.choice",
"Quot.sound"
],
"Verif.MatSim.C120_wmd_one": [
"propext",
"Classical.choice",
"Quot.sound"
],
"Verif.MatSim.C120_wmd_query": [
"propext",
"Classical.choice",
"Quot.sound"
],
"Verif.MatSim.C120_wmd_similarity": [
"propext",
"Classical.choice",
"Quot.sound"
],
"Verif.Matutils.C19_clipped": [
"propext",
"Classical.choice",
"Quot.sound"
],
"Verif.Matutils.C19_csc_entries": [
"propext",
"Classical.choice",
"Quot.sound"
],
"Verif.Matutils.C19_csc_paths_agree": [
"propext",
"Classical.choice",
"Quot.sound"
],
"Verif.Matutils.C19_csc_wrong_nnz": [
"propext",
"Quot.sound"
],
"Verif.Matutils.C19_dense_roundtrip": [
"propext",
"Quot.sound"
],
"Verif.Matutils.C19_full2sparse_entries": [
"propext",
"Quot.sound"
],
"Verif.Matutils.C19_ids_increasing": [
"propext",
"Quot.sound"
],
"Verif.Matutils.C19_sparse_roundtrip": [
"propext",
"Classical.choice",
"Quot.sound"
],
"Verif.Matutils.C20_dense_unit": [
"propext",
"Classical.choice",
"Quot.sound"
],
"Verif.Matutils.C20_formats_agree": [
"propext",
"Classical.choice",
"Quot.sound"
],
"Verif.Matutils.C20_scipy_argument": [
"propext",
"Classical.choice",
"Quot.sound"
],
"Verif.Matutils.C20_scipy_unique": [
"propext",
"Classical.choice",
"Quot.sound"
],
"Verif.Matutils.C20_scipy_unit": [
"propext",
"Classical.choice",
"Quot.sound"
],
"Verif.Matutils.C20_sparse_idempotent": [
"propext",
"Classical.choice",
"Quot.sound"
],
"Verif.Matutils.C20_sparse_unit": [
"propext",
"Classical.choice",
"Quot.sound"
],
"Verif.Matutils.C20_sparse_zero": [
"propext",
"Classical.choice",
"Quot.sound"
],
"Verif.Matutils.C20_stored_zeros": [
"propext",
"Classical.choice",
"Quot.sound"
],
"Verif.Matutils.C20_unique": [
"propext",
"Classical.choice",
"Quot.sound"
],
"Verif.Matutils.C21_cossim_bounded": [
"propext",
"Classical.choice",
"Quot.sound"
],
"Verif.Matutils.C21_cossim_defined": [
"propext",
"Classical.choice",
"Quot.sound"
],
"Verif.Matutils.C21_cossim_self": [
"propext",
"Classical.choice",
"Quot.sound"
],
"Verif.Matutils.C21_cossim_symm": [
"propext",
"Classical.choice",
"Quot.sound"
],
"Verif.Matutils.C21_hellinger_le_one": [
"propext",
"Classical.choice",
"Quot.sound"
],
"Verif.Matutils.C21_hellinger_symm": [
"propext",
"Classical.choice",
"Quot.sound"
],
"Verif.Matutils.C21_hellinger_zero": [
"propext",
"Classical.choice",
"Quot.sound"
],
"Verif.Matutils.C21_jaccard_bow_self": [
"propext",
"Classical.choice",
"Quot.sound"
],
"Verif.Matutils.C21_jaccard_bow_symm": [
"propext",
"Classical.choice",
"Quot.sound"
],
"Verif.Matutils.C21_jaccard_distance": [
"propext",
"Classical.choice",
"Quot.sound"
],
"Verif.Matutils.C21_jaccard_sets": [
"propext",
"Classical.choice",
"Quot.sound"
],
"Verif.Nmf.C170_component": [
"propext",
"Classical.choice",
"Quot.sound"
],
"Verif.Nmf.C170_moves": [
"propext",
"Classical.choice",
"Quot.sound"
],
"Verif.Nmf.C170_no_error": [
"propext",
"Classical.choice",
"Quot.sound"
],
"Verif.Nmf.C170_norm": [
"propext",
"Classical.choice",
"Quot.sound"
],
"Verif.Nmf.C170_rounds": [
"propext",
"Classical.choice",
"Quot.sound"
],
"Verif.Nmf.C170_step_skipped": [
"propext",
"Classical.choice",
"Quot.sound"
],
"Verif.Nmf.C170_topic_steps": [
"propext",
"Classical.choice",
"Quot.sound"
],
"Verif.Nmf.C92_document_topics": [
"propext",
"Classical.choice",
"Quot.sound"
],
"Verif.Nmf.C92_empty_documents_destroy": [
"propext",
"Classical.choice",
"Quot.sound"
],
"Verif.Nmf.C92_fixed_point_is_optimal": [
"propext",
"Classical.choice",
"Quot.sound"
],
"Verif.Nmf.C92_nonnegative": [
"propext",
"Classical.choice",
"Quot.sound"
],
"Verif.Nmf.C92_queries_change_the_model": [
"propext",
"Classical.choice",
"Quot.sound"
],
"Verif.Nmf.C92_query_order_matters": [
"propext",
"Classical.choice",
"Quot.sound"
],
"Verif.Nmf.C92_representation_descends": [
"propext",
"Classical.choice",
"Quot.sound"
],
"Verif.Nmf.C92_statistics_of_the_call_only": [
"propext",
"Classical.choice",
"Quot.sound"
],
"Verif.Nmf.C92_topic_step": [
"propext",
"Classical.choice",
"Quot.sound"
],
"Verif.Nmf.C92_topics": [
"propext",
"Classical.choice",
"Quot.sound"
],
"Verif.Peek.C150_believed": [
"propext"
],
"Verif.Peek.C150_bow": [
"propext"
],
"Verif.Peek.C150_first_only": [
"propext"
],
"Verif.Peek.C150_nothing_lost": [
"propext"
],
"Verif.Peek.C150_pairs": [
"propext",
"Quot.sound"
],
"Verif.Peek.C150_passed": [
"propext"
],
"Verif.Peek.C150_twice": [
"propext"
],
"Verif.Peek.C150_words": [
"propext",
"Quot.sound"
],
"Verif.Phrases.C117_arguments": [
"propext",
"Classical.choice",
"Quot.sound"
],
"Verif.Phrases.C117_connectors_matter": [
"propext",
"Classical.choice",
"Quot.sound"
],
"Verif.Phrases.C117_default": [
"propext",
"Classical.choice",
"Quot.sound"
],
"Verif.Phrases.C117_default_found": [
"propext",
"Classical.choice",
"Quot.sound"
],
"Verif.Phrases.C117_load_collapse": [
"propext",
"Classical.choice",
"Quot.sound"
],
"Verif.Phrases.C117_load_current": [
"propext",
"Classical.choice",
"Quot.sound"
],
"Verif.Phrases.C117_load_pairs": [
"propext",
"Quot.sound"
],
"Verif.Phrases.C117_load_scoring": [
"propext",
"Classical.choice",
"Quot.sound"
],
"Verif.Phrases.C117_load_vocab": [
"propext",
"Quot.sound"
],
"Verif.Phrases.C117_npmi": [
"propext",
"Classical.choice",
"Quot.sound"
],
"Verif.Phrases.C117_npmi_collision": [
"propext",
"Classical.choice",
"Quot.sound"
],
"Verif.Phrases.C117_npmi_errors": [
"propext",
"Classical.choice",
"Quot.sound"
],
"Verif.Phrases.C117_npmi_found": [
"propext",
"Classical.choice",
"Quot.sound"
],
"Verif.Phrases.C117_single": [
"propext",
"Quot.sound"
],
"Verif.Phrases.C11_empty_token_dropped": [
"propext",
"Classical.choice",
"Quot.sound"
],
"Verif.Phrases.C11_greedy_scan": [
"propext",
"Quot.sound"
],
"Verif.Phrases.C11_segments": [
"propext",
"Quot.sound"
],
"Verif.Phrases.C11_segments_frozen": [
"propext",
"Quot.sound"
],
"Verif.Phrases.C12_batching_independent": [
"propext",
"Classical.choice",
"Quot.sound"
],
"Verif.Phrases.C12_counts_exact": [
"propext",
"Classical.choice",
"Quot.sound"
],
"Verif.Phrases.C12_counts_never_exceed": [
"propext",
"Classical.choice",
"Quot.sound"
],
"Verif.Phrases.C13_export_raises": [
"propext",
"Classical.choice",
"Quot.sound"
],
"Verif.Phrases.C13_frozen_decides_as_live": [
"propext",
"Classical.choice",
"Quot.sound"
],
"Verif.Phrases.C13_frozen_same": [
"propext",
"Classical.choice",
"Quot.sound"
],
"Verif.Phrases.C13_frozen_same_on_known": [
"propext",
"Classical.choice",
"Quot.sound"
],
"Verif.Phrases.C13_live_depends_on_history": [
"propext",
"Classical.choice",
"Quot.sound"
],
"Verif.Phrases.C172_frozen": [
"propext",
"Quot.sound"
],
"Verif.Phrases.C172_live": [
"propext",
"Classical.choice",
"Quot.sound"
],
"Verif.Phrases.C172_live_drifts": [
"propext",
"Classical.choice",
"Quot.sound"
],
"Verif.Phrases.C172_live_last": [
"propext",
"Quot.sound"
],
"Verif.Phrases.C172_live_model": [
"propext"
],
"Verif.Phrases.C172_scores": [
"propext",
"Quot.sound"
],
"Verif.Pipeline.C159_continues": [
"propext",
"Classical.choice",
"Quot.sound"
],
"Verif.Pipeline.C159_corpus": [
"propext",
"Classical.choice",
"Quot.sound"
],
"Verif.Pipeline.C159_dictionary": [
"propext",
"Classical.choice",
"Quot.sound"
],
"Verif.Pipeline.C159_pivot_lost": [
"propext",
"Classical.choice",
"Quot.sound"
],
"Verif.Pipeline.C159_tfidf": [
"propext",
"Classical.choice",
"Quot.sound"
],
"Verif.Poincare.C118_burn_in_once": [
"propext",
"Classical.choice",
"Quot.sound"
],
"Verif.Poincare.C118_negative_batch_size": [
"propext",
"Quot.sound"
],
"Verif.Poincare.C118_session": [
"propext",
"Classical.choice",
"Quot.sound"
],
"Verif.Poincare.C118_settings_lost": [
"propext",
"Quot.sound"
],
"Verif.Poincare.C118_stale_negatives": [
"propext"
],
"Verif.Poincare.C118_step": [
"propext",
"Classical.choice",
"Quot.sound"
],
"Verif.Poincare.C118_step_inside": [
"propext",
"Classical.choice",
"Quot.sound"
],
"Verif.Poincare.C118_workers": [
"propext",
"Quot.sound"
],
"Verif.Poincare.C118_zero": [
"propext",
"Quot.sound"
],
"Verif.Poincare.C146_all": [
"propext",
"Classical.choice",
"Quot.sound"
],
"Verif.Poincare.C146_by_vector": [
"propext",
"Classical.choice",
"Quot.sound"
],
"Verif.Poincare.C146_distance": [
"propext",
"Classical.choice",
"Quot.sound"
],
"Verif.Poincare.C146_distance_number": [
"propext",
"Classical.choice",
"Quot.sound"
],
"Verif.Poincare.C146_distances": [
"propext",
"Classical.choice",
"Quot.sound"
],
"Verif.Poincare.C146_distances_number": [
"propext",
"Classical.choice",
"Quot.sound"
],
"Verif.Poincare.C146_hierarchy": [
"propext",
"Classical.choice",
"Quot.sound"
],
"Verif.Poincare.C146_norm": [
"propext",
"Classical.choice",
"Quot.sound"
],
"Verif.Poincare.C146_norm_number": [
"propext",
"Classical.choice",
"Quot.sound"
],
"Verif.Poincare.C146_unknown": [
"propext",
"Classical.choice",
"Quot.sound"
],
"Verif.Poincare.C73_metric": [
"propext",
"Classical.choice",
"Quot.sound"
],
"Verif.Poincare.C73_similarity": [
"propext",
"Classical.choice",
"Quot.sound"
],
"Verif.Poincare.C74_check_detects": [
"propext",
"Classical.choice",
"Quot.sound"
],
"Verif.Poincare.C74_check_passes": [
"propext",
"Classical.choice",
"Quot.sound"
],
"Verif.Poincare.C74_distance": [
"propext",
"Classical.choice",
"Quot.sound"
],
"Verif.Poincare.C74_gradient_u": [
"propext",
"Classical.choice",
"Quot.sound"
],
"Verif.Poincare.C74_gradient_v": [
"propext",
"Classical.choice",
"Quot.sound"
],
"Verif.Poincare.C75_all_updates": [
"propext",
"Classical.choice",
"Quot.sound"
],
"Verif.Poincare.C75_ball": [
"propext",
"Classical.choice",
"Quot.sound"
],
"Verif.Poincare.C75_leaves_ball": [
"propext",
"Classical.choice",
"Quot.sound"
],
"Verif.Poincare.C75_others_unchanged": [
"propext",
"Classical.choice",
"Quot.sound"
],
"Verif.Poincare.C76_can_end": [
"propext",
"Classical.choice",
"Quot.sound"
],
"Verif.Poincare.C76_error": [
"propext",
"Classical.choice",
"Quot.sound"
],
"Verif.Poincare.C76_negatives": [
"propext",
"Classical.choice",
"Quot.sound"
],
"Verif.Poincare.C76_own_negative": [
"propext",
"Quot.sound"
],
"Verif.Poincare.C76_proportional": [
"propext",
"Classical.choice",
"Quot.sound"
],
"Verif.Poincare.C76_too_few": [
"propext",
"Quot.sound"
],
"Verif.Poincare.C76_vocab": [
"propext",
"Classical.choice",
"Quot.sound"
],
"Verif.Poincare.C77_ancestors": [
"propext",
"Classical.choice",
"Quot.sound"
],
"Verif.Poincare.C77_child": [
"propext",
"Quot.sound"
],
"Verif.Poincare.C77_descendants": [
"propext",
"Classical.choice",
"Quot.sound"
],
"Verif.Poincare.C77_descendants_raises": [
"propext",
"Classical.choice",
"Quot.sound"
],
"Verif.Poincare.C77_first_node": [
"propext",
"Classical.choice",
"Quot.sound"
],
"Verif.Poincare.C77_first_node_ball": [
"propext",
"Classical.choice",
"Quot.sound"
],
"Verif.Poincare.C77_most_similar": [
"propext",
"Quot.sound"
],
"Verif.Poincare.C77_most_similar_vector": [
"propext",
"Classical.choice",
"Quot.sound"
],
"Verif.Poincare.C77_parent": [
"propext",
"Quot.sound"
],
"Verif.Poincare.C77_topn_zero": [
"propext"
],
"Verif.Poincare.C78_average_precision": [
"propext",
"Classical.choice",
"Quot.sound"
],
"Verif.Poincare.C78_average_precision_range": [
"propext",
"Classical.choice",
"Quot.sound"
],
"Verif.Poincare.C78_max_n": [
"propext",
"Classical.choice",
"Quot.sound"
],
"Verif.Poincare.C78_ranks": [
"propext",
"Quot.sound"
],
"Verif.Poincare.C78_self_counts": [
"propext",
"Classical.choice",
"Quot.sound"
],
"Verif.PoincareEval.C126_direction": [
"propext",
"Classical.choice",
"Quot.sound"
],
"Verif.PoincareEval.C126_evaluate": [
"propext",
"Classical.choice",
"Quot.sound"
],
"Verif.PoincareEval.C126_last_row": [
"propext",
"Quot.sound"
],
"Verif.PoincareEval.C126_link_prediction": [
"propext",
"Classical.choice",
"Quot.sound"
],
"Verif.PoincareEval.C126_max_n_order": [
"propext",
"Classical.choice",
"Quot.sound"
],
"Verif.PoincareEval.C126_pairs": [
"propext",
"Classical.choice",
"Quot.sound"
],
"Verif.PoincareEval.C126_read": [
"propext",
"Quot.sound"
],
"Verif.PoincareEval.C126_read_error": [
"propext",
"Quot.sound"
],
"Verif.PoincareEval.C126_read_links": [
"propext",
"Quot.sound"
],
"Verif.PoincareEval.C126_reconstruction": [
"propext",
"Classical.choice",
"Quot.sound"
],
"Verif.PoincareEval.C126_score": [
"propext",
"Quot.sound"
],
"Verif.PoincareEval.C126_spearman": [
"propext",
"Classical.choice",
"Quot.sound"
],
"Verif.PoincareEval.C126_tie": [
"propext",
"Classical.choice",
"Quot.sound"
],
"Verif.Porter.C57_history": [
"propext",
"Classical.choice",
"Quot.sound"
],
"Verif.Porter.C57_measure": [
"propext",
"Quot.sound"
],
"Verif.Porter.C57_rules": [
"propext",
"Classical.choice",
"Quot.sound"
],
"Verif.Porter.C57_total": [
"propext",
"Classical.choice",
"Quot.sound"
],
"Verif.Preprocess.C100_deaccent": [
"propext",
"Quot.sound"
],
"Verif.Preprocess.C100_preprocess_documents": [
"propext",
"Classical.choice",
"Quot.sound"
],
"Verif.Preprocess.C100_preprocess_string": [
"propext",
"Classical.choice",
"Quot.sound"
],
"Verif.Preprocess.C100_preprocess_with": [
"propext",
"Quot.sound"
],
"Verif.Preprocess.C100_remove_stopwords": [
"propext",
"Classical.choice",
"Quot.sound"
],
"Verif.Preprocess.C100_simple_preprocess": [
"propext",
"Quot.sound"
],
"Verif.Preprocess.C100_split": [
"propext",
"Quot.sound"
],
"Verif.Preprocess.C100_split_alphanum": [
"propext",
"Quot.sound"
],
"Verif.Preprocess.C100_split_alphanum_upper": [
"propext",
"Quot.sound"
],
"Verif.Preprocess.C100_stem_text": [
"propext",
"Classical.choice",
"Quot.sound"
],
"Verif.Preprocess.C100_strip_multiple_whitespaces": [
"propext",
"Quot.sound"
],
"Verif.Preprocess.C100_strip_non_alphanum": [
"propext",
"Quot.sound"
],
"Verif.Preprocess.C100_strip_numeric": [
"propext",
"Classical.choice",
"Quot.sound"
],
"Verif.Preprocess.C100_strip_punctuation": [
"propext",
"Classical.choice",
"Quot.sound"
],
"Verif.Preprocess.C100_strip_short": [
"propext",
"Quot.sound"
],
"Verif.Preprocess.C100_strip_tags": [
"propext",
"Quot.sound"
],
"Verif.Preprocess.C100_tags_glue_words": [
"propext",
"Classical.choice",
"Quot.sound"
],
"Verif.Preprocess.C100_tokenize": [
"propext",
"Quot.sound"
],
"Verif.Preprocess.C100_tokens_after_stemming": [
"propext",
"Classical.choice",
"Quot.sound"
],
"Verif.Preprocess.C100_underscores": [
"propext",
"Quot.sound"
],
"Verif.PsiNum.C128_digamma": [
"propext",
"Classical.choice",
"Quot.sound"
],
"Verif.PsiNum.C128_digamma_small": [
"propext",
"Classical.choice",
"Quot.sound"
],
"Verif.PsiNum.C128_dirichlet": [
"propext",
"Classical.choice",
"Quot.sound"
],
"Verif.PsiNum.C128_dirichlet_rows": [
"propext",
"Classical.choice",
"Quot.sound"
],
"Verif.PsiNum.C128_lognorm_columns": [
"propext",
"Classical.choice",
"Quot.sound"
],
"Verif.PsiNum.C128_lognorm_refused": [
"propext",
"Classical.choice",
"Quot.sound"
],
"Verif.PsiNum.C128_lognorm_rows": [
"propext",
"Classical.choice",
"Quot.sound"
],
"Verif.PsiNum.C128_lognorm_safe": [
"propext",
"Classical.choice",
"Quot.sound"
],
"Verif.PsiNum.C128_lognorm_vector": [
"propext",
"Classical.choice",
"Quot.sound"
],
"Verif.PsiNum.C128_logsumexp": [
"propext",
"Classical.choice",
"Quot.sound"
],
"Verif.PsiNum.C128_logsumexp_safe": [
"propext",
"Classical.choice",
"Quot.sound"
],
"Verif.PsiNum.C128_loop": [
"propext",
"Classical.choice",
"Quot.sound"
],
"Verif.PsiNum.C128_recurrence": [
"propext",
"Classical.choice",
"Quot.sound"
],
"Verif.Random.C136_file_windows": [
"propext",
"Classical.choice",
"Quot.sound"
],
"Verif.Random.C136_lda_draws": [
"propext",
"Quot.sound"
],
"Verif.Random.C136_loaded": [
"propext",
"Quot.sound"
],
"Verif.Random.C136_multicore": [
"propext",
"Classical.choice",
"Quot.sound"
],
"Verif.Random.C136_multicore_schedule": [],
"Verif.Random.C136_one_worker": [
"propext",
"Classical.choice",
"Quot.sound"
],
"Verif.Random.C136_queries_matter": [],
"Verif.Random.C136_refused": [
"propext"
],
"Verif.Random.C136_reload": [
"propext",
"Classical.choice",
"Quot.sound"
],
"Verif.Random.C136_reproducible": [
"propext",
"Classical.choice",
"Quot.sound"
],
"Verif.Random.C136_same_generator": [
"propext",
"Classical.choice",
"Quot.sound"
],
"Verif.Random.C136_shared": [],
"Verif.Random.C136_two_workers": [],
"Verif.Readers.C122_brown": [
"propext",
"Classical.choice",
"Quot.sound"
],
"Verif.Readers.C122_brown_listing": [
"propext",
"Quot.sound"
],
"Verif.Readers.C122_interleaved_broken": [
"propext",
"Classical.choice",
"Quot.sound"
],
"Verif.Readers.C122_path_directory": [
"propext",
"Classical.choice",
"Quot.sound"
],
"Verif.Readers.C122_path_listing": [
"propext",
"Classical.choice",
"Quot.sound"
],
"Verif.Readers.C122_path_other": [
"propext"
],
"Verif.Readers.C122_path_subdirectory": [
"propext"
],
"Verif.Readers.C122_rewind": [
"propext",
"Quot.sound"
],
"Verif.Readers.C122_tagged_brown": [
"propext",
"Classical.choice",
"Quot.sound"
],
"Verif.Readers.C122_tagged_lines": [
"propext",
"Quot.sound"
],
"Verif.Readers.C122_tags_distinct": [
"propext",
"Classical.choice",
"Quot.sound"
],
"Verif.Res.C141_example": [
"propext",
"Classical.choice",
"Quot.sound"
],
"Verif.Res.C141_filters": [
"propext",
"Classical.choice",
"Quot.sound"
],
"Verif.Res.C141_namespace": [
"propext",
"Classical.choice",
"Quot.sound"
],
"Verif.Res.C141_split": [
"propext",
"Classical.choice",
"Quot.sound"
],
"Verif.Res.C141_tokens": [
"propext",
"Quot.sound"
],
"Verif.Res.C141_wiki": [
"propext",
"Classical.choice",
"Quot.sound"
],
"Verif.Rp.C104_construct": [
"propext",
"Classical.choice",
"Quot.sound"
],
"Verif.Rp.C104_distances": [
"propext",
"Classical.choice",
"Quot.sound"
],
"Verif.Rp.C104_dropped": [
"propext",
"Classical.choice",
"Quot.sound"
],
"Verif.Rp.C104_expectation": [
"propext",
"Classical.choice",
"Quot.sound"
],
"Verif.Rp.C104_getitem": [
"propext",
"Classical.choice",
"Quot.sound"
],
"Verif.Rp.C104_initialize_again": [
"propext",
"Classical.choice",
"Quot.sound"
],
"Verif.Rp.C104_linear": [
"propext",
"Classical.choice",
"Quot.sound"
],
"Verif.Rp.C104_norm_corpus": [
"propext",
"Classical.choice",
"Quot.sound"
],
"Verif.Rp.C104_norm_document": [
"propext",
"Classical.choice",
"Quot.sound"
],
"Verif.Rp.C104_norm_errors": [
"propext",
"Classical.choice",
"Quot.sound"
],
"Verif.Rp.C104_norm_statistics": [
"propext",
"Classical.choice",
"Quot.sound"
],
"Verif.Rp.C104_variance": [
"propext",
"Classical.choice",
"Quot.sound"
],
"Verif.SaveLoad.C119_crash": [
"propext",
"Classical.choice",
"Quot.sound"
],
"Verif.SaveLoad.C119_crash_mix": [
"propext"
],
"Verif.SaveLoad.C119_lda": [
"propext",
"Classical.choice",
"Quot.sound"
],
"Verif.SaveLoad.C119_lsi": [
"propext",
"Classical.choice",
"Quot.sound"
],
"Verif.SaveLoad.C119_lsi_ignore": [
"propext"
],
"Verif.SaveLoad.C119_memory": [
"propext",
"Classical.choice",
"Quot.sound"
],
"Verif.SaveLoad.C119_missing_state": [
"propext",
"Classical.choice",
"Quot.sound"
],
"Verif.SaveLoad.C119_stale": [
"propext",
"Classical.choice",
"Quot.sound"
],
"Verif.SaveLoad.C119_tfidf_defaults": [
"propext",
"Classical.choice",
"Quot.sound"
],
"Verif.SaveLoad.C149_mixture": [
"propext",
"Classical.choice",
"Quot.sound"
],
"Verif.SaveLoad.C149_nothing_separate": [
"propext",
"Classical.choice",
"Quot.sound"
],
"Verif.SaveLoad.C149_old_or_new": [
"propext",
"Classical.choice",
"Quot.sound"
],
"Verif.SaveLoad.C149_sequence": [
"propext",
"Classical.choice",
"Quot.sound"
],
"Verif.SaveLoad.C18_flat_crash_safe": [
"propext",
"Classical.choice",
"Quot.sound"
],
"Verif.SaveLoad.C18_load_missing": [
"propext"
],
"Verif.SaveLoad.C18_load_missing_child": [
"propext",
"Quot.sound"
],
"Verif.SaveLoad.C18_load_save": [
"propext",
"Classical.choice",
"Quot.sound"
],
"Verif.SaveLoad.C18_nested_loses_arrays": [
"propext"
],
"Verif.SaveLoad.C18_parent_loses_arrays": [
"propext"
],
"Verif.SaveLoad.C18_save_keeps_object": [
"propext",
"Classical.choice",
"Quot.sound"
],
"Verif.SaveLoad.C18_save_restores": [
"propext",
"Classical.choice",
"Quot.sound"
],
"Verif.SaveLoad.C18_save_succeeds": [
"propext",
"Classical.choice",
"Quot.sound"
],
"Verif.SaveLoad.Heap.C147_cycle_loses": [
"propext",
"Classical.choice",
"Quot.sound"
],
"Verif.SaveLoad.Heap.C147_cycle_raises": [
"propext",
"Classical.choice",
"Quot.sound"
],
"Verif.SaveLoad.Heap.C147_memory": [
"propext",
"Classical.choice",
"Quot.sound"
],
"Verif.SaveLoad.Heap.C147_shared_lost": [
"propext",
"Classical.choice",
"Quot.sound"
],
"Verif.SaveLoad.Heap.C147_shared_small": [
"propext",
"Classical.choice",
"Quot.sound"
],
"Verif.Score.C111_empty_crashes": [
"propext",
"Quot.sound"
],
"Verif.Score.C111_guard": [
"propext"
],
"Verif.Score.C111_no_deadlock": [
"propext",
"Classical.choice",
"Quot.sound"
],
"Verif.Score.C111_no_workers": [
"propext",
"Classical.choice",
"Quot.sound"
],
"Verif.Score.C111_reads": [
"propext",
"Quot.sound"
],
"Verif.Score.C111_result": [
"propext",
"Classical.choice",
"Quot.sound"
],
"Verif.Score.C111_terminates": [
"propext",
"Quot.sound"
],
"Verif.Sharded.C143_build": [
"propext",
"Classical.choice",
"Quot.sound"
],
"Verif.Sharded.C143_dimension": [
"propext"
],
"Verif.Sharded.C143_documents": [
"propext",
"Classical.choice",
"Quot.sound"
],
"Verif.Sharded.C143_history": [
"propext",
"Classical.choice",
"Quot.sound"
],
"Verif.Sharded.C143_reopen_forgets": [
"propext",
"Classical.choice",
"Quot.sound"
],
"Verif.Sharded.C143_resize_dense_broken": [
"propext",
"Classical.choice",
"Quot.sound"
],
"Verif.Sharded.C143_resize_sparse_broken": [
"propext",
"Classical.choice",
"Quot.sound"
],
"Verif.Sharded.C26_history": [
"propext",
"Classical.choice",
"Quot.sound"
],
"Verif.Sharded.C26_length": [
"propext",
"Classical.choice",
"Quot.sound"
],
"Verif.Sharded.C26_reopen_other_size_wrong": [
"propext",
"Quot.sound"
],
"Verif.Sharded.C26_resize_unsaved_wrong": [
"propext",
"Quot.sound"
],
"Verif.Show.C115_argsort": [
"propext",
"Classical.choice",
"Quot.sound"
],
"Verif.Show.C115_chosen": [
"propext",
"Classical.choice",
"Quot.sound"
],
"Verif.Show.C115_hdp_all": [
"propext",
"Quot.sound"
],
"Verif.Show.C115_hdp_show_topics": [
"propext",
"Quot.sound"
],
"Verif.Show.C115_hdp_terms": [
"propext",
"Classical.choice",
"Quot.sound"
],
"Verif.Show.C115_index": [
"propext",
"Quot.sound"
],
"Verif.Show.C115_lda_probabilities": [
"propext",
"Classical.choice",
"Quot.sound"
],
"Verif.Show.C115_lda_show_topic": [
"propext",
"Classical.choice",
"Quot.sound"
],
"Verif.Show.C115_lda_show_topics": [
"propext",
"Classical.choice",
"Quot.sound"
],
"Verif.Show.C115_lsi_length": [
"propext",
"Classical.choice",
"Quot.sound"
],
"Verif.Show.C115_lsi_show_topic": [
"propext",
"Classical.choice",
"Quot.sound"
],
"Verif.Show.C115_lsi_show_topics": [
"propext",
"Quot.sound"
],
"Verif.Show.C115_nmf_again": [
"propext",
"Classical.choice",
"Quot.sound"
],
"Verif.Show.C115_nmf_chosen": [
"propext",
"Classical.choice",
"Quot.sound"
],
"Verif.Show.C115_nmf_show_topics": [
"propext",
"Quot.sound"
],
"Verif.Show.C115_nmf_terms": [
"propext",
"Classical.choice",
"Quot.sound"
],
"Verif.Show.C115_noise": [
"propext",
"Classical.choice",
"Quot.sound"
],
"Verif.Show.C115_term_topics": [
"propext",
"Classical.choice",
"Quot.sound"
],
"Verif.Show.C115_term_topics_word": [
"propext",
"Quot.sound"
],
"Verif.Show.C115_top_topics": [
"propext",
"Classical.choice",
"Quot.sound"
],
"Verif.Sync.C134_getstate": [
"propext",
"Classical.choice",
"Quot.sound"
],
"Verif.Sync.C134_jobs_counted": [
"propext",
"Classical.choice",
"Quot.sound"
],
"Verif.Sync.C134_lost_without_lock": [
"propext",
"Quot.sound"
],
"Verif.Sync.C134_mutual_exclusion": [
"propext",
"Classical.choice",
"Quot.sound"
],
"Verif.Sync.C134_no_deadlock": [
"propext",
"Classical.choice",
"Quot.sound"
],
"Verif.Sync.C134_relock": [
"propext"
],
"Verif.Sync.C134_serial": [
"propext",
"Classical.choice",
"Quot.sound"
],
"Verif.Sync.C134_stale_job": [],
"Verif.Termsim.C121_embedding": [
"propext",
"Classical.choice",
"Quot.sound"
],
"Verif.Termsim.C121_embedding_range": [
"propext",
"Classical.choice",
"Quot.sound"
],
"Verif.Termsim.C121_fits": [
"propext",
"Quot.sound"
],
"Verif.Termsim.C121_limit_outside": [
"propext",
"Classical.choice",
"Quot.sound"
],
"Verif.Termsim.C121_negative_threshold": [
"propext",
"Classical.choice",
"Quot.sound"
],
"Verif.Termsim.C121_uniform": [
"propext"
],
"Verif.Termsim.C121_uniform_matrix": [
"propext",
"Classical.choice",
"Quot.sound"
],
"Verif.Termsim.C56_constraints": [
"propext",
"Classical.choice",
"Quot.sound"
],
"Verif.Termsim.C56_counters_never_overflow": [
"propext",
"Classical.choice",
"Quot.sound"
],
"Verif.Termsim.C56_float16": [
"propext",
"Classical.choice",
"Quot.sound"
],
"Verif.Termsim.C56_origin": [
"propext",
"Classical.choice",
"Quot.sound"
],
"Verif.Termsim.C56_plain_columns": [
"propext",
"Classical.choice",
"Quot.sound"
],
"Verif.Termsim.C56_refused": [
"propext",
"Classical.choice",
"Quot.sound"
],
"Verif.Termsim.C56_self_similarity": [
"propext",
"Classical.choice",
"Quot.sound"
],
"Verif.Termsim.C56_shortest_type": [
"propext",
"Classical.choice",
"Quot.sound"
],
"Verif.Termsim.C56_tfidf_missing": [
"propext",
"Classical.choice",
"Quot.sound"
],
"Verif.Termsim.C69_corpora": [
"propext",
"Classical.choice",
"Quot.sound"
],
"Verif.Termsim.C69_cosine": [
"propext",
"Classical.choice",
"Quot.sound"
],
"Verif.Termsim.C69_documents": [
"propext",
"Classical.choice",
"Quot.sound"
],
"Verif.Termsim.C69_maintain": [
"propext",
"Classical.choice",
"Quot.sound"
],
"Verif.Termsim.C69_mixed_all_related": [
"propext",
"Classical.choice",
"Quot.sound"
],
"Verif.Termsim.C69_mixed_normalized": [
"propext",
"Classical.choice",
"Quot.sound"
],
"Verif.Termsim.C69_mixed_unnormalized": [
"propext",
"Classical.choice",
"Quot.sound"
],
"Verif.Termsim.C69_mixed_wrong": [
"propext",
"Classical.choice",
"Quot.sound"
],
"Verif.Termsim.C69_negative_norm": [
"propext",
"Classical.choice",
"Quot.sound"
],
"Verif.Termsim.C69_normalizations": [
"propext",
"Classical.choice",
"Quot.sound"
],
"Verif.Termsim.C69_positive_definite": [
"propext",
"Classical.choice",
"Quot.sound"
],
"Verif.Termsim.C69_related": [
"propext",
"Classical.choice",
"Quot.sound"
],
"Verif.TextCorpus.C60_exact": [
"propext",
"Classical.choice",
"Quot.sound"
],
"Verif.TextCorpus.C60_metadata": [
"propext"
],
"Verif.TextCorpus.C60_rejected": [
"propext",
"Quot.sound"
],
"Verif.TextCorpus.C60_too_long": [
"propext",
"Classical.choice",
"Quot.sound"
],
"Verif.TextCorpus.C60_uniform": [
"propext",
"Classical.choice",
"Quot.sound"
],
"Verif.TextCorpus.C71_last": [
"propext"
],
"Verif.TextCorpus.C71_last_wrong": [
"propext",
"Classical.choice",
"Quot.sound"
],
"Verif.TextCorpus.C71_order": [
"propext",
"Quot.sound"
],
"Verif.TextCorpus.C71_shown": [],
"Verif.TextCorpus.C72_files": [
"propext",
"Quot.sound"
],
"Verif.TextCorpus.C72_length": [
"propext",
"Quot.sound"
],
"Verif.TextCorpus.C72_length_changed_during": [
"propext",
"Classical.choice",
"Quot.sound"
],
"Verif.TextCorpus.C72_once": [
"propext",
"Quot.sound"
],
"Verif.TextCorpus.Text.C123_metadata_lost": [
"propext",
"Quot.sound"
],
"Verif.TextCorpus.Text.C123_text_built": [
"propext",
"Classical.choice",
"Quot.sound"
],
"Verif.TextCorpus.Text.C123_text_given": [
"propext",
"Classical.choice",
"Quot.sound"
],
"Verif.TextCorpus.Text.C123_text_len": [
"propext",
"Quot.sound"
],
"Verif.TextCorpus.Text.C123_text_raises": [
"propext",
"Quot.sound"
],
"Verif.TextCorpus.Text.C123_uci_blind": [
"propext",
"Quot.sound"
],
"Verif.TextCorpus.Text.C123_uci_counts": [
"propext",
"Quot.sound"
],
"Verif.TextCorpus.Text.C123_uci_generator": [
"propext"
],
"Verif.TextCorpus.Text.C123_uci_numbers": [
"propext",
"Classical.choice",
"Quot.sound"
],
"Verif.TextCorpus.Text.C123_uci_token2id": [
"propext",
"Quot.sound"
],
"Verif.TextCorpus.Text.C123_uci_vocab": [
"propext",
"Classical.choice",
"Quot.sound"
],
"Verif.Tfidf.C162_accepted": [
"propext",
"Classical.choice",
"Quot.sound"
],
"Verif.Tfidf.C162_corpus_ignored": [
"propext",
"Classical.choice",
"Quot.sound"
],
"Verif.Tfidf.C162_empty_dictionary": [
"propext",
"Classical.choice",
"Quot.sound"
],
"Verif.Tfidf.C162_pivot": [
"propext",
"Classical.choice",
"Quot.sound"
],
"Verif.Tfidf.C162_refused": [
"propext",
"Classical.choice",
"Quot.sound"
],
"Verif.Tfidf.C162_source": [
"propext",
"Classical.choice",
"Quot.sound"
],
"Verif.Tfidf.C162_unknown_term": [
"propext",
"Classical.choice",
"Quot.sound"
],
"Verif.Tfidf.C162_untrained": [
"propext",
"Classical.choice",
"Quot.sound"
],
"Verif.Tfidf.C162_usable": [
"propext",
"Classical.choice",
"Quot.sound"
],
"Verif.Tfidf.C49_augmented_empty_raises": [
"propext",
"Classical.choice",
"Quot.sound"
],
"Verif.Tfidf.C49_byte_length_needs_dictionary": [
"propext",
"Classical.choice",
"Quot.sound"
],
"Verif.Tfidf.C49_byte_length_pivot_raises": [
"propext",
"Classical.choice",
"Quot.sound"
],
"Verif.Tfidf.C49_document_frequencies": [
"propext",
"Classical.choice",
"Quot.sound"
],
"Verif.Tfidf.C49_from_dictionary": [
"propext",
"Classical.choice",
"Quot.sound"
],
"Verif.Tfidf.C49_from_dictionary_vectors": [
"propext",
"Classical.choice",
"Quot.sound"
],
"Verif.Tfidf.C49_idf": [
"propext",
"Classical.choice",
"Quot.sound"
],
"Verif.Tfidf.C49_ids_order": [
"propext",
"Classical.choice",
"Quot.sound"
],
"Verif.Tfidf.C49_pivot_bytes": [
"propext",
"Classical.choice",
"Quot.sound"
],
"Verif.Tfidf.C49_pivot_fixed_point": [
"propext",
"Classical.choice",
"Quot.sound"
],
"Verif.Tfidf.C49_pivot_unique": [
"propext",
"Classical.choice",
"Quot.sound"
],
"Verif.Tfidf.C49_plain": [
"propext",
"Classical.choice",
"Quot.sound"
],
"Verif.Tfidf.C49_plain_pivot_raises": [
"propext",
"Classical.choice",
"Quot.sound"
],
"Verif.Tfidf.C49_repeated_ids_overcount": [
"propext",
"Classical.choice",
"Quot.sound"
],
"Verif.Tfidf.C49_resolve_weights": [
"propext",
"Quot.sound"
],
"Verif.Tfidf.C49_smart_global": [
"propext",
"Classical.choice",
"Quot.sound"
],
"Verif.Tfidf.C49_smart_local": [
"propext",
"Classical.choice",
"Quot.sound"
],
"Verif.Tfidf.C49_ubiquitous_dropped": [
"propext",
"Classical.choice",
"Quot.sound"
],
"Verif.Tfidf.C49_unit_or_empty": [
"propext",
"Classical.choice",
"Quot.sound"
],
"Verif.Tfidf.C49_zero_frequency_raises": [
"propext",
"Classical.choice",
"Quot.sound"
],
"Verif.Topic.C154_complete": [
"propext",
"Quot.sound"
],
"Verif.Topic.C154_from_corpus": [
"propext",
"Quot.sound"
],
"Verif.Topic.C154_gaps": [
"propext",
"Quot.sound"
],
"Verif.Topic.C154_generator_lda": [
"propext",
"Quot.sound"
],
"Verif.Topic.C154_generator_lsi": [
"propext"
],
"Verif.Topic.C154_generator_nmf": [
"propext",
"Quot.sound"
],
"Verif.Topic.C154_largest": [
"propext",
"Quot.sound"
],
"Verif.Topic.C154_refused": [],
"Verif.Topic.C154_replayable": [
"propext",
"Quot.sound"
],
"Verif.TransMat.C101_back_mapping": [
"propext",
"Classical.choice",
"Quot.sound"
],
"Verif.TransMat.C101_gc_depends_on_scale": [
"propext",
"Classical.choice",
"Quot.sound"
],
"Verif.TransMat.C101_gc_order": [
"propext",
"Classical.choice",
"Quot.sound"
],
"Verif.TransMat.C101_gc_ranks": [
"propext",
"Classical.choice",
"Quot.sound"
],
"Verif.TransMat.C101_gc_repeated_words": [
"propext",
"Classical.choice",
"Quot.sound"
],
"Verif.TransMat.C101_gc_sample": [
"propext",
"Classical.choice",
"Quot.sound"
],
"Verif.TransMat.C101_gc_sample_repeats": [
"propext",
"Classical.choice",
"Quot.sound"
],
"Verif.TransMat.C101_long_entry_accepted": [
"propext",
"Classical.choice",
"Quot.sound"
],
"Verif.TransMat.C101_train": [
"propext",
"Classical.choice",
"Quot.sound"
],
"Verif.TransMat.C101_train_errors": [
"propext",
"Classical.choice",
"Quot.sound"
],
"Verif.TransMat.C101_train_exact": [
"propext",
"Classical.choice",
"Quot.sound"
],
"Verif.TransMat.C101_training_words": [
"propext",
"Classical.choice",
"Quot.sound"
],
"Verif.TransMat.C101_translate": [
"propext",
"Classical.choice",
"Quot.sound"
],
"Verif.TransMat.C101_translate_errors": [
"propext",
"Classical.choice",
"Quot.sound"
],
"Verif.Upgrade.C113_bucket": [
"propext"
],
"Verif.Upgrade.C113_current_vectors": [
"propext",
"Classical.choice",
"Quot.sound"
],
"Verif.Upgrade.C113_doctags": [
"propext",
"Classical.choice",
"Quot.sound"
],
"Verif.Upgrade.C113_exponent_lost": [
"propext",
"Classical.choice",
"Quot.sound"
],
"Verif.Upgrade.C113_fasttext": [
"propext",
"Quot.sound"
],
"Verif.Upgrade.C113_integer_keys": [
"propext",
"Classical.choice",
"Quot.sound"
],
"Verif.Upgrade.C113_load_attrs": [
"propext",
"Classical.choice",
"Quot.sound"
],
"Verif.Upgrade.C113_load_iff": [
"propext",
"Classical.choice",
"Quot.sound"
],
"Verif.Upgrade.C113_old_vectors": [
"propext",
"Classical.choice",
"Quot.sound"
],
"Verif.Upgrade.C113_save_load": [
"propext",
"Classical.choice",
"Quot.sound"
],
"Verif.Upgrade.C113_syn1_lost": [
"propext",
"Classical.choice",
"Quot.sound"
],
"Verif.Utf8.C173_ascii": [
"propext",
"Quot.sound"
],
"Verif.Utf8.C173_bytes": [
"propext",
"Classical.choice",
"Quot.sound"
],
"Verif.Utf8.C173_cut": [
"propext",
"Classical.choice",
"Quot.sound"
],
"Verif.Utf8.C173_cut_inside": [
"propext",
"Classical.choice",
"Quot.sound"
],
"Verif.Utf8.C173_decode": [
"propext",
"Classical.choice",
"Quot.sound"
],
"Verif.Utf8.C173_injective": [
"propext",
"Classical.choice",
"Quot.sound"
],
"Verif.Utf8.C173_lines": [
"propext",
"Classical.choice",
"Quot.sound"
],
"Verif.Utf8.C173_seek": [
"propext",
"Classical.choice",
"Quot.sound"
],
"Verif.Utf8.C173_split": [
"propext",
"Quot.sound"
],
"Verif.VecFile.C114_glove": [
"propext",
"Classical.choice",
"Quot.sound"
],
"Verif.VecFile.C114_glove_duplicates": [
"propext",
"Classical.choice",
"Quot.sound"
],
"Verif.VecFile.C114_glove_info": [
"propext"
],
"Verif.VecFile.C114_glove_load": [
"propext",
"Classical.choice",
"Quot.sound"
],
"Verif.VecFile.C114_merge_bad_line": [
"propext",
"Classical.choice",
"Quot.sound"
],
"Verif.VecFile.C114_merge_binary": [
"propext",
"Classical.choice",
"Quot.sound"
],
"Verif.VecFile.C114_merge_default_lock": [
"propext",
"Quot.sound"
],
"Verif.VecFile.C114_merge_never_returns": [
"propext"
],
"Verif.VecFile.C114_merge_no_lock": [
"propext"
],
"Verif.VecFile.C114_merge_size": [
"propext",
"Classical.choice",
"Quot.sound"
],
"Verif.VecFile.C114_merge_stale_norms": [
"propext",
"Classical.choice",
"Quot.sound"
],
"Verif.VecFile.C114_merge_text": [
"propext",
"Classical.choice",
"Quot.sound"
],
"Verif.VecFile.C114_merge_truncated": [
"propext",
"Classical.choice",
"Quot.sound"
],
"Verif.VecFile.C114_no_header": [
"propext",
"Classical.choice",
"Quot.sound"
],
"Verif.VecFile.C114_no_header_errors": [
"propext"
],
"Verif.VecFile.C114_no_header_loads": [
"propext",
"Classical.choice",
"Quot.sound"
],
"Verif.VecFile.C114_tensor": [
"propext",
"Quot.sound"
],
"Verif.VecFile.C114_tensor_findings": [
"propext"
],
"Verif.VecFile.C114_tensor_lines": [
"propext",
"Quot.sound"
],
"Verif.View.C17_bounds": [
"propext",
"Quot.sound"
],
"Verif.View.C17_clipped": [
"propext",
"Quot.sound"
],
"Verif.View.C17_repeat": [
"propext",
"Classical.choice",
"Quot.sound"
],
"Verif.View.C17_repeat_n_times": [],
"Verif.View.C17_sliced_indexed": [
"propext",
"Classical.choice",
"Quot.sound"
],
"Verif.View.C17_sliced_len": [
"propext",
"Classical.choice",
"Quot.sound"
],
"Verif.View.C17_sliced_len_empty_slice_fails": [
"propext"
],
"Verif.View.C17_sliced_len_negative": [
"propext",
"Classical.choice",
"Quot.sound"
],
"Verif.View.C17_sliced_len_negative_step_fails": [
"propext"
],
"Verif.View.C17_sliced_unindexed": [
"propext",
"Classical.choice",
"Quot.sound"
],
"Verif.Vocab.C14_counts_exact": [
"propext",
"Classical.choice",
"Quot.sound"
],
"Verif.Vocab.C14_counts_never_exceed": [
"propext",
"Classical.choice",
"Quot.sound"
],
"Verif.Vocab.C14_lost_at_most": [
"propext",
"Classical.choice",
"Quot.sound"
],
"Verif.Vocab.C14_merge_counts": [
"propext",
"Classical.choice",
"Quot.sound"
],
"Verif.Vocab.C14_prune_exact": [
"propext",
"Quot.sound"
],
"Verif.Vocab.C14_prune_members": [
"propext",
"Quot.sound"
],
"Verif.Vocab.C14_trim_by_freq": [
"propext",
"Quot.sound"
],
"Verif.W2V.C129_collision": [
"propext",
"Classical.choice",
"Quot.sound"
],
"Verif.W2V.C129_fresh": [
"propext",
"Classical.choice",
"Quot.sound"
],
"Verif.W2V.C129_history": [
"propext",
"Classical.choice",
"Quot.sound"
],
"Verif.W2V.C129_predicted": [
"propext",
"Classical.choice",
"Quot.sound"
],
"Verif.W2V.C129_update_moves": [
"propext",
"Classical.choice",
"Quot.sound"
],
"Verif.W2V.C153_word2vec_returned": [
"propext",
"Classical.choice",
"Quot.sound"
],
"Verif.W2V.C153_word2vec_stops": [
"propext",
"Classical.choice",
"Quot.sound"
],
"Verif.W2V.C153_word2vec_waits": [
"propext",
"Classical.choice",
"Quot.sound"
],
"Verif.W2V.C27_fresh": [
"propext",
"Classical.choice",
"Quot.sound"
],
"Verif.W2V.C27_history": [
"propext",
"Classical.choice",
"Quot.sound"
],
"Verif.W2V.C27_max_final": [
"propext",
"Classical.choice",
"Quot.sound"
],
"Verif.W2V.C28_batches": [
"propext",
"Classical.choice",
"Quot.sound"
],
"Verif.W2V.C29_exactly_once": [
"propext",
"Classical.choice",
"Quot.sound"
],
"Verif.W2V.C29_no_deadlock": [
"propext",
"Classical.choice",
"Quot.sound"
],
"Verif.W2V.C29_one_worker_in_order": [
"propext",
"Classical.choice",
"Quot.sound"
],
"Verif.W2V.C29_terminates": [
"propext",
"Classical.choice",
"Quot.sound"
],
"Verif.W2V.C30_codes": [
"propext",
"Classical.choice",
"Quot.sound"
],
"Verif.W2V.C30_frequent_no_longer": [
"propext",
"Classical.choice",
"Quot.sound"
],
"Verif.W2V.C30_optimal": [
"propext",
"Classical.choice",
"Quot.sound"
],
"Verif.W2V.C30_total": [
"propext",
"Quot.sound"
],
"Verif.W2V.C31_bisect": [
"propext",
"Quot.sound"
],
"Verif.W2V.C31_every_word_drawn": [
"propext",
"Classical.choice",
"Quot.sound"
],
"Verif.W2V.C31_last_word_lost": [
"propext",
"Classical.choice",
"Quot.sound"
],
"Verif.W2V.C31_negatives": [
"propext",
"Quot.sound"
],
"Verif.W2V.C31_negatives_are_draws": [
"propext",
"Quot.sound"
],
"Verif.W2V.C31_proportion": [
"propext",
"Classical.choice",
"Quot.sound"
],
"Verif.W2V.C31_share": [
"propext",
"Classical.choice",
"Quot.sound"
],
"Verif.W2V.C31_table": [
"propext",
"Classical.choice",
"Quot.sound"
],
"Verif.W2V.C32_epoch": [
"propext",
"Classical.choice",
"Quot.sound"
],
"Verif.W2V.C32_infer": [
"propext",
"Classical.choice",
"Quot.sound"
],
"Verif.W2V.C32_linear": [
"propext",
"Classical.choice",
"Quot.sound"
],
"Verif.W2V.C32_training": [
"propext",
"Classical.choice",
"Quot.sound"
],
"Verif.W2V.C32_underestimated_rises": [
"propext",
"Classical.choice",
"Quot.sound"
],
"Verif.W2V.C33_block_size_irrelevant": [
"propext",
"Quot.sound"
],
"Verif.W2V.C33_line_sentence": [
"propext",
"Quot.sound"
],
"Verif.W2V.C33_newline_at_block_end": [
"propext",
"Classical.choice",
"Quot.sound"
],
"Verif.W2V.C33_text8": [
"propext",
"Quot.sound"
],
"Verif.W2V.C34_buffer_lost": [
"propext"
],
"Verif.W2V.C34_complete": [
"propext",
"Classical.choice",
"Quot.sound"
],
"Verif.W2V.C34_lines": [
"propext"
],
"Verif.W2V.C34_loop_stops": [
"propext",
"Classical.choice",
"Quot.sound"
],
"Verif.W2V.C34_next_batch": [
"propext",
"Classical.choice",
"Quot.sound"
],
"Verif.W2V.C34_sentence_idx_overflow": [
"propext"
],
"Verif.W2V.C34_single_thread": [
"propext",
"Classical.choice",
"Quot.sound"
],
"Verif.W2V.C34_threads_gap": [
"propext",
"Classical.choice",
"Quot.sound"
],
"Verif.W2V.C34_threads_overlap": [
"propext",
"Classical.choice",
"Quot.sound"
],
"Verif.W2V.C34_train_loop": [
"propext",
"Classical.choice",
"Quot.sound"
],
"Verif.W2V.C34_truncated": [
"propext"
],
"Verif.W2V.C34_words": [
"propext",
"Classical.choice",
"Quot.sound"
],
"Verif.W2V.C35_batch": [
"propext",
"Classical.choice",
"Quot.sound"
],
"Verif.W2V.C35_pairs": [
"propext",
"Classical.choice",
"Quot.sound"
],
"Verif.W2V.C35_pairs_nodup": [
"propext",
"Classical.choice",
"Quot.sound"
],
"Verif.W2V.C35_prepare": [
"propext",
"Quot.sound"
],
"Verif.W2V.C35_sentences_fit": [
"propext",
"Quot.sound"
],
"Verif.W2V.C35_words_fit": [
"propext",
"Quot.sound"
],
"Verif.W2V.C36_empty": [],
"Verif.W2V.C36_offsets": [
"propext",
"Classical.choice",
"Quot.sound"
],
"Verif.W2V.C36_order": [
"propext",
"Classical.choice",
"Quot.sound"
],
"Verif.W2V.C84_build": [
"propext",
"Classical.choice",
"Quot.sound"
],
"Verif.W2V.C84_kept": [
"propext",
"Classical.choice",
"Quot.sound"
],
"Verif.W2V.C84_probability": [
"propext",
"Classical.choice",
"Quot.sound"
],
"Verif.W2V.C84_sentence": [
"propext",
"Classical.choice",
"Quot.sound"
],
"Verif.W2V.C84_shorthand": [
"propext",
"Classical.choice",
"Quot.sound"
],
"Verif.W2V.C84_shorthand_witness": [
"propext",
"Classical.choice",
"Quot.sound"
],
"Verif.W2V.C84_update_forgets": [
"propext",
"Classical.choice",
"Quot.sound"
],
"Verif.W2V.C84_zero": [
"propext",
"Classical.choice",
"Quot.sound"
],
"Verif.W2V.C85_first": [
"propext",
"Classical.choice",
"Quot.sound"
],
"Verif.W2V.C85_history": [
"propext",
"Classical.choice",
"Quot.sound"
],
"Verif.W2V.C85_rebuild": [
"propext",
"Classical.choice",
"Quot.sound"
],
"Verif.W2V.C85_update": [
"propext",
"Classical.choice",
"Quot.sound"
],
"Verif.W2V.Dry.C144_dry_built": [
"propext",
"Classical.choice",
"Quot.sound"
],
"Verif.W2V.Dry.C144_dry_null": [
"propext",
"Classical.choice",
"Quot.sound"
],
"Verif.W2V.Dry.C144_dry_scanned": [
"propext",
"Classical.choice",
"Quot.sound"
],
"Verif.W2V.Dry.C144_dry_scrambles": [
"propext",
"Classical.choice",
"Quot.sound"
],
"Verif.W2V.Dry.C144_dry_strict": [
"propext",
"Classical.choice",
"Quot.sound"
],
"Verif.W2V.Dry.C144_dry_unsorted": [
"propext",
"Classical.choice",
"Quot.sound"
],
"Verif.W2V.Dry.C144_fasttext_ignores": [
"propext",
"Classical.choice",
"Quot.sound"
],
"Verif.W2V.Dry.C144_memory": [
"propext",
"Classical.choice",
"Quot.sound"
],
"Verif.W2V.Dry.C144_memory_doc": [
"propext",
"Classical.choice",
"Quot.sound"
],
"Verif.W2V.Dry.C144_memory_fasttext": [
"propext",
"Classical.choice",
"Quot.sound"
],
"Verif.W2V.Dry.C144_predicts": [
"propext",
"Classical.choice",
"Quot.sound"
],
"Verif.W2V.Dry.C144_report_twice": [
"propext",
"Classical.choice",
"Quot.sound"
],
"Verif.W2V.Dry.C144_update_report": [
"propext",
"Classical.choice",
"Quot.sound"
],
"Verif.W2V.Dry.C144_zero_ignored": [
"propext",
"Classical.choice",
"Quot.sound"
],
"Verif.W2V.Hs.C145_all_count": [
"propext",
"Classical.choice",
"Quot.sound"
],
"Verif.W2V.Hs.C145_distribution": [
"propext",
"Classical.choice",
"Quot.sound"
],
"Verif.W2V.Hs.C145_known": [
"propext",
"Classical.choice",
"Quot.sound"
],
"Verif.W2V.Hs.C145_nonpos": [
"propext",
"Classical.choice",
"Quot.sound"
],
"Verif.W2V.Hs.C145_overstates": [
"propext",
"Classical.choice",
"Quot.sound"
],
"Verif.W2V.Hs.C145_saturated": [
"propext",
"Classical.choice",
"Quot.sound"
],
"Verif.W2V.Hs.C145_score_alone": [
"propext",
"Classical.choice",
"Quot.sound"
],
"Verif.W2V.Hs.C145_score_cbow": [
"propext",
"Classical.choice",
"Quot.sound"
],
"Verif.W2V.Hs.C145_score_sg": [
"propext",
"Classical.choice",
"Quot.sound"
],
"Verif.W2V.Hs.C145_single": [
"propext",
"Classical.choice",
"Quot.sound"
],
"Verif.W2V.Hs.C145_tables": [
"propext",
"Classical.choice",
"Quot.sound"
],
"Verif.W2V.Step.C82_batch": [
"propext",
"Classical.choice",
"Quot.sound"
],
"Verif.W2V.Step.C82_draw": [
"propext",
"Classical.choice",
"Quot.sound"
],
"Verif.W2V.Step.C82_frame": [
"propext",
"Classical.choice",
"Quot.sound"
],
"Verif.W2V.Step.C82_hs_loss_reversed": [
"propext",
"Classical.choice",
"Quot.sound"
],
"Verif.W2V.Step.C82_lock_factors": [
"propext",
"Classical.choice",
"Quot.sound"
],
"Verif.W2V.Step.C82_pair_both": [
"propext",
"Classical.choice",
"Quot.sound"
],
"Verif.W2V.Step.C82_pair_hs": [
"propext",
"Classical.choice",
"Quot.sound"
],
"Verif.W2V.Step.C82_pair_neg": [
"propext",
"Classical.choice",
"Quot.sound"
],
"Verif.W2V.Step.C82_saturated": [
"propext",
"Classical.choice",
"Quot.sound"
],
"Verif.W2V.Step.C82_score": [
"propext",
"Classical.choice",
"Quot.sound"
],
"Verif.W2V.Step.C82_sg_hs": [
"propext",
"Classical.choice",
"Quot.sound"
],
"Verif.W2V.Step.C82_sg_neg": [
"propext",
"Classical.choice",
"Quot.sound"
],
"Verif.W2V.Step.C82_table_step": [
"propext",
"Classical.choice",
"Quot.sound"
],
"Verif.W2V.Step.C82_tables": [
"propext",
"Classical.choice",
"Quot.sound"
],
"Verif.W2V.Step.C82_targets": [
"propext"
],
"Verif.W2V.Step.C83_batch": [
"propext",
"Classical.choice",
"Quot.sound"
],
"Verif.W2V.Step.C83_cbow_hs": [
"propext",
"Classical.choice",
"Quot.sound"
],
"Verif.W2V.Step.C83_cbow_neg": [
"propext",
"Classical.choice",
"Quot.sound"
],
"Verif.W2V.Step.C83_frame": [
"propext",
"Classical.choice",
"Quot.sound"
],
"Verif.W2V.Step.C83_input": [
"propext",
"Classical.choice",
"Quot.sound"
],
"Verif.W2V.Step.C83_no_context": [
"propext",
"Classical.choice",
"Quot.sound"
],
"Verif.W2V.Step.C83_word_both": [
"propext",
"Classical.choice",
"Quot.sound"
],
"Verif.W2V.Step.C83_word_hs": [
"propext",
"Classical.choice",
"Quot.sound"
],
"Verif.W2V.Step.C83_word_neg": [
"propext",
"Classical.choice",
"Quot.sound"
],
"Verif.Wiki.C139_category": [
"propext",
"Classical.choice",
"Quot.sound"
],
"Verif.Wiki.C139_cell_before": [
"propext"
],
"Verif.Wiki.C139_comment": [
"propext",
"Classical.choice",
"Quot.sound"
],
"Verif.Wiki.C139_element": [
"propext",
"Classical.choice",
"Quot.sound"
],
"Verif.Wiki.C139_file": [
"propext",
"Classical.choice",
"Quot.sound"
],
"Verif.Wiki.C139_findings": [
"propext",
"Classical.choice",
"Quot.sound"
],
"Verif.Wiki.C139_languages": [
"propext",
"Classical.choice",
"Quot.sound"
],
"Verif.Wiki.C139_link": [
"propext",
"Classical.choice",
"Quot.sound"
],
"Verif.Wiki.C139_link_bare": [
"propext",
"Classical.choice",
"Quot.sound"
],
"Verif.Wiki.C139_no_brackets": [
"propext",
"Classical.choice",
"Quot.sound"
],
"Verif.Wiki.C139_no_tags": [
"propext",
"Classical.choice",
"Quot.sound"
],
"Verif.Wiki.C139_order": [
"propext",
"Classical.choice",
"Quot.sound"
],
"Verif.Wiki.C139_plain": [
"propext",
"Classical.choice",
"Quot.sound"
],
"Verif.Wiki.C139_tag": [
"propext",
"Classical.choice",
"Quot.sound"
],
"Verif.Wiki.C139_template": [
"propext",
"Classical.choice",
"Quot.sound"
],
"Verif.Wiki.C139_url": [
"propext",
"Classical.choice",
"Quot.sound"
],
"Verif.Wiki.C140_findings": [
"propext",
"Classical.choice",
"Quot.sound"
],
"Verif.Wiki.C140_links": [
"propext",
"Classical.choice",
"Quot.sound"
],
"Verif.Wiki.C140_text": [
"propext",
"Classical.choice",
"Quot.sound"
],
"Verif.Wiki.C140_unchanged": [
"propext",
"Classical.choice",
"Quot.sound"
],
"Verif.Wiki.C59_done": [
"propext",
"Classical.choice",
"Quot.sound"
],
"Verif.Wiki.C59_every_text": [
"propext",
"Classical.choice",
"Quot.sound"
],
"Verif.Wiki.C59_removes": [
"propext",
"Classical.choice",
"Quot.sound"
],
"Verif.Wiki.C70_no_minimum": [
"propext",
"Classical.choice",
"Quot.sound"
],
"Verif.Wiki.C70_texts": [
"propext",
"Classical.choice",
"Quot.sound"
],
"Verif.Wiki.Xml.C156_corpus": [
"propext",
"Classical.choice",
"Quot.sound"
],
"Verif.Wiki.Xml.C156_cut": [
"propext",
"Classical.choice",
"Quot.sound"
],
"Verif.Wiki.Xml.C156_fields": [
"propext",
"Classical.choice",
"Quot.sound"
],
"Verif.Wiki.Xml.C156_pages": [
"propext",
"Classical.choice",
"Quot.sound"
],
"Verif.Wiki.Xml.C156_refused": [
"propext",
"Classical.choice",
"Quot.sound"
],
"Verif.WikiSeg.C125_articles": [
"propext",
"Classical.choice",
"Quot.sound"
],
"Verif.WikiSeg.C125_file": [
"propext"
],
"Verif.WikiSeg.C125_file_json": [
"propext",
"Classical.choice",
"Quot.sound"
],
"Verif.WikiSeg.C125_json": [
"propext",
"Classical.choice",
"Quot.sound"
],
"Verif.WikiSeg.C125_json_ascii": [
"propext",
"Classical.choice",
"Quot.sound"
],
"Verif.WikiSeg.C125_json_injective": [
"propext",
"Classical.choice",
"Quot.sound"
],
"Verif.WikiSeg.C125_length": [],
"Verif.WikiSeg.C125_links": [
"propext",
"Quot.sound"
],
"Verif.WikiSeg.C125_links_lost": [
"propext",
"Classical.choice",
"Quot.sound"
],
"Verif.WikiSeg.C125_links_sound": [
"propext",
"Quot.sound"
],
"Verif.WikiSeg.C125_missed_headings": [
"propext",
"Classical.choice",
"Quot.sound"
],
"Verif.WikiSeg.C125_other_pages": [
"propext",
"Classical.choice",
"Quot.sound"
],
"Verif.WikiSeg.C125_recovers": [
"propext",
"Classical.choice",
"Quot.sound"
],
"Verif.WikiSeg.C125_sections": [
"propext",
"Classical.choice",
"Quot.sound"
],
"Verif.Wmd.C94_bag_of_words": [
"propext",
"Classical.choice",
"Quot.sound"
],
"Verif.Wmd.C94_bounds": [
"propext",
"Classical.choice",
"Quot.sound"
],
"Verif.Wmd.C94_equal_vectors_infinite": [
"propext",
"Classical.choice",
"Quot.sound"
],
"Verif.Wmd.C94_symmetric": [
"propext",
"Classical.choice",
"Quot.sound"
],
"Verif.Wmd.C94_value": [
"propext",
"Classical.choice",
"Quot.sound"
]
}