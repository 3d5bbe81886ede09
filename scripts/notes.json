{
"C05": {
"note": "The documented keep_tokens guarantee is false (C05_keep_tokens_fails, as the property says); it holds when keep_n does not cut (C05_keep_tokens_survive_without_cut). no_above is the integer int(no_above*num_docs), universally quantified."
},
"C08": {
"note": "cfs are not merged by the code: stated as C08_cfs_not_merged."
},
"C16": {
"note": "The no-deadlock theorem is for corpora whose iterator does not raise; C16_producer_failure_hangs shows the consumer stuck when it does."
},
"C14": {
"note": "The word counting loop of Word2Vec (word2vec.py:534-564) with prune_vocab; Phrases._learn_vocab has the same loop over words and bigrams (see C11)."
},
"C13": {
"note": "One-character delimiters. The failures for default scoring (C13_live_depends_on_history) and for tokens with the delimiter (C13_export_raises) are proved as witnesses."
},
"C11": {
"note": "Non-empty tokens; C11_empty_token_dropped shows the hypothesis is needed."
},
"C18": {
"note": "Objects are trees of any depth (no object shared by two attributes). The two failures the property describes are the witnesses C18_nested_loses_arrays and C18_parent_loses_arrays."
}
}