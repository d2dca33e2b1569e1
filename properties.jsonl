{"id": "C01", "title": "Checkpoint/resume of a data pipeline continues the same stream", "statement": "If state_dict(strict=True) is taken from a pipeline after any number of next() calls and loaded into a pipeline built the same way (fresh, or itself already advanced to any position), then the second pipeline returns exactly the examples the first one would have returned from that point on, in the same order, and ends at the same place.", "quantifier": "every pipeline that can be composed from the builder's operators, every history of calls before the save, every prior position of the pipeline that is loaded", "why_tests_cant": "tests fix a few pipelines and a few save points; the claim is about every composition and every save point, including those inside a repeat boundary, a half filled bucket or a half drained shuffle buffer", "anchors": ["native/src/fairseq2n/data/data_pipeline.cc:data_pipeline::record_position/reload_position", "native/src/fairseq2n/data/data_source.h", "native/src/fairseq2n/data/tape.cc", "native/src/fairseq2n/data/repeat_data_source.cc", "native/src/fairseq2n/data/bucket_by_length_data_source.cc", "native/src/fairseq2n/data/shuffle_data_source.cc", "native/src/fairseq2n/data/dynamic_bucket_data_source.cc"]}
{"id": "C02", "title": "state_dict round trip and rejection of foreign state", "statement": "Whatever values a pipeline records into its state are read back unchanged and in order by a load; a load consumes exactly what was recorded, and a state that is too short, too long or holds a value of the wrong kind is rejected with an error rather than silently misread.", "quantifier": "every sequence of recorded values (including nested lists and optionals) and every tape handed to load_state_dict", "why_tests_cant": "the space of tapes is unbounded", "anchors": ["native/src/fairseq2n/data/tape.cc", "native/src/fairseq2n/data/tape-inl.h", "native/python/src/fairseq2n/bindings/data/data_pipeline.cc:load_state_dict"]}
{"id": "C03", "title": "End of data is final until reset", "statement": "Once next() on a pipeline has reported end of data it keeps reporting end of data, whatever the number of further calls, until reset() or load_state_dict() is called.", "quantifier": "every pipeline composed from the operators, every number of further calls", "why_tests_cant": "requires all pipelines and unboundedly many further calls", "anchors": ["native/src/fairseq2n/data/data_pipeline.cc", "native/src/fairseq2n/data/*_data_source.cc:next"]}
{"id": "C04", "title": "reset(reset_rng=True) returns a pipeline to its beginning", "statement": "After reset(reset_rng=True) a pipeline returns the same stream as a freshly built one, whatever happened before the reset.", "quantifier": "every pipeline composed from the operators, every history before the reset", "why_tests_cant": "histories and compositions are unbounded", "anchors": ["native/src/fairseq2n/data/*_data_source.cc:reset", "native/src/fairseq2n/data/data_pipeline.cc:data_pipeline::reset"]}
{"id": "C05", "title": "take, skip, filter, map, concat and count/constant/list mean what the list functions of that name mean", "statement": "take(n) returns the first n examples; skip(n) all but the first n; filter(p) exactly the examples satisfying p in order; map(f) f of each example in order; concat the first pipeline's examples followed by the second's and so on; read_sequence the list itself.", "quantifier": "every upstream pipeline, every n, predicate, function, and list of pipelines", "why_tests_cant": "quantifies over all upstream behaviours, including short ones and empty ones", "anchors": ["native/src/fairseq2n/data/take_data_source.cc", "native/src/fairseq2n/data/skip_data_source.cc", "native/src/fairseq2n/data/filter_data_source.cc", "native/src/fairseq2n/data/map_data_source.cc", "native/src/fairseq2n/data/concat_data_source.cc", "native/src/fairseq2n/data/list_data_source.cc", "native/src/fairseq2n/data/count_data_source.cc", "native/src/fairseq2n/data/constant_data_source.cc"]}
{"id": "C06", "title": "Shards partition the stream", "statement": "For a fixed upstream stream, shard(i, n, allow_uneven=True) for i = 0..n-1 together return every example exactly once, shard i returning the examples at positions congruent to i modulo n in order; with allow_uneven=False every shard returns the same number of examples, namely the number of complete groups of n.", "quantifier": "every upstream stream length, every n >= 1 and shard index i < n", "why_tests_cant": "depends on the residue of the length modulo n for all n", "anchors": ["native/src/fairseq2n/data/shard_data_source.cc", "native/src/fairseq2n/data/data_pipeline.cc:data_pipeline_builder::shard"]}
{"id": "C07", "title": "bucket(n) groups without losing, duplicating or reordering", "statement": "Flattening the buckets gives back the upstream stream; every bucket but the last has exactly n examples and the last has 1..n; with drop_remainder=True exactly the complete buckets are returned.", "quantifier": "every upstream stream and every n >= 1", "why_tests_cant": "every stream length modulo every bucket size", "anchors": ["native/src/fairseq2n/data/bucket_data_source.cc"]}
{"id": "C08", "title": "bucket_by_length conserves examples and respects bucket limits", "statement": "Every emitted bucket (size, max_len) has at most `size` examples, all of length at most max_len and at least min_data_len; examples that are too long or too short are skipped or reported; without drop_remainder every other example is emitted in exactly one bucket (the outputs are a permutation of the accepted inputs).", "quantifier": "every upstream stream, every list of bucket sizes, every length function", "why_tests_cant": "the interaction of full buckets, end-of-data draining and topping up from smaller buckets depends on the entire stream", "anchors": ["native/src/fairseq2n/data/bucket_by_length_data_source.cc"]}
{"id": "C09", "title": "dynamic_bucket conserves examples and respects its cost threshold", "statement": "Without a bucket creation function, flattening the emitted buckets gives the upstream stream (minus a dropped remainder); every emitted bucket except a final remainder reached the cost threshold with at least min_num_examples examples or has exactly max_num_examples examples, and no shorter prefix of it did.", "quantifier": "every upstream stream, cost function, threshold, minimum and maximum", "why_tests_cant": "all streams and cost functions", "anchors": ["native/src/fairseq2n/data/dynamic_bucket_data_source.cc"]}
{"id": "C10", "title": "shuffle only reorders", "statement": "For any window size, seed and shuffle outcome, the examples returned by shuffle over one pass of a finite upstream are a permutation of the upstream examples; window size 1 leaves the order unchanged; an example is never returned before the window has reached it (it moves forward by less than the window size).", "quantifier": "every upstream stream, every window size, every sequence of random numbers", "why_tests_cant": "quantifies over all random outcomes", "anchors": ["native/src/fairseq2n/data/shuffle_data_source.cc"]}
{"id": "C11", "title": "round_robin interleaves fairly and loses nothing", "statement": "round_robin(stop_at_shortest=True) returns complete rounds, one example from each pipeline in order, and stops when some pipeline is exhausted; with stop_at_shortest=False exhausted pipelines are restarted and iteration ends once every pipeline has been exhausted at least once, so each example of each pipeline is returned at least once; with allow_repeats=False every example of every pipeline is returned exactly once.", "quantifier": "every number of pipelines and all their contents", "why_tests_cant": "depends on the relative lengths of arbitrarily many pipelines", "anchors": ["native/src/fairseq2n/data/round_robin_data_source.cc"]}
{"id": "C12", "title": "sample never reads outside its pipelines and honours allow_repeats", "statement": "sample picks an example from one of the given pipelines at every call whatever the weights and random numbers; with allow_repeats=False it returns every example of every pipeline exactly once and then reports end of data.", "quantifier": "every list of pipelines, weights and random outcomes", "why_tests_cant": "quantifies over all random draws and weight vectors", "anchors": ["native/src/fairseq2n/data/sample_data_source.cc"]}
{"id": "C13", "title": "zip aligns its pipelines", "statement": "zip returns at its k-th call the k-th examples of all pipelines; it ends when the pipelines end together; pipelines of unequal length are reported as an error (or end the data with zip_to_shortest=True) and never produce a misaligned tuple.", "quantifier": "every number of pipelines and all their lengths", "why_tests_cant": "relative lengths of arbitrarily many pipelines", "anchors": ["native/src/fairseq2n/data/zip_data_source.cc"]}
{"id": "C14", "title": "repeat(n) plays its upstream n times", "statement": "repeat(n) returns n copies of the upstream stream one after the other; repeat() over a non-empty upstream never ends; over an empty upstream it ends at once.", "quantifier": "every upstream stream and every n", "why_tests_cant": "all stream lengths and repeat counts; the unbounded case never terminates", "anchors": ["native/src/fairseq2n/data/repeat_data_source.cc"]}
{"id": "C15", "title": "pack conserves tokens", "statement": "Concatenating the non-padding tokens of all packs (without truncation, drop_remainder=False) gives back the concatenation of the upstream sequences; every pack has exactly `num_elements` positions and its seq_lens add up to the number of non-padding tokens and are at most max_seq_len.", "quantifier": "every upstream stream of sequences and every capacity and maximum sequence length", "why_tests_cant": "carry-over of remainders depends on the whole history", "anchors": ["native/src/fairseq2n/data/packed_data_source.cc"]}
{"id": "C16", "title": "yield_from flattens", "statement": "yield_from(f) returns the concatenation of the pipelines f(x) for x in upstream, in order, with empty pipelines skipped.", "quantifier": "every upstream stream and every function to finite pipelines", "why_tests_cant": "all streams and pipelines", "anchors": ["native/src/fairseq2n/data/yield_from_data_source.cc"]}
{"id": "C17", "title": "prefetch is transparent under every thread schedule", "statement": "For every interleaving of the background thread and the consumer, prefetch(n) returns exactly the upstream examples in order, then end of data, holds a bounded number of examples, and never deadlocks; a state_dict taken at any moment and loaded elsewhere continues the stream with nothing lost or repeated.", "quantifier": "every interleaving, every n, every upstream stream", "why_tests_cant": "schedules cannot be enumerated by tests", "anchors": ["native/src/fairseq2n/data/prefetch_data_source.cc"]}
{"id": "C18", "title": "parallel map preserves order and applies f once to each example", "statement": "map(f, num_parallel_calls=n, deterministic=True) returns f(x) for each upstream x in order whatever n; with deterministic=False the results returned are a permutation of them and the pipeline terminates, for every schedule of the workers.", "quantifier": "every n, every upstream stream, every schedule", "why_tests_cant": "schedules and stream lengths", "anchors": ["native/src/fairseq2n/data/map_data_source.cc"]}
{"id": "C19", "title": "Recoverable errors skip one example and are bounded", "statement": "next() on a pipeline skips an example whose processing raised a recoverable error at most max_num_warnings times over the lifetime of the pipeline and otherwise returns exactly the stream without the failing examples; a non-recoverable error marks the pipeline broken and every later next/reset/state_dict call is refused.", "quantifier": "every pipeline, every position of failing examples, every max_num_warnings", "why_tests_cant": "positions and combinations of failures are unbounded", "anchors": ["native/src/fairseq2n/data/data_pipeline.cc:data_pipeline::next", "native/src/fairseq2n/data/data_pipeline.cc:data_pipeline::check_if_broken"]}
{"id": "C20", "title": "Builder rejects invalid operator arguments", "statement": "The pipeline builder accepts an operator exactly when its arguments are meaningful (bucket size, shard count, thresholds, windows and weights in range), so no accepted pipeline can divide by zero, index out of range or loop without consuming.", "quantifier": "all argument values", "why_tests_cant": "all argument values", "anchors": ["native/src/fairseq2n/data/data_pipeline.cc:data_pipeline_builder"]}
{"id": "C21", "title": "The file cache is an LRU cache", "statement": "A lookup returns the value most recently added for that key if it is among the `capacity` most recently used keys and nothing otherwise; the number of held entries never exceeds the capacity.", "quantifier": "every sequence of lookups and insertions, every capacity", "why_tests_cant": "sequences of operations are unbounded", "anchors": ["native/src/fairseq2n/data/detail/lru_cache.h", "native/src/fairseq2n/data/file_mapper.cc"]}
{"id": "C22", "title": "Reading a text file line by line is independent of how the bytes arrive", "statement": "read_text returns the lines of the file in order, whatever the size of the chunks in which the underlying stream delivers the bytes; joining the lines with the line ending gives back the text.", "quantifier": "every byte sequence and every division of it into chunks", "why_tests_cant": "all chunkings", "anchors": ["native/src/fairseq2n/data/text/text_line_reader.cc", "native/src/fairseq2n/data/record_reader.cc", "native/src/fairseq2n/data/text/text_data_source.cc"]}
{"id": "C23", "title": "Element selectors address exactly the elements they name", "statement": "Parsing a selector string and visiting an example touches exactly the nodes that the path names, with wildcards touching every element of a list; malformed selectors are rejected; map with a selector leaves every other node unchanged.", "quantifier": "every selector string and every nested example", "why_tests_cant": "all strings, all nested data", "anchors": ["native/src/fairseq2n/data/element_selector.cc", "native/src/fairseq2n/data/element_mapper.cc"]}
{"id": "C24", "title": "Collating pads without altering data", "statement": "The collater's padded batch has one row per example; row i starts with the i-th example unchanged and is pad_value afterwards; seq_lens[i] is its length; the width is the least multiple of pad_to_multiple that is at least the longest length; is_ragged tells whether some row was padded; in nested examples this holds at every place where the examples have tensors.", "quantifier": "every batch of sequences and every pad multiple", "why_tests_cant": "all batches", "anchors": ["native/src/fairseq2n/data/collater.cc"]}
{"id": "C25", "title": "Memory mapped file slices stay inside the file", "statement": "file_mapper returns for a path specification with offset and size exactly that byte range of the file, and rejects a range that is not inside the file.", "quantifier": "all offsets, sizes and file lengths in 64 bits", "why_tests_cant": "64-bit boundary values", "anchors": ["native/src/fairseq2n/data/file_mapper.cc"]}
{"id": "C26", "title": "String splitting and joining are inverse", "statement": "StrSplitter returns the fields between separators, all of them, in order; joining the fields with the separator gives back the line; with names the field count must match or an error is raised.", "quantifier": "every string and separator", "why_tests_cant": "all strings", "anchors": ["native/src/fairseq2n/data/text/string_splitter.cc", "native/src/fairseq2n/utils/string.h"]}
{"id": "C27", "title": "All ranks read the same number of batches", "statement": "With SyncMode.UNTIL_FIRST_EOD every data parallel rank receives the same number of batches at every step and all ranks see StopIteration at the same step, so no rank waits forever in a collective; no rank runs past the shortest stream by a batch.", "quantifier": "every number of ranks, every stream on every rank, every num_accumulate and drop_remainder setting", "why_tests_cant": "combinations of per-rank stream lengths are unbounded", "anchors": ["src/fairseq2/datasets/data_reader.py:DataPipelineReader.__next__"]}
{"id": "C28", "title": "UNTIL_LAST_EOD loses no data and stops together", "statement": "With SyncMode.UNTIL_LAST_EOD iteration continues on all ranks until the last rank has exhausted its data, no rank's example is dropped (without drop_remainder), and all ranks see StopIteration at the same step.", "quantifier": "every number of ranks and streams", "why_tests_cant": "combinations of per-rank stream lengths are unbounded", "anchors": ["src/fairseq2/datasets/data_reader.py:DataPipelineReader.__next__"]}
{"id": "C29", "title": "Data reader resume", "statement": "Saving a data reader's state between two steps and loading it into a fresh reader continues with the same batches on every rank.", "quantifier": "every step at which the state is saved, all streams", "why_tests_cant": "all save points", "anchors": ["src/fairseq2/datasets/data_reader.py:DataPipelineReader.state_dict/load_state_dict"]}
{"id": "C30", "title": "A listed checkpoint is complete whatever the crash point", "statement": "On a local file system, after a process crash between any two file operations of save, delete and retention, every step reported by get_step_numbers (full checkpoints) has all files of all ranks with the contents given to the save call, provided it was not itself being deleted at the crash.", "quantifier": "every history of saves and deletions, every crash point between file operations, every number of ranks and interleaving of their writes", "why_tests_cant": "crash points times histories times interleavings", "anchors": ["src/fairseq2/checkpoint/manager.py:_StandardCheckpointManager"]}
{"id": "C31", "title": "A crash never loses the last good checkpoint", "statement": "If a checkpoint was committed before, then after a crash at any point of a later save or of the retention policy at least one complete checkpoint can still be loaded.", "quantifier": "every history, every crash point", "why_tests_cant": "crash points times histories", "anchors": ["src/fairseq2/checkpoint/manager.py:_begin_checkpoint/_commit_checkpoint/delete_checkpoint", "src/fairseq2/trainer.py:_maybe_save_checkpoint/_save_checkpoint"]}
{"id": "C32", "title": "A checkpoint is committed only after every rank wrote its part", "statement": "The step directory appears under its final name only after every rank has finished writing all its files, for every interleaving of ranks, background writer threads and barriers.", "quantifier": "every interleaving of any number of ranks", "why_tests_cant": "interleavings", "anchors": ["src/fairseq2/checkpoint/manager.py:save_checkpoint/_do_save_checkpoint/_commit_checkpoint"]}
{"id": "C33", "title": "Every rank finds its files when loading", "statement": "With the same topology, every file a rank opens in load_trainer_state / load_model_state / load_optimizer_state / load_data_reader_state of a committed checkpoint was written by the save, by exactly one rank, and holds the state of a rank with the same coordinates.", "quantifier": "every topology (sizes of the pipeline, tensor, replicated and sharded data parallel gangs) and every rank", "why_tests_cant": "all topologies", "anchors": ["src/fairseq2/checkpoint/manager.py:_record_*_state/load_*_state"]}
{"id": "C34", "title": "Retention keeps what was asked and never deletes the newest", "statement": "get_stale_step_numbers never returns the newest step; a step is kept if it is among the last keep_last_n, the best keep_best_n by score, or a multiple of keep_every_n_steps, and every step that no active policy keeps is returned; with no policy nothing is deleted.", "quantifier": "every set of steps, scores and policy values", "why_tests_cant": "all histories and parameters", "anchors": ["src/fairseq2/checkpoint/manager.py:get_stale_step_numbers"]}
{"id": "C35", "title": "Deleting with keep_model leaves a loadable model", "statement": "delete_checkpoint(keep_model=True) removes trainer, optimizer and data reader state and keeps the model files; such a step is no longer listed by get_step_numbers(exclude_model_only=True) and load of the trainer refuses it.", "quantifier": "every checkpoint content, every crash point", "why_tests_cant": "crash points", "anchors": ["src/fairseq2/checkpoint/manager.py:delete_checkpoint/get_step_numbers"]}
{"id": "C36", "title": "The trainer takes exactly the configured number of steps", "statement": "With max_num_steps = n and enough data, run() applies exactly n parameter updates numbered 1..n (steps that overflow are not counted), and stops; with max_num_data_epochs = e it stops after e passes over the data.", "quantifier": "every data length, every pattern of gradient overflows, every configuration", "why_tests_cant": "all executions", "anchors": ["src/fairseq2/trainer.py:_do_run/_run_step/_repeat_step/_run_post_step"]}
{"id": "C37", "title": "request_stop stops after the current step", "statement": "After request_stop() the trainer finishes the current step, saves a checkpoint for the step it reached and ends, in every state in which the request may arrive and for every configuration.", "quantifier": "every moment of the request, every configuration", "why_tests_cant": "timing of the request", "anchors": ["src/fairseq2/trainer.py:request_stop/_run_post_step"]}
{"id": "C38", "title": "Resume continues where the checkpoint was taken", "statement": "A run that is stopped at any checkpoint and resumed performs the same steps and epochs in total as an uninterrupted run.", "quantifier": "every checkpoint position, including ends of epochs, every configuration", "why_tests_cant": "all interruption points", "anchors": ["src/fairseq2/trainer.py:_TrainerProxy/_maybe_restore_state"]}
{"id": "C39", "title": "A checkpoint is labelled with the number of applied updates", "statement": "Every checkpoint step_N saved by the trainer holds the model after exactly N applied updates.", "quantifier": "every execution including overflows and stop requests", "why_tests_cant": "all executions", "anchors": ["src/fairseq2/trainer.py:_maybe_save_checkpoint/_save_checkpoint"]}
{"id": "C40", "title": "A run that ends has committed its last checkpoint", "statement": "When run() returns normally no started save is left uncommitted.", "quantifier": "every execution and configuration, every timing of the background save", "why_tests_cant": "all executions, asynchronous save timing", "anchors": ["src/fairseq2/trainer.py:_do_run/_stop", "src/fairseq2/checkpoint/manager.py:maybe_complete_save_operation"]}
{"id": "C41", "title": "Periodic actions fire exactly at their period", "statement": "Validation, checkpointing and metric publishing configured with after_n_steps and every_n_steps happen exactly at the steps s > after_n with s a multiple of every_n (and the analogous epochs), plus at the end of training where documented.", "quantifier": "all step numbers and all configured values", "why_tests_cant": "all values", "anchors": ["src/fairseq2/trainer.py:_should_do"]}
{"id": "C42", "title": "Learning rates stay within their configured bounds and follow their schedule", "statement": "For every step each scheduler's learning rate lies between the configured bounds, rises during warm-up to the base value, is continuous at the phase boundaries and non-increasing afterwards where documented.", "quantifier": "every step number, every parameter choice", "why_tests_cant": "all steps and all real parameters", "anchors": ["src/fairseq2/optim/lr_schedulers/cosine_annealing.py", "src/fairseq2/optim/lr_schedulers/myle.py", "src/fairseq2/optim/lr_schedulers/noam.py", "src/fairseq2/optim/lr_schedulers/polynomial_decay.py", "src/fairseq2/optim/lr_schedulers/tri_stage.py"]}
{"id": "C43", "title": "Dynamic loss scaling: overflow detection and scale bounds", "statement": "The scaler reports an overflow exactly when the optimizer step was skipped for non finite gradients; after an overflow the scale is halved (multiplied by 1/factor) but never falls below min_scale without an error being reported; it grows by the factor only after scale_window clean steps.", "quantifier": "every sequence of finite and non finite gradients, every configuration", "why_tests_cant": "all sequences", "anchors": ["src/fairseq2/optim/fp16_loss_scaler.py"]}
{"id": "C44", "title": "Parallel gangs form a grid", "statement": "create_parallel_gangs with tensor parallel size t over n ranks puts every rank into exactly one data parallel and one tensor parallel gang, ranks with the same coordinates agree on membership and order, and two different ranks never share both gangs; a rank's (dp rank, tp rank) identifies it.", "quantifier": "all world sizes and tensor parallel sizes", "why_tests_cant": "all sizes", "anchors": ["src/fairseq2/gang.py:create_parallel_gangs"]}
{"id": "C45", "title": "FSDP gangs form a grid inside the data parallel gang", "statement": "create_fsdp_gangs with an intra node size splits the data parallel gang into replica and shard gangs forming a grid; hybrid and non hybrid cases are consistent, and the resulting Gangs object passes its own validation.", "quantifier": "all sizes", "why_tests_cant": "all sizes", "anchors": ["src/fairseq2/gang.py:create_fsdp_gangs"]}
{"id": "C46", "title": "Gang construction rejects inconsistent ranks", "statement": "A gang can be constructed only with 0 <= rank < size, and create_gang accepts only rank lists within the gang and without duplicates; a Gangs object accepts only gangs in which the root's rank 0 is rank 0 everywhere.", "quantifier": "all ranks and sizes", "why_tests_cant": "all values", "anchors": ["src/fairseq2/gang.py:_check_ranks", "src/fairseq2/gang.py:Gangs.__post_init__", "src/fairseq2/gang.py:AbstractGang"]}
{"id": "C47", "title": "Batch layout describes the batch", "statement": "For a padded batch row i has positions 0..len_i-1 then -1 (padding); for a packed batch positions restart at 0 at every sequence start and the start indices are the prefix sums; min and max lengths and the padded flag agree with the lengths; inconsistent lengths are rejected.", "quantifier": "every width and every list of lengths", "why_tests_cant": "all lists of lengths", "anchors": ["src/fairseq2/nn/batch_layout.py"]}
{"id": "C48", "title": "Incremental decoding never overruns its buffers and positions agree with full decoding", "statement": "Feeding a sequence in pieces through the incremental state assigns each token the same position as feeding it at once, and the step counter never passes max_num_steps.", "quantifier": "every division of a sequence into pieces", "why_tests_cant": "all divisions", "anchors": ["src/fairseq2/nn/incremental_state.py", "src/fairseq2/nn/position_encoder.py"]}
{"id": "C49", "title": "Key/value cache returns everything that was appended", "statement": "FullAttentionState: after any sequence of appends, get returns the concatenation of all keys and values in order; reorder permutes batch rows of everything returned later.", "quantifier": "every sequence of appends and reorders, every capacity setting (total within max_seq_len when the capacity is fixed)", "why_tests_cant": "all operation sequences", "anchors": ["src/fairseq2/models/transformer/multihead_attention.py:FullAttentionState"]}
{"id": "C50", "title": "Windowed key/value cache returns the last window", "statement": "LocalAttentionState: after any sequence of appends of any sizes, get returns exactly the last min(window, total) keys and values in order.", "quantifier": "every sequence of append sizes and window length", "why_tests_cant": "all operation sequences", "anchors": ["src/fairseq2/models/transformer/multihead_attention.py:LocalAttentionState"]}
{"id": "C51", "title": "Encoder key/value cache follows beam reordering", "statement": "StaticAttentionState: after reorder(new_order), row i of what get returns is the old row new_order[i].", "quantifier": "every reorder vector", "why_tests_cant": "all reorder vectors", "anchors": ["src/fairseq2/models/transformer/multihead_attention.py:StaticAttentionState"]}
{"id": "C52", "title": "Attention masks let a query see exactly the keys it may see", "statement": "The causal bias lets query i see key j exactly when j <= i (aligned at the end) and, with a window w, j > i - w; the chunked bias exactly the earlier keys of the same chunk; materialized over packed or padded layouts no query sees a key of another sequence.", "quantifier": "all lengths, windows, chunk sizes and layouts", "why_tests_cant": "all sizes", "anchors": ["src/fairseq2/models/transformer/attention_bias.py"]}
{"id": "C53", "title": "Span masks stay inside their rows", "statement": "compute_row_mask masks only positions inside each row's length, the same number of positions in every row, in spans of the given length, leaves at least one position unmasked, and returns a mask of the requested shape.", "quantifier": "every shape, row lengths, span length, probability and random outcome", "why_tests_cant": "random outcomes and lengths", "anchors": ["src/fairseq2/nn/utils/mask.py"]}
{"id": "C54", "title": "Resharding a checkpoint reproduces the tensor", "statement": "reshard_tensor from any source tensor parallel size to any target size returns for each target rank exactly its slice of the full tensor, so concatenating over target ranks gives back the full tensor.", "quantifier": "all source and target sizes, all tensor lengths", "why_tests_cant": "all size combinations", "anchors": ["src/fairseq2/model_checkpoint/common.py:reshard_tensor"]}
{"id": "C55", "title": "Sharding a projection or an embedding computes the same function", "statement": "Column-, row- and vocabulary-sharded modules compute, summed or gathered over the ranks, the same output as the unsharded module; converting to the sharded form and back gives the original weights.", "quantifier": "all dimensions, shard counts, inputs and weights", "why_tests_cant": "all matrices", "anchors": ["src/fairseq2/nn/projection.py", "src/fairseq2/nn/embedding.py"]}
{"id": "C56", "title": "Auto-regressive split of a batch pairs every input with its successor", "statement": "as_auto_regressive returns inputs and targets such that the target at a position is the next element of the same sequence; counts of examples, elements, padding and target elements describe the data.", "quantifier": "every batch, packed or padded", "why_tests_cant": "all batches", "anchors": ["src/fairseq2/datasets/batch.py"]}
{"id": "C57", "title": "Repeated n-grams are never generated", "statement": "With NGramRepeatBlockProcessor(n) no generated sequence contains the same n-gram twice (as far as every step has a permitted token), and only tokens that would repeat one are banned.", "quantifier": "every sequence, vocabulary and n", "why_tests_cant": "all sequences", "anchors": ["src/fairseq2/generation/step_processor.py:NGramRepeatBlockProcessor"]}
{"id": "C58", "title": "Banned sequences are never generated", "statement": "With BannedSequenceProcessor no banned sequence occurs in the generated text, and only tokens completing one are banned.", "quantifier": "every set of banned sequences and every prefix", "why_tests_cant": "all sequences", "anchors": ["src/fairseq2/generation/step_processor.py:BannedSequenceProcessor"]}
{"id": "C59", "title": "Top-k and top-p sampling draw only permitted tokens", "statement": "TopP keeps exactly the smallest set of most probable tokens whose mass exceeds p (all tokens if there is none), TopK exactly the k most probable; the sampled token always belongs to that set.", "quantifier": "every probability vector, p, k and random draw", "why_tests_cant": "all probability vectors and draws", "anchors": ["src/fairseq2/generation/sampling/sampler.py"]}
{"id": "C60", "title": "Beam search returns well formed hypotheses", "statement": "Every hypothesis starts with its prompt, ends with EOS, contains EOS nowhere else after the prompt, has a length within min_gen_len/max_gen_len, and per prompt beam_size hypotheses are returned ordered by score.", "quantifier": "every model output, prompt batch and setting", "why_tests_cant": "all model outputs", "anchors": ["src/fairseq2/generation/beam_search/generator.py"]}
{"id": "C61", "title": "Sampling returns num_gens sequences per prompt", "statement": "The sampling generator returns for every prompt exactly num_gens sequences, each beginning with the prompt, ending with EOS or at the length limit.", "quantifier": "every model output, draw, prompt batch and setting", "why_tests_cant": "all model outputs and draws", "anchors": ["src/fairseq2/generation/sampling/generator.py"]}
{"id": "C62", "title": "A failed step leaves metrics untouched", "statement": "After begin_updates, any updates and rollback_updates, all metrics have the values they had before; commit keeps them; state_dict/load_state_dict round trips.", "quantifier": "every history of updates", "why_tests_cant": "all histories", "anchors": ["src/fairseq2/metrics/bag.py"]}
{"id": "C63", "title": "Dependency resolution: one singleton, no silent cycles", "statement": "A singleton is created at most once and every resolve returns that instance; a cyclic dependency is reported as an error rather than looping; nothing can be registered once resolving has started.", "quantifier": "every dependency graph and order of resolves", "why_tests_cant": "all graphs", "anchors": ["src/fairseq2/runtime/dependency.py"]}
{"id": "C64", "title": "Configuration overrides touch only what they name", "statement": "Merging overrides changes exactly the keys they mention (including _set_ and _del_ directives) and leaves all other keys unchanged; merging nothing is the identity.", "quantifier": "every nested configuration and overrides", "why_tests_cant": "all nested dictionaries", "anchors": ["src/fairseq2/utils/config.py"]}
{"id": "C65", "title": "Structured conversion is faithful", "statement": "structure(unstructure(x)) = x for every supported value and type; a value that does not have the requested type is rejected, not coerced into something else.", "quantifier": "all values and type expressions", "why_tests_cant": "all types and values", "anchors": ["src/fairseq2/utils/structured.py"]}
{"id": "C66", "title": "Asset cards inherit fields predictably", "statement": "A field of an asset is taken from the card itself if present, otherwise from its base card and so on; an environment specific card overrides the general one; a missing field is an error naming it; every lookup terminates.", "quantifier": "every store content and base chain", "why_tests_cant": "all stores", "anchors": ["src/fairseq2/assets/card.py", "src/fairseq2/assets/store.py"]}
{"id": "C67", "title": "Different sweep configurations get different tags", "statement": "The sweep tag is a function of the configuration only (not of key order), and configurations that differ get different directories.", "quantifier": "all pairs of configurations and formats", "why_tests_cant": "all pairs", "anchors": ["src/fairseq2/recipe/internal/sweep_tag.py"]}
{"id": "C68", "title": "Interrupted downloads never yield a partial asset", "statement": "After a crash at any point of download or extraction, a later call returns a complete asset or an error, never a partial file.", "quantifier": "every crash point and every later call", "why_tests_cant": "crash points", "anchors": ["src/fairseq2/assets/download_manager.py"]}
{"id": "C69", "title": "Validation reports exactly the invalid objects", "statement": "validate returns an error exactly when some reachable object's own validation fails, and the report names that object.", "quantifier": "every nested object", "why_tests_cant": "all nested objects", "anchors": ["src/fairseq2/utils/validation.py"]}
{"id": "C70", "title": "The trainer saves each step at most once", "statement": "In one run of the trainer no step is saved twice, so a committed checkpoint is never overwritten by the run that wrote it.", "quantifier": "every execution and configuration, including stop requests and ends of epochs", "why_tests_cant": "all interleavings of periods, epochs and stop requests", "anchors": ["src/fairseq2/trainer.py:_maybe_save_checkpoint/_should_do/_stop", "src/fairseq2/checkpoint/manager.py:_begin_checkpoint"]}
{"id": "C71", "title": "Attention treats every sequence of a batch as if it were alone", "statement": "The attention output of a position of a sequence inside a packed or padded batch equals the output for that sequence alone with its own bias; with a causal bias it does not depend on later keys and values; it is a weighted average of the visible values.", "quantifier": "every layout, sequence, position, real-valued queries, keys and values", "why_tests_cant": "all layouts and all real inputs; tests compare a few random tensors", "anchors": ["src/fairseq2/models/transformer/sdpa/naive.py", "src/fairseq2/models/transformer/attention_bias.py"]}
{"id": "C72", "title": "Sharded projections have the gradients of the projection", "statement": "The backward pass of column- and row-sharded projections gives every rank the same input gradient as the unsharded projection, and weight and bias gradients that are the rank's parts of the unsharded ones.", "quantifier": "all dimensions, shard counts dividing them, weights, inputs and output gradients", "why_tests_cant": "needs several processes for every shard count, and a wrong reduction in a backward pass changes no output and raises nothing; it only shows as slower or worse training", "anchors": ["src/fairseq2/ops/tensor_parallel.py", "src/fairseq2/nn/projection.py"]}
{"id": "C73", "title": "Batches of a Parquet table hold every row once and respect the token limit", "statement": "Batching a table by max_tokens puts every row whose length is within max_tokens into exactly one batch, no batch exceeds max_tokens once padded to its longest row, longer rows are dropped or returned alone, and no batch could have taken the first row of the next one as well. Batching by batch_size puts every row into exactly one batch of at most batch_size rows.", "quantifier": "all tables, lengths, limits, and settings of ordering, shuffling and dropping", "why_tests_cant": "the loop keeps three indices whose relation only matters for particular sequences of lengths; tests try a few tables", "anchors": ["src/fairseq2/data/parquet/table_bucketing/primitives.py:compute_length_splits", "src/fairseq2/data/parquet/table_bucketing/primitives.py:build_batching_loop_over_one_table"]}
{"id": "C74", "title": "Streaming a Parquet dataset delivers every fragment once per epoch", "statement": "A stream over a Parquet dataset delivers passes over all fragments, one pass per epoch, cut into windows of the configured size that are shuffled one by one, and then ends for good. With files_circular_shift every fragment is delivered once per epoch over all ranks, by the rank its hash belongs to.", "quantifier": "all datasets, window sizes, numbers of epochs, seeds, permutations drawn by the generator, numbers of ranks", "why_tests_cant": "windows that reach over epoch ends, files without row groups and every permutation have to be covered; a lost fragment is noticed only by counting", "anchors": ["src/fairseq2/data/parquet/fragment_streaming/primitives.py:ParquetFragmentStreamer", "src/fairseq2/data/parquet/fragment_streaming/primitives.py:ShuffledIterator", "src/fairseq2/data/parquet/fragment_streaming/builder.py"]}
{"id": "C75", "title": "A pickled Parquet stream continues where it was", "statement": "A stream of Parquet fragments that is pickled at any time and loaded again delivers exactly the fragments the original would have delivered from then on, however often it was pickled or reset before; a reset stream starts over.", "quantifier": "all datasets, settings and histories of next, pickle and reset", "why_tests_cant": "the running generators are not pickled and have to be rebuilt from counters at every possible point", "anchors": ["src/fairseq2/data/parquet/fragment_streaming/primitives.py:__reduce__", "src/fairseq2/data/parquet/fragment_streaming/primitives.py:ShuffledIterator.__next__"]}
{"id": "C76", "title": "Limits on a Parquet dataset select the shortest sufficient prefix", "statement": "With limits on files, fragments or rows, list_parquet_fragments selects a prefix of the fragments: at most nb_fragments, at most nb_files files, and the shortest one that reaches nb_rows. The schedule is a sequence of passes over the selection, one per epoch.", "quantifier": "all datasets and combinations of limits, all numbers of epochs and permutations", "why_tests_cant": "the limits interact; tests use one at a time", "anchors": ["src/fairseq2/data/parquet/fragment_streaming/primitives.py:list_parquet_fragments", "src/fairseq2/data/parquet/fragment_streaming/primitives.py:_parquet_fragments_to_pipeline_builder"]}
{"id": "C77", "title": "A pipeline over a Python iterator resumes where it was saved", "statement": "A read_iterator source delivers what the iterator delivers; saving does not change what it delivers afterwards; a source loaded from a saved state delivers what the saved one would have delivered; reset starts over.", "quantifier": "all iterators whose end is final, all histories of next, reset, save and load", "why_tests_cant": "the source looks one value ahead and has flags for pending values; which of them is set depends on the history", "anchors": ["native/python/src/fairseq2n/bindings/data/iterator_data_source.cc", "native/python/src/fairseq2n/bindings/data/data_pipeline.cc:read_iterator"]}
{"id": "C78", "title": "Inconsistent gradient norms are noticed", "statement": "check_grad_norms raises InconsistentGradNormError in every process exactly if the gradient norms disagree: they differ by more than a relative 1e-6, or are finite in some processes and infinite or not a number in others.", "quantifier": "all numbers of processes and all norms", "why_tests_cant": "the check runs over several processes and its branches depend on which of them has which kind of float", "anchors": ["src/fairseq2/nn/utils/grad.py:check_grad_norms"]}
{"id": "C79", "title": "Training in several processes is training in one", "statement": "After any number of steps all data parallel processes hold the same parameters and optimizer states, and these are the ones that a single process computes from the batches of all processes: gradients are the sum over all batches divided by the total number of targets (or the mean over the batches), whether gradients are exchanged after every batch or only after the last one and whatever the loss scale.", "quantifier": "all numbers of processes, batches and steps, all numbers of targets, models, optimizers and clipping limits, DDP and FSDP, with and without no_sync", "why_tests_cant": "needs several processes and exact arithmetic; the factors for world size, targets, accumulation and loss scale cancel only together", "anchors": ["src/fairseq2/trainer.py:_do_run_step", "src/fairseq2/nn/utils/grad.py:normalize_grads", "src/fairseq2/nn/utils/grad.py:clip_grad_norm"]}
{"id": "C80", "title": "Bags of random number generators", "statement": "A block under RngBag.temporary_manual_seed gives the same result whatever the generators did before, and afterwards, also if it raised, the generators of the bag go on as if the block had not been; a seed outside of [0, 2^32) is refused before anything changes. manual_seed and seed give all generators of the bag one seed and touch no other one. load_state_dict of a saved state makes the generators continue where they were saved, and a state dictionary that is refused changes nothing. from_device_defaults holds the generator of every device once.", "quantifier": "all bags, generators, states, seeds and blocks, including ones that raise or use other generators", "why_tests_cant": "the block is arbitrary code, and every error position of a state dictionary leaves a different state behind", "anchors": ["src/fairseq2/utils/rng.py:RngBag"]}
{"id": "C81", "title": "Configuration overrides on the command line", "statement": "Items path=value, set:path=value and del:path of --config options are read as written and never fail to merge: a value given last for a path is in the configuration, a deleted path is gone, nothing else changes, and items and options count in the order in which they are given.", "quantifier": "all lists of options and items, all paths, values and configurations", "why_tests_cant": "items of one option meet each other in nested dictionaries in unboundedly many ways", "anchors": ["src/fairseq2/utils/argparse.py:ConfigAction", "src/fairseq2/recipe/cli.py:_RecipeConfigLoader.load"]}
{"id": "C82", "title": "Directives in configurations", "statement": "Processing a configuration replaces, in every string however deep, each ${env:NAME} and ${env:NAME:default} by the value of the variable, else the default, else nothing, and ${dir} by the directory of the file; values put in are not searched again; everything else, including keys, stays.", "quantifier": "all configurations, texts, environments and directories", "why_tests_cant": "texts and nesting are unbounded and the scan has to agree with the grammar of references everywhere", "anchors": ["src/fairseq2/utils/config.py:StandardConfigProcessor", "src/fairseq2/utils/config.py:ReplaceEnvDirective", "src/fairseq2/utils/config.py:ReplacePathDirective"]}
{"id": "C83", "title": "Layers of asset and recipe configurations", "statement": "The configuration of an asset is the base configuration with the overrides of the chain of cards, the card nearest to the asset deciding, and an error names the card at fault. The configuration of a recipe is its defaults, then the file, then the command line options in order. Directives are carried out exactly once in every layer.", "quantifier": "all chains of cards, files, options, directives and configurations", "why_tests_cant": "layers and directives interact along chains of any length", "anchors": ["src/fairseq2/assets/card.py:StandardAssetConfigLoader.load", "src/fairseq2/recipe/cli.py:_RecipeConfigLoader.load"]}
{"id": "C84", "title": "Loading native model checkpoints", "statement": "However a native checkpoint was split over pipeline, tensor and data parallel files, lazy_load gives a process of a gang of any size its own tensor parallel shard of the whole value of every sharded parameter and the whole value of every other one, in order, and a tensor that is shared by several names once. With the sizes of the checkpoint it gives the parameters of the own stage only. A checkpoint whose files are not complete, or that has something other than tensors, is refused as corrupt.", "quantifier": "all models, splits over files with pieces of any sizes and missing last pieces, gang sizes and ranks, sharing patterns", "why_tests_cant": "there are unboundedly many pairs of source and target shardings, each with its own way through the loops", "anchors": ["src/fairseq2/model_checkpoint/native.py:_NativeModelCheckpointLoader.lazy_load", "src/fairseq2/model_checkpoint/native.py:_NativeModelCheckpointLoader._get_checkpoint_files"]}
{"id": "C85", "title": "Walking over modules", "statement": "The functions on modules treat every module and every tensor below a module once, however they are shared: visit_module gives all modules with valid names, children before parents in post order; apply_to_parameters puts one result in all slots of a tied tensor, keeps flags and carries gradients over; to_device brings every tensor to the device, keeps ties and values, leaves what is there, and changes nothing when it refuses; share_parameters makes equally tied modules hold the same tensors under the same names and refuses gradients and other names; broadcast_module gives every process the values of the source for exactly the parameters and (persistent) buffers outside of skipped modules; load_state_dict refuses keys below children that are None.", "quantifier": "all module graphs with sharing, states of parameters, buffers and gradients, functions on tensors, devices, processes", "why_tests_cant": "the functions are used on models with arbitrary sharing of modules and tensors; tests have a few fixed modules", "anchors": ["src/fairseq2/nn/utils/module.py:_get_named_modules", "src/fairseq2/nn/utils/module.py:apply_to_parameters", "src/fairseq2/nn/utils/module.py:to_device", "src/fairseq2/nn/utils/module.py:share_parameters", "src/fairseq2/nn/utils/module.py:broadcast_module", "src/fairseq2/nn/utils/module.py:load_state_dict"]}
{"id": "C86", "title": "Rotary positions", "statement": "A rotary encoder multiplies pair k of a head at position p of its sequence by exp(i p f_k) with f_k = theta^(-2k/E) or the given frequencies, in padded and packed batches and after earlier steps; scores of encoded vectors therefore depend only on the distance of their positions and norms are kept; padding becomes zero; feeding in pieces gives the same as feeding at once; only too long sequences are refused. The reference encoder gives the same with the halves interleaved, and the rows of the query and key projections of a converted Hugging Face LLaMA checkpoint are reordered so that all scores are the same; converting back is the inverse. The dual encoder does this for two halves with two thetas. The scaled frequencies of LLaMA 3.1 keep short wavelengths, divide long ones by the factor and keep the order.", "quantifier": "all dimensions, frequencies, lengths, layouts, steps made before, vectors of real numbers, weights, numbers of heads", "why_tests_cant": "the claims are about all positions and vectors and about two implementations and a change of weights agreeing; tests compare a few random tensors", "anchors": ["src/fairseq2/nn/position_encoder.py:RotaryEncoder", "src/fairseq2/nn/position_encoder.py:ReferenceRotaryEncoder", "src/fairseq2/nn/position_encoder.py:DualRotaryEncoder", "src/fairseq2/models/llama/factory.py:init_llama_rope_freqs", "src/fairseq2/models/llama/interop.py:convert_llama_state_dict"]}
{"id": "C87", "title": "Converting checkpoints", "statement": "Converting a state dictionary with a key map renames exactly the keys of the form of a pattern, keeping the layer number and the rest of the name, and loses no entry; the reverse key map undoes it. The key maps of LLaMA (Hugging Face and reference format), Qwen and OLMo have this property in both directions. Importing a Hugging Face LLaMA dictionary reorders exactly the query and key weights of its layers, raises exactly if one of them is missing or misshapen, and ties the head to the embedding table if configured; exporting what was imported, and importing what was exported, gives the dictionary back.", "quantifier": "all key maps of non-overlapping templates, all dictionaries with names of one side, all values, numbers of layers and heads", "why_tests_cant": "names are open-ended (any layer number, any suffix) and a lost or swapped entry shows only in checkpoints that have it; tests convert one small model", "anchors": ["src/fairseq2/models/utils/checkpoint.py:convert_state_dict", "src/fairseq2/models/utils/checkpoint.py:create_reverse_key_map", "src/fairseq2/models/llama/interop.py:convert_llama_state_dict", "src/fairseq2/models/llama/interop.py:_LLaMAHuggingFaceConverter", "src/fairseq2/models/qwen/interop.py:convert_qwen_state_dict", "src/fairseq2/models/olmo/interop.py:convert_olmo_state_dict"]}
{"id": "C88", "title": "Loading a checkpoint into a model", "statement": "Loading a checkpoint into a model succeeds exactly if no key occurs twice, every key names a parameter or persistent buffer of the same shape, and every such tensor has one of its names in the checkpoint. Then every tensor of the model has the value of the checkpoint, on every data parallel rank, in whatever order the entries come, and nothing else has changed. Otherwise the error names exactly the keys with other shapes, the keys that are missing and those that are unexpected.", "quantifier": "all module trees (shared modules, tied tensors, absent children), all checkpoints, all initial contents, all ranks", "why_tests_cant": "a tensor that silently keeps its random initialization gives a model that runs; which names are tied and which are missing depends on the model; tests load matching checkpoints only", "anchors": ["src/fairseq2/models/utils/checkpoint.py:set_model_state", "src/fairseq2/models/family.py:StandardModelFamily._do_load_model"]}
{"id": "C89", "title": "Attention with relative positions", "statement": "What a query gets from a key depends on their contents and on the distance between them. In Transformer-XL attention the shifted scores are exactly those of the sinusoid of the distance of query and key, independent of max_seq_len, and padding that is hidden changes nothing; in Shaw attention every distance finds the row of the table for the clipped distance. In both, positions that are computed with the keys of earlier positions get what they get in one computation of all.", "quantifier": "all lengths, all contents, all parameters, all biases, all positions", "why_tests_cant": "a shift by one or a mirrored table gives plausible attention that trains worse; tests compare one small matrix, and the wrong broadcast in step-wise decoding raises no error", "anchors": ["src/fairseq2/models/transformer/sdpa/relative.py:RelativePositionSDPA", "src/fairseq2/models/transformer/sdpa/relative.py:RelativePositionalEncoding", "src/fairseq2/models/transformer/sdpa/shaw.py:ShawRelativePositionSDPA"]}
{"id": "C90", "title": "Metrics over all ranks", "statement": "What is reported for a metric after synchronization is its value over everything that was put into it on any rank: sums and weighted means over all updates, the largest of all maxima, error rates over all sentences, loss per target over all targets, throughput in the time of the slowest rank. Apart from throughput it does not depend on how the batches are spread over the ranks.", "quantifier": "all numbers of ranks, all updates on every rank, all ways to spread them", "why_tests_cant": "a mean of means or a weight that is off agrees with the right value whenever ranks have equal batches, as they have in tests", "anchors": ["src/fairseq2/metrics/bag.py:sync_and_compute_metrics", "src/fairseq2/metrics/text/wer.py:WerMetric", "src/fairseq2/metrics/common.py:extend_batch_metric_values", "src/fairseq2/metrics/common.py:update_nll_loss_metric"]}
{"id": "C91", "title": "Metrics of a training run", "statement": "What a trainer publishes for a metric covers exactly the steps since the last publication, without steps whose gradients overflowed, and for metrics named total_* all steps that the model was trained with, across any number of interruptions, each once and without those that were lost. Steps between the last publication and the checkpoint are missing after a restart.", "quantifier": "all metrics, all numbers of ranks, all sequences of steps, publications, checkpoints and restarts", "why_tests_cant": "double counting or dropping shows only after a restart between two publications or an overflow right before one", "anchors": ["src/fairseq2/trainer.py:_publish_metrics", "src/fairseq2/trainer.py:_maybe_restore_state", "src/fairseq2/trainer.py:_reset_non_total_metrics"]}
{"id": "C92", "title": "Validation and evaluation", "statement": "Validation and evaluation give every unit each batch that its reader has on any rank, once and in order, into a metric bag of its own, and record the values over all ranks under the name of the unit and the step. The score of a validation is the sum over the units that have the score metric, with the sign that makes more better; all ranks return a score or none does. The best score is the first largest one of the saved scores and all runs, across restarts. With readers that start over, every later validation of the same model gives the same. A stop request ends an evaluation after the units that were complete.", "quantifier": "all numbers of ranks, all units, all readers that end, all sequences of runs, all saved scores, all steps at which a stop is requested", "why_tests_cant": "a batch that is skipped at the end of data or a bag that leaks between units moves a metric slightly; a wrong best score shows only after a restart", "anchors": ["src/fairseq2/validator.py:StandardValidator", "src/fairseq2/evaluator.py:Evaluator", "src/fairseq2/generator.py:Generator"]}
{"id": "C93", "title": "Parameter groups of optimizers", "statement": "Every parameter of the model goes to exactly one group of the optimizer: the one of the first configuration that names it, with exactly the settings that this configuration makes, or else to a last group without settings. Groups keep the order of the configurations, and unless a configuration is the pattern .* alone there is one for each of them, so that a list of learning rates belongs to the right groups. Selecting parameters by names and excluding them divide the parameters of a model.", "quantifier": "all models, all configurations and patterns, all ways a pattern may match", "why_tests_cant": "a parameter that is lost is simply not trained, and one in the wrong group is trained with the wrong rate; whether that happens depends on the names of all parameters of a model", "anchors": ["src/fairseq2/recipe/optim.py:prepare_parameter_groups", "src/fairseq2/recipe/optim.py:maybe_raise_param_group_length_error", "src/fairseq2/nn/utils/module.py:select_parameters"]}
{"id": "C94", "title": "Cross entropy", "statement": "cross_entropy gives the cross entropy between the smoothed targets (the target gets 1 minus the smoothing, all other entries of the vocabulary an equal share of the rest) and the softmax of the logits, summed, averaged, or one by one, over exactly the positions whose target is no padding and that the mask keeps. Padding changes neither sum nor mean, sums over parts add up to the sum over the whole, and no position has a negative loss. It works with and without smoothing for all targets that are to be ignored.", "quantifier": "all vocabularies, all logits, all targets, masks, paddings, smoothings and shapes", "why_tests_cant": "a loss that is off by the share of a padded position, or averaged over the wrong count, still goes down in training; tests compare a few numbers of one branch", "anchors": ["src/fairseq2/nn/functional/cross_entropy.py:cross_entropy"]}
{"id": "C95", "title": "Mixtures of experts", "statement": "A mixture-of-experts layer turns each token into the output of the shared expert (if there is one) plus the outputs of top_k experts of which no other expert has a higher router score, where each of them gets the token multiplied by the sigmoid of its score. What a token becomes depends neither on the other tokens of its batch nor on its place among them. Sharded over a tensor parallel gang whose size divides the inner dimension, all ranks together compute the same; other gangs, and more experts per token than there are, are refused.", "quantifier": "all weights, numbers of experts, dimensions, batches, activations, and gang sizes", "why_tests_cant": "a token that is mixed up with another one, an expert that gets the weights of its neighbour, or a shard that takes the wrong columns still give outputs of the right shape; tests compare one small layer, if any, and not several ranks", "anchors": ["src/fairseq2/models/llama4/moe.py:MoE.forward", "src/fairseq2/models/transformer/experts.py:GroupedExpertNetwork", "src/fairseq2/models/transformer/experts.py:TPShardedExpertNetwork", "src/fairseq2/models/llama4/sharder.py:MoESharder"]}
{"id": "C96", "title": "Decoding with incremental state", "statement": "Feeding sequences to a decoder model piece by piece with an incremental state bag, with beams reordered, doubled or dropped in between, gives for every token fed the same logits as one call without state on the complete sequences, and these are the logits of each sequence on its own: each position looks at the positions up to it (within the sliding window, if there is one) and at the whole source of its sequence. This does not depend on the other sequences of the batch, the padding of the sources, the capacity increment of the bag or the contents of fresh memory.", "quantifier": "all models (layers, norms, residuals, position encoders, biases), batches, sources, ways to cut the sequences into pieces, and orders", "why_tests_cant": "tests compare one small model on one sequence for a few steps, without reordering, windows or encoder; a cache off by one or a wrong start position changes the logits a little and the text stays fluent", "anchors": ["src/fairseq2/models/transformer/multihead_attention.py:StandardMultiheadAttention.forward", "src/fairseq2/models/transformer/decoder.py:StandardTransformerDecoder", "src/fairseq2/models/transformer_lm/model.py:TransformerLM.forward", "src/fairseq2/models/transformer/model.py:TransformerModel.forward", "src/fairseq2/nn/incremental_state.py:IncrementalStateBag", "src/fairseq2/models/gemma3n/factory.py"]}
{"id": "C97", "title": "Speech features do not depend on the batch", "statement": "For each recording of a batch the wav2vec 2.0 frontend (feature extractor, projection, position encoder) and the convolution module of a conformer compute exactly what they compute for the recording alone, whatever the other recordings and the padding are, and the layout they return gives the number of its features. The convolutions make (n - reach) / hop + 1 features of n samples, feature i depends only on the reach samples from i * hop on, and a batch with a recording that is too short is refused.", "quantifier": "all layers, kernel sizes, strides, batches, lengths and contents of the padding", "why_tests_cant": "tests run one batch and look at shapes; a length that is off by one or padding that leaks through a convolution changes the features near the end of short recordings only, which shows as a slightly worse error rate with larger batches", "anchors": ["src/fairseq2/models/wav2vec2/feature_extractor.py:Wav2Vec2FeatureExtractor", "src/fairseq2/models/wav2vec2/feature_extractor.py:Wav2Vec2FbankFeatureExtractor", "src/fairseq2/models/wav2vec2/position_encoder.py:Wav2Vec2PositionEncoder", "src/fairseq2/models/wav2vec2/position_encoder.py:Wav2Vec2StackedPositionEncoder", "src/fairseq2/models/wav2vec2/frontend.py:Wav2Vec2Frontend", "src/fairseq2/models/conformer/convolution.py:ConformerConvolution", "src/fairseq2/models/s2t_transformer/feature_extractor.py:Conv1dFbankSubsampler"]}
{"id": "C98", "title": "Padded forward passes compute each sequence on its own", "statement": "An encoder of transformer layers or conformer blocks, a speech recognition model from waveforms to logits, a language model and an encoder-decoder model compute for every sequence (or pair) of a padded batch what they compute for it alone, whatever the other sequences and the padding are; in particular the logits of training are those of generating token by token. Batches with a sequence that is too long for a position encoder are refused.", "quantifier": "all models built of these layers, batches, lengths, and contents of the padding", "why_tests_cant": "tests compare a few shapes with random weights; padding that leaks through attention, convolution or position encodings changes only some positions of short sequences and depends on the other sequences of the batch", "anchors": ["src/fairseq2/models/transformer/encoder.py:StandardTransformerEncoder", "src/fairseq2/models/transformer/encoder_layer.py:StandardTransformerEncoderLayer", "src/fairseq2/models/conformer/block.py:ConformerBlock", "src/fairseq2/models/wav2vec2/asr/model.py:Wav2Vec2AsrModel", "src/fairseq2/models/transformer/model.py:TransformerModel", "src/fairseq2/models/transformer_lm/model.py:TransformerLM"]}
{"id": "C99", "title": "Tokenizers frame text as the mode says and decode what they encode", "statement": "An encoder gives the indices of its prefix tokens, of the text and of its suffix tokens, as tokens or as indices, backwards if asked to; a prompt and its response encoded apart join to one framed text; unsupported tasks, languages and modes are refused. Decoding gives the text back without the frame. Special tokens have the indices that models were trained with: NLLB puts padding at 0, moves all pieces up by one and lists its languages after them; LLaMA numbers 256 special tokens after the byte-pair tokens. The padding index is never the EOS index. Indices outside the vocabulary are refused, framing tokens that the model lacks are refused, text cannot forge special tokens, and every call is decoded as it asks.", "quantifier": "all SentencePiece models, control symbols, byte-pair vocabularies, texts, modes, and sequences of calls", "why_tests_cant": "tests encode a few sentences with one real model; the framing, the shift of the vocabulary and what happens to unknown tokens, special names inside text and repeated calls concern all models and texts", "anchors": ["native/src/fairseq2n/data/text/sentencepiece/sp_processor.cc:sp_model_proto_loader::add_control_symbols", "native/src/fairseq2n/data/text/sentencepiece/sp_encoder.cc:sp_encoder::encode", "native/src/fairseq2n/data/text/sentencepiece/sp_decoder.cc:sp_decoder::do_decode", "src/fairseq2/data/tokenizers/sentencepiece.py:BasicSentencePieceTokenizer", "src/fairseq2/data/tokenizers/tiktoken.py:load_tiktoken_model", "src/fairseq2/data/tokenizers/tiktoken.py:TiktokenEncoder", "src/fairseq2/data/tokenizers/vocab_info.py:VocabularyInfo", "src/fairseq2/models/nllb/tokenizer.py:load_nllb_tokenizer", "src/fairseq2/models/llama/tokenizer.py:LLaMATiktokenTokenizer", "src/fairseq2/models/hg/tokenizer.py:HgTokenizer"]}
{"id": "C100", "title": "Supervised fine-tuning learns exactly the responses, each given everything before it", "statement": "For a bucket of prompts and responses, collated, padded, made autoregressive and run through a decoder-only language model, the loss is the sum, over all examples and over the tokens of their responses, of minus the logarithm of the probability that the model gives to the token after the prompt and the response before it; the number of targets is the number of these tokens. Prompts and padding contribute nothing, the other examples in the bucket make no difference, and the losses of two buckets add up to the loss of both put together.", "quantifier": "all buckets of examples of any lengths, all padding indices in the vocabulary, all decoder-only models", "why_tests_cant": "a test computes the loss of one small batch with one model; that masks, shifted targets, padding and causal attention line up concerns all lengths, models and compositions of a bucket", "anchors": ["recipes/lm/sft/dataset.py:LMSFTDataset.create_reader", "recipes/lm/sft/recipe.py:LMSFTUnit.process_batch", "recipes/lm/sft/recipe.py:LMLossEvalUnit.process_batch", "src/fairseq2/models/transformer_lm/model.py:TransformerLM.forward", "src/fairseq2/datasets/batch.py:SequenceBatch.as_auto_regressive", "native/src/fairseq2n/data/collater.cc:collater::operator()"]}
{"id": "C101", "title": "Bucket sizes respect the element budget and waste nothing", "statement": "create_bucket_sizes ends for all arguments. For accepted arguments the bucket lengths strictly increase within min_seq_len and max_seq_len and end with max_seq_len, no bucket can hold more than max_num_elements elements, every bucket holds at least one sequence, and for every length in the range the shortest bucket that takes it holds as many sequences as the budget allows for sequences of exactly that length. With num_seqs_multiple_of every bucket size is a multiple of it. All other arguments raise ValueError.", "quantifier": "all numbers of elements, lengths and multiples", "why_tests_cant": "a test compares a few lists; that the loop ends, never steps over max_seq_len, never divides by zero and skips no better bucket is a statement about integer division for all arguments", "anchors": ["src/fairseq2/data/data_pipeline.py:create_bucket_sizes"]}
{"id": "C102", "title": "A fine-tuning epoch reads every example once over all ranks", "statement": "Over one epoch of LMSFTDataset.create_reader every example of the files whose number of tokens is within min_seq_len and max_seq_len is in exactly one batch of exactly one data parallel rank, and nothing else is, whatever the shuffle windows, the seed and the number of ranks. Batches are never empty and keep to the batch size or the number of elements. Hence the losses and numbers of targets of all batches of all ranks add up to those of the single examples. Examples outside the limits are skipped, and a rank without examples reads an empty epoch.", "quantifier": "all file contents, tokenizers, random number generators, seeds, windows, numbers of ranks, limits, batch sizes and (for the loss) causal models without leaks between padded and real positions", "why_tests_cant": "the guarantee is about the composition of ten operators over all ranks: it fails if one rank shuffles with another seed before sharding, and tests look at single operators or a few examples", "anchors": ["recipes/lm/sft/dataset.py:LMSFTDataset.create_reader", "recipes/lm/sft/dataset.py:LMSFTDataset._create_path_reader", "src/fairseq2/data/data_pipeline.py:DataPipelineBuilder.shard", "src/fairseq2/data/data_pipeline.py:DataPipeline.sample"]}
{"id": "C103", "title": "Speech recognition: the loss and the error rates of a batch are those of its recordings", "statement": "The wav2vec2 speech recognition criterion returns, for any batch, the sum over its recordings of the CTC loss of the recording alone (minus the logarithm of the probability of all paths that spell out its own target, zero if the recording has too few frames), and the number of recordings; the padding and the other recordings do not matter. The error rates count, for each recording, the labels and words that its own most probable path spells out against its own reference; a recording without labels counts as an empty hypothesis. The rates are reported in percent whenever there is a reference.", "quantifier": "all speech recognition models with causal or padding-aware layers, batches, paddings, targets, vocabularies and earlier states of the metrics", "why_tests_cant": "independence of batch and padding concerns all compositions of batches; the failing cases (an all blank hypothesis, an error rate below one percent) appear at the beginning and at the end of real trainings only", "anchors": ["recipes/wav2vec2/asr/criterion.py:Wav2Vec2AsrCriterion.__call__", "recipes/wav2vec2/asr/wer_calculator.py:WerCalculator.compute_wer", "recipes/wav2vec2/asr/wer_calculator.py:WerCalculator.process_metric_values", "src/fairseq2/models/wav2vec2/asr/model.py:Wav2Vec2AsrModel.forward", "recipes/wav2vec2/asr/metrics.py:update_ctc_loss"]}
{"id": "C104", "title": "wav2vec 2.0 pretraining: each hidden frame is told from other hidden frames of its own recording, and nothing of it is seen", "statement": "For any batch of recordings that are long enough for the masker, the forward pass of wav2vec 2.0 pretraining hides the same number of frames in each recording, at least a span, all of them real frames. For each hidden frame the first candidate is the code of the frame itself and the distractors are codes of other hidden frames of the same recording, each reachable by exactly one random number; a distractor that equals the right code is left out. The encoder does not see the hidden frames, and neither the other recordings nor the padding matter. The contrastive loss is the sum over the hidden frames of minus the logarithm of the probability of the right candidate, the diversity loss is between zero and the number of targets, and the penalty is the mean square of the features of the recordings for each target. A batch with a recording that is too short is refused. The temperature of the quantizer follows its schedule in the number of training passes.", "quantifier": "all wav2vec 2.0 models with extractors that keep recordings apart and padding-aware encoders, maskers, quantizers, random draws, batches, paddings and weights", "why_tests_cant": "the claim is about all random masks and distractors and about independence of the other recordings of a batch; tests check shapes and run a few seeds", "anchors": ["src/fairseq2/models/wav2vec2/model.py:Wav2Vec2Model.forward", "src/fairseq2/models/wav2vec2/model.py:Wav2Vec2Model._sample_distractors", "src/fairseq2/models/wav2vec2/masker.py:StandardWav2Vec2Masker.forward", "src/fairseq2/models/wav2vec2/masker.py:Wav2Vec2Masker.extract_masked_elements", "src/fairseq2/models/wav2vec2/vector_quantizer.py:GumbelWav2Vec2VectorQuantizer.forward", "recipes/wav2vec2/ssl/criterion.py:Wav2Vec2SslCriterion.__call__"]}
{"id": "C105", "title": "A decoder sharded for tensor parallelism computes on every rank what it computes on a single device", "statement": "A language model or decoder whose embedding, attention, feed-forward and final projections are spread over the ranks of a tensor parallel gang returns on every rank the logits of the model on a single device: for padded and packed batches without state, and in every step of a generation, in which every rank keeps its part of the key/value caches, however the steps feed tokens and reorder the sequences. The ranks raise if and only if the single device raises. If the number of key/value heads is no multiple of the size of the gang, attention is refused on every rank.", "quantifier": "all models with multi-head, multi-query-group and windowed attention, all weights, gang sizes that divide the key/value heads and dimensions, batches, layouts, generations and contents of fresh memory", "why_tests_cant": "tests of sharding need several processes and compare single projections for a few sizes; equality of whole generations for all models, gang sizes and sequences of cache operations cannot be tried out", "anchors": ["src/fairseq2/nn/projection.py:ColumnShardedLinear.forward", "src/fairseq2/nn/projection.py:RowShardedLinear.forward", "src/fairseq2/nn/embedding.py:VocabShardedEmbedding.forward", "src/fairseq2/nn/embedding.py:ShardedEmbedding.forward", "src/fairseq2/models/transformer/multihead_attention.py:StandardMultiheadAttention.forward", "src/fairseq2/models/transformer/ffn.py:GLUFeedForwardNetwork.forward", "src/fairseq2/models/transformer/ffn.py:DauphinFeedForwardNetwork.forward"]}
{"id": "C106", "title": "Texts translated or completed in a batch get what they get alone", "statement": "batch_translate and batch_complete return for every text what a call with the text alone returns, whatever the other texts of the batch are: neither the padding nor the number, order or content of the other texts has an influence, nor has the size of the chunks of the prefill, and the text returned is the one of the best hypothesis of the generator. An empty batch is refused.", "quantifier": "all models, step processors, settings of beam search, tokenizers, texts, batches and chunk sizes", "why_tests_cant": "tests generate from a few prompts with one model; that finished beams, reordered sequences and prompts of different lengths never leak into another row for any model and any batch is a statement about all runs of the search", "anchors": ["src/fairseq2/generation/text.py:TextTranslator.batch_translate", "src/fairseq2/generation/text.py:TextCompleter.batch_complete", "src/fairseq2/generation/text.py:SequenceToTextConverter._do_convert", "src/fairseq2/generation/beam_search/generator.py:BeamSearchSeq2SeqGenerator.__call__", "src/fairseq2/generation/beam_search/generator.py:_AbstractBeamSearchSequenceGeneratorOp._prefill", "src/fairseq2/generation/beam_search/generator.py:_AbstractBeamSearchSequenceGeneratorOp._step"]}
{"id": "C107", "title": "Beam search with a state bag returns the hypotheses of a model without state", "statement": "The beam search generators feed the model with pieces of the prompts and then with the last token of every sequence, keep everything else in an IncrementalStateBag, and reorder the bag with the sequences. The hypotheses and scores they return are those of a search that decodes every sequence anew from its first token in every step, each with the source of its own prompt. Neither the size of the chunks of the prefill, nor the capacity increment, nor the contents of fresh memory, nor the other prompts of the batch have an influence.", "quantifier": "all decoders (layers, attention with and without sliding windows, position encoders, norms), batches of prompts and sources, beam sizes, step processors, chunk sizes and capacity increments", "why_tests_cant": "tests compare a few generations of one model; a cache that falls behind the sequences shows only for certain orders of finished and surviving beams, and whether any run of the search produces such an order is a statement about all runs", "anchors": ["src/fairseq2/generation/beam_search/generator.py:_AbstractBeamSearchSequenceGeneratorOp._prefill", "src/fairseq2/generation/beam_search/generator.py:_AbstractBeamSearchSequenceGeneratorOp._step", "src/fairseq2/generation/beam_search/generator.py:_AbstractBeamSearchSequenceGeneratorOp._reorder_state", "src/fairseq2/nn/incremental_state.py:IncrementalStateBag.reorder", "src/fairseq2/models/transformer/multihead_attention.py:StaticAttentionState.reorder"]}
{"id": "C108", "title": "Sampling with a state bag returns the sequences of a model without state", "statement": "The sampling generators feed the model with pieces of the prompts and then with the last token of every sequence, keep everything else in an IncrementalStateBag, fan the bag out to the requested number of sequences per prompt, and reorder it whenever sequences end. The sequences they return are those of sampling, with the same draws, in which every sequence is decoded anew from its first token in every step, with the source of its own prompt. Neither the size of the chunks of the prefill, nor the capacity increment, nor the contents of fresh memory have an influence.", "quantifier": "all decoders (layers, attention with and without sliding windows, position encoders, norms), batches of prompts and sources, numbers of sequences per prompt, samplers, step processors, chunk sizes and capacity increments", "why_tests_cant": "draws are random, so that tests check at most lengths and a few greedy runs; that the bag follows the sequences through the fan out and through every pattern of sequences that end is a statement about all runs", "anchors": ["src/fairseq2/generation/sampling/generator.py:_AbstractSamplingSequenceGeneratorOp._prepare_state", "src/fairseq2/generation/sampling/generator.py:_AbstractSamplingSequenceGeneratorOp._prefill", "src/fairseq2/generation/sampling/generator.py:_AbstractSamplingSequenceGeneratorOp._step", "src/fairseq2/generation/sampling/generator.py:_AbstractSamplingSequenceGeneratorOp._reorder_state", "src/fairseq2/nn/incremental_state.py:IncrementalStateBag.reorder"]}
{"id": "C109", "title": "Training on packed text predicts every token from its own text", "statement": "The data reader for language model training gives every file to exactly one rank, packs the tokenized texts of a rank into batches and trains on each. All batches can be fed to the model and hold exactly max_num_tokens predictions. Through an epoch the predictions go through the texts of the rank in order, none is made twice, and every token that is not the first of its text is predicted, except perhaps some of the last max_num_tokens - 1 tokens of the epoch. The tokens a prediction is made from precede the predicted one immediately, are all of the same text, at most max_seq_len many, and go back to the beginning of the text, of the batch, or of a stretch of max_seq_len tokens.", "quantifier": "all files of a source, texts and tokenizers, numbers of ranks, values of max_seq_len and max_num_tokens; and all ways of sampling several sources for what is said of the batches", "why_tests_cant": "there are no tests of the recipe; the places where texts are cut depend on all lengths before them, and off-by-one errors at a cut lose or repeat single tokens without any visible effect", "anchors": ["recipes/lm/train/dataset.py:LMTrainDataset.create_reader", "recipes/lm/train/recipe.py:LMTrainUnit.process_batch", "native/src/fairseq2n/data/packed_data_source.cc:packed_data_source::next", "src/fairseq2/datasets/batch.py:SequenceBatch.as_auto_regressive"]}
{"id": "C110", "title": "Packing sequences into one batch changes neither logits nor losses", "statement": "If sequences are packed one after the other into one batch, with or without padding after them, the logits that a decoder-only model computes for each of them are those it computes for the sequence alone, with full or windowed causal attention; the logits of a translation model for packed sources and targets are those of each pair alone. If one sequence is longer than a position encoder allows there is an exception. The training loss of a packed batch of the language model recipe is the mean, over its predictions, of minus the logarithm of the probability that the model gives to the token after its own context alone; over an epoch every prediction has the same weight.", "quantifier": "all models of transformer layers with causal or no masks and any position encoders, all numbers and lengths of sequences, all contents of the padding, all vocabularies, all readers of C109", "why_tests_cant": "tests compare single numbers for few lengths; an error at a border between two sequences changes logits slightly and only for certain lengths", "anchors": ["src/fairseq2/models/transformer/attention_bias.py:_create_block_bias_tensor", "src/fairseq2/nn/batch_layout.py:BatchLayout", "src/fairseq2/models/transformer_lm/model.py:TransformerLM.forward", "src/fairseq2/models/transformer/model.py:TransformerModel.forward", "recipes/lm/train/recipe.py:LMTrainUnit.process_batch"]}
{"id": "C111", "title": "The text generation recipe answers every line of its input files exactly once, with the right id and prompt", "statement": "For input files whose lines are JSON objects with a prompt and ids of one type (or no ids at all), for any number of ranks and any batch size, rank r of the recipe processes every size-th line from line r on, in batches of the given size but for the last. The sequence generator is called once per batch with the prompts of that batch padded to the longest. The first rank of each tensor parallel gang writes one record per line, in order, with the id and prompt of that line and the text, tokens and scores of the first hypothesis that the generator returned for that prompt; other ranks write nothing. If the generator treats prompts independently the records of all ranks together do not depend on the number of ranks or the batch size; with beam search and batches of one line the response is what TextCompleter gives. A prompt without a hypothesis stops the run after the records before it.", "quantifier": "all files, tokenizers, numbers of ranks, batch sizes and sequence generators, including those with a state such as sampling", "why_tests_cant": "there is no test of the recipe; a wrong pairing of ids, prompts and hypotheses or a lost last batch shows only for certain numbers of lines, ranks and batch sizes, and the output still looks like text", "anchors": ["recipes/lm/generate/dataset.py:LMGenerateDataset.create_reader", "recipes/lm/generate/recipe.py:LMGenerateUnit.process_batch", "src/fairseq2/generator.py:Generator._do_run"]}
{"id": "C112", "title": "Over a whole training, with crashes and resumes, the retention policy keeps exactly what it promises of all checkpoints ever committed", "statement": "However often a training crashes and is resumed from its last checkpoint, and wherever a process dies while it deletes stale checkpoints: at any time the newest checkpoint on disk is the one committed last, every committed checkpoint that is among the last n, the best n or the multiples of n of all those committed so far is on disk with its score, and nothing else is but what an interrupted deletion left. As soon as a checkpoint has been committed and the process lived on, in particular when the run ends, exactly those are on disk. Deleting stale checkpoints earlier does not change which ones are deleted later.", "quantifier": "all policies, settings, data, scores, sequences of crashes and interrupted deletions", "why_tests_cant": "tests look at one call on a listing made by hand; that repeated deletion agrees with the policy applied to everything that was ever committed, and that saving, scoring and committing come in an order for which this holds, depends on all interleavings and crashes", "anchors": ["src/fairseq2/trainer.py:StandardTrainer._delete_stale_checkpoints", "src/fairseq2/trainer.py:StandardTrainer._save_score", "src/fairseq2/trainer.py:StandardTrainer._on_checkpoint_saved", "src/fairseq2/checkpoint/manager.py:StandardCheckpointManager.get_stale_step_numbers"]}
{"id": "C113", "title": "An epoch of speech recognition gives every recording within the size limits to exactly one rank, once, beside its own transcript", "statement": "Wav2Vec2AsrDataset.create_reader builds readers such that over all data parallel ranks every line of the manifest whose audio size lies in [min_audio_len, max_audio_len] is in exactly one batch of exactly one rank in each epoch, and no other line is; its waveform and the tokens of the transcript on the same line are in the same row, padded with zeros and with the padding index. A batch never has more than max_num_elements samples with padding, if the sizes in the manifest are right. Without drop_remainder nothing is left out. The limits are refused exactly if no such batches exist.", "quantifier": "all manifests, transcripts, tokenizers, numbers of ranks, shuffle windows, seeds, random number generators and limits", "why_tests_cant": "the recipe is not unit-tested; that shuffling, sharding and batching by length of two zipped files neither lose nor duplicate a line nor mix up transcripts is a statement about all files and all ranks together", "anchors": ["recipes/wav2vec2/asr/data/dataset.py:Wav2Vec2AsrDataset.create_reader", "recipes/wav2vec2/asr/data/batch_utils.py:add_length_batching", "recipes/wav2vec2/asr/data/preprocessing.py:filter_by_min_max_audio_size", "recipes/wav2vec2/asr/data/preprocessing.py:collate_with_pad_ix"]}
{"id": "C114", "title": "What an epoch of wav2vec 2.0 pretraining gives to the ranks, and where recordings are cut", "statement": "The reader of the wav2vec 2.0 pretraining dataset gives, in every epoch that all ranks read to its end, each recording of the manifest whose size is within `min_audio_len` and `max_audio_len` in exactly one batch of exactly one data parallel rank (with `drop_remainder` up to fewer recordings per rank than fill one batch), and no other recording. Each row of a batch is a contiguous stretch of the recording it belongs to; all rows have the length of the shortest recording of the batch, at most `max_audio_len`; nothing is padded and no batch exceeds `max_num_elements`. Every part of a longer recording can be chosen, and a reader restored from its state goes on as the original would have.", "quantifier": "for all manifests, recordings, numbers of ranks, limits, shuffle windows, seeds, random number generators and numbers of epochs", "why_tests_cant": "A test runs one manifest with one seed and one number of ranks; that nothing is lost or doubled over all shuffles, shards, buckets and epochs, and that no draw of the generator reaches the end of a recording, are statements about all of them.", "anchors": ["recipes/wav2vec2/ssl/data/dataset.py:169-312", "recipes/wav2vec2/ssl/data/batch_utils.py:11-57", "recipes/wav2vec2/ssl/data/preprocessing.py:19-132", "native/src/fairseq2n/data/collater.cc:199-213"]}
{"id": "C115", "title": "Checkpoints of every format load the same, into every rank of a model", "statement": "Parameters that are saved as one PyTorch file, as one or several Safetensors files, as a native checkpoint of any numbers of tensor and data parallel ranks, or as the consolidated files of LLaMA are loaded alike: every process gets the same names with the same tensors, namely its tensor parallel shard of each sharded parameter and all of each other one, and loading the model from them succeeds and leaves under every name of the model its shard of what was saved. A path that no loader knows, Safetensors files that have a name twice, and files of LLaMA of which one lacks a sharded parameter are refused, and never give part of a parameter for the whole.", "quantifier": "for all parameters, values, converters, formats, numbers and orders of files, numbers of ranks of the checkpoint and of the processes, and models with tied parameters", "why_tests_cant": "A test saves one small model in one format and reads it with one number of ranks; that four loaders, resharding and the copying into the model agree for all combinations of formats and sizes is a statement about all of them.", "anchors": ["src/fairseq2/model_checkpoint/basic.py:43-106", "src/fairseq2/model_checkpoint/safetensors.py:50-140", "src/fairseq2/model_checkpoint/delegating.py:46-71", "src/fairseq2/models/llama/checkpoint.py:42-169", "src/fairseq2/composition/lib.py:245-254", "src/fairseq2/models/utils/checkpoint.py:19-91"]}
{"id": "C116", "title": "The model sharder replaces what the specifications match and nothing else, and refuses the rest", "statement": "For more than one tensor parallel process the model sharder replaces each module whose dotted name is matched by a pattern and that is not part of a module that is matched, by what the sharder of exactly its class makes of it with the specification of the first pattern that matches. All other modules stay, with the same children names. It refuses a model if and only if such a module has no sharder or its sharder does not take the specification. With one process nothing changes. A module family with specifications can create its models for tensor parallelism, and loads checkpoints of any number of tensor parallel ranks along the dimensions of its specifications.", "quantifier": "for all models, classes of modules, sets of sharders, ordered specifications, patterns and sizes of gangs", "why_tests_cant": "A test shards one small model with a few patterns that do not overlap; which pattern wins, what lies below a replaced module and what is refused depends on every tree of modules and every order of the patterns. That a family can be created at all with several processes is not tested since it needs a gang.", "anchors": ["src/fairseq2/sharder.py:63-202", "src/fairseq2/models/llama4/sharder.py:23-43", "src/fairseq2/models/llama/factory.py:60-110", "src/fairseq2/models/family.py:656-722", "src/fairseq2/model_checkpoint/common.py:107-125"]}
{"id": "C117", "title": "The dimensions of sharded parameters are found for every name, so that each rank loads its shards", "statement": "`get_shard_dims` gives, for the names of a model, exactly the dimensions along which its modules say that their parameters are sharded: for a name of a parameter that a module declares as sharded the declared dimension, and nothing for any other name. With these dimensions every rank loads a checkpoint, of any format and written by any number of tensor parallel ranks, into its model and has under every name its shard of what was saved.", "quantifier": "for all trees of modules, also with modules and parameters that are shared, all declarations of modules that do not contradict each other, all checkpoints and numbers of ranks", "why_tests_cant": "A test looks at one model without ties on one rank; whether the names of the dictionary are those of the checkpoint for every nesting and sharing of modules, and whether the shards fit for every pair of numbers of ranks, is a statement about all trees and sizes.", "anchors": ["src/fairseq2/nn/sharded.py:14-75", "src/fairseq2/models/family.py:549-606", "src/fairseq2/model_checkpoint/common.py:92-166", "src/fairseq2/models/utils/checkpoint.py:19-91"]}
{"id": "C118", "title": "A stack of layers computes its layers in turn; LayerDrop and layer hooks do only what they say", "statement": "A stack gives the norm of its layers one after another. LayerDrop leaves out exactly the layers whose random number is not above its probability, in training only. A registered hook is called after every layer, in order, with the index, that layer's output and the number of layers; if it returns True it changes nothing, if it returns False that layer is the final one. Hooks together with LayerDrop in training are refused. w2v-BERT's contrastive loss gets the output of the last layer before the masked prediction layers.", "quantifier": "for all lists of layers, norms, probabilities and random numbers, all lists of hooks with any side effects and inputs", "why_tests_cant": "Tests run one encoder with a few layers; that hooks see exactly the outputs of every prefix of the stack and never change the result, for every number of layers and hooks, is an induction over the stack.", "anchors": ["src/fairseq2/models/transformer/encoder.py:54-184", "src/fairseq2/models/transformer/decoder.py:149-209", "src/fairseq2/models/w2vbert/model.py:82-98"]}
{"id": "C119", "title": "w2v-BERT's masked prediction loss is the likelihood of the quantizer's choices", "statement": "For every masked position and target codebook, the masked prediction loss of w2v-BERT has the negative log-likelihood of the entry that the quantizer chose, under the softmax over the entries of the codebook; the targets are the chosen entries of the target codebooks.", "quantifier": "for all numbers of positions, entries and codebooks that the configuration allows, all logits, choices of the quantizer and label smoothing", "why_tests_cant": "There is no test; and one that runs a batch sees one size of codebooks, while whether the dimensions fit is a statement about all sizes.", "anchors": ["src/fairseq2/models/w2vbert/model.py:102-177", "src/fairseq2/nn/functional/cross_entropy.py:32-66"]}
{"id": "C120", "title": "The JSONL recorder writes one line with all values for every call, and loses none", "statement": "Every call of `record_metric_values` that does not raise appends one line to the file of its category and changes no other file. The line has the time, the step and every value, under the display name of its metric, in the order of priority and display name. A call that raises appends nothing. After any calls, with closing in between, a file has what it had before followed by the lines of the calls for its category, in order. Categories other than of letters, digits, dashes, underscores and slashes are refused.", "quantifier": "for all registered descriptors, all values nested in any way, all categories and all sequences of calls and closings", "why_tests_cant": "There is no test of the recorder; that no value is lost depends on all pairs of display names, and that files keep everything on all sequences of calls.", "anchors": ["src/fairseq2/metrics/recorders/jsonl.py:29-139", "src/fairseq2/metrics/recorders/descriptor.py:18-39", "src/fairseq2/recipe/composition/metric_recorders.py:140-201"]}
{"id": "C121", "title": "A run uses the learning rates that its configuration describes, from the first step to the last", "statement": "A run of `regime.num_steps` steps with cosine annealing whose cycle length is not configured, or with polynomial decay, uses in step t, for every group of parameters, the rate on the ramp from the start rate during the warm-up and after it the rate on the configured curve from the rate of the group to its final rate, given outright or as a scale. The scheduler does not fail during the run. Configurations without a number of steps, with a warm-up that takes all steps, or with lists that do not have a number for every group are refused before the run.", "quantifier": "for all numbers of steps and of warm-up steps, all groups, rates, scales and powers, and every step of the run", "why_tests_cant": "A test runs a scheduler for one number of steps; that the factory, the scheduler and the trainer's order of calls together never fail or restart within a run is a statement about all numbers of steps.", "anchors": ["src/fairseq2/recipe/internal/lr_schedulers.py:61-145", "src/fairseq2/recipe/internal/lr_schedulers.py:178-222", "src/fairseq2/optim/lr_schedulers/cosine_annealing.py:96-147", "src/fairseq2/trainer.py:611-628"]}
{"id": "C122", "title": "FSDP wraps every part of a model once, frees gathered parameters where the configuration asks for it, and initializes each module once", "statement": "When a recipe wraps a model with FSDP, version 1 or 2, every part that the configured granularity names and the root are wrapped once and nothing else is. With `reshard_after_forward` the parts free their gathered parameters after the forward pass, and else they do not; the last layer of a stack and the root, whose parameters are needed at once in the backward pass, never do. Shards are replicated exactly when there is more than one replica. Without a checkpoint every part takes the state of rank 0; with a checkpoint, the parameters on the meta device are not initialized since they will be loaded. The initializer handles every module inside a wrapped part exactly once, whichever modules are shared.", "quantifier": "for all models with any numbers of stacks and layers, all granularities, sizes of gangs, ranks and flags, and all graphs of modules", "why_tests_cant": "That a part frees its parameters too early costs communication but changes no result, so that no test sees it; a test wraps one small model with one configuration.", "anchors": ["src/fairseq2/nn/fsdp/unified.py:34-90", "src/fairseq2/nn/fsdp/fsdp1.py:50-176", "src/fairseq2/nn/fsdp/fsdp2.py:60-171", "src/fairseq2/nn/fsdp/common.py:68-84", "src/fairseq2/models/utils/fsdp.py:14-22", "src/fairseq2/recipe/internal/data_parallel.py:135-207"]}
{"id": "C123", "title": "A process that loads the local state that it saved from an FSDP module gets it back", "statement": "For a module wrapped with FSDP, the local state that a process saves can be loaded by the same process into a module of the same layout: the call returns and afterwards the module has the saved local parts and values, also when the process has no part of some tensors. A state with an unknown key, or without a key of which the process has a part, is refused. This holds for the facade and for `fsdp_load_local_state_dict`.", "quantifier": "for all modules, names and values, and all distributions of their tensors over the process", "why_tests_cant": "Tests with real process groups are run for one model with evenly divided tensors; parts that are empty in some process depend on the sizes.", "anchors": ["src/fairseq2/nn/fsdp/unified.py:93-110", "src/fairseq2/nn/fsdp/fsdp1.py:179-234", "src/fairseq2/nn/fsdp/fsdp2.py:174-203", "src/fairseq2/nn/data_parallel.py:129-187"]}
{"id": "C124", "title": "A process finds the rank, cluster and device that it was started for, or fails", "statement": "`WorldInfo.from_env` succeeds exactly if RANK and WORLD_SIZE are both numbers with 0 <= RANK < WORLD_SIZE or are both missing, and likewise for LOCAL_RANK and LOCAL_WORLD_SIZE, and has these numbers (0 of 1 if missing); the host is not larger than the world. A named cluster is handled by the handler registered last for the name and refused if there is none; `auto` keeps an environment that has a rank and a size and else takes the first handler that supports the cluster. FAIRSEQ2_DEVICE names the device if set; else one device in CUDA_VISIBLE_DEVICES is used; else the CUDA device with the number of the local rank, so that processes of a host use different devices, or an error if there is none; else the CPU.", "quantifier": "for all environments, handlers, numbers of devices and local ranks", "why_tests_cant": "A test sets a few variables; the claim is about every combination of set, missing and malformed variables, and about all processes of a host together.", "anchors": ["src/fairseq2/world_info.py:33-81", "src/fairseq2/utils/env.py:83-136", "src/fairseq2/cluster.py:39-65", "src/fairseq2/device.py:141-246"]}
{"id": "C125", "title": "All processes of a run begin with the same weights", "statement": "When training begins, every process of a run has the parameters of the last checkpoint that has the state of the trainer, or, if there is none, those of the model that data parallel rank 0 loaded or made; with one process, with DDP, with FSDP and with the fallback from FSDP to DDP, whatever model-only checkpoints are in the directory. A run is refused exactly if it asks for DDP although the gangs shard.", "quantifier": "for all origins of the model, families with and without meta initialization, sizes of the gangs, ranks and lists of checkpoints", "why_tests_cant": "The claim crosses the loader, the wrapper and the trainer, each of which asks for checkpoints on its own; a test would need several processes and every mix of checkpoints.", "anchors": ["src/fairseq2/recipe/internal/train_model.py:91-319", "src/fairseq2/recipe/internal/data_parallel.py:47-207", "src/fairseq2/models/family.py:404-443", "src/fairseq2/models/family.py:553-605", "src/fairseq2/nn/ddp.py:47-90", "src/fairseq2/checkpoint/manager.py:710-751", "src/fairseq2/trainer.py:363-402"]}
{"id": "C126", "title": "A stopwatch measures the time during which it ran since its last reset", "statement": "After any sequence of calls of `start`, `stop` and `reset`, `get_elapsed_time` is the time during which the stopwatch ran (the last call of `start` or `stop` was `start`) since the last `reset`; `start` raises exactly if the stopwatch runs, and then changes nothing; without a `reset` the elapsed time never falls.", "quantifier": "for all sequences of calls and all times of a clock that does not run backwards", "why_tests_cant": "A test uses a few calls with real waiting; the claim is about every interleaving of starts, stops, resets and refused calls.", "anchors": ["src/fairseq2/utils/stopwatch.py:20-92"]}
{"id": "C127", "title": "The path in an asset card is the path that is opened", "statement": "If the card of a model, tokenizer or dataset gives an absolute path, or a `file` URI of one, then this path, byte for byte, is opened.", "quantifier": "for all absolute paths, with every byte that a path may have", "why_tests_cant": "The test of `to_path` has one path without special characters; the claim is about every byte that a path can have, and about quoting and unquoting together.", "anchors": ["src/fairseq2/utils/uri.py:20-87", "src/fairseq2/assets/card.py:104-127", "src/fairseq2/models/family.py:607-609", "src/fairseq2/data/tokenizers/family.py:317-319", "src/fairseq2/assets/download_manager.py:292-305"]}
{"id": "C128", "title": "A path means the object of the file system that its scheme and name say", "statement": "With `GlobalFileSystem`, the text `scheme://name` of a registered protocol, and the `Path` made of it (which has `:/` instead of `://`), mean the object `name` of this protocol; an absolute path means the local file of this name; the paths that `glob` and `walk_directory` give mean the objects that were found; a sequence of paths of different file systems is refused.", "quantifier": "for all registered protocols, schemes, names of objects, paths and sequences of paths", "why_tests_cant": "The tests use one prefix and a few names, and the methods apart from each other; the claim is about every name and about making paths, joining them and opening them again.", "anchors": ["src/fairseq2/file_system.py:125-308", "src/fairseq2/file_system.py:345-461", "src/fairseq2/file_system.py:467-547", "src/fairseq2/assets/metadata_provider.py:138-144"]}
{"id": "C129", "title": "Stochastic depth drops whole sequences and is right on average", "statement": "In training, `DropPathResidualConnect` replaces the whole output of the layer for a sequence by the residual alone with probability `drop_p`, independently of the other sequences, and otherwise keeps the whole sequence, scaled so that the mean of the output is output plus residual. In evaluation, and with `drop_p` 0, the result is the sum.", "quantifier": "for all batches, sequences, elements, probabilities and random numbers", "why_tests_cant": "A test draws a few random numbers; the claim is about all numbers, about the mean over them, and about the ends of the range of probabilities.", "anchors": ["src/fairseq2/nn/residual.py:42-47", "src/fairseq2/nn/residual.py:76-119"]}
{"id": "C130", "title": "Sizes and durations are shown in the right unit", "statement": "`format_as_byte_size` shows a positive size in the largest unit in which it is at least 1 (bytes below that), with the nearest number of hundredths, which is less than 1024; sizes from 1024 PiB on are too big; bigger sizes are never shown in smaller units. `format_as_seconds` shows every number with its unit, also in sequences.", "quantifier": "for all sizes and all sequences of numbers", "why_tests_cant": "A test formats a few sizes; the claim is about every size, with the borders between units and the rounding just below them.", "anchors": ["src/fairseq2/metrics/formatters.py:17-40", "src/fairseq2/metrics/formatters.py:84-114"]}
{"id": "C131", "title": "Training collects garbage every n steps, frees nothing reachable and leaves old garbage", "statement": "With `gc_every_n_steps` set to n, collections happen exactly at the steps whose distance from the step at which the run started is a multiple of n; automatic collections are off while the trainer runs and on afterwards; all garbage is freed when training starts; no reachable object is freed; what is allocated and becomes unreachable within a step is freed before n further steps have ended. What once survived a collection should be freed by a later one, collections of a resumed run should be at the same steps, and the setting of the program should be restored (all three fail).", "quantifier": "for all periods, all heaps, and all sequences of allocations, releases and steps", "why_tests_cant": "A test sees a few steps with a few objects; that garbage in the oldest generation stays for the whole run is a claim about all further executions.", "anchors": ["src/fairseq2/utils/gc.py:18-75", "src/fairseq2/recipe/internal/trainer.py:269-277", "src/fairseq2/trainer.py:350-351", "src/fairseq2/trainer.py:515-527", "src/fairseq2/recipe/config.py:263-264"]}
