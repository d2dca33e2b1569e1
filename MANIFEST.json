{
 "claims": [
  {
   "property": "C01",
   "status": "partial",
   "theorems": [
    "Fs2.Props.C01_resume_partial",
    "Fs2.Props.C01_resume_fresh_partial",
    "Fs2.Props.C01_resume_used_partial",
    "Fs2.Props.C01_repeat_at_boundary",
    "Fs2.Props.C01_dynamic_bucket_loses",
    "Fs2.Props.C01_dynamic_bucket_stale",
    "Fs2.Props.C01_pack_stale",
    "Fs2.Props.C01_unstarted",
    "Fs2.Props.C01_warnings",
    "Fs2.Props.C01_large_seed",
    "Fs2.Props.C01_yield_from_error"
   ],
   "note": "For every composition of the modelled operators, by induction. False in general: witnesses for repeat at a round boundary, dynamic_bucket, pack, unstarted pipelines, warnings, large seeds, yield_from after an error. prefetch is not part of the compositions."
  },
  {
   "property": "C02",
   "status": "partial",
   "theorems": [
    "Fs2.Props.C02_round_trip_partial",
    "Fs2.Props.C02_reads_only_recordings",
    "Fs2.Props.C02_refuses_with_error",
    "Fs2.Props.C02_record_at_end",
    "Fs2.Props.C02_too_long",
    "Fs2.Props.C02_too_short",
    "Fs2.Props.C02_large_size",
    "Fs2.Props.C02_refused_state_moves"
   ],
   "note": "Recording and reading is proved for every type and every sequence of values, acceptance exactly of recordings, and refusal of too long or too short states for every composition of operators; a size_t of 2^63 or more (a seed) cannot be read back (C02_large_size), and a refused state that is too long has already moved the pipeline (C02_refused_state_moves)."
  },
  {
   "property": "C03",
   "status": "partial",
   "theorems": [
    "Fs2.Props.C03_end_is_final_partial",
    "Fs2.Props.C03_round_robin",
    "Fs2.Props.C03_zip_raises"
   ],
   "note": "For every composition without round_robin and with zip of pipelines that neither raise nor search for ever; witnesses show that those exceptions are needed."
  },
  {
   "property": "C04",
   "status": "partial",
   "theorems": [
    "Fs2.Props.C04_reset_partial",
    "Fs2.Props.C04_reset_clean_partial",
    "Fs2.Props.C04_dynamic_bucket_stale",
    "Fs2.Props.C04_warnings"
   ],
   "note": "For every composition without bucket creation functions and with nested pipelines that skip no example; witnesses show the exceptions are needed."
  },
  {
   "property": "C05",
   "status": "proved",
   "theorems": [
    "Fs2.Props.C05_read_sequence",
    "Fs2.Props.C05_count",
    "Fs2.Props.C05_constant",
    "Fs2.Props.C05_take",
    "Fs2.Props.C05_take_long",
    "Fs2.Props.C05_skip",
    "Fs2.Props.C05_filter",
    "Fs2.Props.C05_map",
    "Fs2.Props.C05_concat",
    "Fs2.Props.C05_pipeline"
   ],
   "note": "Stream semantics of read_sequence, count, constant, take, skip, filter, map (one call at a time), concat, and of the pipeline around them, for every upstream and every argument."
  },
  {
   "property": "C06",
   "status": "proved",
   "theorems": [
    "Fs2.Props.C06_shard",
    "Fs2.Props.C06_partition",
    "Fs2.Props.C06_even"
   ],
   "note": "Each shard's stream, that the shards partition the upstream, and even sizes, for every list length and shard count."
  },
  {
   "property": "C07",
   "status": "proved",
   "theorems": [
    "Fs2.Props.C07_bucket"
   ],
   "note": "Bucket stream for every upstream list and size."
  },
  {
   "property": "C08",
   "status": "proved",
   "theorems": [
    "Fs2.Props.C08_bucket_by_length",
    "Fs2.Props.C08_size_zero"
   ],
   "note": ""
  },
  {
   "property": "C09",
   "status": "proved",
   "theorems": [
    "Fs2.Props.C09_dynamic_bucket",
    "Fs2.Props.C09_maximum",
    "Fs2.Props.C09_creation_function"
   ],
   "note": ""
  },
  {
   "property": "C10",
   "status": "proved",
   "theorems": [
    "Fs2.Props.C10_blocks",
    "Fs2.Props.C10_permutation",
    "Fs2.Props.C10_window_one",
    "Fs2.Props.C10_not_early",
    "Fs2.Props.C10_not_late",
    "Fs2.Props.C10_endless"
   ],
   "note": ""
  },
  {
   "property": "C11",
   "status": "partial",
   "theorems": [
    "Fs2.Props.C11_round_robin_partial",
    "Fs2.Props.C11_early_end",
    "Fs2.Props.C11_early_end_repeats",
    "Fs2.Props.C11_pseudo_infinite_is_shortest"
   ],
   "note": "Proved for pipelines whose lengths let the code's end test fire correctly; the code ends early otherwise (negation theorems C11_early_end, C11_early_end_repeats, C11_pseudo_infinite_is_shortest)."
  },
  {
   "property": "C12",
   "status": "partial",
   "theorems": [
    "Fs2.Props.C12_once_partial",
    "Fs2.Props.C12_repeats",
    "Fs2.Props.C12_all_empty",
    "Fs2.Props.C12_tiny_weight",
    "Fs2.Props.C12_pseudo_infinite",
    "Fs2.Props.C12_pseudo_infinite_repeats"
   ],
   "note": "Holds when every weight is at least 1/5000 of the sum, some pipeline has an example and none is pseudo-infinite (without repeats); with repeats for all weights and draws. Violations: C12_all_empty, C12_tiny_weight, C12_pseudo_infinite."
  },
  {
   "property": "C13",
   "status": "proved",
   "theorems": [
    "Fs2.Props.C13_zip",
    "Fs2.Props.C13_zip_names",
    "Fs2.Props.C13_unequal",
    "Fs2.Props.C13_finitude_wrong"
   ],
   "note": "Zip stream, names, unequal lengths. C13_finitude_wrong shows that the finitude the code reports is wrong."
  },
  {
   "property": "C14",
   "status": "proved",
   "theorems": [
    "Fs2.Props.C14_repeat",
    "Fs2.Props.C14_copies",
    "Fs2.Props.C14_zero",
    "Fs2.Props.C14_forever",
    "Fs2.Props.C14_empty"
   ],
   "note": "Repeat n times, zero times, for ever, and of an empty pipeline."
  },
  {
   "property": "C15",
   "status": "proved",
   "theorems": [
    "Fs2.Props.C15_pack_whole",
    "Fs2.Props.C15_pack_tokens",
    "Fs2.Props.C15_pack_truncate",
    "Fs2.Props.C15_drop_ignored",
    "Fs2.Props.C15_no_overlap",
    "Fs2.Props.C15_capacity_one"
   ],
   "note": ""
  },
  {
   "property": "C16",
   "status": "proved",
   "theorems": [
    "Fs2.Props.C16_yield_from",
    "Fs2.Props.C16_yield_from_endless"
   ],
   "note": ""
  },
  {
   "property": "C17",
   "status": "partial",
   "theorems": [
    "Fs2.Props.C17_in_order",
    "Fs2.Props.C17_in_order_endless",
    "Fs2.Props.C17_transparent_partial",
    "Fs2.Props.C17_state_dict_partial",
    "Fs2.Props.C17_bounded",
    "Fs2.Props.C17_calls_return",
    "Fs2.Props.C17_exception_partial",
    "Fs2.Props.C17_exception_drops",
    "Fs2.Props.C17_reset_depends_on_schedule"
   ],
   "note": "Every interleaving of caller and thread: order, reset, state_dict, load, bound on examples held, calls return. Excluded and disproved: an upstream exception (C17_exception_drops), reset(reset_rng=False) over shuffle (C17_reset_depends_on_schedule)."
  },
  {
   "property": "C18",
   "status": "partial",
   "theorems": [
    "Fs2.Props.C18_deterministic",
    "Fs2.Props.C18_schedule",
    "Fs2.Props.C18_any_order_partial",
    "Fs2.Props.C18_returns_partial",
    "Fs2.Props.C18_deadlock",
    "Fs2.Props.C18_save_hangs",
    "Fs2.Props.C18_exception_sticks",
    "Fs2.Props.C18_raw_example"
   ],
   "note": "Deterministic: proved for every n and every schedule of the parallel loop. Non-deterministic: results are a rearrangement in every execution; calls return if tasks finish at once. In general they may not: C18_deadlock, C18_save_hangs. Exceptions: C18_exception_sticks, C18_raw_example."
  },
  {
   "property": "C19",
   "status": "partial",
   "theorems": [
    "Fs2.Props.C19_forgives",
    "Fs2.Props.C19_forgives_what",
    "Fs2.Props.C19_within_limit",
    "Fs2.Props.C19_map_partial",
    "Fs2.Props.C19_forgives_so_far",
    "Fs2.Props.C19_lifetime",
    "Fs2.Props.C19_fatal",
    "Fs2.Props.C19_broken_refuses_partial",
    "Fs2.Props.C19_reset_is_silent",
    "Fs2.Props.C19_bucket_loses",
    "Fs2.Props.C19_skip_starts_over",
    "Fs2.Props.C19_shard_shifts"
   ],
   "note": "The retry loop, its lifetime bound and the broken state are proved for every source. The code violates the claim where an operator reads several examples per call (C19_bucket_loses, C19_skip_starts_over, C19_shard_shifts), and reset() of a broken pipeline is a silent no-op (C19_reset_is_silent)."
  },
  {
   "property": "C20",
   "status": "partial",
   "theorems": [
    "Fs2.Props.C20_accepts_partial",
    "Fs2.Props.C20_never_refuses_meaningful",
    "Fs2.Props.C20_no_division_by_zero",
    "Fs2.Props.C20_shard_no_wrap",
    "Fs2.Props.C20_pack_no_length",
    "Fs2.Props.C20_pack_capacity_one",
    "Fs2.Props.C20_bucket_size_zero"
   ],
   "note": "Exact for every operator except bucket_by_length and pack, whose checks are missing in the code (C20_pack_no_length, C20_pack_capacity_one, C20_bucket_size_zero); NaN thresholds are not modelled."
  },
  {
   "property": "C21",
   "status": "proved",
   "theorems": [
    "Fs2.Props.C21_lookup",
    "Fs2.Props.C21_size"
   ],
   "note": "Invariant over every sequence of add, get and clear."
  },
  {
   "property": "C22",
   "status": "partial",
   "theorems": [
    "Fs2.Props.C22_lines_partial",
    "Fs2.Props.C22_lf",
    "Fs2.Props.C22_unterminated",
    "Fs2.Props.C22_split_crlf",
    "Fs2.Props.C22_resume_partial",
    "Fs2.Props.C22_last_line",
    "Fs2.Props.C22_used_pipeline"
   ],
   "note": "Lines in order for every chunking if the last line is complete and no boundary splits CRLF; C22_lf needs only the former. Disagreements proved: C22_unterminated, C22_split_crlf, and for saving and loading C22_last_line, C22_used_pipeline."
  },
  {
   "property": "C23",
   "status": "partial",
   "theorems": [
    "Fs2.Props.C23_accepts",
    "Fs2.Props.C23_rejects_partial",
    "Fs2.Props.C23_mixed_index",
    "Fs2.Props.C23_overflow",
    "Fs2.Props.C23_visit",
    "Fs2.Props.C23_resolved_path",
    "Fs2.Props.C23_map_partial",
    "Fs2.Props.C23_overlap"
   ],
   "note": "Well-formed selectors are accepted with their meaning; visiting and mapping touch exactly the named nodes. Disagreements proved: C23_mixed_index, C23_overflow, C23_resolved_path, C23_overlap."
  },
  {
   "property": "C24",
   "status": "proved",
   "theorems": [
    "Fs2.Props.C24_pad",
    "Fs2.Props.C24_nested",
    "Fs2.Props.C24_shape",
    "Fs2.Props.C24_bucket"
   ],
   "note": "Padding, stacking and nesting; tensors have one dimension."
  },
  {
   "property": "C25",
   "status": "partial",
   "theorems": [
    "Fs2.Props.C25_region_partial",
    "Fs2.Props.C25_from",
    "Fs2.Props.C25_whole",
    "Fs2.Props.C25_malformed",
    "Fs2.Props.C25_wraps"
   ],
   "note": "Exact byte ranges for offset + size below 2^64; the 64-bit sum wraps otherwise (C25_wraps)."
  },
  {
   "property": "C26",
   "status": "proved",
   "theorems": [
    "Fs2.Props.C26_fields",
    "Fs2.Props.C26_all",
    "Fs2.Props.C26_names",
    "Fs2.Props.C26_indices",
    "Fs2.Props.C26_exclude",
    "Fs2.Props.C26_single",
    "Fs2.Props.C26_names_mixed"
   ],
   "note": "Fields, join, names, indices, exclude. Names together with unsorted indices are mispaired (C26_names_mixed), which the claim does not cover."
  },
  {
   "property": "C27",
   "status": "partial",
   "theorems": [
    "Fs2.Props.C27_lockstep_partial",
    "Fs2.Props.C27_shortest",
    "Fs2.Props.C27_error_waits"
   ],
   "note": "As long as no pipeline raises: an exception on one rank leaves the others waiting in the collective (C27_error_waits)."
  },
  {
   "property": "C28",
   "status": "proved",
   "theorems": [
    "Fs2.Props.C28_longest",
    "Fs2.Props.C28_drop_remainder"
   ],
   "note": "Streams that end, with and without drop_remainder."
  },
  {
   "property": "C29",
   "status": "partial",
   "theorems": [
    "Fs2.Props.C29_same_pipelines",
    "Fs2.Props.C29_resume_partial"
   ],
   "note": "For compositions for which C01 holds, saved before the end has been reached."
  },
  {
   "property": "C30",
   "status": "proved",
   "theorems": [
    "Fs2.Props.C30_listed_complete",
    "Fs2.Props.C30_listed_model",
    "Fs2.Props.C30_committed_listed",
    "Fs2.Props.C30_example"
   ],
   "note": "Transition system of ranks, background threads, barriers and file operations; a crash is the end of an execution anywhere, sessions repeat. Excluded: deleting the step whose save is still in progress; files written by two ranks (Apart, true of every topology the code builds)."
  },
  {
   "property": "C31",
   "status": "partial",
   "theorems": [
    "Fs2.Props.C31_newest_survives_partial",
    "Fs2.Props.C31_retention_spares_newest",
    "Fs2.Props.C31_saving_again_loses"
   ],
   "note": "Holds if no call saves or deletes the step committed last; the retention policy never does while step numbers grow. Fails when a committed step is saved again (C31_saving_again_loses)."
  },
  {
   "property": "C32",
   "status": "proved",
   "theorems": [
    "Fs2.Props.C32_commit_after_all"
   ],
   "note": "Every interleaving of any number of ranks and background threads."
  },
  {
   "property": "C33",
   "status": "partial",
   "theorems": [
    "Fs2.Props.C33_load_partial",
    "Fs2.Props.C33_grid_ddp",
    "Fs2.Props.C33_grid_fsdp",
    "Fs2.Props.C33_grid_hybrid",
    "Fs2.Props.C33_pipeline_overwrites"
   ],
   "note": "All topologies that create_parallel_gangs and create_fsdp_gangs build. With more than one pipeline stage the data reader file is written by several ranks (C33_pipeline_overwrites)."
  },
  {
   "property": "C34",
   "status": "proved",
   "theorems": [
    "Fs2.Props.C34_stale",
    "Fs2.Props.C34_no_policy",
    "Fs2.Props.C34_refuses"
   ],
   "note": "Scores are rationals (finite floats); not-a-number scores are not modelled."
  },
  {
   "property": "C35",
   "status": "proved",
   "theorems": [
    "Fs2.Props.C35_model_kept",
    "Fs2.Props.C35_rest_gone"
   ],
   "note": ""
  },
  {
   "property": "C36",
   "status": "partial",
   "theorems": [
    "Fs2.Props.C36_numbered",
    "Fs2.Props.C36_numbered_resumed",
    "Fs2.Props.C36_steps_partial",
    "Fs2.Props.C36_steps_smooth",
    "Fs2.Props.C36_first_pass_overflows",
    "Fs2.Props.C36_epochs",
    "Fs2.Props.C36_no_validator"
   ],
   "note": "Full numbering, termination and count; the negation covers a first pass in which every step overflows"
  },
  {
   "property": "C37",
   "status": "partial",
   "theorems": [
    "Fs2.Props.C37_stops_partial",
    "Fs2.Props.C37_step_limit",
    "Fs2.Props.C37_not_heard"
   ],
   "note": "Holds without a step limit; with one the request is not heard (negation proved)"
  },
  {
   "property": "C38",
   "status": "partial",
   "theorems": [
    "Fs2.Props.C38_resume_partial",
    "Fs2.Props.C38_last_epoch",
    "Fs2.Props.C38_stops_early",
    "Fs2.Props.C38_extra_epoch"
   ],
   "note": "Holds for checkpoints saved after a step before the last epoch; negations for the other cases"
  },
  {
   "property": "C39",
   "status": "partial",
   "theorems": [
    "Fs2.Props.C39_labels_partial",
    "Fs2.Props.C39_labels_smooth_partial",
    "Fs2.Props.C39_mislabelled"
   ],
   "note": "Holds without stop requests or without overflows; negation for their combination"
  },
  {
   "property": "C40",
   "status": "partial",
   "theorems": [
    "Fs2.Props.C40_committed_partial",
    "Fs2.Props.C40_committed_plain_partial",
    "Fs2.Props.C40_committed_resumed_partial",
    "Fs2.Props.C40_end_of_data"
   ],
   "note": "Characterises the only case in which a save is left uncommitted; negation with witness"
  },
  {
   "property": "C41",
   "status": "proved",
   "theorems": [
    "Fs2.Props.C41_saves",
    "Fs2.Props.C41_publishes",
    "Fs2.Props.C41_validates",
    "Fs2.Props.C41_validates_at_start",
    "Fs2.Props.C41_saves_epochs",
    "Fs2.Props.C41_decision",
    "Fs2.Props.C41_after_step",
    "Fs2.Props.C41_after_epoch"
   ],
   "note": "Traces for step and epoch limits, exact decision for all settings"
  },
  {
   "property": "C42",
   "status": "partial",
   "theorems": [
    "Fs2.Props.C42_myle",
    "Fs2.Props.C42_noam",
    "Fs2.Props.C42_polynomial",
    "Fs2.Props.C42_tri_stage_partial",
    "Fs2.Props.C42_tri_stage_zero_scale",
    "Fs2.Props.C42_cosine_bounds",
    "Fs2.Props.C42_cosine_cycles_partial",
    "Fs2.Props.C42_cosine_rises",
    "Fs2.Props.C42_cosine_shrinking",
    "Fs2.Props.C42_cosine_zero_length",
    "Fs2.Props.C42_int_rate",
    "Fs2.Props.C42_groups"
   ],
   "note": "Exact reals; closed forms and bounds for every schedule. Negations: tri-stage with a final scale of 0 (or start scale 0), cosine with non-integer or shrinking cycle multipliers or zero cycle length, integer rates."
  },
  {
   "property": "C43",
   "status": "partial",
   "theorems": [
    "Fs2.Props.C43_overflow_partial",
    "Fs2.Props.C43_growth_partial",
    "Fs2.Props.C43_unnoticed",
    "Fs2.Props.C43_unnoticed_factor",
    "Fs2.Props.C43_resume",
    "Fs2.Props.C43_load_errors"
   ],
   "note": "Negation: changes of the scale within the absolute tolerance, or a factor close to one, go unnoticed (no overflow/growth is reported)."
  },
  {
   "property": "C44",
   "status": "proved",
   "theorems": [
    "Fs2.Props.C44_grid",
    "Fs2.Props.C44_consistent",
    "Fs2.Props.C44_rejects"
   ],
   "note": ""
  },
  {
   "property": "C45",
   "status": "partial",
   "theorems": [
    "Fs2.Props.C45_hybrid_partial",
    "Fs2.Props.C45_grid",
    "Fs2.Props.C45_full",
    "Fs2.Props.C45_cpu_tensor_parallel",
    "Fs2.Props.C45_rejects"
   ],
   "note": "Fails on a cpu device with tensor parallelism (C45_cpu_tensor_parallel)."
  },
  {
   "property": "C46",
   "status": "partial",
   "theorems": [
    "Fs2.Props.C46_fake_gang",
    "Fs2.Props.C46_ranks_partial",
    "Fs2.Props.C46_outside",
    "Fs2.Props.C46_coordinator_partial",
    "Fs2.Props.C46_coordinator_accepted"
   ],
   "note": "create_gang accepts a rank equal to the size (C46_outside), Gangs accepts some inconsistent coordinators (C46_coordinator_accepted)."
  },
  {
   "property": "C47",
   "status": "proved",
   "theorems": [
    "Fs2.Props.C47_packed",
    "Fs2.Props.C47_padded",
    "Fs2.Props.C47_default"
   ],
   "note": "With no lengths at all the minimum is the width and the maximum 0."
  },
  {
   "property": "C48",
   "status": "partial",
   "theorems": [
    "Fs2.Props.C48_counter",
    "Fs2.Props.C48_last_step",
    "Fs2.Props.C48_pieces",
    "Fs2.Props.C48_too_long",
    "Fs2.Props.C48_padding"
   ],
   "note": "Counter, pieces and errors proved; the last step raises (>= instead of >) and a padded piece is not supported: both proved as negations."
  },
  {
   "property": "C49",
   "status": "proved",
   "theorems": [
    "Fs2.Props.C49_full",
    "Fs2.Props.C49_overrun",
    "Fs2.Props.C49_value_dims"
   ],
   "note": "Fixed capacity requires the total to stay within max_seq_len; C49_overrun and C49_value_dims show what happens outside the hypotheses."
  },
  {
   "property": "C50",
   "status": "partial",
   "theorems": [
    "Fs2.Props.C50_local_partial",
    "Fs2.Props.C50_single_positions",
    "Fs2.Props.C50_straddle"
   ],
   "note": "Negation C50_straddle: a piece that crosses the moment the window fills exposes uninitialised memory."
  },
  {
   "property": "C51",
   "status": "partial",
   "theorems": [
    "Fs2.Props.C51_reorder_partial",
    "Fs2.Props.C51_ignored"
   ],
   "note": "Negation C51_ignored: an order of the length of the batch is ignored."
  },
  {
   "property": "C52",
   "status": "partial",
   "theorems": [
    "Fs2.Props.C52_causal_partial",
    "Fs2.Props.C52_window_ignored",
    "Fs2.Props.C52_alibi_unpadded",
    "Fs2.Props.C52_chunked_partial",
    "Fs2.Props.C52_chunked_hides_nothing",
    "Fs2.Props.C52_packed",
    "Fs2.Props.C52_padded",
    "Fs2.Props.C52_padding_sees",
    "Fs2.Props.C52_alibi_padded_raises",
    "Fs2.Props.C52_no_bias_partial",
    "Fs2.Props.C52_padding_unmasked",
    "Fs2.Props.C52_cache_stale",
    "Fs2.Props.C52_cache"
   ],
   "note": "Causal bias without a window or with one shorter than the queries, chunked bias with log_scale, packed and padded layouts proved. Negations: a window at least as long as the queries is ignored, the chunked bias hides nothing when it should, ALiBi raises on padded batches, a single-query causal bias skips the padding mask, the bias cache ignores layouts."
  },
  {
   "property": "C53",
   "status": "partial",
   "theorems": [
    "Fs2.Props.C53_mask_partial",
    "Fs2.Props.C53_rejects",
    "Fs2.Props.C53_empty_shape",
    "Fs2.Props.C53_broken_spans"
   ],
   "note": "Proved when at least one span per row results. Negations: a (0, 0) mask when no span results, and the masked positions need not form whole spans."
  },
  {
   "property": "C54",
   "status": "partial",
   "theorems": [
    "Fs2.Props.C54_shard_partial",
    "Fs2.Props.C54_whole_partial",
    "Fs2.Props.C54_replicated",
    "Fs2.Props.C54_lost_rows"
   ],
   "note": "Proved for target sizes that divide the dimension (two-dimensional tensors, either dimension). Negation: rows are lost silently otherwise."
  },
  {
   "property": "C55",
   "status": "partial",
   "theorems": [
    "Fs2.Props.C55_column",
    "Fs2.Props.C55_row_partial",
    "Fs2.Props.C55_column_then_row",
    "Fs2.Props.C55_vocab_partial",
    "Fs2.Props.C55_dim",
    "Fs2.Props.C55_bias_twice",
    "Fs2.Props.C55_outside"
   ],
   "note": "Exact arithmetic. Negations: with reduce_output=False every rank adds the bias; indices outside the table give zeros instead of an error."
  },
  {
   "property": "C56",
   "status": "partial",
   "theorems": [
    "Fs2.Props.C56_counts",
    "Fs2.Props.C56_padded",
    "Fs2.Props.C56_padded_rejects",
    "Fs2.Props.C56_packed_partial",
    "Fs2.Props.C56_packed_crosses",
    "Fs2.Props.C56_pairs_padded",
    "Fs2.Props.C56_source_as_target",
    "Fs2.Props.C56_packed_pair_raises"
   ],
   "note": "proved for padded batches, single and paired; packed batches pair the last element of one sequence with the first of the next, a pair batch without a mask counts its source elements as targets, and packed pairs whose last target has one element raise, all shown by concrete witnesses"
  },
  {
   "property": "C57",
   "status": "partial",
   "theorems": [
    "Fs2.Props.C57_beam_partial",
    "Fs2.Props.C57_generated_partial",
    "Fs2.Props.C57_forced_eos",
    "Fs2.Props.C57_step",
    "Fs2.Props.C57_never"
   ],
   "note": "The processor forbids exactly the tokens that repeat an n-gram, sequences grown by permitted tokens repeat none, and neither do the sequences of the sampling and beam search generators, except by the EOS that is forced at the length limit without consulting the processors (C57_forced_eos). Not covered: negative sizes."
  },
  {
   "property": "C58",
   "status": "partial",
   "theorems": [
    "Fs2.Props.C58_beam_partial",
    "Fs2.Props.C58_generated_partial",
    "Fs2.Props.C58_forced_eos",
    "Fs2.Props.C58_step",
    "Fs2.Props.C58_empty",
    "Fs2.Props.C58_never"
   ],
   "note": "The processor forbids exactly the tokens that complete a banned sequence, sequences grown by permitted tokens contain none, and neither do the sequences of the sampling generator, except by the EOS that is forced at the length limit (C58_forced_eos)."
  },
  {
   "property": "C59",
   "status": "partial",
   "theorems": [
    "Fs2.Props.C59_topp_weights",
    "Fs2.Props.C59_topp",
    "Fs2.Props.C59_topp_raises",
    "Fs2.Props.C59_topk",
    "Fs2.Props.C59_greedy_all_zero"
   ],
   "note": "proved for probabilities that are not all zero; with all probabilities zero, greedy top-k (k = 1) returns a token although none is permitted (C59_greedy_all_zero), the others raise"
  },
  {
   "property": "C60",
   "status": "partial",
   "theorems": [
    "Fs2.Props.C60_shape",
    "Fs2.Props.C60_beams_partial",
    "Fs2.Props.C60_length",
    "Fs2.Props.C60_one_step",
    "Fs2.Props.C60_short_prompt",
    "Fs2.Props.C60_small_vocabulary",
    "Fs2.Props.C60_eos_in_prompt"
   ],
   "note": "Proved whatever the model, processors and scores: if generation returns, at most beam_size different hypotheses per prompt, ordered by score, each of them prompt, tokens other than EOS, EOS, within the length limit. Exactly beam_size hypotheses, the minimum length and the score as the normalized sum of log probabilities are proved under BeamReady (finite model outputs, 2*beam_size <= vocabulary, enough tokens left by the processors, possible prompts, more than one generated token). Without these the claim fails in the code: C60_one_step, C60_small_vocabulary, C60_eos_in_prompt; and max_gen_len is relative to the longest prompt: C60_short_prompt."
  },
  {
   "property": "C61",
   "status": "partial",
   "theorems": [
    "Fs2.Props.C61_sequences_partial",
    "Fs2.Props.C61_total",
    "Fs2.Props.C61_length",
    "Fs2.Props.C61_short_prompt",
    "Fs2.Props.C61_zero_gens"
   ],
   "note": "Exactly num_gens well formed sequences for every prompt, and no exception while there is something to choose. Violated: num_gens = 0 gives one sequence; the generated length is limited by max_gen_len for the longest prompts only. Not modelled here: scores, hooks; prefill with a state bag is C108."
  },
  {
   "property": "C62",
   "status": "proved",
   "theorems": [
    "Fs2.Props.C62_rollback",
    "Fs2.Props.C62_commit",
    "Fs2.Props.C62_misuse",
    "Fs2.Props.C62_update",
    "Fs2.Props.C62_round_trip",
    "Fs2.Props.C62_load_keys",
    "Fs2.Props.C62_reset",
    "Fs2.Props.C62_held_metric"
   ],
   "note": "Every execution of a client of the bag: updates through the bag or through held metrics, additions, resets, failing loads and exceptions; rollback, commit, misuse, visibility of updates, round trip of states, reset. C62_held_metric records that a metric object the client holds is not rolled back: the bag goes on with copies, and later updates through the held object do not reach it. Moves between devices and synchronization between processes are not modelled."
  },
  {
   "property": "C63",
   "status": "proved",
   "theorems": [
    "Fs2.Props.C63_singleton_once",
    "Fs2.Props.C63_singleton_same",
    "Fs2.Props.C63_frozen",
    "Fs2.Props.C63_terminates",
    "Fs2.Props.C63_cycle",
    "Fs2.Props.C63_resolve_iff",
    "Fs2.Props.C63_maybe",
    "Fs2.Props.C63_failing_singleton"
   ],
   "note": "Arbitrary stateful providers and clients as interaction programs (nested resolves, collections, caught exceptions, registrations): singletons created at most once and always handed out as that instance, registration refused after the first resolve, resolving always ends; for automatically wired classes a complete description of when resolving succeeds and which cycle or missing key is reported. Thread safety (the container has no locks) is not modelled."
  },
  {
   "property": "C64",
   "status": "proved",
   "theorems": [
    "Fs2.Props.C64_keys",
    "Fs2.Props.C64_untouched",
    "Fs2.Props.C64_asked",
    "Fs2.Props.C64_removed",
    "Fs2.Props.C64_identity",
    "Fs2.Props.C64_idempotent",
    "Fs2.Props.C64_error",
    "Fs2.Props.C64_null_overrides"
   ],
   "note": "Key-wise and path-wise description of merges with values, dictionaries, _set_ and _del_; untouched paths, identity, idempotence, exactly which overrides raise. C64_null_overrides records that overrides which are null, or a configuration which is no dictionary, are not merged but replaced. Config directives are not part of this property."
  },
  {
   "property": "C65",
   "status": "partial",
   "theorems": [
    "Fs2.Props.C65_round_trip_partial",
    "Fs2.Props.C65_typed_unchanged",
    "Fs2.Props.C65_sound",
    "Fs2.Props.C65_strict",
    "Fs2.Props.C65_fields",
    "Fs2.Props.C65_plain",
    "Fs2.Props.C65_unstructure_twice",
    "Fs2.Props.C65_union_partial",
    "Fs2.Props.C65_union_order",
    "Fs2.Props.C65_none_first",
    "Fs2.Props.C65_coerced_numbers",
    "Fs2.Props.C65_coerced_strings",
    "Fs2.Props.C65_object_path",
    "Fs2.Props.C65_tuple_keys"
   ],
   "note": "Round trip for well-typed values with scalar dictionary keys and no unions other than 't | None'; C65_union_partial for unions whose earlier alternatives reject the value. Every result has the requested type (C65_sound), bool/str/None/literals are strict (C65_strict). Missing because the code does not do it: ambiguous unions, 'None | t', numbers read from strings, strings as lists, paths in untyped fields, tuples as keys (each proved as a separate theorem)."
  },
  {
   "property": "C66",
   "status": "partial",
   "theorems": [
    "Fs2.Props.C66_precedence",
    "Fs2.Props.C66_missing_field",
    "Fs2.Props.C66_ends_partial",
    "Fs2.Props.C66_result",
    "Fs2.Props.C66_names",
    "Fs2.Props.C66_cycle",
    "Fs2.Props.C66_environment_only",
    "Fs2.Props.C66_relative_path",
    "Fs2.Props.C66_in_memory_base"
   ],
   "note": "Precedence, missing fields and results are proved for every store; retrieval ends exactly when the base names are well founded, and a cyclic base (C66_cycle) does not end. Further disagreements: C66_environment_only, C66_relative_path, C66_in_memory_base."
  },
  {
   "property": "C67",
   "status": "partial",
   "theorems": [
    "Fs2.Props.C67_format",
    "Fs2.Props.C67_key_order_partial",
    "Fs2.Props.C67_one_change_partial",
    "Fs2.Props.C67_same_lengths_partial",
    "Fs2.Props.C67_order",
    "Fs2.Props.C67_removed_characters",
    "Fs2.Props.C67_types",
    "Fs2.Props.C67_empty",
    "Fs2.Props.C67_hash_text",
    "Fs2.Props.C67_world_size",
    "Fs2.Props.C67_stray_brace"
   ],
   "note": "Independence of key order is proved when no two values share a path (C67_order otherwise), and different hash inputs for one change or for texts of equal lengths; distinctness fails in general, see the C67 disagreements."
  },
  {
   "property": "C68",
   "status": "partial",
   "theorems": [
    "Fs2.Props.C68_complete_partial",
    "Fs2.Props.C68_force",
    "Fs2.Props.C68_stale_temporary_file",
    "Fs2.Props.C68_local_only",
    "Fs2.Props.C68_forced_call",
    "Fs2.Props.C68_unknown_length"
   ],
   "note": "Proved for runs without crashes in the fragile phases, and for forced calls from any disk; the four disagreements show that the restrictions are needed."
  },
  {
   "property": "C69",
   "status": "partial",
   "theorems": [
    "Fs2.Props.C69_error_iff",
    "Fs2.Props.C69_report_partial",
    "Fs2.Props.C69_same_repr",
    "Fs2.Props.C69_empty_message"
   ],
   "note": "The equivalence is proved for all objects (trees). The report is complete when parts have different names; keys with the same repr and empty messages are lost (C69_same_repr, C69_empty_message)."
  },
  {
   "property": "C70",
   "status": "partial",
   "theorems": [
    "Fs2.Props.C70_saved_once_partial",
    "Fs2.Props.C70_saved_twice"
   ],
   "note": "Holds without stop requests and epoch periods; negation with witness"
  },
  {
   "property": "C71",
   "status": "proved",
   "theorems": [
    "Fs2.Props.C71_packed",
    "Fs2.Props.C71_padded",
    "Fs2.Props.C71_causal",
    "Fs2.Props.C71_average"
   ],
   "note": "All biases but ALiBi, exact reals, one head, no dropout."
  },
  {
   "property": "C72",
   "status": "proved",
   "theorems": [
    "Fs2.Props.C72_column",
    "Fs2.Props.C72_row"
   ],
   "note": "Exact arithmetic, one input vector."
  },
  {
   "property": "C73",
   "status": "partial",
   "theorems": [
    "Fs2.Props.C73_splits",
    "Fs2.Props.C73_maximal_ordered",
    "Fs2.Props.C73_not_maximal_unordered",
    "Fs2.Props.C73_table_by_size",
    "Fs2.Props.C73_table_by_tokens",
    "Fs2.Props.C73_table_rejects"
   ],
   "note": "All but one clause proved: without order_by_length a split need not be as large as it could be (C73_not_maximal_unordered); with it maximality is proved. Lengths are natural numbers."
  },
  {
   "property": "C74",
   "status": "partial",
   "theorems": [
    "Fs2.Props.C74_epochs",
    "Fs2.Props.C74_counts",
    "Fs2.Props.C74_prefix",
    "Fs2.Props.C74_hash_sharding",
    "Fs2.Props.C74_unseeded_negation"
   ],
   "note": "Proved for seeded or unshuffled streams; for shuffled streams without a seed the statement fails (C74_unseeded_negation). Sharding by position is C06."
  },
  {
   "property": "C75",
   "status": "partial",
   "theorems": [
    "Fs2.Props.C75_pickle",
    "Fs2.Props.C75_reset",
    "Fs2.Props.C75_unseeded_negation"
   ],
   "note": "Proved for seeded or unshuffled streams; fails without a seed (C75_unseeded_negation)."
  },
  {
   "property": "C76",
   "status": "partial",
   "theorems": [
    "Fs2.Props.C76_row_groups",
    "Fs2.Props.C76_files",
    "Fs2.Props.C76_at_most_partial",
    "Fs2.Props.C76_at_most_negation",
    "Fs2.Props.C76_files_kept",
    "Fs2.Props.C76_schedule"
   ],
   "note": "The selection is characterised in full; the bound by nb_fragments fails for 0 (C76_at_most_negation)."
  },
  {
   "property": "C77",
   "status": "partial",
   "theorems": [
    "Fs2.Props.C77_reads",
    "Fs2.Props.C77_save_harmless",
    "Fs2.Props.C77_reset",
    "Fs2.Props.C77_resume_partial",
    "Fs2.Props.C77_resume_reachable",
    "Fs2.Props.C77_resume_new",
    "Fs2.Props.C77_resume_loaded",
    "Fs2.Props.C77_resume_negation",
    "Fs2.Props.C77_double_load"
   ],
   "note": "Exact for sources that were created, or loaded and used at least once; saving right after loading loses an example (C77_resume_negation)."
  },
  {
   "property": "C78",
   "status": "partial",
   "theorems": [
    "Fs2.Props.C78_finite_partial",
    "Fs2.Props.C78_all_nonfinite",
    "Fs2.Props.C78_nonfinite_negation",
    "Fs2.Props.C78_single"
   ],
   "note": "Exact for finite norms, all non-finite norms and one process; with finite and non-finite norms mixed the check passes (C78_nonfinite_negation)."
  },
  {
   "property": "C79",
   "status": "partial",
   "theorems": [
    "Fs2.Props.C79_step",
    "Fs2.Props.C79_train",
    "Fs2.Props.C79_one_process",
    "Fs2.Props.C79_no_targets_negation",
    "Fs2.Props.C79_clip",
    "Fs2.Props.C79_unchecked"
   ],
   "note": "Proved if every process has a target in every step; otherwise the processes call different collectives (C79_no_targets_negation). Exact arithmetic; torch by contract."
  },
  {
   "property": "C80",
   "status": "partial",
   "theorems": [
    "Fs2.Props.C80_repeats",
    "Fs2.Props.C80_restored",
    "Fs2.Props.C80_range",
    "Fs2.Props.C80_seeded",
    "Fs2.Props.C80_load",
    "Fs2.Props.C80_load_same",
    "Fs2.Props.C80_load_refused_partial",
    "Fs2.Props.C80_load_negation",
    "Fs2.Props.C80_devices",
    "Fs2.Props.C80_devices_negation"
   ],
   "note": "A refused state dictionary may have changed generators (C80_load_negation); a CUDA device named in two ways is held twice (C80_devices_negation)."
  },
  {
   "property": "C81",
   "status": "partial",
   "theorems": [
    "Fs2.Props.C81_assignment",
    "Fs2.Props.C81_deletion",
    "Fs2.Props.C81_refused",
    "Fs2.Props.C81_merges",
    "Fs2.Props.C81_given",
    "Fs2.Props.C81_deleted",
    "Fs2.Props.C81_untouched",
    "Fs2.Props.C81_options",
    "Fs2.Props.C81_order_negation"
   ],
   "note": "Order within one option is not kept (C81_order_negation); C81_given and C81_deleted say what holds instead."
  },
  {
   "property": "C82",
   "status": "proved",
   "theorems": [
    "Fs2.Props.C82_env",
    "Fs2.Props.C82_plain",
    "Fs2.Props.C82_dir",
    "Fs2.Props.C82_fails",
    "Fs2.Props.C82_process"
   ],
   "note": ""
  },
  {
   "property": "C83",
   "status": "partial",
   "theorems": [
    "Fs2.Props.C83_asset_given_partial",
    "Fs2.Props.C83_asset_kept_partial",
    "Fs2.Props.C83_asset_error",
    "Fs2.Props.C83_reexpanded_negation",
    "Fs2.Props.C83_recipe_option",
    "Fs2.Props.C83_recipe_file",
    "Fs2.Props.C83_recipe_default",
    "Fs2.Props.C83_recipe_error",
    "Fs2.Props.C83_unexpanded_negation"
   ],
   "note": "Values with directives in asset configurations are expanded once per card (C83_reexpanded_negation); recipe directives run only with a file and not on overrides (C83_unexpanded_negation)."
  },
  {
   "property": "C84",
   "status": "partial",
   "theorems": [
    "Fs2.Props.C84_resharded",
    "Fs2.Props.C84_same_sizes",
    "Fs2.Props.C84_refused",
    "Fs2.Props.C84_not_tensor",
    "Fs2.Props.C84_gap_negation",
    "Fs2.Props.C84_stages_negation"
   ],
   "note": "Lost stage directories are accepted (C84_gap_negation) and stages of other processes are given if only the pipeline sizes agree (C84_stages_negation). Sharded dimensions must be divisible by both tensor parallel sizes (see C54)."
  },
  {
   "property": "C85",
   "status": "partial",
   "theorems": [
    "Fs2.Props.C85_modules",
    "Fs2.Props.C85_apply_partial",
    "Fs2.Props.C85_grad_negation",
    "Fs2.Props.C85_device",
    "Fs2.Props.C85_device_refused",
    "Fs2.Props.C85_share_partial",
    "Fs2.Props.C85_share_negation",
    "Fs2.Props.C85_share_refused",
    "Fs2.Props.C85_broadcast_partial",
    "Fs2.Props.C85_broadcast_negation",
    "Fs2.Props.C85_broadcast_values_partial",
    "Fs2.Props.C85_load_partial",
    "Fs2.Props.C85_load_negation"
   ],
   "note": "Proved for the functions as they are; four cases in which the code does not do what is claimed are proved as negations: functions that keep a parameter but not its gradient, modules with different ties, buffers persistent in one module only, and keys under the second name of a shared module."
  },
  {
   "property": "C86",
   "status": "partial",
   "theorems": [
    "Fs2.Props.C86_rotation",
    "Fs2.Props.C86_scores",
    "Fs2.Props.C86_norm",
    "Fs2.Props.C86_raises",
    "Fs2.Props.C86_rows",
    "Fs2.Props.C86_padding_partial",
    "Fs2.Props.C86_padding_negation",
    "Fs2.Props.C86_pieces",
    "Fs2.Props.C86_reference",
    "Fs2.Props.C86_permute",
    "Fs2.Props.C86_converted",
    "Fs2.Props.C86_dual",
    "Fs2.Props.C86_scaled",
    "Fs2.Props.C86_llama"
   ],
   "note": "padding is zero only without earlier steps; the full statement is refuted by C86_padding_negation"
  },
  {
   "property": "C87",
   "status": "partial",
   "theorems": [
    "Fs2.Props.C87_keys",
    "Fs2.Props.C87_reverse",
    "Fs2.Props.C87_roundtrip",
    "Fs2.Props.C87_tables",
    "Fs2.Props.C87_names",
    "Fs2.Props.C87_collision_negation",
    "Fs2.Props.C87_llama_raises",
    "Fs2.Props.C87_llama_import",
    "Fs2.Props.C87_llama_there_and_back",
    "Fs2.Props.C87_llama_back_and_there",
    "Fs2.Props.C87_plain_there_and_back",
    "Fs2.Props.C87_ref_roundtrip",
    "Fs2.Props.C87_export_twice_negation",
    "Fs2.Props.C87_import_mutates_negation",
    "Fs2.Props.C87_config_partial",
    "Fs2.Props.C87_config_negation"
   ],
   "note": "key maps, LLaMA, Qwen and OLMo dictionaries proved; the feed-forward size only for the usual configuration, negation proved; negations for in-place changes and mixed names"
  },
  {
   "property": "C88",
   "status": "partial",
   "theorems": [
    "Fs2.Props.C88_report",
    "Fs2.Props.C88_accepts",
    "Fs2.Props.C88_values",
    "Fs2.Props.C88_loaded_partial",
    "Fs2.Props.C88_order_partial",
    "Fs2.Props.C88_ties_negation",
    "Fs2.Props.C88_refused_negation",
    "Fs2.Props.C88_ranks_partial"
   ],
   "note": "Tied tensors that differ in the checkpoint and refusals that leave the model half loaded are disagreements."
  },
  {
   "property": "C89",
   "status": "partial",
   "theorems": [
    "Fs2.Props.C89_encoding",
    "Fs2.Props.C89_shift",
    "Fs2.Props.C89_scores",
    "Fs2.Props.C89_padding",
    "Fs2.Props.C89_unequal",
    "Fs2.Props.C89_step",
    "Fs2.Props.C89_step_negation",
    "Fs2.Props.C89_shaw",
    "Fs2.Props.C89_shaw_step",
    "Fs2.Props.C89_shaw_padding"
   ],
   "note": "The claim about decoding with a state holds for Shaw attention only; for Transformer-XL it is a disagreement (C89_step_negation)."
  },
  {
   "property": "C90",
   "status": "partial",
   "theorems": [
    "Fs2.Props.C90_sum",
    "Fs2.Props.C90_mean",
    "Fs2.Props.C90_max",
    "Fs2.Props.C90_throughput",
    "Fs2.Props.C90_wer",
    "Fs2.Props.C90_wer_empty",
    "Fs2.Props.C90_spread",
    "Fs2.Props.C90_nll_partial",
    "Fs2.Props.C90_nll_mean",
    "Fs2.Props.C90_nll_negation",
    "Fs2.Props.C90_derived"
   ],
   "note": "the loss per target is proved for batches that have targets; a batch without any counts as one target (negation)"
  },
  {
   "property": "C91",
   "status": "partial",
   "theorems": [
    "Fs2.Props.C91_lapse",
    "Fs2.Props.C91_total",
    "Fs2.Props.C91_resume",
    "Fs2.Props.C91_resume_negation",
    "Fs2.Props.C91_nll_partial"
   ],
   "note": "totals survive restarts; the other metrics miss the steps between the last publication and the checkpoint (negation), and the loss is for batches with targets"
  },
  {
   "property": "C92",
   "status": "proved",
   "theorems": [
    "Fs2.Props.C92_run",
    "Fs2.Props.C92_score",
    "Fs2.Props.C92_no_score",
    "Fs2.Props.C92_refused",
    "Fs2.Props.C92_ranks",
    "Fs2.Props.C92_again",
    "Fs2.Props.C92_best",
    "Fs2.Props.C92_evaluate",
    "Fs2.Props.C92_stop"
   ],
   "note": ""
  },
  {
   "property": "C93",
   "status": "partial",
   "theorems": [
    "Fs2.Props.C93_first",
    "Fs2.Props.C93_groups",
    "Fs2.Props.C93_partition",
    "Fs2.Props.C93_count_partial",
    "Fs2.Props.C93_count_negation",
    "Fs2.Props.C93_select",
    "Fs2.Props.C93_rates"
   ],
   "note": "the number of groups is proved unless a configuration is the pattern .* alone (negation)"
  },
  {
   "property": "C94",
   "status": "partial",
   "theorems": [
    "Fs2.Props.C94_loss",
    "Fs2.Props.C94_aim",
    "Fs2.Props.C94_nonneg",
    "Fs2.Props.C94_parts",
    "Fs2.Props.C94_padding",
    "Fs2.Props.C94_default",
    "Fs2.Props.C94_outside",
    "Fs2.Props.C94_outside_negation",
    "Fs2.Props.C94_single"
   ],
   "note": "with smoothing, ignored targets must be in the vocabulary (negation)"
  },
  {
   "property": "C95",
   "status": "proved",
   "theorems": [
    "Fs2.Props.C95_forward",
    "Fs2.Props.C95_tokens",
    "Fs2.Props.C95_too_many",
    "Fs2.Props.C95_shard",
    "Fs2.Props.C95_shard_refused"
   ],
   "note": "forward pass and tensor parallel sharding of the experts and the shared expert"
  },
  {
   "property": "C96",
   "status": "partial",
   "theorems": [
    "Fs2.Props.C96_full",
    "Fs2.Props.C96_session_partial",
    "Fs2.Props.C96_agrees_partial",
    "Fs2.Props.C96_window_forgotten",
    "Fs2.Props.C96_window_full",
    "Fs2.Props.C96_window_differs"
   ],
   "note": "Proved for models without windows, and for models with windows and matching caches when pieces after the first have one token; orders that keep the number of sequences must keep their sources. Missing are the cases that the code gets wrong: a window with a full cache (negation proved), later pieces of several tokens with a window (C50, C52), moved sources (C51)."
  },
  {
   "property": "C97",
   "status": "partial",
   "theorems": [
    "Fs2.Props.C97_frontend_partial",
    "Fs2.Props.C97_alone",
    "Fs2.Props.C97_conformer",
    "Fs2.Props.C97_count",
    "Fs2.Props.C97_usual",
    "Fs2.Props.C97_group_norm",
    "Fs2.Props.C97_stacked",
    "Fs2.Props.C97_sampled",
    "Fs2.Props.C97_subsampler"
   ],
   "note": "Proved for frontends without group norm, stacked position encoder and sampling, and for conformer convolutions; with these the statement is false (C97_group_norm, C97_stacked, C97_sampled) and the subsampler of S2T refuses padding (C97_subsampler)."
  },
  {
   "property": "C98",
   "status": "partial",
   "theorems": [
    "Fs2.Props.C98_encoder",
    "Fs2.Props.C98_asr",
    "Fs2.Props.C98_asr_alone",
    "Fs2.Props.C98_lm_partial",
    "Fs2.Props.C98_translate_partial",
    "Fs2.Props.C98_one_token",
    "Fs2.Props.C98_starved"
   ],
   "note": "Padded batches with ALiBi raise (C52_alibi_padded_raises); targets of one token that are padded are not masked (C98_one_token); a nan at a padding position (C98_starved) is not followed further."
  },
  {
   "property": "C99",
   "status": "partial",
   "theorems": [
    "Fs2.Props.C99_encode",
    "Fs2.Props.C99_ends",
    "Fs2.Props.C99_tokens",
    "Fs2.Props.C99_round_trip",
    "Fs2.Props.C99_round_trip_tokens",
    "Fs2.Props.C99_index_partial",
    "Fs2.Props.C99_index_wraps",
    "Fs2.Props.C99_pad_first",
    "Fs2.Props.C99_nllb",
    "Fs2.Props.C99_symbol_twice",
    "Fs2.Props.C99_empty_symbol",
    "Fs2.Props.C99_unknown_frame",
    "Fs2.Props.C99_modes",
    "Fs2.Props.C99_prompt_response",
    "Fs2.Props.C99_refused",
    "Fs2.Props.C99_translation",
    "Fs2.Props.C99_origin",
    "Fs2.Props.C99_gemma",
    "Fs2.Props.C99_truncated",
    "Fs2.Props.C99_pad_not_eos",
    "Fs2.Props.C99_vocab_info",
    "Fs2.Props.C99_qwen_pad",
    "Fs2.Props.C99_special",
    "Fs2.Props.C99_llama",
    "Fs2.Props.C99_skip",
    "Fs2.Props.C99_llama_frame",
    "Fs2.Props.C99_injected",
    "Fs2.Props.C99_forged",
    "Fs2.Props.C99_tiktoken_tokens_partial",
    "Fs2.Props.C99_half_character",
    "Fs2.Props.C99_tiktoken_refused",
    "Fs2.Props.C99_hg_decode_partial",
    "Fs2.Props.C99_hg_decoder"
   ],
   "note": "Everything stated is proved for the model except what the code does not do: C99_index_partial holds for indices of 32 bits, C99_tiktoken_tokens_partial for text that can be encoded as tokens, C99_hg_decode_partial for calls that all ask the same; C99_index_wraps, C99_unknown_frame, C99_injected, C99_forged, C99_half_character, C99_hg_decoder, C99_qwen_pad, C99_gemma and C99_truncated prove the violations."
  },
  {
   "property": "C100",
   "status": "partial",
   "theorems": [
    "Fs2.Props.C100_loss_partial",
    "Fs2.Props.C100_learnt",
    "Fs2.Props.C100_split",
    "Fs2.Props.C100_uncounted",
    "Fs2.Props.C100_one_token",
    "Fs2.Props.C100_ids"
   ],
   "note": "Proved for everything but response tokens that are the pad_idx of the model: they are counted but not learnt (C100_uncounted), so the specification of the loss leaves them out. Examples need two tokens (C100_one_token) and ids all present with one type or all absent (C100_ids)."
  },
  {
   "property": "C101",
   "status": "partial",
   "theorems": [
    "Fs2.Props.C101_accepts",
    "Fs2.Props.C101_lengths",
    "Fs2.Props.C101_bounded",
    "Fs2.Props.C101_optimal",
    "Fs2.Props.C101_multiple_partial",
    "Fs2.Props.C101_not_a_multiple",
    "Fs2.Props.C101_batches"
   ],
   "note": "All but the multiple: a bucket with room for fewer sequences than num_seqs_multiple_of is left as it is (C101_not_a_multiple)."
  },
  {
   "property": "C102",
   "status": "partial",
   "theorems": [
    "Fs2.Props.C102_static",
    "Fs2.Props.C102_length_partial",
    "Fs2.Props.C102_loss_partial",
    "Fs2.Props.C102_first",
    "Fs2.Props.C102_refused",
    "Fs2.Props.C102_no_text",
    "Fs2.Props.C102_too_few",
    "Fs2.Props.C102_short"
   ],
   "note": "one source; with batches by number of elements no example below min_seq_len; no limit on the number of batches; negations C102_too_few and C102_short"
  },
  {
   "property": "C103",
   "status": "partial",
   "theorems": [
    "Fs2.Props.C103_decode",
    "Fs2.Props.C103_error_rates_partial",
    "Fs2.Props.C103_all_blank",
    "Fs2.Props.C103_report_partial",
    "Fs2.Props.C103_good_models",
    "Fs2.Props.C103_fits",
    "Fs2.Props.C103_value",
    "Fs2.Props.C103_loss",
    "Fs2.Props.C103_validation_partial",
    "Fs2.Props.C103_crash",
    "Fs2.Props.C103_mean"
   ],
   "note": "The loss, its value and the decoding are proved. The error rates are proved for batches in which no recording decodes to blanks only, and the report for rates of at least one percent; the other cases are refuted by C103_all_blank, C103_crash and C103_good_models. ctc_loss of torch is taken by its contract."
  },
  {
   "property": "C104",
   "status": "partial",
   "theorems": [
    "Fs2.Props.C104_task_partial",
    "Fs2.Props.C104_blind",
    "Fs2.Props.C104_others",
    "Fs2.Props.C104_refused",
    "Fs2.Props.C104_collapse",
    "Fs2.Props.C104_diversity",
    "Fs2.Props.C104_penalty_partial",
    "Fs2.Props.C104_penalty_padding",
    "Fs2.Props.C104_temperature"
   ],
   "note": "C104_task_partial assumes extractors without group normalization over the batch width (Steady); C104_penalty_partial assumes equal lengths, with the violation C104_penalty_padding. Dropout and gradients are not modelled."
  },
  {
   "property": "C105",
   "status": "partial",
   "theorems": [
    "Fs2.Props.C105_generation_partial",
    "Fs2.Props.C105_sequences_partial",
    "Fs2.Props.C105_batch_partial",
    "Fs2.Props.C105_refused",
    "Fs2.Props.C105_dauphin",
    "Fs2.Props.C105_sparse",
    "Fs2.Props.C105_single",
    "Fs2.Props.C105_single_ffn",
    "Fs2.Props.C105_single_dauphin"
   ],
   "note": "Proved for padded and packed batches and for whole generations with caches (C105_generation_partial, C105_sequences_partial, C105_batch_partial) and refusals (C105_refused). Missing: ALiBi, whose bias tensor is not sharded. Violated by DauphinFeedForwardNetwork and by activation_sparsity (C105_dauphin, C105_sparse)."
  },
  {
   "property": "C106",
   "status": "partial",
   "theorems": [
    "Fs2.Props.C106_translate",
    "Fs2.Props.C106_translate_partial",
    "Fs2.Props.C106_complete_partial",
    "Fs2.Props.C106_complete_company",
    "Fs2.Props.C106_complete_lengths",
    "Fs2.Props.C106_no_texts",
    "Fs2.Props.C106_chunks",
    "Fs2.Props.C106_best",
    "Fs2.Props.C106_translate_longer",
    "Fs2.Props.C106_complete_eos",
    "Fs2.Props.C106_complete_fails"
   ],
   "note": "Equality with the text alone holds for equal lengths (C106_translate_partial, C106_complete_partial); for different lengths it is false (C106_translate_longer, C106_complete_eos, C106_complete_fails), and C106_translate, C106_complete_company and C106_complete_lengths say what a text gets instead."
  },
  {
   "property": "C107",
   "status": "partial",
   "theorems": [
    "Fs2.Props.C107_language_partial",
    "Fs2.Props.C107_source_partial",
    "Fs2.Props.C107_memory_partial",
    "Fs2.Props.C107_alone_partial",
    "Fs2.Props.C107_source_lost"
   ],
   "note": "Proved for decoders as in C96 (no window and a full cache, ALiBi, or a window with a windowed cache), prompts of any lengths without an encoder, and prompts of equal length with one when the vocabulary has at least twice as many entries as the beam. Missing: windows with chunks of more than one token; with an encoder, prompts of different lengths, for which the property is false (C107_source_lost), and smaller vocabularies."
  },
  {
   "property": "C108",
   "status": "partial",
   "theorems": [
    "Fs2.Props.C108_language_partial",
    "Fs2.Props.C108_source_partial",
    "Fs2.Props.C108_memory_partial",
    "Fs2.Props.C108_sequences_partial",
    "Fs2.Props.C108_fan_out_lost"
   ],
   "note": "Proved for all decoders that GoodModel allows: sampling with a state bag gives exactly the sequences of sampling in which every sequence is decoded anew (and raises exactly when a probability within the prompts is not a number), for language models with any prompts, and for encoder-decoder models if every prompt has two tokens or one sequence per prompt is asked for; independence of memory, capacity increment and chunk size; what the sequences look like. Not proved: windows with larger prefill chunks and biases outside GoodModel. C108_fan_out_lost proves that one-token prompts with several sequences raise."
  },
  {
   "property": "C109",
   "status": "proved",
   "theorems": [
    "Fs2.Props.C109_packed",
    "Fs2.Props.C109_epoch",
    "Fs2.Props.C109_few_files",
    "Fs2.Props.C109_empty_rank",
    "Fs2.Props.C109_crosses",
    "Fs2.Props.C109_documented_cut"
   ],
   "note": "One source in C109_epoch; C109_packed holds for whatever is sampled from several. Violations: C109_crosses (first token of a text inside a batch), C109_documented_cut, C109_empty_rank. How often each of several sources is sampled is C08."
  },
  {
   "property": "C110",
   "status": "partial",
   "theorems": [
    "Fs2.Props.C110_lm",
    "Fs2.Props.C110_translate_partial",
    "Fs2.Props.C110_refuses",
    "Fs2.Props.C110_alibi_raises",
    "Fs2.Props.C110_starved",
    "Fs2.Props.C110_loss",
    "Fs2.Props.C110_epoch",
    "Fs2.Props.C110_total"
   ],
   "note": "C110_lm, C110_loss, C110_epoch and C110_total are complete; C110_translate_partial leaves out what nan at padding positions of targets does (C110_starved says when it arises). C110_alibi_raises is the violation for ALiBi. Logits at padding positions are not specified."
  },
  {
   "property": "C111",
   "status": "proved",
   "theorems": [
    "Fs2.Props.C111_rank",
    "Fs2.Props.C111_all",
    "Fs2.Props.C111_readers",
    "Fs2.Props.C111_no_hypothesis",
    "Fs2.Props.C111_completes",
    "Fs2.Props.C111_mixed_ids"
   ],
   "note": "ids that are not alike raise an exception, see C111_mixed_ids"
  },
  {
   "property": "C112",
   "status": "partial",
   "theorems": [
    "Fs2.Props.C112_never_lost",
    "Fs2.Props.C112_exact",
    "Fs2.Props.C112_training_partial",
    "Fs2.Props.C112_finished_partial",
    "Fs2.Props.C112_restart_loses",
    "Fs2.Props.C112_early_stop_unscored"
   ],
   "note": "Events in order and runs and resumed trainings without limits or saves by epochs, without stop requests and without save_model_only; the early stopper may end a run. C112_restart_loses and C112_early_stop_unscored show that the claim fails for restarts with save_model_only and for an early stop at a saved end of an epoch."
  },
  {
   "property": "C113",
   "status": "partial",
   "theorems": [
    "Fs2.Props.C113_accepts",
    "Fs2.Props.C113_epoch_partial",
    "Fs2.Props.C113_budget",
    "Fs2.Props.C113_empty_transcript",
    "Fs2.Props.C113_epochs_partial",
    "Fs2.Props.C113_later_epoch"
   ],
   "note": "All epochs in full as long as every rank reads them to the end (C113_epochs_partial; C113_epoch_partial is the first one alone), which limits are accepted, the budget of samples. Missing: epochs that ranks leave early (max_num_batches), which violate the property from the second epoch on: C113_later_epoch has a witness. An empty transcript makes the reader fail: C113_empty_transcript."
  },
  {
   "property": "C114",
   "status": "partial",
   "theorems": [
    "Fs2.Props.C114_accepts",
    "Fs2.Props.C114_epochs_partial",
    "Fs2.Props.C114_budget",
    "Fs2.Props.C114_tail_unused",
    "Fs2.Props.C114_one_place",
    "Fs2.Props.C114_resume"
   ],
   "note": "Proved for all epochs that every rank reads to its end: sharing of the recordings, stretches, equal lengths, no padding, budget (C114_epochs_partial, C114_budget), and which limits are accepted. False: the end of a longer recording is never used (C114_tail_unused, C114_one_place) and a restored reader cuts at other places (C114_resume). Missing: epochs left undrained."
  },
  {
   "property": "C115",
   "status": "partial",
   "theorems": [
    "Fs2.Props.C115_loaded",
    "Fs2.Props.C115_same",
    "Fs2.Props.C115_model_partial",
    "Fs2.Props.C115_twice_refused",
    "Fs2.Props.C115_unknown_refused",
    "Fs2.Props.C115_unreadable_refused",
    "Fs2.Props.C115_llama_lost",
    "Fs2.Props.C115_shared_negation"
   ],
   "note": "C115_loaded, C115_same and the refusals are in full; C115_model_partial needs that names with one tensor object in the file are names of one tensor of the model (C115_shared_negation otherwise) and that tied names have the same value"
  },
  {
   "property": "C116",
   "status": "partial",
   "theorems": [
    "Fs2.Props.C116_sharded",
    "Fs2.Props.C116_nothing_else",
    "Fs2.Props.C116_refused",
    "Fs2.Props.C116_registered",
    "Fs2.Props.C116_single",
    "Fs2.Props.C116_second_name",
    "Fs2.Props.C116_llama4_negation",
    "Fs2.Props.C116_dims_negation"
   ],
   "note": "What is sharded, what stays and what is refused is proved for all models without a child that is there under two names of one parent. False in the code: Llama 4 models cannot be created for tensor parallelism, and the dimensions of specifications are not found for any parameter. Missing: modules with children that have two parents."
  },
  {
   "property": "C117",
   "status": "partial",
   "theorems": [
    "Fs2.Props.C117_sound",
    "Fs2.Props.C117_once",
    "Fs2.Props.C117_exact_partial",
    "Fs2.Props.C117_model_partial",
    "Fs2.Props.C117_tied_negation"
   ],
   "note": "Proved for models whose sharded parameters have one name each; nothing else has a dimension, and each sharded parameter has one under exactly one of its names. False in the code for tied sharded parameters."
  },
  {
   "property": "C118",
   "status": "partial",
   "theorems": [
    "Fs2.Props.C118_output",
    "Fs2.Props.C118_all",
    "Fs2.Props.C118_refused",
    "Fs2.Props.C118_hooks",
    "Fs2.Props.C118_stop_ignored",
    "Fs2.Props.C118_stop_negation",
    "Fs2.Props.C118_bert"
   ],
   "note": "Proved but for hooks that return False, which do not end the stack (C118_stop_ignored, C118_stop_negation)."
  },
  {
   "property": "C119",
   "status": "partial",
   "theorems": [
    "Fs2.Props.C119_no_loss",
    "Fs2.Props.C119_no_smoothed_loss",
    "Fs2.Props.C119_default_negation",
    "Fs2.Props.C119_targets_partial",
    "Fs2.Props.C119_target_codebooks_negation",
    "Fs2.Props.C119_other_loss_negation"
   ],
   "note": "The targets are proved to be the quantizer's choices; the loss itself is never computed for the default configuration (C119_default_negation), without label smoothing for all with V different from the number of codebooks (C119_no_loss), and with it for all with one target codebook (C119_no_smoothed_loss)."
  },
  {
   "property": "C120",
   "status": "partial",
   "theorems": [
    "Fs2.Props.C120_value",
    "Fs2.Props.C120_line",
    "Fs2.Props.C120_raised",
    "Fs2.Props.C120_history",
    "Fs2.Props.C120_registered",
    "Fs2.Props.C120_lost_negation",
    "Fs2.Props.C120_category_partial",
    "Fs2.Props.C120_newline_negation"
   ],
   "note": "Proved but for display names that coincide, of which one is lost (C120_lost_negation), and newlines in categories, which are accepted (C120_newline_negation)."
  },
  {
   "property": "C121",
   "status": "partial",
   "theorems": [
    "Fs2.Props.C121_cosine",
    "Fs2.Props.C121_given_cycle",
    "Fs2.Props.C121_warmup_negation",
    "Fs2.Props.C121_default",
    "Fs2.Props.C121_polynomial",
    "Fs2.Props.C121_refused"
   ],
   "note": "Proved for cosine annealing (cycle_mul a natural number) and polynomial decay; a warm-up of all steps is not refused for cosine annealing and fails in the last step (C121_warmup_negation)."
  },
  {
   "property": "C122",
   "status": "partial",
   "theorems": [
    "Fs2.Props.C122_v2",
    "Fs2.Props.C122_v1_partial",
    "Fs2.Props.C122_v1_negation",
    "Fs2.Props.C122_v1_flag_negation",
    "Fs2.Props.C122_replicas",
    "Fs2.Props.C122_parts",
    "Fs2.Props.C122_distinct",
    "Fs2.Props.C122_accepted",
    "Fs2.Props.C122_skip_negation",
    "Fs2.Props.C122_skip_versions",
    "Fs2.Props.C122_once"
   ],
   "note": "Proved for version 2; version 1 frees the last layer of every stack (C122_v1_negation) and to_fsdp drops skip_init (C122_skip_negation)."
  },
  {
   "property": "C123",
   "status": "partial",
   "theorems": [
    "Fs2.Props.C123_facade",
    "Fs2.Props.C123_refused",
    "Fs2.Props.C123_unified_negation"
   ],
   "note": "Proved for the facades; fsdp_load_local_state_dict raises for every module (C123_unified_negation)."
  },
  {
   "property": "C124",
   "status": "partial",
   "theorems": [
    "Fs2.Props.C124_world",
    "Fs2.Props.C124_below",
    "Fs2.Props.C124_local_negation",
    "Fs2.Props.C124_named_cluster",
    "Fs2.Props.C124_auto_cluster",
    "Fs2.Props.C124_named_device",
    "Fs2.Props.C124_ranks_apart",
    "Fs2.Props.C124_single_device",
    "Fs2.Props.C124_cpu_negation",
    "Fs2.Props.C124_uuid_negation"
   ],
   "note": "All decisions are proved; the documented fall-back to the CPU (C124_cpu_negation), a device given by its identifier (C124_uuid_negation) and the relation of host and world (C124_local_negation) do not hold."
  },
  {
   "property": "C125",
   "status": "partial",
   "theorems": [
    "Fs2.Props.C125_accepted",
    "Fs2.Props.C125_resumed",
    "Fs2.Props.C125_initial_partial",
    "Fs2.Props.C125_fsdp_negation"
   ],
   "note": "Resuming and beginning are proved for all runs except FSDP runs in directories that have only model-only checkpoints; for those the claim is false (C125_fsdp_negation)."
  },
  {
   "property": "C126",
   "status": "proved",
   "theorems": [
    "Fs2.Props.C126_elapsed",
    "Fs2.Props.C126_start_refused",
    "Fs2.Props.C126_monotone"
   ],
   "note": "Proved for whole ticks; rounding of floating-point durations is not modelled."
  },
  {
   "property": "C127",
   "status": "partial",
   "theorems": [
    "Fs2.Props.C127_file_uri",
    "Fs2.Props.C127_is_uri",
    "Fs2.Props.C127_path_partial",
    "Fs2.Props.C127_path_negation",
    "Fs2.Props.C127_uri_negation"
   ],
   "note": "Proved for paths of letters, digits and _ . - ~ /; for every path with another byte the claim is false (C127_path_negation, C127_uri_negation)."
  },
  {
   "property": "C128",
   "status": "partial",
   "theorems": [
    "Fs2.Props.C128_remote",
    "Fs2.Props.C128_absolute",
    "Fs2.Props.C128_glob",
    "Fs2.Props.C128_refused",
    "Fs2.Props.C128_copy_target",
    "Fs2.Props.C128_file_negation",
    "Fs2.Props.C128_walk_negation",
    "Fs2.Props.C128_mixed_negation"
   ],
   "note": "Proved for texts, Paths, absolute paths and glob; false for file URIs (C128_file_negation), walk_directory (C128_walk_negation) and mixed sequences (C128_mixed_negation)."
  },
  {
   "property": "C129",
   "status": "partial",
   "theorems": [
    "Fs2.Props.C129_evaluation",
    "Fs2.Props.C129_training",
    "Fs2.Props.C129_mean",
    "Fs2.Props.C129_all_negation"
   ],
   "note": "Proved for probabilities from 0 to less than 1; with probability 1 and scaling no output is a number (C129_all_negation)."
  },
  {
   "property": "C130",
   "status": "partial",
   "theorems": [
    "Fs2.Props.C130_size",
    "Fs2.Props.C130_ends",
    "Fs2.Props.C130_monotone",
    "Fs2.Props.C130_rounding_negation",
    "Fs2.Props.C130_postfix_negation"
   ],
   "note": "Proved for all sizes with exact numbers; the shown number can be 1024.00 (C130_rounding_negation), and sequences lose the postfix (C130_postfix_negation)."
  },
  {
   "property": "C131",
   "status": "partial",
   "theorems": [
    "Fs2.Props.C131_refused",
    "Fs2.Props.C131_when",
    "Fs2.Props.C131_resumed_negation",
    "Fs2.Props.C131_automatic",
    "Fs2.Props.C131_setting_negation",
    "Fs2.Props.C131_start",
    "Fs2.Props.C131_live",
    "Fs2.Props.C131_young",
    "Fs2.Props.C131_old_negation",
    "Fs2.Props.C131_survivor_negation"
   ],
   "note": "Collections of a resumed run, garbage of the oldest generation and restoring the setting fail: see the negations."
  }
 ]
}