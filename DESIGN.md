# Formal model of fairseq2 — design

## Trusted base

* Lean 4.33.0's kernel. No axioms are added, there is no `sorry`, no
  `native_decide` and no `bv_decide`. Every property theorem depends on at most
  `propext`, `Classical.choice` and `Quot.sound` (checked with
  `#print axioms`; many depend on fewer).
* The transcription of the Python and C++ code into Lean definitions. Each
  definition cites file and lines of `/repo` and says where it simplifies.
* The specifications that give the English notions a mathematical meaning: the
  definitions at the head of each file in `lean/Verif/Props/` and, for the
  pipelines, `lean/Verif/Pipeline/Spec.lean`, for the trainer
  `lean/Verif/Trainer/Spec.lean`.

## Layout

* `properties.jsonl`: the English properties. `MANIFEST.json`: their status and
  theorems. `seeded/LOG.jsonl`: wrong programs that the theorems were tested with.
* `lean/Verif/<Area>/…`: the models with their helper lemmas.
* `lean/Verif/Props/…`: the property theorems, named `Fs2.Props.Cnn_…`, each with
  an `example` or a further theorem that shows a concrete case of its hypotheses.

## Method

* **Shallow, branch by branch.** A C++ or Python function becomes a total Lean
  function; exceptions are values. A loop that need not end is a
  `partial_fixpoint` with result `none` if it does not end: this is the only meaning
  of `none` there, so that non-termination can be stated and proved.
* **Data pipeline.** A data source is a structure `Source` (state type, `next`,
  `reset`, `record`, `reload`, finitude). Operators are functions on sources, so
  their theorems hold for *every* upstream. A syntax of pipelines (`Pipe`) with a
  `denote` function closes the statements by induction over all compositions.
* **Threads.** Labelled transition systems at the granularity of locks and
  notifications, with wake-ups without notification; invariants over every
  reachable state, hence every schedule.
* **Crashes.** A program is a list of atomic file operations; a crash runs a
  prefix. Theorems quantify over all prefixes, histories and interleavings.
* **Randomness** is an arbitrary sequence of numbers (or an arbitrary function of
  the state of the generator): theorems hold for every outcome.
* **External code** (torch, process groups, models, user functions) is a parameter,
  constrained at most by its documented contract.
* **Violations.** If the code violates a property, the negation is proved on a
  concrete witness, the property is proved under the missing hypothesis with the
  suffix `_partial`, and the disagreement is listed below.

## What is modelled, and what is left out

Everywhere: floating point numbers are exact (rationals or reals) unless said
otherwise; the C++ memory model, the Python interpreter, CUDA, logging, progress bars and the text of
most messages are left out.

| Area | Modelled code | Left out or simplified |
|------|---------------|------------------------|
| Pipeline | native/src/fairseq2n/data: all data sources, `data_pipeline`, `tape`, the builder; one Lean definition per function | audio, image and parquet decoding; `std::vector::reserve` of absurd sizes; narrower integers and memory blocks on tapes; a list index out of range after reload is an error value; `shuffle` leaves a moved-from value that is never read; `sample` in exact rationals |
| Pipeline (threads) | `prefetch`, the parallel loop of `map`, non-deterministic `map` | steps are those of the mutex regions; thread creation cannot fail |
| Native | `lru_cache`, `text_line_reader`/`record_reader`, `element_selector`, `collater`, `file_mapper`, `string_splitter` | bytes and characters are list elements; files do not change; tensors in the collater are one-dimensional |
| Reader | `datasets/data_reader.py` on n ranks | calls on the ranks are matched; a collective that not all ranks join does not end |
| Checkpoint | `checkpoint/manager.py`: save, commit, delete, retention, listing, file names per topology | contents of records are opaque; renames and single file writes are atomic, a write may be cut off; ranks interleave between operations |
| Trainer | `trainer.py`: the state machine of `_do_run` | one rank; what is trained is one abstract state; no profiling, garbage collection, hooks, exports; stop requests arrive between moves |
| Gang | `gang.py`: validation and mesh arithmetic | process groups are created as asked |
| Optim | `optim/lr_schedulers/*`, `optim/fp16_loss_scaler.py` | rates in exact reals; `torch.optim.lr_scheduler` and `GradScaler` by their documented semantics |
| Nn | `nn/batch_layout.py`, `nn/incremental_state.py`, position encoders' indices, KV states of `multihead_attention.py`, `attention_bias.py`, `nn/utils/mask.py` | tensors are lists of rows, uninitialised memory is arbitrary; one head, no dropout; a softmax over nothing is `none` (nan); `torch.topk` by its contract |
| Shard | `models/utils/checkpoint.py` resharding, `nn/projection.py`, `nn/embedding.py`, `ops/tensor_parallel.py` | two-dimensional tensors; arithmetic in any commutative semiring; all ranks at once; the gradient of a plain linear map is given |
| Datasets | `datasets/batch.py` | elements are opaque; order of several failing checks |
| Generation | `generation/*`: step processors, samplers, sampling and beam search | scores are rationals or −∞; models, processors, samplers are parameters; sorting, top-k, argmax and multinomial by contract; hooks, per-step scores, prefill sizes and counters left out |
| Metrics | `metrics/bag.py` | metrics are abstract objects with reference semantics; devices and synchronisation left out |
| Runtime | `runtime/dependency.py` | one thread; automatic wiring of required parameters |
| Utils | `utils/config.py`, `utils/structured.py`, `utils/validation.py` | values are immutable trees (`deepcopy` is the identity); floats abstract; no dataclass inheritance or enum aliases; no shared result objects |
| Assets | `assets/store.py`, `card.py`, `metadata_provider.py`, `download_manager.py` | cached providers; one process; the server always has the same file |
| Recipe | `recipe/internal/sweep_tag.py` | numbers by their text; word characters and the truncated SHA-1 are parameters |
| Parquet (`Parquet/LengthSplits`, `Streaming`, `Listing`) | `data/parquet/table_bucketing/primitives.py` (splits, batching loop), `fragment_streaming/primitives.py` (streamer, shuffled iterator, listing) | pyarrow (reading, filters, memory), thread pools, table transforms, fragment loading, the rejection smoother; numpy's generators are arbitrary permutations |
| Iterator source (`Pipeline/IteratorSource`) | `iterator_data_source.cc` over pybind11's `py::iterator` | exceptions of the iterator, pickle itself (a copy), the GIL |
| Gradients in all processes (`Optim/GradStep`) | `trainer.py` `_do_run_step`, `nn/utils/grad.py` | exact rationals; DDP, FSDP, clipping and the optimizer by contract; parameters without gradient, overflow, autocast |
| Random number generators (`Utils/Rng`) | `utils/rng.py` `RngBag` | generators are numbers with states; PyTorch generators by contract |
| Command line overrides (`Utils/ConfigArgs`) | `utils/argparse.py` `ConfigAction`, `recipe/cli.py` loop over overrides | YAML is a function; aliasing inside YAML values |
| Directives and layers (`Utils/Directives`) | `utils/config.py` processor and directives, `assets/card.py` `StandardAssetConfigLoader`, `recipe/cli.py` `_RecipeConfigLoader.load` | the pattern is matched by hand; structuring is a function; file access |
| Native checkpoint loading (`Shard/NativeLoad`) | `model_checkpoint/native.py` | file formats; the state dictionary converter is applied beforehand; what was yielded before an error; tensors of at most two dimensions |
| Modules (`Nn/Modules`) | `nn/utils/module.py` | contents of tensors; what `reset_parameters` writes; freezing and `extract_size`-like helpers; PyTorch's own `load_state_dict`; `to_device` in `broadcast_module` is a separate step |
| Rotary encoders (`Nn/Rotary`) | `nn/position_encoder.py` (`RotaryEncoder`, `ReferenceRotaryEncoder`, `DualRotaryEncoder`), `models/llama/factory.py` (`init_llama_rope_freqs`), `permute_rotary` of `models/llama/interop.py` | rounding and casts (numbers are real); the `meta` device; learned and sinusoidal tables |
| Checkpoint conversion (`Models/KeyMap`, `Models/Llama`) | `models/utils/checkpoint.py` (`convert_state_dict`, `create_reverse_key_map`), `models/{llama,qwen,olmo}/interop.py` (state dictionaries, `intermediate_size`) | regular expressions with the anchor, the escaped dot, literals and one kind of group; tensors are lists of rows; floats of the configuration are rationals; the legacy wrapper key `model`; other fields of the exported configuration; other model families |
| Loading state (`Models/SetState`) | `models/utils/checkpoint.py` (`set_model_state`), `models/family.py` (`_do_load_model`: rank 0 and broadcast) | `state_dict()` of PyTorch without hooks; the texts of the errors and the progress bar; moving to devices and the initialization of non-persistent buffers |
| Relative attention (`Nn/RelativeAttention`) | `models/transformer/sdpa/relative.py`, `sdpa/shaw.py`, on top of `naive_scaled_dot_product_attention` | one row and head at a time; exact reals; dropout; packed batches (refused by the code) |
| Metric values (`Metrics/Aggregate`) | `Sum`, `Mean`, `Max`, `Throughput` of torcheval as used, `WerMetric`, counts of BLEU and chrF++, `sync_and_compute_metrics`, `extend_batch_metric_values`, nll loss; when `Trainer` updates, publishes, resets, saves and restores them | exact rationals; edit distance and the score made of n-gram counts are parameters |
| Validation and evaluation (`Eval/Model`) | `validator.py` (`StandardValidator`), `evaluator.py` (`Evaluator`) | data parallelism only; units, bags and what is computed from them are functions; timers, profilers, progress, random number generators; infinite metric values; `load_scores` raising on rank 0 |
| Parameter groups (`Optim/Groups`) | `recipe/optim.py`, `select_parameters` of `nn/utils/module.py`, how `recipe/internal/lr_schedulers.py` reads lists of rates | `re.match` is a function; `named_parameters()` is a list; logging |
| Cross entropy (`Nn/CrossEntropy`) | `nn/functional/cross_entropy.py` | exact reals and finite logits (an infinite loss at a masked position gives `nan` in the code); flattened inputs of equal length; `nll_loss` and `log_softmax` by contract |
| Mixture of experts (`Nn/Moe`) | `models/llama4/moe.py`, `models/transformer/experts.py`, `MoESharder` of `models/llama4/sharder.py` | exact arithmetic; `topk` by contract; minus infinity is a separate value; gradients; how the constructor derives the inner dimension |
| Decoders (`Nn/Decoder`) | `StandardMultiheadAttention.forward` of `models/transformer/multihead_attention.py`, the decoder layers and decoders of `models/transformer` and `models/transformer_lm`, `TransformerEmbeddingFrontend`, `TransformerLM.forward` and `TransformerModel.forward`, the order of calls of the generators | exact reals; evaluation mode; projections, norms, feed-forward networks and residual connections are arbitrary functions of one position; shared keys, hooks, the encoder |
| Speech frontends (`Nn/Speech`) | feature extractors and position encoders of `models/wav2vec2`, `Wav2Vec2Frontend.forward` without masking, `models/conformer/convolution.py`, `models/s2t_transformer/feature_extractor.py` | evaluation mode; a convolution is an arbitrary function of its window; lengths are divided exactly; gradients and the masker are not modelled |
| Encoders and padded batches (`Nn/Encoder`) | `models/transformer/encoder.py`, `encoder_layer.py`, `models/conformer/block.py`, `Wav2Vec2AsrModel.forward`, `TransformerModel.forward` and `TransformerLM.forward` without state bag | as for decoders and speech frontends; a `nan` stays at its position; hooks |
| Tokenizers (`Tokenizer/*`) | `native/.../sentencepiece/*.cc`, `data/tokenizers/{sentencepiece,tiktoken,vocab_info}.py`, vocabulary information of `hg.py`, `create_encoder` of the tokenizers of NLLB, S2T, LLaMA, Qwen, OLMo and Gemma 3n, `HgTokenizer.create_decoder`, the cut of `TextTranslator` | segmentation of text and gluing of pieces are parameters; tables of pieces, `PieceToId` and cutting text at special tokens are modelled from the documentation of the libraries; devices, pinned memory, chat templates |
| Supervised fine-tuning (`Datasets/Sft`) | `recipes/lm/sft/dataset.py` 238-257 and 296-330, the criterion of `recipes/lm/sft/recipe.py`, `TransformerLM.forward` with targets; uses the models of the collater, of batches, of the decoder and of cross entropy | the probabilities of a row are those of the model of C96, with real numbers for floats; `reduction="sum"`; metric bag and optimiser are C89 and C66 |
| `create_bucket_sizes` (`Pipeline/BucketSizes`) | `data_pipeline.py` 646-717 | natural numbers |
| Supervised fine-tuning reader (`Datasets/SftReader`) | `recipes/lm/sft/dataset.py` 131-339 | composed of the pipeline operators; files, JSON and tokenizer are parameters; no `chat_mode`; prefetch, parallel calls and `DataPipelineReader` have their own models |
| Speech recognition loss and error rates (`Nn/Asr`) | `src/fairseq2/models/wav2vec2/asr/model.py` 116-168, `recipes/wav2vec2/asr/{criterion,wer_calculator,metrics}.py`, `src/fairseq2/nn/utils/padding.py` (`pad_seqs`) | evaluation mode over the reals; `ctc_loss` of torch by its contract, the edit distances, `argmax`, the decoder and `split` as parameters |
| wav2vec 2.0 pretraining (`Nn/Contrast`) | `src/fairseq2/models/wav2vec2/{model,masker,vector_quantizer}.py`, `recipes/wav2vec2/ssl/criterion.py` | over the reals, without dropout and gradients; random numbers as functions, `argmax`, the cosine similarity, projections and norms as parameters; the straight-through estimator is left out, so the temperature does not influence values |
| Tensor parallel decoders (`Nn/TensorParallel`) | `src/fairseq2/nn/{projection,embedding}.py`, `src/fairseq2/models/transformer/{multihead_attention,ffn}.py` on all ranks of a gang | exact sums; the ranks call collectives in lockstep and raise together; bag, layouts and encoder output, which no sharded module makes, are kept once; without backward pass (see C55 for single modules) |
| Text generation (`Generation/Text`) | `src/fairseq2/generation/text.py`, `beam_search/generator.py` (`__call__`, prefill) with the beam search of C60 and the step processors of C57 and C58 | the model is a function of the source and of the tokens of a row (C96 and C98 justify this for decoders and encoders); exact log probabilities; `torch.topk` is a function of the values; all errors are one |
| Generation with a state bag (`Generation/Cached`, `Generation/CachedDecoder`) | `src/fairseq2/generation/beam_search/generator.py` (`_prefill`, `_step`, `_reorder_state`, `_decode`) on top of the decoders of C96 and the beam search of C60 | hooks and counters are left out; temperature, log-softmax and the check for not-a-number results are one function of the logits of a position; all errors are one |
| Sampling with a state bag (`Generation/CachedSampling`) | `src/fairseq2/generation/sampling/generator.py` (`_prepare_state`, `_prefill`, `_step`, `_reorder_state`, `_decode`) on top of the decoders of C96 and the sampling of C61 | scores, hooks and counters are left out; temperature, softmax and the check for not-a-number results are one function of the logits of a position; all errors are one |
| Reader of language model training (`Datasets/LmTrain`, `Pipeline/PackDocs`) | `recipes/lm/train/dataset.py:38-120`, the first lines of `LMTrainUnit.process_batch` (`recipes/lm/train/recipe.py:95-100`) | the search for files is left out; `prefetch` and `DataPipelineReader` have their own models (C17, C27 to C29) |
| Loss of language model training (`Datasets/LmLoss`, lemmas in `Nn/PackedForward`) | `LMTrainUnit.process_batch` (`recipes/lm/train/recipe.py:95-110`) on top of `Nn/Encoder.decodeAll` and `Nn/CrossEntropy` | evaluation mode, real numbers; the metrics have their own model (C91); attention is that of `Nn/Decoder` (the relative and Shaw variants refuse packed batches and are not part of it) |
| Text generation recipe (`Datasets/LmGenerate`, lemmas in `Datasets/LmGenerateLemmas`) | `LMGenerateDataset.create_reader` (`recipes/lm/generate/dataset.py:37-106`), `LMGenerateUnit.process_batch` (`recipes/lm/generate/recipe.py:118-235`), the loop of `Generator` (`src/fairseq2/generator.py:131-198`) | `prefetch` and parallel calls have their own models; a record stands for a JSON line and a block of text, their formatting is left out; `None` for a missing id is one designated value, so that the id `false` counts as missing; any sequence generator |
| Retention in the course of training (`Checkpoint/Kept`, specification in `Checkpoint/KeptSpec`, lemmas in `Checkpoint/KeptRuns` and `Checkpoint/KeptLemmas`) | `_on_checkpoint_saved`, `_save_score`, `_delete_stale_checkpoints` (`src/fairseq2/trainer.py:799-812, 990-994, 1031-1046`) with `_begin_checkpoint`, `save_score`, `delete_checkpoint`, `get_step_numbers` (`src/fairseq2/checkpoint/manager.py`), driven by the trainer model | listing and scores only: a deletion is one step (its crashes are in the checkpoint model); scores are any rational numbers; `save_model_only="all_but_last"` is left out |
| Speech recognition data (`Datasets/AsrReader`, lemmas in `Datasets/AsrReaderLemmas`) | `Wav2Vec2AsrDataset.create_reader` and `to_seq2seq_batch` (`recipes/wav2vec2/asr/data/dataset.py:171-222, 253-363`), `batch_utils.py`, `preprocessing.py` beside it | splitting a manifest line is one function of the line, and reading, decoding and normalising a recording one function of its path; one channel; integer samples; examples have no keys besides the three named; no prefetching or parallel calls; the directory and split checks are left out |
| Pretraining reader (`Datasets/SslReader`) | `recipes/wav2vec2/ssl/data/dataset.py:169-308`, `batch_utils.py:11-57`, `preprocessing.py:19-132` beside it | Everything before cropping is a `Pipe`; cropping is an operator over sources with a generator of its own (`Draws`: `randint(0, n)` is any number below `n`). Parsing a line and decoding a file are functions; samples are integers, one channel; `crop_to_batch_minimal_size` is `True` as the reader sets it; `prefetch` and parallel calls have their own models. |
| Loaders of all formats (`Shard/FormatLoad`) | `src/fairseq2/model_checkpoint/basic.py:43-106`, `safetensors.py:50-140`, `delegating.py:46-63`, `src/fairseq2/models/llama/checkpoint.py:42-169`, the order of `composition/lib.py:245-254` | What is at a path is one value (`Disk`); the order of a glob is that of its list. A converter is any function on dictionaries. A file that cannot be read is `none`, except in native checkpoints, where all files can be read. Generators are run to their end. Safetensors gives every name an object of its own (`src/fairseq2/io.py:226-246`). |
| Model sharder (`Shard/ModelSharder`) | `src/fairseq2/sharder.py:63-202`, `src/fairseq2/models/llama4/sharder.py:23-43`, the outline of the model of `src/fairseq2/models/llama/factory.py:60-110`, `src/fairseq2/models/family.py:678-682`, `710-720` | Trees of modules with classes; patterns are any predicates on paths, those of Llama 4 are written out for names without dots. No module with children is a child of two modules. Sharders leave their module as it is and what they copy is left out (C55 has the layers); `MoESharder` is a parameter. |
| Dimensions of sharded parameters (`Shard/ShardDims`) | `src/fairseq2/nn/sharded.py:35-75`, its use in `src/fairseq2/models/family.py:573-580` | Trees of modules as in `Nn/Modules`; what `Sharded.get_shard_dims` gives is a function of the module. Dimensions are natural numbers. |
| Stacks of layers (`Nn/LayerHooks`) | `src/fairseq2/models/transformer/encoder.py:139-184`, the hook of `src/fairseq2/models/w2vbert/model.py:82-98` | Layers are functions of the sequences; random numbers are given; hooks change a world of any type and do not raise; gradients of dropped layers are left out. |
| w2v-BERT's masked prediction loss (`Nn/BertLoss`) | `src/fairseq2/models/w2vbert/model.py:106-146, 158-164` | Real numbers; the quantizer's choices are given as rows; the sizes that `nll_loss` and `gather` demand are by contract. |
| JSONL recorder (`Metrics/JsonlRecorder`) | `src/fairseq2/metrics/recorders/jsonl.py:29-139`, `descriptor.py:18-39`, the table of `src/fairseq2/recipe/composition/metric_recorders.py:149-201` | A line stands for the dictionary that `json.dump` writes; numbers are abstract; writing does not fail; white space is that of ASCII; no formatters. |
| Factories of schedulers (`Optim/LrFactories`) | `src/fairseq2/recipe/internal/lr_schedulers.py:61-145, 178-222`, the order of calls of `src/fairseq2/trainer.py:611-628` | Real numbers, counts are natural numbers; a negative cycle length is 0; steps with overflow are left out; tri-stage, Myle and Noam factories are not modelled (see C42 for the schedulers). |
| Wrapping with FSDP (`Shard/FsdpWrap`) | `src/fairseq2/nn/fsdp/unified.py:34-110`, `fsdp1.py:50-234`, `fsdp2.py:60-203`, `common.py:68-84`, `src/fairseq2/models/utils/fsdp.py`, `src/fairseq2/models/transformer/fsdp.py`, `src/fairseq2/recipe/internal/data_parallel.py:135-207`, facades in `src/fairseq2/nn/data_parallel.py:129-187` | A model is stacks of layers and a root; PyTorch by its documentation (which strategies free parameters, that FSDP1 never frees the root); data types, offloading, batch normalization, shapes and the values of parameters are left out; a failed load is taken to leave the state as it was. |
| Ranks, clusters and devices of processes (`Runtime/World`) | `src/fairseq2/world_info.py:33-81`, `src/fairseq2/utils/env.py:83-136`, `src/fairseq2/cluster.py:39-65`, `src/fairseq2/device.py:178-246` | `int` and `Device` of a text are functions that may fail; what SLURM sets is not modelled. |
| The weights with which a run begins (`Trainer/StartWeights`) | `src/fairseq2/recipe/internal/train_model.py:91-319`, `src/fairseq2/recipe/internal/data_parallel.py:47-207`, `src/fairseq2/models/family.py:404-443, 553-605`, `src/fairseq2/nn/ddp.py:47-90`, `src/fairseq2/checkpoint/manager.py:710-751`, `src/fairseq2/trainer.py:363-402` | The parameters of a process are one value; buffers, tensor parallelism and failures of gangs and files are left out. |
| Stopwatches (`Utils/Stopwatch`) | `src/fairseq2/utils/stopwatch.py:20-92` | Times are whole ticks, so that there is no rounding; waiting for a device is part of the time of a reading. |
| Locations of assets (`Assets/Locations`) | `src/fairseq2/utils/uri.py:20-87`, `src/fairseq2/assets/card.py:104-127` | Strings are bytes; `as_uri`, `urlparse` and `urlunparse` of the standard library are modelled for the scheme `file` as in Python 3.11; paths are in normal form. |
| File systems (`Runtime/FileSystems`) | `src/fairseq2/file_system.py:125-308, 345-461, 467-547`, `src/fairseq2/assets/metadata_provider.py:138-144` | Paths are strings and `Path` only joins slashes; a protocol is its scheme; what a file system does with a name is not modelled. |
| Stochastic depth (`Nn/DropPath`) | `src/fairseq2/nn/residual.py:42-47, 76-119` | Exact rational numbers; random numbers are given; a sequence is the list of its elements. |
| Formatters of metrics (`Metrics/Formatters`) | `src/fairseq2/metrics/formatters.py:17-40, 84-114` | Exact rational numbers; strings, tensors and values that are no numbers are left out; the text of a whole number is given. |
| Garbage collection (`Utils/GarbageCollection`) | `src/fairseq2/utils/gc.py:18-75`, `src/fairseq2/recipe/internal/trainer.py:269-277`, `src/fairseq2/trainer.py:350-351,515-527` | CPython's generations by their documentation; only objects in cycles, no finalizers, no collections that CPython starts by itself. |

Not modelled at all: model weights, how tokenizer libraries cut text, parquet datasets, the command line
interface, most model families, what cluster handlers set, the jobs of recipes.

## Plan per property

| id | model | proof |
|----|-------|-------|
| C01 | `Source.record/reload` for every operator, `Pipe` syntax | law `reload (record s ++ rest) s' = (s, rest)` preserved by every operator, induction over syntax; negations for `repeat`, `dynamic_bucket`, `pack`, uninitialised pipelines |
| C02 | tape as list of values with cursor, `load_state_dict` | induction over recorded values; error branches |
| C03 | as C01 | per operator preservation of "end of data is final" |
| C04 | as C01 | `reset` gives `init` up to RNG state, induction over syntax |
| C05 | list, count, constant, take, skip, filter, map, concat | stream semantics `Yields` |
| C06 | shard | `Yields` with `stride`, counting |
| C07 | bucket | chunking of lists |
| C08 | bucket_by_length | multiset invariant plus bounds invariant |
| C09 | dynamic_bucket | greedy segmentation |
| C10 | shuffle with an arbitrary random sequence | permutation invariant |
| C11 | round_robin | rounds |
| C12 | sample with arbitrary draws | permutation and in-range invariants; negations |
| C13 | zip | `Yields` of transposition |
| C14 | repeat | `Yields` of replication |
| C15 | pack | token conservation invariant; negation for the truncation overlap |
| C16 | yield_from | `Yields` of flatten |
| C17 | prefetch transition system | inductive invariant, progress |
| C18 | deterministic map (buffer) and non deterministic map (transition system) | equality with `List.map`, permutation; negations |
| C19 | `data_pipeline::next` retry loop | `partial_fixpoint` loop, induction over the results |
| C20 | builder validation | decision logic |
| C21 | lru_cache | refinement to a recency list |
| C22 | text line reader over chunked stream | chunking independence; negation for CRLF |
| C23 | element selector | parser round trip and visit semantics |
| C24 | collater | list lemmas |
| C25 | file mapper with 64-bit arithmetic | natural numbers modulo 2^64; negation for wrap-around |
| C26 | splitter | round trip |
| C27–C29 | data reader on n ranks with collectives | lock-step induction |
| C30–C32 | checkpoint manager programs over a file system with crashes; rank interleaving | invariant over all prefixes / schedules |
| C33 | file naming per topology | coverage and uniqueness |
| C34, C35 | retention policy, delete | decision logic |
| C36–C41 | trainer state machine | invariants over all executions; negations |
| C42 | LR formulas over reals | inequalities |
| C43 | loss scaler | invariant over sequences; negation for tolerance |
| C44–C46 | mesh arithmetic and validation | bijections |
| C47, C48 | layout, incremental state, positions | list lemmas |
| C49–C51 | KV states | refinement to lists; negations |
| C52 | attention bias | pointwise characterisation; negations |
| C53 | span masks with arbitrary random numbers | bounds, counting |
| C54, C55 | resharding, sharded modules | list / matrix algebra |
| C56 | batches | list lemmas; negations |
| C57, C58 | step processors | induction over generation |
| C59 | samplers | prefix sums |
| C60, C61 | beam / sampling bookkeeping | invariants over all model outputs |
| C62 | metric bag | state machine |
| C63 | dependency container | invariants, termination by in-call marking |
| C64, C65 | config merge, structured conversion | structural induction |
| C66 | asset store | chain lookup |
| C67 | sweep tag | order independence; negation of injectivity |
| C68 | download manager with crashes | prefix quantification; negations |
| C69 | validation | structural induction |
| C70 | trainer state machine | invariant over all executions; negation |
| C71 | attention over packed and padded batches | equality with attention per sequence |
| C72 | backward passes of sharded linear layers | matrix algebra |
| C73 | Parquet length splits and batching loop | loop invariants; negation of maximality when not ordered |
| C74, C75 | Parquet streamer with generators as data | refinement to the concatenation of passes; simulation for pickling; negations without a seed |
| C76 | Parquet listing | prefix characterisation; negation for a limit of zero |
| C77 | `iterator_data_source` | closed form of all future results; negation for saving after loading |
| C78, C79 | gradient step in all processes | decision logic; buffer invariant over backward passes, refinement to one process by induction on steps; negations for a norm that is not finite and a process without targets |
| C80 | random number generators | algebraic laws on states; negation for a refused state dictionary |
| C81 | command line overrides | refinement of the nested dictionary to the list of items, on top of C64; negation for the order in one option |
| C82, C83 | directives and layers | scan equal to a grammar; induction on chains on top of C64; negations for repeated and missing expansion |
| C84 | native checkpoint loading | induction on the keys with the memo as invariant, on top of C54; negations for lost stages and for stages of other processes |
| C85 | functions on modules | induction on the tree with the memo as invariant, the loops reduced to a loop over a list of modules; negations for gradients, ties, persistence and missing children |
| C86 | rotary encoders, converted LLaMA projections | induction on pairs with the addition theorems; the layouts of C47; weaving two halves |
| C87 | key maps as texts, dictionaries in insertion order, LLaMA/Qwen/OLMo converters | parsing of printed templates, unique match by induction on the template, a decidable test for non-overlap, left inverse gives injectivity |
| C88 | names of tensors over module trees, loop with the remaining dictionary and memo | keys distinct by induction on the tree (first dot decides), loop invariant over prefixes of the checkpoint |
| C89 | flat lists with `view` for the shift, real sine and cosine, `attend` of C71 | index arithmetic through views, softmax ignores constants, sums over keys split at the padding |
| C90 | metrics as states with `update`, `merge`, `compute` | `merge` after `update` equals all updates, by induction over ranks |
| C91 | histories of steps, publications, saves, restarts; a spec that reads off the steps backwards | induction over histories with the saved state |
| C92 | readers and units as functions, `partial_fixpoint` loop over steps | induction over what a reader returns, over units, and over runs |
| C93 | loops over parameters and groups | induction over parameters with an explicit form of the groups; counting |
| C94 | lists of rows over the reals | position by position, then sums; splitting the sum over the vocabulary at the target |
| C95 | tensors as functions of indices | sum over flattened indices as double sum; unchosen experts get zeros and give zeros; blocks of the inner dimension add up |
| C96 | reference of one sequence without batches and caches (`Nn/DecoderSpec`) | invariant of every cache (from C49–C51), every layer is causal, induction over layers and over the operations; negation |
| C97 | what a batch holds and what an operation does with one sequence (`Nn/SpeechSpec`) | windows of a padded row, zeros around a masked row, composition of operations that act on each sequence; induction over the layers; negations |
| C98 | one sequence without batches and masks (`Nn/EncoderSpec`, `Nn/DecoderSpec`) | what each row of a batch begins with is carried through norms, residuals, position encoders, attention with biases and convolutions; induction over the layers; negations |
| C99 | concatenation of index lists, positions in lists | the writes from the left and from the right fill the buffer; moving the padding piece by swaps is a rotation; decision tables; the scan for special tokens by induction over the text; negations |
| C100 | one example at a time, from the logits that C96 speaks of | the collater gives rows and masks (by the branches of the collater); cutting the last column leaves every row its real positions; a row of the padded forward pass starts with the logits of the sequence on its own (C98), and those depend on the tokens before only; sums over kept positions; negations |
| C101 | integer division | loop invariant: the bucket size is the quotient of the length and conversely, lengths between two buckets have the same quotient; negation |
| C102 | composition of ten operators on all ranks | each operator’s law for what it gives in one pass; a shuffled list cut into shards is a permutation of the list; sums over permutations (C100); negations |
| C103 | composition with C98, decision logic | runs of a path give `unique_consecutive`; shortest path of a target; paths of a length as a duplicate free list whose probabilities sum to one; negations |
| C104 | composition with C53 and C98, decision logic | the flattened masked frames divided into rows are the masked frames of each row, as all rows have as many; sums over positions and rows exchanged; entropy bound by `1 - 1/x <= log x`; strict inequality for the penalty |
| C105 | refinement (T ranks against one device) | caches with related contents stay related under all operations (parametricity); heads `r * n + h` of the whole are heads `h` of rank `r`, and `(r * m * g + h) / g = r * m + h / g`; a sum over ranks of sums over their columns is the sum over all columns |
| C106 | refinement (batch against rows) | every row of a batch is a lane of its own: the search on the batch keeps related to one search per prompt, whose finished beams leave the batch; the prefill by chunks is a sum over positions |
| C107 | refinement (state bag against recomputation) | simulation of the two loops: after every step the bag holds the sequences without their last token; a contract for models with state, which the decoders of C96 fulfil; the sizes of the beams show that with an encoder and prompts of equal length no order of the same length moves a sequence to another prompt |
| C108 | refinement (state bag against recomputation) | simulation as for C107 with the contract for models with state; the fan out is the one reordering before which the bag may be empty |
| C109 | refinement (batches against positions in the texts) | a call of `pack` is followed with the index in the stream at which it begins and with the set of indices at which texts begin; induction over the packs of an epoch |
| C110 | refinement (packed batch against one sequence at a time) | `Lies` says that a row begins with given sequences one after the other; it is kept by every part of a layer, the block bias hides the other sequences; the loss through C94 and C109 |
| C111 | refinement (records of all ranks against the lines of the files) | the pipeline operators by their stream lemmas (C05 to C07), the collater on the three columns, induction over batches; beam search through the one-prompt lemma of C106 |
| C112 | invariant (disk against everything committed so far) and refinement of the trainer to orderly sequences of events | induction over events: deleted steps are unwanted for good, and removing unwanted steps changes no rank of a wanted one; an automaton for save, score and commit over moves of the trainer; runs are joined at the last commit |
| C113 | refinement of the pipeline to the list of clips | the zip of both files gives the clips; filter, shuffle, shard, length buckets, collater and batch in turn; for all epochs an invariant on the states at their beginning (`Source.Cyclic`: after a full read all ranks have the same generator again); a witness for ranks that stop early |
| C114 | refinement over all epochs, and negations with witnesses | `Cyclic` through manifest, shuffle, shard, bucketing, batch shuffle and loading as for C113; cropping keeps the calls of its upstream and its generator only decides which stretch is taken; stacking needs equal lengths, which the crop guarantees |
| C115 | refinement: every format to shards of the saved parameters, then into the model | dictionaries and the files of LLaMA are cases of the loop over native files, so that C54 and C84 apply; what is loaded is unique, hence the same up to order; C88 for the model, where tied names get the value of the name that was kept |
| C116 | decision logic over all trees; refusal as an equivalence; concrete negations | the loop over the children pairs them with what they become (`kids_cases`, `Zip`); induction along paths for what stays and where it came from, induction on the tree for refusals |
| C117 | refinement: the dictionary to what modules declare; with C115 and C88 into the model | the walk gives every module once (`visit_all`) with a name that leads to it (`visit_names`); first entries are kept by both loops; names determine parameters since those of `state_dict` are distinct |
| C118 | refinement of the loop to a composition of functions; hooks as a fold over the prefixes of the stack | induction over the layers with the index and the world as parameters |
| C119 | negation for all batches; decision logic of the targets | lengths of the flattened logits and targets; invariant of the running maximum |
| C120 | decision logic and invariant over histories | sorting by insertion is a sorted permutation; new keys are appended to a dictionary; open streams have accepted categories; display names of the table are distinct |
| C121 | refinement: factory and run to formulas; negation for all configurations | with the closed forms of C42; a run succeeds iff all its rates and the next one can be computed |
| C122 | decision logic and refinement to a table; invariant of the memo; negations for all configurations | cases of granularity and flags; by strong induction the memo is closed under descent and free of repetitions |
| C123 | round trip; negation for all states | induction over the layout with a prefix of the dictionary that has other keys |
| C124 | decision logic stated outright, equivalences; negations for all such environments | cases of variables; a dictionary built in order keeps the last value of a key |
| C125 | decision logic stated outright over all processes; negation for all such runs | the last checkpoint is a maximum; cases of the wrapper with what `initializerOf` (C122) decides |
| C126 | refinement to a count of ticks | induction over the calls from the end; ticks before a call are not changed by it unless it resets, ticks after it all count or none |
| C127 | round trip and decision logic; negation for all paths with other bytes | quoting keeps a string exactly if every byte is plain, by lengths; quoted strings have no marks of queries and fragments |
| C128 | round trip and decision logic; negations for all such paths | a scheme has no colon, so that the text before the first colon decides; removing double slashes keeps names that have none |
| C129 | decision logic for every element; mean as a finite sum; negation for probability 1 | floor of a number between 0 and 2; sum of a function with two values |
| C130 | functional correctness of a loop; negations for all such sizes and sequences | induction over the loop with the power of 1024; the right unit is unique |
| C131 | invariant of the counter, safety and leak of the heap | induction over the events; the counter is the number of steps modulo the period; objects in generation 2 are kept by every event |

## Disagreements found between code and property

Each of these is proved on a concrete witness; the theorem is named in brackets.

### Data pipelines

* A pipeline saved at the end of a round of `repeat`, resumed, ends [`C01_repeat_at_boundary`].
* `dynamic_bucket` loses buckets that wait to be returned, and keeps stale ones of the pipeline loaded or reset [`C01_dynamic_bucket_loses`, `C01_dynamic_bucket_stale`, `C04_dynamic_bucket_stale`].
* `pack` keeps a stale sequence when a state is loaded [`C01_pack_stale`].
* A state saved before the first call does not hold random generators [`C01_unstarted`].
* Warning counts are neither saved nor reset [`C01_warnings`, `C04_warnings`].
* Seeds of 2^63 and more are saved but cannot be loaded [`C01_large_seed`, `C02_large_size`].
* After an exception `yield_from` saves a state that cannot be loaded [`C01_yield_from_error`].
* A state that is too long is refused after the pipeline has moved [`C02_refused_state_moves`].
* End of data is not final for `round_robin` and `zip` [`C03_round_robin`, `C03_zip_raises`, `C11_early_end`, `C11_early_end_repeats`].
* `bucket_by_length` accepts size 0 and exceeds it [`C08_size_zero`, `C20_bucket_size_zero`].
* Pseudo-infinite pipelines count as ended in `round_robin` and `sample` [`C11_pseudo_infinite_is_shortest`, `C12_pseudo_infinite`, `C12_pseudo_infinite_repeats`].
* `sample` reads past the end of a vector [`C12_all_empty`, `C12_tiny_weight`].
* A zip of finite pipelines declares itself infinite [`C13_finitude_wrong`].
* `pack`: drop_remainder ignored, documented overlap missing, endless with capacity one or length zero [`C15_drop_ignored`, `C15_no_overlap`, `C15_capacity_one`, `C20_pack_no_length`, `C20_pack_capacity_one`].
* `prefetch` drops examples before an exception; order after `reset(False)` depends on the schedule [`C17_exception_drops`, `C17_reset_depends_on_schedule`].
* Non-deterministic `map` deadlocks, hangs in `state_dict`, never recovers from an exception; deterministic `map` returns raw examples [`C18_deadlock`, `C18_save_hangs`, `C18_exception_sticks`, `C18_raw_example`].
* Recoverable errors below `bucket`, `skip`, `shard` cost more than the failing example; `reset` of a broken pipeline is silent [`C19_bucket_loses`, `C19_skip_starts_over`, `C19_shard_shifts`, `C19_reset_is_silent`].
* A `read_iterator` source that is saved right after it was loaded loses an example [`C77_resume_negation`, `C77_double_load`].
* `create_bucket_sizes` leaves a bucket with room for fewer sequences than `num_seqs_multiple_of` as it is, although the number “must be a multiple” of it [`C101_not_a_multiple`]; hence the suffix of `C101_multiple_partial`.

### Native readers and converters

* CRLF at a chunk boundary joins lines; an unterminated last line breaks the pipeline; resume at the last line or into a used pipeline fails [`C22_split_crlf`, `C22_unterminated`, `C22_last_line`, `C22_used_pipeline`].
* Selectors: `[1*]` accepted, index overflow missed, wrong resolved path, nodes mapped twice [`C23_mixed_index`, `C23_overflow`, `C23_resolved_path`, `C23_overlap`].
* File regions whose end wraps around 2^64 are accepted [`C25_wraps`].
* Splitter with names and indices pairs them wrongly [`C26_names_mixed`].

### Readers, checkpoints, trainer

* A rank whose pipeline raises leaves the others waiting [`C27_error_waits`].
* Saving a step again deletes the committed one first [`C31_saving_again_loses`].
* Pipeline parallel ranks write the same data reader file [`C33_pipeline_overwrites`].
* Training ends without an update if all steps of the first pass overflow [`C36_first_pass_overflows`].
* `validate_at_start` without a validator raises [`C36_no_validator`].
* With a limit on steps, stop requests are ignored [`C37_step_limit`, `C37_not_heard`].
* Resuming in the last epoch does nothing; resuming at the end of an epoch repeats it [`C38_last_epoch`, `C38_stops_early`, `C38_extra_epoch`].
* A checkpoint saved on a stop during an overflow has the wrong label [`C39_mislabelled`].
* The last save may never be committed; a step may be saved twice [`C40_end_of_data`, `C70_saved_twice`].
* A native checkpoint with a lost pipeline stage directory in the middle (or with the last ones lost) is accepted, without the parameters from there on [`C84_gap_negation`].
* A process whose pipeline size is that of the checkpoint but whose tensor parallel size differs gets the parameters of the stages of other processes as well [`C84_stages_negation`].
* A metric whose name starts with `total_` can not be the score metric: it is dropped before the score is looked up and `InternalError` is raised [`C92_no_score`].
* If no unit has the score metric, rank 0 raises after everything was recorded; the other ranks return 0 (seen while reading; ranks that do not see the exception wait for rank 0 in the next collective).
* A rank that is left without examples does not read an empty epoch: `sample` raises on its first call, although `shard` is told to allow uneven shards [`C102_too_few`].
* With `LengthBatching` an example below `min_seq_len` raises an exception, while `StaticBatching` skips it and both skip examples that are too long [`C102_short`]; hence the hypothesis of `C102_length_partial`.
* The option `sample` of the supervised fine-tuning reader is never read: sources are always sampled.
* The text generation recipe reads `example.get("id")` and leaves out the id of a line that has none, but a file in which some lines have an id and others do not cannot be processed: the collater raises an exception as soon as both are in one batch, since `None` and a number or text are of different types (`recipes/lm/generate/dataset.py:58-65`) [`C111_mixed_ids`].
* With `save_model_only` a restarted training begins at step 0 while its old checkpoints stay in the listing, so that with `keep_last_n_checkpoints` each new checkpoint is deleted as soon as it is committed until the old number of steps is exceeded (`src/fairseq2/trainer.py:363-372, 1031-1046`) [`C112_restart_loses`].
* If the early stopper ends the run at the end of an epoch that was saved and validated, the step is saved once more, which first deletes its checkpoint together with its score: the best checkpoint may end up without a score, so that `keep_best_n_checkpoints` and later runs ignore it [`C112_early_stop_unscored`].
* Loaders leave out a name whose tensor object they have yielded before, and `set_model_state` only makes up for it if the model has one tensor for both names: a PyTorch file in which two names have one object is refused by a model with two tensors there, with the second name reported as missing although it is in the file; the same contents as Safetensors are accepted (`src/fairseq2/model_checkpoint/basic.py:81-84`, `src/fairseq2/models/utils/checkpoint.py:70-79`) [`C115_shared_negation`].
* No Llama 4 model can be created for tensor parallelism: the factory of LLaMA, which it uses, makes embeddings (and projections) that are already sharded, the specifications of Llama 4 match them by name, and the sharder only takes the plain classes, so that creation ends with an `InternalError` (`src/fairseq2/models/llama4/sharder.py:28`, `src/fairseq2/models/llama/factory.py:92-99`, `src/fairseq2/sharder.py:183-187`) [`C116_llama4_negation`]. The dense layers of its interleaved variants would be refused too, since `.*\.ffn$` matches a network that is not a mixture of experts.
* A family with specifications passes them to the checkpoint loader by the text of the patterns, which is never the name of a parameter: a checkpoint of another number of tensor parallel ranks gives every process the shard of the first rank as if it were the whole parameter (`src/fairseq2/models/family.py:682`, `src/fairseq2/model_checkpoint/common.py:107-117`) [`C116_dims_negation`].
* The sharder replaces a module that its parent has under two names only under the first one; the two then no longer share their parameters (`src/fairseq2/sharder.py:173`, `named_children`) [`C116_second_name`].
* `get_shard_dims` goes over `named_parameters()`, which leaves out further names of a parameter, while checkpoints have all names of `state_dict()`: of a tied sharded parameter only the first name has a dimension, and a checkpoint of another number of tensor parallel ranks is refused, since the second name gets what the first rank has written (`src/fairseq2/nn/sharded.py:68-73`) [`C117_tied_negation`]. LLaMA and Qwen do not allow tied embeddings with tensor parallelism; own models can have them.
* The JSONL recorder keys its lines by display names. A metric without a descriptor that is called like the display name of another one, or `Step` or `Time`, replaces that value without an error (`src/fairseq2/metrics/recorders/jsonl.py:88-94`) [`C120_lost_negation`]. With registered metrics alone nothing is lost [`C120_registered`].
* `re.match` with `$` accepts a newline at the end of a part of a category, so that `valid\n/x` becomes a directory with a newline in its name (`src/fairseq2/metrics/recorders/jsonl.py:32, 113`) [`C120_newline_negation`].
* The loader and the trainer look for checkpoints with the state of the trainer, the FSDP wrapper for checkpoints of any kind (`src/fairseq2/recipe/internal/train_model.py:137-139, 210-212, 285-287`, `src/fairseq2/trainer.py:364-366`, `src/fairseq2/recipe/internal/data_parallel.py:154, 170-171`). A run with FSDP that begins in a directory with model-only checkpoints alone loads the model on rank 0 and does not broadcast it: all other ranks begin with parameters that they initialized themselves [`C125_fsdp_negation`; the rest is `C125_initial_partial`].

### Gangs

* Hybrid sharding with tensor parallelism fails on cpu [`C45_cpu_tensor_parallel`].
* A rank equal to the size, and a coordinator that is not rank 0 of its tensor parallel gang, are accepted [`C46_outside`, `C46_coordinator_accepted`].

### Optimisation

* `TriStageLR` with a final scale of zero raises at the decay stage [`C42_tri_stage_zero_scale`].
* `CosineAnnealingLR`: fractional multipliers rise, multipliers below one end, zero length fails [`C42_cosine_rises`, `C42_cosine_shrinking`, `C42_cosine_zero_length`].
* Rates given as `int` raise [`C42_int_rate`].
* Overflows of small scales, or with factors close to one, are not noticed [`C43_unnoticed`, `C43_unnoticed_factor`].
* `check_grad_norms` passes whenever one norm is not finite [`C78_nonfinite_negation`].
* A process without targets in a step skips the collective that the others wait in [`C79_no_targets_negation`].
* A batch without targets counts as one target in `nll_loss` [`C90_nll_negation`, `C90_nll_partial`].
* Both error rates of `WerMetric` are -1 if either the units or the words of all references are empty [`C90_wer_empty`].
* After a restart, metrics other than totals never cover the steps between the last publication and the checkpoint, although their state was saved [`C91_resume_negation`].
* A configured group with the single pattern `.*` that gets no parameters is taken for the fallback group and dropped without a warning, so that lists of learning rates no longer fit [`C93_count_negation`, `C93_count_partial`].
* Cosine annealing without a cycle length takes `num_steps - num_warmup_steps` and, unlike polynomial decay, does not check it. With as many warm-up steps as steps every run fails in its last step, after all training, with a division by zero, since the scheduler's step then computes a rate in a cycle of length 0 (`src/fairseq2/recipe/internal/lr_schedulers.py:67-76`, `src/fairseq2/optim/lr_schedulers/cosine_annealing.py:108`, `src/fairseq2/trainer.py:628`) [`C121_warmup_negation`].

### Layers

* The step counter cannot reach its maximum [`C48_last_step`].
* Padding of later pieces gets a position row [`C48_padding`].
* KV caches: overrun is silent, value dimensions must equal key dimensions, straddling pieces read garbage, encoder cache ignores orders of the same length [`C49_overrun`, `C49_value_dims`, `C50_straddle`, `C51_ignored`].
* Attention biases: window ignored, chunked bias hides nothing, ALiBi with padding raises, padding unmasked for one query, stale cache [`C52_window_ignored`, `C52_chunked_hides_nothing`, `C52_alibi_padded_raises`, `C52_padding_unmasked`, `C52_cache_stale`].
* Span masks: wrong shape without spans, broken spans [`C53_empty_shape`, `C53_broken_spans`].
* Resharding loses rows if sizes do not divide [`C54_lost_rows`].
* Sharded layers: bias added on every rank without reduction, indices outside the table give zeros [`C55_bias_twice`, `C55_outside`].
* `apply_to_parameters` with a function that returns a parameter itself but not its gradient converts the gradient of a parameter with several slots several times [`C85_grad_negation`].
* `share_parameters` accepts modules of which different tensors are tied; a slot of the target then gets the tensor of another slot of the source [`C85_share_negation`].
* `broadcast_module` leaves out a persistent buffer that is registered as non-persistent in a module that comes earlier [`C85_broadcast_negation`].
* `load_state_dict` does not report keys below a child that is `None` under the second name of a shared module [`C85_load_negation`].
* The rotary encoders do not zero the padding of a padded batch that follows earlier steps: it gets the row of the last position before it [`C86_padding_negation`].
* `to_hg_state_dict` and `convert_llama_state_dict` permute the query and key weights inside the dictionary of the caller; exporting the same dictionary twice gives wrong weights [`C87_export_twice_negation`, `C87_import_mutates_negation`].
* `to_hg_config` of LLaMA computes `intermediate_size` from the model dimension alone and ignores `ffn_inner_dim` and `ffn_inner_dim_scale` [`C87_config_negation`].
* A dictionary with names of both formats loses entries in `convert_state_dict` without an error [`C87_collision_negation`].
* `set_model_state` accepts a checkpoint in which the names of a tied tensor have different values; the last one wins [`C88_ties_negation`].
* A checkpoint that is refused has already overwritten the tensors that fit [`C88_refused_negation`].
* `RelativePositionSDPA` with one query and several keys (decoding with a state) broadcasts one positional term to all keys, so that positions have no effect; with more queries it raises [`C89_step`, `C89_step_negation`, `C89_unequal`].
* `cross_entropy` with label smoothing raises an error for targets outside of the vocabulary, even if they are padding or masked; without smoothing they are ignored [`C94_outside`, `C94_outside_negation`]. Without a padding index, -100 is ignored without smoothing only [`C94_default`].
* With label smoothing and one class it divides by zero [`C94_single`].
* Sliding windows with a full cache (Gemma 3n): fed token by token, the model computes what it would without windows, and not what one call on the whole sequence gives [`C96_window_forgotten`, `C96_window_differs`, `C96_window_full`]. Windows with pieces of several tokens after the first (`prefill_chunk_size`) are excluded from `C96_session_partial` for `C50_straddle` and `C52_window_ignored`, orders of unchanged length that move sources for `C51_ignored`.
* Speech: group norm in the feature extractor (the base configuration) lets padding into the features [`C97_group_norm`]. The stacked position encoder sets padding to zero only before its first layer [`C97_stacked`]. `sample_every_k` of the filterbank extractor indexes the batch dimension: it drops whole sequences, or raises with padding [`C97_sampled`]. `Conv1dFbankSubsampler` tests `padded` with the message for `packed` and so refuses every padded batch [`C97_subsampler`].
* Padded batches: if all sequences have one token and are padded, causal attention uses no mask at all, and the token sees the padding [`C98_one_token`]. In the attention to the encoder, a padding position of a target whose source has full length sees no key: its attention is `nan` [`C98_starved`], which `NaiveSDPA` carries into the keys of the next layer and so into the whole sequence; SDPA of recent torch versions returns zero instead.
* A recording whose most probable path is all blank makes the validation of the whole batch raise `ValueError`: `pad_seqs` refuses an empty hypothesis [`C103_all_blank`, `C103_crash`]; hence the hypothesis of `C103_error_rates_partial` and `C103_validation_partial`.
* Word and unit error rates are dropped if one of them is below one percent, a perfect score included [`C103_good_models`]; hence the hypotheses of `C103_report_partial`. As `wer` is the default score metric of the recipe, `validator.py` 369-372 then raises `InternalError` (read, not proved).
* The features penalty of wav2vec 2.0 averages over padding too, so that it is too small for padded batches and depends on the longest recording [`C104_penalty_padding`]; hence the equal lengths of `C104_penalty_partial`.
* If all entries of the codebooks are equal, all distractors are left out and the contrastive loss is zero [`C104_collapse`]: only the diversity loss counters a collapse.
* `DauphinFeedForwardNetwork` cannot be spread over ranks although it takes `gangs`: `chunk(2)` halves the part of a rank, so that other numbers are multiplied than on a single device [`C105_dauphin`].
* `activation_sparsity` cannot be spread over ranks: every rank takes mean and deviation of its own part [`C105_sparse`].
* ALiBi with tensor parallelism: the bias has the heads of the whole module and attention the heads of the rank, so that torch raises; excluded from C105. OLMo norms queries over the whole projection width, which is another one on a rank; not modelled.
* ALiBi with two or more heads cannot be used with packed batches: if there is more than one sequence, or padding, `_create_block_bias_tensor` raises an exception when it writes a tensor with a head dimension into a block without [`C110_alibi_raises`, as `C52_alibi_padded_raises` for padded batches].
* If packed targets have padding and the packed sources have none, attention to the encoder is `nan` at the padding [`C110_starved`, as `C98_starved` for padded batches]; the sequences are right as far as this does not reach them [`C110_translate_partial`].
* By its documentation a layer hook that returns `False` makes the layer the final one of the stack (`src/fairseq2/models/transformer/encoder.py:90-92`). The `break` only leaves the loop over the hooks (161-163): all layers are run whatever hooks return, and hooks registered later are not called for that layer [`C118_stop_ignored`, `C118_stop_negation`]. The decoder has the same loop.
* w2v-BERT gives `cross_entropy` logits of shape (N×S, V, G), which takes them as (N, S, T) and computes the softmax over the G target codebooks. The sizes do not fit the targets then: without label smoothing every batch with a masked position is an error unless there are as many codebooks as entries, and with label smoothing and one target codebook, the default, as well (`src/fairseq2/models/w2vbert/model.py:108-117, 158-164`) [`C119_no_loss`, `C119_no_smoothed_loss`, `C119_default_negation`]. Where sizes fit by chance the loss is another one [`C119_other_loss_negation`].
* `_get_target_indices` slices up to `num_codebooks` instead of `num_target_codebooks`, so with fewer target codebooks than codebooks there are too many targets (`src/fairseq2/models/w2vbert/model.py:144`) [`C119_target_codebooks_negation`].
* The wrapper of FSDP1 reads `reshard_after_forward` of a part the wrong way round: `False` gives FULL_SHARD or HYBRID_SHARD, which free the parameters after the forward pass, and `True` the strategies that keep them, while the same flag for the model is read the right way (`src/fairseq2/nn/fsdp/fsdp1.py:69-83, 121-133`). `apply_layerwise_fsdp` passes `False` for the last layer so that it is kept; with FSDP1 it is always freed and gathered again, and with `reshard_after_forward: false` it is the only layer freed [`C122_v1_negation`, `C122_v1_flag_negation`]. The documentation of the flag in `unified.py:62-63` and `recipe/config.py:301-302` describes the opposite of what both versions do with the flag of the model.
* `to_fsdp` takes `skip_init` but passes it to neither version (`src/fairseq2/nn/fsdp/unified.py:66-88`). A run that goes on from a checkpoint asks for it (`src/fairseq2/recipe/internal/data_parallel.py:171, 196`), and all parameters on the meta device are initialized nevertheless [`C122_skip_negation`, `C122_skip_versions`].
* `fsdp_load_local_state_dict` does not return after it has loaded the state, so that it raises a `TypeError` saying that the module is not an FSDP module for every FSDP module (`src/fairseq2/nn/fsdp/unified.py:103-110`). The facades do not use it [`C123_unified_negation`].
* `DropPathResidualConnect` with `drop_p` 1 divides by 0 and multiplies with 0: no element of the output is a number, instead of the residual (`src/fairseq2/nn/residual.py:104-114`) [`C129_all_negation`].

### Batches and generation

* Packed trimming pairs across sequences, source elements counted as targets, packed pairs raise [`C56_packed_crosses`, `C56_source_as_target`, `C56_packed_pair_raises`].
* The EOS forced at the length limit bypasses processors [`C57_forced_eos`, `C58_forced_eos`].
* Greedy top-k returns a forbidden token if nothing is permitted [`C59_greedy_all_zero`].
* Beam search: too few hypotheses in one step or with a small vocabulary, EOS in a prompt, length counted from the longest prompt [`C60_one_step`, `C60_small_vocabulary`, `C60_eos_in_prompt`, `C60_short_prompt`].
* Sampling: length counted from the longest prompt, `num_gens=0` accepted [`C61_short_prompt`, `C61_zero_gens`].
* Tokenizers: a framing token that the SentencePiece model lacks becomes the unknown symbol silently [`C99_unknown_frame`]. Indices are cut to 32 bits, so 2³² + 3 is decoded as 3 [`C99_index_wraps`]. Names of special tokens inside text become special tokens with tiktoken, so a text can forge the end of a response [`C99_injected`, `C99_forged`]. `encode_as_tokens` of tiktoken tokenizers raises for text with a token of half a character [`C99_half_character`].
* `HgTokenizer.create_decoder` keeps the first decoder, so later calls ignore `skip_special_tokens` [`C99_hg_decoder`]; encoders are kept as well, and with them the device. Qwen tokenizers in the default configuration have no padding index because the padding token is the EOS token [`C99_qwen_pad`], so the fine-tuning recipe refuses them. The Gemma 3n tokenizer has no `prompt_response` mode and never writes EOS [`C99_gemma`].
* `TextTranslator` with `max_source_len` cuts the EOS token off long sources [`C99_truncated`]; NLLB was trained on sources that end with it.
* Fine-tuning: a token of a response that is the `pad_idx` of the model is counted among the targets but not learnt [`C100_uncounted`]; hence the suffix of `C100_loss_partial`, whose specification leaves these tokens out of the loss. An example of one token passes the default `min_seq_len` of 1 and makes the step raise [`C100_one_token`]. A bucket in which some examples have an `id` and others none cannot be collated [`C100_ids`].
* A text translated together with a longer one may get another translation than alone: the maximal length of the generation is taken from the longest source of the batch [`C106_translate_longer`; `C106_translate` says what is left].
* A prompt completed together with a longer one may get another completion than alone: minimal and maximal length count from the end of the longest prompt, so that EOS is forbidden for the shorter one for longer [`C106_complete_eos`; `C106_complete_lengths`, `C106_complete_company` say what is left].
* A prompt with an EOS or PAD beyond the length of the shortest prompt of the batch gets the score minus infinity, because the scores of these prompt tokens are taken after EOS and PAD were forbidden; its completion is arbitrary then and may fail with an `InternalError` [`C106_complete_fails`].
* A sequence-to-sequence generation with prompts of different lengths may continue a prompt with the source of another one: when in one step as many sequences end as others get, the number of sequences stays the same, and the cached encoder output ignores the new order [`C107_source_lost`; the hypotheses of `C107_source_partial` (equal lengths, a vocabulary of at least twice the beam size) exclude it; `TextTranslator` always has prompts of equal length].
* Sampling with an encoder-decoder model raises when more than one sequence per prompt is asked for and a prompt has one token only: the fan out reorders a state bag that is still empty, and the first call attends with several times as many sequences as there are sources [`C108_fan_out_lost`; `C108_source_partial` requires two tokens or one sequence per prompt; the usual target prefixes (`</s>`, language) have two].
* Where a text begins inside a packed batch its first token is predicted from the text before it: `as_auto_regressive` shifts the packed tensor as a whole, and the loss has no mask there [`C109_crosses`; the other predictions are right, `C109_epoch`].
* `pack` documents that a sequence longer than `max_seq_len` is cut with its last token repeated (`[0, 1, 2, 3]`, `[3, 4, 5, 6]`). The token is repeated only if the batch is full at the cut; inside a batch the code cuts into `[0, 1, 2, 3]`, `[4, 5, 6]` [`C109_documented_cut`].
* A rank whose files are all empty does not see an empty epoch: the first call raises `The data pipeline is empty and cannot be sampled.` [`C109_empty_rank`].
* In speech recognition the examples are shuffled before they are sharded, and `reset` keeps the state of the generator. With length batching the ranks stop at different places if the epoch ends before all of them are drained (for instance with `max_num_batches`), so that their generators differ afterwards: in the next epoch the shards overlap and other examples are read by no rank (`recipes/wav2vec2/asr/data/dataset.py:287-295`, `native/src/fairseq2n/data/shuffle_data_source.cc:94-108`) [`C113_later_epoch`]. This needs a window below the number of examples; one shuffle of everything draws the same numbers on all ranks. Training with `SyncMode.UNTIL_FIRST` (`recipes/wav2vec2/asr/recipe.py:130`) ends an epoch as soon as one rank is at its end, so that ranks are left undrained without `max_num_batches` as well.
* A transcript without tokens (an empty line, or only unknown letters for some tokenizers) is not filtered out, and `Seq2SeqBatch` raises `ValueError` for its whole batch [`C113_empty_transcript`].
* In pretraining, recordings that are longer than the shortest of their batch never contribute their last sample: `self.rng.randint(0, audio_size - crop_size)` excludes its upper bound, so that the last possible stretch is never taken, and a recording one sample longer is always cut at its end (`recipes/wav2vec2/ssl/data/preprocessing.py:93`) [`C114_tail_unused`, `C114_one_place`].
* In pretraining, the generator of `AudioCropper` is not part of `state_dict()` of the reader; a restored reader starts with the seed again and cuts the remaining batches at other places than the reader it was saved from (`recipes/wav2vec2/ssl/data/preprocessing.py:71,93`) [`C114_resume`].
* `add_audio_cropping` is said to crop long audios to `max_audio_len`, but `bucket_by_length` before it has already skipped everything above `max_audio_len` (`recipes/wav2vec2/ssl/data/batch_utils.py:34-41`): such recordings are not cropped but left out (part of `C114_epochs_partial`).
* `normalize_audio` of the pretraining dataset is said to normalise audio to zero mean and unit variance (`recipes/wav2vec2/ssl/data/dataset.py:81-82`); it only changes the data type of the decoder (`preprocessing.py:51`), as nothing in the pipeline normalises (read, not proved).

### Configuration, runtime, assets

* A metric that a client holds is detached by a rollback [`C62_held_metric`].
* A failing singleton provider is called again [`C63_failing_singleton`].
* `null` overrides replace the configuration [`C64_null_overrides`].
* Structuring: order of unions, `None` first, coerced numbers and strings, paths as `object`, tuple keys [`C65_union_order`, `C65_none_first`, `C65_coerced_numbers`, `C65_coerced_strings`, `C65_object_path`, `C65_tuple_keys`].
* Asset cards: cyclic bases do not end, environment-only assets not found, inherited relative paths, white space in bases in memory [`C66_cycle`, `C66_environment_only`, `C66_relative_path`, `C66_in_memory_base`].
* Sweep tags collide and depend on key order for clashing paths [`C67_order`, `C67_removed_characters`, `C67_types`, `C67_empty`, `C67_hash_text`, `C67_world_size`, `C67_stray_brace`].
* Downloads: stale temporary file, partial asset with `local_only`, interrupted forced call, unknown length [`C68_stale_temporary_file`, `C68_local_only`, `C68_forced_call`, `C68_unknown_length`].
* Validation: keys with the same `repr`, empty messages [`C69_same_repr`, `C69_empty_message`].
* `RngBag.load_state_dict` raises after generators have been changed [`C80_load_negation`]; a CUDA device named with and without index is held twice [`C80_devices_negation`].
* Items of one `--config` option do not count in order: `a={b: 1} a.b=2` keeps 1, `a=1 del:a` keeps `a` [`C81_order_negation`].
* Directives of an asset configuration are carried out once per card, on values taken from the environment as well, so that a derived card that only sets something else changes them [`C83_reexpanded_negation`].
* Directives of a recipe configuration are carried out only if there is a file, and never in command line overrides [`C83_unexpanded_negation`].
* `detect_default_device` says that the CPU is used if CUDA is enabled but neither one visible device nor LOCAL_RANK is given; it uses the first CUDA device (`src/fairseq2/device.py:147-153, 228-241`) [`C124_cpu_negation`].
* One device in CUDA_VISIBLE_DEVICES is recognised only if it is a number. A process that is given one by its identifier (GPU-...) and has a positive local rank fails with `LocalRankOutOfRangeError` (`src/fairseq2/device.py:215-226, 243-244`) [`C124_uuid_negation`].
* The local variables are not compared with the others: a process with LOCAL_RANK 3 and LOCAL_WORLD_SIZE 4 alone is the only one in its world (`src/fairseq2/world_info.py:58-81`) [`C124_local_negation`].
* `Uri.from_path` quotes a path (`Path.as_uri`), but `to_path` does not unquote it (`src/fairseq2/utils/uri.py:40-48, 76-84`). For every local path in an asset card with a space, a letter that is not in ASCII, `+`, `=`, `@` or another byte besides letters, digits and `_ . - ~ /`, another path is opened [`C127_path_negation`], and likewise for proper `file` URIs of such paths [`C127_uri_negation`; the rest is `C127_path_partial`].
* A `file` URI of an absolute path loses its first slash (`lstrip`, and `Path` before it), so that the local file system looks for a relative path (`src/fairseq2/file_system.py:149-153, 171-174`) [`C128_file_negation`].
* `walk_directory` of a remote file system puts the prefix before every bare file name (`src/fairseq2/file_system.py:306-308`). The provider of asset metadata joins these to the directory (`src/fairseq2/assets/metadata_provider.py:138-144`), so that no file of a remote directory is found [`C128_walk_negation`].
* `resolve_filesystem` compares the classes of file systems, which are the same for all protocols: a sequence of paths of different file systems is not refused, and the file system of the first is used (`src/fairseq2/file_system.py:389-398`) [`C128_mixed_negation`].
* `format_as_byte_size` chooses the unit before it rounds: a size just below the next unit is shown as `1024.00 KiB` (`src/fairseq2/metrics/formatters.py:106-112`) [`C130_rounding_negation`].
* `format_as_int` does not pass the postfix on to the elements of a sequence, so that a sequence of seconds has no unit (`src/fairseq2/metrics/formatters.py:27`) [`C130_postfix_negation`].
* `gc_every_n_steps` is documented as calling `gc.collect()`, but only generations 0 and 1 are collected while automatic collections are off: garbage that once survived a collection stays for the whole run (`src/fairseq2/utils/gc.py:73`, `src/fairseq2/recipe/config.py:264`) [`C131_old_negation`, `C131_survivor_negation`].
* The collector counts from the start of the run, so that a resumed run collects at other steps (`src/fairseq2/utils/gc.py:54`) [`C131_resumed_negation`]; it turns automatic collections on at the end even if the program had turned them off (`src/fairseq2/utils/gc.py:65`) [`C131_setting_negation`].

### Parquet

* `compute_length_splits` without ordering starts the running maximum from an earlier split and cuts splits too small [`C73_not_maximal_unordered`].
* Shuffled streaming without a seed loses and repeats fragments at epoch ends, and does not resume [`C74_unseeded_negation`, `C75_unseeded_negation`].
* `nb_fragments=0` still lists one row group [`C76_at_most_negation`].

Seen while reading, not part of a theorem: `_delete_previous_non_model_checkpoints` lists steps without a barrier; gang broadcasts
take `source_rank` as a global rank; rows of padding in block biases are all −∞ (nan outputs);
`load_in_memory` pops the caller's "name"; `except HTTPError` after
`except URLError` is unreachable; a positive `unk_penalty` can make probabilities negative; the documentation of
`RowShardedLinear.from_linear`'s `scatter_input` is reversed; `TableBucketer`
shuffles although `shuffle=False` when a batch size or token limit is given (operator precedence); the fragment loader passes
`deterministic=non_deterministic_read`, which is inverted; the rejection smoother divides by zero for an empty fragment;
`ScaledResidualConnect.__init__` does not call `super().__init__()` (`nn/residual.py:57-61`), so that calling the module fails in
PyTorch.
