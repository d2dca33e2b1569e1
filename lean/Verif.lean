import Verif.Pipeline.Basic
import Verif.Pipeline.Spec
import Verif.Pipeline.Lemmas
import Verif.Pipeline.Laws
import Verif.Pipeline.Simple
import Verif.Pipeline.SimpleLaws
import Verif.Pipeline.SimpleStreams
import Verif.Pipeline.RepeatStreams
import Verif.Pipeline.Wrapper
import Verif.Pipeline.WrapperLaws
import Verif.Pipeline.Multi
import Verif.Pipeline.MultiLaws
import Verif.Pipeline.MultiStreams
import Verif.Pipeline.RoundRobinStreams
import Verif.Pipeline.RepeatMore
import Verif.Pipeline.Buffered
import Verif.Pipeline.ShuffleLaws
import Verif.Pipeline.BblLaws
import Verif.Pipeline.DynLaws
import Verif.Pipeline.PackLaws
import Verif.Pipeline.YieldLaws
import Verif.Pipeline.MapLaws
import Verif.Pipeline.SampleLaws
import Verif.Pipeline.SampleWeights
import Verif.Pipeline.SampleStreams
import Verif.Props.Streams
import Verif.Props.Buffering
import Verif.Props.Packing
import Verif.Props.Sampling
import Verif.Pipeline.Quiet
import Verif.Pipeline.Closing
import Verif.Pipeline.Compose
import Verif.Pipeline.ComposeLaws
import Verif.Props.Resume
import Verif.Pipeline.Tape
import Verif.Pipeline.TapeFrame
import Verif.Pipeline.Errors
import Verif.Pipeline.Builder
import Verif.Props.Tape
import Verif.Props.Errors
import Verif.Pipeline.Prefetch
import Verif.Pipeline.PrefetchCtl
import Verif.Pipeline.PrefetchLaws
import Verif.Pipeline.PrefetchLive
import Verif.Props.Prefetch
import Verif.Pipeline.ParallelFor
import Verif.Pipeline.AsyncMap
import Verif.Pipeline.AsyncMapLive
import Verif.Props.ParallelMap
import Verif.Gang.Model
import Verif.Gang.Laws
import Verif.Gang.Grid
import Verif.Props.Gang
import Verif.Checkpoint.Model
import Verif.Checkpoint.Spec
import Verif.Checkpoint.Inv
import Verif.Checkpoint.Step
import Verif.Checkpoint.Reach
import Verif.Checkpoint.Hist
import Verif.Checkpoint.Retention
import Verif.Checkpoint.RetentionLaws
import Verif.Checkpoint.Topo
import Verif.Checkpoint.Example
import Verif.Props.Checkpoint
import Verif.Trainer.Model
import Verif.Trainer.Spec
import Verif.Trainer.Laws
import Verif.Trainer.Moved
import Verif.Trainer.Steps
import Verif.Trainer.Live
import Verif.Trainer.Saves
import Verif.Trainer.Stops
import Verif.Trainer.Again
import Verif.Trainer.Periods
import Verif.Props.Trainer
import Verif.Reader.Model
import Verif.Reader.Laws
import Verif.Reader.Resume
import Verif.Props.Reader
import Verif.Native.Lru
import Verif.Native.Split
import Verif.Native.FileMapper
import Verif.Native.Selector
import Verif.Native.SelectorMap
import Verif.Native.SelectorParse
import Verif.Native.Collater
import Verif.Native.Lines
import Verif.Props.Cache
import Verif.Props.Text
import Verif.Props.Selector
import Verif.Props.Collate
import Verif.Optim.LrSchedulers
import Verif.Optim.LrLemmas
import Verif.Optim.LossScaler
import Verif.Nn.BatchLayout
import Verif.Nn.BatchLayoutLemmas
import Verif.Nn.Incremental
import Verif.Nn.AttentionState
import Verif.Nn.AttentionStateLemmas
import Verif.Props.LearningRate
import Verif.Props.LossScaler
import Verif.Props.Layout
import Verif.Props.Incremental
import Verif.Props.KvCache
import Verif.Nn.AttentionBias
import Verif.Nn.AttentionBiasLemmas
import Verif.Props.AttentionBias
import Verif.Nn.RowMask
import Verif.Props.RowMask
import Verif.Shard.Reshard
import Verif.Shard.Lemmas
import Verif.Shard.Modules
import Verif.Shard.ModuleLemmas
import Verif.Shard.Backward
import Verif.Props.Reshard
import Verif.Props.Sharding
import Verif.Props.ShardGradients
import Verif.Datasets.Batch
import Verif.Props.Batch
import Verif.Generation.StepProcessor
import Verif.Generation.StepLemmas
import Verif.Props.StepProcessor
import Verif.Props.SamplingGenerator
import Verif.Props.BeamSearch
import Verif.Generation.Sampler
import Verif.Props.Sampler
import Verif.Generation.SamplingGenerator
import Verif.Generation.SamplingLemmas
import Verif.Generation.BeamSearch
import Verif.Generation.BeamLemmas
import Verif.Metrics.Bag
import Verif.Props.MetricBag
import Verif.Runtime.Dependency
import Verif.Props.Dependency
import Verif.Utils.Config
import Verif.Props.ConfigMerge
import Verif.Utils.Structured
import Verif.Utils.StructuredLemmas
import Verif.Props.Structured
import Verif.Utils.Validation
import Verif.Props.Validation
import Verif.Assets.Store
import Verif.Props.AssetCards
import Verif.Recipe.SweepTag
import Verif.Props.SweepTag
import Verif.Assets.Download
import Verif.Props.Download
import Verif.Parquet.LengthSplits
import Verif.Props.ParquetBatching
import Verif.Parquet.Streaming
import Verif.Props.ParquetStreaming
import Verif.Parquet.Listing
import Verif.Props.ParquetListing
import Verif.Pipeline.IteratorSource
import Verif.Props.IteratorSource
import Verif.Optim.GradStep
import Verif.Props.GradStep
import Verif.Utils.Rng
import Verif.Props.Rng
import Verif.Utils.ConfigArgs
import Verif.Props.ConfigArgs
import Verif.Utils.Directives
import Verif.Props.Directives
import Verif.Props.ConfigLoad
import Verif.Shard.NativeLoad
import Verif.Props.NativeLoad
import Verif.Nn.Modules
import Verif.Nn.ModuleWalk
import Verif.Nn.ModuleApply
import Verif.Nn.ModuleShare
import Verif.Props.Modules
import Verif.Nn.Rotary
import Verif.Nn.RotaryLemmas
import Verif.Props.Rotary
import Verif.Models.KeyMap
import Verif.Models.KeyMapLemmas
import Verif.Models.ConvertLemmas
import Verif.Models.Llama
import Verif.Models.LlamaLemmas
import Verif.Props.Interop
import Verif.Models.SetState
import Verif.Models.SetStateLemmas
import Verif.Props.SetState
import Verif.Nn.RelativeAttention
import Verif.Nn.RelativeAttentionLemmas
import Verif.Props.RelativeAttention
import Verif.Metrics.Aggregate
import Verif.Props.Metrics
import Verif.Props.TrainMetrics
import Verif.Eval.Model
import Verif.Props.Evaluation
import Verif.Optim.Groups
import Verif.Props.ParamGroups
import Verif.Nn.CrossEntropy
import Verif.Props.CrossEntropy
import Verif.Nn.Moe
import Verif.Nn.MoeLemmas
import Verif.Props.Moe
import Verif.Nn.Decoder
import Verif.Nn.DecoderSpec
import Verif.Nn.DecoderLemmas
import Verif.Nn.DecoderSteps
import Verif.Props.Decoder
import Verif.Nn.Speech
import Verif.Nn.SpeechSpec
import Verif.Nn.SpeechLemmas
import Verif.Props.Speech
import Verif.Nn.Encoder
import Verif.Nn.EncoderSpec
import Verif.Nn.EncoderLemmas
import Verif.Props.Encoder
import Verif.Tokenizer.SentencePiece
import Verif.Tokenizer.Families
import Verif.Tokenizer.Lemmas
import Verif.Props.Tokenizer
import Verif.Datasets.Sft
import Verif.Datasets.SftLemmas
import Verif.Props.FineTuning
import Verif.Pipeline.Passes
import Verif.Pipeline.SamplePasses
import Verif.Pipeline.BucketSizes
import Verif.Pipeline.BucketSizesLemmas
import Verif.Props.BucketSizes
import Verif.Datasets.SftReader
import Verif.Datasets.SftReaderLemmas
import Verif.Props.SftReader
import Verif.Nn.Asr
import Verif.Nn.AsrLemmas
import Verif.Props.Asr
import Verif.Nn.Contrast
import Verif.Nn.ContrastLemmas
import Verif.Props.Contrast
import Verif.Nn.TensorParallel
import Verif.Nn.TensorParallelCache
import Verif.Nn.TensorParallelLemmas
import Verif.Nn.TensorParallelRun
import Verif.Props.TensorParallel
import Verif.Generation.Lanes
import Verif.Generation.Text
import Verif.Generation.TextLemmas
import Verif.Props.TextGeneration
import Verif.Generation.Cached
import Verif.Generation.CachedLemmas
import Verif.Generation.CachedLoop
import Verif.Generation.CachedDecoder
import Verif.Props.CachedGeneration
import Verif.Generation.CachedSampling
import Verif.Generation.CachedSamplingLemmas
import Verif.Props.CachedSampling
import Verif.Pipeline.PackDocs
import Verif.Datasets.LmTrain
import Verif.Props.Pretraining
import Verif.Nn.PackedForward
import Verif.Datasets.LmLoss
import Verif.Props.PackedTraining
import Verif.Datasets.LmGenerate
import Verif.Datasets.LmGenerateLemmas
import Verif.Props.GenerateTask
import Verif.Checkpoint.Kept
import Verif.Checkpoint.KeptSpec
import Verif.Checkpoint.KeptRuns
import Verif.Checkpoint.KeptLemmas
import Verif.Props.RetentionRuns
import Verif.Datasets.AsrReader
import Verif.Datasets.AsrReaderLemmas
import Verif.Pipeline.Cycles
import Verif.Datasets.AsrEpochsLemmas
import Verif.Props.AsrReader
import Verif.Datasets.SslReader
import Verif.Datasets.SslReaderLemmas
import Verif.Props.SslReader
import Verif.Shard.FormatLoad
import Verif.Props.FormatLoad
import Verif.Shard.ModelSharder
import Verif.Props.ModelSharder
import Verif.Shard.ShardDims
import Verif.Props.ShardDims
import Verif.Nn.LayerHooks
import Verif.Props.LayerHooks
import Verif.Nn.BertLoss
import Verif.Props.BertLoss
import Verif.Metrics.JsonlRecorder
import Verif.Props.JsonlRecorder
import Verif.Optim.LrFactories
import Verif.Props.LrFactories
import Verif.Shard.FsdpWrap
import Verif.Props.FsdpWrap
import Verif.Runtime.World
import Verif.Props.World
import Verif.Trainer.StartWeights
import Verif.Props.StartWeights
import Verif.Utils.Stopwatch
import Verif.Props.Stopwatch
import Verif.Assets.Locations
import Verif.Props.Locations
import Verif.Runtime.FileSystems
import Verif.Props.FileSystems
import Verif.Nn.DropPath
import Verif.Props.DropPath
import Verif.Metrics.Formatters
import Verif.Props.Formatters
import Verif.Utils.GarbageCollection
import Verif.Props.GarbageCollection
