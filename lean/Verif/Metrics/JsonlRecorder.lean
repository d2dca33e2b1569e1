/-!
# The JSONL metric recorder

Models `JsonlMetricRecorder` (src/fairseq2/metrics/recorders/jsonl.py:29-139), `MetricDescriptorRegistry`
(src/fairseq2/metrics/recorders/descriptor.py:33-39) and the registered descriptors
(src/fairseq2/recipe/composition/metric_recorders.py:149-201, without formatters).

Numbers are of any type `N`; `json.dump` writes a line that stands for the dictionary, with its order. Texts of categories are
lists of characters, white space is that of ASCII, and a file is named by its category. Writing does not fail. The time is
given. Other recorders and processes do not write to the files.
-/

namespace Fs2.Jsonl

variable {N : Type}

/-- What is written. -/
inductive Json (N : Type) where
  | num (n : N)
  | str (s : String)
  | list (l : List (Json N))

/-- What is recorded. -/
inductive Value (N : Type) where
  /-- `int` or `float`. -/
  | num (n : N)
  | str (s : String)
  /-- A tensor with one element. -/
  | one (n : N)
  /-- Another tensor, with what `tolist()` gives. -/
  | many (t : Json N)
  /-- Another sequence. -/
  | seq (l : List (Value N))
  /-- Anything else. -/
  | other

inductive Exc where
  /-- `ValueError` for a value. -/
  | value
  /-- `ValueError` for a category. -/
  | category
  deriving DecidableEq

mutual
/-- `sanitize` (jsonl.py:71-86). -/
def sanitize : Value N → Except Exc (Json N)
  | .num n => .ok (.num n)
  | .str s => .ok (.str s)
  | .one n => .ok (.num n)
  | .many t => .ok t
  | .seq l => match sanitizeAll l with
    | .ok r => .ok (.list r)
    | .error e => .error e
  | .other => .error .value

def sanitizeAll : List (Value N) → Except Exc (List (Json N))
  | [] => .ok []
  | v :: l => match sanitize v with
    | .error e => .error e
    | .ok j => match sanitizeAll l with
      | .error e => .error e
      | .ok r => .ok (j :: r)
end

/-- `MetricDescriptor` (descriptor.py:18-25), what the recorder uses of it. -/
structure Desc where
  name : String
  display : String
  priority : Nat
  deriving DecidableEq

/-- `maybe_get` of a registry made of these descriptors: the last one of a name is in the dictionary (descriptor.py:35-39). -/
def maybeGet (descriptors : List Desc) (name : String) : Option Desc :=
  descriptors.reverse.find? fun d => d.name == name

/-- The descriptor of a metric (jsonl.py:59-64). -/
def describe (descriptors : List Desc) (name : String) : Desc :=
  match maybeGet descriptors name with
  | some d => d
  | none => ⟨name, name, 999⟩

/-- Whether the sort key `(priority, display_name)` of the first is not above that of the second (jsonl.py:69). -/
def keyLe (a b : Desc) : Bool :=
  decide (a.priority < b.priority) || (a.priority == b.priority && decide (a.display ≤ b.display))

/-- Stable sort (jsonl.py:69), by insertion. -/
def insertKey (x : Value N × Desc) : List (Value N × Desc) → List (Value N × Desc)
  | [] => [x]
  | y :: l => if keyLe x.2 y.2 then x :: y :: l else y :: insertKey x l

def sort : List (Value N × Desc) → List (Value N × Desc)
  | [] => []
  | x :: l => insertKey x (sort l)

abbrev Line (N : Type) := List (String × Json N)

/-- `output[key] = value` on a dictionary. -/
def setKey (key : String) (j : Json N) : Line N → Line N
  | [] => [(key, j)]
  | (k, i) :: l => if k = key then (k, j) :: l else (k, i) :: setKey key j l

/-- The loop over the values (jsonl.py:93-94). -/
def fill : Line N → List (Value N × Desc) → Except Exc (Line N)
  | line, [] => .ok line
  | line, (v, d) :: l => match sanitize v with
    | .error e => .error e
    | .ok j => fill (setKey d.display j line) l

/-- The line of a call (jsonl.py:57-94). -/
def makeLine (descriptors : List Desc) (time : String) (step : Option N) (values : List (String × Value N)) :
    Except Exc (Line N) :=
  let line : Line N := [("Time", .str time)]
  let line := match step with
    | none => line
    | some n => setKey "Step" (.num n) line
  fill line (sort (values.map fun (name, v) => (v, describe descriptors name)))

/-- `category.strip()` (jsonl.py:106). -/
def strip (c : List Char) : List Char := ((c.dropWhile Char.isWhitespace).reverse.dropWhile Char.isWhitespace).reverse

/-- `split("/")`. -/
def split : List Char → List (List Char)
  | [] => [[]]
  | c :: l =>
    if c = '/' then [] :: split l
    else match split l with
      | [] => [[c]]
      | p :: ps => (c :: p) :: ps

/-- `[-_a-zA-Z0-9]` -/
def allowed (c : Char) : Bool := c.isAlphanum || c == '-' || c == '_'

/-- `re.match("^[-_a-zA-Z0-9]+$", part)` (jsonl.py:32, 113): `$` is also true before a newline at the end. -/
def matchesPart (p : List Char) : Bool :=
  (!p.isEmpty && p.all allowed) || (p.getLast? == some '\n' && !p.dropLast.isEmpty && p.dropLast.all allowed)

/-- The open streams, and the lines of the files; `none` is a file that does not exist. -/
structure State (N : Type) where
  streams : List (List Char)
  files : List Char → Option (List (Line N))

/-- `_get_stream` (jsonl.py:105-132). -/
def getStream (s : State N) (category : List Char) : Except Exc (List Char × State N) :=
  let c := strip category
  if c ∈ s.streams then .ok (c, s)
  else if (split c).all matchesPart then
    .ok (c, ⟨c :: s.streams, fun f => if f = c then some ((s.files f).getD []) else s.files f⟩)
  else .error .category

structure Call (N : Type) where
  category : List Char
  values : List (String × Value N)
  step : Option N
  time : String

/-- `record_metric_values` (jsonl.py:52-101): whether it raises, and the state afterwards. -/
def record (descriptors : List Desc) (s : State N) (call : Call N) : Option Exc × State N :=
  match getStream s call.category with
  | .error e => (some e, s)
  | .ok (c, s) =>
    match makeLine descriptors call.time call.step call.values with
    | .error e => (some e, s)
    | .ok line => (none, ⟨s.streams, fun f => if f = c then some ((s.files f).getD [] ++ [line]) else s.files f⟩)

inductive Op (N : Type) where
  | record (call : Call N)
  | close

/-- `close` (jsonl.py:134-139). -/
def step (descriptors : List Desc) (s : State N) : Op N → State N
  | .record call => (record descriptors s call).2
  | .close => ⟨[], s.files⟩

/-- The registered descriptors (metric_recorders.py:150-200). -/
def registered : List Desc :=
  [⟨"loss", "Loss", 90⟩, ⟨"contrastive_loss", "Contrastive Loss", 100⟩, ⟨"ctc_loss", "CTC Loss", 100⟩,
   ⟨"diversity_loss", "Diversity Loss", 100⟩, ⟨"nll_loss", "NLL Loss", 100⟩,
   ⟨"features_penalty", "Features Penalty", 110⟩, ⟨"accuracy", "Accuracy", 200⟩, ⟨"bleu", "BLEU", 200⟩,
   ⟨"chrf", "chrF++", 200⟩, ⟨"uer", "Unit Error Rate (UER)", 200⟩, ⟨"wer", "Word Error Rate (WER)", 200⟩,
   ⟨"code_perplexity", "Code Perplexity", 210⟩, ⟨"prob_perplexity", "Prob Perplexity", 210⟩,
   ⟨"temperature", "Temperature", 220⟩, ⟨"grad_norm", "Gradient Norm", 300⟩, ⟨"data_epoch", "Data Epoch", 490⟩,
   ⟨"data_time", "Data Time", 500⟩, ⟨"compute_time", "Compute Time", 501⟩, ⟨"lapse_time", "Lapse Time", 502⟩,
   ⟨"total_time", "Total Time", 505⟩, ⟨"wall_time", "Wall Time", 510⟩, ⟨"lr", "Learning Rate", 700⟩,
   ⟨"loss_scale", "Loss Scale", 710⟩, ⟨"batch_size", "Batch Size", 800⟩,
   ⟨"elements_per_batch", "Elements per Batch", 800⟩, ⟨"elements_per_second", "Elements per Second", 810⟩,
   ⟨"num_examples", "Number of Examples", 820⟩, ⟨"num_elements", "Number of Elements", 830⟩,
   ⟨"num_source_elements", "Number of Source Elements", 830⟩, ⟨"num_target_elements", "Number of Target Elements", 830⟩,
   ⟨"padding", "Padding", 835⟩, ⟨"padding_ratio", "Padding Ratio (%)", 835⟩,
   ⟨"total_num_examples", "Total Number of Examples", 840⟩, ⟨"total_num_elements", "Total Number of Elements", 850⟩,
   ⟨"total_num_source_elements", "Total Number of Source Elements", 850⟩,
   ⟨"total_num_target_elements", "Total Number of Target Elements", 850⟩,
   ⟨"generator_prefill_size", "Generator/Prefill Size", 900⟩,
   ⟨"generator_num_elements", "Generator/Number of Elements", 901⟩,
   ⟨"generator_elements_per_second", "Generator/Elements per Second", 902⟩,
   ⟨"generator_cache_size", "Generator/Cache Size", 903⟩, ⟨"generator_cache_capacity", "Generator/Cache Capacity", 904⟩,
   ⟨"peak_active_mem_bytes", "Peak Active Device Memory", 920⟩,
   ⟨"peak_active_mem_ratio", "Peak Active Device Memory (%)", 920⟩,
   ⟨"peak_reserved_mem_bytes", "Peak Reserved Device Memory", 925⟩,
   ⟨"peak_reserved_mem_ratio", "Peak Reserved Device Memory (%)", 925⟩]

end Fs2.Jsonl
