import Verif.Generation.Cached
import Verif.Nn.DecoderSpec

/-!
A decoder as the beam search calls it: the state bag of C96 below the generation of `Verif.Generation.Cached`.

Sources: /repo/src/fairseq2/generation/beam_search/generator.py (450-452, 541-555, 587-602, 824-873), together with those
of `Verif.Nn.Decoder`.
-/

namespace Fs2.Gen
open Fs2.Nn Fs2.Dec Fs2.Dec.Spec

variable {P : Type}

/-- A decoder with its state bag (generator.py:450-452): `max_num_steps` is the maximal length of this generation. A call
(generator.py:541-555, 587-602) is that of the model with the bag, and `score` is what happens with the logits of a
position: the division by the temperature, the log-softmax in single precision, and the check for not-a-number results.
Tokens are natural numbers for the model; the integers of the generator are never negative. -/
noncomputable def decoderStateful (m : Model) (junk : Heads) (given : Option Source) (inc : Option Int)
    (score : Vec → Option (List P)) (maxLen : Nat) : Stateful P Session where
  start := Session.start m ⟨0, maxLen, inc⟩
  feed := fun s tokens => (s.feed m junk given (tokens.map (List.map Int.toNat))).bind fun r =>
    (r.1.mapM fun (row : List Vec) => row.mapM score).map fun scores => (scores, r.2)
  reorder := Session.reorder

/-- The same decoder without state: the log probabilities after a sequence are those of its last position, when the whole
sequence is decoded on its own, with its source. -/
noncomputable def recomputing (m : Model) (score : Vec → Option (List P)) (src : List Vec) (tokens : List Int) :
    Option (List P) :=
  ((logits m src (tokens.map Int.toNat)).getLast?).bind score

end Fs2.Gen
