import Verif.Nn.LayerHooks

/-!
# Properties of stacks of layers

C118. What a stack of layers computes is the layers one after another, then the norm. LayerDrop leaves out exactly the
layers whose number is at most its probability, only in training. Hooks see each layer's output in order and do not change
what is computed. w2v-BERT's contrastive loss gets the output of the last layer before its masked prediction layers.
-/

namespace Fs2.Props

open Fs2.Hooks

variable {X σ : Type}

/-- What the layers give one after another. -/
def inTurn (layers : List (X → X)) (x : X) : X := layers.foldl (fun x f => f x) x

/-- The layers at the indices that `keep` allows. -/
def keptLayers (keep : Nat → Bool) (layers : List (X → X)) : List (X → X) :=
  (layers.zipIdx.filter fun p => keep p.2).map (·.1)

/-- All hooks, each called once with the output of a layer. -/
def tellAll (hooks : List (Hook X σ)) (idx : Nat) (x : X) (n : Nat) (w : σ) : σ :=
  hooks.foldl (fun w h => (h w idx x n).2) w

private theorem loop_value (hooks : List (Hook X σ)) (n : Nat) (keep : Nat → Bool) (layers : List (X → X)) :
    ∀ (k : Nat) (x : X) (w : σ),
      (loop hooks n k ((layers.zipIdx k).map fun (m, idx) => (m, !keep idx)) x w).1 =
        inTurn (((layers.zipIdx k).filter fun p => keep p.2).map (·.1)) x := by
  induction layers with
  | nil => intro k x w; rfl
  | cons f fs ih =>
    intro k x w
    simp only [List.zipIdx_cons, List.map_cons, loop]
    cases hk : keep k
    · simp only [Bool.not_false, if_true, List.filter_cons, hk, Bool.false_eq_true, if_false]
      exact ih (k + 1) x w
    · simp only [Bool.not_true, Bool.false_eq_true, if_false, List.filter_cons, hk, if_true, List.map_cons, inTurn,
        List.foldl_cons]
      exact ih (k + 1) (f x) _

/-- **C118.** A stack gives the norm of its layers one after another, without those that LayerDrop leaves out: in training,
with a probability above 0, the layers whose random number is not above it. Registered hooks, whatever they return, do not
change that. -/
theorem C118_output (s : Stack X) (hooks : List (Hook X σ)) (rand : Nat → Rat) (x : X) (w : σ) (y : X) (w' : σ)
    (h : s.forward hooks rand x w = .ok (y, w')) :
    y = s.norm (inTurn (keptLayers (fun i => !(s.training && decide (0 < s.dropP) && decide (rand i ≤ s.dropP)))
      s.layers) x) := by
  unfold Stack.forward at h
  split at h
  · cases h
  · injection h with h
    have h1 : s.norm (loop hooks s.layers.length 0 (s.dropIter rand) x w).1 = y := congrArg Prod.fst h
    rw [← h1]
    have := loop_value hooks s.layers.length
      (fun i => !(s.training && decide (0 < s.dropP) && decide (rand i ≤ s.dropP))) s.layers 0 x w
    simp only [Bool.not_not] at this
    show s.norm _ = _
    congr 1

private theorem kept_all (layers : List (X → X)) : ∀ k, ((layers.zipIdx k).filter fun _ => true).map (·.1) = layers := by
  induction layers with
  | nil => intro k; rfl
  | cons f fs ih =>
    intro k
    simp only [List.zipIdx_cons, List.filter_cons, if_true, List.map_cons]
    rw [ih (k + 1)]

/-- **C118.** Out of training, or with probability 0, every layer is used and the call is never refused. -/
theorem C118_all (s : Stack X) (hooks : List (Hook X σ)) (rand : Nat → Rat) (x : X) (w : σ)
    (h : s.training = false ∨ s.dropP = 0) :
    ∃ w', s.forward hooks rand x w = .ok (s.norm (inTurn s.layers x), w') := by
  have hd : s.drops = false := by
    rcases h with h | h
    · simp [Stack.drops, h]
    · simp [Stack.drops, h]
  have hf : s.forward hooks rand x w =
      .ok (s.norm (loop hooks s.layers.length 0 (s.dropIter rand) x w).1,
        (loop hooks s.layers.length 0 (s.dropIter rand) x w).2) := by
    unfold Stack.forward
    rw [hd, Bool.and_false]
    rfl
  refine ⟨(loop hooks s.layers.length 0 (s.dropIter rand) x w).2, ?_⟩
  rw [hf]
  have hv := C118_output s hooks rand x w _ _ hf
  have hk : (fun i => !(s.training && decide (0 < s.dropP) && decide (rand i ≤ s.dropP))) = fun _ => true := by
    funext i
    have : (s.training && decide (0 < s.dropP)) = false := hd
    rw [this]; rfl
  rw [hk] at hv
  have : keptLayers (fun _ => true) s.layers = s.layers := kept_all s.layers 0
  rw [this] at hv
  rw [hv]

/-- **C118.** Hooks with LayerDrop in training are refused; nothing else is. -/
theorem C118_refused (s : Stack X) (hooks : List (Hook X σ)) (rand : Nat → Rat) (x : X) (w : σ) :
    s.forward hooks rand x w = .error .invalidOperation ↔ hooks ≠ [] ∧ s.training = true ∧ 0 < s.dropP := by
  unfold Stack.forward
  cases hooks with
  | nil => simp
  | cons a l =>
    by_cases ht : s.training = true
    · by_cases hp : 0 < s.dropP
      · simp [Stack.drops, ht, hp]
      · simp [Stack.drops, hp]
    · simp [Stack.drops, ht]

private theorem call_all (idx : Nat) (x : X) (n : Nat) : ∀ (hooks : List (Hook X σ)),
    (∀ h ∈ hooks, ∀ w i x n, (h w i x n).1 = true) → ∀ w, callHooks idx x n hooks w = tellAll hooks idx x n w := by
  intro hooks
  induction hooks with
  | nil => intro _ w; rfl
  | cons h hs ih =>
    intro hall w
    have h1 := hall h (List.mem_cons_self ..) w idx x n
    unfold callHooks
    generalize hr : h w idx x n = r at h1
    obtain ⟨b, w'⟩ := r
    subst h1
    simp only
    rw [ih (fun g hg => hall g (List.mem_cons_of_mem _ hg)) w']
    simp [tellAll, hr]

private theorem loop_world (hooks : List (Hook X σ)) (n : Nat)
    (hall : ∀ h ∈ hooks, ∀ w i x n, (h w i x n).1 = true) (layers : List (X → X)) :
    ∀ (k : Nat) (x : X) (w : σ),
      (loop hooks n k ((layers.zipIdx k).map fun (m, _) => (m, false)) x w).2 =
        (List.range layers.length).foldl
          (fun w i => tellAll hooks (k + i) (inTurn (layers.take (i + 1)) x) n w) w := by
  induction layers with
  | nil => intro k x w; rfl
  | cons f fs ih =>
    intro k x w
    simp only [List.zipIdx_cons, List.map_cons, loop, Bool.false_eq_true, if_false]
    rw [ih (k + 1) (f x), call_all k (f x) n hooks hall]
    simp only [List.length_cons, List.range_succ_eq_map, List.foldl_cons, List.foldl_map]
    congr 1
    funext w i
    have : k + 1 + i = k + Nat.succ i := by omega
    rw [this]
    rfl

/-- **C118.** Hooks that ask to go on are called after every layer, in the order of the layers and for each layer in the
order in which they were registered, with the layer's index, what the layers up to it give, and the number of layers. -/
theorem C118_hooks (s : Stack X) (hooks : List (Hook X σ)) (rand : Nat → Rat) (x : X) (w : σ) (y : X) (w' : σ)
    (hne : hooks ≠ []) (hall : ∀ h ∈ hooks, ∀ w i x n, (h w i x n).1 = true)
    (h : s.forward hooks rand x w = .ok (y, w')) :
    w' = (List.range s.layers.length).foldl
      (fun w i => tellAll hooks i (inTurn (s.layers.take (i + 1)) x) s.layers.length w) w := by
  have hd : s.drops = false := by
    cases hs : s.drops
    · rfl
    · exfalso
      have := (C118_refused s hooks rand x w).2 ⟨hne, by
        unfold Stack.drops at hs
        simpa using hs⟩
      rw [this] at h
      cases h
  unfold Stack.forward at h
  rw [hd, Bool.and_false] at h
  injection h with h
  have h2 : (loop hooks s.layers.length 0 (s.dropIter rand) x w).2 = w' := congrArg Prod.snd h
  rw [← h2]
  have := loop_world hooks s.layers.length hall s.layers 0 x w
  simp only [Nat.zero_add] at this
  rw [← this]
  show (loop hooks s.layers.length 0 (s.dropIter rand) x w).2 = _
  unfold Stack.dropIter
  rw [hd]
  simp only [Bool.false_and]

/-- A stack of three layers that count. -/
def countingStack : Stack Nat := ⟨[(· + 1), (· * 10), (· + 5)], fun x => x, 1 / 2, false⟩

/-- A hook that writes down what it is given. -/
def scribe (goOn : Bool) : Hook Nat (List (Nat × Nat × Nat)) := fun w i x n => (goOn, w ++ [(i, x, n)])

example : countingStack.forward [scribe true] (fun _ => 0) 1 [] = .ok (25, [(0, 2, 3), (1, 20, 3), (2, 25, 3)]) := rfl

/-- In training with numbers 3/4, 1/4, 3/4 the second layer is left out. -/
example : (({ countingStack with training := true } : Stack Nat).forward ([] : List (Hook Nat Unit))
    (fun i => if i = 1 then 1 / 4 else 3 / 4) 1 ()).toOption = some (7, ()) := by decide +kernel

/-- **C118, violated.** By its documentation a hook that returns `False` makes the layer the final one
(encoder.py:90-92). For every stack, hooks and input, out of training, what a hook returns makes no difference. -/
theorem C118_stop_ignored (s : Stack X) (hooks hooks' : List (Hook X σ)) (rand : Nat → Rat) (x : X) (w : σ)
    (h : s.training = false) :
    (s.forward hooks rand x w).map (·.1) = (s.forward hooks' rand x w).map (·.1) := by
  obtain ⟨w1, h1⟩ := C118_all s hooks rand x w (.inl h)
  obtain ⟨w2, h2⟩ := C118_all s hooks' rand x w (.inl h)
  rw [h1, h2]
  rfl

/-- **C118, violated.** A hook says after the first of three layers that it is the final one: the output should be 2, it is
25, and the hook goes on being called. A second hook, which by its documentation is called after every layer
(encoder.py:58-59), is never called. -/
theorem C118_stop_negation :
    countingStack.forward [scribe false] (fun _ => 0) 1 [] = .ok (25, [(0, 2, 3), (1, 20, 3), (2, 25, 3)]) ∧
    countingStack.norm (inTurn (countingStack.layers.take 1) 1) = 2 ∧
    countingStack.forward [fun w _ _ _ => (false, w), scribe true] (fun _ => 0) 1 [] = .ok (25, []) := ⟨rfl, rfl, rfl⟩

private theorem fold_bert (layers : List (X → X)) (x0 x : X) (m n : Nat) (numBert : Int) :
    (List.range m).foldl (fun w i => tellAll [bertHook numBert] i (inTurn (layers.take (i + 1)) x) n w) x0 =
      if 0 ≤ (n : Int) - numBert - 1 ∧ (n : Int) - numBert - 1 < m
      then inTurn (layers.take ((n : Int) - numBert).toNat) x else x0 := by
  induction m with
  | zero => simp only [List.range_zero, List.foldl_nil]; rw [if_neg (by omega)]
  | succ m ih =>
    rw [List.range_succ, List.foldl_append, ih]
    simp only [List.foldl_cons, List.foldl_nil, tellAll, bertHook]
    by_cases hm : (m : Int) = (n : Int) - numBert - 1
    · rw [if_pos hm, if_pos (by omega)]
      have : ((n : Int) - numBert).toNat = m + 1 := by omega
      rw [this]
    · rw [if_neg hm]
      by_cases hc : 0 ≤ (n : Int) - numBert - 1 ∧ (n : Int) - numBert - 1 < m
      · rw [if_pos hc, if_pos (by omega)]
      · rw [if_neg hc, if_neg (by omega)]

/-- **C118.** w2v-BERT with fewer masked prediction layers than layers, as its configuration demands: the encoder's output
is that of all layers, and the contrastive loss gets what the layers before the masked prediction layers give. -/
theorem C118_bert (s : Stack X) (numBert : Nat) (rand : Nat → Rat) (x : X)
    (hd : s.dropP = 0) (hn : numBert < s.layers.length) :
    bertEncode s numBert rand x =
      .ok (s.norm (inTurn s.layers x), inTurn (s.layers.take (s.layers.length - numBert)) x) := by
  obtain ⟨w', h⟩ := C118_all s [bertHook (numBert : Int)] rand x x (.inr hd)
  have hw := C118_hooks s [bertHook (numBert : Int)] rand x x _ _ (by simp)
    (by intro h hh; rw [List.mem_singleton] at hh; subst hh; intros; rfl) h
  rw [fold_bert, if_pos (by omega)] at hw
  have : ((s.layers.length : Int) - (numBert : Int)).toNat = s.layers.length - numBert := by omega
  rw [this] at hw
  unfold bertEncode
  rw [h, hw]

/-- One masked prediction layer out of three: the contrastive loss gets the second layer's output. -/
example : bertEncode { countingStack with dropP := 0 } 1 (fun _ => 0) 1 = .ok (25, 20) := by
  have := C118_bert { countingStack with dropP := 0 } 1 (fun _ => 0) 1 rfl (by decide)
  exact this

end Fs2.Props
