import Verif.Nn.DecoderSteps

/-!
# C96: decoding step by step gives the logits of decoding at once

The reference is `Fs2.Dec.Spec` (`Nn/DecoderSpec.lean`): every sequence on its own, each position looking at the
positions up to it and at the source of the sequence.
-/

namespace Fs2.Props
open Fs2.Nn Fs2.Dec Fs2.Dec.Spec

/-- The model attends to the output of an encoder. -/
def NeedsSource (m : Model) : Prop := ∃ L ∈ m.layers, L.cross ≠ none

/-- Some layer has a sliding window. -/
def HasWindow (m : Model) : Prop := ∃ L ∈ m.layers, L.selfAttn.state ≠ .full

/-- The sequences after a piece of each was fed. -/
def fed (R : List Row) (T : Batch Nat) : List Row :=
  List.zipWith (fun r t => { r with tokens := r.tokens ++ t }) R T

/-- The sequences after a generation. -/
def grown : List Row → List Op → List Row
  | R, [] => R
  | R, .feed T :: ops => grown (fed R T) ops
  | R, .reorder order :: ops => grown (picked R order) ops

/-- The logits that the steps of a generation should give: for every sequence those of the tokens just fed, as
they are in the whole sequence so far. -/
noncomputable def expected (m : Model) : List Row → List Op → List (Batch Vec)
  | _, [] => []
  | R, .feed T :: ops =>
    List.zipWith (fun r t => (logits m r.src (r.tokens ++ t)).drop r.tokens.length) R T :: expected m (fed R T) ops
  | R, .reorder order :: ops => expected m (picked R order) ops

/-- A generation as the generators make them. `a` is the number of tokens that every sequence has. Every piece
has as many rows as there are sequences, and rows of the same length; a model with a window gets one token at a
time after the first piece. An order mentions only sequences that exist; if the model has a source and the number of
sequences stays the same, every place keeps its source. No sequence becomes longer than `limit`. -/
def Sensible (m : Model) (limit : Nat) : Nat → List Row → List Op → Prop
  | _, _, [] => True
  | a, R, .feed T :: ops =>
    ∃ n, 1 ≤ n ∧ T.length = R.length ∧ (∀ t ∈ T, t.length = n) ∧ a + n ≤ limit ∧ (HasWindow m → a = 0 ∨ n = 1) ∧
      Sensible m limit (a + n) (fed R T) ops
  | a, R, .reorder order :: ops =>
    0 < a ∧ order ≠ [] ∧ (∀ i ∈ order, i < R.length) ∧ (NeedsSource m → KeepsSource R order) ∧
      Sensible m limit a (picked R order) ops

/-- **All at once.** Without incremental state, the logits of a batch of sequences of equal length are for every
sequence those of the sequence on its own. The contents of fresh memory (`junk`) do not matter. -/
theorem C96_full (junk : Heads) {m : Model} {R : List Row} {n : Nat} (hm : GoodModel m n) (hN : R ≠ [])
    (hn : 1 ≤ n) (hR : ∀ r ∈ R, r.tokens.length = n) {src : Option Source}
    (hsrc : NeedsSource m → ∃ s, src = some s ∧ SourceInv s (R.map Row.src)) :
    m.forward junk none src (m.layers.map fun _ => {}) (R.map Row.tokens) =
      some (R.map fun r => logits m r.src r.tokens, m.layers.map fun _ => {}) :=
  model_full junk hm (List.length_pos_iff.2 hN) hn hR hsrc (by simp)

/-- What is kept between the steps. -/
structure Between (m : Model) (given : Option Source) (M : Int) (inc : Option Int) (s : Session) (R : List Row)
    (a : Nat) : Prop where
  step : s.bag.stepNr = a
  max : s.bag.maxNumSteps = M
  inc : s.bag.capacityIncrement = inc
  layers : LayersInv s.bag R a m.layers s.layers (embedded m)
  source : ∀ src, s.source.or given = some src → SourceInv src (R.map Row.src)
  only : given = none → s.source = none
  stored : 0 < a → s.source = none → given = none

theorem selfInv_bag {m : Mha} {b b' : Bag} (h1 : b'.maxNumSteps = b.maxNumSteps)
    (h2 : b'.capacityIncrement = b.capacityIncrement) {st : Option Cache} {X : Batch Vec} {a : Nat}
    (h : SelfInv m b st X a) : SelfInv m b' st X a := by
  unfold SelfInv Holds at *
  rw [h1, h2]
  exact h

theorem layersInv_bag {b b' : Bag} (h1 : b'.maxNumSteps = b.maxNumSteps)
    (h2 : b'.capacityIncrement = b.capacityIncrement) {R : List Row} {a : Nat} :
    ∀ (Ls : List Layer) (sts : List LayerState) (F : Row → List Vec), LayersInv b R a Ls sts F →
      LayersInv b' R a Ls sts F := by
  intro Ls
  induction Ls with
  | nil => intro sts F h; cases sts with
    | nil => trivial
    | cons st sts => exact h
  | cons L Ls ih =>
    intro sts F h
    cases sts with
    | nil => exact h
    | cons st sts => exact ⟨⟨selfInv_bag h1 h2 h.1.self, h.1.none, h.1.cross⟩, ih _ _ h.2⟩

theorem fed_cut {R : List Row} {T : Batch Nat} {a : Nat} (hl : T.length = R.length)
    (hR : ∀ r ∈ R, r.tokens.length = a) : (fed R T).map (Row.cut a) = R := by
  apply List.ext_getElem
  · simp [fed, hl]
  · intro i h1 h2
    have := hR _ (List.getElem_mem h2)
    have e : (R[i].tokens ++ T[i]'(by omega)).take a = R[i].tokens := List.take_left' this
    simp only [fed, List.getElem_map, List.getElem_zipWith, Row.cut, e]

theorem fed_drop {R : List Row} {T : Batch Nat} {a : Nat} (hl : T.length = R.length)
    (hR : ∀ r ∈ R, r.tokens.length = a) : ((fed R T).map fun r => r.tokens.drop a) = T := by
  apply List.ext_getElem
  · simp [fed, hl]
  · intro i h1 h2
    have := hR _ (List.getElem_mem (show i < R.length by omega))
    simp only [fed, List.getElem_map, List.getElem_zipWith]
    exact List.drop_left' this

theorem fed_length {R : List Row} {T : Batch Nat} {a n : Nat} (hR : ∀ r ∈ R, r.tokens.length = a)
    (hT : ∀ t ∈ T, t.length = n) : ∀ r ∈ fed R T, r.tokens.length = a + n := by
  intro r hr
  obtain ⟨i, hi, rfl⟩ := List.getElem_of_mem hr
  simp only [fed, List.length_zipWith] at hi
  simp only [fed, List.getElem_zipWith, List.length_append]
  rw [hR _ (List.getElem_mem _), hT _ (List.getElem_mem _)]

theorem fed_src {R : List Row} {T : Batch Nat} (hl : T.length = R.length) :
    (fed R T).map Row.src = R.map Row.src := by
  apply List.ext_getElem
  · simp [fed, hl]
  · intro i h1 h2; simp [fed]

theorem expected_feed {m : Model} {R : List Row} {T : Batch Nat} {a : Nat} (hR : ∀ r ∈ R, r.tokens.length = a) :
    List.zipWith (fun r t => (logits m r.src (r.tokens ++ t)).drop r.tokens.length) R T =
      (fed R T).map fun r => (logits m r.src r.tokens).drop a := by
  apply List.ext_getElem
  · simp [fed]
  · intro i h1 h2
    have hi : i < R.length := by simp at h1; omega
    simp only [fed, List.getElem_map, List.getElem_zipWith]
    rw [hR _ (List.getElem_mem hi)]

theorem picked_length {R : List Row} {order : List Nat} {a : Nat} (ho : ∀ i ∈ order, i < R.length)
    (hR : ∀ r ∈ R, r.tokens.length = a) : ∀ r ∈ picked R order, r.tokens.length = a := by
  intro r hr
  simp only [picked, List.mem_map] at hr
  obtain ⟨i, hi, rfl⟩ := hr
  rw [List.getElem?_eq_getElem (ho i hi), Option.getD_some]
  exact hR _ (List.getElem_mem _)

theorem feed_ok (junk : Heads) {m : Model} {limit : Nat} (hm : GoodModel m limit) {given : Option Source} {M : Int}
    {inc : Option Int} (hg : NeedsSource m → given ≠ none) (hinc : ∀ c, inc = some c → 1 ≤ c) (hlim : (limit : Int) < M)
    {s : Session} {R : List Row} {a n : Nat} {T : Batch Nat} (hne : R ≠ []) (hR : ∀ r ∈ R, r.tokens.length = a)
    (hb : Between m given M inc s R a) (hn : 1 ≤ n) (hl : T.length = R.length) (hT : ∀ t ∈ T, t.length = n)
    (hle : a + n ≤ limit) (hw : HasWindow m → a = 0 ∨ n = 1) :
    ∃ s', s.feed m junk given T = some ((fed R T).map fun r => (logits m r.src r.tokens).drop a, s') ∧
      Between m given M inc s' (fed R T) (a + n) := by
  have hN : 0 < R.length := List.length_pos_iff.2 hne
  have hgb : GoodBag s.bag := ⟨by rw [hb.inc]; exact hinc, by rw [hb.max]; omega⟩
  have hfl : (fed R T).length = R.length := by simp [fed, hl]
  have hsrc : NeedsSource m → ∃ src, s.source.or given = some src ∧ SourceInv src ((fed R T).map Row.src) := by
    rw [fed_src hl]
    intro h
    cases e : s.source.or given with
    | none => exact absurd (Option.or_eq_none_iff.1 e).2 (hg h)
    | some src => exact ⟨src, rfl, hb.source src e⟩
  obtain ⟨sts', e, hi⟩ := model_step junk hgb (R := fed R T) (hm.mono hle) (by omega) hn (fed_length hR hT) hb.step
    (by rw [hb.max]; omega) (fun L hL hst => hw ⟨L, hL, hst⟩) hsrc (by rw [fed_cut hl hR]; exact hb.layers)
  rw [fed_drop hl hR] at e
  have hwid : width T = n := width_eq (by omega) hT
  have hbag : s.bag.increment (width T) = some { s.bag with stepNr := s.bag.stepNr + n } := by
    simp only [Bag.increment, hwid]
    rw [if_neg (by rw [hb.step, hb.max]; omega)]
  refine ⟨⟨{ s.bag with stepNr := s.bag.stepNr + n }, sts', s.source.or given⟩, ?_, ?_⟩
  · simp only [Session.feed, e, Option.bind_some, hbag, Option.map_some]
  · exact
      { step := by simp only [hb.step]; omega
        max := hb.max
        inc := hb.inc
        layers := layersInv_bag (b := s.bag) (b' := { s.bag with stepNr := s.bag.stepNr + n }) rfl rfl _ _ _ hi
        source := by
          intro src h
          rw [fed_src hl]
          refine hb.source src ?_
          cases e : s.source with
          | none =>
            rw [e] at h
            simpa using h
          | some x =>
            rw [e] at h
            simpa using h
        only := by
          intro h
          simp [hb.only h, h]
        stored := by
          intro _ h
          exact (Option.or_eq_none_iff.1 h).2 }

theorem reorder_ok {m : Model} {given : Option Source} {M : Int} {inc : Option Int} {s : Session} {R : List Row} {a : Nat}
    {order : List Nat} (hb : Between m given M inc s R a) (ha : 0 < a ∨ given = none) (ho : ∀ i ∈ order, i < R.length)
    (hk : NeedsSource m → KeepsSource R order) :
    ∃ s', s.reorder order = some s' ∧ Between m given M inc s' (picked R order) a := by
  obtain ⟨sts', e, hi⟩ := layers_reorder ho m.layers s.layers (embedded m) hk hb.layers
  have hsource : ∃ src', (s.source.mapM fun (src : Source) => src.reorder order) = some src' ∧
      (∀ src, src'.or given = some src → SourceInv src ((picked R order).map Row.src)) ∧
      (given = none → src' = none) ∧ (src' = none → given = none) := by
    cases e : s.source with
    | none =>
      have hgn := ha.elim (fun ha => hb.stored ha e) id
      exact ⟨none, rfl, by simp [hgn], fun _ => rfl, fun _ => hgn⟩
    | some src =>
      obtain ⟨src', e', hi'⟩ := source_reorder ho (hb.source src (by rw [e]; rfl))
      refine ⟨some src', by simp [e'], ?_, ?_, by simp⟩
      · intro x hx
        simp at hx
        exact hx ▸ hi'
      · intro h
        have := hb.only h
        rw [e] at this
        cases this
  obtain ⟨src', e2, h2, h4, h3⟩ := hsource
  refine ⟨⟨s.bag, sts', src'⟩, ?_, ?_⟩
  · simp only [Session.reorder, e, Option.bind_some, e2, Option.map_some]
  · exact { step := hb.step, max := hb.max, inc := hb.inc, layers := hi, source := h2, only := h4, stored := fun _ => h3 }

theorem run_ok (junk : Heads) {m : Model} {limit : Nat} (hm : GoodModel m limit) {given : Option Source} {M : Int}
    {inc : Option Int} (hg : NeedsSource m → given ≠ none) (hinc : ∀ c, inc = some c → 1 ≤ c) (hlim : (limit : Int) < M) :
    ∀ (ops : List Op) (s : Session) (R : List Row) (a : Nat), R ≠ [] → (∀ r ∈ R, r.tokens.length = a) →
      Between m given M inc s R a → Sensible m limit a R ops →
      ∃ s', run m junk given s ops = some (expected m R ops, s') := by
  intro ops
  induction ops with
  | nil => intro s R a _ _ _ _; exact ⟨s, rfl⟩
  | cons op ops ih =>
    intro s R a hne hR hb hs
    cases op with
    | feed T =>
      obtain ⟨n, hn, hl, hT, hle, hw, hrest⟩ := hs
      have hN : 0 < R.length := List.length_pos_iff.2 hne
      have hfl : (fed R T).length = R.length := by simp [fed, hl]
      obtain ⟨s1, e, hi⟩ := feed_ok junk hm hg hinc hlim hne hR hb hn hl hT hle hw
      obtain ⟨s', e'⟩ := ih s1 (fed R T) (a + n)
        (by intro h; rw [h] at hfl; simp at hfl; omega) (fed_length hR hT) hi hrest
      refine ⟨s', ?_⟩
      simp only [run, e, Option.bind_some, Option.map_some, e', expected, expected_feed hR]
    | reorder order =>
      obtain ⟨ha, hone, ho, hk, hrest⟩ := hs
      obtain ⟨s1, e, hi⟩ := reorder_ok hb (.inl ha) ho hk
      obtain ⟨s', e'⟩ := ih s1 (picked R order) a
        (by intro h; simp only [picked, List.map_eq_nil_iff] at h; exact hone h) (picked_length ho hR) hi hrest
      refine ⟨s', ?_⟩
      simp only [run, e, Option.bind_some, e', expected]

theorem start_inv (b : Bag) (R : List Row) : ∀ (Ls : List Layer) (F : Row → List Vec),
    LayersInv b R 0 Ls (Ls.map fun _ => {}) F := by
  intro Ls
  induction Ls with
  | nil => intro F; trivial
  | cons L Ls ih => intro F; exact ⟨⟨rfl, fun _ => rfl, fun _ _ _ => rfl⟩, ih _⟩

theorem new_bag {M : Int} {inc : Option Int} {b : Bag} (h : Bag.new M inc = some b) :
    b = ⟨0, M, inc⟩ ∧ ∀ c, inc = some c → 1 ≤ c := by
  unfold Bag.new at h
  cases inc with
  | none =>
    simp only [Option.some.injEq] at h
    exact ⟨h.symm, by simp⟩
  | some c =>
    simp only at h
    split at h
    · cases h
    · simp only [Option.some.injEq] at h
      refine ⟨h.symm, ?_⟩
      intro c' e
      simp only [Option.some.injEq] at e
      omega

/-- **Step by step.** From an empty state, however a generation feeds pieces of the sequences and reorders them,
every call succeeds and returns for every sequence the logits of the tokens just fed as they are in the whole
sequence on its own. `given` is the encoder output of the first step; the bag has room for more than `limit`
steps. -/
theorem C96_session_partial (junk : Heads) {m : Model} {limit : Nat} (hm : GoodModel m limit) {given : Option Source}
    {R : List Row} (hR : R ≠ []) (hempty : ∀ r ∈ R, r.tokens = []) (hg : NeedsSource m → given ≠ none)
    (hsrc : ∀ g, given = some g → SourceInv g (R.map Row.src)) {M : Int} {inc : Option Int} {b : Bag}
    (hb : Bag.new M inc = some b) (hM : (limit : Int) < M) {ops : List Op} (hs : Sensible m limit 0 R ops) :
    ∃ s, run m junk given (Session.start m b) ops = some (expected m R ops, s) := by
  obtain ⟨rfl, hinc⟩ := new_bag hb
  refine run_ok junk hm hg hinc hM ops _ R 0 hR (fun r hr => by rw [hempty r hr]; rfl) ?_ hs
  exact ⟨rfl, rfl, rfl, start_inv _ _ _ _, fun src h => hsrc src h, fun _ => rfl, fun h => absurd h (by omega)⟩

theorem logits_length (m : Model) (src : List Vec) (tokens : List Nat) : (logits m src tokens).length = tokens.length := by
  have h : ∀ (Ls : List Layer) (xs : List Vec), (Ls.foldl (fun xs L => layer L src xs) xs).length = xs.length := by
    intro Ls
    induction Ls with
    | nil => intro xs; rfl
    | cons L Ls ih => intro xs; rw [List.foldl_cons, ih, layer_length]
  simp [logits, h]

theorem expected_append (m : Model) (T : Batch Nat) : ∀ (ops : List Op) (R : List Row),
    expected m R (ops ++ [.feed T]) = expected m R ops ++
      [List.zipWith (fun r t => (logits m r.src (r.tokens ++ t)).drop r.tokens.length) (grown R ops) T] := by
  intro ops
  induction ops with
  | nil => intro R; rfl
  | cons op ops ih =>
    intro R
    cases op with
    | feed U => simp only [List.cons_append, expected, grown, ih]
    | reorder order => simp only [List.cons_append, expected, grown, ih]

theorem grown_append (T : Batch Nat) : ∀ (ops : List Op) (R : List Row),
    grown R (ops ++ [.feed T]) = fed (grown R ops) T := by
  intro ops
  induction ops with
  | nil => intro R; rfl
  | cons op ops ih =>
    intro R
    cases op with
    | feed U => simp only [List.cons_append, grown, ih]
    | reorder order => simp only [List.cons_append, grown, ih]

theorem sensible_last {m : Model} {limit : Nat} {T : Batch Nat} : ∀ (ops : List Op) (a : Nat) (R : List Row),
    R ≠ [] → (∀ r ∈ R, r.tokens.length = a) → Sensible m limit a R (ops ++ [.feed T]) →
    ∃ a' n, grown R ops ≠ [] ∧ (∀ r ∈ grown R ops, r.tokens.length = a') ∧ 1 ≤ n ∧ T.length = (grown R ops).length ∧
      (∀ t ∈ T, t.length = n) ∧ a' + n ≤ limit := by
  intro ops
  induction ops with
  | nil =>
    intro a R hne hR ⟨n, hn, hl, hT, hle, _⟩
    exact ⟨a, n, hne, hR, hn, hl, hT, hle⟩
  | cons op ops ih =>
    intro a R hne hR hs
    cases op with
    | feed U =>
      obtain ⟨n, hn, hl, hT, hle, _, hrest⟩ := hs
      refine ih (a + n) (fed R U) ?_ (fed_length hR hT) hrest
      intro h
      have := congrArg List.length h
      simp only [fed, List.length_zipWith, hl, List.length_nil] at this
      have := List.length_pos_iff.2 hne
      omega
    | reorder order =>
      obtain ⟨_, hone, ho, _, hrest⟩ := hs
      refine ih a (picked R order) ?_ (picked_length ho hR) hrest
      intro h
      simp only [picked, List.map_eq_nil_iff] at h
      exact hone h

/-- **Step by step as all at once.** The logits of the last call of a generation are the last ones of a call
without state on the sequences as the generation left them. -/
theorem C96_agrees_partial (junk junk' : Heads) {m : Model} {limit : Nat} (hm : GoodModel m limit)
    {given : Option Source} {R : List Row} (hR : R ≠ []) (hempty : ∀ r ∈ R, r.tokens = [])
    (hg : NeedsSource m → given ≠ none) (hsrc : ∀ g, given = some g → SourceInv g (R.map Row.src)) {M : Int}
    {inc : Option Int} {b : Bag} (hb : Bag.new M inc = some b) (hM : (limit : Int) < M) {ops : List Op}
    {T : Batch Nat} (hs : Sensible m limit 0 R (ops ++ [.feed T])) {src : Option Source}
    (hsrc' : NeedsSource m → ∃ s, src = some s ∧ SourceInv s ((grown R (ops ++ [.feed T])).map Row.src)) :
    ∃ ys y full s, run m junk given (Session.start m b) (ops ++ [.feed T]) = some (ys ++ [y], s) ∧
      m.forward junk' none src (m.layers.map fun _ => {}) ((grown R (ops ++ [.feed T])).map Row.tokens) =
        some (full, m.layers.map fun _ => {}) ∧
      y = full.map fun row => row.drop (row.length - width T) := by
  obtain ⟨s, e⟩ := C96_session_partial junk hm hR hempty hg hsrc hb hM hs
  obtain ⟨a, n, hne, hl, hn, hTl, hT, hle⟩ :=
    sensible_last ops 0 R hR (fun r hr => by rw [hempty r hr]; rfl) hs
  rw [grown_append] at hsrc' ⊢
  have hN : 0 < (grown R ops).length := List.length_pos_iff.2 hne
  have hf := C96_full junk' (R := fed (grown R ops) T) (hm.mono hle)
    (by
      intro h
      have := congrArg List.length h
      simp only [fed, List.length_zipWith, List.length_nil] at this
      omega) (by omega) (fed_length hl hT) hsrc'
  rw [expected_append] at e
  refine ⟨_, _, _, s, e, hf, ?_⟩
  rw [expected_feed hl, List.map_map]
  apply List.map_congr_left
  intro r hr
  simp only [Function.comp_apply, logits_length]
  rw [fed_length hl hT r hr, width_eq (by omega) hT, Nat.add_sub_cancel]

/-! ## A window with a full cache -/

/-- The model with the windows of its causal attention taken away. -/
def unwindowed (m : Model) : Model :=
  { m with layers := m.layers.map fun L => { L with selfAttn := { L.selfAttn with bias :=
    match L.selfAttn.bias with
    | .causal _ => .causal none
    | b => b } } }

/-- The model with the caches that fit to its windows. -/
def recached (m : Model) : Model :=
  { m with layers := m.layers.map fun L => { L with selfAttn := { L.selfAttn with state :=
    match L.selfAttn.bias with
    | .causal (some w) => .window w.toNat
    | _ => .full } } }

/-- Every call of the model gets one token of every sequence. -/
def OneByOne (ops : List Op) : Prop := ∀ T, Op.feed T ∈ ops → T ≠ [] ∧ ∀ t ∈ T, t.length = 1

theorem layers_congr {junk : Heads} {bag : Option Bag} {src : Option Source} {l : Layout} {g : Layer → Layer}
    (h : ∀ L st xs, (g L).forward junk bag src l st xs = L.forward junk bag src l st xs) :
    ∀ (Ls : List Layer) (sts : List LayerState) (xs : Batch Vec),
      forwardLayers junk bag src l (Ls.map g) sts xs = forwardLayers junk bag src l Ls sts xs := by
  intro Ls
  induction Ls with
  | nil => intro sts xs; cases sts <;> rfl
  | cons L Ls ih =>
    intro sts xs
    cases sts with
    | nil => rfl
    | cons st sts => simp only [List.map_cons, forwardLayers, h, ih]

theorem unwindowed_forward (junk : Heads) (m : Model) (b : Bag) (src : Option Source) (sts : List LayerState)
    {T : Batch Nat} (hT : T ≠ []) (h1 : ∀ t ∈ T, t.length = 1) :
    (unwindowed m).forward junk (some b) src sts T = m.forward junk (some b) src sts T := by
  have hN : 0 < T.length := List.length_pos_iff.2 hT
  unfold Model.forward
  rw [width_eq hN h1]
  cases hl : Layout.new [(T.length : Int), ((1 : Nat) : Int)] none false with
  | none => rfl
  | some l =>
    obtain ⟨hp, _, _, hmax, _⟩ := full_layout hN (by omega) hl
    have hs : ∀ (a : Mha) K q k v, ({ a with bias := match a.bias with | .causal _ => .causal none | b => b } : Mha).sdpa
        l K q k v = a.sdpa l K q k v := by
      intro a K q k v
      unfold Mha.sdpa
      cases hb : a.bias with
      | causal w => simp [maybeGet, hp, hmax]
      | identity => rfl
      | chunked c => rfl
      | alibi H => rfl
    simp only [Option.bind_some]
    have : ∀ xs, forwardLayers junk (some b) src l (unwindowed m).layers sts xs =
        forwardLayers junk (some b) src l m.layers sts xs := by
      intro xs
      refine layers_congr ?_ m.layers sts xs
      intro L st xs
      unfold Layer.forward Layer.forwardSelf Mha.forwardSelf Mha.firstStep Mha.laterStep
      simp only [hs]
      rfl
    simp only [this]
    rfl

theorem run_unwindowed (junk : Heads) (m : Model) (given : Option Source) : ∀ (ops : List Op) (s : Session),
    OneByOne ops → run (unwindowed m) junk given s ops = run m junk given s ops := by
  intro ops
  induction ops with
  | nil => intro s _; rfl
  | cons op ops ih =>
    intro s h
    have hr : OneByOne ops := fun T hT => h T (by simp [hT])
    cases op with
    | feed T =>
      obtain ⟨h1, h2⟩ := h T (by simp)
      simp only [run, Session.feed, unwindowed_forward junk m s.bag _ _ h1 h2, ih _ hr]
    | reorder order => simp only [run, ih _ hr]

/-- **A window with a full cache is forgotten** when the tokens come one by one: a model whose windowed layers keep
a full cache (as those of Gemma 3n do) returns the logits of the model without windows. -/
theorem C96_window_forgotten (junk : Heads) {m : Model} {limit : Nat} (hm : GoodModel (unwindowed m) limit)
    {given : Option Source} {R : List Row} (hR : R ≠ []) (hempty : ∀ r ∈ R, r.tokens = [])
    (hg : NeedsSource (unwindowed m) → given ≠ none) (hsrc : ∀ g, given = some g → SourceInv g (R.map Row.src)) {M : Int}
    {inc : Option Int} {b : Bag} (hb : Bag.new M inc = some b) (hM : (limit : Int) < M) {ops : List Op}
    (hs : Sensible (unwindowed m) limit 0 R ops) (h1 : OneByOne ops) :
    ∃ s, run m junk given (Session.start m b) ops = some (expected (unwindowed m) R ops, s) := by
  have hstart : Session.start m b = Session.start (unwindowed m) b := by
    simp only [Session.start, unwindowed, List.map_map]
    rfl
  rw [← run_unwindowed junk m given ops _ h1, hstart]
  exact C96_session_partial junk hm hR hempty hg hsrc hb hM hs

theorem recached_logits (m : Model) (src : List Vec) (tokens : List Nat) :
    logits (recached m) src tokens = logits m src tokens := by
  have h : ∀ (Ls : List Layer) (xs : List Vec),
      (Ls.map fun L => ({ L with selfAttn := { L.selfAttn with state :=
        match L.selfAttn.bias with
        | .causal (some w) => .window w.toNat
        | _ => .full } } : Layer)).foldl (fun xs L => layer L src xs) xs = Ls.foldl (fun xs L => layer L src xs) xs := by
    intro Ls
    induction Ls with
    | nil => intro xs; rfl
    | cons L Ls ih => intro xs; rw [List.map_cons, List.foldl_cons, List.foldl_cons, ih]; rfl
  simp only [logits, recached, h]

/-- The same model, called without state, does look at its windows: what it keeps in a cache does not matter. -/
theorem C96_window_full (junk : Heads) {m : Model} {R : List Row} {n : Nat} (hm : GoodModel (recached m) n)
    (hN : R ≠ []) (hn : 1 ≤ n) (hR : ∀ r ∈ R, r.tokens.length = n) {src : Option Source}
    (hsrc : NeedsSource (recached m) → ∃ s, src = some s ∧ SourceInv s (R.map Row.src)) :
    m.forward junk none src (m.layers.map fun _ => {}) (R.map Row.tokens) =
      some (R.map fun r => logits m r.src r.tokens, m.layers.map fun _ => {}) := by
  have h := C96_full junk hm hN hn hR hsrc
  simp only [recached_logits] at h
  rw [show (recached m).layers.map (fun _ => ({} : LayerState)) = m.layers.map fun _ => {} by
    simp only [recached, List.map_map]; rfl] at h
  rw [← h]
  unfold Model.forward
  have : ∀ l xs, forwardLayers junk none src l m.layers (m.layers.map fun _ => {}) xs =
      forwardLayers junk none src l (recached m).layers (m.layers.map fun _ => {}) xs := by
    intro l xs
    refine (layers_congr ?_ m.layers _ xs).symm
    intro L st xs
    rfl
  simp only [this]
  rfl

/-! ## Models that the theorems speak of -/

/-- A block without norm and residual connection. -/
def bareBlock : Block := ⟨id, false, fun y _ => y⟩

/-- One head of one number that weighs all positions it sees equally. -/
noncomputable def averager (b : BiasKind) (st : StateKind) : Mha :=
  { groups := 1, kvHeads := 1, headDim := 1, scale := 1, q := fun _ _ _ => 0, k := fun _ _ _ => 0, v := fun x _ => x
    pos := none, bias := b, state := st, out := fun f c => (f 0 c).getD 0 }

/-- A model of one layer, with tokens as numbers. -/
noncomputable def averaging (b : BiasKind) (st : StateKind) (cross : Option (Mha × Block)) : Model :=
  { embed := fun t _ => t, pos := none, norm := id, proj := id
    layers := [⟨averager b st, bareBlock, cross, id, bareBlock⟩] }

theorem averaging_good {b : BiasKind} {st : StateKind} (h : Matched b st) {cross : Option (Mha × Block)}
    (hc : ∀ m k, cross = some (m, k) → GoodCross m) (n : Nat) : GoodModel (averaging b st cross) n := by
  refine ⟨?_, by simp [averaging]⟩
  intro L hL
  simp only [averaging, List.mem_singleton] at hL
  subst hL
  exact ⟨⟨h, by simp [averager]⟩, hc⟩

/-- Two sequences are fed two tokens each, one of them is doubled, and a token is fed to all three. -/
example (junk : Heads) : ∃ s, run (averaging (.causal none) .full none) junk none
    (Session.start (averaging (.causal none) .full none) ⟨0, 5, some 2⟩)
    [.feed [[1, 2], [3, 4]], .reorder [1, 1, 0], .feed [[5, 6], [7, 8], [9, 9]]] =
      some (expected (averaging (.causal none) .full none) [⟨[], []⟩, ⟨[], []⟩]
        [.feed [[1, 2], [3, 4]], .reorder [1, 1, 0], .feed [[5, 6], [7, 8], [9, 9]]], s) := by
  refine C96_session_partial junk (limit := 4) (averaging_good .causal (by simp) 4) (by simp) (by simp)
    (by simp [NeedsSource, averaging]) (by simp) (M := 5) (inc := some 2) rfl (by decide) ?_
  refine ⟨2, by decide, rfl, by decide, by decide, fun _ => .inl rfl, by decide, by decide, by decide, ?_, ?_⟩
  · rintro ⟨L, hL, h⟩
    simp [averaging] at hL
    subst hL
    exact absurd rfl h
  · refine ⟨2, by decide, rfl, by decide, by decide, ?_, trivial⟩
    rintro ⟨L, hL, h⟩
    simp [averaging] at hL
    subst hL
    exact absurd rfl h

/-- Encoder outputs of two positions and of one position, the latter padded. -/
def twoSources : Source :=
  ⟨2, [[fun _ => 1, fun _ => 2], [fun _ => 3, fun _ => 0]],
    ⟨2, [0, 2, 4], [2, 1], [[0, 1], [0, -1]], 1, 2, false, true⟩⟩

theorem twoSources_inv : SourceInv twoSources [[fun _ => 1, fun _ => 2], [fun _ => 3]] := by
  refine ⟨⟨rfl, ?_⟩, ?_⟩
  · intro r s h
    match r with
    | 0 => simp at h; subst h; exact ⟨_, rfl, rfl⟩
    | 1 => simp at h; subst h; exact ⟨_, rfl, rfl⟩
    | r + 2 => simp at h
  · show Layout.new [2, 2] (some [2, 1]) false = _
    decide

/-- A model with sliding windows and an encoder, fed three tokens and then one, with the second sequence
dropped in between. -/
example (junk : Heads) : ∃ s, run (averaging (.causal (some 2)) (.window 2) (some (averager .identity .full, bareBlock)))
    junk (some twoSources)
    (Session.start (averaging (.causal (some 2)) (.window 2) (some (averager .identity .full, bareBlock))) ⟨0, 5, none⟩)
    [.feed [[1, 2, 3], [4, 5, 6]], .reorder [0], .feed [[7]]] =
      some (expected (averaging (.causal (some 2)) (.window 2) (some (averager .identity .full, bareBlock)))
        [⟨[], [fun _ => 1, fun _ => 2]⟩, ⟨[], [fun _ => 3]⟩]
        [.feed [[1, 2, 3], [4, 5, 6]], .reorder [0], .feed [[7]]], s) := by
  refine C96_session_partial junk (limit := 4)
    (averaging_good (.window 2 (by decide)) (by rintro m k h; simp at h; obtain ⟨rfl, rfl⟩ := h; exact ⟨rfl, rfl⟩) 4)
    (by simp) (by simp) (by simp) ?_ (M := 5) (inc := none) rfl (by decide) ?_
  · intro g h
    simp only [Option.some.injEq] at h
    subst h
    exact twoSources_inv
  · exact ⟨3, by decide, rfl, by decide, by decide, fun _ => .inl rfl, by decide, by decide, by decide,
      fun _ h => absurd h (by decide), 1, by decide, rfl, by decide, by decide, fun _ => .inr rfl, trivial⟩

theorem averaging_window {w : Option Int} (a b : Nat) :
    (at' (logits (averaging (.causal w) .full none) [] [a, b]) 1) 0 =
      if w = some 1 then (b : ℝ) else if w = none then ((a : ℝ) + b) / 2 else
        (at' (logits (averaging (.causal w) .full none) [] [a, b]) 1) 0 := by
  split
  · next h =>
    subst h
    simp [logits, averaging, layer, crossPart, around, bareBlock, selfAt, averager, placed, attend, at', weight, dot,
      Finset.sum_range_succ, expBias]
  · split
    · next h =>
      subst h
      simp [logits, averaging, layer, crossPart, around, bareBlock, selfAt, averager, placed, attend, at', weight, dot,
        Finset.sum_range_succ, expBias]
      ring
    · rfl

/-- **The window is lost.** With a window of one position and a full cache, feeding two tokens one after the other
does not give the logits of feeding them at once. -/
theorem C96_window_differs (junk : Heads) : ∃ (m : Model) (ys : List (Batch Vec)) (s : Session) (full : Batch Vec),
    (∀ L ∈ m.layers, L.selfAttn.bias = .causal (some 1) ∧ L.selfAttn.state = .full) ∧
    run m junk none (Session.start m ⟨0, 9, none⟩) [.feed [[0]], .feed [[1]]] = some (ys, s) ∧
    m.forward junk none none (m.layers.map fun _ => {}) [[0, 1]] = some (full, m.layers.map fun _ => {}) ∧
    (ys[1]?.map fun y => y.map fun row => at' row 0) ≠ some (full.map fun row => at' row 1) := by
  have hfull := C96_window_full junk (m := averaging (.causal (some 1)) .full none) (R := [⟨[0, 1], []⟩]) (n := 2)
    (src := none) (averaging_good (.window 1 (by decide)) (by simp) 2) (by simp) (by decide) (by decide)
    (by simp [NeedsSource, averaging, recached])
  have hno : ¬ HasWindow (unwindowed (averaging (.causal (some 1)) .full none)) := by
    rintro ⟨L, hL, h⟩
    simp [averaging, unwindowed] at hL
    subst hL
    exact absurd rfl h
  obtain ⟨s, hrun⟩ := C96_window_forgotten junk (m := averaging (.causal (some 1)) .full none) (limit := 8) (given := none)
    (R := [⟨[], []⟩]) (averaging_good .causal (by simp) 8) (by simp) (by simp)
    (by simp [NeedsSource, averaging, unwindowed]) (by simp) (M := 9) (inc := none) (b := ⟨0, 9, none⟩) rfl (by decide)
    (ops := [.feed [[0]], .feed [[1]]])
    ⟨1, by decide, rfl, by decide, by decide, fun h => absurd h hno, 1, by decide, rfl, by decide, by decide,
      fun h => absurd h hno, trivial⟩
    (by intro T hT; simp at hT; rcases hT with rfl | rfl <;> decide)
  refine ⟨_, _, s, _, by simp [averaging, averager], hrun, hfull, ?_⟩
  have h1 := averaging_window (w := some 1) 0 1
  have h2 := averaging_window (w := none) 0 1
  simp only [if_true, Nat.cast_one] at h1
  simp only [reduceCtorEq, if_false, if_true, Nat.cast_one, Nat.cast_zero] at h2
  intro h
  simp only [expected, fed, List.zipWith_cons_cons, List.zipWith_nil_left, List.getElem?_cons_succ, List.getElem?_cons_zero,
    Option.map_some, List.map_cons, List.map_nil, Option.some.injEq, List.cons.injEq, and_true] at h
  have hd : at' (List.drop 1 (logits (unwindowed (averaging (.causal (some 1)) .full none)) [] [0, 1])) 0 =
      at' (logits (averaging (.causal none) .full none) [] [0, 1]) 1 := by
    simp only [at', List.getElem?_drop]
    rfl
  have h' := congrFun h 0
  rw [show (([] : List Nat) ++ [0] ++ [1]) = [0, 1] from rfl] at h'
  have := hd ▸ h'
  rw [h1] at this
  rw [h2] at this
  norm_num at this

end Fs2.Props
