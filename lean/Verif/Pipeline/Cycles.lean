import Verif.Pipeline.Passes

/-!
# Sources that are read to their end over and over (helper lemmas)

`Rereads` says of each source alone what it gives after a reset. Sources of several ranks that start alike are alike after each reset only if they
have been read to their ends; `Cyclic` keeps track of that.
-/

namespace Fs2
open Source

variable {S : Source}

/-- Calls of `next()` without an error; the flag says whether one of them came to the end. -/
inductive Source.Steps (S : Source) : S.σ → Bool → S.σ → Prop
  | nil (s : S.σ) : Steps S s false s
  | yield {s s' t : S.σ} {x : Data} {b : Bool} : S.next s = some (.yield x, s') → Steps S s' b t → Steps S s b t
  | eod {s s' t : S.σ} {b : Bool} : S.next s = some (.eod, s') → Steps S s' b t → Steps S s true t

theorem Source.Steps.trans {s t u : S.σ} {b c : Bool} (h : S.Steps s b t) (h' : S.Steps t c u) : S.Steps s (b || c) u := by
  induction h with
  | nil => simpa using h'
  | yield hn _ ih => exact .yield hn (ih h')
  | eod hn _ ih => exact .eod hn (ih h')

theorem Source.Emits.steps {s t : S.σ} {xs : List Data} (h : S.Emits s xs t) : S.Steps s false t := by
  induction h with
  | nil => exact .nil _
  | cons hn _ ih => exact .yield hn ih

theorem Source.Steps.inv {I : S.σ → Prop} (hI : Invar S I) {s t : S.σ} {b : Bool} (h : S.Steps s b t) (hs : I s) : I t := by
  induction h with
  | nil => exact hs
  | yield hn _ ih => exact ih (hI.next hs hn (by simp [Res.fatal]))
  | eod hn _ ih => exact ih (hI.next hs hn (by simp [Res.fatal]))

/-- What is read from a state on: `C k` holds of the states at the beginning of epoch `k`. -/
def Source.Cyclic (S : Source) (C : Nat → S.σ → Prop) (Q : Nat → List Data → Prop) : Prop :=
  ∀ k s, C k s → ∃ ys, Q k ys ∧ S.Yields s ys ∧ ∀ t, S.Steps s true t → C (k + 1) (S.reset false t)

theorem Source.Cyclic.passes {C : Nat → S.σ → Prop} {Q : Nat → List Data → Prop} (h : S.Cyclic C Q) {s : S.σ} (hs : C 0 s) :
    ∃ es, (∀ k, Q k (es k)) ∧ S.Passes s es := by
  have step : ∀ (k : Nat) (p : { s : S.σ // C k s }), ∃ q : { s : S.σ // C (k + 1) s }, ∃ ys e e',
      Q k ys ∧ S.Emits p.1 ys e ∧ S.next e = some (.eod, e') ∧ q.1 = S.reset false e' := by
    rintro k ⟨t, ht⟩
    obtain ⟨ys, hq, ⟨e, h1, h2⟩, hc⟩ := h k t ht
    obtain ⟨e', h3, -⟩ := h2.next
    exact ⟨⟨S.reset false e', hc _ (by simpa using h1.steps.trans (.eod h3 (.nil _)))⟩, ys, e, e', hq, h1, h3, rfl⟩
  let p : (k : Nat) → { s : S.σ // C k s } := fun k => Nat.rec ⟨s, hs⟩ (fun k q => Classical.choose (step k q)) k
  have hp := fun k => Classical.choose_spec (step k (p k))
  refine ⟨fun k => Classical.choose (hp k), fun k => ?_, fun k => (p k).1, rfl, fun k => ?_⟩
  · obtain ⟨_, _, h1, -⟩ := Classical.choose_spec (hp k)
    exact h1
  · obtain ⟨e, e', -, h2, h3, h4⟩ := Classical.choose_spec (hp k)
    exact ⟨e, e', h2, h3, h4⟩

theorem Source.Cyclic.mono {C : Nat → S.σ → Prop} {Q Q' : Nat → List Data → Prop} (h : S.Cyclic C Q) (hq : ∀ k ys, Q k ys → Q' k ys) :
    S.Cyclic C Q' := by
  intro k s hs
  obtain ⟨ys, h1, h2⟩ := h k s hs
  exact ⟨ys, hq k ys h1, h2⟩

/-- A source that stays where it is at its end has one state at the beginning of each epoch. -/
theorem Source.Cyclic.pin {C : Nat → S.σ → Prop} {Q : Nat → List Data → Prop} (h : S.Cyclic C Q)
    (hstay : ∀ {s s'}, S.next s = some (.eod, s') → S.next s' = some (.eod, s')) {s₀ : S.σ} (hs : C 0 s₀) :
    ∃ (u : Nat → S.σ) (L : Nat → List Data), u 0 = s₀ ∧ (∀ k, Q k (L k)) ∧ S.Cyclic (fun k s => s = u k) (fun k ys => ys = L k) := by
  have stay : ∀ {s t : S.σ} {b : Bool}, S.next s = some (.eod, s) → S.Steps s b t → t = s := by
    intro s t b hn hst
    induction hst with
    | nil => rfl
    | yield h' _ _ => rw [hn] at h'; cases h'
    | eod h' _ ih => rw [hn] at h'; cases h'; exact ih hn
  have fin : ∀ {s e e' t : S.σ} {ys : List Data}, S.Emits s ys e → S.next e = some (.eod, e') → S.Steps s true t → t = e' := by
    intro s e e' t ys he hn hst
    induction he with
    | nil =>
      cases hst with
      | yield h' _ => rw [hn] at h'; cases h'
      | eod h' h'' => rw [hn] at h'; cases h'; exact stay (hstay hn) h''
    | cons h1 _ ih =>
      cases hst with
      | yield h' h'' => rw [h1] at h'; cases h'; exact ih hn h''
      | eod h' _ => rw [h1] at h'; cases h'
  have step : ∀ (k : Nat) (p : { s : S.σ // C k s }), ∃ q : { s : S.σ // C (k + 1) s }, ∃ ys,
      Q k ys ∧ S.Yields p.1 ys ∧ ∀ t, S.Steps p.1 true t → S.reset false t = q.1 := by
    rintro k ⟨t, ht⟩
    obtain ⟨ys, hq, hy, hc⟩ := h k t ht
    obtain ⟨e, h1, h2⟩ := hy
    obtain ⟨e', h3, -⟩ := h2.next
    exact ⟨⟨S.reset false e', hc _ (by simpa using h1.steps.trans (.eod h3 (.nil _)))⟩, ys, hq, ⟨e, h1, h2⟩,
      fun t ht => by rw [fin h1 h3 ht]⟩
  let p : (k : Nat) → { s : S.σ // C k s } := fun k => Nat.rec ⟨s₀, hs⟩ (fun k q => Classical.choose (step k q)) k
  have hp := fun k => Classical.choose_spec (step k (p k))
  refine ⟨fun k => (p k).1, fun k => Classical.choose (hp k), rfl, fun k => (Classical.choose_spec (hp k)).1, ?_⟩
  rintro k s rfl
  exact ⟨_, rfl, (Classical.choose_spec (hp k)).2.1, (Classical.choose_spec (hp k)).2.2⟩

/-- A source without memory but for an invariant. -/
theorem cyclic_of_inv {I : S.σ → Prop} (hI : Invar S I) {xs : List Data} (hr : ∀ {t}, I t → S.Yields (S.reset false t) xs) :
    S.Cyclic (fun _ s => I s ∧ S.Yields s xs) (fun _ ys => ys = xs) := by
  rintro k s ⟨h1, h2⟩
  exact ⟨xs, rfl, h2, fun t ht => ⟨hI.reset _ (ht.inv hI h1), hr (ht.inv hI h1)⟩⟩

/-! ### The operators -/

/-- Calls of an operator that asks its upstream for each end. -/
theorem Source.Steps.lower {T : Source} (π : T.σ → S.σ)
    (h : ∀ {s r s'}, T.next s = some (r, s') → (∀ e, r ≠ .err e) → ∃ b, S.Steps (π s) b (π s') ∧ (r = .eod → b = true))
    {s t : T.σ} {b : Bool} (hs : T.Steps s b t) : ∃ c, S.Steps (π s) c (π t) ∧ (b = true → c = true) := by
  induction hs with
  | nil s => exact ⟨false, .nil _, by simp⟩
  | yield hn _ ih =>
    obtain ⟨c, h1, h2⟩ := ih
    obtain ⟨d, h3, -⟩ := h hn (by simp)
    exact ⟨_, h3.trans h1, fun hb => by simp [h2 hb]⟩
  | eod hn _ ih =>
    obtain ⟨c, h1, h2⟩ := ih
    obtain ⟨d, h3, h4⟩ := h hn (by simp)
    exact ⟨_, h3.trans h1, fun _ => by simp [h4 rfl]⟩

theorem Source.Steps.one {s s' : S.σ} {r : Res} (h : S.next s = some (r, s')) (hr : ∀ e, r ≠ .err e) :
    ∃ b, S.Steps s b s' ∧ (r = .eod → b = true) := by
  cases r with
  | yield x => exact ⟨false, .yield h (.nil _), by simp⟩
  | eod => exact ⟨true, .eod h (.nil _), fun _ => rfl⟩
  | err e => exact absurd rfl (hr e)

theorem map_steps {f : Data → Except Err Data} {s t : S.σ} {b : Bool} (h : (map f S).Steps s b t) :
    ∃ c, S.Steps s c t ∧ (b = true → c = true) := by
  refine Source.Steps.lower (S := S) (T := map f S) (fun s => s) ?_ h
  intro s r s' hn hr
  simp only [map, mapNext] at hn
  split at hn
  · cases hn
  · next hx =>
    obtain ⟨b, h1, -⟩ := Source.Steps.one hx (by simp)
    split at hn <;> cases hn
    · exact absurd rfl (hr _)
    · exact ⟨b, h1, by simp⟩
  · next hx =>
    cases hn
    exact Source.Steps.one hx (by simp)
  · cases hn
    exact absurd rfl (hr _)

theorem readUpTo_steps {n : Nat} {acc xs : List Data} {ended : Bool} {s s' : S.σ} (h : readUpTo S.next n acc s = some (⟨xs, ended, none⟩, s')) :
    S.Steps s ended s' ∧ (ended = false → xs.length = acc.length + n) := by
  induction n generalizing acc s with
  | zero =>
    cases h
    exact ⟨.nil _, by simp⟩
  | succ n ih =>
    rw [readUpTo] at h
    split at h
    · cases h
    · next hn =>
      obtain ⟨h1, h2⟩ := ih h
      refine ⟨.yield hn h1, fun he => ?_⟩
      rw [h2 he, List.length_append, List.length_singleton]
      omega
    · next hn =>
      cases h
      exact ⟨.eod hn (.nil _), by simp⟩
    · cases h

theorem shard_steps {idx n : Nat} {s t : S.σ} {b : Bool} (h : (shard idx n true S).Steps s b t) :
    ∃ c, S.Steps s c t ∧ (b = true → c = true) := by
  refine Source.Steps.lower (S := S) (T := shard idx n true S) (fun s => s) ?_ h
  intro s r s' hn hr
  simp only [shard, shardNext] at hn
  split at hn
  · exact Source.Steps.one hn hr
  split at hn
  · cases hn
  · cases hn
    exact absurd rfl (hr _)
  · next h1 =>
    cases hn
    exact ⟨true, (readUpTo_steps h1).1, fun _ => rfl⟩
  · next h1 =>
    have h1 := (readUpTo_steps h1).1
    split at hn
    · cases hn
    · next h2 =>
      cases hn
      exact ⟨_, h1.trans (.eod h2 (.nil _)), by simp⟩
    · cases hn
      exact absurd rfl (hr _)
    · next h2 =>
      split at hn
      · cases hn
      · cases hn
        exact absurd rfl (hr _)
      · next h3 =>
        cases hn
        exact ⟨_, h1.trans (.yield h2 (readUpTo_steps h3).1), by simp⟩
      · next h3 =>
        cases hn
        exact ⟨_, h1.trans (.yield h2 (readUpTo_steps h3).1), by simp⟩

theorem shard_cyclic {idx n : Nat} (hi : idx < n) {C : Nat → S.σ → Prop} {L : Nat → List Data} (h : S.Cyclic C fun k ys => ys = L k) :
    (shard idx n true S).Cyclic C fun k ys => ys = shardOf idx n (L k) := by
  intro k s hs
  obtain ⟨ys, rfl, h2, h3⟩ := h k s hs
  refine ⟨_, rfl, shard_gives hi h2, fun t ht => ?_⟩
  obtain ⟨c, h4, h5⟩ := shard_steps ht
  obtain rfl := h5 rfl
  exact h3 t h4

theorem bblNext_steps {c : BblCfg} {s s' : BblSt S.σ} {r : Res} (h : bblNext S.next c s = some (r, s')) (hr : ∀ e, r ≠ .err e) :
    ∃ b, S.Steps s.inner b s'.inner ∧ (r = .eod → b = true) := by
  refine bblNext.partial_correctness S.next c
    (fun s x => (∀ e, x.1 ≠ .err e) → ∃ b, S.Steps s.inner b x.2.inner ∧ (x.1 = .eod → b = true)) ?_ s (r, s') h hr
  intro f ih s x hx hr
  split at hx
  · cases hx
  · cases hx
    exact absurd rfl (hr _)
  · next h1 =>
    split at hx <;> cases hx
    · exact ⟨true, .eod h1 (.nil _), fun _ => rfl⟩
    · exact ⟨true, .eod h1 (.nil _), fun _ => rfl⟩
  · next y i h1 =>
    have go : ∀ {bs}, f ⟨bs, i⟩ = some x → ∃ b, S.Steps s.inner b x.2.inner ∧ (x.1 = .eod → b = true) := by
      intro bs hf
      obtain ⟨b, h2, h3⟩ := ih _ _ hf hr
      exact ⟨b, .yield h1 h2, h3⟩
    split at hx
    · cases hx
      exact absurd rfl (hr _)
    · split at hx
      · split at hx
        · exact go hx
        · cases hx
          exact absurd rfl (hr _)
      · split at hx
        · split at hx
          · exact go hx
          · cases hx
            exact absurd rfl (hr _)
        · split at hx
          · exact go hx
          · cases hx
            exact ⟨false, .yield h1 (.nil _), by simp⟩

/-! ### `shuffle` -/

section
variable {R : Rng} {w seed : Nat}

theorem shuffle_stay (hw : shuffleWindow w ≠ 1) {s s' : ShuffleSt R S.σ} (h : (shuffle R w seed S).next s = some (.eod, s')) :
    (shuffle R w seed S).next s' = some (.eod, s') := by
  have key : s'.fill = false ∧ s'.pos = s'.stop := by
    simp only [shuffle, shuffleNext, if_neg hw] at h
    split at h
    · split at h
      · cases h
      · cases h
      · exact shuffleStep_eod rfl h
    · next hf => exact shuffleStep_eod (by simpa using hf) h
  show shuffleNext R w S s' = _
  simp [shuffleNext, if_neg hw, key.1, shuffleStep, key.2]

/-- Whether the upstream may still have examples. -/
def Before (c : Bool) (s : ShuffleSt R S.σ) : Prop :=
  c = true ∨ (s.fill = true ∧ s.buf = []) ∨ (s.fill = false ∧ s.stop = s.buf.length ∧ s.pos < s.stop)

theorem shuffleWindow_pos (w : Nat) : 0 < shuffleWindow w := by
  unfold shuffleWindow
  split
  · decide
  · omega

theorem shuffleStep_before {c : Bool} {s s' : ShuffleSt R S.σ} {r : Res} (hs : c = true ∨ (s.fill = false ∧ s.stop = s.buf.length ∧ s.pos < s.stop))
    (h : shuffleStep R S s = some (r, s')) (hr : ∀ e, r ≠ .err e) :
    ∃ b, S.Steps s.inner b s'.inner ∧ Before (c || b) s' ∧ (r = .eod → (c || b) = true) := by
  simp only [shuffleStep] at h
  split at h
  · next hp =>
    cases h
    refine ⟨false, .nil _, ?_⟩
    rcases hs with rfl | hs
    · exact ⟨.inl rfl, fun _ => rfl⟩
    · omega
  · simp only [shuffleTake] at h
    have hlen : (shuffleMix R s).1.length = s.buf.length := by
      unfold shuffleMix
      split <;> simp
    split at h
    · next h0 =>
      split at h
      · cases h
      · cases h
        exact absurd rfl (hr _)
      · next h1 =>
        cases h
        refine ⟨false, .yield h1 (.nil _), ?_, by simp⟩
        rcases hs with rfl | hs
        · exact .inl rfl
        · refine .inr (.inr ⟨hs.1, ?_, ?_⟩)
          · simp only [List.length_set]
            exact h0
          · simp only [bump]
            split <;> omega
      · next h1 =>
        cases h
        exact ⟨true, .eod h1 (.nil _), .inl (by simp), by simp⟩
    · next h0 =>
      cases h
      refine ⟨false, .nil _, ?_, by simp⟩
      rcases hs with rfl | hs
      · exact .inl rfl
      · exact absurd (by simp only [hlen]; exact hs.2.1) h0

theorem shuffle_before (hw : shuffleWindow w ≠ 1) {c : Bool} {s s' : ShuffleSt R S.σ} {r : Res} (hs : Before c s)
    (h : (shuffle R w seed S).next s = some (r, s')) (hr : ∀ e, r ≠ .err e) :
    ∃ b, S.Steps s.inner b s'.inner ∧ Before (c || b) s' ∧ (r = .eod → (c || b) = true) := by
  simp only [shuffle, shuffleNext, if_neg hw] at h
  split at h
  · next hf =>
    split at h
    · cases h
    · cases h
      exact absurd rfl (hr _)
    · next h1 =>
      rename_i xs ended i
      obtain ⟨h2, h3⟩ := readUpTo_steps h1
      obtain ⟨b, h4, h5, h6⟩ := shuffleStep_before (c := c || ended) (by
        rcases hs with rfl | hs | hs
        · exact .inl rfl
        · cases ended with
          | true => exact .inl (by simp)
          | false =>
            have := h3 rfl
            have := shuffleWindow_pos w
            exact .inr ⟨rfl, rfl, by simp only; omega⟩
        · rw [hf] at hs
          exact absurd hs.1 (by simp)) h hr
      refine ⟨ended || b, h2.trans h4, ?_, ?_⟩
      · rw [← Bool.or_assoc]; exact h5
      · rw [← Bool.or_assoc]; exact h6
  · next hf =>
    refine shuffleStep_before ?_ h hr
    rcases hs with rfl | hs | hs
    · exact .inl rfl
    · exact absurd hs.1 hf
    · exact .inr hs

theorem shuffle_steps {s t : ShuffleSt R S.σ} {b : Bool} (hf : s.fill = true) (hb : s.buf = []) (h : (shuffle R w seed S).Steps s b t) :
    ∃ c, S.Steps s.inner c t.inner ∧ (b = true → c = true) := by
  by_cases hw : shuffleWindow w = 1
  · refine Source.Steps.lower (S := S) (T := shuffle R w seed S) (fun s : ShuffleSt R S.σ => s.inner) ?_ h
    intro s r s' hn hr
    simp only [shuffle, shuffleNext, if_pos hw] at hn
    split at hn
    · cases hn
    · next h1 =>
      cases hn
      exact Source.Steps.one h1 hr
  · have key : ∀ {s t : (shuffle R w seed S).σ} {b : Bool}, (shuffle R w seed S).Steps s b t →
        ∀ {c}, Before c (show ShuffleSt R S.σ from s) →
        ∃ d, S.Steps (show ShuffleSt R S.σ from s).inner d (show ShuffleSt R S.σ from t).inner ∧ (b = true → (c || d) = true) := by
      intro s t b h
      induction h with
      | nil => exact fun _ => ⟨false, .nil _, by simp⟩
      | yield hn _ ih =>
        intro c hc
        obtain ⟨d, h1, h2, -⟩ := shuffle_before hw hc hn (by simp)
        obtain ⟨e, h3, h4⟩ := ih h2
        refine ⟨d || e, h1.trans h3, fun hb => ?_⟩
        rw [← Bool.or_assoc]
        exact h4 hb
      | eod hn _ ih =>
        intro c hc
        obtain ⟨d, h1, h2, h3⟩ := shuffle_before hw hc hn (by simp)
        obtain ⟨e, h4, -⟩ := ih h2
        refine ⟨d || e, h1.trans h4, fun _ => ?_⟩
        rw [← Bool.or_assoc, h3 rfl]
        rfl
    obtain ⟨d, h1, h2⟩ := key h (c := false) (.inr (.inl ⟨hf, hb⟩))
    exact ⟨d, h1, by simpa using h2⟩

theorem shuffle_cyclic {C : Nat → S.σ → Prop} {Q : Nat → List Data → Prop} (h : S.Cyclic C Q) :
    (shuffle R w seed S).Cyclic (fun k (s : ShuffleSt R S.σ) => s.fill = true ∧ s.buf = [] ∧ C k s.inner)
      (fun k zs => ∃ ys, Q k ys ∧ zs.Perm ys) := by
  intro k (s : ShuffleSt R S.σ) hs
  obtain ⟨hf, hb, hs⟩ := hs
  obtain ⟨ys, h1, h2, h3⟩ := h k _ hs
  have next : ∀ t : ShuffleSt R S.σ, (shuffle R w seed S).Steps s true t → C (k + 1) (S.reset false t.inner) := by
    intro t ht
    obtain ⟨c, h4, h5⟩ := shuffle_steps hf hb ht
    obtain rfl := h5 rfl
    exact h3 _ h4
  by_cases hw : shuffleWindow w = 1
  · exact ⟨ys, ⟨ys, h1, .refl _⟩, shuffle_one_yields hw h2, fun t ht => ⟨rfl, rfl, next t ht⟩⟩
  · obtain ⟨zs, h4, h5⟩ := shuffle_yields (R := R) (w := w) (seed := seed) hw hf hb h2
    exact ⟨zs, ⟨ys, h1, h4.perm⟩, h5, fun t ht => ⟨rfl, rfl, next t ht⟩⟩

end

theorem pipeline_once {max w : Nat} {s t : S.σ} {r : Res} (h : S.next s = some (r, t)) (hr : ∀ e, r ≠ .err e) :
    (pipeline false max S).next (⟨some s, w, false⟩ : PipeSt S.σ) = some (r, (⟨some t, w, false⟩ : PipeSt S.σ)) := by
  show pipeNext S max (⟨some s, w, false⟩ : PipeSt S.σ) = _
  simp only [pipeNext, Bool.false_eq_true, if_false, Option.getD_some]
  unfold pipeLoop
  rw [h]
  cases r with
  | yield x => rfl
  | eod => rfl
  | err e => exact absurd rfl (hr e)

/-- A pipeline that has been handed to a reader. -/
theorem pipeline_passes {max w : Nat} {s : S.σ} {es : Nat → List Data} (h : S.Passes s es) :
    (pipeline false max S).Passes (⟨some s, w, false⟩ : PipeSt S.σ) es := by
  obtain ⟨st, rfl, h⟩ := h
  refine ⟨fun k => (⟨some (st k), w, false⟩ : PipeSt S.σ), rfl, fun k => ?_⟩
  obtain ⟨e, e', h1, h2, h3⟩ := h k
  refine ⟨(⟨some e, w, false⟩ : PipeSt S.σ), (⟨some e', w, false⟩ : PipeSt S.σ), pipeline_emits h1, pipeline_once h2 (by simp), ?_⟩
  show (⟨some (st (k + 1)), w, false⟩ : PipeSt S.σ) = _
  rw [h3]
  rfl

end Fs2
