import Verif.Utils.Rng

/-!
Property C80: bags of random number generators.
-/

namespace Fs2.Props

open Fs2.RngBag

variable {S A : Type}

/-! ### Specification -/

/-- What a block gives is up to the generators in `bag` alone. -/
def DrawsFrom (bag : List Nat) (body : World S → Outcome A × World S) : Prop :=
  ∀ w w', (∀ g ∈ bag, w g = w' g) → (body w).1 = (body w').1

/-- The world in which exactly the generators in `bag` are seeded with `n`. -/
def seededWorld (seeded : Nat → S) (bag : List Nat) (n : Nat) (w : World S) : World S :=
  fun g => if g ∈ bag then seeded n else w g

/-! ### Lemmas -/

private theorem seedAll_eq (seeded : Nat → S) (n : Nat) (bag : List Nat) (w : World S) :
    seedAll seeded n bag w = seededWorld seeded bag n w := by
  induction bag generalizing w with
  | nil => funext g; simp [seedAll, seededWorld]
  | cons b bag ih =>
    rw [seedAll, ih]
    funext g
    unfold seededWorld World.set
    by_cases h : g ∈ bag <;> by_cases h' : g = b <;> simp [h, h']

private theorem setStates_other (l : List (Nat × S)) (w : World S) (g : Nat) (h : ∀ e ∈ l, e.1 ≠ g) :
    setStates l w g = w g := by
  induction l generalizing w with
  | nil => rfl
  | cons e l ih =>
    obtain ⟨a, s⟩ := e
    rw [setStates, ih _ fun e he => h e (by simp [he])]
    unfold World.set
    rw [if_neg (fun e => h (a, s) (by simp) e.symm)]

private theorem setStates_fun (l : List (Nat × S)) (f : Nat → S) (hf : ∀ e ∈ l, e.2 = f e.1) (w : World S) (g : Nat)
    (h : g ∈ l.map (·.1)) : setStates l w g = f g := by
  induction l generalizing w with
  | nil => cases h
  | cons e l ih =>
    obtain ⟨a, s⟩ := e
    rw [setStates]
    by_cases hg : g ∈ l.map (·.1)
    · exact ih (fun e he => hf e (by simp [he])) _ hg
    · rw [setStates_other]
      · simp only [List.map_cons, List.mem_cons] at h
        rcases h with rfl | h
        · rw [World.set, if_pos rfl]; exact hf (g, s) (by simp)
        · exact (hg h).elim
      · intro e he hc
        exact hg (List.mem_map.2 ⟨e, he, hc⟩)

private theorem zip_map_mem {bag : List Nat} {f : Nat → S} :
    (∀ e ∈ bag.zip (bag.map f), e.2 = f e.1) ∧ (bag.zip (bag.map f)).map (·.1) = bag := by
  induction bag with
  | nil => simp
  | cons b bag ih =>
    simp only [List.map_cons, List.zip_cons_cons, List.mem_cons, forall_eq_or_imp, true_and]
    exact ⟨ih.1, by rw [ih.2]⟩

private theorem loadLoop_tensors (l : List (Nat × S)) (w : World S) :
    loadLoop (l.map fun e => (e.1, .tensor e.2)) w = (true, setStates l w) := by
  induction l generalizing w with
  | nil => rfl
  | cons e l ih => obtain ⟨a, s⟩ := e; rw [List.map_cons, loadLoop, ih]; rfl

private theorem load_saved (bag bag' : List Nat) (w w' : World S) (hlen : bag'.length = bag.length) :
    loadStateDict bag' (stateDict bag w) w' = (.ok (), setStates (bag'.zip (bag.map w)) w') := by
  have hz : bag'.zip (bag.map fun g => Entry.tensor (w g)) =
      (bag'.zip (bag.map w)).map fun e => (e.1, .tensor e.2) := by
    rw [show (bag.map fun g => Entry.tensor (w g)) = (bag.map w).map Entry.tensor by simp]
    rw [List.zip_map_right]
    rfl
  unfold loadStateDict stateDict
  simp only [List.lookup, beq_self_eq_true]
  rw [if_neg (by simp [hlen]), hz, loadLoop_tensors]
  rfl

/-! ### C80 -/

/-- **The same seed gives the same block.** What a block under a temporary seed gives is up to the seed, not
to the states of the generators before it, if it draws from generators in the bag. -/
theorem C80_repeats (seeded : Nat → S) (bag : List Nat) (n : Int) (hn : 0 ≤ n ∧ n < 2 ^ 32)
    (body : World S → Outcome A × World S) (hb : DrawsFrom bag body) (w w' : World S) :
    (temporarySeed seeded bag n body w).1 = (temporarySeed seeded bag n body w').1 ∧
    (temporarySeed seeded bag n body w).1 = (body fun _ => seeded n.toNat).1 := by
  have h : ∀ w, (temporarySeed seeded bag n body w).1 = (body fun _ => seeded n.toNat).1 := by
    intro w
    unfold temporarySeed manualSeed
    rw [if_neg (by omega)]
    simp only [seedAll_eq]
    refine hb _ _ fun g hg => ?_
    simp [seededWorld, hg]
  exact ⟨(h w).trans (h w').symm, h w⟩

/-- A block that draws twice from generator 3, of a generator that counts. -/
example : DrawsFrom [3] (fun w : World Nat => ((.ok (w 3, w 3 + 1) : Outcome (Nat × Nat)), w.set 3 (w 3 + 2))) := by
  intro w w' h
  simp only [show w 3 = w' 3 from h 3 (by simp)]

/-- **After the block the generators go on as if it had not been**, also if it raises; what it did to other
generators stays. -/
theorem C80_restored (seeded : Nat → S) (bag : List Nat) (n : Int) (hn : 0 ≤ n ∧ n < 2 ^ 32)
    (body : World S → Outcome A × World S) (w : World S) (g : Nat) :
    (temporarySeed seeded bag n body w).2 g =
      if g ∈ bag then w g else (body (seededWorld seeded bag n.toNat w)).2 g := by
  unfold temporarySeed manualSeed
  rw [if_neg (by omega)]
  simp only [seedAll_eq]
  split
  · rename_i hg
    exact setStates_fun _ w zip_map_mem.1 _ g (by rw [zip_map_mem.2]; exact hg)
  · rename_i hg
    refine setStates_other _ _ _ fun e he hc => hg ?_
    rw [← (zip_map_mem (bag := bag) (f := w)).2]
    exact List.mem_map.2 ⟨e, he, hc⟩

/-- **A seed out of range is refused** before anything happens: the block does not run. -/
theorem C80_range (seeded : Nat → S) (bag : List Nat) (n : Int) (hn : n < 0 ∨ 2 ^ 32 ≤ n)
    (body : World S → Outcome A × World S) (w : World S) :
    manualSeed seeded bag n w = (.valueError, w) ∧ temporarySeed seeded bag n body w = (.valueError, w) := by
  have : manualSeed seeded bag n w = (.valueError, w) := by unfold manualSeed; rw [if_pos hn]
  refine ⟨this, ?_⟩
  unfold temporarySeed
  rw [this]

/-- **Seeding** gives all generators of the bag the same seed, and no other one. -/
theorem C80_seeded (seeded : Nat → S) (bag : List Nat) (fresh : Nat) (n : Int) (hn : 0 ≤ n ∧ n < 2 ^ 32)
    (w : World S) :
    manualSeed seeded bag n w = (.ok (), seededWorld seeded bag n.toNat w) ∧
    seed seeded fresh bag w = seededWorld seeded bag fresh w := by
  constructor
  · unfold manualSeed
    rw [if_neg (by omega), seedAll_eq]
  · cases bag with
    | nil => funext g; simp [seed, seededWorld]
    | cons b bag => exact seedAll_eq seeded fresh (b :: bag) w

/-- **Saved generators go on where they were.** A bag with as many generators, in the same process or in
another, takes up the saved states in order and leaves other generators alone. -/
theorem C80_load (bag bag' : List Nat) (w w' : World S) (hlen : bag'.length = bag.length) (hd : bag'.Nodup) :
    ∃ w1, loadStateDict bag' (stateDict bag w) w' = (.ok (), w1) ∧
      (∀ i (h : i < bag'.length), w1 bag'[i] = w (bag[i]'(hlen ▸ h))) ∧ ∀ g, g ∉ bag' → w1 g = w' g := by
  refine ⟨_, load_saved bag bag' w w' hlen, ?_, ?_⟩
  · induction bag generalizing bag' w' with
    | nil => intro i h; simp [hlen] at h
    | cons b bag ih =>
      cases bag' with
      | nil => simp at hlen
      | cons a bag' =>
        intro i h
        rw [List.map_cons, List.zip_cons_cons, setStates]
        cases i with
        | zero =>
          rw [setStates_other]
          · simp [World.set]
          · intro e he hc
            have := (List.of_mem_zip (show (e.1, e.2) ∈ bag'.zip (bag.map w) from he)).1
            rw [hc] at this
            exact (List.nodup_cons.1 hd).1 this
        | succ i => exact ih bag' _ (by simpa using hlen) (List.nodup_cons.1 hd).2 i (by simpa using h)
  · intro g hg
    refine setStates_other _ _ _ fun e he hc => hg ?_
    rw [← hc]
    exact (List.of_mem_zip (show (e.1, e.2) ∈ bag'.zip (bag.map w) from he)).1

example : ([2, 5] : List Nat).length = [0, 1].length ∧ ([2, 5] : List Nat).Nodup := by decide

/-- The same bag takes up its states even if it holds a generator twice. -/
theorem C80_load_same (bag : List Nat) (w w' : World S) :
    ∃ w1, loadStateDict bag (stateDict bag w) w' = (.ok (), w1) ∧
      ∀ g, w1 g = if g ∈ bag then w g else w' g := by
  refine ⟨_, load_saved bag bag w w' rfl, fun g => ?_⟩
  split
  · rename_i hg
    exact setStates_fun _ w zip_map_mem.1 _ g (by rw [zip_map_mem.2]; exact hg)
  · rename_i hg
    refine setStates_other _ _ _ fun e he hc => hg ?_
    rw [← (zip_map_mem (bag := bag) (f := w)).2]
    exact List.mem_map.2 ⟨e, he, hc⟩

/-- **States that are missing, no list or too many or too few are refused** and change nothing. This covers
only some of the errors: see `C80_load_negation`. -/
theorem C80_load_refused_partial (bag : List Nat) (d : List (String × Entry S)) (w : World S)
    (h : ∀ l, d.lookup "generators" = some (.list l) → l.length ≠ bag.length) :
    loadStateDict bag d w = (.stateDictError, w) := by
  unfold loadStateDict
  split
  · rename_i l hl
    rw [if_pos (h l hl)]
  · rfl

example : ∀ l, (stateDict [1, 2] (fun _ => 7)).lookup "generators" = some (Entry.list l : Entry Nat) →
    l.length ≠ [4].length := by
  intro l hl
  simp only [stateDict, List.lookup, beq_self_eq_true, Option.some.injEq, Entry.list.injEq] at hl
  subst hl
  decide

/-- **Violation.** A bad state at a later position is refused after the generators before it have been
changed, and so is an unknown key after all of them have been. -/
theorem C80_load_negation :
    (∃ w1, loadStateDict [0, 1] [("generators", .list [.tensor 7, .other])] (fun _ => 0) = (.stateDictError, w1) ∧
      w1 0 = 7) ∧
    ∃ w1, loadStateDict [0] [("generators", .list [.tensor 7]), ("extra", .other)] (fun _ => 0) =
      (.stateDictError, w1) ∧ w1 0 = 7 :=
  ⟨⟨_, rfl, rfl⟩, ⟨_, rfl, rfl⟩⟩

/-! #### Device defaults -/

private theorem defaults_spec (current : Nat) (ds seen : List Device) (gens out : List Nat)
    (h : defaultsLoop current ds seen gens = some out) :
    (∀ g, g ∈ out ↔ g ∈ gens ∨ ∃ d ∈ ds, d ∉ seen ∧ generatorOf current d = some g) ∧
    (gens.Nodup → (∀ d ∈ ds, d ∉ seen → ∀ g, generatorOf current d = some g → g ∉ gens) →
      (∀ d ∈ ds, ∀ d' ∈ ds, ∀ g, generatorOf current d = some g → generatorOf current d' = some g → d = d') →
      out.Nodup) ∧ ∀ d ∈ ds, d ∉ seen → d ≠ .metaDevice → d ≠ .other := by
  induction ds generalizing seen gens with
  | nil =>
    rw [defaultsLoop] at h; cases h
    refine ⟨fun g => ⟨.inl, fun h => h.elim id ?_⟩, fun h _ _ => h, fun d hd => by cases hd⟩
    rintro ⟨d, hd, -⟩; cases hd
  | cons d ds ih =>
    rw [defaultsLoop] at h
    by_cases hs : d ∈ seen ∨ d = .metaDevice
    · rw [if_pos hs] at h
      obtain ⟨h1, h2, h3⟩ := ih _ _ h
      refine ⟨fun g => ?_, fun hn hg hi => ?_, ?_⟩
      · rw [h1]
        constructor
        · rintro (h | ⟨e, he, hr⟩)
          · exact .inl h
          · exact .inr ⟨e, by simp [he], hr⟩
        · rintro (h | ⟨e, he, hr1, hr2⟩)
          · exact .inl h
          · rcases List.mem_cons.1 he with rfl | he
            · rcases hs with hs | hs
              · exact (hr1 hs).elim
              · subst hs; cases hr2
            · exact .inr ⟨e, he, hr1, hr2⟩
      · exact h2 hn (fun e he => hg e (by simp [he])) fun e he e' he' => hi e (by simp [he]) e' (by simp [he'])
      · intro e he hes hm
        rcases List.mem_cons.1 he with rfl | he
        · exact hs.elim (fun h => (hes h).elim) fun h => (hm h).elim
        · exact h3 e he hes hm
    · rw [if_neg hs] at h
      simp only [not_or] at hs
      cases hg0 : generatorOf current d with
      | none => rw [hg0] at h; cases h
      | some g0 =>
        rw [hg0] at h
        obtain ⟨h1, h2, h3⟩ := ih _ _ h
        refine ⟨fun g => ?_, fun hn hg hi => ?_, ?_⟩
        · rw [h1]
          constructor
          · rintro (h | ⟨e, he, hr1, hr2⟩)
            · rcases List.mem_append.1 h with h | h
              · exact .inl h
              · rw [List.mem_singleton] at h; subst h
                exact .inr ⟨d, by simp, hs.1, hg0⟩
            · exact .inr ⟨e, by simp [he], fun hc => hr1 (by simp [hc]), hr2⟩
          · rintro (h | ⟨e, he, hr1, hr2⟩)
            · exact .inl (by simp [h])
            · by_cases hed : e = d
              · subst hed; rw [hg0] at hr2; cases hr2; exact .inl (by simp)
              · rcases List.mem_cons.1 he with rfl | he
                · exact (hed rfl).elim
                · exact .inr ⟨e, he, by simp [hed, hr1], hr2⟩
        · refine h2 ?_ ?_ fun e he e' he' => hi e (by simp [he]) e' (by simp [he'])
          · rw [List.nodup_append]
            refine ⟨hn, by simp, ?_⟩
            intro a ha b hb
            rw [List.mem_singleton] at hb
            subst hb
            rintro rfl
            exact hg d (by simp) hs.1 _ hg0 ha
          · intro e he hes g hge hc
            simp only [List.mem_cons, not_or] at hes
            rcases List.mem_append.1 hc with hc | hc
            · exact hg e (by simp [he]) hes.2 g hge hc
            · rw [List.mem_singleton] at hc
              subst hc
              exact hes.1 (hi e (by simp [he]) d (by simp) _ hge hg0)
        · intro e he hes hm
          by_cases hed : e = d
          · subst hed; intro hc; subst hc; cases hg0
          · rcases List.mem_cons.1 he with rfl | he
            · exact (hed rfl).elim
            · exact h3 e he (by simp [hed, hes]) hm

/-- **The bag of the default generators** holds the generators of the devices and no other one, each once if no
device is named in two ways. -/
theorem C80_devices (current : Nat) (devices : List Device) (bag : List Nat)
    (h : fromDeviceDefaults current devices = some bag) :
    (∀ g, g ∈ bag ↔ ∃ d ∈ devices, generatorOf current d = some g) ∧ .other ∉ devices ∧
    (¬ (.cuda none ∈ devices ∧ .cuda (some current) ∈ devices) → bag.Nodup) := by
  obtain ⟨h1, h2, h3⟩ := defaults_spec current devices [] [] bag h
  refine ⟨fun g => ?_, fun hc => h3 _ hc (by simp) (by decide) rfl, fun hn => ?_⟩
  · rw [h1]; simp
  · refine h2 (by simp) (by simp) ?_
    intro d hd d' hd' g hg hg'
    have : generatorOf current d = generatorOf current d' := hg.trans hg'.symm
    have e1 : d ≠ .metaDevice ∧ d ≠ .other := by constructor <;> (rintro rfl; cases hg)
    have e2 : d' ≠ .metaDevice ∧ d' ≠ .other := by constructor <;> (rintro rfl; cases hg')
    cases d with
    | cpu =>
      cases d' with
      | cpu => rfl
      | cuda j => simp [generatorOf] at this
      | metaDevice => exact (e2.1 rfl).elim
      | other => exact (e2.2 rfl).elim
    | cuda i =>
      cases d' with
      | cpu => simp [generatorOf] at this
      | cuda j =>
        simp only [generatorOf, Option.some.injEq, Nat.add_right_cancel_iff] at this
        cases i with
        | none =>
          cases j with
          | none => rfl
          | some j => simp only [Option.getD_none, Option.getD_some] at this; subst this; exact (hn ⟨hd, hd'⟩).elim
        | some i =>
          cases j with
          | none => simp only [Option.getD_none, Option.getD_some] at this; subst this; exact (hn ⟨hd', hd⟩).elim
          | some j => simp only [Option.getD_some] at this; rw [this]
      | metaDevice => exact (e2.1 rfl).elim
      | other => exact (e2.2 rfl).elim
    | metaDevice => exact (e1.1 rfl).elim
    | other => exact (e1.2 rfl).elim

/-- A CUDA device with and without its index is one generator that is held twice. -/
theorem C80_devices_negation : fromDeviceDefaults 0 [.cpu, .cuda none, .cuda (some 0), .cpu] = some [0, 1, 1] := by
  decide

end Fs2.Props
