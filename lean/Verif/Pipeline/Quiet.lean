import Verif.Pipeline.SimpleLaws
import Verif.Pipeline.WrapperLaws
import Verif.Pipeline.MultiLaws
import Verif.Pipeline.ShuffleLaws
import Verif.Pipeline.MapLaws

/-!
# Sources that never raise an exception, and calls that always return
-/

namespace Fs2
open Source
namespace Source
variable {S : Source} {I : S.σ → Prop}

/-- No call from a state in `I` raises an exception. -/
def Silent (S : Source) (I : S.σ → Prop) : Prop :=
  ∀ {s r s'}, I s → S.next s = some (r, s') → ∀ e, r ≠ .err e

/-- Every call from a state in `I` returns. -/
def Total (S : Source) (I : S.σ → Prop) : Prop :=
  ∀ {s}, I s → ∃ r s', S.next s = some (r, s')

theorem Silent.calm (h1 : Silent S I) (h2 : Total S I) : Calm S I := by
  intro s hs
  obtain ⟨r, s', h⟩ := h2 hs
  exact ⟨r, s', h, h1 hs h⟩

theorem silent_readUpTo (hI : Invar S I) (hq : Silent S I) {n : Nat} {acc : List Data}
    {s s' : S.σ} {b : Batch} (hs : I s) (h : readUpTo S.next n acc s = some (b, s')) :
    b.err = none := by
  obtain ⟨ys, s₁, -, h2, h3⟩ := readUpTo_inv h
  rcases h3 with h | h | ⟨e, -, -, -, h⟩
  · exact h.2.1
  · exact h.2.1
  · exact absurd rfl (hq (hI.emits h2 hs) h e)

theorem total_readUpTo (hI : Invar S I) (ht : Total S I) (n : Nat) (acc : List Data)
    {s : S.σ} (hs : I s) : ∃ b s', readUpTo S.next n acc s = some (b, s') := by
  induction n generalizing acc s with
  | zero => exact ⟨_, _, rfl⟩
  | succ n ih =>
    obtain ⟨r, s', h⟩ := ht hs
    simp only [readUpTo, h]
    cases r with
    | yield x => exact ih _ (hI.next hs h (by simp [Res.fatal]))
    | eod => exact ⟨_, _, rfl⟩
    | err e => exact ⟨_, _, rfl⟩

end Source

section
variable {S : Source} {I : S.σ → Prop} {n : Nat}

theorem listSource_silent {xs : List Data} {I} : Silent (listSource xs) I := by
  intro s r s' _ h e
  simp only [listSource] at h
  split at h <;> cases h <;> simp

theorem listSource_total {xs : List Data} {I} : Total (listSource xs) I := by
  intro s _
  simp only [listSource]
  split <;> exact ⟨_, _, rfl⟩

theorem countSource_silent {a b k I} : Silent (countSource a b k) I := by
  intro s r s' _ h e
  cases h; simp

theorem countSource_total {a b k I} : Total (countSource a b k) I := fun _ => ⟨_, _, rfl⟩

theorem constantSource_silent {x k I} : Silent (constantSource x k) I := by
  intro s r s' _ h e
  cases h; simp

theorem constantSource_total {x k I} : Total (constantSource x k) I := fun _ => ⟨_, _, rfl⟩

theorem take_silent (h : Silent S I) : Silent (take n S) (fun s => I s.2) := by
  intro s r s' hs hn e
  simp only [take, takeNext] at hn
  split at hn
  · cases hn; simp
  · split at hn
    · cases hn
    · cases hn; simp
    · cases hn; simp
    · next hi => exact absurd rfl (h hs hi _)

theorem take_total (h : Total S I) : Total (take n S) (fun s => I s.2) := by
  intro s hs
  obtain ⟨r, s', hn⟩ := h hs
  simp only [take, takeNext, hn]
  split
  · exact ⟨_, _, rfl⟩
  · cases r <;> exact ⟨_, _, rfl⟩

theorem skip_silent (hI : Invar S I) (h : Silent S I) : Silent (skip n S) (fun s => I s.2) := by
  intro s r s' hs hn e
  simp only [skip, skipNext] at hn
  split at hn
  · split at hn
    · cases hn
    · next hi => cases hn; exact h hs hi e
  · split at hn
    · split at hn
      · cases hn
      · next hi => cases hn; exact h hs hi e
    · split at hn
      · cases hn
      · next hi => exact absurd (silent_readUpTo hI h hs hi) (by simp)
      · next hi =>
        have h1 := inv_readUpTo hI hs hi (by rintro e ⟨⟩)
        split at hn
        · cases hn
        · next hj => cases hn; exact h h1 hj e

theorem skip_total (hI : Invar S I) (hq : Silent S I) (h : Total S I) :
    Total (skip n S) (fun s => I s.2) := by
  intro s hs
  obtain ⟨r, s', hn⟩ := h hs
  simp only [skip, skipNext, hn]
  split
  · exact ⟨_, _, rfl⟩
  · split
    · exact ⟨_, _, rfl⟩
    · obtain ⟨b, s', hb⟩ := total_readUpTo hI h n [] hs
      have he := silent_readUpTo hI hq hs hb
      obtain ⟨xs, d, o⟩ := b
      cases he
      rw [hb]
      have h1 := inv_readUpTo hI hs hb (by rintro e ⟨⟩)
      obtain ⟨r, s', hn⟩ := h h1
      simp only [hn]
      exact ⟨_, _, rfl⟩

theorem filter_silent {p : Data → Except Err Bool} (hI : Invar S I) (hp : ∀ x, (p x).isOk)
    (h : Silent S I) : Silent (filter p S) I := by
  intro s r s' hs hn e
  have : ∀ s (x : Res × S.σ), filterNext S.next p s = some x → I s → ∀ e, x.1 ≠ .err e := by
    intro s x hx
    refine filterNext.partial_correctness S.next p (fun s x => I s → ∀ e, x.1 ≠ .err e) ?_ s x hx
    intro f ih s x hx hs e
    split at hx
    · cases hx
    · next y s1 hy =>
      split at hx
      · next e' hp' => have := hp y; simp [hp', Except.isOk, Except.toBool] at this
      · cases hx; simp
      · exact ih _ _ hx (hI.next hs hy (by simp [Res.fatal])) e
    · cases hx; simp
    · next hy => exact absurd rfl (h hs hy _)
  exact this s (r, s') hn hs e

theorem map_silent {f : Data → Except Err Data} (hf : ∀ x, (f x).isOk) (h : Silent S I) :
    Silent (map f S) I := by
  intro s r s' hs hn e
  simp only [map, mapNext] at hn
  split at hn
  · cases hn
  · next x _ _ =>
    split at hn
    · next e' hp' => have := hf x; simp [hp', Except.isOk, Except.toBool] at this
    · cases hn; simp
  · cases hn; simp
  · next hy => exact absurd rfl (h hs hy _)

theorem map_total {f : Data → Except Err Data} (h : Total S I) : Total (map f S) I := by
  intro s hs
  obtain ⟨r, s', hn⟩ := h hs
  simp only [map, mapNext, hn]
  cases r with
  | yield x => simp only; cases f x <;> exact ⟨_, _, rfl⟩
  | _ => exact ⟨_, _, rfl⟩

theorem shard_silent {idx : Nat} {un : Bool} (hI : Invar S I) (h : Silent S I) :
    Silent (shard idx n un S) I := by
  intro s r s' hs hn e
  simp only [shard, shardNext] at hn
  split at hn
  · exact h hs hn e
  · split at hn
    · cases hn
    · next hi => exact absurd (silent_readUpTo hI h hs hi) (by simp)
    · cases hn; simp
    · next hi =>
      have h1 := inv_readUpTo hI hs hi (by rintro e ⟨⟩)
      split at hn
      · cases hn
      · cases hn; simp
      · next hj => exact absurd rfl (h h1 hj _)
      · next hj =>
        have h2 := hI.next h1 hj (by simp [Res.fatal])
        split at hn
        · cases hn
        · next hk => exact absurd (silent_readUpTo hI h h2 hk) (by simp)
        · split at hn <;> cases hn <;> simp
        · cases hn; simp

theorem shard_total {idx : Nat} {un : Bool} (hI : Invar S I) (h : Total S I) :
    Total (shard idx n un S) I := by
  intro s hs
  simp only [shard, shardNext]
  split
  · exact h hs
  · obtain ⟨b, s1, hb⟩ := total_readUpTo hI h idx [] hs
    obtain ⟨xs, d, o⟩ := b
    rw [hb]
    cases o with
    | some e => exact ⟨_, _, rfl⟩
    | none =>
      have h1 := inv_readUpTo hI hs hb (by rintro e ⟨⟩)
      cases d with
      | true => exact ⟨_, _, rfl⟩
      | false =>
        obtain ⟨r, s2, hn⟩ := h h1
        simp only [hn]
        cases r with
        | eod => exact ⟨_, _, rfl⟩
        | err e => exact ⟨_, _, rfl⟩
        | yield x =>
          have h2 := hI.next h1 hn (by simp [Res.fatal])
          obtain ⟨b, s3, hb⟩ := total_readUpTo hI h (n - idx - 1) [] h2
          obtain ⟨xs, d, o⟩ := b
          simp only [hb]
          cases o with
          | some e => exact ⟨_, _, rfl⟩
          | none =>
            cases d with
            | true => cases un <;> exact ⟨_, _, rfl⟩
            | false => exact ⟨_, _, rfl⟩

theorem bucket_silent {drop : Bool} (hI : Invar S I) (h : Silent S I) :
    Silent (bucket n drop S) I := by
  intro s r s' hs hn e
  simp only [bucket, bucketNext] at hn
  split at hn
  · cases hn
  · next hi => exact absurd (silent_readUpTo hI h hs hi) (by simp)
  · split at hn
    · cases hn; simp
    · split at hn <;> cases hn <;> simp

theorem bucket_total {drop : Bool} (hI : Invar S I) (h : Total S I) :
    Total (bucket n drop S) I := by
  intro s hs
  obtain ⟨b, s1, hb⟩ := total_readUpTo hI h n [] hs
  obtain ⟨xs, d, o⟩ := b
  simp only [bucket, bucketNext, hb]
  cases o with
  | some e => exact ⟨_, _, rfl⟩
  | none =>
    simp only
    split
    · exact ⟨_, _, rfl⟩
    · split <;> exact ⟨_, _, rfl⟩

theorem repeat_silent {num : Option Nat} {rr : Bool} (hI : Invar S I) (h : Silent S I) :
    Silent (repeatSrc num rr S) (fun s => I s.inner) := by
  intro s r s' hs hn e
  have : ∀ s (x : Res × RepeatSt S.σ), repeatLoop S.next S.reset num rr s = some x →
      I s.inner → ∀ e, x.1 ≠ .err e := by
    intro s x hx
    refine repeatLoop.partial_correctness S.next S.reset num rr
      (fun s x => I s.inner → ∀ e, x.1 ≠ .err e) ?_ s x hx
    intro f ih s x hx hs e
    split at hx
    · cases hx
    · cases hx; simp
    · next hy => exact absurd rfl (h hs hy _)
    · next hy =>
      split at hx
      · cases hx; simp
      · split at hx
        · cases hx; simp
        · exact ih _ _ hx (hI.reset _ (hI.next hs hy (by simp [Res.fatal]))) e
  simp only [repeatSrc] at hn
  split at hn
  · cases hn; simp
  · exact this s (r, s') hn hs e

theorem mapPar_silent {f : Data → Data} (hI : Invar S I) (h : Silent S I) :
    Silent (mapPar f n S) (fun s : MapSt S.σ => I s.inner) := by
  intro s r s' hs hn e
  simp only [mapPar, mapParNext] at hn
  split at hn
  · cases hn; simp
  · split at hn
    · cases hn
    · next hi => exact absurd (silent_readUpTo hI h hs hi) (by simp)
    · cases hn; simp
    · cases hn; simp

theorem mapPar_total {f : Data → Data} (hI : Invar S I) (h : Total S I) :
    Total (mapPar f n S) (fun s : MapSt S.σ => I s.inner) := by
  intro s hs
  simp only [mapPar, mapParNext]
  split
  · exact ⟨_, _, rfl⟩
  · obtain ⟨b, s1, hb⟩ := total_readUpTo hI h n [] hs
    obtain ⟨xs, d, o⟩ := b
    rw [hb]
    cases o with
    | some e => exact ⟨_, _, rfl⟩
    | none => cases xs <;> exact ⟨_, _, rfl⟩

theorem shuffleStep_silent {R : Rng} (h : Silent S I) {s s' : ShuffleSt R S.σ} {r : Res}
    (hs : I s.inner) (hn : shuffleStep R S s = some (r, s')) (e : Err) : r ≠ .err e := by
  simp only [shuffleStep, shuffleTake] at hn
  split at hn
  · cases hn; simp
  · split at hn
    · split at hn
      · cases hn
      · next hi => exact absurd rfl (h hs hi _)
      · cases hn; simp
      · cases hn; simp
    · cases hn; simp

theorem shuffleStep_total {R : Rng} (h : Total S I) {s : ShuffleSt R S.σ}
    (hs : I s.inner) : ∃ r s', shuffleStep R S s = some (r, s') := by
  simp only [shuffleStep, shuffleTake]
  split
  · exact ⟨_, _, rfl⟩
  · split
    · obtain ⟨r, s', hn⟩ := h hs
      rw [hn]
      cases r <;> exact ⟨_, _, rfl⟩
    · exact ⟨_, _, rfl⟩

theorem shuffle_silent {R : Rng} {w seed : Nat} (hI : Invar S I) (h : Silent S I) :
    Silent (shuffle R w seed S) (fun s : ShuffleSt R S.σ => s.seed = seed ∧ I s.inner) := by
  intro s r s' hs hn e
  simp only [shuffle, shuffleNext] at hn
  split at hn
  · split at hn
    · cases hn
    · next hi => cases hn; exact h hs.2 hi e
  · split at hn
    · split at hn
      · cases hn
      · next hi => exact absurd (silent_readUpTo hI h hs.2 hi) (by simp)
      · next hi =>
        have h1 := inv_readUpTo hI hs.2 hi (by rintro e ⟨⟩)
        exact shuffleStep_silent (I := I) h h1 hn e
    · exact shuffleStep_silent (I := I) h hs.2 hn e

theorem shuffle_total {R : Rng} {w seed : Nat} (hI : Invar S I) (h : Total S I) :
    Total (shuffle R w seed S) (fun s : ShuffleSt R S.σ => s.seed = seed ∧ I s.inner) := by
  intro s hs
  simp only [shuffle, shuffleNext]
  split
  · obtain ⟨r, s', hn⟩ := h hs.2
    rw [hn]
    exact ⟨_, _, rfl⟩
  · split
    · obtain ⟨b, s1, hb⟩ := total_readUpTo hI h (shuffleWindow w) s.buf hs.2
      obtain ⟨xs, d, o⟩ := b
      rw [hb]
      cases o with
      | some e => exact ⟨_, _, rfl⟩
      | none =>
        have h1 := inv_readUpTo hI hs.2 hb (by rintro e ⟨⟩)
        exact shuffleStep_total (I := I) h h1
    · exact shuffleStep_total (I := I) h hs.2

theorem pipeline_silent {lazy : Bool} {max : Nat} (hinit : I S.init) (h : Silent S I) :
    Silent (pipeline lazy max S) (PipeInv lazy max I) := by
  intro s r s' hs hn e
  have hi : I (s.src.getD S.init) := by
    obtain ⟨-, -, h3⟩ := hs
    cases hsrc : s.src with
    | none => exact hinit
    | some i => rw [hsrc] at h3; exact h3
  simp only [pipeline, pipeNext, hs.1, Bool.false_eq_true, if_false] at hn
  rw [pipeLoop] at hn
  split at hn
  · cases hn
  · cases hn; simp
  · cases hn; simp
  · next hj => exact absurd rfl (h hi hj _)

theorem pipeline_total {lazy : Bool} {max : Nat} (hinit : I S.init) (hq : Silent S I)
    (h : Total S I) : Total (pipeline lazy max S) (PipeInv lazy max I) := by
  intro s hs
  have hi : I (s.src.getD S.init) := by
    obtain ⟨-, -, h3⟩ := hs
    cases hsrc : s.src with
    | none => exact hinit
    | some i => rw [hsrc] at h3; exact h3
  simp only [pipeline, pipeNext, hs.1, Bool.false_eq_true, if_false]
  rw [pipeLoop]
  obtain ⟨r, s', hn⟩ := h hi
  rw [hn]
  cases r with
  | err e => exact absurd rfl (hq hi hn e)
  | _ => exact ⟨_, _, rfl⟩

end

section
variable {n : Nat} {Ss : Fin n → Source} {I : (i : Fin n) → (Ss i).σ → Prop}

theorem concat_silent (hI : ∀ i, Invar (Ss i) (I i)) (h : ∀ i, Silent (Ss i) (I i)) :
    Silent (concat Ss) (fun st => ∀ i, I i (st i)) := by
  intro s r s' hs hn e
  have : ∀ is (st : States Ss) r st', (∀ i, I i (st i)) → concatLoop Ss is st = some (r, st') →
      r ≠ .err e := by
    intro is
    induction is with
    | nil => intro st r st' _ hn; cases hn; simp
    | cons i is ih =>
      intro st r st' hs hn
      simp only [concatLoop] at hn
      split at hn
      · cases hn
      · cases hn; simp
      · next hi => exact absurd rfl (h i (hs i) hi _)
      · next hi => exact ih _ _ _ (upd_all hs ((hI i).next (hs i) hi (by simp [Res.fatal]))) hn
  exact this _ _ _ _ hs hn

theorem concat_total (hI : ∀ i, Invar (Ss i) (I i)) (h : ∀ i, Total (Ss i) (I i)) :
    Total (concat Ss) (fun st => ∀ i, I i (st i)) := by
  intro s hs
  have : ∀ is (st : States Ss), (∀ i, I i (st i)) → ∃ r st', concatLoop Ss is st = some (r, st') := by
    intro is
    induction is with
    | nil => intro st _; exact ⟨_, _, rfl⟩
    | cons i is ih =>
      intro st hs
      obtain ⟨r, s', hn⟩ := h i (hs i)
      simp only [concatLoop, hn]
      cases r with
      | yield x => exact ⟨_, _, rfl⟩
      | err e => exact ⟨_, _, rfl⟩
      | eod => exact ih _ (upd_all hs ((hI i).next (hs i) hn (by simp [Res.fatal])))
  exact this _ _ hs

/-- What a round of `fetch_next` finds when pipelines have ended or are
pseudo-infinite. -/
theorem fetchAll_done (hI : ∀ i, Invar (Ss i) (I i)) (hE : ∀ i, EodFinal (Ss i) (I i))
    (hC : ∀ i, Calm (Ss i) (I i)) {is : List (Fin n)} (hnd : is.Nodup) {st : States Ss}
    (hs : ∀ i, I i (st i)) :
    ∃ fs st₁, fetchAll Ss is st = some (.ok fs, st₁) ∧ (∀ i, I i (st₁ i)) ∧
      (∀ i, i ∉ is → st₁ i = st i) ∧
      ((∀ i ∈ is, (Ss i).finitude = .pseudoInfinite ∨ (Ss i).Ended (st i)) →
        fs.all Fetched.isEod = true) ∧
      (fs.all Fetched.isEod = true →
        ∀ i ∈ is, (Ss i).finitude = .pseudoInfinite ∨ (Ss i).Ended (st₁ i)) := by
  induction is generalizing st with
  | nil => exact ⟨[], st, rfl, hs, fun _ _ => rfl, by simp, by simp⟩
  | cons i is ih =>
    obtain ⟨hni, hnd'⟩ := List.nodup_cons.mp hnd
    obtain ⟨r, s', h1, h2⟩ := hC i (hs i)
    have hf : ¬ r.fatal := by
      cases r with
      | err e => exact absurd rfl (h2 e)
      | _ => simp [Res.fatal]
    have h3 := upd_all hs ((hI i).next (hs i) h1 hf)
    obtain ⟨fs, st₁, h4, h5, h6, h7, h8⟩ := ih hnd' h3
    have hsi : st₁ i = s' := by rw [h6 i hni, upd_same]
    have hout : ∀ j, j ∉ i :: is → st₁ j = st j := by
      intro j hj
      rw [List.mem_cons, not_or] at hj
      rw [h6 j hj.2, upd_ne _ _ hj.1]
    have hrest : (∀ j ∈ i :: is, (Ss j).finitude = .pseudoInfinite ∨ (Ss j).Ended (st j)) →
        fs.all Fetched.isEod = true := by
      intro h
      refine h7 fun j hj => ?_
      have hne : j ≠ i := fun e => hni (e ▸ hj)
      rw [upd_ne _ _ hne]
      exact h j (List.mem_cons_of_mem _ hj)
    cases r with
    | err e => exact absurd rfl (h2 e)
    | eod =>
      refine ⟨.ended :: fs, st₁, by simp [fetchAll, h1, h4], h5, hout, ?_, ?_⟩
      · intro h
        simp [Fetched.isEod, hrest h]
      · intro h j hj
        rw [List.all_cons, Bool.and_eq_true] at h
        rcases List.mem_cons.mp hj with rfl | hj
        · right; rw [hsi]; exact hE j (hs j) h1
        · exact h8 h.2 j hj
    | yield x =>
      refine ⟨(if (Ss i).finitude = .pseudoInfinite then Fetched.pseudo x else .normal x) :: fs,
        st₁, by simp only [fetchAll, h1, h4], h5, hout, ?_, ?_⟩
      · intro h
        rw [List.all_cons, hrest h, Bool.and_true]
        rcases h i (by simp) with h' | h'
        · rw [if_pos h']; rfl
        · obtain ⟨s2, h10, _⟩ := h'.next
          rw [h1] at h10
          cases h10
      · intro h j hj
        rw [List.all_cons, Bool.and_eq_true] at h
        rcases List.mem_cons.mp hj with rfl | hj
        · left
          apply Classical.byContradiction
          intro hp
          rw [if_neg hp] at h
          exact absurd h.1 (by simp [Fetched.isEod])
        · exact h8 h.2 j hj

/-- `zip` that demands equal lengths stays at the end of data. -/
theorem zip_eod_all {names : List String} {fl : Bool} (hI : ∀ i, Invar (Ss i) (I i))
    (hE : ∀ i, EodFinal (Ss i) (I i)) (hC : ∀ i, Calm (Ss i) (I i)) :
    EodFinal (zip Ss names false fl) (fun st => ∀ i, I i (st i)) := by
  intro s s' hs hn
  by_cases hn0 : n = 0
  · refine .coind (fun _ => True) trivial fun t _ => ⟨t, ?_, trivial⟩
    simp only [zip, zipNext]
    rw [if_pos hn0]
  obtain ⟨fs, st₁, h1, h2, h3, h4, h5⟩ := fetchAll_done hI hE hC (List.nodup_finRange n) hs
  have hfirst : (∀ i, I i (s' i)) ∧
      ∀ i, (Ss i).finitude = .pseudoInfinite ∨ (Ss i).Ended (s' i) := by
    simp only [zip, zipNext, h1] at hn
    rw [if_neg hn0] at hn
    split at hn
    · simp only [Bool.false_eq_true, if_false, Option.some.injEq] at hn
      cases hn
    · split at hn
      · next ha => cases hn; exact ⟨h2, fun i => h5 ha i (List.mem_finRange i)⟩
      · split at hn <;> cases hn
  refine .coind (fun st => (∀ i, I i (st i)) ∧
    ∀ i, (Ss i).finitude = .pseudoInfinite ∨ (Ss i).Ended (st i)) hfirst ?_
  rintro t ⟨ht, he⟩
  obtain ⟨fs, st₁, h1, h2, h3, h4, h5⟩ := fetchAll_done hI hE hC (List.nodup_finRange n) ht
  have ha := h4 fun i _ => he i
  refine ⟨st₁, ?_, h2, fun i => h5 ha i (List.mem_finRange i)⟩
  simp only [zip, zipNext, h1, ha]
  rw [if_neg hn0]
  simp

end
end Fs2
