import Verif.Pipeline.PrefetchCtl
import Verif.Pipeline.Quiet

/-!
# prefetch: the queues hold what lies between the caller and the upstream

Helper lemmas for `Verif/Props/Prefetch.lean`.
-/

namespace Fs2.Prefetch

open Source

variable {n : Nat} {S : Source} {I : S.σ → Prop}

/-- Indistinguishable, or both at their end. -/
def Like (S : Source) (a b : S.σ) : Prop := S.Same a b ∨ (S.Ended a ∧ S.Ended b)

theorem Like.refl (a : S.σ) : Like S a a := .inl (Same.refl a)
theorem Like.symm {a b : S.σ} (h : Like S a b) : Like S b a := h.imp Same.symm And.symm
theorem Like.trans {a b c : S.σ} (h : Like S a b) (h' : Like S b c) : Like S a c := by
  rcases h with h | h <;> rcases h' with h' | h'
  · exact .inl (h.trans h')
  · exact .inr ⟨h.symm.ended h'.1, h'.2⟩
  · exact .inr ⟨h.1, h'.ended h.2⟩
  · exact .inr ⟨h.1, h'.2⟩

theorem Like.next {a b b' : S.σ} {r : Res} (h : Like S a b) (hn : S.next b = some (r, b')) :
    ∃ a', S.next a = some (r, a') ∧ Like S a' b' := by
  rcases h with h | ⟨h, h'⟩
  · obtain ⟨a', h1, h2⟩ := h.symm.next hn
    exact ⟨a', h1, .inl h2.symm⟩
  · obtain ⟨a', h1, h2⟩ := h.next
    obtain ⟨b'', h3, h4⟩ := h'.next
    rw [h3] at hn
    cases hn
    exact ⟨a', h1, .inr ⟨h2, h4⟩⟩

theorem Like.emits {a b b' : S.σ} {xs : List Data} (h : Like S a b) (hn : S.Emits b xs b') :
    ∃ a', S.Emits a xs a' ∧ Like S a' b' := by
  induction hn generalizing a with
  | nil => exact ⟨a, .nil a, h⟩
  | cons hn _ ih =>
    obtain ⟨a', h1, h2⟩ := h.next hn
    obtain ⟨a'', h3, h4⟩ := ih h2
    exact ⟨a'', .cons h1 h3, h4⟩

/-- Results read from the upstream that are not in a queue. -/
def Tail (S : Source) (I : S.σ → Prop) (s : St S.σ) (mid : S.σ) : Prop :=
  match s.th with
  | .hand r | .asleep r => ∃ m, S.next mid = some (r, m) ∧ (¬ r.fatal → Like S m s.inner ∧ I s.inner)
  | _ => match s.st with
    | .notRunning | .running => Like S mid s.inner ∧ I s.inner
    | .eod => S.Ended mid ∧ S.Ended s.inner ∧ I s.inner
    | .faulted => ∃ e m, s.exc = some e ∧ S.next mid = some (.err e, m)

/-- The queues of `s` lie between `a`, where the caller believes the upstream to
be, and where it is. -/
structure Rel (n : Nat) (S : Source) (I : S.σ → Prop) (s : St S.σ) (a : S.σ) : Prop where
  zero : n = 0 → s.next = [] ∧ s.fill = [] ∧ s.st = .notRunning
  ia : I a
  mid : ∃ m, S.Emits a (s.next ++ s.fill) m ∧ Tail S I s m

/-- The tape `tp` leads to a state related to `a`. -/
def Good (n : Nat) (S : Source) (I : S.σ → Prop) (tp : Tape) (a : S.σ) : Prop :=
  I a ∧ ∃ f nx t m i, tp = .list f :: .list nx :: t ∧ S.Emits a (nx ++ f) m ∧ Like S m i ∧
    (n = 0 → nx = [] ∧ f = []) ∧ ∀ u, I u → ∃ u' rest, S.reload true u t = .ok (u', rest) ∧ S.Same u' i ∧ I u'

/-- Kept by every call of `next()` that does not fail for good. -/
def Keeps (S : Source) (I : S.σ → Prop) : Prop :=
  ∀ {s r s'}, I s → S.next s = some (r, s') → ¬ r.fatal → I s'

theorem Keeps.emits {s s' : S.σ} {xs : List Data} (hI : Keeps S I) (h : S.Emits s xs s') (hs : I s) :
    I s' := by
  induction h with
  | nil => exact hs
  | cons hn _ ih => exact ih (hI hs hn (by simp [Res.fatal]))

/-- A step in which no call returns keeps the relation. -/
theorem Rel.silent {s s' : St S.σ} {l : Lab} {a : S.σ} (hI : Keeps S I) (hE : EodFinal S I)
    (hc : Ctl n s) (h : Rel n S I s a) (hs : Step n S s l s') (hl : l.shown = []) : Rel n S I s' a := by
  obtain ⟨i, st, th, stop, fill, nx, exc, pc⟩ := s
  obtain ⟨h0, ia, m, he, ht⟩ := h
  simp only at h0
  have hz := hc.zero
  simp only at hz
  cases hs <;> try (simp [Lab.shown] at hl; done)
  case callNext hn hpc hnx =>
    refine ⟨fun h => absurd h hn, ia, m, ?_, ?_⟩
    · cases st <;> cases th <;> exact he
    · cases st <;> cases th <;> first | exact ht | skip
  case sleep => exact ⟨h0, ia, m, he, ht⟩
  case wakeSpurious => exact ⟨h0, ia, m, he, ht⟩
  case swap hpc hst hp =>
    obtain ⟨-, hnx, -⟩ := hc.check hpc
    simp only at hnx
    subst hnx
    exact ⟨fun h => absurd h (hc.check hpc).1, ia, m, by simpa using he, ht⟩
  case read r j hth hst hn =>
    simp only at hth hst
    subst hth hst
    obtain ⟨hlk, hi⟩ := ht
    obtain ⟨m', h1, h2⟩ := hlk.next hn
    exact ⟨h0, ia, m, he, m', h1, fun hf => ⟨h2, hI hi hn hf⟩⟩
  case exit hth hst =>
    simp only at hth
    subst hth
    exact ⟨h0, ia, m, he, ht⟩
  case block r hth _ _ =>
    simp only at hth
    subst hth
    exact ⟨h0, ia, m, he, ht⟩
  case unblockSpurious r hth =>
    simp only at hth
    subst hth
    exact ⟨h0, ia, m, he, ht⟩
  case push r hth hp =>
    simp only at hth
    subst hth
    obtain ⟨hst, hex⟩ := hc.hand r rfl
    simp only at hst hex
    subst hst hex
    obtain ⟨m', h1, h2⟩ := ht
    have hn0 : ¬ n = 0 := fun h => by simpa using hz h
    cases r with
    | yield x =>
      obtain ⟨h2, hi⟩ := h2 (by simp [Res.fatal])
      refine ⟨fun h => absurd h hn0, ia, m', ?_, ?_⟩
      · have := he.snoc h1
        simpa [deliver, errOf] using this
      · cases stop <;> exact ⟨h2, hi⟩
    | eod =>
      obtain ⟨h2, hi⟩ := h2 (by simp [Res.fatal])
      have hm := hE (hI.emits he ia) h1
      refine ⟨fun h => absurd h hn0, ia, m, he, Ended.of_next h1 hm, ?_, hi⟩
      rcases h2 with h2 | h2
      · exact h2.ended hm
      · exact h2.2
    | err e => exact ⟨fun h => absurd h hn0, ia, m, he, e, m', rfl, h1⟩
  case notify hth =>
    simp only at hth
    subst hth
    exact ⟨h0, ia, m, he, ht⟩
  case callOther => exact ⟨h0, ia, m, he, ht⟩
  case callStop => exact ⟨h0, ia, m, he, ht⟩
  case stopNotify hpc =>
    refine ⟨h0, ia, m, he, ?_⟩
    cases th <;> exact ht
  case join hpc hth =>
    simp only at hth
    subst hth
    exact ⟨h0, ia, m, he, ht⟩

/-- What holds of the upstream. -/
structure Laws (S : Source) (I : S.σ → Prop) : Prop where
  keeps : Keeps S I
  start : I S.init
  eod : EodFinal S I
  quiet : Silent S I

theorem Rel.unfaulted {s : St S.σ} {a : S.σ} (hL : Laws S I) (hc : Ctl n s) (h : Rel n S I s a)
    : s.st ≠ .faulted := by
  intro hst
  obtain ⟨h0, ia, m, he, ht⟩ := h
  obtain ⟨i, st, th, stop, fill, nx, exc, pc⟩ := s
  simp only at hst
  subst hst
  have key : ∃ e m', S.next m = some (.err e, m') := by
    cases th with
    | hand r => exact absurd (hc.hand r rfl).1 (by simp)
    | asleep r => exact absurd (hc.asleep r rfl).1 (by simp)
    | _ =>
      obtain ⟨e, m', -, h⟩ := ht
      exact ⟨e, m', h⟩
  obtain ⟨e, m', hn⟩ := key
  exact hL.quiet (Keeps.emits hL.keeps he ia) hn e rfl

theorem good_load {s : St S.σ} {a : S.σ} {tp : Tape} (hg : Good n S I tp a) (hi : I s.inner) :
    ∃ f nx t u rest, tp = .list f :: .list nx :: t ∧ S.reload true s.inner t = .ok (u, rest) ∧
      ∀ th, (∀ r, th ≠ .hand r ∧ th ≠ .asleep r) → ∀ stop exc pc,
        Rel n S I ⟨u, .notRunning, th, stop, f, nx, exc, pc⟩ a := by
  obtain ⟨ia, f, nx, t, m, i, rfl, he, hlk, h0, hr⟩ := hg
  obtain ⟨u, rest, h1, h2, h3⟩ := hr s.inner hi
  refine ⟨f, nx, t, u, rest, rfl, h1, fun th hth stop exc pc =>
    ⟨fun h => ⟨(h0 h).1, (h0 h).2, rfl⟩, ia, m, he, ?_⟩⟩
  have : Like S m u ∧ I u := ⟨hlk.trans (.inl h2.symm), h3⟩
  cases th with
  | hand r => exact absurd rfl (hth r).1
  | asleep r => exact absurd rfl (hth r).2
  | _ => exact this

/-- A stopped thread leaves the upstream in a known state. -/
theorem Rel.inner {s : St S.σ} {a : S.σ} (hL : Laws S I) (hc : Ctl n s) (h : Rel n S I s a)
    (hth : s.th = .none) : I s.inner := by
  have hf := h.unfaulted hL hc
  obtain ⟨h0, ia, m, he, ht⟩ := h
  obtain ⟨i, st, th, stop, fill, nx, exc, pc⟩ := s
  simp only at hth hf
  subst hth
  cases st with
  | faulted => exact absurd rfl hf
  | eod => exact ht.2.2
  | _ => exact ht.2

/-- A returning call answers as the upstream would. -/
theorem Rel.answer {s s' : St S.σ} {q : Request} {ans : Answer} {a : S.σ} (hL : Laws S I)
    (hc : Ctl n s) (h : Rel n S I s a) (hs : Step n S s (.ret q ans) s')
    (hreset : ∀ b, q = .reset b → ∀ s, I s → I (S.reset b s) ∧ S.Same (S.reset b s) S.init)
    (hload : ∀ tp, q = .load tp → ∃ a', Good n S I tp a') :
    (∃ r a', q = .next ∧ ans = .res r ∧ S.next a = some (r, a') ∧ Rel n S I s' a') ∨
    (∃ b, q = .reset b ∧ ans = .done ∧ Rel n S I s' (S.reset b a)) ∨
    (q = .save ∧ Rel n S I s' a ∧ ((∀ s t, I s → I t → Resumes S I s t) →
      ∃ tp, ans = .saved tp ∧ Good n S I tp a)) ∨
    (∃ tp, q = .load tp ∧ ans = .done ∧ ∀ a', Good n S I tp a' → Rel n S I s' a') := by
  have hf := h.unfaulted hL hc
  have hin := h.inner hL hc
  obtain ⟨i, st, th, stop, fill, nx, exc, pc⟩ := s
  obtain ⟨h0, ia, m, he, ht⟩ := h
  cases hs
  case direct r j hn hpc hnx =>
    obtain ⟨h1, h2, h3⟩ := h0 hn
    have hth := hc.zero hn
    simp only at h1 h2 h3 hth
    subst h1 h2 h3 hth
    cases Emits.nil_inv he
    obtain ⟨a', h4, h5⟩ := ht.1.next hnx
    have hnf : ¬ r.fatal := by
      cases r with
      | err e => exact absurd rfl (hL.quiet ia h4 e)
      | _ => simp [Res.fatal]
    exact .inl ⟨r, a', rfl, rfl, h4, fun _ => ⟨rfl, rfl, rfl⟩, hL.keeps ia h4 hnf, a', .nil _,
      h5, hL.keeps ht.2 hnx hnf⟩
  case pop x xs hn hpc hnx =>
    simp only at hnx
    subst hnx
    obtain ⟨a', h1, h2⟩ := Emits.cons_inv he
    exact .inl ⟨_, a', rfl, rfl, h1, fun h => absurd h hn,
      hL.keeps ia h1 (by simp [Res.fatal]), m, h2, ht⟩
  case rethrow e hpc hst hex => exact absurd hst hf
  case retNext hpc =>
    have ht' : Tail S I ⟨i, st, notifyFill th, stop, fill, nx.tail, exc, PC.idle⟩ m := by
      cases th <;> exact ht
    cases nx with
    | cons x xs =>
      obtain ⟨a', h1, h2⟩ := Emits.cons_inv he
      exact .inl ⟨_, a', rfl, rfl, h1, fun h => absurd h (hc.wake hpc).1,
        hL.keeps ia h1 (by simp [Res.fatal]), m, h2, ht'⟩
    | nil =>
      obtain ⟨h1, h2⟩ := (hc.wake hpc).2 rfl
      simp only at h1 h2
      subst h1 h2
      have hm : m = a := Emits.nil_inv he
      subst hm
      have hth : ∀ r, th ≠ .hand r ∧ th ≠ .asleep r := fun r =>
        ⟨fun h => by have := (hc.hand r h).1; simp at this,
         fun h => by have := (hc.asleep r h).1; simp at this⟩
      have key : S.Ended m ∧ S.Ended i ∧ I i := by
        cases th with
        | hand r => exact absurd rfl (hth r).1
        | asleep r => exact absurd rfl (hth r).2
        | _ => exact ht
      obtain ⟨a', h3, h4⟩ := key.1.next
      refine .inl ⟨_, a', rfl, rfl, h3, fun h => absurd h (hc.wake hpc).1,
        hL.keeps ia h3 (by simp [Res.fatal]), a', .nil _, ?_⟩
      have key' : S.Ended a' ∧ S.Ended i ∧ I i := ⟨h4, key.2⟩
      cases th with
      | hand r => exact absurd rfl (hth r).1
      | asleep r => exact absurd rfl (hth r).2
      | _ => exact key'
  case fault => exact absurd (by assumption) hf
  case reset b hpc hst =>
    have hth := hc.finish _ hpc
    simp only at hth
    subst hth
    have hi := hin rfl
    refine .inr (.inl ⟨b, rfl, rfl, fun _ => ⟨rfl, rfl, rfl⟩, (hreset b rfl a ia).1, _, .nil _, ?_⟩)
    exact ⟨.inl ((hreset b rfl a ia).2.trans (hreset b rfl i hi).2.symm), (hreset b rfl i hi).1⟩
  case save t hpc hst hr =>
    have hth := hc.finish _ hpc
    simp only at hth
    subst hth
    have hi := hin rfl
    refine .inr (.inr (.inl ⟨rfl, ⟨h0, ia, m, he, ht⟩, fun hres => ⟨_, rfl, ia, fill, nx, t, m, i, rfl,
      he, ?_, fun h => ⟨(h0 h).1, (h0 h).2.1⟩, ?_⟩⟩))
    · cases st with
      | faulted => exact absurd rfl hf
      | eod => exact .inr ⟨ht.1, ht.2.1⟩
      | _ => exact ht.1
    · intro u hu
      obtain ⟨tp, h1, h2⟩ := hres _ _ hi hu
      simp only at hr
      rw [hr] at h1
      cases h1
      obtain ⟨u', h3, h4, h5⟩ := h2 []
      rw [List.append_nil] at h3
      exact ⟨u', [], h3, h4, h5⟩
  case saveErr e hpc hst hr =>
    have hth := hc.finish _ hpc
    simp only at hth
    subst hth
    refine .inr (.inr (.inl ⟨rfl, ⟨h0, ia, m, he, ht⟩, fun hres => ?_⟩))
    obtain ⟨tp, h1, -⟩ := hres _ _ (hin rfl) (hin rfl)
    simp only at hr
    simp [hr] at h1
  case load f nx' t u rest hpc hst hr =>
    have hth := hc.finish _ hpc
    simp only at hth
    subst hth
    refine .inr (.inr (.inr ⟨_, rfl, rfl, fun a' hg => ?_⟩))
    obtain ⟨f', nx'', t', u', rest', h1, h2, h3⟩ := good_load (s := ⟨i, st, .none, stop, fill, nx, exc, pc⟩) hg (hin rfl)
    cases h1
    simp only at hr h2
    rw [hr] at h2
    cases h2
    exact h3 _ (by simp) _ _ _
  case loadErr f nx' t e hpc hst hr =>
    have hth := hc.finish _ hpc
    simp only at hth
    subst hth
    obtain ⟨a', hg⟩ := hload _ rfl
    obtain ⟨f', nx'', t', u', rest', h1, h2, h3⟩ := good_load (s := ⟨i, st, .none, stop, fill, nx, exc, pc⟩) hg (hin rfl)
    cases h1
    simp only at hr h2
    simp [hr] at h2
  case loadCorrupt tp hpc hst hr =>
    obtain ⟨a', -, f, nx, t, m, i, rfl, -⟩ := hload _ rfl
    exact absurd rfl (hr _ _ _)

/-- Every execution answers as the upstream would. -/
theorem follows {s s' : St S.σ} {evs : List Event} {a : S.σ} {sv : List (Tape × S.σ)}
    (hL : Laws S I) (hres : ∀ s t, I s → I t → Resumes S I s t) (h : Exec n S s evs s') (hc : Ctl n s) (hr : Rel n S I s a)
    (hsv : ∀ p ∈ sv, Good n S I p.1 p.2)
    (hreset : ∀ b ans, (Request.reset b, ans) ∈ evs →
      ∀ s, I s → I (S.reset b s) ∧ S.Same (S.reset b s) S.init)
    (hload : ∀ tp ans pre post, evs = pre ++ (Request.load tp, ans) :: post →
      (∃ a, (tp, a) ∈ sv) ∨ (Request.save, Answer.saved tp) ∈ pre) :
    Follows S sv a evs := by
  induction h generalizing a sv with
  | nil => exact .nil
  | @step s l s' evs s'' hs he ih =>
    cases l with
    | tau => exact ih (hc.step hs) (hr.silent hL.keeps hL.eod hc hs rfl) hsv hreset hload
    | spurious => exact ih (hc.step hs) (hr.silent hL.keeps hL.eod hc hs rfl) hsv hreset hload
    | call q => exact ih (hc.step hs) (hr.silent hL.keeps hL.eod hc hs rfl) hsv hreset hload
    | ret q ans =>
      have hreset' : ∀ b ans, (Request.reset b, ans) ∈ evs →
      ∀ s, I s → I (S.reset b s) ∧ S.Same (S.reset b s) S.init :=
        fun b ans h => hreset b ans (by simp [Lab.shown, h])
      have hload' : ∀ tp ans' pre post, evs = pre ++ (Request.load tp, ans') :: post →
          (∃ a, (tp, a) ∈ sv) ∨ (Request.save, Answer.saved tp) ∈ (q, ans) :: pre :=
        fun tp ans' pre post h => hload tp ans' ((q, ans) :: pre) post (by simp [Lab.shown, h])
      rcases hr.answer hL hc hs
        (fun b hb => hreset b ans (by simp [Lab.shown, hb]))
        (fun tp hq => by
          rcases hload tp ans [] evs (by simp [Lab.shown, hq]) with ⟨a, ha⟩ | h
          · exact ⟨a, hsv _ ha⟩
          · simp at h) with
        ⟨r, a', rfl, rfl, hn, hr'⟩ | ⟨b, rfl, rfl, hr'⟩ | ⟨rfl, hr', hsave⟩ | ⟨tp, rfl, rfl, hr'⟩
      · exact .next hn (ih (hc.step hs) hr' hsv hreset'
          (fun tp ans pre post h => (hload' tp ans pre post h).imp id (by simp)))
      · exact .reset (ih (hc.step hs) hr' hsv hreset'
          (fun tp ans pre post h => (hload' tp ans pre post h).imp id (by simp)))
      · obtain ⟨tp, rfl, hg⟩ := hsave hres
        refine .save (ih (hc.step hs) hr' ?_ hreset' ?_)
        · intro p hp
          rcases List.mem_cons.1 hp with rfl | hp
          · exact hg
          · exact hsv p hp
        · intro tp' ans' pre post h
          rcases hload' tp' ans' pre post h with ⟨a, ha⟩ | h
          · exact .inl ⟨a, List.mem_cons_of_mem _ ha⟩
          · rcases List.mem_cons.1 h with h | h
            · cases h
              exact .inl ⟨_, List.mem_cons_self⟩
            · exact .inr h
      · rcases hload tp .done [] evs (by simp [Lab.shown]) with ⟨a', ha⟩ | h
        · exact .load ha (ih (hc.step hs) (hr' a' (hsv _ ha)) hsv hreset'
            (fun tp ans pre post h => (hload' tp ans pre post h).imp id (by simp)))
        · simp at h

/-- Results of `next()`. -/
def results : List Event → List Res
  | [] => []
  | (.next, .res r) :: evs => r :: results evs
  | _ :: evs => results evs

/-- Without loads and resets: the results are those of the upstream. -/
theorem follows_reads {s s' : St S.σ} {evs : List Event} {a : S.σ}
    (hL : Laws S I) (h : Exec n S s evs s') (hc : Ctl n s) (hr : Rel n S I s a)
    (hev : ∀ ev ∈ evs, ev.1 = .next ∨ ev.1 = .save) :
    ∃ a', S.Calls a (results evs) a' ∧ Ctl n s' ∧ Rel n S I s' a' := by
  induction h generalizing a with
  | nil => exact ⟨a, .nil a, hc, hr⟩
  | @step s l s' evs s'' hs he ih =>
    cases l with
    | tau => exact ih (hc.step hs) (hr.silent hL.keeps hL.eod hc hs rfl) hev
    | spurious => exact ih (hc.step hs) (hr.silent hL.keeps hL.eod hc hs rfl) hev
    | call q => exact ih (hc.step hs) (hr.silent hL.keeps hL.eod hc hs rfl) hev
    | ret q ans =>
      have hq := hev (q, ans) (by simp [Lab.shown])
      have hev' : ∀ ev ∈ evs, ev.1 = .next ∨ ev.1 = .save :=
        fun ev h => hev ev (by simp [Lab.shown, h])
      rcases hr.answer hL hc hs (fun b hb => by simp [hb] at hq) (fun tp hb => by simp [hb] at hq)
        with ⟨r, a', rfl, rfl, hn, hr'⟩ | ⟨b, rfl, rfl, hr'⟩ | ⟨rfl, hr', -⟩ | ⟨tp, rfl, rfl, hr'⟩
      · obtain ⟨a'', h, h'⟩ := ih (hc.step hs) hr' hev'
        exact ⟨a'', .cons hn h, h'⟩
      · simp at hq
      · obtain ⟨a'', h, h'⟩ := ih (hc.step hs) hr' hev'
        refine ⟨a'', ?_, h'⟩
        cases ans <;> exact h
      · simp at hq

/-- The first event of an execution. -/
theorem exec_cons {s s' : St S.σ} {q : Request} {ans : Answer} {evs : List Event} {a : S.σ}
    (hL : Laws S I) (h : Exec n S s ((q, ans) :: evs) s') (hc : Ctl n s) (hr : Rel n S I s a) :
    ∃ t t', Ctl n t ∧ Rel n S I t a ∧ Step n S t (.ret q ans) t' ∧ Exec n S t' evs s' := by
  generalize hl : (q, ans) :: evs = l at h
  induction h with
  | nil => cases hl
  | @step s l s' evs' s'' hs he ih =>
    cases l with
    | tau => exact ih (hc.step hs) (hr.silent hL.keeps hL.eod hc hs rfl) hl
    | spurious => exact ih (hc.step hs) (hr.silent hL.keeps hL.eod hc hs rfl) hl
    | call q => exact ih (hc.step hs) (hr.silent hL.keeps hL.eod hc hs rfl) hl
    | ret q' a' =>
      cases hl
      exact ⟨s, s', hc, hr, hs, he⟩

theorem exec_split {s s'' : St S.σ} {e₁ e₂ : List Event} (h : Exec n S s (e₁ ++ e₂) s'') :
    ∃ s', Exec n S s e₁ s' ∧ Exec n S s' e₂ s'' := by
  generalize hl : e₁ ++ e₂ = l at h
  induction h generalizing e₁ with
  | nil s =>
    obtain ⟨rfl, rfl⟩ := List.append_eq_nil_iff.1 hl
    exact ⟨s, .nil s, .nil s⟩
  | @step s l s' evs' s'' hs he ih =>
    cases e₁ with
    | nil => exact ⟨s, .nil s, by simp only [List.nil_append] at hl; subst hl; exact .step hs he⟩
    | cons ev e₁ =>
      cases l with
      | tau =>
        obtain ⟨t, h1, h2⟩ := ih (e₁ := ev :: e₁) hl
        exact ⟨t, .step (l := .tau) hs h1, h2⟩
      | spurious =>
        obtain ⟨t, h1, h2⟩ := ih (e₁ := ev :: e₁) hl
        exact ⟨t, .step (l := .spurious) hs h1, h2⟩
      | call q =>
        obtain ⟨t, h1, h2⟩ := ih (e₁ := ev :: e₁) hl
        exact ⟨t, .step (l := .call q) hs h1, h2⟩
      | ret q a =>
        simp only [Lab.shown, List.cons_append, List.nil_append, List.cons.injEq] at hl
        obtain ⟨rfl, hl⟩ := hl
        obtain ⟨t, h1, h2⟩ := ih hl
        exact ⟨t, .step (l := .ret q a) hs h1, h2⟩

theorem rel_init (hL : Laws S I) : Rel n S I (init S) S.init :=
  ⟨fun _ => ⟨rfl, rfl, rfl⟩, hL.start, S.init, .nil _, Like.refl _, hL.start⟩

theorem ctl_exec {s s' : St S.σ} {evs : List Event} (h : Exec n S s evs s') (hc : Ctl n s) :
    Ctl n s' := by
  induction h with
  | nil => exact hc
  | step hs _ ih => exact ih (hc.step hs)

/-! ## When the upstream raises an exception -/

/-- The exception `e` has reached the caller. -/
structure Faulted (e : Err) (s : St S.σ) : Prop where
  st : s.st = .faulted
  exc : s.exc = some e
  next : s.next = []

theorem Faulted.step {s s' : St S.σ} {l : Lab} {e : Err} (hn : n ≠ 0) (hc : Ctl n s)
    (h : Faulted e s) (hs : Step n S s l s') :
    Faulted e s' ∧ ∀ q a, l = .ret q a → a = if q.isNext then .res (.err e) else .failed e := by
  obtain ⟨i, st, th, stop, fill, nx, exc, pc⟩ := s
  obtain ⟨h1, h2, h3⟩ := h
  simp only at h1 h2 h3
  subst h1 h2 h3
  cases hs
  case direct => contradiction
  case pop h => simp at h
  case callNext => exact ⟨⟨rfl, rfl, rfl⟩, by simp⟩
  case rethrow e' _ _ h =>
    cases h
    exact ⟨⟨rfl, rfl, rfl⟩, by intro q a h; cases h; simp [Request.isNext]⟩
  case retNext hpc => simpa using ((hc.wake hpc).2 rfl).2
  case push r hth _ => simpa using (hc.hand r hth).1
  case fault e' hpc _ h =>
    have := hc.next_q _ (.inr (.inr hpc))
    cases h
    refine ⟨⟨rfl, rfl, rfl⟩, ?_⟩
    intro q a h
    cases h
    simp [this]
  all_goals first
    | (exfalso; simp_all; done)
    | (exact ⟨⟨rfl, rfl, rfl⟩, by simp⟩)

theorem Rel.next_any {s s' : St S.σ} {ans : Answer} {a : S.σ} (hn : n ≠ 0) (hI : Keeps S I)
    (hc : Ctl n s) (h : Rel n S I s a) (hs : Step n S s (.ret .next ans) s') :
    (∃ r a', ans = .res r ∧ S.next a = some (r, a') ∧ (∀ e, r ≠ .err e) ∧ Rel n S I s' a') ∨
    (∃ lost m e m', ans = .res (.err e) ∧ S.Emits a lost m ∧ S.next m = some (.err e, m') ∧
      Faulted e s') := by
  obtain ⟨i, st, th, stop, fill, nx, exc, pc⟩ := s
  obtain ⟨h0, ia, m, he, ht⟩ := h
  generalize hl : Lab.ret .next ans = l at hs
  cases hs <;> cases hl
  case direct => contradiction
  case pop x xs hn hpc hnx =>
    simp only at hnx
    subst hnx
    obtain ⟨a', h1, h2⟩ := Emits.cons_inv he
    exact .inl ⟨_, a', rfl, h1, by simp, fun h => absurd h hn,
      hI ia h1 (by simp [Res.fatal]), m, h2, ht⟩
  case rethrow e hpc hst hex =>
    have hnx := (hc.check hpc).2.1
    simp only at hst hex hnx
    subst hst hex hnx
    refine .inr ?_
    have key : ∃ m', S.next m = some (.err e, m') := by
      cases th with
      | hand r => exact absurd (hc.hand r rfl).1 (by simp)
      | asleep r => exact absurd (hc.asleep r rfl).1 (by simp)
      | _ =>
        obtain ⟨e', m', h, h'⟩ := ht
        cases h
        exact ⟨m', h'⟩
    obtain ⟨m', hm⟩ := key
    exact ⟨_, m, e, m', rfl, he, hm, rfl, rfl, rfl⟩
  case retNext hpc =>
    have ht' : Tail S I ⟨i, st, notifyFill th, stop, fill, nx.tail, exc, PC.idle⟩ m := by
      cases th <;> exact ht
    cases nx with
    | cons x xs =>
      obtain ⟨a', h1, h2⟩ := Emits.cons_inv he
      exact .inl ⟨_, a', rfl, h1, by simp [front], fun h => absurd h (hc.wake hpc).1,
        hI ia h1 (by simp [Res.fatal]), m, h2, ht'⟩
    | nil =>
      obtain ⟨h1, h2⟩ := (hc.wake hpc).2 rfl
      simp only at h1 h2
      subst h1 h2
      have hm : m = a := Emits.nil_inv he
      subst hm
      have hth : ∀ r, th ≠ .hand r ∧ th ≠ .asleep r := fun r =>
        ⟨fun h => by have := (hc.hand r h).1; simp at this,
         fun h => by have := (hc.asleep r h).1; simp at this⟩
      have key : S.Ended m ∧ S.Ended i ∧ I i := by
        cases th with
        | hand r => exact absurd rfl (hth r).1
        | asleep r => exact absurd rfl (hth r).2
        | _ => exact ht
      obtain ⟨a', h3, h4⟩ := key.1.next
      refine .inl ⟨_, a', rfl, h3, by simp [front], fun h => absurd h (hc.wake hpc).1,
        hI ia h3 (by simp [Res.fatal]), a', .nil _, ?_⟩
      have key' : S.Ended a' ∧ S.Ended i ∧ I i := ⟨h4, key.2⟩
      cases th with
      | hand r => exact absurd rfl (hth r).1
      | asleep r => exact absurd rfl (hth r).2
      | _ => exact key'
  case fault =>
    have hpc : pc = .finish .next := by assumption
    simpa [Request.isNext] using hc.next_q _ (.inr (.inr hpc))

theorem faulted_exec {s s' : St S.σ} {evs : List Event} {e : Err} (hn : n ≠ 0) (hc : Ctl n s)
    (h : Faulted e s) (hx : Exec n S s evs s') :
    ∀ ev ∈ evs, ev.2 = if ev.1.isNext then .res (.err e) else .failed e := by
  induction hx with
  | nil => simp
  | @step s l s' evs s'' hs _ ih =>
    obtain ⟨h1, h2⟩ := h.step hn hc hs
    intro ev hev
    rcases List.mem_append.1 hev with hev | hev
    · cases l with
      | ret q a =>
        simp only [Lab.shown, List.mem_singleton] at hev
        subst hev
        exact h2 q a rfl
      | _ => simp [Lab.shown] at hev
    · exact ih (hc.step hs) h1 ev hev

end Fs2.Prefetch
