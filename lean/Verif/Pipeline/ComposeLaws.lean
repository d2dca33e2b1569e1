import Verif.Pipeline.Compose
import Verif.Pipeline.Quiet
import Verif.Pipeline.Closing

/-! # The laws of composed pipelines, by induction on the composition -/

namespace Fs2
open Source

namespace Pipe
variable (R : Rng)

/-- The invariant of a pipeline inside another one. -/
def SubInv (max : Nat) (quiet : Prop) {S : Source} (I : S.σ → Prop) : PipeSt S.σ → Prop :=
  PipeInvQ false max quiet I

/-- The invariant of a composition: what holds of every state reached from a fresh
one, as long as no call broke the pipeline. -/
def Inv : (p : Pipe) → (p.denote R).σ → Prop
  | list xs => fun p : Nat => p ≤ xs.length
  | count .. => fun _ => True
  | constant .. => fun _ => True
  | take _ p => fun s => p.Inv s.2
  | skip _ p => fun s => p.Inv s.2
  | filter _ p => p.Inv
  | map _ p => p.Inv
  | mapParallel _ _ p => fun s : MapSt (p.denote R).σ => p.Inv s.inner
  | shard _ _ _ p => p.Inv
  | bucket _ _ p => p.Inv
  | bucketByLength c p => BblInv c p.Inv
  | dynamicBucket c p => DynInvQ c ((∀ x, (c.cost x).isOk) ∧ p.Quiet) p.Inv
  | again _ _ p => fun s => p.Inv s.inner
  | shuffle _ seed p => fun s : ShuffleSt R (p.denote R).σ => s.seed = seed ∧ p.Inv s.inner
  | pack _ p => fun s : PackSt (p.denote R).σ => p.Inv s.inner
  | yieldFrom err max fn p =>
    YieldInvQ ⟨fun x => pipeline false (max x) ((fn x).denote R), err⟩
      (∀ x, err x = none ∧ ((fn x).denote R).finitude = .finite) p.Inv
      fun x => SubInv (max x) (fn x).Quiet (fn x).Inv
  | concat _ max ps => fun st => ∀ i, SubInv (max i) (ps i).Quiet (ps i).Inv (st i)
  | zip _ max ps _ _ _ => fun st => ∀ i, SubInv (max i) (ps i).Quiet (ps i).Inv (st i)
  | roundRobin _ max ps sh _ => RrInv sh fun i => SubInv (max i) (ps i).Quiet (ps i).Inv
  | sample _ max ps ws seed rp =>
    SampleInv ws seed rp fun i => SubInv (max i) (ps i).Quiet (ps i).Inv

structure Laws (p : Pipe) : Prop where
  inv : Invar (p.denote R) (p.Inv R)
  init : p.Inv R (p.denote R).init
  resumes : ∀ {s t}, p.Inv R s → p.Inv R t → p.Fits R s t → Resumes (p.denote R) (p.Inv R) s t
  fresh : p.LoadsFresh R → ∀ {s}, p.Inv R s → p.Fits R s (p.denote R).init
  anywhere : p.LoadsFresh R → p.NoPack → ∀ {s t}, p.Inv R s → p.Inv R t → p.Fits R s t
  eod : p.EndsForGood → EodFinal (p.denote R) (p.Inv R)
  rewinds : ∀ {s}, p.Inv R s → p.Clean R s → Rewinds (p.denote R) s
  tidy : p.Tidy → ∀ {s}, p.Inv R s → p.Clean R s
  restarts : Restarts (p.denote R)
  silent : p.Quiet → Silent (p.denote R) (p.Inv R)
  total : p.Quiet → p.Prompt → Total (p.denote R) (p.Inv R)

variable {R} {p : Pipe} {max : Nat}

theorem Laws.subInv (L : p.Laws R) :
    Invar (pipeline false max (p.denote R)) (SubInv max p.Quiet (p.Inv R)) :=
  pipeline_invQ L.inv L.init L.silent

theorem Laws.subInit (L : p.Laws R) :
    SubInv max p.Quiet (p.Inv R) (pipeline false max (p.denote R)).init :=
  ⟨⟨rfl, Nat.zero_le _, L.init⟩, fun _ => rfl⟩

theorem SubInv.some {q : Prop} {S : Source} {I : S.σ → Prop} {s : PipeSt S.σ}
    (h : SubInv max q I s) : ∃ i, s.src = some i ∧ I i := by
  obtain ⟨⟨_, _, h⟩, _⟩ := h
  obtain ⟨a, w, k⟩ := s
  cases a with
  | none => simp at h
  | some i => exact ⟨i, rfl, h⟩

theorem SubInv.warnings {q : Prop} {S : Source} {I : S.σ → Prop} {s : PipeSt S.σ}
    (h : SubInv max q I s) (hm : max = 0 ∨ q) : s.warnings = 0 := by
  rcases hm with hm | hm
  · have := h.1.2.1; omega
  · exact h.2 hm

theorem Laws.subResumes (L : p.Laws R) {s t : PipeSt (p.denote R).σ}
    (hs : SubInv max p.Quiet (p.Inv R) s) (ht : SubInv max p.Quiet (p.Inv R) t)
    (hf : PipeFits (p.Fits R) (p.denote R).init s t) :
    Resumes (pipeline false max (p.denote R)) (SubInv max p.Quiet (p.Inv R)) s t := by
  refine pipeline_resumesQ hs ht hf.1 hf.2.1 fun i hi => ?_
  obtain ⟨i', hi', hI⟩ := hs.some
  obtain ⟨j, hj, hJ⟩ := ht.some
  have := hf.2.2 i hi
  rw [hi'] at hi; cases hi
  rw [hj] at this ⊢
  exact L.resumes hI hJ this

theorem Laws.subFresh (L : p.Laws R) (hm : max = 0 ∨ p.Quiet) (hl : p.LoadsFresh R)
    {s : PipeSt (p.denote R).σ} (hs : SubInv max p.Quiet (p.Inv R) s) :
    PipeFits (p.Fits R) (p.denote R).init s (pipeline false max (p.denote R)).init := by
  obtain ⟨i, hi, hI⟩ := hs.some
  refine ⟨hs.warnings hm, fun h => (by rw [hi] at h; cases h), fun j hj => ?_⟩
  rw [hi] at hj; cases hj
  exact L.fresh hl hI

theorem Laws.subAnywhere (L : p.Laws R) (hm : max = 0 ∨ p.Quiet) (hl : p.LoadsFresh R)
    (hp : p.NoPack) {s t : PipeSt (p.denote R).σ} (hs : SubInv max p.Quiet (p.Inv R) s)
    (ht : SubInv max p.Quiet (p.Inv R) t) : PipeFits (p.Fits R) (p.denote R).init s t := by
  obtain ⟨i, hi, hI⟩ := hs.some
  obtain ⟨j, hj, hJ⟩ := ht.some
  refine ⟨(hs.warnings hm).trans (ht.warnings hm).symm, fun h => (by rw [hi] at h; cases h),
    fun k hk => ?_⟩
  rw [hi] at hk; cases hk
  rw [hj]
  exact L.anywhere hl hp hI hJ

theorem Laws.subEod (L : p.Laws R) (h : p.EndsForGood) :
    EodFinal (pipeline false max (p.denote R)) (SubInv max p.Quiet (p.Inv R)) :=
  fun hs hn => pipeline_eod L.inv L.init (L.eod h) hs.1 hn

theorem Laws.subRewinds (L : p.Laws R) {s : PipeSt (p.denote R).σ}
    (hs : SubInv max p.Quiet (p.Inv R) s)
    (h : s.warnings = 0 ∧ ∀ j, s.src = some j → p.Clean R j) :
    Rewinds (pipeline false max (p.denote R)) s := by
  obtain ⟨i, hi, hI⟩ := hs.some
  refine pipeline_rewinds hs.1.1 h.1 (fun h => (by rw [hi] at h; cases h)) L.restarts fun j hj => ?_
  have := h.2 j hj
  rw [hi] at hj; cases hj
  exact L.rewinds hI this

theorem Laws.subTidy (L : p.Laws R) (h : (max = 0 ∨ p.Quiet) ∧ p.Tidy)
    {s : PipeSt (p.denote R).σ} (hs : SubInv max p.Quiet (p.Inv R) s) :
    s.warnings = 0 ∧ ∀ j, s.src = some j → p.Clean R j := by
  obtain ⟨i, hi, hI⟩ := hs.some
  refine ⟨hs.warnings h.1, fun j hj => ?_⟩
  rw [hi] at hj; cases hj
  exact L.tidy h.2 hI

theorem Laws.subSilent (L : p.Laws R) (h : p.Quiet) :
    Silent (pipeline false max (p.denote R)) (SubInv max p.Quiet (p.Inv R)) :=
  fun hs hn => pipeline_silent L.init (L.silent h) hs.1 hn

theorem Laws.subTotal (L : p.Laws R) (h : p.Quiet) (h' : p.Prompt) :
    Total (pipeline false max (p.denote R)) (SubInv max p.Quiet (p.Inv R)) :=
  fun hs => pipeline_total L.init (L.silent h) (L.total h h') hs.1

theorem repeat_restarts {S : Source} {num rr} (h : Restarts S) : Restarts (repeatSrc num rr S) :=
  fun b => repeat_isSim.same ⟨rfl, rfl, h b⟩

variable (R)

theorem laws : (p : Pipe) → p.Accepted R → p.Laws R
  | list xs, _ =>
    { inv := listSource_inv xs
      init := Nat.zero_le _
      resumes := fun hs _ _ => listSource_resumes xs hs
      fresh := fun _ _ _ => trivial
      anywhere := fun _ _ _ _ _ _ => trivial
      eod := fun _ => listSource_eod xs _
      rewinds := fun _ _ => listSource_rewinds xs _
      tidy := fun _ _ _ => trivial
      restarts := listSource_restarts xs
      silent := fun _ => listSource_silent
      total := fun _ _ => listSource_total }
  | count a b k, _ =>
    { inv := ⟨fun _ _ _ => trivial, fun _ _ => trivial⟩
      init := trivial
      resumes := fun _ _ _ => countSource_resumes
      fresh := fun _ _ _ => trivial
      anywhere := fun _ _ _ _ _ _ => trivial
      eod := fun _ _ _ _ h => by cases h
      rewinds := fun _ _ => .refl _
      tidy := fun _ _ _ => trivial
      restarts := countSource_restarts a b k
      silent := fun _ => countSource_silent
      total := fun _ _ => countSource_total }
  | constant x k, _ =>
    { inv := ⟨fun _ _ _ => trivial, fun _ _ => trivial⟩
      init := trivial
      resumes := fun _ _ _ => constantSource_resumes
      fresh := fun _ _ _ => trivial
      anywhere := fun _ _ _ _ _ _ => trivial
      eod := fun _ _ _ _ h => by cases h
      rewinds := fun _ _ => .refl _
      tidy := fun _ _ _ => trivial
      restarts := constantSource_restarts x k
      silent := fun _ => constantSource_silent
      total := fun _ _ => constantSource_total }
  | take n p, hp =>
    have L := laws p hp
    { inv := take_inv L.inv
      init := L.init
      resumes := fun hs ht hf => take_resumes (L.resumes hs ht hf)
      fresh := fun h _ hs => L.fresh h hs
      anywhere := fun h h' _ _ hs ht => L.anywhere h h' hs ht
      eod := fun h => take_eod (L.eod h)
      rewinds := fun hs hc => take_rewinds (L.rewinds hs hc)
      tidy := fun h _ hs => L.tidy h hs
      restarts := take_restarts L.restarts
      silent := fun h => take_silent (L.silent h)
      total := fun h h' => take_total (L.total h h') }
  | skip n p, hp =>
    have L := laws p hp
    { inv := skip_inv L.inv
      init := L.init
      resumes := fun hs ht hf => skip_resumes (L.resumes hs ht hf)
      fresh := fun h _ hs => L.fresh h hs
      anywhere := fun h h' _ _ hs ht => L.anywhere h h' hs ht
      eod := fun h => skip_eod L.inv (L.eod h)
      rewinds := fun hs hc => skip_rewinds (L.rewinds hs hc)
      tidy := fun h _ hs => L.tidy h hs
      restarts := skip_restarts L.restarts
      silent := fun h => skip_silent L.inv (L.silent h)
      total := fun h h' => skip_total L.inv (L.silent h) (L.total h h') }
  | filter f p, hp =>
    have L := laws p hp
    { inv := filter_inv L.inv
      init := L.init
      resumes := fun hs ht hf => filter_resumes (L.resumes hs ht hf)
      fresh := fun h _ hs => L.fresh h hs
      anywhere := fun h h' _ _ hs ht => L.anywhere h h' hs ht
      eod := fun h => filter_eod L.inv (L.eod h)
      rewinds := fun hs hc => filter_rewinds (L.rewinds hs hc)
      tidy := fun h _ hs => L.tidy h hs
      restarts := filter_restarts L.restarts
      silent := fun h => filter_silent L.inv h.1 (L.silent h.2)
      total := fun _ h => h.elim }
  | map f p, hp =>
    have L := laws p hp
    { inv := map_inv L.inv
      init := L.init
      resumes := fun hs ht hf => map_resumes (L.resumes hs ht hf)
      fresh := fun h _ hs => L.fresh h hs
      anywhere := fun h h' _ _ hs ht => L.anywhere h h' hs ht
      eod := fun h => map_eod (L.eod h)
      rewinds := fun hs hc => map_rewinds (L.rewinds hs hc)
      tidy := fun h _ hs => L.tidy h hs
      restarts := map_restarts L.restarts
      silent := fun h => map_silent h.1 (L.silent h.2)
      total := fun h h' => map_total (L.total h.2 h') }
  | mapParallel f n p, hp =>
    have L := laws p hp.2
    { inv := mapPar_inv L.inv
      init := L.init
      resumes := fun hs ht hf => mapPar_resumes (L.resumes hs ht hf)
      fresh := fun h _ hs => L.fresh h hs
      anywhere := fun h h' _ _ hs ht => L.anywhere h h' hs ht
      eod := fun h => mapPar_eod hp.1 L.inv (L.eod h)
      rewinds := fun hs hc => mapPar_rewinds (L.rewinds hs hc)
      tidy := fun h _ hs => L.tidy h hs
      restarts := mapPar_restarts L.restarts
      silent := fun h => mapPar_silent L.inv (L.silent h)
      total := fun h h' => mapPar_total L.inv (L.total h h') }
  | shard i n u p, hp =>
    have L := laws p hp
    { inv := shard_inv L.inv
      init := L.init
      resumes := fun hs ht hf => shard_resumes (L.resumes hs ht hf)
      fresh := fun h _ hs => L.fresh h hs
      anywhere := fun h h' _ _ hs ht => L.anywhere h h' hs ht
      eod := fun h => shard_eod L.inv (L.eod h)
      rewinds := fun hs hc => shard_rewinds (L.rewinds hs hc)
      tidy := fun h _ hs => L.tidy h hs
      restarts := shard_restarts L.restarts
      silent := fun h => shard_silent L.inv (L.silent h)
      total := fun h h' => shard_total L.inv (L.total h h') }
  | bucket n d p, hp =>
    have L := laws p hp.2
    { inv := bucket_inv L.inv
      init := L.init
      resumes := fun hs ht hf => bucket_resumes (L.resumes hs ht hf)
      fresh := fun h _ hs => L.fresh h hs
      anywhere := fun h h' _ _ hs ht => L.anywhere h h' hs ht
      eod := fun h => bucket_eod hp.1 L.inv (L.eod h)
      rewinds := fun hs hc => bucket_rewinds (L.rewinds hs hc)
      tidy := fun h _ hs => L.tidy h hs
      restarts := bucket_restarts L.restarts
      silent := fun h => bucket_silent L.inv (L.silent h)
      total := fun h h' => bucket_total L.inv (L.total h h') }
  | bucketByLength c p, hp =>
    have L := laws p hp.2
    have hinv := bbl_inv (c := c) L.inv hp.1
    { inv := hinv
      init := ⟨all2_empty _, L.init⟩
      resumes := fun hs ht hf => bbl_resumes hs.1 (L.resumes hs.2 ht.2 hf)
      fresh := fun h _ hs => L.fresh h hs.2
      anywhere := fun h h' _ _ hs ht => L.anywhere h h' hs.2 ht.2
      eod := fun h => bbl_eod L.inv (L.eod h) hp.1
      rewinds := fun hs hc => bbl_rewinds hs.1 (L.rewinds hs.2 hc)
      tidy := fun h _ hs => L.tidy h hs.2
      restarts := bbl_restarts L.restarts
      silent := fun h => h.elim
      total := fun h => h.elim }
  | dynamicBucket c p, hp =>
    have L := laws p hp
    { inv := dyn_invQ L.inv (fun h => L.silent h.2) (fun h => h.1)
      init := ⟨⟨fun _ => rfl, L.init⟩, fun _ => rfl⟩
      resumes := fun hs ht hf =>
        dyn_resumesQ ht hf.1 hf.2.1 hf.2.2.1 (L.resumes hs.1.2 ht.1.2 hf.2.2.2)
      fresh := fun h _ hs => ⟨hs.1.1 h.1, rfl, fun _ => hs.2 ⟨h.1, h.2.1, h.2.2.1⟩,
        L.fresh h.2.2.2 hs.1.2⟩
      anywhere := fun h h' _ _ hs ht => ⟨hs.1.1 h.1, ht.1.1 h.1,
        fun _ => (hs.2 ⟨h.1, h.2.1, h.2.2.1⟩).trans (ht.2 ⟨h.1, h.2.1, h.2.2.1⟩).symm,
        L.anywhere h.2.2.2 h' hs.1.2 ht.1.2⟩
      eod := fun h _ _ hs hn => dyn_eod L.inv (L.eod h) hs.1 hn
      rewinds := fun hs hc => dyn_rewinds hc.1 (L.rewinds hs.1.2 hc.2)
      tidy := fun h _ hs => ⟨hs.1.1 h.1, L.tidy h.2 hs.1.2⟩
      restarts := dyn_restarts L.restarts
      silent := fun h => h.elim
      total := fun h => h.elim }
  | again num rr p, hp =>
    have L := laws p hp
    { inv := repeat_inv L.inv
      init := L.init
      resumes := fun hs ht hf => repeat_resumes (L.resumes hs ht hf.2) hf.1
      fresh := fun h => h.elim
      anywhere := fun h => h.elim
      eod := fun h => repeat_eod L.inv (L.eod h)
      rewinds := fun hs hc => repeat_rewinds (L.rewinds hs hc)
      tidy := fun h _ hs => L.tidy h hs
      restarts := repeat_restarts L.restarts
      silent := fun h => repeat_silent L.inv (L.silent h)
      total := fun _ h => h.elim }
  | shuffle w seed p, hp =>
    have L := laws p hp
    { inv := shuffle_inv L.inv
      init := ⟨rfl, L.init⟩
      resumes := fun hs ht hf => shuffle_resumes hf.1 hs.1 (L.resumes hs.2 ht.2 hf.2)
      fresh := fun h _ hs => ⟨h.1, L.fresh h.2 hs.2⟩
      anywhere := fun h h' _ _ hs ht => ⟨h.1, L.anywhere h.2 h' hs.2 ht.2⟩
      eod := fun h => shuffle_eod (L.eod h)
      rewinds := fun hs hc => shuffle_rewinds hs.1 (L.rewinds hs.2 hc)
      tidy := fun h _ hs => L.tidy h hs.2
      restarts := shuffle_restarts L.restarts
      silent := fun h => shuffle_silent L.inv (L.silent h)
      total := fun h h' => shuffle_total L.inv (L.total h h') }
  | pack c p, hp =>
    have L := laws p hp
    { inv := pack_inv L.inv
      init := L.init
      resumes := fun hs ht hf => pack_resumes hf.1 (L.resumes hs ht hf.2)
      fresh := fun h _ hs => ⟨fun _ => rfl, L.fresh h hs⟩
      anywhere := fun _ h => h.elim
      eod := fun h => pack_eod L.inv (L.eod h)
      rewinds := fun hs hc => pack_rewinds (L.rewinds hs hc)
      tidy := fun h _ hs => L.tidy h hs
      restarts := pack_restarts L.restarts
      silent := fun h => h.elim
      total := fun h => h.elim }
  | yieldFrom err max fn p, hp =>
    have L := laws p hp.2
    have Lx := fun x => laws (fn x) (hp.1 x)
    { inv := yield_invQ L.inv (fun x => (Lx x).subInv) (fun x => (Lx x).subInit) fun h => h
      init := ⟨⟨L.init, fun x d h => by cases h⟩, fun _ => .inl ⟨rfl, rfl⟩⟩
      resumes := fun {s t} hs ht hf => by
        refine yield_resumesQ ?_ (L.resumes hs.1.1 ht.1.1 hf.2)
        rcases hf.1 with h | ⟨x, d, h1, h2, h3, h4⟩
        · exact .inl h
        · exact .inr ⟨x, d, h1, h2, h3, (Lx x).subResumes (hs.1.2 x d h2) (Lx x).subInit h4⟩
      fresh := fun h s hs => by
        refine ⟨?_, L.fresh h.2 hs.1.1⟩
        rcases hs.2 (fun x => ⟨(h.1 x).1, (h.1 x).2.1⟩) with h' | ⟨x, d, h1, h2, h3⟩
        · exact .inl h'
        · exact .inr ⟨x, d, h1, h2, h3, (Lx x).subFresh (h.1 x).2.2.1 (h.1 x).2.2.2 (hs.1.2 x d h2)⟩
      anywhere := fun h hnp s t hs ht => by
        refine ⟨?_, L.anywhere h.2 hnp hs.1.1 ht.1.1⟩
        rcases hs.2 (fun x => ⟨(h.1 x).1, (h.1 x).2.1⟩) with h' | ⟨x, d, h1, h2, h3⟩
        · exact .inl h'
        · exact .inr ⟨x, d, h1, h2, h3, (Lx x).subFresh (h.1 x).2.2.1 (h.1 x).2.2.2 (hs.1.2 x d h2)⟩
      eod := fun h _ _ hs hn => yield_eod L.inv (L.eod h) hs.1 hn
      rewinds := fun hs hc => yield_rewinds (L.rewinds hs.1.1 hc)
      tidy := fun h _ hs => L.tidy h hs.1.1
      restarts := yield_restarts L.restarts
      silent := fun h => h.elim
      total := fun h => h.elim }
  | concat n max ps, hp =>
    have L := fun i => laws (ps i) (hp i)
    { inv := concat_inv fun i => (L i).subInv
      init := fun i => (L i).subInit
      resumes := fun hs ht hf => concat_resumes fun i => (L i).subResumes (hs i) (ht i) (hf i)
      fresh := fun h _ hs i => (L i).subFresh (h i).1 (h i).2 (hs i)
      anywhere := fun h h' _ _ hs ht i => (L i).subAnywhere (h i).1 (h i).2 (h' i) (hs i) (ht i)
      eod := fun h => concat_eod (fun i => (L i).subInv) fun i => (L i).subEod (h i)
      rewinds := fun hs hc => concat_rewinds fun i => (L i).subRewinds (hs i) (hc i)
      tidy := fun h _ hs i => (L i).subTidy (h i) (hs i)
      restarts := concat_restarts fun i => pipeline_restarts (L i).restarts
      silent := fun h => concat_silent (fun i => (L i).subInv) fun i => (L i).subSilent (h i)
      total := fun h h' => concat_total (fun i => (L i).subInv) fun i => (L i).subTotal (h i) (h' i) }
  | zip n max ps names sh fl, hp =>
    have L := fun i => laws (ps i) (hp.1 i)
    { inv := zip_inv fun i => (L i).subInv
      init := fun i => (L i).subInit
      resumes := fun hs ht hf => zip_resumes fun i => (L i).subResumes (hs i) (ht i) (hf i)
      fresh := fun h _ hs i => (L i).subFresh (h i).1 (h i).2 (hs i)
      anywhere := fun h h' _ _ hs ht i => (L i).subAnywhere (h i).1 (h i).2 (h' i) (hs i) (ht i)
      eod := fun h => by
        have hI := fun i => (L i).subInv (max := max i)
        have hE : ∀ i, EodFinal (pipeline false (max i) ((ps i).denote R)) _ :=
          fun i => (L i).subEod (h i).1
        have hC : ∀ i, Calm (pipeline false (max i) ((ps i).denote R)) _ :=
          fun i => Silent.calm ((L i).subSilent (h i).2.1) ((L i).subTotal (h i).2.1 (h i).2.2)
        intro s s' hs hn
        cases sh with
        | false => exact zip_eod_all hI hE hC hs hn
        | true =>
          by_cases hn0 : n = 0
          · subst hn0
            exact Ended.coind (fun _ => True) trivial fun s _ => ⟨s, rfl, trivial⟩
          · exact zip_eod hI hE hC hp.2 hn0 rfl hs hn
      rewinds := fun hs hc => zip_rewinds fun i => (L i).subRewinds (hs i) (hc i)
      tidy := fun h _ hs i => (L i).subTidy (h i) (hs i)
      restarts := zip_restarts fun i => pipeline_restarts (L i).restarts
      silent := fun h => h.elim
      total := fun h => h.elim }
  | roundRobin n max ps sh rp, hp =>
    have L := fun i => laws (ps i) (hp i)
    { inv := rr_inv fun i => (L i).subInv
      init := ⟨fun i => (L i).subInit, fun h => by cases h⟩
      resumes := fun hs ht hf =>
        rr_resumes hs fun i => (L i).subResumes (hs.1 i) (ht.1 i) (hf i)
      fresh := fun h _ hs i => (L i).subFresh (h i).1 (h i).2 (hs.1 i)
      anywhere := fun h h' _ _ hs ht i => (L i).subAnywhere (h i).1 (h i).2 (h' i) (hs.1 i) (ht.1 i)
      eod := fun h => h.elim
      rewinds := fun hs hc => rr_rewinds fun i => (L i).subRewinds (hs.1 i) (hc i)
      tidy := fun h _ hs i => (L i).subTidy (h i) (hs.1 i)
      restarts := rr_restarts fun i => pipeline_restarts (L i).restarts
      silent := fun h => h.elim
      total := fun h => h.elim }
  | sample n max ps ws seed rp, hp =>
    have L := fun i => laws (ps i) (hp i)
    { inv := sample_inv fun i => (L i).subInv
      init := sample_inv_init fun i => (L i).subInit
      resumes := fun hs ht hf =>
        sample_resumes hf.1 hs fun i => (L i).subResumes (hs.inner i) (ht.inner i) (hf.2 i)
      fresh := fun h _ hs => ⟨h.1, fun i => (L i).subFresh (h.2 i).1 (h.2 i).2 (hs.inner i)⟩
      anywhere := fun h h' _ _ hs ht => ⟨h.1, fun i =>
        (L i).subAnywhere (h.2 i).1 (h.2 i).2 (h' i) (hs.inner i) (ht.inner i)⟩
      eod := fun _ => sample_eod fun i => (L i).subInv
      rewinds := fun hs hc => sample_rewinds hs fun i => (L i).subRewinds (hs.inner i) (hc i)
      tidy := fun h _ hs i => (L i).subTidy (h i) (hs.inner i)
      restarts := sample_restarts fun i => pipeline_restarts (L i).restarts
      silent := fun h => h.elim
      total := fun h => h.elim }

end Pipe
end Fs2
