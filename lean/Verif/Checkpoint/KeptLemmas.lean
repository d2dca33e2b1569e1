import Verif.Checkpoint.KeptSpec

/-!
# What is on disk in the course of training: lemmas
-/

namespace Fs2.Keep
open Fs2.Ckpt

/-! ## Ranks -/

/-- Number of elements that come before `s`. -/
def rank (r : Nat → Nat → Bool) (l : List Nat) (s : Nat) : Nat := (l.filter fun q => r q s).length

/-- Leaving out an element with at least `n` before it, or that comes before none, changes no rank below `n`. -/
theorem rank_erase {r : Nat → Nat → Bool} (hi : ∀ q, r q q = false) (ht : ∀ a b c, r a b = true → r b c = true → r a c = true)
    {l : List Nat} (hl : l.Nodup) {n t : Nat} (hr : n ≤ rank r l t ∨ ∀ s, r t s = false) (s : Nat) :
    rank r (l.filter (· != t)) s < n ↔ rank r l s < n := by
  have hsub : ∀ p : Nat → Bool, (l.filter (· != t)).filter p = (l.filter p).filter (· != t) := by
    intro p
    rw [List.filter_filter, List.filter_filter]
    exact List.filter_congr fun x _ => Bool.and_comm _ _
  unfold rank at hr ⊢
  rw [hsub]
  by_cases htm : t ∈ l.filter fun q => r q s
  · have h1 : r t s = true := by simpa using (List.mem_filter.1 htm).2
    have hr : n ≤ (l.filter fun q => r q t).length := by
      rcases hr with h | h
      · exact h
      · rw [h s] at h1; cases h1
    have hnd : (l.filter fun q => r q s).Nodup := hl.filter _
    have h2 : ((l.filter fun q => r q s).filter (· != t)).length + 1 = (l.filter fun q => r q s).length := by
      rw [← hnd.erase_eq_filter, List.length_erase_of_mem htm]
      have := List.length_pos_of_mem htm
      omega
    have h3 : (l.filter fun q => r q t).length ≤ ((l.filter fun q => r q s).filter (· != t)).length := by
      rw [List.filter_filter]
      rw [← List.countP_eq_length_filter, ← List.countP_eq_length_filter]
      refine List.countP_mono_left fun a _ ha => ?_
      simp only [Bool.and_eq_true, bne_iff_ne, ne_eq]
      refine ⟨?_, ht a t s ha h1⟩
      rintro rfl
      rw [hi] at ha
      cases ha
    omega
  · have : (l.filter fun q => r q s).filter (· != t) = l.filter fun q => r q s := by
      rw [List.filter_eq_self]
      intro a ha
      simp only [bne_iff_ne, ne_eq]
      rintro rfl
      exact htm ha
    rw [this]

theorem rank_filter {r : Nat → Nat → Bool} (hi : ∀ q, r q q = false) (ht : ∀ a b c, r a b = true → r b c = true → r a c = true)
    {l : List Nat} (hl : l.Nodup) {n : Nat} (ts : List Nat) (hts : ∀ t ∈ ts, n ≤ rank r l t ∨ ∀ s, r t s = false)
    (s : Nat) :
    rank r (l.filter fun x => !ts.contains x) s < n ↔ rank r l s < n := by
  induction ts generalizing l with
  | nil =>
    rw [show (l.filter fun x => !([] : List Nat).contains x) = l from by rw [List.filter_eq_self]; simp]
  | cons t ts ih =>
    have h1 := rank_erase hi ht hl (hts t (by simp))
    have e : (l.filter fun x => !(t :: ts).contains x) = (l.filter (· != t)).filter fun x => !ts.contains x := by
      rw [List.filter_filter]
      refine List.filter_congr fun x _ => ?_
      simp only [List.contains_cons, Bool.not_or, bne]
      exact Bool.and_comm _ _
    rw [e, ih (hl.filter _) ?_, h1]
    intro t' ht'
    rcases hts t' (by simp [ht']) with h | h
    · have := h1 t'
      exact .inl (by omega)
    · exact .inr h

/-- Later steps come first. -/
def later (q s : Nat) : Bool := decide (s < q)

/-- Better steps come first. -/
def beats (score : Nat → Option Rat) (q s : Nat) : Bool :=
  match score q, score s with
  | some y, some x => decide (x < y ∨ (x = y ∧ s < q))
  | _, _ => false

theorem beats_irrefl (score : Nat → Option Rat) (q : Nat) : beats score q q = false := by
  unfold beats
  cases score q with
  | none => rfl
  | some x => simp

theorem beats_trans (score : Nat → Option Rat) (a b c : Nat) (h : beats score a b = true) (h' : beats score b c = true) :
    beats score a c = true := by
  unfold beats at *
  cases ha : score a with
  | none => rw [ha] at h; cases h
  | some x =>
    cases hb : score b with
    | none => rw [hb, ha] at h; cases h
    | some y =>
      cases hc : score c with
      | none => rw [hc, hb] at h'; cases h'
      | some z =>
        rw [ha, hb] at h
        rw [hb, hc] at h'
        simp only [decide_eq_true_eq] at *
        rcases h with h | ⟨h1, h2⟩ <;> rcases h' with h' | ⟨h3, h4⟩
        · exact .inl (by grind)
        · exact .inl (by grind)
        · exact .inl (by grind)
        · exact .inr ⟨by grind, by omega⟩

theorem after_rank (l : List Nat) (s : Nat) : after l s = rank later l s := rfl

theorem better_rank {score : Nat → Option Rat} {s : Nat} {x : Rat} (hx : score s = some x) (l : List Nat) :
    better l score x s = rank (beats score) l s := by
  unfold better rank
  congr 1
  refine List.filter_congr fun q _ => ?_
  unfold beats
  rw [hx]
  cases score q <;> rfl

/-! ## The invariant -/

theorem Keeps_filter {p : Policy} {all : List Nat} {score : Nat → Option Rat} (hall : all.Nodup) {ts : List Nat}
    (hts : ∀ t ∈ ts, ¬ Props.Keeps all score p.last p.best p.every t) (s : Nat) :
    Props.Keeps (all.filter fun x => !ts.contains x) score p.last p.best p.every s ↔
      Props.Keeps all score p.last p.best p.every s := by
  unfold Props.Keeps
  refine or_congr ?_ (or_congr ?_ Iff.rfl)
  · refine exists_congr fun n => and_congr_right fun hn => ?_
    have h1 := rank_filter (r := later) (by simp [later]) (by simp only [later, decide_eq_true_eq]; omega) hall (n := n.toNat) ts
      (fun t ht => by
        have := hts t ht
        unfold Props.Keeps at this
        have h2 : ¬ ((after all t : Int) < n) := fun h => this (.inl ⟨n, hn, h⟩)
        rw [after_rank] at h2
        exact .inl (by omega)) s
    rw [after_rank, after_rank]
    omega
  · refine exists_congr fun n => exists_congr fun x => and_congr_right fun hn => and_congr_right fun hx => ?_
    rw [better_rank hx, better_rank hx]
    have h1 := rank_filter (beats_irrefl score) (beats_trans score) hall (n := n.toNat) ts
      (fun t ht => by
        cases hy : score t with
        | none => exact .inr fun s => by unfold beats; rw [hy]
        | some y =>
          have := hts t ht
          unfold Props.Keeps at this
          have h2 : ¬ ((better all score y t : Int) < n) := fun h => this (.inr (.inl ⟨n, y, hn, hy, h⟩))
          rw [better_rank hy] at h2
          exact .inl (by omega)) s
    omega

theorem Keeps_congr {p : Policy} {l : List Nat} {f g : Nat → Option Rat} (h : ∀ q ∈ l, f q = g q) {s : Nat} (hs : s ∈ l) :
    Props.Keeps l f p.last p.best p.every s ↔ Props.Keeps l g p.last p.best p.every s := by
  unfold Props.Keeps
  refine or_congr Iff.rfl (or_congr ?_ Iff.rfl)
  refine exists_congr fun n => exists_congr fun x => and_congr_right fun _ => ?_
  rw [h s hs]
  have : better l f x s = better l g x s := by
    unfold better
    congr 1
    exact List.filter_congr fun q hq => by rw [h q hq]
  rw [this]

theorem Wanted_congr {p : Policy} {l : List Nat} {f g : Nat → Option Rat} (h : ∀ q ∈ l, f q = g q) {s : Nat} (hs : s ∈ l) :
    Wanted p l f s ↔ Wanted p l g s :=
  or_congr Iff.rfl (or_congr Iff.rfl (Keeps_congr h hs))

theorem Wanted_snoc {p : Policy} {l : List Nat} {f : Nat → Option Rat} {n s : Nat} (h : Wanted p (l ++ [n]) f s) : Wanted p l f s := by
  rcases h with h | h | h | h | h
  · exact .inl h
  · exact .inr (.inl fun q hq => h q (by simp [hq]))
  · obtain ⟨k, h1, h2⟩ := h
    refine .inr (.inr (.inl ⟨k, h1, ?_⟩))
    simp only [after, List.filter_append, List.length_append] at h2 ⊢
    omega
  · obtain ⟨k, x, h1, h2, h3⟩ := h
    refine .inr (.inr (.inr (.inl ⟨k, x, h1, h2, ?_⟩)))
    simp only [better, List.filter_append, List.length_append] at h3 ⊢
    omega
  · exact .inr (.inr (.inr (.inr h)))

theorem foldl_delete (l : List Nat) (d : Disk) :
    l.foldl Disk.delete d = ⟨d.steps.filter fun x => !l.contains x, fun m => if m ∈ l then none else d.score m⟩ := by
  induction l generalizing d with
  | nil =>
    have : d.steps.filter (fun x => !([] : List Nat).contains x) = d.steps := List.filter_eq_self.2 (by simp)
    rw [this]
    simp
  | cons n l ih =>
    rw [List.foldl_cons, ih]
    simp only [Disk.delete, Disk.mk.injEq]
    constructor
    · rw [List.filter_filter]
      refine List.filter_congr fun x _ => ?_
      by_cases h1 : x = n <;> by_cases h2 : x ∈ l <;> simp [h1, h2]
    · funext m
      by_cases h1 : m = n <;> by_cases h2 : m ∈ l <;> simp [h1, h2]

/-- What the disk has when `a` has been done. -/
structure OnDisk (p : Policy) (a : List Ev) (d : Disk) : Prop where
  order : (committed a).Pairwise (· < ·)
  steps : ∃ ts : List Nat, d.steps = (committed a).filter (fun x => !ts.contains x) ∧
    ∀ t ∈ ts, t ∈ committed a ∧ ¬ Wanted p (committed a) (scoreOf a) t
  score : ∀ s, s ∈ d.steps ∨ s ∉ committed a → d.score s = scoreOf a s

theorem newest {l : List Nat} {m : Nat} (ho : l.Pairwise (· < ·)) (hl : l.getLast? = some m) : ∀ q ∈ l, q ≤ m := by
  obtain ⟨pre, rfl⟩ := List.getLast?_eq_some_iff.1 hl
  intro q hq
  rcases List.mem_append.1 hq with hq | hq
  · exact Nat.le_of_lt ((List.pairwise_append.1 ho).2.2 q hq m (by simp))
  · simp at hq; omega

theorem deleteStale_inv {p : Policy} (hp : p.Valid) {a : List Ev} {d : Disk} (h : OnDisk p a d) (cut : Option Nat) :
    ∃ d', deleteStale p cut d = some d' ∧ OnDisk p a d' ∧
      (cut = none → ∀ s ∈ d'.steps, Wanted p (committed a) (scoreOf a) s) := by
  obtain ⟨ho, ⟨ts, hs, hts⟩, hsc⟩ := h
  have hnd : (committed a).Nodup := ho.imp (fun h => Nat.ne_of_lt h)
  by_cases hoff : p.Off
  · refine ⟨d, ?_, ⟨ho, ⟨ts, hs, hts⟩, hsc⟩, fun _ s _ => .inl hoff⟩
    obtain ⟨h1, h2, h3⟩ := hoff
    unfold deleteStale
    rw [show stale d.steps d.score p.last p.best p.every = some [] from by
      unfold stale; rw [if_pos ⟨h1, h2, h3⟩]]
    cases cut <;> simp
  · have hany : p.last ≠ none ∨ p.best ≠ none ∨ p.every ≠ none := by
      unfold Policy.Off at hoff
      by_cases h1 : p.last = none
      · by_cases h2 : p.best = none
        · exact .inr (.inr fun h3 => hoff ⟨h1, h2, h3⟩)
        · exact .inr (.inl h2)
      · exact .inl h1
    have hds : d.steps.Pairwise (· < ·) := by rw [hs]; exact ho.filter _
    obtain ⟨l, hl, hmem⟩ := Props.C34_stale hds d.score hany hp.1 hp.2.1 hp.2.2
    have hsub : ∀ s ∈ d.steps, s ∈ committed a := by
      intro s h; rw [hs] at h; exact (List.mem_filter.1 h).1
    have hk : ∀ s ∈ d.steps, Props.Keeps d.steps d.score p.last p.best p.every s ↔
        Props.Keeps (committed a) (scoreOf a) p.last p.best p.every s := by
      intro s hm
      rw [Keeps_congr (g := scoreOf a) (fun q hq => hsc q (.inl hq)) hm, hs]
      exact Keeps_filter hnd (fun t ht h => (hts t ht).2 (.inr (.inr h))) s
    have hstale : ∀ s ∈ l, s ∈ committed a ∧ ¬ Wanted p (committed a) (scoreOf a) s := by
      intro s hm
      obtain ⟨h1, ⟨q, hq, hlt⟩, h3⟩ := (hmem s).1 hm
      refine ⟨hsub s h1, ?_⟩
      rintro (h | h | h)
      · exact hoff h
      · have := h q (hsub q hq); omega
      · exact h3 ((hk s h1).2 h)
    have key : ∀ l' : List Nat, (∀ s ∈ l', s ∈ l) → OnDisk p a (l'.foldl Disk.delete d) := by
      intro l' hl'
      rw [foldl_delete]
      refine ⟨ho, ⟨ts ++ l', ?_, ?_⟩, ?_⟩
      · show d.steps.filter _ = _
        rw [hs, List.filter_filter]
        refine List.filter_congr fun x _ => ?_
        simp only [List.contains_eq_mem, List.mem_append]
        by_cases h1 : x ∈ ts <;> by_cases h2 : x ∈ l' <;> simp [h1, h2]
      · intro t ht
        rcases List.mem_append.1 ht with ht | ht
        · exact hts t ht
        · exact hstale t (hl' t ht)
      · intro s hm
        show (if s ∈ l' then none else d.score s) = scoreOf a s
        have hn : s ∉ l' := by
          rcases hm with hm | hm
          · simpa using (List.mem_filter.1 hm).2
          · exact fun h => hm (hstale s (hl' s h)).1
        rw [if_neg hn]
        refine hsc s ?_
        rcases hm with hm | hm
        · exact .inl (List.mem_filter.1 hm).1
        · exact .inr hm
    cases cut with
    | some k =>
      refine ⟨(l.take k).foldl Disk.delete d, by simp [deleteStale, hl], key _ fun s h => List.mem_of_mem_take h, by simp⟩
    | none =>
      refine ⟨l.foldl Disk.delete d, by simp [deleteStale, hl], key _ fun s h => h, ?_⟩
      intro _ s hm
      rw [foldl_delete] at hm
      have hm1 : s ∈ d.steps := (List.mem_filter.1 hm).1
      have hm2 : s ∉ l := by simpa using (List.mem_filter.1 hm).2
      by_cases hK : Props.Keeps d.steps d.score p.last p.best p.every s
      · exact .inr (.inr ((hk s hm1).1 hK))
      · refine .inr (.inl fun q hq => ?_)
        refine Classical.byContradiction fun hlt => hm2 ((hmem s).2 ⟨hm1, ?_, hK⟩)
        -- the newest is there
        cases hlast : (committed a).getLast? with
        | none => rw [List.getLast?_eq_none_iff.1 hlast] at hq; cases hq
        | some m =>
          have hmax := newest ho hlast
          refine ⟨m, ?_, by have := hmax q hq; omega⟩
          rw [hs, List.mem_filter]
          refine ⟨List.mem_of_getLast? hlast, ?_⟩
          simp only [List.contains_eq_mem, Bool.not_eq_true', decide_eq_false_iff_not]
          exact fun h => (hts m h).2 (.inr (.inl hmax))

theorem scoreOf_snoc (a : List Ev) (e : Ev) (n : Nat) : scoreOf (a ++ [e]) n =
    if e.step = n then
      match e.kind with
      | .begin => none
      | .scored => some e.score
      | .commit => scoreOf a n
    else scoreOf a n := by
  unfold scoreOf
  rw [List.foldl_append]
  rfl

theorem committed_snoc (a : List Ev) (e : Ev) :
    committed (a ++ [e]) = committed a ++ if e.kind = .commit then [e.step] else [] := by
  unfold committed
  rw [List.filterMap_append]
  congr 1
  split
  · next h => rw [List.filterMap_cons_some (b := e.step) (by simp [h])]; rfl
  · next h => rw [List.filterMap_cons_none (by simp [h])]; rfl

/-- Saves that begin and scores concern other steps than those that are committed. -/
theorem inv_other {p : Policy} {a : List Ev} {d d' : Disk} {e : Ev} (h : OnDisk p a d) (he : ∀ m ∈ committed a, m < e.step)
    (hk : e.kind ≠ .commit) (h1 : d'.steps = d.steps) (h2 : ∀ s, s ≠ e.step → d'.score s = d.score s)
    (h3 : d'.score e.step = scoreOf (a ++ [e]) e.step) : OnDisk p (a ++ [e]) d' := by
  obtain ⟨ho, ⟨ts, hs, hts⟩, hsc⟩ := h
  have hc : committed (a ++ [e]) = committed a := by rw [committed_snoc, if_neg hk, List.append_nil]
  have hne : ∀ m, m ≠ e.step → scoreOf (a ++ [e]) m = scoreOf a m := by
    intro m hm
    rw [scoreOf_snoc, if_neg (fun h => hm h.symm)]
  refine ⟨by rw [hc]; exact ho, ⟨ts, by rw [hc, h1]; exact hs, ?_⟩, ?_⟩
  · intro t ht
    rw [hc]
    refine ⟨(hts t ht).1, ?_⟩
    rw [Wanted_congr (g := scoreOf a) (fun q hq => hne q (by have := he q hq; omega)) (hts t ht).1]
    exact (hts t ht).2
  · intro s hm
    by_cases hse : s = e.step
    · rw [hse]; exact h3
    · rw [h2 s hse, hne s hse]
      refine hsc s ?_
      rw [h1, hc] at hm
      exact hm

theorem act_inv {p : Policy} (hp : p.Valid) {a : List Ev} {d : Disk} {e : Ev} (h : OnDisk p a d)
    (he : ∀ m ∈ committed a, m < e.step) :
    ∃ d', act p d e = some d' ∧ OnDisk p (a ++ [e]) d' ∧
      (e.kind = .commit → e.cut = none → ∀ s ∈ d'.steps, Wanted p (committed (a ++ [e])) (scoreOf (a ++ [e])) s) := by
  have hsub : ∀ s ∈ d.steps, s < e.step := by
    obtain ⟨-, ⟨ts, hs, -⟩, -⟩ := h
    intro s hm
    rw [hs] at hm
    exact he s (List.mem_filter.1 hm).1
  cases hk : e.kind with
  | begin =>
    refine ⟨d.delete e.step, by simp [act, hk], ?_, by simp⟩
    refine inv_other h he (by simp [hk]) ?_ ?_ ?_
    · show d.steps.filter _ = _
      rw [List.filter_eq_self]
      intro s hm
      have := hsub s hm
      simp; omega
    · intro s hs; simp [Disk.delete, hs]
    · simp [Disk.delete, scoreOf_snoc, hk]
  | scored =>
    have hi : OnDisk p (a ++ [e]) (d.rate e.step e.score) := by
      refine inv_other h he (by simp [hk]) rfl ?_ ?_
      · intro s hs; simp [Disk.rate, hs]
      · simp [Disk.rate, scoreOf_snoc, hk]
    cases hb : p.best.isSome with
    | false => exact ⟨_, by simp only [act, hk, hb]; rfl, hi, by simp⟩
    | true =>
      obtain ⟨d', h1, h2, -⟩ := deleteStale_inv hp hi e.cut
      exact ⟨d', by simp only [act, hk, hb]; exact h1, h2, by simp⟩
  | commit =>
    have hc : committed (a ++ [e]) = committed a ++ [e.step] := by rw [committed_snoc, if_pos hk]
    have hsc' : scoreOf (a ++ [e]) = scoreOf a := by
      funext m
      rw [scoreOf_snoc, hk]
      split <;> rfl
    have hi : OnDisk p (a ++ [e]) (d.add e.step) := by
      obtain ⟨ho, ⟨ts, hs, hts⟩, hsc⟩ := h
      have hadd : (d.add e.step).steps = d.steps ++ [e.step] := by
        show d.steps.filter _ ++ _ :: d.steps.filter _ = _
        rw [List.filter_eq_self.2 (by intro s hm; simpa using hsub s hm),
          List.filter_eq_nil_iff.2 (by intro s hm; have := hsub s hm; simp; omega)]
      refine ⟨?_, ⟨ts, ?_, ?_⟩, ?_⟩
      · rw [hc, List.pairwise_append]
        exact ⟨ho, by simp, fun m hm n hn => by rw [List.mem_singleton.1 hn]; exact he m hm⟩
      · rw [hadd, hc, List.filter_append, ← hs]
        have : e.step ∉ ts := fun h => Nat.lt_irrefl _ (he _ (hts _ h).1)
        simp [this]
      · intro t ht
        rw [hc, hsc']
        exact ⟨by simp [(hts t ht).1], fun h => (hts t ht).2 (Wanted_snoc h)⟩
      · intro s hm
        rw [hsc']
        show d.score s = scoreOf a s
        rw [hadd, hc] at hm
        refine hsc s ?_
        rcases hm with hm | hm
        · rcases List.mem_append.1 hm with hm | hm
          · exact .inl hm
          · rw [List.mem_singleton.1 hm]
            exact .inr fun h => Nat.lt_irrefl _ (he _ h)
        · exact .inr fun h => hm (by simp [h])
    obtain ⟨d', h1, h2, h3⟩ := deleteStale_inv hp hi e.cut
    exact ⟨d', by simp only [act, hk]; exact h1, h2, fun _ => h3⟩

theorem actAll_inv {p : Policy} (hp : p.Valid) {a evs : List Ev} {d : Disk} (h : OnDisk p a d)
    (ho : Orderly (a ++ evs)) : ∃ d', actAll p d evs = some d' ∧ OnDisk p (a ++ evs) d' := by
  induction evs generalizing a d with
  | nil => exact ⟨d, rfl, by simpa using h⟩
  | cons e evs ih =>
    obtain ⟨d', h1, h2, -⟩ := act_inv hp h (ho a e evs rfl)
    obtain ⟨d'', h3, h4⟩ := ih h2 (by simpa using ho)
    exact ⟨d'', by simp [actAll, h1, h3], by simpa using h4⟩

theorem empty_inv (p : Policy) : OnDisk p [] .empty :=
  ⟨by simp [committed], ⟨[], by simp [committed, Disk.empty], by simp⟩, fun _ _ => rfl⟩

theorem actAll_snoc (p : Policy) (d : Disk) (evs : List Ev) (e : Ev) :
    actAll p d (evs ++ [e]) = (actAll p d evs).bind fun d => act p d e := by
  induction evs generalizing d with
  | nil => simp [actAll]
  | cons x evs ih =>
    simp only [List.cons_append, actAll]
    cases act p d x with
    | none => rfl
    | some d => simp [ih]

end Fs2.Keep
