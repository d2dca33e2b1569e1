import Verif.Reader.Laws
import Verif.Pipeline.Lemmas

/-!
# Readers with indistinguishable pipelines
-/

namespace Fs2.Reader

variable {n : Nat} {S : Fin n → Source}

theorem readAcc_same {S : Source} (k : Nat) {s t : S.σ} (h : S.Same s t) :
    (readAcc S k s = none ∧ readAcc S k t = none) ∨
    ∃ v s' t', readAcc S k s = some (v, s') ∧ readAcc S k t = some (v, t') ∧ S.Same s' t' := by
  induction k generalizing s t with
  | zero => exact .inr ⟨_, _, _, rfl, rfl, h⟩
  | succ k ih =>
    cases hn : S.next s with
    | none => exact .inl ⟨by simp [readAcc, hn], by simp [readAcc, h.next_none hn]⟩
    | some x =>
      rcases x with ⟨r, s'⟩
      obtain ⟨t', h1, h2⟩ := h.next hn
      cases r with
      | eod => exact .inr ⟨.ok [], s', t', by simp [readAcc, hn], by simp [readAcc, h1], h2⟩
      | err e => exact .inr ⟨.error e, s', t', by simp [readAcc, hn], by simp [readAcc, h1], h2⟩
      | yield d =>
        rcases ih h2 with ⟨h3, h4⟩ | ⟨v, s'', t'', h3, h4, h5⟩
        · exact .inl ⟨by simp [readAcc, hn, h3], by simp [readAcc, h1, h4]⟩
        · cases v with
          | error e => exact .inr ⟨.error e, s'', t'', by simp [readAcc, hn, h3], by simp [readAcc, h1, h4], h5⟩
          | ok xs => exact .inr ⟨.ok (d :: xs), s'', t'', by simp [readAcc, hn, h3], by simp [readAcc, h1, h4], h5⟩

/-- Arrivals with the same batches and indistinguishable pipelines. -/
inductive Arrival.Same {S : Source} : Arrival S → Arrival S → Prop where
  | past : Same .past .past
  | never : Same .never .never
  | failed (e : Err) {s t : S.σ} : S.Same s t → Same (.failed e s) (.failed e t)
  | came (xs : List Data) {s t : S.σ} : S.Same s t → Same (.came xs s) (.came xs t)

/-- Readers with indistinguishable pipelines. -/
def RS.Same {S : Source} (x y : RS S) : Prop := S.Same x.pipe y.pipe ∧ x.eod = y.eod

theorem arrive_same {S : Source} (c : Cfg) {x y : RS S} (h : x.Same y) : (arrive c x).Same (arrive c y) := by
  obtain ⟨h1, h2⟩ := h
  unfold arrive
  rw [h2]
  split
  · exact .past
  · rcases readAcc_same c.accumulate h1 with ⟨h3, h4⟩ | ⟨v, s', t', h3, h4, h5⟩
    · rw [h3, h4]; exact .never
    · rw [h3, h4]
      cases v with
      | error e => exact .failed e h5
      | ok xs => exact .came _ h5

theorem Arrival.Same.count {S : Source} {a b : Arrival S} (h : a.Same b) : a.count = b.count := by
  cases h <;> rfl

theorem nextAll_same (c : Cfg) {x y : ∀ r, RS (S r)} (h : ∀ r, (x r).Same (y r)) (r : Fin n) :
    (nextAll c x r).1 = (nextAll c y r).1 ∧ ((nextAll c x r).2).Same (nextAll c y r).2 := by
  have hc : collective c (fun r => arrive c (x r)) r = collective c (fun r => arrive c (y r)) r := by
    unfold collective
    simp only [(arrive_same c (h _)).count]
  unfold nextAll
  rw [hc]
  have ha := arrive_same c (h r)
  have he := (h r).2
  generalize collective c (fun r => arrive c (y r)) r = num
  cases ha' : arrive c (x r) with
  | past =>
    rw [ha'] at ha
    generalize arrive c (y r) = b at ha
    cases ha
    exact ⟨rfl, h r⟩
  | never =>
    rw [ha'] at ha
    generalize arrive c (y r) = b at ha
    cases ha
    exact ⟨rfl, h r⟩
  | failed e s =>
    rw [ha'] at ha
    generalize arrive c (y r) = b at ha
    cases ha with
    | failed _ hs => exact ⟨rfl, hs, he⟩
  | came xs s =>
    rw [ha'] at ha
    generalize arrive c (y r) = b at ha
    cases ha with
    | came _ hs =>
      cases num with
      | none => exact ⟨rfl, hs, he⟩
      | some m =>
        simp only [leave]
        split
        · exact ⟨rfl, hs, rfl⟩
        · exact ⟨rfl, hs, rfl⟩

theorem runAll_same (c : Cfg) (ops : List ROp) {x y : ∀ r, RS (S r)} (h : ∀ r, (x r).Same (y r)) :
    runAll c ops x = runAll c ops y := by
  induction ops generalizing x y with
  | nil => rfl
  | cons op ops ih =>
    cases op with
    | next =>
      simp only [runAll]
      rw [ih (fun r => (nextAll_same c h r).2)]
      congr 1
      funext r
      exact (nextAll_same c h r).1
    | reset =>
      simp only [runAll]
      exact ih (fun r => ⟨(h r).1.reset false, rfl⟩)

end Fs2.Reader
