import Verif.Pipeline.Buffered
import Verif.Pipeline.SimpleLaws

/-!
# Laws and streams of the deterministic parallel `map`
-/

namespace Fs2
open Source

section
variable {S : Source} {f : Data → Data} {n : Nat}

theorem mapPar_next (s : MapSt S.σ) : (mapPar f n S).next s = mapParNext S f n s := rfl

theorem mapPar_isSim : IsSim (mapPar f n S)
    (fun s t : MapSt S.σ => s.buf = t.buf ∧ s.pos = t.pos ∧ S.Same s.inner t.inner) where
  symm h := ⟨h.1.symm, h.2.1.symm, h.2.2.symm⟩
  reset b h := ⟨rfl, rfl, h.2.2.reset b⟩
  next {s t r s'} h hn := by
    obtain ⟨a, b, i⟩ := s
    obtain ⟨a', b', j⟩ := t
    obtain ⟨h1, h2, h3⟩ := h
    simp only at h1 h2 h3
    subst h1 h2
    simp only [mapPar, mapParNext] at hn ⊢
    split at hn
    · cases hn; exact ⟨_, rfl, rfl, rfl, h3⟩
    · split at hn
      · cases hn
      all_goals
        next hi =>
          obtain ⟨j', hj, h'⟩ := readUpTo_sim isSim_same h3 hi
          cases hn
          rw [hj]
          exact ⟨_, rfl, rfl, rfl, h'⟩

theorem mapPar_inv {I : S.σ → Prop} (hI : Invar S I) :
    Invar (mapPar f n S) (fun s : MapSt S.σ => I s.inner) where
  reset b h := hI.reset b h
  next {s r s'} hs hn hf := by
    obtain ⟨a, b, i⟩ := s
    simp only [mapPar, mapParNext] at hn
    split at hn
    · cases hn; exact hs
    · split at hn
      · cases hn
      · next hi => cases hn; exact inv_readUpTo hI hs hi (by rintro e ⟨⟩; exact hf)
      · next hi => cases hn; exact inv_readUpTo hI hs hi (by rintro e ⟨⟩)
      · next hi => cases hn; exact inv_readUpTo hI hs hi (by rintro e ⟨⟩)

theorem mapPar_ended (hn : 0 < n) {p : Nat} {i : S.σ} (h : S.Ended i) :
    (mapPar f n S).Ended (⟨[], p, i⟩ : MapSt S.σ) := by
  refine .coind (fun s : MapSt S.σ => s.buf = [] ∧ S.Ended s.inner) ⟨rfl, h⟩ ?_
  rintro (s : MapSt S.σ) ⟨h1, h2⟩
  obtain ⟨a, b, i⟩ := s
  simp only at h1 h2
  subst h1
  obtain ⟨i', hi, he⟩ := h2.next
  refine ⟨⟨[], 0, i'⟩, ?_, rfl, he⟩
  rw [mapPar_next]
  simp only [mapParNext, List.drop_nil, mapScan]
  rw [readUpTo_eod (.nil i) hi (by simpa using hn)]
  rfl

theorem mapPar_eod (hpos : 0 < n) {I : S.σ → Prop} (hI : Invar S I) (hE : EodFinal S I) :
    EodFinal (mapPar f n S) (fun s : MapSt S.σ => I s.inner) := by
  intro s s' hs hn
  obtain ⟨a, b, i⟩ := s
  simp only [mapPar, mapParNext] at hn
  split at hn
  · cases hn
  · split at hn
    · cases hn
    · cases hn
    · next hi =>
      cases hn
      refine mapPar_ended hpos (readUpTo_ended hI hE hs hi ?_)
      obtain ⟨ys, s₁, h1, h2, h3⟩ := readUpTo_inv hi
      rcases h3 with ⟨h4, _, h6, _⟩ | ⟨h4, _⟩ | ⟨e, h4, h5, _⟩
      · simp at h1 h6
        subst h1
        simp at h6
        omega
      · exact h4
      · simp at h5
    · cases hn

theorem readData_one (a : Data) (rest : Tape) : readData ([a] ++ rest) = .ok (a, rest) := rfl

theorem mapPar_resumes {I : S.σ → Prop} {s t : MapSt S.σ} (h : Resumes S I s.inner t.inner) :
    Resumes (mapPar f n S) (fun s : MapSt S.σ => I s.inner) s t := by
  obtain ⟨tp, h1, h2⟩ := h
  refine ⟨recordVec (recordOpt (fun d => [d])) s.buf ++ .int s.pos :: tp,
    by simp [mapPar, h1], fun rest => ?_⟩
  obtain ⟨t', h3, h4, h5⟩ := h2 rest
  refine ⟨⟨s.buf, s.pos, t'⟩, ?_, mapPar_isSim.same ⟨rfl, rfl, h4⟩, h5⟩
  simp only [mapPar, List.append_assoc, if_true]
  rw [readVec_recordVec (readOpt_recordOpt readData_one)]
  simp only [List.cons_append, readNat, h3]

theorem mapPar_rewinds {s : MapSt S.σ} (h : Rewinds S s.inner) : Rewinds (mapPar f n S) s :=
  mapPar_isSim.same ⟨rfl, rfl, h⟩

theorem mapPar_restarts (h : Restarts S) : Restarts (mapPar f n S) :=
  fun b => mapPar_isSim.same ⟨rfl, rfl, h b⟩

/-! ## The stream -/

/-- Buffer with `k` examples taken and `ys` left. -/
def mapBuf (k : Nat) (ys : List Data) : List (Option Data) := List.replicate k none ++ ys.map some

theorem mapBuf_scan (k : Nat) (ys : List Data) :
    (mapBuf k ys).drop k = ys.map some := by simp [mapBuf]

theorem mapBuf_set (k : Nat) (y : Data) (ys : List Data) :
    (mapBuf k (y :: ys)).set k none = mapBuf (k + 1) ys := by
  simp [mapBuf, List.replicate_succ']

theorem mapPar_buf_emits {k : Nat} {ys : List Data} {i : S.σ} :
    (mapPar f n S).Emits (⟨mapBuf k ys, k, i⟩ : MapSt S.σ) ys
      (⟨mapBuf (k + ys.length) [], k + ys.length, i⟩ : MapSt S.σ) := by
  induction ys generalizing k with
  | nil => exact .nil _
  | cons y ys ih =>
    have := ih (k := k + 1)
    rw [show k + (y :: ys).length = k + 1 + ys.length by simp; omega]
    refine .cons ?_ this
    rw [mapPar_next]
    simp only [mapParNext, mapBuf_scan, List.map_cons, mapScan, mapBuf_set]
    rfl

theorem mapPar_empty {k : Nat} {s : MapSt S.σ} (hb : s.buf = mapBuf k []) (hp : s.pos = k) :
    mapScan (s.buf.drop s.pos) s.pos = none := by
  rw [hb, hp, mapBuf_scan]; rfl

theorem mapPar_yields (hn : 0 < n) {s : MapSt S.σ} {xs : List Data}
    (hb : ∃ k, s.buf = mapBuf k [] ∧ s.pos = k) (h : S.Yields s.inner xs) :
    (mapPar f n S).Yields s (xs.map f) := by
  induction hl : xs.length using Nat.strongRecOn generalizing xs s with
  | _ m ih =>
    subst hl
    obtain ⟨k, hb, hp⟩ := hb
    have hscan := mapPar_empty hb hp
    obtain ⟨a, b, i⟩ := s
    simp only at h hb hp hscan
    by_cases hlt : xs.length < n
    · obtain ⟨i1, h1, h2⟩ := h
      obtain ⟨i2, h3, h4⟩ := h2.next
      have hr := readUpTo_eod (acc := []) h1 h3 hlt
      simp only [List.nil_append] at hr
      cases xs with
      | nil =>
        refine .nil_of (s' := (⟨[], 0, i2⟩ : MapSt S.σ)) ?_ (mapPar_ended hn h4)
        rw [mapPar_next]; simp only [mapParNext, hscan, hr]; rfl
      | cons x xs =>
        refine .cons (s' := (⟨mapBuf 1 (xs.map f), 1, i2⟩ : MapSt S.σ)) ?_
          (Emits.yields mapPar_buf_emits (ih 0 (by simp) (xs := []) ⟨_, rfl, rfl⟩ ⟨i2, .nil _, h4⟩ rfl)
            |> fun h => by simpa using h)
        rw [mapPar_next]; simp only [mapParNext, hscan, hr]
        simp [mapBuf]
        rfl
    · have hsplit := List.take_append_drop n xs
      rw [← hsplit] at h
      obtain ⟨i', h1, h2⟩ := h.split
      have hlen : (xs.take n).length = n := by rw [List.length_take]; omega
      have hr := readUpTo_full (acc := []) h1
      rw [hlen, List.nil_append] at hr
      rw [← hsplit, List.map_append]
      have hrec := fun k => ih (xs.drop n).length (by rw [List.length_drop]; omega)
        (s := (⟨mapBuf k [], k, i'⟩ : MapSt S.σ)) ⟨k, rfl, rfl⟩ h2 rfl
      generalize xs.drop n = rest at hrec
      generalize xs.take n = blk at hr hlen
      cases blk with
      | nil => simp at hlen; omega
      | cons x blk =>
        refine .cons (s' := (⟨mapBuf 1 (blk.map f), 1, i'⟩ : MapSt S.σ)) ?_
          (Emits.yields mapPar_buf_emits (hrec _))
        rw [mapPar_next]; simp only [mapParNext, hscan, hr]
        simp [mapBuf]
        rfl

end
end Fs2
