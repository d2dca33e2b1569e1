import Verif.Nn.ModuleWalk

/-!
# Lemmas on functions applied to the tensors of modules
-/

namespace Fs2.Mod

variable {D : Type}

/-- What is expected of the result for each tensor: `keep` says that it stays, `ok` what its replacement may hold, and
`reached` which tensors there are. -/
structure Plan (D : Type) where
  reached : Nat → Prop
  keep : Nat → Bool
  ok : Nat → D → Prop

/-- The state between two calls of the function. -/
structure Core (pl : Plan D) (st0 st : St D) (memo : Memo) : Prop where
  size : st0.tensors.length ≤ st.tensors.length
  old : ∀ i, i < st0.tensors.length → st.tensors[i]? = st0.tensors[i]?
  entry : ∀ s τ, memo.lookup s = some τ → pl.reached s ∧ s < st0.tensors.length ∧ ∃ x0, st0.tensors[s]? = some x0 ∧
    ((pl.keep s = true ∧ τ = s) ∨
      (pl.keep s = false ∧ st0.tensors.length ≤ τ ∧ ∃ x, st.tensors[τ]? = some x ∧ pl.ok s x.data ∧
        x.requiresGrad = x0.requiresGrad ∧ x.isParam = x0.isParam ∧
        (x.grad = none ∨ ∃ g g', x0.grad = some g ∧ memo.lookup g = some g' ∧ x.grad = some g')))
  inj : ∀ s s' τ, memo.lookup s = some τ → memo.lookup s' = some τ → s = s'
  new : ∀ τ, st0.tensors.length ≤ τ → τ < st.tensors.length → ∃ s, memo.lookup s = some τ

/-- `memo'` knows what `memo` knows. -/
def Ext (memo memo' : Memo) : Prop := ∀ s τ, memo.lookup s = some τ → memo'.lookup s = some τ

theorem Ext.refl (m : Memo) : Ext m m := fun _ _ h => h

theorem Ext.trans {a b c : Memo} (h : Ext a b) (h' : Ext b c) : Ext a c := fun s τ hs => h' s τ (h s τ hs)

theorem lookup_cons (s τ : Nat) (memo : Memo) (a : Nat) :
    List.lookup a ((s, τ) :: memo) = if a = s then some τ else memo.lookup a := by
  rw [List.lookup]
  by_cases h : a = s
  · subst h; simp
  · have : (a == s) = false := by simpa using h
    rw [this, if_neg h]

theorem Core.start (pl : Plan D) (st : St D) : Core pl st st [] :=
  ⟨Nat.le_refl _, fun _ _ => rfl, fun _ _ h => (by cases h), fun _ _ _ h => (by cases h), fun _ h h' => (by omega)⟩

/-- The function does with a tensor what is planned. -/
def Does (pl : Plan D) (fn : Fn D) (s : Nat) (x : Tn D) : Prop :=
  (pl.keep s = true ∧ fn x.data = .ok none) ∨ (pl.keep s = false ∧ ∃ d, fn x.data = .ok (some d) ∧ pl.ok s d)

theorem callFn_core {pl : Plan D} {st0 st : St D} {memo : Memo} (hc : Core pl st0 st memo) (fn : Fn D) (src : Nat)
    (x0 : Tn D) (hx : st0.tensors[src]? = some x0) (hr : pl.reached src) (hf : Does pl fn src x0) :
    ∃ τ st' memo', callFn fn src x0.isParam x0.requiresGrad st memo = .ok (τ, st', memo') ∧ Core pl st0 st' memo' ∧
      memo'.lookup src = some τ ∧ Ext memo memo' ∧ st'.params = st.params ∧ st'.buffers = st.buffers ∧
      ∀ i, i < st.tensors.length → st'.tensors[i]? = st.tensors[i]? := by
  have hlt : src < st0.tensors.length := (List.getElem?_eq_some_iff.1 hx).1
  unfold callFn
  cases hm : memo.lookup src with
  | some τ => exact ⟨τ, st, memo, rfl, hc, hm, Ext.refl _, rfl, rfl, fun _ _ => rfl⟩
  | none =>
    have hne : ∀ s τ, memo.lookup s = some τ → s ≠ src := by
      intro s τ h he; subst he; rw [hm] at h; cases h
    simp only [hc.old src hlt, hx]
    rcases hf with ⟨hk, hf⟩ | ⟨hk, d, hf, hq⟩
    · rw [hf]
      refine ⟨src, st, _, rfl, ?_, by rw [lookup_cons, if_pos rfl], ?_, rfl, rfl, fun _ _ => rfl⟩
      · refine ⟨hc.size, hc.old, ?_, ?_, ?_⟩
        · intro s τ h
          rw [lookup_cons] at h
          split at h
          · rename_i he
            cases h; subst he
            exact ⟨hr, hlt, x0, hx, .inl ⟨hk, rfl⟩⟩
          · obtain ⟨a, b, y0, c, d⟩ := hc.entry s τ h
            refine ⟨a, b, y0, c, d.imp id ?_⟩
            rintro ⟨e1, e2, x, e3, e4, e5, e6, e7⟩
            refine ⟨e1, e2, x, e3, e4, e5, e6, e7.imp id ?_⟩
            rintro ⟨g, g', g1, g2, g3⟩
            exact ⟨g, g', g1, by rw [lookup_cons, if_neg (hne _ _ g2)]; exact g2, g3⟩
        · intro s s' τ h h'
          rw [lookup_cons] at h h'
          split at h <;> split at h'
          · rename_i a b; rw [a, b]
          · rename_i a b
            cases h
            obtain ⟨_, hlt', _, _, e⟩ := hc.entry s' src h'
            rcases e with ⟨_, e⟩ | ⟨_, e, _⟩
            · exact absurd e.symm b
            · omega
          · rename_i a b
            cases h'
            obtain ⟨_, hlt', _, _, e⟩ := hc.entry s src h
            rcases e with ⟨_, e⟩ | ⟨_, e, _⟩
            · exact absurd e.symm a
            · omega
          · exact hc.inj s s' τ h h'
        · intro τ h1 h2
          obtain ⟨s, hs⟩ := hc.new τ h1 h2
          exact ⟨s, by rw [lookup_cons, if_neg (hne _ _ hs)]; exact hs⟩
      · intro s τ h
        rw [lookup_cons, if_neg (hne _ _ h)]; exact h
    · rw [hf]
      have hold : ∀ i, i < st.tensors.length →
          (st.tensors ++ [(⟨d, none, x0.requiresGrad, x0.isParam⟩ : Tn D)])[i]? = st.tensors[i]? :=
        fun i hi => List.getElem?_append_left hi
      refine ⟨st.tensors.length, _, _, rfl, ?_, by rw [lookup_cons, if_pos rfl], ?_, rfl, rfl, hold⟩
      · have hsz := hc.size
        have hval : ∀ s τ, memo.lookup s = some τ → τ < st.tensors.length := by
          intro s τ h
          obtain ⟨_, b, _, _, e⟩ := hc.entry s τ h
          rcases e with ⟨_, e⟩ | ⟨_, _, x, e, _⟩
          · omega
          · exact (List.getElem?_eq_some_iff.1 e).1
        refine ⟨by simp; omega, fun i hi => by simp only; rw [hold i (by omega)]; exact hc.old i hi, ?_, ?_, ?_⟩
        · intro s τ h
          rw [lookup_cons] at h
          split at h
          · rename_i he
            cases h; subst he
            refine ⟨hr, hlt, x0, hx, .inr ⟨hk, hsz, (⟨d, none, x0.requiresGrad, x0.isParam⟩ : Tn D), ?_, hq, rfl, rfl, .inl rfl⟩⟩
            simp only
            rw [List.getElem?_append_right (Nat.le_refl _)]
            simp
          · obtain ⟨a, b, y0, c, dd⟩ := hc.entry s τ h
            refine ⟨a, b, y0, c, dd.imp id ?_⟩
            rintro ⟨e1, e2, x, e3, e4, e5, e6, e7⟩
            refine ⟨e1, e2, x, by simp only; rw [hold _ (hval s τ h)]; exact e3, e4, e5, e6, e7.imp id ?_⟩
            rintro ⟨g, g', g1, g2, g3⟩
            exact ⟨g, g', g1, by rw [lookup_cons, if_neg (hne _ _ g2)]; exact g2, g3⟩
        · intro s s' τ h h'
          rw [lookup_cons] at h h'
          split at h <;> split at h'
          · rename_i a b; rw [a, b]
          · cases h
            have := hval _ _ h'; omega
          · cases h'
            have := hval _ _ h; omega
          · exact hc.inj s s' τ h h'
        · intro τ h1 h2
          simp only [List.length_append, List.length_cons, List.length_nil] at h2
          by_cases he : τ = st.tensors.length
          · subst he; exact ⟨src, by rw [lookup_cons, if_pos rfl]⟩
          · obtain ⟨s, hs⟩ := hc.new τ h1 (by omega)
            exact ⟨s, by rw [lookup_cons, if_neg (hne _ _ hs)]; exact hs⟩
      · intro s τ h
        rw [lookup_cons, if_neg (hne _ _ h)]; exact h

/-- The gradient of the replacement of a parameter is set. -/
def GradSet (st0 st : St D) (memo : Memo) (p : Nat) : Prop :=
  ∃ τ x0 x, memo.lookup p = some τ ∧ st0.tensors[p]? = some x0 ∧ st.tensors[τ]? = some x ∧
    match x0.grad with
    | none => x.grad = none
    | some g => ∃ g', memo.lookup g = some g' ∧ x.grad = some g'

theorem Core.bound {pl : Plan D} {st0 st : St D} {memo : Memo} (hc : Core pl st0 st memo) {s τ : Nat}
    (h : memo.lookup s = some τ) : τ < st.tensors.length := by
  obtain ⟨_, b, _, _, e⟩ := hc.entry s τ h
  have := hc.size
  rcases e with ⟨_, e⟩ | ⟨_, _, x, e, _⟩
  · omega
  · exact (List.getElem?_eq_some_iff.1 e).1

theorem GradSet.ext {pl : Plan D} {st0 st st' : St D} {memo memo' : Memo} (hc : Core pl st0 st memo) {p : Nat}
    (h : GradSet st0 st memo p) (he : Ext memo memo')
    (ho : ∀ i, i < st.tensors.length → st'.tensors[i]? = st.tensors[i]?) : GradSet st0 st' memo' p := by
  obtain ⟨τ, x0, x, h1, h2, h3, h4⟩ := h
  refine ⟨τ, x0, x, he _ _ h1, h2, by rw [ho _ (hc.bound h1)]; exact h3, ?_⟩
  cases hg : x0.grad with
  | none => rw [hg] at h4; exact h4
  | some g =>
    rw [hg] at h4
    obtain ⟨g', a, b⟩ := h4
    exact ⟨g', he _ _ a, b⟩

theorem setGrad_get (t : Nat) (g : Option Nat) (st : St D) (i : Nat) :
    (setGrad t g st).tensors[i]? = if i = t then (st.tensors[i]?).map (fun x => { x with grad := g }) else st.tensors[i]? := by
  unfold setGrad
  simp only [List.getElem?_modify]
  by_cases h : i = t
  · subst h; simp
  · rw [if_neg h]
    have h' : ¬ t = i := fun h' => h h'.symm
    cases st.tensors[i]? <;> simp [h']

theorem setGrad_core {pl : Plan D} {st0 st : St D} {memo : Memo} (hc : Core pl st0 st memo) {p t g g' : Nat} {x0 : Tn D}
    (hx : st0.tensors[p]? = some x0) (hp : memo.lookup p = some t) (hg : x0.grad = some g)
    (hg' : memo.lookup g = some g') (hcoh : pl.keep p = true → pl.keep g = true) :
    Core pl st0 (setGrad t (some g') st) memo ∧ GradSet st0 (setGrad t (some g') st) memo p ∧
      ∀ q, GradSet st0 st memo q → GradSet st0 (setGrad t (some g') st) memo q := by
  have hlt := hc.bound hp
  have hlen : (setGrad t (some g') st).tensors.length = st.tensors.length := by simp [setGrad]
  obtain ⟨-, hpl, y0, hy0, hent⟩ := hc.entry p t hp
  have hsame : y0 = x0 := by rw [hx] at hy0; exact (Option.some.inj hy0).symm
  subst hsame
  have hset : ∃ x, (setGrad t (some g') st).tensors[t]? = some x ∧ x.grad = some g' := by
    rw [setGrad_get, if_pos rfl, List.getElem?_eq_getElem hlt]
    exact ⟨_, rfl, rfl⟩
  refine ⟨⟨by rw [hlen]; exact hc.size, ?_, ?_, hc.inj, by rw [hlen]; exact hc.new⟩, ?_, ?_⟩
  · intro i hi
    rw [setGrad_get]
    split
    · rename_i h
      subst h
      rcases hent with ⟨hk, he⟩ | ⟨_, he, _⟩
      · subst he
        -- a tensor that stays has a gradient that stays
        obtain ⟨_, _, _, _, e⟩ := hc.entry g g' hg'
        rcases e with ⟨_, e⟩ | ⟨e, _⟩
        · subst e
          rw [hc.old _ hi, hx]
          simp [← hg]
        · rw [hcoh hk] at e; cases e
      · omega
    · exact hc.old i hi
  · intro s τ h
    obtain ⟨a, b, z0, c, d⟩ := hc.entry s τ h
    refine ⟨a, b, z0, c, d.imp id ?_⟩
    rintro ⟨e1, e2, x, e3, e4, e5, e6, e7⟩
    by_cases hτ : τ = t
    · have := hc.inj s p τ h (by rw [hτ]; exact hp)
      subst this
      rw [hy0] at c
      cases c
      refine ⟨e1, e2, { x with grad := some g' }, ?_, e4, e5, e6, .inr ⟨g, g', hg, hg', rfl⟩⟩
      rw [setGrad_get, if_pos hτ, e3]; rfl
    · exact ⟨e1, e2, x, by rw [setGrad_get, if_neg hτ]; exact e3, e4, e5, e6, e7⟩
  · obtain ⟨x, h1, h2⟩ := hset
    refine ⟨t, y0, x, hp, hx, h1, ?_⟩
    rw [hg]
    exact ⟨g', hg', h2⟩
  · rintro q ⟨τ, z0, z, h1, h2, h3, h4⟩
    by_cases hτ : τ = t
    · have := hc.inj q p τ h1 (by rw [hτ]; exact hp)
      subst this
      obtain ⟨x, k1, k2⟩ := hset
      refine ⟨t, y0, x, hp, hx, k1, ?_⟩
      rw [hg]
      exact ⟨g', hg', k2⟩
    · exact ⟨τ, z0, z, h1, h2, by rw [setGrad_get, if_neg hτ]; exact h3, h4⟩

/-- The slot with the replacement. -/
def img (memo : Memo) (s : String × Nat) : String × Nat := (s.1, (memo.lookup s.2).getD s.2)

/-- All slots are known to the memo. -/
def Known (memo : Memo) (l : List (String × Nat)) : Prop := ∀ s ∈ l, (memo.lookup s.2).isSome

theorem Known.ext {memo memo' : Memo} {l : List (String × Nat)} (h : Known memo l) (he : Ext memo memo') :
    Known memo' l ∧ l.map (img memo') = l.map (img memo) := by
  constructor
  · intro s hs
    obtain ⟨τ, hτ⟩ := Option.isSome_iff_exists.1 (h s hs)
    rw [he _ _ hτ]; rfl
  · refine List.map_congr_left fun s hs => ?_
    obtain ⟨τ, hτ⟩ := Option.isSome_iff_exists.1 (h s hs)
    simp only [img, hτ, he _ _ hτ]

theorem setSlot_mid (name : String) (p t : Nat) (a b : List (String × Nat))
    (ha : name ∉ a.map (·.1)) (hb : name ∉ b.map (·.1)) :
    setSlot name t (a ++ (name, p) :: b) = a ++ (name, t) :: b := by
  have key : ∀ l : List (String × Nat), name ∉ l.map (·.1) →
      l.map (fun s => if s.1 = name then (name, t) else s) = l := by
    intro l hl
    conv => rhs; rw [← List.map_id l]
    refine List.map_congr_left fun s hs => ?_
    rw [if_neg]; · rfl
    intro he; exact hl (he ▸ List.mem_map_of_mem hs)
  unfold setSlot
  rw [List.map_append, List.map_cons, key a ha, key b hb]
  simp

/-- What is needed of one module. -/
structure Fits (pl : Plan D) (fn : Fn D) (st0 : St D) (m : Nat) : Prop where
  names : ((st0.params m).map (·.1)).Nodup ∧ ((st0.buffers m).map (·.1)).Nodup
  params : ∀ s ∈ st0.params m, ∃ x, st0.tensors[s.2]? = some x ∧ x.isParam = true ∧ pl.reached s.2 ∧ Does pl fn s.2 x ∧
    ∀ g, x.grad = some g → ∃ y, st0.tensors[g]? = some y ∧ y.isParam = false ∧ pl.reached g ∧ Does pl fn g y ∧
      (pl.keep s.2 = true → pl.keep g = true)
  buffers : ∀ s ∈ st0.buffers m, ∃ x, st0.tensors[s.2]? = some x ∧ x.isParam = false ∧ x.requiresGrad = false ∧
    pl.reached s.2 ∧ Does pl fn s.2 x

theorem paramLoop_core {pl : Plan D} {st0 : St D} {fn : Fn D} {m : Nat} (hf : Fits pl fn st0 m) :
    ∀ (ps pre : List (String × Nat)) (st : St D) (memo : Memo), pre ++ ps = st0.params m → Core pl st0 st memo →
      st.params m = pre.map (img memo) ++ ps → Known memo pre →
      ∃ st' memo', paramLoop fn m ps st memo = .ok (st', memo') ∧ Core pl st0 st' memo' ∧ Ext memo memo' ∧
        st'.params m = (st0.params m).map (img memo') ∧ Known memo' (st0.params m) ∧
        (∀ i, i ≠ m → st'.params i = st.params i) ∧ st'.buffers = st.buffers ∧ (∀ s ∈ ps, GradSet st0 st' memo' s.2) ∧
        ∀ q, GradSet st0 st memo q → GradSet st0 st' memo' q
  | [], pre, st, memo, hp, hc, hs, hk => by
    rw [List.append_nil] at hp hs
    subst hp
    exact ⟨st, memo, rfl, hc, Ext.refl _, hs, hk, fun _ _ => rfl, rfl, by simp, fun _ h => h⟩
  | (name, p) :: ps, pre, st, memo, hp, hc, hs, hk => by
    have hmem : (name, p) ∈ st0.params m := by rw [← hp]; simp
    obtain ⟨x0, hx0, hpar, hr, hd, hgr⟩ := hf.params _ hmem
    simp only at hx0 hr hd hgr
    have hlt : p < st0.tensors.length := (List.getElem?_eq_some_iff.1 hx0).1
    have hnd := hf.names.1
    rw [← hp, List.map_append, List.map_cons, List.nodup_append, List.nodup_cons] at hnd
    obtain ⟨-, ⟨hn2, -⟩, hn3⟩ := hnd
    have hn1 : name ∉ pre.map (·.1) := fun h => hn3 name h name (by simp) rfl
    obtain ⟨τ, st1, memo1, a1, a2, a3, a4, a5, a6, a7⟩ := callFn_core hc fn p x0 hx0 hr hd
    rw [hpar] at a1
    rw [paramLoop, hc.old p hlt, hx0]
    simp only [Option.elim_some, a1]
    -- after `setattr`
    obtain ⟨k1, k2⟩ := hk.ext a4
    have hslot : setSlot name τ (st1.params m) = (pre ++ [(name, p)]).map (img memo1) ++ ps := by
      rw [a5, hs, setSlot_mid name p τ _ _ (by
        rw [List.map_map]; exact hn1) hn2]
      rw [List.map_append, k2, List.append_assoc]
      simp [img, a3]
    have hkn : Known memo1 (pre ++ [(name, p)]) := by
      intro s hs
      rcases List.mem_append.1 hs with hs | hs
      · exact k1 s hs
      · simp only [List.mem_singleton] at hs; subst hs; simp [a3]
    have hc1 : Core pl st0 { st1 with params := fun i => if i = m then setSlot name τ (st1.params m) else st1.params i }
        memo1 := ⟨a2.size, a2.old, a2.entry, a2.inj, a2.new⟩
    have hread : (st1.tensors[p]?).bind (·.grad) = x0.grad := by rw [a2.old p hlt, hx0]; rfl
    simp only [hread]
    cases hg : x0.grad with
    | none =>
      simp only
      obtain ⟨st', memo', b1, b2, b3, b4, b5, b6, b7, b8, b9⟩ := paramLoop_core hf ps (pre ++ [(name, p)]) _ memo1
        (by simpa using hp) hc1 (by simp only [if_true]; exact hslot) hkn
      refine ⟨st', memo', b1, b2, a4.trans b3, b4, b5, ?_, by rw [b7]; exact a6, ?_, ?_⟩
      · intro i hi
        rw [b6 i hi]; simp only [if_neg hi, a5]
      · intro s hs
        rcases List.mem_cons.1 hs with rfl | hs
        · refine b9 _ ?_
          obtain ⟨-, -, y0, c, d⟩ := a2.entry p τ a3
          rw [hx0] at c; cases c
          rcases d with ⟨-, e⟩ | ⟨-, -, x, e3, -, -, -, e7⟩
          · rw [e] at a3
            refine ⟨p, x0, x0, a3, hx0, by simp only; rw [a2.old _ hlt]; exact hx0, ?_⟩
            rw [hg]
          · refine ⟨τ, x0, x, a3, hx0, e3, ?_⟩
            rw [hg]
            rcases e7 with e7 | ⟨g, _, e8, _⟩
            · exact e7
            · rw [hg] at e8; cases e8
        · exact b8 s hs
      · intro q hq
        have h1 : GradSet st0 { st1 with params := fun i => if i = m then setSlot name τ (st1.params m) else st1.params i }
            memo1 q := hq.ext hc a4 a7
        exact b9 q h1
    | some g =>
      obtain ⟨y, hy, hyp, hyr, hyd, hkeep⟩ := hgr g hg
      have hglt : g < st0.tensors.length := (List.getElem?_eq_some_iff.1 hy).1
      obtain ⟨g', st2, memo2, c1, c2, c3, c4, c5, c6, c7⟩ := callFn_core hc1 fn g y hy hyr hyd
      rw [hyp] at c1
      simp only [a2.old g hglt, hy, Option.elim_some, c1]
      obtain ⟨d1, d2, d3⟩ := setGrad_core c2 hx0 (c4 _ _ a3) hg c3 hkeep
      obtain ⟨k3, k4⟩ := hkn.ext c4
      have hsg : ∀ t x (z : St D), (setGrad t x z).params = z.params ∧ (setGrad t x z).buffers = z.buffers := by
        intro t x z; exact ⟨rfl, rfl⟩
      obtain ⟨st', memo', b1, b2, b3, b4, b5, b6, b7, b8, b9⟩ := paramLoop_core hf ps (pre ++ [(name, p)]) _ memo2
        (by simpa using hp) d1 (by rw [(hsg _ _ _).1, c5]; simp only [if_true]; rw [hslot, k4]) k3
      refine ⟨st', memo', b1, b2, (a4.trans c4).trans b3, b4, b5, ?_, ?_, ?_, ?_⟩
      · intro i hi
        rw [b6 i hi, (hsg _ _ _).1, c5]; simp only [if_neg hi, a5]
      · rw [b7, (hsg _ _ _).2, c6]; exact a6
      · intro s hs
        rcases List.mem_cons.1 hs with rfl | hs
        · exact b9 _ d2
        · exact b8 s hs
      · intro q hq
        have h1 : GradSet st0 { st1 with params := fun i => if i = m then setSlot name τ (st1.params m) else st1.params i }
            memo1 q := hq.ext hc a4 a7
        exact b9 q (d3 q (h1.ext hc1 c4 c7))

theorem bufferLoop_core {pl : Plan D} {st0 : St D} {fn : Fn D} {m : Nat} (hf : Fits pl fn st0 m) :
    ∀ (ps pre : List (String × Nat)) (st : St D) (memo : Memo), pre ++ ps = st0.buffers m → Core pl st0 st memo →
      st.buffers m = pre.map (img memo) ++ ps → Known memo pre →
      ∃ st' memo', bufferLoop fn m ps st memo = .ok (st', memo') ∧ Core pl st0 st' memo' ∧ Ext memo memo' ∧
        st'.buffers m = (st0.buffers m).map (img memo') ∧ Known memo' (st0.buffers m) ∧
        (∀ i, i ≠ m → st'.buffers i = st.buffers i) ∧ st'.params = st.params ∧
        ∀ q, GradSet st0 st memo q → GradSet st0 st' memo' q
  | [], pre, st, memo, hp, hc, hs, hk => by
    rw [List.append_nil] at hp hs
    subst hp
    exact ⟨st, memo, rfl, hc, Ext.refl _, hs, hk, fun _ _ => rfl, rfl, fun _ h => h⟩
  | (name, p) :: ps, pre, st, memo, hp, hc, hs, hk => by
    have hmem : (name, p) ∈ st0.buffers m := by rw [← hp]; simp
    obtain ⟨x0, hx0, hpar, hrg, hr, hd⟩ := hf.buffers _ hmem
    simp only at hx0 hr hd
    have hnd := hf.names.2
    rw [← hp, List.map_append, List.map_cons, List.nodup_append, List.nodup_cons] at hnd
    obtain ⟨-, ⟨hn2, -⟩, hn3⟩ := hnd
    have hn1 : name ∉ pre.map (·.1) := fun h => hn3 name h name (by simp) rfl
    obtain ⟨τ, st1, memo1, a1, a2, a3, a4, a5, a6, a7⟩ := callFn_core hc fn p x0 hx0 hr hd
    rw [hpar, hrg] at a1
    rw [bufferLoop]
    simp only [a1]
    obtain ⟨k1, k2⟩ := hk.ext a4
    have hslot : setSlot name τ (st1.buffers m) = (pre ++ [(name, p)]).map (img memo1) ++ ps := by
      rw [a6, hs, setSlot_mid name p τ _ _ (by
        rw [List.map_map]; exact hn1) hn2]
      rw [List.map_append, k2, List.append_assoc]
      simp [img, a3]
    have hkn : Known memo1 (pre ++ [(name, p)]) := by
      intro s hs
      rcases List.mem_append.1 hs with hs | hs
      · exact k1 s hs
      · simp only [List.mem_singleton] at hs; subst hs; simp [a3]
    have hc1 : Core pl st0 { st1 with buffers := fun i => if i = m then setSlot name τ (st1.buffers m) else st1.buffers i }
        memo1 := ⟨a2.size, a2.old, a2.entry, a2.inj, a2.new⟩
    obtain ⟨st', memo', b1, b2, b3, b4, b5, b6, b7, b9⟩ := bufferLoop_core hf ps (pre ++ [(name, p)]) _ memo1
      (by simpa using hp) hc1 (by simp only [if_true]; exact hslot) hkn
    refine ⟨st', memo', b1, b2, a4.trans b3, b4, b5, ?_, by rw [b7]; exact a5, ?_⟩
    · intro i hi
      rw [b6 i hi]; simp only [if_neg hi, a6]
    · intro q hq
      have h1 : GradSet st0 { st1 with buffers := fun i => if i = m then setSlot name τ (st1.buffers m) else st1.buffers i }
          memo1 q := hq.ext hc a4 a7
      exact b9 q h1

/-- A module that has been treated. -/
structure Treated (st0 st : St D) (memo : Memo) (m : Nat) : Prop where
  params : st.params m = (st0.params m).map (img memo)
  buffers : st.buffers m = (st0.buffers m).map (img memo)
  knownP : Known memo (st0.params m)
  knownB : Known memo (st0.buffers m)
  grads : ∀ s ∈ st0.params m, GradSet st0 st memo s.2

theorem applyOwn_core {pl : Plan D} {st0 st : St D} {fn : Fn D} {m : Nat} {memo : Memo} (hf : Fits pl fn st0 m)
    (hc : Core pl st0 st memo) (hp : st.params m = st0.params m) (hb : st.buffers m = st0.buffers m) :
    ∃ st' memo', applyOwn fn m st memo = .ok (st', memo') ∧ Core pl st0 st' memo' ∧ Ext memo memo' ∧
      Treated st0 st' memo' m ∧ (∀ i, i ≠ m → st'.params i = st.params i ∧ st'.buffers i = st.buffers i) ∧
      ∀ q, GradSet st0 st memo q → GradSet st0 st' memo' q := by
  obtain ⟨st1, memo1, a1, a2, a3, a4, a5, a6, a7, a8, a9⟩ := paramLoop_core hf (st0.params m) [] st memo rfl hc
    (by simp [hp]) (by intro s hs; cases hs)
  obtain ⟨st2, memo2, b1, b2, b3, b4, b5, b6, b7, b9⟩ := bufferLoop_core hf (st0.buffers m) [] st1 memo1 rfl a2
    (by simp [a7, hb]) (by intro s hs; cases hs)
  refine ⟨st2, memo2, ?_, b2, a3.trans b3, ⟨?_, b4, (a5.ext b3).1, b5, ?_⟩, ?_, ?_⟩
  · unfold applyOwn
    rw [hp, a1]
    simp only
    rw [a7, hb, b1]
  · rw [b7, a4, (a5.ext b3).2]
  · exact fun s hs => b9 _ (a8 s hs)
  · intro i hi
    exact ⟨by rw [b7]; exact a6 i hi, by rw [b6 i hi, a7]⟩
  · exact fun q hq => b9 q (a9 q hq)

theorem Treated.ext {st0 st st' : St D} {memo memo' : Memo} {m : Nat} (h : Treated st0 st memo m)
    (he : Ext memo memo') (hp : st'.params m = st.params m) (hb : st'.buffers m = st.buffers m)
    (hg : ∀ q, GradSet st0 st memo q → GradSet st0 st' memo' q) : Treated st0 st' memo' m :=
  ⟨by rw [hp, h.params, (h.knownP.ext he).2], by rw [hb, h.buffers, (h.knownB.ext he).2], (h.knownP.ext he).1,
    (h.knownB.ext he).1, fun s hs => hg _ (h.grads s hs)⟩

/-- All modules of a list. -/
theorem ownLoop_core {pl : Plan D} {st0 : St D} {fn : Fn D} : ∀ (L done : List Nat) (st : St D) (memo : Memo),
    (∀ m ∈ L, Fits pl fn st0 m) → L.Nodup → (∀ m ∈ L, m ∉ done) → Core pl st0 st memo →
    (∀ m ∈ done, Treated st0 st memo m) →
    (∀ m, m ∉ done → st.params m = st0.params m ∧ st.buffers m = st0.buffers m) →
    ∃ st' memo', ownLoop fn L st memo = .ok (st', memo') ∧ Core pl st0 st' memo' ∧
      (∀ m, m ∈ L ∨ m ∈ done → Treated st0 st' memo' m) ∧
      ∀ m, m ∉ L → m ∉ done → st'.params m = st0.params m ∧ st'.buffers m = st0.buffers m
  | [], done, st, memo, _, _, _, hc, hd, hn =>
    ⟨st, memo, rfl, hc, fun m h => hd m (h.elim (fun h => by cases h) id), fun m _ h => hn m h⟩
  | m :: L, done, st, memo, hf, hnd, hdis, hc, hd, hn => by
    have hm := hn m (hdis m (by simp))
    obtain ⟨st1, memo1, a1, a2, a3, a4, a5, a6⟩ := applyOwn_core (hf m (by simp)) hc hm.1 hm.2
    rw [List.nodup_cons] at hnd
    obtain ⟨st2, memo2, b1, b2, b3, b4⟩ := ownLoop_core L (m :: done) st1 memo1 (fun i hi => hf i (by simp [hi])) hnd.2
      (by
        intro i hi h
        rcases List.mem_cons.1 h with rfl | h
        · exact hnd.1 hi
        · exact hdis i (by simp [hi]) h) a2
      (by
        intro i hi
        rcases List.mem_cons.1 hi with rfl | h
        · exact a4
        · have hne : i ≠ m := by rintro rfl; exact hdis i (by simp) h
          exact (hd i h).ext a3 (a5 i hne).1 (a5 i hne).2 a6)
      (by
        intro i hi
        have hne : i ≠ m := by rintro rfl; exact hi (by simp)
        have hnd' : i ∉ done := fun h => hi (by simp [h])
        exact ⟨(a5 i hne).1.trans (hn i hnd').1, (a5 i hne).2.trans (hn i hnd').2⟩)
    refine ⟨st2, memo2, by rw [ownLoop, a1]; exact b1, b2, ?_, ?_⟩
    · intro i hi
      refine b3 i ?_
      rcases hi with hi | hi
      · rcases List.mem_cons.1 hi with rfl | hi
        · exact .inr (by simp)
        · exact .inl hi
      · exact .inr (by simp [hi])
    · intro i h1 h2
      exact b4 i (fun h => h1 (by simp [h])) (by
        intro h
        rcases List.mem_cons.1 h with rfl | h
        · exact h1 (by simp)
        · exact h2 h)

/-! ### Devices -/

theorem modify_data_get (t : Nat) (f : D → D) (st : St D) (i : Nat) :
    (st.tensors.modify t fun x => { x with data := f x.data })[i]? =
      if i = t then (st.tensors[i]?).map (fun x => { x with data := f x.data }) else st.tensors[i]? := by
  simp only [List.getElem?_modify]
  by_cases h : i = t
  · subst h; simp
  · rw [if_neg h]
    have h' : ¬ t = i := fun h' => h h'.symm
    cases st.tensors[i]? <;> simp [h']

/-- Writing to replacements. -/
theorem write_core {pl : Plan D} {st0 : St D} {memo : Memo} (f : D → D) : ∀ (ts : List Nat) (st : St D),
    Core pl st0 st memo →
    (∀ τ ∈ ts, ∃ s, memo.lookup s = some τ ∧ pl.keep s = false ∧ ∀ d, pl.ok s d → pl.ok s (f d)) →
    Core pl st0 (ts.foldl (fun st t => { st with tensors := st.tensors.modify t fun x => { x with data := f x.data } }) st)
      memo ∧
    (∀ q, GradSet st0 st memo q → GradSet st0
      (ts.foldl (fun st t => { st with tensors := st.tensors.modify t fun x => { x with data := f x.data } }) st) memo q) ∧
    (ts.foldl (fun st t => { st with tensors := st.tensors.modify t fun x => { x with data := f x.data } }) st).params =
      st.params ∧
    (ts.foldl (fun st t => { st with tensors := st.tensors.modify t fun x => { x with data := f x.data } }) st).buffers =
      st.buffers
  | [], st, hc, _ => ⟨hc, fun _ h => h, rfl, rfl⟩
  | τ :: ts, st, hc, h => by
    obtain ⟨s, hs, hk, hq⟩ := h τ (by simp)
    have hge : st0.tensors.length ≤ τ := by
      obtain ⟨_, _, _, _, e⟩ := hc.entry s τ hs
      rcases e with ⟨e, _⟩ | ⟨_, e, _⟩
      · rw [hk] at e; cases e
      · exact e
    have hc1 : Core pl st0 { st with tensors := st.tensors.modify τ fun x => { x with data := f x.data } } memo := by
      refine ⟨by simpa using hc.size, ?_, ?_, hc.inj, by simpa using hc.new⟩
      · intro i hi
        simp only
        rw [modify_data_get, if_neg (by omega)]
        exact hc.old i hi
      · intro s' τ' h'
        obtain ⟨a, b, y0, c, d⟩ := hc.entry s' τ' h'
        refine ⟨a, b, y0, c, d.imp id ?_⟩
        rintro ⟨e1, e2, x, e3, e4, e5, e6, e7⟩
        simp only [modify_data_get]
        by_cases he : τ' = τ
        · have := hc.inj s' s τ' h' (by rw [he]; exact hs)
          subst this
          rw [if_pos he, e3]
          exact ⟨e1, e2, _, rfl, hq _ e4, e5, e6, e7⟩
        · rw [if_neg he]
          exact ⟨e1, e2, x, e3, e4, e5, e6, e7⟩
    obtain ⟨a1, a2, a3, a4⟩ := write_core f ts _ hc1 (fun τ' h' => h τ' (by simp [h']))
    refine ⟨a1, ?_, a3, a4⟩
    rintro q ⟨τ', x0, x, h1, h2, h3, h4⟩
    refine a2 q ?_
    by_cases he : τ' = τ
    · exact ⟨τ', x0, { x with data := f x.data }, h1, h2, by simp only; rw [modify_data_get, if_pos he, h3]; rfl, h4⟩
    · exact ⟨τ', x0, x, h1, h2, by simp only; rw [modify_data_get, if_neg he]; exact h3, h4⟩

/-- The function that is used for a module on a device. -/
def deviceFn (v : Devices D) (target : v.Dev) (d : v.Dev) : Fn D :=
  if v.isMeta d then emptyFn v target else moveFn v target

theorem moveLoop_core {pl : Plan D} {st0 : St D} (v : Devices D) (target : v.Dev) : ∀ (L : List (Nat × v.Dev))
    (done : List Nat) (st : St D) (memo : Memo),
    (∀ e ∈ L, Fits pl (deviceFn v target e.2) st0 e.1) → (L.map (·.1)).Nodup → (∀ e ∈ L, e.1 ∉ done) →
    (∀ e ∈ L, v.isMeta e.2 = true → ∀ s ∈ ownTensors st0 e.1, pl.keep s = false ∧
      ∀ d, pl.ok s d → pl.ok s (v.reset e.1 d)) →
    Core pl st0 st memo → (∀ m ∈ done, Treated st0 st memo m) →
    (∀ m, m ∉ done → st.params m = st0.params m ∧ st.buffers m = st0.buffers m) →
    ∃ st' memo', moveLoop v target L st memo = .ok (st', memo') ∧ Core pl st0 st' memo' ∧
      (∀ m, m ∈ L.map (·.1) ∨ m ∈ done → Treated st0 st' memo' m) ∧
      ∀ m, m ∉ L.map (·.1) → m ∉ done → st'.params m = st0.params m ∧ st'.buffers m = st0.buffers m
  | [], done, st, memo, _, _, _, _, hc, hd, hn =>
    ⟨st, memo, rfl, hc, fun m h => hd m (h.elim (fun h => by cases h) id), fun m _ h => hn m h⟩
  | (m, d) :: L, done, st, memo, hf, hnd, hdis, hr, hc, hd, hn => by
    have hm := hn m (hdis (m, d) (by simp))
    obtain ⟨st1, memo1, a1, a2, a3, a4, a5, a6⟩ := applyOwn_core (hf (m, d) (by simp)) hc hm.1 hm.2
    rw [List.map_cons, List.nodup_cons] at hnd
    -- the state after an optional reset
    have next : ∃ st2, moveLoop v target ((m, d) :: L) st memo = moveLoop v target L st2 memo1 ∧ Core pl st0 st2 memo1 ∧
        (∀ q, GradSet st0 st1 memo1 q → GradSet st0 st2 memo1 q) ∧ st2.params = st1.params ∧ st2.buffers = st1.buffers := by
      rw [moveLoop]
      by_cases hmeta : v.isMeta d = true
      · simp only [deviceFn, if_pos hmeta] at a1
        rw [if_pos hmeta, a1]
        simp only
        refine ⟨_, rfl, ?_⟩
        unfold resetOwn
        refine write_core (v.reset m) _ st1 a2 ?_
        intro τ hτ
        have hmem : ∀ l l' : List (String × Nat), l' = l.map (img memo1) → Known memo1 l → τ ∈ l'.map (·.2) →
            ∃ s ∈ l.map (·.2), memo1.lookup s = some τ := by
          intro l l' he hk hτ
          subst he
          rw [List.map_map] at hτ
          obtain ⟨s, hs, hse⟩ := List.mem_map.1 hτ
          obtain ⟨τ', hτ'⟩ := Option.isSome_iff_exists.1 (hk s hs)
          simp only [Function.comp, img, hτ', Option.getD_some] at hse
          subst hse
          exact ⟨s.2, List.mem_map_of_mem hs, hτ'⟩
        unfold ownTensors at hτ
        rcases List.mem_append.1 hτ with hτ | hτ
        · obtain ⟨s, h1, h2⟩ := hmem _ _ a4.params a4.knownP hτ
          have := hr (m, d) (by simp) hmeta s (by unfold ownTensors; exact List.mem_append_left _ h1)
          exact ⟨s, h2, this.1, this.2⟩
        · obtain ⟨s, h1, h2⟩ := hmem _ _ a4.buffers a4.knownB hτ
          have := hr (m, d) (by simp) hmeta s (by unfold ownTensors; exact List.mem_append_right _ h1)
          exact ⟨s, h2, this.1, this.2⟩
      · simp only [deviceFn, if_neg hmeta] at a1
        rw [if_neg hmeta, a1]
        exact ⟨st1, rfl, a2, fun _ h => h, rfl, rfl⟩
    obtain ⟨st2, n1, n2, n3, n4, n5⟩ := next
    obtain ⟨st3, memo3, b1, b2, b3, b4⟩ := moveLoop_core v target L (m :: done) st2 memo1
      (fun i hi => hf i (by simp [hi])) hnd.2
      (by
        intro i hi h
        rcases List.mem_cons.1 h with h | h
        · exact hnd.1 (List.mem_map.2 ⟨i, hi, h⟩)
        · exact hdis i (by simp [hi]) h)
      (fun e he => hr e (by simp [he])) n2
      (by
        intro i hi
        rcases List.mem_cons.1 hi with rfl | h
        · exact a4.ext (Ext.refl _) (by rw [n4]) (by rw [n5]) n3
        · have hne : i ≠ m := by rintro rfl; exact hdis (i, d) (by simp) h
          exact (hd i h).ext a3 (by rw [n4]; exact (a5 i hne).1) (by rw [n5]; exact (a5 i hne).2)
            (fun q hq => n3 q (a6 q hq)))
      (by
        intro i hi
        have hne : i ≠ m := by rintro rfl; exact hi (by simp)
        have hnd' : i ∉ done := fun h => hi (by simp [h])
        rw [n4, n5]
        exact ⟨(a5 i hne).1.trans (hn i hnd').1, (a5 i hne).2.trans (hn i hnd').2⟩)
    refine ⟨st3, memo3, by rw [n1]; exact b1, b2, ?_, ?_⟩
    · intro i hi
      refine b3 i ?_
      rcases hi with hi | hi
      · rcases List.mem_cons.1 hi with rfl | hi
        · exact .inr (by simp)
        · exact .inl hi
      · exact .inr (by simp [hi])
    · intro i h1 h2
      refine b4 i (fun h => h1 (by simp only [List.map_cons, List.mem_cons]; exact .inr h)) ?_
      intro h
      rcases List.mem_cons.1 h with rfl | h
      · exact h1 (by simp)
      · exact h2 h

/-! ### Sharing -/

/-- All tensors are in the memo and have no gradients: only slots change. -/
theorem paramLoop_known {fn : Fn D} {m : Nat} {memo : Memo} : ∀ (ps pre : List (String × Nat)) (st : St D),
    Known memo (pre ++ ps) → (∀ s ∈ ps, (st.tensors[s.2]?).bind (·.grad) = none) →
    ((pre ++ ps).map (·.1)).Nodup → st.params m = pre.map (img memo) ++ ps →
    paramLoop fn m ps st memo =
      .ok ({ st with params := fun i => if i = m then (pre ++ ps).map (img memo) else st.params i }, memo)
  | [], pre, st, hk, hg, hnd, hs => by
    rw [paramLoop]
    congr 2
    cases st
    simp only [List.append_nil] at hs ⊢
    congr
    funext i
    split
    · rename_i h; rw [h, hs]
    · rfl
  | (name, p) :: ps, pre, st, hk, hg, hnd, hs => by
    obtain ⟨t, ht⟩ := Option.isSome_iff_exists.1 (hk (name, p) (by simp))
    simp only at ht
    have hg0 := hg (name, p) (by simp)
    simp only at hg0
    have hnd' := hnd
    rw [List.map_append, List.map_cons, List.nodup_append, List.nodup_cons] at hnd'
    obtain ⟨-, ⟨hn2, -⟩, hn3⟩ := hnd'
    have hn1 : name ∉ pre.map (·.1) := fun h => hn3 name h name (by simp) rfl
    rw [paramLoop]
    simp only [callFn, ht, hg0]
    have hslot : setSlot name t (st.params m) = (pre ++ [(name, p)]).map (img memo) ++ ps := by
      rw [hs, setSlot_mid name p t _ _ (by rw [List.map_map]; exact hn1) hn2, List.map_append, List.append_assoc]
      simp [img, ht]
    have ih := paramLoop_known (fn := fn) (m := m) (memo := memo) ps (pre ++ [(name, p)])
      { st with params := fun i => if i = m then setSlot name t (st.params m) else st.params i }
      (by simpa using hk) (fun s hs => hg s (by simp [hs])) (by simpa using hnd) (by simp only [if_true]; exact hslot)
    rw [ih]
    congr 2
    simp only [List.append_assoc, List.cons_append, List.nil_append]
    congr
    funext i
    split <;> rfl

theorem bufferLoop_known {fn : Fn D} {m : Nat} {memo : Memo} : ∀ (ps pre : List (String × Nat)) (st : St D),
    Known memo (pre ++ ps) → ((pre ++ ps).map (·.1)).Nodup → st.buffers m = pre.map (img memo) ++ ps →
    bufferLoop fn m ps st memo =
      .ok ({ st with buffers := fun i => if i = m then (pre ++ ps).map (img memo) else st.buffers i }, memo)
  | [], pre, st, hk, hnd, hs => by
    rw [bufferLoop]
    congr 2
    cases st
    simp only [List.append_nil] at hs ⊢
    congr
    funext i
    split
    · rename_i h; rw [h, hs]
    · rfl
  | (name, p) :: ps, pre, st, hk, hnd, hs => by
    obtain ⟨t, ht⟩ := Option.isSome_iff_exists.1 (hk (name, p) (by simp))
    simp only at ht
    have hnd' := hnd
    rw [List.map_append, List.map_cons, List.nodup_append, List.nodup_cons] at hnd'
    obtain ⟨-, ⟨hn2, -⟩, hn3⟩ := hnd'
    have hn1 : name ∉ pre.map (·.1) := fun h => hn3 name h name (by simp) rfl
    rw [bufferLoop]
    simp only [callFn, ht]
    have hslot : setSlot name t (st.buffers m) = (pre ++ [(name, p)]).map (img memo) ++ ps := by
      rw [hs, setSlot_mid name p t _ _ (by rw [List.map_map]; exact hn1) hn2, List.map_append, List.append_assoc]
      simp [img, ht]
    have ih := bufferLoop_known (fn := fn) (m := m) (memo := memo) ps (pre ++ [(name, p)])
      { st with buffers := fun i => if i = m then setSlot name t (st.buffers m) else st.buffers i }
      (by simpa using hk) (by simpa using hnd) (by simp only [if_true]; exact hslot)
    rw [ih]
    congr 2
    simp only [List.append_assoc, List.cons_append, List.nil_append]
    congr
    funext i
    split <;> rfl

/-- The modules of a list get the tensors of the memo. -/
theorem ownLoop_known {fn : Fn D} {memo : Memo} : ∀ (L : List Nat) (st : St D), L.Nodup →
    (∀ m ∈ L, Known memo (st.params m) ∧ Known memo (st.buffers m) ∧ ((st.params m).map (·.1)).Nodup ∧
      ((st.buffers m).map (·.1)).Nodup ∧ ∀ s ∈ st.params m, (st.tensors[s.2]?).bind (·.grad) = none) →
    ownLoop fn L st memo = .ok ({ st with
      params := fun i => if i ∈ L then (st.params i).map (img memo) else st.params i
      buffers := fun i => if i ∈ L then (st.buffers i).map (img memo) else st.buffers i }, memo)
  | [], st, _, _ => by simp [ownLoop]
  | m :: L, st, hnd, h => by
    obtain ⟨h1, h2, h3, h4, h5⟩ := h m (by simp)
    rw [List.nodup_cons] at hnd
    have e1 := paramLoop_known (fn := fn) (m := m) (memo := memo) (st.params m) [] st (by simpa using h1) h5
      (by simpa using h3) (by simp)
    have e2 := bufferLoop_known (fn := fn) (m := m) (memo := memo) (st.buffers m) []
      { st with params := fun i => if i = m then ([] ++ st.params m).map (img memo) else st.params i }
      (by simpa using h2) (by simpa using h4) (by simp)
    rw [ownLoop]
    unfold applyOwn
    rw [e1]
    simp only
    rw [e2]
    simp only
    rw [ownLoop_known L _ hnd.2 (by
      intro i hi
      have hne : i ≠ m := by rintro rfl; exact hnd.1 hi
      simp only [if_neg hne]
      exact h i (by simp [hi]))]
    congr 2
    simp only [List.nil_append, List.mem_cons]
    congr
    · funext i
      by_cases hi : i = m
      · subst hi; simp [hnd.1]
      · simp [hi]
    · funext i
      by_cases hi : i = m
      · subst hi; simp [hnd.1]
      · simp [hi]

end Fs2.Mod
