import Verif.Nn.ModuleShare

/-!
# C85: walking over modules
-/

namespace Fs2.Props
open Fs2.Mod

variable {D : Type}

/-! ### Specification -/

/-- The slots of a module: its parameters and buffers. -/
def slotsOf (st : St D) (m : Nat) : List (String × Nat) := st.params m ++ st.buffers m

/-- The tensors of the modules below `t`, with gradients. -/
def Held (st : St D) (t : Tree) (s : Nat) : Prop :=
  ∃ m ∈ ids t, s ∈ (slotsOf st m).map (·.2) ∨
    ∃ p ∈ (st.params m).map (·.2), (st.tensors[p]?).bind (·.grad) = some s

/-- The state is one of PyTorch: tensors exist, parameters are `Parameter`s, buffers and gradients are not, and buffers
need no gradient; names are unique in a module. -/
structure Sound (st : St D) (t : Tree) : Prop where
  names : ∀ m ∈ ids t, ((st.params m).map (·.1)).Nodup ∧ ((st.buffers m).map (·.1)).Nodup
  params : ∀ m ∈ ids t, ∀ s ∈ st.params m, ∃ x, st.tensors[s.2]? = some x ∧ x.isParam = true ∧
    ∀ g, x.grad = some g → ∃ y, st.tensors[g]? = some y ∧ y.isParam = false
  buffers : ∀ m ∈ ids t, ∀ s ∈ st.buffers m, ∃ x, st.tensors[s.2]? = some x ∧ x.isParam = false ∧ x.requiresGrad = false

/-- The modules below `t` have `φ` of each tensor instead of the tensor, under the same names; nothing else changed. -/
structure Replaced (st st' : St D) (t : Tree) (φ : Nat → Nat) : Prop where
  slots : ∀ m ∈ ids t, st'.params m = (st.params m).map (fun s => (s.1, φ s.2)) ∧
    st'.buffers m = (st.buffers m).map (fun s => (s.1, φ s.2))
  others : ∀ m, m ∉ ids t → st'.params m = st.params m ∧ st'.buffers m = st.buffers m
  tensors : ∀ i, i < st.tensors.length → st'.tensors[i]? = st.tensors[i]?

/-- Two places have one tensor afterwards iff they had one before; gradients go with their parameters; there are no
other new tensors. -/
structure KeepsSharing (st st' : St D) (t : Tree) (φ : Nat → Nat) : Prop where
  tied : ∀ s s', Held st t s → Held st t s' → φ s = φ s' → s = s'
  grads : ∀ m ∈ ids t, ∀ p ∈ (st.params m).map (·.2),
    (st'.tensors[φ p]?).bind (·.grad) = ((st.tensors[p]?).bind (·.grad)).map φ
  news : ∀ i, st.tensors.length ≤ i → i < st'.tensors.length → ∃ s, Held st t s ∧ φ s = i

/-! ### `_get_named_modules` -/

/-- **Every module once.** All modules below a module are given, each once, under names that lead to it; with
`post_order` after everything below it, otherwise the module itself comes first. -/
theorem C85_modules (t : Tree) (hc : Consistent t) (post : Bool) (pre : String) :
    ((visit post pre t []).1.filterMap (·.2)).Nodup ∧
    (∀ i, i ∈ (visit post pre t []).1.filterMap (·.2) ↔ i ∈ ids t) ∧
    (∀ name i, (name, some i) ∈ (visit post pre t []).1 →
      ∃ ks s, Leads t ks s ∧ s.id = i ∧ name = ks.foldl join pre) ∧
    (post = true → ∀ l1 l2 i, (visit post pre t []).1.filterMap (·.2) = l1 ++ i :: l2 →
      ∀ s ∈ subs t, s.id = i → ∀ s' ∈ subs s, s'.id ≠ i → s'.id ∈ l1) ∧
    (post = false → (visit post pre t []).1.head? = some (pre, some t.id)) := by
  refine ⟨(visit_found post pre t []).1, visit_all t hc post pre, visit_names post pre t [], ?_, ?_⟩
  · rintro rfl l1 l2 i he s hs hi s' hs' hne
    exact visit_post t hc pre l1 l2 i he s hs hi s' hs' hne
  · rintro rfl
    cases t with
    | node i cs => rw [visit, if_neg (by simp)]; rfl

/-! A model with a table that is used in two places and tied to the projection. -/

/-- The tree of the examples. -/
private def toyTree : Tree :=
  .node 0 (.child "encoder" (.node 1 (.missing "norm" (.child "table" (.node 3 .nil) .nil)))
    (.child "decoder" (.node 2 (.child "table" (.node 3 .nil) .nil)) .nil))

private theorem toy_consistent : Consistent toyTree := by
  intro s hs s' hs' h
  simp only [toyTree, subs, subsAll, List.nil_append, List.append_nil, List.cons_append, List.mem_cons,
    List.not_mem_nil, or_false] at hs hs'
  rcases hs with rfl | rfl | rfl | rfl | rfl <;> rcases hs' with rfl | rfl | rfl | rfl | rfl <;>
    first | rfl | (simp [Tree.id] at h)

private theorem toy_ids (m : Nat) (h : m ∈ ids toyTree) : m = 0 ∨ m = 1 ∨ m = 2 ∨ m = 3 := by
  simp only [ids, toyTree, subs, subsAll, List.nil_append, List.append_nil, List.cons_append, List.map_cons, List.map_nil,
    Tree.id, List.mem_cons, List.not_mem_nil, or_false] at h
  omega

/-- The table has a gradient, module 2 ties its projection to it and has a buffer. -/
private def toyState : St Nat where
  tensors := [⟨5, some 1, true, true⟩, ⟨6, none, false, false⟩, ⟨7, none, false, false⟩]
  params := fun m => if m = 3 then [("weight", 0)] else if m = 2 then [("proj", 0)] else []
  buffers := fun m => if m = 2 then [("pos", 2)] else []

private theorem toy_sound : Sound toyState toyTree := by
  refine ⟨?_, ?_, ?_⟩
  · intro m hm
    rcases toy_ids m hm with rfl | rfl | rfl | rfl <;> simp [toyState]
  · intro m hm s hs
    rcases toy_ids m hm with rfl | rfl | rfl | rfl <;> simp [toyState] at hs <;> subst hs <;> simp [toyState]
  · intro m hm s hs
    rcases toy_ids m hm with rfl | rfl | rfl | rfl <;> simp [toyState] at hs <;> subst hs <;> simp [toyState]

example : (visit true "" toyTree []).1 = [("encoder.norm", none), ("encoder.table", some 3), ("encoder", some 1),
    ("decoder", some 2), ("", some 0)] := by
  decide +kernel

example : Consistent toyTree := toy_consistent

/-! ### `apply_to_parameters` -/

/-- **Functions on parameters.** `apply_to_parameters` calls the function once for each tensor below the module, however
often it or its modules are shared: every slot gets what the function made of its tensor, tied tensors stay tied, others
do not become tied, parameters stay parameters with the same `requires_grad`, and gradients are carried over. Missing for
the full property: functions that return a parameter itself but not its gradient, see `C85_grad_negation`. -/
theorem C85_apply_partial (t : Tree) (hc : Consistent t) (st : St D) (hs : Sound st t) (f : D → Option D)
    (hf : ∀ m ∈ ids t, ∀ p ∈ (st.params m).map (·.2), ∀ x g y, st.tensors[p]? = some x → x.grad = some g →
      st.tensors[g]? = some y → f x.data = none → f y.data = none) :
    ∃ st' φ, applyToParameters (fun d => .ok (f d)) [] t st = .ok st' ∧ Replaced st st' t φ ∧
      KeepsSharing st st' t φ ∧
      ∀ s x, Held st t s → st.tensors[s]? = some x →
        match f x.data with
        | none => φ s = s
        | some d => st.tensors.length ≤ φ s ∧ ∃ y, st'.tensors[φ s]? = some y ∧ y.data = d ∧
            y.requiresGrad = x.requiresGrad ∧ y.isParam = x.isParam := by
  obtain ⟨L, hnd, hL, hap⟩ := apply_modules (D := D) t hc
  let pl : Plan D := ⟨Held st t, fun s => (st.tensors[s]?).elim false fun x => (f x.data).isNone,
    fun s d => ∃ x, st.tensors[s]? = some x ∧ f x.data = some d⟩
  have hdoes : ∀ s x, st.tensors[s]? = some x → Does pl (fun d => .ok (f d)) s x := by
    intro s x hx
    cases hfx : f x.data with
    | none => exact .inl ⟨by simp [pl, hx, hfx], by simp [hfx]⟩
    | some d => exact .inr ⟨by simp [pl, hx, hfx], d, by simp [hfx], x, hx, hfx⟩
  have hfits : ∀ m ∈ L, Fits pl (fun d => .ok (f d)) st m := by
    intro m hm
    have hm' := (hL m).1 hm
    refine ⟨hs.names m hm', ?_, ?_⟩
    · intro s hmem
      obtain ⟨x, hx, hp, hg⟩ := hs.params m hm' s hmem
      refine ⟨x, hx, hp, ⟨m, hm', .inl ?_⟩, hdoes _ _ hx, ?_⟩
      · exact List.mem_map_of_mem (List.mem_append_left _ hmem)
      · intro g hgx
        obtain ⟨y, hy, hyp⟩ := hg g hgx
        refine ⟨y, hy, hyp, ⟨m, hm', .inr ⟨s.2, List.mem_map_of_mem hmem, by rw [hx]; exact hgx⟩⟩, hdoes _ _ hy, ?_⟩
        intro hk
        simp only [pl, hx, Option.elim_some, Option.isNone_iff_eq_none] at hk
        have := hf m hm' s.2 (List.mem_map_of_mem hmem) x g y hx hgx hy hk
        simp [pl, hy, this]
    · intro s hmem
      obtain ⟨x, hx, hp, hr⟩ := hs.buffers m hm' s hmem
      exact ⟨x, hx, hp, hr, ⟨m, hm', .inl (List.mem_map_of_mem (List.mem_append_right _ hmem))⟩, hdoes _ _ hx⟩
  obtain ⟨st', memo, h1, h2, h3, h4⟩ := ownLoop_core L [] st [] hfits hnd (fun _ _ h => by cases h) (Core.start pl st)
    (fun _ h => by cases h) (fun _ _ => ⟨rfl, rfl⟩)
  have htr : ∀ m ∈ ids t, Treated st st' memo m := fun m hm => h3 m (.inl ((hL m).2 hm))
  -- every tensor that is held is in the memo
  have hknown : ∀ s, Held st t s → ∃ τ, memo.lookup s = some τ := by
    rintro s ⟨m, hm, hms | ⟨p, hp, hg⟩⟩
    · obtain ⟨e, he, rfl⟩ := List.mem_map.1 hms
      rcases List.mem_append.1 he with he | he
      · exact Option.isSome_iff_exists.1 ((htr m hm).knownP e he)
      · exact Option.isSome_iff_exists.1 ((htr m hm).knownB e he)
    · obtain ⟨e, he, rfl⟩ := List.mem_map.1 hp
      obtain ⟨τ, x0, x, a, b, c, d⟩ := (htr m hm).grads e he
      rw [b] at hg
      simp only [Option.bind_some] at hg
      rw [hg] at d
      obtain ⟨g', hg', -⟩ := d
      exact ⟨g', hg'⟩
  refine ⟨st', fun s => (memo.lookup s).getD s, ?_, ⟨?_, ?_, h2.old⟩, ⟨?_, ?_, ?_⟩, ?_⟩
  · rw [hap, h1]
  · exact fun m hm => ⟨(htr m hm).params, (htr m hm).buffers⟩
  · exact fun m hm => h4 m (fun h => hm ((hL m).1 h)) (by simp)
  · intro s s' h h' he
    obtain ⟨τ, hτ⟩ := hknown s h
    obtain ⟨τ', hτ'⟩ := hknown s' h'
    simp only [hτ, hτ', Option.getD_some] at he
    subst he
    exact h2.inj s s' τ hτ hτ'
  · intro m hm p hp
    obtain ⟨e, he, rfl⟩ := List.mem_map.1 hp
    obtain ⟨τ, x0, x, a, b, c, d⟩ := (htr m hm).grads e he
    simp only [a, b, c, Option.getD_some, Option.bind_some]
    cases hg : x0.grad with
    | none => rw [hg] at d; rw [d]; rfl
    | some g =>
      rw [hg] at d
      obtain ⟨g', d1, d2⟩ := d
      simp [d1, d2]
  · intro i hi hi'
    obtain ⟨s, hs'⟩ := h2.new i hi hi'
    exact ⟨s, (h2.entry s i hs').1, by simp [hs']⟩
  · intro s x hh hx
    obtain ⟨τ, hτ⟩ := hknown s hh
    obtain ⟨-, -, x0, c, e⟩ := h2.entry s τ hτ
    rw [hx] at c
    cases c
    rcases e with ⟨hk, rfl⟩ | ⟨hk, hge, y, hy, ⟨x', hx', hq⟩, hr, hp, -⟩
    · simp only [pl, hx, Option.elim_some, Option.isNone_iff_eq_none] at hk
      rw [hk]
      simp [hτ]
    · rw [hx] at hx'
      cases hx'
      rw [hq]
      simp only [hτ, Option.getD_some]
      exact ⟨hge, y, hy, rfl, hr, hp⟩

example : Sound toyState toyTree := toy_sound

/-- The table is replaced by one tensor in both places, and its gradient goes with it. -/
example : ∃ st', applyToParameters (fun d => .ok (some (d + 10))) [] toyTree toyState = .ok st' ∧
    (st'.params 3, st'.params 2, st'.buffers 2) = ([("weight", 3)], [("proj", 3)], [("pos", 5)]) ∧
    st'.tensors.map (·.data) = [5, 6, 7, 15, 16, 17] ∧ (st'.tensors[3]?).bind (·.grad) = some 4 :=
  ⟨_, rfl, rfl, rfl, rfl⟩

/-- **Disagreement.** If the function returns a parameter itself but not its gradient, the gradient of a parameter with
two slots is converted twice: the function adds 1 to everything but 5, the gradient 6 becomes 8. -/
theorem C85_grad_negation : ∃ st', Sound toyState toyTree ∧
    applyToParameters (fun d => .ok (if d = 5 then none else some (d + 1))) [] toyTree toyState = .ok st' ∧
    st'.params 3 = [("weight", 0)] ∧
    ((st'.tensors[0]?).bind (·.grad)).bind (fun g => (st'.tensors[g]?).map (·.data)) = some 8 :=
  ⟨_, toy_sound, rfl, rfl, rfl⟩

/-! ### Devices -/

/-- What is known of PyTorch: tensors get to the device that is asked for, and writing to them leaves them there. -/
structure GoodDevices (v : Devices D) : Prop where
  move : ∀ t d, v.dev (v.move t d) = t
  empty : ∀ t d, v.dev (v.empty t d) = t
  reset : ∀ m d, v.dev (v.reset m d) = v.dev d

/-- The tensors of each module are on one device, and gradients where their parameters are. -/
structure OneDevice (v : Devices D) (st : St D) (t : Tree) : Prop where
  own : ∀ m ∈ ids t, ∀ s ∈ (slotsOf st m).map (·.2), ∀ s' ∈ (slotsOf st m).map (·.2), ∀ x x',
    st.tensors[s]? = some x → st.tensors[s']? = some x' → v.dev x.data = v.dev x'.data
  grads : ∀ m ∈ ids t, ∀ p ∈ (st.params m).map (·.2), ∀ x g y, st.tensors[p]? = some x → x.grad = some g →
    st.tensors[g]? = some y → v.dev y.data = v.dev x.data

private theorem ownDevices_mem (v : Devices D) (st : St D) (m : Nat) (d : v.Dev) :
    d ∈ ownDevices v st m ↔ ∃ s ∈ (slotsOf st m).map (·.2), ∃ x, st.tensors[s]? = some x ∧ v.dev x.data = d := by
  unfold ownDevices ownTensors slotsOf
  rw [List.mem_filterMap, List.map_append]
  constructor
  · rintro ⟨s, hs, he⟩
    cases hx : st.tensors[s]? with
    | none => rw [hx] at he; cases he
    | some x => rw [hx] at he; exact ⟨s, hs, x, hx, by simpa using he⟩
  · rintro ⟨s, hs, x, hx, he⟩
    exact ⟨s, hs, by rw [hx]; simp [he]⟩

private theorem inferDevice_some (v : Devices D) (st : St D) (m : Nat)
    (h : ∀ d ∈ ownDevices v st m, ∀ d' ∈ ownDevices v st m, d = d') :
    ∃ d, inferDevice v st m = some d ∧ ∀ d' ∈ ownDevices v st m, d' = d := by
  unfold inferDevice
  cases hd : ownDevices v st m with
  | nil => exact ⟨v.cpu, rfl, by simp⟩
  | cons d ds =>
    rw [hd] at h
    refine ⟨d, ?_, fun d' h' => h d' h' d (by simp)⟩
    simp only
    rw [if_pos]
    have := v.dec
    simp only [List.all_eq_true, decide_eq_true_eq]
    exact fun x hx => h x (by simp [hx]) d (by simp)

private theorem toMove_ok (v : Devices D) (target : v.Dev) (st : St D) (ms : List Nat)
    (h : ∀ m ∈ ms, ∃ d, inferDevice v st m = some d) : ∃ L, toMove v target st ms = .ok L ∧
      (L.map (·.1)).Sublist ms ∧ (∀ e ∈ L, inferDevice v st e.1 = some e.2 ∧ e.2 ≠ target) ∧
      ∀ m ∈ ms, m ∉ L.map (·.1) → inferDevice v st m = some target := by
  induction ms with
  | nil => exact ⟨[], rfl, List.Sublist.refl _, by simp, by simp⟩
  | cons m ms ih =>
    obtain ⟨d, hd⟩ := h m (by simp)
    obtain ⟨L, h1, h2, h3, h4⟩ := ih fun m hm => h m (by simp [hm])
    have := v.dec
    by_cases he : d = target
    · refine ⟨L, by rw [toMove]; simp only [hd, h1, if_pos he], h2.cons m, h3, ?_⟩
      intro m' hm' hn
      rcases List.mem_cons.1 hm' with rfl | hm'
      · rw [hd, he]
      · exact h4 m' hm' hn
    · refine ⟨(m, d) :: L, by rw [toMove]; simp only [hd, h1, if_neg he], h2.cons_cons m, ?_, ?_⟩
      · intro e hmem
        rcases List.mem_cons.1 hmem with rfl | hmem
        · exact ⟨hd, he⟩
        · exact h3 e hmem
      · intro m' hm' hn
        simp only [List.map_cons, List.mem_cons, not_or] at hn
        rcases List.mem_cons.1 hm' with rfl | hm'
        · exact absurd rfl hn.1
        · exact h4 m' hm' hn.2

/-- **Moving to a device.** If the tensors of each module are on one device, `to_device` succeeds; afterwards all tensors
below the module are on the device, tied tensors are still tied and others are not; tensors that were there are left
alone, tensors from other devices are copied, and tensors without storage are made anew. -/
theorem C85_device (v : Devices D) (hv : GoodDevices v) (target : v.Dev) (t : Tree) (hc : Consistent t) (st : St D)
    (hs : Sound st t) (hone : OneDevice v st t) :
    ∃ st' φ, toDevice v target t st = (.ok (), st') ∧ Replaced st st' t φ ∧ KeepsSharing st st' t φ ∧
      (∀ m ∈ ids t, ∀ s ∈ slotsOf st' m, ∃ x, st'.tensors[s.2]? = some x ∧ v.dev x.data = target) ∧
      ∀ s x, Held st t s → st.tensors[s]? = some x →
        (v.dev x.data = target → φ s = s) ∧
        (v.dev x.data ≠ target → v.isMeta (v.dev x.data) = false →
          ∃ y, st'.tensors[φ s]? = some y ∧ y.data = v.move target x.data ∧ y.requiresGrad = x.requiresGrad ∧
            y.isParam = x.isParam) := by
  have hdec := v.dec
  obtain ⟨hnd, hids, -⟩ := C85_modules t hc true "module"
  generalize hms : (visit true "module" t []).1.filterMap (·.2) = ms at hnd hids
  have hdev : ∀ m ∈ ids t, ∀ d ∈ ownDevices v st m, ∀ d' ∈ ownDevices v st m, d = d' := by
    intro m hm d hd d' hd'
    obtain ⟨s, h1, x, h2, rfl⟩ := (ownDevices_mem v st m d).1 hd
    obtain ⟨s', h1', x', h2', rfl⟩ := (ownDevices_mem v st m d').1 hd'
    exact hone.own m hm s h1 s' h1' x x' h2 h2'
  obtain ⟨L, hL, hsub, hL1, hL2⟩ := toMove_ok v target st ms fun m hm =>
    (inferDevice_some v st m (hdev m ((hids m).1 hm))).elim fun d h => ⟨d, h.1⟩
  have hLids : ∀ e ∈ L, e.1 ∈ ids t := fun e he =>
    (hids _).1 (hsub.subset (List.mem_map_of_mem he))
  -- the device of the tensors of a module that is moved
  have hLdev : ∀ e ∈ L, ∀ s ∈ (slotsOf st e.1).map (·.2), ∀ x, st.tensors[s]? = some x → v.dev x.data = e.2 := by
    intro e he s hs' x hx
    obtain ⟨d, h1, h2⟩ := inferDevice_some v st e.1 (hdev e.1 (hLids e he))
    rw [(hL1 e he).1] at h1
    cases h1
    exact h2 _ ((ownDevices_mem v st e.1 _).2 ⟨s, hs', x, hx, rfl⟩)
  have hSdev : ∀ m ∈ ids t, m ∉ L.map (·.1) → ∀ s ∈ (slotsOf st m).map (·.2), ∀ x, st.tensors[s]? = some x →
      v.dev x.data = target := by
    intro m hm hn s hs' x hx
    obtain ⟨d, h1, h2⟩ := inferDevice_some v st m (hdev m hm)
    rw [hL2 m ((hids m).2 hm) hn] at h1
    cases h1
    exact h2 _ ((ownDevices_mem v st m _).2 ⟨s, hs', x, hx, rfl⟩)
  let pl : Plan D := ⟨fun s => Held st t s ∧ ∃ x, st.tensors[s]? = some x ∧ v.dev x.data ≠ target, fun _ => false,
    fun s d => v.dev d = target ∧ ∀ x, st.tensors[s]? = some x → v.isMeta (v.dev x.data) = false → d = v.move target x.data⟩
  have hdoes : ∀ s x d, st.tensors[s]? = some x → v.dev x.data = d → d ≠ target →
      Does pl (deviceFn v target d) s x := by
    intro s x d hx hd hne
    refine .inr ⟨rfl, ?_⟩
    unfold deviceFn
    by_cases hm : v.isMeta d = true
    · rw [if_pos hm]
      refine ⟨_, rfl, hv.empty _ _, ?_⟩
      intro x' hx' hm'
      rw [hx] at hx'; cases hx'
      rw [hd, hm] at hm'; cases hm'
    · rw [if_neg hm]
      refine ⟨v.move target x.data, ?_, hv.move _ _, ?_⟩
      · unfold moveFn; rw [if_neg (by rw [hd]; exact hne)]
      · intro x' hx' _; rw [hx] at hx'; cases hx'; rfl
  have hfits : ∀ e ∈ L, Fits pl (deviceFn v target e.2) st e.1 := by
    intro e he
    have hm' := hLids e he
    refine ⟨hs.names _ hm', ?_, ?_⟩
    · intro s hmem
      obtain ⟨x, hx, hp, hg⟩ := hs.params _ hm' s hmem
      have hsl : s.2 ∈ (slotsOf st e.1).map (·.2) := List.mem_map_of_mem (List.mem_append_left _ hmem)
      have hd := hLdev e he _ hsl x hx
      refine ⟨x, hx, hp, ⟨⟨e.1, hm', .inl hsl⟩, x, hx, by rw [hd]; exact (hL1 e he).2⟩,
        hdoes _ _ _ hx hd (hL1 e he).2, ?_⟩
      intro g hgx
      obtain ⟨y, hy, hyp⟩ := hg g hgx
      have hyd : v.dev y.data = e.2 := by
        rw [hone.grads _ hm' s.2 (List.mem_map_of_mem hmem) x g y hx hgx hy, hd]
      refine ⟨y, hy, hyp, ⟨⟨e.1, hm', .inr ⟨s.2, List.mem_map_of_mem hmem, by rw [hx]; exact hgx⟩⟩, y, hy, ?_⟩,
        hdoes _ _ _ hy hyd (hL1 e he).2, fun h => by cases h⟩
      rw [hyd]; exact (hL1 e he).2
    · intro s hmem
      obtain ⟨x, hx, hp, hr⟩ := hs.buffers _ hm' s hmem
      have hsl : s.2 ∈ (slotsOf st e.1).map (·.2) := List.mem_map_of_mem (List.mem_append_right _ hmem)
      have hd := hLdev e he _ hsl x hx
      exact ⟨x, hx, hp, hr, ⟨⟨e.1, hm', .inl hsl⟩, x, hx, by rw [hd]; exact (hL1 e he).2⟩,
        hdoes _ _ _ hx hd (hL1 e he).2⟩
  have hreset : ∀ e ∈ L, v.isMeta e.2 = true → ∀ s ∈ ownTensors st e.1, pl.keep s = false ∧
      ∀ d, pl.ok s d → pl.ok s (v.reset e.1 d) := by
    intro e he hm s hs'
    refine ⟨rfl, ?_⟩
    rintro d ⟨hd, -⟩
    refine ⟨by rw [hv.reset]; exact hd, ?_⟩
    intro x hx hm'
    rw [hLdev e he s (by unfold slotsOf; rw [List.map_append]; exact hs') x hx, hm] at hm'
    cases hm'
  obtain ⟨st', memo, h1, h2, h3, h4⟩ := moveLoop_core v target L [] st [] hfits (hnd.sublist hsub)
    (fun _ _ h => by cases h) hreset (Core.start pl st) (fun _ h => by cases h) (fun _ _ => ⟨rfl, rfl⟩)
  have htr : ∀ m ∈ L.map (·.1), Treated st st' memo m := fun m hm => h3 m (.inl hm)
  -- tensors that were on the device are not in the memo
  have hstay : ∀ s x, st.tensors[s]? = some x → v.dev x.data = target → memo.lookup s = none := by
    intro s x hx hd
    cases hl : memo.lookup s with
    | none => rfl
    | some τ =>
      obtain ⟨⟨-, x', hx', hne⟩, -⟩ := h2.entry s τ hl
      rw [hx] at hx'; cases hx'
      exact absurd hd hne
  -- the others are
  have hgo : ∀ s x, Held st t s → st.tensors[s]? = some x → v.dev x.data ≠ target → ∃ τ, memo.lookup s = some τ := by
    rintro s x ⟨m, hm, hms | ⟨p, hp, hg⟩⟩ hx hne
    · have hmL : m ∈ L.map (·.1) := Decidable.byContradiction fun hn => hne (hSdev m hm hn s hms x hx)
      obtain ⟨e, he, rfl⟩ := List.mem_map.1 hms
      rcases List.mem_append.1 he with he | he
      · exact Option.isSome_iff_exists.1 ((htr m hmL).knownP e he)
      · exact Option.isSome_iff_exists.1 ((htr m hmL).knownB e he)
    · obtain ⟨e, he, rfl⟩ := List.mem_map.1 hp
      obtain ⟨y, hy, -, -⟩ := hs.params m hm e he
      rw [hy] at hg
      simp only [Option.bind_some] at hg
      have hyd := hone.grads m hm e.2 hp y s x hy hg hx
      have hmL : m ∈ L.map (·.1) := Decidable.byContradiction fun hn => hne (by
        rw [hyd]
        exact hSdev m hm hn e.2 (by unfold slotsOf; rw [List.map_append]; exact List.mem_append_left _ hp) y hy)
      obtain ⟨τ, x0, z, a, b, c, d⟩ := (htr m hmL).grads e he
      rw [hy] at b; cases b
      rw [hg] at d
      obtain ⟨g', hg', -⟩ := d
      exact ⟨g', hg'⟩
  have hexist : ∀ s, Held st t s → ∃ x, st.tensors[s]? = some x := by
    rintro s ⟨m, hm, hms | ⟨p, hp, hg⟩⟩
    · obtain ⟨e, he, rfl⟩ := List.mem_map.1 hms
      rcases List.mem_append.1 he with he | he
      · obtain ⟨x, hx, -⟩ := hs.params m hm e he; exact ⟨x, hx⟩
      · obtain ⟨x, hx, -⟩ := hs.buffers m hm e he; exact ⟨x, hx⟩
    · obtain ⟨e, he, rfl⟩ := List.mem_map.1 hp
      obtain ⟨x, hx, -, hgg⟩ := hs.params m hm e he
      rw [hx] at hg
      obtain ⟨y, hy, -⟩ := hgg s hg
      exact ⟨y, hy⟩
  have hslots : ∀ m ∈ ids t, st'.params m = (st.params m).map (img memo) ∧
      st'.buffers m = (st.buffers m).map (img memo) := by
    intro m hm
    by_cases hmL : m ∈ L.map (·.1)
    · exact ⟨(htr m hmL).params, (htr m hmL).buffers⟩
    · have h := h4 m hmL (by simp)
      have hid : ∀ s ∈ slotsOf st m, img memo s = s := by
        intro s hmem
        obtain ⟨x, hx⟩ := hexist s.2 ⟨m, hm, .inl (List.mem_map_of_mem hmem)⟩
        have := hstay s.2 x hx (hSdev m hm hmL s.2 (List.mem_map_of_mem hmem) x hx)
        simp [img, this]
      refine ⟨?_, ?_⟩
      · rw [h.1]
        conv => lhs; rw [← List.map_id (st.params m)]
        exact List.map_congr_left fun s hs' => (hid s (List.mem_append_left _ hs')).symm
      · rw [h.2]
        conv => lhs; rw [← List.map_id (st.buffers m)]
        exact List.map_congr_left fun s hs' => (hid s (List.mem_append_right _ hs')).symm
  have hφ : ∀ s x, Held st t s → st.tensors[s]? = some x →
      (v.dev x.data = target ∧ (memo.lookup s).getD s = s) ∨
      (v.dev x.data ≠ target ∧ st.tensors.length ≤ (memo.lookup s).getD s ∧
        ∃ y, st'.tensors[(memo.lookup s).getD s]? = some y ∧ v.dev y.data = target ∧
          (v.isMeta (v.dev x.data) = false → y.data = v.move target x.data) ∧ y.requiresGrad = x.requiresGrad ∧
          y.isParam = x.isParam) := by
    intro s x hh hx
    by_cases hd : v.dev x.data = target
    · exact .inl ⟨hd, by rw [hstay s x hx hd]; rfl⟩
    · obtain ⟨τ, hτ⟩ := hgo s x hh hx hd
      obtain ⟨-, -, x0, c, e⟩ := h2.entry s τ hτ
      rw [hx] at c; cases c
      rcases e with ⟨hk, -⟩ | ⟨-, hge, y, hy, ⟨q1, q2⟩, hr, hp, -⟩
      · cases hk
      · exact .inr ⟨hd, by rw [hτ]; exact hge, y, by rw [hτ]; exact hy, q1, q2 x hx, hr, hp⟩
  refine ⟨st', fun s => (memo.lookup s).getD s, ?_, ⟨hslots, ?_, h2.old⟩, ⟨?_, ?_, ?_⟩, ?_, ?_⟩
  · unfold toDevice
    rw [hms, hL]
    simp only [h1]
  · intro m hm
    refine h4 m ?_ (by simp)
    intro h
    obtain ⟨e, he, rfl⟩ := List.mem_map.1 h
    exact hm (hLids e he)
  · intro s s' hh hh' he
    obtain ⟨x, hx⟩ := hexist s hh
    obtain ⟨x', hx'⟩ := hexist s' hh'
    have hlt := (List.getElem?_eq_some_iff.1 hx).1
    have hlt' := (List.getElem?_eq_some_iff.1 hx').1
    rcases hφ s x hh hx with ⟨-, e⟩ | ⟨hne, e, -⟩ <;> rcases hφ s' x' hh' hx' with ⟨-, e'⟩ | ⟨hne', e', -⟩
    · rw [← e, ← e', he]
    · omega
    · omega
    · obtain ⟨τ, hτ⟩ := hgo s x hh hx hne
      obtain ⟨τ', hτ'⟩ := hgo s' x' hh' hx' hne'
      simp only [hτ, hτ', Option.getD_some] at he
      subst he
      exact h2.inj s s' τ hτ hτ'
  · intro m hm p hp
    obtain ⟨e, he, rfl⟩ := List.mem_map.1 hp
    by_cases hmL : m ∈ L.map (·.1)
    · obtain ⟨τ, x0, x, a, b, c, d⟩ := (htr m hmL).grads e he
      simp only [a, b, c, Option.getD_some, Option.bind_some]
      cases hg : x0.grad with
      | none => rw [hg] at d; rw [d]; rfl
      | some g =>
        rw [hg] at d
        obtain ⟨g', d1, d2⟩ := d
        simp [d1, d2]
    · obtain ⟨x, hx, -, hgg⟩ := hs.params m hm e he
      have hsl : e.2 ∈ (slotsOf st m).map (·.2) := List.mem_map_of_mem (List.mem_append_left _ he)
      have hd := hSdev m hm hmL e.2 hsl x hx
      have hlt := (List.getElem?_eq_some_iff.1 hx).1
      simp only [hstay e.2 x hx hd, Option.getD_none, h2.old e.2 hlt, hx, Option.bind_some]
      cases hg : x.grad with
      | none => rfl
      | some g =>
        obtain ⟨y, hy, -⟩ := hgg g hg
        have := hstay g y hy (by rw [hone.grads m hm e.2 hp x g y hx hg hy, hd])
        simp [this]
  · intro i hi hi'
    obtain ⟨s, hs'⟩ := h2.new i hi hi'
    exact ⟨s, (h2.entry s i hs').1.1, by simp [hs']⟩
  · intro m hm s hmem
    have hmem' : ∃ s0 ∈ slotsOf st m, s = img memo s0 := by
      rcases List.mem_append.1 hmem with h | h
      · rw [(hslots m hm).1] at h
        obtain ⟨s0, h0, rfl⟩ := List.mem_map.1 h
        exact ⟨s0, List.mem_append_left _ h0, rfl⟩
      · rw [(hslots m hm).2] at h
        obtain ⟨s0, h0, rfl⟩ := List.mem_map.1 h
        exact ⟨s0, List.mem_append_right _ h0, rfl⟩
    obtain ⟨s0, h0, rfl⟩ := hmem'
    have hh : Held st t s0.2 := ⟨m, hm, .inl (List.mem_map_of_mem h0)⟩
    obtain ⟨x, hx⟩ := hexist _ hh
    have hlt := (List.getElem?_eq_some_iff.1 hx).1
    rcases hφ _ x hh hx with ⟨hd, e⟩ | ⟨-, -, y, hy, hd, -⟩
    · exact ⟨x, by simp only [img, e]; rw [h2.old _ hlt]; exact hx, hd⟩
    · exact ⟨y, hy, hd⟩
  · intro s x hh hx
    refine ⟨?_, ?_⟩
    · intro hd
      rcases hφ s x hh hx with ⟨-, e⟩ | ⟨hne, -⟩
      · exact e
      · exact absurd hd hne
    · intro hne hm
      rcases hφ s x hh hx with ⟨hd, -⟩ | ⟨-, -, y, hy, -, e, r⟩
      · exact absurd hd hne
      · exact ⟨y, hy, e hm, r⟩

/-- Values with a device; device 0 is the CPU and device 9 is `meta`. -/
private def toyDevices : Devices (Nat × Nat) where
  Dev := Nat
  dec := inferInstance
  dev := (·.1)
  cpu := 0
  isMeta := (· == 9)
  move := fun t d => (t, d.2)
  empty := fun t _ => (t, 0)
  reset := fun m d => (d.1, 100 + m)

/-- The tensors of `toyState`, on the CPU. -/
private def toyPlaced : St (Nat × Nat) where
  tensors := toyState.tensors.map fun x => ⟨(0, x.data), x.grad, x.requiresGrad, x.isParam⟩
  params := toyState.params
  buffers := toyState.buffers

example : GoodDevices toyDevices ∧ OneDevice toyDevices toyPlaced toyTree ∧ Sound toyPlaced toyTree := by
  have h0 : ∀ (i : Nat) (x : Tn (Nat × Nat)), toyPlaced.tensors[i]? = some x → x.data.1 = 0 := by
    intro i x hx
    simp only [toyPlaced, toyState, List.map_cons, List.map_nil] at hx
    have := List.mem_of_getElem? hx
    simp only [List.mem_cons, List.not_mem_nil, or_false] at this
    rcases this with rfl | rfl | rfl <;> rfl
  refine ⟨⟨fun _ _ => rfl, fun _ _ => rfl, fun _ _ => rfl⟩, ⟨?_, ?_⟩, ⟨?_, ?_, ?_⟩⟩
  · intro m hm s hs s' hs' x x' hx hx'
    exact (h0 s x hx).trans (h0 s' x' hx').symm
  · intro m hm p hp x g y hx hg hy
    exact (h0 g y hy).trans (h0 p x hx).symm
  · intro m hm
    rcases toy_ids m hm with rfl | rfl | rfl | rfl <;> simp [toyPlaced, toyState]
  · intro m hm s hs
    rcases toy_ids m hm with rfl | rfl | rfl | rfl <;> simp [toyPlaced, toyState] at hs <;> subst hs <;>
      simp [toyPlaced, toyState]
  · intro m hm s hs
    rcases toy_ids m hm with rfl | rfl | rfl | rfl <;> simp [toyPlaced, toyState] at hs <;> subst hs <;>
      simp [toyPlaced, toyState]

example : (toDevice toyDevices (1 : Nat) toyTree toyPlaced).2.params 2 = [("proj", 3)] ∧
    (toDevice toyDevices (1 : Nat) toyTree toyPlaced).2.params 3 = [("weight", 3)] ∧
    (toDevice toyDevices (1 : Nat) toyTree toyPlaced).2.tensors.map (·.data) =
      [(0, 5), (0, 6), (0, 7), (1, 5), (1, 6), (1, 7)] := ⟨rfl, rfl, rfl⟩

/-- **Refusal.** If a module below has tensors on two devices, nothing changes. -/
theorem C85_device_refused (v : Devices D) (target : v.Dev) (t : Tree) (hc : Consistent t) (st : St D) (m : Nat)
    (hm : m ∈ ids t) (s s' : Nat) (hs : s ∈ (slotsOf st m).map (·.2)) (hs' : s' ∈ (slotsOf st m).map (·.2)) (x x' : Tn D)
    (hx : st.tensors[s]? = some x) (hx' : st.tensors[s']? = some x') (hne : v.dev x.data ≠ v.dev x'.data) :
    toDevice v target t st = (.error .value, st) := by
  obtain ⟨-, hids, -⟩ := C85_modules t hc true "module"
  have hinf : inferDevice v st m = none := by
    have := v.dec
    unfold inferDevice
    have h1 := (ownDevices_mem v st m _).2 ⟨s, hs, x, hx, rfl⟩
    have h2 := (ownDevices_mem v st m _).2 ⟨s', hs', x', hx', rfl⟩
    cases hd : ownDevices v st m with
    | nil => rw [hd] at h1; cases h1
    | cons d ds =>
      simp only
      rw [if_neg]
      simp only [List.all_eq_true, decide_eq_true_eq]
      intro h
      rw [hd] at h1 h2
      have e : ∀ y ∈ d :: ds, y = d := by
        intro y hy
        rcases List.mem_cons.1 hy with rfl | hy
        · rfl
        · exact h y hy
      exact hne ((e _ h1).trans (e _ h2).symm)
  have key : ∀ ms : List Nat, m ∈ ms → toMove v target st ms = .error .value := by
    intro ms
    induction ms with
    | nil => intro h; cases h
    | cons a ms ih =>
      intro h
      rw [toMove]
      cases ha : inferDevice v st a with
      | none => rfl
      | some d =>
        rcases List.mem_cons.1 h with rfl | h
        · rw [hinf] at ha; cases ha
        · simp only [ih h]
  unfold toDevice
  rw [key _ ((hids m).2 hm)]

example : toDevice toyDevices (1 : Nat) (.node 0 .nil)
    ⟨[⟨(0, 5), none, true, true⟩, ⟨(1, 6), none, true, true⟩], fun _ => [("a", 0), ("b", 1)], fun _ => []⟩ =
    (.error .value, ⟨[⟨(0, 5), none, true, true⟩, ⟨(1, 6), none, true, true⟩], fun _ => [("a", 0), ("b", 1)], fun _ => []⟩) := by
  refine C85_device_refused toyDevices (1 : Nat) (.node 0 .nil) ?_ _ 0 (by decide) 0 1 (by decide) (by decide) _ _ rfl rfl
    (by simp [toyDevices])
  intro s hs s' hs' _
  simp [subs, subsAll] at hs hs'
  rw [hs, hs']

/-! ### `share_parameters` -/

/-- Two lists of slots have the same names, and the same places have the same tensors. -/
structure SameTies (l l' : List (String × Nat)) : Prop where
  names : l.map (·.1) = l'.map (·.1)
  ties : ∀ (i j : Nat) (a b a' b' : String × Nat), l[i]? = some a → l[j]? = some b → l'[i]? = some a' → l'[j]? = some b' →
    (a.2 = b.2 ↔ a'.2 = b'.2)

/-- No tensor in the slots has a gradient. -/
def NoGrads (st : St D) (l : List (String × Nat)) : Prop := ∀ s ∈ l, (st.tensors[s.2]?).bind (·.grad) = none

private theorem zip_mem {α β : Type} {l : List α} {l' : List β} {a : α} {b : β} (h : (a, b) ∈ l.zip l') :
    ∃ i : Nat, l[i]? = some a ∧ l'[i]? = some b := by
  obtain ⟨i, hi⟩ := List.mem_iff_getElem?.1 h
  rw [List.getElem?_zip_eq_some] at hi
  exact ⟨i, hi⟩

private theorem zip_names {l l' : List (String × Nat)} (h : l.map (·.1) = l'.map (·.1)) {e : (String × Nat) × (String × Nat)}
    (he : e ∈ l.zip l') : e.1.1 = e.2.1 := by
  obtain ⟨i, h1, h2⟩ := zip_mem he
  have := congrArg (·[i]?) h
  simpa [h1, h2] using this

/-- **Sharing.** If two modules have the same names and the same tensors are tied in them, and no tensor has a gradient,
`share_parameters` makes every slot below the target hold the tensor of the slot of the same name below the source,
without changing tensors or other modules. Missing for the full property: modules of which different tensors are tied,
see `C85_share_negation`. -/
theorem C85_share_partial (source target : Tree) (ht : Consistent target) (st : St D)
    (hsound : Sound st target)
    (hp : SameTies (allSlots st.params source) (allSlots st.params target))
    (hb : SameTies (allSlots st.buffers source) (allSlots st.buffers target))
    (hg : NoGrads st (allSlots st.params source)) (hg' : NoGrads st (allSlots st.params target))
    (hg2 : NoGrads st (allSlots st.buffers source)) (hg2' : NoGrads st (allSlots st.buffers target)) :
    ∃ st', Mod.share source target st = .ok st' ∧ st'.tensors = st.tensors ∧
      allSlots st'.params target = allSlots st.params source ∧
      allSlots st'.buffers target = allSlots st.buffers source ∧
      ∀ m, m ∉ ids target → st'.params m = st.params m ∧ st'.buffers m = st.buffers m := by
  -- the lists as lists of pairs
  have pairing : ∀ l l' : List (String × Nat), SameTies l l' → ∃ z : List ((String × Nat) × (String × Nat)),
      z.map (·.1) = l ∧ z.map (·.2) = l' ∧ (∀ e ∈ z, e.1.1 = e.2.1) ∧
      dedup [] l = (dedup2 [] z).map (·.1) ∧ dedup [] l' = (dedup2 [] z).map (·.2) ∧
      ∀ e ∈ z, ∀ e' ∈ z, e.1.2 = e'.1.2 ↔ e.2.2 = e'.2.2 := by
    intro l l' h
    have hlen : l.length = l'.length := by simpa using congrArg List.length h.names
    have h1 : (l.zip l').map (·.1) = l := by
      have := List.map_fst_zip (l₁ := l) (l₂ := l') (by omega); simpa using this
    have h2 : (l.zip l').map (·.2) = l' := by
      have := List.map_snd_zip (l₁ := l) (l₂ := l') (by omega); simpa using this
    have hties : ∀ e ∈ l.zip l', ∀ e' ∈ l.zip l', e.1.2 = e'.1.2 ↔ e.2.2 = e'.2.2 := by
      intro e he e' he'
      obtain ⟨i, a, b⟩ := zip_mem he
      obtain ⟨j, a', b'⟩ := zip_mem he'
      exact h.ties i j _ _ _ _ a a' b b'
    have := dedup2_eq (l.zip l') [] (by simpa using hties)
    rw [h1, h2] at this
    exact ⟨l.zip l', h1, h2, fun e he => zip_names h.names he, this.1, this.2, hties⟩
  obtain ⟨z, z1, z2, z3, z4, z5, z6⟩ := pairing _ _ hp
  obtain ⟨y, y1, y2, y3, y4, y5, y6⟩ := pairing _ _ hb
  have zsub : ∀ e ∈ dedup2 [] z, e ∈ z := fun e he => (dedup2_sub z [] e he).resolve_left (by simp)
  have ysub : ∀ e ∈ dedup2 [] y, e ∈ y := fun e he => (dedup2_sub y [] e he).resolve_left (by simp)
  -- parameters are no buffers
  have hdis : ∀ e ∈ z, ∀ e' ∈ y, e.2.2 ≠ e'.2.2 := by
    intro e he e' he' heq
    obtain ⟨m, hm, s, h1, h2⟩ := of_mem_allSlots (which := st.params) (t := target) (e := e.2)
      (by rw [← z2]; exact List.mem_map_of_mem he)
    obtain ⟨m', hm', s', h1', h2'⟩ := of_mem_allSlots (which := st.buffers) (t := target) (e := e'.2)
      (by rw [← y2]; exact List.mem_map_of_mem he')
    obtain ⟨x, hx, hxp, -⟩ := hsound.params m hm s h1
    obtain ⟨x', hx', hxp', -⟩ := hsound.buffers m' hm' s' h1'
    rw [h2, heq, ← h2', hx'] at hx
    cases hx
    rw [hxp] at hxp'; cases hxp'
  let w := dedup2 [] z ++ dedup2 [] y
  have hsrc : named st.params source ++ named st.buffers source = w.map (·.1) := by
    rw [named_eq, named_eq, z4, y4, List.map_append]
  have htgt : named st.params target ++ named st.buffers target = w.map (·.2) := by
    rw [named_eq, named_eq, z5, y5, List.map_append]
  have hzip : ∀ v : List ((String × Nat) × (String × Nat)), (v.map (·.1)).zip (v.map (·.2)) = v := by
    intro v; induction v with
    | nil => rfl
    | cons a v ih => rw [List.map_cons, List.map_cons, List.zip_cons_cons, ih]
  have hw : ∀ e ∈ w, e ∈ z ∨ e ∈ y := by
    intro e he
    rcases List.mem_append.1 he with h | h
    · exact .inl (zsub e h)
    · exact .inr (ysub e h)
  have hok : pairUp st w [] = .ok (pairs w ++ []) := by
    refine pairUp_ok st w [] ?_
    intro e he
    rcases hw e he with h | h
    · exact ⟨z3 e h, hg e.1 (by rw [← z1]; exact List.mem_map_of_mem h), hg' e.2 (by rw [← z2]; exact List.mem_map_of_mem h)⟩
    · exact ⟨y3 e h, hg2 e.1 (by rw [← y1]; exact List.mem_map_of_mem h), hg2' e.2 (by rw [← y2]; exact List.mem_map_of_mem h)⟩
  rw [List.append_nil] at hok
  -- lookups
  have hlook : ∀ e, e ∈ z ∨ e ∈ y → (pairs w).lookup e.2.2 = some e.1.2 := by
    intro e he
    have hkey : e.2.2 ∈ (pairs w).map (·.1) := by
      have hmem : e.2.2 ∈ (w.map (·.2)).map (·.2) := by
        rw [← htgt, named_eq, named_eq, List.map_append]
        rcases he with h | h
        · exact List.mem_append_left _ (dedup_has _ [] e.2 (by rw [← z2]; exact List.mem_map_of_mem h))
        · exact List.mem_append_right _ (dedup_has _ [] e.2 (by rw [← y2]; exact List.mem_map_of_mem h))
      obtain ⟨p, hp1, hp2⟩ := List.mem_map.1 hmem
      obtain ⟨q, hq1, hq2⟩ := List.mem_map.1 hp1
      exact List.mem_map.2 ⟨(q.2.2, q.1.2), by unfold pairs; rw [List.mem_reverse]; exact List.mem_map.2 ⟨q, hq1, rfl⟩,
        by simp only; rw [hq2]; exact hp2⟩
    obtain ⟨v, h1, h2⟩ := lookup_of_mem (pairs w) e.2.2 hkey
    unfold pairs at h2
    rw [List.mem_reverse] at h2
    obtain ⟨q, hq1, hq2⟩ := List.mem_map.1 h2
    simp only [Prod.mk.injEq] at hq2
    rw [h1, ← hq2.2]
    congr 1
    rcases he with h | h <;> rcases hw q hq1 with hq | hq
    · exact (z6 q hq e h).2 hq2.1
    · exact absurd hq2.1.symm (hdis e h q hq)
    · exact absurd hq2.1 (hdis q hq e h)
    · exact (y6 q hq e h).2 hq2.1
  have hknown : ∀ m ∈ ids target, Known (pairs w) (st.params m) ∧ Known (pairs w) (st.buffers m) := by
    intro m hm
    refine ⟨?_, ?_⟩
    · intro s hs'
      obtain ⟨n, hn⟩ := mem_allSlots ht hm hs'
      rw [← z2] at hn
      obtain ⟨e, he, hee⟩ := List.mem_map.1 hn
      have := hlook e (.inl he)
      rw [hee] at this
      simp only at this
      rw [this]; rfl
    · intro s hs'
      obtain ⟨n, hn⟩ := mem_allSlots ht hm hs'
      rw [← y2] at hn
      obtain ⟨e, he, hee⟩ := List.mem_map.1 hn
      have := hlook e (.inr he)
      rw [hee] at this
      simp only at this
      rw [this]; rfl
  obtain ⟨L, hnd, hL, hap⟩ := apply_modules (D := D) target ht
  have hloop := ownLoop_known (fn := fun _ => .error .notMemoized) (memo := pairs w) L st hnd (by
    intro m hm
    have hm' := (hL m).1 hm
    refine ⟨(hknown m hm').1, (hknown m hm').2, (hsound.names m hm').1, (hsound.names m hm').2, ?_⟩
    intro s hs'
    obtain ⟨n, hn⟩ := mem_allSlots ht hm' hs'
    exact hg' (n, s.2) hn)
  have happ := hap (fun _ => .error .notMemoized) (pairs w) st
  rw [hloop] at happ
  have hshare : Mod.share source target st = applyToParameters (fun _ => .error .notMemoized) (pairs w) target st := by
    unfold Mod.share
    simp only
    rw [hsrc, htgt, if_neg (by simp), hzip, hok]
  refine ⟨_, hshare.trans happ, rfl, ?_, ?_, ?_⟩
  · simp only
    rw [allSlots_map (w := st.params) (fun i => ((pairs w).lookup i).getD i) (by
      intro m hm
      rw [if_pos ((hL m).2 hm)]
      rfl), ← z2, ← z1, List.map_map]
    refine List.map_congr_left ?_
    intro e he
    simp only [Function.comp, hlook e (.inl he), Option.getD_some]
    rw [← z3 e he]
  · simp only
    rw [allSlots_map (w := st.buffers) (fun i => ((pairs w).lookup i).getD i) (by
      intro m hm
      rw [if_pos ((hL m).2 hm)]
      rfl), ← y2, ← y1, List.map_map]
    refine List.map_congr_left ?_
    intro e he
    simp only [Function.comp, hlook e (.inr he), Option.getD_some]
    rw [← y3 e he]
  · intro m hm
    simp only
    rw [if_neg (fun h => hm ((hL m).1 h)), if_neg (fun h => hm ((hL m).1 h))]
    exact ⟨rfl, rfl⟩

/-- Module 0 has tied tensors, module 1 has the same names and ties, and in module 2 others are tied. -/
private def toyShared : St Nat where
  tensors := (List.range 9).map fun i => ⟨i, none, decide (i < 6), decide (i < 6)⟩
  params := fun m => if m = 0 then [("a", 0), ("b", 1), ("c", 0)] else if m = 1 then [("a", 2), ("b", 3), ("c", 2)]
    else [("a", 4), ("b", 5), ("c", 5)]
  buffers := fun m => if m = 0 then [("d", 6)] else if m = 1 then [("d", 7)] else [("d", 8)]

private theorem leaf_consistent (i : Nat) : Consistent (.node i .nil) := by
  intro s hs s' hs' _
  simp [subs, subsAll] at hs hs'
  rw [hs, hs']

private theorem shared_sound (i : Nat) (hi : i < 3) : Sound toyShared (.node i .nil) := by
  have e : i = 0 ∨ i = 1 ∨ i = 2 := by omega
  refine ⟨?_, ?_, ?_⟩
  · intro m hm
    simp [ids, subs, subsAll, Tree.id] at hm
    subst hm
    rcases e with rfl | rfl | rfl <;> simp [toyShared]
  · intro m hm s hs
    simp [ids, subs, subsAll, Tree.id] at hm
    subst hm
    rcases e with rfl | rfl | rfl <;> simp [toyShared] at hs <;> rcases hs with rfl | rfl | rfl <;> simp [toyShared]
  · intro m hm s hs
    simp [ids, subs, subsAll, Tree.id] at hm
    subst hm
    rcases e with rfl | rfl | rfl <;> simp [toyShared] at hs <;> subst hs <;> simp [toyShared]

private theorem toy_same : SameTies (allSlots toyShared.params (.node 0 .nil)) (allSlots toyShared.params (.node 1 .nil)) := by
  refine ⟨by decide +kernel, ?_⟩
  intro i j a b a' b' h1 h2 h3 h4
  have e1 : allSlots toyShared.params (.node 0 .nil) = [("a", 0), ("b", 1), ("c", 0)] := by decide +kernel
  have e2 : allSlots toyShared.params (.node 1 .nil) = [("a", 2), ("b", 3), ("c", 2)] := by decide +kernel
  rw [e1] at h1 h2
  rw [e2] at h3 h4
  rcases i with _ | _ | _ | i <;> rcases j with _ | _ | _ | j <;> simp at h1 h2 h3 h4 <;> subst h1 h2 h3 h4 <;> simp

example : ∃ st', Mod.share (.node 0 .nil) (.node 1 .nil) toyShared = .ok st' ∧
    st'.params 1 = [("a", 0), ("b", 1), ("c", 0)] ∧ st'.buffers 1 = [("d", 6)] := by
  obtain ⟨st', h1, -, h2, h3, -⟩ := C85_share_partial (.node 0 .nil) (.node 1 .nil) (leaf_consistent 1)
    toyShared (shared_sound 1 (by decide)) toy_same
    ⟨by decide +kernel, by
      intro i j a b a' b' h1 h2 h3 h4
      have e1 : allSlots toyShared.buffers (.node 0 .nil) = [("d", 6)] := by decide +kernel
      have e2 : allSlots toyShared.buffers (.node 1 .nil) = [("d", 7)] := by decide +kernel
      rw [e1] at h1 h2
      rw [e2] at h3 h4
      rcases i with _ | i <;> rcases j with _ | j <;> simp at h1 h2 h3 h4
      subst h1 h2 h3 h4; simp⟩
    (by unfold NoGrads; decide +kernel) (by unfold NoGrads; decide +kernel) (by unfold NoGrads; decide +kernel)
    (by unfold NoGrads; decide +kernel)
  refine ⟨st', h1, ?_, ?_⟩
  · have e : allSlots st'.params (.node 1 .nil) = st'.params 1 := by simp [allSlots, visit, visitAll, join]
    rw [← e, h2]; decide +kernel
  · have e : allSlots st'.buffers (.node 1 .nil) = st'.buffers 1 := by simp [allSlots, visit, visitAll, join]
    rw [← e, h3]; decide +kernel

/-- **Disagreement.** If `c` is tied to `a` in the source and to `b` in the target, the modules are accepted, but `c` of
the target gets the source's `b`. -/
theorem C85_share_negation : ∃ st', Sound toyShared (.node 2 .nil) ∧
    Mod.share (.node 0 .nil) (.node 2 .nil) toyShared = .ok st' ∧
    (allSlots toyShared.params (.node 0 .nil)).map (·.1) = (allSlots toyShared.params (.node 2 .nil)).map (·.1) ∧
    toyShared.params 0 = [("a", 0), ("b", 1), ("c", 0)] ∧ st'.params 2 = [("a", 0), ("b", 1), ("c", 1)] :=
  ⟨_, shared_sound 2 (by decide), rfl, by decide +kernel, rfl, rfl⟩

/-- **Refusal.** Gradients are not shared: if a tensor of one of the modules has one, or if in modules without tied
tensors the names differ, `share_parameters` raises a `ValueError`. -/
theorem C85_share_refused (source target : Tree) (st : St D)
    (hnd : ((allSlots st.params source ++ allSlots st.buffers source).map (·.2)).Nodup)
    (hnd' : ((allSlots st.params target ++ allSlots st.buffers target).map (·.2)).Nodup)
    (h : ¬ NoGrads st (allSlots st.params source ++ allSlots st.buffers source) ∨
      ¬ NoGrads st (allSlots st.params target ++ allSlots st.buffers target) ∨
      (allSlots st.params source ++ allSlots st.buffers source).map (·.1) ≠
        (allSlots st.params target ++ allSlots st.buffers target).map (·.1)) :
    Mod.share source target st = .error .value := by
  have split : ∀ t : Tree, ((allSlots st.params t ++ allSlots st.buffers t).map (·.2)).Nodup →
      named st.params t ++ named st.buffers t = allSlots st.params t ++ allSlots st.buffers t := by
    intro t ht
    rw [List.map_append, List.nodup_append] at ht
    rw [named_eq, named_eq, dedup_nodup_id _ [] (by simpa using ht.1), dedup_nodup_id _ [] (by simpa using ht.2.1)]
    rfl
  unfold Mod.share
  simp only
  rw [split source hnd, split target hnd']
  generalize allSlots st.params source ++ allSlots st.buffers source = a at *
  generalize allSlots st.params target ++ allSlots st.buffers target = b at *
  by_cases hlen : a.length = b.length
  · rw [if_neg (by simp [hlen])]
    rw [pairUp_inv st (a.zip b) [] ?_]
    have h1 : (a.zip b).map (·.1) = a := by
      have := List.map_fst_zip (l₁ := a) (l₂ := b) (by omega); simpa using this
    have h2 : (a.zip b).map (·.2) = b := by
      have := List.map_snd_zip (l₁ := a) (l₂ := b) (by omega); simpa using this
    rcases h with h | h | h
    · unfold NoGrads at h
      simp only [Classical.not_forall] at h
      obtain ⟨s, hs, hx⟩ := h
      rw [← h1] at hs
      obtain ⟨e, he, rfl⟩ := List.mem_map.1 hs
      exact ⟨e, he, .inr (.inl hx)⟩
    · unfold NoGrads at h
      simp only [Classical.not_forall] at h
      obtain ⟨s, hs, hx⟩ := h
      rw [← h2] at hs
      obtain ⟨e, he, rfl⟩ := List.mem_map.1 hs
      exact ⟨e, he, .inr (.inr hx)⟩
    · refine Classical.byContradiction fun hn => h ?_
      have key : (a.zip b).map (·.1.1) = (a.zip b).map (·.2.1) := List.map_congr_left fun e he =>
        Decidable.byContradiction fun hne => hn ⟨e, he, .inl hne⟩
      calc a.map (·.1) = ((a.zip b).map (·.1)).map (·.1) := by rw [h1]
        _ = ((a.zip b).map (·.2)).map (·.1) := by rw [List.map_map, List.map_map]; exact key
        _ = b.map (·.1) := by rw [h2]
  · rw [if_pos (by simpa using hlen)]

/-- The name of the only parameter differs. -/
example : Mod.share (.node 0 .nil) (.node 1 .nil)
    (⟨[⟨0, none, true, true⟩, ⟨1, none, true, true⟩], fun m => if m = 0 then [("a", 0)] else [("b", 1)], fun _ => []⟩ : St Nat)
    = .error .value :=
  C85_share_refused _ _ _ (by decide +kernel) (by decide +kernel) (.inr (.inr (by decide +kernel)))

/-! ### `broadcast_module` -/

/-- The tensors to broadcast: parameters, and buffers that are persistent (or all buffers), of the modules that are
reached without passing a module that is skipped. -/
def ToSend (st : St D) (nonPersistent : Nat → String → Bool) (all : Bool) (skip : List Nat) (t : Tree) (x : Nat) : Prop :=
  ∃ s, Open skip t s ∧ (x ∈ (st.params s.id).map (·.2) ∨
    ∃ n, (n, x) ∈ st.buffers s.id ∧ (all = true ∨ nonPersistent s.id n = false))

/-- A buffer is persistent in all places or in none, and parameters are no buffers. -/
structure SamePersistence (st : St D) (nonPersistent : Nat → String → Bool) (t : Tree) : Prop where
  buffers : ∀ m ∈ ids t, ∀ m' ∈ ids t, ∀ n n' b, (n, b) ∈ st.buffers m → (n', b) ∈ st.buffers m' →
    nonPersistent m n = nonPersistent m' n'
  params : ∀ m ∈ ids t, ∀ m' ∈ ids t, ∀ p ∈ (st.params m).map (·.2), p ∉ (st.buffers m').map (·.2)

/-- **What is broadcast.** Every tensor to broadcast is in the list, once, and nothing else is. Missing for the full
property: a buffer that is persistent in one module only, see `C85_broadcast_negation`. -/
theorem C85_broadcast_partial (t : Tree) (hc : Consistent t) (st : St D) (nonPersistent : Nat → String → Bool)
    (all : Bool) (skip : List Nat) (h : SamePersistence st nonPersistent t) :
    (broadcastTensors st nonPersistent all skip t).Nodup ∧
    ∀ x, x ∈ broadcastTensors st nonPersistent all skip t ↔ ToSend st nonPersistent all skip t x := by
  classical
  let W : Nat → Bool := fun x => decide (ToSend st nonPersistent all skip t x)
  have hid : ∀ {s}, Open skip t s → s.id ∈ ids t := fun ho => List.mem_map_of_mem (open_sub ho)
  have hW : ∀ s, Open skip t s → (∀ p ∈ (st.params s.id).map (·.2), W p = true) ∧
      ∀ b ∈ st.buffers s.id, W b.2 = (all || !nonPersistent s.id b.1) := by
    intro s ho
    refine ⟨fun p hp => decide_eq_true ⟨s, ho, .inl hp⟩, ?_⟩
    rintro ⟨n, b⟩ hb
    simp only
    by_cases hx : (all || !nonPersistent s.id n) = true
    · rw [hx]
      refine decide_eq_true ⟨s, ho, .inr ⟨n, hb, ?_⟩⟩
      cases all
      · right; simpa using hx
      · left; rfl
    · rw [Bool.not_eq_true] at hx
      rw [hx]
      refine decide_eq_false ?_
      rintro ⟨s', ho', hp | ⟨n', hb', hh⟩⟩
      · exact h.params s'.id (hid ho') s.id (hid ho) b hp (List.mem_map_of_mem (f := (·.2)) hb)
      · rw [h.buffers s'.id (hid ho') s.id (hid ho) n' n b hb' hb] at hh
        cases all
        · rcases hh with hh | hh
          · cases hh
          · rw [hh] at hx; cases hx
        · cases hx
  obtain ⟨⟨h1, h2⟩, h3⟩ := collect_spec hc W st nonPersistent all skip t ([], []) (mem_subs_self t) hW ⟨List.nodup_nil, rfl⟩
  unfold broadcastTensors
  rw [h2]
  refine ⟨(List.pairwise_reverse.2 (h1.imp fun h => Ne.symm h)).filter _, ?_⟩
  intro x
  rw [List.mem_filter, List.mem_reverse, h3 x]
  constructor
  · rintro ⟨-, hx⟩
    exact of_decide_eq_true hx
  · intro hx
    refine ⟨.inr ?_, decide_eq_true hx⟩
    obtain ⟨s, ho, hp | ⟨n, hb, -⟩⟩ := hx
    · exact ⟨s, ho, List.mem_append_left _ hp⟩
    · exact ⟨s, ho, List.mem_append_right _ (List.mem_map_of_mem (f := (·.2)) hb)⟩

/-- Module 1 is below module 0; both have the buffer 1. -/
private def toyChild : Tree := .node 0 (.child "c" (.node 1 .nil) .nil)

private def toySent : St Nat where
  tensors := [⟨5, none, true, true⟩, ⟨6, none, false, false⟩]
  params := fun m => if m = 1 then [("w", 0)] else []
  buffers := fun m => if m = 0 then [("b", 1)] else if m = 1 then [("b", 1)] else []

private theorem child_consistent : Consistent toyChild := by
  intro s hs s' hs' h
  simp only [toyChild, subs, subsAll, List.append_nil, List.mem_cons,
    List.not_mem_nil, or_false] at hs hs'
  rcases hs with rfl | rfl <;> rcases hs' with rfl | rfl <;> first | rfl | (simp [Tree.id] at h)

private theorem child_ids (m : Nat) (h : m ∈ ids toyChild) : m = 0 ∨ m = 1 := by
  simpa [ids, toyChild, subs, subsAll, Tree.id] using h

private theorem toy_persistence : SamePersistence toySent (fun _ _ => false) toyChild := by
  refine ⟨fun _ _ _ _ _ _ _ _ _ => rfl, ?_⟩
  intro m hm m' hm' p hp
  rcases child_ids m hm with rfl | rfl <;> rcases child_ids m' hm' with rfl | rfl <;> simp [toySent] at hp ⊢ <;> simp [hp]

example : broadcastTensors toySent (fun _ _ => false) false [] toyChild = [0, 1] := by decide +kernel

example : (broadcastTensors toySent (fun _ _ => false) false [1] toyChild).Nodup ∧
    ∀ x, x ∈ broadcastTensors toySent (fun _ _ => false) false [1] toyChild ↔
      ToSend toySent (fun _ _ => false) false [1] toyChild x :=
  C85_broadcast_partial toyChild child_consistent toySent _ false [1] toy_persistence

/-- **Disagreement.** The buffer is persistent in module 0 but not in module 1, which comes first: it is not broadcast. -/
theorem C85_broadcast_negation : ToSend toySent (fun m _ => m == 1) false [] toyChild 1 ∧
    1 ∉ broadcastTensors toySent (fun m _ => m == 1) false [] toyChild := by
  refine ⟨⟨toyChild, .here (by simp), .inr ⟨"b", by simp [toySent, toyChild, Tree.id], .inr rfl⟩⟩, by decide +kernel⟩

/-- **After a broadcast.** Let the processes have the same modules with the same tensors tied (`ρ r` tells which tensor
of process `r` corresponds to a tensor of the source). Then in every process every tensor to broadcast has the value of the
source, and nothing else changed. -/
theorem C85_broadcast_values_partial (t : Tree) (hc : Consistent t) (sts : Nat → St D) (source : Nat) (ρ : Nat → Nat → Nat)
    (nonPersistent : Nat → String → Bool) (all : Bool) (skip : List Nat)
    (hρ : ∀ r x y, ρ r x = ρ r y → x = y)
    (hslots : ∀ r, ∀ m ∈ ids t, (sts r).params m = ((sts source).params m).map (fun s => (s.1, ρ r s.2)) ∧
      (sts r).buffers m = ((sts source).buffers m).map fun s => (s.1, ρ r s.2))
    (h : SamePersistence (sts source) nonPersistent t) (r : Nat) :
    (∀ x y z, ToSend (sts source) nonPersistent all skip t x → (sts source).tensors[x]? = some y →
      (sts r).tensors[ρ r x]? = some z →
      (broadcastModule nonPersistent all skip t source sts r).tensors[ρ r x]? = some { z with data := y.data }) ∧
    (∀ i, (∀ x, ToSend (sts source) nonPersistent all skip t x → i ≠ ρ r x) →
      (broadcastModule nonPersistent all skip t source sts r).tensors[i]? = (sts r).tensors[i]?) ∧
    (broadcastModule nonPersistent all skip t source sts r).params = (sts r).params ∧
    (broadcastModule nonPersistent all skip t source sts r).buffers = (sts r).buffers := by
  have hmap : broadcastTensors (sts r) nonPersistent all skip t =
      (broadcastTensors (sts source) nonPersistent all skip t).map (ρ r) := by
    have := collect_map (ρ r) (hρ r) (sts source) (sts r) nonPersistent all skip t (hslots r) t ([], []) (mem_subs_self t)
    simp only [List.map_nil] at this
    unfold broadcastTensors
    rw [this]
  obtain ⟨hnd, hmem⟩ := C85_broadcast_partial t hc (sts source) nonPersistent all skip h
  unfold broadcastModule
  rw [hmap]
  have hnd' : ((broadcastTensors (sts source) nonPersistent all skip t).map (ρ r)).Nodup := by
    rw [List.nodup_iff_pairwise_ne, List.pairwise_map]
    exact (List.nodup_iff_pairwise_ne.1 hnd).imp fun hne he => hne (hρ r _ _ he)
  refine ⟨?_, ?_, receive_slots _ _ _⟩
  · intro x y z hx hy hz
    obtain ⟨k, hk⟩ := List.mem_iff_getElem?.1 ((hmem x).2 hx)
    refine receive_get _ _ _ hnd' k (ρ r x) y.data z ?_ ?_ hz
    · rw [List.getElem?_map, hk]; rfl
    · unfold sent
      rw [List.getElem?_map, hk]
      simp [hy]
  · intro i hi
    refine receive_other _ _ _ i ?_
    intro hm
    obtain ⟨x, hx, rfl⟩ := List.mem_map.1 hm
    exact hi x ((hmem x).1 hx) rfl

/-- Process 1 has its tensors at other places. -/
example : (broadcastModule (fun _ _ => false) false [] toyChild 0
    (fun r => if r = 0 then toySent else
      ⟨[⟨0, none, false, false⟩, ⟨8, none, true, true⟩, ⟨9, none, false, false⟩],
        fun m => (toySent.params m).map fun s => (s.1, s.2 + 1), fun m => (toySent.buffers m).map fun s => (s.1, s.2 + 1)⟩)
    1).tensors.map (·.data) = [0, 5, 6] := by
  decide +kernel

/-! ### `load_state_dict` -/

/-- A key is for something below a child that is `None`. -/
def BelowNone (t : Tree) (key : String) : Prop :=
  ∃ ks i cs n, Leads t ks (.node i cs) ∧ HasMissing cs n ∧
    (((ks ++ [n]).foldl join "") ++ ".").toList <+: key.toList

/-- **Unexpected keys.** Keys that are refused are for something below a child that is `None`; if no module is reached in
two ways, all such keys are refused. Missing for the full property: modules that are reached in two ways, see
`C85_load_negation`. -/
theorem C85_load_partial (t : Tree) (keys : List String) (key : String) :
    (key ∈ unexpectedKeys t keys → key ∈ keys ∧ BelowNone t key) ∧
    ((ids t).Nodup → key ∈ keys → BelowNone t key → key ∈ unexpectedKeys t keys) := by
  unfold unexpectedKeys
  refine ⟨?_, ?_⟩
  · intro h
    obtain ⟨⟨name, o⟩, he, hk⟩ := List.mem_flatMap.1 h
    cases o with
    | some m => cases hk
    | none =>
      simp only [List.mem_filter] at hk
      obtain ⟨ks, i, cs, n, h1, h2, h3⟩ := visit_missing false "" t [] name he
      exact ⟨hk.1, ks, i, cs, n, h1, h2, by rw [← h3]; exact List.isPrefixOf_iff_prefix.1 hk.2⟩
  · rintro hnd hk ⟨ks, i, cs, n, h1, h2, h3⟩
    refine List.mem_flatMap.2 ⟨_, visit_missing_all false "" t [] hnd (by simp) ks _ h1 i cs n rfl h2, ?_⟩
    simp only [List.mem_filter]
    exact ⟨hk, List.isPrefixOf_iff_prefix.2 h3⟩

example : "encoder.norm.weight" ∈ unexpectedKeys toyTree ["encoder.norm.weight", "encoder.table.weight"] := by
  decide +kernel

example : (ids toyChild).Nodup := by decide

/-- **Disagreement.** Module 1, of which `norm` is `None`, is reached as `a` and as `b`: the key `b.norm.weight` is not
reported. -/
theorem C85_load_negation :
    BelowNone (.node 0 (.child "a" (.node 1 (.missing "norm" .nil)) (.child "b" (.node 1 (.missing "norm" .nil)) .nil)))
      "b.norm.weight" ∧
    unexpectedKeys
      (.node 0 (.child "a" (.node 1 (.missing "norm" .nil)) (.child "b" (.node 1 (.missing "norm" .nil)) .nil)))
      ["a.norm.weight", "b.norm.weight"] = ["a.norm.weight"] := by
  refine ⟨⟨["b"], 1, .missing "norm" .nil, "norm", .step (.inr (.inl ⟨rfl, rfl⟩)) (.here _), .inl rfl, ?_⟩, by decide +kernel⟩
  rw [← List.isPrefixOf_iff_prefix]
  decide +kernel

end Fs2.Props
