import Verif.Checkpoint.Spec
import Verif.Gang.Grid

/-!
# Topologies of checkpoints

The coordinates of the ranks come from the gangs (gang.py), and the names of the
files from the coordinates.
-/

namespace Fs2.Ckpt

open Fs2.Gang

variable {C : Type} {N : Nat}

/-- The coordinates that `gangs` gives to the process with root rank `r`. -/
def coords (gs : Gangs) (r : Nat) : Coords :=
  ⟨gs.dp.rank r, gs.rdp.rank r, gs.sdp.rank r, gs.tp.rank r, gs.pp.rank r⟩

/-- Tensor parallel size `tp`, shard size `m`. -/
def grid (N tp m : Nat) : Topo N := fun r =>
  ⟨r.val / tp, r.val / tp / m, r.val / tp % m, r.val % tp, 0⟩

theorem rec_cases {t : Topo N} {sv : Save N C} {r : Fin N} {i : Nat} {x : Rec C}
    (h : (records t sv r)[i]? = some x) :
    (sv.full = true ∧ x = ⟨⟨.trainer, [r]⟩, sv.state r .trainer⟩ ∧ i = 0) ∨
    ((t r).rdp = 0 ∧ x = ⟨⟨.model, [(t r).pp, (t r).tp, (t r).sdp]⟩, sv.state r .model⟩ ∧
      i = if sv.full then 1 else 0) ∨
    (sv.full = true ∧ (t r).rdp = 0 ∧ x = ⟨⟨.optimizer, [(t r).pp, (t r).tp, (t r).sdp]⟩, sv.state r .optimizer⟩ ∧
      i = 2) ∨
    (sv.full = true ∧ (t r).tp = 0 ∧ x = ⟨⟨.dataReader, [(t r).dp]⟩, sv.state r .dataReader⟩ ∧
      i = if (t r).rdp = 0 then 3 else 1) := by
  unfold records at h
  by_cases h1 : sv.full = true <;> by_cases h2 : (t r).rdp = 0 <;> by_cases h3 : (t r).tp = 0 <;>
    simp only [h1, h2, h3, if_true, if_false, true_and, and_true, and_false, false_and, List.append_nil,
      List.nil_append, List.cons_append, Bool.false_eq_true] at h ⊢
  all_goals
    rcases i with _ | _ | _ | _ | i <;>
      simp only [List.getElem?_cons_zero, List.getElem?_cons_succ, List.getElem?_nil, Option.some.injEq,
        reduceCtorEq] at h <;> first | (subst h; simp) | simp at h

/-- In a grid every file is written once. -/
theorem grid_apart {tp m : Nat} (sv : Save N C) : Apart (grid N tp m) sv := by
  intro r r' i j x y hx hy he
  have key : ∀ a b : Nat, a % tp = b % tp → a / tp = b / tp → a = b := by
    intro a b h1 h2
    rw [← pos_eq a tp, ← pos_eq b tp, h1, h2]
  rcases rec_cases hx with ⟨f1, rfl, e⟩ | ⟨d1, rfl, e⟩ | ⟨f1, d1, rfl, e⟩ | ⟨f1, d1, rfl, e⟩ <;>
    rcases rec_cases hy with ⟨f2, rfl, e'⟩ | ⟨d2, rfl, e'⟩ | ⟨f2, d2, rfl, e'⟩ | ⟨f2, d2, rfl, e'⟩ <;>
    simp only [File.mk.injEq, reduceCtorEq, false_and, true_and, List.cons.injEq, and_true] at he
  · have hrr : r = r' := Fin.ext he
    subst hrr
    exact ⟨rfl, by omega⟩
  · simp only [grid, true_and] at he d1 d2
    have : r.val / tp = r'.val / tp := by
      rw [← pos_eq (r.val / tp) m, ← pos_eq (r'.val / tp) m, d1, d2, he.2]
    have hrr : r = r' := Fin.ext (key _ _ he.1 this)
    subst hrr
    exact ⟨rfl, e.trans e'.symm⟩
  · simp only [grid, true_and] at he d1 d2
    have : r.val / tp = r'.val / tp := by
      rw [← pos_eq (r.val / tp) m, ← pos_eq (r'.val / tp) m, d1, d2, he.2]
    have hrr : r = r' := Fin.ext (key _ _ he.1 this)
    subst hrr
    exact ⟨rfl, e.trans e'.symm⟩
  · simp only [grid] at he d1 d2
    have hrr : r = r' := Fin.ext (key _ _ (d1.trans d2.symm) he)
    subst hrr
    exact ⟨rfl, e.trans e'.symm⟩

end Fs2.Ckpt
