import Verif.Avl.CopyGrow

/-! C39 exactly: when a copy reports the right height, and when an assignment has the elements of its source. -/

namespace Verif.Avl
open Spec
set_option linter.unusedSectionVars false

variable {α : Type} [LinearOrder α]

/-- **C39** exactly as the code behaves, for every tree `a` that calls on a new tree lead to and any target `dst`.  The copy and the
assigned tree really have the depth of the source, but a non-empty one reports the height 1, which is right if and only if no node has a
child.  An assignment takes over the elements of the source if and only if the source has some or the target had none; otherwise the
target keeps its elements and reports 0 of them. -/
theorem C39_exact (ops : List (Op α)) (dst : Avl α) :
    ∃ a os, run (Avl.new : Avl α) ops = .ok (a, os) ∧
      depth a.copy.root = depth a.root ∧ a.copy.height = min 1 (depth a.root) ∧
      (a.copy.height = depth a.copy.root ↔ count a.root ≤ 1) ∧
      (a.root ≠ .nil → depth (dst.copyAssign a).root = depth a.root ∧ (dst.copyAssign a).height = 1) ∧
      (inorder (dst.copyAssign a).root = inorder a.root ↔ a.root ≠ .nil ∨ dst.root = .nil) ∧
      (a.root = .nil → (dst.copyAssign a).root = dst.root ∧ (dst.copyAssign a).size = 0) := by
  obtain ⟨a, os, h1, h2, -⟩ := C33_size ops
  have hz : ∀ t : Tree α, inorder t = [] ↔ t = .nil := by
    intro t; cases t <;> simp [inorder]
  have hc0 : ∀ t : Tree α, t ≠ .nil → 1 ≤ count t := by
    intro t h; cases t with
    | nil => exact absurd rfl h
    | node => simp only [count]; omega
  have hd0 : ∀ t : Tree α, t ≠ .nil → 1 ≤ depth t := by
    intro t h; cases t with
    | nil => exact absurd rfl h
    | node => simp only [depth]; omega
  refine ⟨a, os, h1, ?_⟩
  cases ht : a.root with
  | nil =>
    have e : a.copy.root = .nil := by unfold Avl.copy Avl.copyAssign; rw [ht]; rfl
    have e2 : dst.copyAssign a = { dst with dups := a.dups, size := a.size } := by unfold Avl.copyAssign; rw [ht]
    have e3 : a.size = 0 := by rw [h2, ht]; rfl
    unfold Avl.height
    rw [e, e2]
    refine ⟨rfl, rfl, ⟨fun _ => Nat.zero_le _, fun _ => rfl⟩, fun h => absurd rfl h, ?_, fun _ => ⟨rfl, e3⟩⟩
    exact ⟨fun h => .inr ((hz _).1 h), fun h => by
      rcases h with h | h
      · exact absurd rfl h
      · rw [h]⟩
  | node i p v hh l r =>
    have hne : (Tree.node i p v hh l r) ≠ .nil := by intro h; cases h
    obtain ⟨n, en⟩ := copy_root a
    obtain ⟨m, em⟩ : ∃ m, (dst.copyAssign a).root = (a.root.copy none m).1 := by
      unfold Avl.copyAssign; rw [ht]; exact ⟨_, rfl⟩
    rw [ht] at en em
    obtain ⟨f1, -, f3⟩ := copy_facts (.node i p v hh l r) none n
    obtain ⟨g1, -, g3⟩ := copy_facts (.node i p v hh l r) none m
    obtain ⟨k1, -⟩ := copy_spec (.node i p v hh l r) none m
    unfold Avl.height
    rw [en, em, f1, f3 hne, g1, g3 hne, k1]
    have hd := hd0 _ hne
    refine ⟨rfl, by omega, ⟨fun h => ?_, fun h => ?_⟩, fun _ => ⟨rfl, rfl⟩, ⟨fun _ => .inl hne, fun _ => rfl⟩, fun h => absurd h hne⟩
    · simp only [depth] at h
      have hl : l = .nil := by
        by_cases c : l = .nil
        · exact c
        · have := hd0 l c; omega
      have hr : r = .nil := by
        by_cases c : r = .nil
        · exact c
        · have := hd0 r c; omega
      subst hl; subst hr; simp [count]
    · simp only [count] at h
      have hl : l = .nil := by
        by_cases c : l = .nil
        · exact c
        · have := hc0 l c; omega
      have hr : r = .nil := by
        by_cases c : r = .nil
        · exact c
        · have := hc0 r c; omega
      subst hl; subst hr; rfl

example : (build false [4, 2, 6, 1]).copy.height = 1 ∧ depth (build false [4, 2, 6, 1]).copy.root = 3 ∧
    (build false [4]).copy.height = depth (build false [4]).copy.root ∧
    inorder ((build false [3]).copyAssign (build false [])).root = [3] := by decide +kernel

end Verif.Avl
