import Verif.Avl.Balance
import Mathlib.Data.List.Count

/-! Helper lemmas: histories, copies, parents. -/

namespace Verif.Avl
open Spec Tree
set_option linter.unusedSectionVars false
variable {α : Type} [LinearOrder α]

/-- Simulation relation with the multiset. -/
structure Sim (a : Avl α) (s : MSet α) : Prop where
  sorted : Sorted (inorder a.root)
  mult : ∀ x, (inorder a.root).count x = s.mult x
  dups : a.dups = s.dups
  size : a.size = (inorder a.root).length % W

theorem Sim.mem {a : Avl α} {s : MSet α} (h : Sim a s) (x : α) : x ∈ inorder a.root ↔ 0 < s.mult x := by
  rw [← h.mult x, List.count_pos_iff]

theorem sim_new : Sim (Avl.new : Avl α) MSet.empty :=
  ⟨List.Pairwise.nil, fun _ => rfl, rfl, rfl⟩

theorem sim_insert {a : Avl α} {s : MSet α} (h : Sim a s) (x : α) :
    Sim (a.insert x).1 (s.step (.insert x)).1 ∧ Out.bool (a.insert x).2 = (s.step (.insert x)).2 := by
  obtain ⟨h1, h2, h3, -⟩ := insert_spec a.dups a.next x a.size a.root none h.sorted
  have hm := h.mem x
  unfold Avl.insert
  generalize a.root.insert a.dups a.next x a.size none = res at *
  obtain ⟨t', ins, n'⟩ := res
  simp only at *
  unfold MSet.step
  by_cases hc : s.dups = true ∨ s.mult x = 0
  · have hi : ins = true := by
      rw [h1, h.dups, hm]
      exact hc.imp_right (by omega)
    obtain ⟨p1, p2, p3⟩ := h2 hi
    simp only [if_pos hc, hi, and_true]
    refine ⟨p2, fun y => ?_, h.dups, ?_⟩
    · show (inorder t').count y = _
      rw [p1.count_eq, List.count_cons, h.mult y]
      by_cases e : y = x
      · subst e; simp
      · simp [e, Ne.symm e]
    · show n' = (inorder t').length % W
      rw [p3, p1.length_eq, h.size, List.length_cons, Nat.mod_add_mod]
  · have hi : ins = false := by
      rw [← Bool.not_eq_true, h1, h.dups, hm]
      intro hh
      exact hc (hh.imp_right (by omega))
    obtain ⟨e1, e2⟩ := h3 hi
    simp only [if_neg hc, hi, and_true]
    subst e1 e2
    exact ⟨h.sorted, h.mult, h.dups, h.size⟩

theorem sim_remove {a : Avl α} {s : MSet α} (h : Sim a s) (x : α) :
    Sim (a.remove x).1 (s.step (.remove x)).1 ∧ Out.bool (a.remove x).2 = (s.step (.remove x)).2 := by
  obtain ⟨h1, h2, h3, h4, -⟩ := remove_spec a.size a.root x h.sorted
  have hm := h.mem x
  unfold Avl.remove
  generalize a.root.remove a.size x = res at *
  obtain ⟨t', rem, n'⟩ := res
  simp only at *
  unfold MSet.step
  by_cases hc : s.mult x = 0
  · have hi : rem = false := by
      rw [← Bool.not_eq_true, h1, hm]; omega
    obtain ⟨e1, e2⟩ := h3 hi
    simp only [if_pos hc, hi, and_true]
    subst e2
    exact ⟨h4, fun y => by rw [e1]; exact h.mult y, h.dups, by show a.size = _; rw [e1]; exact h.size⟩
  · have hi : rem = true := by rw [h1, hm]; omega
    obtain ⟨p1, p3⟩ := h2 hi
    simp only [if_neg hc, hi, and_true]
    refine ⟨h4, fun y => ?_, h.dups, ?_⟩
    · show (inorder t').count y = _
      have := p1.count_eq y
      rw [List.count_cons, h.mult y] at this
      by_cases e : y = x
      · subst e; simp at this ⊢; omega
      · simp [e, Ne.symm e] at this ⊢; omega
    · show n' = (inorder t').length % W
      have hl := p1.length_eq
      have hs := h.size
      rw [p3, hs, hl, List.length_cons]
      unfold W
      omega

theorem sim_removeAll {s : MSet α} (x : α) : ∀ (fuel : Nat) (a : Avl α) (s : MSet α) (cnt : Nat), Sim a s →
    s.mult x < fuel → ∃ a', Avl.removeAllFuel fuel a x cnt = some (a', cnt + s.mult x) ∧
      Sim a' (s.step (.removeAll x)).1 := by
  intro fuel
  induction fuel with
  | zero => intro a s cnt _ h; omega
  | succ fuel ih =>
    intro a s cnt h hf
    obtain ⟨h1, h2⟩ := sim_remove h x
    unfold Avl.removeAllFuel
    generalize hr : a.remove x = res at *
    obtain ⟨a', rem⟩ := res
    simp only at h1 h2
    by_cases hc : s.mult x = 0
    · have e2 : rem = false := by simpa [MSet.step, hc] using h2
      subst e2
      refine ⟨a', by simp [hc], ?_⟩
      have e1 : (s.step (.remove x)).1 = s := by simp [MSet.step, hc]
      rw [e1] at h1
      have e3 : (s.step (.removeAll x)).1 = s := by
        show MSet.mk _ _ = s
        have : (fun y => if y = x then 0 else s.mult y) = s.mult := by
          funext y; split
          · next e => rw [e, hc]
          · rfl
        rw [this]
      rw [e3]; exact h1
    · have e2 : rem = true := by simpa [MSet.step, hc] using h2
      subst e2
      simp only
      have e1 : (s.step (.remove x)).1 = { s with mult := fun y => if y = x then s.mult x - 1 else s.mult y } := by
        simp [MSet.step, hc]
      rw [e1] at h1
      obtain ⟨a'', k1, k2⟩ := ih a' _ (cnt + 1) h1 (by simp only [if_true]; omega)
      refine ⟨a'', ?_, ?_⟩
      · rw [k1]; simp only [if_true]; congr 2; omega
      · have e3 : (MSet.step { s with mult := fun y => if y = x then s.mult x - 1 else s.mult y } (.removeAll x)).1 =
            (s.step (.removeAll x)).1 := by
          show MSet.mk _ _ = MSet.mk _ _
          congr 1
          funext y
          by_cases e : y = x <;> simp [e]
        rw [e3] at k2; exact k2

theorem sim_step {a : Avl α} {s : MSet α} (h : Sim a s) (op : Op α) :
    ∃ a', step a op = .ok (a', (s.step op).2) ∧ Sim a' (s.step op).1 := by
  cases op with
  | insert x =>
    obtain ⟨h1, h2⟩ := sim_insert h x
    exact ⟨_, by rw [← h2]; rfl, h1⟩
  | remove x =>
    obtain ⟨h1, h2⟩ := sim_remove h x
    exact ⟨_, by rw [← h2]; rfl, h1⟩
  | removeAll x =>
    have hle : s.mult x ≤ (inorder a.root).length := by rw [← h.mult x]; exact List.count_le_length
    obtain ⟨a', h1, h2⟩ := sim_removeAll (s := s) x (Avl.nodes a.root + 1) a s 0 h (by rw [nodes_eq]; omega)
    refine ⟨a', ?_, h2⟩
    simp only [step, Avl.removeAll, h1, Res.bind_ok, Nat.zero_add]
    rfl
  | clear => exact ⟨_, rfl, List.Pairwise.nil, fun _ => rfl, h.dups, rfl⟩
  | enableDuplicates => exact ⟨_, rfl, h.sorted, h.mult, rfl, h.size⟩
  | disableDuplicates => exact ⟨_, rfl, h.sorted, h.mult, rfl, h.size⟩

theorem sim_run (ops : List (Op α)) : ∀ {a : Avl α} {s : MSet α}, Sim a s →
    ∃ a', run a ops = .ok (a', (s.run ops).2) ∧ Sim a' (s.run ops).1 := by
  induction ops with
  | nil => intro a s h; exact ⟨a, rfl, h⟩
  | cons op ops ih =>
    intro a s h
    obtain ⟨a1, h1, h2⟩ := sim_step h op
    obtain ⟨a2, h3, h4⟩ := ih h2
    refine ⟨a2, ?_, h4⟩
    simp only [run, h1, Res.bind_ok, h3]
    rfl

/-- Lift a one-call invariant to histories. -/
theorem run_inv (P : Avl α → Prop) (Q : Op α → Prop) (hstep : ∀ a op a' o, P a → Q op → step a op = .ok (a', o) → P a') :
    ∀ (ops : List (Op α)) (a a' : Avl α) (os), P a → (∀ op ∈ ops, Q op) → run a ops = .ok (a', os) → P a' := by
  intro ops
  induction ops with
  | nil => intro a a' os h _ hr; simp [run] at hr; rw [← hr.1]; exact h
  | cons op ops ih =>
    intro a a' os h hq hr
    simp only [run] at hr
    rw [Res.bind_eq_ok] at hr
    obtain ⟨⟨a1, o1⟩, e1, hr⟩ := hr
    rw [Res.bind_eq_ok] at hr
    obtain ⟨⟨a2, o2⟩, e2, hr⟩ := hr
    simp only [Res.ok.injEq, Prod.mk.injEq] at hr
    rw [← hr.1]
    exact ih a1 a2 o2 (hstep a op a1 o1 h (hq op List.mem_cons_self) e1)
      (fun op' h' => hq op' (List.mem_cons_of_mem _ h')) e2

theorem removeAllFuel_inv (P : Avl α → Prop) (x : α) (hrem : ∀ a, P a → P (a.remove x).1) :
    ∀ fuel a cnt a' k, P a → Avl.removeAllFuel fuel a x cnt = some (a', k) → P a' := by
  intro fuel
  induction fuel with
  | zero => intro a cnt a' k _ h; simp [Avl.removeAllFuel] at h
  | succ fuel ih =>
    intro a cnt a' k h hr
    have h1 := hrem a h
    unfold Avl.removeAllFuel at hr
    generalize a.remove x = res at *
    obtain ⟨a1, rem⟩ := res
    cases rem with
    | true => exact ih a1 _ a' k h1 hr
    | false => simp at hr; rw [← hr.1]; exact h1

/-- Invariants closed under the single mutators hold after every call. -/
theorem step_inv (P : Avl α → Prop) (hins : ∀ a x, P a → P (a.insert x).1) (hrem : ∀ a x, P a → P (a.remove x).1)
    (hclr : ∀ a, P a → P a.clear) (hd : ∀ a b, P a → P { a with dups := b }) :
    ∀ a op a' o, P a → step a op = .ok (a', o) → P a' := by
  intro a op a' o h hs
  cases op with
  | insert x => simp [step] at hs; rw [← hs.1]; exact hins a x h
  | remove x => simp [step] at hs; rw [← hs.1]; exact hrem a x h
  | removeAll x =>
    simp only [step, Avl.removeAll] at hs
    cases hf : Avl.removeAllFuel (Avl.nodes a.root + 1) a x 0 with
    | none => rw [hf] at hs; cases hs
    | some res =>
      obtain ⟨a1, k⟩ := res
      rw [hf] at hs
      simp only [Res.bind_ok, Res.ok.injEq, Prod.mk.injEq] at hs
      rw [← hs.1]
      exact removeAllFuel_inv P x (fun a => hrem a x) _ _ _ _ _ h hf
  | clear => simp [step] at hs; rw [← hs.1]; exact hclr a h
  | enableDuplicates => simp [step] at hs; rw [← hs.1]; exact hd a _ h
  | disableDuplicates => simp [step] at hs; rw [← hs.1]; exact hd a _ h

/-- Heights are exact after every history. -/
theorem run_exact {ops : List (Op α)} {a a' : Avl α} {os} (h : HeightsExact a.root) (hr : run a ops = .ok (a', os)) :
    HeightsExact a'.root :=
  run_inv (fun a => HeightsExact a.root) (fun _ => True)
    (fun a op a' o h _ hs => step_inv (fun a => HeightsExact a.root)
      (fun a x h => (exact_insert a.dups a.next x a.size a.root none h).1)
      (fun a x h => exact_remove a.size a.root x h)
      (fun _ _ => trivial) (fun _ _ h => h) a op a' o h hs)
    ops a a' os h (fun _ _ => trivial) hr

/-- Balanced trees are shallow. -/
theorem pow_le_count (t : Tree α) (h : BalancedBy 1 t) : 2 ^ (depth t / 2) ≤ Spec.count t + 1 := by
  induction t with
  | nil => simp [depth]
  | node i p v hh l r ihl ihr =>
    obtain ⟨b1, b2, bl, br⟩ := h
    have h1 := ihl bl
    have h2 := ihr br
    simp only [depth, Spec.count]
    by_cases hd : max (depth l) (depth r) = 0
    · rw [hd]; simp
    · have e : (max (depth l) (depth r) + 1) / 2 = (max (depth l) (depth r) - 1) / 2 + 1 := by omega
      rw [e, Nat.pow_succ]
      have m1 : 2 ^ ((max (depth l) (depth r) - 1) / 2) ≤ 2 ^ (depth l / 2) :=
        Nat.pow_le_pow_right (by omega) (by omega)
      have m2 : 2 ^ ((max (depth l) (depth r) - 1) / 2) ≤ 2 ^ (depth r / 2) :=
        Nat.pow_le_pow_right (by omega) (by omega)
      omega

/-- Stored parent of the root. -/
def rootParent : Tree α → Option Nat
  | .nil => none
  | .node _ p _ _ _ _ => p

theorem rootParent_rotateRight {i p v h} {l r : Tree α} : rootParent (rotateRight (.node i p v h l r)) = p := by
  cases l <;> rfl

theorem rootParent_rotateLeft {i p v h} {l r : Tree α} : rootParent (rotateLeft (.node i p v h l r)) = p := by
  cases r <;> rfl

theorem rootParent_rotateOnRemove {i p v h} {l r : Tree α} :
    rootParent (rotateOnRemove (.node i p v h l r)) = p := by
  simp only [rotateOnRemove]
  split
  · split
    · split
      · exact rootParent_rotateRight
      · exact rootParent_rotateRight
    · rfl
  · split
    · split
      · split
        · exact rootParent_rotateLeft
        · exact rootParent_rotateLeft
      · rfl
    · rfl

theorem rootParent_rotateIfNeeded {i p v h} {l r : Tree α} (x : α) :
    rootParent (rotateIfNeeded x (.node i p v h l r)) = p := by
  simp only [rotateIfNeeded]
  split
  · split
    · split
      · exact rootParent_rotateRight
      · exact rootParent_rotateRight
    · rfl
  · split
    · split
      · split
        · exact rootParent_rotateLeft
        · exact rootParent_rotateLeft
      · rfl
    · rfl

theorem rootParent_insert (dups fresh) (x : α) (n) (t : Tree α) (h : rootParent t = none) :
    rootParent (t.insert dups fresh x n none).1 = none := by
  cases t with
  | nil => rfl
  | node i p v hh l r =>
    have hp : p = none := h
    subst hp
    have key : ∀ (b : Bool) (l r : Tree α),
        rootParent (if b = true then rotateIfNeeded x (.node i none v hh l r) else .node i none v hh l r) = none := by
      intro b l r
      split
      · exact rootParent_rotateIfNeeded x
      · rfl
    simp only [Tree.insert]
    split
    · exact key _ _ _
    · split
      · exact key _ _ _
      · split
        · exact key _ _ _
        · rfl

theorem rootParent_remove (n) (x : α) (t : Tree α) (h : rootParent t = none) :
    rootParent (t.remove n x).1 = none := by
  cases t with
  | nil => rfl
  | node i p v hh l r =>
    have hp : p = none := h
    subst hp
    unfold Tree.remove
    split
    · exact rootParent_rotateOnRemove (h := hh)
    · split
      · exact rootParent_rotateOnRemove (h := hh)
      · split
        · rfl
        · exact rootParent_rotateOnRemove (h := 0)
        · exact rootParent_rotateOnRemove (h := 0)
        · split
          · rfl
          · exact rootParent_rotateOnRemove (h := hh)

theorem copy_spec (t : Tree α) : ∀ par next,
    inorder (t.copy par next).1 = inorder t ∧ SameShape t (t.copy par next).1 ∧
    ParentsExact par (t.copy par next).1 := by
  induction t with
  | nil => intro par next; exact ⟨rfl, .nil, trivial⟩
  | node i p v h l r ihl ihr =>
    intro par next
    simp only [Tree.copy]
    obtain ⟨a1, a2, a3⟩ := ihl (some next) (next + 1)
    obtain ⟨b1, b2, b3⟩ := ihr (some next) (l.copy (some next) (next + 1)).2
    exact ⟨by simp only [inorder, a1, b1], .node a2 b2, rfl, a3, b3⟩

end Verif.Avl
