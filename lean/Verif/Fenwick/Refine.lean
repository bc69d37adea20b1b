import Verif.Fenwick.Lemmas
import Verif.Fenwick.History
import Mathlib.Algebra.Group.Defs
import Mathlib.Algebra.Group.Basic

/-! Refinement of the sum Fenwick tree to plain lists (helper lemmas). -/

set_option linter.unusedSectionVars false

namespace Verif.Fenwick
open Spec (Op Val put)

variable {T : Type} [AddCommGroup T] [DecidableEq T]

theorem sumT_lawful : Lawful (sumT T) where
  assoc a b c := add_assoc a b c
  comm a b := add_comm a b
  null_op a := zero_add a

theorem F_sum (l : List T) : F (sumT T) l = l.sum := rfl

theorem length_last {n : Nat} (hW : n + 1 ≤ W) : (n + 1 + (W - 1)) % W = n := by
  have : n + 1 + (W - 1) = n + W := by unfold W at *; omega
  rw [this, Nat.add_mod_right, Nat.mod_eq_of_lt (by omega)]

theorem sum_rangeQuery {cells a : List T} (h : Inv (sumT T) cells a) (lo hi : Nat)
    (h1 : lo ≤ hi) (h2 : hi ≤ a.length) :
    rangeQuery (sumT T) cells lo hi = .ok (slice a (lo - 1) hi).sum := by
  rw [h.rangeQuery sumT_lawful lo hi h1 h2 (by simp [sumT]), F_sum]
  intro _
  by_cases h0 : F (sumT T) (a.take (lo - 1)) = 0
  · right
    refine ⟨by simp [sumT] at h0 ⊢; exact h0, fun v => ?_⟩
    rw [h0]; exact zero_add v
  · left
    refine ⟨by simp [sumT] at h0 ⊢; exact h0, fun v => ?_⟩
    change Res.ok (_ + v - _) = _
    rw [add_sub_cancel_left]

theorem Reps.query {f : Tree T} {a : List T} (h : Reps (sumT T) f a) (x y : Nat) :
    f.query (sumT T) x y = .ok (Spec.rangeSum a x y) := by
  obtain ⟨hb, hi⟩ := h
  have hl := hi.len
  have hW := hi.lenW
  unfold Tree.query
  simp only [hb, Bool.not_true, Bool.false_eq_true, if_false]
  rw [hl, length_last (by omega), sum_rangeQuery hi _ _ (by omega) (by omega)]
  unfold Spec.rangeSum Spec.addressed Spec.positions slice
  have e : max 1 (min (min x y) a.length) - 1 = min (min x y) a.length - 1 := by omega
  rw [e]

theorem Reps.update {f : Tree T} {a : List T} (h : Reps (sumT T) f a) (p : Nat) (v : T) :
    ∃ f', f.update (sumT T) p v = .ok (f', decide (p ≤ a.length)) ∧
      Reps (sumT T) f' (if 1 ≤ p ∧ p ≤ a.length then a.modify (p - 1) (· + v) else a) := by
  obtain ⟨hb, hi⟩ := h
  have hl := hi.len
  unfold Tree.update
  simp only [hb, Bool.not_true, Bool.false_eq_true, if_false]
  have e : decide (p < f.processed.length) = decide (p ≤ a.length) := by
    rw [hl]; congr 1; rw [eq_iff_iff]; omega
  rw [e]
  split
  · next hc =>
    simp only [Bool.and_eq_true, decide_eq_true_eq] at hc
    refine ⟨_, rfl, rfl, ?_⟩
    by_cases hp : 1 ≤ p
    · rw [if_pos ⟨hp, hc.1⟩]
      exact hi.update sumT_lawful p v hp hc.1
    · rw [if_neg (by omega)]
      have : p = 0 := by omega
      subst this
      simpa [updateCells_zero] using hi
  · next hc =>
    refine ⟨_, rfl, hb, ?_⟩
    split
    · next h5 =>
      have hv : v = 0 := by
        by_contra hv
        apply hc
        simp [sumT, h5.2, hv]
      subst hv
      have : a.modify (p - 1) (· + (0 : T)) = a := by
        have e : (fun x : T => x + 0) = id := by funext x; simp
        rw [e, List.modify_id]
      rw [this]; exact hi
    · exact hi

theorem slice_single (a : List T) (p : Nat) (h1 : 1 ≤ p) (h2 : p ≤ a.length) :
    slice a (p - 1) p = [a[p - 1]'(by omega)] := by
  apply List.ext_getElem?
  intro i
  simp only [slice, List.getElem?_drop, List.getElem?_take]
  rcases i with _ | i
  · simp only [Nat.add_zero]; rw [if_pos (by omega), List.getElem?_eq_getElem (by omega)]; rfl
  · rw [if_neg (by omega)]; simp

theorem modify_add_sub (a : List T) (k : Nat) (hk : k < a.length) (v : T) :
    a.modify k (· + (v - a[k])) = a.set k v := by
  apply List.ext_getElem?
  intro i
  rw [List.getElem?_modify, List.getElem?_set]
  by_cases h : k = i
  · subst h; simp [hk]
  · simp [h]

theorem Reps.setValue {f : Tree T} {a : List T} (h : Reps (sumT T) f a) (p : Nat) (v : T) :
    ∃ f', f.setValue (sumT T) p v = .ok (f', decide (1 ≤ p ∧ p ≤ a.length)) ∧
      Reps (sumT T) f' (if 1 ≤ p ∧ p ≤ a.length then a.set (p - 1) v else a) := by
  obtain ⟨hb, hi⟩ := h
  have hl := hi.len
  unfold Tree.setValue
  simp only [hb, Bool.not_true, Bool.false_eq_true, if_false]
  have e : (decide (p < f.processed.length) && decide (0 < p)) = decide (1 ≤ p ∧ p ≤ a.length) := by
    rw [hl, ← Bool.decide_and]; congr 1; rw [eq_iff_iff]; omega
  rw [e]
  by_cases hc : 1 ≤ p ∧ p ≤ a.length
  · rw [sum_rangeQuery hi p p (by omega) hc.2, slice_single a p hc.1 hc.2]
    rw [if_pos hc, if_pos (by simpa using hc)]
    simp only [Res.bind_ok, List.sum_singleton]
    change ∃ f', (if decide (v - a[p - 1]'(by omega) ≠ 0) = true then _ else _) = _ ∧ _
    have hm := modify_add_sub a (p - 1) (by omega) v
    split
    · refine ⟨_, rfl, rfl, ?_⟩
      have := hi.update sumT_lawful p (v - a[p - 1]'(by omega)) hc.1 hc.2
      rw [← hm]; exact this
    · next h0 =>
      refine ⟨_, rfl, hb, ?_⟩
      simp only [ne_eq, decide_not, Bool.not_eq_eq_eq_not, Bool.not_true, decide_eq_false_iff_not,
        not_not] at h0
      rw [← hm, h0]
      have e : (fun x : T => x + 0) = id := by funext x; simp
      rw [e, List.modify_id]; exact hi
  · rw [if_neg hc, if_neg (by simpa using hc)]
    exact ⟨_, rfl, hb, hi⟩

theorem Inv.take {t : Transform T} {cells a : List T} (h : Inv t cells a) (k : Nat) (hk : 1 ≤ k) :
    Inv t (cells.take k) (a.take (k - 1)) where
  len := by simp [h.len]; omega
  lenW := by have := h.lenW; simp; omega
  zero := by rw [List.getElem?_take, if_pos (by omega), h.zero]
  cell := by
    intro i h1 h2
    rw [List.length_take] at h2
    rw [List.getElem?_take, if_pos (by omega), h.cell i h1 (by omega)]
    unfold slice
    rw [List.take_take, Nat.min_eq_left (by omega)]

theorem Reps.resize {t : Transform T} {f : Tree T} {a : List T} (h : Reps t f a) (k : Nat) (hk : 1 ≤ k) :
    Reps t (f.resize k) (a.take (k - 1)) := by
  obtain ⟨hb, hi⟩ := h
  have hl := hi.len
  unfold Tree.resize
  split
  · exact ⟨hb, hi.take k hk⟩
  · refine ⟨hb, ?_⟩
    rw [List.take_of_length_le (by omega)]; exact hi

/-- Relation between a model tree and its abstract value. -/
def Rel (f : Tree T) : Option (List T) → Prop
  | none => Unbuilt f
  | some a => Reps (sumT T) f a

theorem Rel.built {f : Tree T} {o : Option (List T)} (h : Rel f o) : f.built = true ∨ Unbuilt f := by
  cases o with
  | none => exact .inr h
  | some a => exact .inl h.1

theorem step_refines (σ : Store T) (τ : Spec.Store T) (h : ∀ i, Rel (σ i) (τ i)) (o : Op T) (ho : o.Valid) :
    (step (sumT T) σ o).2 = (Spec.step τ o).2 ∧
    ∀ i, Rel ((step (sumT T) σ o).1 i) ((Spec.step τ o).1 i) := by
  cases o with
  | rebuild i input n =>
    refine ⟨rfl, fun j => ?_⟩
    simp only [step, Spec.step, put]
    split
    · exact build_reps sumT_lawful (σ i) input n (h i).built ho
    · exact h j
  | update i p v =>
    have hi := h i
    simp only [step, Spec.step]
    cases hτ : τ i with
    | none =>
      rw [hτ] at hi
      have : (σ i).update (sumT T) p v = .exc .notBuilt := by simp [Tree.update, hi.1]
      rw [this]; exact ⟨rfl, h⟩
    | some a =>
      rw [hτ] at hi
      obtain ⟨f', h1, h2⟩ := Reps.update hi p v
      rw [h1]
      refine ⟨rfl, fun j => ?_⟩
      simp only [put]
      split
      · exact h2
      · exact h j
  | setValue i p v =>
    have hi := h i
    simp only [step, Spec.step]
    cases hτ : τ i with
    | none =>
      rw [hτ] at hi
      have : (σ i).setValue (sumT T) p v = .exc .notBuilt := by simp [Tree.setValue, hi.1]
      rw [this]; exact ⟨rfl, h⟩
    | some a =>
      rw [hτ] at hi
      obtain ⟨f', h1, h2⟩ := Reps.setValue hi p v
      rw [h1]
      refine ⟨rfl, fun j => ?_⟩
      simp only [put]
      split
      · exact h2
      · exact h j
  | query i x y =>
    have hi := h i
    simp only [step, Spec.step]
    cases hτ : τ i with
    | none =>
      rw [hτ] at hi
      have : (σ i).query (sumT T) x y = .exc .notBuilt := by simp [Tree.query, hi.1]
      rw [this]; exact ⟨rfl, h⟩
    | some a =>
      rw [hτ] at hi
      rw [Reps.query hi]; exact ⟨rfl, h⟩
  | resize i k =>
    refine ⟨rfl, fun j => ?_⟩
    simp only [step, Spec.step, put]
    split
    · have hi := h i
      cases hτ : τ i with
      | none =>
        rw [hτ] at hi
        simp only [Option.map_none]
        unfold Tree.resize
        rw [hi.2]; simpa using hi
      | some a =>
        rw [hτ] at hi
        exact Reps.resize hi k ho
    · exact h j
  | copy dst src =>
    refine ⟨rfl, fun j => ?_⟩
    simp only [step, Spec.step, put]
    split
    · exact h src
    · exact h j
  | move dst src =>
    refine ⟨rfl, fun j => ?_⟩
    simp only [step, Spec.step, put, Tree.moveFrom]
    split
    · exact ⟨rfl, rfl⟩
    · split
      · exact h src
      · exact h j

theorem run_refines (ops : List (Op T)) : ∀ (σ : Store T) (τ : Spec.Store T), (∀ i, Rel (σ i) (τ i)) →
    (∀ o ∈ ops, o.Valid) →
    (run (sumT T) σ ops).2 = (Spec.run τ ops).2 ∧
    ∀ i, Rel ((run (sumT T) σ ops).1 i) ((Spec.run τ ops).1 i) := by
  induction ops with
  | nil => intro σ τ h _; exact ⟨rfl, h⟩
  | cons o os ih =>
    intro σ τ h hv
    obtain ⟨h1, h2⟩ := step_refines σ τ h o (hv o (by simp))
    obtain ⟨h3, h4⟩ := ih _ _ h2 (fun o' ho' => hv o' (by simp [ho']))
    exact ⟨by simp only [run, Spec.run, h1, h3], h4⟩

theorem init_rel (i : Nat) : Rel (Store.init (T := T) i) none := ⟨rfl, rfl⟩

theorem Reachable.cases {f : Tree T} (h : Reachable (sumT T) f) : ∃ o, Rel f o := by
  obtain ⟨ops, i, hv, rfl⟩ := h
  exact ⟨_, (run_refines ops Store.init (fun _ => none) init_rel hv).2 i⟩

end Verif.Fenwick
