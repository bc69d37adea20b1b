import Verif.Seg.BracketProps
import Verif.Binary64Order

/-!
C198: segment trees whose `join` is the minimum or maximum of `double`s (`tools::minimum_t`, `tools::maximum_t` with two arguments,
tools/math_operation.h:122-124, 140-142, in a user's transform; structures/segment_tree.h:178-187, 336-382), with infinities and NaN.
-/

namespace Verif.Seg
open Verif.Seg.Spec
open Dbl

/-- `std::min(a, b)`: `(b < a) ? b : a`. -/
def smin (a b : Dbl) : Dbl := if Dbl.lt b a then b else a

/-- `std::max(a, b)`: `(a < b) ? b : a`. -/
def smax (a b : Dbl) : Dbl := if Dbl.lt a b then b else a

/-! ### Specification -/

/-- `r` is the least of the elements that are numbers. -/
def LeastNumber (l : List Dbl) (r : Dbl) : Prop := r ∈ l ∧ r ≠ .nan ∧ ∀ y ∈ l, y ≠ .nan → Le r y

/-- `r` is the greatest of the elements that are numbers. -/
def GreatestNumber (l : List Dbl) (r : Dbl) : Prop := r ∈ l ∧ r ≠ .nan ∧ ∀ y ∈ l, y ≠ .nan → Le y r

/-- The addressed elements. -/
def addressed (l : List Dbl) (a b : Nat) : List Dbl := slice l (lo l.length a b) (hi l.length a b)

/-- The full claim: whenever a number is addressed, the answer is the least (greatest) of the addressed numbers. -/
def C198_statement : Prop := ∀ (input : List Dbl) (a b : Nat) (t : SegT Dbl Unit), input.length ≤ W → input ≠ [] →
  (∃ y ∈ addressed input a b, y ≠ .nan) →
  (build (plain smin (.inf false)) exactNeed .new input input.length = .ok t →
    ∃ r t', query (plain smin (.inf false)) t a b = .ok (r, t') ∧ LeastNumber (addressed input a b) r) ∧
  (build (plain smax (.inf true)) exactNeed .new input input.length = .ok t →
    ∃ r t', query (plain smax (.inf true)) t a b = .ok (r, t') ∧ GreatestNumber (addressed input a b) r)

/-! ### Brackets of minima -/

/-- What minimum and maximum have in common. -/
structure Pick (j : Dbl → Dbl → Dbl) (le : Dbl → Dbl → Prop) : Prop where
  refl : ∀ a, a ≠ .nan → le a a
  trans : ∀ a b c, le a b → le b c → le a c
  nan : ∀ b, j .nan b = .nan
  pick : ∀ a b, j a b = a ∨ j a b = b
  num : ∀ a b, a ≠ .nan → j a b ≠ .nan
  left : ∀ a b, a ≠ .nan → le (j a b) a
  right : ∀ a b, a ≠ .nan → b ≠ .nan → le (j a b) b

theorem pick_min : Pick smin Le where
  refl _ := Le.refl
  trans _ _ _ := Le.trans
  nan b := by unfold smin; cases b <;> rfl
  pick a b := by unfold smin; split <;> simp
  num a b ha := by
    unfold smin; split
    · next h => exact (lt_true h).left
    · exact ha
  left a b ha := by
    unfold smin; split
    · next h => exact lt_true h
    · exact Le.refl ha
  right a b ha hb := by
    unfold smin; split
    · exact Le.refl hb
    · next h => exact lt_false hb ha (by simpa using h)

theorem pick_max : Pick smax (fun a b => Le b a) where
  refl _ := Le.refl
  trans _ _ _ h h' := Le.trans h' h
  nan b := rfl
  pick a b := by unfold smax; split <;> simp
  num a b ha := by
    unfold smax; split
    · next h => exact (lt_true h).right
    · exact ha
  left a b ha := by
    unfold smax; split
    · next h => exact lt_true h
    · exact Le.refl ha
  right a b ha hb := by
    unfold smax; split
    · exact Le.refl hb
    · next h => exact lt_false ha hb (by simpa using h)

theorem Br.leaves_ne {V : Type} (B : Br V) : B.leaves ≠ [] := by
  induction B with
  | leaf v => simp [Br.leaves]
  | node l r ihl _ => simp [Br.leaves, ihl]

variable {j : Dbl → Dbl → Dbl} {le : Dbl → Dbl → Prop}

theorem Pick.mem (p : Pick j le) (B : Br Dbl) : B.eval j ∈ B.leaves := by
  induction B with
  | leaf v => simp [Br.eval, Br.leaves]
  | node l r ihl ihr =>
    simp only [Br.eval, Br.leaves, List.mem_append]
    rcases p.pick (l.eval j) (r.eval j) with e | e <;> rw [e]
    · exact Or.inl ihl
    · exact Or.inr ihr

/-- An expression is a NaN exactly if it begins with one. -/
theorem Pick.isNan (p : Pick j le) (B : Br Dbl) : B.eval j = .nan ↔ B.leaves.head? = some .nan := by
  induction B with
  | leaf v => simp [Br.eval, Br.leaves]
  | node l r ihl _ =>
    simp only [Br.eval, Br.leaves]
    rw [List.head?_append_of_ne_nil _ l.leaves_ne, ← ihl]
    constructor
    · intro h
      by_contra hn
      exact p.num _ _ hn h
    · intro h
      rw [h, p.nan]

/-- The numbers before the first NaN count. -/
theorem Pick.before (p : Pick j le) (B : Br Dbl) : ∀ (us vs : List Dbl), B.leaves = us ++ vs → .nan ∉ us → ∀ y ∈ us, le (B.eval j) y := by
  induction B with
  | leaf v =>
    intro us vs h hn y hy
    cases us with
    | nil => cases hy
    | cons u us =>
      simp only [Br.leaves, List.cons_append, List.cons.injEq] at h
      obtain ⟨rfl, h⟩ := h
      have : us = [] := (List.append_eq_nil_iff.1 h.symm).1
      subst this
      rw [List.mem_singleton] at hy
      subst hy
      exact p.refl _ (fun e => hn (List.mem_singleton.2 e.symm))
  | node l r ihl ihr =>
    intro us vs h hn y hy
    simp only [Br.leaves] at h
    simp only [Br.eval]
    have hne := List.ne_nil_of_mem hy
    have hl : l.eval j ≠ .nan := by
      intro e
      rw [p.isNan] at e
      have h1 : (l.leaves ++ r.leaves).head? = some .nan := by rw [List.head?_append_of_ne_nil _ l.leaves_ne]; exact e
      rw [h, List.head?_append_of_ne_nil _ hne] at h1
      exact hn (List.mem_of_mem_head? h1)
    rcases List.append_eq_append_iff.1 h with ⟨as, rfl, h2⟩ | ⟨bs, h1, -⟩
    · -- the whole left part is before the NaN
      rcases List.mem_append.1 hy with hy | hy
      · exact p.trans _ _ _ (p.left _ _ hl) (ihl l.leaves [] (by simp) (fun e => hn (List.mem_append_left _ e)) y hy)
      · have hr : r.eval j ≠ .nan := by
          intro e
          rw [p.isNan, h2, List.head?_append_of_ne_nil _ (List.ne_nil_of_mem hy)] at e
          exact hn (List.mem_append_right _ (List.mem_of_mem_head? e))
        exact p.trans _ _ _ (p.right _ _ hl hr) (ihr as vs h2 (fun e => hn (List.mem_append_right _ e)) y hy)
    · exact p.trans _ _ _ (p.left _ _ hl) (ihl us bs h1 hn y hy)

theorem query_bracket (j : Dbl → Dbl → Dbl) (d : Dbl) (need : Nat → Nat) (hneed : Roomy need) (t : SegT Dbl Unit) (input : List Dbl) (number : Nat)
    (hW : input.length ≤ W) (hne : input.take number ≠ []) :
    ∃ t', build (plain j d) need t input number = .ok t' ∧ ∀ a b : Nat, ∃ Q : Br Dbl,
      query (plain j d) t' a b = .ok (Q.eval j, t') ∧ Q.leaves = addressed (input.take number) a b := by
  obtain ⟨t', B, h1, h2, h3⟩ := build_holds (X := plain j d) rfl hneed t input number hW hne
  refine ⟨t', h1, fun a b => ?_⟩
  obtain ⟨Q, q1, q2, -⟩ := h2.query a b
  have hl : B.leaves = input.take number := by
    rw [h3]
    apply List.ext_getElem?
    intro k
    rw [List.getElem?_mapIdx]
    simp [plain]
  rw [hl] at q2
  exact ⟨Q, q1, q2⟩

/-! ### C198 -/

/-- Proved: if no NaN is addressed (other elements may be NaN), minima and maxima are right, with infinities.  Missing: NaN among the addressed
elements, for which it is false. -/
theorem C198_number_partial (need : Nat → Nat) (hneed : Roomy need) (t : SegT Dbl Unit) (input : List Dbl) (number : Nat)
    (hW : input.length ≤ W) (hne : input.take number ≠ []) :
    ∃ tmin tmax, build (plain smin (.inf false)) need t input number = .ok tmin ∧ build (plain smax (.inf true)) need t input number = .ok tmax ∧
      ∀ a b : Nat, .nan ∉ addressed (input.take number) a b →
        (∃ r, query (plain smin (.inf false)) tmin a b = .ok (r, tmin) ∧ LeastNumber (addressed (input.take number) a b) r) ∧
        (∃ r, query (plain smax (.inf true)) tmax a b = .ok (r, tmax) ∧ GreatestNumber (addressed (input.take number) a b) r) := by
  obtain ⟨t1, h1, q1⟩ := query_bracket smin (.inf false) need hneed t input number hW hne
  obtain ⟨t2, h2, q2⟩ := query_bracket smax (.inf true) need hneed t input number hW hne
  refine ⟨t1, t2, h1, h2, fun a b hn => ⟨?_, ?_⟩⟩
  · obtain ⟨Q, e, hQ⟩ := q1 a b
    rw [← hQ] at hn ⊢
    exact ⟨_, e, pick_min.mem Q, fun e => hn (e ▸ pick_min.mem Q), fun y hy _ => pick_min.before Q Q.leaves [] (by simp) hn y hy⟩
  · obtain ⟨Q, e, hQ⟩ := q2 a b
    rw [← hQ] at hn ⊢
    exact ⟨_, e, pick_max.mem Q, fun e => hn (e ▸ pick_max.mem Q), fun y hy _ => pick_max.before Q Q.leaves [] (by simp) hn y hy⟩

/-- With NaN: the answer is one of the addressed elements; it is a NaN exactly if the first of them is one; and every number before the first NaN
counts.  (Whether those after a NaN count depends on the brackets.) -/
theorem C198_nan_partial (need : Nat → Nat) (hneed : Roomy need) (t : SegT Dbl Unit) (input : List Dbl) (number : Nat)
    (hW : input.length ≤ W) (hne : input.take number ≠ []) :
    ∃ tmin tmax, build (plain smin (.inf false)) need t input number = .ok tmin ∧ build (plain smax (.inf true)) need t input number = .ok tmax ∧
      ∀ a b : Nat, ∃ r s, query (plain smin (.inf false)) tmin a b = .ok (r, tmin) ∧ query (plain smax (.inf true)) tmax a b = .ok (s, tmax) ∧
        r ∈ addressed (input.take number) a b ∧ s ∈ addressed (input.take number) a b ∧
        (r = .nan ↔ (addressed (input.take number) a b).head? = some .nan) ∧ (s = .nan ↔ (addressed (input.take number) a b).head? = some .nan) ∧
        ∀ us vs, addressed (input.take number) a b = us ++ vs → .nan ∉ us → ∀ y ∈ us, Le r y ∧ Le y s := by
  obtain ⟨t1, h1, q1⟩ := query_bracket smin (.inf false) need hneed t input number hW hne
  obtain ⟨t2, h2, q2⟩ := query_bracket smax (.inf true) need hneed t input number hW hne
  refine ⟨t1, t2, h1, h2, fun a b => ?_⟩
  obtain ⟨Q, e, hQ⟩ := q1 a b
  obtain ⟨Q', e', hQ'⟩ := q2 a b
  refine ⟨_, _, e, e', hQ ▸ pick_min.mem Q, hQ' ▸ pick_max.mem Q', ?_, ?_, fun us vs h hn y hy => ⟨?_, ?_⟩⟩
  · rw [← hQ]; exact pick_min.isNan Q
  · rw [← hQ']; exact pick_max.isNan Q'
  · exact pick_min.before Q us vs (hQ.trans h) hn y hy
  · exact pick_max.before Q' us vs (hQ'.trans h) hn y hy

/-- The minimum of `3, NaN, 1` is given as 3 at positions 1 to 3 of `5, 3, NaN, 1`. -/
theorem C198_counterexample : ¬ C198_statement := by
  intro h
  obtain ⟨t, ht, -⟩ := query_bracket smin (.inf false) exactNeed roomy_exact .new [.fin 5, .fin 3, .nan, .fin 1] 4 (by decide) (by simp)
  obtain ⟨r, t', hq, hr⟩ := (h [.fin 5, .fin 3, .nan, .fin 1] 1 3 t (by decide) (by simp) ⟨.fin 3, by decide, by decide⟩).1 ht
  have e : (build (plain smin (.inf false)) exactNeed .new [.fin 5, .fin 3, .nan, .fin 1] 4 >>= fun t =>
      query (plain smin (.inf false)) t 1 3 >>= fun x => Res.ok x.1) = .ok (.fin 3) := by decide +kernel
  rw [ht, Res.bind_ok, hq, Res.bind_ok] at e
  have : r = .fin 3 := Res.ok.inj e
  subst this
  have := hr.2.2 (.fin 1) (by decide) (by decide)
  revert this
  unfold Le
  decide

/-- The same three elements give different answers at different positions. -/
theorem C198_counterexample_position :
    (build (plain smin (.inf false)) exactNeed .new [.fin 3, .nan, .fin 1, .fin 9] 4 >>= fun t => queries (plain smin (.inf false)) t [(0, 2), (1, 2)]) =
      .ok [.fin 1, .nan] ∧
    (build (plain smin (.inf false)) exactNeed .new [.fin 5, .fin 3, .nan, .fin 1] 4 >>= fun t => queries (plain smin (.inf false)) t [(1, 3), (0, 3)]) =
      .ok [.fin 3, .fin 3] := by
  decide +kernel

example : (build (plain smax (.inf true)) exactNeed .new [.fin 5, .fin (-3), .inf true, .fin 1, .nan, .inf false] 6 >>= fun t =>
      queries (plain smax (.inf true)) t [(0, 3), (1, 3), (2, 2), (3, 4), (4, 5), (0, 5), (5, 5)]) =
    .ok [.fin 5, .fin 1, .inf true, .fin 1, .nan, .inf false, .inf false] := by decide +kernel

end Verif.Seg
