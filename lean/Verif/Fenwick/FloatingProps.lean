import Verif.Fenwick.Floating

/-!
C191: Fenwick trees of `double`s return what was stored in them.
-/

namespace Verif.Fenwick
open Spec

/-- **C191 in full**: a tree built from finite doubles returns each of them, and after `set_value(p, v)` position `p` has the value `v`. -/
def C191_statement : Prop :=
  ∀ (a : List Int) (p : Nat) (x : Int), (∀ y ∈ a, IsDbl y) → a.length + 1 ≤ W → a[p]? = some x →
    (Tree.empty.build dblT (a.map Dbl.fin) a.length).query dblT (p + 1) (p + 1) = .ok (.fin x) ∧
    ∀ v, IsDbl v → ∃ f b, (Tree.empty.build dblT (a.map Dbl.fin) a.length).setValue dblT (p + 1) (.fin v) = .ok (f, b) ∧
      f.query dblT (p + 1) (p + 1) = .ok (.fin v)

/-- C191 fails: behind the element `2^53` (in any unit) the element 1 is returned as 0. -/
theorem C191_counterexample : ¬ C191_statement := by
  intro h
  have h1 := (h [2 ^ 53, 1] 1 1 (by
    intro y hy
    rcases List.mem_cons.1 hy with rfl | hy
    · exact ⟨⟨1, 53, by norm_num, by norm_num⟩, by decide +kernel⟩
    · cases List.mem_singleton.1 hy
      exact ⟨⟨1, 0, by norm_num, by norm_num⟩, by decide +kernel⟩) (by decide +kernel) rfl).1
  revert h1
  decide +kernel

/-- C191 fails for `set_value` too, in a tree with one element: `2^54` is replaced by 0 instead of 1. -/
theorem C191_counterexample_set : IsDbl (2 ^ 54) ∧ IsDbl 1 ∧
    (run dblT Store.init [.rebuild 0 [.fin (2 ^ 54)] 1, .setValue 0 1 (.fin 1), .query 0 1 1]).2 =
      [.ok .unit, .ok (.bool true), .ok (.value (.fin 0))] :=
  ⟨⟨⟨1, 54, by norm_num, by norm_num⟩, by decide +kernel⟩, ⟨⟨1, 0, by norm_num, by norm_num⟩, by decide +kernel⟩, by decide +kernel⟩

/-- C191 fails when a sum overflows, and for infinite elements: the elements behind are returned as infinite or NaN. -/
theorem C191_counterexample_overflow :
    (run dblT Store.init [.rebuild 0 [.fin maxDbl, .fin maxDbl, .fin 1] 3, .query 0 2 2, .query 0 3 3]).2 =
      [.ok .unit, .ok (.value (.inf false)), .ok (.value .nan)] ∧
    (run dblT Store.init [.rebuild 0 [.inf true, .fin 1] 2, .query 0 2 2, .setValue 0 1 (.fin 0), .query 0 1 1, .query 0 2 2]).2 =
      [.ok .unit, .ok (.value .nan), .ok (.bool true), .ok (.value .nan), .ok (.value .nan)] := by
  decide +kernel

/-- **C191**, the part that holds: as long as all sums of neighbouring elements are doubles and so are the differences of the old and new
elements of `set_value`, every history of calls returns what it returns on plain lists with exact arithmetic.  Missing: everything that is
rounded. -/
theorem C191_exact_partial (ops : List (Op Int)) (hv : ∀ o ∈ ops, o.Valid) (hf : RunDbl (fun _ => none) ops)
    (hn : RunDiff (fun _ => none) ops) :
    (run dblT Store.init (ops.map Op.dbl)).2 = (Spec.run (fun _ => none) ops).2.map resDbl := by
  have := run_dbl ops (init_rel (T := Int)) hv hf hn
  rw [(run_refines ops Store.init (fun _ => none) init_rel hv).1] at this
  exact this

namespace Spec

/-- The elements are whole multiples of `2^k`, and their magnitudes add up to at most `2^52` times as much. -/
def Small (k : Nat) (a : List Int) : Prop := (∀ x ∈ a, ∃ c : Int, x = c * 2 ^ k) ∧ (a.map Int.natAbs).sum ≤ 2 ^ 52 * 2 ^ k

def StoreSmall (k : Nat) (σ : Store Int) : Prop := ∀ i a, σ i = some a → Small k a

/-- So they are before and after every call of a history. -/
def RunSmall (k : Nat) (σ : Store Int) : List (Op Int) → Prop
  | [] => StoreSmall k σ
  | o :: os => StoreSmall k σ ∧ RunSmall k (step σ o).1 os

end Spec

theorem sum_whole {k : Nat} {l : List Int} (h : ∀ x ∈ l, ∃ c : Int, x = c * 2 ^ k) :
    (∃ c : Int, l.sum = c * 2 ^ k) ∧ l.sum.natAbs ≤ (l.map Int.natAbs).sum := by
  induction l with
  | nil => exact ⟨⟨0, by simp⟩, by simp⟩
  | cons x l ih =>
    obtain ⟨⟨c, hc⟩, hb⟩ := ih fun y hy => h y (by simp [hy])
    obtain ⟨d, hd⟩ := h x (by simp)
    refine ⟨⟨d + c, by rw [List.sum_cons, hc, hd]; ring⟩, ?_⟩
    rw [List.sum_cons, List.map_cons, List.sum_cons]
    exact (Int.natAbs_add_le _ _).trans (by omega)

theorem isDbl_whole {k : Nat} (hk : k ≤ 2044) {x c : Int} (hc : x = c * 2 ^ k) (h : x.natAbs ≤ 2 ^ 53 * 2 ^ k) : IsDbl x := by
  subst hc
  have e : (c * 2 ^ k).natAbs = c.natAbs * 2 ^ k := by rw [Int.natAbs_mul, Int.natAbs_pow]; rfl
  rw [e] at h
  exact isDbl_mul (by omega) (Nat.le_of_mul_le_mul_right h (by positivity)) (.inl hk)

theorem sum_natAbs_sub {a b : List Int} (h : b.Sublist a) : (b.map Int.natAbs).sum ≤ (a.map Int.natAbs).sum := by
  induction h with
  | slnil => exact Nat.le_refl _
  | cons x _ ih => rw [List.map_cons, List.sum_cons]; omega
  | cons_cons x _ ih => rw [List.map_cons, List.sum_cons, List.map_cons, List.sum_cons]; omega

theorem Small.sums {k : Nat} (hk : k ≤ 2044) {a : List Int} (h : Small k a) : SumsDbl a := by
  intro x y
  unfold rangeSum
  have hs : (addressed a x y).Sublist a := (List.drop_sublist _ _).trans (List.take_sublist _ _)
  obtain ⟨⟨c, hc⟩, hb⟩ := sum_whole (k := k) (l := addressed a x y) fun z hz => h.1 z (hs.subset hz)
  refine isDbl_whole hk hc (hb.trans ((sum_natAbs_sub hs).trans (h.2.trans ?_)))
  exact Nat.mul_le_mul_right _ (by norm_num)

theorem Small.mem {k : Nat} {a : List Int} (h : Small k a) {x : Int} (hx : x ∈ a) :
    (∃ c : Int, x = c * 2 ^ k) ∧ x.natAbs ≤ 2 ^ 52 * 2 ^ k := by
  refine ⟨h.1 x hx, ?_⟩
  have := sum_natAbs_sub (List.singleton_sublist.2 hx)
  simp only [List.map_cons, List.map_nil, List.sum_singleton] at this
  exact this.trans h.2

theorem RunSmall.now {k : Nat} {τ : Spec.Store Int} {ops : List (Op Int)} (h : RunSmall k τ ops) : StoreSmall k τ := by
  cases ops with
  | nil => exact h
  | cons => exact h.1

theorem RunSmall.dbl {k : Nat} (hk : k ≤ 2044) (ops : List (Op Int)) : ∀ {τ : Spec.Store Int}, RunSmall k τ ops →
    RunDbl τ ops ∧ RunDiff τ ops := by
  induction ops with
  | nil => exact fun h => ⟨fun i a ha => Small.sums hk (h i a ha), trivial⟩
  | cons o os ih =>
    intro τ h
    obtain ⟨h1, h2⟩ := ih h.2
    refine ⟨⟨fun i a ha => Small.sums hk (h.1 i a ha), h1⟩, ?_, h2⟩
    cases o with
    | setValue i p v =>
      intro a x ha hp hx
      have hl := (List.getElem?_eq_some_iff.1 hx).1
      have hs := RunSmall.now h.2 i (a.set (p - 1) v) (by
        simp only [Spec.step, ha, put, if_true]
        rw [if_pos ⟨hp, by omega⟩])
      obtain ⟨⟨c, hc⟩, hcb⟩ := Small.mem (h.1 i a ha) (List.mem_of_getElem? hx)
      obtain ⟨⟨d, hd⟩, hdb⟩ := Small.mem hs (List.mem_set hl v)
      refine isDbl_whole (k := k) hk (c := d - c) (by rw [hc, hd]; ring) ?_
      have e : 2 ^ 53 * 2 ^ k = 2 ^ 52 * 2 ^ k + 2 ^ 52 * 2 ^ k := by ring
      rw [e]
      generalize 2 ^ 52 * 2 ^ k = w at *
      omega
    | _ => trivial

/-- **C191** for whole numbers (or whole multiples of any power of two): as long as the magnitudes of the elements of a tree add up to at most
`2^52`, every history of calls returns what it returns on plain lists. -/
theorem C191_whole_partial (k : Nat) (hk : k ≤ 2044) (ops : List (Op Int)) (hv : ∀ o ∈ ops, o.Valid) (hs : RunSmall k (fun _ => none) ops) :
    (run dblT Store.init (ops.map Op.dbl)).2 = (Spec.run (fun _ => none) ops).2.map resDbl :=
  C191_exact_partial ops hv (RunSmall.dbl hk ops hs).1 (RunSmall.dbl hk ops hs).2

/-- A history on numbers close to `2^52`. -/
example : (run dblT Store.init ([.rebuild 0 [2 ^ 51, -5, 2 ^ 50 + 1, 7] 9, .query 0 2 2, .update 0 2 12, .setValue 0 1 3, .query 0 2 3,
      .query 0 1 4].map Op.dbl)).2 =
    [.ok .unit, .ok (.value (.fin (-5))), .ok (.bool true), .ok (.bool true), .ok (.value (.fin (2 ^ 50 + 8))),
      .ok (.value (.fin (2 ^ 50 + 18)))] := by
  decide +kernel

end Verif.Fenwick
