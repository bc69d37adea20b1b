import Verif.Fenwick.Refine
import Verif.Fenwick.Product
import Mathlib.Algebra.Group.Int.Defs
import Mathlib.Data.BitVec

/-!
Properties C01-C09, C105, C106: the Fenwick tree (`structures/fenwick_tree.h`).
-/

namespace Verif.Fenwick
open Spec (Op Val put rangeSum addressed)

variable {T : Type} [AddCommGroup T] [DecidableEq T]

/-- **C01**: a sum tree built from a vector answers every query with the sum of the addressed elements. -/
theorem C01_build_query (input : List T) (n x y : Nat) (hW : min n input.length + 1 ≤ W) :
    (Tree.empty.build (sumT T) input n).query (sumT T) x y = .ok (rangeSum (input.take n) x y) :=
  (build_reps sumT_lawful Tree.empty input n (.inr ⟨rfl, rfl⟩) hW).query x y

/-- C01 for machine integers: sums are modulo `2^64`. -/
theorem C01_build_query_machine (input : List (BitVec 64)) (n x y : Nat) (hW : min n input.length + 1 ≤ W) :
    (Tree.empty.build (sumT (BitVec 64)) input n).query (sumT _) x y = .ok (rangeSum (input.take n) x y) :=
  C01_build_query input n x y hW

example : (Tree.empty.build (sumT Int) [3, -1, 4, 1, 5, 9, 2] 6).query (sumT Int) 5 3 = .ok 10 := by
  rw [C01_build_query _ _ _ _ (by decide)]; decide

/-- **C02**: every history of rebuild/update/set_value/query/resize/copy/move on a family of trees gives, call by
call, the results that plain lists give. -/
theorem C02_history (ops : List (Op T)) (hv : ∀ o ∈ ops, o.Valid) :
    (run (sumT T) Store.init ops).2 = (Spec.run (fun _ => none) ops).2 :=
  (run_refines ops Store.init (fun _ => none) init_rel hv).1

/-- A history exercising every operation; its results are the plain-list results. -/
example : (run (sumT Int) Store.init
      [.query 0 1 1, .rebuild 0 [1, 2, 3, 4, 5] 9, .update 0 2 10, .copy 1 0, .setValue 1 3 (-7), .query 1 1 4,
       .query 0 1 4, .resize 0 4, .query 0 0 99, .move 2 0, .query 0 1 1, .query 2 2 3]).2
    = [.exc .notBuilt, .ok .unit, .ok (.bool true), .ok .unit, .ok (.bool true), .ok (.value 10), .ok (.value 20),
       .ok .unit, .ok (.value 16), .ok .unit, .exc .notBuilt, .ok (.value 15)] := by
  rw [C02_history _ (by simp [Op.Valid, W])]; decide

/-- **C03**: `set_value` on any reachable built sum tree. -/
theorem C03_set_value (f : Tree T) (hf : Reachable (sumT T) f) (hb : f.built = true) (p : Nat) (v : T) :
    ∃ f', f.setValue (sumT T) p v = .ok (f', decide (0 < p ∧ p < f.size)) ∧
      (0 < p ∧ p < f.size → f'.query (sumT T) p p = .ok v ∧
        ∀ q, q ≠ p → q < f.size → f'.query (sumT T) q q = f.query (sumT T) q q) ∧
      (¬ (0 < p ∧ p < f.size) → f' = f) := by
  obtain ⟨o, ho⟩ := hf.cases
  cases o with
  | none => exact absurd hb (by simp [ho.1])
  | some a =>
    have hl : f.size = a.length + 1 := ho.2.len
    obtain ⟨f', h1, h2⟩ := Reps.setValue ho p v
    have e : (0 < p ∧ p < f.size) ↔ (1 ≤ p ∧ p ≤ a.length) := by rw [hl]; omega
    refine ⟨f', ?_, ?_, ?_⟩
    · rw [h1]; simp only [e]
    · intro h
      have h' := e.1 h
      rw [if_pos h'] at h2
      refine ⟨?_, fun q hq hqs => ?_⟩
      · rw [h2.query, rangeSum_single _ _ h'.1 (by simpa using h'.2)]; simp
      · rw [h2.query, Reps.query ho]
        rcases Nat.eq_zero_or_pos q with h0 | h0
        · subst h0; rw [rangeSum_zero, rangeSum_zero]
        · rw [rangeSum_single _ _ h0 (by simp; omega), rangeSum_single _ _ h0 (by omega)]
          rw [List.getElem_set_ne (by omega)]
    · intro h
      have h' : ¬ (1 ≤ p ∧ p ≤ a.length) := fun h'' => h (e.2 h'')
      unfold Tree.setValue at h1
      have hd : (decide (p < f.processed.length) && decide (0 < p)) = false := by
        have : f.processed.length = a.length + 1 := hl
        rw [← Bool.decide_and, decide_eq_false_iff_not]; omega
      simp only [hb, hd, Bool.not_true, Bool.false_eq_true, if_false] at h1
      injection h1 with h1
      exact (congrArg Prod.fst h1).symm

/-- **C04**: `update` on any reachable built sum tree. -/
theorem C04_update (f : Tree T) (hf : Reachable (sumT T) f) (hb : f.built = true) (p : Nat) (v : T) :
    ∃ f', f.update (sumT T) p v = .ok (f', decide (p < f.size)) ∧
      (p = 0 ∨ f.size ≤ p → ∀ x y, f'.query (sumT T) x y = f.query (sumT T) x y) ∧
      (0 < p ∧ p < f.size →
        (∃ old, f.query (sumT T) p p = .ok old ∧ f'.query (sumT T) p p = .ok (old + v)) ∧
        ∀ q, q ≠ p → q < f.size → f'.query (sumT T) q q = f.query (sumT T) q q) := by
  obtain ⟨o, ho⟩ := hf.cases
  cases o with
  | none => exact absurd hb (by simp [ho.1])
  | some a =>
    have hl : f.size = a.length + 1 := ho.2.len
    obtain ⟨f', h1, h2⟩ := Reps.update ho p v
    refine ⟨f', ?_, ?_, ?_⟩
    · rw [h1]
      have e : (p < f.size) ↔ (p ≤ a.length) := by omega
      simp only [e]
    · intro h x y
      rw [if_neg (by omega)] at h2
      rw [h2.query, Reps.query ho]
    · intro h
      rw [if_pos (by omega)] at h2
      refine ⟨⟨a[p - 1]'(by omega), ?_, ?_⟩, fun q hq hqs => ?_⟩
      · rw [Reps.query ho, rangeSum_single _ _ h.1 (by omega)]
      · rw [h2.query, rangeSum_single _ _ h.1 (by simp; omega)]; simp
      · rw [h2.query, Reps.query ho]
        rcases Nat.eq_zero_or_pos q with h0 | h0
        · subst h0; rw [rangeSum_zero, rangeSum_zero]
        · rw [rangeSum_single _ _ h0 (by simp; omega), rangeSum_single _ _ h0 (by omega)]
          rw [List.getElem_modify_ne _ _ (by omega)]

/-- The hypotheses of C03/C04 are met by a built tree of five elements. -/
example : ∃ f : Tree Int, Reachable (sumT Int) f ∧ f.built = true ∧ f.size = 6 := by
  refine ⟨_, ⟨[.rebuild 0 [1, 2, 3, 4, 5] 5], 0, by simp [Op.Valid, W], rfl⟩, rfl, ?_⟩
  simp [run, step, put, Tree.build, Tree.size, buildLoop_length, Store.init, Tree.empty]

/-- **C05**: unbuilt trees throw (the store is unchanged by construction of the call: no new tree is returned),
and a move transfers all answers and leaves the source unbuilt and empty.  Any transform. -/
theorem C05_unbuilt_and_move {S : Type} (t : Transform S) (f : Tree S) :
    (f.built = false → ∀ p v x y, f.query t x y = .exc .notBuilt ∧ f.update t p v = .exc .notBuilt ∧
      f.setValue t p v = .exc .notBuilt) ∧
    (f.moveFrom.2.built = false ∧ f.moveFrom.2.size = 0 ∧
      (∀ x y, f.moveFrom.1.query t x y = f.query t x y) ∧ f.moveFrom.1 = f) := by
  refine ⟨fun h p v x y => ?_, rfl, rfl, fun _ _ => rfl, rfl⟩
  simp [Tree.query, Tree.update, Tree.setValue, h]

/-- C05 at the level of histories: a call on an unbuilt object throws `not built` and leaves every object as is. -/
theorem C05_history {S : Type} (t : Transform S) (σ : Store S) (i : Nat) (h : (σ i).built = false) (p x y : Nat) (v : S) :
    step t σ (.query i x y) = (σ, .exc .notBuilt) ∧ step t σ (.update i p v) = (σ, .exc .notBuilt) ∧
    step t σ (.setValue i p v) = (σ, .exc .notBuilt) := by
  simp [step, Tree.query, Tree.update, Tree.setValue, h]

example : (Tree.empty (T := Int)).built = false := rfl

/-- **C06** (partial).  Full claim: `query x y` on a product tree is the product of the addressed elements.
Proved when no element *before* the addressed range is zero; missing: prefixes containing a zero, for which the
claim is false (`C06_counterexample`, `C06_exact`). -/
theorem C06_product_query_partial (f : Tree Int) (a : List Int) (h : MulHist f a) (x y : Nat)
    (hz : ∀ e ∈ a.take (min (min x y) a.length - 1), e ≠ 0) :
    f.query mulT x y = .ok ((addressed a x y).foldr (· * ·) 1) := by
  rw [h.query_exact, if_neg fun h0 => hz 0 h0 rfl]

/-- **C06** exactly as the code behaves: a zero before the addressed range makes the answer 0.  So the answer is the product
if and only if no zero comes before the range or one is in it. -/
theorem C06_exact (f : Tree Int) (a : List Int) (h : MulHist f a) (x y : Nat) :
    f.query mulT x y = .ok (if 0 ∈ a.take (min (min x y) a.length - 1) then 0 else (addressed a x y).foldr (· * ·) 1) ∧
    (f.query mulT x y = .ok ((addressed a x y).foldr (· * ·) 1) ↔
      0 ∉ a.take (min (min x y) a.length - 1) ∨ 0 ∈ addressed a x y) := by
  have e := h.query_exact x y
  refine ⟨e, ?_⟩
  rw [e]
  by_cases hz : 0 ∈ a.take (min (min x y) a.length - 1)
  · rw [if_pos hz]
    simp only [Res.ok.injEq, not_true_eq_false, false_or, hz]
    constructor
    · intro h0
      by_contra hc
      exact F_mul_ne_zero (addressed a x y) (fun e he h1 => hc (h1 ▸ he)) h0.symm
    · intro h0
      exact (F_mul_zero _ h0).symm
  · rw [if_neg hz]
    exact iff_of_true rfl (.inl hz)

/-- C06 fails: in `[0, 5]` the product of position 2 alone is reported as 0. -/
theorem C06_counterexample : ∃ (input : List Int) (x y : Nat),
    (Tree.empty.build mulT input input.length).query mulT x y ≠
      .ok ((addressed input x y).foldr (· * ·) 1) := by
  refine ⟨[0, 5], 2, 2, ?_⟩
  decide +kernel

example : ∃ f, MulHist f [2, -3, 5, 0] ∧
    ∀ e ∈ ([2, -3, 5, 0] : List Int).take (min (min 3 4) 4 - 1), e ≠ 0 :=
  ⟨_, MulHist.build [2, -3, 5, 0] 4 (by decide), by decide⟩
/-- A longer history: build, set, multiply, shrink. -/
example : ∃ f, MulHist f [2, 12, 35] := by
  have h0 := MulHist.build [2, 4, 5, 6] 4 (by decide)
  obtain ⟨f1, -, h1⟩ := h0.update_ok 3 7
  obtain ⟨f2, h2, -⟩ := (mul_setValue h1.reps 2 12).2.2 (by decide) (by decide) (by decide)
  exact ⟨_, MulHist.resize 4 (MulHist.setValue 2 12 h1 h2) (by decide)⟩

/-- **C07** (partial).  Full claim: `update p v` on a product tree multiplies element `p` by `v`, for every `v`.
Proved for `v ≠ 0` (observed through all prefix queries, which involve no division); missing: `v = 0`, for which
the claim is false (`C07_counterexample`, `C07_zero`). -/
theorem C07_product_update_partial (f : Tree Int) (a : List Int) (h : MulHist f a) (p : Nat) (v : Int)
    (hv : v ≠ 0) :
    ∃ f', f.update mulT p v = .ok (f', decide (p ≤ a.length)) ∧
      ∀ x, f'.query mulT 1 x = .ok
        ((addressed (if 1 ≤ p ∧ p ≤ a.length then a.modify (p - 1) (· * v) else a) 1 x).foldr (· * ·) 1) := by
  obtain ⟨f', h1, h2⟩ := h.update_ok p v
  refine ⟨f', h1, fun x => ?_⟩
  have e : mulUpdate a p v = if 1 ≤ p ∧ p ≤ a.length then a.modify (p - 1) (· * v) else a := by
    unfold mulUpdate; simp [hv]
  rw [h2.query_exact, e, if_neg]
  rw [show min (min 1 x) (if 1 ≤ p ∧ p ≤ a.length then a.modify (p - 1) (· * v) else a).length - 1 = 0 by omega]
  simp

/-- **C07** exactly as the code behaves for `v = 0`: the call reports success and changes nothing, so no query sees it. -/
theorem C07_zero (f : Tree Int) (a : List Int) (h : MulHist f a) (p : Nat) :
    f.update mulT p 0 = .ok (f, decide (p ≤ a.length)) := by
  have hl := h.reps.2.len
  unfold Tree.update
  simp only [h.reps.1, Bool.not_true, Bool.false_eq_true, if_false]
  have e : decide (p < f.processed.length) = decide (p ≤ a.length) := by
    rw [hl]; congr 1; rw [eq_iff_iff]; omega
  rw [e]
  simp [mulT]

/-- C07 fails for `v = 0`: the update is reported as done but the product stays. -/
theorem C07_counterexample : ∃ (input : List Int) (f' : Tree Int),
    (Tree.empty.build mulT input input.length).update mulT 1 0 = .ok (f', true) ∧
    f'.query mulT 1 1 = .ok 2 ∧ input = [2] := by
  refine ⟨[2], Tree.empty.build mulT [2] 1, ?_, ?_, rfl⟩ <;> decide +kernel

/-- **C106** exactly as the code behaves, for a valid position: with a zero at or before `p` the call divides by zero;
otherwise it succeeds, and afterwards element `p` is the old one times the truncated quotient (unchanged if that is 0). -/
theorem C106_exact (f : Tree Int) (a : List Int) (h : MulHist f a) (p : Nat) (v : Int) (h1 : 1 ≤ p) (h2 : p ≤ a.length) :
    (0 ∈ a.take p → f.setValue mulT p v = .ub) ∧
    (0 ∉ a.take p → ∃ f', f.setValue mulT p v = .ok (f', true) ∧ f'.query mulT p p =
      .ok (if v.tdiv a[p - 1] = 0 then a[p - 1] else a[p - 1] * v.tdiv a[p - 1])) := by
  obtain ⟨-, h3, h4⟩ := mul_setValue h.reps p v
  refine ⟨h3 h1 h2, fun hz => ?_⟩
  obtain ⟨f', e1, -⟩ := h4 h1 h2 hz
  refine ⟨f', e1, ?_⟩
  rw [(MulHist.setValue p v h e1).query_exact]
  have hlen : (mulSet a p v).length = a.length := by unfold mulSet; split <;> simp
  have hm : mulSet a p v = a.modify (p - 1) (fun e => if v.tdiv e = 0 then e else e * v.tdiv e) := by
    unfold mulSet; rw [if_pos ⟨h1, h2⟩]
  have e2 : min (min p p) (mulSet a p v).length - 1 = p - 1 := by omega
  rw [e2, addressed_single _ p h1 (by omega)]
  have e3 : (mulSet a p v).take (p - 1) = a.take (p - 1) := by rw [hm, modify_take]
  rw [e3, if_neg]
  · simp [hm]
  · intro h0
    apply hz
    have : a.take (p - 1) = (a.take p).take (p - 1) := by rw [List.take_take, Nat.min_eq_left (by omega)]
    rw [this] at h0
    exact List.mem_of_mem_take h0

/-- **C106** (partial).  Full claim: `set_value p v` on a product tree makes element `p` equal to `v`.
Exactly when it holds: the elements before and at `p` are nonzero, `v ≠ 0` and the old element divides `v`.  Missing: the
other cases, for which the claim is false (`C106_counterexample`, `C106_exact`). -/
theorem C106_product_set_value_partial (f : Tree Int) (a : List Int) (h : MulHist f a) (p : Nat) (v : Int)
    (h1 : 1 ≤ p) (h2 : p ≤ a.length) :
    (∃ f', f.setValue mulT p v = .ok (f', true) ∧ f'.query mulT p p = .ok v) ↔
      (∀ e ∈ a.take p, e ≠ 0) ∧ v ≠ 0 ∧ a[p - 1] ∣ v := by
  obtain ⟨h3, h4⟩ := C106_exact f a h p v h1 h2
  have hmem : a[p - 1] ∈ a.take p := List.mem_take_iff_getElem.2 ⟨p - 1, by omega, rfl⟩
  constructor
  · rintro ⟨f', e1, e2⟩
    have hz : 0 ∉ a.take p := fun hz => by rw [h3 hz] at e1; cases e1
    have hp0 : a[p - 1] ≠ 0 := fun h0 => hz (h0 ▸ hmem)
    obtain ⟨f'', e3, e4⟩ := h4 hz
    rw [e1] at e3
    injection e3 with e3
    injection e3 with e3 _
    rw [← e3, e2] at e4
    injection e4 with e4
    by_cases hk : v.tdiv a[p - 1] = 0
    · rw [if_pos hk] at e4
      rw [e4, Int.tdiv_self hp0] at hk
      cases hk
    · rw [if_neg hk] at e4
      refine ⟨fun e he h0 => hz (h0 ▸ he), fun h0 => hk (by rw [h0]; simp), ⟨_, e4⟩⟩
  · rintro ⟨hz, hv, k, hk⟩
    have hz' : 0 ∉ a.take p := fun h0 => hz 0 h0 rfl
    have hp0 : a[p - 1] ≠ 0 := hz _ hmem
    obtain ⟨f', e1, e2⟩ := h4 hz'
    refine ⟨f', e1, ?_⟩
    have hk0 : k ≠ 0 := by rintro rfl; simp at hk; exact hv hk
    rw [e2]
    have : v.tdiv a[p - 1] = k := by
      rw [show v = a[p - 1] * k from hk]; exact Int.mul_tdiv_cancel_left _ hp0
    rw [this, if_neg hk0, ← hk]

/-- C106 fails: `set_value(1, 3)` on `[2]` leaves 2, `set_value(1,0)` on `[2]` leaves 2, and `set_value(1,7)` on
`[0]` divides by zero. -/
theorem C106_counterexample :
    (∃ f', (Tree.empty.build mulT [2] 1).setValue mulT 1 3 = .ok (f', true) ∧ f'.query mulT 1 1 = .ok 2) ∧
    (∃ f', (Tree.empty.build mulT [2] 1).setValue mulT 1 0 = .ok (f', true) ∧ f'.query mulT 1 1 = .ok 2) ∧
    (Tree.empty.build mulT [0] 1).setValue mulT 1 7 = .ub := by
  refine ⟨⟨Tree.empty.build mulT [2] 1, ?_, ?_⟩, ⟨Tree.empty.build mulT [2] 1, ?_, ?_⟩, ?_⟩ <;> decide +kernel

example : ∃ f, MulHist f [3, 4] ∧ (∀ e ∈ ([3, 4] : List Int).take 2, e ≠ 0) ∧ ([3, 4] : List Int)[1] ∣ 12 :=
  ⟨_, MulHist.build [3, 4] 2 (by decide), by decide, by decide⟩

/-- **C08**: downsizing keeps every answer about the remaining prefix (any transform, any content). -/
theorem C08_resize {S : Type} (t : Transform S) (f : Tree S) (k : Nat) (hW : f.size ≤ W) :
    (k < f.size → (f.resize k).size = k ∧
      ∀ x y, x < k → y < k → (f.resize k).query t x y = f.query t x y) ∧
    (f.size ≤ k → f.resize k = f) := by
  refine ⟨fun h => ⟨?_, fun x y hx hy => resize_query t f k h hW x y hx hy⟩, fun h => ?_⟩
  · unfold Tree.resize Tree.size at *; simp [h]; omega
  · unfold Tree.resize Tree.size at *; rw [if_neg (by omega)]

example : (Tree.mk [0, 1, 3, 3, 10] true : Tree Int).size ≤ W ∧ 3 < (Tree.mk [0, 1, 3, 3, 10] true : Tree Int).size := by
  decide

/-- **C09** (partial).  Full claim: every query/update/set_value on a built tree stays inside the array.
Proved for every tree (whatever its contents) of at least one cell, every argument.  Missing: an array downsized to
zero cells, where `query` reads out of bounds (`C09_counterexample`). -/
theorem C09_in_bounds_partial (f : Tree T) (hb : f.built = true) (h1 : 1 ≤ f.size) (hW : f.size ≤ W) (p x y : Nat)
    (v : T) : (f.query (sumT T) x y).isOk = true ∧ (f.update (sumT T) p v).isOk = true ∧
      (f.setValue (sumT T) p v).isOk = true :=
  in_bounds f hb h1 hW p x y v

/-- C09 fails after `resize(0)`: every query with both bounds given reads outside the array. -/
theorem C09_counterexample (input : List T) (hW : input.length + 1 ≤ W) (x y : Nat) :
    ((Tree.empty.build (sumT T) input input.length).resize 0).query (sumT T) x y = .ub :=
  resize_zero_ub input hW x y

/-- C09, exactly: on a built tree a query leaves the array if and only if the array has no cell, and then whatever the
bounds are; `update` and `set_value` never leave it, even then. -/
theorem C09_exact (f : Tree T) (hb : f.built = true) (hW : f.size ≤ W) (p x y : Nat) (v : T) :
    (f.query (sumT T) x y = .ub ↔ f.size = 0) ∧ (f.update (sumT T) p v).isOk = true ∧
      (f.setValue (sumT T) p v).isOk = true := by
  rcases Nat.eq_zero_or_pos f.size with h0 | h1
  · obtain ⟨cells, b⟩ := f
    have hc : cells = [] := List.eq_nil_of_length_eq_zero h0
    simp only at hb
    subst hc hb
    refine ⟨⟨fun _ => h0, fun _ => ?_⟩, ?_, ?_⟩
    · have hp : ∀ i, prefixQuery (sumT T) ([] : List T) i = .ub := by
        intro i; simp [prefixQuery, rd]
      unfold Tree.query
      simp only [Bool.not_true, Bool.false_eq_true, if_false]
      unfold rangeQuery
      rw [hp]
      split <;> simp [hp]
    · simp [Tree.update, Res.isOk]
    · simp [Tree.setValue, Res.isOk]
  · obtain ⟨hq, hu, hs⟩ := in_bounds f hb h1 hW p x y v
    refine ⟨⟨fun h => ?_, fun h => by omega⟩, hu, hs⟩
    rw [h] at hq
    cases hq

example : (Tree.mk [0] true : Tree Int).built = true ∧ 1 ≤ (Tree.mk [0] true : Tree Int).size ∧
    (Tree.mk [0] true : Tree Int).size ≤ W := by decide

/-- **C105** (partial).  Full claim: `update(p, tree[q])` adds the value that `tree[q]` had when the call was made.
Proved when cell `q` is not one of the cells that the update of `p` modifies.  Missing: `q` among them, for which the
claim is false because the argument is a reference into the array (`C105_counterexample`). -/
theorem C105_update_alias_partial {S : Type} (t : Transform S) (f : Tree S) (p q : Nat) (hb : f.built = true)
    (hW : f.size ≤ W) (hq : q < f.size) (hpq : ¬ (p ≤ q ∧ q - low q < p)) :
    f.updateAlias t p q = f.update t p (f.processed[q]'hq) :=
  updateAlias_eq t f p q hb hW hq hpq

/-- C105 fails: on `[1,1,1,1]`, `update(1, tree[1])` also changes element 2. -/
theorem C105_counterexample : ∃ f' : Tree Int,
    (Tree.empty.build (sumT Int) [1, 1, 1, 1] 4).at 1 = .ok 1 ∧
    (Tree.empty.build (sumT Int) [1, 1, 1, 1] 4).updateAlias (sumT Int) 1 1 = .ok (f', true) ∧
    (Tree.empty.build (sumT Int) [1, 1, 1, 1] 4).query (sumT Int) 2 2 = .ok 1 ∧
    f'.query (sumT Int) 2 2 = .ok 2 := by
  refine ⟨⟨[0, 2, 4, 1, 6], true⟩, ?_, ?_, ?_, ?_⟩ <;> decide +kernel

example : ¬ ((1 : Nat) ≤ 3 ∧ 3 - low 3 < 1) := by decide +kernel

end Verif.Fenwick
