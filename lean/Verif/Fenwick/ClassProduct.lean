import Verif.Fenwick.Refine
import Verif.Fenwick.Cost
import Mathlib.Algebra.BigOperators.Group.List.Basic
import Mathlib.Algebra.Group.Int.Defs
import Mathlib.Tactic.Ring

/-!
C193: product trees over class types (tools/math_operation.h:68-95 with `std::is_class<T>`).

`multiplication_t<T>::null_value()` is 1 for scalar types, but `T{}` for class types (math_operation.h:90-94), and so is the value that
`_range_query` discards when the range starts at the first element (structures/fenwick_tree.h:302).  Most number classes (big integers, fractions,
complex numbers) have 0 for `T{}`.
-/

namespace Verif.Fenwick
open Spec (Op Val put addressed)

variable {T : Type}

/-- tools/math_operation.h:68-112 `multiplication_t<T>` for a class type `T` with default value `dflt = T{}`, division `div` and conversion to
`bool` `truthy`. -/
def classMulT [Mul T] (dflt : T) (div : T → T → Res T) (truthy : T → Bool) : Transform T where
  op := (· * ·)
  rev := div
  null := dflt
  truthy := truthy
  zero := dflt

/-! ### The default value is a zero -/

/-- Every cell holds `z`. -/
structure AllZ (z : T) (f : Tree T) : Prop where
  cells : ∀ c ∈ f.processed, c = z
  len : f.processed.length ≤ W
  built : f.built = true → 1 ≤ f.processed.length

theorem updateCells_all [Mul T] {z : T} {div : T → T → Res T} {truthy : T → Bool} (hz : ∀ x, z * x = z) (cells : List T) (p : Nat) (v : T)
    (h : ∀ c ∈ cells, c = z) : ∀ c ∈ updateCells (classMulT z div truthy) cells p v, c = z := by
  fun_induction updateCells (classMulT z div truthy) cells p v with
  | case1 cells p hp ih =>
    refine ih (fun c hc => ?_)
    rcases List.mem_or_eq_of_mem_set hc with hc | hc
    · exact h c hc
    · rw [hc, h _ (List.getElem_mem _)]; exact hz v
  | case2 => exact h

theorem buildLoop_all [Mul T] {z : T} {div : T → T → Res T} {truthy : T → Bool} (hz : ∀ x, z * x = z) (l : List T) : ∀ (cells : List T) (ii : Nat),
    (∀ c ∈ cells, c = z) → ∀ c ∈ buildLoop (classMulT z div truthy) cells ii l, c = z := by
  induction l with
  | nil => intro cells ii h; exact h
  | cons x l ih => intro cells ii h; exact ih _ _ (updateCells_all hz cells ii x h)

theorem queryLoop_all [Mul T] {z : T} {div : T → T → Res T} {truthy : T → Bool} (hz : ∀ x, z * x = z) (cells : List T) (i : Nat)
    (h : ∀ c ∈ cells, c = z) (hi : i < cells.length) : queryLoop (classMulT z div truthy) cells i z = .ok z := by
  induction i using Nat.strongRecOn with
  | _ i ih =>
    unfold queryLoop
    simp only
    split
    · next hc =>
      rw [rd_lt (by omega)]
      simp only [Res.bind_ok]
      rw [h _ (List.getElem_mem _)]
      have : (classMulT z div truthy).op z z = z := hz z
      rw [this]
      exact ih _ hc.2 (by omega)
    · rfl

theorem prefixQuery_all [Mul T] {z : T} {div : T → T → Res T} {truthy : T → Bool} (hz : ∀ x, z * x = z) (cells : List T) (i : Nat)
    (h : ∀ c ∈ cells, c = z) (hi : i < cells.length) : prefixQuery (classMulT z div truthy) cells i = .ok z := by
  unfold prefixQuery
  rw [rd_lt hi]
  simp only [Res.bind_ok]
  rw [h _ (List.getElem_mem _)]
  exact queryLoop_all hz cells i h hi

theorem rangeQuery_all [Mul T] {z : T} {div : T → T → Res T} {truthy : T → Bool} (hz : ∀ x, z * x = z) (hf : truthy z = false)
    (cells : List T) (lo hi : Nat) (h : ∀ c ∈ cells, c = z) (hlo : lo < cells.length) (hhi : hi < cells.length) :
    rangeQuery (classMulT z div truthy) cells lo hi = .ok z := by
  unfold rangeQuery
  rw [prefixQuery_all hz cells hi h hhi, prefixQuery_all hz cells (lo - 1) h (by omega)]
  have hf' : (classMulT z div truthy).truthy z = false := hf
  have hz' : (classMulT z div truthy).zero = z := rfl
  rw [hz']
  split <;> simp only [Res.bind_ok, hf'] <;> rfl

theorem AllZ.query [Mul T] {z : T} {div : T → T → Res T} {truthy : T → Bool} (hz : ∀ x, z * x = z) (hf : truthy z = false)
    {f : Tree T} (h : AllZ z f) (hb : f.built = true) (x y : Nat) : f.query (classMulT z div truthy) x y = .ok z := by
  unfold Tree.query
  simp only [hb, Bool.not_true, Bool.false_eq_true, if_false]
  have h1 := h.built hb
  have h2 := h.len
  obtain ⟨n, hn⟩ : ∃ n, f.processed.length = n + 1 := ⟨_, (Nat.sub_add_cancel h1).symm⟩
  rw [hn, length_last (by omega)]
  exact rangeQuery_all hz hf _ _ _ h.cells (by omega) (by omega)

theorem AllZ.step [Mul T] {z : T} {div : T → T → Res T} {truthy : T → Bool} (hz : ∀ x, z * x = z) (σ : Store T) (o : Op T) (ho : o.Valid)
    (h : ∀ i, AllZ z (σ i)) : ∀ i, AllZ z ((step (classMulT z div truthy) σ o).1 i) := by
  have hput : ∀ (σ : Store T) (j : Nat) (g : Tree T), (∀ i, AllZ z (σ i)) → AllZ z g → ∀ i, AllZ z (put σ j g i) := by
    intro σ j g h hg i
    unfold put
    split
    · exact hg
    · exact h i
  have hset : ∀ (f : Tree T) (p : Nat) (v : T), AllZ z f → AllZ z { f with processed := updateCells (classMulT z div truthy) f.processed p v } := by
    intro f p v hf
    refine ⟨updateCells_all hz _ _ _ hf.cells, ?_, ?_⟩
    · simp only [updateCells_length]; exact hf.len
    · simp only [updateCells_length]; exact hf.built
  cases o with
  | rebuild j input n =>
    have hs : (if n < input.length then n + 1 else input.length + 1) = min n input.length + 1 := by split <;> omega
    have hW : min n input.length + 1 ≤ W := ho
    have hj := (h j).len
    have hcells : ∀ k, k ≤ W → 1 ≤ k → ∀ cells, cells = (if (σ j).processed.length < k then List.replicate k z
        else if (σ j).built = true then List.replicate k z else (σ j).processed) →
        (∀ c ∈ cells, c = z) ∧ cells.length ≤ W ∧ 1 ≤ cells.length := by
      intro k hk hk1 cells hc
      by_cases h1 : (σ j).processed.length < k
      · rw [if_pos h1] at hc
        subst hc
        exact ⟨fun c hc => List.eq_of_mem_replicate hc, by simpa using hk, by simpa using hk1⟩
      · rw [if_neg h1] at hc
        by_cases h2 : (σ j).built = true
        · rw [if_pos h2] at hc
          subst hc
          exact ⟨fun c hc => List.eq_of_mem_replicate hc, by simpa using hk, by simpa using hk1⟩
        · rw [if_neg h2] at hc
          subst hc
          exact ⟨(h j).cells, hj, by omega⟩
    obtain ⟨c1, c2, c3⟩ := hcells _ hW (by omega) _ rfl
    refine hput _ _ _ h ⟨?_, ?_, ?_⟩
    · unfold Tree.build
      simp only [hs]
      exact buildLoop_all hz _ _ _ c1
    · unfold Tree.build
      simp only [hs, buildLoop_length]
      exact c2
    · intro _
      unfold Tree.build
      simp only [hs, buildLoop_length]
      exact c3
  | update j p v =>
    simp only [Verif.Fenwick.step]
    cases hu : (σ j).update (classMulT z div truthy) p v with
    | exc e => exact h
    | ub => exact h
    | ok r =>
      refine hput _ _ _ h ?_
      unfold Tree.update at hu
      split at hu
      · cases hu
      · simp only at hu
        split at hu
        · cases hu; exact hset _ _ _ (h j)
        · cases hu; exact h j
  | setValue j p v =>
    simp only [Verif.Fenwick.step]
    cases hu : (σ j).setValue (classMulT z div truthy) p v with
    | exc e => exact h
    | ub => exact h
    | ok r =>
      refine hput _ _ _ h ?_
      unfold Tree.setValue at hu
      split at hu
      · cases hu
      · simp only at hu
        split at hu
        · obtain ⟨cur, _, hu⟩ := Res.bind_eq_ok.1 hu
          obtain ⟨diff, _, hu⟩ := Res.bind_eq_ok.1 hu
          split at hu
          · cases hu; exact hset _ _ _ (h j)
          · cases hu; exact h j
        · cases hu; exact h j
  | query j x y => exact h
  | resize j k =>
    refine hput _ _ _ h ?_
    unfold Tree.resize
    split
    · refine ⟨fun c hc => (h j).cells c (List.mem_of_mem_take hc), ?_, ?_⟩
      · simp only [List.length_take]
        have := (h j).len
        omega
      · intro _
        have : 1 ≤ k := ho
        simp only [List.length_take]
        omega
    · exact h j
  | copy d s => exact hput _ _ _ h (h s)
  | move d s =>
    exact hput _ _ _ (hput _ _ _ h (h s)) ⟨by simp [Tree.moveFrom], Nat.zero_le _, fun hb => by cases hb⟩

theorem AllZ.run [Mul T] {z : T} {div : T → T → Res T} {truthy : T → Bool} (hz : ∀ x, z * x = z) (ops : List (Op T)) : ∀ (σ : Store T),
    (∀ o ∈ ops, o.Valid) → (∀ i, AllZ z (σ i)) → ∀ i, AllZ z ((run (classMulT z div truthy) σ ops).1 i) := by
  induction ops with
  | nil => intro σ _ h; exact h
  | cons o ops ih =>
    intro σ hv h
    exact ih _ (fun o ho => hv o (List.mem_cons_of_mem _ ho)) (AllZ.step hz σ o (hv o (by simp)) h)

/-! ### Any default value -/

/-- The tree with the identity as null value. -/
def oneT [CommMonoid T] (t : Transform T) : Transform T := { t with op := (· * ·), null := 1 }

theorem oneT_lawful [CommMonoid T] (t : Transform T) : Lawful (oneT t) where
  assoc a b c := mul_assoc a b c
  comm a b := mul_comm a b
  null_op a := one_mul a

theorem F_one [CommMonoid T] (t : Transform T) (l : List T) : F (oneT t) l = l.prod := rfl

variable [CommMonoid T] {e : T} {div : T → T → Res T} {truthy : T → Bool}

theorem updateCells_scale (cells : List T) (p : Nat) (v : T) :
    updateCells (classMulT e div truthy) (cells.map (e * ·)) p v =
      (updateCells (oneT (classMulT e div truthy)) cells p v).map (e * ·) := by
  fun_induction updateCells (oneT (classMulT e div truthy)) cells p v with
  | case1 cells p h ih =>
    rw [← ih, updateCells, dif_pos (by simpa using h), List.map_set, List.getElem_map]
    congr 2
    exact mul_assoc e _ _
  | case2 cells p h => rw [updateCells, dif_neg (by simpa using h)]

theorem buildLoop_scale (l : List T) : ∀ (cells : List T) (ii : Nat),
    buildLoop (classMulT e div truthy) (cells.map (e * ·)) ii l = (buildLoop (oneT (classMulT e div truthy)) cells ii l).map (e * ·) := by
  induction l with
  | nil => intro cells ii; rfl
  | cons x l ih =>
    intro cells ii
    unfold buildLoop
    rw [updateCells_scale, ih]

theorem queryLoop_scale {cells a : List T} (h : Inv (oneT (classMulT e div truthy)) cells a) (i : Nat) (v : T) (hi : i ≤ a.length) :
    queryLoop (classMulT e div truthy) (cells.map (e * ·)) i v = .ok (e ^ (ones (i - low i)) * ((a.take (i - low i)).prod * v)) := by
  induction i using Nat.strongRecOn generalizing v with
  | _ i ih =>
    have hl := h.len
    have hW := h.lenW
    unfold queryLoop
    have e1 : nextQuery i = i - low i := by unfold nextQuery; rw [lsb_eq_low i (by omega)]
    simp only [e1]
    rcases Nat.eq_zero_or_pos i with h0 | h0
    · subst h0
      rw [dif_neg (by simp)]
      simp [ones]
    · have hlow := low_pos i h0
      by_cases hc : 0 < i - low i
      · rw [dif_pos ⟨hc, by omega⟩]
        have hg := h.get (i - low i) (by omega)
        have hr : rd (cells.map (e * ·)) (i - low i) = .ok (e * F (oneT (classMulT e div truthy)) (slice a (i - low i - low (i - low i)) (i - low i))) := by
          rw [rd_lt (by omega)] at hg
          rw [rd_lt (by rw [List.length_map]; omega), List.getElem_map]
          injection hg with hg
          rw [hg]
        rw [hr]
        simp only [Res.bind_ok]
        rw [ih (i - low i) (by omega) _ (by omega), F_one, ← ones_sub_low (i - low i) hc]
        have hs : (a.take (i - low i)).prod = (a.take (i - low i - low (i - low i))).prod * (slice a (i - low i - low (i - low i)) (i - low i)).prod := by
          rw [← List.prod_append]
          congr 1
          unfold slice
          conv_lhs => rw [← List.take_append_drop (i - low i - low (i - low i)) (a.take (i - low i))]
          rw [List.take_take, Nat.min_eq_left (by omega)]
        rw [hs, pow_succ]
        congr 1
        change _ * (_ * ((e * _) * v)) = _
        generalize (a.take (i - low i - low (i - low i))).prod = A
        generalize (slice a (i - low i - low (i - low i)) (i - low i)).prod = B
        generalize e ^ _ = E
        simp only [mul_comm, mul_left_comm]
      · rw [dif_neg (by omega)]
        have : i - low i = 0 := by omega
        rw [this]
        simp [ones]

theorem prefixQuery_scale {cells a : List T} (h : Inv (oneT (classMulT e div truthy)) cells a) (i : Nat) (hp : 1 ≤ i) (hi : i ≤ a.length) :
    prefixQuery (classMulT e div truthy) (cells.map (e * ·)) i = .ok (e ^ ones i * (a.take i).prod) := by
  have hl := h.len
  unfold prefixQuery
  have hg := h.get i hi
  rw [rd_lt (by omega)] at hg
  rw [rd_lt (by rw [List.length_map]; omega), List.getElem_map]
  injection hg with hg
  rw [hg]
  simp only [Res.bind_ok]
  rw [queryLoop_scale h i _ hi, F_one, ← ones_sub_low i hp, pow_succ]
  have hs : (a.take i).prod = (a.take (i - low i)).prod * (slice a (i - low i) i).prod := by
    rw [← List.prod_append]
    congr 1
    unfold slice
    conv_lhs => rw [← List.take_append_drop (i - low i) (a.take i)]
    rw [List.take_take, Nat.min_eq_left (by omega)]
  rw [hs]
  congr 1
  generalize (a.take (i - low i)).prod = A
  generalize (slice a (i - low i) i).prod = B
  generalize e ^ _ = E
  simp only [mul_comm, mul_left_comm]

/-- The cells of a tree just built. -/
theorem build_scale (input : List T) (n : Nat) (hW : min n input.length + 1 ≤ W) :
    ∃ cells, Inv (oneT (classMulT e div truthy)) cells (input.take n) ∧
      Tree.empty.build (classMulT e div truthy) input n = ⟨cells.map (e * ·), true⟩ := by
  have h := build_reps (oneT_lawful (classMulT e div truthy)) Tree.empty input n (Or.inr ⟨rfl, rfl⟩) hW
  refine ⟨_, h.2, ?_⟩
  unfold Tree.build
  have hk : (Tree.empty : Tree T).processed.length < (if n < input.length then n + 1 else input.length + 1) := by
    have h0 : (Tree.empty : Tree T).processed.length = 0 := rfl
    rw [h0]; split <;> omega
  generalize (if n < input.length then n + 1 else input.length + 1) = k at hk ⊢
  simp only [if_pos hk]
  rw [← buildLoop_scale, List.map_replicate]
  congr 3
  exact (mul_one e).symm

/-! ### C193 -/

omit [CommMonoid T] in
/-- **C193 in full**: a product tree over a class type returns the product of the addressed elements, whatever the default value of the type. -/
def C193_statement : Prop :=
  ∀ (T : Type) [CommMonoid T] (dflt : T) (div : T → T → Res T) (truthy : T → Bool) (input : List T) (n x y : Nat), 0 < input.length → 0 < n →
    min n input.length + 1 ≤ W → (∀ a b, div (a * b) a = .ok b ∨ truthy a = false) →
    (Tree.empty.build (classMulT dflt div truthy) input n).query (classMulT dflt div truthy) x y = .ok (addressed (input.take n) x y).prod

/-- C193 fails in the worst way: if the default value is a zero (as it is for big integers, fractions and complex numbers), then every query of every tree
that any history of calls can build returns zero, whatever was stored in it. -/
theorem C193_always_zero {T : Type} [Mul T] (z : T) (div : T → T → Res T) (truthy : T → Bool) (hz : ∀ x, z * x = z) (hf : truthy z = false)
    (f : Tree T) (h : Reachable (classMulT z div truthy) f) (hb : f.built = true) (x y : Nat) :
    f.query (classMulT z div truthy) x y = .ok z := by
  obtain ⟨ops, i, hv, rfl⟩ := h
  refine AllZ.query hz hf (AllZ.run hz ops _ hv ?_ i) hb x y
  intro i
  exact ⟨by simp [Store.init, Tree.empty], Nat.zero_le _, fun hb => by cases hb⟩

/-- The integers as a class type with default value 0, division that throws for 0, and conversion to `bool` as usual. -/
def intClass : Transform Int := classMulT 0 (fun a b => if b = 0 then .exc .outOfRange else .ok (a.tdiv b)) (fun a => decide (a ≠ 0))

/-- C193 fails: the product of `[2, 3]` is 0. -/
theorem C193_counterexample : ¬ C193_statement := by
  intro h
  have := h Int 0 (fun a b => if b = 0 then .exc .outOfRange else .ok (a.tdiv b)) (fun a => decide (a ≠ 0)) [2, 3] 2 1 2
    (by simp) (by simp) (by decide +kernel) (fun a b => by
      by_cases ha : a = 0
      · right; simp [ha]
      · left
        simp only [if_neg ha]
        rw [Int.mul_tdiv_cancel_left _ ha])
  revert this
  decide +kernel

/-- The sixth element of seven is set, and still all products are 0. -/
example : (run intClass Store.init [.rebuild 0 [1, 2, 3, 4, 5, 6, 7] 7, .update 0 6 9, .query 0 1 7, .query 0 6 6, .query 0 2 3]).2 =
    [.ok .unit, .ok (.bool true), .ok (.value 0), .ok (.value 0), .ok (.value 0)] := by decide +kernel

/-- C193, exactly as the code behaves, for any default value: each cell has the default value as an extra factor, so that the product of the first `p`
elements is wrong by as many factors as `p` has ones in binary; and the default value is divided out once if it counts as true and the range starts at the
first element. -/
theorem C193_exact (input : List T) (n x y : Nat) (hW : min n input.length + 1 ≤ W) (hn : 1 ≤ min (max x y) (min n input.length)) :
    (Tree.empty.build (classMulT e div truthy) input n).query (classMulT e div truthy) x y =
      let lo := min (min x y) (min n input.length)
      let hi := min (max x y) (min n input.length)
      let value := e ^ ones hi * (input.take hi).prod
      let discarded := if lo ≤ 1 then e else e ^ ones (lo - 1) * (input.take (lo - 1)).prod
      if truthy discarded then div value discarded else .ok value := by
  obtain ⟨cells, hi, hb⟩ := build_scale (e := e) (div := div) (truthy := truthy) input n hW
  have hl := hi.len
  rw [List.length_take] at hl
  have hlW := hi.lenW
  rw [hb]
  unfold Tree.query
  simp only [Bool.not_true, Bool.false_eq_true, if_false, List.length_map]
  rw [hl, length_last (by omega)]
  unfold rangeQuery
  rw [prefixQuery_scale hi _ hn (by rw [List.length_take]; omega)]
  have htake : ∀ k, k ≤ min n input.length → (input.take n).take k = input.take k := by
    intro k hk
    rw [List.take_take, Nat.min_eq_left (by omega)]
  rw [htake _ (by omega)]
  by_cases hlo : min (min x y) (min n input.length) ≤ 1
  · simp only [if_pos hlo, Res.bind_ok]
    rfl
  · simp only [if_neg hlo]
    rw [prefixQuery_scale hi _ (by omega) (by rw [List.length_take]; omega), htake _ (by omega)]
    rfl

/-- **C193**, the part that holds: it does if the default value is the identity (as for the identity matrix or permutation), provided that division undoes
multiplication by every value that counts as true and only the identity counts as false.  Missing: other default values, for which the claim is false
(`C193_counterexample`, `C193_always_zero`, `C193_exact`). -/
theorem C193_identity_partial (hd : ∀ a b : T, if truthy a then div (a * b) a = .ok b else a = 1) (input : List T) (n x y : Nat)
    (hW : min n input.length + 1 ≤ W) (hn : 1 ≤ min (max x y) (min n input.length)) :
    (Tree.empty.build (classMulT 1 div truthy) input n).query (classMulT 1 div truthy) x y = .ok (addressed (input.take n) x y).prod := by
  rw [C193_exact input n x y hW hn]
  simp only [one_pow, one_mul]
  have hlen : (input.take n).length = min n input.length := List.length_take
  unfold addressed Spec.positions
  rw [hlen]
  have htake : ∀ k, k ≤ min n input.length → (input.take n).take k = input.take k := by
    intro k hk
    rw [List.take_take, Nat.min_eq_left (by omega)]
  rw [htake _ (by omega)]
  generalize hL : min (min x y) (min n input.length) = lo
  generalize hH : min (max x y) (min n input.length) = hi at hn ⊢
  have hle : lo ≤ hi := by omega
  have key : ∀ a b : T, (if truthy a = true then div (a * b) a else .ok (a * b)) = .ok b := by
    intro a b
    have := hd a b
    by_cases ha : truthy a = true
    · rw [if_pos ha] at this ⊢; exact this
    · rw [if_neg ha] at this ⊢; rw [this, one_mul]
  by_cases h1 : lo ≤ 1
  · rw [if_pos h1, show max 1 lo - 1 = 0 by omega, List.drop_zero]
    have := key 1 (input.take hi).prod
    rwa [one_mul] at this
  · rw [if_neg h1, show max 1 lo - 1 = lo - 1 by omega]
    have := key (input.take (lo - 1)).prod ((input.take hi).drop (lo - 1)).prod
    have hp : (input.take (lo - 1)).prod * ((input.take hi).drop (lo - 1)).prod = (input.take hi).prod := by
      rw [← List.prod_append]
      congr 1
      conv_rhs => rw [← List.take_append_drop (lo - 1) (input.take hi)]
      rw [List.take_take, Nat.min_eq_left (by omega)]
    rwa [hp] at this

/-- A class of integers with default value 1: the product of the second and third element. -/
example : (Tree.empty.build (classMulT (1 : Int) (fun a b => if b = 0 then .ub else .ok (a.tdiv b)) (fun a => decide (a ≠ 0))) [2, 3, 5, 7] 4).query
    (classMulT (1 : Int) (fun a b => if b = 0 then .ub else .ok (a.tdiv b)) (fun a => decide (a ≠ 0))) 2 3 = .ok 15 := by decide +kernel

/-- A class of integers with default value 2: the product of the first three elements is 4 times too large, and is divided by 2. -/
example : (Tree.empty.build (classMulT (2 : Int) (fun a b => if b = 0 then .ub else .ok (a.tdiv b)) (fun a => decide (a ≠ 0))) [2, 3, 5, 7] 4).query
    (classMulT (2 : Int) (fun a b => if b = 0 then .ub else .ok (a.tdiv b)) (fun a => decide (a ≠ 0))) 1 3 = .ok 60 := by decide +kernel

end Verif.Fenwick
