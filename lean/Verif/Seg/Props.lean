import Verif.Seg.Shape

/-! Properties C55–C60. -/

namespace Verif.Seg
open Spec
set_option linter.unusedSectionVars false
variable {T V U : Type}

/-- A transform whose only updates are "no update" needs no laws but associativity. -/
theorem lawful_trivial (X : Transform T V U) (hnone : X.has X.none = false)
    (assoc : ∀ x y z, X.join (X.join x y) z = X.join x (X.join y z)) (P : U → Prop) (hP0 : P X.none)
    (hP : ∀ u, P u → X.has u = false) : Lawful X P (fun _ _ _ v => v) := by
  refine ⟨assoc, hnone, hP0, ?_, ?_, ?_, ?_⟩
  · intro u a b c x y h1 h2; simp [hP u h1] at h2
  · intro n u h1 h2; simp [hP u h1] at h2
  · intro n u h1 h2; simp [hP u h1] at h2
  · intro n l r h1 h2; simp [hP _ h1] at h2

/-- C55: after building any tree object (also one used before) from a non-empty vector, `query(a,b)` returns the
left-to-right join of the built elements in the clamped range. -/
theorem C55_query (X : Transform T V U) (hnone : X.has X.none = false)
    (assoc : ∀ x y z, X.join (X.join x y) z = X.join x (X.join y z)) (need : Nat → Nat) (hneed : Roomy need)
    (t : SegT V U) (input : List T) (number : Nat) (hb : input.length ≤ W) (hne : input.take number ≠ []) (a b : Nat) :
    let xs := (input.take number).mapIdx fun p x => X.build x p
    ∃ t1 t2, build X need t input number = .ok t1 ∧ t1.size = xs.length ∧ t1.built = true ∧
      query X t1 a b = .ok (joinAll X.join X.dflt (slice xs (min (min a b) (xs.length - 1)) (min (max a b) (xs.length - 1))), t2) := by
  intro xs
  have L := lawful_trivial X hnone assoc (fun u => u = X.none) rfl (fun u h => by rw [h]; exact hnone)
  obtain ⟨t1, e1, r1, -⟩ := build_spec (act := fun _ _ _ v => v) hnone (P := fun u => u = X.none) rfl assoc hneed t input number hb hne
  obtain ⟨t2, e2, -⟩ := query_spec L r1 a b
  exact ⟨t1, t2, e1, r1.size, r1.built, e2⟩

example : Roomy exactNeed ∧ (build assignCat exactNeed SegT.new [3, 1, 4, 1, 5, 9, 2] 6 >>= fun t =>
    query assignCat t 4 1 >>= fun r => .ok r.1) = .ok [1, 4, 1, 5] := ⟨roomy_exact, by decide +kernel⟩

/-- C56: for every transform whose `apply`/`propagate` keep the bounds and index of the nodes, every history that starts by
building from a non-empty vector runs to completion without leaving the heap (no UB, no exception), and building a new tree
allocates exactly the computed number of cells, which later queries do not change. -/
theorem C56_in_bounds (X : Transform T V U) (K : Keeps X) (need : Nat → Nat) (hneed : Roomy need)
    (input : List T) (number : Nat) (hb : input.length ≤ W) (hne : input.take number ≠ [])
    (ops : List (Op T U)) (hops : ∀ op ∈ ops, OpOk (fun _ => True) op) :
    (∃ t vs, run X need SegT.new (.rebuild input number :: ops) = .ok (t, vs)) ∧
    (∃ t, build X need (SegT.new : SegT V U) input number = .ok t ∧ t.heap.length = need (min number input.length)) := by
  obtain ⟨t, e, r, s, c⟩ := build_shape (X := X) hneed SegT.new input number hb hne
  obtain ⟨t', vs, e2, -⟩ := run_shape K hneed ops r hops
  refine ⟨⟨t', none :: vs, by simp only [run, e, Res.bind_ok, e2]⟩, t, e, ?_⟩
  rw [c, s]; simp [SegT.new]

/-- The allocation in exact arithmetic, `4 n` cells, is roomy: the tree of `n` elements uses the heap indices below `top n 1`. -/
theorem C56_exact : Roomy exactNeed := roomy_exact

theorem keeps_addSum : Keeps addSum := ⟨fun _ _ => ⟨rfl, rfl, rfl⟩, fun _ _ _ => ⟨⟨rfl, rfl, rfl⟩, ⟨rfl, rfl, rfl⟩, ⟨rfl, rfl, rfl⟩⟩⟩

example : (run addSum exactNeed SegT.new [.rebuild [1, 2, 3, 4, 5, 6, 7] 9, .update 1 5 10, .query 2 3]).isOk = true := by
  decide +kernel

/-! ### C57 -/

/-- C57: for every lawful transform, after building and any sequence of queries and updates (and rebuilds from non-empty
vectors), every call returns the join of the clamped range of the elements with all updates applied pointwise in order. -/
theorem C57_lazy (X : Transform T V U) (P : U → Prop) (act : U → Nat → Nat → V → V) (L : Lawful X P act)
    (need : Nat → Nat) (hneed : Roomy need) (input : List T) (number : Nat) (hb : input.length ≤ W)
    (hne : input.take number ≠ []) (ops : List (Op T U)) (hops : ∀ op ∈ ops, OpOk P op) :
    ∃ t, run X need SegT.new (.rebuild input number :: ops) =
      .ok (t, (specRun X act [] (.rebuild input number :: ops)).2) := by
  obtain ⟨t, e, r, -⟩ := build_spec (act := act) L.none_has L.none_P L.assoc hneed SegT.new input number hb hne
  obtain ⟨t', e2, -⟩ := run_spec L hneed ops r hops
  exact ⟨t', by simp only [run, e, Res.bind_ok, e2]; rfl⟩

/-- Adding to a range with sum queries is lawful. -/
theorem C57_addSum_lawful : Lawful addSum (fun _ => True) (fun u a b v => v + u * (b + 1 - a : Nat)) := by
  have one : ∀ p : Nat, p + 1 - p = 1 := by intro p; omega
  have pd : ∀ w p (v : Int), pend addSum (fun u a b v => v + u * (b + 1 - a : Nat)) w p p v = v + w := by
    intro w p v
    unfold pend
    by_cases h : w = 0
    · subst h; simp [addSum]
    · simp [addSum, h, one]
  refine ⟨fun x y z => Int.add_assoc x y z, rfl, trivial, ?_, fun n u _ _ => ⟨rfl, rfl, rfl, rfl⟩, ?_, ?_⟩
  · intro u a b c x y _ _ h1 h2
    have e : (c + 1 - a : Nat) = (b + 1 - a : Nat) + (c + 1 - (b + 1) : Nat) := by omega
    show x + y + u * _ = (x + u * _) + (y + u * _)
    rw [e, Int.natCast_add, Int.mul_add]
    omega
  · intro n u _ _ _ _ _
    refine ⟨trivial, fun p v _ _ => ?_⟩
    show pend addSum _ (n.lazy + u) p p v = _
    rw [pd, pd]; simp only [one]; omega
  · intro n l r _ _ _ _ _ _ _
    refine ⟨_, _, _, rfl, ⟨rfl, rfl, rfl, trivial, fun p v => ?_⟩, ?_⟩
    · show pend addSum _ 0 p p v = v
      rw [pd]; omega
    · rintro c c' (⟨rfl, rfl⟩ | ⟨rfl, rfl⟩) <;> refine ⟨rfl, rfl, rfl, rfl, fun _ _ => ⟨trivial, fun p v _ _ => ?_⟩⟩
      · show pend addSum _ (c.lazy + n.lazy) p p v = _
        rw [pd, pd]; simp only [one]; omega
      · show pend addSum _ (c.lazy + n.lazy) p p v = _
        rw [pd, pd]; simp only [one]; omega

/-- Assigning to a range with a non-commutative join, never composing marks (`criteria` false), is lawful. -/
theorem C57_assignCat_lawful : Lawful assignCat (fun _ => True) (fun u _ _ v => v.map fun x => u.getD x) := by
  have pd : ∀ w p (v : List Nat), pend assignCat (fun u _ _ v => v.map fun x => u.getD x) w p p v = v.map fun x => w.getD x := by
    intro w p v
    unfold pend
    cases w with
    | none => simp [assignCat]
    | some w => simp [assignCat]
  refine ⟨fun x y z => List.append_assoc x y z, rfl, trivial, ?_, fun n u _ _ => ⟨rfl, rfl, rfl, rfl⟩, ?_, ?_⟩
  · intro u a b c x y _ _ h1 h2
    exact List.map_append
  · intro n u _ _ _ _ h
    refine ⟨trivial, fun p v _ _ => ?_⟩
    have : n.lazy = none := by
      rcases h with h | h
      · simpa [assignCat] using h
      · simp [assignCat] at h
    show pend assignCat _ u p p v = _
    rw [pd, pd, this]; simp
  · intro n l r _ hh _ _ _ _ _
    obtain ⟨w, hw⟩ : ∃ w, n.lazy = some w := Option.isSome_iff_exists.1 hh
    refine ⟨_, _, _, rfl, ⟨rfl, rfl, rfl, trivial, fun p v => ?_⟩, ?_⟩
    · show pend assignCat _ none p p v = v
      rw [pd]; simp
    · rintro c c' (⟨rfl, rfl⟩ | ⟨rfl, rfl⟩) <;> refine ⟨rfl, rfl, rfl, rfl, fun _ _ => ⟨trivial, fun p v _ _ => ?_⟩⟩
      · show pend assignCat _ n.lazy p p v = _
        rw [pd, pd, hw]; simp
      · show pend assignCat _ n.lazy p p v = _
        rw [pd, pd, hw]; simp

example : (run addSum exactNeed SegT.new [.rebuild [1, 2, 3, 4, 5, 6, 7] 9, .update 1 5 10, .query 2 3, .update 9 4 (-5),
      .query 0 9, .update 3 3 0, .query 4 4]).toOption.map (·.2) =
    some [none, some 70, some 27, some 23, some 63, some 14, some 10] := by decide +kernel

/-! ### C58 -/

/-- C58: `query_update(a,b,u)` returns what a `query(a,b)` right after it returns, in every state reached by a history;
the order of the bounds does not matter. -/
theorem C58_update_value (X : Transform T V U) (P : U → Prop) (act : U → Nat → Nat → V → V) (L : Lawful X P act)
    (need : Nat → Nat) (hneed : Roomy need) (input : List T) (number : Nat) (hb : input.length ≤ W)
    (hne : input.take number ≠ []) (ops : List (Op T U)) (hops : ∀ op ∈ ops, OpOk P op) (a b : Nat) (u : U) (hu : P u) :
    ∃ t vs, run X need SegT.new (.rebuild input number :: ops) = .ok (t, vs) ∧
      (∃ v t1 t2, queryUpdate X t a b u = .ok (v, t1) ∧ query X t1 a b = .ok (v, t2) ∧ query X t1 b a = .ok (v, t2)) ∧
      queryUpdate X t a b u = queryUpdate X t b a u ∧ query X t a b = query X t b a := by
  obtain ⟨t, e, r, -⟩ := build_spec (act := act) L.none_has L.none_P L.assoc hneed SegT.new input number hb hne
  obtain ⟨t', e2, r'⟩ := run_spec L hneed ops r hops
  have sw : ∀ t : SegT V U, query X t a b = query X t b a := by
    intro t; unfold query; rw [Nat.min_comm a b, Nat.max_comm a b]
  have e3 : ∃ vs, run X need SegT.new (.rebuild input number :: ops) = .ok (t', vs) :=
    ⟨_, by simp only [run, e, Res.bind_ok, e2]; rfl⟩
  obtain ⟨vs, e3⟩ := e3
  refine ⟨t', vs, e3, ?_, ?_, sw t'⟩
  · obtain ⟨t1, f1, r1, -⟩ := update_spec L r' a b u hu
    obtain ⟨t2, f2, -⟩ := query_spec L r1 a b
    refine ⟨_, t1, t2, f1, ?_, ?_⟩
    · rw [f2]
      congr 5 <;> (split <;> simp [update])
    · rw [← sw, f2]
      congr 5 <;> (split <;> simp [update])
  · unfold queryUpdate; rw [Nat.min_comm a b, Nat.max_comm a b]

example : (run addSum exactNeed SegT.new [.rebuild [1, 2, 3, 4, 5] 9, .update 4 1 10, .query 1 4, .query 4 1]).toOption.map (·.2) =
    some [none, some 54, some 54, some 54] := by decide +kernel

/-! ### C59 -/

/-- C59: when no update "is" an update (`empty_update_t`), every history of queries and updates after a build answers from
the built elements alone; only associativity of `join` is needed. -/
theorem C59_no_updates (X : Transform T V U) (hempty : ∀ u, X.has u = false)
    (assoc : ∀ x y z, X.join (X.join x y) z = X.join x (X.join y z)) (need : Nat → Nat) (hneed : Roomy need)
    (input : List T) (number : Nat) (hb : input.length ≤ W) (hne : input.take number ≠ [])
    (calls : List (Nat × Nat × Option U)) :
    let xs := (input.take number).mapIdx fun p x => X.build x p
    ∃ t, run X need SegT.new (.rebuild input number :: calls.map fun c =>
        match c.2.2 with | none => .query c.1 c.2.1 | some u => .update c.1 c.2.1 u) =
      .ok (t, none :: calls.map fun c => some (joinAll X.join X.dflt
        (slice xs (lo xs.length c.1 c.2.1) (hi xs.length c.1 c.2.1)))) := by
  intro xs
  have L := lawful_trivial X (hempty _) assoc (fun _ => True) trivial (fun u _ => hempty u)
  obtain ⟨t, e⟩ := C57_lazy X _ _ L need hneed input number hb hne (calls.map fun c =>
        match c.2.2 with | none => .query c.1 c.2.1 | some u => .update c.1 c.2.1 u) (by
    intro op h
    simp only [List.mem_map] at h
    obtain ⟨c, -, rfl⟩ := h
    cases c.2.2 <;> exact trivial)
  refine ⟨t, ?_⟩
  rw [e]
  congr 2
  show none :: _ = none :: _
  congr 1
  show (specRun X _ xs _).2 = _
  clear e
  induction calls with
  | nil => rfl
  | cons c calls ih =>
    obtain ⟨a, b, o⟩ := c
    cases o with
    | none => simp only [List.map_cons, specRun]; rw [ih]
    | some u => simp only [List.map_cons, specRun, hempty]; rw [← ih]; rfl

example : (run (rangeOp max) exactNeed SegT.new [.rebuild [3, 1, 4, 1, 5] 9, .update 0 2 (), .query 3 3, .query 9 0]).toOption.map (·.2) =
    some [none, some 4, some 1, some 5] := by decide +kernel

/-! ### C60 -/

/-- C60 (full statement, second half): after `rebuild(v)` answers refer to `v` only, also for empty `v`: then the tree must not
answer at all. -/
def C60_statement : Prop :=
  ∀ (t t' : SegT Nat Unit) (number : Nat), build (rangeOp (· + ·)) exactNeed t [] number = .ok t' →
    ∀ a b, query (rangeOp (· + ·)) t' a b = .exc .notBuilt

/-- C60 is false: after `rebuild({})` the old sum is still reported, and out-of-range bounds are no longer clamped. -/
theorem C60_counterexample : ¬ C60_statement := by
  intro h
  obtain ⟨t, ht⟩ : ∃ t, build (rangeOp (· + ·)) exactNeed SegT.new [1, 2, 3] 3 = .ok t := by
    obtain ⟨t, h1, -⟩ := build_shape (X := rangeOp (· + ·)) roomy_exact SegT.new [1, 2, 3] 3 (by decide) (by decide)
    exact ⟨t, h1⟩
  have h1 : (build (rangeOp (· + ·)) exactNeed SegT.new [1, 2, 3] 3 >>= fun t =>
    build (rangeOp (· + ·)) exactNeed t [] 0 >>= fun t => query (rangeOp (· + ·)) t 0 2 >>= fun r => .ok r.1) = .ok 6 := by
    decide +kernel
  rw [ht] at h1
  simp only [Res.bind_ok] at h1
  have hb : build (rangeOp (· + ·)) exactNeed t [] 0 = .ok { t with size := 0 } := rfl
  rw [hb] at h1
  simp only [Res.bind_ok] at h1
  rw [h t _ 0 hb 0 2] at h1
  cases h1

/-- Reading past the old elements after `rebuild({})` is undefined. -/
theorem C60_counterexample_ub : (build (rangeOp (· + ·)) exactNeed SegT.new [1, 2, 3] 3 >>= fun t =>
    build (rangeOp (· + ·)) exactNeed t [] 0 >>= fun t => query (rangeOp (· + ·)) t 0 9) = .ub := by
  decide +kernel

/-- C60 (part): a tree that was never built throws; after rebuilding ANY tree object (whatever it went through) from a
non-empty vector, all later answers are those of the new elements only.
Missing: rebuilding from an empty vector a tree that was built before (`C60_counterexample`). -/
theorem C60_rebuild_partial (X : Transform T V U) (P : U → Prop) (act : U → Nat → Nat → V → V) (L : Lawful X P act)
    (need : Nat → Nat) (hneed : Roomy need) (t : SegT V U) (input : List T) (number : Nat) (hb : input.length ≤ W)
    (ops : List (Op T U)) (hops : ∀ op ∈ ops, OpOk P op) :
    (t.built = false → ∀ a b u, query X t a b = .exc .notBuilt ∧ queryUpdate X t a b u = .exc .notBuilt) ∧
    (SegT.new : SegT V U).built = false ∧
    (input.take number = [] → t.built = false → build X need t input number = .ok { t with size := 0 }) ∧
    (input.take number ≠ [] → ∃ t', run X need t (.rebuild input number :: ops) =
      .ok (t', (specRun X act [] (.rebuild input number :: ops)).2)) := by
  refine ⟨fun h a b u => ?_, rfl, fun h _ => ?_, fun hne => ?_⟩
  · unfold query queryUpdate; simp [h]
  · have h0 : min number input.length = 0 := by
      have := congrArg List.length h
      simpa using this
    have hsize : (if number < input.length then number else input.length) = 0 := by split <;> omega
    unfold build
    rw [hsize]; rfl
  · obtain ⟨t1, e, r, -⟩ := build_spec (act := act) L.none_has L.none_P L.assoc hneed t input number hb hne
    obtain ⟨t', e2, -⟩ := run_spec L hneed ops r hops
    exact ⟨t', by simp only [run, e, Res.bind_ok, e2]; rfl⟩

example : (run addSum exactNeed SegT.new [.rebuild [1, 2, 3, 4, 5] 9, .update 0 4 10, .rebuild [7, 8] 9, .query 0 9,
    .rebuild [1, 1, 1, 1, 1, 1, 1, 1, 1] 7, .query 0 9]).toOption.map (·.2) =
    some [none, some 65, none, some 15, none, some 7] := by decide +kernel

end Verif.Seg
