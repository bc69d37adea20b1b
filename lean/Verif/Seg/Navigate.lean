import Verif.Seg.Shape

/-! C203: the public accessors `head`, `lower_bound` and `upper_bound` of a segment tree (segment_tree.h:213-281). -/

namespace Verif.Seg
open Verif.Seg.Spec
open Verif.Heap (leftOf rightOf)
variable {T V U : Type}

/-- segment_tree.h:226-229 `head`. -/
def SegT.head (t : SegT V U) : Res (RNode V U) := Heap.head t.heap

/-- segment_tree.h:213-216 `head() const`. -/
def SegT.headConst (t : SegT V U) : Res (RNode V U) := Heap.headConst t.heap

/-- segment_tree.h:239-255 `upper_bound` (both); the index is not checked. -/
def SegT.upperBound (t : SegT V U) (n : RNode V U) : Res (RNode V U) := rd t.heap (rightOf n.index)

/-- segment_tree.h:265-281 `lower_bound` (both). -/
def SegT.lowerBound (t : SegT V U) (n : RNode V U) : Res (RNode V U) := rd t.heap (leftOf n.index)

/-- A client: from `n` down a path (`true`: upper bound). -/
def SegT.follow (t : SegT V U) : RNode V U → List Bool → Res (RNode V U)
  | n, [] => .ok n
  | n, up :: path => do
    let m ← if up then t.upperBound n else t.lowerBound n
    t.follow m path

/-- From the head down a path. -/
def SegT.nav (t : SegT V U) (path : List Bool) : Res (RNode V U) := do
  let n ← t.head
  t.follow n path

/-- A client: the search for the leaf of position `p`, in at most `fuel` steps. -/
def SegT.locate (t : SegT V U) (p : Nat) : Nat → RNode V U → Res (RNode V U)
  | 0, n => .ok n
  | fuel + 1, n =>
    if n.leaf then .ok n
    else do
      let m ← if p ≤ n.center then t.lowerBound n else t.upperBound n
      t.locate p fuel m

/-! ### Specification -/

/-- The part of the interval `[a, b]` at the end of a path of halves, if all intervals above it have two elements or more. -/
def part : List Bool → Nat → Nat → Option (Nat × Nat)
  | [], a, b => some (a, b)
  | up :: path, a, b => if a < b then (if up then part path ((a + b) / 2 + 1) b else part path a ((a + b) / 2)) else none

/-- The full claim: whatever was called before, `head()` is the whole array, and the bounds of a node that was reached may be asked for. -/
def C203_statement : Prop := ∀ (t : SegT Nat Unit) (vs : List (Option Nat)) (ops : List (Op Nat Unit)),
  run (rangeOp (· + ·)) exactNeed SegT.new ops = .ok (t, vs) →
    (∀ n, t.head = .ok n → n.start = 0 ∧ n.stop = t.size - 1) ∧ ∀ path, t.nav path ≠ .ub

/-! ### Lemmas -/

theorem rd_of_get {α : Type} {l : List α} {i : Nat} {x : α} (h : l[i]? = some x) : rd l i = .ok x := by
  unfold rd; rw [h]

theorem Shape.follow {t : SegT V U} (path : List Bool) : ∀ {i a b : Nat} {n : RNode V U}, Shape t.heap i a b → t.heap[i]? = some n → ∀ {a' b'},
    part path a b = some (a', b') → ∃ m, t.follow n path = .ok m ∧ m.start = a' ∧ m.stop = b' ∧ Shape t.heap m.index a' b' ∧ t.heap[m.index]? = some m := by
  induction path with
  | nil =>
    intro i a b n r hn a' b' hp
    obtain ⟨rfl, rfl⟩ : a = a' ∧ b = b' := by simpa [part] using hp
    obtain ⟨m, hm, hs, he, hi⟩ := r.root
    rw [hn] at hm; obtain rfl := Option.some.inj hm
    exact ⟨n, rfl, hs, he, by rw [hi]; exact r, by rw [hi]; exact hn⟩
  | cons up path ih =>
    intro i a b n r hn a' b' hp
    simp only [part] at hp
    split at hp
    · next hab =>
      cases r with
      | leaf => omega
      | node _ hm hs he hi hl hr =>
        rw [hn] at hm; obtain rfl := Option.some.inj hm
        cases up with
        | true =>
          obtain ⟨m, em, -⟩ := hr.root
          obtain ⟨k, e, h⟩ := ih hr em (by simpa using hp)
          refine ⟨k, ?_, h⟩
          simp only [SegT.follow, if_true, SegT.upperBound]
          rw [hi, rightOf_eq, rd_of_get em, Res.bind_ok]
          exact e
        | false =>
          obtain ⟨m, em, -⟩ := hl.root
          obtain ⟨k, e, h⟩ := ih hl em (by simpa using hp)
          refine ⟨k, ?_, h⟩
          simp only [SegT.follow, Bool.false_eq_true, if_false, SegT.lowerBound]
          rw [hi, leftOf_eq, rd_of_get em, Res.bind_ok]
          exact e
    · cases hp

theorem Shape.locate {t : SegT V U} {p : Nat} (d : Nat) : ∀ {i a b : Nat} {n : RNode V U}, Shape t.heap i a b → t.heap[i]? = some n →
    a ≤ p → p ≤ b → b + 1 - a ≤ 2 ^ d → ∃ m, t.locate p d n = .ok m ∧ m.start = p ∧ m.stop = p := by
  induction d with
  | zero =>
    intro i a b n r hn h1 h2 hd
    obtain ⟨m, hm, hs, he, hi⟩ := r.root
    rw [hn] at hm; obtain rfl := Option.some.inj hm
    have : 2 ^ 0 = 1 := rfl
    exact ⟨n, rfl, by omega, by omega⟩
  | succ d ih =>
    intro i a b n r hn h1 h2 hd
    rw [Nat.pow_succ] at hd
    cases r with
    | leaf hm hs he hi =>
      rw [hn] at hm; obtain rfl := Option.some.inj hm
      have hl : n.leaf = true := by simp [RNode.leaf, hs, he]
      exact ⟨n, by simp [SegT.locate, hl], by omega, by omega⟩
    | node hab hm hs he hi hl hr =>
      rw [hn] at hm; obtain rfl := Option.some.inj hm
      have hlf : n.leaf = false := by simp [RNode.leaf, hs, he]; omega
      have hc : n.center = (a + b) / 2 := by simp [RNode.center, hs, he]
      simp only [SegT.locate, hlf, Bool.false_eq_true, if_false]
      by_cases hp : p ≤ (a + b) / 2
      · obtain ⟨m, em, -⟩ := hl.root
        obtain ⟨k, e, h⟩ := ih hl em h1 hp (by omega)
        refine ⟨k, ?_, h⟩
        rw [hc]
        simp only [hp, if_true, SegT.lowerBound]
        rw [hi, leftOf_eq, rd_of_get em, Res.bind_ok]
        exact e
      · obtain ⟨m, em, -⟩ := hr.root
        obtain ⟨k, e, h⟩ := ih hr em (by omega) h2 (by omega)
        refine ⟨k, ?_, h⟩
        rw [hc]
        simp only [hp, if_false, SegT.upperBound]
        rw [hi, rightOf_eq, rd_of_get em, Res.bind_ok]
        exact e

theorem TShape.head {t : SegT V U} (r : TShape t) : ∃ n, t.heap[0]? = some n ∧ t.head = .ok n ∧ t.headConst = .ok n ∧ n.start = 0 ∧ n.stop = t.size - 1 := by
  obtain ⟨n, hn, hs, he, -⟩ := r.shape.root
  refine ⟨n, hn, ?_, rd_of_get hn, hs, he⟩
  unfold SegT.head Heap.head rdAt
  rw [hn]

/-! ### C203 -/

/-- After every history of calls that begins with an array and in which no empty array is passed: `head()` is the whole array, and every path of bounds
through intervals of two or more elements leads to the node of the half that the documentation promises. -/
theorem C203_bounds_partial {X : Transform T V U} (K : Keeps X) {need : Nat → Nat} (hneed : Roomy need) (input : List T) (number : Nat)
    (hb : input.length ≤ W) (hne : input.take number ≠ []) (ops : List (Op T U)) (hops : ∀ op ∈ ops, OpOk (fun _ => True) op) :
    ∃ t vs, run X need SegT.new (.rebuild input number :: ops) = .ok (t, vs) ∧
      (∃ n, t.head = .ok n ∧ t.headConst = .ok n ∧ n.start = 0 ∧ n.stop = t.size - 1) ∧
      ∀ path a b, part path 0 (t.size - 1) = some (a, b) → ∃ n, t.nav path = .ok n ∧ n.start = a ∧ n.stop = b := by
  obtain ⟨t0, e0, s0, -⟩ := build_shape (X := X) hneed SegT.new input number hb hne
  obtain ⟨t, vs, e, s⟩ := run_shape K hneed ops s0 hops
  obtain ⟨n, hn, h1, h2, h3, h4⟩ := s.head
  refine ⟨t, none :: vs, by simp only [run, e0, Res.bind_ok, e], ⟨n, h1, h2, h3, h4⟩, fun path a b hp => ?_⟩
  obtain ⟨m, em, ms, me, -⟩ := s.shape.follow path hn hp
  exact ⟨m, by unfold SegT.nav; rw [h1, Res.bind_ok]; exact em, ms, me⟩

/-- The leaf of every position is found with `d` steps down from the head if the array has at most `2^d` elements. -/
theorem C203_locate_partial {X : Transform T V U} (K : Keeps X) {need : Nat → Nat} (hneed : Roomy need) (input : List T) (number : Nat)
    (hb : input.length ≤ W) (hne : input.take number ≠ []) (ops : List (Op T U)) (hops : ∀ op ∈ ops, OpOk (fun _ => True) op) :
    ∃ t vs, run X need SegT.new (.rebuild input number :: ops) = .ok (t, vs) ∧
      ∀ p d, p < t.size → t.size ≤ 2 ^ d → ∃ h n, t.head = .ok h ∧ t.locate p d h = .ok n ∧ n.start = p ∧ n.stop = p := by
  obtain ⟨t0, e0, s0, -⟩ := build_shape (X := X) hneed SegT.new input number hb hne
  obtain ⟨t, vs, e, s⟩ := run_shape K hneed ops s0 hops
  obtain ⟨n, hn, h1, -⟩ := s.head
  refine ⟨t, none :: vs, by simp only [run, e0, Res.bind_ok, e], fun p d hp hd => ?_⟩
  obtain ⟨m, em, ms, me⟩ := s.shape.locate (p := p) d hn (Nat.zero_le _) (by omega) (by have := s.pos; omega)
  exact ⟨n, m, h1, em, ms, me⟩

/-- In a tree of six elements the last leaf of the lowest level has index 12; its upper bound is cell 26 of a heap of 24. -/
theorem C203_counterexample : ¬ C203_statement := by
  intro h
  obtain ⟨t, e, -⟩ := build_shape (X := rangeOp (· + ·)) roomy_exact SegT.new [1, 2, 3, 4, 5, 6] 6 (by decide) (by decide)
  have hr : run (rangeOp (· + ·)) exactNeed SegT.new [.rebuild [1, 2, 3, 4, 5, 6] 6] = .ok (t, [none]) := by simp only [run, e, Res.bind_ok]
  have := (h t _ _ hr).2 [true, false, true, true]
  have c : (build (rangeOp (· + ·)) exactNeed SegT.new [1, 2, 3, 4, 5, 6] 6 >>= fun t => t.nav [true, false, true, true]) = .ub := by decide +kernel
  rw [e, Res.bind_ok] at c
  exact this c

/-- After `rebuild({})` the head is still that of the old array; the head of a tree that was never built is reported by the one `head()`, but undefined
for the constant one; and the lower bound of a leaf can be a node that was never built, or one of a larger array before. -/
theorem C203_counterexample_head :
    (run (rangeOp (· + ·)) exactNeed SegT.new [.rebuild [1, 2, 3] 3, .rebuild [] 0] >>= fun r => r.1.head >>= fun n => Res.ok (n.stop, r.1.size)) = .ok (2, 0) ∧
    (SegT.new : SegT Nat Unit).head = .exc .outOfRange ∧ (SegT.new : SegT Nat Unit).headConst = .ub ∧
    (build (rangeOp (· + ·)) exactNeed SegT.new [1, 2] 2 >>= fun t => t.nav [false, false] >>= fun n => Res.ok (n.start, n.stop)) = .ok (W - 1, W - 1) ∧
    (run (rangeOp (· + ·)) exactNeed SegT.new [.rebuild [1, 2, 3, 4] 4, .rebuild [5] 1] >>= fun r => r.1.nav [true] >>= fun n => Res.ok (n.start, n.stop)) =
      .ok (2, 3) := by
  decide +kernel

example : (run (rangeOp (· + ·)) exactNeed SegT.new [.rebuild [1, 2, 3, 4, 5, 6] 6, .query 1 4] >>= fun r =>
      r.1.nav [true, false] >>= fun n => Res.ok (n.start, n.stop, n.value)) = .ok (3, 4, 9) := by decide +kernel

end Verif.Seg
