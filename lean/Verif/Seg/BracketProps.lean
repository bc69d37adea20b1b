import Verif.Seg.Bracket
import Verif.Seg.Props
import Verif.Fenwick.FloatingError

/-! C195: queries with a `join` that is not associative. -/

namespace Verif.Seg
open Verif.Seg.Spec
open Verif.Fenwick (growth Near)
variable {T V U : Type}

/-- A user's transform (segment_tree.h:501-553) with this `join`, the elements as values and no updates. -/
def plain (join : V → V → V) (dflt : V) : Transform V V Unit where
  join := join
  build x _ := x
  has _ := false
  none := ()
  dflt := dflt
  criteria _ := true
  propagate n l r := (n, l, r)
  apply n _ := n

/-- The results of a list of queries, each on the tree that the one before has left. -/
def queries (X : Transform T V U) : SegT V U → List (Nat × Nat) → Res (List V)
  | _, [] => .ok []
  | t, (a, b) :: qs => do
    let (v, t) ← query X t a b
    let vs ← queries X t qs
    .ok (v :: vs)

/-- The full claim: a query returns the elements from the first to the last position, joined from left to right. -/
def C195_statement : Prop :=
  ∀ (V : Type) (join : V → V → V) (d : V) (input : List V) (number : Nat) (t : SegT V Unit) (qs : List (Nat × Nat)), input.length ≤ W →
    input.take number ≠ [] → build (plain join d) exactNeed .new input number = .ok t →
    queries (plain join d) t qs = .ok (qs.map fun q =>
      joinAll join d (slice (input.take number) (lo (input.take number).length q.1 q.2) (hi (input.take number).length q.1 q.2)))

/-- What a bracket of `double`s is worth. -/
theorem Br.near (B : Br Dbl) : ∀ (xs : List Int) (d : Nat), B.leaves = xs.map Dbl.fin → B.depth ≤ d →
    growth d * (((xs.map fun x => (x.natAbs : Int)).sum : Int) : ℚ) ≤ maxDbl →
    Near d (B.eval Dbl.add) xs.sum (xs.map fun x => (x.natAbs : Int)).sum := by
  induction B with
  | leaf v =>
    intro xs d hx _ _
    cases xs with
    | nil => simp [Br.leaves] at hx
    | cons x xs =>
      simp only [Br.leaves, List.map_cons, List.cons.injEq] at hx
      obtain ⟨rfl, hx⟩ := hx
      have : xs = [] := by simpa using hx.symm
      subst this
      have := Near.self d x
      simpa [Br.eval] using this
  | node l r ihl ihr =>
    intro xs d hx hd hb
    simp only [Br.depth] at hd
    obtain ⟨d, rfl⟩ : ∃ d', d = d' + 1 := ⟨d - 1, by omega⟩
    simp only [Br.leaves] at hx
    obtain ⟨ys, zs, rfl, hy, hz⟩ := List.map_eq_append_iff.1 hx.symm
    have hpos : ∀ l : List Int, 0 ≤ (l.map fun x => (x.natAbs : Int)).sum := by
      intro l
      induction l with
      | nil => simp
      | cons x l ih => simp only [List.map_cons, List.sum_cons]; omega
    have hy0 := hpos ys
    have hz0 := hpos zs
    rw [List.map_append, List.sum_append] at hb ⊢
    rw [List.sum_append]
    have n1 := ihl ys d hy.symm (by omega)
    have n2 := ihr zs d hz.symm (by omega)
    clear ihl ihr
    generalize (ys.map fun x => (x.natAbs : Int)).sum = p at *
    generalize (zs.map fun x => (x.natAbs : Int)).sum = q at *
    have hg := Verif.Fenwick.growth_mono (Nat.le_succ d)
    have hg1 := Verif.Fenwick.growth_one_le d
    have hp : (0 : ℚ) ≤ p := by exact_mod_cast hy0
    have hq : (0 : ℚ) ≤ q := by exact_mod_cast hz0
    push_cast at hb
    have hg0 : (0 : ℚ) ≤ growth d := le_trans zero_le_one hg1
    have hb' : growth d * ((p : ℚ) + q) ≤ maxDbl := le_trans (mul_le_mul_of_nonneg_right hg (add_nonneg hp hq)) hb
    have h1 : growth d * (p : ℚ) ≤ maxDbl := le_trans (mul_le_mul_of_nonneg_left (le_add_of_nonneg_right hq) hg0) hb'
    have h2 : growth d * (q : ℚ) ≤ maxDbl := le_trans (mul_le_mul_of_nonneg_left (le_add_of_nonneg_left hp) hg0) hb'
    refine (n1 h1).add (n2 h2) ?_
    push_cast
    exact hb'

theorem queries_holds {X : Transform T V U} {t : SegT V U} {B : Br V} (r : THolds X t B) (qs : List (Nat × Nat)) :
    ∃ Qs : List (Br V), queries X t qs = .ok (Qs.map (·.eval X.join)) ∧
      Qs.map (·.leaves) = qs.map (fun q => slice B.leaves (lo B.leaves.length q.1 q.2) (hi B.leaves.length q.1 q.2)) ∧
      ∀ Q ∈ Qs, ∀ d, B.leaves.length ≤ 2 ^ d → Q.depth ≤ d := by
  induction qs with
  | nil => exact ⟨[], rfl, rfl, by simp⟩
  | cons q qs ih =>
    obtain ⟨a, b⟩ := q
    obtain ⟨Qs, h1, h2, h3⟩ := ih
    obtain ⟨Q, q1, q2, q3, -⟩ := r.query a b
    refine ⟨Q :: Qs, ?_, ?_, ?_⟩
    · unfold queries
      rw [q1]
      simp only [Res.bind_ok]
      rw [h1]
      rfl
    · simp [q2, h2]
    · intro Q' hQ'
      rcases List.mem_cons.1 hQ' with rfl | hQ'
      · exact q3
      · exact h3 Q' hQ'

/-- For every transform and every list of queries without updates: each query returns the addressed elements, each of them once and in order,
joined in some brackets, at most `⌈log2 n⌉` deep. -/
theorem C195_brackets_partial (X : Transform T V U) (hnone : X.has X.none = false) (need : Nat → Nat) (hneed : Roomy need) (t : SegT V U)
    (input : List T) (number : Nat) (hW : input.length ≤ W) (hne : input.take number ≠ []) :
    let xs := (input.take number).mapIdx fun p x => X.build x p
    ∃ t', build X need t input number = .ok t' ∧ ∀ qs : List (Nat × Nat),
      ∃ Qs : List (Br V), queries X t' qs = .ok (Qs.map (·.eval X.join)) ∧
        Qs.map (·.leaves) = qs.map (fun q => slice xs (lo xs.length q.1 q.2) (hi xs.length q.1 q.2)) ∧
        ∀ Q ∈ Qs, ∀ d, xs.length ≤ 2 ^ d → Q.depth ≤ d := by
  intro xs
  obtain ⟨t', B, h1, h2, h3⟩ := build_holds hnone hneed t input number hW hne
  refine ⟨t', h1, fun qs => ?_⟩
  have := queries_holds h2 qs
  rw [h3] at this
  exact this

/-- A query without updates leaves the whole tree, every cell of the heap, as it was: asking again, whatever was asked in between, gives the
same value bit by bit, also with a rounding `join`. -/
theorem C195_repeat_partial (X : Transform T V U) (hnone : X.has X.none = false) (need : Nat → Nat) (hneed : Roomy need) (t : SegT V U)
    (input : List T) (number : Nat) (hW : input.length ≤ W) (hne : input.take number ≠ []) (a b : Nat) :
    ∃ t', build X need t input number = .ok t' ∧ ∃ v, query X t' a b = .ok (v, t') := by
  obtain ⟨t', B, h1, h2, -⟩ := build_holds hnone hneed t input number hW hne
  obtain ⟨Q, q1, -⟩ := h2.query a b
  exact ⟨t', h1, _, q1⟩

/-- Sums of `double`s: with no overflow in sight, the result of a query is finite and differs from the exact sum by at most
`((1 + 2^-53)^d - 1)` times the sum of the magnitudes of the ADDRESSED elements, where `d = ⌈log2 n⌉`.  (The range queries of a Fenwick tree
also suffer from the elements before the range, C191.) -/
theorem C195_error_partial (need : Nat → Nat) (hneed : Roomy need) (t : SegT Dbl Unit) (input : List Int) (number d : Nat)
    (hW : input.length ≤ W) (hne : input.take number ≠ []) (hd : (input.take number).length ≤ 2 ^ d) :
    ∃ t', build (plain Dbl.add (.fin 0)) need t (input.map .fin) number = .ok t' ∧ ∀ a b : Nat,
      let ys := slice (input.take number) (lo (input.take number).length a b) (hi (input.take number).length a b)
      let m : ℚ := (((ys.map fun x => (x.natAbs : Int)).sum : Int) : ℚ)
      (1 + 1 / 2 ^ 53) ^ d * m ≤ maxDbl →
      ∃ r : Int, query (plain Dbl.add (.fin 0)) t' a b = .ok (.fin r, t') ∧ |(r : ℚ) - (ys.sum : Int)| ≤ ((1 + 1 / 2 ^ 53) ^ d - 1) * m := by
  obtain ⟨t', B, h1, h2, h3⟩ := build_holds (X := plain Dbl.add (.fin 0)) rfl hneed t (input.map .fin) number (by simpa using hW)
    (by rw [← List.map_take]; simpa using hne)
  refine ⟨t', h1, fun a b => ?_⟩
  intro ys m hb
  obtain ⟨Q, q1, q2, q3, -⟩ := h2.query a b
  have hl : B.leaves = (input.take number).map .fin := by
    rw [h3, ← List.map_take]
    apply List.ext_getElem?
    intro k
    rw [List.getElem?_mapIdx]
    simp [plain]
  have e : Q.leaves = ys.map .fin := by
    rw [q2, hl]
    simp only [slice, List.length_map, ← List.map_drop, ← List.map_take, ys]
  have := Q.near ys d e (q3 d (by rw [hl]; simpa using hd)) hb
  obtain ⟨r, hr, h4, -⟩ := this
  refine ⟨r, ?_, h4⟩
  rw [q1]
  show Res.ok (Q.eval Dbl.add, t') = _
  rw [hr]

/-- The left-to-right claim holds for a `join` exactly if it is associative. -/
theorem C195_exact (join : V → V → V) (d : V) :
    (∀ (input : List V) (number a b : Nat) (t : SegT V Unit), input.length ≤ W → input.take number ≠ [] →
      build (plain join d) exactNeed .new input number = .ok t →
      ∃ t', query (plain join d) t a b = .ok (joinAll join d
        (slice (input.take number) (lo (input.take number).length a b) (hi (input.take number).length a b)), t')) ↔
    ∀ x y z, join (join x y) z = join x (join y z) := by
  constructor
  · intro h x y z
    have h4 : [x, x, y, z].length ≤ W := by rw [show [x, x, y, z].length = 4 from rfl]; decide
    obtain ⟨t, B, h1, h2, h3⟩ := build_holds (X := plain join d) rfl roomy_exact .new [x, x, y, z] 4 h4 (by simp)
    replace h3 : B.leaves = [x, x, y, z] := h3
    obtain ⟨t', ht⟩ := h [x, x, y, z] 4 1 3 t h4 (by simp) h1
    obtain ⟨Q, q1, -, -, q4⟩ := h2.query 1 3
    have hB := h2.holds
    rw [h3] at hB q4
    replace hB : Holds (plain join d) t.heap 0 0 3 B := hB
    -- the shape of the tree
    have : B = .node (.node (.leaf x) (.leaf x)) (.node (.leaf y) (.leaf z)) := by
      have one : ∀ {i a b : Nat} {B : Br V}, Holds (plain join d) t.heap i a b B → a = b → ∃ v, B = .leaf v := by
        intro i a b B hb hab
        cases hb with
        | leaf => exact ⟨_, rfl⟩
        | node hab => omega
      have two : ∀ {i a b : Nat} {B : Br V}, Holds (plain join d) t.heap i a b B → a < b → ∃ L R, B = .node L R ∧
          Holds (plain join d) t.heap (2 * i + 1) a ((a + b) / 2) L ∧ Holds (plain join d) t.heap (2 * i + 2) ((a + b) / 2 + 1) b R := by
        intro i a b B hb hab
        cases hb with
        | leaf => omega
        | node hab hn hs he hi hl hr hz hv => exact ⟨_, _, rfl, hl, hr⟩
      obtain ⟨L, R, rfl, hl, hr⟩ := two hB (by decide)
      obtain ⟨L1, L2, rfl, hl1, hl2⟩ := two hl (by decide)
      obtain ⟨R1, R2, rfl, hr1, hr2⟩ := two hr (by decide)
      obtain ⟨v1, rfl⟩ := one hl1 (by decide)
      obtain ⟨v2, rfl⟩ := one hl2 (by decide)
      obtain ⟨v3, rfl⟩ := one hr1 (by decide)
      obtain ⟨v4, rfl⟩ := one hr2 (by decide)
      simp only [Br.leaves, List.cons_append, List.nil_append, List.cons.injEq, and_true] at h3
      obtain ⟨rfl, rfl, rfl, rfl⟩ := h3
      rfl
    subst this
    have e : Q = .node (.leaf x) (.node (.leaf y) (.leaf z)) := by
      rw [q4]; rfl
    rw [e] at q1
    have := congrArg Prod.fst (Res.ok.inj (q1.symm.trans ht))
    exact this.symm
  · intro assoc input number a b t hW hne hb
    obtain ⟨t1, t2, h1, -, -, h2⟩ := C55_query (plain join d) rfl assoc exactNeed roomy_exact .new input number hW hne a b
    rw [h1] at hb
    cases hb
    have e : (input.take number).mapIdx (fun p x => (plain join d).build x p) = input.take number := by
      apply List.ext_getElem?
      intro k
      rw [List.getElem?_mapIdx]
      simp [plain]
    rw [e] at h2
    exact ⟨t2, h2⟩

/-- `2^53 + (1 + 1)` is exact, but from left to right both ones are lost. -/
theorem C195_counterexample : ¬ C195_statement := by
  intro h
  have := h Dbl Dbl.add (.fin 0) [.fin 1, .fin (2 ^ 53), .fin 1, .fin 1] 4 _ [(1, 3)] (by decide) (by simp) rfl
  revert this
  decide +kernel

/-- Subtraction, also in the library's own `range_operation_t` (segment_tree.h:555-584) over `size_t`: `10 - (3 - 2)` instead of
`10 - 3 - 2`. -/
theorem C195_counterexample_minus :
    (build (rangeOp fun x y => (x + W - y) % W) exactNeed .new [50, 10, 3, 2] 4 >>= fun t =>
      queries (rangeOp fun x y => (x + W - y) % W) t [(1, 3), (0, 2), (1, 3)]) = .ok [9, 37, 9] ∧
    joinAll (fun x y => (x + W - y) % W) 0 (slice [50, 10, 3, 2] 1 3) = 5 := by
  decide +kernel

-- seven doubles (units of 2^-1074): the sum of the whole tree is bracketed ((a+b)+(c+d))+((e+f)+g)
example : (build (plain Dbl.add (.fin 0)) exactNeed .new ([1, 2 ^ 53, 1, 1, 5, -2 ^ 53, 3].map Dbl.fin) 7 >>= fun t =>
      queries (plain Dbl.add (.fin 0)) t [(0, 6), (1, 5), (0, 1), (2, 9)]) =
    .ok [.fin 10, .fin 7, .fin (2 ^ 53), .fin (10 - 2 ^ 53)] := by decide +kernel

-- the brackets themselves: strings of parentheses
example : (build (plain (fun x y => "(" ++ x ++ y ++ ")") "") exactNeed .new ["a", "b", "c", "d", "e"] 9 >>= fun t =>
      queries (plain (fun x y => "(" ++ x ++ y ++ ")") "") t [(0, 4), (1, 3), (3, 1), (2, 2)]) =
    .ok ["(((ab)c)(de))", "((bc)d)", "((bc)d)", "c"] := by decide +kernel

end Verif.Seg
