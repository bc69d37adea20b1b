import Verif.Seqs.PropsSubset
import Verif.Binary64

/-!
C199: `subset_t<double>::sum_of_subsets` (classic/sequences/subset.h:29-66), with rounding, infinities and NaN, together with the number of calls.
-/

namespace Verif.Seqs
open Dbl

/-- `a == b`: false if one of them is a NaN. -/
def eqD (a b : Dbl) : Bool := decide (a ≠ .nan ∧ a = b)

/-- `sum_cache_t` for `double` (subset.h:20).  The keys of `std::unordered_map` are compared with `==`, so that a NaN is never found. -/
abbrev MemoD := List (List (Dbl × Nat))

/-- `cache[ii].find(sum)` (subset.h:54). -/
def findD (row : List (Dbl × Nat)) (sum : Dbl) : Option Nat := (row.find? fun p => eqD p.1 sum).map (·.2)

/-- `sum_of_subsets` with a given memo (subset.h:42-66): the number of calls, the result and the memo; as `subsets` in Model.lean. -/
def subsetsD (ord : Bool) : List Dbl → Nat → Dbl → MemoD → Res (Nat × Nat × MemoD)
  | [], _, sum, c => .ok (1, if eqD sum (.fin 0) then 1 else 0, c)         -- :49-51
  | x :: rest, ii, sum, c => do
    let row ← rd c ii                                                      -- :54
    match findD row sum with
    | some r => .ok (1, r, c)                                              -- :55-57
    | none =>
      let (m, a, c) ← if ord then subsetsD ord rest (ii + 1) sum c else subsetsD ord rest (ii + 1) (Dbl.sub sum x) c
      let (n, b, c) ← if ord then subsetsD ord rest (ii + 1) (Dbl.sub sum x) c else subsetsD ord rest (ii + 1) sum c
      let r := (a + b) % W                                                 -- :59-62
      let row ← rd c ii
      .ok (1 + m + n, r, c.set ii ((sum, r) :: row))

/-- `sum_of_subsets(first, last, sum)` (subset.h:30-33): the number of calls and the result. -/
def sumOfSubsetsD (ord : Bool) (l : List Dbl) (sum : Dbl) : Res (Nat × Nat) := do
  let (n, r, _) ← subsetsD ord l 0 sum (List.replicate l.length [])
  .ok (n, r)

/-! ### Specification -/

/-- The number of subsets of the positions that leave nothing when their elements are subtracted from `s` one after the other, with rounding. -/
def countD (l : List Dbl) (s : Dbl) : Nat := (l.sublists'.filter (fun t => t.foldl Dbl.sub s = .fin 0)).length

/-- The full claim, for finite doubles: the number of subsets with the (exact) sum `s`. -/
def C199_statement : Prop := ∀ (ord : Bool) (l : List Int) (s : Int), (∀ x ∈ s :: l, IsDbl x) →
  ∃ n, sumOfSubsetsD ord (l.map .fin) (.fin s) = .ok (n, countSubsets l s % W)

/-! ### Lemmas -/

theorem countD_nil (s : Dbl) : countD [] s = if eqD s (.fin 0) then 1 else 0 := by
  by_cases h : s = .fin 0
  · subst h; rfl
  · simp [countD, eqD, h]

theorem countD_cons (x : Dbl) (l : List Dbl) (s : Dbl) : countD (x :: l) s = countD l s + countD l (Dbl.sub s x) := by
  unfold countD
  rw [List.sublists'_cons, List.filter_append, List.length_append, List.filter_map, List.length_map]
  rfl

/-- Every entry of the memo is the right count for its position. -/
def MemoDOk (l : List Dbl) (c : MemoD) : Prop :=
  l.length ≤ c.length ∧ ∀ (i : Nat) (row : List (Dbl × Nat)) (s : Dbl) (r : Nat),
    c[i]? = some row → findD row s = some r → i < l.length → r = countD (l.drop i) s % W

theorem memoDOk_fresh (l : List Dbl) : MemoDOk l (List.replicate l.length []) := by
  refine ⟨by simp, fun i row s r h h' _ => ?_⟩
  have := List.eq_of_mem_replicate (List.mem_of_getElem? h)
  subst this
  cases h'

theorem findD_cons (s sum : Dbl) (r : Nat) (row : List (Dbl × Nat)) :
    findD ((sum, r) :: row) s = if eqD sum s then some r else findD row s := by
  unfold findD
  rw [List.find?_cons]
  cases eqD sum s <;> rfl

theorem subsetsD_spec (ord : Bool) (l : List Dbl) : ∀ (rest : List Dbl) (ii : Nat) (sum : Dbl) (c : MemoD),
    rest = l.drop ii → ii ≤ l.length → MemoDOk l c →
    ∃ n c', subsetsD ord rest ii sum c = .ok (n, countD rest sum % W, c') ∧ MemoDOk l c' := by
  intro rest
  induction rest with
  | nil =>
    intro ii sum c _ _ hc
    refine ⟨1, c, ?_, hc⟩
    rw [countD_nil]
    unfold subsetsD
    split
    · rw [Nat.mod_eq_of_lt (by decide)]
    · simp
  | cons x rest ih =>
    intro ii sum c hrest hii hc
    have hlt : ii < l.length := by
      by_contra hn
      rw [List.drop_eq_nil_of_le (by omega)] at hrest
      cases hrest
    have hrest' : rest = l.drop (ii + 1) := by
      rw [List.drop_eq_getElem_cons hlt] at hrest
      injection hrest
    have hcl : ii < c.length := Nat.lt_of_lt_of_le hlt hc.1
    unfold subsetsD
    rw [rd_lt hcl]
    simp only [Res.bind_ok]
    cases hl : findD (c[ii]) sum with
    | some r =>
      refine ⟨1, c, ?_, hc⟩
      have := hc.2 ii c[ii] sum r (List.getElem?_eq_getElem hcl) hl hlt
      rw [this, hrest]
    | none =>
      have fin : ∀ (m n a b : Nat) (c2 : MemoD), MemoDOk l c2 → (a + b) % W = countD (x :: rest) sum % W →
          ∃ k c', (do
            let row ← rd c2 ii
            Res.ok (1 + m + n, (a + b) % W, c2.set ii ((sum, (a + b) % W) :: row))) =
              Res.ok (k, countD (x :: rest) sum % W, c') ∧ MemoDOk l c' := by
        intro m n a b c2 h2 hab
        have hc2 : ii < c2.length := Nat.lt_of_lt_of_le hlt h2.1
        rw [rd_lt hc2]
        refine ⟨1 + m + n, c2.set ii ((sum, (a + b) % W) :: c2[ii]), by simp only [Res.bind_ok, hab], ?_, ?_⟩
        · rw [List.length_set]; exact h2.1
        · intro i row s r hi hs hil
          rw [List.getElem?_set] at hi
          split at hi
          · rename_i he
            subst he
            injection hi with hi
            subst hi
            rw [findD_cons] at hs
            split at hs
            · rename_i he
              have : sum = s := (of_decide_eq_true he).2
              subst this
              injection hs with hs
              rw [← hs, hab, hrest]
            · exact h2.2 ii c2[ii] s r (List.getElem?_eq_getElem hc2) hs hil
          · exact h2.2 i row s r hi hs hil
      cases ord with
      | true =>
        obtain ⟨m, c1, e1, h1⟩ := ih (ii + 1) sum c hrest' (by omega) hc
        obtain ⟨n, c2, e2, h2⟩ := ih (ii + 1) (Dbl.sub sum x) c1 hrest' (by omega) h1
        simp only [if_true, e1, Res.bind_ok, e2]
        apply fin _ _ _ _ _ h2
        rw [countD_cons, ← Nat.add_mod]
      | false =>
        obtain ⟨m, c1, e1, h1⟩ := ih (ii + 1) (Dbl.sub sum x) c hrest' (by omega) hc
        obtain ⟨n, c2, e2, h2⟩ := ih (ii + 1) sum c1 hrest' (by omega) h1
        simp only [Bool.false_eq_true, if_false, e1, Res.bind_ok, e2]
        apply fin _ _ _ _ _ h2
        rw [countD_cons, ← Nat.add_mod, Nat.add_comm]

/-! ### C199 -/

/-- What is computed for every sequence of doubles, whichever operand is evaluated first: the subsets are counted that leave nothing when their
elements are subtracted in order, with rounding.  The memo, with NaN as keys that are never found, does not change that. -/
theorem C199_rounded_partial (ord : Bool) (l : List Dbl) (s : Dbl) : ∃ n, sumOfSubsetsD ord l s = .ok (n, countD l s % W) := by
  obtain ⟨n, c', e, _⟩ := subsetsD_spec ord l l 0 s (List.replicate l.length []) rfl (Nat.zero_le _) (memoDOk_fresh l)
  refine ⟨n, ?_⟩
  unfold sumOfSubsetsD
  rw [e]
  rfl

/-- For whole multiples of one power of two, small enough in total for 53 bits, the subsets with the exact sum are counted. -/
theorem countD_whole {k : Nat} (hk : k ≤ 2044) (l : List Int) : ∀ s : Int, (s.natAbs : Int) + (l.map fun x => (x.natAbs : Int)).sum ≤ 2 ^ 53 →
    countD (l.map fun x => .fin (x * 2 ^ k)) (.fin (s * 2 ^ k)) = countSubsets l s := by
  induction l with
  | nil =>
    intro s _
    rw [List.map_nil, countD_nil, countSubsets_nil]
    have : s * 2 ^ k = 0 ↔ s = 0 := by
      constructor
      · intro h
        rcases Int.mul_eq_zero.1 h with h | h
        · exact h
        · exact absurd h (by positivity)
      · rintro rfl; simp
    simp [eqD, this]
  | cons x l ih =>
    intro s hs
    have hpos : 0 ≤ (l.map fun x => (x.natAbs : Int)).sum := by
      clear ih hs
      induction l with
      | nil => simp
      | cons x l ih => simp only [List.map_cons, List.sum_cons]; omega
    rw [List.map_cons, List.sum_cons] at hs
    rw [List.map_cons, countD_cons, countSubsets_cons, ih s (by omega)]
    have e : Dbl.sub (.fin (s * 2 ^ k)) (.fin (x * 2 ^ k)) = .fin ((s - x) * 2 ^ k) := by
      rw [sub_exact]
      · rw [Int.sub_mul]
      · rw [← Int.sub_mul]
        exact isDbl_mul (by omega) (by omega) (Or.inl hk)
    rw [e, ih (s - x) (by omega)]

theorem C199_whole_partial (ord : Bool) {k : Nat} (hk : k ≤ 2044) (l : List Int) (s : Int)
    (h : (s.natAbs : Int) + (l.map fun x => (x.natAbs : Int)).sum ≤ 2 ^ 53) :
    ∃ n, sumOfSubsetsD ord (l.map fun x => .fin (x * 2 ^ k)) (.fin (s * 2 ^ k)) = .ok (n, countSubsets l s % W) := by
  rw [← countD_whole hk l s h]
  exact C199_rounded_partial ord _ _

theorem foldl_sub_nan (t : List Dbl) : t.foldl Dbl.sub .nan = .nan := by
  induction t with
  | nil => rfl
  | cons x t ih => exact ih

/-- No subset with a NaN counts. -/
theorem C199_nan_partial (l : List Dbl) (s : Dbl) : countD l s =
    (l.sublists'.filter (fun t => .nan ∉ t ∧ t.foldl Dbl.sub s = .fin 0)).length := by
  unfold countD
  congr 1
  apply List.filter_congr
  intro t _
  rw [decide_eq_decide]
  refine ⟨fun h => ⟨fun hn => ?_, h⟩, fun h => h.2⟩
  obtain ⟨a, b, rfl⟩ := List.append_of_mem hn
  rw [List.foldl_append, List.foldl_cons] at h
  have : Dbl.sub (a.foldl Dbl.sub s) .nan = .nan := by cases a.foldl Dbl.sub s <;> rfl
  rw [this, foldl_sub_nan] at h
  cases h

theorem findD_nan (row : List (Dbl × Nat)) : findD row .nan = none := by
  unfold findD
  rw [List.find?_eq_none.2]
  · rfl
  · intro p _
    simp only [eqD, decide_eq_true_eq, not_and]
    exact fun h => h

/-- The memo is useless for a NaN: every one of the `2^(n+1) - 1` calls is made. -/
theorem subsetsD_nan (ord : Bool) : ∀ (l : List Dbl) (ii : Nat) (c : MemoD), ii + l.length ≤ c.length →
    ∃ c', subsetsD ord l ii .nan c = .ok (2 ^ (l.length + 1) - 1, 0, c') ∧ c'.length = c.length := by
  intro l
  induction l with
  | nil => intro ii c _; exact ⟨c, rfl, rfl⟩
  | cons x l ih =>
    intro ii c hc
    rw [List.length_cons] at hc
    obtain ⟨c1, e1, l1⟩ := ih (ii + 1) c (by omega)
    obtain ⟨c2, e2, l2⟩ := ih (ii + 1) c1 (by omega)
    have hx : Dbl.sub .nan x = .nan := rfl
    have hp : 0 < 2 ^ (l.length + 1) := Nat.two_pow_pos _
    have hn : 1 + (2 ^ (l.length + 1) - 1) + (2 ^ (l.length + 1) - 1) = 2 ^ (l.length + 1 + 1) - 1 := by omega
    unfold subsetsD
    rw [rd_lt (show ii < c.length by omega)]
    simp only [Res.bind_ok, findD_nan, hx, ite_self, e1, e2]
    rw [rd_lt (show ii < c2.length by omega)]
    simp only [Res.bind_ok, List.length_cons, hn]
    exact ⟨_, rfl, by rw [List.length_set]; omega⟩

/-- "It uses dynamic programming", but for the sum NaN it makes all `2^(n+1) - 1` calls. -/
theorem C199_calls_nan (ord : Bool) (l : List Dbl) : sumOfSubsetsD ord l .nan = .ok (2 ^ (l.length + 1) - 1, 0) := by
  obtain ⟨c', e, _⟩ := subsetsD_nan ord l 0 (List.replicate l.length []) (by simp)
  unfold sumOfSubsetsD
  rw [e]
  rfl

/-- `1 + 1 + (2^54 - 2)` is `2^54`, but that subset is not found. -/
theorem C199_counterexample : ¬ C199_statement := by
  intro h
  have hd : ∀ x ∈ (2 ^ 54 : Int) :: [1, 1, 2 ^ 54 - 2], IsDbl x := by
    intro x hx
    simp only [List.mem_cons, List.not_mem_nil, or_false] at hx
    rcases hx with rfl | rfl | rfl | rfl
    · exact isDbl_mul (n := 1) (k := 54) (by omega) (by decide) (Or.inl (by omega))
    · exact isDbl_mul (n := 1) (k := 0) (by omega) (by decide) (Or.inl (by omega))
    · exact isDbl_mul (n := 1) (k := 0) (by omega) (by decide) (Or.inl (by omega))
    · exact isDbl_mul (n := 2 ^ 53 - 1) (k := 1) (by omega) (by decide) (Or.inl (by omega))
  obtain ⟨n, hn⟩ := h true [1, 1, 2 ^ 54 - 2] (2 ^ 54) hd
  have e : (sumOfSubsetsD true [.fin 1, .fin 1, .fin (2 ^ 54 - 2)] (.fin (2 ^ 54)) >>= fun p => Res.ok p.2) = .ok 0 := by decide +kernel
  rw [show ([1, 1, 2 ^ 54 - 2] : List Int).map Dbl.fin = [.fin 1, .fin 1, .fin (2 ^ 54 - 2)] from rfl] at hn
  rw [hn] at e
  revert e
  simp only [Res.bind_ok]
  decide +kernel

/-- `1 + 2^54` is not `2^54`, but that subset is counted. -/
theorem C199_counterexample_spurious : sumOfSubsetsD true [.fin 1, .fin (2 ^ 54)] (.fin (2 ^ 54)) = .ok (5, 2) ∧
    countSubsets [1, 2 ^ 54] (2 ^ 54) = 1 := by
  decide +kernel

/-- The result depends on the order of the elements. -/
theorem C199_counterexample_order : ∃ n m, sumOfSubsetsD true [.fin 1, .fin 1, .fin (2 ^ 54 - 2)] (.fin (2 ^ 54)) = .ok (n, 0) ∧
    sumOfSubsetsD true [.fin (2 ^ 54 - 2), .fin 1, .fin 1] (.fin (2 ^ 54)) = .ok (m, 1) := by
  exact ⟨7, 13, by decide +kernel, by decide +kernel⟩

example : sumOfSubsetsD false [.fin 1, .nan, .fin 2, .inf true, .fin 3] (.fin 3) = .ok (57, 2) := by decide +kernel
example : sumOfSubsetsD true [.fin 1, .inf false, .fin 2] (.inf false) = .ok (9, 0) := by decide +kernel

end Verif.Seqs
