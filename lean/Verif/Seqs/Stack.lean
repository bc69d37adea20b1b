import Verif.Seqs.PropsSubset

/-!
C209: the stack that `sum_of_subsets` (classic/sequences/subset.h) needs.

`subsets` of Model.lean recurses on an unlimited stack.  Here the stack has room for `K` nested calls of the second overload, and a call
without room is undefined behaviour (a stack overflow).  Calls of the containers do not count.
-/

namespace Verif.Seqs

/-- `sum_of_subsets` with a given memo (subset.h:42-66), see `subsets`, on a stack with room for `K` nested calls. -/
def subsetsK (ord : Bool) : Nat → List Int → Nat → Int → Memo → Res (Nat × Memo)
  | 0, _, _, _, _ => .ub
  | _ + 1, [], _, sum, c => .ok (if sum = 0 then 1 else 0, c)  -- :49-51
  | K + 1, x :: rest, ii, sum, c => do
    let row ← rd c ii                                          -- :54
    match row.lookup sum with
    | some r => .ok (r, c)                                     -- :55-57
    | none =>
      let (a, c) ← if ord then subsetsK ord K rest (ii + 1) sum c else subsetsK ord K rest (ii + 1) (sum - x) c
      let (b, c) ← if ord then subsetsK ord K rest (ii + 1) (sum - x) c else subsetsK ord K rest (ii + 1) sum c
      let r := (a + b) % W                                     -- :59-62
      let row ← rd c ii
      .ok (r, c.set ii ((sum, r) :: row))

/-- `sum_of_subsets(first, last, sum)` (subset.h:30-33) on a stack with room for `K` nested calls of the other overload. -/
def sumOfSubsetsK (ord : Bool) (K : Nat) (l : List Int) (sum : Int) : Res Nat := do
  let (r, _) ← subsetsK ord K l 0 sum (List.replicate l.length [])
  .ok r

/-- A series of calls sharing one memo, see `subsetsMany`, each on a stack with room for `K` nested calls. -/
def subsetsManyK (ord : Bool) (K : Nat) (l : List Int) : List (Nat × Int) → Memo → Res (List Nat × Memo)
  | [], c => .ok ([], c)
  | (start, sum) :: calls, c => do
    let (r, c) ← subsetsK ord K (l.drop start) start sum c
    let (rs, c) ← subsetsManyK ord K l calls c
    .ok (r :: rs, c)

theorem subsetsK_enough (ord : Bool) (l : List Int) : ∀ (K ii : Nat) (sum : Int) (c : Memo), l.length < K →
    subsetsK ord K l ii sum c = subsets ord l ii sum c := by
  induction l with
  | nil =>
    intro K ii sum c h
    obtain ⟨g, rfl⟩ : ∃ g, K = g + 1 := ⟨K - 1, by simp at h; omega⟩
    rfl
  | cons x rest ih =>
    intro K ii sum c h
    simp only [List.length_cons] at h
    obtain ⟨g, rfl⟩ : ∃ g, K = g + 1 := ⟨K - 1, by omega⟩
    have e : ∀ ii sum c, subsetsK ord g rest ii sum c = subsets ord rest ii sum c := fun ii sum c => ih g ii sum c (by omega)
    unfold subsetsK subsets
    simp only [e]
    all_goals rfl

/-- Where nothing is memoised yet the first chain of nested calls goes through all remaining elements. -/
theorem subsetsK_short (ord : Bool) (l : List Int) : ∀ (K ii : Nat) (sum : Int) (c : Memo), K ≤ l.length →
    (∀ i, ii ≤ i → i < ii + l.length → c[i]? = some []) → subsetsK ord K l ii sum c = .ub := by
  induction l with
  | nil =>
    intro K ii sum c h _
    obtain rfl : K = 0 := by simpa using h
    rfl
  | cons x rest ih =>
    intro K ii sum c h hc
    cases K with
    | zero => rfl
    | succ g =>
      simp only [List.length_cons] at h hc
      have e : ∀ sum, subsetsK ord g rest (ii + 1) sum c = .ub := fun sum =>
        ih g (ii + 1) sum c (by omega) (fun i h1 h2 => hc i (by omega) (by omega))
      have hr : rd c ii = .ok [] := by
        have := hc ii (Nat.le_refl _) (by omega)
        simp [rd, this]
      unfold subsetsK
      rw [hr]
      cases ord <;> simp [e]

/-- C209: `sum_of_subsets` gives the right count on a stack with room for one nested call more than there are elements, whatever they are, whatever the
sum and whichever operand of the sum is evaluated first; with less room it always overflows the stack. -/
theorem C209_exact (ord : Bool) (K : Nat) (l : List Int) (s : Int) :
    sumOfSubsetsK ord K l s = if l.length < K then .ok (countSubsets l s % W) else .ub := by
  split
  · next h =>
    rw [← C76_count ord]
    unfold sumOfSubsetsK sumOfSubsets
    rw [subsetsK_enough ord l K 0 s _ h]
  · next h =>
    unfold sumOfSubsetsK
    rw [subsetsK_short ord l K 0 s _ (by omega) (fun i _ hi => List.getElem?_replicate_of_lt (by omega))]
    rfl

/-- C209 for the second overload: calls that share a memo never need more room than one nested call more than there are elements. -/
theorem C209_shared (ord : Bool) (K : Nat) (l : List Int) (hK : l.length < K) (calls : List (Nat × Int))
    (hcalls : ∀ p ∈ calls, p.1 ≤ l.length) (n : Nat) (hn : l.length ≤ n) :
    ∃ c', subsetsManyK ord K l calls (List.replicate n []) =
      .ok (calls.map (fun p => countSubsets (l.drop p.1) p.2 % W), c') := by
  have e : ∀ (calls : List (Nat × Int)) (c : Memo), subsetsManyK ord K l calls c = subsetsMany ord l calls c := by
    intro calls
    induction calls with
    | nil => intro c; rfl
    | cons p calls ih =>
      intro c
      obtain ⟨start, sum⟩ := p
      unfold subsetsManyK subsetsMany subsetsAt
      rw [subsetsK_enough ord _ K start sum c (by rw [List.length_drop]; omega)]
      simp only [ih]
  rw [e]
  exact C77_shared ord l calls hcalls n hn

/-- C209: a sum that is memoised already takes a single call. -/
theorem C209_memoised (ord : Bool) (K : Nat) (l : List Int) (ii : Nat) (s : Int) (c : Memo) (row : List (Int × Nat)) (r : Nat)
    (hl : l ≠ []) (hr : c[ii]? = some row) (hs : row.lookup s = some r) : subsetsK ord (K + 1) l ii s c = .ok (r, c) := by
  cases l with
  | nil => exact absurd rfl hl
  | cons x rest =>
    unfold subsetsK
    simp [rd, hr, hs]

/-- C209: no stack is large enough for all sequences; twice the elements need twice the stack. -/
theorem C209_unbounded (ord : Bool) (K : Nat) (s : Int) : ∃ l : List Int, l.length = K ∧ sumOfSubsetsK ord K l s = .ub :=
  ⟨List.replicate K 1, by simp, by rw [C209_exact, if_neg (by simp)]⟩

example : sumOfSubsetsK true 4 [1, 2, 3] 3 = .ok 2 := by decide +kernel
example : sumOfSubsetsK false 3 [1, 2, 3] 3 = .ub := by decide +kernel
example : (subsetsManyK true 4 [1, 2, 3] [(0, 3), (1, 3), (0, 3), (3, 0)] [[], [], []]).toOption.map Prod.fst =
    some [2, 1, 2, 1] := by decide +kernel

end Verif.Seqs
