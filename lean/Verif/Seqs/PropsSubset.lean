import Verif.Seqs.Model
import Mathlib.Data.List.Sublists
import Mathlib.Algebra.Group.Int.Defs
import Mathlib.Algebra.BigOperators.Group.List.Basic

/-
C76, C77: classic/sequences/subset.h.  `List.sublists'` lists the elements picked by every subset of the positions
(equal elements at different positions are told apart), so the specification is a plain filter of that list.
-/

namespace Verif.Seqs

/-- The number of subsets of the positions of `l` whose elements add up to `s`. -/
def countSubsets (l : List Int) (s : Int) : Nat := (l.sublists'.filter (fun t => t.sum = s)).length

example : countSubsets [1, 2, 3, 3] 6 = 3 := by decide +kernel
example : countSubsets [0, 0, 5] 5 = 4 := by decide +kernel

theorem countSubsets_nil (s : Int) : countSubsets [] s = if s = 0 then 1 else 0 := by
  by_cases h : s = 0
  · subst h; rfl
  · have : ¬ (0 : Int) = s := fun e => h e.symm
    simp [countSubsets, h, this]

theorem countSubsets_cons (x : Int) (l : List Int) (s : Int) :
    countSubsets (x :: l) s = countSubsets l s + countSubsets l (s - x) := by
  unfold countSubsets
  rw [List.sublists'_cons, List.filter_append, List.length_append, List.filter_map, List.length_map]
  congr 2
  apply List.filter_congr
  intro t _
  have : x + t.sum = s ↔ t.sum = s - x := by omega
  simp only [Function.comp_def, List.sum_cons, this]

/-- Every entry of the memo is the right count for its position. -/
def MemoOk (l : List Int) (c : Memo) : Prop :=
  l.length ≤ c.length ∧ ∀ (i : Nat) (row : List (Int × Nat)) (s : Int) (r : Nat),
    c[i]? = some row → row.lookup s = some r → i < l.length → r = countSubsets (l.drop i) s % W

theorem memoOk_fresh (l : List Int) : MemoOk l (List.replicate l.length []) := by
  refine ⟨by simp, fun i row s r h h' _ => ?_⟩
  have := List.eq_of_mem_replicate (List.mem_of_getElem? h)
  subst this
  cases h'

theorem subsets_spec (ord : Bool) (l : List Int) : ∀ (rest : List Int) (ii : Nat) (sum : Int) (c : Memo),
    rest = l.drop ii → ii ≤ l.length → MemoOk l c →
    ∃ c', subsets ord rest ii sum c = .ok (countSubsets rest sum % W, c') ∧ MemoOk l c' := by
  intro rest
  induction rest with
  | nil =>
    intro ii sum c _ _ hc
    refine ⟨c, ?_, hc⟩
    rw [countSubsets_nil]
    unfold subsets
    split
    · rw [Nat.mod_eq_of_lt (by decide)]
    · simp
  | cons x rest ih =>
    intro ii sum c hrest hii hc
    have hlt : ii < l.length := by
      by_contra hn
      rw [List.drop_eq_nil_of_le (by omega)] at hrest
      cases hrest
    have hrest' : rest = l.drop (ii + 1) := by
      rw [List.drop_eq_getElem_cons hlt] at hrest
      injection hrest
    have hcl : ii < c.length := Nat.lt_of_lt_of_le hlt hc.1
    unfold subsets
    rw [rd_lt hcl]
    simp only [Res.bind_ok]
    cases hl : (c[ii]).lookup sum with
    | some r =>
      refine ⟨c, ?_, hc⟩
      have := hc.2 ii c[ii] sum r (List.getElem?_eq_getElem hcl) hl hlt
      rw [this, hrest]
    | none =>
      have fin : ∀ (a b : Nat) (c2 : Memo), MemoOk l c2 → (a + b) % W = countSubsets (x :: rest) sum % W →
          ∃ c', (do
            let row ← rd c2 ii
            Res.ok ((a + b) % W, c2.set ii ((sum, (a + b) % W) :: row))) =
              Res.ok (countSubsets (x :: rest) sum % W, c') ∧ MemoOk l c' := by
        intro a b c2 h2 hab
        have hc2 : ii < c2.length := Nat.lt_of_lt_of_le hlt h2.1
        rw [rd_lt hc2]
        refine ⟨c2.set ii ((sum, (a + b) % W) :: c2[ii]), by simp only [Res.bind_ok, hab], ?_, ?_⟩
        · rw [List.length_set]; exact h2.1
        · intro i row s r hi hs hil
          rw [List.getElem?_set] at hi
          split at hi
          · rename_i he
            subst he
            injection hi with hi
            subst hi
            by_cases hss : s = sum
            · subst hss
              simp only [List.lookup, BEq.rfl] at hs
              injection hs with hs
              rw [← hs, hab, hrest]
            · have : (s == sum) = false := by simpa using hss
              simp only [List.lookup, this] at hs
              exact h2.2 ii c2[ii] s r (List.getElem?_eq_getElem hc2) hs hil
          · exact h2.2 i row s r hi hs hil
      cases ord with
      | true =>
        obtain ⟨c1, e1, h1⟩ := ih (ii + 1) sum c hrest' (by omega) hc
        obtain ⟨c2, e2, h2⟩ := ih (ii + 1) (sum - x) c1 hrest' (by omega) h1
        simp only [if_true, e1, Res.bind_ok, e2]
        apply fin _ _ _ h2
        rw [countSubsets_cons, ← Nat.add_mod]
      | false =>
        obtain ⟨c1, e1, h1⟩ := ih (ii + 1) (sum - x) c hrest' (by omega) hc
        obtain ⟨c2, e2, h2⟩ := ih (ii + 1) sum c1 hrest' (by omega) h1
        simp only [Bool.false_eq_true, if_false, e1, Res.bind_ok, e2]
        apply fin _ _ _ h2
        rw [countSubsets_cons, ← Nat.add_mod, Nat.add_comm]

/-- C76: `sum_of_subsets` is well defined and returns the number of subsets modulo `2^64`, whichever operand of the
sum is evaluated first. -/
theorem C76_count (ord : Bool) (l : List Int) (s : Int) : sumOfSubsets ord l s = .ok (countSubsets l s % W) := by
  obtain ⟨c', e, _⟩ := subsets_spec ord l l 0 s (List.replicate l.length []) rfl (Nat.zero_le _) (memoOk_fresh l)
  unfold sumOfSubsets
  rw [e]
  rfl

/-- C76 without the modulus: sequences shorter than 64 elements have fewer than `2^64` subsets. -/
theorem C76_exact (ord : Bool) (l : List Int) (s : Int) (hl : l.length < 64) :
    sumOfSubsets ord l s = .ok (countSubsets l s) := by
  rw [C76_count, Nat.mod_eq_of_lt]
  calc countSubsets l s ≤ l.sublists'.length := List.length_filter_le _ _
    _ = 2 ^ l.length := List.length_sublists' l
    _ < 2 ^ 64 := Nat.pow_lt_pow_right (by omega) hl

example : sumOfSubsets true [1, 2, 3, -3, 3] 3 = .ok 6 := by decide +kernel

/-- C77: calls that share one memo, for the same sequence but with arbitrary sums and start positions, all return what
a call with a fresh memo returns. -/
theorem C77_shared (ord : Bool) (l : List Int) (calls : List (Nat × Int)) (hcalls : ∀ p ∈ calls, p.1 ≤ l.length)
    (n : Nat) (hn : l.length ≤ n) :
    ∃ c', subsetsMany ord l calls (List.replicate n []) =
      .ok (calls.map (fun p => countSubsets (l.drop p.1) p.2 % W), c') := by
  have key : ∀ (calls : List (Nat × Int)) (c : Memo), (∀ p ∈ calls, p.1 ≤ l.length) → MemoOk l c →
      ∃ c', subsetsMany ord l calls c = .ok (calls.map (fun p => countSubsets (l.drop p.1) p.2 % W), c') := by
    intro calls
    induction calls with
    | nil => intro c _ _; exact ⟨c, rfl⟩
    | cons p calls ih =>
      intro c hp hc
      obtain ⟨start, sum⟩ := p
      have hs : start ≤ l.length := hp (start, sum) (by simp)
      obtain ⟨c1, e1, h1⟩ := subsets_spec ord l (l.drop start) start sum c rfl hs hc
      obtain ⟨c2, e2⟩ := ih c1 (fun p hp' => hp p (by simp [hp'])) h1
      refine ⟨c2, ?_⟩
      unfold subsetsMany subsetsAt
      rw [e1]
      simp only [Res.bind_ok]
      rw [e2]
      rfl
  apply key calls _ hcalls
  refine ⟨by simpa using hn, fun i row s r h h' _ => ?_⟩
  have := List.eq_of_mem_replicate (List.mem_of_getElem? h)
  subst this
  cases h'

/-- C77, the precondition is needed: a memo with fewer rows than the sequence is indexed out of bounds. -/
theorem C77_short (ord : Bool) (x : Int) (l : List Int) (s : Int) : subsetsAt ord (x :: l) 0 s [] = .ub := rfl

example : (subsetsMany true [1, 2, 3] [(0, 3), (1, 3), (0, 3), (3, 0)] [[], [], []]).toOption.map Prod.fst =
    some [2, 1, 2, 1] := by decide +kernel

end Verif.Seqs
