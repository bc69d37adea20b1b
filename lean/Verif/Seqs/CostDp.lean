import Verif.Seqs.PropsSubset
import Mathlib.Data.Int.Interval
import Mathlib.Data.Int.Order.Basic
import Mathlib.Algebra.BigOperators.Group.List.Basic
import Mathlib.Tactic.Linarith

/-!
C168: the cost of `sum_of_subsets` (subset.h:42-66), "it uses Dynamic programming", and the space of `max_length_of_sum`
(subarray.h:26), "O(n)".

`subsetsC` is `subsets` of Model.lean together with the number of calls of `sum_of_subsets`.
-/

namespace Verif.Seqs

/-- subset.h:42-66, with the number of calls. -/
def subsetsC (ord : Bool) : List Int → Nat → Int → Memo → Res (Nat × Nat × Memo)
  | [], _, sum, c => .ok (1, if sum = 0 then 1 else 0, c)
  | x :: rest, ii, sum, c => do
    let row ← rd c ii
    match row.lookup sum with
    | some r => .ok (1, r, c)
    | none =>
      let (m, a, c) ← if ord then subsetsC ord rest (ii + 1) sum c else subsetsC ord rest (ii + 1) (sum - x) c
      let (n, b, c) ← if ord then subsetsC ord rest (ii + 1) (sum - x) c else subsetsC ord rest (ii + 1) sum c
      let r := (a + b) % W
      let row ← rd c ii
      .ok (m + n + 1, r, c.set ii ((sum, r) :: row))

/-- Forget the number of calls. -/
def dropCalls (r : Res (Nat × Nat × Memo)) : Res (Nat × Memo) := r >>= fun t => .ok t.2

/-- The counting function computes what the function of Model.lean computes. -/
theorem C168_same (ord : Bool) (l : List Int) : ∀ ii sum c, dropCalls (subsetsC ord l ii sum c) = subsets ord l ii sum c := by
  induction l with
  | nil => intro ii sum c; rfl
  | cons x rest ih =>
    intro ii sum c
    simp only [subsetsC, subsets]
    cases rd c ii with
    | exc e => rfl
    | ub => rfl
    | ok row =>
      simp only [Res.bind_ok]
      cases row.lookup sum with
      | some r => rfl
      | none =>
        simp only
        have key : ∀ s1 s2 : Int, dropCalls (subsetsC ord rest (ii + 1) s1 c >>= fun p => subsetsC ord rest (ii + 1) s2 p.2.2 >>= fun q =>
            rd q.2.2 ii >>= fun row => .ok (p.1 + q.1 + 1, (p.2.1 + q.2.1) % W, q.2.2.set ii ((sum, (p.2.1 + q.2.1) % W) :: row))) =
            (subsets ord rest (ii + 1) s1 c >>= fun p => subsets ord rest (ii + 1) s2 p.2 >>= fun q =>
              rd q.2 ii >>= fun row => .ok ((p.1 + q.1) % W, q.2.set ii ((sum, (p.1 + q.1) % W) :: row))) := by
          intro s1 s2
          rw [← ih (ii + 1) s1 c]
          cases subsetsC ord rest (ii + 1) s1 c with
          | exc e => rfl
          | ub => rfl
          | ok p =>
            simp only [dropCalls, Res.bind_ok]
            rw [← ih (ii + 1) s2 p.2.2]
            cases subsetsC ord rest (ii + 1) s2 p.2.2 with
            | exc e => rfl
            | ub => rfl
            | ok q =>
              simp only [dropCalls, Res.bind_ok]
              cases rd q.2.2 ii with
              | exc e => rfl
              | ub => rfl
              | ok row => rfl
        cases ord
        · exact key (sum - x) sum
        · exact key sum (sum - x)

/-- The number of entries of a memo. -/
def entries (c : Memo) : Nat := (c.map List.length).sum

theorem rd_ok {α} {l : List α} {i : Nat} {v : α} (h : rd l i = .ok v) : ∃ hi : i < l.length, l[i] = v := by
  unfold rd at h
  cases hg : l[i]? with
  | none => rw [hg] at h; cases h
  | some w =>
    rw [hg] at h
    obtain ⟨hi, he⟩ := List.getElem?_eq_some_iff.1 hg
    simp only [Res.ok.injEq] at h
    exact ⟨hi, he.trans h⟩

theorem entries_set (c : Memo) (i : Nat) (row : List (Int × Nat)) (e : Int × Nat) (h : rd c i = .ok row) :
    entries (c.set i (e :: row)) = entries c + 1 := by
  obtain ⟨hi, he⟩ := rd_ok h
  induction c generalizing i with
  | nil => cases hi
  | cons a c ih =>
    cases i with
    | zero =>
      simp only [List.getElem_cons_zero] at he
      subst he
      simp only [entries, List.set_cons_zero, List.map_cons, List.sum_cons, List.length_cons]
      omega
    | succ i =>
      have h' : rd c i = .ok row := by simpa [rd] using h
      have hi' : i < c.length := by simpa using hi
      have := ih i h' hi' (by simpa using he)
      simp only [entries, List.set_cons_succ, List.map_cons, List.sum_cons] at this ⊢
      omega

/-- The sums in a row are distinct, and lie between `lo` and `hi`. -/
def RowOk (lo hi : Int) (row : List (Int × Nat)) : Prop := (row.map Prod.fst).Nodup ∧ ∀ k ∈ row.map Prod.fst, lo ≤ k ∧ k ≤ hi

/-- One call and all it makes: its result, and what it does to the memo. -/
structure Effect (lo hi : Int) (ii : Nat) (c : Memo) (n : Nat) (c' : Memo) : Prop where
  calls : n = 2 * (entries c' - entries c) + 1
  grows : entries c ≤ entries c'
  length : c'.length = c.length
  before : ∀ j, j < ii → c'[j]? = c[j]?
  keys : ∀ (j : Nat) (row : List (Int × Nat)), c'[j]? = some row → (∀ row0 : List (Int × Nat), c[j]? = some row0 → RowOk lo hi row0) →
    RowOk lo hi row

theorem lookup_none {row : List (Int × Nat)} {k : Int} (h : row.lookup k = none) : k ∉ row.map Prod.fst := by
  induction row with
  | nil => simp
  | cons e row ih =>
    obtain ⟨a, b⟩ := e
    simp only [List.lookup_cons] at h
    by_cases hk : k = a
    · subst hk; simp at h
    · have hb : (k == a) = false := by simpa using hk
      rw [hb] at h
      simp only [List.map_cons, List.mem_cons, not_or]
      exact ⟨hk, ih h⟩

/-- The sum of the positive elements, and of the negated negative ones. -/
def pos (l : List Int) : Int := (l.map fun x => max x 0).sum
def neg (l : List Int) : Int := (l.map fun x => max (-x) 0).sum

theorem pos_nonneg (l : List Int) : 0 ≤ pos l := by
  induction l with
  | nil => exact Int.le_refl _
  | cons x l ih => simp only [pos, List.map_cons, List.sum_cons] at ih ⊢; omega

theorem neg_nonneg (l : List Int) : 0 ≤ neg l := by
  induction l with
  | nil => exact Int.le_refl _
  | cons x l ih => simp only [neg, List.map_cons, List.sum_cons] at ih ⊢; omega

theorem subsetsC_effect (ord : Bool) (lo hi : Int) (l : List Int) : ∀ ii sum c n r c', lo ≤ sum - pos l → sum + neg l ≤ hi →
    subsetsC ord l ii sum c = .ok (n, r, c') → Effect lo hi ii c n c' := by
  induction l with
  | nil =>
    intro ii sum c n r c' _ _ h
    simp only [subsetsC, Res.ok.injEq, Prod.mk.injEq] at h
    obtain ⟨rfl, -, rfl⟩ := h
    exact ⟨by omega, Nat.le_refl _, rfl, fun _ _ => rfl, fun j row hj h0 => h0 row hj⟩
  | cons x rest ih =>
    intro ii sum c n r c' hlo hhi h
    have hp0 := pos_nonneg rest
    have hn0 := neg_nonneg rest
    simp only [pos, neg, List.map_cons, List.sum_cons] at hlo hhi hp0 hn0
    simp only [subsetsC] at h
    rw [Res.bind_eq_ok] at h
    obtain ⟨row, hrow, h⟩ := h
    cases hl : row.lookup sum with
    | some v =>
      rw [hl] at h
      simp only [Res.ok.injEq, Prod.mk.injEq] at h
      obtain ⟨rfl, -, rfl⟩ := h
      exact ⟨by omega, Nat.le_refl _, rfl, fun _ _ => rfl, fun j row hj h0 => h0 row hj⟩
    | none =>
      rw [hl] at h
      simp only at h
      have key : ∀ s1 s2 : Int, lo ≤ s1 - pos rest → s1 + neg rest ≤ hi → lo ≤ s2 - pos rest → s2 + neg rest ≤ hi →
          (subsetsC ord rest (ii + 1) s1 c >>= fun p => subsetsC ord rest (ii + 1) s2 p.2.2 >>= fun q =>
            rd q.2.2 ii >>= fun row => .ok (p.1 + q.1 + 1, (p.2.1 + q.2.1) % W, q.2.2.set ii ((sum, (p.2.1 + q.2.1) % W) :: row))) =
            .ok (n, r, c') → Effect lo hi ii c n c' := by
        intro s1 s2 a1 a2 b1 b2 h
        rw [Res.bind_eq_ok] at h
        obtain ⟨⟨m1, v1, c1⟩, h1, h⟩ := h
        rw [Res.bind_eq_ok] at h
        obtain ⟨⟨m2, v2, c2⟩, h2, h⟩ := h
        rw [Res.bind_eq_ok] at h
        obtain ⟨row2, hrow2, h⟩ := h
        simp only [Res.ok.injEq, Prod.mk.injEq] at h hrow2
        obtain ⟨rfl, -, rfl⟩ := h
        have e1 := ih _ _ _ _ _ _ a1 a2 h1
        have e2 := ih _ _ _ _ _ _ b1 b2 h2
        have hset := entries_set c2 ii row2 (sum, (v1 + v2) % W) hrow2
        obtain ⟨hi1, hr1⟩ := rd_ok hrow
        obtain ⟨hi2, hr2⟩ := rd_ok hrow2
        have hsame : row2 = row := by
          have h3 := (e2.before ii (by omega)).trans (e1.before ii (by omega))
          rw [List.getElem?_eq_getElem hi2, List.getElem?_eq_getElem hi1, hr1, hr2] at h3
          exact Option.some.inj h3
        have hg1 := e1.grows
        have hg2 := e2.grows
        have hc1 := e1.calls
        have hc2 := e2.calls
        dsimp only at hc1 hc2 hset hg1 hg2 ⊢
        refine ⟨by rw [hset]; clear * - hg1 hg2 hc1 hc2; omega, by rw [hset]; clear * - hg1 hg2; omega, ?_, ?_, ?_⟩
        · rw [List.length_set, e2.length, e1.length]
        · intro j hj
          rw [List.getElem?_set_ne (by omega), e2.before j (by omega), e1.before j (by omega)]
        · intro j row' hj h0
          by_cases hji : ii = j
          · subst hji
            rw [List.getElem?_set_self hi2] at hj
            simp only [Option.some.injEq] at hj
            subst hj
            obtain ⟨q1, q2⟩ := h0 row (by rw [List.getElem?_eq_getElem hi1, hr1])
            rw [hsame]
            refine ⟨List.nodup_cons.2 ⟨lookup_none hl, q1⟩, ?_⟩
            intro k hk
            simp only [List.map_cons, List.mem_cons] at hk
            rcases hk with rfl | hk
            · constructor <;> omega
            · exact q2 k hk
          · rw [List.getElem?_set_ne hji] at hj
            exact e2.keys j row' hj fun row0 hr0 => e1.keys j row0 hr0 h0
      cases ord
      · exact key (sum - x) sum (by simp only [pos]; omega) (by simp only [neg]; omega) (by simp only [pos]; omega) (by simp only [neg]; omega) h
      · exact key sum (sum - x) (by simp only [pos]; omega) (by simp only [neg]; omega) (by simp only [pos]; omega) (by simp only [neg]; omega) h

theorem rowOk_length {lo hi : Int} {row : List (Int × Nat)} (h : RowOk lo hi row) : row.length ≤ (hi + 1 - lo).toNat := by
  have h1 : (row.map Prod.fst).toFinset ⊆ Finset.Icc lo hi := by
    intro k hk
    rw [List.mem_toFinset] at hk
    exact Finset.mem_Icc.2 (h.2 k hk)
  have h2 := Finset.card_le_card h1
  rw [List.toFinset_card_of_nodup h.1, List.length_map, Int.card_Icc] at h2
  exact h2

theorem entries_le {m : Nat} : ∀ {c : Memo}, (∀ row ∈ c, row.length ≤ m) → entries c ≤ c.length * m := by
  intro c
  induction c with
  | nil => intro _; exact Nat.zero_le _
  | cons row c ih =>
    intro h
    have h1 := ih fun r hr => h r (List.mem_cons_of_mem _ hr)
    have h2 := h row List.mem_cons_self
    simp only [entries, List.map_cons, List.sum_cons, List.length_cons] at h1 ⊢
    rw [Nat.add_mul, Nat.one_mul]
    omega

/-- The sum of the absolute values. -/
def absSum (l : List Int) : Nat := (l.map Int.natAbs).sum

theorem absSum_eq (l : List Int) : (absSum l : Int) = pos l + neg l := by
  induction l with
  | nil => rfl
  | cons x l ih =>
    simp only [absSum, pos, neg, List.map_cons, List.sum_cons] at ih ⊢
    rw [Nat.cast_add]
    omega

theorem entries_fresh (n : Nat) : entries (List.replicate n []) = 0 := by
  simp [entries]

/-- Every call that is not answered from the memo makes one entry, so that no sum is computed twice for the same position: the
number of calls is one more than twice the number of new entries. -/
theorem C168_calls (ord : Bool) (l : List Int) (start : Nat) (sum : Int) (c c' : Memo) (n r : Nat)
    (h : subsetsC ord (l.drop start) start sum c = .ok (n, r, c')) :
    entries c ≤ entries c' ∧ n = 1 + 2 * (entries c' - entries c) := by
  have e := subsetsC_effect ord (sum - pos (l.drop start)) (sum + neg (l.drop start)) _ _ _ _ _ _ _ (Int.le_refl _) (Int.le_refl _) h
  exact ⟨e.grows, by rw [e.calls]; omega⟩

/-- `sum_of_subsets` makes at most `1 + 2 n (s + 1)` calls for `n` elements whose absolute values sum up to `s`; the
memo has at most `n (s + 1)` entries. -/
theorem bound (ord : Bool) (l : List Int) (sum : Int) (n r : Nat) (c' : Memo)
    (h : subsetsC ord l 0 sum (List.replicate l.length []) = .ok (n, r, c')) :
    entries c' ≤ l.length * (absSum l + 1) ∧ n ≤ 1 + 2 * (l.length * (absSum l + 1)) := by
  have e := subsetsC_effect ord (sum - pos l) (sum + neg l) _ _ _ _ _ _ _ (Int.le_refl _) (Int.le_refl _) h
  have hlen : c'.length = l.length := by rw [e.length, List.length_replicate]
  have hle : entries c' ≤ l.length * (absSum l + 1) := by
    rw [← hlen]
    apply entries_le
    intro row hrow
    obtain ⟨j, hj, rfl⟩ := List.getElem_of_mem hrow
    have hok := e.keys j _ (List.getElem?_eq_getElem hj) fun row0 h0 => by
      rw [List.getElem?_replicate] at h0
      split at h0
      · simp only [Option.some.injEq] at h0
        subst h0
        exact ⟨List.nodup_nil, fun k hk => by cases hk⟩
      · cases h0
    have h2 := rowOk_length hok
    have h3 := absSum_eq l
    omega
  refine ⟨hle, ?_⟩
  have h1 := e.calls
  rw [entries_fresh] at h1
  omega

/-- C168: `sum_of_subsets` is defined, and counts the subsets with at most `1 + 2 n (s + 1)` calls, whichever operand is evaluated
first. -/
theorem C168_bound (ord : Bool) (l : List Int) (sum : Int) : ∃ n c',
    subsetsC ord l 0 sum (List.replicate l.length []) = .ok (n, countSubsets l sum % W, c') ∧
    entries c' ≤ l.length * (absSum l + 1) ∧ n ≤ 1 + 2 * (l.length * (absSum l + 1)) := by
  obtain ⟨c', e, _⟩ := subsets_spec ord l l 0 sum (List.replicate l.length []) rfl (Nat.zero_le _) (memoOk_fresh l)
  rw [← C168_same] at e
  unfold dropCalls at e
  rw [Res.bind_eq_ok] at e
  obtain ⟨⟨n, r, c⟩, h, e⟩ := e
  simp only [Res.ok.injEq, Prod.mk.injEq] at e
  obtain ⟨rfl, rfl⟩ := e
  exact ⟨n, c, h, bound ord l sum _ _ _ h⟩

/-- A series of calls with one memo (subset.h:39-41), with the number of calls. -/
def subsetsManyC (ord : Bool) (l : List Int) : List (Nat × Int) → Memo → Res (Nat × Memo)
  | [], c => .ok (0, c)
  | (start, sum) :: calls, c => do
    let (n, _, c) ← subsetsC ord (l.drop start) start sum c
    let (m, c) ← subsetsManyC ord l calls c
    .ok (n + m, c)

/-- Calls that share a memo share the work: together they make one call each, and two for each entry of the memo. -/
theorem C168_shared (ord : Bool) (l : List Int) (calls : List (Nat × Int)) : ∀ (c c' : Memo) (n : Nat),
    subsetsManyC ord l calls c = .ok (n, c') → entries c ≤ entries c' ∧ n = calls.length + 2 * (entries c' - entries c) := by
  induction calls with
  | nil =>
    intro c c' n h
    simp only [subsetsManyC, Res.ok.injEq, Prod.mk.injEq] at h
    obtain ⟨rfl, rfl⟩ := h
    exact ⟨Nat.le_refl _, by simp⟩
  | cons call calls ih =>
    obtain ⟨start, sum⟩ := call
    intro c c' n h
    simp only [subsetsManyC] at h
    rw [Res.bind_eq_ok] at h
    obtain ⟨⟨n1, r1, c1⟩, h1, h⟩ := h
    rw [Res.bind_eq_ok] at h
    obtain ⟨⟨n2, c2⟩, h2, h⟩ := h
    simp only [Res.ok.injEq, Prod.mk.injEq] at h
    obtain ⟨rfl, rfl⟩ := h
    have e1 := C168_calls ord l start sum c c1 n1 r1 h1
    have e2 := ih c1 c2 n2 h2
    refine ⟨by omega, ?_⟩
    simp only [List.length_cons]
    omega

/-- `max_length_of_sum` stores at most one sum for each element. -/
theorem C168_subarray (req : Int) (l : List Int) : (mlLoop req l 0 ⟨0, 0, []⟩).occ.length ≤ l.length := by
  have key : ∀ (l : List Int) ii s, (mlLoop req l ii s).occ.length ≤ s.occ.length + l.length := by
    intro l
    induction l with
    | nil => intro ii s; exact Nat.le_refl _
    | cons x l ih =>
      intro ii s
      have h1 := ih (ii + 1) (mlStep req ii x s)
      have h2 : (mlStep req ii x s).occ.length ≤ s.occ.length + 1 := by
        unfold mlStep
        simp only
        split
        · exact Nat.le_succ _
        · split
          · exact Nat.le_succ _
          · split
            · exact Nat.le_refl _
            · exact Nat.le_succ _
      simp only [mlLoop, List.length_cons]
      omega
  simpa using key l 0 ⟨0, 0, []⟩

/-- 14 ones: 2^15 - 1 calls without the memo. -/
example : (subsetsC true (List.replicate 14 1) 0 7 (List.replicate 14 [])).toOption.map (fun t => (t.1, t.2.1, entries t.2.2)) =
    some (211, 3432, 105) := by decide +kernel
example : (subsetsManyC false [3, -1, 2] [(0, 4), (0, 4), (1, 1)] [[], [], []]).toOption.map (fun t => (t.1, entries t.2)) = some (17, 7) := by
  decide +kernel

end Verif.Seqs
