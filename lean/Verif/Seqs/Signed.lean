import Verif.Signed
import Verif.Seqs.PropsSubarray
import Verif.Seqs.PropsSubset

/-!
classic/sequences/subarray.h and subset.h over a signed integer type with the values `lo … hi` (`number_t = int`): an addition or
subtraction whose result does not fit is undefined.
-/

namespace Verif.Seqs

variable (lo hi : Int)

/-- subarray.h:37-52, one iteration of `max_length_of_sum`; the keys of `first_occurrence` are `long long`, which hold every `int`. -/
def mlStepS (req : Int) (ii : Nat) (x : Int) (s : MlState) : Res MlState := do
  let sum ← chk lo hi (s.sum + x)
  if sum = req then .ok { s with sum := sum, maxLength := ii + 1 }
  else do
    let d ← chk lo hi (sum - req)
    match s.occ.lookup d with
    | some j => .ok { s with sum := sum, maxLength := max s.maxLength (ii - j) }
    | none =>
      if req = 0 ∨ s.occ.lookup sum = none then .ok { s with sum := sum, occ := (sum, ii) :: s.occ }
      else .ok { s with sum := sum }

def mlLoopS (req : Int) : List Int → Nat → MlState → Res MlState
  | [], _, s => .ok s
  | x :: rest, ii, s => do
    let s ← mlStepS lo hi req ii x s
    mlLoopS req rest (ii + 1) s

/-- subarray.h:30-55 `max_length_of_sum`. -/
def maxLengthOfSumS (l : List Int) (req : Int) : Res Nat := do
  let s ← mlLoopS lo hi req l 0 ⟨0, 0, []⟩
  .ok s.maxLength

/-- subarray.h:68-72, the loop of `max_sum_of`. -/
def msLoopS : List Int → Int → Int → Res Int
  | [], maxSum, _ => .ok maxSum
  | x :: rest, maxSum, cur => do
    let s ← chk lo hi (cur + x)
    let cur := max x s
    msLoopS rest (max cur maxSum) cur

/-- subarray.h:64-73 `max_sum_of`. -/
def maxSumOfS : List Int → Res Int
  | [] => .ok 0
  | x :: rest => msLoopS lo hi (x :: rest) x x

/-- subset.h:42-66 `sum_of_subsets` with a given memo. -/
def subsetsS (ord : Bool) : List Int → Nat → Int → Memo → Res (Nat × Memo)
  | [], _, sum, c => .ok (if sum = 0 then 1 else 0, c)
  | x :: rest, ii, sum, c => do
    let row ← rd c ii
    match row.lookup sum with
    | some r => .ok (r, c)
    | none =>
      if ord then do
        let (a, c) ← subsetsS ord rest (ii + 1) sum c
        let d ← chk lo hi (sum - x)
        let (b, c) ← subsetsS ord rest (ii + 1) d c
        let row ← rd c ii
        .ok ((a + b) % W, c.set ii ((sum, (a + b) % W) :: row))
      else do
        let d ← chk lo hi (sum - x)
        let (a, c) ← subsetsS ord rest (ii + 1) d c
        let (b, c) ← subsetsS ord rest (ii + 1) sum c
        let row ← rd c ii
        .ok ((a + b) % W, c.set ii ((sum, (a + b) % W) :: row))

/-- subset.h:30-33 `sum_of_subsets`. -/
def sumOfSubsetsS (ord : Bool) (l : List Int) (sum : Int) : Res Nat := do
  let (r, _) ← subsetsS lo hi ord l 0 sum (List.replicate l.length [])
  .ok r

variable {lo hi}

/-! ### C143 -/

/-- No prefix makes `max_length_of_sum` overflow. -/
def PrefixFits (lo hi : Int) (l : List Int) (r : Int) : Prop :=
  ∀ p, p <+: l → p ≠ [] → Fits lo hi p.sum ∧ (p.sum ≠ r → Fits lo hi (p.sum - r))

theorem mlStepS_ok {req : Int} {ii : Nat} {x : Int} {s : MlState} (h1 : Fits lo hi (s.sum + x))
    (h2 : s.sum + x ≠ req → Fits lo hi (s.sum + x - req)) : mlStepS lo hi req ii x s = .ok (mlStep req ii x s) := by
  unfold mlStepS mlStep
  rw [chk_ok h1]
  simp only [Res.bind_ok]
  by_cases h : s.sum + x = req
  · rw [if_pos h, if_pos h]
  · rw [if_neg h, if_neg h, chk_ok (h2 h)]
    simp only [Res.bind_ok]
    cases s.occ.lookup (s.sum + x - req) with
    | some j => rfl
    | none =>
      simp only
      split <;> rfl

theorem mlStepS_ub {req : Int} {ii : Nat} {x : Int} {s : MlState}
    (h : ¬ (Fits lo hi (s.sum + x) ∧ (s.sum + x ≠ req → Fits lo hi (s.sum + x - req)))) : mlStepS lo hi req ii x s = .ub := by
  unfold mlStepS
  by_cases h1 : Fits lo hi (s.sum + x)
  · rw [chk_ok h1]
    simp only [Res.bind_ok]
    have h2 : s.sum + x ≠ req ∧ ¬ Fits lo hi (s.sum + x - req) := by
      refine Classical.byContradiction fun hc => h ⟨h1, fun hne => Classical.byContradiction fun hf => hc ⟨hne, hf⟩⟩
    rw [if_neg h2.1, chk_ub h2.2]
    rfl
  · rw [chk_ub h1]
    rfl

theorem mlStep_sum (req : Int) (ii : Nat) (x : Int) (s : MlState) : (mlStep req ii x s).sum = s.sum + x := by
  unfold mlStep
  simp only
  split
  · rfl
  · split
    · rfl
    · split <;> rfl

theorem mlLoopS_eq (req : Int) (rest : List Int) : ∀ (ii : Nat) (s : MlState),
    ((∀ p, p <+: rest → p ≠ [] → Fits lo hi (s.sum + p.sum) ∧ (s.sum + p.sum ≠ req → Fits lo hi (s.sum + p.sum - req))) →
      mlLoopS lo hi req rest ii s = .ok (mlLoop req rest ii s)) ∧
    (¬ (∀ p, p <+: rest → p ≠ [] → Fits lo hi (s.sum + p.sum) ∧ (s.sum + p.sum ≠ req → Fits lo hi (s.sum + p.sum - req))) →
      mlLoopS lo hi req rest ii s = .ub) := by
  induction rest with
  | nil =>
    refine fun ii s => ⟨fun _ => rfl, fun h => absurd ?_ h⟩
    intro p hp hne
    exact absurd (List.prefix_nil.1 hp) hne
  | cons x rest ih =>
    intro ii s
    obtain ⟨ih1, ih2⟩ := ih (ii + 1) (mlStep req ii x s)
    rw [mlStep_sum] at ih1 ih2
    unfold mlLoopS mlLoop
    by_cases hx : Fits lo hi (s.sum + x) ∧ (s.sum + x ≠ req → Fits lo hi (s.sum + x - req))
    · rw [mlStepS_ok hx.1 hx.2]
      simp only [Res.bind_ok]
      refine ⟨fun h => ih1 fun p hp hne => ?_, fun h => ih2 fun h' => h fun p hp hne => ?_⟩
      · have := h (x :: p) (by simpa using hp) (by simp)
        rw [List.sum_cons, ← add_assoc] at this
        exact this
      · cases p with
        | nil => exact absurd rfl hne
        | cons y p =>
          obtain ⟨rfl, hp'⟩ := List.cons_prefix_cons.1 hp
          rw [List.sum_cons, ← add_assoc]
          by_cases hp0 : p = []
          · subst hp0
            simpa using hx
          · exact h' p hp' hp0
    · rw [mlStepS_ub hx]
      refine ⟨fun h => absurd ?_ hx, fun _ => rfl⟩
      have := h [x] (by simp) (by simp)
      simpa using this

/-- C143 in full: if all sums of neighbouring elements and the required sum fit the type, then nothing overflows. -/
def C143_statement (lo hi : Int) : Prop :=
  ∀ (l : List Int) (r : Int), Fits lo hi r → (∀ s, s <:+: l → Fits lo hi s.sum) → maxLengthOfSumS lo hi l r = .ok (maxLengthOfSum l r)

open Classical in
/-- C143, exactly: `max_length_of_sum` is defined if and only if each prefix sum fits and, unless it is the required sum, its
distance from the required sum fits too; then the result is that of C73 and C74. -/
theorem C143_exact (l : List Int) (r : Int) :
    maxLengthOfSumS lo hi l r = if PrefixFits lo hi l r then .ok (maxLengthOfSum l r) else .ub := by
  obtain ⟨h1, h2⟩ := mlLoopS_eq (lo := lo) (hi := hi) r l 0 ⟨0, 0, []⟩
  simp only [zero_add] at h1 h2
  unfold maxLengthOfSumS maxLengthOfSum
  by_cases h : PrefixFits lo hi l r
  · rw [if_pos h, h1 h]
    rfl
  · rw [if_neg h, h2 h]
    rfl

/-- C143, the part that holds: nothing overflows if the sums of neighbouring elements fit and their distances from the required sum
do.  Missing: distances that do not fit. -/
theorem C143_signed_partial (l : List Int) (r : Int) (hs : ∀ s, s <:+: l → Fits lo hi s.sum) (hd : ∀ s, s <+: l → Fits lo hi (s.sum - r)) :
    maxLengthOfSumS lo hi l r = .ok (maxLengthOfSum l r) := by
  classical
  have h : PrefixFits lo hi l r := fun p hp _ => ⟨hs p hp.isInfix, fun _ => hd p hp⟩
  rw [C143_exact, if_pos h]

/-- C143 fails: the required sum 1 and the one element `lo`. -/
theorem C143_counterexample (hlo : lo < 0) (hhi : 1 ≤ hi) : ¬ C143_statement lo hi := by
  classical
  intro h
  have e := h [lo] 1 ⟨by omega, hhi⟩ fun s hs => by
    rcases List.sublist_singleton.1 hs.sublist with rfl | rfl
    · simp; omega
    · simp; omega
  rw [C143_exact, if_neg] at e
  · cases e
  · intro hf
    have := (hf [lo] (List.prefix_refl _) (by simp)).2 (by simp; omega)
    simp only [List.sum_singleton] at this
    omega

example : ¬ C143_statement intMin intMax := C143_counterexample (by decide) (by decide)

example : maxLengthOfSumS intMin intMax [2147483647, -5, 5, -2147483647] 0 = .ok 4 := by decide +kernel
example : maxLengthOfSumS intMin intMax [-2147483648, 7] 8 = .ub := by decide +kernel

/-! ### C144 -/

theorem maxSuf_unique {l : List Int} {a b : Int} (ha : IsMaxSuf l a) (hb : IsMaxSuf l b) : a = b := by
  obtain ⟨⟨s, h1, h2, rfl⟩, h3⟩ := ha
  obtain ⟨⟨t, h4, h5, rfl⟩, h6⟩ := hb
  exact le_antisymm (h6 s h1 h2) (h3 t h4 h5)

theorem msLoopS_eq (rest : List Int) : ∀ (l : List Int) (m c : Int), IsMaxSuf l c →
    ((∀ q y k, l <+: q → q ++ [y] <+: l ++ rest → IsMaxSuf q k → Fits lo hi (k + y)) →
      msLoopS lo hi rest m c = .ok (msLoop rest m c)) ∧
    (¬ (∀ q y k, l <+: q → q ++ [y] <+: l ++ rest → IsMaxSuf q k → Fits lo hi (k + y)) →
      msLoopS lo hi rest m c = .ub) := by
  induction rest with
  | nil =>
    refine fun l m c _ => ⟨fun _ => rfl, fun h => absurd ?_ h⟩
    intro q y k h1 h2 _
    have := h1.length_le
    have := h2.length_le
    simp at this
    omega
  | cons x rest ih =>
    intro l m c hc
    obtain ⟨ih1, ih2⟩ := ih (l ++ [x]) (max (max x (c + x)) m) (max x (c + x)) (maxSuf_snoc hc)
    rw [List.append_assoc, List.singleton_append] at ih1 ih2
    unfold msLoopS msLoop
    by_cases hx : Fits lo hi (c + x)
    · rw [chk_ok hx]
      simp only [Res.bind_ok]
      refine ⟨fun h => ih1 fun q y k hq => h q y k ((List.prefix_append _ _).trans hq), fun h => ih2 fun h' => h fun q y k hq hq' hk => ?_⟩
      by_cases he : q = l
      · subst he
        have hy := (List.prefix_append_right_inj q).1 hq'
        obtain ⟨rfl, _⟩ := List.cons_prefix_cons.1 hy
        rwa [maxSuf_unique hk hc]
      · refine h' q y k ?_ hq' hk
        obtain ⟨t, rfl⟩ := hq
        cases t with
        | nil => simp at he
        | cons z t =>
          rw [List.append_assoc] at hq'
          obtain ⟨rfl, _⟩ := List.cons_prefix_cons.1 ((List.prefix_append_right_inj l).1 hq')
          exact ⟨t, by simp⟩
    · rw [chk_ub hx]
      refine ⟨fun h => absurd ?_ hx, fun _ => rfl⟩
      exact h l x c (List.prefix_refl _) ⟨rest, by simp⟩ hc

/-- No element makes `max_sum_of` overflow: the greatest sum that ends before it and the element itself, in the sequence whose first
element is repeated. -/
def SuffixFits (lo hi : Int) (l : List Int) : Prop :=
  ∀ q y k, q ++ [y] <+: l → IsMaxSuf q k → Fits lo hi (k + y)

/-- C144 in full: if all sums of neighbouring elements fit the type, `max_sum_of` does not overflow. -/
def C144_statement (lo hi : Int) : Prop :=
  ∀ l : List Int, (∀ s, s <:+: l → Fits lo hi s.sum) → maxSumOfS lo hi l = .ok (maxSumOf l)

open Classical in
/-- C144, exactly: `max_sum_of` is defined if and only if each element fits when added to the greatest sum that ends just before it,
where the first element counts twice (C75). -/
theorem C144_exact (x : Int) (rest : List Int) :
    maxSumOfS lo hi (x :: rest) = if SuffixFits lo hi (x :: x :: rest) then .ok (maxSumOf (x :: rest)) else .ub := by
  have hx : IsMaxSuf [x] x := by
    refine ⟨⟨[x], List.suffix_refl _, by simp, by simp⟩, fun s hs hne => ?_⟩
    rcases List.sublist_singleton.1 hs.sublist with rfl | rfl
    · exact absurd rfl hne
    · simp
  obtain ⟨h1, h2⟩ := msLoopS_eq (lo := lo) (hi := hi) (x :: rest) [x] x x hx
  have key : SuffixFits lo hi (x :: x :: rest) ↔
      ∀ q y k, [x] <+: q → q ++ [y] <+: [x] ++ x :: rest → IsMaxSuf q k → Fits lo hi (k + y) := by
    refine ⟨fun h q y k _ => h q y k, fun h q y k hq hk => h q y k ?_ hq hk⟩
    cases q with
    | nil =>
      obtain ⟨s, hs, hne, _⟩ := hk.1
      exact absurd (List.suffix_nil.1 hs) hne
    | cons z q =>
      obtain ⟨rfl, _⟩ := List.cons_prefix_cons.1 hq
      simp
  rw [show maxSumOfS lo hi (x :: rest) = msLoopS lo hi (x :: rest) x x from rfl, show maxSumOf (x :: rest) = msLoop (x :: rest) x x from rfl]
  by_cases h : SuffixFits lo hi (x :: x :: rest)
  · rw [if_pos h, h1 (key.1 h)]
  · rw [if_neg h, h2 (fun h' => h (key.2 h'))]

/-- C144, the part that holds: nothing overflows if the sums of neighbouring elements fit, also when the first element is counted
twice.  Missing: sequences whose repeated first element makes a sum that does not fit. -/
theorem C144_signed_partial (l : List Int) (hf : ∀ s, s <:+: l → Fits lo hi s.sum)
    (hd : ∀ x p, x :: p <+: l → Fits lo hi (x + (x + p.sum))) : maxSumOfS lo hi l = .ok (maxSumOf l) := by
  classical
  cases l with
  | nil => rfl
  | cons x rest =>
    have h : SuffixFits lo hi (x :: x :: rest) := by
      intro q y k hq hk
      obtain ⟨s, ⟨a, rfl⟩, hne, rfl⟩ := hk.1
      rw [← List.sum_singleton (x := y), ← List.sum_append]
      rw [List.append_assoc] at hq
      cases a with
      | nil =>
        cases s with
        | nil => exact absurd rfl hne
        | cons z s =>
          obtain ⟨rfl, hs⟩ := List.cons_prefix_cons.1 hq
          rw [List.cons_append, List.sum_cons]
          cases hs' : s ++ [y] with
          | nil => simp at hs'
          | cons u p =>
            change s ++ [y] <+: _ at hs
            rw [hs'] at hs
            obtain ⟨rfl, hp⟩ := List.cons_prefix_cons.1 hs
            rw [List.sum_cons]
            exact hd u p (by simpa using hp)
      | cons z a =>
        obtain ⟨_, hs⟩ := List.cons_prefix_cons.1 hq
        obtain ⟨b, hb⟩ := hs
        exact hf _ ⟨a, b, by simpa using hb⟩
    rw [C144_exact, if_pos h]

/-- C144 fails: for one element, `max_sum_of` computes its double. -/
theorem C144_counterexample (hlo : lo ≤ 0) (hhi : 1 ≤ hi) : maxSumOfS lo hi [hi] = .ub ∧ ¬ C144_statement lo hi := by
  have h1 : maxSumOfS lo hi [hi] = .ub := by
    have : chk lo hi (hi + hi) = .ub := chk_ub (by omega)
    simp [maxSumOfS, msLoopS, this]
  refine ⟨h1, fun h => ?_⟩
  have e := h [hi] fun s hs => by
    rcases List.sublist_singleton.1 hs.sublist with rfl | rfl
    · simp; omega
    · simp; omega
  rw [h1] at e
  cases e

example : ¬ C144_statement intMin intMax := (C144_counterexample (by decide) (by decide)).2

example : maxSumOfS intMin intMax [-3, 2147483640, 7, -1, -2000000000] = .ok 2147483647 := by decide +kernel
example : maxSumOfS intMin intMax [1073741824] = .ub := by decide +kernel
example : maxSumOfS intMin intMax [-2147483648] = .ub := by decide +kernel

/-! ### C145 -/

/-- All differences `sum_of_subsets` may form from `s` and the elements of `l` fit. -/
def SubsetsFit (lo hi : Int) (l : List Int) (s : Int) : Prop :=
  ∀ t : List Int, t.Sublist l → Fits lo hi (s - t.sum)

/-- The sums in the memo have been computed without overflow. -/
def MemoFits (lo hi : Int) (l : List Int) (c : Memo) : Prop :=
  ∀ (i : Nat) (row : List (Int × Nat)) (s : Int) (r : Nat),
    c[i]? = some row → row.lookup s = some r → i < l.length → SubsetsFit lo hi (l.drop i) s

theorem subsetsFit_cons {x : Int} {l : List Int} {s : Int} :
    SubsetsFit lo hi (x :: l) s ↔ SubsetsFit lo hi l s ∧ SubsetsFit lo hi l (s - x) := by
  refine ⟨fun h => ⟨fun t ht => h t (ht.cons x), fun t ht => ?_⟩, fun ⟨h1, h2⟩ t ht => ?_⟩
  · have := h (x :: t) (ht.cons_cons x)
    rw [List.sum_cons] at this
    omega
  · cases ht with
    | cons _ ht => exact h1 t ht
    | cons_cons _ ht =>
      have := h2 _ ht
      rw [List.sum_cons]
      omega

theorem subsetsS_spec (ord : Bool) (l : List Int) : ∀ (rest : List Int) (ii : Nat) (sum : Int) (c : Memo),
    rest = l.drop ii → ii ≤ l.length → l.length ≤ c.length → Fits lo hi sum → MemoFits lo hi l c →
    (SubsetsFit lo hi rest sum → ∃ p, subsetsS lo hi ord rest ii sum c = .ok p ∧ subsets ord rest ii sum c = .ok p ∧
      MemoFits lo hi l p.2 ∧ l.length ≤ p.2.length) ∧
    (¬ SubsetsFit lo hi rest sum → subsetsS lo hi ord rest ii sum c = .ub) := by
  intro rest
  induction rest with
  | nil =>
    intro ii sum c _ _ hlen hs hc
    refine ⟨fun _ => ⟨_, rfl, rfl, hc, hlen⟩, fun h => absurd ?_ h⟩
    intro t ht
    rw [List.sublist_nil.1 ht]
    simpa using hs
  | cons x rest ih =>
    intro ii sum c hrest hii hlen hs hc
    have hlt : ii < l.length := by
      refine Classical.byContradiction fun hn => ?_
      rw [List.drop_eq_nil_of_le (by omega)] at hrest
      cases hrest
    have hrest' : rest = l.drop (ii + 1) := by
      rw [List.drop_eq_getElem_cons hlt] at hrest
      injection hrest
    have hcl : ii < c.length := Nat.lt_of_lt_of_le hlt hlen
    unfold subsetsS subsets
    rw [rd_lt hcl]
    simp only [Res.bind_ok]
    cases hl : (c[ii]).lookup sum with
    | some r =>
      have := hc ii c[ii] sum r (List.getElem?_eq_getElem hcl) hl hlt
      rw [← hrest] at this
      exact ⟨fun _ => ⟨_, rfl, rfl, hc, hlen⟩, fun h => absurd this h⟩
    | none =>
      have fin : ∀ (a b : Nat) (c2 : Memo), SubsetsFit lo hi (x :: rest) sum → MemoFits lo hi l c2 → l.length ≤ c2.length →
          ∃ p, (do
            let row ← rd c2 ii
            Res.ok ((a + b) % W, c2.set ii ((sum, (a + b) % W) :: row))) = Res.ok p ∧ MemoFits lo hi l p.2 ∧ l.length ≤ p.2.length := by
        intro a b c2 hf h2 hlen2
        have hc2 : ii < c2.length := Nat.lt_of_lt_of_le hlt hlen2
        rw [rd_lt hc2]
        refine ⟨_, by simp only [Res.bind_ok]; rfl, ?_, by simpa using hlen2⟩
        intro i row s r hrow hs hil
        rw [List.getElem?_set] at hrow
        split at hrow
        · rename_i he
          subst he
          injection hrow with hrow
          subst hrow
          by_cases hss : s = sum
          · subst hss
            rw [← hrest]
            exact hf
          · have : (s == sum) = false := by simpa using hss
            simp only [List.lookup, this] at hs
            exact h2 ii c2[ii] s r (List.getElem?_eq_getElem hc2) hs hil
        · exact h2 i row s r hrow hs hil
      rw [subsetsFit_cons]
      cases ord with
      | true =>
        obtain ⟨a1, b1⟩ := ih (ii + 1) sum c hrest' (by omega) hlen hs hc
        simp only [if_true]
        by_cases f1 : SubsetsFit lo hi rest sum
        · obtain ⟨⟨v1, c1⟩, e1, e1', m1, l1⟩ := a1 f1
          rw [e1, e1']
          simp only [Res.bind_ok]
          by_cases hd : Fits lo hi (sum - x)
          · rw [chk_ok hd]
            simp only [Res.bind_ok]
            obtain ⟨a2, b2⟩ := ih (ii + 1) (sum - x) c1 hrest' (by omega) l1 hd m1
            by_cases f2 : SubsetsFit lo hi rest (sum - x)
            · obtain ⟨⟨v2, c2⟩, e2, e2', m2, l2⟩ := a2 f2
              rw [e2, e2']
              simp only [Res.bind_ok]
              obtain ⟨p, ep, mp, lp⟩ := fin v1 v2 c2 (subsetsFit_cons.2 ⟨f1, f2⟩) m2 l2
              exact ⟨fun _ => ⟨p, ep, ep, mp, lp⟩, fun h => absurd ⟨f1, f2⟩ h⟩
            · rw [b2 f2]
              exact ⟨fun h => absurd h.2 f2, fun _ => rfl⟩
          · rw [chk_ub hd]
            refine ⟨fun h => absurd ?_ hd, fun _ => rfl⟩
            simpa using h.2 [] (List.nil_sublist _)
        · rw [b1 f1]
          exact ⟨fun h => absurd h.1 f1, fun _ => rfl⟩
      | false =>
        simp only [Bool.false_eq_true, if_false]
        by_cases hd : Fits lo hi (sum - x)
        · rw [chk_ok hd]
          simp only [Res.bind_ok]
          obtain ⟨a1, b1⟩ := ih (ii + 1) (sum - x) c hrest' (by omega) hlen hd hc
          by_cases f2 : SubsetsFit lo hi rest (sum - x)
          · obtain ⟨⟨v1, c1⟩, e1, e1', m1, l1⟩ := a1 f2
            rw [e1, e1']
            simp only [Res.bind_ok]
            obtain ⟨a2, b2⟩ := ih (ii + 1) sum c1 hrest' (by omega) l1 hs m1
            by_cases f1 : SubsetsFit lo hi rest sum
            · obtain ⟨⟨v2, c2⟩, e2, e2', m2, l2⟩ := a2 f1
              rw [e2, e2']
              simp only [Res.bind_ok]
              obtain ⟨p, ep, mp, lp⟩ := fin v1 v2 c2 (subsetsFit_cons.2 ⟨f1, f2⟩) m2 l2
              exact ⟨fun _ => ⟨p, ep, ep, mp, lp⟩, fun h => absurd ⟨f1, f2⟩ h⟩
            · rw [b2 f1]
              exact ⟨fun h => absurd h.1 f1, fun _ => rfl⟩
          · rw [b1 f2]
            exact ⟨fun h => absurd h.2 f2, fun _ => rfl⟩
        · rw [chk_ub hd]
          refine ⟨fun h => absurd ?_ hd, fun _ => rfl⟩
          simpa using h.2 [] (List.nil_sublist _)

/-- C145 in full: if the wanted sum and the sum of every subset fit the type, `sum_of_subsets` does not overflow. -/
def C145_statement (lo hi : Int) : Prop :=
  ∀ (ord : Bool) (l : List Int) (s : Int), Fits lo hi s → (∀ t : List Int, t.Sublist l → Fits lo hi t.sum) →
    sumOfSubsetsS lo hi ord l s = .ok (countSubsets l s % W)

open Classical in
/-- C145, exactly: for a wanted sum of the type, `sum_of_subsets` is defined if and only if the difference between the wanted sum
and the sum of every subset fits the type; then it counts the subsets (C76). -/
theorem C145_exact (ord : Bool) (l : List Int) (s : Int) (hs : Fits lo hi s) :
    sumOfSubsetsS lo hi ord l s = if SubsetsFit lo hi l s then .ok (countSubsets l s % W) else .ub := by
  have hm : MemoFits lo hi l (List.replicate l.length []) := by
    intro i row s r h h' _
    have := List.eq_of_mem_replicate (List.mem_of_getElem? h)
    subst this
    cases h'
  obtain ⟨h1, h2⟩ := subsetsS_spec ord l l 0 s (List.replicate l.length []) rfl (Nat.zero_le _) (by simp) hs hm
  by_cases h : SubsetsFit lo hi l s
  · obtain ⟨p, e, e', _⟩ := h1 h
    rw [if_pos h, ← C76_count ord l s]
    unfold sumOfSubsetsS sumOfSubsets
    rw [e, e']
  · rw [if_neg h]
    unfold sumOfSubsetsS
    rw [h2 h]
    rfl

theorem sublist_sum_nonneg {l t : List Int} (h : ∀ x ∈ l, 0 ≤ x) (ht : t.Sublist l) : 0 ≤ t.sum ∧ t.sum ≤ l.sum := by
  induction ht with
  | slnil => simp
  | cons a _ ih =>
    have := ih fun x hx => h x (List.mem_cons_of_mem _ hx)
    have := h a (by simp)
    rw [List.sum_cons]
    omega
  | cons_cons a _ ih =>
    have := ih fun x hx => h x (List.mem_cons_of_mem _ hx)
    have := h a (by simp)
    rw [List.sum_cons, List.sum_cons]
    omega

/-- C145, the part that holds: for elements that are not negative, with a total that fits the type, and a wanted sum that is not
negative, nothing overflows.  Missing: other sums whose differences do not fit. -/
theorem C145_signed_partial (ord : Bool) (l : List Int) (s : Int) (hlo : lo + hi ≤ 0) (h0 : 0 ≤ s) (hs : s ≤ hi)
    (hl : ∀ x ∈ l, 0 ≤ x) (hsum : l.sum ≤ hi) : sumOfSubsetsS lo hi ord l s = .ok (countSubsets l s % W) := by
  classical
  have h : SubsetsFit lo hi l s := by
    intro t ht
    have := sublist_sum_nonneg hl ht
    omega
  rw [C145_exact ord l s (by omega), if_pos h]

/-- C145 fails: looking for the sum `lo` among the subsets of `[1]`. -/
theorem C145_counterexample (hlo : lo ≤ 0) (hhi : 1 ≤ hi) : ¬ C145_statement lo hi := by
  classical
  intro h
  have e := h true [1] lo (by omega) fun t ht => by
    rcases List.sublist_singleton.1 ht with rfl | rfl
    · simp; omega
    · simp; omega
  rw [C145_exact _ _ _ (by omega), if_neg] at e
  · cases e
  · intro hf
    have := hf [1] (List.Sublist.refl _)
    simp only [List.sum_singleton] at this
    omega

example : ¬ C145_statement intMin intMax := C145_counterexample (by decide) (by decide)

example : sumOfSubsetsS intMin intMax true [2147483646, 1, 0] 2147483647 = .ok 2 := by decide +kernel
example : sumOfSubsetsS intMin intMax false [5, -2147483647] 1000 = .ub := by decide +kernel

end Verif.Seqs
