import Verif.Seqs.PropsSubset

/-
C215: classic/sequences/subset.h for sequences of unsigned integers.  `sum - *it` (subset.h:61) is then taken modulo
`2^w`, where `w` is the number of bits of the element type.
-/

namespace Verif.Seqs

/-- The memo of `sum_of_subsets` when the elements have `w` bits and no sign. -/
abbrev MemoU (w : Nat) := List (List (BitVec w × Nat))

/-- `sum_of_subsets` with a given memo (subset.h:42-66) for an unsigned element type of `w` bits: as `subsets`, but the
difference is one of `w` bits.  For types narrower than `int` the difference is an `int` that is converted to the type
of the parameter, with the same outcome. -/
def subsetsU {w : Nat} (ord : Bool) : List (BitVec w) → Nat → BitVec w → MemoU w → Res (Nat × MemoU w)
  | [], _, sum, c => .ok (if sum = 0 then 1 else 0, c)         -- :49-51
  | x :: rest, ii, sum, c => do
    let row ← rd c ii                                          -- :54
    match row.lookup sum with
    | some r => .ok (r, c)                                     -- :55-57
    | none =>
      let (a, c) ← if ord then subsetsU ord rest (ii + 1) sum c else subsetsU ord rest (ii + 1) (sum - x) c
      let (b, c) ← if ord then subsetsU ord rest (ii + 1) (sum - x) c else subsetsU ord rest (ii + 1) sum c
      let r := (a + b) % W                                     -- :59-62
      let row ← rd c ii
      .ok (r, c.set ii ((sum, r) :: row))

/-- `sum_of_subsets(first, last, sum)` (subset.h:30-33) for an unsigned element type. -/
def sumOfSubsetsU {w : Nat} (ord : Bool) (l : List (BitVec w)) (sum : BitVec w) : Res Nat := do
  let (r, _) ← subsetsU ord l 0 sum (List.replicate l.length [])
  .ok r

/-- The number of subsets of the positions of `l` whose elements add up to `s` modulo `2^w`. -/
def countWrapped {w : Nat} (l : List (BitVec w)) (s : BitVec w) : Nat :=
  ((l.map BitVec.toNat).sublists'.filter (fun t => t.sum % 2 ^ w = s.toNat)).length

/-- The number of subsets of the positions of `l` whose elements add up to `s` exactly. -/
def countPlain {w : Nat} (l : List (BitVec w)) (s : BitVec w) : Nat :=
  ((l.map BitVec.toNat).sublists'.filter (fun t => t.sum = s.toNat)).length

example : countWrapped [200#8, 56#8, 1#8] 0#8 = 2 := by decide +kernel
example : countPlain [200#8, 56#8, 1#8] 0#8 = 1 := by decide +kernel

theorem mod_eq_toNat_iff {w n : Nat} (s : BitVec w) : n % 2 ^ w = s.toNat ↔ BitVec.ofNat w n = s := by
  rw [← BitVec.toNat_ofNat n w, BitVec.toNat_inj]

theorem countWrapped_nil {w : Nat} (s : BitVec w) : countWrapped [] s = if s = 0 then 1 else 0 := by
  unfold countWrapped
  simp only [mod_eq_toNat_iff, List.map_nil, List.sublists'_nil]
  by_cases h : s = 0
  · subst h; simp
  · have : ¬ (BitVec.ofNat w 0) = s := fun e => h e.symm
    simp only [h, if_false, List.filter_cons, List.sum_nil, this, decide_false, Bool.false_eq_true, List.filter_nil,
      List.length_nil]

theorem countWrapped_cons {w : Nat} (x : BitVec w) (l : List (BitVec w)) (s : BitVec w) :
    countWrapped (x :: l) s = countWrapped l s + countWrapped l (s - x) := by
  unfold countWrapped
  rw [List.map_cons, List.sublists'_cons, List.filter_append, List.length_append, List.filter_map, List.length_map]
  congr 2
  apply List.filter_congr
  intro t _
  have : (x.toNat + t.sum) % 2 ^ w = s.toNat ↔ t.sum % 2 ^ w = (s - x).toNat := by
    rw [mod_eq_toNat_iff, mod_eq_toNat_iff, BitVec.ofNat_add, BitVec.ofNat_toNat, BitVec.setWidth_eq,
      BitVec.eq_sub_iff_add_eq, BitVec.add_comm]
  simp only [Function.comp_def, List.sum_cons, this]

/-- Every entry of the memo is the right count for its position. -/
def MemoUOk {w : Nat} (l : List (BitVec w)) (c : MemoU w) : Prop :=
  l.length ≤ c.length ∧ ∀ (i : Nat) (row : List (BitVec w × Nat)) (s : BitVec w) (r : Nat),
    c[i]? = some row → row.lookup s = some r → i < l.length → r = countWrapped (l.drop i) s % W

theorem memoUOk_fresh {w : Nat} (l : List (BitVec w)) : MemoUOk l (List.replicate l.length []) := by
  refine ⟨by simp, fun i row s r h h' _ => ?_⟩
  have := List.eq_of_mem_replicate (List.mem_of_getElem? h)
  subst this
  cases h'

theorem subsetsU_spec {w : Nat} (ord : Bool) (l : List (BitVec w)) : ∀ (rest : List (BitVec w)) (ii : Nat) (sum : BitVec w) (c : MemoU w),
    rest = l.drop ii → ii ≤ l.length → MemoUOk l c →
    ∃ c', subsetsU ord rest ii sum c = .ok (countWrapped rest sum % W, c') ∧ MemoUOk l c' := by
  intro rest
  induction rest with
  | nil =>
    intro ii sum c _ _ hc
    refine ⟨c, ?_, hc⟩
    rw [countWrapped_nil]
    unfold subsetsU
    split
    · rw [Nat.mod_eq_of_lt (by decide)]
    · simp
  | cons x rest ih =>
    intro ii sum c hrest hii hc
    have hlt : ii < l.length := by
      by_contra hn
      rw [List.drop_eq_nil_of_le (by omega)] at hrest
      cases hrest
    have hrest' : rest = l.drop (ii + 1) := by
      rw [List.drop_eq_getElem_cons hlt] at hrest
      injection hrest
    have hcl : ii < c.length := Nat.lt_of_lt_of_le hlt hc.1
    unfold subsetsU
    rw [rd_lt hcl]
    simp only [Res.bind_ok]
    cases hl : (c[ii]).lookup sum with
    | some r =>
      refine ⟨c, ?_, hc⟩
      have := hc.2 ii c[ii] sum r (List.getElem?_eq_getElem hcl) hl hlt
      rw [this, hrest]
    | none =>
      have fin : ∀ (a b : Nat) (c2 : MemoU w), MemoUOk l c2 → (a + b) % W = countWrapped (x :: rest) sum % W →
          ∃ c', (do
            let row ← rd c2 ii
            Res.ok ((a + b) % W, c2.set ii ((sum, (a + b) % W) :: row))) =
              Res.ok (countWrapped (x :: rest) sum % W, c') ∧ MemoUOk l c' := by
        intro a b c2 h2 hab
        have hc2 : ii < c2.length := Nat.lt_of_lt_of_le hlt h2.1
        rw [rd_lt hc2]
        refine ⟨c2.set ii ((sum, (a + b) % W) :: c2[ii]), by simp only [Res.bind_ok, hab], ?_, ?_⟩
        · rw [List.length_set]; exact h2.1
        · intro i row s r hi hs hil
          rw [List.getElem?_set] at hi
          split at hi
          · rename_i he
            subst he
            injection hi with hi
            subst hi
            by_cases hss : s = sum
            · subst hss
              simp only [List.lookup, BEq.rfl] at hs
              injection hs with hs
              rw [← hs, hab, hrest]
            · have : (s == sum) = false := by simpa using hss
              simp only [List.lookup, this] at hs
              exact h2.2 ii c2[ii] s r (List.getElem?_eq_getElem hc2) hs hil
          · exact h2.2 i row s r hi hs hil
      cases ord with
      | true =>
        obtain ⟨c1, e1, h1⟩ := ih (ii + 1) sum c hrest' (by omega) hc
        obtain ⟨c2, e2, h2⟩ := ih (ii + 1) (sum - x) c1 hrest' (by omega) h1
        simp only [if_true, e1, Res.bind_ok, e2]
        apply fin _ _ _ h2
        rw [countWrapped_cons, ← Nat.add_mod]
      | false =>
        obtain ⟨c1, e1, h1⟩ := ih (ii + 1) (sum - x) c hrest' (by omega) hc
        obtain ⟨c2, e2, h2⟩ := ih (ii + 1) sum c1 hrest' (by omega) h1
        simp only [Bool.false_eq_true, if_false, e1, Res.bind_ok, e2]
        apply fin _ _ _ h2
        rw [countWrapped_cons, ← Nat.add_mod, Nat.add_comm]

/-- C215 as one would like it: the number of subsets that add up to `s`, modulo `2^64`. -/
def C215_statement : Prop := ∀ (w : Nat) (ord : Bool) (l : List (BitVec w)) (s : BitVec w),
  sumOfSubsetsU ord l s = .ok (countPlain l s % W)

/-- C215, what the code computes for every unsigned type: subsets whose sums agree with `s` modulo `2^w` are counted. -/
theorem C215_wrapped {w : Nat} (ord : Bool) (l : List (BitVec w)) (s : BitVec w) :
    sumOfSubsetsU ord l s = .ok (countWrapped l s % W) := by
  obtain ⟨c', e, _⟩ := subsetsU_spec ord l l 0 s (List.replicate l.length []) rfl (Nat.zero_le _) (memoUOk_fresh l)
  unfold sumOfSubsetsU
  rw [e]
  rfl

/-- A subset adds up to no more than everything. -/
theorem sum_le_of_sublist {t l : List Nat} (h : t.Sublist l) : t.sum ≤ l.sum := by
  induction h with
  | slnil => exact Nat.le_refl _
  | cons a _ ih => simp only [List.sum_cons]; omega
  | cons_cons a _ ih => simp only [List.sum_cons]; omega

/-- C215 where the sum of the whole sequence fits the element type.  Missing: sequences whose total does not fit, for
which subsets that overshoot `s` by a multiple of `2^w` are counted as well (`C215_counterexample`). -/
theorem C215_count_partial {w : Nat} (ord : Bool) (l : List (BitVec w)) (s : BitVec w)
    (hfit : (l.map BitVec.toNat).sum < 2 ^ w) : sumOfSubsetsU ord l s = .ok (countPlain l s % W) := by
  rw [C215_wrapped]
  have : countWrapped l s = countPlain l s := by
    unfold countWrapped countPlain
    congr 1
    apply List.filter_congr
    intro t ht
    rw [Nat.mod_eq_of_lt (Nat.lt_of_le_of_lt (sum_le_of_sublist (List.mem_sublists'.1 ht)) hfit)]
  rw [this]

/-- C215, the count is never too small: every subset that adds up to `s` is among those counted. -/
theorem C215_atleast {w : Nat} (l : List (BitVec w)) (s : BitVec w) : countPlain l s ≤ countWrapped l s := by
  unfold countPlain countWrapped
  rw [← List.countP_eq_length_filter, ← List.countP_eq_length_filter]
  apply List.countP_mono_left
  intro t _ h
  have h : t.sum = s.toNat := by simpa using h
  have : t.sum % 2 ^ w = s.toNat := by rw [h, Nat.mod_eq_of_lt s.isLt]
  simpa using this

/-- C215, exactly when the count is right: for fewer than 64 elements it is the number of subsets that add up to `s`
iff no subset overshoots `s` by a multiple of `2^w`. -/
theorem C215_exact {w : Nat} (ord : Bool) (l : List (BitVec w)) (s : BitVec w) (hl : l.length < 64) :
    sumOfSubsetsU ord l s = .ok (countPlain l s) ↔
      ∀ t : List Nat, t.Sublist (l.map BitVec.toNat) → ∀ k : Nat, t.sum ≠ s.toNat + 2 ^ w * (k + 1) := by
  have hlt : countWrapped l s < W := by
    calc countWrapped l s ≤ (l.map BitVec.toNat).sublists'.length := List.length_filter_le _ _
      _ = 2 ^ l.length := by rw [List.length_sublists', List.length_map]
      _ < 2 ^ 64 := Nat.pow_lt_pow_right (by omega) hl
  rw [C215_wrapped, Nat.mod_eq_of_lt hlt]
  constructor
  · intro h t ht k hk
    injection h with h
    have hsub : ((l.map BitVec.toNat).sublists'.filter (fun t => t.sum = s.toNat)).Sublist
        ((l.map BitVec.toNat).sublists'.filter (fun t => t.sum % 2 ^ w = s.toNat)) := by
      apply List.monotone_filter_right
      intro t h
      have h : t.sum = s.toNat := by simpa using h
      have : t.sum % 2 ^ w = s.toNat := by rw [h, Nat.mod_eq_of_lt s.isLt]
      simpa using this
    have heq := hsub.eq_of_length h.symm
    have hmem : t ∈ (l.map BitVec.toNat).sublists'.filter (fun t => t.sum % 2 ^ w = s.toNat) := by
      refine List.mem_filter.2 ⟨List.mem_sublists'.2 ht, ?_⟩
      have : t.sum % 2 ^ w = s.toNat := by rw [hk, Nat.add_mul_mod_self_left, Nat.mod_eq_of_lt s.isLt]
      simpa using this
    rw [← heq] at hmem
    have : t.sum = s.toNat := by simpa using (List.mem_filter.1 hmem).2
    have hp : 0 < 2 ^ w * (k + 1) := Nat.mul_pos (Nat.two_pow_pos w) (Nat.succ_pos k)
    omega
  · intro h
    congr 1
    unfold countWrapped countPlain
    congr 1
    apply List.filter_congr
    intro t ht
    have : t.sum % 2 ^ w = s.toNat ↔ t.sum = s.toNat := by
      constructor
      · intro e
        have hd := Nat.mod_add_div t.sum (2 ^ w)
        rw [e] at hd
        cases hq : t.sum / 2 ^ w with
        | zero => rw [hq] at hd; omega
        | succ k => rw [hq] at hd; exact absurd hd.symm (h t (List.mem_sublists'.1 ht) k)
      · intro e
        rw [e, Nat.mod_eq_of_lt s.isLt]
    simp only [this]

/-- C215 does not hold: among the bytes 200 and 56 only the empty subset adds up to 0, but both together are counted
too. -/
theorem C215_counterexample : ¬ C215_statement := by
  intro h
  have h1 := h 8 true [200#8, 56#8] 0#8
  have h2 : sumOfSubsetsU true [200#8, 56#8] 0#8 = .ok 2 := by decide +kernel
  have h3 : countPlain [200#8, 56#8] 0#8 % W = 1 := by decide +kernel
  rw [h2, h3] at h1
  injection h1 with h1
  exact absurd h1 (by decide)

example : sumOfSubsetsU false [1#8, 2#8, 3#8, 3#8] 6#8 = .ok 3 := by decide +kernel
example : sumOfSubsetsU true [200#8, 100#8, 44#8] 44#8 = .ok 2 := by decide +kernel

end Verif.Seqs
