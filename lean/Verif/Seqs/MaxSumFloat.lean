import Verif.Seqs.PropsSubarray
import Verif.Binary64Order
import Verif.Fenwick.FloatingError

/-!
C196: `subarray_t<double>::max_sum_of` (classic/sequences/subarray.h:62-73), with rounding, infinities and NaN.
-/

namespace Verif.Seqs
open Dbl
open Verif.Fenwick (growth Near)

/-- `std::max(a, b)`: `(a < b) ? b : a`. -/
def cmax (a b : Dbl) : Dbl := if Dbl.lt a b then b else a

/-- The loop of `max_sum_of` (subarray.h:68-71). -/
def msLoopD : List Dbl → Dbl → Dbl → Dbl
  | [], maxSum, _ => maxSum
  | x :: rest, maxSum, cur =>
    let cur := cmax x (Dbl.add cur x)                          -- :69
    msLoopD rest (cmax cur maxSum) cur                         -- :70

/-- `subarray_t<double>::max_sum_of` (subarray.h:64-73). -/
def maxSumD : List Dbl → Dbl
  | [] => .fin 0                                               -- :65
  | x :: rest => msLoopD (x :: rest) x x                       -- :66-67: both start at `*first`

/-! ### Specification -/

/-- The sum from left to right, rounded at every step. -/
def flsum : List Dbl → Dbl
  | [] => .fin 0
  | x :: xs => xs.foldl Dbl.add x

/-- `r` is the greatest of the sums (from left to right, rounded) of the non-empty contiguous subarrays; sums without a value,
such as `inf - inf`, do not count. -/
def IsMaxFl (l : List Dbl) (r : Dbl) : Prop :=
  (∃ s, s <:+: l ∧ s ≠ [] ∧ flsum s = r) ∧ ∀ s, s <:+: l → s ≠ [] → flsum s ≠ .nan → Le (flsum s) r

/-! ### Lemmas -/

theorem cmax_or (a b : Dbl) : cmax a b = a ∨ cmax a b = b := by
  unfold cmax; split <;> simp

theorem cmax_ne_nan {a b : Dbl} (h : a ≠ .nan) : cmax a b ≠ .nan := by
  unfold cmax; split
  · next hl => exact (lt_true hl).right
  · exact h

theorem cmax_left {a b : Dbl} (h : a ≠ .nan) : Le a (cmax a b) := by
  unfold cmax; split
  · next hl => exact lt_true hl
  · exact Le.refl h

theorem cmax_right {a b : Dbl} (ha : a ≠ .nan) (h : b ≠ .nan) : Le b (cmax a b) := by
  unfold cmax; split
  · exact Le.refl h
  · next hl => exact lt_false ha h (by simpa using hl)

theorem cmax_nan_right (a : Dbl) : cmax a .nan = a := by
  unfold cmax; cases a <;> rfl

theorem cmax_nan_left (b : Dbl) : cmax .nan b = .nan := rfl

theorem add_nan_right (a : Dbl) : Dbl.add a .nan = .nan := by cases a <;> rfl

theorem add_nan_left (a : Dbl) : Dbl.add .nan a = .nan := rfl

theorem flsum_snoc {t : List Dbl} (h : t ≠ []) (x : Dbl) : flsum (t ++ [x]) = Dbl.add (flsum t) x := by
  cases t with
  | nil => exact absurd rfl h
  | cons y t => simp [flsum]

theorem suffix_snocD {s l : List Dbl} {x : Dbl} (h : s <:+ l ++ [x]) : s = [] ∨ ∃ t, t <:+ l ∧ s = t ++ [x] := by
  obtain ⟨a, ha⟩ := h
  rcases List.eq_nil_or_concat s with rfl | ⟨t, y, rfl⟩
  · exact Or.inl rfl
  · rw [List.concat_eq_append, ← List.append_assoc] at ha
    have := List.append_inj' ha rfl
    refine Or.inr ⟨t, ⟨a, this.1⟩, ?_⟩
    rw [List.concat_eq_append, this.2]

theorem infix_snocD {s l : List Dbl} {x : Dbl} (h : s <:+: l ++ [x]) : s <:+: l ∨ s <:+ l ++ [x] := by
  obtain ⟨a, b, hab⟩ := h
  rcases List.eq_nil_or_concat b with rfl | ⟨t, y, rfl⟩
  · exact Or.inr ⟨a, by simpa using hab⟩
  · rw [List.concat_eq_append, ← List.append_assoc] at hab
    exact Or.inl ⟨a, t, (List.append_inj' hab rfl).1⟩

/-- `c` is not less than any sum that ends at the end of `p`. -/
def UpSuf (p : List Dbl) (c : Dbl) : Prop := ∀ s, s <:+ p → s ≠ [] → flsum s ≠ .nan → Le (flsum s) c

def UpSub (p : List Dbl) (m : Dbl) : Prop := ∀ s, s <:+: p → s ≠ [] → flsum s ≠ .nan → Le (flsum s) m

/-- Adding an infinity gives it, or a NaN. -/
theorem add_inf {a : Dbl} {t : Bool} (h : Dbl.add a (.inf t) ≠ .nan) : Dbl.add a (.inf t) = .inf t := by
  cases a with
  | nan => exact absurd rfl h
  | fin n => rfl
  | inf s =>
    simp only [Dbl.add] at h ⊢
    split
    · next e => rw [e]
    · next e => rw [if_neg e] at h; exact absurd rfl h

/-- A NaN from two numbers comes from infinities. -/
theorem add_eq_nan {c x : Dbl} (hc : c ≠ .nan) (hx : x ≠ .nan) (h : Dbl.add c x = .nan) : ∃ t, x = .inf t := by
  cases x with
  | nan => exact absurd rfl hx
  | inf t => exact ⟨t, rfl⟩
  | fin n =>
    cases c with
    | nan => exact absurd rfl hc
    | inf s => simp [Dbl.add] at h
    | fin m => exact absurd h (by rw [add_fin]; exact round_ne_nan _)

theorem UpSuf.snoc {p : List Dbl} {c x : Dbl} (h : UpSuf p c) (hc : c ≠ .nan) (hx : x ≠ .nan) :
    UpSuf (p ++ [x]) (cmax x (Dbl.add c x)) := by
  intro s hs hne hn
  rcases suffix_snocD hs with rfl | ⟨t, ht, rfl⟩
  · exact absurd rfl hne
  by_cases h0 : t = []
  · subst h0
    exact cmax_left hx
  rw [flsum_snoc h0] at hn ⊢
  have htn : flsum t ≠ .nan := fun e => hn (by rw [e]; rfl)
  have hle := h t ht h0 htn
  by_cases hcx : Dbl.add c x = .nan
  · obtain ⟨b, rfl⟩ := add_eq_nan hc hx hcx
    rw [hcx, cmax_nan_right, add_inf hn]
    exact Le.refl hx
  · exact (add_mono hle hn hcx).trans (cmax_right hx hcx)

theorem UpSub.snoc {p : List Dbl} {m c x : Dbl} (h : UpSub p m) (hm : m ≠ .nan) (hc : c ≠ .nan) (hs : UpSuf (p ++ [x]) c) :
    UpSub (p ++ [x]) (cmax c m) := by
  intro s hi hne hn
  rcases infix_snocD hi with hi | hi
  · exact (h s hi hne hn).trans (cmax_right hc hm)
  · exact (hs s hi hne hn).trans (cmax_left hc)

theorem msLoopD_upper (rest : List Dbl) : ∀ (p : List Dbl) (m c : Dbl), .nan ∉ rest → m ≠ .nan → c ≠ .nan → UpSub p m → UpSuf p c →
    UpSub (p ++ rest) (msLoopD rest m c) ∧ msLoopD rest m c ≠ .nan := by
  induction rest with
  | nil => intro p m c _ hm _ h _; simpa [msLoopD] using ⟨h, hm⟩
  | cons x rest ih =>
    intro p m c hn hm hc h h'
    have hx : x ≠ .nan := fun e => hn (by simp [e])
    have hc' := h'.snoc hc hx
    have hcn : cmax x (Dbl.add c x) ≠ .nan := cmax_ne_nan hx
    have := ih (p ++ [x]) _ _ (fun e => hn (List.mem_cons_of_mem _ e)) (cmax_ne_nan (b := m) hcn) hcn (h.snoc hm hcn hc') hc'
    simpa [msLoopD] using this

theorem msLoopD_reached (rest : List Dbl) : ∀ (p : List Dbl) (m c : Dbl), (∃ s, s <:+: p ∧ s ≠ [] ∧ flsum s = m) →
    (∃ s, s <:+ p ∧ s ≠ [] ∧ flsum s = c) → ∃ s, s <:+: p ++ rest ∧ s ≠ [] ∧ flsum s = msLoopD rest m c := by
  induction rest with
  | nil => intro p m c h _; simpa [msLoopD] using h
  | cons x rest ih =>
    intro p m c ⟨s, hs, hne, hsum⟩ ⟨t, ht, htne, htsum⟩
    have hc : ∃ u, u <:+ p ++ [x] ∧ u ≠ [] ∧ flsum u = cmax x (Dbl.add c x) := by
      rcases cmax_or x (Dbl.add c x) with e | e
      · exact ⟨[x], ⟨p, rfl⟩, by simp, by rw [e]; rfl⟩
      · obtain ⟨a, rfl⟩ := ht
        exact ⟨t ++ [x], ⟨a, by simp⟩, by simp, by rw [flsum_snoc htne, htsum, e]⟩
    have hm : ∃ u, u <:+: p ++ [x] ∧ u ≠ [] ∧ flsum u = cmax (cmax x (Dbl.add c x)) m := by
      rcases cmax_or (cmax x (Dbl.add c x)) m with e | e
      · obtain ⟨u, hu, hune, husum⟩ := hc
        exact ⟨u, hu.isInfix, hune, by rw [husum, e]⟩
      · exact ⟨s, hs.trans (List.prefix_append _ _).isInfix, hne, by rw [hsum, e]⟩
    have := ih (p ++ [x]) _ _ hm hc
    simpa [msLoopD] using this

theorem infix_one {s : List Dbl} {y : Dbl} (hs : s <:+: [y]) (hne : s ≠ []) : s = [y] := by
  rcases List.sublist_singleton.mp hs.sublist with h | h
  · exact absurd h hne
  · exact h

theorem msLoopD_isMax {y : Dbl} {rest : List Dbl} (hy : y ≠ .nan) (hn : .nan ∉ rest) : IsMaxFl (y :: rest) (msLoopD rest y y) := by
  refine ⟨?_, ?_⟩
  · have := msLoopD_reached rest [y] y y ⟨[y], List.infix_refl _, by simp, rfl⟩ ⟨[y], List.suffix_refl _, by simp, rfl⟩
    simpa using this
  · have := (msLoopD_upper rest [y] y y hn hy hy (fun s hs hne _ => by rw [infix_one hs hne]; exact Le.refl hy)
      (fun s hs hne _ => by rw [infix_one hs.isInfix hne]; exact Le.refl hy)).1
    exact this

/-! ### C196 -/

/-- The full claim: for numbers (no NaN, but possibly infinite), the greatest sum of a subarray. -/
def C196_statement : Prop := ∀ l : List Dbl, .nan ∉ l → (l = [] → maxSumD l = .fin 0) ∧ (l ≠ [] → IsMaxFl l (maxSumD l))

/-- What is computed in every case without NaN: the greatest sum of the sequence whose first element, if positive, is doubled (with rounding:
infinite if that overflows).  Although sums are rounded at every step and the loop keeps only one of them, no subarray has a greater rounded sum. -/
theorem C196_doubled_partial (x : Dbl) (rest : List Dbl) (h : .nan ∉ x :: rest) :
    IsMaxFl (cmax x (Dbl.add x x) :: rest) (maxSumD (x :: rest)) := by
  have hx : x ≠ .nan := fun e => h (by simp [e])
  have hy : cmax x (Dbl.add x x) ≠ .nan := cmax_ne_nan hx
  have e : maxSumD (x :: rest) = msLoopD rest (cmax x (Dbl.add x x)) (cmax x (Dbl.add x x)) := by
    have hle : Le x (cmax x (Dbl.add x x)) := cmax_left hx
    have : cmax (cmax x (Dbl.add x x)) x = cmax x (Dbl.add x x) := by
      rcases cmax_or (cmax x (Dbl.add x x)) x with e | e
      · exact e
      · have := cmax_left (b := x) hy
        rw [e] at this ⊢
        exact Le.antisymm hle this
    simp only [maxSumD, msLoopD, this]
  rw [e]
  exact msLoopD_isMax hy (fun hm => h (List.mem_cons_of_mem _ hm))

/-- Doubling a number that is not positive does not make it greater. -/
theorem cmax_double {x : Dbl} (h : Le x (.fin 0)) : cmax x (Dbl.add x x) = x := by
  cases x with
  | nan => exact absurd rfl h.left
  | inf s => cases s <;> rfl
  | fin n =>
    have hn : n ≤ 0 := by simpa [Le, leB] using h
    have key : Dbl.lt (.fin n) (Dbl.round (n + n)) = false := by
      have he := roundNat_error (n + n).natAbs
      unfold Dbl.round
      generalize hr : roundNat (n + n).natAbs = r at *
      generalize maxDbl = M
      by_cases hM : M < r
      · rw [if_pos hM]
        have : r ≠ 0 := by omega
        have hn0 : n ≠ 0 := by
          rintro rfl
          rw [show ((0 : Int) + 0).natAbs = 0 from rfl, roundNat_zero] at hr
          exact this hr.symm
        simp only [Dbl.lt, Bool.not_eq_false', decide_eq_true_eq]
        omega
      · rw [if_neg hM]
        simp only [Dbl.lt, decide_eq_false_iff_not]
        split <;> omega
    unfold cmax
    rw [add_fin, key]
    rfl

/-- What holds: the empty sequence, sequences that do not start with a positive number, and, always, an upper bound of all sums.
Missing: sequences that start with a positive number (`C196_doubled_partial` says what is computed) and NaN (`C196_nan_partial`). -/
theorem C196_max_partial :
    maxSumD [] = .fin 0 ∧ (∀ (x : Dbl) (rest : List Dbl), .nan ∉ x :: rest → Le x (.fin 0) → IsMaxFl (x :: rest) (maxSumD (x :: rest))) ∧
    ∀ l s : List Dbl, .nan ∉ l → s <:+: l → s ≠ [] → flsum s ≠ .nan → Le (flsum s) (maxSumD l) := by
  refine ⟨rfl, fun x rest h hx => ?_, fun l s h hs hne hn => ?_⟩
  · have := C196_doubled_partial x rest h
    rwa [cmax_double hx] at this
  · cases l with
    | nil => exact absurd (List.eq_nil_of_infix_nil hs) hne
    | cons x rest =>
      have hx : x ≠ .nan := fun e => h (by simp [e])
      have hy : cmax x (Dbl.add x x) ≠ .nan := cmax_ne_nan hx
      have hm : cmax (cmax x (Dbl.add x x)) x ≠ .nan := cmax_ne_nan hy
      have := (msLoopD_upper rest [x] (cmax (cmax x (Dbl.add x x)) x) (cmax x (Dbl.add x x)) (fun hm => h (List.mem_cons_of_mem _ hm)) hm hy
        (fun s hs hne _ => by rw [infix_one hs hne]; exact cmax_right hy hx)
        (fun s hs hne _ => by rw [infix_one hs.isInfix hne]; exact cmax_left hx)).1
      exact this s hs hne hn

theorem msLoopD_nan (pre post : List Dbl) : ∀ m c, msLoopD (pre ++ .nan :: post) m c = msLoopD post .nan .nan := by
  induction pre with
  | nil => intro m c; simp only [List.nil_append, msLoopD, cmax_nan_left]
  | cons x pre ih => intro m c; simp only [List.cons_append, msLoopD]; exact ih _ _

/-- With a NaN in the sequence: everything up to the last NaN is forgotten, whatever the sums were; if it is the last element, the result is NaN.
From there on the answer is right, also if the next element is positive. -/
theorem C196_nan_partial (pre post : List Dbl) (h : .nan ∉ post) :
    (post = [] → maxSumD (pre ++ .nan :: post) = .nan) ∧ (post ≠ [] → IsMaxFl post (maxSumD (pre ++ .nan :: post))) := by
  have e : maxSumD (pre ++ .nan :: post) = msLoopD post .nan .nan := by
    cases pre with
    | nil => exact msLoopD_nan [] post _ _
    | cons x pre => exact msLoopD_nan (x :: pre) post _ _
  rw [e]
  refine ⟨fun hp => by rw [hp]; rfl, fun hp => ?_⟩
  cases post with
  | nil => exact absurd rfl hp
  | cons y ys =>
    have hy : y ≠ .nan := fun e => h (by simp [e])
    simp only [msLoopD, add_nan_left, cmax_nan_right]
    exact msLoopD_isMax hy (fun hm => h (List.mem_cons_of_mem _ hm))

/-- `max_sum_of` of the one number 5 is 10. -/
theorem C196_counterexample : ¬ C196_statement := by
  intro h
  obtain ⟨s, hs, hne, hsum⟩ := ((h [.fin 5] (by simp)).2 (by simp)).1
  rw [infix_one hs hne] at hsum
  revert hsum
  decide +kernel

/-- The greatest sum is lost: `5, NaN, 1` gives 1, `5, NaN` gives NaN, and so does the difference of infinities at the end of a sum only if it is
an element; `inf, -inf` gives `inf`. -/
theorem C196_counterexample_nan : maxSumD [.fin 5, .nan, .fin 1] = .fin 1 ∧ maxSumD [.fin 5, .nan] = .nan ∧
    maxSumD [.inf false, .inf true] = .inf false ∧ maxSumD [.inf true, .inf false] = .inf false := by decide +kernel

/-! ### Exact and approximate sums -/

theorem natAbs_sum_nonneg (l : List Int) : 0 ≤ (l.map fun x => (x.natAbs : Int)).sum := by
  induction l with
  | nil => simp
  | cons x l ih => simp only [List.map_cons, List.sum_cons]; omega

theorem msLoopD_whole {k : Nat} (hk : k ≤ 2044) (rest : List Int) : ∀ (m c : Int) (B : Nat), c.natAbs ≤ B →
    (B : Int) + (rest.map fun x => (x.natAbs : Int)).sum ≤ 2 ^ 53 →
    msLoopD (rest.map fun x => .fin (x * 2 ^ k)) (.fin (m * 2 ^ k)) (.fin (c * 2 ^ k)) = .fin (msLoop rest m c * 2 ^ k) := by
  have hp : (0 : Int) < 2 ^ k := by positivity
  have hmax : ∀ a b : Int, cmax (.fin (a * 2 ^ k)) (.fin (b * 2 ^ k)) = .fin (max a b * 2 ^ k) := by
    intro a b
    unfold cmax
    simp only [Dbl.lt, decide_eq_true_eq, Int.mul_lt_mul_right hp]
    split
    · rw [max_eq_right (by omega)]
    · rw [max_eq_left (by omega)]
  induction rest with
  | nil => intro m c B _ _; rfl
  | cons x rest ih =>
    intro m c B hc hB
    have h0 := natAbs_sum_nonneg rest
    rw [List.map_cons, List.sum_cons] at hB
    have e : Dbl.add (.fin (c * 2 ^ k)) (.fin (x * 2 ^ k)) = .fin ((c + x) * 2 ^ k) := by
      rw [add_exact]
      · rw [Int.add_mul]
      · rw [← Int.add_mul]
        exact isDbl_mul (by omega) (by omega) (Or.inl hk)
    simp only [List.map_cons, msLoopD, msLoop, e, hmax]
    exact ih _ _ (B + x.natAbs) (by omega) (by push_cast at hB ⊢; omega)

/-- For numbers that are whole multiples of one power of two (such as whole numbers) and small enough for 53 bits in total, no sum is rounded:
the result is the one for whole numbers (C75). -/
theorem C196_whole_partial {k : Nat} (hk : k ≤ 2044) (x : Int) (rest : List Int)
    (h : (x.natAbs : Int) + ((x :: rest).map fun x => (x.natAbs : Int)).sum ≤ 2 ^ 53) :
    maxSumD ((x :: rest).map fun x => .fin (x * 2 ^ k)) = .fin (maxSumOf (x :: rest) * 2 ^ k) :=
  msLoopD_whole hk (x :: rest) x x x.natAbs (Nat.le_refl _) h

/-- A sum from left to right, with rounding. -/
theorem flsum_near (xs : List Int) : ∀ (c : Dbl) (e m : Int) (N : Nat), Near N c e m →
    growth (N + xs.length) * ((m + (xs.map fun x => (x.natAbs : Int)).sum : Int) : ℚ) ≤ maxDbl →
    Near (N + xs.length) ((xs.map Dbl.fin).foldl Dbl.add c) (e + xs.sum) (m + (xs.map fun x => (x.natAbs : Int)).sum) := by
  induction xs with
  | nil => intro c e m N h _; simpa using h
  | cons x xs ih =>
    intro c e m N h hb
    have h0 := natAbs_sum_nonneg xs
    have hm0 : (0 : ℚ) ≤ m := by
      obtain ⟨_, _, _, h2⟩ := h
      exact (abs_nonneg _).trans h2
    have e1 : m + ((x :: xs).map fun x => (x.natAbs : Int)).sum = m + (x.natAbs : Int) + (xs.map fun x => (x.natAbs : Int)).sum := by
      rw [List.map_cons, List.sum_cons]; omega
    have e2 : e + (x :: xs).sum = e + x + xs.sum := by rw [List.sum_cons]; omega
    have e3 : N + (x :: xs).length = N + 1 + xs.length := by rw [List.length_cons]; omega
    rw [e1, e3] at hb
    rw [e1, e2, e3, List.map_cons, List.foldl_cons]
    refine ih _ _ _ _ (h.add ((Near.self N x)) ?_) hb
    refine le_trans ?_ hb
    clear hb ih h
    generalize (xs.map fun x => (x.natAbs : Int)).sum = q at *
    have hx0 : (0 : ℚ) ≤ ((x.natAbs : Int) : ℚ) := by positivity
    generalize (x.natAbs : Int) = y at *
    have hg := Verif.Fenwick.growth_mono (N := N) (M := N + 1 + xs.length) (by omega)
    have hg1 := Verif.Fenwick.growth_one_le N
    have hq : (0 : ℚ) ≤ q := by exact_mod_cast h0
    push_cast
    exact mul_le_mul hg (by linarith) (by linarith) (by linarith)

theorem flsum_near' {xs : List Int} (hne : xs ≠ []) {N : Nat} {S : Int} (hN : xs.length ≤ N)
    (hS : (xs.map fun x => (x.natAbs : Int)).sum ≤ S) (hb : growth N * (S : ℚ) ≤ maxDbl) :
    ∃ r : Int, flsum (xs.map Dbl.fin) = .fin r ∧ |(r : ℚ) - (xs.sum : Int)| ≤ (growth N - 1) * S := by
  cases xs with
  | nil => exact absurd rfl hne
  | cons x xs =>
    have h0 := natAbs_sum_nonneg (x :: xs)
    have hS' : ((((x :: xs).map fun x => (x.natAbs : Int)).sum : Int) : ℚ) ≤ S := by exact_mod_cast hS
    have h0' : (0 : ℚ) ≤ (((x :: xs).map fun x => (x.natAbs : Int)).sum : Int) := by exact_mod_cast h0
    have hg0 := Verif.Fenwick.growth_one_le (0 + xs.length)
    have hg : growth (0 + xs.length) ≤ growth N := Verif.Fenwick.growth_mono (by rw [List.length_cons] at hN; omega)
    have hbb : growth (0 + xs.length) * ((((x :: xs).map fun x => (x.natAbs : Int)).sum : Int) : ℚ) ≤ maxDbl :=
      le_trans (mul_le_mul hg hS' h0' (le_trans zero_le_one (Verif.Fenwick.growth_one_le N))) hb
    have := flsum_near xs (.fin x) x x.natAbs 0 (Near.self 0 x) (by rw [List.map_cons, List.sum_cons] at hbb; exact hbb)
    obtain ⟨r, hr, h1, -⟩ := this
    refine ⟨r, hr, ?_⟩
    rw [List.sum_cons]
    refine h1.trans ?_
    rw [List.map_cons, List.sum_cons] at hS' h0'
    have hg1 := Verif.Fenwick.growth_one_le N
    clear hbb hb
    exact mul_le_mul (by linarith) hS' h0' (by linarith)

theorem infix_map {l : List Int} {s : List Dbl} (h : s <:+: l.map Dbl.fin) : ∃ t, t <:+: l ∧ s = t.map Dbl.fin := by
  obtain ⟨a, b, hab⟩ := h
  obtain ⟨u, w, rfl, hu, rfl⟩ := List.map_eq_append_iff.1 hab.symm
  obtain ⟨v, t, rfl, rfl, rfl⟩ := List.map_eq_append_iff.1 hu
  exact ⟨t, ⟨v, w, rfl⟩, rfl⟩

theorem infix_natAbs {l t : List Int} (h : t <:+: l) : t.length ≤ l.length ∧
    (t.map fun x => (x.natAbs : Int)).sum ≤ (l.map fun x => (x.natAbs : Int)).sum := by
  obtain ⟨a, b, rfl⟩ := h
  have h1 := natAbs_sum_nonneg a
  have h2 := natAbs_sum_nonneg b
  simp only [List.length_append, List.map_append, List.sum_append]
  omega

/-- With rounding: for finite numbers of which the first is not positive, and no overflow in sight, the result differs from the greatest exact
sum by at most `(1 + 2^-53)^n - 1` times the sum of all magnitudes. -/
theorem C196_error_partial (x : Int) (rest : List Int) (hx : x ≤ 0) (M : Int) (hM : IsMaxSub (x :: rest) M)
    (hb : (1 + 1 / 2 ^ 53) ^ (rest.length + 1) * ((((x :: rest).map fun x => (x.natAbs : Int)).sum : Int) : ℚ) ≤ maxDbl) :
    ∃ r : Int, maxSumD ((x :: rest).map Dbl.fin) = .fin r ∧
      |(r : ℚ) - M| ≤ ((1 + 1 / 2 ^ 53) ^ (rest.length + 1) - 1) * ((((x :: rest).map fun x => (x.natAbs : Int)).sum : Int) : ℚ) := by
  have hmax := C196_max_partial.2.1 (.fin x) (rest.map Dbl.fin) (by simp) (by simpa [Le, leB] using hx)
  rw [← List.map_cons] at hmax
  have near : ∀ t : List Int, t <:+: x :: rest → t ≠ [] → ∃ r : Int, flsum (t.map Dbl.fin) = .fin r ∧ |(r : ℚ) - (t.sum : Int)| ≤
      ((1 + 1 / 2 ^ 53) ^ (rest.length + 1) - 1) * ((((x :: rest).map fun x => (x.natAbs : Int)).sum : Int) : ℚ) := by
    intro t ht hne
    obtain ⟨h1, h2⟩ := infix_natAbs ht
    exact flsum_near' hne (N := rest.length + 1) h1 h2 hb
  clear hb
  generalize ((1 + 1 / 2 ^ 53) ^ (rest.length + 1) - 1) * ((((x :: rest).map fun x => (x.natAbs : Int)).sum : Int) : ℚ) = E at *
  obtain ⟨⟨s, hs, hne, hsum⟩, hup⟩ := hmax
  obtain ⟨t, ht, rfl⟩ := infix_map hs
  have htne : t ≠ [] := fun e => hne (by rw [e]; rfl)
  obtain ⟨r, hr, hrt⟩ := near t ht htne
  rw [hr] at hsum
  refine ⟨r, hsum.symm, ?_⟩
  obtain ⟨⟨u, hu, hune, husum⟩, hle⟩ := hM
  obtain ⟨q, hq, hqu⟩ := near u hu hune
  have h1 := hup (u.map Dbl.fin) (by obtain ⟨a, b, hab⟩ := hu; exact ⟨a.map Dbl.fin, b.map Dbl.fin, by rw [← hab]; simp⟩) (by simpa using hune)
    (by rw [hq]; simp)
  rw [hq, ← hsum] at h1
  have h1' : q ≤ r := by simpa [Le, leB] using h1
  have h2 := hle t ht htne
  have h1q : (q : ℚ) ≤ r := by exact_mod_cast h1'
  have h2q : ((t.sum : Int) : ℚ) ≤ M := by exact_mod_cast h2
  rw [husum] at hqu
  rw [abs_le] at *
  constructor <;> linarith [hrt.1, hrt.2, hqu.1, hqu.2]

-- 2^53 + 1 is rounded: the whole sequence, its greatest exact sum, is not better than its first part
example : maxSumD [.fin (-3), .fin (2 ^ 53), .fin 1, .fin (-7), .fin 2] = .fin (2 ^ 53) ∧ maxSumOf [-3, 2 ^ 53, 1, -7, 2] = 2 ^ 53 + 1 := by
  decide +kernel

example : maxSumD ([-2, 1, -3, 4, -1, 2, 1, -5, 4].map fun x => .fin (x * 2 ^ 1074)) = .fin (6 * 2 ^ 1074) := by decide +kernel

-- the doubled first element overflows
example : maxSumD [.fin maxDbl, .fin (-1)] = .inf false := by decide +kernel

end Verif.Seqs
