import Verif.Heap.Model

/-! Properties C61–C63. -/

namespace Verif.Heap
variable {α : Type}

/-- C61: parents of children, injectivity, and every position but 0 is a child of exactly its parent. -/
theorem C61_index (p q : Nat) :
    parentOf (leftOf p) = p ∧ parentOf (rightOf p) = p ∧
    leftOf p ≠ rightOf q ∧ (leftOf p = leftOf q → p = q) ∧ (rightOf p = rightOf q → p = q) ∧
    (q ≠ 0 → ((leftOf p = q ∨ rightOf p = q) ↔ p = parentOf q)) ∧
    p < leftOf p ∧ p < rightOf p ∧ (q ≠ 0 → parentOf q < q) := by
  unfold leftOf rightOf parentOf
  refine ⟨?_, ?_, ?_, ?_, ?_, ?_, ?_, ?_, ?_⟩ <;> (repeat' split) <;> omega

/-- C61: the positions themselves. -/
theorem C61_positions (p : Nat) : leftOf p = 2 * p + 1 ∧ rightOf p = 2 * p + 2 ∧ parentOf p = (p - 1) / 2 := by
  unfold leftOf rightOf parentOf
  refine ⟨?_, ?_, ?_⟩ <;> split <;> omega

/-- C61: the `size_t` arithmetic computes these values as long as the child position is representable. -/
theorem C61_no_wrap (p : Nat) (h : 2 * p + 2 < W) : leftW p = leftOf p ∧ rightW p = rightOf p := by
  unfold leftW leftOf rightW rightOf
  have h1 : p * 2 % W = p * 2 := Nat.mod_eq_of_lt (by omega)
  rw [h1, Nat.mod_eq_of_lt (by omega), Nat.mod_eq_of_lt (by omega)]
  constructor <;> split <;> omega

example : leftOf 3 = 7 ∧ rightOf 3 = 8 ∧ parentOf 8 = 3 ∧ leftOf 0 = 1 ∧ rightOf 0 = 2 := by decide

/-- The list with the elements at two positions exchanged. -/
def Exchanged (h h' : List α) (i j : Nat) : Prop :=
  ∀ k : Nat, h'[k]? = if k = i then h[j]? else if k = j then h[i]? else h[k]?

theorem swap_ok (h : List α) (pos : Nat) (hp : pos < h.length) :
    ∃ h', swap h pos = .ok h' ∧ Exchanged h h' pos (parentOf pos) := by
  unfold swap
  by_cases e : pos = parentOf pos
  · refine ⟨h, by simp only [ne_eq]; rw [if_neg (not_not_intro e)], fun k => ?_⟩
    rw [← e]
    by_cases a : k = pos
    · rw [if_pos a, a]
    · rw [if_neg a, if_neg a]
  · have h1 : parentOf pos < h.length := by unfold parentOf; split <;> omega
    simp only [ne_eq, e, not_false_eq_true, if_true, rdAt_lt hp, rdAt_lt h1, Res.bind_ok, wrAt, if_pos hp,
      List.length_set, if_pos h1]
    refine ⟨_, rfl, fun k => ?_⟩
    simp only [List.getElem?_set]
    by_cases k1 : k = pos
    · subst k1
      rw [if_neg (Ne.symm e)]
      simp [hp, h1]
    · by_cases k2 : k = parentOf pos
      · subst k2; simp [hp, h1, k1]
      · simp [k1, k2, Ne.symm k1, Ne.symm k2]

/-- C62: `swap` exchanges a position with its parent (throwing outside the heap, doing nothing at 0),
`swap_with_*_child` with that child if it exists; nothing else changes. -/
theorem C62_swap (h : List α) (pos : Nat) :
    (pos < h.length → ∃ h', swap h pos = .ok h' ∧ Exchanged h h' pos (parentOf pos)) ∧
    (h.length ≤ pos → pos ≠ 0 → swap h pos = .exc .outOfRange) ∧
    (leftOf pos < h.length → ∃ h', swapLeft h pos = .ok h' ∧ Exchanged h h' pos (leftOf pos)) ∧
    (rightOf pos < h.length → ∃ h', swapRight h pos = .ok h' ∧ Exchanged h h' pos (rightOf pos)) ∧
    (h.length ≤ leftOf pos → swapLeft h pos = .ok h) ∧
    (h.length ≤ rightOf pos → swapRight h pos = .ok h) := by
  refine ⟨swap_ok h pos, ?_, ?_, ?_, ?_, ?_⟩
  · intro hp h0
    unfold swap
    have : pos ≠ parentOf pos := by unfold parentOf; split <;> omega
    simp only [ne_eq, this, not_false_eq_true, if_true, rdAt_ge hp, Res.bind_exc]
  · intro hl
    obtain ⟨h', e1, e2⟩ := swap_ok h (leftOf pos) hl
    refine ⟨h', by simp only [swapLeft, if_pos hl, e1], fun k => ?_⟩
    rw [e2 k, (C61_index pos 0).1]
    by_cases a : k = pos
    · subst a
      have := (C61_index k 0).2.2.2.2.2.2.1
      rw [if_neg (by omega)]; simp
    · simp [a]
  · intro hl
    obtain ⟨h', e1, e2⟩ := swap_ok h (rightOf pos) hl
    refine ⟨h', by simp only [swapRight, if_pos hl, e1], fun k => ?_⟩
    rw [e2 k, (C61_index pos 0).2.1]
    by_cases a : k = pos
    · subst a
      have := (C61_index k 0).2.2.2.2.2.2.2.1
      rw [if_neg (by omega)]; simp
    · simp [a]
  · intro hl; simp only [swapLeft, if_neg (Nat.not_lt.2 hl)]
  · intro hl; simp only [swapRight, if_neg (Nat.not_lt.2 hl)]

/-- C62: swapping twice restores the heap. -/
theorem C62_involution (h h' : List α) (pos : Nat) :
    (swap h pos = .ok h' → swap h' pos = .ok h) ∧ (swapLeft h pos = .ok h' → swapLeft h' pos = .ok h) ∧
    (swapRight h pos = .ok h' → swapRight h' pos = .ok h) := by
  have exch : ∀ (h h' h'' : List α) i j, Exchanged h h' i j → Exchanged h' h'' i j → h'' = h := by
    intro h h' h'' i j e1 e2
    apply List.ext_getElem?
    intro k
    rw [e2 k, e1 i, e1 j, e1 k]
    by_cases a : k = i
    · subst a; by_cases b : j = k <;> simp [b]
    · by_cases b : k = j
      · subst b; simp [a]
      · simp [a, b]
  have len : ∀ (h h' : List α) i j, i < h.length → j < h.length → Exchanged h h' i j → h'.length = h.length := by
    intro h h' i j hi hj e
    have : ∀ k : Nat, k < h'.length ↔ k < h.length := by
      intro k
      have key : ∀ (l : List α) (k : Nat), k < l.length ↔ l[k]?.isSome := by intro l k; simp
      rw [key h', key h, e k]
      by_cases a : k = i
      · subst a; simp [hi, hj]
      · by_cases b : k = j
        · subst b; simp [a, hi, hj]
        · simp [a, b]
    have h1 := this h'.length
    have h2 := this h.length
    omega
  have main : ∀ (h h' : List α) pos, swap h pos = .ok h' → swap h' pos = .ok h ∧ h'.length = h.length := by
    intro h h' pos e
    by_cases hp : pos < h.length
    · have hq : parentOf pos < h.length := by unfold parentOf; split <;> omega
      obtain ⟨h1, e1, e2⟩ := swap_ok h pos hp
      rw [e1] at e; injection e with e; subst e
      have hl := len _ _ _ _ hp hq e2
      obtain ⟨h2, e3, e4⟩ := swap_ok h1 pos (by omega)
      rw [exch _ _ _ _ _ e2 e4] at e3
      exact ⟨e3, hl⟩
    · by_cases h0 : pos = 0
      · subst h0; simp [swap, parentOf] at e ⊢; exact ⟨e.symm, by rw [e]⟩
      · rw [(C62_swap h pos).2.1 (by omega) h0] at e; cases e
  refine ⟨fun e => (main h h' pos e).1, fun e => ?_, fun e => ?_⟩
  · unfold swapLeft at e ⊢
    simp only at e ⊢
    split at e
    · next hl => obtain ⟨a, b⟩ := main _ _ _ e; rw [b, if_pos hl]; exact a
    · next hl => injection e with e; subst e; rw [if_neg hl]
  · unfold swapRight at e ⊢
    simp only at e ⊢
    split at e
    · next hl => obtain ⟨a, b⟩ := main _ _ _ e; rw [b, if_pos hl]; exact a
    · next hl => injection e with e; subst e; rw [if_neg hl]

example : swap [10, 11, 12, 13] 3 = .ok [10, 13, 12, 11] ∧ swapLeft [10, 11, 12, 13] 1 = .ok [10, 13, 12, 11] ∧
    swapRight [10, 11, 12, 13] 1 = .ok [10, 11, 12, 13] := by decide

/-- C63 (full statement). -/
def C63_statement : Prop :=
  ∀ (d : Nat) (h : List Nat) (pos v : Nat), (∃ h', setLeft d h pos v = .ok h' ∧ h'[leftOf pos]? = some v) ∧
    (∃ h', setRight d h pos v = .ok h' ∧ h'[rightOf pos]? = some v)

/-- C63 is false exactly when the child position equals the size: the call throws `std::out_of_range`. -/
theorem C63_counterexample_all (d : α) (h : List α) (pos : Nat) (v : α) :
    (h.length = leftOf pos → setLeft d h pos v = .exc .outOfRange) ∧
    (h.length = rightOf pos → setRight d h pos v = .exc .outOfRange) := by
  constructor
  · intro e; unfold setLeft wrAt; simp [e]
  · intro e; unfold setRight wrAt; simp [e]

theorem C63_counterexample : ¬ C63_statement := by
  intro h
  obtain ⟨h', e, -⟩ := (h 0 [5] 0 7).1
  revert e
  rw [(C63_counterexample_all 0 [5] 0 7).1 rfl]
  intro e; cases e

theorem resize_get (d : α) (h : List α) (n k : Nat) (hn : h.length ≤ n) :
    (resize d h n)[k]? = if k < h.length then h[k]? else if k < n then some d else none := by
  unfold resize
  rw [List.take_of_length_le hn]
  split
  · next hk => rw [List.getElem?_append_left hk]
  · next hk =>
    rw [List.getElem?_append_right (by omega), List.getElem?_replicate]
    split <;> split <;> first | rfl | omega

/-- C63 (part): for every other position the child is stored, all old elements stay, and new cells are defaults.
Missing: the child position equal to the size. -/
theorem C63_set_partial (d : α) (h : List α) (pos : Nat) (v : α) :
    (h.length ≠ leftOf pos → ∃ h', setLeft d h pos v = .ok h' ∧ h'[leftOf pos]? = some v ∧ h.length ≤ h'.length ∧
      ∀ k, k ≠ leftOf pos → h'[k]? = if k < h.length then h[k]? else if k < h'.length then some d else none) ∧
    (h.length ≠ rightOf pos → ∃ h', setRight d h pos v = .ok h' ∧ h'[rightOf pos]? = some v ∧ h.length ≤ h'.length ∧
      ∀ k, k ≠ rightOf pos → h'[k]? = if k < h.length then h[k]? else if k < h'.length then some d else none) := by
  have key : ∀ c, h.length ≠ c → c < rightOf c → ∃ h', wrAt (if c > h.length then resize d h (rightOf c) else h) c v = .ok h' ∧
      h'[c]? = some v ∧ h.length ≤ h'.length ∧
      ∀ k, k ≠ c → h'[k]? = if k < h.length then h[k]? else if k < h'.length then some d else none := by
    intro c hc hlt
    by_cases hgt : c > h.length
    · rw [if_pos hgt]
      have hl : (resize d h (rightOf c)).length = rightOf c := by simp [resize]; omega
      unfold wrAt
      rw [if_pos (by omega)]
      refine ⟨_, rfl, by rw [List.getElem?_set_self (by omega)], by simp only [List.length_set]; omega, fun k hk => ?_⟩
      rw [List.getElem?_set_ne (Ne.symm hk), resize_get _ _ _ _ (by omega)]
      simp only [List.length_set, hl]
    · rw [if_neg hgt]
      unfold wrAt
      rw [if_pos (by omega)]
      refine ⟨_, rfl, by rw [List.getElem?_set_self (by omega)], by simp, fun k hk => ?_⟩
      rw [List.getElem?_set_ne (Ne.symm hk)]
      simp only [List.length_set]
      split
      · rfl
      · next h1 => rw [List.getElem?_eq_none (by omega)]
  have lt : ∀ c, c < rightOf c := fun c => (C61_index c 0).2.2.2.2.2.2.2.1
  exact ⟨fun hc => key _ hc (lt _), fun hc => key _ hc (lt _)⟩

example : setLeft 0 [5] 1 7 = .ok [5, 0, 0, 7, 0, 0, 0, 0] ∧ setRight 0 [5, 6, 7] 0 9 = .ok [5, 6, 9] := by decide

end Verif.Heap
