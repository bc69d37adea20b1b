import Verif.Tools.PropsText

/-!
delimiters.h:14-62 with :96-110: the predefined filters hand their `char` to a function of `<cctype>`, whose argument must be a value of
`unsigned char` or `EOF` (-1); everything else is undefined. Whether `char` is signed depends on the platform.
-/

namespace Verif.Tools

/-- The value of the character `static_cast<char>(ii)` (delimiters.h:104) as an `int`. -/
def charToInt (signed : Bool) (ii : Nat) : Int := if signed && decide (128 ≤ ii) then (ii : Int) - 256 else ii

/-- `std::isalpha` and the like ([C, 7.4]); `f` is the class of the characters in the current locale. -/
def cctype (f : Nat → Bool) (c : Int) : Res Bool :=
  if c = -1 then .ok false
  else if 0 ≤ c ∧ c < 256 then .ok (f c.toNat)
  else .ub

/-- delimiters.h:103-107, the loop of `get_table`, for a filter of delimiters.h:14-62. -/
def tableLoop (signed : Bool) (f : Nat → Bool) : List Nat → Res (List Bool)
  | [] => .ok []
  | ii :: rest => do
    let b ← cctype f (charToInt signed ii)
    let l ← tableLoop signed f rest
    .ok ((!b) :: l)

/-- delimiters.h:100-109 `get_table`. -/
def tableC (signed : Bool) (f : Nat → Bool) : Res (List Bool) := tableLoop signed f (List.range 256)

theorem cctype_cases (f : Nat → Bool) (c : Int) : cctype f c = .ub ∨ ∃ b, cctype f c = .ok b := by
  unfold cctype
  split
  · exact .inr ⟨_, rfl⟩
  · split
    · exact .inr ⟨_, rfl⟩
    · exact .inl rfl

theorem tableLoop_ub (signed : Bool) (f : Nat → Bool) (l : List Nat) (ii : Nat) (hm : ii ∈ l)
    (h : cctype f (charToInt signed ii) = .ub) : tableLoop signed f l = .ub := by
  induction l with
  | nil => simp at hm
  | cons x l ih =>
    rcases cctype_cases f (charToInt signed x) with hx | ⟨b, hx⟩
    · simp [tableLoop, hx]
    · rcases List.mem_cons.1 hm with rfl | hm
      · rw [h] at hx; cases hx
      · simp [tableLoop, hx, ih hm]

theorem tableLoop_ok (f : Nat → Bool) (l : List Nat) (h : ∀ x ∈ l, x < 256) : tableLoop false f l = .ok (l.map fun ii => !f ii) := by
  induction l with
  | nil => rfl
  | cons x l ih =>
    have hx : x < 256 := h x (by simp)
    have : cctype f (charToInt false x) = .ok (f x) := by
      unfold cctype charToInt
      simp only [Bool.false_and, Bool.false_eq_true, if_false]
      rw [if_neg (by omega), if_pos (by omega)]
      simp
    simp [tableLoop, this, ih fun y hy => h y (by simp [hy])]

/-- **C150, full statement.** Making a delimiter from a predefined filter is defined, and reading then yields the maximal runs of accepted characters. -/
def C150_statement (signed : Bool) : Prop :=
  ∀ (f : Nat → Bool) (text : List Nat), (∀ c ∈ text, c < 256) →
    ∃ t, tableC signed f = .ok t ∧ tokens t (text.length + 1) text = runs f text

/-- **C150, partial.** It holds where `char` is unsigned. Missing: platforms with a signed `char`. -/
theorem C150_unsigned_partial : C150_statement false := by
  intro f text h
  exact ⟨table f, tableLoop_ok f _ (by simp), C82_tokens f text h _ (Nat.lt_succ_self _)⟩

/-- C150 fails where `char` is signed: for every class of characters the table cannot be made, since the loop passes -128 to the classification function. -/
theorem C150_counterexample : (∀ f, tableC true f = .ub) ∧ ¬ C150_statement true := by
  have h : ∀ f, tableC true f = .ub := fun f =>
    tableLoop_ub true f _ 128 (by simp) (by simp [charToInt, cctype])
  refine ⟨h, fun hs => ?_⟩
  obtain ⟨t, ht, _⟩ := hs (fun _ => true) [] (by simp)
  rw [h] at ht; cases ht

/-- Which characters are to blame: exactly those from 128 to 254. -/
theorem C150_exact (f : Nat → Bool) (ii : Nat) (h : ii < 256) : cctype f (charToInt true ii) = .ub ↔ 128 ≤ ii ∧ ii ≤ 254 := by
  unfold cctype charToInt
  by_cases h1 : 128 ≤ ii
  · simp only [h1, decide_true, Bool.and_self, if_true]
    by_cases h2 : ii = 255
    · subst h2; simp
    · rw [if_neg (by omega), if_neg (by omega)]; simp; omega
  · simp only [h1, decide_false, Bool.and_false, Bool.false_eq_true, if_false]
    rw [if_neg (by omega), if_pos (by omega)]; simp

example : tableLoop true (fun c => 97 ≤ c && c ≤ 122) [96, 97, 122, 127, 255] = .ok [true, false, false, true, true] := by decide +kernel
example : tableLoop true (fun c => 97 ≤ c && c ≤ 122) [97, 200] = .ub := by decide +kernel

end Verif.Tools
