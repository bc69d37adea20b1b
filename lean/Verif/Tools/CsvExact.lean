import Verif.Tools.PropsText

/-! C84 exactly: for which columns the getters of a CSV field give the number that the text says. -/

namespace Verif.Tools

variable {D : Type}

/-- **C84** exactly as the code behaves, for a text that says the numbers `i` and `d`.  `get_int` gives `i` if and only if the column is
one of integers, or one of doubles on a platform on which `static_cast<int>(nan)` happens to be `i`.  `get_double` gives `d` if and only if
the column is one of integers, or one of doubles on a platform that defines that conversion.  A field made without a column type gives
`d` if the conversion is defined, and `i` if and only if it is the value of the conversion. -/
theorem C84_exact (lib : Lib D) (s : String) (t : FieldType) (i : Int) (d : D) (hi : lib.stoi s = some i) (hd : lib.stod s = some d) :
    ((∃ f, mkField lib s t = .ok f ∧ getInt f = .ok i) ↔ t = .int ∨ t = .double ∧ lib.nanInt = some i) ∧
    ((∃ f, mkField lib s t = .ok f ∧ getDouble lib f = .ok d) ↔ t = .int ∨ t = .double ∧ lib.nanInt ≠ none) ∧
    ((∃ f, mkFieldDefault lib s = .ok f ∧ getInt f = .ok i) ↔ lib.nanInt = some i) ∧
    ((∃ f, mkFieldDefault lib s = .ok f ∧ getDouble lib f = .ok d) ↔ lib.nanInt ≠ none) := by
  refine ⟨?_, ?_, ?_, ?_⟩
  · cases t with
    | int => exact ⟨fun _ => .inl rfl, fun _ => ⟨⟨.int, s, some i, some none⟩, by simp [mkField, hi, orThrow], rfl⟩⟩
    | double =>
      cases hn : lib.nanInt with
      | none => simp [mkField, hd, hn, orThrow, orUb]
      | some v => simp [mkField, hd, hn, orThrow, orUb, getInt]
    | str => simp [mkField, getInt, orUb]
  · cases t with
    | int =>
      exact ⟨fun _ => .inl rfl, fun _ => ⟨⟨.int, s, some i, some none⟩, by simp [mkField, hi, orThrow], by simp [getDouble, orUb, orThrow, hd]⟩⟩
    | double =>
      cases hn : lib.nanInt with
      | none => simp [mkField, hd, hn, orThrow, orUb]
      | some v => simp [mkField, hd, hn, orThrow, orUb, getDouble]
    | str => simp [mkField, getDouble, orUb]
  · cases hn : lib.nanInt with
    | none => simp [mkFieldDefault, hn, orUb]
    | some v => simp [mkFieldDefault, hn, orUb, getInt]
  · cases hn : lib.nanInt with
    | none => simp [mkFieldDefault, hn, orUb]
    | some v => simp [mkFieldDefault, hn, orUb, orThrow, getDouble, hd]

example : (∃ f, mkField (⟨fun _ => some 7, fun _ => some 7, some (-2147483648)⟩ : Lib Nat) "7" .double = .ok f ∧ getInt f = .ok (-2147483648)) ∧
    ¬ ∃ f, mkField (⟨fun _ => some 7, fun _ => some 7, some (-2147483648)⟩ : Lib Nat) "7" .double = .ok f ∧ getInt f = .ok 7 := by
  refine ⟨⟨_, rfl, rfl⟩, ?_⟩
  rw [(C84_exact _ "7" .double 7 7 rfl rfl).1]
  decide

end Verif.Tools
