import Verif.Tools.PropsText

/-!
C200: `csv_reader_t::read_csv_file` (tools/read_csv.h:110-139) on files with Windows line endings, on a system that does not translate them.
-/

namespace Verif.Tools
variable {D : Type}

/-- A file whose lines end with "\r\n". -/
def crlfOf (lines : List (List Char)) : List Char := (lines.map (· ++ ['\r', '\n'])).flatten

/-! ### Specification -/

/-- The full claim: a file with Windows line endings gives the same rows as the same file with Unix line endings. -/
def C200_statement (lib : Lib D) : Prop := ∀ (desc : List FieldType) (offset : Int) (sep : Char) (lines : List (List Char)), sep ≠ '\n' → sep ≠ '\r' →
  (∀ l ∈ lines, '\n' ∉ l) → readCsv lib desc offset sep (crlfOf lines) = readCsv lib desc offset sep (fileOf lines)

/-- The text of a field with a "\r" at its end. -/
def addCr (f : Field D) : Field D := { f with text := f.text ++ "\r" }

/-- A row whose last field has got a "\r". -/
def crRow : List (Field D) → List (Field D)
  | [] => []
  | [f] => [addCr f]
  | f :: g :: rest => f :: crRow (g :: rest)

/-- The same rows, except for the text of the last field of each. -/
def crRows : Res (List (List (Field D))) → Res (List (List (Field D)))
  | .ok rows => .ok (rows.map crRow)
  | .exc e => .exc e
  | .ub => .ub

/-- `std::stoi` and `std::stod` look at the longest number at the beginning: a "\r" at the end makes no difference. -/
def IgnoresCr (lib : Lib D) : Prop := ∀ s, lib.stoi (s ++ "\r") = lib.stoi s ∧ lib.stod (s ++ "\r") = lib.stod s

/-! ### Lemmas -/

theorem crlfOf_eq (lines : List (List Char)) : crlfOf lines = fileOf (lines.map (· ++ ['\r'])) := by
  simp [crlfOf, fileOf, List.map_map, Function.comp_def]

/-- A line is a list of fields, each without separator, of which the last may be empty. -/
theorem line_fields (sep : Char) (line : List Char) : ∃ (init : List (List Char)) (last : List Char), line = (init.map (· ++ [sep])).flatten ++ last ∧ (∀ f ∈ init, sep ∉ f) ∧ sep ∉ last := by
  induction line with
  | nil => exact ⟨[], [], by simp, by simp, by simp⟩
  | cons c line ih =>
    obtain ⟨init, last, rfl, hi, hl⟩ := ih
    by_cases hc : c = sep
    · subst hc
      refine ⟨[] :: init, last, by simp, ?_, hl⟩
      intro f hf
      rcases List.mem_cons.1 hf with rfl | hf
      · simp
      · exact hi f hf
    · have hc' : sep ≠ c := fun e => hc e.symm
      cases init with
      | nil => exact ⟨[], c :: last, by simp, by simp, by simp [hc', hl]⟩
      | cons f init =>
        refine ⟨(c :: f) :: init, last, by simp, ?_, hl⟩
        intro g hg
        rcases List.mem_cons.1 hg with rfl | hg
        · have := hi f (by simp); simp [hc', this]
        · exact hi g (by simp [hg])

theorem pieces_fields (sep : Char) (init : List (List Char)) : ∀ last, (∀ f ∈ init, sep ∉ f) → sep ∉ last →
    pieces sep ((init.map (· ++ [sep])).flatten ++ last) = init ++ if last = [] then [] else [last] := by
  induction init with
  | nil =>
    intro last _ hl
    by_cases h : last = []
    · subst h; simp [pieces_nil]
    · simp [h, pieces_single hl h]
  | cons f init ih =>
    intro last hi hl
    have : ((f :: init).map (· ++ [sep])).flatten ++ last = f ++ sep :: ((init.map (· ++ [sep])).flatten ++ last) := by simp
    rw [this, pieces_append (hi f (by simp)), ih last (fun g hg => hi g (by simp [hg])) hl]
    rfl

/-- A line that is empty or ends with a separator gets one more field; otherwise the last field gets the "\r". -/
theorem pieces_cr {sep : Char} (hsep : sep ≠ '\r') (line : List Char) :
    (∃ init last, pieces sep line = init ++ [last] ∧ pieces sep (line ++ ['\r']) = init ++ [last ++ ['\r']] ∧ line ≠ [] ∧ line.getLast? ≠ some sep) ∨
    (pieces sep (line ++ ['\r']) = pieces sep line ++ [['\r']] ∧ (line = [] ∨ line.getLast? = some sep)) := by
  obtain ⟨init, last, rfl, hi, hl⟩ := line_fields sep line
  have hl' : sep ∉ last ++ ['\r'] := by simp [hl, hsep]
  have h2 := pieces_fields sep init (last ++ ['\r']) hi hl'
  rw [if_neg (by simp)] at h2
  rw [List.append_assoc, h2, pieces_fields sep init last hi hl]
  by_cases h : last = []
  · subst h
    right
    refine ⟨by simp, ?_⟩
    rcases List.eq_nil_or_concat init with rfl | ⟨i, f, rfl⟩
    · left; rfl
    · right; simp
  · left
    refine ⟨init, last, by rw [if_neg h], rfl, by simp [h], ?_⟩
    obtain ⟨l', c, rfl⟩ : ∃ l' c, last = l' ++ [c] := by
      rcases List.eq_nil_or_concat last with e | ⟨l', c, e⟩
      · exact absurd e h
      · exact ⟨l', c, by rw [e, List.concat_eq_append]⟩
    rw [← List.append_assoc, List.getLast?_concat]
    intro e
    injection e with e
    exact hl (by simp [e])

theorem mkField_cr {lib : Lib D} (h : IgnoresCr lib) (s : List Char) (t : FieldType) :
    mkField lib (String.ofList (s ++ ['\r'])) t = mkField lib (String.ofList s) t >>= fun f => .ok (addCr f) := by
  have e : String.ofList (s ++ ['\r']) = String.ofList s ++ "\r" := by
    rw [String.ofList_append]
  rw [e]
  cases t with
  | str => rfl
  | int =>
    simp only [mkField, (h _).1]
    cases lib.stoi (String.ofList s) <;> rfl
  | double =>
    simp only [mkField, (h _).2]
    cases lib.stod (String.ofList s) with
    | none => rfl
    | some d => cases lib.nanInt <;> rfl

theorem crRow_ne {r : List (Field D)} (f : Field D) (h : r ≠ []) : crRow (f :: r) = f :: crRow r := by
  cases r with
  | nil => exact absurd rfl h
  | cons g r => rfl

theorem mkAll_length (lib : Lib D) : ∀ (l : List (List Char × FieldType)) (r : List (Field D)), mkAll lib l = .ok r → r.length = l.length := by
  intro l
  induction l with
  | nil => intro r h; injection h with h; subst h; rfl
  | cons p l ih =>
    intro r h
    obtain ⟨s, t⟩ := p
    obtain ⟨f, hf, h⟩ := Res.bind_eq_ok.mp h
    obtain ⟨r', hr, h⟩ := Res.bind_eq_ok.mp h
    injection h with h
    subst h
    simp [ih r' hr]

theorem mkAll_cr {lib : Lib D} (h : IgnoresCr lib) (last : List Char) : ∀ (init : List (List Char)) (desc : List FieldType), init.length < desc.length →
    mkAll lib ((init ++ [last ++ ['\r']]).zip desc) = mkAll lib ((init ++ [last]).zip desc) >>= fun r => .ok (crRow r) := by
  intro init
  induction init with
  | nil =>
    intro desc hd
    cases desc with
    | nil => simp at hd
    | cons t desc =>
      simp only [List.nil_append, List.zip_cons_cons, List.zip_nil_left, mkAll, mkField_cr h]
      cases mkField lib (String.ofList last) t <;> rfl
  | cons f init ih =>
    intro desc hd
    cases desc with
    | nil => simp at hd
    | cons t desc =>
      have hd' : init.length < desc.length := by simpa using hd
      simp only [List.cons_append, List.zip_cons_cons, mkAll]
      cases mkField lib (String.ofList f) t with
      | exc e => rfl
      | ub => rfl
      | ok g =>
        simp only [Res.bind_ok]
        rw [ih desc hd']
        cases hm : mkAll lib ((init ++ [last]).zip desc) with
        | exc e => rfl
        | ub => rfl
        | ok r =>
          have hl := mkAll_length lib _ r hm
          have : r ≠ [] := by
            rintro rfl
            rw [List.length_zip] at hl
            simp only [List.length_append, List.length_cons, List.length_nil] at hl
            omega
          simp only [Res.bind_ok]
          rw [crRow_ne g this]

theorem zip_short {α β} (init : List α) (x y : α) (desc : List β) (h : desc.length ≤ init.length) : (init ++ [x]).zip desc = (init ++ [y]).zip desc := by
  induction init generalizing desc with
  | nil =>
    have : desc = [] := List.length_eq_zero_iff.1 (by simpa using h)
    subst this
    simp
  | cons f init ih =>
    cases desc with
    | nil => simp
    | cons t desc => simp only [List.cons_append, List.zip_cons_cons]; rw [ih desc (by simpa using h)]

theorem rowsOf_cr {lib : Lib D} (h : IgnoresCr lib) {sep : Char} (hsep : sep ≠ '\r') (desc : List FieldType) (lines : List (List Char))
    (hl : ∀ l ∈ lines, l ≠ [] ∧ l.getLast? ≠ some sep) :
    rowsOf lib sep desc (lines.map (· ++ ['\r'])) = crRows (rowsOf lib sep desc lines) := by
  induction lines with
  | nil => rfl
  | cons line lines ih =>
    have ih := ih (fun l h => hl l (List.mem_cons_of_mem _ h))
    have hline := hl line (by simp)
    rcases pieces_cr hsep line with ⟨init, last, e1, e2, -⟩ | ⟨-, h0 | h0⟩
    · simp only [List.map_cons, rowsOf, e1, e2, ih]
      simp only [List.length_append, List.length_cons, List.length_nil]
      by_cases hd : init.length < desc.length
      · rw [mkAll_cr h last init desc hd]
        have hd2 : init.length + (0 + 1) ≤ desc.length := by omega
        simp only [hd2, if_true]
        cases mkAll lib ((init ++ [last]).zip desc) with
        | exc e => rfl
        | ub => rfl
        | ok r =>
          simp only [Res.bind_ok]
          cases rowsOf lib sep desc lines <;> rfl
      · rw [zip_short init (last ++ ['\r']) last desc (by omega)]
        have hd2 : ¬ init.length + (0 + 1) ≤ desc.length := by omega
        simp only [hd2, if_false]
        cases mkAll lib ((init ++ [last]).zip desc) <;> rfl
    · exact absurd h0 hline.1
    · exact absurd h0 hline.2

/-! ### C200 -/

/-- Proved: if no line after the skipped ones is empty or ends with the separator, both files give the same rows, with the same numbers, up to a "\r" at
the end of the text of the last field of each row; also the same exceptions.  Missing: the "\r" itself, and the other lines. -/
theorem C200_rows_partial {lib : Lib D} (h : IgnoresCr lib) (desc : List FieldType) (offset : Int) {sep : Char} (hsep : sep ≠ '\r')
    (lines : List (List Char)) (hn : ∀ l ∈ lines, '\n' ∉ l) (hl : ∀ l ∈ lines.drop offset.toNat, l ≠ [] ∧ l.getLast? ≠ some sep) :
    readCsv lib desc offset sep (crlfOf lines) = crRows (readCsv lib desc offset sep (fileOf lines)) := by
  rw [crlfOf_eq, readCsv_eq, readCsv_eq, pieces_fileOf _ hn, pieces_fileOf, ← List.map_drop]
  · exact rowsOf_cr h hsep desc _ hl
  · intro l hl
    obtain ⟨l', hl', rfl⟩ := List.mem_map.1 hl
    have := hn l' hl'
    simp [this]

/-- The numbers of a field do not change. -/
theorem C200_numbers_partial {lib : Lib D} (h : IgnoresCr lib) (f : Field D) :
    getInt (addCr f) = getInt f ∧ getDouble lib (addCr f) = getDouble lib f ∧ (addCr f).text ≠ f.text := by
  refine ⟨rfl, ?_, ?_⟩
  · unfold getDouble addCr
    simp only [(h _).2]
  · intro e
    have := congrArg String.length e
    simp [addCr, String.length_append] at this

/-- Text columns only: a line that is empty or ends with the separator has one field more, "\r", than with Unix line endings, where the
last, empty field is lost; all other lines have the same number of fields. -/
theorem C200_fields_partial {sep : Char} (hsep : sep ≠ '\r') (line : List Char) :
    (line = [] ∨ line.getLast? = some sep → pieces sep (line ++ ['\r']) = pieces sep line ++ [['\r']]) ∧
    (¬ (line = [] ∨ line.getLast? = some sep) → (pieces sep (line ++ ['\r'])).length = (pieces sep line).length) := by
  rcases pieces_cr hsep line with ⟨init, last, e1, e2, h1, h2⟩ | ⟨e, h⟩
  · exact ⟨fun h => absurd h (by simp [h1, h2]), fun _ => by simp [e1, e2]⟩
  · exact ⟨fun _ => e, fun hn => absurd h hn⟩

/-- For every library: the "\r" becomes part of a text. -/
theorem C200_counterexample (lib : Lib D) : ¬ C200_statement lib := by
  intro h
  have := h [.str] 0 ',' [['a']] (by decide) (by decide) (by decide)
  rw [readCsv_eq, readCsv_eq] at this
  rw [show (pieces '\n' (crlfOf [['a']])).drop (0 : Int).toNat = [['a', '\r']] by decide +kernel,
    show (pieces '\n' (fileOf [['a']])).drop (0 : Int).toNat = [['a']] by decide +kernel] at this
  have e1 : pieces ',' ['a', '\r'] = [['a', '\r']] := by decide +kernel
  have e2 : pieces ',' ['a'] = [['a']] := by decide +kernel
  simp [rowsOf, e1, e2, mkAll, mkField] at this

/-- An empty line, harmless at the end of a Unix file, makes a file of numbers throw. -/
theorem C200_counterexample_empty (lib : Lib D) (h : lib.stoi "\r" = none) :
    readCsv lib [.int] 0 ',' (crlfOf [[]]) = .exc .invalid ∧ readCsv lib [.int] 0 ',' (fileOf [[]]) = .ok [[]] := by
  rw [readCsv_eq, readCsv_eq]
  rw [show (pieces '\n' (crlfOf [[]])).drop (0 : Int).toNat = [['\r']] by decide +kernel,
    show (pieces '\n' (fileOf [[]])).drop (0 : Int).toNat = [[]] by decide +kernel]
  have e1 : pieces ',' ['\r'] = [['\r']] := by decide +kernel
  have e2 : pieces ',' ([] : List Char) = [] := by decide +kernel
  refine ⟨?_, ?_⟩
  · have : String.ofList ['\r'] = "\r" := rfl
    simp [rowsOf, e1, mkAll, mkField, this, h, orThrow]
  · simp [rowsOf, e2, mkAll]

/-- A row that ends with a separator is read from a Unix file; in a Windows file it has a field too many and ends the reading. -/
theorem C200_counterexample_separator (lib : Lib D) :
    (readCsv lib [.str] 0 ',' (fileOf [['a', ','], ['b']])).toOption.map texts = some [[['a']], [['b']]] ∧
    (readCsv lib [.str] 0 ',' (crlfOf [['a', ','], ['b']])).toOption.map texts = some [] := by
  rw [readCsv_eq, readCsv_eq]
  rw [show (pieces '\n' (crlfOf [['a', ','], ['b']])).drop (0 : Int).toNat = [['a', ',', '\r'], ['b', '\r']] by decide +kernel,
    show (pieces '\n' (fileOf [['a', ','], ['b']])).drop (0 : Int).toNat = [['a', ','], ['b']] by decide +kernel]
  have e1 : pieces ',' ['a', ',', '\r'] = [['a'], ['\r']] := by decide +kernel
  have e2 : pieces ',' ['a', ','] = [['a']] := by decide +kernel
  have e3 : pieces ',' ['b'] = [['b']] := by decide +kernel
  constructor
  · simp [rowsOf, e2, e3, mkAll, mkField, texts, Res.toOption]
  · simp [rowsOf, e1, mkAll, mkField, texts, Res.toOption]

/-- A library for the example: reads the digits at the beginning. -/
def digitLib : Lib Int where
  stoi s := if (s.toList.takeWhile Char.isDigit) = [] then none else some ((s.toList.takeWhile Char.isDigit).foldl (fun n c => 10 * n + (c.toNat - 48)) 0)
  stod s := if (s.toList.takeWhile Char.isDigit) = [] then none else some ((s.toList.takeWhile Char.isDigit).foldl (fun n c => 10 * n + (c.toNat - 48)) 0)
  nanInt := some 0

theorem digitLib_cr : IgnoresCr digitLib := by
  have key : ∀ l : List Char, (l ++ ['\r']).takeWhile Char.isDigit = l.takeWhile Char.isDigit := by
    intro l
    induction l with
    | nil => decide
    | cons c l ih =>
      rw [List.cons_append, List.takeWhile_cons, List.takeWhile_cons, ih]
  intro s
  have : (s ++ "\r").toList = s.toList ++ ['\r'] := by rw [String.toList_append]; rfl
  simp only [digitLib, this, key, and_self]

example : (readCsv digitLib [.str, .int] 1 ',' (crlfOf ["name,n".toList, "a,12".toList, "b,7".toList])).toOption.map (·.map (·.map fun f => (f.text, f.idata))) =
    some [[("a", none), ("12\r", some 12)], [("b", none), ("7\r", some 7)]] := by
  have h := C200_rows_partial digitLib_cr [.str, .int] 1 (sep := ',') (by decide) ["name,n".toList, "a,12".toList, "b,7".toList] (by decide) (by decide)
  rw [h, readCsv_eq]
  have e : (pieces '\n' (fileOf ["name,n".toList, "a,12".toList, "b,7".toList])).drop (1 : Int).toNat = ["a,12".toList, "b,7".toList] := by decide +kernel
  have e1 : pieces ',' "a,12".toList = ["a".toList, "12".toList] := by decide +kernel
  have e2 : pieces ',' "b,7".toList = ["b".toList, "7".toList] := by decide +kernel
  rw [e]
  simp only [rowsOf, e1, e2]
  decide +kernel

end Verif.Tools
