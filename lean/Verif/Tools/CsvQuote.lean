import Verif.Tools.CsvCrLf

/-!
C211: CSV files with fields in double quotes, as RFC 4180 and spreadsheets write them (tools/read_csv.h has no code for quotes).
-/

namespace Verif.Tools
variable {D : Type}

namespace Spec

/-- RFC 4180: the characters between the quotes, with quotes doubled. -/
def doubled (f : List Char) : List Char := f.flatMap fun c => if c = '"' then ['"', '"'] else [c]

/-- The field has a character that needs quotes. -/
def Special (sep : Char) (f : List Char) : Prop := sep ∈ f ∨ '"' ∈ f ∨ '\n' ∈ f

instance (sep : Char) (f : List Char) : Decidable (Special sep f) := inferInstanceAs (Decidable (_ ∨ _ ∨ _))

/-- RFC 4180: a field as it is written to the file. -/
def written (sep : Char) (f : List Char) : List Char :=
  if Special sep f then '"' :: (doubled f ++ ['"']) else f

/-- The file with these rows. -/
def fileWith (sep : Char) (rows : List (List (List Char))) : List Char :=
  fileOf (rows.map fun row => joinRow sep (row.map (written sep)))

end Spec
open Spec

/-- The full claim: the reader gives back the texts that were written, quoted where needed. -/
def C211_statement (lib : Lib D) (sep : Char) : Prop :=
  ∀ (n : Nat) (rows : List (List (List Char))), (∀ row ∈ rows, row.getLastD ['x'] ≠ []) → (∀ row ∈ rows, row.length ≤ n) →
    ∃ out, readCsv lib (List.replicate n .str) 0 sep (fileWith sep rows) = .ok out ∧ texts out = rows

theorem length_doubled (f : List Char) : f.length ≤ (doubled f).length := by
  unfold doubled
  induction f with
  | nil => simp
  | cons c f ih =>
    rw [List.flatMap_cons, List.length_append, List.length_cons]
    split <;> simp only [List.length_cons, List.length_nil] <;> omega

theorem mem_doubled {c : Char} {f : List Char} : c ∈ doubled f ↔ c ∈ f := by
  unfold doubled
  rw [List.mem_flatMap]
  constructor
  · rintro ⟨d, hd, h⟩
    split at h
    · next e => simp at h; rw [h, ← e]; exact hd
    · simp at h; rw [h]; exact hd
  · intro h
    refine ⟨c, h, ?_⟩
    split
    · next e => simp [e]
    · simp

theorem written_ne {sep : Char} {f : List Char} (h : Special sep f) : written sep f ≠ f := by
  intro e
  have := congrArg List.length e
  rw [written, if_pos h] at this
  have := length_doubled f
  simp at *
  omega

/-- No field that is read contains a separator or a newline. -/
theorem pieces_clean {sep : Char} {text : List Char} {line piece : List Char} (hl : line ∈ pieces '\n' text) (hp : piece ∈ pieces sep line) :
    sep ∉ piece ∧ '\n' ∉ piece := by
  have key : ∀ (s : Char) (t p : List Char), p ∈ pieces s t → s ∉ p ∧ ∀ c ∈ p, c ∈ t := by
    intro s t p h
    obtain ⟨init, last, rfl, hi, hl⟩ := line_fields s t
    rw [pieces_fields s init last hi hl] at h
    rcases List.mem_append.1 h with h | h
    · refine ⟨hi p h, fun c hc => List.mem_append_left _ (List.mem_flatten.2 ⟨p ++ [s], List.mem_map.2 ⟨p, h, rfl⟩, ?_⟩)⟩
      exact List.mem_append_left _ hc
    · split at h
      · cases h
      · rw [List.mem_singleton] at h
        subst h
        exact ⟨hl, fun c hc => List.mem_append_right _ hc⟩
  exact ⟨(key _ _ _ hp).1, fun h => (key _ _ _ hl).1 ((key _ _ _ hp).2 _ h)⟩

theorem convertible_str (lib : Lib D) (n : Nat) (row : List (List Char)) : Convertible lib (List.replicate n .str) row := by
  intro p hp
  rw [List.eq_of_mem_replicate (List.of_mem_zip hp).2]
  rfl

/-- If no field has a separator or a newline, the reader gives the texts as they are in the file. -/
theorem read_written (lib : Lib D) (n : Nat) {sep : Char} (hs : sep ≠ '\n') (hq : sep ≠ '"') (rows : List (List (List Char)))
    (hlast : ∀ row ∈ rows, row.getLastD ['x'] ≠ []) (hw : ∀ row ∈ rows, row.length ≤ n)
    (hf : ∀ row ∈ rows, ∀ f ∈ row, sep ∉ f ∧ '\n' ∉ f) :
    ∃ out, readCsv lib (List.replicate n .str) 0 sep (fileWith sep rows) = .ok out ∧ texts out = rows.map (·.map (written sep)) := by
  have := C83_round_trip lib (List.replicate n .str) sep [] (rows.map (·.map (written sep))) hs (by simp)
    (by
      intro row hrow f hfm
      obtain ⟨row', hr, rfl⟩ := List.mem_map.1 hrow
      obtain ⟨f', hf', rfl⟩ := List.mem_map.1 hfm
      obtain ⟨h1, h2⟩ := hf row' hr f' hf'
      unfold written
      split
      · simp [mem_doubled, h1, h2, hq]
      · exact ⟨h1, h2⟩)
    (by
      intro row hrow
      obtain ⟨row', hr, rfl⟩ := List.mem_map.1 hrow
      have h := hlast row' hr
      rw [List.getLastD_eq_getLast?, List.getLast?_map] at *
      cases e : row'.getLast? with
      | none => simp
      | some f =>
        rw [e] at h
        simp only [Option.map_some, Option.getD_some] at h ⊢
        unfold written
        split
        · simp
        · exact h)
    (by
      intro row hrow
      obtain ⟨row', hr, rfl⟩ := List.mem_map.1 hrow
      simpa using hw row' hr)
    (fun row _ => convertible_str lib n row)
  obtain ⟨out, h1, h2, -⟩ := this
  refine ⟨out, ?_, h2⟩
  rw [← h1]
  simp [fileWith, List.map_map, Function.comp_def]

/-- **C211**, exactly: the texts come back if and only if no field needs quotes. -/
theorem C211_exact (lib : Lib D) (n : Nat) {sep : Char} (hs : sep ≠ '\n') (hq : sep ≠ '"') (rows : List (List (List Char)))
    (hlast : ∀ row ∈ rows, row.getLastD ['x'] ≠ []) (hw : ∀ row ∈ rows, row.length ≤ n) :
    (∃ out, readCsv lib (List.replicate n .str) 0 sep (fileWith sep rows) = .ok out ∧ texts out = rows) ↔
      ∀ row ∈ rows, ∀ f ∈ row, ¬ Special sep f := by
  constructor
  · rintro ⟨out, h1, h2⟩
    obtain ⟨out', h3, h4⟩ := C85_text lib n 0 sep (fileWith sep rows)
    rw [h1] at h3
    cases h3
    have hf : ∀ row ∈ rows, ∀ f ∈ row, sep ∉ f ∧ '\n' ∉ f := by
      intro row hr f hfm
      rw [← h2, h4] at hr
      obtain ⟨line, hl, rfl⟩ := List.mem_map.1 ((List.takeWhile_sublist _).subset hr)
      exact pieces_clean (List.mem_of_mem_drop hl) hfm
    obtain ⟨out', h3, h5⟩ := read_written lib n hs hq rows hlast hw hf
    rw [h1] at h3
    cases h3
    rw [h2] at h5
    intro row hr f hfm hsp
    have e1 : row = row.map (written sep) := by
      have : ∀ l : List (List (List Char)), l = l.map (·.map (written sep)) → ∀ row ∈ l, row = row.map (written sep) := by
        intro l
        induction l with
        | nil => intro _ row h; cases h
        | cons x l ih =>
          intro e row h
          rw [List.map_cons] at e
          injection e with e1 e2
          rcases List.mem_cons.1 h with rfl | h
          · exact e1
          · exact ih e2 row h
      exact this rows h5 row hr
    have e2 : f = written sep f := by
      have : ∀ l : List (List Char), l = l.map (written sep) → ∀ f ∈ l, f = written sep f := by
        intro l
        induction l with
        | nil => intro _ f h; cases h
        | cons x l ih =>
          intro e f h
          rw [List.map_cons] at e
          injection e with e1 e2
          rcases List.mem_cons.1 h with rfl | h
          · exact e1
          · exact ih e2 f h
      exact this row e1 f hfm
    exact written_ne hsp e2.symm
  · intro h
    have hf : ∀ row ∈ rows, ∀ f ∈ row, sep ∉ f ∧ '\n' ∉ f := fun row hr f hfm =>
      ⟨fun h' => h row hr f hfm (.inl h'), fun h' => h row hr f hfm (.inr (.inr h'))⟩
    obtain ⟨out, h1, h2⟩ := read_written lib n hs hq rows hlast hw hf
    refine ⟨out, h1, ?_⟩
    rw [h2]
    conv => rhs; rw [← List.map_id rows]
    refine List.map_congr_left fun row hr => ?_
    conv => rhs; rw [id, ← List.map_id row]
    exact List.map_congr_left fun f hfm => if_neg (h row hr f hfm)

/-- **C211, partial.**  Full claim: `C211_statement`.  Proved for fields that need no quotes.  Missing: the others, none of which is read right
(`C211_exact`, `C211_counterexample`). -/
theorem C211_plain_partial (lib : Lib D) (n : Nat) {sep : Char} (hs : sep ≠ '\n') (hq : sep ≠ '"') (rows : List (List (List Char)))
    (hlast : ∀ row ∈ rows, row.getLastD ['x'] ≠ []) (hw : ∀ row ∈ rows, row.length ≤ n)
    (hf : ∀ row ∈ rows, ∀ f ∈ row, ¬ Special sep f) :
    ∃ out, readCsv lib (List.replicate n .str) 0 sep (fileWith sep rows) = .ok out ∧ texts out = rows :=
  (C211_exact lib n hs hq rows hlast hw).2 hf

/-- **C211, partial**: what is read of fields that have quotes, but no separators and newlines: the text with the quotes around it and the doubled ones. -/
theorem C211_quotes_partial (lib : Lib D) (n : Nat) {sep : Char} (hs : sep ≠ '\n') (hq : sep ≠ '"') (rows : List (List (List Char)))
    (hlast : ∀ row ∈ rows, row.getLastD ['x'] ≠ []) (hw : ∀ row ∈ rows, row.length ≤ n)
    (hf : ∀ row ∈ rows, ∀ f ∈ row, sep ∉ f ∧ '\n' ∉ f) :
    ∃ out, readCsv lib (List.replicate n .str) 0 sep (fileWith sep rows) = .ok out ∧ texts out = rows.map (·.map (written sep)) :=
  read_written lib n hs hq rows hlast hw hf

/-- C211 fails for every separator. -/
theorem C211_counterexample (lib : Lib D) {sep : Char} (hs : sep ≠ '\n') (hq : sep ≠ '"') : ¬ C211_statement lib sep := by
  intro h
  have := (C211_exact lib 1 hs hq [[['"']]] (by simp) (by simp)).1 (h 1 [[['"']]] (by simp) (by simp))
  exact this [['"']] (by simp) ['"'] (by simp) (.inr (.inl (by simp)))

/-- C211 fails: a field with a separator is split and, in a file with one column, ends the reading: the rows after it are lost without any error. -/
theorem C211_counterexample_lost (lib : Lib D) :
    ∃ out, readCsv lib [.str] 0 ',' (fileWith ',' [["x".toList], ["a,b".toList], ["y".toList]]) = .ok out ∧ texts out = [["x".toList]] := by
  obtain ⟨out, h1, h2⟩ := C85_text lib 1 0 ',' (fileWith ',' [["x".toList], ["a,b".toList], ["y".toList]])
  refine ⟨out, h1, ?_⟩
  rw [h2]
  decide +kernel

example : written ',' "a,\"b\"".toList = "\"a,\"\"b\"\"\"".toList := by decide +kernel
example : fileWith ',' [["x".toList, "a,b".toList], ["y".toList]] = "x,\"a,b\"\ny\n".toList := by decide +kernel
example : ¬ Special ',' "plain text".toList ∧ Special ',' "a,b".toList := by decide +kernel

end Verif.Tools
