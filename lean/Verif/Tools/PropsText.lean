import Verif.Tools.Model

/-
C82 (delimiters.h), C83-C85 (read_csv.h), C86-C87 (random.h).
-/

namespace Verif.Tools

/-! ### C82 -/

/-- The maximal runs of characters accepted by the filter: split at every rejected character, drop the empty pieces. -/
def runs (filter : Nat → Bool) (text : List Nat) : List (List Nat) :=
  (text.splitOnP (fun c => !filter c)).filter (· ≠ [])

theorem isSpace_table (filter : Nat → Bool) (c : Nat) (hc : c < 256) : isSpace (table filter) c = !filter c := by
  simp only [isSpace, table, List.getD_eq_getElem?_getD, List.getElem?_map, List.getElem?_range hc, Option.map_some,
    Option.getD_some]

theorem runs_cons_reject (filter : Nat → Bool) (c : Nat) (text : List Nat) (h : filter c = false) :
    runs filter (c :: text) = runs filter text := by
  simp [runs, List.splitOnP_cons_eq_if_modifyHead, h]

theorem runs_dropWhile (filter : Nat → Bool) (text : List Nat) :
    runs filter (text.dropWhile (fun c => !filter c)) = runs filter text := by
  induction text with
  | nil => rfl
  | cons c text ih =>
    by_cases h : filter c = true
    · simp [List.dropWhile_cons, h]
    · have h : filter c = false := by simpa using h
      rw [runs_cons_reject filter c text h, List.dropWhile_cons]
      simp [h, ih]

theorem takeWhile_all {α} (p : α → Bool) (l : List α) : ∀ x ∈ l.takeWhile p, p x = true := by
  intro x hx
  induction l with
  | nil => simp at hx
  | cons a l ih =>
    rw [List.takeWhile_cons] at hx
    split at hx
    · rename_i h
      simp only [List.mem_cons] at hx
      rcases hx with rfl | hx
      · exact h
      · exact ih hx
    · simp at hx

theorem dropWhile_head {α} (p : α → Bool) (l : List α) {a : α} {r : List α} (h : l.dropWhile p = a :: r) : p a = false := by
  induction l with
  | nil => simp at h
  | cons b l ih =>
    rw [List.dropWhile_cons] at h
    split at h
    · exact ih h
    · rename_i hb
      injection h with h1 h2
      subst h1
      simpa using hb

theorem runs_token (filter : Nat → Bool) (text : List Nat) (hne : text.takeWhile filter ≠ []) :
    runs filter text = text.takeWhile filter :: runs filter (text.dropWhile filter) := by
  have hall : ∀ x ∈ text.takeWhile filter, (fun c => !filter c) x = false := by
    intro x hx; simp [takeWhile_all _ _ x hx]
  cases hr : text.dropWhile filter with
  | nil =>
    have ht : text = text.takeWhile filter := by
      have := List.takeWhile_append_dropWhile (p := filter) (l := text)
      rw [hr, List.append_nil] at this; exact this.symm
    have e : runs filter text = runs filter (text.takeWhile filter) := by rw [← ht]
    rw [e]
    have h0 : runs filter ([] : List Nat) = [] := by simp [runs]
    rw [h0]
    unfold runs
    rw [List.splitOnP_eq_singleton hall]
    simp [hne]
  | cons s rest =>
    have hs := dropWhile_head _ _ hr
    have ht : text = text.takeWhile filter ++ s :: rest := by
      rw [← hr]; exact (List.takeWhile_append_dropWhile).symm
    rw [runs_cons_reject filter s rest hs]
    have e : runs filter text = runs filter (text.takeWhile filter ++ s :: rest) := by rw [← ht]
    rw [e]
    unfold runs
    rw [List.splitOnP_append_cons_of_forall_mem hall s (by simp [hs])]
    simp [hne]

theorem takeWhile_congr' {α} {p q : α → Bool} {l : List α} (h : ∀ x ∈ l, p x = q x) : l.takeWhile p = l.takeWhile q := by
  induction l with
  | nil => rfl
  | cons a l ih =>
    rw [List.takeWhile_cons, List.takeWhile_cons, h a (by simp), ih (fun x hx => h x (by simp [hx]))]

theorem dropWhile_congr' {α} {p q : α → Bool} {l : List α} (h : ∀ x ∈ l, p x = q x) : l.dropWhile p = l.dropWhile q := by
  induction l with
  | nil => rfl
  | cons a l ih =>
    rw [List.dropWhile_cons, List.dropWhile_cons, h a (by simp), ih (fun x hx => h x (by simp [hx]))]

/-- C82: reading words from a stream imbued with `custom_delimiter_t<Filter>` yields exactly the maximal runs of
characters accepted by the filter. -/
theorem C82_tokens (filter : Nat → Bool) (text : List Nat) (hbyte : ∀ c ∈ text, c < 256) (fuel : Nat)
    (hfuel : text.length < fuel) : tokens (table filter) fuel text = runs filter text := by
  induction fuel generalizing text with
  | zero => omega
  | succ fuel ih =>
    have e1 : text.dropWhile (isSpace (table filter)) = text.dropWhile (fun c => !filter c) :=
      dropWhile_congr' fun c hc => isSpace_table filter c (hbyte c hc)
    have hsub : ∀ c ∈ text.dropWhile (fun c => !filter c), c < 256 := fun c hc =>
      hbyte c ((List.dropWhile_sublist _).subset hc)
    have e2 : ∀ c ∈ text.dropWhile (fun c => !filter c), (fun c => !isSpace (table filter) c) c = filter c := by
      intro c hc; simp [isSpace_table filter c (hsub c hc)]
    unfold tokens extract
    simp only [e1, takeWhile_congr' e2, dropWhile_congr' e2]
    rw [← runs_dropWhile filter text]
    by_cases h0 : text.dropWhile (fun c => !filter c) = []
    · rw [if_pos h0, h0]; simp [runs]
    · rw [if_neg h0]
      obtain ⟨a, r, har⟩ := List.exists_cons_of_ne_nil h0
      have ha : filter a = true := by simpa using dropWhile_head _ _ har
      have hne : (text.dropWhile (fun c => !filter c)).takeWhile filter ≠ [] := by
        rw [har, List.takeWhile_cons]; simp [ha]
      rw [runs_token filter _ hne]
      simp only
      congr 1
      apply ih
      · intro c hc
        exact hsub c ((List.dropWhile_sublist _).subset hc)
      · have h1 := congrArg List.length
          (List.takeWhile_append_dropWhile (p := filter) (l := text.dropWhile (fun c => !filter c)))
        have h2 := List.length_pos_iff.mpr hne
        have h3 := (List.dropWhile_sublist (fun c => !filter c) (l := text)).length_le
        rw [List.length_append] at h1
        omega

/-- "12ab 7" with the digit filter. -/
example : tokens (table fun c => 48 ≤ c ∧ c ≤ 57) 100 [49, 50, 97, 98, 32, 55] = [[49, 50], [55]] := by decide +kernel

/-! ### CSV: lines and fields -/

/-- The pieces of a text ended (not separated) by `sep`: an unterminated last piece counts only if it is not empty. -/
def pieces (sep : Char) (text : List Char) : List (List Char) :=
  let ps := text.splitOn sep
  if ps.getLastD [] = [] then ps.dropLast else ps

theorem pieces_nil (sep : Char) : pieces sep [] = [] := by simp [pieces, List.splitOn_eq_splitOnP]

theorem pieces_single {sep : Char} {a : List Char} (h : sep ∉ a) (hne : a ≠ []) : pieces sep a = [a] := by
  simp [pieces, List.splitOn_eq_singleton h, hne]

theorem pieces_append {sep : Char} {a : List Char} (h : sep ∉ a) (b : List Char) :
    pieces sep (a ++ sep :: b) = a :: pieces sep b := by
  have hne := List.splitOn_ne_nil sep b
  unfold pieces
  rw [List.splitOn_append_cons_self_of_not_mem h b]
  obtain ⟨x, xs, hx⟩ := List.exists_cons_of_ne_nil hne
  rw [hx]
  simp only [List.getLastD_cons, List.dropLast_cons_cons]
  cases xs with
  | nil => simp; split <;> rfl
  | cons y ys => simp only [List.getLastD_cons]; split <;> simp

/-- Splitting a text at the first separator. -/
theorem first_piece (sep : Char) (text : List Char) :
    (sep ∉ text ∧ text.takeWhile (· ≠ sep) = text ∧ text.dropWhile (· ≠ sep) = []) ∨
    ∃ a b, text = a ++ sep :: b ∧ sep ∉ a ∧ text.takeWhile (· ≠ sep) = a ∧ text.dropWhile (· ≠ sep) = sep :: b := by
  have hno : sep ∉ text.takeWhile (· ≠ sep) := by
    intro hm
    have := takeWhile_all _ _ _ hm
    simp at this
  cases hr : text.dropWhile (· ≠ sep) with
  | nil =>
    left
    have := List.takeWhile_append_dropWhile (p := fun c => decide (c ≠ sep)) (l := text)
    rw [hr, List.append_nil] at this
    rw [this] at hno
    exact ⟨hno, this, rfl⟩
  | cons s b =>
    right
    have hs := dropWhile_head _ _ hr
    have hs : s = sep := by simpa using hs
    subst hs
    refine ⟨text.takeWhile (· ≠ s), b, ?_, hno, rfl, rfl⟩
    rw [← hr]; exact (List.takeWhile_append_dropWhile).symm

/-- `getline` removes the first piece. -/
theorem getline_pieces (sep : Char) (text : List Char) :
    (text = [] ∧ getline sep text = none ∧ pieces sep text = []) ∨
    ∃ a b, getline sep text = some (a, b) ∧ pieces sep text = a :: pieces sep b := by
  by_cases h : text = []
  · left; subst h; exact ⟨rfl, rfl, pieces_nil sep⟩
  · right
    unfold getline
    rw [if_neg h]
    rcases first_piece sep text with ⟨h1, h2, h3⟩ | ⟨a, b, h1, h2, h3, h4⟩
    · rw [h2, h3]
      exact ⟨text, [], rfl, by rw [pieces_single h1 h, pieces_nil]⟩
    · rw [h3, h4]
      exact ⟨a, b, rfl, by rw [h1]; exact pieces_append h2 b⟩

variable {D : Type}

/-- The fields of a row, made from left to right. -/
def mkAll (lib : Lib D) : List (List Char × FieldType) → Res (List (Field D))
  | [] => .ok []
  | (s, t) :: rest => do
    let f ← mkField lib (String.ofList s) t
    let r ← mkAll lib rest
    .ok (f :: r)

theorem readFields_eq (lib : Lib D) (sep : Char) (desc : List FieldType) : ∀ line, readFields lib sep line desc =
    (mkAll lib ((pieces sep line).zip desc)) >>= fun r =>
      .ok (if (pieces sep line).length ≤ desc.length then some r else none) := by
  induction desc with
  | nil =>
    intro line
    unfold readFields
    rcases getline_pieces sep line with ⟨_, h2, h3⟩ | ⟨a, b, h2, h3⟩
    · rw [h2, h3]; rfl
    · rw [h2, h3]; simp [mkAll]
  | cons t ts ih =>
    intro line
    unfold readFields
    rcases getline_pieces sep line with ⟨_, h2, h3⟩ | ⟨a, b, h2, h3⟩
    · rw [h2, h3]; rfl
    · rw [h2, h3]
      simp only [List.zip_cons_cons, mkAll]
      cases mkField lib (String.ofList a) t with
      | ub => rfl
      | exc e => rfl
      | ok f =>
        simp only [Res.bind_ok]
        rw [ih b]
        cases mkAll lib ((pieces sep b).zip ts) with
        | ub => rfl
        | exc e => rfl
        | ok r =>
          simp only [Res.bind_ok, List.length_cons]
          by_cases h : (pieces sep b).length ≤ ts.length
          · rw [if_pos h, if_pos (by omega)]; rfl
          · rw [if_neg h, if_neg (by omega)]; rfl

/-- What the reader does with the lines of the file. -/
def rowsOf (lib : Lib D) (sep : Char) (desc : List FieldType) : List (List Char) → Res (List (List (Field D)))
  | [] => .ok []
  | line :: rest => do
    let r ← mkAll lib ((pieces sep line).zip desc)
    if (pieces sep line).length ≤ desc.length then
      let rows ← rowsOf lib sep desc rest
      .ok (r :: rows)
    else .ok []

theorem readRows_eq (lib : Lib D) (sep : Char) (desc : List FieldType) : ∀ (n : Nat) (text : List Char),
    text.length ≤ n → readRows lib sep desc text = rowsOf lib sep desc (pieces '\n' text) := by
  intro n
  induction n with
  | zero =>
    intro text hn
    have : text = [] := List.length_eq_zero_iff.mp (by omega)
    subst this
    rw [pieces_nil, readRows]
    rfl
  | succ n ih =>
    intro text hn
    rw [readRows]
    rcases getline_pieces '\n' text with ⟨h1, h2, h3⟩ | ⟨a, b, h2, h3⟩
    · rw [h3]
      split
      · rfl
      · rename_i h; rw [h2] at h; cases h
    · rw [h3]
      split
      · rename_i h; rw [h2] at h; cases h
      · rename_i line rest h
        rw [h2] at h
        injection h with h
        injection h with ha hb
        subst ha; subst hb
        rw [readFields_eq]
        simp only [rowsOf]
        cases mkAll lib ((pieces sep a).zip desc) with
        | ub => rfl
        | exc e => rfl
        | ok r =>
          simp only [Res.bind_ok]
          have hlt := getline_shorter h2
          split
          · rename_i hle
            split at hle
            · cases hle
            · rename_i hh; rw [if_neg hh]
          · rename_i row hle
            split at hle
            · rename_i hh
              injection hle with hle
              subst hle
              rw [if_pos hh, ih b (by omega)]
            · cases hle

theorem skipLines_pieces (n : Nat) (text : List Char) : pieces '\n' (skipLines n text) = (pieces '\n' text).drop n := by
  induction n generalizing text with
  | zero => rfl
  | succ n ih =>
    unfold skipLines
    rcases getline_pieces '\n' text with ⟨h1, h2, h3⟩ | ⟨a, b, h2, h3⟩
    · rw [h2, h3]; simp [h3]
    · rw [h2, h3]; simp [ih]

/-- The reader in terms of the lines of the file: the lines after the offset, row by row. -/
theorem readCsv_eq (lib : Lib D) (desc : List FieldType) (offset : Int) (sep : Char) (text : List Char) :
    readCsv lib desc offset sep text = rowsOf lib sep desc ((pieces '\n' text).drop offset.toNat) := by
  unfold readCsv
  rw [readRows_eq lib sep desc _ _ (Nat.le_refl _), skipLines_pieces]

/-- The texts of the fields of all rows. -/
def texts (rows : List (List (Field D))) : List (List (List Char)) := rows.map (·.map fun f => f.text.toList)

theorem mkField_text {lib : Lib D} {s : String} {t : FieldType} {f : Field D} (h : mkField lib s t = .ok f) :
    f.text = s := by
  unfold mkField at h
  split at h
  · obtain ⟨i, _, h⟩ := Res.bind_eq_ok.mp h
    injection h with h; subst h; rfl
  · obtain ⟨i, _, h⟩ := Res.bind_eq_ok.mp h
    obtain ⟨j, _, h⟩ := Res.bind_eq_ok.mp h
    injection h with h; subst h; rfl
  · injection h with h; subst h; rfl

theorem mkField_type {lib : Lib D} {s : String} {t : FieldType} {f : Field D} (h : mkField lib s t = .ok f) :
    f.type = t ∧ (t = .int → f.idata = lib.stoi s) ∧ (t = .double → f.fdata = some (lib.stod s)) := by
  unfold mkField at h
  split at h
  · obtain ⟨i, hi, h⟩ := Res.bind_eq_ok.mp h
    injection h with h; subst h
    cases hs : lib.stoi s <;> simp_all [orThrow]
  · obtain ⟨i, hi, h⟩ := Res.bind_eq_ok.mp h
    obtain ⟨j, _, h⟩ := Res.bind_eq_ok.mp h
    injection h with h; subst h
    cases hs : lib.stod s <;> simp_all [orThrow]
  · injection h with h; subst h; simp

/-- The numeric members of a field of a numeric column hold the number its text stands for. -/
def Parsed (lib : Lib D) (f : Field D) : Prop :=
  (f.type = .int → f.idata = lib.stoi f.text) ∧ (f.type = .double → f.fdata = some (lib.stod f.text))

theorem mkAll_types (lib : Lib D) : ∀ (l : List (List Char × FieldType)) (r : List (Field D)), mkAll lib l = .ok r →
    r.map (·.type) = l.map Prod.snd ∧ ∀ f ∈ r, Parsed lib f := by
  intro l
  induction l with
  | nil => intro r h; injection h with h; subst h; simp
  | cons p l ih =>
    intro r h
    obtain ⟨s, t⟩ := p
    obtain ⟨f, hf, h⟩ := Res.bind_eq_ok.mp h
    obtain ⟨r', hr, h⟩ := Res.bind_eq_ok.mp h
    injection h with h; subst h
    obtain ⟨h1, h2, h3⟩ := mkField_type hf
    obtain ⟨i1, i2⟩ := ih r' hr
    refine ⟨by simp [h1, i1], ?_⟩
    intro g hg
    rcases List.mem_cons.mp hg with rfl | hg
    · unfold Parsed
      rw [h1, mkField_text hf]
      exact ⟨h2, h3⟩
    · exact i2 g hg

theorem rowsOf_types (lib : Lib D) (sep : Char) (desc : List FieldType) : ∀ (lines : List (List Char))
    (rows : List (List (Field D))), rowsOf lib sep desc lines = .ok rows →
    ∀ row ∈ rows, row.map (·.type) = desc.take row.length ∧ ∀ f ∈ row, Parsed lib f := by
  intro lines
  induction lines with
  | nil => intro rows h; injection h with h; subst h; simp
  | cons line lines ih =>
    intro rows h
    obtain ⟨r, hr, h⟩ := Res.bind_eq_ok.mp h
    split at h
    · rename_i hle
      obtain ⟨rs, hrs, h⟩ := Res.bind_eq_ok.mp h
      injection h with h; subst h
      intro row hrow
      rcases List.mem_cons.mp hrow with rfl | hrow
      · obtain ⟨h1, h2⟩ := mkAll_types lib _ _ hr
        refine ⟨?_, h2⟩
        have hl : row.length = (pieces sep line).length := by
          have := congrArg List.length h1
          simp only [List.length_map, List.length_zip] at this
          omega
        rw [h1, hl]
        apply List.ext_getElem?
        intro i
        simp only [List.getElem?_map, List.getElem?_zip_eq_some, List.getElem?_take]
        by_cases hi : i < (pieces sep line).length
        · rw [if_pos hi, List.getElem?_eq_getElem (by simp only [List.length_zip]; omega),
            List.getElem?_eq_getElem (by omega)]
          simp
        · rw [if_neg hi, List.getElem?_eq_none (by simp only [List.length_zip]; omega)]; rfl
      · exact ih rs hrs row hrow
    · injection h with h; subst h; simp

/-- Every field that has a column in the descriptor can be converted to its type. -/
def Convertible (lib : Lib D) (desc : List FieldType) (fields : List (List Char)) : Prop :=
  ∀ p ∈ fields.zip desc, (mkField lib (String.ofList p.1) p.2).isOk = true

theorem mkAll_ok (lib : Lib D) : ∀ l : List (List Char × FieldType),
    (∀ p ∈ l, (mkField lib (String.ofList p.1) p.2).isOk = true) →
    ∃ r, mkAll lib l = .ok r ∧ r.map (fun f => f.text.toList) = l.map Prod.fst := by
  intro l
  induction l with
  | nil => intro _; exact ⟨[], rfl, rfl⟩
  | cons p l ih =>
    intro h
    obtain ⟨s, t⟩ := p
    obtain ⟨r, hr1, hr2⟩ := ih (fun q hq => h q (by simp [hq]))
    have h1 := h (s, t) (by simp)
    cases hf : mkField lib (String.ofList s) t with
    | ub => rw [hf] at h1; cases h1
    | exc e => rw [hf] at h1; cases h1
    | ok f =>
      refine ⟨f :: r, ?_, ?_⟩
      · simp only [mkAll, hf, hr1, Res.bind_ok]
      · simp [hr2, mkField_text hf]

theorem rowsOf_spec (lib : Lib D) (sep : Char) (desc : List FieldType) (lines : List (List Char))
    (h : ∀ line ∈ lines, Convertible lib desc (pieces sep line)) :
    ∃ rows, rowsOf lib sep desc lines = .ok rows ∧
      texts rows = (lines.map (pieces sep)).takeWhile (fun fields => fields.length ≤ desc.length) := by
  induction lines with
  | nil => exact ⟨[], rfl, rfl⟩
  | cons line lines ih =>
    obtain ⟨rows, h1, h2⟩ := ih (fun l hl => h l (by simp [hl]))
    obtain ⟨r, hr1, hr2⟩ := mkAll_ok lib _ (h line (by simp))
    simp only [rowsOf, hr1, Res.bind_ok, List.map_cons, List.takeWhile_cons]
    by_cases hle : (pieces sep line).length ≤ desc.length
    · rw [if_pos hle, h1]
      refine ⟨r :: rows, rfl, ?_⟩
      simp only [hle, decide_true, if_true]
      rw [← h2]
      simp only [texts, List.map_cons, hr2]
      congr 1
      rw [List.map_fst_zip hle]
    · rw [if_neg hle]
      exact ⟨[], rfl, by simp [hle, texts]⟩

/-! ### C83 -/

/-- The line of a row: its fields joined by the separator. -/
def joinRow (sep : Char) (row : List (List Char)) : List Char := [sep].intercalate row

/-- A file: every line is ended by a newline. -/
def fileOf (lines : List (List Char)) : List Char := (lines.map (· ++ ['\n'])).flatten

theorem pieces_fileOf (lines : List (List Char)) (h : ∀ l ∈ lines, '\n' ∉ l) : pieces '\n' (fileOf lines) = lines := by
  induction lines with
  | nil => exact pieces_nil _
  | cons l lines ih =>
    have : fileOf (l :: lines) = l ++ '\n' :: fileOf lines := by simp [fileOf]
    rw [this, pieces_append (h l (by simp)), ih (fun x hx => h x (by simp [hx]))]

theorem pieces_joinRow (sep : Char) : ∀ (row : List (List Char)), (∀ f ∈ row, sep ∉ f) → row.getLastD ['x'] ≠ [] →
    pieces sep (joinRow sep row) = row := by
  intro row
  induction row with
  | nil => intro _ _; exact pieces_nil _
  | cons f row ih =>
    intro h hl
    cases row with
    | nil =>
      have hf : f ≠ [] := by simpa using hl
      have : joinRow sep [f] = f := by simp [joinRow]
      rw [this]; exact pieces_single (h f (by simp)) hf
    | cons g row =>
      have : joinRow sep (f :: g :: row) = f ++ sep :: joinRow sep (g :: row) := by
        simp [joinRow, List.intercalate_cons_cons]
      rw [this, pieces_append (h f (by simp)), ih (fun x hx => h x (by simp [hx])) (by simpa using hl)]

theorem newline_joinRow {sep : Char} (hsep : sep ≠ '\n') : ∀ (row : List (List Char)), (∀ f ∈ row, '\n' ∉ f) →
    '\n' ∉ joinRow sep row := by
  intro row
  induction row with
  | nil => intro _; simp [joinRow]
  | cons f row ih =>
    intro h
    cases row with
    | nil => simpa [joinRow] using h f (by simp)
    | cons g row =>
      have : joinRow sep (f :: g :: row) = f ++ sep :: joinRow sep (g :: row) := by
        simp [joinRow, List.intercalate_cons_cons]
      rw [this]
      simp only [List.mem_append, List.mem_cons, not_or]
      exact ⟨h f (by simp), hsep.symm, ih (fun x hx => h x (by simp [hx]))⟩

/-- C83: a file of `start_offset` arbitrary lines followed by rows whose fields are joined by the separator is read back
exactly: the field texts returned are the fields of the rows, every field has the type of its column, and the number of a
numeric column is the one its text stands for.  Preconditions: fields contain neither separator nor
newline, the last field of a row is not empty, no row is wider than the descriptor, and fields of numeric columns
are numbers. -/
theorem C83_round_trip (lib : Lib D) (desc : List FieldType) (sep : Char) (header : List (List Char))
    (rows : List (List (List Char))) (hsep : sep ≠ '\n') (hh : ∀ l ∈ header, '\n' ∉ l)
    (hf : ∀ row ∈ rows, ∀ f ∈ row, sep ∉ f ∧ '\n' ∉ f) (hlast : ∀ row ∈ rows, row.getLastD ['x'] ≠ [])
    (hw : ∀ row ∈ rows, row.length ≤ desc.length) (hc : ∀ row ∈ rows, Convertible lib desc row) :
    ∃ out, readCsv lib desc header.length sep (fileOf (header ++ rows.map (joinRow sep))) = .ok out ∧
      texts out = rows ∧ ∀ row ∈ out, row.map (·.type) = desc.take row.length ∧ ∀ f ∈ row, Parsed lib f := by
  have hl : ∀ l ∈ header ++ rows.map (joinRow sep), '\n' ∉ l := by
    intro l hl
    simp only [List.mem_append, List.mem_map] at hl
    rcases hl with hl | ⟨row, hrow, rfl⟩
    · exact hh l hl
    · exact newline_joinRow hsep row (fun f hfm => (hf row hrow f hfm).2)
  have hp : ∀ row ∈ rows, pieces sep (joinRow sep row) = row := fun row hrow =>
    pieces_joinRow sep row (fun f hfm => (hf row hrow f hfm).1) (hlast row hrow)
  rw [readCsv_eq, pieces_fileOf _ hl, show ((header.length : Int)).toNat = header.length by omega, List.drop_left]
  obtain ⟨out, h1, h2⟩ := rowsOf_spec lib sep desc (rows.map (joinRow sep)) (by
    intro l hl
    simp only [List.mem_map] at hl
    obtain ⟨row, hrow, rfl⟩ := hl
    rw [hp row hrow]
    exact hc row hrow)
  refine ⟨out, h1, ?_, rowsOf_types lib sep desc _ out h1⟩
  rw [h2, List.map_map]
  have e : rows.map (pieces sep ∘ joinRow sep) = rows := by
    conv => rhs; rw [← List.map_id rows]
    exact List.map_congr_left fun row hrow => hp row hrow
  rw [e]
  have : ∀ l : List (List (List Char)), (∀ r ∈ l, r.length ≤ desc.length) →
      l.takeWhile (fun fields => decide (fields.length ≤ desc.length)) = l := by
    intro l
    induction l with
    | nil => intro _; rfl
    | cons r l ih => intro h; rw [List.takeWhile_cons, if_pos (by simpa using h r (by simp)), ih (fun x hx => h x (by simp [hx]))]
  exact this rows hw

/-- C83, the precondition on the last field is needed: a trailing empty field is lost. -/
theorem C83_trailing_empty (lib : Lib D) :
    (readCsv lib [.str, .str] 0 ',' "a,\n".toList).toOption.map texts = some [[['a']]] := by
  have h1 : pieces '\n' "a,\n".toList = [['a', ',']] := by decide +kernel
  have h2 : pieces ',' ['a', ','] = [['a']] := by decide +kernel
  rw [readCsv_eq, h1]
  simp [rowsOf, h2, mkAll, mkField, texts, Res.toOption]

/-- A library for the examples: decimal digits only, doubles are integers. -/
def demoLib : Lib Int where
  stoi s := if s.toList.all Char.isDigit then some (s.toList.foldl (fun n c => 10 * n + (c.toNat - 48)) 0) else none
  stod s := if s.toList.all Char.isDigit then some (s.toList.foldl (fun n c => 10 * n + (c.toNat - 48)) 0) else none
  nanInt := none

example : (readCsv demoLib [.str, .int] 1 ';' "name;n\nx;12\ny;7\n".toList).toOption.map texts =
    some [["x".toList, "12".toList], ["y".toList, "7".toList]] := by
  obtain ⟨out, h1, h2, _⟩ := C83_round_trip demoLib [.str, .int] ';' ["name;n".toList]
    [["x".toList, "12".toList], ["y".toList, "7".toList]] (by decide) (by decide) (by decide) (by decide) (by decide)
    (by unfold Convertible; decide +kernel)
  have e : readCsv demoLib [.str, .int] 1 ';' "name;n\nx;12\ny;7\n".toList = .ok out := h1
  rw [e]
  simp only [Res.toOption, Option.map_some, h2]

/-! ### C84 -/

/-- The full claim of C84, with conversions that succeed: a field made from a text that is a number yields that number
through both getters, whatever the column type. -/
def C84_statement (lib : Lib D) : Prop :=
  ∀ (s : String) (t : FieldType) (i : Int) (d : D), lib.stoi s = some i → lib.stod s = some d →
    ∃ f, mkField lib s t = .ok f ∧ getInt f = .ok i ∧ getDouble lib f = .ok d

/-- C84 fails for text columns: both getters read uninitialised members. -/
theorem C84_counterexample (lib : Lib D) (s : String) :
    ∃ f, mkField lib s .str = .ok f ∧ getInt f = .ub ∧ getDouble lib f = .ub :=
  ⟨⟨.str, s, none, none⟩, rfl, rfl, rfl⟩

theorem C84_counterexample_all (lib : Lib D) (s : String) (i : Int) (d : D) (hi : lib.stoi s = some i)
    (hd : lib.stod s = some d) : ¬ C84_statement lib := by
  intro h
  obtain ⟨f, h1, h2, _⟩ := h s .str i d hi hd
  injection h1 with h1
  subst h1
  cases h2

/-- C84 fails for double columns: `static_cast<int>(nan)` is undefined; on a platform that gives it the value `v`
(`INT_MIN` on x86), `get_int` returns `v` whatever the text says, because `std::isnan` of an `int` is never true. -/
theorem C84_counterexample_double (lib : Lib D) (s : String) (d : D) (hd : lib.stod s = some d) :
    (lib.nanInt = none → mkField lib s .double = .ub) ∧
    (∀ v, lib.nanInt = some v → ∃ f, mkField lib s .double = .ok f ∧ getInt f = .ok v) := by
  constructor
  · intro h; simp [mkField, hd, h, orThrow, orUb]
  · intro v h
    exact ⟨⟨.double, s, some v, some (some d)⟩, by simp [mkField, hd, h, orThrow, orUb], rfl⟩

/-- C84, the part that holds: integer columns (both getters), and `get_double` of double columns and of fields made by
the one-argument constructor on platforms that define the conversion of `nan`.
Missing: text columns, and `get_int` of double columns, see the counterexamples. -/
theorem C84_getters_partial (lib : Lib D) (s : String) :
    (∀ i d, lib.stoi s = some i → lib.stod s = some d →
      ∃ f, mkField lib s .int = .ok f ∧ getInt f = .ok i ∧ getDouble lib f = .ok d) ∧
    (∀ d v, lib.stod s = some d → lib.nanInt = some v →
      (∃ f, mkField lib s .double = .ok f ∧ getDouble lib f = .ok d) ∧
      ∃ f, mkFieldDefault lib s = .ok f ∧ getDouble lib f = .ok d) := by
  refine ⟨fun i d hi hd => ⟨⟨.int, s, some i, some none⟩, ?_, rfl, ?_⟩, fun d v hd hv => ⟨⟨⟨.double, s, some v, some (some d)⟩,
    ?_, rfl⟩, ⟨⟨.str, s, some v, some none⟩, ?_, ?_⟩⟩⟩
  · simp [mkField, hi, orThrow]
  · simp [getDouble, orUb, orThrow, hd]
  · simp [mkField, hd, hv, orThrow, orUb]
  · simp [mkFieldDefault, hv, orUb]
  · simp [getDouble, orUb, orThrow, hd]

/-! ### C85 -/

/-- C85: for any file contents, as long as the fields convert, the rows returned are those of the lines after the
offset, up to (excluding) the first line with more fields than the descriptor; shorter rows are kept as they are. -/
theorem C85_prefix (lib : Lib D) (desc : List FieldType) (offset : Int) (sep : Char) (text : List Char)
    (h : ∀ line ∈ (pieces '\n' text).drop offset.toNat, Convertible lib desc (pieces sep line)) :
    ∃ rows, readCsv lib desc offset sep text = .ok rows ∧
      texts rows = (((pieces '\n' text).drop offset.toNat).map (pieces sep)).takeWhile
        (fun fields => fields.length ≤ desc.length) := by
  rw [readCsv_eq]
  exact rowsOf_spec lib sep desc _ h

/-- C85 for descriptors of text columns only: no condition on the fields. -/
theorem C85_text (lib : Lib D) (n : Nat) (offset : Int) (sep : Char) (text : List Char) :
    ∃ rows, readCsv lib (List.replicate n .str) offset sep text = .ok rows ∧
      texts rows = (((pieces '\n' text).drop offset.toNat).map (pieces sep)).takeWhile
        (fun fields => fields.length ≤ n) := by
  have := C85_prefix lib (List.replicate n .str) offset sep text (by
    intro line _ p hp
    have := (List.of_mem_zip hp).2
    rw [List.eq_of_mem_replicate this]
    rfl)
  simpa using this

/-- C85: nothing after the first line that is too long is looked at: its contents are arbitrary. -/
theorem C85_long (lib : Lib D) (desc : List FieldType) (offset : Int) (sep : Char) (text : List Char)
    (before after : List (List Char)) (long : List Char)
    (hsplit : (pieces '\n' text).drop offset.toNat = before ++ long :: after)
    (hb : ∀ line ∈ before, Convertible lib desc (pieces sep line) ∧ (pieces sep line).length ≤ desc.length)
    (hl : Convertible lib desc (pieces sep long)) (hw : desc.length < (pieces sep long).length) :
    ∃ rows, readCsv lib desc offset sep text = .ok rows ∧ texts rows = before.map (pieces sep) := by
  rw [readCsv_eq, hsplit]
  clear hsplit
  induction before with
  | nil =>
    obtain ⟨r, hr, _⟩ := mkAll_ok lib _ hl
    simp only [List.nil_append, rowsOf, hr, Res.bind_ok]
    rw [if_neg (by omega)]
    exact ⟨[], rfl, rfl⟩
  | cons line before ih =>
    obtain ⟨rows, h1, h2⟩ := ih (fun l hl => hb l (by simp [hl]))
    obtain ⟨r, hr1, hr2⟩ := mkAll_ok lib _ (hb line (by simp)).1
    have hle := (hb line (by simp)).2
    simp only [List.cons_append, rowsOf, hr1, Res.bind_ok]
    rw [if_pos hle, h1]
    refine ⟨r :: rows, rfl, ?_⟩
    rw [List.map_cons, ← h2]
    simp only [texts, List.map_cons, hr2]
    congr 1
    rw [List.map_fst_zip hle]

example : (readCsv demoLib [.str] 0 ',' "a\n\nb,c\nd\n".toList).toOption.map texts = some [[['a']], []] := by
  decide +kernel

/-- C85: a field that is not a number in a numeric column makes the call throw (the rows read so far are lost). -/
theorem C85_throws (lib : Lib D) (sep : Char) (line : List Char) (rest : List (List Char)) (s : List Char)
    (t : List (List Char)) (hline : pieces sep line = s :: t) (h : lib.stoi (String.ofList s) = none) :
    rowsOf lib sep [.int] (line :: rest) = .exc .invalid := by
  simp [rowsOf, hline, mkAll, mkField, h, orThrow]

/-! ### C86 -/

theorem draw_range {bits start stop : Nat} (h : start ≤ stop) (hb : stop < 2 ^ bits) (r : Nat) :
    ∃ x, draw bits start stop r = .ok x ∧ start ≤ x ∧ x ≤ stop := by
  unfold draw
  rw [Nat.mod_eq_of_lt hb, Nat.mod_eq_of_lt (Nat.lt_of_le_of_lt h hb)]
  simp only [h, if_true]
  refine ⟨_, rfl, by omega, ?_⟩
  have := Nat.mod_lt r (show 0 < stop - start + 1 by omega)
  omega

/-- C86: when `end` fits both the generator's `result_type` and `int_type`, every value produced by `next_random` is in
`[start, end]`.  On the modelled platform (`uint_fast32_t` and `unsigned long` of 64 bits) this is every `end`. -/
theorem C86_in_range (bits tbits start stop r : Nat) (h : start ≤ stop) (hb : stop < 2 ^ bits) (ht : stop < 2 ^ tbits) :
    ∃ x, nextRandom bits tbits start stop r = .ok x ∧ start ≤ x ∧ x ≤ stop := by
  obtain ⟨x, h1, h2, h3⟩ := draw_range h hb r
  refine ⟨x, ?_, h2, h3⟩
  unfold nextRandom
  rw [h1]
  simp only [Res.bind_ok]
  rw [Nat.mod_eq_of_lt (Nat.lt_of_le_of_lt h3 ht)]

/-- C86: every value of the range is produced by some generator output. -/
theorem C86_onto (bits tbits start stop x : Nat) (h1 : start ≤ x) (h2 : x ≤ stop) (hb : stop < 2 ^ bits)
    (ht : stop < 2 ^ tbits) : ∃ r, nextRandom bits tbits start stop r = .ok x := by
  refine ⟨x - start, ?_⟩
  unfold nextRandom draw
  rw [Nat.mod_eq_of_lt hb, Nat.mod_eq_of_lt (show start < 2 ^ bits by omega)]
  simp only [show start ≤ stop by omega, if_true, Res.bind_ok]
  rw [Nat.mod_eq_of_lt (show x - start < stop - start + 1 by omega), show start + (x - start) = x by omega,
    Nat.mod_eq_of_lt (by omega)]

/-- C86, the preconditions are needed: where `result_type` has 32 bits, `next_random(2^32, 2^32 + 5)` yields values
below 6; a negative `start` converted to `unsigned long` exceeds `end` and the distribution is undefined. -/
theorem C86_narrow : nextRandom 32 64 (2 ^ 32) (2 ^ 32 + 5) 3 = .ok 3 ∧ nextRandom 64 32 (2 ^ 64 - 5) 5 0 = .ub := by
  decide +kernel

example : nextRandom 64 64 10 20 1234 = .ok 12 := by decide

/-! ### C87 -/

theorem nextRandomChar_ok {bits : Nat} {set : List Nat} (h7 : 7 ≤ bits) (hset : set.length ≤ 2 ^ bits) (r : Nat) :
    ∃ c, nextRandomChar bits set r = .ok c ∧ (set ≠ [] → c ∈ set) ∧ (set = [] → 32 ≤ c ∧ c ≤ 126) := by
  unfold nextRandomChar
  by_cases h : set = []
  · have hb : 126 < 2 ^ bits := Nat.lt_of_lt_of_le (by decide : 126 < 2 ^ 7) (Nat.pow_le_pow_right (by omega) h7)
    obtain ⟨x, h1, h2, h3⟩ := draw_range (bits := bits) (show 32 ≤ 126 by decide) hb r
    rw [if_pos h, h1]
    exact ⟨x, rfl, fun hn => absurd h hn, fun _ => ⟨h2, h3⟩⟩
  · have hpos := List.length_pos_iff.mpr h
    obtain ⟨i, h1, _, h3⟩ := draw_range (bits := bits) (start := 0) (stop := set.length - 1) (by omega) (by omega) r
    rw [if_neg h, h1]
    simp only [Res.bind_ok]
    have hi : i < set.length := by omega
    rw [rd_lt hi]
    exact ⟨set[i], rfl, fun _ => List.getElem_mem hi, fun hn => absurd hn h⟩

/-- C87: `next_random_string(n, set)` has `n` characters, all from `set`, or printable ASCII when `set` is empty. -/
theorem C87_string (bits count : Nat) (set : List Nat) (rng : Nat → Nat) (h7 : 7 ≤ bits) (hset : set.length ≤ 2 ^ bits) :
    ∃ out, nextRandomString bits count set rng = .ok out ∧ out.length = count ∧
      (set ≠ [] → ∀ c ∈ out, c ∈ set) ∧ (set = [] → ∀ c ∈ out, 32 ≤ c ∧ c ≤ 126) := by
  have key : ∀ rs : List Nat, ∃ out, randomChars bits set rs = .ok out ∧ out.length = rs.length ∧
      (set ≠ [] → ∀ c ∈ out, c ∈ set) ∧ (set = [] → ∀ c ∈ out, 32 ≤ c ∧ c ≤ 126) := by
    intro rs
    induction rs with
    | nil => exact ⟨[], rfl, rfl, by simp, by simp⟩
    | cons r rs ih =>
      obtain ⟨out, h1, h2, h3, h4⟩ := ih
      obtain ⟨c, c1, c2, c3⟩ := nextRandomChar_ok h7 hset r
      refine ⟨c :: out, by simp only [randomChars, c1, h1, Res.bind_ok], by simp [h2], fun hs x hx => ?_, fun hs x hx => ?_⟩
      · simp only [List.mem_cons] at hx
        rcases hx with rfl | hx
        · exact c2 hs
        · exact h3 hs x hx
      · simp only [List.mem_cons] at hx
        rcases hx with rfl | hx
        · exact c3 hs
        · exact h4 hs x hx
  obtain ⟨out, h1, h2, h3⟩ := key ((List.range count).map rng)
  exact ⟨out, h1, by simpa using h2, h3⟩

example : nextRandomString 64 4 [97, 98, 99] (fun i => i * 5) = .ok [97, 99, 98, 97] := by decide +kernel

end Verif.Tools
