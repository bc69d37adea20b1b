import Verif.Common

/-
Model of tools/divisors.h, math_operation.h, enum_factory.h, delimiters.h, read_csv.h and random.h.

Not modelled: memory.h (a one-line wrapper of `new`), timestamp.h (reads the clock), types.h (typedefs).
-/

namespace Verif.Tools

/-! ### divisors.h -/

/-- The loop of `divisors_of` (divisors.h:20-27), `k` iterations left, at `ii`.  `ii * ii` wraps modulo `2^64`. -/
def divLoop (n : Nat) : Nat → Nat → List Nat
  | 0, _ => []
  | k + 1, ii =>
    (if n % ii = 0 then
      ii :: (if ii * ii % W ≠ n then [n / ii] else [])         -- :21-26
    else []) ++ divLoop n k (ii + 1)

/-- `divisors_of` (divisors.h:16-32).  `square` is the value of `static_cast<uint64_t>(std::sqrt(n))`, a floating point
computation whose rounding is left to the hypothesis of the theorems.  `std::sort` is `mergeSort`. -/
def divisorsOf (square n : Nat) (sorting : Bool) : List Nat :=
  let divisors := divLoop n (square + 1 - 2) 2                 -- :20 `for (ii = 2; ii <= square; ii++)`
  if sorting then divisors.mergeSort else divisors             -- :28-30

/-- `gcd` (divisors.h:39-42). -/
def gcd (a b : Nat) : Nat :=
  if h : b = 0 then a else gcd b (a % b)
termination_by b
decreasing_by exact Nat.mod_lt _ (Nat.pos_of_ne_zero h)

/-! ### math_operation.h -/

/-- `sum_t::operator()` / `multiplication_t::operator()` for one, two and more arguments
(math_operation.h:24-35, 71-82): `args` are the arguments after the first, `op` is `+` or `*`. -/
def foldOp {α} (op : α → α → α) : α → List α → α
  | lhs, [] => lhs                                             -- :28-30
  | lhs, [rhs] => op lhs rhs                                   -- :24-26
  | lhs, rhs :: x :: other => op lhs (foldOp op rhs (x :: other))   -- :33-35

/-- `std::min(initializer_list)` / `std::max(initializer_list)` (math_operation.h:128, 146) and the two-argument
`std::min` / `std::max`: scan from the left, replacing the current result only by a strictly better element. -/
def extremum {α} (better : α → α → Bool) (x : α) (rest : List α) : α :=
  rest.foldl (fun best y => if better y best then y else best) x

/-! ### enum_factory.h -/

/-- The loop of `from_string` (enum_factory.h:57-65): `k` values left, at `value`.  Enumerators are their underlying
non-negative integers and `name` is `std::to_string`. -/
def fromLoop (name : Nat → String) (str : String) (maximum : Nat) : Nat → Nat → Nat
  | 0, _ => maximum                                            -- :56, loop ends with `result = maximum`
  | k + 1, value => if str = name value then value else fromLoop name str maximum k (value + 1)

/-- `from_string<T, minimum, maximum>` (enum_factory.h:53-67). -/
def fromString (name : Nat → String) (minimum maximum : Nat) (str : String) : Nat :=
  fromLoop name str maximum (maximum - minimum) minimum

/-! ### delimiters.h -/

/-- `custom_delimiter_t::get_table` (delimiters.h:100-109): entry `ii` is the `space` mask iff the filter rejects the
character `ii`; the table is static, hence zero-initialised. -/
def table (filter : Nat → Bool) : List Bool := (List.range 256).map fun ii => !filter ii

/-- `ctype::is(space, c)` by table lookup. -/
def isSpace (t : List Bool) (c : Nat) : Bool := t.getD c false

/-- `stream >> std::string` ([istream.extractors] / [string.io]): skip the space characters, then read up to the next
one; fails when nothing is left. -/
def extract (t : List Bool) (text : List Nat) : Option (List Nat × List Nat) :=
  let text := text.dropWhile (isSpace t)
  if text = [] then none
  else some (text.takeWhile (fun c => !isSpace t c), text.dropWhile (fun c => !isSpace t c))

/-- `while (stream >> s) tokens.push_back(s);` with at most `fuel` extractions. -/
def tokens (t : List Bool) : Nat → List Nat → List (List Nat)
  | 0, _ => []
  | fuel + 1, text =>
    match extract t text with
    | none => []
    | some (tok, rest) => tok :: tokens t fuel rest

/-! ### read_csv.h -/

inductive FieldType where
  | str
  | int
  | double
deriving DecidableEq, Repr

/-- `generic_field_t` (read_csv.h:23-83).  `idata`/`fdata`: `none` is an uninitialised member; in `fdata`, `some none` is
`nan`.  `D` is the type of doubles other than `nan`. -/
structure Field (D : Type) where
  type : FieldType
  text : String
  idata : Option Int
  fdata : Option (Option D)
deriving DecidableEq, Repr

/-- The conversion functions of the standard library: `std::stoi` and `std::stod` return `none` when they throw;
`nanInt` is the value of `static_cast<int>(nan)`, which the standard leaves undefined (`none`). -/
structure Lib (D : Type) where
  stoi : String → Option Int
  stod : String → Option D
  nanInt : Option Int

variable {D : Type}

def orThrow {α} : Option α → Res α
  | some a => .ok a
  | none => .exc .invalid

def orUb {α} : Option α → Res α
  | some a => .ok a
  | none => .ub

/-- `generic_field_t(std::string s, CSV_FIELD_TYPE t)` (read_csv.h:39-54). -/
def mkField (lib : Lib D) (s : String) (t : FieldType) : Res (Field D) :=
  match t with
  | .int => do
    let i ← orThrow (lib.stoi s)
    .ok ⟨t, s, some i, some none⟩                              -- :43-46
  | .double => do
    let f ← orThrow (lib.stod s)
    let i ← orUb lib.nanInt
    .ok ⟨t, s, some i, some (some f)⟩                          -- :47-50
  | .str => .ok ⟨t, s, none, none⟩                             -- :51-52: members left uninitialised

/-- `generic_field_t(std::string s)` (read_csv.h:33-37). -/
def mkFieldDefault (lib : Lib D) (s : String) : Res (Field D) := do
  let i ← orUb lib.nanInt
  .ok ⟨.str, s, some i, some none⟩

/-- `get_int` (read_csv.h:61-67).  `std::isnan` of an `int` is false; reading an uninitialised member is undefined. -/
def getInt (f : Field D) : Res Int := orUb f.idata

/-- `get_double` (read_csv.h:69-75). -/
def getDouble (lib : Lib D) (f : Field D) : Res D := do
  let d ← orUb f.fdata
  match d with
  | none => orThrow (lib.stod f.text)
  | some d => .ok d

/-- `std::getline(stream, s, sep)`: fails when no character is left, otherwise consumes up to and including the next
separator. -/
def getline (sep : Char) (text : List Char) : Option (List Char × List Char) :=
  if text = [] then none
  else some (text.takeWhile (· ≠ sep), (text.dropWhile (· ≠ sep)).drop 1)

theorem getline_shorter {sep : Char} {text a b : List Char} (h : getline sep text = some (a, b)) :
    b.length < text.length := by
  unfold getline at h
  split at h
  · cases h
  · rename_i hne
    simp only [Option.some.injEq, Prod.mk.injEq] at h
    obtain ⟨_, rfl⟩ := h
    have h1 : (text.dropWhile (· ≠ sep)).length ≤ text.length := (List.dropWhile_sublist _).length_le
    have h2 : 0 < text.length := List.length_pos_iff.mpr hne
    simp only [List.length_drop]
    omega

/-- The fields of a line, up to the end or to the first one beyond the descriptor (read_csv.h:122-133); `none` is the
early `return` at :131. -/
def readFields (lib : Lib D) (sep : Char) (line : List Char) : List FieldType → Res (Option (List (Field D)))
  | [] =>
    match getline sep line with
    | none => .ok (some [])
    | some _ => .ok none                                       -- :129-132
  | t :: ts =>
    match getline sep line with
    | none => .ok (some [])
    | some (field, rest) => do
      let f ← mkField lib (String.ofList field) t              -- :126-127
      let r ← readFields lib sep rest ts
      .ok (r.map (f :: ·))

/-- The rows of the file from the current position (read_csv.h:118-135). -/
def readRows (lib : Lib D) (sep : Char) (desc : List FieldType) (text : List Char) : Res (List (List (Field D))) :=
  match h : getline '\n' text with
  | none => .ok []
  | some (line, rest) => do
    let r ← readFields lib sep line desc
    match r with
    | none => .ok []
    | some row =>
      let rows ← readRows lib sep desc rest
      .ok (row :: rows)
termination_by text.length
decreasing_by exact getline_shorter h

/-- Skipping `start_offset` lines (read_csv.h:117). -/
def skipLines : Nat → List Char → List Char
  | 0, text => text
  | n + 1, text =>
    match getline '\n' text with
    | none => text
    | some (_, rest) => skipLines n rest

/-- `csv_reader_t::read_csv_file` (read_csv.h:110-139) on a readable file with contents `text`. -/
def readCsv (lib : Lib D) (desc : List FieldType) (offset : Int) (sep : Char) (text : List Char) :
    Res (List (List (Field D))) :=
  readRows lib sep desc (skipLines offset.toNat text)

/-! ### random.h -/

/-- `std::uniform_int_distribution<result_type>(start, end)(rng)`: undefined unless `start ≤ end`, otherwise some value
between them, chosen by the generator output `r`.  The arguments are converted to `result_type`, `bits` wide. -/
def draw (bits start stop r : Nat) : Res Nat :=
  let a := start % 2 ^ bits
  let b := stop % 2 ^ bits
  if a ≤ b then .ok (a + r % (b - a + 1)) else .ub

/-- `next_random<int_type>` (random.h:34-43), `int_type` of `tbits` bits. -/
def nextRandom (bits tbits start stop r : Nat) : Res Nat := do
  let x ← draw bits start stop r
  .ok (x % 2 ^ tbits)

/-- `next_random_char` (random.h:99-115). -/
def nextRandomChar (bits : Nat) (set : List Nat) (r : Nat) : Res Nat :=
  if set = [] then draw bits 32 126 r                          -- :107-108, `' '` to `'~'`
  else do
    let i ← draw bits 0 (set.length - 1) r
    rd set i

/-- The loop of `next_random_string` (random.h:79-81, 85-87); one generator output per character. -/
def randomChars (bits : Nat) (set : List Nat) : List Nat → Res (List Nat)
  | [] => .ok []
  | r :: rs => do
    let c ← nextRandomChar bits set r
    let cs ← randomChars bits set rs
    .ok (c :: cs)

/-- `next_random_string(count, character_set)` (random.h:71-90): `rng` is the sequence of generator outputs.  With a
non-empty set the code draws from its own generator with the same distribution as `next_random_char`. -/
def nextRandomString (bits count : Nat) (set : List Nat) (rng : Nat → Nat) : Res (List Nat) :=
  randomChars bits set ((List.range count).map rng)

end Verif.Tools
