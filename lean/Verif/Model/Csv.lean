import Mathlib.Data.Prod.Lex
import Mathlib.Data.String.Basic
import Verif.Model.ShotData

/-!
# Model of the CSV text written and read by `src/collect_data.py` and `src/paper/aggregate_csv_data.py`

Texts are lists of characters. The text of a float is a parameter (`FloatText`).
-/

namespace Honeycomb

abbrev Text := List Char

/-- `str(x)` and `float(text)` for floats (the model's rationals); `none` is a ValueError. -/
structure FloatText where
  str : Rat → Text
  parse : Text → Option Rat

/-- `str(n)` for an int. -/
def intStr : Int → Text
  | .ofNat n => Nat.toDigits 10 n
  | .negSucc n => '-' :: Nat.toDigits 10 (n + 1)

/-- The white space that `str.strip`, `str.rstrip` and `int(text)` ignore (`str.isspace`), as code points. -/
def isBlank (c : Char) : Bool :=
  c.toNat ∈ [9, 10, 11, 12, 13, 28, 29, 30, 31, 32, 0x85, 0xa0, 0x1680, 0x2000, 0x2001, 0x2002, 0x2003, 0x2004, 0x2005, 0x2006,
    0x2007, 0x2008, 0x2009, 0x200a, 0x2028, 0x2029, 0x202f, 0x205f, 0x3000]

/-- `text.strip()`. -/
def strip (t : Text) : Text := ((t.dropWhile isBlank).reverse.dropWhile isBlank).reverse

/-- The digits of an int literal: groups separated by single underscores. Digits outside ASCII are not modelled. -/
def parseNat (t : Text) : Option Nat :=
  let groups := t.splitOn '_'
  if ∀ g ∈ groups, g ≠ [] ∧ ∀ c ∈ g, c.isDigit = true then some (Nat.ofDigitChars 10 groups.flatten 0) else none

/-- `int(text)`; `none` is a ValueError. -/
def parseInt (t : Text) : Option Int :=
  match strip t with
  | '-' :: t => (parseNat t).map fun n => -(n : Int)
  | '+' :: t => (parseNat t).map fun n => (n : Int)
  | t => (parseNat t).map fun n => (n : Int)

/-- collect_data.py:14-28 `CSV_HEADER`, as a list. -/
def csvColumns : List Text :=
  ["data_width", "data_height", "rounds", "noise", "circuit_style", "preserved_observable", "code_distance", "num_qubits",
    "num_shots", "num_correct", "total_processing_seconds", "decoder", "version"].map String.toList

/-- `",".join(fields)`. -/
def joinComma (fields : List Text) : Text := List.intercalate [','] fields

/-- collect_data.py:14-28 `CSV_HEADER`. -/
def csvHeader : Text := joinComma csvColumns

/-- The fields of a record (collect_data.py:162-176). Version 2 is `CSV_HEADER_VERSION` (collect_data.py:29). -/
def recordFields (F : FloatText) (d : DecodingProblemDesc) (v : ShotData) : List Text :=
  [intStr d.data_width, intStr d.data_height, intStr d.rounds, F.str d.noise, d.circuit_style.toList,
    d.preserved_observable.toList, intStr d.code_distance, intStr d.num_qubits, intStr v.num_shots, intStr v.num_correct,
    F.str v.total_processing_seconds, d.decoder.toList, intStr 2]

/-- A record (collect_data.py:162-176, aggregate_csv_data.py:26-40), without the line break. -/
def record (F : FloatText) (d : DecodingProblemDesc) (v : ShotData) : Text := joinComma (recordFields F d v)

/-- What `print` adds. -/
def line (t : Text) : Text := t ++ ['\n']

/-! ## Reading -/

/-- Text mode reading (`open(path, "r")`): every line end becomes `\n`. -/
def universalNewlines : Text → Text
  | '\r' :: '\n' :: t => '\n' :: universalNewlines t
  | '\r' :: t => '\n' :: universalNewlines t
  | c :: t => c :: universalNewlines t
  | [] => []

/-- The states of CPython's `csv.reader` (`Modules/_csv.c`), default dialect. -/
inductive CsvState where
  | startRecord | startField | inField | inQuoted | quoteInQuoted
deriving DecidableEq

/-- `csv.reader` over a text whose line ends are `\n`: the list of records. `field` and `fields` hold what was read of the
current record (most recent first). A `\n` stands for the line end and the end-of-line step CPython adds after each line.
NUL characters and the limit of 131072 characters per field are not modelled. -/
def csvGo : CsvState → Text → List Text → Text → List (List Text)
  | .startRecord, _, _, [] => []
  | _, field, fields, [] => [(field.reverse :: fields).reverse]
  | .startRecord, _, _, c :: t =>
    if c = '\n' then [] :: csvGo .startRecord [] [] t
    else if c = '"' then csvGo .inQuoted [] [] t
    else if c = ',' then csvGo .startField [] [[]] t
    else csvGo .inField [c] [] t
  | .startField, field, fields, c :: t =>
    if c = '\n' then (field.reverse :: fields).reverse :: csvGo .startRecord [] [] t
    else if c = '"' then csvGo .inQuoted field fields t
    else if c = ',' then csvGo .startField [] (field.reverse :: fields) t
    else csvGo .inField (c :: field) fields t
  | .inField, field, fields, c :: t =>
    if c = '\n' then (field.reverse :: fields).reverse :: csvGo .startRecord [] [] t
    else if c = ',' then csvGo .startField [] (field.reverse :: fields) t
    else csvGo .inField (c :: field) fields t
  | .inQuoted, field, fields, c :: t =>
    if c = '"' then csvGo .quoteInQuoted field fields t
    else csvGo .inQuoted (c :: field) fields t
  | .quoteInQuoted, field, fields, c :: t =>
    if c = '"' then csvGo .inQuoted ('"' :: field) fields t
    else if c = ',' then csvGo .startField [] (field.reverse :: fields) t
    else if c = '\n' then (field.reverse :: fields).reverse :: csvGo .startRecord [] [] t
    else csvGo .inField (c :: field) fields t

/-- `csv.reader(f)`. -/
def csvReader (text : Text) : List (List Text) := csvGo .startRecord [] [] (universalNewlines text)

/-- A row of `csv.DictReader`: `dict(zip(fieldnames, row))`, with `None` for missing columns. Surplus columns (stored under the
key `None`) are never looked at and left out. -/
def dictRow (header row : List Text) : PyDict Text (Option Text) :=
  PyDict.ofItems (header.zipIdx.map fun (name, i) => (name, row[i]?))

/-- `csv.DictReader(f)`: the first record holds the names, empty records are skipped. -/
def dictReader (text : Text) : List (PyDict Text (Option Text)) :=
  match csvReader text with
  | [] => []
  | header :: rest => (rest.filter (· ≠ [])).map (dictRow header)

/-- `row[name]`. -/
def rowGet (row : PyDict Text (Option Text)) (name : String) : Except PyErr (Option Text) :=
  match row.get? name.toList with
  | none => .error .keyError
  | some v => .ok v

/-- `row[name]` as a text. Simplification: for a row with too few columns Python stores None, the model raises. -/
def rowText (row : PyDict Text (Option Text)) (name : String) : Except PyErr Text := do
  match ← rowGet row name with
  | none => .error .typeError
  | some t => .ok t

/-- `int(row[name])`. -/
def rowInt (row : PyDict Text (Option Text)) (name : String) : Except PyErr Int := do
  let t ← rowText row name
  match parseInt t with
  | none => .error .valueError
  | some n => .ok n

/-- `float(row[name])`. -/
def rowFloat (F : FloatText) (row : PyDict Text (Option Text)) (name : String) : Except PyErr Rat := do
  let t ← rowText row name
  match F.parse t with
  | none => .error .valueError
  | some n => .ok n

/-- collect_data.py:349-359, and the three values of 361-363. -/
def parseRow (F : FloatText) (row : PyDict Text (Option Text)) : Except PyErr (DecodingProblemDesc × ShotData) := do
  let code_distance ← rowInt row "code_distance"
  let num_qubits ← rowInt row "num_qubits"
  let data_width ← rowInt row "data_width"
  let data_height ← rowInt row "data_height"
  let rounds ← rowInt row "rounds"
  let noise ← rowFloat F row "noise"
  let circuit_style ← rowText row "circuit_style"
  let preserved_observable ← rowText row "preserved_observable"
  let decoder ← rowText row "decoder"
  let num_shots ← rowInt row "num_shots"
  let num_correct ← rowInt row "num_correct"
  let seconds ← rowFloat F row "total_processing_seconds"
  .ok ({ data_width := data_width, data_height := data_height, code_distance := code_distance, num_qubits := num_qubits,
         rounds := rounds, noise := noise, circuit_style := String.ofList circuit_style,
         preserved_observable := String.ofList preserved_observable, decoder := String.ofList decoder },
       { num_shots := num_shots, num_correct := num_correct, total_processing_seconds := seconds })

/-- The three `+=` (collect_data.py:361-363, 331-333). -/
def ShotData.add (a b : ShotData) : ShotData :=
  { num_shots := a.num_shots + b.num_shots
    num_correct := a.num_correct + b.num_correct
    total_processing_seconds := a.total_processing_seconds + b.total_processing_seconds }

/-- `setdefault(key, ShotData())` followed by the three `+=` on the returned object. -/
def addShots {κ : Type} [DecidableEq κ] (data : PyDict κ ShotData) (key : κ) (v : ShotData) : PyDict κ ShotData :=
  data.set key (((data.get? key).getD {}).add v)

/-- collect_data.py:348-363: one row. -/
def readOneRow (F : FloatText) (data : PyDict DecodingProblemDesc ShotData) (row : PyDict Text (Option Text)) :
    Except PyErr (PyDict DecodingProblemDesc ShotData) := do
  let (key, v) ← parseRow F row
  .ok (addShots data key v)

/-- collect_data.py:344-364 `read_recorded_data`, given the contents of the files. -/
def readRecordedData (F : FloatText) (files : List Text) : Except PyErr (PyDict DecodingProblemDesc ShotData) :=
  files.foldlM (fun data text => (dictReader text).foldlM (readOneRow F) data) []

/-! ## Aggregating -/

/-- The tuple that `@dataclass(order=True)` compares (collect_data.py:32-56). -/
def DecodingProblemDesc.sortKey (d : DecodingProblemDesc) :
    Int ×ₗ Int ×ₗ Int ×ₗ Int ×ₗ Int ×ₗ Rat ×ₗ String ×ₗ String ×ₗ String :=
  toLex (d.data_width, toLex (d.data_height, toLex (d.code_distance, toLex (d.num_qubits, toLex (d.rounds, toLex (d.noise,
    toLex (d.circuit_style, toLex (d.preserved_observable, d.decoder))))))))

/-- aggregate_csv_data.py:22: `sorted(all_data.data.items())`. The keys are distinct, so the values are never compared. -/
def sortedItems (data : PyDict DecodingProblemDesc ShotData) : List (DecodingProblemDesc × ShotData) :=
  data.mergeSort fun a b => decide (a.1.sortKey ≤ b.1.sortKey)

/-- aggregate_csv_data.py:21-40: the printed text, given the contents of the files. -/
def aggregate (F : FloatText) (files : List Text) : Except PyErr Text := do
  let data ← readRecordedData F files
  .ok (line csvHeader ++ (sortedItems data).flatMap fun (d, v) => line (record F d v))

/-! ## Files named on the command line -/

/-- The file system as the scripts see it: `p.is_dir()`, `p.glob("*.csv")`, `p.rglob("**/*.csv")`, and the text of a file or the exception
that opening it raises. Paths are compared as texts. -/
structure Files where
  isDir : String → Bool
  glob : String → List String
  rglob : String → List String
  read : String → Except PyErr Text

/-- main_render_threshold_figure.py:19-25, main_render_detection_fraction_figure.py:16-22, main_render_lambda_figure.py:28-34,
aggregate_csv_data.py:13-19: directories stand for the csv files in them. `inside` is `glob` or `rglob`. -/
def csvPaths (isDir : String → Bool) (inside : String → List String) (args : List String) : List String :=
  args.foldl (fun csvs path => if isDir path then csvs ++ inside path else csvs ++ [path]) []

/-- collect_data.py:344-364 `read_recorded_data`, given the paths: every file is opened when its turn comes. -/
def readPaths (F : FloatText) (read : String → Except PyErr Text) (paths : List String) : Except PyErr (PyDict DecodingProblemDesc ShotData) :=
  paths.foldlM (fun data path => do
    let text ← read path
    (dictReader text).foldlM (readOneRow F) data) []

/-- aggregate_csv_data.py:9-40 `main`, for the command line arguments after the name of the script: the printed text. -/
def aggregateMain (F : FloatText) (fs : Files) (args : List String) : Except PyErr Text :=
  if args = [] then .error .valueError
  else do
    let data ← readPaths F fs.read (csvPaths fs.isDir fs.rglob args)
    .ok (line csvHeader ++ (sortedItems data).flatMap fun (d, v) => line (record F d v))

end Honeycomb
