import Verif.Model.Prelude

/-!
# JSON text

Model of what `serde_json` 1.0.128 writes (`to_string`, compact) and accepts (`from_str`), the two
calls of `backend/types.rs:53,68`. The library is not part of /repo; this is the format of its
documentation and RFC 8259.
-/

namespace AJ

/-- A JSON value. A number is kept as its text. -/
inductive Json where
  | null
  | bool (b : Bool)
  | num (lex : Str)
  | str (s : Str)
  | arr (l : List Json)
  | obj (l : List (Str × Json))

namespace Json

/-! ## Writing -/

/-- Lower-case hexadecimal digit. -/
def hexDigit (n : Nat) : Char :=
  if n < 10 then Char.ofNat (48 + n) else Char.ofNat (87 + n)

/-- One character inside a string literal: `"`, `\` and the control characters below U+0020 are
escaped, everything else is copied. -/
def escChar (c : Char) : Str :=
  if c = '"' then ['\\', '"']
  else if c = '\\' then ['\\', '\\']
  else if c = '\x08' then ['\\', 'b']
  else if c = '\x0c' then ['\\', 'f']
  else if c = '\n' then ['\\', 'n']
  else if c = '\r' then ['\\', 'r']
  else if c = '\t' then ['\\', 't']
  else if c.toNat < 32 then ['\\', 'u', '0', '0', hexDigit (c.toNat / 16), hexDigit (c.toNat % 16)]
  else [c]

/-- The characters of a string literal up to and with the closing quote. -/
def printChars : Str → Str
  | [] => ['"']
  | c :: s => escChar c ++ printChars s

/-- A string literal. -/
def printStr (s : Str) : Str := '"' :: printChars s

mutual
/-- Compact JSON text. -/
def print : Json → Str
  | .null => c!"null"
  | .bool true => c!"true"
  | .bool false => c!"false"
  | .num lex => lex
  | .str s => printStr s
  | .arr l => '[' :: printElems l
  | .obj l => '{' :: printMembers l

/-- Elements of an array, up to and with the closing bracket. -/
def printElems : List Json → Str
  | [] => c!"]"
  | v :: l => print v ++ printElemsTail l

/-- Further elements of an array. -/
def printElemsTail : List Json → Str
  | [] => c!"]"
  | v :: l => ',' :: (print v ++ printElemsTail l)

/-- Members of an object, up to and with the closing brace. -/
def printMembers : List (Str × Json) → Str
  | [] => c!"}"
  | (k, v) :: l => printStr k ++ ':' :: (print v ++ printMembersTail l)

/-- Further members of an object. -/
def printMembersTail : List (Str × Json) → Str
  | [] => c!"}"
  | (k, v) :: l => ',' :: (printStr k ++ ':' :: (print v ++ printMembersTail l))
end

/-! ## Reading -/

/-- JSON white space. -/
def isWs (c : Char) : Bool := c = ' ' || c = '\n' || c = '\t' || c = '\r'

/-- Skip white space. -/
def skipWs : Str → Str
  | [] => []
  | c :: s => if isWs c then skipWs s else c :: s

/-- Value of a hexadecimal digit. -/
def hexVal (c : Char) : Option Nat :=
  let n := c.toNat
  if 48 ≤ n ∧ n ≤ 57 then some (n - 48)
  else if 97 ≤ n ∧ n ≤ 102 then some (n - 87)
  else if 65 ≤ n ∧ n ≤ 70 then some (n - 55)
  else none

/-- Four hexadecimal digits. -/
def hex4 : Str → Option (Nat × Str)
  | a :: b :: c :: d :: s =>
    match hexVal a, hexVal b, hexVal c, hexVal d with
    | some a, some b, some c, some d => some (a * 4096 + b * 256 + c * 16 + d, s)
    | _, _, _, _ => none
  | _ => none

/-- What follows `\u`: a code unit, or a surrogate pair. A lone surrogate is an error. -/
def unicodeEsc (s : Str) : Option (Char × Str) :=
  match hex4 s with
  | none => none
  | some (n, r) =>
    if 0xD800 ≤ n ∧ n ≤ 0xDBFF then
      match r with
      | '\\' :: 'u' :: r' =>
        match hex4 r' with
        | some (m, r'') =>
          if 0xDC00 ≤ m ∧ m ≤ 0xDFFF then
            some (Char.ofNat (0x10000 + (n - 0xD800) * 0x400 + (m - 0xDC00)), r'')
          else none
        | none => none
      | _ => none
    else if 0xDC00 ≤ n ∧ n ≤ 0xDFFF then none
    else some (Char.ofNat n, r)

/-- What follows a backslash. -/
def escape : Str → Option (Char × Str)
  | [] => none
  | c :: r =>
    if c = '"' then some ('"', r)
    else if c = '\\' then some ('\\', r)
    else if c = '/' then some ('/', r)
    else if c = 'b' then some ('\x08', r)
    else if c = 'f' then some ('\x0c', r)
    else if c = 'n' then some ('\n', r)
    else if c = 'r' then some ('\r', r)
    else if c = 't' then some ('\t', r)
    else if c = 'u' then unicodeEsc r
    else none

/-- The rest of a string literal, after the opening quote. Raw control characters are an error.
`fuel` bounds the number of characters. -/
def parseChars : Nat → Str → Option (Str × Str)
  | 0, _ => none
  | _ + 1, [] => none
  | fuel + 1, c :: r =>
    if c = '"' then some ([], r)
    else if c = '\\' then
      match escape r with
      | some (c, r) => (parseChars fuel r).map fun p => (c :: p.1, p.2)
      | none => none
    else if c.toNat < 32 then none
    else (parseChars fuel r).map fun p => (c :: p.1, p.2)

/-- Characters that may occur in a number. -/
def isNumChar (c : Char) : Bool :=
  c.isDigit || c = '-' || c = '+' || c = '.' || c = 'e' || c = 'E'

/-- The longest prefix of number characters, and the rest. -/
def spanNum : Str → Str × Str
  | [] => ([], [])
  | c :: s => if isNumChar c then let p := spanNum s; (c :: p.1, p.2) else ([], c :: s)

/-- Digits only. -/
def allDigits (s : Str) : Bool := s.all Char.isDigit

/-- Optional exponent. -/
def isExp : Str → Bool
  | [] => true
  | c :: s => (c = 'e' || c = 'E') && (match s with
    | '+' :: s => !s.isEmpty && allDigits s
    | '-' :: s => !s.isEmpty && allDigits s
    | s => !s.isEmpty && allDigits s)

/-- Optional fraction, then optional exponent. -/
def isFrac : Str → Bool
  | '.' :: s =>
    let d := s.takeWhile Char.isDigit
    !d.isEmpty && isExp (s.drop d.length)
  | s => isExp s

/-- Unsigned number: no leading zeros. -/
def isUnsigned : Str → Bool
  | [] => false
  | '0' :: s => isFrac s
  | c :: s => c.isDigit && isFrac (s.drop (s.takeWhile Char.isDigit).length)

/-- RFC 8259 number. -/
def isNumLex : Str → Bool
  | '-' :: s => isUnsigned s
  | s => isUnsigned s

mutual
/-- Read one value. `fuel` bounds the work (the length of the text is enough), `depth` is what is left
of the recursion limit. -/
def parseValue : Nat → Nat → Str → Option (Json × Str)
  | 0, _, _ => none
  | fuel + 1, depth, s =>
    match skipWs s with
    | [] => none
    | c :: r =>
      if c = 'n' then match r with
        | 'u' :: 'l' :: 'l' :: r => some (.null, r)
        | _ => none
      else if c = 't' then match r with
        | 'r' :: 'u' :: 'e' :: r => some (.bool true, r)
        | _ => none
      else if c = 'f' then match r with
        | 'a' :: 'l' :: 's' :: 'e' :: r => some (.bool false, r)
        | _ => none
      else if c = '"' then (parseChars fuel r).map fun p => (.str p.1, p.2)
      else if c = '[' then
        if depth ≤ 1 then none
        else match skipWs r with
          | ']' :: r => some (.arr [], r)
          | _ => (parseElems fuel (depth - 1) r).map fun p => (.arr p.1, p.2)
      else if c = '{' then
        if depth ≤ 1 then none
        else match skipWs r with
          | '}' :: r => some (.obj [], r)
          | _ => (parseMembers fuel (depth - 1) r).map fun p => (.obj p.1, p.2)
      else
        let p := spanNum (c :: r)
        if isNumLex p.1 then some (.num p.1, p.2) else none

/-- Read the elements of a non-empty array. -/
def parseElems : Nat → Nat → Str → Option (List Json × Str)
  | 0, _, _ => none
  | fuel + 1, depth, s =>
    match parseValue fuel depth s with
    | none => none
    | some (v, r) =>
      match skipWs r with
      | ',' :: r => (parseElems fuel depth r).map fun p => (v :: p.1, p.2)
      | ']' :: r => some ([v], r)
      | _ => none

/-- Read the members of a non-empty object. -/
def parseMembers : Nat → Nat → Str → Option (List (Str × Json) × Str)
  | 0, _, _ => none
  | fuel + 1, depth, s =>
    match skipWs s with
    | '"' :: r =>
      match parseChars fuel r with
      | none => none
      | some (k, r) =>
        match skipWs r with
        | ':' :: r =>
          match parseValue fuel depth r with
          | none => none
          | some (v, r) =>
            match skipWs r with
            | ',' :: r => (parseMembers fuel depth r).map fun p => ((k, v) :: p.1, p.2)
            | '}' :: r => some ([(k, v)], r)
            | _ => none
        | _ => none
    | _ => none
end

/-- `serde_json::from_str`: one value, then only white space. The recursion limit is 128. -/
def parse (s : Str) : Option Json :=
  match parseValue (2 * s.length + 2) 128 s with
  | some (v, r) => if (skipWs r).isEmpty then some v else none
  | none => none

/-! ## Integers -/

/-- Decimal digits, most significant first. `fuel` must exceed `n`. -/
def natDigitsAux : Nat → Nat → Str → Str
  | 0, _, acc => acc
  | fuel + 1, n, acc =>
    let acc := Char.ofNat (48 + n % 10) :: acc
    if n < 10 then acc else natDigitsAux fuel (n / 10) acc

/-- Decimal digits of a natural number. -/
def natDigits (n : Nat) : Str := natDigitsAux (n + 1) n []

/-- Decimal text of an integer. -/
def intText (z : Int) : Str := if z < 0 then '-' :: natDigits z.natAbs else natDigits z.natAbs

/-- A JSON integer. -/
def int (z : Int) : Json := .num (intText z)

/-- Value of a digit string. -/
def natValue (s : Str) : Nat := s.foldl (fun a c => a * 10 + (c.toNat - 48)) 0

/-- The integer a number stands for. A fraction, an exponent or `-0` is read as a float, which is an
error for an integer field. The range of the field's integer type is not checked here. -/
def asInt : Json → Option Int
  | .num ('-' :: s) => if allDigits s ∧ s ≠ [] ∧ s ≠ ['0'] then some (-(natValue s : Int)) else none
  | .num s => if allDigits s ∧ s ≠ [] then some (natValue s) else none
  | _ => none

/-! ## Objects -/

/-- Look up a field: outer `none` is the duplicate-field error, inner `none` a missing field. -/
def field (l : List (Str × Json)) (k : Str) : Option (Option Json) :=
  match l.filter (fun p => p.1 = k) with
  | [] => some none
  | [p] => some (some p.2)
  | _ => none

/-- A field that must be present. -/
def req (l : List (Str × Json)) (k : Str) : Option Json := (field l k).join

/-- Optional value: `null` is `None`. -/
def opt {α : Type} (f : Json → Option α) : Json → Option (Option α)
  | .null => some none
  | j => (f j).map some

/-- An `Option` field: missing is `None`. -/
def optField {α : Type} (f : Json → Option α) (l : List (Str × Json)) (k : Str) : Option (Option α) :=
  match field l k with
  | none => none
  | some none => some none
  | some (some j) => opt f j

/-- `Option` as JSON. -/
def ofOpt {α : Type} (f : α → Json) : Option α → Json
  | none => .null
  | some a => f a

/-- String value. -/
def asStr : Json → Option Str
  | .str s => some s
  | _ => none

end Json
end AJ
