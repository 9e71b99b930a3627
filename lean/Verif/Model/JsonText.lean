import Verif.Model.Join
/-
Model of the text layer of `to_json` and `from_json`: what `json.dumps` (with its default options, fcm.py:732) writes and
what `json.loads` (loader.py:81) reads.

Python's standard library is not part of the repository; the functions below render its documented behaviour: strings
are written in ASCII with the escapes `\" \\ \n \r \t \f \b` and `\uXXXX` (lower-case hexadecimal digits, surrogate pairs
above U+FFFF), items are separated by `, ` and keys by `: `; on reading, white space is allowed around every token, the last
of several equal keys counts, control characters inside strings are rejected, and `NaN`, `Infinity`, `-Infinity` are read as
numbers.  Simplifications: a lone surrogate in a `\u` escape is an error (Lean strings cannot contain it); numbers are kept
as they are spelt and converted by `Numerals`; the message of a decoding error is not modelled.
-/
namespace PyFCM
open Arith

/-- A JSON value (fcm.py:674-732, loader.py:81). Numbers are kept as they are spelt. -/
inductive Json where
  | null
  | bool (b : Bool)
  | num (lexeme : List Char)
  | str (s : String)
  | arr (xs : List Json)
  | obj (fields : List (String × Json))
  deriving Repr, Inhabited

/-! ### Writing (`json.dumps`, fcm.py:732) -/

/-- A hexadecimal digit, lower case: `'\\u{0:04x}'.format(n)` in `json.encoder` (fcm.py:732). -/
def hexDigit (n : Nat) : Char := if n < 10 then Char.ofNat (48 + n) else Char.ofNat (87 + n)

/-- `\uXXXX` (fcm.py:732). -/
def hex4 (n : Nat) : List Char :=
  ['\\', 'u', hexDigit (n / 4096 % 16), hexDigit (n / 256 % 16), hexDigit (n / 16 % 16), hexDigit (n % 16)]

/-- One character of a string literal, `ensure_ascii=True` (fcm.py:732). -/
def escapeChar (c : Char) : List Char :=
  if c = '"' then ['\\', '"']
  else if c = '\\' then ['\\', '\\']
  else if c = '\n' then ['\\', 'n']
  else if c = '\r' then ['\\', 'r']
  else if c = '\t' then ['\\', 't']
  else if c.toNat = 12 then ['\\', 'f']
  else if c.toNat = 8 then ['\\', 'b']
  else if 32 ≤ c.toNat ∧ c.toNat ≤ 126 then [c]
  else if c.toNat < 65536 then hex4 c.toNat
  else hex4 (55296 + (c.toNat - 65536) / 1024) ++ hex4 (56320 + (c.toNat - 65536) % 1024)

/-- A string literal without the opening quote (fcm.py:732). -/
def escapeBody (s : String) : List Char := s.toList.flatMap escapeChar ++ ['"']

mutual
/-- `json.dumps` (fcm.py:732). -/
def dumps : Json → List Char
  | .null => ['n', 'u', 'l', 'l']
  | .bool true => ['t', 'r', 'u', 'e']
  | .bool false => ['f', 'a', 'l', 's', 'e']
  | .num l => l
  | .str s => '"' :: escapeBody s
  | .arr xs => '[' :: dumpsItems xs
  | .obj fs => '{' :: dumpsFields fs
/-- The inside of a list with its closing bracket (fcm.py:732). -/
def dumpsItems : List Json → List Char
  | [] => [']']
  | x :: xs => dumps x ++ dumpsMore xs
/-- Further items (fcm.py:732). -/
def dumpsMore : List Json → List Char
  | [] => [']']
  | x :: xs => ',' :: ' ' :: (dumps x ++ dumpsMore xs)
/-- The inside of a dictionary with its closing brace (fcm.py:732). -/
def dumpsFields : List (String × Json) → List Char
  | [] => ['}']
  | (k, x) :: fs => '"' :: (escapeBody k ++ ':' :: ' ' :: (dumps x ++ dumpsMoreFields fs))
/-- Further entries (fcm.py:732). -/
def dumpsMoreFields : List (String × Json) → List Char
  | [] => ['}']
  | (k, x) :: fs => ',' :: ' ' :: '"' :: (escapeBody k ++ ':' :: ' ' :: (dumps x ++ dumpsMoreFields fs))
end

/-! ### Reading (`json.loads`, loader.py:81) -/

/-- White space (loader.py:81). -/
def skipWs : List Char → List Char
  | c :: s => if c = ' ' ∨ c = '\t' ∨ c = '\n' ∨ c = '\r' then skipWs s else c :: s
  | [] => []

/-- The value of a hexadecimal digit of either case (loader.py:81). -/
def hexVal (c : Char) : Option Nat :=
  if 48 ≤ c.toNat ∧ c.toNat ≤ 57 then some (c.toNat - 48)
  else if 97 ≤ c.toNat ∧ c.toNat ≤ 102 then some (c.toNat - 87)
  else if 65 ≤ c.toNat ∧ c.toNat ≤ 70 then some (c.toNat - 55)
  else none

/-- Four hexadecimal digits (loader.py:81). -/
def readHex4 : List Char → Option (Nat × List Char)
  | a :: b :: c :: d :: s => do
    let a ← hexVal a
    let b ← hexVal b
    let c ← hexVal c
    let d ← hexVal d
    return (a * 4096 + b * 256 + c * 16 + d, s)
  | _ => none

/-- What follows the `\u` of a string literal: one code point, possibly a surrogate pair (loader.py:81). -/
def readUnicode (s : List Char) : Option (Char × List Char) := do
  let (n, s) ← readHex4 s
  if 55296 ≤ n ∧ n ≤ 56319 then
    match s with
    | '\\' :: 'u' :: s => do
      let (k, s) ← readHex4 s
      if 56320 ≤ k ∧ k ≤ 57343 then return (Char.ofNat (65536 + (n - 55296) * 1024 + (k - 56320)), s) else none
    | _ => none
  else if 56320 ≤ n ∧ n ≤ 57343 then none
  else return (Char.ofNat n, s)

/-- One character of a string literal (loader.py:81). -/
def readChar : List Char → Option (Char × List Char)
  | '\\' :: 'u' :: s => readUnicode s
  | '\\' :: c :: s =>
    if c = '"' ∨ c = '\\' ∨ c = '/' then some (c, s)
    else if c = 'n' then some ('\n', s)
    else if c = 'r' then some ('\r', s)
    else if c = 't' then some ('\t', s)
    else if c = 'f' then some (Char.ofNat 12, s)
    else if c = 'b' then some (Char.ofNat 8, s)
    else none
  | ['\\'] => none
  | c :: s => if c.toNat < 32 then none else some (c, s)
  | [] => none

/-- The rest of a string literal after the opening quote (loader.py:81); the fuel is the length of the text. -/
def readBody : Nat → List Char → Option (List Char × List Char)
  | 0, _ => none
  | n + 1, s =>
    match s with
    | '"' :: s => some ([], s)
    | s => do
      let (c, s) ← readChar s
      let (cs, s) ← readBody n s
      return (c :: cs, s)

/-- A string literal after its opening quote (loader.py:81). -/
def readString (s : List Char) : Option (String × List Char) :=
  (readBody s.length s).map fun p => (String.ofList p.1, p.2)

/-- `\d` in the number pattern of `json.scanner` (loader.py:81). -/
def isDigit (c : Char) : Bool := decide (48 ≤ c.toNat ∧ c.toNat ≤ 57)

/-- `0|[1-9]\d*` (loader.py:81). -/
def readInt : List Char → Option (List Char × List Char)
  | c :: s =>
    if c = '0' then some (['0'], s)
    else if isDigit c then some (c :: s.takeWhile isDigit, s.dropWhile isDigit)
    else none
  | [] => none

/-- `(\.\d+)?` (loader.py:81). -/
def readFrac : List Char → List Char × List Char
  | '.' :: d :: s => if isDigit d then ('.' :: d :: s.takeWhile isDigit, s.dropWhile isDigit) else ([], '.' :: d :: s)
  | s => ([], s)

/-- `([eE][-+]?\d+)?` (loader.py:81). -/
def readExp : List Char → List Char × List Char
  | e :: s =>
    if e = 'e' ∨ e = 'E' then
      match s with
      | g :: d :: t =>
        if isDigit g then (e :: g :: (d :: t).takeWhile isDigit, (d :: t).dropWhile isDigit)
        else if (g = '+' ∨ g = '-') ∧ isDigit d then (e :: g :: d :: t.takeWhile isDigit, t.dropWhile isDigit)
        else ([], e :: s)
      | [d] => if isDigit d then ([e, d], []) else ([], e :: s)
      | [] => ([], e :: s)
    else ([], e :: s)
  | [] => ([], [])

/-- `(-?(?:0|[1-9]\d*))(\.\d+)?([eE][-+]?\d+)?` without the sign (loader.py:81). -/
def readUnsigned (s : List Char) : Option (List Char × List Char) := do
  let (i, s) ← readInt s
  let (f, s) := readFrac s
  let (e, s) := readExp s
  return (i ++ f ++ e, s)

/-- `if s` starts with `w`, what follows (loader.py:81). -/
def after (w : List Char) (s : List Char) : Option (List Char) := if w.isPrefixOf s then some (s.drop w.length) else none

/-- A number or one of the three constants json.loads takes for numbers (loader.py:81). -/
def readNumber (s : List Char) : Option (List Char × List Char) :=
  match s with
  | '-' :: t =>
    match after "Infinity".toList t with
    | some r => some ('-' :: "Infinity".toList, r)
    | none => (readUnsigned t).map fun p => ('-' :: p.1, p.2)
  | 'N' :: _ => (after "NaN".toList s).map fun r => ("NaN".toList, r)
  | 'I' :: _ => (after "Infinity".toList s).map fun r => ("Infinity".toList, r)
  | s => readUnsigned s

/-- `dict(pairs)` (loader.py:81): a later entry replaces the value of an earlier one with the same key. -/
def dictOf {β : Type} (fs : List (String × β)) : Dict β := fs.foldl (fun d p => d.set p.1 p.2) []

mutual
/-- A value, white space skipped (loader.py:81); the fuel is more than the length of the text. -/
def readValue : Nat → List Char → Option (Json × List Char)
  | 0, _ => none
  | n + 1, s =>
    match s with
    | '"' :: s => (readString s).map fun p => (.str p.1, p.2)
    | '[' :: s =>
      match skipWs s with
      | ']' :: s => some (.arr [], s)
      | s => do
        let (x, s) ← readValue n s
        let (xs, s) ← readMore n s
        return (.arr (x :: xs), s)
    | '{' :: s =>
      match skipWs s with
      | '}' :: s => some (.obj [], s)
      | s => do
        let (k, s) ← readKey s
        let (x, s) ← readValue n s
        let (fs, s) ← readMoreFields n s
        return (.obj (dictOf ((k, x) :: fs)), s)
    | 'n' :: s => (after "ull".toList s).map fun r => (.null, r)
    | 't' :: s => (after "rue".toList s).map fun r => (.bool true, r)
    | 'f' :: s => (after "alse".toList s).map fun r => (.bool false, r)
    | s => (readNumber s).map fun p => (.num p.1, p.2)
/-- Further items of a list (loader.py:81). -/
def readMore : Nat → List Char → Option (List Json × List Char)
  | 0, _ => none
  | n + 1, s =>
    match skipWs s with
    | ']' :: s => some ([], s)
    | ',' :: s => do
      let (x, s) ← readValue n (skipWs s)
      let (xs, s) ← readMore n s
      return (x :: xs, s)
    | _ => none
/-- Further entries of a dictionary (loader.py:81). -/
def readMoreFields : Nat → List Char → Option (List (String × Json) × List Char)
  | 0, _ => none
  | n + 1, s =>
    match skipWs s with
    | '}' :: s => some ([], s)
    | ',' :: s => do
      let (k, s) ← readKey (skipWs s)
      let (x, s) ← readValue n s
      let (fs, s) ← readMoreFields n s
      return ((k, x) :: fs, s)
    | _ => none
/-- A key with its colon and the white space after it (loader.py:81). -/
def readKey (s : List Char) : Option (String × List Char) :=
  match s with
  | '"' :: s =>
    match readString s with
    | some (k, s) =>
      match skipWs s with
      | ':' :: s => some (k, skipWs s)
      | _ => none
    | none => none
  | _ => none
end

/-- `json.loads` (loader.py:81). -/
def loads (s : List Char) : Option Json :=
  match readValue (s.length + 1) (skipWs s) with
  | some (j, r) => if skipWs r = [] then some j else none
  | none => none

/-! ### Integers -/

/-- The decimal digits of a natural number; the fuel is the number itself (`int.__repr__`, fcm.py:732). -/
def natTextAux : Nat → Nat → List Char
  | 0, n => [hexDigit (n % 10)]
  | k + 1, n => if n < 10 then [hexDigit n] else natTextAux k (n / 10) ++ [hexDigit (n % 10)]

/-- `int.__repr__` (fcm.py:732). -/
def intText (i : Int) : List Char :=
  match i with
  | .ofNat n => natTextAux n n
  | .negSucc n => '-' :: natTextAux (n + 1) (n + 1)

/-- The value of a list of digits (loader.py:81). -/
def natValue (s : List Char) : Option Nat :=
  s.foldl (fun a c => a.bind fun a => if isDigit c then some (a * 10 + (c.toNat - 48)) else none) (some 0)

/-- `int(lexeme)` (loader.py:81). -/
def intValue : List Char → Option Int
  | '-' :: s => (natValue s).map fun n => -(n : Int)
  | s => (natValue s).map fun n => (n : Int)

/-! ### Documents -/

section
variable {α : Type} [Arith α]

/-- How numbers of the carrier are spelt and read (`float.__repr__` and `float`, fcm.py:732 and loader.py:81). -/
structure Numerals (α : Type) where
  text : α → List Char
  value : List Char → α

/-- The entries that are present, in order. -/
def present (fs : List (String × Option Json)) : List (String × Json) :=
  fs.filterMap fun p => p.2.map fun x => (p.1, x)

/-- An argument (numpy arrays have been rejected before, see `jsonArgs`; fcm.py:704-719). -/
def argJson (N : Numerals α) : ArgVal α → Json
  | .num x => .num (N.text x)
  | .arr xs => .arr (xs.map fun x => .num (N.text x))
  | .list xs => .arr (xs.map fun x => .num (N.text x))
  | .str s => .str s

/-- fcm.py:686-687, 704-719 -/
def argsJson (N : Numerals α) (a : Args α) : Json := .obj (a.map fun p => (p.1, argJson N p.2))

/-- fcm.py:698-721: the keys in the order in which they are assigned; the last three are only ever read
(loader.py:113-121). -/
def conceptJson (N : Numerals α) (c : ConceptDesc α) : Json :=
  .obj (present [
    ("id", some (.str c.id)),
    ("is_active", c.isActive.map .bool),
    ("type", c.type.map .str),
    ("activation", c.activation.map fun x => .num (N.text x)),
    ("use_memory", c.useMemory.map .bool),
    ("custom_function", c.customFunction.map .str),
    ("activation_dict", c.activationDict.map (argsJson N)),
    ("custom_function_args", c.customFunctionArgs.map (argsJson N)),
    ("active", c.active.map .bool),
    ("memory_influence", c.memoryInfluence.map .bool),
    ("exitation_function", c.exitationFunction.map .str)])

/-- fcm.py:725-729 -/
def relJson (N : Numerals α) (r : RelDesc α) : Json :=
  .obj [("origin", .str r.origin), ("destiny", .str r.destiny), ("weight", .num (N.text r.weight))]

/-- fcm.py:674-687: the arguments come last, because they are assigned after the literal. -/
def docJson (N : Numerals α) (d : MapDesc α) : Json :=
  .obj (present [
    ("max_iter", d.maxIter.map fun i => .num (intText i)),
    ("decision_function", d.decisionFunction.map .str),
    ("activation_function", d.activationFunction.map .str),
    ("memory_influence", d.memoryInfluence.map .bool),
    ("stability_diff", d.stabilityDiff.map fun x => .num (N.text x)),
    ("stop_at_stabilize", d.stopAtStabilize.map .bool),
    ("extra_steps", d.extraSteps.map fun i => .num (intText i)),
    ("weight", d.weight.map fun x => .num (N.text x)),
    ("concepts", d.concepts.map fun cs => .arr (cs.map (conceptJson N))),
    ("relations", d.relations.map fun rs => .arr (rs.map (relJson N))),
    ("activation_function_args", d.activationFunctionArgs.map (argsJson N))])

/-! The values of a document, read with the types the code expects (loader.py:81-149).  A value of another type is a
`TypeError` here, while Python may go on for a while (for example, with an integer where a Boolean is expected). -/

/-- A string: the names in fcm.py:676-677, loader.py:106-108, 120-139, 147-148. -/
def Json.asStr : Json → Except Err String
  | .str s => .ok s
  | _ => .error .typeError

/-- A truth value: the flags of loader.py:94-95, 107, 114-122. -/
def Json.asBool : Json → Except Err Bool
  | .bool b => .ok b
  | _ => .error .typeError

/-- An integer: `max_iter` and `extra_steps` (loader.py:97-98, 105). -/
def Json.asInt : Json → Except Err Int
  | .num l => match intValue l with
    | some i => .ok i
    | none => .error .typeError
  | _ => .error .typeError

/-- A number: `stability_diff`, `weight`, `activation` (loader.py:91-101, 142-149). -/
def Json.asNum (N : Numerals α) : Json → Except Err α
  | .num l => .ok (N.value l)
  | _ => .error .typeError

/-- A list: `concepts` and `relations` (loader.py:114, 146). -/
def Json.asList : Json → Except Err (List Json)
  | .arr xs => .ok xs
  | _ => .error .typeError

/-- A dictionary (loader.py:81-149). -/
def Json.asDict : Json → Except Err (Dict Json)
  | .obj fs => .ok fs
  | _ => .error .typeError

/-- loader.py:89, 127: an argument; lists hold numbers. -/
def Json.asArg (N : Numerals α) : Json → Except Err (ArgVal α)
  | .num l => .ok (.num (N.value l))
  | .str s => .ok (.str s)
  | .arr xs => do
    let ys ← xs.mapM (Json.asNum N)
    return .list ys
  | _ => .error .typeError

/-- A dictionary of arguments (loader.py:89, 127-130). -/
def Json.asArgs (N : Numerals α) (j : Json) : Except Err (Args α) := do
  let fs ← j.asDict
  fs.mapM fun p => do
    let v ← p.2.asArg N
    return (p.1, v)

/-- `data_dict[key]` if the key is there (loader.py:88-103, 114-143). -/
def field (fs : Dict Json) (k : String) {β : Type} (f : Json → Except Err β) : Except Err (Option β) :=
  match fs.get? k with
  | some j => do
    let v ← f j
    return some v
  | none => return none

/-- loader.py:112-143 -/
def readConcept (N : Numerals α) (j : Json) : Except Err (ConceptDesc α) := do
  let fs ← j.asDict
  let id ← field fs "id" Json.asStr
  let isActive ← field fs "is_active" Json.asBool
  let type ← field fs "type" Json.asStr
  let activation ← field fs "activation" (Json.asNum N)
  let useMemory ← field fs "use_memory" Json.asBool
  let customFunction ← field fs "custom_function" Json.asStr
  let activationDict ← field fs "activation_dict" (Json.asArgs N)
  let customFunctionArgs ← field fs "custom_function_args" (Json.asArgs N)
  let active ← field fs "active" Json.asBool
  let memoryInfluence ← field fs "memory_influence" Json.asBool
  let exitationFunction ← field fs "exitation_function" Json.asStr
  let id ← need "id" id
  return { id, isActive, type, activation, useMemory, customFunction, activationDict, customFunctionArgs, active,
           memoryInfluence, exitationFunction }

/-- loader.py:146-149 -/
def readRelation (N : Numerals α) (j : Json) : Except Err (RelDesc α) := do
  let fs ← j.asDict
  let origin ← field fs "origin" Json.asStr
  let destiny ← field fs "destiny" Json.asStr
  let weight ← field fs "weight" (Json.asNum N)
  let origin ← need "origin" origin
  let destiny ← need "destiny" destiny
  let weight ← need "weight" weight
  return ⟨origin, destiny, weight⟩

/-- loader.py:81-149: the document in a parsed text. -/
def readDoc (N : Numerals α) (j : Json) : Except Err (MapDesc α) := do
  let fs ← j.asDict
  let maxIter ← field fs "max_iter" Json.asInt
  let decisionFunction ← field fs "decision_function" Json.asStr
  let activationFunction ← field fs "activation_function" Json.asStr
  let memoryInfluence ← field fs "memory_influence" Json.asBool
  let stabilityDiff ← field fs "stability_diff" (Json.asNum N)
  let stopAtStabilize ← field fs "stop_at_stabilize" Json.asBool
  let extraSteps ← field fs "extra_steps" Json.asInt
  let weight ← field fs "weight" (Json.asNum N)
  let concepts ← field fs "concepts" fun j => do
    let xs ← j.asList
    xs.mapM (readConcept N)
  let relations ← field fs "relations" fun j => do
    let xs ← j.asList
    xs.mapM (readRelation N)
  let activationFunctionArgs ← field fs "activation_function_args" (Json.asArgs N)
  return { maxIter, decisionFunction, activationFunction, memoryInfluence, stabilityDiff, stopAtStabilize, extraSteps,
           weight, activationFunctionArgs, concepts, relations }

/-- fcm.py:667-734: `to_json()` with `to_str=True`. -/
def FCM.toJsonText (N : Numerals α) (m : FCM α) : Except Err String := do
  let d ← m.toJson
  return String.ofList (dumps (docJson N d))

/-- loader.py:7-152: `from_json` of a text. -/
def fromJsonText (N : Numerals α) (s : String) : Except Err (FCM α) :=
  match loads s.toList with
  | none => .error (.exc "Cannot load json data due: not JSON")
  | some j =>
    match readDoc N j with
    | .error e => .error (.exc ("Cannot load json data due: " ++ e.str))
    | .ok d => fromJson d

/-- `json.loads(fcm.to_json())` (loader.py:195). -/
def FCM.viaText (N : Numerals α) (m : FCM α) : Except Err (MapDesc α) := do
  let s ← m.toJsonText N
  match loads s.toList with
  | none => .error .valueError
  | some j => readDoc N j

/-- loader.py:155-272: `join_maps` with the texts it writes and reads (195, 270, 271). -/
def joinMapsText (N : Numerals α) (maps : List (FCM α)) (conceptStrategy : String := "union")
    (valueStrategy : String := "average") (relationStrategy : String := "average") (ignoreZeros : Bool := false) :
    Except Err (FCM α) :=
  if conceptStrategy ≠ "union" ∧ conceptStrategy ≠ "intersection" then
    .error (.exc ("Unknown concept strategy: " ++ conceptStrategy))
  else
    match Aggr.byName valueStrategy with
    | none => .error (.exc ("Unknown value strategy: " ++ valueStrategy))
    | some vs =>
      match Aggr.byName relationStrategy with
      | none => .error (.exc ("Unknown relation strategy: " ++ relationStrategy))
      | some rs => do
        let descs ← maps.mapM (FCM.viaText N)
        match descs with
        | [] => FCM.new
        | first :: rest => do
          let d ← joinDescs (conceptStrategy = "union") vs rs ignoreZeros first rest
          fromJsonText N (String.ofList (dumps (docJson N d)))

end

end PyFCM
