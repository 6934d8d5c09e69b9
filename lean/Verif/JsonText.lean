import Verif.Types

/-!
# The parts of encoding/json, strconv and encoding/base64 that the JSON code of amino calls

These are not part of the repository; they are modelled on text (byte strings), following the
documentation of the Go 1.12 standard library, because amino itself mixes text it writes by hand with
text written by `json.Marshal`.  Not modelled: the nesting depth limit of later Go versions, the
partly filled results that `json.Unmarshal` leaves behind when it returns an error.  Formatting and
parsing of floats and of `time.Time` are parameters (`JLib`).
-/

namespace Amino

/-- `null` -/
def jNull : Bytes := [0x6e, 0x75, 0x6c, 0x6c]
/-- `true` -/
def jTrue : Bytes := [0x74, 0x72, 0x75, 0x65]
/-- `false` -/
def jFalse : Bytes := [0x66, 0x61, 0x6c, 0x73, 0x65]

/-! ## The scanner: encoding/json scanner.go -/

/-- scanner.go `isSpace`. -/
def isWs (c : UInt8) : Bool := c == 0x20 || c == 0x09 || c == 0x0a || c == 0x0d

/-- Skip white space. -/
def skipWs : Bytes → Bytes
  | [] => []
  | c :: r => if isWs c then skipWs r else c :: r

def isDigit (c : UInt8) : Bool := 0x30 ≤ c && c ≤ 0x39

/-- Value of a hexadecimal digit. -/
def hexVal (c : UInt8) : Option Nat :=
  if 0x30 ≤ c && c ≤ 0x39 then some (c.toNat - 0x30)
  else if 0x61 ≤ c && c ≤ 0x66 then some (c.toNat - 0x61 + 10)
  else if 0x41 ≤ c && c ≤ 0x46 then some (c.toNat - 0x41 + 10)
  else none

/-- Where the scanner is inside a string literal: scanner.go `stateInString`, `stateInStringEsc`,
`stateInStringEscU`, `...U1`, `...U12`, `...U123` (`u k`: `k + 1` digits to go). -/
inductive StrSt
  | norm
  | esc
  | u (k : Nat)

/-- The characters allowed after a backslash, other than `u`: scanner.go `stateInStringEsc`. -/
def isEscChar (c : UInt8) : Bool :=
  c == 0x62 || c == 0x66 || c == 0x6e || c == 0x72 || c == 0x74 || c == 0x5c || c == 0x2f || c == 0x22

/-- What follows a string literal whose opening quote has been read. -/
def skipStr : StrSt → Bytes → Option Bytes
  | _, [] => none
  | .norm, c :: r =>
    if c = 0x22 then some r
    else if c = 0x5c then skipStr .esc r
    else if c < 0x20 then none
    else skipStr .norm r
  | .esc, c :: r =>
    if c = 0x75 then skipStr (.u 3) r
    else if isEscChar c then skipStr .norm r
    else none
  | .u k, c :: r =>
    if (hexVal c).isSome then
      match k with
      | 0 => skipStr .norm r
      | k + 1 => skipStr (.u k) r
    else none

def skipDigits : Bytes → Bytes
  | [] => []
  | c :: r => if isDigit c then skipDigits r else c :: r

/-- At least one digit. -/
def skipDigits1 : Bytes → Option Bytes
  | c :: r => if isDigit c then some (skipDigits r) else none
  | [] => none

/-- An exponent, if there is one. -/
def skipExp : Bytes → Option Bytes
  | c :: r =>
    if c = 0x65 ∨ c = 0x45 then
      match r with
      | s :: r' => if s = 0x2b ∨ s = 0x2d then skipDigits1 r' else skipDigits1 r
      | [] => none
    else some (c :: r)
  | [] => some []

/-- A fraction, if there is one, and an exponent. -/
def skipFrac : Bytes → Option Bytes
  | c :: r => if c = 0x2e then (skipDigits1 r).bind skipExp else skipExp (c :: r)
  | [] => some []

/-- A number without its minus sign. -/
def skipNumAbs : Bytes → Option Bytes
  | c :: r =>
    if c = 0x30 then skipFrac r
    else if isDigit c then skipFrac (skipDigits r)
    else none
  | [] => none

def skipNum : Bytes → Option Bytes
  | c :: r => if c = 0x2d then skipNumAbs r else skipNumAbs (c :: r)
  | [] => none

/-- The given keyword. -/
def skipWord : Bytes → Bytes → Option Bytes
  | [], bz => some bz
  | w :: ws, c :: r => if c = w then skipWord ws r else none
  | _ :: _, [] => none

/-- The text between `bz` and its suffix `rest`. -/
def before (bz rest : Bytes) : Bytes := bz.take (bz.length - rest.length)

section
variable (val : Bytes → Option Bytes)

/-- The rest of an array after `[` and white space, given it has an element: raw texts of the elements
and what follows.  The first argument bounds the number of elements. -/
def arrElems : Nat → Bytes → Option (List Bytes × Bytes)
  | 0, _ => none
  | n + 1, bz =>
    (val bz).bind fun r =>
      match skipWs r with
      | c :: r' =>
        if c = 0x2c then (arrElems n (skipWs r')).map fun p => (before bz r :: p.1, p.2)
        else if c = 0x5d then some ([before bz r], r')
        else none
      | [] => none

/-- The rest of an array after `[`. -/
def arrRest (bz : Bytes) : Option (List Bytes × Bytes) :=
  match skipWs bz with
  | c :: r => if c = 0x5d then some ([], r) else arrElems val bz.length (c :: r)
  | [] => none

/-- A string literal: raw text with quotes, and what follows. -/
def strLit : Bytes → Option (Bytes × Bytes)
  | c :: r => if c = 0x22 then (skipStr .norm r).map fun r' => (before (c :: r) r', r') else none
  | [] => none

/-- The rest of an object after `{` and white space, given it has a member. -/
def objMembers : Nat → Bytes → Option (List (Bytes × Bytes) × Bytes)
  | 0, _ => none
  | n + 1, bz =>
    (strLit bz).bind fun kr =>
      match skipWs kr.2 with
      | c :: r =>
        if c = 0x3a then
          (val (skipWs r)).bind fun r' =>
            match skipWs r' with
            | c' :: r'' =>
              if c' = 0x2c then
                (objMembers n (skipWs r'')).map fun p => ((kr.1, before (skipWs r) r') :: p.1, p.2)
              else if c' = 0x7d then some ([(kr.1, before (skipWs r) r')], r'')
              else none
            | [] => none
        else none
      | [] => none

/-- The rest of an object after `{`. -/
def objRest (bz : Bytes) : Option (List (Bytes × Bytes) × Bytes) :=
  match skipWs bz with
  | c :: r => if c = 0x7d then some ([], r) else objMembers val bz.length (c :: r)
  | [] => none

end

/-- What follows the JSON value at the front of the text.  The first argument bounds the nesting. -/
def skipVal : Nat → Bytes → Option Bytes
  | 0, _ => none
  | _ + 1, [] => none
  | n + 1, c :: r =>
    if c = 0x22 then skipStr .norm r
    else if c = 0x5b then (arrRest (skipVal n) r).map (·.2)
    else if c = 0x7b then (objRest (skipVal n) r).map (·.2)
    else if c = 0x6e then skipWord jNull (c :: r)
    else if c = 0x74 then skipWord jTrue (c :: r)
    else if c = 0x66 then skipWord jFalse (c :: r)
    else skipNum (c :: r)

/-- json.Unmarshal's `checkValid`, and the raw text of the one value without surrounding white
space. -/
def wholeVal (bz : Bytes) : Option Bytes :=
  (skipVal (bz.length + 1) (skipWs bz)).bind fun r =>
    if skipWs r = [] then some (before (skipWs bz) r) else none

/-- `json.Valid`. -/
def validJSON (bz : Bytes) : Bool := (wholeVal bz).isSome

/-! ## UTF-8 and string literals: unicode/utf8, encode.go `(*encodeState).string`, decode.go
`unquoteBytes` -/

def isCont (c : UInt8) : Bool := 0x80 ≤ c && c ≤ 0xbf

/-- Length of the well formed multi-byte sequence at the front, 0 if there is none
(`utf8.DecodeRune`). -/
def utf8Len : Bytes → Nat
  | a :: b :: r =>
    if 0xc2 ≤ a && a ≤ 0xdf then (if isCont b then 2 else 0)
    else
      match r with
      | [] => 0
      | c :: r =>
        if a == 0xe0 then (if 0xa0 ≤ b && b ≤ 0xbf && isCont c then 3 else 0)
        else if a == 0xed then (if 0x80 ≤ b && b ≤ 0x9f && isCont c then 3 else 0)
        else if 0xe1 ≤ a && a ≤ 0xef then (if isCont b && isCont c then 3 else 0)
        else
          match r with
          | [] => 0
          | d :: _ =>
            if a == 0xf0 then (if 0x90 ≤ b && b ≤ 0xbf && isCont c && isCont d then 4 else 0)
            else if a == 0xf4 then (if 0x80 ≤ b && b ≤ 0x8f && isCont c && isCont d then 4 else 0)
            else if 0xf1 ≤ a && a ≤ 0xf3 then (if isCont b && isCont c && isCont d then 4 else 0)
            else 0
  | _ => 0

def hexDigit (n : Nat) : UInt8 := if n < 10 then UInt8.ofNat (0x30 + n) else UInt8.ofNat (0x61 + (n - 10))

/-- One ASCII character inside a string literal, `escapeHTML` being on. -/
def escByte (c : UInt8) : Bytes :=
  if c = 0x22 ∨ c = 0x5c then [0x5c, c]
  else if c = 0x0a then [0x5c, 0x6e]
  else if c = 0x0d then [0x5c, 0x72]
  else if c = 0x09 then [0x5c, 0x74]
  else if c < 0x20 ∨ c = 0x3c ∨ c = 0x3e ∨ c = 0x26 then
    [0x5c, 0x75, 0x30, 0x30, hexDigit (c.toNat / 16), hexDigit (c.toNat % 16)]
  else [c]

/-- The inside of a string literal.  U+2028 and U+2029 are escaped, a byte that is not part of a well
formed sequence is written as the six characters \\ufffd.  The first argument bounds the length. -/
def quoteBody : Nat → Bytes → Bytes
  | 0, _ => []
  | _ + 1, [] => []
  | n + 1, c :: r =>
    if c < 0x80 then escByte c ++ quoteBody n r
    else if utf8Len (c :: r) = 0 then [0x5c, 0x75, 0x66, 0x66, 0x66, 0x64] ++ quoteBody n r
    else
      (if (c :: r).take 3 = [0xe2, 0x80, 0xa8] then [0x5c, 0x75, 0x32, 0x30, 0x32, 0x38]
       else if (c :: r).take 3 = [0xe2, 0x80, 0xa9] then [0x5c, 0x75, 0x32, 0x30, 0x32, 0x39]
       else (c :: r).take (utf8Len (c :: r))) ++ quoteBody n ((c :: r).drop (utf8Len (c :: r)))

/-- `json.Marshal` of a string. -/
def quoteStr (s : Bytes) : Bytes := 0x22 :: (quoteBody s.length s ++ [0x22])

/-- `utf8.EncodeRune`. -/
def encodeRune (r : Nat) : Bytes :=
  if r < 0x80 then [UInt8.ofNat r]
  else if r < 0x800 then [UInt8.ofNat (0xc0 + r / 64), UInt8.ofNat (0x80 + r % 64)]
  else if 0xd800 ≤ r ∧ r < 0xe000 then [0xef, 0xbf, 0xbd]
  else if r < 0x10000 then
    [UInt8.ofNat (0xe0 + r / 4096), UInt8.ofNat (0x80 + r / 64 % 64), UInt8.ofNat (0x80 + r % 64)]
  else if r < 0x110000 then
    [UInt8.ofNat (0xf0 + r / 262144), UInt8.ofNat (0x80 + r / 4096 % 64),
      UInt8.ofNat (0x80 + r / 64 % 64), UInt8.ofNat (0x80 + r % 64)]
  else [0xef, 0xbf, 0xbd]

/-- decode.go `getu4` on the four digits. -/
def hex4 (a b c d : UInt8) : Option Nat :=
  (hexVal a).bind fun a => (hexVal b).bind fun b => (hexVal c).bind fun c => (hexVal d).map fun d =>
    ((a * 16 + b) * 16 + c) * 16 + d

/-- A second half `\uDC00`-`\uDFFF` of a surrogate pair, at the front. -/
def lowSurrogate : Bytes → Option Nat
  | 0x5c :: 0x75 :: a :: b :: c :: d :: _ =>
    (hex4 a b c d).bind fun x => if 0xdc00 ≤ x ∧ x < 0xe000 then some x else none
  | _ => none

/-- The characters a simple escape stands for. -/
def unescChar (c : UInt8) : Option UInt8 :=
  if c = 0x22 ∨ c = 0x5c ∨ c = 0x2f ∨ c = 0x27 then some c
  else if c = 0x62 then some 0x08
  else if c = 0x66 then some 0x0c
  else if c = 0x6e then some 0x0a
  else if c = 0x72 then some 0x0d
  else if c = 0x74 then some 0x09
  else none

/-- The rune of a `\uXXXX` escape with value `x`, given what follows it, and how much of that it
takes. -/
def surrogate (x : Nat) (r : Bytes) : Nat × Nat :=
  if 0xd800 ≤ x ∧ x < 0xe000 then
    match (if x < 0xdc00 then lowSurrogate r else none) with
    | some y => ((x - 0xd800) * 1024 + (y - 0xdc00) + 0x10000, 6)
    | none => (0xfffd, 0)
  else (x, 0)

/-- decode.go `unquoteBytes` after a backslash; `k` reads the rest. -/
def unquoteEsc (k : Bytes → Option Bytes) : Bytes → Option Bytes
  | [] => none
  | e :: r =>
    if e = 0x75 then
      match r with
      | a :: b :: c :: d :: r' =>
        (hex4 a b c d).bind fun x =>
          (k (r'.drop (surrogate x r').2)).map fun s => encodeRune (surrogate x r').1 ++ s
      | _ => none
    else (unescChar e).bind fun ch => (k r).map fun s => ch :: s

/-- decode.go `unquoteBytes` on the inside of a string literal.  The first argument bounds the
length. -/
def unquoteBody : Nat → Bytes → Option Bytes
  | 0, bz => if bz = [] then some [] else none
  | _ + 1, [] => some []
  | n + 1, c :: r =>
    if c = 0x5c then unquoteEsc (unquoteBody n) r
    else if c = 0x22 ∨ c < 0x20 then none
    else if c < 0x80 then (unquoteBody n r).map fun s => c :: s
    else if utf8Len (c :: r) = 0 then (unquoteBody n r).map fun s => [0xef, 0xbf, 0xbd] ++ s
    else (unquoteBody n ((c :: r).drop (utf8Len (c :: r)))).map fun s => (c :: r).take (utf8Len (c :: r)) ++ s

/-- decode.go `unquoteBytes` on a literal with quotes. -/
def unquote (lit : Bytes) : Option Bytes :=
  unquoteBody lit.length ((lit.drop 1).take (lit.length - 2))

/-! ## Integers: strconv.FormatInt, ParseInt, ParseUint -/

/-- Decimal digits of `n`; the first argument bounds their number. -/
def digits : Nat → Nat → Bytes
  | 0, n => [UInt8.ofNat (0x30 + n % 10)]
  | k + 1, n => if n < 10 then [UInt8.ofNat (0x30 + n)] else digits k (n / 10) ++ [UInt8.ofNat (0x30 + n % 10)]

/-- `%d` of a natural number. -/
def natText (n : Nat) : Bytes := digits (n.log2 + 1) n

/-- `%d`. -/
def intText (i : Int) : Bytes := if i < 0 then 0x2d :: natText i.natAbs else natText i.natAbs

/-- The number written by a non-empty string of digits. -/
def parseDigits : Bytes → Nat → Option Nat
  | [], acc => some acc
  | c :: r, acc => if isDigit c then parseDigits r (acc * 10 + (c.toNat - 0x30)) else none

def parseNat (s : Bytes) : Option Nat := if s = [] then none else parseDigits s 0

/-- `strconv.ParseInt(s, 10, 64)` without the range check, on a JSON number. -/
def parseInt : Bytes → Option Int
  | c :: r => if c = 0x2d then (parseNat r).map fun n => -(n : Int) else (parseNat (c :: r)).map fun n => (n : Int)
  | [] => none

/-- json.Unmarshal of the JSON number `raw` into an integer variable (decode.go `literalStore`):
`ParseInt`/`ParseUint`, then the range of the kind. -/
def parseIntKind (k : IntKind) (raw : Bytes) : Option Int :=
  if k.signed = false ∧ raw.head? = some 0x2d then none
  else (parseInt raw).bind fun i => if k.inRange i then some i else none

/-! ## encoding/base64 `StdEncoding` -/

def b64Char (n : Nat) : UInt8 :=
  if n < 26 then UInt8.ofNat (0x41 + n)
  else if n < 52 then UInt8.ofNat (0x61 + (n - 26))
  else if n < 62 then UInt8.ofNat (0x30 + (n - 52))
  else if n = 62 then 0x2b
  else 0x2f

def b64Val (c : UInt8) : Option Nat :=
  if 0x41 ≤ c && c ≤ 0x5a then some (c.toNat - 0x41)
  else if 0x61 ≤ c && c ≤ 0x7a then some (c.toNat - 0x61 + 26)
  else if 0x30 ≤ c && c ≤ 0x39 then some (c.toNat - 0x30 + 52)
  else if c = 0x2b then some 62
  else if c = 0x2f then some 63
  else none

def b64Enc : Bytes → Bytes
  | [] => []
  | [a] => [b64Char (a.toNat / 4), b64Char (a.toNat % 4 * 16), 0x3d, 0x3d]
  | [a, b] =>
    [b64Char (a.toNat / 4), b64Char (a.toNat % 4 * 16 + b.toNat / 16), b64Char (b.toNat % 16 * 4), 0x3d]
  | a :: b :: c :: r =>
    b64Char (a.toNat / 4) :: b64Char (a.toNat % 4 * 16 + b.toNat / 16) ::
      b64Char (b.toNat % 16 * 4 + c.toNat / 64) :: b64Char (c.toNat % 64) :: b64Enc r

/-- Decoding of quanta; line breaks have been removed.  The unused low bits before padding are
ignored (`StdEncoding` is not strict). -/
def b64Quads : Bytes → Option Bytes
  | [] => some []
  | a :: b :: c :: d :: r =>
    if d = 0x3d then
      if r ≠ [] then none
      else if c = 0x3d then
        (b64Val a).bind fun a => (b64Val b).map fun b => [UInt8.ofNat (a * 4 + b / 16)]
      else
        (b64Val a).bind fun a => (b64Val b).bind fun b => (b64Val c).map fun c =>
          [UInt8.ofNat (a * 4 + b / 16), UInt8.ofNat (b % 16 * 16 + c / 4)]
    else
      (b64Val a).bind fun a => (b64Val b).bind fun b => (b64Val c).bind fun c => (b64Val d).bind fun d =>
        (b64Quads r).map fun s =>
          UInt8.ofNat (a * 4 + b / 16) :: UInt8.ofNat (b % 16 * 16 + c / 4) :: UInt8.ofNat (c % 4 * 64 + d) :: s
  | _ => none

/-- `base64.StdEncoding.Decode`: line breaks are ignored. -/
def b64Dec (s : Bytes) : Option Bytes := b64Quads (s.filter fun c => c != 0x0a && c != 0x0d)

/-! ## json.Unmarshal into the variables amino uses -/

/-- into a `string` holding `old`, which `null` leaves as it is (decode.go `literalStore`, also for the next three) -/
def unmStr (old : Bytes) (bz : Bytes) : Option Bytes :=
  (wholeVal bz).bind fun raw =>
    if raw = jNull then some old
    else if raw.head? = some 0x22 then unquote raw
    else none

/-- into a `bool` -/
def unmBool (old : Bool) (bz : Bytes) : Option Bool :=
  (wholeVal bz).bind fun raw =>
    if raw = jNull then some old
    else if raw = jTrue then some true
    else if raw = jFalse then some false
    else none

/-- into an integer variable -/
def unmInt (k : IntKind) (old : Int) (bz : Bytes) : Option Int :=
  (wholeVal bz).bind fun raw => if raw = jNull then some old else parseIntKind k raw

/-- into a float variable; `parse` reads other texts than `null` -/
def unmFloat (parse : Bytes → Option UInt64) (old : UInt64) (bz : Bytes) : Option UInt64 :=
  if wholeVal bz = some jNull then some old else parse bz

/-- into a `[]json.RawMessage` -/
def unmRaws (bz : Bytes) : Option (List Bytes) :=
  (wholeVal bz).bind fun raw =>
    match raw with
    | c :: r =>
      if raw = jNull then some []
      else if c = 0x5b then (arrRest (skipVal raw.length) r).map (·.1)
      else none
    | [] => none

/-- Members of an object: keys unquoted. -/
def unmMembers (raw : Bytes) : Option (List (Bytes × Bytes)) :=
  match raw with
  | c :: r =>
    if c = 0x7b then
      (objRest (skipVal raw.length) r).bind fun p =>
        p.1.foldr (fun kv acc => acc.bind fun l => (unquote kv.1).map fun k => (k, kv.2) :: l) (some [])
    else none
  | [] => none

/-- A Go map filled by assignments in order: later assignments win. -/
def assocSet {α : Type} (k : Bytes) (v : α) : List (Bytes × α) → List (Bytes × α)
  | [] => [(k, v)]
  | (k', v') :: l => if k' = k then (k, v) :: l else (k', v') :: assocSet k v l

def assocOf {α : Type} : List (Bytes × α) → List (Bytes × α) → List (Bytes × α)
  | [], acc => acc
  | (k, v) :: l, acc => assocOf l (assocSet k v acc)

/-- into a `map[string]json.RawMessage` that is empty.  The result lists every key once. -/
def unmRawMap (bz : Bytes) : Option (List (Bytes × Bytes)) :=
  (wholeVal bz).bind fun raw =>
    if raw = jNull then some [] else (unmMembers raw).map fun l => assocOf l []

/-- Elements of a JSON array read into the `uint8`s of a slice holding `old`; `null` leaves the old element, which is 0 behind
the end of the old slice.  (Simplified: `json.Unmarshal` also finds what the array behind the slice holds between the length
and the capacity of the slice; that is taken as zeros here.) -/
def unmByteElems : Bytes → List Bytes → Option Bytes
  | _, [] => some []
  | old, e :: es =>
    (if e = jNull then some ((old.headD 0).toNat : Int) else parseIntKind .uint8 e).bind fun i =>
      (unmByteElems old.tail es).map fun bs => UInt8.ofNat i.toNat :: bs

/-- into a `[]byte` holding `old`: a base64 string or an array of numbers (decode.go `array` stores into the old slice, growing
it as needed). -/
def unmBytes (old : Bytes) (bz : Bytes) : Option Bytes :=
  (wholeVal bz).bind fun raw =>
    match raw with
    | c :: r =>
      if raw = jNull then some []
      else if c = 0x22 then (unquote raw).bind b64Dec
      else if c = 0x5b then (arrRest (skipVal raw.length) r).bind fun p => unmByteElems old p.1
      else none
    | [] => none

/-- ASCII case folding, as encoding/json compares member names with those of struct fields (fold.go;
the names concerned here contain neither `k` nor `s`). -/
def lowerAscii (c : UInt8) : UInt8 := if 0x41 ≤ c && c ≤ 0x5a then c + 0x20 else c

/-- json-decode.go:482-485 `disfixWrapper`: json.Unmarshal into a fresh one; `(Name, Data)`. -/
def unmWrapperMembers : List (Bytes × Bytes) → Bytes × Bytes → Option (Bytes × Bytes)
  | [], acc => some acc
  | (k, v) :: l, acc =>
    if k.map lowerAscii = [0x74, 0x79, 0x70, 0x65] then
      if v = jNull then unmWrapperMembers l acc
      else if v.head? = some 0x22 then (unquote v).bind fun s => unmWrapperMembers l (s, acc.2)
      else none
    else if k.map lowerAscii = [0x76, 0x61, 0x6c, 0x75, 0x65] then unmWrapperMembers l (acc.1, v)
    else unmWrapperMembers l acc

def unmWrapper (bz : Bytes) : Option (Bytes × Bytes) :=
  (wholeVal bz).bind fun raw =>
    if raw = jNull then some ([], []) else (unmMembers raw).bind fun l => unmWrapperMembers l ([], [])

/-- Standard library functions left abstract, and the JSON methods of the program's types. -/
structure JLib where
  /-- `json.Marshal` of a float (bits); `none` for NaN and infinities -/
  f32Text : UInt64 → Option Bytes
  f64Text : UInt64 → Option Bytes
  /-- `json.Unmarshal` of a JSON text that is not `null` into a float -/
  f32Parse : Bytes → Option UInt64
  f64Parse : Bytes → Option UInt64
  /-- `time.Time.MarshalJSON` of the UTC time (RFC 3339, in quotes); `none` for years outside 0..9999 -/
  timeText : Int → Int → Option Bytes
  /-- `(*time.Time).UnmarshalJSON` -/
  timeParse : Bytes → Option (Int × Int)
  /-- `MarshalJSON` of a type other than `time.Time`: of the pointer type when the value is addressable
  (`true`), of the type itself when not -/
  marsh : TId → Bool → Option (Val → Res Bytes)
  /-- `UnmarshalJSON` of the pointer to a type other than `time.Time`, on the old content -/
  unmarsh : TId → Option (Val → Bytes → Res Val)

end Amino
