import Verif.Proof.Bytes
import Verif.Spec.Literal
/-!
# Character-level lexer

Index-free versions of the functions of `Verif/Model/Parse.lean`, working on the remaining text
only: `P.f s = some r` means that `f` succeeds on `s` leaving `r`. They are proof devices; the
refinement theorems in `Verif/Proof/Refine*.lean` connect them to the transcription of the code.
-/

namespace PM2.P

/-- content and rest -/
def takeUntil : List Char → List Char × List Char
  | [] => ([], [])
  | c :: s =>
    if c = '\n' then ([], c :: s)
    else if c = '\r' ∧ startsWithChar s '\n' then ([], s)
    else (c :: (takeUntil s).1, (takeUntil s).2)

def block : List Char → Nat → Option (List Char)
  | c0 :: c1 :: s, d =>
    if c0 = '/' ∧ c1 = '*' then block s (d + 1)
    else if c0 = '*' ∧ c1 = '/' then (if d ≤ 1 then some s else block s (d - 1))
    else block (c1 :: s) d
  | _, _ => none

def blockComment (s : List Char) : Option (List Char) :=
  if startsWith s ['/', '*'] then block s 0 else none

/-- one item of trivia (whitespace character or comment) -/
def triv1 (s : List Char) : Option (List Char) :=
  match s with
  | [] => none
  | c :: t =>
    if startsWith s ['/', '/'] && (!startsWith s ['/', '/', '/'] ||
        startsWith s ['/', '/', '/', '/']) && !startsWith s ['/', '/', '!'] then
      some (takeUntil s).2
    else if startsWith s ['/', '*', '*', '/'] then some (s.drop 4)
    else if startsWith s ['/', '*'] && (!startsWith s ['/', '*', '*'] ||
        startsWith s ['/', '*', '*', '*']) && !startsWith s ['/', '*', '!'] then
      blockComment s
    else if isWhitespace c then some t
    else none

def skipWs (s : List Char) : List Char :=
  match triv1 s with
  | none => s
  | some r => if r.length < s.length then skipWs r else s
termination_by s.length

section
variable [UnicodeTables]

/-- symbol and rest -/
def identNotRaw : List Char → Option (List Char × List Char)
  | [] => none
  | c :: s =>
    if isIdentStart c then some (c :: s.takeWhile isIdentContinue, s.dropWhile isIdentContinue)
    else none

/-- symbol, raw flag and rest -/
def identAny (s : List Char) : Option (List Char × Bool × List Char) :=
  if startsWith s ['r', '#'] then
    match identNotRaw (s.drop 2) with
    | some (sym, r) => if isNonRawable sym then none else some (sym, true, r)
    | none => none
  else
    match identNotRaw s with
    | some (sym, r) => some (sym, false, r)
    | none => none

def ident (s : List Char) : Option (List Char × Bool × List Char) :=
  if identRejectPrefixes.any (startsWith s) then none else identAny s

def literalSuffix (s : List Char) : List Char :=
  match identNotRaw s with
  | some (_, r) => r
  | none => s

def wordBreak : List Char → Option (List Char)
  | [] => some []
  | c :: s => if isIdentContinue c then none else some (c :: s)

end

/-- The three kinds of string literal. -/
abbrev Kind := Spec.StrKind

/-- `\x` escapes, after the `x` -/
def xEsc (k : Kind) : List Char → Option (List Char)
  | c1 :: c2 :: r =>
    match k with
    | .str => if ('0' ≤ c1 ∧ c1 ≤ '7') ∧ isHexChar c2 then some r else none
    | .byte => if isHexChar c1 ∧ isHexChar c2 then some r else none
    | .c => if isHexChar c1 ∧ isHexChar c2 ∧ ¬ (c1 = '0' ∧ c2 = '0') then some r else none
  | _ => none

def uLoop : List Char → Nat → Nat → Option (Char × List Char)
  | [], _, _ => none
  | ch :: chars, value, len =>
    match hexVal ch with
    | some digit => if len = 6 then none else uLoop chars (value * 16 + digit) (len + 1)
    | none =>
      if ch = '_' ∧ len > 0 then uLoop chars value len
      else if ch = '}' ∧ len > 0 then
        match charFromU32 value with
        | some c => some (c, chars)
        | none => none
      else none

/-- `\u` escapes, after the `u` -/
def uEsc : List Char → Option (Char × List Char)
  | ch :: chars => if ch = '{' then uLoop chars 0 0 else none
  | [] => none

/-- whitespace after a backslash-newline -/
def trailing : List Char → Option (List Char)
  | [] => none
  | c :: s =>
    if c = ' ' ∨ c = '\t' ∨ c = '\n' then trailing s
    else if c = '\r' then
      match s with
      | c2 :: s => if c2 = '\n' then trailing s else none
      | [] => none
    else some (c :: s)

/-- an escape, after the backslash -/
def esc (k : Kind) : List Char → Option (List Char)
  | [] => none
  | c :: s =>
    if c = 'x' then xEsc k s
    else if c = 'n' ∨ c = 'r' ∨ c = 't' ∨ c = '\\' ∨ c = '\'' ∨ c = '"' then some s
    else if c = '0' then (if k = .c then none else some s)
    else if c = 'u' then
      if k = .byte then none
      else match uEsc s with
        | some (v, r) => if k = .c ∧ v = '\x00' then none else some r
        | none => none
    else if c = '\n' then trailing s
    else if c = '\r' then
      match s with
      | c2 :: s => if c2 = '\n' then trailing s else none
      | [] => none
    else none

/-- characters that may not appear in a literal of kind `k` -/
def badChar (k : Kind) (c : Char) : Bool :=
  match k with
  | .str => false
  | .byte => !decide (c.toNat < 128)
  | .c => c == '\x00'

/-- one element of a cooked string: `none` error, `some (some r)` continue with `r`,
`some none` the closing quote -/
def cookedUnit (k : Kind) : List Char → Option (List Char)
  | [] => none
  | c :: s =>
    if c = '\r' then
      match s with
      | c2 :: s => if c2 = '\n' then some s else none
      | [] => none
    else if c = '\\' then esc k s
    else if badChar k c then none
    else some s

/-- a cooked string after the opening quote, up to and including the closing quote -/
def cooked (k : Kind) (s : List Char) : Option (List Char) :=
  match s with
  | [] => none
  | c :: t =>
    if c = '"' then some t
    else match cookedUnit k (c :: t) with
      | some r => if r.length < t.length + 1 then cooked k r else none
      | none => none
termination_by s.length

/-- number of hashes and text after the quote -/
def delim : List Char → Nat → Option (Nat × List Char)
  | [], _ => none
  | c :: s, i =>
    if c = '"' then (if i > 255 then none else some (i, s))
    else if c = '#' then delim s (i + 1)
    else none

/-- a raw string after the opening quote, up to and including the closing delimiter -/
def raw (k : Kind) (n : Nat) : List Char → Option (List Char)
  | [] => none
  | c :: s =>
    if c = '"' then
      if startsWith s (List.replicate n '#') then some (s.drop n) else raw k n s
    else if c = '\r' then
      match s with
      | c2 :: s => if c2 = '\n' then raw k n s else none
      | [] => none
    else if badChar k c then none
    else raw k n s

def rawLit (k : Kind) (s : List Char) : Option (List Char) :=
  match delim s 0 with
  | some (n, s) => raw k n s
  | none => none

/-- the prefix letters of a kind -/
def kpre : Kind → List Char
  | .str => []
  | .byte => ['b']
  | .c => ['c']

section
variable [UnicodeTables]

/-- strings of kind `k`, without suffix -/
def strBody (k : Kind) (s : List Char) : Option (List Char) :=
  if startsWith s (kpre k ++ ['"']) then cooked k (s.drop ((kpre k).length + 1))
  else if startsWith s (kpre k ++ ['r']) then rawLit k (s.drop ((kpre k).length + 1))
  else none

def strLit (k : Kind) (s : List Char) : Option (List Char) := (strBody k s).map literalSuffix

/-- a quote, then the suffix -/
def quote (s : List Char) : Option (List Char) :=
  match s with
  | c :: r => if c = '\'' then some r else none
  | [] => none

def byteElem : List Char → Option (List Char)
  | [] => none
  | c :: s =>
    if c = '\\' then
      match s with
      | c2 :: s =>
        if c2 = 'x' then xEsc .byte s
        else if c2 = 'n' ∨ c2 = 'r' ∨ c2 = 't' ∨ c2 = '\\' ∨ c2 = '0' ∨ c2 = '\'' ∨ c2 = '"' then
          some s
        else none
      | [] => none
    else if c.toNat < 128 then some s
    else none

def charElem : List Char → Option (List Char)
  | [] => none
  | c :: s =>
    if c = '\\' then
      match s with
      | c2 :: s =>
        if c2 = 'x' then xEsc .str s
        else if c2 = 'u' then (uEsc s).map (·.2)
        else if c2 = 'n' ∨ c2 = 'r' ∨ c2 = 't' ∨ c2 = '\\' ∨ c2 = '0' ∨ c2 = '\'' ∨ c2 = '"' then
          some s
        else none
      | [] => none
    else some s

def byteBody (s : List Char) : Option (List Char) :=
  if startsWith s ['b', '\''] then (byteElem (s.drop 2)).bind quote else none

def charBody (s : List Char) : Option (List Char) :=
  if startsWith s ['\''] then (charElem (s.drop 1)).bind quote else none

def byteLit (s : List Char) : Option (List Char) := (byteBody s).map literalSuffix
def charLit (s : List Char) : Option (List Char) := (charBody s).map literalSuffix

/-- mantissa of a float: rest (starting at `e` if there is an exponent) and whether a dot was seen -/
def mantissa : List Char → Bool → Option (List Char × Bool)
  | [], hasDot => some ([], hasDot)
  | ch :: chars, hasDot =>
    if isDecDigit ch || ch == '_' then mantissa chars hasDot
    else if ch = '.' then
      if hasDot then some (ch :: chars, hasDot)
      else
        match chars with
        | next :: _ => if next = '.' || isIdentStart next then none else mantissa chars true
        | [] => mantissa chars true
    else some (ch :: chars, hasDot)

def exponent : List Char → Bool → Bool → Option (List Char)
  | [], _, hasValue => if hasValue then some [] else none
  | ch :: chars, hasSign, hasValue =>
    if ch = '+' ∨ ch = '-' then
      if hasValue then some (ch :: chars)
      else if hasSign then none
      else exponent chars true hasValue
    else if isDecDigit ch then exponent chars hasSign true
    else if ch = '_' then exponent chars hasSign hasValue
    else if hasValue then some (ch :: chars) else none

def floatDigits (s : List Char) : Option (List Char) :=
  match s with
  | [] => none
  | ch :: chars =>
    if isDecDigit ch then
      match mantissa chars false with
      | none => none
      | some (r, hasDot) =>
        match r with
        | e :: r' =>
          if e = 'e' ∨ e = 'E' then
            match exponent r' false false with
            | some r'' => some r''
            | none => if hasDot then some r else none
          else if hasDot then some r else none
        | [] => if hasDot then some r else none
    else none

/-- the suffix of a number, and the following word break -/
def numTail (s : List Char) : Option (List Char) :=
  match s with
  | [] => some []
  | c :: _ =>
    if isIdentStart c then
      match identNotRaw s with
      | some (_, r) => wordBreak r
      | none => none
    else wordBreak s

def float (s : List Char) : Option (List Char) := (floatDigits s).bind numTail

def digitsLoop (base : Nat) : List Char → Bool → Option (List Char × Bool)
  | [], empty => some ([], empty)
  | c :: s, empty =>
    if '0' ≤ c ∧ c ≤ '9' then
      if c.toNat - 48 ≥ base then none else digitsLoop base s false
    else if 'a' ≤ c ∧ c ≤ 'f' then
      if 10 + (c.toNat - 97) ≥ base then some (c :: s, empty) else digitsLoop base s false
    else if 'A' ≤ c ∧ c ≤ 'F' then
      if 10 + (c.toNat - 65) ≥ base then some (c :: s, empty) else digitsLoop base s false
    else if c = '_' then
      if empty && base == 10 then none else digitsLoop base s empty
    else some (c :: s, empty)

def digitsBase (s : List Char) : List Char × Nat :=
  if startsWith s ['0', 'x'] then (s.drop 2, 16)
  else if startsWith s ['0', 'o'] then (s.drop 2, 8)
  else if startsWith s ['0', 'b'] then (s.drop 2, 2)
  else (s, 10)

def digits (s : List Char) : Option (List Char) :=
  match digitsLoop (digitsBase s).2 (digitsBase s).1 true with
  | some (r, false) => some r
  | _ => none

def int (s : List Char) : Option (List Char) := (digits s).bind numTail

def literal (s : List Char) : Option (List Char) :=
  strLit .str s <|> strLit .byte s <|> strLit .c s <|> byteLit s <|> charLit s <|> float s <|> int s

def punctChar (s : List Char) : Option (Char × List Char) :=
  if startsWith s ['/', '/'] || startsWith s ['/', '*'] then none
  else
    match s with
    | [] => none
    | c :: r => if recognizedPunct.contains c then some (c, r) else none

def punct (s : List Char) : Option (Char × Spacing × List Char) :=
  match punctChar s with
  | none => none
  | some (ch, r) =>
    if ch = '\'' then
      match identAny r with
      | none => none
      | some (_, _, after) =>
        if startsWithChar after '\'' || (startsWithChar after '#' && !startsWith r ['r', '#']) then
          none
        else some ('\'', .joint, r)
    else some (ch, if (punctChar r).isSome then .joint else .alone, r)

/-- Leaf tokens without spans. -/
inductive Leaf where
  | ident (sym : List Char) (raw : Bool)
  | punct (ch : Char) (spacing : Spacing)
  | literal (repr : List Char)
deriving DecidableEq, Repr

def Leaf.tok (span : Span) : Leaf → TokenTree
  | .ident s r => .ident s r span
  | .punct c sp => .punct c sp span
  | .literal r => .literal r span

/-- the text consumed when `r` remains of `s` -/
def eaten (s r : List Char) : List Char := s.take (s.length - r.length)

def leaf (s : List Char) : Option (Leaf × List Char) :=
  match literal s with
  | some r => some (.literal (eaten s r), r)
  | none =>
    match punct s with
    | some (c, sp, r) => some (.punct c sp, r)
    | none =>
      match ident s with
      | some (sym, raw, r) => some (.ident sym raw, r)
      | none =>
        if startsWith s errorRepr then some (.literal errorRepr, s.drop errorRepr.length) else none

/-- contents, inner flag, rest -/
def docContents (s : List Char) : Option (List Char × Bool × List Char) :=
  if startsWith s ['/', '/', '!'] then
    some ((takeUntil (s.drop 3)).1, true, (takeUntil (s.drop 3)).2)
  else if startsWith s ['/', '*', '!'] then
    (blockComment s).map fun r => (((eaten s r).drop 3).dropLast.dropLast, true, r)
  else if startsWith s ['/', '/', '/'] then
    if startsWithChar (s.drop 3) '/' then none
    else some ((takeUntil (s.drop 3)).1, false, (takeUntil (s.drop 3)).2)
  else if startsWith s ['/', '*', '*'] then
    if startsWithChar (s.drop 3) '*' then none
    else (blockComment s).map fun r => (((eaten s r).drop 3).dropLast.dropLast, false, r)
  else none

/-- no carriage return without a following newline -/
def noBareCr : List Char → Bool
  | [] => true
  | c :: s => if c = '\r' then startsWithChar s '\n' && noBareCr s else noBareCr s

/-- the tokens of a doc comment -/
def docTokens (content : List Char) (inner : Bool) (span : Span) : List TokenTree :=
  [.punct '#' .alone span] ++ (if inner then [.punct '!' .alone span] else []) ++
  [.group .bracket [.ident ['d', 'o', 'c'] false span, .punct '=' .alone span,
    .literal (litString content) span] span]

def doc (s : List Char) : Option (List Char × Bool × List Char) :=
  match docContents s with
  | some (content, inner, r) => if noBareCr content then some (content, inner, r) else none
  | none => none

end

end PM2.P
