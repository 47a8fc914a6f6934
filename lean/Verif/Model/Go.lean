/-!
# Go run-time and standard library fragments used by ogdl

Bytes, outcomes of a Go call (value, panic, no result within the fuel), byte
classes, `strconv.ParseInt`, `fmt.Sprint` of integers and UTF-8.
-/

namespace Ogdl

/-- A Go `string` or `[]byte`: a finite sequence of bytes. Go's run-time. -/
abbrev Bytes := List UInt8

/-- Outcome of running Go code: a value, a run-time panic, or no result within
the given fuel (used to express non-termination of `for` loops). Go's run-time. -/
inductive Res (α : Type) where
  | ok (a : α)
  | panic
  | oof
  deriving Repr, DecidableEq

namespace Res

/-- Go's sequencing of statements. -/
@[simp] def bind {α β : Type} : Res α → (α → Res β) → Res β
  | ok a, f => f a
  | panic, _ => panic
  | oof, _ => oof

instance : Monad Res where
  pure := ok
  bind := bind

@[simp] theorem pure_eq {α : Type} (a : α) : (pure a : Res α) = ok a := rfl
@[simp] theorem ok_bind {α β : Type} (a : α) (f : α → Res β) : (ok a >>= f) = f a := rfl
@[simp] theorem panic_bind {α β : Type} (f : α → Res β) : ((panic : Res α) >>= f) = panic := rfl
@[simp] theorem oof_bind {α β : Type} (f : α → Res β) : ((oof : Res α) >>= f) = oof := rfl

@[simp] theorem map_ok {α β : Type} (f : α → β) (a : α) : (f <$> (ok a : Res α)) = ok (f a) := rfl
@[simp] theorem map_panic {α β : Type} (f : α → β) : (f <$> (panic : Res α)) = panic := rfl
@[simp] theorem map_oof {α β : Type} (f : α → β) : (f <$> (oof : Res α)) = oof := rfl

instance : LawfulMonad Res := LawfulMonad.mk'
  (id_map := by intro α x; cases x <;> rfl)
  (pure_bind := by intros; rfl)
  (bind_assoc := by intro α β γ x f g; cases x <;> rfl)

end Res

/-- `b!"abc"` is the byte list of an ASCII string literal, expanded at elaboration time. -/
syntax:max "b!" noWs str : term
open Lean in
macro_rules
  | `(b!$s:str) => do
    let cs := s.getString.toUTF8.toList
    let elems ← cs.toArray.mapM fun c => `(($(quote c.toNat) : UInt8))
    `(([$elems,*] : List UInt8))

/-! ## Byte classes (lexer.go:631-688) -/

/-- lexer.go:633-635 `IsTextChar`. -/
def isTextChar (c : UInt8) : Bool := c > 32

/-- lexer.go:639-641 `IsEndChar`. -/
def isEndChar (c : UInt8) : Bool := c < 32 && c != 9 && c != 10 && c != 13

/-- lexer.go:650-652 `IsBreakChar`. -/
def isBreakChar (c : UInt8) : Bool := c == 10 || c == 13

/-- lexer.go:655-657 `IsSpaceChar`. -/
def isSpaceChar (c : UInt8) : Bool := c == 32 || c == 9

/-- lexer.go:660-662 `isTemplateTextChar`. -/
def isTemplateTextChar (c : UInt8) : Bool := !isEndChar c && c != 36

/-- lexer.go:666-671 `isOperatorChar`: one of ``+-*/%&|!<>=~^``. -/
def isOperatorChar (c : UInt8) : Bool :=
  c == 43 || c == 45 || c == 42 || c == 47 || c == 37 || c == 38 || c == 124 || c == 33 ||
  c == 60 || c == 62 || c == 61 || c == 126 || c == 94

/-- `unicode.IsDigit` restricted to Latin-1 code points (the decimal digits). Used for lexer.go:681-688. -/
def latinDigit (r : Nat) : Bool := 48 ≤ r && r ≤ 57

/-- `unicode.IsLetter` restricted to Latin-1 code points. Used for lexer.go:676-688. -/
def latinLetter (r : Nat) : Bool :=
  (65 ≤ r && r ≤ 90) || (97 ≤ r && r ≤ 122) || r == 0xAA || r == 0xB5 || r == 0xBA ||
  (0xC0 ≤ r && r ≤ 0xD6) || (0xD8 ≤ r && r ≤ 0xF6) || (0xF8 ≤ r && r ≤ 0xFF)

/-- lexer.go:681-683 `IsDigit(rune(c))` on a single byte `c`. -/
def isDigitByte (c : UInt8) : Bool := latinDigit c.toNat

/-- lexer.go:676-678 `IsLetter(rune(c))` on a single byte `c` (Latin-1 letter or `_`). -/
def isLetterByte (c : UInt8) : Bool := latinLetter c.toNat || c == 95

/-! ## strconv -/

/-- Value of a digit string, most significant first; `none` if a byte is not a digit.
Used for gettypes.go:310, 478, 483 and lexer.go:613. -/
def digitsVal : Bytes → Nat → Option Nat
  | [], acc => some acc
  | c :: cs, acc => if 48 ≤ c && c ≤ 57 then digitsVal cs (acc * 10 + (c.toNat - 48)) else none

/-- `strconv.ParseUint(s, 10, 64)` without the range check: empty string is an error.
Used for gettypes.go:310, 478, 483 and lexer.go:613. -/
def parseDigits (s : Bytes) : Option Nat :=
  if s.isEmpty then none else digitsVal s 0

/-- `strconv.ParseInt(s, 10, 64)`: optional sign, decimal digits, result within int64.
Used for gettypes.go:310, 478, 483 and lexer.go:613. -/
def parseInt (s : Bytes) : Option Int :=
  match s with
  | [] => none
  | c :: t =>
    let neg := c == 45
    let ds := if c == 43 || c == 45 then t else s
    match parseDigits ds with
    | none => none
    | some n =>
      if neg then (if n ≤ 2 ^ 63 then some (-(n : Int)) else none)
      else (if n < 2 ^ 63 then some (n : Int) else none)

/-- Decimal digits of `n`, most significant first (fuel `n + 1` always suffices). Used for gettypes.go:587 and 619. -/
def utoaAux : Nat → Nat → Bytes → Bytes
  | 0, _, acc => acc
  | f + 1, n, acc =>
    if n < 10 then UInt8.ofNat (48 + n) :: acc
    else utoaAux f (n / 10) (UInt8.ofNat (48 + n % 10) :: acc)

/-- Decimal text of a natural number. Used for gettypes.go:587 and 619. -/
def utoa (n : Nat) : Bytes := utoaAux (n + 1) n []

/-- `fmt.Sprint` of an integer of any Go integer type. Used for gettypes.go:587 and 619. -/
def itoa (i : Int) : Bytes :=
  if i < 0 then 45 :: utoa i.natAbs else utoa i.natAbs

/-- Two's complement wrap of an integer result to int64.
Used for gettypes.go:498-525 and the integer operators of eval.go. -/
def wrap64 (i : Int) : Int := (i + 2 ^ 63) % 2 ^ 64 - 2 ^ 63

/-! ## UTF-8 (`unicode/utf8`) -/

/-- A UTF-8 continuation byte. Used for lexer.go:163. -/
def isCont (c : UInt8) : Bool := 0x80 ≤ c && c ≤ 0xBF

/-- `utf8.RuneError`. Used for lexer.go:163. -/
def runeError : Nat := 0xFFFD

/-- `utf8.DecodeRune`: the rune and its size; `(RuneError, 1)` on an invalid
encoding and `(RuneError, 0)` on empty input. lexer.go:163. -/
def decodeRune : Bytes → Nat × Nat
  | [] => (runeError, 0)
  | c0 :: t =>
    if c0 < 0x80 then (c0.toNat, 1)
    else if c0 < 0xC2 then (runeError, 1)
    else if c0 < 0xE0 then
      match t with
      | c1 :: _ =>
        if isCont c1 then ((c0.toNat % 0x20) * 0x40 + c1.toNat % 0x40, 2) else (runeError, 1)
      | _ => (runeError, 1)
    else if c0 < 0xF0 then
      match t with
      | c1 :: c2 :: _ =>
        if isCont c1 && isCont c2 && !(c0 == 0xE0 && c1 < 0xA0) && !(c0 == 0xED && c1 > 0x9F) then
          ((c0.toNat % 0x10) * 0x1000 + (c1.toNat % 0x40) * 0x40 + c2.toNat % 0x40, 3)
        else (runeError, 1)
      | _ => (runeError, 1)
    else if c0 < 0xF5 then
      match t with
      | c1 :: c2 :: c3 :: _ =>
        if isCont c1 && isCont c2 && isCont c3 && !(c0 == 0xF0 && c1 < 0x90) &&
            !(c0 == 0xF4 && c1 > 0x8F) then
          ((c0.toNat % 8) * 0x40000 + (c1.toNat % 0x40) * 0x1000 + (c2.toNat % 0x40) * 0x40 +
            c3.toNat % 0x40, 4)
        else (runeError, 1)
      | _ => (runeError, 1)
    else (runeError, 1)

/-- Conversion of one rune to a string: `string([]rune{r})`. lexer.go:397-412. -/
def encodeRune (r : Nat) : Bytes :=
  if r < 0x80 then [UInt8.ofNat r]
  else if r < 0x800 then [UInt8.ofNat (0xC0 + r / 0x40), UInt8.ofNat (0x80 + r % 0x40)]
  else if (0xD800 ≤ r && r ≤ 0xDFFF) || r > 0x10FFFF then [0xEF, 0xBF, 0xBD]
  else if r < 0x10000 then
    [UInt8.ofNat (0xE0 + r / 0x1000), UInt8.ofNat (0x80 + r / 0x40 % 0x40),
     UInt8.ofNat (0x80 + r % 0x40)]
  else
    [UInt8.ofNat (0xF0 + r / 0x40000), UInt8.ofNat (0x80 + r / 0x1000 % 0x40),
     UInt8.ofNat (0x80 + r / 0x40 % 0x40), UInt8.ofNat (0x80 + r % 0x40)]

/-- `string(buf)` for `buf []rune`. lexer.go:397-412. -/
def encodeRunes (rs : List Nat) : Bytes := rs.flatMap encodeRune

end Ogdl
