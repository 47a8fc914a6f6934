import Verif.Model.LexCalls
import Verif.Spec.Text

/-!
# What the methods of a lexer read (C113)
-/

namespace Ogdl
namespace Spec.Lexing

/-- The text begins with `w`, all of whose bytes are of a kind, and goes on with `rest`, which does
not begin with such a byte. -/
def Longest (P : UInt8 → Prop) (s w rest : Bytes) : Prop :=
  s = w ++ rest ∧ (∀ c ∈ w, P c) ∧ ∀ c, rest.head? = some c → ¬ P c

/-- Space or tab. -/
def Blank (c : UInt8) : Prop := c = 32 ∨ c = 9

/-- A decimal digit. -/
def Digit (c : UInt8) : Prop := 48 ≤ c ∧ c ≤ 57

/-- A byte that ends the input: a control character other than tab, line feed and carriage
return. -/
def Ends (c : UInt8) : Prop := c < 32 ∧ c ≠ 9 ∧ c ≠ 10 ∧ c ≠ 13

/-- The kind of a run of blanks: a space if there are no tabs, a tab if there are no spaces, or
zero. -/
def kindOf (w : Bytes) : UInt8 := if 9 ∉ w then 32 else if 32 ∉ w then 9 else 0

/-- The text begins with a sign that is taken off. -/
inductive Signed : Bytes → Bytes → Bytes → Prop where
  | plus (t : Bytes) : Signed (43 :: t) [43] t
  | minus (t : Bytes) : Signed (45 :: t) [45] t
  | none {t : Bytes} : t.head? ≠ some 43 → t.head? ≠ some 45 → Signed t [] t

/-- Digits with at most one point, before, after or between them. -/
inductive Decimal : Bytes → Bytes → Bytes → Prop where
  | whole {s w rest : Bytes} : Longest Digit s w rest → rest.head? ≠ some 46 → Decimal s w rest
  | point {s w t v rest : Bytes} : Longest Digit s w (46 :: t) → Longest Digit t v rest → Decimal s (w ++ 46 :: v) rest

/-- Blanks up to the first place where there are `max` spaces or `max` tabs, or all blanks. -/
inductive UpTo (max : Nat) : Bytes → Bytes → Bytes → Prop where
  | stop {w rest : Bytes} : w ≠ [] → (∀ c ∈ w, Blank c) → (w.count 32 = max ∨ w.count 9 = max) →
      (∀ p, p <+: w → p ≠ [] → p ≠ w → p.count 32 ≠ max ∧ p.count 9 ≠ max) → UpTo max (w ++ rest) w rest
  | all {s w rest : Bytes} : Longest Blank s w rest → (∀ p, p <+: w → p ≠ [] → p.count 32 ≠ max ∧ p.count 9 ≠ max) → UpTo max s w rest

/-- A quote: double, single or back. -/
def Quote (c : UInt8) : Prop := c = 34 ∨ c = 39 ∨ c = 96

/-- One character of a quoted text, as it is written and as it is read.  Any number of backslashes
count as one, and they are dropped before a double or single quote. -/
inductive Piece (q : UInt8) : Bytes → Bytes → Prop where
  | plain {c : UInt8} : ¬ Ends c → c ≠ q → c ≠ 92 → c ≠ 10 → Piece q [c] [c]
  | escaped {c : UInt8} (k : Nat) : c = 34 ∨ c = 39 → Piece q (List.replicate (k + 1) 92 ++ [c]) [c]
  | kept {c : UInt8} (k : Nat) : ¬ Ends c → c ≠ 34 → c ≠ 39 → c ≠ q → c ≠ 92 → c ≠ 10 → Piece q (List.replicate (k + 1) 92 ++ [c]) [92, c]

/-- What is read of a line end after a number of backslashes. -/
def newline : Nat → Bytes
  | 0 => [10]
  | _ + 1 => [92, 10]

/-- A quoted text after its opening quote: the value (`none` if it does not end well) and what is
left. -/
inductive Body (ind : Nat) (q : UInt8) : Bytes → Option Bytes → Bytes → Prop where
  /-- The closing quote.  Backslashes before a back quote are lost. -/
  | close (k : Nat) (t : Bytes) : k = 0 ∨ q = 96 → Body ind q (List.replicate k 92 ++ q :: t) (some []) t
  | piece {p v t rest : Bytes} {o : Option Bytes} : Piece q p v → Body ind q t o rest → Body ind q (p ++ t) (o.map (v ++ ·)) rest
  /-- A line that is indented goes on, without the indentation. -/
  | line (k : Nat) {t w u rest : Bytes} {o : Option Bytes} : UpTo ind t w u → kindOf w ≠ 0 → ind ≤ w.length → Body ind q u o rest →
      Body ind q (List.replicate k 92 ++ 10 :: t) (o.map (newline k ++ ·)) rest
  /-- One that is not indented ends the text, after its blanks. -/
  | dedent (k : Nat) {t w u : Bytes} : UpTo ind t w u → kindOf w ≠ 0 → w.length < ind →
      Body ind q (List.replicate k 92 ++ 10 :: t) (some (newline k)) u
  | mixed (k : Nat) {t w u : Bytes} : UpTo ind t w u → kindOf w = 0 → Body ind q (List.replicate k 92 ++ 10 :: t) none u
  | cut (k : Nat) : Body ind q (List.replicate k 92) none []
  | ended (k : Nat) {c : UInt8} (t : Bytes) : Ends c → Body ind q (List.replicate k 92 ++ c :: t) none t

/-- A line of a block, without its CRs and with its line end. -/
inductive Line : Bytes → Bytes → Bytes → Prop where
  | nl {w : Bytes} (t : Bytes) : (∀ c ∈ w, ¬ Ends c ∧ c ≠ 10) → Line (w ++ 10 :: t) (w.filter (· ≠ 13) ++ [10]) t
  | ended {w : Bytes} {c : UInt8} (t : Bytes) : (∀ c ∈ w, ¬ Ends c ∧ c ≠ 10) → Ends c → Line (w ++ c :: t) (w.filter (· ≠ 13)) t
  | cut {w : Bytes} : (∀ c ∈ w, ¬ Ends c ∧ c ≠ 10) → Line w (w.filter (· ≠ 13)) []

/-- The lines that are indented more than `nsp`, without their indentation.  The indentation of the
line after them is taken, too. -/
inductive Lines (nsp : Nat) : Bytes → Bytes → Bytes → Prop where
  | stop {s w rest : Bytes} : Longest Blank s w rest → kindOf w = 0 ∨ w.length ≤ nsp → Lines nsp s [] rest
  | line {s w t l u ls rest : Bytes} : Longest Blank s w t → kindOf w ≠ 0 → nsp < w.length → Line t l u → Lines nsp u ls rest → Lines nsp s (l ++ ls) rest

/-- Without the line ends at its end. -/
def Trimmed (s v : Bytes) : Prop := v.getLast? ≠ some 10 ∧ ∃ k, s = v ++ List.replicate k 10

/-- There is no quoted text, and what is left after the search for one: all, or what comes after a
quoted text that does not end well. -/
inductive Unquoted (ind : Nat) : Bytes → Bytes → Prop where
  | none {s : Bytes} : (∀ c, s.head? = some c → ¬ Quote c) → Unquoted ind s s
  | bad {q : UInt8} {t u : Bytes} : Quote q → Body ind q t none u → Unquoted ind (q :: t) u

/-- What a method returns on the rest of the input, and the rest of the input after it. -/
inductive Scans (E : Ext) : LexCall → Bytes → LexOut → Bytes → Prop where
  | byte (c : UInt8) (t : Bytes) : Scans E .byte (c :: t) (.byte (some c)) t
  | byte_end : Scans E .byte [] (.byte none) []
  | peek (c : UInt8) (t : Bytes) : Scans E .peekByte (c :: t) (.byte (some c)) (c :: t)
  | peek_end : Scans E .peekByte [] (.byte (some 0)) []
  | string {s w rest : Bytes} : Longest (32 < ·) s w rest → Scans E .string s (.text w) rest
  | stringStop {s w rest stop : Bytes} : Longest (fun c => 32 < c ∧ c ∉ stop) s w rest → Scans E (.stringStop stop) s (.text w) rest
  | whiteSpace {s w rest : Bytes} : Longest (fun c => Blank c ∨ c = 10 ∨ c = 13) s w rest → Scans E .whiteSpace s (.found (w ≠ [])) rest
  | space {s w rest : Bytes} : Longest Blank s w rest → Scans E .space s (.blanks w.length (kindOf w)) rest
  | integer {s w rest : Bytes} : Longest Digit s w rest → Scans E .integer s (.text w) rest
  | operator {s w rest : Bytes} : Longest (fun c => c ∈ b!"+-*/%&|!<>=~^") s w rest → Scans E .operator s (.text w) rest
  | templateText {s w rest : Bytes} : Longest (fun c => c ≠ 36 ∧ ¬ Ends c) s w rest → Scans E .templateText s (.text w) rest
  | number {s sign t w rest : Bytes} : Signed s sign t → Decimal t w rest →
      Scans E .number s (.number (if w = [] then none else if sign = [45] then some (45 :: w) else some w)) rest
  /-- The byte that ends the line is taken, too. -/
  | comment {b c : UInt8} {w rest : Bytes} : Blank b → (∀ x ∈ w, ¬ Ends x ∧ x ≠ 10 ∧ x ≠ 13) → (Ends c ∨ c = 10 ∨ c = 13) →
      Scans E .comment (35 :: b :: w ++ c :: rest) (.found true) rest
  | comment_end {b : UInt8} {w : Bytes} : Blank b → (∀ x ∈ w, ¬ Ends x ∧ x ≠ 10 ∧ x ≠ 13) → Scans E .comment (35 :: b :: w) (.found true) []
  | comment_none {s : Bytes} : (¬ ∃ b t, Blank b ∧ s = 35 :: b :: t) → Scans E .comment s (.found false) s
  | break_nl (t : Bytes) : Scans E .brk (10 :: t) (.found true) t
  | break_crnl (t : Bytes) : Scans E .brk (13 :: 10 :: t) (.found true) t
  /-- A CR alone is not a break, but it is taken. -/
  | break_cr {t : Bytes} : t.head? ≠ some 10 → Scans E .brk (13 :: t) (.found false) t
  | break_none {t : Bytes} : t.head? ≠ some 10 → t.head? ≠ some 13 → Scans E .brk t (.found false) t
  | end_end : Scans E .endp [] (.found true) []
  | end_char {c : UInt8} {t : Bytes} : Ends c → Scans E .endp (c :: t) (.found true) t
  | end_none {c : UInt8} {t : Bytes} : ¬ Ends c → Scans E .endp (c :: t) (.found false) (c :: t)
  | spaceMax {s w rest : Bytes} {max : Nat} : UpTo max s w rest → Scans E (.spaceMax max) s (.blanks w.length (kindOf w)) rest
  | quoted {ind : Nat} {q : UInt8} {t rest : Bytes} {v : Option Bytes} : Quote q → Body ind q t v rest → Scans E (.quoted ind) (q :: t) (.value v) rest
  | quoted_none {ind : Nat} {s : Bytes} : (∀ c, s.head? = some c → ¬ Quote c) → Scans E (.quoted ind) s (.value none) s
  | scalar {ind : Nat} {q : UInt8} {t rest v : Bytes} : Quote q → Body ind q t (some v) rest → Scans E (.scalar ind) (q :: t) (.value (some v)) rest
  | scalar_text {ind : Nat} {s w rest : Bytes} : (∀ c, s.head? = some c → ¬ Quote c) → Longest (32 < ·) s w rest →
      Scans E (.scalar ind) s (.value (if w = [] then none else some w)) rest
  /-- A quoted text that does not end well is lost, and the text after it is the scalar. -/
  | scalar_bad {ind : Nat} {q : UInt8} {t u w rest : Bytes} : Quote q → Body ind q t none u → Longest (32 < ·) u w rest →
      Scans E (.scalar ind) (q :: t) (.value (if w = [] then none else some w)) rest
  | typed {ind : Nat} {q : UInt8} {t rest v : Bytes} : Quote q → Body ind q t (some v) rest → Scans E (.scalarType ind) (q :: t) (.typed (some (.str v))) rest
  | typed_none {ind : Nat} {s t rest : Bytes} : Unquoted ind s t → Longest (32 < ·) t [] rest → Scans E (.scalarType ind) s (.typed none) rest
  | typed_word {ind : Nat} {s t w rest : Bytes} {v : Val} : Unquoted ind s t → Longest (32 < ·) t w rest → w ≠ [] → TypedWord E w v →
      Scans E (.scalarType ind) s (.typed (some v)) rest
  | block {nsp : Nat} {t ls v rest : Bytes} : Lines nsp t ls rest → Trimmed ls v → Scans E (.block nsp) (92 :: 10 :: t) (.value (some v)) rest
  /-- The byte after a CR is not looked at. -/
  | block_cr {nsp : Nat} {c : UInt8} {t ls v rest : Bytes} : Lines nsp t ls rest → Trimmed ls v →
      Scans E (.block nsp) (92 :: 13 :: c :: t) (.value (some v)) rest
  | block_end {nsp : Nat} : Scans E (.block nsp) [92, 13] (.value (some [])) []
  | block_none {nsp : Nat} {s : Bytes} : (¬ ∃ c t, (c = 10 ∨ c = 13) ∧ s = 92 :: c :: t) → Scans E (.block nsp) s (.value none) s

/-- The calls one after the other, each on what is left by the one before. -/
inductive ScansAll (E : Ext) : List LexCall → Bytes → List LexOut → Bytes → Prop where
  | nil (s : Bytes) : ScansAll E [] s [] s
  | cons {c : LexCall} {cs : List LexCall} {s t u : Bytes} {o : LexOut} {os : List LexOut} : Scans E c s o t → ScansAll E cs t os u → ScansAll E (c :: cs) s (o :: os) u

end Spec.Lexing
end Ogdl
