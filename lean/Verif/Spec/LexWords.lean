import Verif.Model.LexWords
import Verif.Spec.LexCalls
import Verif.Spec.Expr
import Verif.Spec.Fits

/-!
# Specification: calls of the methods of a lexer, and words
-/

namespace Ogdl
namespace Spec.LexWords
open Lexing

/-- The longest word, in UTF-8, that the input begins with. -/
def LongestWord (E : Ext) (s w rest : Bytes) : Prop :=
  s = w ++ rest ∧ (w = [] ∨ Name E w) ∧ ∀ r u, NameRune E r → rest ≠ encodeRune r ++ u

/-- What a method returns on the rest of the input, and the rest of the input after it. -/
inductive ScansWord (E : Ext) : WordCall → Bytes → LexOut → Bytes → Prop where
  | word {s w rest : Bytes} : LongestWord E s w rest → ScansWord E .token8 s (.text w) rest
  | other {c : LexCall} {s t : Bytes} {o : LexOut} : Scans E c s o t → ScansWord E (.other c) s o t

/-- The calls one after the other, each on what is left by the one before. -/
inductive ScansWords (E : Ext) : List WordCall → Bytes → List LexOut → Bytes → Prop where
  | nil (s : Bytes) : ScansWords E [] s [] s
  | cons {c : WordCall} {cs : List WordCall} {s t u : Bytes} {o : LexOut} {os : List LexOut} :
      ScansWord E c s o t → ScansWords E cs t os u → ScansWords E (c :: cs) s (o :: os) u

/-- U+FFFD, which stands for bytes that are not UTF-8, is neither a letter nor a digit, as in the
tables of the unicode package. -/
def NoReplacement (E : Ext) : Prop := E.runeLetter 0xFFFD = false ∧ E.runeDigit 0xFFFD = false

end Spec.LexWords
end Ogdl
