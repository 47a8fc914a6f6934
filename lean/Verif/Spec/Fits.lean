import Verif.Model.Go

/-!
# Texts that the buffer of the lexer handles

`Rune` (lexer.go:157-168) reads from a buffer of 4096 bytes of which half is replaced
at a time.  It does not check for the end of the stream, beyond which the buffer still
holds older bytes, and it does not look over the end of the buffer.  `C16_refuted` and
`C53_refuted` are texts on which this shows.  Texts that fit are all texts below 4095
bytes, and longer ones of which the bytes that `Rune` may take for a continuation of the
text are no part of a word, and no UTF-8 sequence is cut by a refill.
-/

namespace Ogdl
namespace Spec

/-- An ASCII byte that is not part of a word. -/
def Separator (c : UInt8) : Prop :=
  c < 128 ∧ ¬ (65 ≤ c ∧ c ≤ 90) ∧ ¬ (97 ≤ c ∧ c ≤ 122) ∧ ¬ (48 ≤ c ∧ c ≤ 57) ∧ c ≠ 95

/-- A UTF-8 continuation byte. -/
def Continuation (c : UInt8) : Prop := 0x80 ≤ c ∧ c ≤ 0xBF

/-- Conditions on a text of any length under which paths, expressions and templates are
read as written. -/
def Fits (s : Bytes) : Prop :=
  s.length ≤ 4094 ∨
    (s.length % 2048 ≠ 2047 ∧
      (∀ i c, i + 2048 = s.length ∨ i + 2047 = s.length → s[i]? = some c → Separator c) ∧
      ∀ k c, 2 ≤ k → s[2048 * k]? = some c → ¬ Continuation c)

end Spec
end Ogdl
