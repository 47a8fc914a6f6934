import Verif.Model.Lexer

/-!
# How a tree is written as OGDL text

A small grammar of OGDL text, independent of the parser: which texts write which
trees.  Used to state C09, C11, C12 and related properties.
-/

namespace Ogdl
namespace Spec

/-- Only spaces and tabs. -/
def Blank (s : Bytes) : Prop := ∀ c ∈ s, c = 32 ∨ c = 9

/-- End of a line: NL or CR NL. -/
def Eol (s : Bytes) : Prop := s = [10] ∨ s = [13, 10]

/-- A word: printable bytes, not starting with a quote or a comma. -/
structure Word (w : Bytes) : Prop where
  text : ∀ c ∈ w, 32 < c
  head : ∃ c t, w = c :: t ∧ c ≠ 34 ∧ c ≠ 39 ∧ c ≠ 96 ∧ c ≠ 44

/-- The text between the quotes `q`, on a line indented by `n`: quotes are escaped
and continuation lines are indented by `n` spaces. -/
def escape (n : Nat) (q : UInt8) : Bytes → Bytes
  | [] => []
  | c :: t =>
    if c = 10 then 10 :: List.replicate n 32 ++ escape n q t
    else if c = q then 92 :: c :: escape n q t
    else c :: escape n q t

/-- Every backslash is followed by a byte other than a backslash or a quote. -/
def LoneSlashes : Bytes → Prop
  | [] => True
  | [c] => c ≠ 92
  | c :: d :: t => (c = 92 → d ≠ 92 ∧ d ≠ 34 ∧ d ≠ 39) ∧ LoneSlashes (d :: t)

/-- A string that can be written between quotes on a line indented by `n`: no
control characters except tab, NL and CR; on an unindented line no NL. -/
structure Quotable (n : Nat) (v : Bytes) : Prop where
  noEnd : ∀ c ∈ v, 32 ≤ c ∨ c = 9 ∨ c = 10 ∨ c = 13
  slashes : LoneSlashes v
  noBreak : n = 0 → ∀ c ∈ v, c ≠ 10

/-- The number written by decimal digits. -/
def decimal (ds : Bytes) : Nat := ds.foldl (fun n c => 10 * n + (c.toNat - 48)) 0

/-- `w` is a decimal integer with an optional sign, of the value `i`, that fits an int64. -/
def IntText (w : Bytes) (i : Int) : Prop :=
  ∃ ds : Bytes, ds ≠ [] ∧ (∀ c ∈ ds, 48 ≤ c ∧ c ≤ 57) ∧
    (((w = ds ∨ w = 43 :: ds) ∧ i = decimal ds) ∨ (w = 45 :: ds ∧ i = -decimal ds)) ∧ -2 ^ 63 ≤ i ∧ i < 2 ^ 63

/-- The Go value of an unquoted word: int64, else float64, else bool, else string. -/
inductive TypedWord (E : Ext) (w : Bytes) : Val → Prop
  | int {i : Int} : IntText w i → TypedWord E w (.int .int64 i)
  | float {f : UInt64} : (∀ i, ¬ IntText w i) → E.parseFloat w = some f → TypedWord E w (.f64 f)
  | true : (∀ i, ¬ IntText w i) → E.parseFloat w = none → w = b!"true" → TypedWord E w (.bool true)
  | false : (∀ i, ¬ IntText w i) → E.parseFloat w = none → w = b!"false" → TypedWord E w (.bool false)
  | text : (∀ i, ¬ IntText w i) → E.parseFloat w = none → w ≠ b!"true" → w ≠ b!"false" → TypedWord E w (.str w)

/-- The value of an unquoted word, with or without conversion. -/
def WordValue (E : Ext) (types : Bool) (w : Bytes) (v : Val) : Prop :=
  if types then TypedWord E w v else v = .str w

/-- `r` writes the value `v` on a line indented by `n`; `last` tells whether the line
ends right after it.  With `types`, words are converted (`OgdlTypes`). -/
inductive Scal (E : Ext) (types : Bool) (n : Nat) : Bool → Val → Bytes → Prop
  | word {last : Bool} {w : Bytes} {v : Val} : Word w →
      (last = true → w ≠ [92]) → (last = false → w ≠ [35]) → WordValue E types w v →
      Scal E types n last v w
  | quoted {last : Bool} {q : UInt8} {v : Bytes} : q = 34 ∨ q = 39 → Quotable n v →
      Scal E types n last (.str v) (q :: escape n q v ++ [q])

/-- `t` writes the values in one line, indentation and end of line not included. -/
inductive LineOf (E : Ext) (types : Bool) (n : Nat) : List Val → Bytes → Prop
  | last {v : Val} {r : Bytes} : Scal E types n true v r → LineOf E types n [v] r
  | trailing {v : Val} {r sp : Bytes} : Scal E types n false v r → sp ≠ [] → Blank sp →
      LineOf E types n [v] (r ++ sp)
  | more {v : Val} {r sp : Bytes} {vs : List Val} {t : Bytes} : Scal E types n false v r →
      sp ≠ [] → Blank sp → LineOf E types n vs t → LineOf E types n (v :: vs) (r ++ sp ++ t)

/-- `t` writes the values at the start of a line, each followed by blanks. -/
inductive PrefixOf (E : Ext) (types : Bool) (n : Nat) : List Val → Bytes → Prop
  | nil : PrefixOf E types n [] []
  | cons {v : Val} {r sp : Bytes} {vs : List Val} {t : Bytes} : Scal E types n false v r →
      sp ≠ [] → Blank sp → PrefixOf E types n vs t → PrefixOf E types n (v :: vs) (r ++ sp ++ t)

/-- A line of a block, without its indentation. -/
def BlockLine (l : Bytes) : Prop := (∀ c ∈ l, c = 9 ∨ 32 ≤ c) ∧ ∀ c, l.head? = some c → c ≠ 32 ∧ c ≠ 9

/-- `t` writes the lines of a block, each indented by some spaces or some tabs. -/
inductive BlockOf : List Bytes → Bytes → Prop
  | nil : BlockOf [] []
  | line {ind l eol t : Bytes} {ls : List Bytes} : ind ≠ [] → ((∀ c ∈ ind, c = 32) ∨ (∀ c ∈ ind, c = 9)) → BlockLine l → Eol eol →
      BlockOf ls t → BlockOf (l :: ls) (ind ++ l ++ eol ++ t)

/-- The lines, with a NL between them. -/
def unlines : List Bytes → Bytes
  | [] => []
  | [l] => l
  | l :: l' :: ls => l ++ 10 :: unlines (l' :: ls)

/-- The values of a line are nested: each is the only subnode of the one before. -/
def chain : List Val → List Graph
  | [] => []
  | v :: vs => [.node v (chain vs)]

/-- `t` writes the trees `gs`, whose roots are on lines indented by `n` spaces or
tabs.  The subnodes of a node follow, all indented by the same amount, which may be
any amount larger than `n`.  The last value (`opn`) tells whether the text ends
without an end of line. -/
inductive Writes (E : Ext) (types : Bool) : Nat → List Graph → Bytes → Bool → Prop
  | nil {n : Nat} : Writes E types n [] [] false
  | node {n m : Nat} {s t eol t1 t2 : Bytes} {v : Val} {vs : List Val} {cs gs : List Graph} {o1 o2 : Bool} :
      Blank s → s.length = n → LineOf E types n (v :: vs) t → Eol eol →
      n < m → Writes E types m cs t1 o1 → Writes E types n gs t2 o2 → (o1 = true → t2 = []) →
      Writes E types n (.node v (chain vs ++ cs) :: gs) (s ++ t ++ eol ++ t1 ++ t2) (o1 || o2)
  | open {n : Nat} {s t : Bytes} {v : Val} {vs : List Val} :
      Blank s → s.length = n → LineOf E types n (v :: vs) t →
      Writes E types n [.node v (chain vs)] (s ++ t) true
  | blank {n : Nat} {s eol t : Bytes} {gs : List Graph} {o : Bool} :
      Blank s → s.length = n → Eol eol → Writes E types n gs t o →
      Writes E types n gs (s ++ eol ++ t) o
  | comment {n : Nat} {s c t : Bytes} {b : UInt8} {gs : List Graph} {o : Bool} :
      Blank s → s.length = n → b = 32 ∨ b = 9 → (∀ x ∈ c, x = 9 ∨ 32 ≤ x) → Writes E types n gs t o →
      Writes E types n gs (s ++ 35 :: b :: c ++ 10 :: t) o
  /-- a comment at the end of a line -/
  | noted {n m : Nat} {s t c t1 t2 : Bytes} {b : UInt8} {v : Val} {vs : List Val} {cs gs : List Graph} {o1 o2 : Bool} :
      Blank s → s.length = n → PrefixOf E types n (v :: vs) t → b = 32 ∨ b = 9 → (∀ x ∈ c, x = 9 ∨ 32 ≤ x) →
      n < m → Writes E types m cs t1 o1 → Writes E types n gs t2 o2 → (o1 = true → t2 = []) →
      Writes E types n (.node v (chain vs ++ cs) :: gs) (s ++ (t ++ 35 :: b :: c ++ [10]) ++ t1 ++ t2) (o1 || o2)
  /-- a block: a backslash at the end of a line that is not indented; the lines that
  follow are one value; empty lines at the end of it are dropped -/
  | block {k : Nat} {t eol t1 t2 : Bytes} {vs : List Val} {ls : List Bytes} {gs : List Graph} {o : Bool} :
      PrefixOf E types 0 vs t → Eol eol → (∀ l, ls.getLast? = some l → l ≠ []) → BlockOf (ls ++ List.replicate k []) t1 →
      Writes E types 0 gs t2 o → (∀ c, t2.head? = some c → c ≠ 10 ∧ c ≠ 13) →
      Writes E types 0 (chain (vs ++ [.str (unlines ls)]) ++ gs) (t ++ 92 :: eol ++ t1 ++ t2) (o || t2.isEmpty)

/-- `t` is OGDL text for the trees `gs`: the first line may be indented, but not by
a mixture of spaces and tabs. -/
def TextOf (E : Ext) (types : Bool) (gs : List Graph) (t : Bytes) : Prop :=
  ∃ n o, Writes E types n gs t o ∧
    ((∀ c ∈ t.take n, c = 32) ∨ (∀ c ∈ t.take n, c = 9))

end Spec
end Ogdl
