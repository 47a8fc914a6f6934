import Verif.Lemmas.Break
import Verif.Props.Template

/-!
# A break inside an if (C41)

`Items.mended` (Spec/Break.lean): the body of every if ends before its first `$break`.
-/

namespace Ogdl
open Spec

/-- What a `$break` inside an `$if` does, wherever the `$if` stands: it ends the body it is
in, and nothing else.  The template gives the same text in every context, and leaves the
same context, as the one in which the body ends there. -/
theorem C41_if (E : Ext) (is : Items) (g g' : Graph) (o : Bytes) (hok : is.Ok E []) (hl : Fits is.text) (hm : Fits is.mended.text) :
    Renders E is.text g o g' ↔ Renders E is.mended.text g o g' := by
  rw [renders_iff hok hl, renders_iff (items_mended_ok rfl hok) hm, items_mended]

/-- `$for(v, a)$if(1 == 1) x$break y$end z$end` -/
def sampleIfBreak : Items :=
  .cons (.loop b!"v" b!"a" [] (.cons (.cond (sampleTest 1 1) (.cons (.plain b!" x") (.cons .brk (.cons (.plain b!" y") .nil))) .done)
    (.cons (.plain b!" z") .nil))) .nil

example : sampleIfBreak.text = b!"$for(v, a)$if(1 == 1) x$break y$end z$end" ∧
    sampleIfBreak.mended.text = b!"$for(v, a)$if(1 == 1) x$end z$end" := by decide

/-- C41: the loop goes on after the `$break`, and so does what follows the `$end`. -/
example (E : Ext) (g g' : Graph) (o : Bytes) :
    Renders E b!"$for(v, a)$if(1 == 1) x$break y$end z$end" g o g' ↔ Renders E b!"$for(v, a)$if(1 == 1) x$end z$end" g o g' := by
  refine C41_if E sampleIfBreak g g' o ?_ (.short (by decide)) (.short (by decide))
  have hv := sampleName E 118 (by unfold AsciiLetter; decide)
  have ha := sampleName E 97 (by unfold AsciiLetter; decide)
  simp only [sampleIfBreak, Item.Ok, Items.Ok, Branches.Ok, Items.text, Item.text, Branches.text]
  have hd : ∀ r, Ends (36 :: r) := by
    intro r c hc
    cases hc
    unfold AsciiLetter Digit
    decide
  exact ⟨⟨hv, ⟨118, [], rfl, by unfold AsciiLetter; decide⟩, ha, ⟨97, [], rfl, by unfold AsciiLetter; decide⟩, hd _,
    ⟨⟨sampleTest_ok E 1 1, ends_space _, ⟨⟨by decide, by decide, by decide, .inr rfl⟩, ends_space _, ⟨by decide, by decide, by decide, .inr rfl⟩, trivial⟩, ends_space _⟩,
      ⟨by decide, by decide, by decide, .inr rfl⟩, trivial⟩, ends_nil⟩, trivial⟩

end Ogdl
