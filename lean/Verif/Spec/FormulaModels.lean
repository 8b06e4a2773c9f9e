import Verif.Model.FormulaModels

/-!
# Vocabulary for programs with models and pdfs
-/

namespace BFL.FormulaModels

variable {P : Type}

/-- The operation acts on the existing object at address `i`: it changes it, deletes it, or gives it
another pdf. (Making a model from a pdf does not act on the pdf.) -/
def Op.Names (i : Nat) : Op P → Prop
  | .newPdf _ => False
  | .change a _ => a = i
  | .delete a => a = i
  | .newModel _ _ => False
  | .pdfSet m _ => m = i

/-- Number of objects that were made and not deleted. -/
def liveObjects (s : Store P) : Nat := (s.filter Option.isSome).length

end BFL.FormulaModels
