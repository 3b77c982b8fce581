import Verif.Model.Parser
/-! # Texts without markup -/
namespace PBfs

/-- The signs that are neither letters, digits nor `_` in what the interpreter prints.  None of them has a meaning in HTML. -/
def plainSigns : List Char := n!" ()[],|/+-*^=\\:."

/-- The text consists of letters, digits, `_` and these signs. -/
def Plain (s : Name) : Prop := ∀ c ∈ s, isWord c = true ∨ c ∈ plainSigns

instance (s : Name) : Decidable (Plain s) := by unfold Plain; infer_instance

/-- The same with line breaks and other white space. -/
def PlainText (s : Name) : Prop := ∀ c ∈ s, isWord c = true ∨ c ∈ plainSigns ∨ isSpace c = true

instance (s : Name) : Decidable (PlainText s) := by unfold PlainText; infer_instance

/-- Interpreters that get their programs and queries as texts. -/
inductive TextFed : Org → Prop
  | init {o} : Org.init = .ok o → TextFed o
  | program {o} (ord text) : TextFed o → TextFed (o.loadProgramText ord text).1
  | query {o} (ord text) : TextFed o → TextFed (o.loadQueryText ord text).1
  | answer {o o' fuel clock r} : TextFed o → o.getAnswer fuel clock = .ok (o', r) → TextFed o'
  | memory {o} : TextFed o → TextFed o.clearMemory

end PBfs
