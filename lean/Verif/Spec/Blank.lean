import Verif.Model.Render
/-! # White space -/
namespace PBfs

/-- Only white space. -/
def Blank (s : Name) : Prop := ∀ c ∈ s, isSpace c = true

end PBfs
