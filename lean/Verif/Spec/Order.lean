/-!
# Lists with more elements, in any order
-/
namespace PBfs

/-- All elements of `xs` are in `ys`, as often as in `xs` or more often, in any order. -/
def PartOf {α} (xs ys : List α) : Prop := ∃ zs, (xs ++ zs).Perm ys

end PBfs
