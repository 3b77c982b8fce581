import Verif.Model.Basic
/-!
# White space by ASCII codes
-/
namespace PBfs

/-- space, or one of horizontal tab, line feed, vertical tab, form feed and carriage return -/
def White (c : Char) : Prop := c.toNat = 32 ∨ 9 ≤ c.toNat ∧ c.toNat ≤ 13

end PBfs
