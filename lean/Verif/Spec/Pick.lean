/-! # Members of a list at some positions -/
namespace PBfs

/-- The members of a list at the positions `J`. -/
def pick {α} (J : Nat → Bool) : List α → List α
  | [] => []
  | x :: xs => if J 0 then x :: pick (fun i => J (i + 1)) xs else pick (fun i => J (i + 1)) xs

end PBfs
