import Verif.Spec.History
/-! # What can happen while a query is worked on -/
namespace PBfs

/-- `o'` comes from `o` by calls of `get_answer` and `load_program` (in any order, with any results). -/
inductive Since (o : Org) : Org → Prop
  | refl : Since o o
  | answer {o1 o2 fuel clock r} : Since o o1 → o1.getAnswer fuel clock = .ok (o2, r) → Since o o2
  | program {o1} (ord parsed) : Since o o1 → Since o (o1.loadProgram ord parsed).1

theorem Since.reach {o o'} (h : Since o o') (hr : Reach o) : Reach o' := by
  induction h with
  | refl => exact hr
  | answer _ ha ih => exact .answer ih ha
  | program _ _ _ ih => exact .program _ _ ih

end PBfs
