import Verif.Spec.History
/-! # Which program an interpreter works with -/
namespace PBfs

/-- `o` is an interpreter whose last successfully loaded program is `p` (initially none, i.e. `[]`),
loaded under the hash order `ord`.  Anything may have happened before and since, except the clean-up after
memory exhaustion: other programs, rejected programs, queries, answers. -/
inductive Serves : Org → HashOrder → List Clause → Prop
  | init {o ord} : Org.init = .ok o → Serves o ord []
  | program {o o' ord ord' p p'} : Serves o ord p → o.loadProgram ord' (some p') = (o', .ok) → Serves o' ord' p'
  | rejected {o o' ord ord' p parsed l} : Serves o ord p → o.loadProgram ord' parsed = (o', l) → l ≠ .ok → Serves o' ord p
  | query {o ord ord' p parsed} : Serves o ord p → Serves (o.loadQuery ord' parsed).1 ord p
  | answer {o o' ord p fuel clock r} : Serves o ord p → o.getAnswer fuel clock = .ok (o', r) → Serves o' ord p

theorem Serves.reach {o ord p} (h : Serves o ord p) : Reach o := by
  induction h with
  | init h => exact .init h
  | @program o o' ord ord' p p' _ hl ih => have := Reach.program ord' (some p') ih; rwa [hl] at this
  | @rejected o o' ord ord' p parsed l _ hl _ ih => have := Reach.program ord' parsed ih; rwa [hl] at this
  | query _ ih => exact .query _ _ ih
  | answer _ ha ih => exact .answer ih ha

end PBfs
