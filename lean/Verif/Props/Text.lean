import Verif.Model.Render
import Verif.Spec.Blank
/-! # Properties of the text interface: C31, C32 -/
namespace PBfs

/-! ## C31 -/

/-- The last character that is not white space is a dot. -/
def EndsInDot (q : Name) : Prop := ∃ s w, q = s ++ '.' :: w ∧ Blank w

theorem appendDotRev_spec (r skipped : List Char) (hs : Blank skipped) :
    (appendDotRev r skipped = none ∧ (Blank r ∨ EndsInDot (r.reverse ++ skipped))) ∨
    ∃ s c w, r.reverse ++ skipped = s ++ c :: w ∧ isSpace c = false ∧ c ≠ '.' ∧ Blank w ∧
      appendDotRev r skipped = some (s ++ c :: '.' :: w) := by
  induction r generalizing skipped with
  | nil => left; exact ⟨rfl, .inl (by simp [Blank])⟩
  | cons c cs ih =>
    rw [appendDotRev]
    by_cases hc : isSpace c = true
    · rw [if_pos hc]
      have hs' : Blank (c :: skipped) := by
        intro d hd
        simp only [List.mem_cons] at hd
        rcases hd with rfl | hd
        · exact hc
        · exact hs d hd
      have heq : (c :: cs).reverse ++ skipped = cs.reverse ++ (c :: skipped) := by simp
      rcases ih (c :: skipped) hs' with ⟨h1, h2⟩ | h
      · left
        refine ⟨h1, ?_⟩
        rcases h2 with h2 | h2
        · left
          intro d hd
          simp only [List.mem_cons] at hd
          rcases hd with rfl | hd
          · exact hc
          · exact h2 d hd
        · right; rw [heq]; exact h2
      · right; rw [heq]; exact h
    · rw [if_neg hc]
      by_cases hd : c = '.'
      · rw [if_pos hd]
        left
        refine ⟨rfl, .inr ⟨cs.reverse, skipped, by simp [hd], hs⟩⟩
      · rw [if_neg hd]
        right
        exact ⟨cs.reverse, c, skipped, by simp, by simpa using hc, hd, hs, by simp⟩

/-- **C31**: a text that is blank or already ends in a dot (before trailing white space) is not touched. -/
theorem C31_unchanged {q : Name} (h : Blank q ∨ EndsInDot q) : appendDot q = q := by
  unfold appendDot
  rcases appendDotRev_spec q.reverse [] (by simp [Blank]) with ⟨h1, _⟩ | ⟨s, c, w, h1, h2, h3, h4, h5⟩
  · rw [h1]; rfl
  · exfalso
    simp only [List.reverse_reverse, List.append_nil] at h1
    rcases h with h | ⟨s', w', h', hw'⟩
    · have := h c (by rw [h1]; simp)
      rw [h2] at this; cases this
    · have hc : ¬ isSpace '.' = true := by decide
      rw [h1] at h'
      rw [List.append_eq_append_iff] at h'
      rcases h' with ⟨a, ha1, ha2⟩ | ⟨a, ha1, ha2⟩
      · cases a with
        | nil => simp at ha2; exact h3 ha2.1
        | cons x a =>
          simp only [List.cons_append, List.cons.injEq] at ha2
          exact hc (h4 '.' (by rw [ha2.2]; simp))
      · cases a with
        | nil => simp at ha2; exact h3 ha2.1.symm
        | cons x a =>
          simp only [List.cons_append, List.cons.injEq] at ha2
          have := hw' c (by rw [ha2.2]; simp)
          rw [h2] at this; cases this

/-- **C31**: any other text gets a dot directly behind its last character that is not white space, and
nothing else changes. -/
theorem C31_completed {q : Name} (hb : ¬ Blank q) (hd : ¬ EndsInDot q) :
    ∃ s w, q = s ++ w ∧ s ≠ [] ∧ (∀ c, s.getLast? = some c → isSpace c = false ∧ c ≠ '.') ∧ Blank w ∧
      appendDot q = s ++ '.' :: w := by
  unfold appendDot
  rcases appendDotRev_spec q.reverse [] (by simp [Blank]) with ⟨h1, h2⟩ | ⟨s, c, w, h1, h2, h3, h4, h5⟩
  · exfalso
    rcases h2 with h2 | h2
    · exact hb (fun c hc => h2 c (by simpa using hc))
    · exact hd (by simpa using h2)
  · refine ⟨s ++ [c], w, by simpa using h1, by simp, ?_, h4, by rw [h5]; simp⟩
    intro d hd'
    simp only [List.getLast?_append, List.getLast?_singleton, Option.some_or, Option.some.injEq] at hd'
    subst hd'
    exact ⟨h2, h3⟩

/-- **C31**: completing a text twice is the same as completing it once. -/
theorem C31_idempotent (q : Name) : appendDot (appendDot q) = appendDot q := by
  by_cases hb : Blank q
  · rw [C31_unchanged (.inl hb), C31_unchanged (.inl hb)]
  · by_cases hd : EndsInDot q
    · rw [C31_unchanged (.inr hd), C31_unchanged (.inr hd)]
    · obtain ⟨s, w, _, _, _, hw, h⟩ := C31_completed hb hd
      rw [h]
      exact C31_unchanged (.inr ⟨s, w, rfl, hw⟩)

example : appendDot n!"p(X)  " = n!"p(X).  " := by decide
example : appendDot n!"p(X). " = n!"p(X). " := by decide
example : ¬ Blank n!"p(X)" ∧ EndsInDot n!"p(X). " := by
  refine ⟨fun h => ?_, n!"p(X)", n!" ", rfl, by intro c hc; simp at hc; subst hc; decide⟩
  have := h 'p' (by simp)
  revert this; decide

/-! ## C32 -/

theorem bindingsStr_head {bs : List Binding} (h : bs ≠ []) : ∃ r, bindingsStr bs = '[' :: r := by
  cases bs with
  | nil => contradiction
  | cons b bs =>
    cases bs with
    | nil => exact ⟨_, rfl⟩
    | cons => exact ⟨_, rfl⟩

/-- **C32**: the text is "false" exactly when there is no answer. -/
theorem C32_false (r : Option (List Binding)) : answerStr r = n!"false" ↔ r = none := by
  cases r with
  | none => simp [answerStr]
  | some bs =>
    cases bs with
    | nil => simp [answerStr]
    | cons b bs =>
      obtain ⟨x, hx⟩ := bindingsStr_head (bs := b :: bs) (by simp)
      simp [answerStr, hx]

/-- **C32**: the text is "true" exactly when there is an answer without bindings. -/
theorem C32_true (r : Option (List Binding)) : answerStr r = n!"true" ↔ r = some [] := by
  cases r with
  | none => simp [answerStr]
  | some bs =>
    cases bs with
    | nil => simp [answerStr]
    | cons b bs =>
      obtain ⟨x, hx⟩ := bindingsStr_head (bs := b :: bs) (by simp)
      simp [answerStr, hx]

/-- Texts joined with single blanks between them. -/
def joinBlank : List Name → Name
  | [] => []
  | [s] => s
  | s :: ss => s ++ ' ' :: joinBlank ss

/-- **C32**: otherwise every binding is listed once, in order, as `[Name / Value]`. -/
theorem C32_bindings {bs : List Binding} (h : bs ≠ []) :
    answerStr (some bs) = joinBlank (bs.map fun b => n!"[" ++ b.name ++ n!" / " ++ b.value ++ n!"]") := by
  have : answerStr (some bs) = bindingsStr bs := by cases bs <;> simp_all [answerStr]
  rw [this]
  clear this h
  induction bs with
  | nil => rfl
  | cons b bs ih =>
    cases bs with
    | nil => rfl
    | cons b' bs =>
      simp only [List.map_cons] at ih
      simp only [bindingsStr, List.map_cons, joinBlank]
      rw [ih]
      simp [Binding.str]

example : answerStr (some [⟨n!"X", n!"a"⟩, ⟨n!"Y", n!"[1,2]"⟩]) = n!"[X / a] [Y / [1,2]]" := by decide

end PBfs
