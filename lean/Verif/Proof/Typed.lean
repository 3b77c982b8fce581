import Verif.Proof.ParserComplete
import Verif.Props.Text
/-! # White space before the dot of a query does not matter -/
namespace PBfs

/-- No white space inside of the token. -/
def Tok.Solid : Tok → Prop
  | .sym t => ∀ c ∈ t, isSpace c = false
  | .comment _ => False
  | _ => True

theorem word_not_space {c : Char} (h : isWord c = true) : isSpace c = false := by
  cases hs : isSpace c with
  | false => rfl
  | true =>
    exfalso
    simp only [isSpace, Bool.or_eq_true, decide_eq_true_eq] at hs
    rcases hs with ((((rfl | rfl) | rfl) | rfl) | rfl) | rfl <;> revert h <;> decide

theorem Tok.Valid.solid {t : Tok} (h : t.Valid) (hs : t.Solid) : ∀ c ∈ t.text, isSpace c = false := by
  have hw : ∀ {p : Char → Bool} {w : Name}, (∀ c, p c = true → isWord c = true) → IsWord p w → ∀ c ∈ w, isSpace c = false := by
    rintro p _ hp ⟨c, cs, rfl, hc, hcs⟩ d hd
    simp only [List.mem_cons] at hd
    rcases hd with rfl | hd
    · exact word_not_space (hp _ hc)
    · exact word_not_space (hcs _ hd)
  have hl : ∀ c, isLower c = true → isWord c = true := fun c h => by simp [isWord, h]
  have hu : ∀ c, isUpper c = true → isWord c = true := fun c h => by simp [isWord, h]
  cases t with
  | name w => exact hw hl h
  | var w => exact hw hu h
  | opening w =>
    intro c hc
    simp only [Tok.text, List.mem_append, List.mem_singleton] at hc
    rcases hc with hc | rfl
    · exact hw hl h c hc
    · decide
  | num neg ds =>
    intro c hc
    simp only [Tok.text, List.mem_append] at hc
    rcases hc with hc | hc
    · cases neg
      · simp at hc
      · simp only [if_true, List.mem_singleton] at hc; subst hc; decide
    · exact word_not_space (by simp [isWord, h.2 c hc])
  | sym t => exact hs
  | comment t => exact hs.elim

theorem Syn.solid {c as ts} (h : Syn c as ts) : ∀ t ∈ ts, t.Solid := by
  have s1 : ∀ c : Char, isSpace c = false → (Tok.sym [c]).Solid := by
    intro c h d hd; simp only [List.mem_singleton] at hd; rw [hd]; exact h
  have s2 : ∀ {op : Name}, op = n!"*" ∨ op = n!"//" → (Tok.sym op).Solid := by
    rintro op (rfl | rfl) <;> · intro d hd; revert d; decide
  have s3 : ∀ {op : Name}, op = n!"+" ∨ op = n!"-" → (Tok.sym op).Solid := by
    rintro op (rfl | rfl) <;> · intro d hd; revert d; decide
  have a1 := s1 '(' (by decide)
  have a2 := s1 ')' (by decide)
  have a3 := s1 '[' (by decide)
  have a4 := s1 ']' (by decide)
  have a5 := s1 ',' (by decide)
  have a6 := s1 '|' (by decide)
  have a7 := s1 '^' (by decide)
  induction h with
  | mul ho _ _ h1 h2 =>
    intro t ht
    simp only [List.mem_append, List.mem_cons] at ht
    rcases ht with ht | rfl | ht
    · exact h1 t ht
    · exact s2 ho
    · exact h2 t ht
  | add ho _ _ h1 h2 =>
    intro t ht
    simp only [List.mem_append, List.mem_cons] at ht
    rcases ht with ht | rfl | ht
    · exact h1 t ht
    · exact s3 ho
    · exact h2 t ht
  | var => intro t ht; simp only [List.mem_singleton] at ht; subst ht; exact trivial
  | num => intro t ht; simp only [List.mem_singleton] at ht; subst ht; exact trivial
  | cons => intro t ht; simp only [List.mem_singleton] at ht; subst ht; exact trivial
  | power1 _ h => exact h
  | product1 _ h => exact h
  | sum1 _ h => exact h
  | elist _ h => exact h
  | esum _ h => exact h
  | one _ h => exact h
  | paren _ h =>
    intro t ht
    simp only [List.cons_append, List.mem_append, List.mem_cons, List.not_mem_nil, or_false] at ht
    rcases ht with rfl | ht | rfl
    · exact a1
    · exact h t ht
    · exact a2
  | pow _ _ h1 h2 =>
    intro t ht
    simp only [List.mem_append, List.mem_cons] at ht
    rcases ht with ht | rfl | ht
    · exact h1 t ht
    · exact a7
    · exact h2 t ht
  | fn _ h =>
    intro t ht
    simp only [List.cons_append, List.mem_append, List.mem_cons, List.not_mem_nil, or_false] at ht
    rcases ht with rfl | ht | rfl
    · exact trivial
    · exact h t ht
    · exact a2
  | nil =>
    intro t ht
    simp only [List.mem_cons, List.not_mem_nil, or_false] at ht
    rcases ht with rfl | rfl
    · exact a3
    · exact a4
  | list _ h =>
    intro t ht
    simp only [List.cons_append, List.mem_append, List.mem_cons, List.not_mem_nil, or_false] at ht
    rcases ht with rfl | ht | rfl
    · exact a3
    · exact h t ht
    · exact a4
  | listVar _ h =>
    intro t ht
    simp only [List.cons_append, List.mem_append, List.mem_cons, List.not_mem_nil, or_false] at ht
    rcases ht with rfl | ht | rfl | rfl | rfl
    · exact a3
    · exact h t ht
    · exact a6
    · exact trivial
    · exact a4
  | listList _ _ h1 h2 =>
    intro t ht
    simp only [List.cons_append, List.append_assoc, List.mem_append, List.mem_cons, List.not_mem_nil, or_false] at ht
    rcases ht with rfl | ht | rfl | ht | rfl
    · exact a3
    · exact h1 t ht
    · exact a6
    · exact h2 t ht
    · exact a4
  | more _ _ h1 h2 =>
    intro t ht
    simp only [List.mem_append, List.mem_cons] at ht
    rcases ht with ht | rfl | ht
    · exact h1 t ht
    · exact a5
    · exact h2 t ht

theorem HeadSyn.solid {a ts} (h : HeadSyn a ts) : ts ≠ [] ∧ ∀ t ∈ ts, t.Solid := by
  cases h with
  | fn h =>
    refine ⟨by simp, fun t ht => ?_⟩
    simp only [List.cons_append, List.mem_append, List.mem_cons, List.not_mem_nil, or_false] at ht
    rcases ht with rfl | ht | rfl
    · exact trivial
    · exact h.solid t ht
    · intro d hd; revert d; decide
  | cons => exact ⟨by simp, fun t ht => by simp only [List.mem_singleton] at ht; subst ht; exact trivial⟩

theorem GoalSyn.solid {a ts} (h : GoalSyn a ts) : ts ≠ [] ∧ ∀ t ∈ ts, t.Solid := by
  have mk : ∀ {a b ca cb ts us} {op : Name}, (∀ d ∈ op, isSpace d = false) → Syn ca a ts → Syn cb b us →
      ts ++ .sym op :: us ≠ [] ∧ ∀ t ∈ ts ++ .sym op :: us, t.Solid := by
    intro a b ca cb ts us op ho h1 h2
    refine ⟨by simp, fun t ht => ?_⟩
    simp only [List.mem_append, List.mem_cons] at ht
    rcases ht with ht | rfl | ht
    · exact h1.solid t ht
    · exact ho
    · exact h2.solid t ht
  cases h with
  | eq h1 h2 => exact mk (by decide) h1 h2
  | neq h1 h2 => exact mk (by decide) h1 h2
  | is h1 h2 => exact mk (by decide) h1 h2
  | head h => exact h.solid

theorem GoalsSyn.solid {as ts} (h : GoalsSyn as ts) : ts ≠ [] ∧ ∀ t ∈ ts, t.Solid := by
  induction h with
  | one h => exact h.solid
  | more h _ ih =>
    refine ⟨by simp, fun t ht => ?_⟩
    simp only [List.mem_append, List.mem_cons] at ht
    rcases ht with ht | rfl | ht
    · exact h.solid.2 t ht
    · intro d hd; revert d; decide
    · exact ih.2 t ht

theorem dot_not_space : isSpace '.' = false := by decide

/-- White space at the end can be left out. -/
theorem Spell.trim {us x} (h : Spell us x) : ∀ {s w}, x = s ++ w → Blank w → (∀ t ∈ us, t.Solid) → Spell us s := by
  induction h with
  | nil hw => intro s w e _ _; subst e; exact .nil fun c hc => hw c (by simp [hc])
  | @cons ws t ts r hw hv hst _ ih =>
    intro s w e hb hs
    have hsol := hv.solid (hs t (by simp))
    obtain ⟨c, cs, ht, hc⟩ := hv.head
    rw [List.append_eq_append_iff] at e
    rcases e with ⟨a, rfl, e⟩ | ⟨a, rfl, e⟩
    · rw [List.append_eq_append_iff] at e
      have key : ∀ b, a = t.text ++ b → r = b ++ w → Spell (t :: ts) (ws ++ a) := by
        rintro b rfl e2
        refine .cons hw hv ?_ (ih e2 hb fun t ht => hs t (by simp [ht]))
        -- what follows the token has only lost its end
        subst e2
        cases b with
        | nil => cases t <;> simp [Tok.stops]
        | cons d b => revert hst; cases t <;> simp [Tok.stops]
      rcases e with ⟨b, e1, e2⟩ | ⟨b, e1, e2⟩
      · exact key b e1 e2
      · cases b with
        | nil => simp only [List.append_nil] at e1; exact key [] (by simp [e1]) (by simpa using e2.symm)
        | cons d b =>
          have h1 := hsol d (by rw [e1]; simp)
          have h2 := hb d (by rw [e2]; simp)
          rw [h1] at h2; cases h2
    · have h2 := hb c (by rw [e, ht]; simp)
      rw [hc] at h2; cases h2

/-- White space at the end can be added. -/
theorem Spell.pad {us s} (h : Spell us s) {w} (hb : Blank w) : Spell us (s ++ w) := by
  induction h with
  | nil hw =>
    refine .nil fun c hc => ?_
    simp only [List.mem_append] at hc
    exact hc.elim (hw c) (hb c)
  | @cons ws t ts r hw hv hst _ ih =>
    simp only [List.append_assoc]
    refine .cons hw hv ?_ ih
    cases r with
    | cons d r => revert hst; cases t <;> simp [Tok.stops]
    | nil =>
      cases w with
      | nil => simpa using hst
      | cons d w =>
        have hd := hb d (by simp)
        have h1 : isWord d = false := by
          cases h : isWord d with
          | false => rfl
          | true => rw [word_not_space h] at hd; cases hd
        have h2 : d ≠ '(' := by rintro rfl; revert hd; decide
        have h3 : isDigit d = false := by
          simp only [isWord, Bool.or_eq_false_iff] at h1
          exact h1.2
        cases t <;> simp [Tok.stops, h1, h2, h3]

/-- The dot at the end. -/
theorem Spell.dot {us s} (h : Spell us s) {w} (hb : Blank w) : Spell (us ++ [.sym ['.']]) (s ++ '.' :: w) := by
  have hv : (Tok.sym ['.']).Valid := ⟨'.', [], rfl, dot_not_space⟩
  induction h with
  | nil hw => exact .cons (t := .sym ['.']) hw hv trivial (.nil hb)
  | @cons ws t ts r hw hv hst _ ih =>
    simp only [List.append_assoc, List.cons_append]
    refine .cons hw hv ?_ ih
    cases r with
    | cons d r => revert hst; cases t <;> simp [Tok.stops]
    | nil => cases t <;> simp [Tok.stops] <;> decide

theorem Spell.dot_inv {us x} (h : Spell (us ++ [.sym ['.']]) x) : ∃ s w, x = s ++ '.' :: w ∧ Blank w ∧ Spell us s := by
  induction us generalizing x with
  | nil =>
    cases h with
    | @cons ws t ts r hw hv hst h =>
      cases h with
      | nil hb => exact ⟨ws, r, rfl, hb, .nil hw⟩
  | cons t us ih =>
    cases h with
    | @cons ws t ts r hw hv hst h =>
      obtain ⟨s, w, rfl, hb, hs⟩ := ih h
      refine ⟨ws ++ (t.text ++ s), w, by simp, hb, .cons hw hv ?_ hs⟩
      cases s with
      | cons d r => revert hst; cases t <;> simp [Tok.stops]
      | nil => cases t <;> simp [Tok.stops]

/-- The text before the dot of a query is a text of its goals. -/
theorem queryText_dot {q s w} (hd : '.' ∉ s) (hb : Blank w) : QueryText q (s ++ '.' :: w) ↔ ∃ ts, GoalsSyn q ts ∧ Spell ts s := by
  constructor
  · rintro ⟨ts, h1, h2⟩
    obtain ⟨s', w', e, hb', hs⟩ := h2.dot_inv
    have : s = s' := by
      rw [List.append_eq_append_iff] at e
      rcases e with ⟨a, rfl, e⟩ | ⟨a, rfl, e⟩
      · cases a with
        | nil => simp
        | cons c a =>
          simp only [List.cons_append, List.cons.injEq] at e
          have := hb '.' (by rw [e.2]; simp)
          rw [dot_not_space] at this; cases this
      · cases a with
        | nil => simp
        | cons c a =>
          simp only [List.cons_append, List.cons.injEq] at e
          exact absurd (by rw [← e.1]; simp) hd
    subst this
    exact ⟨ts, h1, hs⟩
  · rintro ⟨ts, h1, h2⟩
    exact ⟨ts, h1, h2.dot hb⟩

/-- The query that is loaded for a text without dot is the one the text followed by a dot stands for. -/
theorem queryText_appendDot {q t} (hd : '.' ∉ t) : QueryText q (appendDot t) ↔ QueryText q (t ++ n!".") := by
  have hnd : ¬ EndsInDot t := by rintro ⟨s, w, rfl, _⟩; simp at hd
  by_cases hb : Blank t
  · rw [C31_unchanged (.inl hb), queryText_dot hd (by simp [Blank])]
    constructor
    · rintro ⟨ts, _, h⟩
      obtain ⟨s, w, rfl, _⟩ := h.dot_inv
      simp at hd
    · rintro ⟨ts, h1, h2⟩
      cases h2 with
      | nil => exact absurd rfl h1.solid.1
      | @cons ws u us r hw hv hst h =>
        obtain ⟨c, cs, e, hc⟩ := hv.head
        have := hb c (by rw [e]; simp)
        rw [hc] at this; cases this
  · obtain ⟨s, w, rfl, _, _, hw, e⟩ := C31_completed hb hnd
    have hds : '.' ∉ s := fun h => hd (by simp [h])
    rw [e, queryText_dot hds hw, queryText_dot hd (by simp [Blank])]
    constructor
    · rintro ⟨ts, h1, h2⟩; exact ⟨ts, h1, h2.pad hw⟩
    · rintro ⟨ts, h1, h2⟩; exact ⟨ts, h1, h2.trim rfl hw h1.solid.2⟩

end PBfs
