import Verif.Spec.Letters
import Verif.Props.Text
/-! # White space in C31, lists in C41 -/
namespace PBfs

theorem char_eq_iff {c : Char} {n : Nat} (h : n.isValidChar) : c = Char.ofNat n ↔ c.toNat = n := by
  constructor
  · rintro rfl
    rw [Char.ofNat, dif_pos h]
    rfl
  · intro e
    rw [← e, Char.ofNat_toNat]

/-- **C31**: what counts as white space. -/
theorem C31_space (c : Char) : isSpace c = true ↔ White c := by
  have h32 : c = ' ' ↔ c.toNat = 32 := char_eq_iff (n := 32) (by decide)
  have h9 : c = '\t' ↔ c.toNat = 9 := char_eq_iff (n := 9) (by decide)
  have h10 : c = '\n' ↔ c.toNat = 10 := char_eq_iff (n := 10) (by decide)
  have h13 : c = '\r' ↔ c.toNat = 13 := char_eq_iff (n := 13) (by decide)
  have h11 : c = Char.ofNat 11 ↔ c.toNat = 11 := char_eq_iff (by decide)
  have h12 : c = Char.ofNat 12 ↔ c.toNat = 12 := char_eq_iff (by decide)
  unfold isSpace White
  simp only [Bool.or_eq_true, decide_eq_true_eq, h32, h9, h10, h11, h12, h13]
  omega

/-- **C31**, without reference to the classes of characters of the model: the white space at the end stays there; if there is something before it, and this does not end with a dot, a dot is put between the two. -/
theorem C31_text {s w : Name} (hw : ∀ c ∈ w, White c) (hs : ∀ c, s.getLast? = some c → ¬ White c) :
    appendDot (s ++ w) = if s = [] ∨ s.getLast? = some '.' then s ++ w else s ++ '.' :: w := by
  have hb : Blank w := fun c hc => (C31_space c).2 (hw c hc)
  split
  · rename_i h
    rcases h with rfl | h
    · exact C31_unchanged (.inl hb)
    · obtain ⟨t, rfl⟩ := List.getLast?_eq_some_iff.1 h
      exact C31_unchanged (.inr ⟨t, w, by simp, hb⟩)
  · rename_i h
    obtain ⟨t, c, rfl⟩ : ∃ t c, s = t ++ [c] := by
      refine ⟨s.dropLast, s.getLast (fun e => h (.inl e)), ?_⟩
      rw [List.dropLast_concat_getLast]
    have hc : isSpace c = false := by
      rw [Bool.eq_false_iff]
      exact fun e => hs c (by simp) ((C31_space c).1 e)
    have hd : c ≠ '.' := fun e => h (.inr (by simp [e]))
    have skip : ∀ (w' : List Char) (k r : List Char), (∀ c ∈ w', isSpace c = true) → appendDotRev (w' ++ r) k = appendDotRev r (w'.reverse ++ k) := by
      intro w'
      induction w' with
      | nil => intros; rfl
      | cons x w' ih =>
        intro k r hx
        rw [List.cons_append, appendDotRev, if_pos (hx x (.head _)), ih _ _ fun c hc => hx c (.tail _ hc)]
        simp
    unfold appendDot
    rw [List.reverse_append, skip _ _ _ (fun c hc => hb c (List.mem_reverse.1 hc)), List.reverse_append, List.reverse_singleton, List.singleton_append, appendDotRev, if_neg (by simp [hc]), if_neg hd]
    simp

/-- The hypotheses of `C31_text` are met, with a line feed at the end. -/
example : (∀ c ∈ n!" \n", White c) ∧ (∀ c, n!"p(X)".getLast? = some c → ¬ White c) ∧ appendDot n!"p(X) \n" = n!"p(X). \n" :=
  ⟨by simp [White], by simp [White], by decide⟩

/-- **C41**: the term that a list in a text stands for, which the grammar takes from the model: the elements in their order, each with what follows it as the arguments of a functor `[`. -/
theorem C41_lists (es : List Node) (tail : Node) : Node.listWith tail es = es.foldr (fun e t => .fn n!"[" [e, t]) tail ∧ Node.list es = es.foldr (fun e t => .fn n!"[" [e, t]) (.fn n!"[" []) := by
  have h : ∀ (es : List Node) (tail : Node), Node.listWith tail es = es.foldr (fun e t => .fn n!"[" [e, t]) tail := by
    intro es
    induction es with
    | nil => exact fun _ => rfl
    | cons e es ih => exact fun tail => by rw [Node.listWith, ih, List.foldr_cons]
  exact ⟨h es tail, h es Node.nil⟩

end PBfs
