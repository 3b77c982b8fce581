import Verif.Proof.Interp
/-! # A decidable test for well-formed heaps (used to exhibit concrete cases) -/
namespace PBfs

/-- `ValidCell` as a test. -/
def validCellB (st : Storage) : Cell → Bool
  | .cons i => (List.range st.functors.length).any fun k =>
      (st.functors[k]?.map (·.arity)) == some 0 && i == toShort k
  | .fn i n => (List.range st.functors.length).any fun k =>
      ((st.functors[k]?.map (·.arity)) == some n && i == toShort k) && (n != 0 || (st.functors[k]?.map (·.name)) == some n!"[")
  | .efn f n => f < arithNames.length && n == 2
  | .ref _ v => (List.range st.vars.length).any fun k => v == toShort k
  | .int v => -2147483648 ≤ v && v ≤ 2147483647
  | .str _ => true

theorem validCellB_sound {st c} (h : validCellB st c = true) : ValidCell st c := by
  cases c with
  | cons i =>
    simp only [validCellB, List.any_eq_true, List.mem_range, Bool.and_eq_true, beq_iff_eq,
      Option.map_eq_some_iff] at h
    obtain ⟨k, _, ⟨fv, h1, h2⟩, h3⟩ := h
    exact ⟨k, fv, h1, h2, h3⟩
  | fn i n =>
    simp only [validCellB, List.any_eq_true, List.mem_range, Bool.and_eq_true, beq_iff_eq,
      Option.map_eq_some_iff, Bool.or_eq_true, bne_iff_ne] at h
    obtain ⟨k, _, ⟨⟨fv, h1, h2⟩, h3⟩, h4⟩ := h
    refine ⟨k, fv, h1, h2, h3, fun h0 => ?_⟩
    rcases h4 with h4 | ⟨fv', h4, h5⟩
    · exact absurd h0 h4
    · rw [h1] at h4; cases h4; exact h5
  | efn f n => simpa [validCellB, ValidCell] using h
  | ref a v =>
    simp only [validCellB, List.any_eq_true, List.mem_range, beq_iff_eq] at h
    exact h
  | int v => simpa [validCellB, ValidCell] using h
  | str => trivial

/-- The test of one cell of a heap without parents. -/
def cellCheck (st : Storage) (h : Hp) (a : Nat) (c : Cell) : Bool :=
  validCellB st c &&
  (match c with
    | .fn _ n => decide (a + n < h.size)
    | .efn _ n => decide (a + n < h.size)
    | _ => true) &&
  (match deref (fun _ => none) h a with
    | .ok d => match h.at? (fun _ => none) d with
      | some (.str _) => false
      | _ => true
    | _ => false)

def heapCheck (st : Storage) (h : Hp) : Bool :=
  h.start == 0 && (List.range h.own.length).all fun a =>
    match h.own[a]? with
    | some c => cellCheck st h a c
    | none => false

theorem good_of_check {st : Storage} {h : Hp} (hc : heapCheck st h = true) :
    Good (ValidCell st) (h.at? fun _ => none) h.size h.size := by
  simp only [heapCheck, Bool.and_eq_true, beq_iff_eq, List.all_eq_true, List.mem_range] at hc
  obtain ⟨h0, hc⟩ := hc
  have hat : ∀ a, h.at? (fun _ => none) a = h.own[a]? := by
    intro a; simp [Hp.at?, h0]
  have hsz : h.size = h.own.length := by simp [Hp.size, h0]
  have hcell : ∀ a c, h.at? (fun _ => none) a = some c → cellCheck st h a c = true := by
    intro a c hac
    rw [hat] at hac
    have := hc a (List.getElem?_eq_some_iff.1 hac).1
    rw [hac] at this
    exact this
  refine ⟨?_, ?_, ?_, ?_, ?_, Nat.le_refl _⟩
  · intro a
    rw [hat, hsz]
    simp
  · intro a ha
    rw [hsz] at ha
    have hs := hcell a _ (by rw [hat]; exact List.getElem?_eq_getElem ha)
    simp only [cellCheck, Bool.and_eq_true] at hs
    have h3 := hs.2
    cases hd : deref (fun _ => none) h a with
    | error => simp [hd] at h3
    | ok d =>
      simp only [hd] at h3
      rcases derefN_sound hd with hh | hh
      · exact ⟨d, hh⟩
      · rw [hh] at h3; simp at h3
  · intro a f n hac
    have := hcell a _ hac
    simp only [cellCheck, Bool.and_eq_true, decide_eq_true_eq] at this
    exact this.1.2
  · intro a f n hac
    have := hcell a _ hac
    simp only [cellCheck, Bool.and_eq_true, decide_eq_true_eq] at this
    exact this.1.2
  · intro a c hac
    have := hcell a _ hac
    simp only [cellCheck, Bool.and_eq_true] at this
    exact validCellB_sound this.1.1

end PBfs
