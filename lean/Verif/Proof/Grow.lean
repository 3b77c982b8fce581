import Verif.Proof.Interp
/-! # Compilation only adds to the storage -/
namespace PBfs

/-- `st'` is `st` with more entries; functors stay distinct. -/
structure Grow (st st' : Storage) : Prop where
  le : StLe st st'
  nodup : st.functors.Nodup → st'.functors.Nodup

theorem Grow.refl (st) : Grow st st := ⟨.refl st, id⟩
theorem Grow.trans {a b c} (h : Grow a b) (h' : Grow b c) : Grow a c := ⟨h.1.trans h'.1, fun n => h'.2 (h.2 n)⟩

/-- Whatever the outcome of a compilation step, the storage has only grown. -/
def Grows {α} (st : Storage) (f : α → Storage) (m : CR α) : Prop :=
  match m with
  | .ok a => Grow st (f a)
  | .error e => Grow st e.2

theorem Grows.pure {α} {st : Storage} {f : α → Storage} {a : α} (h : Grow st (f a)) : Grows st f (Pure.pure a : CR α) := h

theorem Grows.ok {α} {st : Storage} {f : α → Storage} {a : α} (h : Grow st (f a)) : Grows st f (.ok a : CR α) := h

theorem Grows.err {α} {st : Storage} {f : α → Storage} {e st'} (h : Grow st st') : Grows st f (.error (e, st') : CR α) := h

theorem Grows.bind {α β} {st : Storage} {f : α → Storage} {g : β → Storage} {m : CR α} {k : α → CR β} (h : Grows st f m)
    (hk : ∀ a, m = .ok a → Grow st (f a) → Grows (f a) g (k a)) : Grows st g (m >>= k) := by
  cases hm : m with
  | error e => rw [hm] at h; exact h
  | ok a =>
    rw [hm] at h
    show Grows st g (k a)
    have := hk a hm h
    unfold Grows at this ⊢
    split
    · rename_i b hb; rw [hb] at this; exact Grow.trans h this
    · rename_i b hb; rw [hb] at this; exact Grow.trans h this

theorem Grows.of_ok {α} {st : Storage} {f : α → Storage} {m : CR α} (h : Grows st f m) {a} (hm : m = .ok a) : Grow st (f a) := by
  rw [hm] at h; exact h

theorem Grows.of_err {α} {st : Storage} {f : α → Storage} {m : CR α} (h : Grows st f m) {e st'} (hm : m = .error (e, st')) : Grow st st' := by
  rw [hm] at h; exact h

theorem indexOf?_none_not_mem {α} [DecidableEq α] {x : α} : ∀ {l : List α}, indexOf? x l = none → x ∉ l
  | [], _ => by simp
  | y :: ys, h => by
    rw [indexOf?] at h
    split at h
    · cases h
    · rename_i hne
      simp only [Option.map_eq_none_iff] at h
      simp [hne, indexOf?_none_not_mem h]

theorem functorIndexOf_grow (s : Storage) (f) : Grow s (s.functorIndexOf f).2 := by
  unfold Storage.functorIndexOf
  split
  · exact .refl _
  · rename_i h
    refine ⟨⟨List.prefix_append _ _, List.prefix_refl _⟩, fun hn => ?_⟩
    have := indexOf?_none_not_mem h
    rw [List.nodup_append]
    refine ⟨hn, by simp, fun a ha b hb => ?_⟩
    simp only [List.mem_singleton] at hb
    subst hb
    rintro rfl
    exact this ha

theorem pushBackVar_grow (s : Storage) (n) : Grow s (s.pushBackVar n).2 :=
  ⟨⟨List.prefix_refl _, List.prefix_append _ _⟩, id⟩

theorem structCell_grows (n : Node) (g : GenSt) : Grows g.st (fun r => r.2.st) (structCell n g) := by
  unfold structCell
  split
  · rename_i v
    refine Grows.bind (f := fun _ => g.st) ?_ fun a _ _ => Grows.pure (.refl _)
    unfold stoi
    split
    · exact Grows.ok (.refl _)
    · exact Grows.err (.refl _)
  · exact Grows.pure (functorIndexOf_grow _ _)
  · exact Grows.pure (functorIndexOf_grow _ _)
  · split
    · exact Grows.pure (.refl _)
    · exact Grows.err (.refl _)
  · exact Grows.err (.refl _)

theorem queryKid_grows (yOf : Name → Option Nat) (c : Node) (x : Nat) (g : GenSt) :
    Grows g.st (fun r => r.2.st) (queryKid yOf c x g) := by
  have xcase : Grows g.st (fun r => r.2.st) (if g.has (.x x) then pure (.setValue x, g)
    else
      let g := g.mark (.x x)
      let (v, st) := g.st.pushBackVar c.name
      pure (.setVariable x v, { g with st := st }) : CR (Instr × GenSt)) := by
    split
    · exact Grows.pure (.refl _)
    · exact Grows.pure (pushBackVar_grow _ _)
  unfold queryKid
  cases c with
  | int v => exact Grows.bind (structCell_grows _ g) fun a _ _ => Grows.pure (.refl _)
  | cons v => exact Grows.bind (structCell_grows _ g) fun a _ _ => Grows.pure (.refl _)
  | var n =>
    simp only []
    cases yOf n with
    | none => exact xcase
    | some y =>
      simp only []
      split
      · exact Grows.pure (.refl _)
      · exact Grows.pure (pushBackVar_grow _ _)
  | fn f cs => exact xcase
  | efn f cs => exact xcase

theorem queryKids_grows (yOf : Name → Option Nat) : ∀ ks (g : GenSt), Grows g.st (fun r => r.2.st) (queryKids yOf ks g)
  | [], g => Grows.pure (.refl _)
  | (c, x) :: ks, g => by
    rw [queryKids]
    refine Grows.bind (queryKid_grows yOf c x g) fun a _ _ => ?_
    exact Grows.bind (queryKids_grows yOf ks a.2) fun b _ _ => Grows.pure (.refl _)

theorem queryItem_grows (yOf xOf : Name → Option Nat) (a : AItem) (g : GenSt) :
    Grows g.st (fun r => r.2.st) (queryItem yOf xOf a g) := by
  have str : Grows g.st (fun r => r.2.st) (do
      let g := g.mark (.x a.x)
      let (cell, g) ← structCell a.node g
      let (is, g) ← queryKids yOf a.kids g
      pure (.putStructure cell a.x :: is, g) : CR (List Instr × GenSt)) := by
    refine Grows.bind (structCell_grows _ (g.mark (.x a.x))) fun b _ _ => ?_
    exact Grows.bind (queryKids_grows yOf _ b.2) fun c _ _ => Grows.pure (.refl _)
  unfold queryItem
  split
  · split
    · split
      · exact Grows.pure (.refl _)
      · exact Grows.pure (pushBackVar_grow _ _)
    · split
      · exact Grows.pure (.refl _)
      · exact Grows.pure (pushBackVar_grow _ _)
  · simp only []
    split
    · exact str
    · exact Grows.err (.refl _)
  · exact str

theorem queryItems_grows (yOf xOf : Name → Option Nat) : ∀ as (g : GenSt), Grows g.st (fun r => r.2.st) (queryItems yOf xOf as g)
  | [], g => Grows.pure (.refl _)
  | a :: as, g => by
    rw [queryItems]
    refine Grows.bind (queryItem_grows yOf xOf a g) fun b _ _ => ?_
    exact Grows.bind (queryItems_grows yOf xOf as b.2) fun c _ _ => Grows.pure (.refl _)

theorem toQuery_grows (yOf xOf : Name → Option Nat) (atom as) (g : GenSt) : Grows g.st (fun r => r.2.st) (toQuery yOf xOf atom as g) :=
  Grows.bind (queryItems_grows yOf xOf _ g) fun _ _ _ => Grows.pure (.refl _)

theorem programKid_grows (yOf : Name → Option Nat) (c : Node) (x : Nat) (g : GenSt) :
    Grows g.st (fun r => r.2.st) (programKid yOf c x g) := by
  unfold programKid
  split
  · exact Grows.bind (structCell_grows _ g) fun a _ _ => Grows.pure (.refl _)
  · exact Grows.bind (structCell_grows _ g) fun a _ _ => Grows.pure (.refl _)
  · simp only []
    split
    · split <;> exact Grows.pure (.refl _)
    · split <;> exact Grows.pure (pushBackVar_grow _ _)

theorem programKids_grows (yOf : Name → Option Nat) : ∀ ks (g : GenSt), Grows g.st (fun r => r.2.st) (programKids yOf ks g)
  | [], g => Grows.pure (.refl _)
  | (c, x) :: ks, g => by
    rw [programKids]
    refine Grows.bind (programKid_grows yOf c x g) fun a _ _ => ?_
    exact Grows.bind (programKids_grows yOf ks a.2) fun b _ _ => Grows.pure (.refl _)

theorem programItem_grows (yOf : Name → Option Nat) (a : AItem) (g : GenSt) :
    Grows g.st (fun r => r.2.st) (programItem yOf a g) := by
  unfold programItem
  split
  · split
    · split <;> exact Grows.pure (.refl _)
    · simp only []
      split <;> exact Grows.pure (.refl _)
  · refine Grows.bind (structCell_grows _ g) fun b _ _ => ?_
    exact Grows.bind (programKids_grows yOf _ b.2) fun c _ _ => Grows.pure (.refl _)

theorem programItems_grows (yOf : Name → Option Nat) : ∀ as (g : GenSt), Grows g.st (fun r => r.2.st) (programItems yOf as g)
  | [], g => Grows.pure (.refl _)
  | a :: as, g => by
    rw [programItems]
    refine Grows.bind (programItem_grows yOf a g) fun b _ _ => ?_
    exact Grows.bind (programItems_grows yOf as b.2) fun c _ _ => Grows.pure (.refl _)

theorem toProgram_grows (yOf : Name → Option Nat) (atom as) (g : GenSt) : Grows g.st (fun r => r.2.st) (toProgram yOf atom as g) :=
  Grows.bind (programItems_grows yOf _ g) fun _ _ _ => Grows.pure (.refl _)

theorem compileQueryAtom_grows (yOf : Name → Option Nat) (pre fq atom) (g : GenSt) :
    Grows g.st (fun r => r.2.st) (compileQueryAtom yOf pre fq atom g) :=
  Grows.bind (toQuery_grows yOf _ _ _ g) fun _ _ _ => Grows.pure (.refl _)

theorem compileQueryAtoms_grows (yOf : Name → Option Nat) (fq) : ∀ pre as (g : GenSt),
    Grows g.st (fun r => r.2.st) (compileQueryAtoms yOf pre fq as g)
  | _, [], g => Grows.pure (.refl _)
  | pre, a :: as, g => by
    rw [compileQueryAtoms]
    refine Grows.bind (compileQueryAtom_grows yOf pre fq a g) fun b _ _ => ?_
    exact Grows.bind (compileQueryAtoms_grows yOf fq [] as b.2) fun c _ _ => Grows.pure (.refl _)

theorem compileQuery_grows (ord : HashOrder) (atoms st) : Grows st (fun r => r.2) (compileQuery ord atoms st) :=
  Grows.bind (compileQueryAtoms_grows _ _ _ _ ⟨[], st⟩) fun _ _ _ => Grows.pure (.refl _)

theorem compileClause_grows (ord : HashOrder) (bi head body st) : Grows st (fun r => r.2.2) (compileClause ord bi head body st) := by
  unfold compileClause
  simp only []
  split
  · exact Grows.err (.refl _)
  · cases body with
    | nil => exact Grows.bind (toProgram_grows _ _ _ ⟨[], st⟩) fun _ _ _ => Grows.pure (.refl _)
    | cons b bs =>
      refine Grows.bind (toProgram_grows _ _ _ ⟨[], st⟩) fun a _ _ => ?_
      refine Grows.bind (toQuery_grows _ _ _ _ { a.2 with seen := eraseStructRegs head _ a.2.seen }) fun b _ _ => ?_
      exact Grows.bind (compileQueryAtoms_grows _ _ _ _ { b.2 with seen := dropX b.2.seen }) fun c _ _ => Grows.pure (.refl _)

theorem compileProgram_grows (ord : HashOrder) : ∀ cs p st, Grows st (fun r => r.2) (compileProgram ord cs p st)
  | [], p, st => Grows.pure (.refl _)
  | c :: cs, p, st => by
    rw [compileProgram]
    refine Grows.bind (compileClause_grows ord false c.head c.body st) fun a _ _ => ?_
    exact compileProgram_grows ord cs _ _

end PBfs
