import Verif.Props.Load
/-! # C27: the numbers of functors -/
namespace PBfs

/-- `o'` is a later state of the interpreter `o`, without clean-up after memory exhaustion in between. -/
inductive Later (o : Org) : Org → Prop
  | refl : Later o o
  | program {o1} (ord parsed) : Later o o1 → Later o (o1.loadProgram ord parsed).1
  | query {o1} (ord parsed) : Later o o1 → Later o (o1.loadQuery ord parsed).1
  | answer {o1 o2 fuel clock r} : Later o o1 → o1.getAnswer fuel clock = .ok (o2, r) → Later o o2

theorem loadProgram_grow {ord : HashOrder} {o : Org} {parsed} : Grow o.st (o.loadProgram ord parsed).1.st := by
  unfold Org.loadProgram
  split
  · exact .refl _
  · rename_i cs
    split
    · rename_i e st h
      exact (compileProgram_grows ord cs [] o.st).of_err h
    · rename_i p st h
      exact (compileProgram_grows ord cs [] o.st).of_ok h

theorem Later.reach {o o'} (h : Reach o) (hl : Later o o') : Reach o' := by
  induction hl with
  | refl => exact h
  | program ord parsed _ ih => exact .program _ _ ih
  | query ord parsed _ ih => exact .query _ _ ih
  | answer _ ha ih => exact .answer ih ha

theorem Later.grow {o o'} (h : Reach o) (hl : Later o o') : Grow o.st o'.st := by
  induction hl with
  | refl => exact .refl _
  | program ord parsed _ ih => exact ih.trans loadProgram_grow
  | query ord parsed _ ih => exact ih.trans loadQuery_st.1
  | @answer o1 o2 fuel clock r hl ha ih =>
    rw [(getAnswer_keeps (hl.reach h).rinv ha).2.2.1]
    exact ih

theorem Reach.nodup {o} (h : Reach o) : o.st.functors.Nodup := by
  induction h with
  | init h =>
    have := Org.init_eq.symm.trans h
    cases this
    decide +kernel
  | program ord parsed _ ih => exact loadProgram_grow.2 ih
  | query ord parsed _ ih => exact loadQuery_st.1.2 ih
  | answer h ha ih => rw [(getAnswer_keeps h.rinv ha).2.2.1]; exact ih
  | memory => exact List.nodup_nil

theorem indexOf?_mem {α} [DecidableEq α] {x : α} : ∀ {l : List α}, x ∈ l → ∃ i, indexOf? x l = some i := by
  intro l
  induction l with
  | nil => intro h; cases h
  | cons y ys ih =>
    intro h
    rw [indexOf?]
    split
    · exact ⟨0, rfl⟩
    · rename_i hne
      obtain ⟨i, hi⟩ := ih ((List.mem_cons.1 h).resolve_left hne)
      exact ⟨i + 1, by rw [hi]; rfl⟩

/-- The position of a functor does not change when the storage grows. -/
theorem indexOf?_prefix {α} [DecidableEq α] {x : α} : ∀ {l l' : List α} {i}, l <+: l' → indexOf? x l = some i → indexOf? x l' = some i := by
  intro l
  induction l with
  | nil => intro l' i _ h; cases h
  | cons y ys ih =>
    intro l' i hp h
    obtain ⟨t, rfl⟩ := hp
    rw [List.cons_append, indexOf?]
    rw [indexOf?] at h
    split at h
    · rename_i hxy; rw [if_pos hxy]; exact h
    · rename_i hxy
      rw [if_neg hxy]
      cases hi : indexOf? x ys with
      | none => rw [hi] at h; cases h
      | some j => rw [hi] at h; rw [ih ⟨t, rfl⟩ hi]; exact h

/-- Where a functor is stored after its number has been asked for. -/
theorem functorIndexOf_where (st : Storage) (f : FV) : ∃ k, (st.functorIndexOf f).1 = toShort k ∧
    (st.functorIndexOf f).2.functors[k]? = some f ∧ ∀ st' : Storage, (st.functorIndexOf f).2.functors <+: st'.functors → st'.functorIndexOf f = (toShort k, st') := by
  unfold Storage.functorIndexOf
  cases h : indexOf? f st.functors with
  | some k =>
    refine ⟨k, rfl, indexOf?_get h, fun st' hp => ?_⟩
    rw [indexOf?_prefix hp h]
  | none =>
    refine ⟨st.functors.length, rfl, by simp, fun st' hp => ?_⟩
    have hk : indexOf? f (st.functors ++ [f]) = some st.functors.length := by
      have : ∀ {l : List FV}, indexOf? f l = none → indexOf? f (l ++ [f]) = some l.length := by
        intro l
        induction l with
        | nil => intro _; simp [indexOf?]
        | cons y ys ih =>
          intro h
          rw [indexOf?] at h
          split at h
          · cases h
          · rename_i hne
            rw [List.cons_append, indexOf?, if_neg hne, ih (by simpa using h)]
            rfl
      exact this h
    rw [indexOf?_prefix hp hk]

/-- **C27 (part that holds).** In any state of the interpreter the numbers of two functors (or constants, which are
functors with arity 0) are equal exactly if the functors are, as long as there are at most 65536 of
them; as long as there are at most 32768 of them, looking up the number yields the functor.  Missing: more functors
(`C27_numbers_repeat`). -/
theorem C27_same_number_partial {o : Org} (h : Reach o) (f g : FV) :
    let r := o.st.functorIndexOf f
    let q := r.2.functorIndexOf g
    (q.2.functors.length ≤ 65536 → (r.1 = q.1 ↔ f = g)) ∧
    (q.2.functors.length ≤ 32768 → q.2.functorAt r.1 = some f ∧ q.2.functorAt q.1 = some g) := by
  intro r q
  have hn : q.2.functors.Nodup := (functorIndexOf_grow _ g).2 ((functorIndexOf_grow _ f).2 h.nodup)
  obtain ⟨k, hk1, hk2, hk3⟩ := functorIndexOf_where o.st f
  obtain ⟨j, hj1, hj2, _⟩ := functorIndexOf_where r.2 g
  have hp : r.2.functors <+: q.2.functors := (functorIndexOf_grow r.2 g).1.1
  have hk2 : q.2.functors[k]? = some f := by
    obtain ⟨t, ht⟩ := hp
    rw [← ht, List.getElem?_append_left (List.getElem?_eq_some_iff.1 hk2).1]
    exact hk2
  have hkl := (List.getElem?_eq_some_iff.1 hk2).1
  have hjl : j < q.2.functors.length := (List.getElem?_eq_some_iff.1 hj2).1
  refine ⟨fun hl => ?_, fun hl => ?_⟩
  · rw [hk1, hj1]
    refine ⟨fun he => ?_, ?_⟩
    · have := toShort_inj (by omega) (by omega) he
      subst this
      exact Option.some.inj (hk2.symm.trans hj2)
    · rintro rfl
      have := (List.Nodup.getElem_inj_iff hn (hi := hkl) (hj := hjl)).1 (by
        have h1 := List.getElem?_eq_getElem hkl
        have h2 := List.getElem?_eq_getElem hjl
        rw [hk2] at h1
        rw [show q.2.functors[j]? = some f from hj2] at h2
        exact Option.some.inj (h1.symm.trans h2))
      rw [this]
  · rw [hk1, hj1]
    refine ⟨?_, ?_⟩
    · rw [toShort_small (by omega)]; simpa [Storage.functorAt] using hk2
    · rw [toShort_small (by omega)]; simpa [Storage.functorAt] using hj2

/-- **C27 (part that holds).** A number that has been given to a functor stays its number, and as long as there are
at most 32768 functors it keeps its meaning, whatever is done with the interpreter - except the clean-up
after memory exhaustion. -/
theorem C27_numbers_kept_partial {o o' : Org} (h : Reach o) (hl : Later o o') {f : FV} (hf : f ∈ o.st.functors) :
    o.st.functorIndexOf f = ((o.st.functorIndexOf f).1, o.st) ∧
    o'.st.functorIndexOf f = ((o.st.functorIndexOf f).1, o'.st) ∧
    (o'.st.functors.length ≤ 32768 → o'.st.functorAt (o.st.functorIndexOf f).1 = some f) := by
  have hp := (hl.grow h).1.1
  obtain ⟨i, hi⟩ := indexOf?_mem hf
  have h1 : o.st.functorIndexOf f = (toShort i, o.st) := by unfold Storage.functorIndexOf; rw [hi]
  have h2 : o'.st.functorIndexOf f = (toShort i, o'.st) := by
    unfold Storage.functorIndexOf; rw [indexOf?_prefix hp hi]
  rw [h1, h2]
  refine ⟨rfl, rfl, fun hl => ?_⟩
  have hg := indexOf?_get (indexOf?_prefix hp hi)
  have := (List.getElem?_eq_some_iff.1 hg).1
  simp only
  rw [toShort_small (by omega)]
  simpa [Storage.functorAt] using hg

/-! ## A program with too many constants -/

theorem compile_constant {ord : HashOrder} {c : Name} {st} : ∃ r, compileClause ord false (.cons c) [] st = .ok (⟨c, 0⟩, r, (st.functorIndexOf ⟨c, 0⟩).2) := by
  have hr : redefines (.cons c) = false := by
    simp [redefines, Node.fv, Node.children]
  unfold compileClause
  simp only [hr]
  exact ⟨_, rfl⟩

theorem compile_constants {ord : HashOrder} : ∀ {cs : List Name} {p st}, (cs.map (FV.mk · 0)).Nodup → (∀ c ∈ cs, ⟨c, 0⟩ ∉ st.functors) →
    ∃ p' st', compileProgram ord (cs.map fun c => ⟨.cons c, []⟩) p st = .ok (p', st') ∧ st'.functors = st.functors ++ cs.map (FV.mk · 0) := by
  intro cs
  induction cs with
  | nil => intro p st _ _; exact ⟨p, st, rfl, by simp⟩
  | cons c cs ih =>
    intro p st hn hnew
    obtain ⟨r, hr⟩ := compile_constant (ord := ord) (c := c) (st := st)
    have hidx : indexOf? (⟨c, 0⟩ : FV) st.functors = none := by
      cases h : indexOf? (⟨c, 0⟩ : FV) st.functors with
      | none => rfl
      | some i =>
        exact absurd (List.mem_iff_getElem?.2 ⟨i, indexOf?_get h⟩) (hnew c (by simp))
    have hst : (st.functorIndexOf ⟨c, 0⟩).2.functors = st.functors ++ [⟨c, 0⟩] := by
      unfold Storage.functorIndexOf; rw [hidx]
    rw [List.map_cons, List.nodup_cons] at hn
    obtain ⟨p', st', h1, h2⟩ := @ih (p.addRule ⟨c, 0⟩ r) (st.functorIndexOf ⟨c, 0⟩).2 hn.2 (fun d hd hm => by
      rw [hst] at hm
      rcases List.mem_append.1 hm with hm | hm
      · exact hnew d (by simp [hd]) hm
      · simp only [List.mem_singleton] at hm
        exact hn.1 (by rw [← hm]; exact List.mem_map.2 ⟨d, hd, rfl⟩))
    refine ⟨p', st', ?_, by rw [h2, hst]; simp⟩
    rw [List.map_cons, compileProgram, hr]
    exact h1

/-- The constants `a`, `aa`, `aaa`, ... -/
def manyNames (n : Nat) : List Name := (List.range n).map fun i => List.replicate (i + 1) 'a'

theorem manyNames_nodup (n : Nat) : ((manyNames n).map (FV.mk · 0)).Nodup := by
  unfold manyNames
  rw [List.map_map, List.Nodup, List.pairwise_map]
  refine List.Pairwise.imp ?_ (List.nodup_range (n := n))
  intro a b hab he
  apply hab
  have := congrArg (fun f : FV => f.name.length) he
  simp at this
  omega

theorem manyNames_length (n : Nat) : (manyNames n).length = n := by
  unfold manyNames
  rw [List.length_map, List.length_range]

theorem numbers_repeat (n : Nat) (hbig : 65537 ≤ n) : ∃ (o : Org) (f g : FV), Reach o ∧ f ∈ o.st.functors ∧ g ∈ o.st.functors ∧ f ≠ g ∧
    (o.st.functorIndexOf f).1 = (o.st.functorIndexOf g).1 ∧
    ∃ e ∈ o.st.functors, o.st.functorAt (o.st.functorIndexOf e).1 = none := by
  obtain ⟨p', st', h1, h2⟩ := compile_constants (ord := id) (cs := manyNames n) (p := []) (st := Org.init0.st) (manyNames_nodup _) (by
    intro c hc hm
    obtain ⟨i, _, rfl⟩ := List.mem_map.1 hc
    have : ∀ f ∈ Org.init0.st.functors, f.name.head? = some '[' := by decide +kernel
    have := this _ hm
    rw [List.replicate_succ] at this
    cases this)
  have hl : (Org.init0.loadProgram id (some ((manyNames n).map fun c => ⟨.cons c, []⟩))).1.st = st' := by
    unfold Org.loadProgram
    simp only [h1]
  have hr : Reach (Org.init0.loadProgram id (some ((manyNames n).map fun c => ⟨.cons c, []⟩))).1 := .program _ _ (.init Org.init_eq)
  have hn := hr.nodup
  rw [hl] at hn
  have hlen : 65537 ≤ st'.functors.length := by rw [h2, List.length_append, List.length_map, manyNames_length]; omega
  have pos : ∀ k (hk : k < st'.functors.length), (st'.functorIndexOf st'.functors[k]) = (toShort k, st') := by
    intro k hk
    obtain ⟨i, hi⟩ := indexOf?_mem (List.getElem_mem hk)
    have hg := indexOf?_get hi
    have hil := (List.getElem?_eq_some_iff.1 hg).1
    have : i = k := (List.Nodup.getElem_inj_iff hn (hi := hil) (hj := hk)).1 (by
      rw [List.getElem?_eq_getElem hil] at hg; exact Option.some.inj hg)
    subst this
    unfold Storage.functorIndexOf
    rw [hi]
  refine ⟨_, st'.functors[0]'(by omega), st'.functors[65536]'(by omega), hr, ?_⟩
  rw [hl]
  refine ⟨List.getElem_mem _, List.getElem_mem _, fun he => ?_, ?_, st'.functors[32768]'(by omega), List.getElem_mem _, ?_⟩
  · have := (List.Nodup.getElem_inj_iff hn (hi := by omega) (hj := by omega)).1 he
    omega
  · rw [pos 0 (by omega), pos 65536 (by omega)]; rfl
  · rw [pos 32768 (by omega)]
    simp [Storage.functorAt, toShort]

/-- **C27 is false**: after loading a program with 65537 different constants, two of them have the same number;
and half of the numbers of the others lead outside of the table when they are looked up. -/
theorem C27_numbers_repeat : ∃ (o : Org) (f g : FV), Reach o ∧ f ∈ o.st.functors ∧ g ∈ o.st.functors ∧ f ≠ g ∧
    (o.st.functorIndexOf f).1 = (o.st.functorIndexOf g).1 ∧
    ∃ e ∈ o.st.functors, o.st.functorAt (o.st.functorIndexOf e).1 = none :=
  numbers_repeat 65537 (Nat.le_refl _)

/-- The hypotheses of C27 are met: a program with many functors, and a later state. -/
example : Reach (demo Demo.prog [.fn n!"p" [.var n!"X"]]) ∧ (⟨n!"a", 0⟩ : FV) ∈ (demo Demo.prog [.fn n!"p" [.var n!"X"]]).st.functors ∧
    Later (demo Demo.prog [.fn n!"p" [.var n!"X"]]) ((demo Demo.prog [.fn n!"p" [.var n!"X"]]).loadProgram id (some [⟨.fn n!"z" [.cons n!"c"], []⟩])).1 :=
  ⟨demo_reach _ _, by decide +kernel, .program _ _ .refl⟩

end PBfs
