import Verif.Proof.Frames
/-! # Queries and clauses compile to code with the right meaning -/
namespace PBfs

theorem varRegs_spec {yOf : Name → Option Nat} : ∀ {as : List AItem} {hd : List Name},
    (∀ v ∈ varRegs yOf as hd, ∃ a ∈ as, a.node = .var v.name ∧
      if v.perm then yOf v.name = some v.reg else yOf v.name = none ∧ v.reg = a.x) ∧
    (∀ a ∈ as, ∀ v, a.node = .var v → v ∈ hd ∨ v ∈ (varRegs yOf as hd).map (·.name)) := by
  intro as
  induction as with
  | nil => intro hd; simp [varRegs]
  | cons a as ih =>
    intro hd
    unfold varRegs
    cases hn : a.node with
    | var n =>
      simp only
      by_cases hc : hd.contains n = true
      · rw [if_pos hc]
        refine ⟨fun v hv => ?_, fun b hb v hv => ?_⟩
        · obtain ⟨b, hb, h⟩ := ih.1 v hv
          exact ⟨b, by simp [hb], h⟩
        · rcases List.mem_cons.1 hb with rfl | hb
          · rw [hn] at hv; cases hv
            exact .inl (by simpa using hc)
          · exact ih.2 b hb v hv
      · rw [if_neg hc]
        cases hy : yOf n with
        | some y =>
          simp only
          refine ⟨fun v hv => ?_, fun b hb v hv => ?_⟩
          · rcases List.mem_cons.1 hv with rfl | hv
            · exact ⟨a, by simp, hn, by simp [hy]⟩
            · obtain ⟨b, hb, h⟩ := ih.1 v hv
              exact ⟨b, by simp [hb], h⟩
          · rcases List.mem_cons.1 hb with rfl | hb
            · rw [hn] at hv; cases hv; right; simp
            · rcases (ih (hd := n :: hd)).2 b hb v hv with h | h
              · rcases List.mem_cons.1 h with rfl | h
                · right; simp
                · exact .inl h
              · right; simp only [List.map_cons, List.mem_cons]; exact .inr h
        | none =>
          simp only
          refine ⟨fun v hv => ?_, fun b hb v hv => ?_⟩
          · rcases List.mem_cons.1 hv with rfl | hv
            · exact ⟨a, by simp, hn, by simp [hy]⟩
            · obtain ⟨b, hb, h⟩ := ih.1 v hv
              exact ⟨b, by simp [hb], h⟩
          · rcases List.mem_cons.1 hb with rfl | hb
            · rw [hn] at hv; cases hv; right; simp
            · rcases (ih (hd := n :: hd)).2 b hb v hv with h | h
              · rcases List.mem_cons.1 h with rfl | h
                · right; simp
                · exact .inl h
              · right; simp only [List.map_cons, List.mem_cons]; exact .inr h
    | _ =>
      simp only
      refine ⟨fun v hv => ?_, fun b hb v hv => ?_⟩
      · obtain ⟨b, hb, h⟩ := ih.1 v hv
        exact ⟨b, by simp [hb], h⟩
      · rcases List.mem_cons.1 hb with rfl | hb
        · rw [hn] at hv; cases hv
        · exact ih.2 b hb v hv

theorem toQuery_le {yOf xOf : Name → Option Nat} {atom ais g is g1} (N : Nodes atom ais) (hw : ∀ a ∈ ais, a.node.wf = true)
    (h : toQuery yOf xOf atom ais g = .ok (is, g1)) : StLe g.st g1.st := by
  simp only [toQuery, bind_ok, pure_ok] at h
  obtain ⟨⟨ds, g2⟩, h1, h2⟩ := h
  cases h2
  exact queryItems_le h1 (fun a ha => N.kids a (mem_flattenQuery.1 ha).1) fun a ha => hw a (mem_flattenQuery.1 ha).1

theorem assignSingle_wf {atom : Node} (hw : atom.wf = true) : ∀ a ∈ (assignSingle atom).1, a.node.wf = true := by
  simp only [assignSingle, assignAtom]
  exact annotate_wf hw

theorem compileQueryAtom_le {yOf : Name → Option Nat} {al fq atom g c g'} (hw : atom.wf = true)
    (h : compileQueryAtom yOf al fq atom g = .ok (c, g')) : StLe g.st g'.st := by
  simp only [compileQueryAtom, bind_ok, pure_ok] at h
  obtain ⟨⟨is, g1⟩, h1, h2⟩ := h
  cases h2
  show StLe g.st g1.st
  exact toQuery_le (assignSingle_nodes atom) (assignSingle_wf hw) h1

theorem compileQueryAtoms_le {yOf : Name → Option Nat} {al fq atoms g cs g'} (hw : ∀ a ∈ atoms, Node.wf a = true)
    (h : compileQueryAtoms yOf al fq atoms g = .ok (cs, g')) : StLe g.st g'.st := by
  induction atoms generalizing al g cs with
  | nil => simp only [compileQueryAtoms, pure_ok] at h; cases h; exact .refl _
  | cons a as ih =>
    simp only [compileQueryAtoms, bind_ok, pure_ok] at h
    obtain ⟨⟨c, g1⟩, h1, ⟨cs', g2⟩, h2, h3⟩ := h
    cases h3
    exact (compileQueryAtom_le (hw a (by simp)) h1).trans (ih (fun b hb => hw b (by simp [hb])) h2)

section
variable {st : Storage} {I : Int → FV} (hst : StOK st) (hI : Interp I st) {yOf : Name → Option Nat} {ny : Nat}
  (ylt : ∀ n y, yOf n = some y → y < ny) (yinj : ∀ n m y, yOf n = some y → yOf m = some y → n = m)
include hst hI ylt yinj

theorem compileQueryAtom_sem {al fq atom g c g' S} (h : compileQueryAtom yOf al fq atom g = .ok (c, g'))
    (hg : atom.goal = true) (hw : atom.wf = true) (hle : StLe g'.st st) (hsane : S.Sane yOf) (hseen : S.seen = g.seen)
    (hnox : ∀ r, S.has (.x r) = false)
    (hv : ∀ v, yOf v = none → v ∈ Node.varss atom.children → v ∉ S.pl) :
    ∃ S', GoalSem st I yOf ny al c atom S S' ∧ S'.next.seen = g'.seen ∧ SaneStep yOf S S' ∧
      (∀ v, v ∈ S'.pl → v ∈ S.pl ∨ v ∈ Node.varss atom.children) := by
  simp only [compileQueryAtom, bind_ok, pure_ok] at h
  obtain ⟨⟨is, g1⟩, h1, h2⟩ := h
  cases h2
  have R : Regs atom _ (assignSingle atom).1 ((assignSingle atom).2.1.lookup ·) := assignSingle_regs (by rfl)
  have N := assignSingle_nodes atom
  obtain ⟨S', hs, _, hpl, hgrow, hx⟩ := symAtom_ok R yinj hnox hsane.y
    (fun v hy hi => hv v hy (by rw [← varss_atomArgs]; exact N.itemVar.1 hi))
  obtain ⟨hs1, hs2, hs3⟩ := symAtom_sane yinj N hs hsane
  have := toQuery_sem hst hI ylt yinj hg N (assignSingle_wf hw) h1 hle hs hsane hseen al
    ⟨(assignSingle atom).2.2, al ++ is, varRegs yOf (assignSingle atom).1 [], atom, fq⟩ rfl rfl rfl ?_
  · obtain ⟨G, e1, _⟩ := this
    refine ⟨S', G, ?_, hs1, ?_⟩
    · show dropX S'.seen = dropX g1.seen
      rw [e1]
    · intro v hv
      rcases hpl v hv with h | h
      · exact .inl h
      · right; rw [← varss_atomArgs]; exact N.itemVar.1 h
  · intro _
    obtain ⟨v1, v2⟩ := varRegs_spec (yOf := yOf) (as := (assignSingle atom).1) (hd := [])
    constructor
    · intro v hv
      obtain ⟨a, ha, hn, hh⟩ := v1 v hv
      have hin := hs2 v.name (N.itemVar.1 ⟨a, ha, hn⟩)
      cases hp : v.perm with
      | true => simp only [hp, if_true] at hh ⊢; exact ⟨hh, hin⟩
      | false =>
        simp only [hp, Bool.false_eq_true, if_false] at hh ⊢
        rw [hh.2]
        exact hx v.name a.x hh.1 (R.var a ha _ hn) hin
    · intro v
      rw [← varss_atomArgs, ← N.itemVar]
      constructor
      · intro hv
        obtain ⟨w, hw, rfl⟩ := List.mem_map.1 hv
        obtain ⟨a, ha, hn, _⟩ := v1 w hw
        exact ⟨a, ha, hn⟩
      · rintro ⟨a, ha, hn⟩
        exact (v2 a ha v hn).resolve_left (by simp)

omit hst hI ylt yinj in
theorem Sym.next_nox {S : Sym} (r) : S.next.has (.x r) = false := by
  simp [Sym.has, Sym.next, dropX]

theorem compileQueryAtoms_sem {fq atoms g cs g' S} (h : compileQueryAtoms yOf [] fq atoms g = .ok (cs, g'))
    (hok : ∀ a ∈ atoms, Node.goal a = true ∧ a.wf = true) (hle : StLe g'.st st) (hsane : S.Sane yOf) (hseen : S.seen = g.seen)
    (hnox : ∀ r, S.has (.x r) = false)
    (hv : ∀ v, yOf v = none → ∀ a ∈ atoms, v ∈ Node.varss (Node.children a) → v ∉ S.pl)
    (hpw : atoms.Pairwise fun a b => ∀ v, yOf v = none → v ∈ Node.varss (Node.children a) → v ∉ Node.varss (Node.children b)) :
    FrameSem st I yOf ny S cs atoms := by
  induction atoms generalizing g cs S with
  | nil => simp only [compileQueryAtoms, pure_ok] at h; cases h; exact .nil
  | cons a as ih =>
    simp only [compileQueryAtoms, bind_ok, pure_ok] at h
    obtain ⟨⟨c, g1⟩, h1, ⟨cs', g2⟩, h2, h3⟩ := h
    cases h3
    have hok' : ∀ b ∈ as, Node.goal b = true ∧ b.wf = true := fun b hb => hok b (by simp [hb])
    have hle1 := (compileQueryAtoms_le (fun b hb => (hok' b hb).2) h2).trans hle
    obtain ⟨S', G, e1, e2, e3⟩ := compileQueryAtom_sem hst hI ylt yinj h1 (hok a (by simp)).1 (hok a (by simp)).2 hle1
      hsane hseen hnox (fun v hy hva => hv v hy a (by simp) hva)
    rw [List.pairwise_cons] at hpw
    refine .cons G (ih h2 hok' e2.sane.next e1 Sym.next_nox ?_ hpw.2)
    intro v hy b hb hvb hp
    rcases e3 v hp with h | h
    · exact hv v hy b (by simp [hb]) hvb h
    · exact hpw.1 b hb v hy h hvb

end

/-! ## Permanent registers -/

theorem indexOf?_isSome {l : List Name} {v} (h : v ∈ l) : ∃ i, indexOf? v l = some i := by
  cases hh : indexOf? v l with
  | some i => exact ⟨i, rfl⟩
  | none => exact absurd h (indexOf?_none.1 hh)

theorem yOf_lt {ys : List Name} : ∀ n y, indexOf? n ys = some y → y < ys.length := fun _ _ h =>
  (List.getElem?_eq_some_iff.1 (indexOf?_get h)).1

theorem yOf_inj {ys : List Name} : ∀ n m y, indexOf? n ys = some y → indexOf? m ys = some y → n = m := fun _ _ _ h h' => by
  have := (indexOf?_get h).symm.trans (indexOf?_get h')
  exact Option.some.inj this

theorem yOf_none {ord : HashOrder} (ho : ord.OK) {prog atoms v} (h : indexOf? v (permVars ord prog atoms) = none) :
    v ∉ permVarsRaw prog atoms := fun hm =>
  absurd ((ho _).mem_iff.2 hm) (indexOf?_none.1 h)

/-! ## Queries -/

/-- The symbolic state before anything is built. -/
def Sym.start : Sym := ⟨[], fun _ => none, []⟩

theorem Sym.start_sane {yOf} : Sym.start.Sane yOf := ⟨by simp [Sym.start], by simp [Sym.start, Sym.has]⟩

/-- The code of a query. -/
structure QuerySem (st : Storage) (I : Int → FV) (q : Rule) (atoms : List Node) (yOf : Name → Option Nat) (ny : Nat)
    (c : CAtom) (cs : List CAtom) (a : Node) (as : List Node) (S : Sym) : Prop where
  code : q = c :: cs
  atoms : atoms = a :: as
  ylt : ∀ n y, yOf n = some y → y < ny
  yinj : ∀ n m y, yOf n = some y → yOf m = some y → n = m
  first : GoalSem st I yOf ny (allocInstrs ny) c a Sym.start S
  rest : FrameSem st I yOf ny S.next cs as
  query : ∀ c' ∈ q, c'.fromQuery = true

theorem pairwise_split {α} {R : α → α → Prop} {l : List α} (h : ∀ pre a mid b post, l = pre ++ a :: mid ++ b :: post → R a b) :
    l.Pairwise R := by
  induction l with
  | nil => exact .nil
  | cons x l ih =>
    refine List.pairwise_cons.2 ⟨fun b hb => ?_, ih fun pre a mid b post hl => h (x :: pre) a mid b post (by rw [hl]; simp)⟩
    obtain ⟨mid, post, rfl⟩ := List.append_of_mem hb
    exact h [] x mid b post (by simp)

theorem compileQueryAtoms_fq {yOf al fq atoms g cs g'} (h : compileQueryAtoms yOf al fq atoms g = .ok (cs, g')) :
    ∀ c ∈ cs, c.fromQuery = fq := by
  induction atoms generalizing al g cs with
  | nil => simp only [compileQueryAtoms, pure_ok] at h; cases h; simp
  | cons a as ih =>
    simp only [compileQueryAtoms, bind_ok, pure_ok] at h
    obtain ⟨⟨c, g1⟩, h1, ⟨cs', g2⟩, h2, h3⟩ := h
    cases h3
    intro c' hc'
    rcases List.mem_cons.1 hc' with rfl | hc'
    · simp only [compileQueryAtom, bind_ok, pure_ok] at h1
      obtain ⟨⟨is, g1⟩, h1, h2⟩ := h1
      cases h2; rfl
    · exact ih h2 c' hc'

theorem compileQuery_sem {st : Storage} {I : Int → FV} (hst : StOK st) (hI : Interp I st) {ord : HashOrder} (ho : ord.OK)
    {atoms st0 q st1} (h : compileQuery ord atoms st0 = .ok (q, st1)) (hle : StLe st1 st)
    (hok : ∀ a ∈ atoms, Node.goal a = true ∧ a.wf = true) (hne : atoms ≠ []) :
    ∃ c cs a as S, QuerySem st I q atoms (indexOf? · (permVars ord false atoms)) (permVars ord false atoms).length c cs a as S := by
  simp only [compileQuery, bind_ok, pure_ok] at h
  obtain ⟨⟨cs, g⟩, h1, h2⟩ := h
  cases h2
  have hfq := compileQueryAtoms_fq h1
  have hpw : atoms.Pairwise fun a b => ∀ v, indexOf? v (permVars ord false atoms) = none →
      v ∈ Node.varss (Node.children a) → v ∉ Node.varss (Node.children b) := by
    refine pairwise_split fun pre a mid b post hl v hy ha hb => ?_
    exact yOf_none ho hy (permVarsRaw_query hl ha hb)
  generalize hys : permVars ord false atoms = ys at *
  cases atoms with
  | nil => exact absurd rfl hne
  | cons a as =>
    simp only [compileQueryAtoms, bind_ok, pure_ok] at h1
    obtain ⟨⟨c, g1⟩, h1, ⟨cs', g2⟩, h2, h3⟩ := h1
    cases h3
    have hok' : ∀ b ∈ as, Node.goal b = true ∧ b.wf = true := fun b hb => hok b (by simp [hb])
    have hle1 := (compileQueryAtoms_le (fun b hb => (hok' b hb).2) h2).trans hle
    obtain ⟨S', G, e1, e2, e3⟩ := compileQueryAtom_sem (S := Sym.start) hst hI yOf_lt yOf_inj h1 (hok a (by simp)).1 (hok a (by simp)).2 hle1
      Sym.start_sane rfl (by simp [Sym.start, Sym.has]) (by simp [Sym.start])
    rw [List.pairwise_cons] at hpw
    refine ⟨c, cs', a, as, S', rfl, rfl, yOf_lt, yOf_inj, G, ?_, hfq⟩
    refine compileQueryAtoms_sem hst hI yOf_lt yOf_inj h2 hok' hle e2.sane.next e1 Sym.next_nox ?_ hpw.2
    intro v hy b hb hvb hp
    rcases e3 v hp with h | h
    · simp [Sym.start] at h
    · exact hpw.1 b hb v hy h hvb

end PBfs
