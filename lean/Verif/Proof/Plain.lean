import Verif.Spec.Plain
import Verif.Spec.Syntax
import Verif.Props.Parser
import Verif.Proof.Labels
/-! # Names in programs, code and storage consist of harmless characters -/
namespace PBfs
open Org

theorem Plain.nil : Plain [] := by simp [Plain]

theorem plain_append {s t : Name} : Plain (s ++ t) ↔ Plain s ∧ Plain t := by
  simp only [Plain, List.mem_append]
  grind

theorem IsWord.plain {p : Char → Bool} {w : Name} (hp : ∀ c, p c = true → isWord c = true) (h : IsWord p w) : Plain w := by
  obtain ⟨a, as, rfl, h1, h2⟩ := h
  intro c hc
  rcases List.mem_cons.1 hc with rfl | hc
  · exact .inl (hp _ h1)
  · exact .inl (h2 _ hc)

mutual
/-- All names in the term are clean. -/
def Node.Plain : Node → Prop
  | .var n => PBfs.Plain n
  | .cons n => PBfs.Plain n
  | .int _ => True
  | .fn n cs => PBfs.Plain n ∧ Node.Plains cs
  | .efn n cs => PBfs.Plain n ∧ Node.Plains cs
def Node.Plains : List Node → Prop
  | [] => True
  | c :: cs => c.Plain ∧ Node.Plains cs
end

theorem Node.plains_iff {cs : List Node} : Node.Plains cs ↔ ∀ c ∈ cs, c.Plain := by
  induction cs with
  | nil => simp [Node.Plains]
  | cons c cs ih => simp [Node.Plains, ih]

theorem Node.Plain.name {n : Node} (h : n.Plain) : PBfs.Plain n.name := by
  cases n <;> simp_all [Node.Plain, Node.name, Plain.nil]

theorem Node.Plain.child {n c : Node} (h : n.Plain) (hc : c ∈ n.children) : c.Plain := by
  cases n <;> simp_all [Node.Plain, Node.children, Node.plains_iff]

theorem Node.listWith_plain {t : Node} {cs : List Node} (ht : t.Plain) (hc : Node.Plains cs) : (Node.listWith t cs).Plain := by
  have hb : PBfs.Plain n!"[" := by decide
  induction cs with
  | nil => exact ht
  | cons c cs ih =>
    simp only [Node.listWith, Node.Plain, Node.Plains]
    exact ⟨hb, hc.1, ih hc.2, trivial⟩

theorem Syn.plain {k es ts} (h : Syn k es ts) (hv : ∀ t ∈ ts, t.Valid) : Node.Plains es := by
  have hl : ∀ c, isLower c = true → isWord c = true := by intro c h; simp [isWord, h]
  have hu : ∀ c, isUpper c = true → isWord c = true := by intro c h; simp [isWord, h]
  induction h with
  | @var w =>
    refine ⟨?_, trivial⟩
    have := hv (.var w) (by simp)
    exact IsWord.plain hu this
  | num => exact ⟨trivial, trivial⟩
  | paren _ ih => exact ih fun t ht => hv t (by simp [ht])
  | power1 _ ih => exact ih hv
  | pow _ _ ih1 ih2 =>
    have h1 := ih1 fun t ht => hv t (by simp [ht])
    have h2 := ih2 fun t ht => hv t (by simp [ht])
    exact ⟨⟨by decide, h1.1, h2.1, trivial⟩, trivial⟩
  | product1 _ ih => exact ih hv
  | mul ho _ _ ih1 ih2 =>
    have h1 := ih1 fun t ht => hv t (by simp [ht])
    have h2 := ih2 fun t ht => hv t (by simp [ht])
    refine ⟨⟨?_, h1.1, h2.1, trivial⟩, trivial⟩
    rcases ho with rfl | rfl <;> decide
  | sum1 _ ih => exact ih hv
  | add ho _ _ ih1 ih2 =>
    have h1 := ih1 fun t ht => hv t (by simp [ht])
    have h2 := ih2 fun t ht => hv t (by simp [ht])
    refine ⟨⟨?_, h1.1, h2.1, trivial⟩, trivial⟩
    rcases ho with rfl | rfl <;> decide
  | @fn w _ _ _ ih =>
    have h1 := ih fun t ht => hv t (by simp [ht])
    have := hv (.opening w) (by simp)
    exact ⟨⟨IsWord.plain hl this, h1⟩, trivial⟩
  | @cons w =>
    have := hv (.name w) (by simp)
    exact ⟨IsWord.plain hl this, trivial⟩
  | elist _ ih => exact ih hv
  | esum _ ih => exact ih hv
  | nil => exact ⟨⟨by decide, trivial⟩, trivial⟩
  | list _ ih => exact ⟨Node.listWith_plain ⟨by decide, trivial⟩ (ih fun t ht => hv t (by simp [ht])), trivial⟩
  | @listVar _ _ w _ ih =>
    have := hv (.var w) (by simp)
    exact ⟨Node.listWith_plain (IsWord.plain hu this) (ih fun t ht => hv t (by simp [ht])), trivial⟩
  | listList _ _ ih1 ih2 =>
    exact ⟨Node.listWith_plain (ih2 fun t ht => hv t (by simp [ht])).1 (ih1 fun t ht => hv t (by simp [ht])), trivial⟩
  | one _ ih => exact ih hv
  | more _ _ ih1 ih2 => exact ⟨(ih1 fun t ht => hv t (by simp [ht])).1, ih2 fun t ht => hv t (by simp [ht])⟩

theorem HeadSyn.plain {a ts} (h : HeadSyn a ts) (hv : ∀ t ∈ ts, t.Valid) : a.Plain := by
  have hl : ∀ c, isLower c = true → isWord c = true := by intro c h; simp [isWord, h]
  cases h with
  | @fn w _ _ h =>
    have := hv (.opening w) (by simp)
    exact ⟨IsWord.plain hl this, h.plain fun t ht => hv t (by simp [ht])⟩
  | @cons w =>
    have := hv (.name w) (by simp)
    exact IsWord.plain hl this

theorem GoalSyn.plain {a ts} (h : GoalSyn a ts) (hv : ∀ t ∈ ts, t.Valid) : a.Plain := by
  cases h with
  | eq h1 h2 => exact ⟨by decide, (h1.plain fun t ht => hv t (by simp [ht])).1, (h2.plain fun t ht => hv t (by simp [ht])).1, trivial⟩
  | neq h1 h2 => exact ⟨by decide, (h1.plain fun t ht => hv t (by simp [ht])).1, (h2.plain fun t ht => hv t (by simp [ht])).1, trivial⟩
  | is h1 h2 => exact ⟨by decide, (h1.plain fun t ht => hv t (by simp [ht])).1, (h2.plain fun t ht => hv t (by simp [ht])).1, trivial⟩
  | head h => exact h.plain hv

theorem GoalsSyn.plain {q ts} (h : GoalsSyn q ts) (hv : ∀ t ∈ ts, t.Valid) : ∀ a ∈ q, a.Plain := by
  induction h with
  | one h => intro a ha; simp only [List.mem_singleton] at ha; subst ha; exact h.plain hv
  | more h _ ih =>
    intro a ha
    rcases List.mem_cons.1 ha with rfl | ha
    · exact h.plain fun t ht => hv t (by simp [ht])
    · exact ih (fun t ht => hv t (by simp [ht])) a ha

theorem Spell.allValid {ts s} (h : Spell ts s) : ∀ t ∈ ts, t.Valid := by
  induction h with
  | nil => simp
  | cons _ hv _ _ ih => simp only [List.mem_cons, forall_eq_or_imp]; exact ⟨hv, ih⟩

/-- The clauses have clean names. -/
def Clause.Plain (c : Clause) : Prop := c.head.Plain ∧ ∀ a ∈ c.body, a.Plain

theorem ProgSyn.plain {p ts} (h : ProgSyn p ts) (hv : ∀ t ∈ ts, t.Valid) : ∀ c ∈ p, c.Plain := by
  induction h with
  | nil => simp
  | comment _ ih => exact ih fun t ht => hv t (by simp [ht])
  | clause h _ ih =>
    intro c hc
    rcases List.mem_cons.1 hc with rfl | hc
    · cases h with
      | fact h => exact ⟨h.plain fun t ht => hv t (by simp [ht]), by simp⟩
      | rule h1 h2 => exact ⟨h1.plain fun t ht => hv t (by simp [ht]), h2.plain fun t ht => hv t (by simp [ht])⟩
    · exact ih (fun t ht => hv t (by simp [ht])) c hc

theorem parseProgram_plain {text p} (h : parseProgram text = .ok p) : ∀ c ∈ p, c.Plain := by
  obtain ⟨ts, h1, h2⟩ := C41_program_text.1 h
  exact h1.plain h2.allValid

theorem parseQuery_plain {text q} (h : parseQuery text = .ok q) : ∀ a ∈ q, a.Plain := by
  obtain ⟨ts, h1, h2⟩ := C41_query_text.1 h
  exact h1.plain fun t ht => h2.allValid t (by simp [ht])

/-! ## Compiling -/

structure Storage.Plain (st : Storage) : Prop where
  fn : ∀ f ∈ st.functors, PBfs.Plain f.name
  var : ∀ v ∈ st.vars, PBfs.Plain v

theorem Storage.Plain.functorIndexOf {st : Storage} (h : st.Plain) {f : FV} (hf : PBfs.Plain f.name) : (st.functorIndexOf f).2.Plain := by
  unfold Storage.functorIndexOf
  split
  · exact h
  · refine ⟨fun g hg => ?_, h.var⟩
    simp only [List.mem_append, List.mem_singleton] at hg
    rcases hg with hg | rfl
    · exact h.fn g hg
    · exact hf

theorem Storage.Plain.pushBackVar {st : Storage} (h : st.Plain) {n : Name} (hn : PBfs.Plain n) : (st.pushBackVar n).2.Plain := by
  refine ⟨h.fn, fun v hv => ?_⟩
  simp only [Storage.pushBackVar, List.mem_append, List.mem_singleton] at hv
  rcases hv with hv | rfl
  · exact h.var v hv
  · exact hn

/-- Whether compiling succeeds or not, the storage is clean afterwards. -/
def Leaves (f : α → Storage) (m : CR α) : Prop :=
  match m with
  | .ok a => (f a).Plain
  | .error x => x.2.Plain

theorem Leaves.bind {f : α → Storage} {g : β → Storage} {m : CR α} {k : α → CR β} (h : Leaves f m) (hk : ∀ a, (f a).Plain → Leaves g (k a)) : Leaves g (m >>= k) := by
  cases m with
  | ok a => exact hk a h
  | error x => exact h

theorem structCell_plain {n : Node} {g : GenSt} (hn : n.Plain) (h : g.st.Plain) : Leaves (fun x => x.2.st) (structCell n g) := by
  unfold structCell
  split
  · unfold stoi
    split
    · exact h
    · exact h
  · exact h.functorIndexOf hn
  · exact h.functorIndexOf hn.1
  · split
    · exact h
    · exact h
  · exact h

theorem queryKid_plain {yOf : Name → Option Nat} {c : Node} {x : Nat} {g : GenSt} (hc : c.Plain) (h : g.st.Plain) :
    Leaves (fun r => r.2.st) (queryKid yOf c x g) := by
  have hx : Leaves (fun r : Instr × GenSt => r.2.st) (if g.has (.x x) then pure (.setValue x, g)
      else let g := g.mark (.x x); let (v, st) := g.st.pushBackVar c.name; pure (.setVariable x v, { g with st := st })) := by
    split
    · exact h
    · exact h.pushBackVar hc.name
  unfold queryKid
  simp only
  split
  · exact (structCell_plain hc h).bind fun ⟨_, _⟩ ha => ha
  · exact (structCell_plain hc h).bind fun ⟨_, _⟩ ha => ha
  · split
    · split
      · exact h
      · exact h.pushBackVar hc
    · exact hx
  · exact hx

theorem queryKids_plain {yOf : Name → Option Nat} : ∀ {ks : List (Node × Nat)} {g : GenSt}, (∀ k ∈ ks, k.1.Plain) → g.st.Plain →
    Leaves (fun r => r.2.st) (queryKids yOf ks g)
  | [], g, _, h => h
  | (c, x) :: ks, g, hk, h => by
    unfold queryKids
    refine (queryKid_plain (hk (c, x) (by simp)) h).bind fun ⟨_, _⟩ ha => ?_
    exact (queryKids_plain (ks := ks) (fun k hm => hk k (by simp [hm])) ha).bind fun ⟨_, _⟩ hb => hb

/-- The nodes of an atom and their children are clean. -/
def PlainItem (a : AItem) : Prop := a.node.Plain ∧ ∀ k ∈ a.kids, k.1.Plain

theorem queryItem_plain {yOf xOf : Name → Option Nat} {a : AItem} {g : GenSt} (ha : PlainItem a) (h : g.st.Plain) :
    Leaves (fun r => r.2.st) (queryItem yOf xOf a g) := by
  unfold queryItem
  split
  · rename_i n hn
    have hc : Plain n := by have := ha.1; rw [hn] at this; exact this
    split
    · split
      · exact h
      · exact h.pushBackVar hc
    · split
      · exact h
      · exact h.pushBackVar hc
  · simp only
    split
    · exact (structCell_plain (g := g.mark (.x a.x)) ha.1 h).bind fun ⟨_, _⟩ h1 => (queryKids_plain ha.2 h1).bind fun ⟨_, _⟩ h2 => h2
    · exact h
  · exact (structCell_plain (g := g.mark (.x a.x)) ha.1 h).bind fun ⟨_, _⟩ h1 => (queryKids_plain ha.2 h1).bind fun ⟨_, _⟩ h2 => h2

theorem queryItems_plain {yOf xOf : Name → Option Nat} : ∀ {as : List AItem} {g : GenSt}, (∀ a ∈ as, PlainItem a) → g.st.Plain →
    Leaves (fun r => r.2.st) (queryItems yOf xOf as g)
  | [], g, _, h => h
  | a :: as, g, hk, h =>
    (queryItem_plain (hk _ (by simp)) h).bind fun ⟨_, _⟩ ha => (queryItems_plain (fun k hm => hk k (by simp [hm])) ha).bind fun ⟨_, _⟩ hb => hb

theorem programKid_plain {yOf : Name → Option Nat} {c : Node} {x : Nat} {g : GenSt} (hc : c.Plain) (h : g.st.Plain) :
    Leaves (fun r => r.2.st) (programKid yOf c x g) := by
  unfold programKid
  simp only
  split
  · exact (structCell_plain hc h).bind fun ⟨_, _⟩ ha => ha
  · exact (structCell_plain hc h).bind fun ⟨_, _⟩ ha => ha
  · split
    · split <;> exact h
    · split <;> exact h.pushBackVar hc.name

theorem programKids_plain {yOf : Name → Option Nat} : ∀ {ks : List (Node × Nat)} {g : GenSt}, (∀ k ∈ ks, k.1.Plain) → g.st.Plain →
    Leaves (fun r => r.2.st) (programKids yOf ks g)
  | [], g, _, h => h
  | (c, x) :: ks, g, hk, h => by
    unfold programKids
    refine (programKid_plain (hk (c, x) (by simp)) h).bind fun ⟨_, _⟩ ha => ?_
    exact (programKids_plain (ks := ks) (fun k hm => hk k (by simp [hm])) ha).bind fun ⟨_, _⟩ hb => hb

theorem programItem_plain {yOf : Name → Option Nat} {a : AItem} {g : GenSt} (ha : PlainItem a) (h : g.st.Plain) :
    Leaves (fun r => r.2.st) (programItem yOf a g) := by
  unfold programItem
  split
  · split
    · split <;> exact h
    · simp only
      split <;> exact h
  · exact (structCell_plain ha.1 h).bind fun ⟨_, _⟩ h1 => (programKids_plain ha.2 h1).bind fun ⟨_, _⟩ h2 => h2

theorem programItems_plain {yOf : Name → Option Nat} : ∀ {as : List AItem} {g : GenSt}, (∀ a ∈ as, PlainItem a) → g.st.Plain →
    Leaves (fun r => r.2.st) (programItems yOf as g)
  | [], g, _, h => h
  | a :: as, g, hk, h =>
    (programItem_plain (hk _ (by simp)) h).bind fun ⟨_, _⟩ ha => (programItems_plain (fun k hm => hk k (by simp [hm])) ha).bind fun ⟨_, _⟩ hb => hb

theorem annotate_plain {atom : Node} (h : atom.Plain) {xs} : ∀ a ∈ annotate (items atom) xs, PlainItem a := by
  intro a ha
  have hk := (annotate_nodes atom xs).kids a ha
  have hn : a.node.Plain := by
    simp only [annotate, List.mem_map] at ha
    obtain ⟨it, hit, rfl⟩ := ha
    refine bfs_all (P := Node.Plain) (fun n c hn hc => hn.child hc) _ _ _ _ ?_ (by simp) it hit
    intro nd hnd
    unfold atomArgs at hnd
    split at hnd
    · simp only [List.mem_singleton] at hnd; subst hnd; exact h
    · exact h.child hnd
  refine ⟨hn, fun k hkm => hn.child (c := k.1) ?_⟩
  rw [← hk]
  exact List.mem_map_of_mem hkm

theorem assignSingle_plain {atom : Node} (h : atom.Plain) : ∀ a ∈ (assignSingle atom).1, PlainItem a := annotate_plain h

theorem assignPair_plain {head body : Node} (h : head.Plain) (hb : body.Plain) :
    (∀ a ∈ (assignPair head body).1.1, PlainItem a) ∧ ∀ a ∈ (assignPair head body).2.1.1, PlainItem a := by
  unfold assignPair
  split
  · exact ⟨assignSingle_plain h, assignSingle_plain hb⟩
  · split
    · exact ⟨assignSingle_plain h, assignSingle_plain hb⟩
    · exact ⟨annotate_plain h, annotate_plain hb⟩

theorem toQuery_plain {yOf xOf : Name → Option Nat} {atom : Node} {as : List AItem} {g : GenSt} (ha : ∀ a ∈ as, PlainItem a) (h : g.st.Plain) :
    Leaves (fun r => r.2.st) (toQuery yOf xOf atom as g) := by
  refine (queryItems_plain (fun a hm => ha a ?_) h).bind fun ⟨_, _⟩ h1 => h1
  simp only [flattenQuery, List.mem_append, List.mem_reverse] at hm
  have : a ∈ flattenProgram (atomArgs atom).length as := by
    rcases hm with hm | hm
    · exact List.mem_of_mem_drop hm
    · exact List.mem_of_mem_take hm
  exact (List.mem_filter.1 this).1

theorem toProgram_plain {yOf : Name → Option Nat} {atom : Node} {as : List AItem} {g : GenSt} (ha : ∀ a ∈ as, PlainItem a) (h : g.st.Plain) :
    Leaves (fun r => r.2.st) (toProgram yOf atom as g) :=
  (programItems_plain (fun a hm => ha a (List.mem_filter.1 hm).1) h).bind fun ⟨_, _⟩ h1 => h1

theorem compileQueryAtom_plain {yOf : Name → Option Nat} {pre fq atom g} (ha : atom.Plain) (h : g.st.Plain) :
    Leaves (fun r => r.2.st) (compileQueryAtom yOf pre fq atom g) :=
  (toQuery_plain (assignSingle_plain ha) h).bind fun ⟨_, _⟩ h1 => h1

theorem compileQueryAtoms_plain {yOf : Name → Option Nat} {fq} : ∀ {atoms : List Node} {pre} {g : GenSt}, (∀ a ∈ atoms, a.Plain) → g.st.Plain →
    Leaves (fun r => r.2.st) (compileQueryAtoms yOf pre fq atoms g)
  | [], _, g, _, h => h
  | a :: as, _, g, hk, h =>
    (compileQueryAtom_plain (hk _ (by simp)) h).bind fun ⟨_, _⟩ ha => (compileQueryAtoms_plain (fun k hm => hk k (by simp [hm])) ha).bind fun ⟨_, _⟩ hb => hb

theorem compileQuery_plain {ord atoms st} (ha : ∀ a ∈ atoms, a.Plain) (h : st.Plain) : Leaves (fun r => r.2) (compileQuery ord atoms st) :=
  (compileQueryAtoms_plain ha (g := ⟨[], st⟩) h).bind fun ⟨_, _⟩ h1 => h1

theorem compileClause_plain {ord b head body st} (hh : head.Plain) (hb : ∀ a ∈ body, a.Plain) (h : st.Plain) :
    Leaves (fun r => r.2.2) (compileClause ord b head body st) := by
  unfold compileClause
  simp only
  split
  · exact h
  cases body with
  | nil => exact (toProgram_plain (assignSingle_plain hh) (g := ⟨[], st⟩) h).bind fun ⟨_, _⟩ h1 => h1
  | cons b0 bs =>
    have hp := assignPair_plain hh (hb b0 (by simp))
    exact (toProgram_plain hp.1 (g := ⟨[], st⟩) h).bind fun ⟨i, x⟩ h1 =>
      (toQuery_plain hp.2 (g := ⟨eraseStructRegs head _ x.seen, x.st⟩) h1).bind fun ⟨_, y⟩ h2 =>
        (compileQueryAtoms_plain (fun a ha => hb a (by simp [ha])) (g := ⟨dropX y.seen, y.st⟩) h2).bind fun ⟨_, _⟩ h3 => h3

theorem compileProgram_plain {ord} : ∀ {cs p st}, (∀ c ∈ cs, Clause.Plain c) → st.Plain → Leaves (fun r => r.2) (compileProgram ord cs p st)
  | [], _, _, _, h => h
  | c :: cs, _, _, hc, h =>
    (compileClause_plain (hc c (by simp)).1 (hc c (by simp)).2 h).bind fun ⟨_, _⟩ h1 => compileProgram_plain (fun c hm => hc c (by simp [hm])) h1

/-! ## The compiled atoms -/

/-- The names in a compiled atom are clean. -/
structure CAtom.Plain (c : CAtom) : Prop where
  parsed : c.parsed.Plain
  subst : ∀ v ∈ c.subst, PBfs.Plain v.name

theorem varRegs_plain {yOf : Name → Option Nat} {as : List AItem} (h : ∀ a ∈ as, PlainItem a) : ∀ v ∈ varRegs yOf as [], Plain v.name := by
  intro v hv
  obtain ⟨a, ha, hn, _⟩ := (varRegs_spec (yOf := yOf) (as := as) (hd := [])).1 v hv
  have := (h a ha).1
  rw [hn] at this
  exact this

theorem deallocAtoms_plain (n : Nat) : ∀ c ∈ deallocAtoms n, c.Plain := by
  unfold deallocAtoms
  split
  · simp
  · simp only [List.mem_singleton, forall_eq]
    exact ⟨by show PBfs.Plain _; decide, by simp [deallocAtom]⟩

theorem compileQueryAtoms_atoms {yOf : Name → Option Nat} {pre fq} : ∀ {as g cs g'}, (∀ a ∈ as, a.Plain) → compileQueryAtoms yOf pre fq as g = .ok (cs, g') →
    ∀ c ∈ cs, c.Plain := by
  intro as
  induction as generalizing pre with
  | nil => intro g cs g' _ h; simp only [compileQueryAtoms, pure_ok, Prod.mk.injEq] at h; simp [← h.1]
  | cons a as ih =>
    intro g cs g' ha h
    simp only [compileQueryAtoms, bind_ok, pure_ok, Prod.mk.injEq] at h
    obtain ⟨⟨c, g1⟩, h1, ⟨ds, g2⟩, h2, rfl, rfl⟩ := h
    simp only [compileQueryAtom, bind_ok, pure_ok, Prod.mk.injEq] at h1
    obtain ⟨⟨is, g3⟩, _, rfl, _⟩ := h1
    intro c hc
    rcases List.mem_cons.1 hc with rfl | hc
    · exact ⟨ha a (by simp), varRegs_plain (assignSingle_plain (ha a (by simp)))⟩
    · exact ih (fun a h => ha a (by simp [h])) h2 c hc

theorem compileQuery_atoms {ord atoms st q st'} (ha : ∀ a ∈ atoms, a.Plain) (h : compileQuery ord atoms st = .ok (q, st')) : ∀ c ∈ q, c.Plain := by
  simp only [compileQuery, bind_ok, pure_ok, Prod.mk.injEq] at h
  obtain ⟨⟨cs, g⟩, h1, rfl, _⟩ := h
  exact compileQueryAtoms_atoms ha h1

theorem compileClause_atoms {ord b head body st f r st'} (hh : head.Plain) (hb : ∀ a ∈ body, a.Plain) (h : compileClause ord b head body st = .ok (f, r, st')) :
    ∀ c ∈ r, c.Plain := by
  cases body with
  | nil =>
    obtain ⟨_, is, g, h1, rfl, rfl, rfl⟩ := compileClause_fact h
    intro c hc
    rcases List.mem_cons.1 hc with rfl | hc
    · exact ⟨hh, varRegs_plain (assignSingle_plain hh)⟩
    · exact deallocAtoms_plain _ c hc
  | cons b0 bs =>
    obtain ⟨_, is, g, js, g1, cs, g2, h1, h2, h3, rfl, rfl, rfl⟩ := compileClause_rule h
    have hp := assignPair_plain hh (hb b0 (by simp))
    intro c hc
    simp only [List.mem_cons, List.mem_append] at hc
    rcases hc with rfl | rfl | hc | hc
    · exact ⟨hh, varRegs_plain hp.1⟩
    · exact ⟨hb b0 (by simp), varRegs_plain hp.2⟩
    · exact compileQueryAtoms_atoms (fun a ha => hb a (by simp [ha])) h3 c hc
    · exact deallocAtoms_plain _ c hc

theorem compileProgram_atoms {ord} : ∀ {cs p st p' st'}, (∀ c ∈ cs, Clause.Plain c) → (∀ f rs, Program.rules? p f = some rs → ∀ r ∈ rs, ∀ c ∈ r, c.Plain) →
    compileProgram ord cs p st = .ok (p', st') → ∀ f rs, Program.rules? p' f = some rs → ∀ r ∈ rs, ∀ c ∈ r, c.Plain := by
  intro cs
  induction cs with
  | nil => intro p st p' st' _ hp h; simp only [compileProgram, pure_ok, Prod.mk.injEq] at h; rw [← h.1]; exact hp
  | cons c cs ih =>
    intro p st p' st' hc hp h
    simp only [compileProgram, bind_ok] at h
    obtain ⟨⟨f, r, st1⟩, h1, h2⟩ := h
    refine ih (fun c h => hc c (by simp [h])) ?_ h2
    intro g rs hg
    rw [Program.rules?_addRule] at hg
    split at hg
    · cases hg
      intro r' hr'
      simp only [List.mem_append, List.mem_singleton] at hr'
      rcases hr' with hr' | rfl
      · cases hpf : p.rules? f with
        | none => simp [hpf] at hr'
        | some qs => simp [hpf] at hr'; exact hp f qs hpf r' hr'
      · exact compileClause_atoms (hc c (by simp)).1 (hc c (by simp)).2 h1
    · exact hp g rs hg

end PBfs
