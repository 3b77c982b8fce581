import Verif.Proof.Twin2
import Verif.Model.Organizer
/-! # Related interpreters: one turn of the main loop -/
namespace PBfs

/-- Registers of the same variable. -/
def SubRel (cur : Option YFrame) (v v' : VarReg) : Prop :=
  v.name = v'.name ∧ v.perm = v'.perm ∧ (v.perm = true → ∃ fr, cur = some fr ∧ YRel fr v.reg v'.reg) ∧ (v.perm = false → v.reg = v'.reg)

/-- The instructions of an atom: frames before and after. -/
inductive ILRel (M : Cmp) (st st' : Storage) : List YFrame → List Instr → List Instr → List YFrame → Prop
  | data {frs i i' is is' out} : DRel M st st' frs.head? i i' → ILRel M st st' frs is is' out → ILRel M st st' frs (i :: is) (i' :: is') out
  | alloc {frs is is' out} (fr : YFrame) : ILRel M st st' (fr :: frs) is is' out →
      ILRel M st st' frs (.allocate fr.ys.length :: is) (.allocate fr.ys'.length :: is') out
  | call {frs} (f) : M.calls f → ILRel M st st' frs [.call f] [.call f] frs
  | proceed {frs} : ILRel M st st' frs [.proceed] [.proceed] frs
  | dealloc {fr frs} : ILRel M st st' (fr :: frs) [.deallocate] [.deallocate] frs

structure AtomRel (M : Cmp) (st st' : Storage) (frs : List YFrame) (a a' : CAtom) (out : List YFrame) : Prop where
  regs : a.regCount = a'.regCount
  instrs : ILRel M st st' frs a.instrs a'.instrs out
  fromQuery : a.fromQuery = a'.fromQuery
  subst : List.Forall₂ (SubRel out.head?) a.subst a'.subst

/-- Pointers into programs: both current or both outdated. -/
structure GenRel (g g' t t' : Nat) : Prop where
  zero : t = 0 ↔ t' = 0
  now : t = g ↔ t' = g'
  le : t ≤ g
  le' : t' ≤ g'

inductive ChainRel (M : Cmp) (st st' : Storage) : List YFrame → Rule → Rule → List YFrame → Prop
  | nil (frs) : ChainRel M st st' frs [] [] frs
  | cons {frs mid out a a' r r'} : AtomRel M st st' frs a a' mid → ChainRel M st st' mid r r' out → ChainRel M st st' frs (a :: r) (a' :: r') out

def RuleRel (M : Cmp) (st st' : Storage) (r r' : Rule) : Prop := ∀ frs, ChainRel M st st' frs r r' frs

inductive CodesRel (M : Cmp) (st st' : Storage) (g g' : Nat) : List YFrame → List TCode → List TCode → Prop
  | nil (frs) : CodesRel M st st' g g' frs [] []
  | cons {frs out t t' cs cs'} : GenRel g g' t.gen t'.gen → AtomRel M st st' frs t.atom t'.atom out → CodesRel M st st' g g' out cs cs' →
      CodesRel M st st' g g' frs (t :: cs) (t' :: cs')

def PRel (M : Cmp) (st st' : Storage) (p p' : Program) : Prop :=
  ∀ f, M.calls f → ORel (List.Forall₂ (RuleRel M st st')) (p.rules? f) (p'.rules? f)

/-- What all executors have in common. -/
structure XBase (M : Cmp) (st st' : Storage) (e e' : Exec) : Prop where
  parent : e.parent = e'.parent
  hp : HpRel M st st' e.hp e'.hp
  children : e.children = e'.children
  state : e.state = e'.state
  err : ORel (ErrRel M) e.err e'.err

/-- An executor that may be run. -/
def Alive (M : Cmp) (st st' : Storage) (g g' : Nat) (e e' : Exec) : Prop :=
  ∃ frs, ERel M st st' frs e.codes e'.codes e e' ∧ CodesRel M st st' g g' frs e.codes e'.codes

/-- An executor that is kept because of its children: its registers are still looked at. -/
structure Arch (M : Cmp) (st st' : Storage) (g g' : Nat) (e e' : Exec) : Prop where
  regs : List.Forall₂ (CellRel M st st') e.regs e'.regs
  codes : ∃ t t' cur, e.codes = [t] ∧ e'.codes = [t'] ∧ GenRel g g' t.gen t'.gen ∧ t.atom.fromQuery = t'.atom.fromQuery ∧
    List.Forall₂ (SubRel cur) t.atom.subst t'.atom.subst ∧ EnvsRel M st st' cur.toList e.envs e'.envs

/-- Everything about one executor. -/
structure XRel (M : Cmp) (st st' : Storage) (g g' : Nat) (q : List Nat) (execs : List Exec) (id : Nat) (e e' : Exec) : Prop where
  base : XBase M st st' e e'
  arch : e.state = .archived → Arch M st st' g g' e e'
  alive : id ∈ q → e.state = .running ∧ Alive M st st' g g' e e'
  parents : ∀ p, e.parent = some p → p < id ∧ ∃ a, execs[p]? = some a ∧ a.state = .archived

structure OBase (M : Cmp) (o o' : Org) : Prop where
  twin : Twin M o.st o'.st
  prog : PRel M o.st o'.st o.program o'.program
  gen : o.gen ≠ 0
  gen' : o'.gen ≠ 0
  calls : o.calls = o'.calls
  queue : o.queue = o'.queue
  nodup : o.queue.Nodup
  lt : ∀ id ∈ o.queue, id < o.execs.length
  len : o.execs.length = o'.execs.length

/-- All executors except (maybe) one. -/
def Others (M : Cmp) (o o' : Org) (but : Nat → Prop) : Prop :=
  ∀ id, ¬ but id → ∀ e e', o.execs[id]? = some e → o'.execs[id]? = some e' → XRel M o.st o'.st o.gen o'.gen o.queue o.execs id e e'

structure OrgX (M : Cmp) (o o' : Org) : Prop extends OBase M o o' where
  execs : Others M o o' fun _ => False

section
variable {M : Cmp} {st st' : Storage}

theorem ChainRel.codes {g g' k k' frs out} {r r' : Rule} {cs cs'} (h : ChainRel M st st' frs r r' out) (hg : GenRel g g' k k')
    (hc : CodesRel M st st' g g' out cs cs') : CodesRel M st st' g g' frs (r.map (⟨k, ·⟩) ++ cs) (r'.map (⟨k', ·⟩) ++ cs') := by
  induction h with
  | nil => exact hc
  | cons ha _ ih => exact .cons hg ha (ih hc)

theorem heapAt_rel {execs execs' : List Exec} {b : Nat} (hlen : execs.length = execs'.length)
    (h : ∀ j e e', j < b → execs[j]? = some e → execs'[j]? = some e' → e.parent = e'.parent ∧ HpRel M st st' e.hp e'.hp ∧ ∀ p, e.parent = some p → p < j) :
    ∀ n p, p < b → PreRel M st st' (heapAtF execs n p) (heapAtF execs' n p) := by
  intro n
  induction n with
  | zero => intro p _ a; trivial
  | succ n ih =>
    intro p hp a
    unfold heapAtF
    by_cases hl : p < execs.length
    · rw [List.getElem?_eq_getElem hl, List.getElem?_eq_getElem (hlen ▸ hl)]
      obtain ⟨h1, h2, h3⟩ := h p _ _ hp (List.getElem?_eq_getElem hl) (List.getElem?_eq_getElem (hlen ▸ hl))
      simp only
      rw [← h1]
      refine h2.at? ?_ a
      cases hpar : execs[p].parent with
      | none => intro a; trivial
      | some q => exact ih q (by have := h3 q hpar; omega)
    · rw [List.getElem?_eq_none (by omega), List.getElem?_eq_none (by omega)]
      trivial

/-- The heap below an executor. -/
theorem preOf_rel {o o' : Org} {id} (hb : OBase M o o') (ho : Others M o o' (· = id)) {e e' : Exec} (hpar : e.parent = e'.parent)
    (hlt : ∀ p, e.parent = some p → p < id) : PreRel M o.st o'.st (preOf o.execs e) (preOf o'.execs e') := by
  unfold preOf
  rw [← hpar]
  cases hp : e.parent with
  | none => intro a; trivial
  | some p =>
    refine heapAt_rel (b := id) hb.len ?_ _ _ (hlt p hp)
    intro j a a' hj ha ha'
    have := ho j (by omega) a a' ha ha'
    exact ⟨this.base.parent, this.base.hp, fun p hp => (this.parents p hp).1⟩

theorem GenRel.stale {o o' : Org} {t t' : TCode} (h : GenRel o.gen o'.gen t.gen t'.gen) : o.stale t = o'.stale t' := by
  unfold Org.stale
  have h1 := h.zero
  have h2 := h.now
  by_cases a : t.gen = 0 <;> by_cases b : t.gen = o.gen <;> simp [a, b, ← h1, ← h2]

theorem code_sim {o o' : Org} {t t' : TCode} {frs out} (h : GenRel o.gen o'.gen t.gen t'.gen) (ha : AtomRel M st st' frs t.atom t'.atom out) :
    Sim M (fun a a' => AtomRel M st st' frs a a' out) (o.code t) (o'.code t') := by
  unfold Org.code
  rw [← h.stale]
  split
  · exact .err _
  · exact ha

theorem ILRel.len {frs is is' out} (h : ILRel M st st' frs is is' out) : is.length = is'.length := by
  induction h with
  | data _ _ ih => simp [ih]
  | alloc _ _ ih => simp [ih]
  | _ => rfl

theorem allDealloc_sim {o o' : Org} {frs cs cs'} (h : CodesRel M st st' o.gen o'.gen frs cs cs') : Sim M Eq (o.allDealloc cs) (o'.allDealloc cs') := by
  induction h with
  | nil => exact rfl
  | cons hg ha _ ih =>
    unfold Org.allDealloc
    refine (code_sim hg ha).bind fun a a' h1 => ?_
    unfold CAtom.isDealloc
    rw [h1.instrs.len]
    split
    · exact ih
    · exact rfl

end
end PBfs
