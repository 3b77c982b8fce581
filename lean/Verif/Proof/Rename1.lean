import Verif.Spec.Rename
import Verif.Proof.Util
/-! # Replacing names: the machine -/
namespace PBfs
variable {ρ : Name → Name}

theorem map_bind' {ε α β γ} (f : β → γ) (x : Except ε α) (k : α → Except ε β) : (x >>= k).map f = x >>= fun a => (k a).map f := by
  cases x <;> rfl

theorem bind_map' {ε α β γ} (f : α → β) (x : Except ε α) (k : β → Except ε γ) : (x.map f) >>= k = x >>= fun a => k (f a) := by
  cases x <;> rfl

theorem map_pure' {ε α β} (f : α → β) (a : α) : (pure a : Except ε α).map f = pure (f a) := rfl
theorem map_ok' {ε α β} (f : α → β) (a : α) : (Except.ok a : Except ε α).map f = .ok (f a) := rfl
theorem map_error' {ε α β} (f : α → β) (e : ε) : (Except.error e : Except ε α).map f = .error e := rfl
theorem map_ite' {ε α β} (f : α → β) (c : Prop) [Decidable c] (x y : Except ε α) : (if c then x else y).map f = if c then x.map f else y.map f := by
  split <;> rfl

def FV.rename (ρ : Name → Name) (f : FV) : FV := ⟨ρ f.name, f.arity⟩

theorem Renaming.fv (h : Renaming ρ) {f g : FV} : f.rename ρ = g.rename ρ ↔ f = g := by
  cases f; cases g
  simp only [FV.rename, FV.mk.injEq]
  exact ⟨fun ⟨a, b⟩ => ⟨h.inj _ _ a, b⟩, fun ⟨a, b⟩ => ⟨by rw [a], b⟩⟩

theorem Renaming.eq_iff (h : Renaming ρ) {a b : Name} : ρ a = ρ b ↔ a = b := ⟨h.inj a b, fun e => by rw [e]⟩

theorem Renaming.fix (h : Renaming ρ) {n : Name} (hn : n ∈ reservedNames) {a : Name} : ρ a = n ↔ a = n := by
  conv => lhs; rw [← h.fixed n hn]
  exact h.eq_iff

def Storage.rename (ρ : Name → Name) (s : Storage) : Storage := ⟨s.functors.map (FV.rename ρ), s.vars.map ρ⟩

theorem functorAt_rename (s : Storage) (i : Int) : (s.rename ρ).functorAt i = (s.functorAt i).map (FV.rename ρ) := by
  unfold Storage.functorAt Storage.rename
  split <;> simp

theorem varAt_rename (s : Storage) (i : Int) : (s.rename ρ).varAt i = (s.varAt i).map ρ := by
  unfold Storage.varAt Storage.rename
  split <;> simp

theorem orFault_map (f : α → β) (x : Option α) : orFault (x.map f) = (orFault x).map f := by cases x <;> rfl

/-- The name before the last slash, with what follows it. -/
def slashDoc (s : List Char) : Doc :=
  .cat (.name ((s.reverse.dropWhile (· ≠ '/')).drop 1).reverse) (.lit (n!"/" ++ (s.reverse.takeWhile (· ≠ '/')).reverse))

def RtErr.doc (e : RtErr) : Doc :=
  match e.kind with
  | .notInstantiated => .name e.mention
  | .notArithmetic => slashDoc e.mention
  | _ => .lit e.mention

def RtErr.rename (ρ : Name → Name) (e : RtErr) : RtErr := ⟨e.kind, e.doc.text ρ⟩

theorem digits_noSlash (n : Nat) : ∀ c ∈ natStr n, c ≠ '/' := by
  intro c hc
  have := Nat.isDigit_of_mem_toDigits (by omega) (by omega) hc
  intro e
  subst e
  revert this
  decide

theorem fv_str_rename (f : FV) : (RtErr.mk .notArithmetic f.str).rename ρ = ⟨.notArithmetic, (f.rename ρ).str⟩ := by
  have hd : ∀ c ∈ (natStr f.arity).reverse, (c ≠ '/') := fun c hc => digits_noSlash _ c (List.mem_reverse.1 hc)
  have ht : ∀ c ∈ (natStr f.arity).reverse, (decide (c ≠ '/')) = true := fun c hc => decide_eq_true (hd c hc)
  have e : f.str.reverse = (natStr f.arity).reverse ++ '/' :: f.name.reverse := by simp [FV.str]
  simp only [RtErr.rename, RtErr.doc, slashDoc, Doc.text, FV.str, FV.rename, RtErr.mk.injEq, true_and]
  rw [← FV.str, e, List.dropWhile_append_of_pos ht, List.takeWhile_append_of_pos ht]
  simp

/-! ## Machine -/

mutual
theorem Node.rename_children : ∀ n : Node, (n.rename ρ).children = Node.renames ρ n.children
  | .var _ => rfl
  | .cons _ => rfl
  | .int _ => rfl
  | .fn _ _ => by simp only [Node.rename, Node.children]
  | .efn _ _ => by simp only [Node.rename, Node.children]
end

theorem Node.renames_eq : ∀ cs : List Node, Node.renames ρ cs = cs.map (Node.rename ρ)
  | [] => by simp only [Node.renames, List.map_nil]
  | c :: cs => by simp only [Node.renames, List.map_cons, Node.renames_eq cs]

theorem Node.rename_name (h : Renaming ρ) : ∀ n : Node, (n.rename ρ).name = ρ n.name
  | .var _ => by simp only [Node.rename, Node.name]
  | .cons _ => by simp only [Node.rename, Node.name]
  | .int _ => by simp only [Node.rename, Node.name]; exact (h.fixed [] (by decide)).symm
  | .fn _ _ => by simp only [Node.rename, Node.name]
  | .efn _ _ => by simp only [Node.rename, Node.name]

theorem Node.rename_fv (h : Renaming ρ) (n : Node) : (n.rename ρ).fv = n.fv.rename ρ := by
  simp only [Node.fv, FV.rename, Node.rename_name h, Node.rename_children, Node.renames_eq, List.length_map]

def Instr.rename (ρ : Name → Name) : Instr → Instr
  | .call f => .call (f.rename ρ)
  | i => i

def VarReg.rename (ρ : Name → Name) (v : VarReg) : VarReg := { v with name := ρ v.name }

def CAtom.rename (ρ : Name → Name) (a : CAtom) : CAtom :=
  { a with instrs := a.instrs.map (Instr.rename ρ), subst := a.subst.map (VarReg.rename ρ), parsed := a.parsed.rename ρ }

def Rule.rename (ρ : Name → Name) (r : Rule) : Rule := r.map (CAtom.rename ρ)

def Program.rename (ρ : Name → Name) (p : Program) : Program := p.map fun e => (e.1.rename ρ, e.2.map (Rule.rename ρ))

def TCode.rename (ρ : Name → Name) (t : TCode) : TCode := ⟨t.gen, t.atom.rename ρ⟩

def Exec.rename (ρ : Name → Name) (e : Exec) : Exec := { e with codes := e.codes.map (TCode.rename ρ), err := e.err.map (RtErr.rename ρ) }

theorem Exec.setReg_rename (e : Exec) (x c) : (e.rename ρ).setReg x c = (e.setReg x c).map (Exec.rename ρ) := by
  unfold Exec.setReg; split <;> rename_i h
  · rw [if_pos (show x < e.regs.length from h)]; rfl
  · rw [if_neg (show ¬ x < e.regs.length from h)]; rfl

theorem Exec.setPerm_rename (e : Exec) (x c) : (e.rename ρ).setPerm x c = (e.setPerm x c).map (Exec.rename ρ) := by
  unfold Exec.setPerm
  show (match e.envs with | [] => _ | env :: rest => _) = _
  cases e.envs with
  | nil => rfl
  | cons env rest => simp only []; split <;> rfl

section
variable (pre : Nat → Option Cell)

theorem Exec.unify_rename (fuel) (e : Exec) (a b) : (e.rename ρ).unify pre fuel a b = (e.unify pre fuel a b).map (Exec.rename ρ) := by
  unfold Exec.unify
  rw [map_bind']
  rfl

theorem getStructure_rename (c x) (e : Exec) : getStructure pre c x (e.rename ρ) = (getStructure pre c x e).map (Exec.rename ρ) := by
  unfold getStructure
  show (e.reg x >>= fun r => r.addr >>= fun a => e.deref pre a >>= fun d => e.heapAt pre d >>= fun cell => _) = _
  rw [map_bind']; congr 1; funext r
  rw [map_bind']; congr 1; funext a
  rw [map_bind']; congr 1; funext d
  rw [map_bind']; congr 1; funext cell
  simp only [map_ite', map_bind', map_pure']
  rfl

theorem unifyStructure_rename (c x) (e : Exec) : unifyStructure pre c x (e.rename ρ) = (unifyStructure pre c x e).map (Exec.rename ρ) := by
  unfold unifyStructure
  show (match e.mode with | .read => _ | .write => _) = _
  cases e.mode with
  | read =>
    show (e.deref pre e.s >>= fun d => e.heapAt pre d >>= fun cell => _) = _
    rw [map_bind']; congr 1; funext d
    rw [map_bind']; congr 1; funext cell
    simp only []
    split
    · simp only [map_bind', map_pure', bind_assoc]; rfl
    · split <;> rfl
  | write =>
    simp only []
    rw [map_bind']
    show ((e.push c).rename ρ).setReg _ _ >>= _ = _
    rw [Exec.setReg_rename, bind_map']
    rfl

theorem pushValue_rename (r) (e : Exec) : pushValue pre r (e.rename ρ) = (pushValue pre r e).map (Exec.rename ρ) := by
  unfold pushValue
  show (r.addr >>= fun a => e.deref pre a >>= fun d => e.heapAt pre d >>= fun cell => _) = _
  rw [map_bind']; congr 1; funext a
  rw [map_bind']; congr 1; funext d
  rw [map_bind']; congr 1; funext cell
  cases cell <;> rfl

theorem unifyVal_rename (fuel r) (e : Exec) : unifyVal pre fuel r (e.rename ρ) = (unifyVal pre fuel r e).map (Exec.rename ρ) := by
  have hs : (e.rename ρ).s = e.s := rfl
  have hm : (e.rename ρ).mode = e.mode := rfl
  unfold unifyVal
  rw [hm, hs]
  cases e.mode
  · simp only [bind_assoc, map_bind', map_pure', Exec.unify_rename, bind_map']; rfl
  · simp only [map_bind', map_pure', pushValue_rename, bind_map']; rfl

theorem equalsCheck_rename (fuel l r) (e : Exec) : equalsCheck pre fuel l r (e.rename ρ) = (equalsCheck pre fuel l r e).map (Exec.rename ρ) := by
  unfold equalsCheck
  simp only [map_bind', map_pure']
  show (e.reg l >>= fun cl => cl.addr >>= fun a => e.reg r >>= fun cr => cr.addr >>= fun b => heapRegEquals pre e.hp fuel a b >>= fun q => _) = _
  congr 1; funext cl
  congr 1; funext a
  congr 1; funext cr
  congr 1; funext b
  congr 1; funext q
  cases q <;> rfl

theorem notEqualsCheck_rename (fuel l r) (e : Exec) : notEqualsCheck pre fuel l r (e.rename ρ) = (notEqualsCheck pre fuel l r e).map (Exec.rename ρ) := by
  unfold notEqualsCheck
  rw [equalsCheck_rename, bind_map', map_bind']
  congr 1; funext e'
  show pure (if e'.failed = true then _ else _) = _
  rw [map_pure']
  split <;> rfl

theorem checkEvaluable_rename (st : Storage) (h : Hp) (c : Cell) :
    checkEvaluable pre (st.rename ρ) h c = (checkEvaluable pre st h c).map (·.map (RtErr.rename ρ)) := by
  have hf : ∀ i, functorOfAddr pre (st.rename ρ) h i = (functorOfAddr pre st h i).map (FV.rename ρ) := by
    intro i
    unfold functorOfAddr
    rw [map_bind']
    congr 1; funext cell
    rw [functorAt_rename, orFault_map]
  unfold checkEvaluable
  cases c with
  | fn f _ => simp only [hf, bind_map', map_bind', map_pure', Option.map_some, fv_str_rename]
  | cons i => simp only [hf, bind_map', map_bind', map_pure', Option.map_some, fv_str_rename]
  | ref _ v => simp only [varAt_rename, orFault_map, bind_map', map_bind', map_pure', Option.map_some]; rfl
  | _ => rfl

theorem evalArith_rename (st : Storage) (h : Hp) : ∀ n a, evalArith pre (st.rename ρ) h n a =
    (evalArith pre st h n a).map (Sum.map (RtErr.rename ρ) id) := by
  intro n
  induction n with
  | zero => intro a; rfl
  | succ n ih =>
    intro a
    unfold evalArith
    rw [map_bind']; congr 1; funext d
    rw [map_bind']; congr 1; funext c
    rw [checkEvaluable_rename, bind_map', map_bind']; congr 1; funext err
    cases err with
    | some e => rfl
    | none =>
      cases c with
      | efn f k =>
        simp only [Option.map_none]
        rw [ih, bind_map', map_bind']; congr 1; funext l
        cases l with
        | inl e => rfl
        | inr l =>
          simp only [Sum.map_inr, id]
          rw [ih, bind_map', map_bind']; congr 1; funext r
          cases r with
          | inl e => rfl
          | inr r =>
            simp only [Sum.map_inr, id]
            split
            · rfl
            · rw [map_bind']; rfl
      | _ => rfl

theorem isPred_rename (fuel st l r) (e : Exec) : isPred pre fuel (st.rename ρ) l r (e.rename ρ) = (isPred pre fuel st l r e).map (Exec.rename ρ) := by
  unfold isPred
  show (e.reg r >>= fun cr => cr.addr >>= fun b => evalArith pre (st.rename ρ) e.hp fuel b >>= fun v => _) = _
  rw [map_bind']; congr 1; funext cr
  rw [map_bind']; congr 1; funext b
  rw [evalArith_rename, bind_map', map_bind']; congr 1; funext v
  cases v with
  | inl err => rfl
  | inr v =>
    simp only [Sum.map_inr, id]
    show (e.reg l >>= fun cl => cl.addr >>= fun a => e.deref pre a >>= fun d => e.heapAt pre d >>= fun cell => _) = _
    rw [map_bind']; congr 1; funext cl
    rw [map_bind']; congr 1; funext a
    rw [map_bind']; congr 1; funext d
    rw [map_bind']; congr 1; funext cell
    cases cell with
    | int w => simp only []; rw [map_pure']; split <;> rfl
    | ref _ _ =>
      simp only [map_ite', map_bind', map_pure']
      rfl
    | _ => rfl

theorem stepData_rename (fuel st) (i : Instr) (e : Exec) :
    stepData pre fuel (st.rename ρ) (i.rename ρ) (e.rename ρ) = (stepData pre fuel st i e).map (Exec.rename ρ) := by
  have hpush : ∀ (e : Exec) v, (e.rename ρ).pushRef v = (e.pushRef v).rename ρ := fun _ _ => rfl
  have hnew : ∀ (e : Exec) v, (e.rename ρ).newRef v = e.newRef v := fun _ _ => rfl
  have hreg : ∀ (e : Exec) x, (e.rename ρ).reg x = e.reg x := fun _ _ => rfl
  have hperm : ∀ (e : Exec) x, (e.rename ρ).perm x = e.perm x := fun _ _ => rfl
  have hs : (e.rename ρ).s = e.s := rfl
  have hm : (e.rename ρ).mode = e.mode := rfl
  cases i with
  | putStructure c x => show ((e.push c).rename ρ).setReg _ _ = _; rw [Exec.setReg_rename]; rfl
  | setVariable x v => simp only [stepData, Instr.rename, hpush, hnew, Exec.setReg_rename]
  | setPermVariable x v => simp only [stepData, Instr.rename, hpush, hnew, Exec.setPerm_rename]
  | setValue x => simp only [stepData, Instr.rename, hreg, map_bind', map_pure']; rfl
  | setPermValue x => simp only [stepData, Instr.rename, hperm, map_bind', map_pure']; rfl
  | getStructure c x => exact getStructure_rename pre c x e
  | unifyStructure c x => exact unifyStructure_rename pre c x e
  | unifyVariable x v =>
    simp only [stepData, Instr.rename, hm, hs, hpush, hnew, Exec.setReg_rename]
    cases e.mode <;> simp only [bind_map', map_bind', map_pure'] <;> rfl
  | unifyPermVariable x v =>
    simp only [stepData, Instr.rename, hm, hs, hpush, hnew, Exec.setPerm_rename]
    cases e.mode <;> simp only [bind_map', map_bind', map_pure'] <;> rfl
  | unifyValue x => simp only [stepData, Instr.rename, hreg, map_bind', unifyVal_rename]
  | unifyPermValue x => simp only [stepData, Instr.rename, hperm, map_bind', unifyVal_rename]
  | putVariable x a v => simp only [stepData, Instr.rename, hpush, hnew, Exec.setReg_rename, bind_map', map_bind']
  | putPermVariable x a v => simp only [stepData, Instr.rename, hpush, hnew, Exec.setReg_rename, Exec.setPerm_rename, bind_map', map_bind']
  | putValue x a => simp only [stepData, Instr.rename, hreg, map_bind', Exec.setReg_rename]
  | putPermValue x a => simp only [stepData, Instr.rename, hperm, map_bind', Exec.setReg_rename]
  | getVariable x a => simp only [stepData, Instr.rename, hreg, map_bind', Exec.setReg_rename]
  | getPermVariable x a => simp only [stepData, Instr.rename, hreg, map_bind', Exec.setPerm_rename]
  | getValue x a => simp only [stepData, Instr.rename, hreg, map_bind', Exec.unify_rename]
  | getPermValue x a => simp only [stepData, Instr.rename, hreg, hperm, map_bind', Exec.unify_rename]
  | builtin b l r =>
    cases b with
    | is => exact isPred_rename pre fuel st l r e
    | eq => exact equalsCheck_rename pre fuel l r e
    | neq => exact notEqualsCheck_rename pre fuel l r e
  | call f => rfl
  | proceed => rfl
  | allocate n => rfl
  | deallocate => rfl

end
end PBfs
