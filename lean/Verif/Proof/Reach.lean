import Verif.Proof.Store
import Verif.Spec.History
/-! # The invariant holds after every history -/
namespace PBfs

def CAtom.shapedB (a : CAtom) : Bool :=
  match a.instrs.reverse with
  | [] => false
  | c :: ds => !c.isData && ds.all (·.isData)

theorem CAtom.shaped_of_b {a : CAtom} (h : a.shapedB = true) : a.Shaped := by
  unfold shapedB at h
  split at h
  · cases h
  · rename_i c ds hr
    have : a.instrs = ds.reverse ++ [c] := by
      have := congrArg List.reverse hr
      simpa using this
    refine ⟨ds.reverse, c, this, ?_, ?_⟩
    · intro d hd
      simp only [Bool.and_eq_true, List.all_eq_true] at h
      exact h.2 d (by simpa using hd)
    · simp only [Bool.and_eq_true, Bool.not_eq_true'] at h; exact h.1

/-- All rules of a table are well shaped. -/
def Program.AllShaped (p : Program) : Prop := ∀ e ∈ p, ∀ r ∈ e.2, r ≠ [] ∧ ∀ c ∈ r, c.Shaped

theorem Program.AllShaped.shaped {p : Program} (h : p.AllShaped) : p.Shaped := by
  intro f rs hf
  unfold Program.rules? at hf
  have : (f, rs) ∈ p := by
    induction p with
    | nil => simp at hf
    | cons e p ih =>
      obtain ⟨g, qs⟩ := e
      rw [List.lookup_cons] at hf
      split at hf
      · rename_i hb
        have : f = g := by simpa using hb
        cases hf; simp [this]
      · exact List.mem_cons_of_mem _ (ih (fun e he => h e (List.mem_cons_of_mem _ he)) hf)
  exact h _ this

def Program.allShapedB (p : Program) : Bool := p.all fun e => e.2.all fun r => !r.isEmpty && r.all (·.shapedB)

theorem Program.allShaped_of_b {p : Program} (h : p.allShapedB = true) : p.AllShaped := by
  intro e he r hr
  simp only [allShapedB, List.all_eq_true, Bool.and_eq_true] at h
  have := h e he r hr
  exact ⟨by cases r <;> simp_all, fun c hc => CAtom.shaped_of_b (this.2 c hc)⟩

/-- The interpreter after its construction. -/
def Org.init0 : Org := match Org.init with
  | .ok o => o
  | .error _ => ⟨[], [], 0, ⟨[], []⟩, [], [], [], 0⟩

theorem Org.init_eq : Org.init = .ok Org.init0 := by
  have : Org.init.isOk = true := by decide +kernel
  unfold init0
  cases h : Org.init with
  | ok o => rfl
  | error => rw [h] at this; cases this

theorem Org.init0_builtins : Org.init0.builtins.allShapedB = true := by decide +kernel

/-- What holds after every history. -/
structure RInv (o : Org) : Prop where
  inv : o.Inv
  bi : o.builtins.AllShaped

theorem Org.init0_program : Org.init0.program = Org.init0.builtins := by
  have h := init_eq
  unfold Org.init at h
  simp only [bind_ok, pure_ok] at h
  obtain ⟨⟨b, st⟩, _, h⟩ := h
  rw [← h]

theorem RInv.init {o} (h : Org.init = .ok o) : RInv o := by
  rw [Org.init_eq] at h
  cases h
  have hb := Program.allShaped_of_b Org.init0_builtins
  have h2 := Org.init_eq
  unfold Org.init at h2
  simp only [bind_ok, pure_ok] at h2
  obtain ⟨⟨b, st⟩, _, h2⟩ := h2
  refine ⟨⟨?_, ?_, ?_, ?_⟩, hb⟩
  · rw [← h2]; simp
  · rw [← h2]; simp
  · rw [← h2]
    intro id e p he hp
    have : id = 0 := by
      cases id with
      | zero => rfl
      | succ n => simp at he
    subst this
    simp only [List.getElem?_cons_zero, Option.some.injEq] at he
    subst he
    cases hp
  · rw [Org.init0_program]; exact hb.shaped

theorem RInv.program {o} (h : RInv o) (ord parsed) : RInv (o.loadProgram ord parsed).1 := by
  unfold Org.loadProgram
  split
  · exact h
  · split
    · exact ⟨⟨h.inv.qrun, h.inv.qnd, h.inv.par, h.inv.prog⟩, h.bi⟩
    · rename_i p st hc
      exact ⟨⟨h.inv.qrun, h.inv.qnd, h.inv.par,
        mergeBuiltins_shaped h.bi (compileProgram_shaped .nil hc)⟩, h.bi⟩

theorem RInv.query {o} (h : RInv o) (ord parsed) : RInv (o.loadQuery ord parsed).1 := by
  unfold Org.loadQuery
  simp only
  split
  · exact ⟨⟨by simp, by simp, h.inv.par, h.inv.prog⟩, h.bi⟩
  · split
    · exact ⟨⟨by simp, by simp, h.inv.par, h.inv.prog⟩, h.bi⟩
    · rename_i q st hc
      refine ⟨⟨?_, by simp, ?_, h.inv.prog⟩, h.bi⟩
      · intro id hid
        simp only [List.mem_singleton] at hid
        subst hid
        refine ⟨Org.initExec q, rfl, rfl, ?_⟩
        intro t ht
        simp only [Org.initExec, List.mem_map] at ht
        obtain ⟨a, ha, rfl⟩ := ht
        exact compileQuery_shaped hc a ha
      · intro id e p he hp
        have : id = 0 := by
          cases id with
          | zero => rfl
          | succ n => simp at he
        subst this
        simp only [List.getElem?_cons_zero, Option.some.injEq] at he
        subst he
        cases hp

theorem turn_builtins {o o' : Org} {fuel t} (inv : o.Inv) (h : o.turn fuel = .ok (o', t)) :
    o'.builtins = o.builtins ∧ o'.program = o.program ∧ o'.st = o.st ∧ o'.gen = o.gen ∧ o'.query = o.query := by
  cases hq : o.queue with
  | nil =>
    simp only [Org.turn, hq, pure_ok, Prod.mk.injEq] at h
    rw [← h.1]; simp
  | cons id q =>
    cases Org.turn_desc inv hq h <;> simp

theorem RInv.turn {o o' : Org} {fuel t} (h : RInv o) (ht : o.turn fuel = .ok (o', t)) : RInv o' :=
  ⟨h.inv.turn ht, by rw [(turn_builtins h.inv ht).1]; exact h.bi⟩

theorem RInv.getAnswer {o o' : Org} {fuel clock r} (h : RInv o) (ha : o.getAnswer fuel clock = .ok (o', r)) :
    RInv o' := by
  induction clock generalizing o with
  | nil =>
    unfold Org.getAnswer at ha
    split at ha <;> (simp only [pure_ok, Prod.mk.injEq] at ha; rw [← ha.1]; exact h)
  | cons b clock ih =>
    unfold Org.getAnswer at ha
    split at ha
    · simp only [pure_ok, Prod.mk.injEq] at ha; rw [← ha.1]; exact h
    · cases b with
      | true => simp only [pure_ok, Prod.mk.injEq] at ha; rw [← ha.1]; exact h
      | false =>
        simp only [bind_ok] at ha
        obtain ⟨⟨o1, t⟩, h1, ha⟩ := ha
        cases t with
        | «continue» => exact ih (h.turn h1) ha
        | answer => simp only [pure_ok, Prod.mk.injEq] at ha; rw [← ha.1]; exact h.turn h1
        | error => simp only [pure_ok, Prod.mk.injEq] at ha; rw [← ha.1]; exact h.turn h1

theorem Reach.rinv {o} (h : Reach o) : RInv o := by
  induction h with
  | init h => exact .init h
  | program ord parsed _ ih => exact ih.program ord parsed
  | query ord parsed _ ih => exact ih.query ord parsed
  | answer _ ha ih => exact ih.getAnswer ha
  | @memory o _ ih =>
    refine ⟨⟨by simp [Org.clearMemory], by simp [Org.clearMemory], ?_, ?_⟩, ?_⟩
    · intro id e p he hp
      simp only [Org.clearMemory, List.getElem?_map, Option.map_eq_some_iff] at he
      obtain ⟨e0, he0, rfl⟩ := he
      have hlt := (List.getElem?_eq_some_iff.1 he0).1
      have h0 : id = 0 := by simp at hlt; omega
      subst h0
      have he1 : o.execs[0]? = some e0 := by
        rw [List.getElem?_take] at he0
        simpa using he0
      have := (ih.inv.par 0 e0 p he1 hp).1
      omega
    · exact .nil
    · intro e he; simp [Org.clearMemory] at he

end PBfs
