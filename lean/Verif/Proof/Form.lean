import Verif.Proof.Reach
import Verif.Proof.Load
/-! # The code of goals, heads and clauses -/
namespace PBfs

/-- Instructions that occur in the code of a goal of a clause with `n` permanent variables. -/
def Instr.put (n : Nat) : Instr → Bool
  | .putStructure .. | .setVariable .. | .setValue .. | .putVariable .. | .putValue .. => true
  | .setPermVariable y _ | .setPermValue y | .putPermVariable y _ _ | .putPermValue y _ => y < n
  | _ => false

/-- Instructions that occur in the code of a head. -/
def Instr.get (n : Nat) : Instr → Bool
  | .getStructure .. | .unifyStructure .. | .unifyVariable .. | .unifyValue .. | .getVariable .. | .getValue .. | .builtin .. => true
  | .unifyPermVariable y _ | .unifyPermValue y | .getPermVariable y _ | .getPermValue y _ => y < n
  | _ => false

theorem Instr.put_data {n i} (h : Instr.put n i = true) : i.isData = true := by
  cases i <;> first | rfl | cases h
theorem Instr.get_data {n i} (h : Instr.get n i = true) : i.isData = true := by
  cases i <;> first | rfl | cases h

section
variable {yOf : Name → Option Nat} {n : Nat} (hy : ∀ v y, yOf v = some y → y < n)
include hy

theorem queryKid_put {c x g i g'} (h : queryKid yOf c x g = .ok (i, g')) : i.put n = true := by
  have xc : ∀ {w : Name}, (if g.has (.x x) then pure (.setValue x, g)
      else
        let g := g.mark (.x x)
        let (v, st) := g.st.pushBackVar w
        pure (.setVariable x v, { g with st := st }) : CR (Instr × GenSt)) = .ok (i, g') →
      i.put n = true := by
    intro w h
    split at h
    · simp only [pure_ok, Prod.mk.injEq] at h; rw [← h.1]; rfl
    · simp only [pure_ok, Prod.mk.injEq] at h; rw [← h.1]; rfl
  unfold queryKid at h
  cases c with
  | int =>
    simp only [bind_ok, pure_ok, Prod.mk.injEq] at h
    obtain ⟨_, _, rfl, _⟩ := h; rfl
  | cons =>
    simp only [bind_ok, pure_ok, Prod.mk.injEq] at h
    obtain ⟨_, _, rfl, _⟩ := h; rfl
  | var v =>
    simp only at h
    split at h
    · rename_i y hv
      split at h
      · simp only [pure_ok, Prod.mk.injEq] at h; rw [← h.1]; simpa [Instr.put] using hy _ _ hv
      · simp only [pure_ok, Prod.mk.injEq] at h; rw [← h.1]; simpa [Instr.put] using hy _ _ hv
    · exact xc h
  | fn => exact xc h
  | efn => exact xc h

theorem queryKids_put {ks g is g'} (h : queryKids yOf ks g = .ok (is, g')) : ∀ i ∈ is, i.put n = true := by
  induction ks generalizing g is g' with
  | nil => simp only [queryKids, pure_ok, Prod.mk.injEq] at h; rw [← h.1]; simp
  | cons k ks ih =>
    obtain ⟨c, x⟩ := k
    simp only [queryKids, bind_ok, pure_ok, Prod.mk.injEq] at h
    obtain ⟨⟨i, g1⟩, h1, ⟨is', g2⟩, h2, rfl, _⟩ := h
    intro j hj
    simp only [List.mem_cons] at hj
    rcases hj with rfl | hj
    · exact queryKid_put hy h1
    · exact ih h2 j hj

theorem queryItem_put {xOf a g is g'} (h : queryItem yOf xOf a g = .ok (is, g')) : ∀ i ∈ is, i.put n = true := by
  unfold queryItem at h
  split at h
  · split at h
    · rename_i y hv
      split at h <;> (simp only [pure_ok, Prod.mk.injEq] at h; rw [← h.1]; simpa [Instr.put] using hy _ _ hv)
    · split at h <;> (simp only [pure_ok, Prod.mk.injEq] at h; rw [← h.1]; simp [Instr.put])
  · simp only at h
    split at h
    · simp only [bind_ok, pure_ok, Prod.mk.injEq] at h
      obtain ⟨⟨c, g1⟩, _, ⟨is', g2⟩, h2, rfl, _⟩ := h
      intro j hj
      simp only [List.mem_cons] at hj
      rcases hj with rfl | hj
      · rfl
      · exact queryKids_put hy h2 j hj
    · cases h
  · simp only [bind_ok, pure_ok, Prod.mk.injEq] at h
    obtain ⟨⟨c, g1⟩, _, ⟨is', g2⟩, h2, rfl, _⟩ := h
    intro j hj
    simp only [List.mem_cons] at hj
    rcases hj with rfl | hj
    · rfl
    · exact queryKids_put hy h2 j hj

theorem queryItems_put {xOf as g is g'} (h : queryItems yOf xOf as g = .ok (is, g')) : ∀ i ∈ is, i.put n = true := by
  induction as generalizing g is g' with
  | nil => simp only [queryItems, pure_ok, Prod.mk.injEq] at h; rw [← h.1]; simp
  | cons a as ih =>
    simp only [queryItems, bind_ok, pure_ok, Prod.mk.injEq] at h
    obtain ⟨⟨is1, g1⟩, h1, ⟨is2, g2⟩, h2, rfl, _⟩ := h
    intro j hj
    simp only [List.mem_append] at hj
    rcases hj with hj | hj
    · exact queryItem_put hy h1 j hj
    · exact ih h2 j hj

theorem programKid_get {c x g i g'} (h : programKid yOf c x g = .ok (i, g')) : i.get n = true := by
  unfold programKid at h
  cases c with
  | int =>
    simp only [bind_ok, pure_ok, Prod.mk.injEq] at h
    obtain ⟨_, _, rfl, _⟩ := h; rfl
  | cons =>
    simp only [bind_ok, pure_ok, Prod.mk.injEq] at h
    obtain ⟨_, _, rfl, _⟩ := h; rfl
  | var v =>
    simp only at h
    split at h
    · split at h
      · rename_i y hv
        simp only [pure_ok, Prod.mk.injEq] at h; rw [← h.1]; simpa [Instr.get] using hy _ _ hv
      · simp only [pure_ok, Prod.mk.injEq] at h; rw [← h.1]; rfl
    · split at h
      · rename_i y hv
        simp only [pure_ok, Prod.mk.injEq] at h; rw [← h.1]; simpa [Instr.get] using hy _ _ hv
      · simp only [pure_ok, Prod.mk.injEq] at h; rw [← h.1]; rfl
  | fn =>
    simp only at h
    split at h <;> (simp only [pure_ok, Prod.mk.injEq] at h; rw [← h.1]; rfl)
  | efn =>
    simp only at h
    split at h <;> (simp only [pure_ok, Prod.mk.injEq] at h; rw [← h.1]; rfl)

theorem programKids_get {ks g is g'} (h : programKids yOf ks g = .ok (is, g')) : ∀ i ∈ is, i.get n = true := by
  induction ks generalizing g is g' with
  | nil => simp only [programKids, pure_ok, Prod.mk.injEq] at h; rw [← h.1]; simp
  | cons k ks ih =>
    obtain ⟨c, x⟩ := k
    simp only [programKids, bind_ok, pure_ok, Prod.mk.injEq] at h
    obtain ⟨⟨i, g1⟩, h1, ⟨is', g2⟩, h2, rfl, _⟩ := h
    intro j hj
    simp only [List.mem_cons] at hj
    rcases hj with rfl | hj
    · exact programKid_get hy h1
    · exact ih h2 j hj

theorem programItem_get {a g is g'} (h : programItem yOf a g = .ok (is, g')) : ∀ i ∈ is, i.get n = true := by
  unfold programItem at h
  split at h
  · split at h
    · split at h
      · rename_i y hv
        simp only [pure_ok, Prod.mk.injEq] at h; rw [← h.1]; simpa [Instr.get] using hy _ _ hv
      · simp only [pure_ok, Prod.mk.injEq] at h; rw [← h.1]; simp [Instr.get]
    · simp only at h
      split at h
      · rename_i y hv
        simp only [pure_ok, Prod.mk.injEq] at h; rw [← h.1]; simpa [Instr.get] using hy _ _ hv
      · simp only [pure_ok, Prod.mk.injEq] at h; rw [← h.1]; simp [Instr.get]
  · simp only [bind_ok, pure_ok, Prod.mk.injEq] at h
    obtain ⟨⟨c, g1⟩, _, ⟨is', g2⟩, h2, rfl, _⟩ := h
    intro j hj
    simp only [List.mem_cons] at hj
    rcases hj with rfl | hj
    · rfl
    · exact programKids_get hy h2 j hj

theorem programItems_get {as g is g'} (h : programItems yOf as g = .ok (is, g')) : ∀ i ∈ is, i.get n = true := by
  induction as generalizing g is g' with
  | nil => simp only [programItems, pure_ok, Prod.mk.injEq] at h; rw [← h.1]; simp
  | cons a as ih =>
    simp only [programItems, bind_ok, pure_ok, Prod.mk.injEq] at h
    obtain ⟨⟨is1, g1⟩, h1, ⟨is2, g2⟩, h2, rfl, _⟩ := h
    intro j hj
    simp only [List.mem_append] at hj
    rcases hj with hj | hj
    · exact programItem_get hy h1 j hj
    · exact ih h2 j hj

end

/-- The code of a goal of a clause with `n` permanent variables. -/
def GoalForm (n : Nat) (a : CAtom) : Prop :=
  ∃ ds, a.instrs = ds ++ [.call a.parsed.fv] ∧ (∀ d ∈ ds, d.put n = true) ∧ (a.parsed.goal = true → ds ≠ [])

/-- The code of a head. -/
def HeadForm (n : Nat) (a : CAtom) : Prop :=
  ∃ ds, a.instrs = allocInstrs n ++ (ds ++ [.proceed]) ∧ (∀ d ∈ ds, d.get n = true) ∧ (a.parsed.goal = true → ds ≠ [])

/-- The code of a clause with the given head and body. -/
def RuleForm (head : Node) (body : List Node) (r : Rule) : Prop :=
  ∃ (n : Nat) (h : CAtom) (gs : List CAtom), r = h :: (gs ++ deallocAtoms n) ∧ HeadForm n h ∧ (∀ g ∈ gs, GoalForm n g) ∧
    h.parsed = head ∧ gs.map (·.parsed) = body

/-- The code of a query: the environment is allocated by the first goal. -/
def QueryForm (atoms : List Node) (r : Rule) : Prop :=
  r.map (·.parsed) = atoms ∧ (∀ g ∈ r, g.fromQuery = true) ∧ (r = [] ∨ ∃ (n : Nat) (g : CAtom) (gs : List CAtom), r = g :: gs ∧
    (∃ ds, g.instrs = allocInstrs n ++ (ds ++ [.call g.parsed.fv]) ∧ (∀ d ∈ ds, d.put n = true) ∧ (g.parsed.goal = true → ds ≠ [])) ∧
    ∀ g ∈ gs, GoalForm n g)

theorem indexOf?_lt {n : Name} : ∀ {l : List Name} {i}, indexOf? n l = some i → i < l.length
  | [], i, h => by cases h
  | m :: l, i, h => by
    unfold indexOf? at h
    split at h
    · cases h; simp
    · cases hi : indexOf? n l with
      | none => rw [hi] at h; cases h
      | some j =>
        rw [hi] at h
        cases h
        have := indexOf?_lt hi
        simp; omega

theorem flattenQuery_ne {atom ais} (hg : atom.goal = true) (N : Nodes atom ais) : flattenQuery (atomArgs atom).length ais ≠ [] := by
  have h := flattenProgram_ne hg N
  obtain ⟨a, ha⟩ := List.exists_mem_of_ne_nil _ h
  have := mem_flattenQuery.2 (List.mem_filter.1 ha)
  intro h; rw [h] at this; simp at this

theorem toQuery_put {yOf xOf atom ais g is g'} {n : Nat} (hy : ∀ v y, yOf v = some y → y < n) (N : Nodes atom ais)
    (h : toQuery yOf xOf atom ais g = .ok (is, g')) :
    ∃ ds, is = ds ++ [.call atom.fv] ∧ (∀ d ∈ ds, d.put n = true) ∧ (atom.goal = true → ds ≠ []) := by
  simp only [toQuery, bind_ok, pure_ok, Prod.mk.injEq] at h
  obtain ⟨⟨js, g1⟩, h1, rfl, _⟩ := h
  exact ⟨js, rfl, queryItems_put hy h1, fun hg => (queryItems_data h1).2 (flattenQuery_ne hg N)⟩

theorem toProgram_get {yOf atom ais g is g'} {n : Nat} (hy : ∀ v y, yOf v = some y → y < n) (N : Nodes atom ais)
    (h : toProgram yOf atom ais g = .ok (is, g')) :
    ∃ ds, is = ds ++ [.proceed] ∧ (∀ d ∈ ds, d.get n = true) ∧ (atom.goal = true → ds ≠ []) := by
  simp only [toProgram, bind_ok, pure_ok, Prod.mk.injEq] at h
  obtain ⟨⟨js, g1⟩, h1, rfl, _⟩ := h
  exact ⟨js, rfl, programItems_get hy h1, fun hg => (programItems_data h1).2 (flattenProgram_ne hg N)⟩

theorem compileQueryAtoms_form {yOf fq atoms g cs g'} {n : Nat} (hy : ∀ v y, yOf v = some y → y < n)
    (h : compileQueryAtoms yOf [] fq atoms g = .ok (cs, g')) :
    (∀ c ∈ cs, GoalForm n c ∧ c.fromQuery = fq) ∧ cs.map (·.parsed) = atoms := by
  induction atoms generalizing g cs g' with
  | nil => simp only [compileQueryAtoms, pure_ok, Prod.mk.injEq] at h; rw [← h.1]; simp
  | cons a as ih =>
    simp only [compileQueryAtoms, compileQueryAtom, bind_ok, pure_ok, Prod.mk.injEq] at h
    obtain ⟨⟨c, g1⟩, ⟨⟨is, g0⟩, h1, h1'⟩, ⟨cs', g2⟩, h2, rfl, _⟩ := h
    simp only [Prod.mk.injEq] at h1'
    obtain ⟨rfl, _⟩ := h1'
    obtain ⟨i1, i2⟩ := ih h2
    obtain ⟨ds, k1, k2, k3⟩ := toQuery_put hy (assignSingle_nodes a) h1
    refine ⟨?_, by simp [i2]⟩
    intro c' hc'
    simp only [List.mem_cons] at hc'
    rcases hc' with rfl | hc'
    · exact ⟨⟨ds, k1, k2, k3⟩, rfl⟩
    · exact i1 c' hc'

theorem compileQuery_form {ord atoms st q st'} (h : compileQuery ord atoms st = .ok (q, st')) : QueryForm atoms q := by
  simp only [compileQuery, bind_ok, pure_ok, Prod.mk.injEq] at h
  obtain ⟨⟨cs, g⟩, h1, rfl, _⟩ := h
  cases atoms with
  | nil => simp only [compileQueryAtoms, pure_ok, Prod.mk.injEq] at h1; rw [← h1.1]; exact ⟨rfl, by simp, .inl rfl⟩
  | cons a as =>
    simp only [compileQueryAtoms, compileQueryAtom, bind_ok, pure_ok, Prod.mk.injEq] at h1
    obtain ⟨⟨c, g1⟩, ⟨⟨is, g0⟩, h1, h1'⟩, ⟨cs', g2⟩, h2, rfl, _⟩ := h1
    simp only [Prod.mk.injEq] at h1'
    obtain ⟨rfl, _⟩ := h1'
    obtain ⟨i1, i2⟩ := compileQueryAtoms_form (fun v y => indexOf?_lt) h2
    obtain ⟨ds, k1, k2, k3⟩ := toQuery_put (fun v y => indexOf?_lt) (assignSingle_nodes a) h1
    refine ⟨by simp [i2], ?_, .inr ⟨(permVars ord false (a :: as)).length, _, cs', rfl, ⟨ds, by simp [k1], k2, k3⟩, fun g hg => (i1 g hg).1⟩⟩
    intro g hg
    simp only [List.mem_cons] at hg
    rcases hg with rfl | hg
    · rfl
    · exact (i1 g hg).2

theorem compileClause_form {ord b head body st f r st'} (h : compileClause ord b head body st = .ok (f, r, st')) : RuleForm head body r := by
  cases body with
  | nil =>
    obtain ⟨_, is, g, h1, rfl, rfl, rfl⟩ := compileClause_fact h
    obtain ⟨ds, k1, k2, k3⟩ := toProgram_get (fun v y => indexOf?_lt) (assignSingle_nodes head) h1
    exact ⟨_, _, [], rfl, ⟨ds, by simp [k1], k2, k3⟩, by simp, rfl, rfl⟩
  | cons b0 bs =>
    obtain ⟨_, is, g, js, g1, cs, g2, h1, h2, h3, rfl, rfl, rfl⟩ := compileClause_rule h
    obtain ⟨ds, k1, k2, k3⟩ := toProgram_get (fun v y => indexOf?_lt) (assignPair_nodes head b0).1 h1
    obtain ⟨ds', k1', k2', k3'⟩ := toQuery_put (fun v y => indexOf?_lt) (assignPair_nodes head b0).2 h2
    obtain ⟨i1, i2⟩ := compileQueryAtoms_form (fun v y => indexOf?_lt) h3
    refine ⟨_, _, _ :: cs, rfl, ⟨ds, by simp [k1], k2, k3⟩, ?_, rfl, by simp [i2]⟩
    intro g hg
    simp only [List.mem_cons] at hg
    rcases hg with rfl | hg
    · exact ⟨ds', k1', k2', k3'⟩
    · exact (i1 g hg).1

end PBfs
