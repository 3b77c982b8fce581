import Verif.Proof.Rename3
/-! # Replacing names: the organizer -/
namespace PBfs
variable {ρ : Name → Name}

namespace Org

def rename (ρ : Name → Name) (o : Org) : Org :=
  { o with execs := o.execs.map (Exec.rename ρ), st := o.st.rename ρ, program := o.program.rename ρ, builtins := o.builtins.rename ρ, query := Rule.rename ρ o.query }

theorem exec_rename (o : Org) (id) : (o.rename ρ).exec id = (o.exec id).map (Exec.rename ρ) := by
  unfold exec rename
  rw [List.getElem?_map, orFault_map]

theorem setExec_rename (o : Org) (id) (e : Exec) : (o.rename ρ).setExec id (e.rename ρ) = (o.setExec id e).rename ρ := by
  simp only [setExec, rename, List.map_set]

end Org

theorem heapAtF_rename (execs : List Exec) : ∀ n id a, heapAtF (execs.map (Exec.rename ρ)) n id a = heapAtF execs n id a
  | 0, _, _ => rfl
  | n + 1, id, a => by
    simp only [heapAtF, List.getElem?_map]
    cases execs[id]? with
    | none => rfl
    | some e =>
      simp only [Option.map_some]
      show e.hp.at? (match e.parent with | none => _ | some p => _) a = _
      congr 1
      cases e.parent with
      | none => rfl
      | some p => funext a; exact heapAtF_rename execs n p a

theorem preOf_rename (execs : List Exec) (e : Exec) : preOf (execs.map (Exec.rename ρ)) (e.rename ρ) = preOf execs e := by
  unfold preOf
  show (match e.parent with | none => _ | some p => _) = _
  cases e.parent with
  | none => rfl
  | some p => funext a; exact heapAtF_rename execs _ p a

namespace Org

theorem code_rename (o : Org) (t : TCode) : (o.rename ρ).code (t.rename ρ) = (o.code t).map (CAtom.rename ρ) := by
  unfold code
  rw [map_ite']
  rfl

theorem callChild_rename (o : Org) (id) (e : Exec) (r : Rule) : (o.rename ρ).callChild id (e.rename ρ) (Rule.rename ρ r) = (o.callChild id e r).rename ρ := by
  simp only [callChild, Exec.rename, Rule.rename, List.map_append, List.map_map, List.map_drop, Option.map_none]
  rfl

theorem call_rename (h : Renaming ρ) (o : Org) (id) (e : Exec) (f : FV) : (o.rename ρ).call id (e.rename ρ) (f.rename ρ) = (o.call id e f).rename ρ := by
  have hr : (o.rename ρ).program.rules? (f.rename ρ) = (o.program.rules? f).map (·.map (Rule.rename ρ)) := rules?_rename h f o.program
  unfold call
  simp only [hr]
  cases o.program.rules? f with
  | none => exact setExec_rename { o with calls := o.calls + 1 } id e.setFailed
  | some rules =>
    have hm : (rules.map (Rule.rename ρ)).map (callChild { o.rename ρ with calls := (o.rename ρ).calls + 1 } id (e.rename ρ)) =
        (rules.map (callChild { o with calls := o.calls + 1 } id e)).map (Exec.rename ρ) := by
      rw [List.map_map, List.map_map]
      refine List.map_congr_left fun r _ => ?_
      exact callChild_rename { o with calls := o.calls + 1 } id e r
    simp only [Option.map_some, hm]
    have hl : (o.rename ρ).execs.length = o.execs.length := List.length_map _
    simp only [hl, List.length_map]
    have hs := setExec_rename (ρ := ρ) { o with calls := o.calls + 1 } id
      { e.clear with children := e.children ++ List.range' o.execs.length rules.length, state := .archived }
    have he : ({ (e.rename ρ).clear with children := (e.rename ρ).children ++ List.range' o.execs.length rules.length, state := .archived } : Exec) =
        Exec.rename ρ { e.clear with children := e.children ++ List.range' o.execs.length rules.length, state := .archived } := by
      simp only [Exec.rename, Exec.clear, List.map_take]
    rw [he]
    have hs' : setExec { o.rename ρ with calls := (o.rename ρ).calls + 1 } id
        (Exec.rename ρ { e.clear with children := e.children ++ List.range' o.execs.length rules.length, state := .archived }) = _ := hs
    rw [hs']
    simp only [rename, List.map_append]

theorem allDealloc_rename (o : Org) : ∀ ts : List TCode, (o.rename ρ).allDealloc (ts.map (TCode.rename ρ)) = o.allDealloc ts
  | [] => rfl
  | t :: ts => by
    simp only [List.map_cons, allDealloc, code_rename, bind_map']
    congr 1; funext a
    rw [allDealloc_rename o ts]
    have : (a.rename ρ).isDealloc = a.isDealloc := by simp only [CAtom.isDealloc, CAtom.rename, List.length_map]
    rw [this]

theorem proceedChild_rename (id) (e : Exec) : proceedChild id (e.rename ρ) = (proceedChild id e).rename ρ := by
  simp only [proceedChild, Exec.rename, List.map_drop, Option.map_none]

theorem proceed_rename (o : Org) (id) (e : Exec) : (o.rename ρ).proceed id (e.rename ρ) = (o.proceed id e).map (Org.rename ρ) := by
  unfold proceed
  rw [map_bind']
  have hd : (if (e.rename ρ).failed = true then pure false else (o.rename ρ).allDealloc ((e.rename ρ).codes.drop 1)) =
      (if e.failed = true then pure false else o.allDealloc (e.codes.drop 1)) := by
    rw [← allDealloc_rename (ρ := ρ) o]
    simp only [Exec.rename, List.map_drop]
    rfl
  rw [hd]
  congr 1; funext d
  cases d with
  | true =>
    simp only [if_true, map_pure']
    have he : ({ (e.rename ρ).clear with state := .success } : Exec) = Exec.rename ρ { e.clear with state := .success } := by
      simp only [Exec.rename, Exec.clear, List.map_take]
    rw [he, setExec_rename]
  | false =>
    simp only [Bool.false_eq_true, if_false, map_pure']
    have hl : (o.rename ρ).execs.length = o.execs.length := List.length_map _
    have he : ({ e.rename ρ with codes := (e.rename ρ).codes.take 1, envs := (e.rename ρ).envs.take 1, children := (e.rename ρ).children ++ [o.execs.length], state := .archived } : Exec) =
        Exec.rename ρ { e with codes := e.codes.take 1, envs := e.envs.take 1, children := e.children ++ [o.execs.length], state := .archived } := by
      simp only [Exec.rename, List.map_take]
    rw [hl, he, setExec_rename, proceedChild_rename]
    simp only [rename, List.map_append, List.map_cons, List.map_nil]

theorem deallocate_rename (o : Org) (id) (e : Exec) : (o.rename ρ).deallocate id (e.rename ρ) = (o.deallocate id e).map (Org.rename ρ) := by
  unfold deallocate
  show (match e.envs with | [] => _ | _ :: envs => _) = _
  cases e.envs with
  | nil => rfl
  | cons env envs =>
    simp only [map_pure']
    have he : ({ e.rename ρ with envs := envs, codes := (e.rename ρ).codes.drop 1 } : Exec) = Exec.rename ρ { e with envs := envs, codes := e.codes.drop 1 } := by
      simp only [Exec.rename, List.map_drop]
    rw [he, setExec_rename]
    rfl

theorem instr_rename (h : Renaming ρ) (fuel) (o : Org) (id) (i : Instr) : (o.rename ρ).instr fuel id (i.rename ρ) = (o.instr fuel id i).map (Org.rename ρ) := by
  unfold instr
  rw [exec_rename, bind_map', map_bind']
  congr 1; funext e
  have hd : (do let e' ← stepData (preOf (o.rename ρ).execs (e.rename ρ)) fuel (o.rename ρ).st (i.rename ρ) (e.rename ρ)
                pure ((o.rename ρ).setExec id e')) =
      (do let e' ← stepData (preOf o.execs e) fuel o.st i e
          pure (o.setExec id e') : R Org).map (Org.rename ρ) := by
    show (do let e' ← stepData (preOf (o.execs.map (Exec.rename ρ)) (e.rename ρ)) fuel (o.st.rename ρ) (i.rename ρ) (e.rename ρ)
             pure ((o.rename ρ).setExec id e')) = _
    rw [preOf_rename, stepData_rename, bind_map', map_bind']
    congr 1; funext e'
    rw [setExec_rename]; rfl
  cases i with
  | call f => exact congrArg _ (call_rename h o id e f)
  | proceed => exact proceed_rename o id e
  | deallocate => exact deallocate_rename o id e
  | _ => exact hd

theorem instrs_rename (h : Renaming ρ) (fuel) (id) : ∀ (is : List Instr) (o : Org), (o.rename ρ).instrs fuel id (is.map (Instr.rename ρ)) = (o.instrs fuel id is).map (Org.rename ρ)
  | [], _ => rfl
  | i :: is, o => by
    simp only [List.map_cons, instrs, instr_rename h, bind_map', map_bind', exec_rename]
    congr 1; funext o'
    congr 1; funext e
    rw [map_ite', instrs_rename h fuel id is o']
    have hc : (e.rename ρ).clear = e.clear.rename ρ := by simp only [Exec.rename, Exec.clear, List.map_take]
    rw [hc, setExec_rename]
    rfl

/-- Names with addresses, with names replaced. -/
def subsRename (ρ : Name → Name) (l : List (Name × Nat)) : List (Name × Nat) := l.map fun e => (ρ e.1, e.2)

theorem pointSubs_rename (e : Exec) : ∀ vs : List VarReg, pointSubs (e.rename ρ) (vs.map (VarReg.rename ρ)) = (pointSubs e vs).map (subsRename ρ)
  | [] => rfl
  | v :: vs => by
    simp only [List.map_cons, pointSubs, pointSubs_rename e vs, bind_map', map_bind']
    rfl

theorem collectSubs_rename (o : Org) : ∀ n p, (o.rename ρ).collectSubs n p = (o.collectSubs n p).map (subsRename ρ)
  | 0, _ => rfl
  | n + 1, p => by
    simp only [collectSubs, exec_rename, bind_map', map_bind']
    congr 1; funext e
    show (match e.codes.map (TCode.rename ρ) with | [t] => _ | _ => _) = _
    match e.codes with
    | [] => rfl
    | _ :: _ :: _ => rfl
    | [t] =>
      simp only [List.map_cons, List.map_nil, code_rename, bind_map', map_bind']
      congr 1; funext a
      have hp : (if (a.rename ρ).fromQuery = true then pointSubs (e.rename ρ) (a.rename ρ).subst else pure []) =
          (if a.fromQuery = true then pointSubs e a.subst else pure [] : R _).map (subsRename ρ) := by
        rw [map_ite']
        show (if a.fromQuery = true then pointSubs (e.rename ρ) (a.subst.map (VarReg.rename ρ)) else pure []) = _
        rw [pointSubs_rename]
        rfl
      rw [hp, bind_map']
      congr 1; funext subs
      show (match e.parent with | none => _ | some q => _) = _
      cases e.parent with
      | none => rfl
      | some q =>
        simp only [bind_map', map_bind']
        congr 1; funext f
        show (match f.parent with | none => _ | some r => _) = _
        cases f.parent with
        | none => rfl
        | some r =>
          simp only [collectSubs_rename o n r, bind_map', map_bind']
          congr 1; funext rest
          simp only [map_pure', subsRename, List.map_append]

/-! ## Loading -/

theorem loadProgram_rename (h : Renaming ρ) (parsed : Option (List Clause)) (o : Org) :
    (o.rename ρ).loadProgram id (parsed.map (·.map (Clause.rename ρ))) = ((o.loadProgram id parsed).1.rename ρ, (o.loadProgram id parsed).2) := by
  cases parsed with
  | none => rfl
  | some cs =>
    have e := compileProgram_rename h cs [] o.st
    simp only [Option.map_some, loadProgram]
    have e' : compileProgram id (cs.map (Clause.rename ρ)) [] (o.rename ρ).st = _ := e
    rw [e']
    cases compileProgram id cs [] o.st with
    | error q => rfl
    | ok r =>
      simp only [CR.rename_ok]
      have hm : mergeBuiltins (o.rename ρ).builtins (Program.rename ρ r.1) = (mergeBuiltins o.builtins r.1).rename ρ := mergeBuiltins_rename h o.builtins r.1
      rw [hm]
      rfl

theorem initExec_rename (q : Rule) : initExec (Rule.rename ρ q) = (initExec q).rename ρ := by
  simp only [initExec, Rule.rename, Exec.rename, List.map_map, Option.map_none]
  rfl

theorem loadQuery_rename (h : Renaming ρ) (parsed : Option (List Node)) (o : Org) :
    (o.rename ρ).loadQuery id (parsed.map (Node.renames ρ)) = ((o.loadQuery id parsed).1.rename ρ, (o.loadQuery id parsed).2) := by
  cases parsed with
  | none => rfl
  | some atoms =>
    have e := compileQuery_rename h atoms o.st
    rw [← Node.renames_eq] at e
    simp only [Option.map_some, loadQuery]
    have e' : compileQuery id (Node.renames ρ atoms) (o.rename ρ).st = _ := e
    rw [e']
    cases compileQuery id atoms o.st with
    | error q => rfl
    | ok r =>
      simp only [CR.rename_ok, initExec_rename]
      rfl

theorem clearMemory_rename (o : Org) : (o.rename ρ).clearMemory = o.clearMemory.rename ρ := by
  simp only [clearMemory, rename, ← List.map_take, List.map_map]
  congr 1
  refine List.map_congr_left fun e _ => ?_
  simp only [Function.comp, Exec.rename, List.map_map]
  rfl

/-! ## The new interpreter -/

theorem binaryHead_rename (h : Renaming ρ) {n} (hn : n ∈ reservedNames) : (binaryHead n).rename ρ = binaryHead n := by
  simp only [binaryHead, Node.rename, Node.renames, h.fixed n hn, h.fixed n!"Lhs" (by decide), h.fixed n!"Rhs" (by decide)]

theorem compileBinary_rename (h : Renaming ρ) (b) {n} (hn : n ∈ reservedNames) (st : Storage) :
    compileBinary b n (st.rename ρ) = CR.rename ρ (clauseOut ρ) (compileBinary b n st) := by
  unfold compileBinary
  have e := compileClause_rename h true (binaryHead n) [] st
  rw [binaryHead_rename h hn] at e
  rw [CR.rename_bind]
  rw [show compileClause id true (binaryHead n) [] (st.rename ρ) = _ from e, CR.bind_rename]
  refine CR.bind_congr fun r => ?_
  obtain ⟨f, r, st'⟩ := r
  obtain ⟨as, v, k⟩ : _ × _ × _ := assignSingle (binaryHead n)
  simp only [clauseOut]
  match r, as with
  | [], _ => rfl
  | _ :: _ :: _, _ => rfl
  | [a], [] => rfl
  | [a], [_] => rfl
  | [a], l :: r' :: _ =>
    simp only [Rule.rename, List.map_cons, List.map_nil, CR.rename_pure, clauseOut, CAtom.rename, List.map_append, List.map_drop, List.map_dropLast, List.length_map]
    rfl

theorem appendClauses_rename (h : Renaming ρ) : appendClauses.map (Clause.rename ρ) = appendClauses := by
  simp only [appendClauses, List.map_cons, List.map_nil, Clause.rename, Node.nil, Node.rename, Node.renames, h.fixed n!"append" (by decide), h.fixed n!"[" (by decide),
    h.fixed n!"List2" (by decide), h.fixed n!"X" (by decide), h.fixed n!"Xs" (by decide), h.fixed n!"Ys" (by decide), h.fixed n!"Rs" (by decide)]

theorem compileClauseOut_rename (h : Renaming ρ) (c : Clause) (hc : c.rename ρ = c) (p : Program) (st : Storage) :
    (do let (f, r, st) ← compileClause id true c.head c.body (st.rename ρ)
        pure ((p.rename ρ).addRule f r, st) : CR (Program × Storage)) =
    CR.rename ρ (fun r => (Program.rename ρ r.1, r.2.rename ρ)) (do
        let (f, r, st) ← compileClause id true c.head c.body st
        pure (p.addRule f r, st)) := by
  have e := compileClause_rename h true c.head c.body st
  have h1 : c.head.rename ρ = c.head := congrArg Clause.head hc
  have h2 : c.body.map (Node.rename ρ) = c.body := by rw [← Node.renames_eq]; exact congrArg Clause.body hc
  rw [h1, h2] at e
  rw [CR.rename_bind, show compileClause id true c.head c.body (st.rename ρ) = _ from e, CR.bind_rename]
  refine CR.bind_congr fun r => ?_
  simp only [clauseOut, addRule_rename h, CR.rename_pure]

theorem compileBuiltins_rename (h : Renaming ρ) (st : Storage) :
    compileBuiltins (st.rename ρ) = CR.rename ρ (fun r => (Program.rename ρ r.1, r.2.rename ρ)) (compileBuiltins st) := by
  have ha := appendClauses_rename h
  unfold compileBuiltins
  rw [CR.rename_bind, compileBinary_rename h _ (by decide), CR.bind_rename]
  refine CR.bind_congr fun r1 => ?_
  simp only [clauseOut]
  rw [CR.rename_bind, compileBinary_rename h _ (by decide), CR.bind_rename]
  refine CR.bind_congr fun r2 => ?_
  simp only [clauseOut]
  rw [CR.rename_bind, compileBinary_rename h _ (by decide), CR.bind_rename]
  refine CR.bind_congr fun r3 => ?_
  simp only [clauseOut]
  have hp : ((Program.addRule [] (r1.1.rename ρ) (Rule.rename ρ r1.2.1)).addRule (r2.1.rename ρ) (Rule.rename ρ r2.2.1)).addRule (r3.1.rename ρ) (Rule.rename ρ r3.2.1) =
      (((Program.addRule [] r1.1 r1.2.1).addRule r2.1 r2.2.1).addRule r3.1 r3.2.1).rename ρ := by
    have := addRule_rename h r1.1 r1.2.1 []
    rw [show Program.addRule [] (r1.1.rename ρ) (Rule.rename ρ r1.2.1) = _ from this, addRule_rename h, addRule_rename h]
  rw [hp]
  match hc : appendClauses, ha with
  | [], _ => rfl
  | [_], _ => rfl
  | _ :: _ :: _ :: _, _ => rfl
  | [c1, c2], ha =>
    simp only [List.map_cons, List.map_nil, List.cons.injEq, and_true] at ha
    simp only []
    rw [CR.rename_bind, compileClauseOut_rename h c1 ha.1, CR.bind_rename]
    refine CR.bind_congr fun r => ?_
    simp only []
    rw [compileClauseOut_rename h c2 ha.2]

theorem init0_rename (h : Renaming ρ) : Org.init0.rename ρ = Org.init0 := by
  have e := compileBuiltins_rename h ⟨[], []⟩
  have hi := Org.init_eq
  unfold Org.init at hi
  cases hc : compileBuiltins ⟨[], []⟩ with
  | error q => rw [hc] at hi; cases hi
  | ok r =>
    rw [hc] at hi
    have e' : compileBuiltins ⟨[], []⟩ = _ := e
    rw [hc, CR.rename_ok] at e'
    simp only [Except.ok.injEq] at e'
    have h1 : Program.rename ρ r.1 = r.1 := (congrArg Prod.fst e').symm
    have h2 : Storage.rename ρ r.2 = r.2 := (congrArg Prod.snd e').symm
    simp only [ok_bind, pure_ok] at hi
    rw [← hi]
    simp only [rename, h1, h2, List.map_cons, List.map_nil]
    rfl

end Org
end PBfs
