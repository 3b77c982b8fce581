import Verif.Proof.Rename4
import Verif.Props.History
/-! # Replacing names: answers -/
namespace PBfs
variable {ρ : Name → Name}
open Org (subsRename)

/-- `renderArgs` with places of names -/
def argsDoc (rep : Nat → R Doc) (d i : Nat) : Nat → R Doc
  | 0 => rep (d + i)
  | k + 1 => do
    let s ← rep (d + i)
    let t ← argsDoc rep d (i + 1) k
    pure (.cat (.cat s (.lit n!",")) t)

theorem renderArgs_rename {rep : Nat → R Name} {rep' : Nat → R Doc} (hr : ∀ a, rep a = (rep' a).map (Doc.text ρ)) (d : Nat) :
    ∀ k i, renderArgs rep d i k = (argsDoc rep' d i k).map (Doc.text ρ)
  | 0, i => hr _
  | k + 1, i => by
    simp only [renderArgs, argsDoc, hr, renderArgs_rename hr d k, bind_map', map_bind', map_pure', Doc.text]

/-- `stringRep` with places of names -/
def stringDoc (pre : Nat → Option Cell) (h : Hp) (st : Storage) (subs : List (Name × Nat)) :
    Nat → Bool → Nat → R Doc
  | 0, _, _ => .error .hang
  | n + 1, contig, index => do
    let d ← deref pre h index
    let c ← orFault (h.at? pre d)
    match c with
    | .ref _ v => do
      let name ← orFault (st.varAt v)
      pure (if index = d ∧ !isUserVar subs name then .cat (.name name) (.lit (natStr index)) else .name name)
    | .int v => pure (.lit (intStr v))
    | .cons i => do
      let f ← orFault (st.functorAt i)
      pure (.name f.name)
    | .fn i _ => do
      let f ← orFault (st.functorAt i)
      if f.isEmptyList then pure (if contig then .lit [] else .lit n!"[]")
      else if f.name = n!"|" then .error .memory
      else if f.isList then do
        let hd ← stringDoc pre h st subs n false (d + 1)
        let r ← deref pre h (d + 2)
        let rest ← orFault (h.at? pre r)
        let tl ← stringDoc pre h st subs n true (d + 2)
        pure (if contig then .cat (.cat hd (.lit (if rest.isRef then n!"|" else n!","))) tl
          else .cat (.cut (.cat (.lit n!"[") (.cat (.cat hd (.lit (if rest.isRef then n!"|" else n!","))) tl))) (.lit n!"]"))
      else do
        let args ← (match f.arity with
          | 0 => stringDoc pre h st subs n false d
          | k + 1 => argsDoc (stringDoc pre h st subs n false) d 1 k)
        pure (.cat (.cat (.cat (.name f.name) (.lit n!"(")) args) (.lit n!")"))
    | .efn f _ => do
      let l ← stringDoc pre h st subs n false (d + 1)
      let r ← stringDoc pre h st subs n false (d + 2)
      pure (.cat (.cat (.cat (.cat (.cat (.cat (.lit n!"(") l) (.lit n!" ")) (.lit (arithNames.getD f []))) (.lit n!" ")) r) (.lit n!")"))
    | .str _ => .error .memory

theorem isUserVar_rename (h : Renaming ρ) (v : Name) : ∀ subs, isUserVar (subsRename ρ subs) (ρ v) = isUserVar subs v
  | [] => rfl
  | e :: subs => by
    have := isUserVar_rename h v subs
    unfold isUserVar subsRename at *
    simp only [List.map_cons, List.any_cons, this, h.eq_iff]

theorem isList_rename (h : Renaming ρ) (f : FV) : (f.rename ρ).isList = f.isList := by
  have := h.fix (n := n!"[") (by decide) (a := f.name)
  exact Bool.eq_iff_iff.2 (by simp [FV.isList, FV.rename, this])

theorem isEmptyList_rename (h : Renaming ρ) (f : FV) : (f.rename ρ).isEmptyList = f.isEmptyList := by
  show ((f.rename ρ).isList && decide (f.arity = 0)) = (f.isList && decide (f.arity = 0))
  rw [isList_rename h]

theorem stringRep_rename (h : Renaming ρ) (pre : Nat → Option Cell) (hp : Hp) (st : Storage) (subs : List (Name × Nat)) :
    ∀ n contig index, stringRep pre hp (st.rename ρ) (subsRename ρ subs) n contig index = (stringDoc pre hp st subs n contig index).map (Doc.text ρ)
  | 0, _, _ => rfl
  | n + 1, contig, index => by
    simp only [stringRep, stringDoc, map_bind']
    congr 1; funext d
    congr 1; funext c
    cases c with
    | ref a v =>
      simp only [varAt_rename, orFault_map, bind_map', map_bind', map_pure', isUserVar_rename h]
      congr 1; funext name
      split <;> rfl
    | int v => rfl
    | cons i => simp only [functorAt_rename, orFault_map, bind_map', map_bind', map_pure']; rfl
    | str a => rfl
    | efn f a => simp only [stringRep_rename h pre hp st subs n, bind_map', map_bind', map_pure', Doc.text]
    | fn i a =>
      simp only [functorAt_rename, orFault_map, bind_map', map_bind', isEmptyList_rename h, isList_rename h, map_ite']
      congr 1; funext f
      split
      · simp only [map_pure']; split <;> rfl
      · have hb : (f.rename ρ).name = n!"|" ↔ f.name = n!"|" := h.fix (by decide)
        simp only [hb]
        split
        · rfl
        · split
          · simp only [stringRep_rename h pre hp st subs n, bind_map', map_bind', map_pure']
            congr 1; funext hd
            congr 1; funext r
            congr 1; funext rest
            congr 1; funext tl
            split <;> rfl
          · show (match f.arity with | 0 => _ | k + 1 => _) >>= _ = _
            cases f.arity with
            | zero => simp only [stringRep_rename h pre hp st subs n, bind_map', map_pure', Doc.text]; rfl
            | succ k =>
              simp only [renderArgs_rename (stringRep_rename h pre hp st subs n false) d k 1, bind_map', map_pure', Doc.text]; rfl

/-- `renderSubs` with places of names -/
def subsDoc (rep : Nat → R Doc) : List (Name × Nat) → List (Name × Doc) → R (List (Name × Doc))
  | [], acc => pure acc
  | (v, a) :: rest, acc =>
    if acc.any (·.1 = v) then subsDoc rep rest acc
    else do
      let s ← rep a
      subsDoc rep rest (acc ++ [(v, s)])

def bindDoc (ρ : Name → Name) (b : Name × Doc) : Binding := ⟨ρ b.1, b.2.text ρ⟩

theorem renderSubs_rename (h : Renaming ρ) {rep : Nat → R Name} {rep' : Nat → R Doc} (hr : ∀ a, rep a = (rep' a).map (Doc.text ρ)) :
    ∀ subs acc, Org.renderSubs rep (subsRename ρ subs) (acc.map (bindDoc ρ)) = (subsDoc rep' subs acc).map (·.map (bindDoc ρ))
  | [], acc => rfl
  | (v, a) :: rest, acc => by
    have ha : (acc.map (bindDoc ρ)).any (·.name = ρ v) = acc.any (·.1 = v) := by
      rw [List.any_map]
      congr 1; funext b
      simp only [Function.comp, bindDoc, h.eq_iff]
    show Org.renderSubs rep ((ρ v, a) :: subsRename ρ rest) _ = _
    simp only [Org.renderSubs, subsDoc, ha, map_ite', hr, bind_map', map_bind', renderSubs_rename h hr rest acc]
    split
    · rfl
    · congr 1; funext s
      have := renderSubs_rename h hr rest (acc ++ [(v, s)])
      rw [← this, List.map_append]; rfl

namespace Org

def answerDoc (fuel : Nat) (o : Org) (id : Nat) : R (List (Name × Doc)) := do
  let e ← o.exec id
  match e.parent with
  | none => .error .memory
  | some p => do
    let subs ← o.collectSubs (p + 1) p
    subsDoc (stringDoc (preOf o.execs e) e.hp o.st subs fuel false) subs []

theorem answer_rename (h : Renaming ρ) (fuel) (o : Org) (id) : (o.rename ρ).answer fuel id = (o.answerDoc fuel id).map (·.map (bindDoc ρ)) := by
  unfold answer answerDoc
  rw [exec_rename, bind_map', map_bind']
  congr 1; funext e
  show (match e.parent with | none => _ | some p => _) = _
  cases e.parent with
  | none => rfl
  | some p =>
    simp only [collectSubs_rename, bind_map', map_bind']
    congr 1; funext subs
    rw [show preOf (o.rename ρ).execs (e.rename ρ) = preOf o.execs e from preOf_rename _ _]
    exact renderSubs_rename h (stringRep_rename h _ _ _ _ _ _) subs []

/-- `turnOf` with places of names; `none` to continue -/
def turnOfDoc (fuel : Nat) (o : Org) (id : Nat) : R (Org × Option HeardDoc) := do
  let e ← o.exec id
  match e.codes with
  | [] => .error .memory
  | t :: _ => do
    let a ← o.code t
    let o := o.setExec id { e with regs := resize a.regCount e.regs }
    let o ← o.instrs fuel id a.instrs
    let e ← o.exec id
    match e.state with
    | .rtErr => do
      let err ← orFault e.err
      pure (o, some (.error err.kind err.doc))
    | .success => do
      let bs ← o.answerDoc fuel id
      pure (o, some (.answer bs))
    | _ => pure (o, none)

def Turn.heard : Turn → Option Heard
  | .continue => none
  | .answer bs => some (.result (.answer bs))
  | .error e => some (.result (.error e))

theorem turnOf_rename (h : Renaming ρ) (fuel) (o : Org) (id) :
    ((o.rename ρ).turnOf fuel id).map (fun r => (r.1, r.2.heard)) = (o.turnOfDoc fuel id).map fun r => (r.1.rename ρ, r.2.map (HeardDoc.text ρ)) := by
  unfold turnOf turnOfDoc
  simp only [exec_rename, bind_map', map_bind']
  congr 1; funext e
  obtain ⟨parent, hp, children, regs, mode, s, state, codes, envs, err⟩ := e
  show Except.map _ (match codes.map (TCode.rename ρ) with | [] => _ | t :: _ => _) = _
  cases codes with
  | nil => rfl
  | cons t ts =>
    simp only [List.map_cons, code_rename, bind_map', map_bind']
    congr 1; funext a
    let e2 : Exec := ⟨parent, hp, children, resize a.regCount regs, mode, s, state, t :: ts, envs, err⟩
    have hs := setExec_rename (ρ := ρ) o id e2
    show (instrs fuel id (a.rename ρ).instrs ((o.rename ρ).setExec id (e2.rename ρ))) >>= _ = _
    rw [hs]
    have hi : (a.rename ρ).instrs = a.instrs.map (Instr.rename ρ) := rfl
    rw [hi, instrs_rename h, bind_map']
    congr 1; funext o'
    simp only [exec_rename, bind_map', map_bind']
    congr 1; funext e'
    have hst : (e'.rename ρ).state = e'.state := rfl
    have her : (e'.rename ρ).err = e'.err.map (RtErr.rename ρ) := rfl
    rw [hst, her]
    cases e'.state
    case rtErr => simp only [orFault_map, bind_map', map_bind', map_pure']; rfl
    case success => simp only [answer_rename h, bind_map', map_bind', map_pure']; rfl
    all_goals rfl

theorem getAnswer_rename (fuel) : ∀ clock (o : Org), ∃ x : R (Org × HeardDoc), ∀ ρ, Renaming ρ →
    ((o.rename ρ).getAnswer fuel clock).map (fun r => (r.1, Heard.result r.2)) = x.map fun r => (r.1.rename ρ, r.2.text ρ)
  | clock, o => by
    cases hq : o.queue with
    | nil =>
      refine ⟨pure (o, .noAnswer), fun ρ _ => ?_⟩
      have : (o.rename ρ).queue = [] := hq
      unfold getAnswer; rw [this]; rfl
    | cons i q =>
      have hr : ∀ ρ, (o.rename ρ).queue = i :: q := fun ρ => hq
      cases clock with
      | nil => exact ⟨pure (o, .running), fun ρ _ => by unfold getAnswer; rw [hr]; rfl⟩
      | cons b clock =>
        cases b with
        | true => exact ⟨pure (o, .error .outOfTime (.lit [])), fun ρ _ => by unfold getAnswer; rw [hr]; rfl⟩
        | false =>
          have ht : ∀ ρ, Renaming ρ → ((o.rename ρ).turn fuel).map (fun r => (r.1, r.2.heard)) =
              (({ o with queue := q } : Org).turnOfDoc fuel i).map fun r => (r.1.rename ρ, r.2.map (HeardDoc.text ρ)) := by
            intro ρ h
            unfold turn; rw [hr]
            exact turnOf_rename h fuel { o with queue := q } i
          have hg : ∀ ρ, (o.rename ρ).getAnswer fuel (false :: clock) = (do
              let (o, t) ← (o.rename ρ).turn fuel
              match t with
              | .continue => getAnswer fuel clock o
              | .answer bs => pure (o, .answer bs)
              | .error e => pure (o, .error e)) := by
            intro ρ; rw [getAnswer]; rw [hr]; rfl
          cases hx : ({ o with queue := q } : Org).turnOfDoc fuel i with
          | error f =>
            refine ⟨.error f, fun ρ h => ?_⟩
            have := ht ρ h
            rw [hx] at this
            rw [hg]
            cases hy : (o.rename ρ).turn fuel with
            | ok r => rw [hy] at this; cases this
            | error f' => rw [hy] at this; cases this; rfl
          | ok r =>
            obtain ⟨o1, d⟩ := r
            cases d with
            | some d =>
              refine ⟨pure (o1, d), fun ρ h => ?_⟩
              have := ht ρ h
              rw [hx] at this
              rw [hg]
              cases hy : (o.rename ρ).turn fuel with
              | error f' => rw [hy] at this; cases this
              | ok r =>
                obtain ⟨o2, t⟩ := r
                rw [hy, map_ok', map_ok'] at this
                simp only [Except.ok.injEq, Prod.mk.injEq] at this
                obtain ⟨h1, h2⟩ := this
                cases t with
                | «continue» => cases h2
                | answer bs => simp only [Turn.heard, Option.map_some, Option.some.injEq] at h2; simp only [ok_bind, map_pure', h1, h2]
                | error bs => simp only [Turn.heard, Option.map_some, Option.some.injEq] at h2; simp only [ok_bind, map_pure', h1, h2]
            | none =>
              obtain ⟨x, hx'⟩ := getAnswer_rename fuel clock o1
              refine ⟨x, fun ρ h => ?_⟩
              have := ht ρ h
              rw [hx] at this
              rw [hg]
              cases hy : (o.rename ρ).turn fuel with
              | error f' => rw [hy] at this; cases this
              | ok r =>
                obtain ⟨o2, t⟩ := r
                rw [hy, map_ok', map_ok'] at this
                simp only [Except.ok.injEq, Prod.mk.injEq] at this
                obtain ⟨h1, h2⟩ := this
                cases t with
                | «continue» => simp only [ok_bind, h1]; exact hx' ρ h
                | answer bs => cases h2
                | error bs => cases h2

/-! ## Conversations -/

/-- what is said with names replaced, hash maps being enumerated in the order of insertion -/
def _root_.PBfs.Say.plain (ρ : Name → Name) : Say → Say
  | .program _ parsed => .program id (parsed.map (·.map (Clause.rename ρ)))
  | .query _ parsed => .query id (parsed.map (Node.renames ρ))
  | .blank _ => .blank id
  | .more clock => .more clock
  | .forget => .forget

theorem converse_more (fuel clock ws) (o : Org) : Org.converse fuel (.more clock :: ws) o =
    ((o.getAnswer fuel clock).map (fun r => (r.1, Heard.result r.2)) >>= fun r => (Org.converse fuel ws r.1) >>= fun rest => pure (r.2 :: rest)) := by
  rw [bind_map']; rfl

theorem converse_rename (fuel) : ∀ (ws : List Say) (o : Org), ∃ x : R (List HeardDoc), ∀ ρ, Renaming ρ →
    Org.converse fuel (ws.map (Say.plain ρ)) (o.rename ρ) = x.map (·.map (HeardDoc.text ρ))
  | [], _ => ⟨pure [], fun _ _ => rfl⟩
  | .program ord parsed :: ws, o => by
    obtain ⟨x, hx⟩ := converse_rename fuel ws (o.loadProgram id parsed).1
    refine ⟨x.map (.loaded (o.loadProgram id parsed).2 :: ·), fun ρ h => ?_⟩
    show (do let rest ← Org.converse fuel (ws.map (Say.plain ρ)) ((o.rename ρ).loadProgram id _).1
             pure (Heard.loaded ((o.rename ρ).loadProgram id _).2 :: rest)) = _
    rw [loadProgram_rename h]
    dsimp only
    rw [hx ρ h]
    cases x <;> rfl
  | .query ord parsed :: ws, o => by
    obtain ⟨x, hx⟩ := converse_rename fuel ws (o.loadQuery id parsed).1
    refine ⟨x.map (.loaded (o.loadQuery id parsed).2 :: ·), fun ρ h => ?_⟩
    show (do let rest ← Org.converse fuel (ws.map (Say.plain ρ)) ((o.rename ρ).loadQuery id _).1
             pure (Heard.loaded ((o.rename ρ).loadQuery id _).2 :: rest)) = _
    rw [loadQuery_rename h]
    dsimp only
    rw [hx ρ h]
    cases x <;> rfl
  | .blank ord :: ws, o => by
    obtain ⟨x, hx⟩ := converse_rename fuel ws (o.loadQuery id none).1
    refine ⟨x.map (.loaded .ok :: ·), fun ρ h => ?_⟩
    have e := loadQuery_rename h none o
    show (do let rest ← Org.converse fuel (ws.map (Say.plain ρ)) ((o.rename ρ).loadQuery id none).1
             pure (Heard.loaded .ok :: rest)) = _
    rw [show (o.rename ρ).loadQuery id none = _ from e]
    dsimp only
    rw [hx ρ h]
    cases x <;> rfl
  | .forget :: ws, o => by
    obtain ⟨x, hx⟩ := converse_rename fuel ws o.clearMemory
    refine ⟨x.map (.forgot :: ·), fun ρ h => ?_⟩
    show (do let rest ← Org.converse fuel (ws.map (Say.plain ρ)) (o.rename ρ).clearMemory
             pure (Heard.forgot :: rest)) = _
    rw [clearMemory_rename, hx ρ h]
    cases x <;> rfl
  | .more clock :: ws, o => by
    obtain ⟨y, hy⟩ := getAnswer_rename fuel clock o
    cases y with
    | error f =>
      refine ⟨.error f, fun ρ h => ?_⟩
      show Org.converse fuel (.more clock :: ws.map (Say.plain ρ)) (o.rename ρ) = _
      rw [converse_more, hy ρ h]; rfl
    | ok r =>
      obtain ⟨x, hx⟩ := converse_rename fuel ws r.1
      refine ⟨x.map (r.2 :: ·), fun ρ h => ?_⟩
      show Org.converse fuel (.more clock :: ws.map (Say.plain ρ)) (o.rename ρ) = _
      rw [converse_more, hy ρ h, bind_map', ok_bind]
      dsimp only
      rw [hx ρ h]
      cases x <;> rfl

/-- The same calls, whatever the orders. -/
inductive _root_.PBfs.Say.Same : Say → Say → Prop
  | program {ord ord' parsed} : ord.OK → ord'.OK → Say.Same (.program ord parsed) (.program ord' parsed)
  | query {ord ord' parsed} : ord.OK → ord'.OK → Say.Same (.query ord parsed) (.query ord' parsed)
  | blank {ord ord'} : ord.OK → ord'.OK → Say.Same (.blank ord) (.blank ord')
  | more {clock} : Say.Same (.more clock) (.more clock)
  | forget : Say.Same .forget .forget

theorem SameTalk_getAnswer {o o' : Org} (h : SameTalk o o') (fuel clock) : (o.getAnswer fuel clock).map (·.2) = (o'.getAnswer fuel clock).map (·.2) := by
  have := h.answers fuel [clock]
  unfold Org.talk at this
  simp only [Org.session] at this
  cases h1 : o.getAnswer fuel clock with
  | error f =>
    cases h2 : o'.getAnswer fuel clock with
    | error f' => rw [h1, h2] at this; cases this; rfl
    | ok r => rw [h1, h2] at this; cases this
  | ok r =>
    cases h2 : o'.getAnswer fuel clock with
    | error f' => rw [h1, h2] at this; cases this
    | ok r' =>
      rw [h1, h2] at this
      have e : (Except.ok [r.2] : R (List Res)) = .ok [r'.2] := this
      simp only [Except.ok.injEq, List.cons.injEq, and_true] at e
      simp only [map_ok', e]

theorem converse_same (fuel) : ∀ (ws ws' : List Say), List.Forall₂ Say.Same ws ws' → ∀ o o', Lockstep BothNew o o' →
    Org.converse fuel ws o = Org.converse fuel ws' o'
  | _, _, .nil, _, _, _ => rfl
  | _, _, .cons (.program (ord := ord) (ord' := ord') (parsed := parsed) h1 h2) t, o, o', hl => by
    simp only [Org.converse]
    rw [converse_same fuel _ _ t _ _ (hl.program parsed h1 h2), (C36_hash_order hl).program ord ord' parsed h1 h2]
  | _, _, .cons (.query (ord := ord) (ord' := ord') (parsed := parsed) h1 h2) t, o, o', hl => by
    simp only [Org.converse]
    rw [converse_same fuel _ _ t _ _ (hl.query parsed h1 h2), (C36_hash_order hl).query ord ord' parsed h1 h2]
  | _, _, .cons (.blank h1 h2) t, o, o', hl => by
    simp only [Org.converse]
    rw [converse_same fuel _ _ t _ _ (hl.query none h1 h2)]
  | _, _, .cons .forget t, o, o', hl => by
    simp only [Org.converse]
    rw [converse_same fuel _ _ t _ _ hl.memory]
  | _, _, .cons (.more (clock := clock)) t, o, o', hl => by
    simp only [Org.converse]
    have e := SameTalk_getAnswer (C36_hash_order hl) fuel clock
    cases h1 : o.getAnswer fuel clock with
    | error f =>
      cases h2 : o'.getAnswer fuel clock with
      | error f' => rw [h1, h2] at e; cases e; rfl
      | ok r => rw [h1, h2] at e; cases e
    | ok r =>
      cases h2 : o'.getAnswer fuel clock with
      | error f' => rw [h1, h2] at e; cases e
      | ok r' =>
        rw [h1, h2] at e
        simp only [map_ok', Except.ok.injEq] at e
        simp only [ok_bind]
        rw [converse_same fuel _ _ t _ _ (.answer hl h1 h2), e]

end Org
end PBfs
