import Verif.Proof.Twin4
import Verif.Spec.History
/-! # Related interpreters: answers, and the main loop -/
namespace PBfs

/-- The same result; the text of a type error may differ. -/
inductive TurnRel (M : Cmp) : Org.Turn → Org.Turn → Prop
  | continue : TurnRel M .continue .continue
  | answer (bs) : TurnRel M (.answer bs) (.answer bs)
  | error {e e'} : ErrRel M e e' → TurnRel M (.error e) (.error e')

/-- The same result; the text of a type error may differ. -/
inductive ResRel (M : Cmp) : Org.Res → Org.Res → Prop
  | answer (bs) : ResRel M (.answer bs) (.answer bs)
  | noAnswer : ResRel M .noAnswer .noAnswer
  | error {e e'} : ErrRel M e e' → ResRel M (.error e) (.error e')
  | running : ResRel M .running .running

section
variable {M : Cmp} {st st' : Storage} {pre pre' : Nat → Option Cell}

theorem renderArgs_sim {rep rep' : Nat → R Name} (h : ∀ a, Sim M Eq (rep a) (rep' a)) (d i k : Nat) :
    Sim M Eq (renderArgs rep d i k) (renderArgs rep' d i k) := by
  induction k generalizing i with
  | zero => exact h _
  | succ k ih =>
    unfold renderArgs
    refine (h _).bind ?_
    rintro s _ rfl
    refine (ih _).bind ?_
    rintro t _ rfl
    exact rfl

theorem stringRep_sim (T : Twin M st st') (hp : PreRel M st st' pre pre') {h h' : Hp} (hr : HpRel M st st' h h') (subs) (n : Nat) : ∀ contig index,
    Sim M Eq (stringRep pre h st subs n contig index) (stringRep pre' h' st' subs n contig index) := by
  induction n with
  | zero => intro _ _; exact .err _
  | succ n ih =>
    intro contig index
    unfold stringRep
    refine (deref_sim hp hr index).bind ?_
    rintro d _ rfl
    refine (Sim.orFault (hr.at? hp d)).bind fun c c' hc => ?_
    cases hc with
    | ref a hv =>
      simp only [hv.same T]
      exact .refl _
    | int v => exact rfl
    | cons hi =>
      simp only
      rw [hi.same T]
      exact .refl _
    | str => exact .err _
    | efn f k =>
      refine (ih _ _).bind ?_
      rintro l _ rfl
      refine (ih _ _).bind ?_
      rintro r _ rfl
      exact rfl
    | fn k hi =>
      simp only
      rw [hi.same T]
      refine (Sim.refl _).bind ?_
      rintro f _ rfl
      refine Sim.ite Iff.rfl rfl (Sim.ite Iff.rfl (.err _) (Sim.ite Iff.rfl ?_ ?_))
      · refine (ih _ _).bind ?_
        rintro hd _ rfl
        refine (deref_sim hp hr _).bind ?_
        rintro r _ rfl
        refine (Sim.orFault (hr.at? hp r)).bind fun c c' hc => ?_
        refine (ih _ _).bind ?_
        rintro tl _ rfl
        rw [hc.isRef]
        exact rfl
      · refine Sim.bind (P := Eq) ?_ ?_
        · cases f.arity with
          | zero => exact ih _ _
          | succ k => exact renderArgs_sim (fun a => ih _ _) _ _ _
        · rintro args _ rfl
          exact rfl

theorem pointSubs_sim {e e' : Exec} {cur : Option YFrame} (hr : List.Forall₂ (CellRel M st st') e.regs e'.regs) (he : EnvsRel M st st' cur.toList e.envs e'.envs)
    {vs vs'} (hv : List.Forall₂ (SubRel cur) vs vs') : Sim M Eq (Org.pointSubs e vs) (Org.pointSubs e' vs') := by
  induction hv with
  | nil => exact rfl
  | @cons v v' _ _ hv _ ih =>
    unfold Org.pointSubs
    obtain ⟨h1, h2, h3, h4⟩ := hv
    refine Sim.bind (P := CellRel M st st') ?_ fun c c' hc => ?_
    · rw [← h2]
      split
      · rename_i hp
        obtain ⟨fr, rfl, hy⟩ := h3 hp
        unfold Exec.perm
        generalize e.envs = es at he
        generalize e'.envs = es' at he
        cases he with
        | cons h1 h2 => exact .orFault (h1.get _ _ hy)
      · rename_i hp
        rw [h4 (by simpa using hp)]
        exact .orFault (forall₂_get hr _)
    · refine (addr_sim hc).bind ?_
      rintro a _ rfl
      refine ih.bind ?_
      rintro r _ rfl
      rw [h1]
      exact rfl

variable {o o' : Org}

theorem OrgX.exec (h : OrgX M o o') (id : Nat) :
    Sim M (fun e e' => o.execs[id]? = some e ∧ XRel M o.st o'.st o.gen o'.gen o.queue o.execs id e e') (o.exec id) (o'.exec id) := by
  unfold Org.exec
  by_cases hl : id < o.execs.length
  · have hg := List.getElem?_eq_getElem hl
    have hg' := List.getElem?_eq_getElem (l := o'.execs) (i := id) (by rw [← h.len]; exact hl)
    have hx := h.execs id (fun h => h) _ _ hg hg'
    rw [hg, hg']
    exact ⟨rfl, hx⟩
  · rw [List.getElem?_eq_none (by omega), List.getElem?_eq_none (by rw [← h.len]; omega)]
    exact .err _

theorem collectSubs_sim (h : OrgX M o o') (n p : Nat) (hp : ∃ a, o.execs[p]? = some a ∧ a.state = .archived) :
    Sim M Eq (o.collectSubs n p) (o'.collectSubs n p) := by
  induction n generalizing p with
  | zero => exact .err _
  | succ n ih =>
    unfold Org.collectSubs
    refine (h.exec p).bind fun e e' he => ?_
    obtain ⟨a, ha, has⟩ := hp
    rw [he.1] at ha; cases ha
    obtain ⟨hregs, t, t', cur, h1, h2, h3, h4, h5, h6⟩ := he.2.arch has
    rw [h1, h2]
    simp only
    unfold Org.code
    rw [← h3.stale]
    by_cases hst : o.stale t = true
    · rw [if_pos hst, if_pos hst]; exact .err _
    · rw [if_neg hst, if_neg hst]
      simp only [ok_bind]
      rw [← h4]
      refine Sim.bind (P := Eq) ?_ ?_
      · split
        · exact pointSubs_sim hregs h6 h5
        · exact rfl
      · rintro subs _ rfl
        rw [← he.2.base.parent]
        cases hpar : e.parent with
        | none => exact rfl
        | some q =>
          simp only
          refine (h.exec q).bind fun f f' hf => ?_
          rw [← hf.2.base.parent]
          cases hpar2 : f.parent with
          | none => exact .err _
          | some r =>
            simp only
            refine (ih r (hf.2.parents r hpar2).2).bind ?_
            rintro rest _ rfl
            exact rfl

theorem renderSubs_sim {rep rep' : Nat → R Name} (h : ∀ a, Sim M Eq (rep a) (rep' a)) (subs acc) :
    Sim M Eq (Org.renderSubs rep subs acc) (Org.renderSubs rep' subs acc) := by
  induction subs generalizing acc with
  | nil => exact rfl
  | cons s rest ih =>
    obtain ⟨v, a⟩ := s
    unfold Org.renderSubs
    refine Sim.ite Iff.rfl (ih _) ?_
    refine (h a).bind ?_
    rintro s _ rfl
    exact ih _

theorem answer_sim (h : OrgX M o o') (fuel id : Nat) : Sim M Eq (o.answer fuel id) (o'.answer fuel id) := by
  unfold Org.answer
  refine (h.exec id).bind fun e e' he => ?_
  rw [← he.2.base.parent]
  cases hpar : e.parent with
  | none => exact .err _
  | some p =>
    simp only
    refine (collectSubs_sim h _ p (he.2.parents p hpar).2).bind ?_
    rintro subs _ rfl
    refine renderSubs_sim (fun a => stringRep_sim h.twin ?_ he.2.base.hp _ _ _ _) _ _
    exact preOf_rel (id := id) h.toOBase (fun j _ => h.execs j (fun h => h)) he.2.base.parent fun p hp => (he.2.parents p hp).1

theorem forall₂_take {α β} {P : α → β → Prop} {l : List α} {l' : List β} (h : List.Forall₂ P l l') (n) : List.Forall₂ P (l.take n) (l'.take n) := by
  induction h generalizing n with
  | nil => simp
  | cons h0 _ ih =>
    cases n with
    | zero => simp
    | succ n => exact .cons h0 (ih n)

theorem resize_rel {l l' : List Cell} (h : List.Forall₂ (CellRel M st st') l l') (n) : List.Forall₂ (CellRel M st st') (Org.resize n l) (Org.resize n l') := by
  unfold Org.resize
  rw [← forall₂_len h]
  refine forall₂_app (forall₂_take h n) ?_
  induction n - l.length with
  | zero => exact .nil
  | succ k ih => exact .cons .zero ih

theorem OrgX.turnOf (h : OrgX M o o') (fuel : Nat) {id q} (hq : o.queue = id :: q) :
    Sim M (fun r r' => OrgX M r.1 r'.1 ∧ TurnRel M r.2 r'.2) (Org.turnOf fuel { o with queue := q } id) (Org.turnOf fuel { o' with queue := q } id) := by
  have hq' : o'.queue = id :: q := h.queue ▸ hq
  have hnd := h.nodup
  rw [hq, List.nodup_cons] at hnd
  unfold Org.turnOf
  have hl : id < o.execs.length := h.lt id (by simp [hq])
  have hg := List.getElem?_eq_getElem hl
  have hg' := List.getElem?_eq_getElem (l := o'.execs) (i := id) (by rw [← h.len]; exact hl)
  have hx := h.execs id (fun h => h) _ _ hg hg'
  generalize o.execs[id] = e at hg hx
  generalize o'.execs[id]'(by rw [← h.len]; exact hl) = e' at hg' hx
  simp only [Org.exec, hg, hg', orFault_some, ok_bind]
  obtain ⟨hrun, frs, he, hc⟩ := hx.alive (by simp [hq])
  generalize hcs : e.codes = cs at hc he
  generalize hcs' : e'.codes = cs' at hc he
  cases hc with
  | nil => exact .err _
  | @cons _ out t t' cs cs' h1 h2 h3 =>
    simp only
    refine (code_sim (o := { o with queue := q }) (o' := { o' with queue := q }) h1 h2).bind' fun a a' ha ha' haa => ?_
    have hm0 : Mid M { o with queue := q } { o' with queue := q } id e e' frs (t :: cs) (t' :: cs') :=
      { twin := h.twin, prog := h.prog, gen := h.gen, gen' := h.gen', calls := h.calls, queue := rfl, nodup := hnd.2
        lt := fun i hi => h.lt i (by simp [hq, hi])
        len := h.len
        others := fun j _ b b' hb hb' => by
          have := h.execs j (fun h => h) b b' hb hb'
          exact ⟨this.base, this.arch, fun hj => this.alive (by rw [hq]; exact List.mem_cons_of_mem _ hj), this.parents⟩
        notin := hnd.1
        get := hg, get' := hg', rel := he, running := hrun, parents := hx.parents }
    have hat : a = t.atom ∧ a' = t'.atom := by
      unfold Org.code at ha ha'
      split at ha
      · cases ha
      · split at ha'
        · cases ha'
        · cases ha; cases ha'; exact ⟨rfl, rfl⟩
    rw [← haa.regs]
    have hm := hm0.set (e1 := { e with regs := Org.resize a.regCount e.regs }) (e1' := { e' with regs := Org.resize a.regCount e'.regs }) (frs1 := frs) (cs1 := t :: cs) (cs1' := t' :: cs')
      { he with regs := resize_rel he.regs _ } hrun rfl
    simp only [hcs, hcs'] at hm
    refine (instrs_sim (fuel := fuel) haa.instrs (by rfl) (by rfl) hm ?_).bind fun o1 o1' ho1 => ?_
    · obtain ⟨rfl, rfl⟩ := hat
      exact ⟨h1, h2.fromQuery, h2.subst, h3⟩
    refine (ho1.exec id).bind (fun f f' hf => ?_)
    rw [← hf.2.base.state]
    cases f.state with
    | rtErr =>
      refine (Sim.orFault hf.2.base.err).bind fun er er' her => ?_
      exact ⟨ho1, .error her⟩
    | success =>
      refine (answer_sim ho1 fuel id).bind ?_
      rintro bs _ rfl
      exact ⟨ho1, .answer bs⟩
    | _ => exact ⟨ho1, .continue⟩

theorem OrgX.turn (h : OrgX M o o') (fuel : Nat) : Sim M (fun r r' => OrgX M r.1 r'.1 ∧ TurnRel M r.2 r'.2) (o.turn fuel) (o'.turn fuel) := by
  unfold Org.turn
  rw [← h.queue]
  cases hq : o.queue with
  | nil => exact ⟨h, .continue⟩
  | cons id q => exact h.turnOf fuel hq

theorem OrgX.getAnswer (fuel : Nat) (clock) : ∀ {o o'}, OrgX M o o' →
    Sim M (fun r r' => OrgX M r.1 r'.1 ∧ ResRel M r.2 r'.2) (Org.getAnswer fuel clock o) (Org.getAnswer fuel clock o') := by
  induction clock with
  | nil =>
    intro o o' h
    unfold Org.getAnswer
    rw [← h.queue]
    cases o.queue with
    | nil => exact ⟨h, .noAnswer⟩
    | cons => exact ⟨h, .running⟩
  | cons c clock ih =>
    intro o o' h
    unfold Org.getAnswer
    rw [← h.queue]
    cases hq : o.queue with
    | nil => exact ⟨h, .noAnswer⟩
    | cons =>
      cases c with
      | true => exact ⟨h, .error ⟨rfl, fun _ => rfl⟩⟩
      | false =>
        refine (h.turn fuel).bind ?_
        rintro ⟨o1, t⟩ ⟨o1', t'⟩ ⟨h1, ht⟩
        cases ht with
        | «continue» => exact ih h1
        | answer bs => exact ⟨h1, .answer bs⟩
        | error he => exact ⟨h1, .error he⟩

theorem OrgX.session (fuel : Nat) (clocks) : ∀ {o o'}, OrgX M o o' →
    Sim M (fun r r' => OrgX M r.1 r'.1 ∧ List.Forall₂ (ResRel M) r.2 r'.2) (Org.session fuel clocks o) (Org.session fuel clocks o') := by
  induction clocks with
  | nil => intro o o' h; exact ⟨h, .nil⟩
  | cons c cs ih =>
    intro o o' h
    unfold Org.session
    refine (OrgX.getAnswer fuel c h).bind fun r r' hr => ?_
    refine (ih hr.1).bind fun s s' hs => ?_
    exact ⟨hs.1, .cons hr.2 hs.2⟩

end
end PBfs
