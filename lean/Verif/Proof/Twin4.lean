import Verif.Proof.Twin3
import Verif.Proof.Turn
/-! # Related interpreters: control instructions -/
namespace PBfs

/-- In the middle of the work on executor `id`. -/
structure Mid (M : Cmp) (o o' : Org) (id : Nat) (e e' : Exec) (frs : List YFrame) (cs cs' : List TCode) : Prop extends OBase M o o' where
  others : Others M o o' (· = id)
  notin : id ∉ o.queue
  get : o.execs[id]? = some e
  get' : o'.execs[id]? = some e'
  rel : ERel M o.st o'.st frs cs cs' e e'
  running : e.state = .running
  parents : ∀ p, e.parent = some p → p < id ∧ ∃ a, o.execs[p]? = some a ∧ a.state = .archived

section
variable {M : Cmp} {o o' : Org} {id : Nat} {e e' : Exec} {frs : List YFrame} {cs cs' : List TCode}

theorem twin_get_ne {α} {l : List α} {i j : Nat} {a : α} (h : j ≠ i) : (l.set i a)[j]? = l[j]? := by
  rw [List.getElem?_set_ne (fun h' => h h'.symm)]

theorem twin_get_eq {α} {l : List α} {i : Nat} {a b : α} (h : l[i]? = some b) : (l.set i a)[i]? = some a := by
  rw [List.getElem?_set_self (List.getElem?_eq_some_iff.1 h).1]

/-- Others are not affected when one executor changes, unless it was archived. -/
theorem Others.set (ho : Others M o o' (· = id)) (hg : o.execs[id]? = some e) (hs : e.state ≠ .archived) (e1 e1' : Exec) :
    Others M (o.setExec id e1) (o'.setExec id e1') (· = id) := by
  intro j hj a a' ha ha'
  have ha : (o.execs.set id e1)[j]? = some a := ha
  have ha' : (o'.execs.set id e1')[j]? = some a' := ha'
  rw [twin_get_ne hj] at ha ha'
  have h := ho j hj a a' ha ha'
  refine ⟨h.base, h.arch, h.alive, fun p hp => ?_⟩
  obtain ⟨h1, b, hb, hbs⟩ := h.parents p hp
  refine ⟨h1, b, ?_, hbs⟩
  show (o.execs.set id e1)[p]? = some b
  rw [twin_get_ne]
  · exact hb
  · rintro rfl
    rw [hg] at hb; cases hb
    exact hs hbs

theorem OBase.set (hb : OBase M o o') (id) (e1 e1' : Exec) : OBase M (o.setExec id e1) (o'.setExec id e1') :=
  { hb with
    lt := fun i hi => by
      show i < (o.execs.set id e1).length
      rw [List.length_set]; exact hb.lt i hi
    len := by
      show (o.execs.set id e1).length = (o'.execs.set id e1').length
      rw [List.length_set, List.length_set]; exact hb.len }

theorem parents_set (hg : o.execs[id]? = some e) (hs : e.state ≠ .archived) {p : Nat} {e1 : Exec}
    (h : ∃ a, o.execs[p]? = some a ∧ a.state = .archived) : ∃ a, (o.setExec id e1).execs[p]? = some a ∧ a.state = .archived := by
  obtain ⟨b, hb, hbs⟩ := h
  refine ⟨b, ?_, hbs⟩
  show (o.execs.set id e1)[p]? = some b
  rw [twin_get_ne]
  · exact hb
  · rintro rfl
    rw [hg] at hb; cases hb
    exact hs hbs

theorem Mid.set (h : Mid M o o' id e e' frs cs cs') {frs1 cs1 cs1'} {e1 e1' : Exec} (h1 : ERel M o.st o'.st frs1 cs1 cs1' e1 e1') (hs : e1.state = .running)
    (hp : e1.parent = e.parent) : Mid M (o.setExec id e1) (o'.setExec id e1') id e1 e1' frs1 cs1 cs1' :=
  { h.toOBase.set id e1 e1' with
    others := h.others.set h.get (by rw [h.running]; decide) _ _
    notin := h.notin
    get := twin_get_eq h.get
    get' := twin_get_eq h.get'
    rel := h1
    running := hs
    parents := fun p hpp => by
      rw [hp] at hpp
      exact ⟨(h.parents p hpp).1, parents_set h.get (by rw [h.running]; decide) (h.parents p hpp).2⟩ }

theorem ERel.base {st st'} (h : ERel M st st' frs cs cs' e e') : XBase M st st' e e' := ⟨h.parent, h.hp, h.children, h.state, h.err⟩

/-- The executor is finished (it failed, succeeded or raised an error). -/
theorem Mid.done (h : Mid M o o' id e e' frs cs cs') {e1 e1' : Exec} (h1 : XBase M o.st o'.st e1 e1') (hs : e1.state ≠ .archived)
    (hp : e1.parent = e.parent) : OrgX M (o.setExec id e1) (o'.setExec id e1') :=
  { h.toOBase.set id e1 e1' with
    execs := fun j _ a a' ha ha' => by
      by_cases hj : j = id
      · subst hj
        have ha : (o.execs.set j e1)[j]? = some a := ha
        have ha' : (o'.execs.set j e1')[j]? = some a' := ha'
        rw [twin_get_eq h.get] at ha
        rw [twin_get_eq h.get'] at ha'
        cases ha; cases ha'
        refine ⟨h1, fun h2 => absurd h2 hs, fun hq => absurd hq h.notin, fun p hpp => ?_⟩
        rw [hp] at hpp
        exact ⟨(h.parents p hpp).1, parents_set h.get (by rw [h.running]; decide) (h.parents p hpp).2⟩
      · exact h.others.set h.get (by rw [h.running]; decide) _ _ j hj a a' ha ha' }

theorem EnvsRel.take1 {st st' es es'} (h : EnvsRel M st st' frs es es') : EnvsRel M st st' frs.head?.toList (es.take 1) (es'.take 1) := by
  cases h with
  | nil => exact .nil
  | cons h1 _ => exact .cons h1 .nil

/-- The executor is archived; new executors are queued. -/
theorem Mid.branch (h : Mid M o o' id e e' frs cs cs') {e1 e1' : Exec} (h1 : XBase M o.st o'.st e1 e1') (ha : Arch M o.st o'.st o.gen o'.gen e1 e1')
    (hs : e1.state = .archived) (hp : e1.parent = e.parent) {ids : List Nat} {new new' : List Exec}
    (hids : ids = List.range' o.execs.length new.length) {c c' : Nat} (hcc : c = c')
    (hn : List.Forall₂ (fun a a' => a.parent = some id ∧ a.state = .running ∧ Alive M o.st o'.st o.gen o'.gen a a') new new') :
    OrgX M { o.setExec id e1 with calls := c, execs := (o.setExec id e1).execs ++ new, queue := o.queue ++ ids }
      { o'.setExec id e1' with calls := c', execs := (o'.setExec id e1').execs ++ new', queue := o'.queue ++ ids } := by
  have hlen1 : (o.setExec id e1).execs.length = o.execs.length := List.length_set ..
  have hlen2 : (o'.setExec id e1').execs.length = o'.execs.length := List.length_set ..
  have hid : id < o.execs.length := (List.getElem?_eq_some_iff.1 h.get).1
  have hpar : ∀ p : Nat, (∃ a, o.execs[p]? = some a ∧ a.state = .archived) → ∃ a, ((o.setExec id e1).execs ++ new)[p]? = some a ∧ a.state = .archived := by
    intro p hp
    obtain ⟨a, ha1, ha2⟩ := parents_set (e1 := e1) h.get (by rw [h.running]; decide) hp
    refine ⟨a, ?_, ha2⟩
    rw [List.getElem?_append_left (List.getElem?_eq_some_iff.1 ha1).1]
    exact ha1
  refine
  { twin := h.twin, prog := h.prog, gen := h.gen, gen' := h.gen', calls := hcc, queue := ?_, nodup := ?_, lt := ?_, len := ?_, execs := ?_ }
  · show o.queue ++ ids = o'.queue ++ ids
    rw [h.queue]
  · show (o.queue ++ ids).Nodup
    rw [List.nodup_append]
    refine ⟨h.nodup, by rw [hids]; exact List.nodup_range', fun a ha b hb => ?_⟩
    rintro rfl
    rw [hids, List.mem_range'] at hb
    obtain ⟨i, _, rfl⟩ := hb
    have := h.lt _ ha
    omega
  · intro j hj
    show j < ((o.setExec id e1).execs ++ new).length
    rw [List.length_append, hlen1]
    rcases List.mem_append.1 hj with hj | hj
    · have := h.lt _ hj; omega
    · rw [hids, List.mem_range'] at hj
      obtain ⟨i, _, rfl⟩ := hj
      omega
  · show ((o.setExec id e1).execs ++ new).length = ((o'.setExec id e1').execs ++ new').length
    rw [List.length_append, List.length_append, hlen1, hlen2, h.len, forall₂_len hn]
  · intro j _ a a' hja hja'
    have hja : ((o.setExec id e1).execs ++ new)[j]? = some a := hja
    have hja' : ((o'.setExec id e1').execs ++ new')[j]? = some a' := hja'
    by_cases hj : j < o.execs.length
    · rw [List.getElem?_append_left (by omega)] at hja
      rw [List.getElem?_append_left (by rw [hlen2, ← h.len]; exact hj)] at hja'
      have hq : j ∈ o.queue ++ ids → j ∈ o.queue := by
        intro hm
        rcases List.mem_append.1 hm with hm | hm
        · exact hm
        · rw [hids, List.mem_range'] at hm
          obtain ⟨i, _, rfl⟩ := hm
          omega
      by_cases hji : j = id
      · subst hji
        have hja : (o.execs.set j e1)[j]? = some a := hja
        have hja' : (o'.execs.set j e1')[j]? = some a' := hja'
        rw [twin_get_eq h.get] at hja
        rw [twin_get_eq h.get'] at hja'
        cases hja; cases hja'
        refine ⟨h1, fun _ => ha, fun hm => absurd (hq hm) h.notin, fun p hpp => ?_⟩
        rw [hp] at hpp
        exact ⟨(h.parents p hpp).1, hpar p (h.parents p hpp).2⟩
      · have hja : (o.execs.set id e1)[j]? = some a := hja
        have hja' : (o'.execs.set id e1')[j]? = some a' := hja'
        rw [twin_get_ne hji] at hja hja'
        have hx := h.others j hji a a' hja hja'
        exact ⟨hx.base, hx.arch, fun hm => hx.alive (hq hm), fun p hpp => ⟨(hx.parents p hpp).1, hpar p (hx.parents p hpp).2⟩⟩
    · rw [List.getElem?_append_right (by omega)] at hja
      rw [List.getElem?_append_right (by rw [hlen2, ← h.len]; omega)] at hja'
      rw [hlen1] at hja
      rw [hlen2, ← h.len] at hja'
      have hx := forall₂_get hn (j - o.execs.length)
      rw [hja, hja'] at hx
      obtain ⟨hx1, hx2, frs', hx3, hx4⟩ := hx
      refine ⟨hx3.base, fun hx => (by rw [hx2] at hx; cases hx), fun _ => ⟨hx2, frs', hx3, hx4⟩, fun p hpp => ?_⟩
      rw [hx1] at hpp
      cases hpp
      refine ⟨by omega, e1, ?_, hs⟩
      show ((o.execs.set id e1) ++ new)[id]? = some e1
      rw [List.getElem?_append_left (by rw [List.length_set]; exact hid)]
      exact twin_get_eq h.get

/-- What is known about the atom being run and the atoms after it. -/
structure Run (M : Cmp) (o o' : Org) (out : List YFrame) (t t' : TCode) (cs cs' : List TCode) : Prop where
  gen : GenRel o.gen o'.gen t.gen t'.gen
  fromQuery : t.atom.fromQuery = t'.atom.fromQuery
  subst : List.Forall₂ (SubRel out.head?) t.atom.subst t'.atom.subst
  rest : CodesRel M o.st o'.st o.gen o'.gen out cs cs'

theorem Mid.arch {t t' : TCode} {ch ch'} (h : Mid M o o' id e e' frs (t :: cs) (t' :: cs')) (hr : Run M o o' frs t t' cs cs') :
    Arch M o.st o'.st o.gen o'.gen { e with codes := e.codes.take 1, envs := e.envs.take 1, children := ch, state := .archived }
      { e' with codes := e'.codes.take 1, envs := e'.envs.take 1, children := ch', state := .archived } := by
  refine ⟨h.rel.regs, t, t', frs.head?, ?_, ?_, hr.gen, hr.fromQuery, hr.subst, h.rel.envs.take1⟩
  · simp [h.rel.codes]
  · simp [h.rel.codes']

theorem GenRel.self (h : OBase M o o') : GenRel o.gen o'.gen o.gen o'.gen :=
  ⟨by simp [h.gen, h.gen'], by simp, Nat.le_refl _, Nat.le_refl _⟩

theorem child_alive {cs1 cs1' : List TCode} (h : Mid M o o' id e e' frs cs cs') (hc : CodesRel M o.st o'.st o.gen o'.gen frs cs1 cs1')
    (e1 e1' : Exec) (h1 : e1 = ⟨some id, ⟨e.hp.size, [], []⟩, [], e.regs, .read, 0, .running, cs1, e.envs, none⟩)
    (h2 : e1' = ⟨some id, ⟨e'.hp.size, [], []⟩, [], e'.regs, .read, 0, .running, cs1', e'.envs, none⟩) :
    Alive M o.st o'.st o.gen o'.gen e1 e1' := by
  subst h1 h2
  exact ⟨frs, ⟨rfl, ⟨h.rel.hp.size, .nil, .nil⟩, rfl, h.rel.regs, rfl, rfl, rfl, rfl, rfl, h.rel.envs, trivial⟩, hc⟩

theorem call_sim {t t' : TCode} (h : Mid M o o' id e e' frs (t :: cs) (t' :: cs')) (hr : Run M o o' frs t t' cs cs') (f) (hf : M.calls f) :
    OrgX M (o.call id e f) (o'.call id e' f) := by
  unfold Org.call
  have hp := h.prog f hf
  simp only
  cases h1 : o.program.rules? f <;> cases h2 : o'.program.rules? f <;> rw [h1, h2] at hp
  · have := h.done (e1 := e.setFailed) (e1' := e'.setFailed) h.rel.setFailed.base (by simp [Exec.setFailed]) rfl
    exact { this with calls := by show o.calls + 1 = o'.calls + 1; rw [h.calls], execs := this.execs }
  · exact hp.elim
  · exact hp.elim
  · rename_i rs rs'
    have hp : List.Forall₂ _ rs rs' := hp
    simp only
    rw [← h.len, ← forall₂_len hp, ← h.rel.children]
    refine h.branch (new := rs.map ({ o with calls := o.calls + 1 }.callChild id e)) (new' := rs'.map ({ o' with calls := o'.calls + 1 }.callChild id e')) (ids := List.range' o.execs.length rs.length) (c := o.calls + 1) (c' := o'.calls + 1) ?_ (h.arch hr) rfl rfl (by simp) (by rw [h.calls]) ?_
    · exact ⟨h.rel.parent, h.rel.hp, rfl, rfl, h.rel.err⟩
    · rename_i hp0
      clear h1 h2 hp0
      induction hp with
      | nil => exact .nil
      | @cons r r' _ _ hrr _ ih =>
        refine .cons ⟨rfl, rfl, ?_⟩ ih
        have hc := (hrr frs).codes (GenRel.self h.toOBase) hr.rest
        refine child_alive h hc _ _ ?_ ?_
        · simp [Org.callChild, h.rel.codes]
        · simp [Org.callChild, h.rel.codes']

theorem proceed_sim {t t' : TCode} (h : Mid M o o' id e e' frs (t :: cs) (t' :: cs')) (hr : Run M o o' frs t t' cs cs') :
    Sim M (OrgX M) (o.proceed id e) (o'.proceed id e') := by
  unfold Org.proceed
  refine Sim.bind (P := Eq) ?_ ?_
  · rw [← h.rel.failed, h.rel.codes, h.rel.codes']
    split
    · exact rfl
    · exact allDealloc_sim hr.rest
  · rintro d _ rfl
    split
    · refine h.done ?_ (by simp) rfl
      exact ⟨h.rel.parent, h.rel.hp, h.rel.children, rfl, h.rel.err⟩
    · simp only
      have := h.branch (new := [Org.proceedChild id e]) (new' := [Org.proceedChild id e']) (e1 := { e with codes := e.codes.take 1, envs := e.envs.take 1, children := e.children ++ [o.execs.length], state := .archived })
        (e1' := { e' with codes := e'.codes.take 1, envs := e'.envs.take 1, children := e'.children ++ [o.execs.length], state := .archived }) (ids := [o.execs.length])
        ⟨h.rel.parent, h.rel.hp, by simp only [h.rel.children], rfl, h.rel.err⟩ (h.arch hr) rfl rfl rfl h.calls
        (.cons ⟨rfl, rfl, child_alive h hr.rest _ _ (by simp [Org.proceedChild, h.rel.codes]) (by simp [Org.proceedChild, h.rel.codes'])⟩ .nil)
      refine Sim.pure ?_
      rw [← h.len]
      exact this

theorem dealloc_sim {t t' : TCode} {fr} (h : Mid M o o' id e e' (fr :: frs) (t :: cs) (t' :: cs')) (hr : Run M o o' frs t t' cs cs') :
    Sim M (OrgX M) (o.deallocate id e) (o'.deallocate id e') := by
  unfold Org.deallocate
  have he := h.rel.envs
  generalize hes : e.envs = es at he
  generalize hes' : e'.envs = es' at he
  cases he with
  | cons h1 h2 =>
    simp only
    rename_i env es env' es'
    have hid : id < o.execs.length := (List.getElem?_eq_some_iff.1 h.get).1
    have hm := h.set (e1 := { e with envs := es, codes := e.codes.drop 1 }) (e1' := { e' with envs := es', codes := e'.codes.drop 1 }) (frs1 := frs) (cs1 := cs) (cs1' := cs')
      { h.rel with envs := h2, codes := by simp [h.rel.codes], codes' := by simp [h.rel.codes'] } h.running rfl
    refine Sim.pure ?_
    refine { hm.toOBase with queue := ?_, nodup := ?_, lt := ?_, execs := ?_ }
    · show o.queue ++ [id] = o'.queue ++ [id]
      rw [h.queue]
    · show (o.queue ++ [id]).Nodup
      rw [List.nodup_append]
      refine ⟨h.nodup, by simp, fun a ha b hb => ?_⟩
      simp only [List.mem_singleton] at hb
      subst hb
      rintro rfl
      exact h.notin ha
    · intro j hj
      rcases List.mem_append.1 hj with hj | hj
      · exact hm.lt j hj
      · simp only [List.mem_singleton] at hj
        subst hj
        exact (List.getElem?_eq_some_iff.1 hm.get).1
    · intro j _ a a' ha ha'
      by_cases hj : j = id
      · subst hj
        have ha := Option.some.inj (ha.symm.trans hm.get)
        have ha' := Option.some.inj (ha'.symm.trans hm.get')
        subst ha ha'
        refine ⟨hm.rel.base, fun hx => ?_, fun _ => ⟨hm.running, frs, ?_, ?_⟩, hm.parents⟩
        · rw [hm.running] at hx; cases hx
        · exact { hm.rel with codes := rfl, codes' := rfl }
        · rw [hm.rel.codes, hm.rel.codes']; exact hr.rest
      · have hx := hm.others j hj a a' ha ha'
        refine ⟨hx.base, hx.arch, fun hq => hx.alive ?_, hx.parents⟩
        rcases List.mem_append.1 hq with hq | hq
        · exact hq
        · simp only [List.mem_singleton] at hq
          exact absurd hq hj

theorem DRel.isData {st st' cur i i'} (h : DRel M st st' cur i i') : i.isData = true ∧ i'.isData = true := by
  cases h <;> exact ⟨rfl, rfl⟩

theorem instr_isData {fuel id i} {o : Org} {e : Exec} (h : i.isData = true) (hg : o.execs[id]? = some e) :
    o.instr fuel id i = (stepData (preOf o.execs e) fuel o.st i e >>= fun e' => pure (o.setExec id e')) := by
  unfold Org.instr Org.exec
  rw [hg]
  cases i <;> first | rfl | cases h

theorem exec_set {o : Org} {e e1 : Exec} (h : o.execs[id]? = some e) : (o.setExec id e1).exec id = .ok e1 := by
  show orFault (o.execs.set id e1)[id]? = _
  rw [twin_get_eq h]; rfl

theorem setExec_twice {o : Org} {e1 e2 : Exec} : (o.setExec id e1).setExec id e2 = o.setExec id e2 := by
  unfold Org.setExec; simp

/-- `clear` on a failed executor. -/
theorem OrgX.clear {a b : Org} {e e' : Exec} (h : OrgX M a b) (hg : a.execs[id]? = some e) (hg' : b.execs[id]? = some e') (hf : e.failed = true) :
    OrgX M (a.setExec id e.clear) (b.setExec id e'.clear) := by
  have hx := h.execs id (fun h => h) e e' hg hg'
  have hs : e.state ≠ .archived := by intro h; simp [Exec.failed, h] at hf
  have hr : e.state ≠ .running := by intro h; simp [Exec.failed, h] at hf
  refine { h.toOBase.set id _ _ with execs := fun j _ c c' hc hc' => ?_ }
  by_cases hj : j = id
  · subst hj
    have hc : (a.execs.set j e.clear)[j]? = some c := hc
    have hc' : (b.execs.set j e'.clear)[j]? = some c' := hc'
    rw [twin_get_eq hg] at hc
    rw [twin_get_eq hg'] at hc'
    cases hc; cases hc'
    refine ⟨⟨hx.base.parent, hx.base.hp, hx.base.children, hx.base.state, hx.base.err⟩, fun h => absurd h hs, fun hq => absurd (hx.alive hq).1 hr, fun p hp => ?_⟩
    exact ⟨(hx.parents p hp).1, parents_set hg hs (hx.parents p hp).2⟩
  · exact Others.set (fun j hj => h.execs j (fun h => h)) hg hs _ _ j hj c c' hc hc'

theorem step_sim {i i'} {fuel} {k k' : Org → R Org} (h : Mid M o o' id e e' frs cs cs') (hi : DRel M o.st o'.st frs.head? i i')
    (hk : ∀ e1 e1', Mid M (o.setExec id e1) (o'.setExec id e1') id e1 e1' frs cs cs' → Sim M (OrgX M) (k (o.setExec id e1)) (k' (o'.setExec id e1'))) :
    Sim M (OrgX M)
      (o.instr fuel id i >>= fun o => o.exec id >>= fun e => if e.failed then pure (o.setExec id e.clear) else k o)
      (o'.instr fuel id i' >>= fun o => o.exec id >>= fun e => if e.failed then pure (o.setExec id e.clear) else k' o) := by
  rw [instr_isData hi.isData.1 h.get, instr_isData hi.isData.2 h.get', bind_assoc, bind_assoc]
  refine Sim.bind' (stepData_sim h.twin (preOf_rel h.toOBase h.others h.rel.parent fun p hp => (h.parents p hp).1) h.rel fuel hi) fun e1 e1' he1 _ hr => ?_
  simp only [pure_bind]
  rw [exec_set h.get, exec_set h.get', ok_bind, ok_bind, ← hr.failed]
  have hf := stepData_frame he1
  split
  · rw [setExec_twice, setExec_twice]
    refine h.done (e1 := e1.clear) (e1' := e1'.clear) ⟨hr.parent, hr.hp, hr.children, hr.state, hr.err⟩ ?_ hf.parent
    show e1.state ≠ _
    rcases hf.state h.running with h1 | h1 | h1
    · rw [h1]; decide
    · rw [h1]; decide
    · rw [h1.1]; decide
  · refine hk _ _ (h.set hr ?_ hf.parent)
    rename_i hnf
    rcases hf.state h.running with h1 | h1 | h1
    · exact h1
    · simp [Exec.failed, h1] at hnf
    · simp [Exec.failed, h1.1] at hnf

theorem instrs_sim {fuel} {is is' : List Instr} {st st' out} (hI : ILRel M st st' frs is is' out) : ∀ {o o' : Org} {e e' : Exec} {t t' : TCode}, st = o.st → st' = o'.st →
    Mid M o o' id e e' frs (t :: cs) (t' :: cs') → Run M o o' out t t' cs cs' → Sim M (OrgX M) (o.instrs fuel id is) (o'.instrs fuel id is') := by
  have last : ∀ {a b : Org}, OrgX M a b → Sim M (OrgX M) (a.exec id >>= fun e => if e.failed then pure (a.setExec id e.clear) else a.instrs fuel id [])
      (b.exec id >>= fun e => if e.failed then pure (b.setExec id e.clear) else b.instrs fuel id []) := by
    intro a b h
    unfold Org.exec
    by_cases hl : id < a.execs.length
    · have hg := List.getElem?_eq_getElem hl
      have hg' := List.getElem?_eq_getElem (l := b.execs) (i := id) (by rw [← h.len]; exact hl)
      have hx := h.execs id (fun h => h) _ _ hg hg'
      rw [hg, hg', orFault_some, orFault_some, ok_bind, ok_bind]
      have : (b.execs[id]'(by rw [← h.len]; exact hl)).failed = a.execs[id].failed := by
        unfold Exec.failed; rw [hx.base.state]
      rw [this]
      split
      · exact h.clear hg hg' ‹_›
      · exact h
    · rw [List.getElem?_eq_none (by omega), List.getElem?_eq_none (by rw [← h.len]; omega)]
      exact .err _
  induction hI with
  | data hd hI ih =>
    rintro o o' e e' t t' rfl rfl hm hr
    unfold Org.instrs
    refine step_sim hm hd fun e1 e1' hm1 => ?_
    exact ih rfl rfl hm1 ⟨hr.gen, hr.fromQuery, hr.subst, hr.rest⟩
  | @alloc frs is is' out fr hI ih =>
    rintro o o' e e' t t' rfl rfl hm hr
    unfold Org.instrs
    rw [instr_isData rfl hm.get, instr_isData rfl hm.get']
    simp only [stepData, pure_bind]
    rw [exec_set hm.get, exec_set hm.get', ok_bind, ok_bind]
    have hnf : e.failed = false := by simp [Exec.failed, hm.running]
    have hnf' : e'.failed = false := by rw [← hm.rel.failed]; exact hnf
    rw [if_neg, if_neg]
    · refine ih rfl rfl (hm.set (e1 := { e with envs := List.replicate fr.ys.length Cell.zero :: e.envs }) (e1' := { e' with envs := List.replicate fr.ys'.length Cell.zero :: e'.envs })
        { hm.rel with envs := .cons ⟨by simp, by simp, fun y y' hy => ?_⟩ hm.rel.envs } hm.running rfl) ⟨hr.gen, hr.fromQuery, hr.subst, hr.rest⟩
      rw [List.getElem?_replicate, List.getElem?_replicate, if_pos hy.lt.1, if_pos hy.lt.2]
      exact CellRel.zero
    · simpa [Exec.failed] using hnf'
    · simpa [Exec.failed] using hnf
  | call f hf =>
    rintro o o' e e' t t' rfl rfl hm hr
    unfold Org.instrs Org.instr Org.exec
    rw [hm.get, hm.get']
    simp only [orFault_some, ok_bind, pure_bind]
    exact last (call_sim hm hr f hf)
  | proceed =>
    rintro o o' e e' t t' rfl rfl hm hr
    unfold Org.instrs Org.instr Org.exec
    rw [hm.get, hm.get']
    simp only [orFault_some, ok_bind]
    exact (proceed_sim hm hr).bind fun a b h => last h
  | dealloc =>
    rintro o o' e e' t t' rfl rfl hm hr
    unfold Org.instrs Org.instr Org.exec
    rw [hm.get, hm.get']
    simp only [orFault_some, ok_bind]
    exact (dealloc_sim hm hr).bind fun a b h => last h

end
end PBfs
