import Verif.Proof.Twin7
import Verif.Spec.Lockstep
/-! # Related interpreters: loading programs and queries -/
namespace PBfs

/-! ## Growing storages -/
section
variable {M : Cmp} {st st' s s' : Storage}

theorem functorAt_mono (h : StLe st s) {i f} (hi : st.functorAt i = some f) : s.functorAt i = some f := by
  unfold Storage.functorAt at *
  split at hi
  · rw [if_pos ‹_›]; exact prefix_getElem? h.functors hi
  · cases hi

theorem varAt_mono (h : StLe st s) {i f} (hi : st.varAt i = some f) : s.varAt i = some f := by
  unfold Storage.varAt at *
  split at hi
  · rw [if_pos ‹_›]; exact prefix_getElem? h.vars hi
  · cases hi

variable (h : StLe st s) (h' : StLe st' s')
include h h'

theorem FIdx.mono {i j} (hi : FIdx M st st' i j) : FIdx M s s' i j := by
  rcases hi with ⟨f, h1, h2⟩ | h0
  · exact .inl ⟨f, functorAt_mono h h1, functorAt_mono h' h2⟩
  · exact .inr h0

theorem VIdx.mono {i j} (hi : VIdx M st st' i j) : VIdx M s s' i j := by
  rcases hi with ⟨f, h1, h2⟩ | h0
  · exact .inl ⟨f, varAt_mono h h1, varAt_mono h' h2⟩
  · exact .inr h0

theorem CellRel.mono {c c'} (hc : CellRel M st st' c c') : CellRel M s s' c c' := by
  cases hc with
  | cons hi => exact .cons (hi.mono h h')
  | int v => exact .int v
  | ref a hv => exact .ref a (hv.mono h h')
  | fn n hi => exact .fn n (hi.mono h h')
  | efn => exact .efn _ _
  | str => exact .str _

theorem HpRel.mono {p q} (hr : HpRel M st st' p q) : HpRel M s s' p q :=
  ⟨hr.start, forall₂_imp (fun _ _ hx => ⟨hx.1, hx.2.mono h h'⟩) hr.changes, forall₂_imp (fun _ _ hx => hx.mono h h') hr.own⟩

theorem EnvsRel.mono {frs es es'} (he : EnvsRel M st st' frs es es') : EnvsRel M s s' frs es es' := by
  induction he with
  | nil => exact .nil
  | cons h1 _ ih =>
    refine .cons ⟨h1.len, h1.len', fun y y' hy => ?_⟩ ih
    have := h1.get y y' hy
    revert this
    cases (_ : List Cell)[y]? <;> cases (_ : List Cell)[y']? <;> intro this
    · trivial
    · exact this
    · exact this
    · exact CellRel.mono h h' this

theorem ERel.mono {frs cs cs' e e'} (he : ERel M st st' frs cs cs' e e') : ERel M s s' frs cs cs' e e' :=
  { he with hp := he.hp.mono h h', regs := forall₂_imp (fun _ _ hx => hx.mono h h') he.regs, envs := he.envs.mono h h' }

theorem DRel.mono {cur i i'} (hd : DRel M st st' cur i i') : DRel M s s' cur i i' := by
  cases hd with
  | putStructure x h1 h2 => exact .putStructure x h1 (h2.mono h h')
  | setVariable x h1 => exact .setVariable x (h1.mono h h')
  | setPermVariable h1 h2 h3 => exact .setPermVariable h1 h2 (h3.mono h h')
  | setValue => exact .setValue _
  | setPermValue h1 h2 => exact .setPermValue h1 h2
  | getStructure x h1 h2 => exact .getStructure x h1 (h2.mono h h')
  | unifyStructure x h1 h2 => exact .unifyStructure x h1 (h2.mono h h')
  | unifyVariable x h1 => exact .unifyVariable x (h1.mono h h')
  | unifyPermVariable h1 h2 h3 => exact .unifyPermVariable h1 h2 (h3.mono h h')
  | unifyValue => exact .unifyValue _
  | unifyPermValue h1 h2 => exact .unifyPermValue h1 h2
  | putVariable x a h1 => exact .putVariable x a (h1.mono h h')
  | putPermVariable a h1 h2 h3 => exact .putPermVariable a h1 h2 (h3.mono h h')
  | putValue => exact .putValue _ _
  | putPermValue a h1 h2 => exact .putPermValue a h1 h2
  | getVariable => exact .getVariable _ _
  | getPermVariable a h1 h2 => exact .getPermVariable a h1 h2
  | getValue => exact .getValue _ _
  | getPermValue a h1 h2 => exact .getPermValue a h1 h2
  | builtin b l r hb => exact .builtin b l r hb

theorem ILRel.mono {frs is is' out} (hi : ILRel M st st' frs is is' out) : ILRel M s s' frs is is' out := by
  induction hi with
  | data hd _ ih => exact .data (hd.mono h h') ih
  | alloc fr _ ih => exact .alloc fr ih
  | call f hf => exact .call f hf
  | proceed => exact .proceed
  | dealloc => exact .dealloc

theorem AtomRel.mono {frs a a' out} (ha : AtomRel M st st' frs a a' out) : AtomRel M s s' frs a a' out :=
  { ha with instrs := ha.instrs.mono h h' }

theorem ChainRel.mono {frs a a' out} (ha : ChainRel M st st' frs a a' out) : ChainRel M s s' frs a a' out := by
  induction ha with
  | nil => exact .nil _
  | cons ha _ ih => exact .cons (ha.mono h h') ih

theorem PRel.mono {p p'} (hp : PRel M st st' p p') : PRel M s s' p p' := by
  intro f hf
  have := hp f hf
  revert this
  cases p.rules? f <;> cases p'.rules? f <;> intro this
  · trivial
  · exact this
  · exact this
  · exact forall₂_imp (fun _ _ hr frs => (hr frs).mono h h') this

omit h h' in
theorem GenRel.next {g g' t t' : Nat} (hg : GenRel g g' t t') : GenRel (g + 1) (g' + 1) t t' := by
  have := hg.le
  have := hg.le'
  exact ⟨hg.zero, by omega, by omega, by omega⟩

/-- A program may have been replaced, too. -/
theorem CodesRel.mono {g g' g1 g1' frs cs cs'} (hg : ∀ t t', GenRel g g' t t' → GenRel g1 g1' t t') (hc : CodesRel M st st' g g' frs cs cs') :
    CodesRel M s s' g1 g1' frs cs cs' := by
  induction hc with
  | nil => exact .nil _
  | cons h1 h2 _ ih => exact .cons (hg _ _ h1) (h2.mono h h') ih

theorem XRel.mono {g g' g1 g1' q execs id e e'} (hg : ∀ t t', GenRel g g' t t' → GenRel g1 g1' t t') (hx : XRel M st st' g g' q execs id e e') :
    XRel M s s' g1 g1' q execs id e e' := by
  refine ⟨{ hx.base with hp := hx.base.hp.mono h h' }, fun ha => ?_, fun hq => ?_, hx.parents⟩
  · obtain ⟨h1, t, t', cur, h2, h3, h4, h5, h6, h7⟩ := hx.arch ha
    exact ⟨forall₂_imp (fun _ _ hx => hx.mono h h') h1, t, t', cur, h2, h3, hg _ _ h4, h5, h6, h7.mono h h'⟩
  · obtain ⟨h1, frs, h2, h3⟩ := hx.alive hq
    exact ⟨h1, frs, h2.mono h h', h3.mono h h' hg⟩

end

/-! ## Interpreters -/

/-- Interpreters that differ only in numbers (and, while no query is pending, in remains of old ones). -/
structure OrgRel (M : Cmp) (o o' : Org) : Prop where
  twin : Twin M o.st o'.st
  prog : PRel M o.st o'.st o.program o'.program
  bkeys : (o.builtins.map (·.1)).Nodup
  bkeys' : (o'.builtins.map (·.1)).Nodup
  bprog : PRel M o.st o'.st o.builtins o'.builtins
  gen : o.gen ≠ 0
  gen' : o'.gen ≠ 0
  queue : o.queue = o'.queue
  busy : o.queue ≠ [] → OrgX M o o'

section
variable {M : Cmp} {o o' : Org}

theorem Twin.grow {st st' s s' : Storage} (T : Twin M st st') (h : Grow st s) (h' : Grow st' s') (hz : (ZRel.zero M).rel s s')
    (h1 : ¬ M.ex → s.functors.length ≤ 32768 ∧ s.vars.length ≤ 32768) (h2 : ¬ M.ex → s'.functors.length ≤ 32768 ∧ s'.vars.length ≤ 32768) : Twin M s s' :=
  ⟨h.nodup T.nodup, h'.nodup T.nodup', fun e => (h1 e).1, fun e => (h2 e).1, fun e => (h1 e).2, fun e => (h2 e).2, hz.1, hz.2⟩

theorem OrgX.grow (hx : OrgX M o o') {s s' : Storage} (T : Twin M s s') (h : StLe o.st s) (h' : StLe o'.st s') : OrgX M { o with st := s } { o' with st := s' } :=
  { hx with
    twin := T
    prog := hx.prog.mono h h'
    execs := fun id hid e e' he he' => (hx.execs id hid e e' he he').mono h h' fun _ _ h => h }

theorem OrgRel.grow (hx : OrgRel M o o') {s s' : Storage} (T : Twin M s s') (h : StLe o.st s) (h' : StLe o'.st s') : OrgRel M { o with st := s } { o' with st := s' } :=
  { hx with
    twin := T
    prog := hx.prog.mono h h'
    bprog := hx.bprog.mono h h'
    busy := fun hq => (hx.busy hq).grow T h h' }

theorem PRel.add {st st' : Storage} {p p' : Program} (hp : PRel M st st' p p') (f : FV) {r r'} (hr : RuleRel M st st' r r') :
    PRel M st st' (p.addRule f r) (p'.addRule f r') := by
  intro g hg
  have := hp g hg
  revert this
  rw [Program.rules?_addRule, Program.rules?_addRule]
  by_cases hgf : g = f
  · subst hgf
    rw [if_pos rfl, if_pos rfl]
    cases p.rules? g <;> cases p'.rules? g <;> intro this
    · exact .cons hr .nil
    · cases this
    · cases this
    · exact forall₂_app this (.cons hr .nil)
  · rw [if_neg hgf, if_neg hgf]; exact id

theorem compileProgram_ss {F F' : Storage} (T : Twin M F F') {z : ZRel M} {ord ord' : HashOrder} (ho : ord.OK) (ho' : ord'.OK) : ∀ (cs : List Clause),
    (∀ c ∈ cs, ∀ a ∈ c.body, M.calls a.fv) → ∀ {p p' : Program} {st st' : Storage}, (z.rel st st') →
    SS z F F' st st' (·.2) (·.2) (fun r r' => PRel M F F' p p' → PRel M F F' r.1 r'.1) (compileProgram ord cs p st) (compileProgram ord' cs p' st')
  | [], _, p, p', st, st', hz => ⟨.refl _, .refl _, hz, fun _ _ h => h⟩
  | c :: cs, hl, p, p', st, st', hz => by
    unfold compileProgram
    refine (compileClause_ss (M := M) T ho ho' false c.head c.body (hl c (by simp)) hz).bind fun a b hz1 => ?_
    obtain ⟨f, r, s1⟩ := a
    obtain ⟨f', r', s1'⟩ := b
    simp only
    have ih := compileProgram_ss T ho ho' cs (fun c hc => hl c (by simp [hc])) (p := p.addRule f r) (p' := p'.addRule f' r') hz1
    revert ih
    generalize compileProgram ord cs (p.addRule f r) s1 = x
    generalize compileProgram ord' cs (p'.addRule f' r') s1' = y
    intro ih
    cases x with
    | error e =>
      cases y with
      | error e' => exact ih
      | ok b => cases ih
    | ok a =>
      cases y with
      | error e' => cases ih
      | ok b =>
        refine ⟨ih.1, ih.2.1, ih.2.2.1, fun s s' hr hp => ih.2.2.2 s s' ?_⟩
        obtain ⟨rfl, hr⟩ := hr
        exact hp.add f hr

theorem merge_rel {st st' : Storage} {b b' p p' : Program} (hb : (b.map (·.1)).Nodup) (hb' : (b'.map (·.1)).Nodup)
    (h1 : PRel M st st' b b') (h2 : PRel M st st' p p') : PRel M st st' (Org.mergeBuiltins b p) (Org.mergeBuiltins b' p') := by
  intro f hf
  rw [mergeBuiltins_rules _ _ _ hb, mergeBuiltins_rules _ _ _ hb']
  have h3 := h1 f hf
  revert h3
  cases b.rules? f <;> cases b'.rules? f <;> intro h3
  · exact h2 f hf
  · cases h3
  · cases h3
  · exact h3

theorem Twin.empty : Twin M ⟨[], []⟩ ⟨[], []⟩ := ⟨by simp, by simp, by simp, by simp, by simp, by simp, rfl, fun _ => rfl⟩

/-- Loading the same program on both sides. -/
theorem OrgRel.loadProgram (h : OrgRel M o o') {ord ord' : HashOrder} (ho : ord.OK) (ho' : ord'.OK) (parsed : Option (List Clause))
    (hl : ∀ cs, parsed = some cs → ∀ c ∈ cs, ∀ a ∈ c.body, M.calls a.fv) :
    (o.loadProgram ord parsed).2 = (o'.loadProgram ord' parsed).2 ∧
    ((¬ M.ex → (o.loadProgram ord parsed).1.Small) → (¬ M.ex → (o'.loadProgram ord' parsed).1.Small) → OrgRel M (o.loadProgram ord parsed).1 (o'.loadProgram ord' parsed).1) := by
  unfold Org.loadProgram
  cases parsed with
  | none => exact ⟨rfl, fun _ _ => h⟩
  | some cs =>
    simp only
    have key := fun {F F' : Storage} (T : Twin M F F') => compileProgram_ss (z := ZRel.zero M) T (M := M) ho ho' cs (hl cs rfl) (p := []) (p' := []) ⟨h.twin.zero, h.twin.same⟩
    have k0 := key Twin.empty
    cases hx : compileProgram ord cs [] o.st with
    | error e =>
      cases hy : compileProgram ord' cs [] o'.st with
      | ok b => rw [hx, hy] at k0; cases k0
      | error e' =>
        rw [hx, hy] at k0
        obtain ⟨e, s⟩ := e
        obtain ⟨e', s'⟩ := e'
        obtain ⟨rfl, hz, g1, g2⟩ := k0
        exact ⟨rfl, fun s1 s2 => h.grow (h.twin.grow g1 g2 hz s1 s2) g1.le g2.le⟩
    | ok a =>
      cases hy : compileProgram ord' cs [] o'.st with
      | error e' => rw [hx, hy] at k0; cases k0
      | ok b =>
        rw [hx, hy] at k0
        obtain ⟨p, s⟩ := a
        obtain ⟨p', s'⟩ := b
        obtain ⟨g1, g2, hz, _⟩ := k0
        refine ⟨rfl, fun s1 s2 => ?_⟩
        have T := h.twin.grow g1 g2 hz s1 s2
        have k1 := key T
        rw [hx, hy] at k1
        have hp : PRel M s s' p p' := k1.2.2.2 (.refl _) (.refl _) fun f _ => trivial
        have hm := merge_rel h.bkeys h.bkeys' (h.bprog.mono g1.le g2.le) hp
        exact
          { twin := T, prog := hm, bkeys := h.bkeys, bkeys' := h.bkeys', bprog := h.bprog.mono g1.le g2.le, gen := by simp, gen' := by simp, queue := h.queue
            busy := fun hq =>
              { h.busy hq with
                twin := T, prog := hm, gen := by simp, gen' := by simp
                execs := fun id hid e e' he he' => ((h.busy hq).execs id hid e e' he he').mono g1.le g2.le fun _ _ hg => hg.next } }

/-- Loading the same query on both sides. -/
theorem OrgRel.loadQuery (h : OrgRel M o o') {ord ord' : HashOrder} (ho : ord.OK) (ho' : ord'.OK) (parsed : Option (List Node))
    (hl : ∀ as, parsed = some as → ∀ a ∈ as, M.calls a.fv) :
    (o.loadQuery ord parsed).2 = (o'.loadQuery ord' parsed).2 ∧
    ((¬ M.ex → (o.loadQuery ord parsed).1.Small) → (¬ M.ex → (o'.loadQuery ord' parsed).1.Small) → OrgRel M (o.loadQuery ord parsed).1 (o'.loadQuery ord' parsed).1) := by
  have h0 : OrgRel M { o with queue := [], calls := 0 } { o' with queue := [], calls := 0 } :=
    { h with queue := rfl, busy := fun hq => absurd rfl hq }
  unfold Org.loadQuery
  cases parsed with
  | none => exact ⟨rfl, fun _ _ => h0⟩
  | some as =>
    simp only
    have key := fun {F F' : Storage} (T : Twin M F F') => compileQuery_ss (z := ZRel.zero M) T (M := M) ho ho' as (hl as rfl) ⟨h.twin.zero, h.twin.same⟩
    have k0 := key Twin.empty
    cases hx : compileQuery ord as o.st with
    | error e =>
      cases hy : compileQuery ord' as o'.st with
      | ok b => rw [hx, hy] at k0; cases k0
      | error e' =>
        rw [hx, hy] at k0
        obtain ⟨e, s⟩ := e
        obtain ⟨e', s'⟩ := e'
        obtain ⟨rfl, hz, g1, g2⟩ := k0
        exact ⟨rfl, fun s1 s2 => h0.grow (h.twin.grow g1 g2 hz s1 s2) g1.le g2.le⟩
    | ok a =>
      cases hy : compileQuery ord' as o'.st with
      | error e' => rw [hx, hy] at k0; cases k0
      | ok b =>
        rw [hx, hy] at k0
        obtain ⟨p, s⟩ := a
        obtain ⟨p', s'⟩ := b
        obtain ⟨g1, g2, hz, _⟩ := k0
        refine ⟨rfl, fun s1 s2 => ?_⟩
        have T := h.twin.grow g1 g2 hz s1 s2
        have k1 := key T
        rw [hx, hy] at k1
        obtain ⟨out, hc⟩ := k1.2.2.2 (.refl _) (.refl _)
        have hg : GenRel o.gen o'.gen 0 0 := ⟨Iff.rfl, ⟨fun h0 => absurd h0.symm h.gen, fun h0 => absurd h0.symm h.gen'⟩, by omega, by omega⟩
        have hcodes := hc.codes hg (.nil out)
        rw [List.append_nil, List.append_nil] at hcodes
        have hm := h.prog.mono g1.le g2.le
        refine
          { twin := T, prog := hm, bkeys := h.bkeys, bkeys' := h.bkeys', bprog := h.bprog.mono g1.le g2.le, gen := h.gen, gen' := h.gen', queue := rfl
            busy := fun _ => ?_ }
        refine ⟨⟨T, hm, h.gen, h.gen', rfl, rfl, by simp, by simp, rfl⟩, ?_⟩
        rintro (_ | id) _ e e' he he'
        · cases he
          cases he'
          refine ⟨⟨rfl, ⟨rfl, .nil, .nil⟩, rfl, rfl, trivial⟩, fun ha => (by cases ha), fun _ => ⟨rfl, [], ?_, hcodes⟩, fun p hp => (by cases hp)⟩
          exact ⟨rfl, ⟨rfl, .nil, .nil⟩, rfl, .nil, rfl, rfl, rfl, rfl, rfl, .nil, trivial⟩
        · simp at he

theorem OrgRel.getAnswer (h : OrgRel M o o') (hr : Reach o) (hr' : Reach o') (fuel : Nat) (clock) :
    Sim M (fun r r' => OrgRel M r.1 r'.1 ∧ ResRel M r.2 r'.2) (Org.getAnswer fuel clock o) (Org.getAnswer fuel clock o') := by
  by_cases hq : o.queue = []
  · have : ∀ {o : Org} (clock), o.queue = [] → Org.getAnswer fuel clock o = .ok (o, .noAnswer) := by
      intro o clock hq
      cases clock <;> (unfold Org.getAnswer; rw [hq]; rfl)
    rw [this clock hq, this clock (h.queue ▸ hq)]
    exact ⟨h, .noAnswer⟩
  · have hs := OrgX.getAnswer fuel clock (h.busy hq)
    revert hs
    cases hx : Org.getAnswer fuel clock o with
    | error e => cases hy : Org.getAnswer fuel clock o' <;> exact id
    | ok a =>
      cases hy : Org.getAnswer fuel clock o' with
      | error => exact id
      | ok b =>
        rintro ⟨h1, h2⟩
        obtain ⟨a1, _, a2, _⟩ := getAnswer_keeps hr.rinv hx
        obtain ⟨b1, _, b2, _⟩ := getAnswer_keeps hr'.rinv hy
        exact ⟨⟨h1.twin, h1.prog, by rw [a1]; exact h.bkeys, by rw [b1]; exact h.bkeys', by rw [a1, b1, a2, b2]; exact h.bprog, h1.gen, h1.gen', h1.queue, fun _ => h1⟩, h2⟩

theorem OrgRel.clear {o o' : Org} : OrgRel M o.clearMemory o'.clearMemory :=
  { twin := Twin.empty, prog := fun _ _ => trivial, bkeys := List.nodup_nil, bkeys' := List.nodup_nil, bprog := fun _ _ => trivial, gen := by simp [Org.clearMemory],
    gen' := by simp [Org.clearMemory], queue := rfl, busy := fun hq => absurd rfl hq }

end
end PBfs
