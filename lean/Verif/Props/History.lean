import Verif.Proof.Twin9
import Verif.Spec.Lockstep
import Verif.Spec.Demo
/-! # C20, C36, C37, C40: what answers do not depend on -/
namespace PBfs

/-- Same numbers on both sides. -/
def Cmp.exact : Cmp := ⟨fun _ => True, False, True, fun _ => .inr trivial⟩

/-- Everything but `is`. -/
def Cmp.noIs (calls : FV → Prop) (h : ¬ calls isFV) : Cmp := ⟨calls, False, False, fun hc => absurd hc h⟩

/-- Up to the bad addresses of `is`. -/
def Cmp.rough (calls : FV → Prop) : Cmp := ⟨calls, True, False, fun _ => .inl trivial⟩

section
variable {M : Cmp} {o o' : Org}

theorem ResRel.eq {r r'} (hM : ¬ M.lax) (h : ResRel M r r') : r = r' := by
  cases h with
  | @error e e' he =>
    obtain ⟨k, m⟩ := e
    obtain ⟨k', m'⟩ := e'
    obtain ⟨h1, h2⟩ := he
    have h2 := h2 fun h => absurd h hM
    simp only at h1 h2
    rw [h1, h2]
  | _ => rfl

theorem ResRel.like {r r'} (h : ResRel M r r') : Org.Res.Like r r' := by
  cases h with
  | @error e e' he =>
    obtain ⟨k, m⟩ := e
    obtain ⟨k', m'⟩ := e'
    obtain ⟨h1, h2⟩ := he
    simp only at h1 h2
    subst h1
    by_cases hk : k = .notArithmetic
    · subst hk; exact .text _ _
    · rw [h2 fun _ => hk]; exact .same _
  | _ => exact .same _

theorem forall₂_eq {α} {l m : List α} (h : List.Forall₂ (fun a b => a = b) l m) : l = m := by
  induction h with
  | nil => rfl
  | cons h _ ih => rw [h, ih]

theorem OrgRel.session (h : OrgRel M o o') (hr : Reach o) (hr' : Reach o') (fuel : Nat) (clocks) :
    Sim M (fun r r' => List.Forall₂ (ResRel M) r.2 r'.2) (Org.session fuel clocks o) (Org.session fuel clocks o') := by
  induction clocks generalizing o o' with
  | nil => exact .nil
  | cons c cs ih =>
    unfold Org.session
    have hg := h.getAnswer hr hr' fuel c
    revert hg
    cases hx : Org.getAnswer fuel c o with
    | error e =>
      cases hy : Org.getAnswer fuel c o' with
      | error f => exact id
      | ok b =>
        rintro ⟨h1, rfl⟩
        show Sim M _ (.error _) _
        generalize (Except.ok b >>= _ : R (Org × List Org.Res)) = z
        cases z
        · exact .inr ⟨h1, .inl rfl⟩
        · exact ⟨h1, rfl⟩
    | ok a =>
      cases hy : Org.getAnswer fuel c o' with
      | error f =>
        rintro ⟨h1, rfl⟩
        show Sim M _ _ (.error _)
        generalize (Except.ok a >>= _ : R (Org × List Org.Res)) = z
        cases z
        · exact .inr ⟨h1, .inr rfl⟩
        · exact ⟨h1, rfl⟩
      | ok b =>
        rintro ⟨h1, h2⟩
        rw [ok_bind, ok_bind]
        refine (ih h1 (.answer hr hx) (.answer hr' hy)).bind fun s s' hs => ?_
        exact .cons h2 hs

theorem OrgRel.talk (h : OrgRel M o o') (hr : Reach o) (hr' : Reach o') (hM : ¬ M.lax) (fuel : Nat) (clocks) : o.talk fuel clocks = o'.talk fuel clocks := by
  have := h.session hr hr' fuel clocks
  unfold Org.talk
  revert this
  cases Org.session fuel clocks o <;> cases Org.session fuel clocks o'
  · rintro (rfl | ⟨h, _⟩)
    · rfl
    · exact absurd h hM
  · rintro ⟨h, _⟩; exact absurd h hM
  · rintro ⟨h, _⟩; exact absurd h hM
  · intro h
    exact congrArg Except.ok (forall₂_eq (forall₂_imp (fun _ _ h => h.eq hM) h))

theorem OrgRel.alike (h : OrgRel M o o') (hr : Reach o) (hr' : Reach o') (fuel : Nat) (clocks) : Alike (o.talk fuel clocks) (o'.talk fuel clocks) := by
  have := h.session hr hr' fuel clocks
  unfold Org.talk
  revert this
  cases Org.session fuel clocks o <;> cases Org.session fuel clocks o'
  · rintro (rfl | ⟨h, rfl | rfl⟩)
    · exact .inl rfl
    · exact .inr (.inl rfl)
    · exact .inr (.inr (.inl rfl))
  · rintro ⟨_, rfl⟩; exact .inr (.inl rfl)
  · rintro ⟨_, rfl⟩; exact .inr (.inr (.inl rfl))
  · intro h
    exact .inr (.inr (.inr ⟨_, _, rfl, rfl, forall₂_imp (fun _ _ h => h.like) h⟩))

end

/-! ## C36, C37: lockstep -/

theorem Lockstep.rel {start : Org → Org → Prop} (hs : ∀ o o', start o o' → OrgRel .exact o o' ∧ Reach o ∧ Reach o') {o o'} (h : Lockstep start o o') :
    OrgRel .exact o o' ∧ Reach o ∧ Reach o' := by
  induction h with
  | start h => exact hs _ _ h
  | program parsed _ ho ho' ih =>
    exact ⟨(ih.1.loadProgram ho ho' parsed fun _ _ _ _ _ _ => trivial).2 (fun h => absurd trivial h) (fun h => absurd trivial h), .program _ _ ih.2.1, .program _ _ ih.2.2⟩
  | query parsed _ ho ho' ih =>
    exact ⟨(ih.1.loadQuery ho ho' parsed fun _ _ _ _ => trivial).2 (fun h => absurd trivial h) (fun h => absurd trivial h), .query _ _ ih.2.1, .query _ _ ih.2.2⟩
  | @answer o o' o1 o1' fuel clock r r' _ ha ha' ih =>
    have := ih.1.getAnswer ih.2.1 ih.2.2 fuel clock
    rw [ha, ha'] at this
    exact ⟨this.1, .answer ih.2.1 ha, .answer ih.2.2 ha'⟩
  | memory _ ih => exact ⟨.clear, .memory ih.2.1, .memory ih.2.2⟩

theorem OrgRel.sameTalk {o o'} (h : OrgRel .exact o o') (hr : Reach o) (hr' : Reach o') : SameTalk o o' :=
  ⟨fun _ _ parsed ho ho' => (h.loadProgram ho ho' parsed fun _ _ _ _ _ _ => trivial).1,
    fun _ _ parsed ho ho' => (h.loadQuery ho ho' parsed fun _ _ _ _ => trivial).1,
    fun fuel clocks => h.talk hr hr' id fuel clocks⟩

/-- **C36.** Two interpreters that have been put through the same calls cannot be told apart, although hash maps were
enumerated in different orders: the same texts are accepted, and all results of `get_answer` are the same, in the same
order - and so is undefined behaviour. -/
theorem C36_hash_order {o o'} (h : Lockstep BothNew o o') : SameTalk o o' := by
  obtain ⟨h1, h2, h3⟩ := h.rel fun o o' hs => by
    obtain ⟨h1, h2⟩ := hs
    have e1 := h1
    have e2 := h2
    rw [Org.init_eq] at e1 e2
    cases e1
    cases e2
    exact ⟨.init, .init h1, .init h2⟩
  exact h1.sameTalk h2 h3

/-- **C37 (part that holds).** After memory exhaustion the past is forgotten: any two interpreters whose memory was
exhausted, whatever happened before, cannot be told apart if they are put through the same calls afterwards.
Missing: they can be told apart from a new interpreter, because the built-in predicates are lost (`C37_built_ins_lost`). -/
theorem C37_past_forgotten_partial {o o'} (h : Lockstep BothCleared o o') : SameTalk o o' := by
  obtain ⟨h1, h2, h3⟩ := h.rel fun o o' hs => by
    obtain ⟨a, b, ha, hb, rfl, rfl⟩ := hs
    exact ⟨.clear, .memory ha, .memory hb⟩
  exact h1.sameTalk h2 h3

/-! ## C20: rejected programs -/

theorem loadProgram_grow {ord : HashOrder} {o : Org} {parsed} : Grow o.st (o.loadProgram ord parsed).1.st := by
  by_cases h : (o.loadProgram ord parsed).2 = .ok
  · cases parsed with
    | none => exact .refl _
    | some p =>
      obtain ⟨q, h1, h2⟩ := loadProgram_ok (o := o) (o' := (o.loadProgram ord (some p)).1) (p' := p) (ord := ord) (by rw [← h])
      exact (compileProgram_grows _ _ _ _).of_ok h1
  · exact (loadProgram_rejected (o' := (o.loadProgram ord parsed).1) (l := (o.loadProgram ord parsed).2) rfl h).1

theorem Rejecting.rel {calls : FV → Prop} {M : Cmp} (hc : M.calls = calls) (hM : ¬ M.ex) {o o'} (h : Rejecting calls o o') :
    OrgRel M o o' ∧ Reach o ∧ Reach o' ∧ Grow Org.init0.st o.st := by
  induction h with
  | init h =>
    have e := h
    rw [Org.init_eq] at e
    cases e
    exact ⟨.init, .init h, .init h, .refl _⟩
  | program parsed _ ho ho' hp s s' ih =>
    exact ⟨(ih.1.loadProgram ho ho' parsed (hc ▸ hp)).2 (fun _ => s) (fun _ => s'), .program _ _ ih.2.1, .program _ _ ih.2.2.1, ih.2.2.2.trans loadProgram_grow⟩
  | query parsed _ ho ho' hp s s' ih =>
    exact ⟨(ih.1.loadQuery ho ho' parsed (hc ▸ hp)).2 (fun _ => s) (fun _ => s'), .query _ _ ih.2.1, .query _ _ ih.2.2.1, ih.2.2.2.trans loadQuery_st.1⟩
  | @answer o o' o1 o1' fuel clock r r' _ ha ha' ih =>
    have := ih.1.getAnswer ih.2.1 ih.2.2.1 fuel clock
    rw [ha, ha'] at this
    exact ⟨this.1, .answer ih.2.1 ha, .answer ih.2.2.1 ha', by rw [(getAnswer_keeps ih.2.1.rinv ha).2.2.1]; exact ih.2.2.2⟩
  | @rejected o o' o1 ord parsed l _ hl hne s ih =>
    obtain ⟨h1, h2, h3, h4⟩ := ih
    obtain ⟨g, e⟩ := loadProgram_rejected hl hne
    have hr : Reach o1 := by have := Reach.program ord parsed h2; rwa [hl] at this
    refine ⟨?_, hr, h3, h4.trans g⟩
    have hz : o1.st.functors[0]? = o.st.functors[0]? := by
      have : ∃ f, Org.init0.st.functors[0]? = some f := by
        have : (Org.init0.st.functors[0]?).isSome = true := by decide +kernel
        exact Option.isSome_iff_exists.1 this
      obtain ⟨f, hf⟩ := this
      rw [prefix_getElem? h4.le.functors hf, prefix_getElem? (h4.trans g).le.functors hf]
    have := h1.grow (h1.twin.grow g (.refl _) ⟨hz.trans h1.twin.zero, fun he => absurd he hM⟩ (fun _ => s) (fun _ => ⟨h1.twin.small' hM, h1.twin.vars' hM⟩)) g.le (.refl _)
    rw [e]
    exact this

/-- **C20 (part that holds, exactly).** As long as nothing calls `is`, rejected programs make no difference: an interpreter
cannot be told apart from one that was put through the same calls except for the rejected programs; a pending query
goes on, and later queries have the same results.
Missing: `is` (see `C20_rejected_is_partial`, `C20_message_changes`), memory exhaustion, and more than 32768 names. -/
theorem C20_rejected_partial {calls : FV → Prop} (hc : ¬ calls ⟨n!"is", 2⟩) {o o'} (h : Rejecting calls o o') :
    (∀ ord ord' parsed, HashOrder.OK ord → HashOrder.OK ord' → ProgCalls calls parsed → (o.loadProgram ord parsed).2 = (o'.loadProgram ord' parsed).2) ∧
    (∀ ord ord' parsed, HashOrder.OK ord → HashOrder.OK ord' → QueryCalls calls parsed → (o.loadQuery ord parsed).2 = (o'.loadQuery ord' parsed).2) ∧
    ∀ fuel clocks, o.talk fuel clocks = o'.talk fuel clocks := by
  obtain ⟨h1, h2, h3, _⟩ := h.rel (M := .noIs calls hc) rfl id
  exact ⟨fun _ _ parsed ho ho' hp => (h1.loadProgram ho ho' parsed hp).1, fun _ _ parsed ho ho' hp => (h1.loadQuery ho ho' parsed hp).1,
    fun fuel clocks => h1.talk h2 h3 id fuel clocks⟩

/-- **C20 (part that holds with `is`).** For all programs, rejected programs make no difference except for the text of
"not an arithmetic term" messages - or what happens because these are looked up at a wrong address. -/
theorem C20_rejected_is_partial {o o'} (h : Rejecting (fun _ => True) o o') :
    (∀ ord ord' parsed, HashOrder.OK ord → HashOrder.OK ord' → (o.loadProgram ord parsed).2 = (o'.loadProgram ord' parsed).2) ∧
    (∀ ord ord' parsed, HashOrder.OK ord → HashOrder.OK ord' → (o.loadQuery ord parsed).2 = (o'.loadQuery ord' parsed).2) ∧
    ∀ fuel clocks, Alike (o.talk fuel clocks) (o'.talk fuel clocks) := by
  obtain ⟨h1, h2, h3, _⟩ := h.rel (M := .rough fun _ => True) rfl id
  exact ⟨fun _ _ parsed ho ho' => (h1.loadProgram ho ho' parsed fun _ _ _ _ _ _ => trivial).1,
    fun _ _ parsed ho ho' => (h1.loadQuery ho ho' parsed fun _ _ _ _ => trivial).1,
    fun fuel clocks => h1.alike h2 h3 fuel clocks⟩

/-! ## C40: the past does not matter -/

theorem Serves.after {M : Cmp} {o o' ord ord' p} (h : Serves o ord p) (h' : Serves o' ord' p) (ho : ord.OK) (ho' : ord'.OK) (hex : ¬ M.ex)
    (hl : ∀ c ∈ p, ∀ a ∈ c.body, M.calls a.fv) {q qord qord'} (hqo : HashOrder.OK qord) (hqo' : HashOrder.OK qord') (hq : QueryCalls M.calls q)
    (hs : (o.loadQuery qord q).1.Small) (hs' : (o'.loadQuery qord' q).1.Small) :
    (o.loadQuery qord q).2 = (o'.loadQuery qord' q).2 ∧ OrgRel M (o.loadQuery qord q).1 (o'.loadQuery qord' q).1 ∧
    Reach (o.loadQuery qord q).1 ∧ Reach (o'.loadQuery qord' q).1 := by
  have small : ∀ {o : Org} {ord}, (o.loadQuery ord q).1.Small → o.Small := fun {o ord} hs =>
    ⟨Nat.le_trans (loadQuery_st (o := o) (ord := ord) (parsed := q)).1.le.functors.length_le hs.1,
      Nat.le_trans (loadQuery_st (o := o) (ord := ord) (parsed := q)).1.le.vars.length_le hs.2⟩
  have h0 := (h.rel h' ho ho' (small hs) (small hs') hex hl).loadQuery hqo hqo' q hq
  exact ⟨h0.1, h0.2 (fun _ => hs) (fun _ => hs'), .query _ _ h.reach, .query _ _ h'.reach⟩

/-- **C40.** What a query leads to depends only on the program that was loaded last and the query itself: on any two
interpreters with the same program, whatever else happened to them, the query is accepted or rejected alike, and all
results of `get_answer` are the same, in the same order.  This is for programs and queries that do not call `is`, and
at most 32768 names. -/
theorem C40_history_partial {o o' ord ord' p} (h : Serves o ord p) (h' : Serves o' ord' p) (ho : ord.OK) (ho' : ord'.OK)
    (hp : ∀ c ∈ p, ∀ a ∈ c.body, a.fv ≠ ⟨n!"is", 2⟩) {q qord qord'} (hqo : HashOrder.OK qord) (hqo' : HashOrder.OK qord')
    (hq : QueryCalls (· ≠ ⟨n!"is", 2⟩) q) (hs : (o.loadQuery qord q).1.Small) (hs' : (o'.loadQuery qord' q).1.Small) :
    (o.loadQuery qord q).2 = (o'.loadQuery qord' q).2 ∧
    ∀ fuel clocks, (o.loadQuery qord q).1.talk fuel clocks = (o'.loadQuery qord' q).1.talk fuel clocks := by
  obtain ⟨h1, h2, h3, h4⟩ := h.after h' ho ho' (M := .noIs (· ≠ ⟨n!"is", 2⟩) (fun h => h rfl)) id hp hqo hqo' hq hs hs'
  exact ⟨h1, fun fuel clocks => h2.talk h3 h4 id fuel clocks⟩

/-- **C40 with `is`.** The same for all programs and queries, up to the text of "not an arithmetic term" messages. -/
theorem C40_history_is_partial {o o' ord ord' p} (h : Serves o ord p) (h' : Serves o' ord' p) (ho : ord.OK) (ho' : ord'.OK)
    {q qord qord'} (hqo : HashOrder.OK qord) (hqo' : HashOrder.OK qord')
    (hs : (o.loadQuery qord q).1.Small) (hs' : (o'.loadQuery qord' q).1.Small) :
    (o.loadQuery qord q).2 = (o'.loadQuery qord' q).2 ∧
    ∀ fuel clocks, Alike ((o.loadQuery qord q).1.talk fuel clocks) ((o'.loadQuery qord' q).1.talk fuel clocks) := by
  obtain ⟨h1, h2, h3, h4⟩ := h.after h' ho ho' (M := .rough fun _ => True) id (fun _ _ _ _ => trivial) hqo hqo' (fun _ _ _ _ => trivial) hs hs'
  exact ⟨h1, fun fuel clocks => h2.alike h3 h4 fuel clocks⟩

/-! ## Witnesses -/

namespace History

theorem rev_ok : HashOrder.OK List.reverse := fun l => List.reverse_perm l

/-- `r(X,Y) :- p(X), p(Y), q(X), q(Y).` has two permanent variables. -/
def prog : List Clause := Demo.prog ++
  [⟨.fn n!"s" [.var n!"X", .var n!"Y"], [.fn n!"p" [.var n!"X"], .fn n!"p" [.var n!"Y"], .fn n!"q" [.var n!"X"], .fn n!"r" [.var n!"Y"]]⟩]
def query : List Node := [.fn n!"s" [.var n!"X", .var n!"Y"], .fn n!"p" [.var n!"X"]]

def load (ord : HashOrder) (o : Org) : Org := ((o.loadProgram ord (some prog)).1.loadQuery ord (some query)).1

/-- The hypothesis of `C36_hash_order` is met by interpreters with different code. -/
example : Lockstep BothNew (load id Org.init0) (load List.reverse Org.init0) :=
  .query _ (.program _ (.start ⟨Org.init_eq, Org.init_eq⟩) HashOrder.id_ok rev_ok) HashOrder.id_ok rev_ok

example : (((load id Org.init0).program.rules? ⟨n!"s", 2⟩).getD []).map (fun r => (r.map (·.instrs)).flatten) ≠
    (((load List.reverse Org.init0).program.rules? ⟨n!"s", 2⟩).getD []).map (fun r => (r.map (·.instrs)).flatten) := by decide +kernel

example : ((load id Org.init0).talk 20 [List.replicate 40 false, List.replicate 40 false]) = .ok [.answer [⟨n!"X", n!"b"⟩, ⟨n!"Y", n!"b"⟩], .noAnswer] ∧
    ((load List.reverse Org.init0).talk 20 [List.replicate 40 false, List.replicate 40 false]) = .ok [.answer [⟨n!"X", n!"b"⟩, ⟨n!"Y", n!"b"⟩], .noAnswer] := by
  decide +kernel

/-- ... and the one of `C37_past_forgotten_partial` by interpreters with a past, which are used again. -/
example : Lockstep BothCleared (load id (load id Org.init0).clearMemory) (load List.reverse Org.init0.clearMemory) :=
  .query _ (.program _ (.start ⟨_, _, .query _ _ (.program _ _ (.init Org.init_eq)), .init Org.init_eq, rfl, rfl⟩) HashOrder.id_ok rev_ok) HashOrder.id_ok rev_ok

example : ((load id (load id Org.init0).clearMemory).talk 20 [List.replicate 40 false]) = .ok [.answer [⟨n!"X", n!"b"⟩, ⟨n!"Y", n!"b"⟩]] := by
  decide +kernel

/-- `p(z). is(a,b).`: rejected, but only after `p/1` was compiled. -/
def bad : List Clause := [⟨.fn n!"p" [.cons n!"z"], []⟩, ⟨.fn n!"is" [.cons n!"a", .cons n!"b"], []⟩]

theorem bad_rejected : (Org.init0.loadProgram id (some bad)).2 ≠ .ok := by decide +kernel

instance (o : Org) : Decidable o.Small := by unfold Org.Small; infer_instance

theorem bad_rejecting (calls) : Rejecting calls (Org.init0.loadProgram id (some bad)).1 Org.init0 :=
  .rejected (ord := id) (parsed := some bad) (l := (Org.init0.loadProgram id (some bad)).2) (.init Org.init_eq) rfl bad_rejected (by decide +kernel)

/-- The hypotheses of `C20_rejected_partial` are met by interpreters with different numbers. -/
example : Rejecting (· ≠ ⟨n!"is", 2⟩) (load id (Org.init0.loadProgram id (some bad)).1) (load id Org.init0) :=
  .query _ (.program _ (bad_rejecting _) HashOrder.id_ok HashOrder.id_ok (by intro cs h; cases h; decide +kernel) (by decide +kernel) (by decide +kernel))
    HashOrder.id_ok HashOrder.id_ok (by intro cs h; cases h; decide +kernel) (by decide +kernel) (by decide +kernel)

example : (load id (Org.init0.loadProgram id (some bad)).1).st.functors ≠ (load id Org.init0).st.functors := by decide +kernel

/-- ... and those of `C40_history_partial` by an interpreter with a past and one without. -/
example : ∃ o o', Serves o id prog ∧ Serves o' List.reverse prog ∧ (∀ c ∈ prog, ∀ a ∈ c.body, a.fv ≠ ⟨n!"is", 2⟩) ∧
    QueryCalls (· ≠ ⟨n!"is", 2⟩) (some query) ∧ (o.loadQuery id (some query)).1.Small ∧ (o'.loadQuery id (some query)).1.Small ∧ o.st.functors ≠ o'.st.functors := by
  refine ⟨_, _, .program (.query (ord' := id) (parsed := some [.fn n!"zz" [.cons n!"yy"]]) (.rejected (ord := id) (.init Org.init_eq) (rfl : Org.loadProgram id (some bad) _ = _) bad_rejected))
    (Prod.ext (by rfl) (by decide +kernel)), .program (.init (ord := id) Org.init_eq) (Prod.ext (by rfl) (by decide +kernel)), ?_⟩
  exact ⟨by decide +kernel, by intro as h; cases h; decide +kernel, by decide +kernel, by decide +kernel, by decide +kernel⟩

end History

/-- **C20 is false as stated.** The query `X is f(a,b,c,d)` has no value; a new interpreter says that `a/0` is not an
arithmetic term, but if the program `p(z). is(a,b).` was rejected before, it says so about `b/0`.
(The right term is `f/4`.) -/
theorem C20_message_changes : ∃ o o' : Org, ∃ q, Reach o ∧ (∃ parsed l, o.loadProgram id parsed = (o', l) ∧ l ≠ .ok) ∧
    (o.loadQuery id q).1.talk 20 [List.replicate 10 false] = .ok [.error ⟨.notArithmetic, n!"a/0"⟩] ∧
    (o'.loadQuery id q).1.talk 20 [List.replicate 10 false] = .ok [.error ⟨.notArithmetic, n!"b/0"⟩] := by
  refine ⟨Org.init0, _, some [.fn n!"is" [.var n!"X", .fn n!"f" [.cons n!"a", .cons n!"b", .cons n!"c", .cons n!"d"]]], .init Org.init_eq,
    ⟨some History.bad, _, rfl, History.bad_rejected⟩, ?_⟩
  decide +kernel

end PBfs
