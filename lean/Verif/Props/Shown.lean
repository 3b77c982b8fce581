import Verif.Spec.Shown
import Verif.Props.Meaning
import Verif.Props.Page
import Verif.Props.Table
import Verif.Proof.Unambiguous
/-! # The lines in a box are the solutions: C79 -/
namespace PBfs
open Org

/-! ## Values that are the same in all solutions of a heap -/

theorem grounds_of : ∀ {ts : List OTerm}, (∀ (i : Nat) t, ts[i]? = some t → t.ground = true) → OTerm.grounds ts = true
  | [], _ => rfl
  | t :: ts, h => by rw [OTerm.grounds, h 0 t rfl, grounds_of fun i x hx => h (i + 1) x hx]; rfl

/-- If the solution in which open variables are no trees at all gives an address a finite tree, then a ground term can be read there. -/
theorem reads_ground {V H size} (g : Good V H size size) {I : Int → FV} {σ : Nat → ITree} (m : Mod (toIAlg itreeAlg I) H σ)
    (hω : ∀ a v, H a = some (.ref a v) → σ a = fun _ => none) : ∀ (n : Nat) {u : Tree} {a}, u.size ≤ n → a < size → σ a = u.fold itreeAlg → ∃ t, Reads H a t ∧ t.ground = true := by
  intro n
  induction n with
  | zero => intro u a hu; have := u.size_pos; omega
  | succ n ih =>
    intro u a hu ha h
    obtain ⟨d, hd⟩ := g.ends a ha
    have h' : σ d = u.fold itreeAlg := (m.deref hd).symm.trans h
    have fin : ∀ {t}, Reads H d t → t.ground = true → ∃ t, Reads H a t ∧ t.ground = true := fun h hg => ⟨_, (Reads.deref hd).2 h, hg⟩
    rcases hd.end_cell.2 with ⟨v, hv⟩ | ⟨c, hc, hp⟩
    · rw [hω d v hv] at h'
      have := congrFun h' []
      cases u <;> cases this
    · cases c with
      | cons => exact fin (.cons hc) rfl
      | int => exact fin (.int hc) rfl
      | ref => cases hp
      | str => cases hp
      | fn f k =>
        have k0 : itreeAlg.fn (I f).name (argVals σ (d + 1) k) = u.fold itreeAlg := (m _ _ hc).symm.trans h'
        cases u with
        | cons n => exact absurd k0.symm itreeAlg_sharp.cons_fn
        | int v => exact absurd k0.symm itreeAlg_sharp.int_fn
        | efn f ts => exact absurd k0 itreeAlg_sharp.fn_efn
        | fn f' us =>
          obtain ⟨hl, hus⟩ := folds_get (itreeAlg_sharp.fn_inj k0).2
          have hlt := g.fnArgs _ _ _ hc
          obtain ⟨ts, t1, t2⟩ := exists_list (k := k) (P := fun j t => Reads H (d + 1 + j) t ∧ t.ground = true) fun j hj => by
            have hj' : us[j]? = some us[j] := List.getElem?_eq_getElem (by omega)
            have := Tree.size_mem (List.mem_of_getElem? hj')
            simp only [Tree.size] at hu
            exact ih (by omega) (by omega) (hus j _ hj')
          exact fin (.fn hc t1 fun i x hx => (t2 i x hx).1) (grounds_of fun i x hx => (t2 i x hx).2)
      | efn f k =>
        have k0 : itreeAlg.efn (arithNames.getD f []) (argVals σ (d + 1) k) = u.fold itreeAlg := (m _ _ hc).symm.trans h'
        cases u with
        | cons n => exact absurd k0.symm itreeAlg_sharp.cons_efn
        | int v => exact absurd k0.symm itreeAlg_sharp.int_efn
        | fn f ts => exact absurd k0.symm itreeAlg_sharp.fn_efn
        | efn f' us =>
          obtain ⟨hl, hus⟩ := folds_get (itreeAlg_sharp.efn_inj k0).2
          have hlt := g.efnArgs _ _ _ hc
          obtain ⟨ts, t1, t2⟩ := exists_list (k := k) (P := fun j t => Reads H (d + 1 + j) t ∧ t.ground = true) fun j hj => by
            have hj' : us[j]? = some us[j] := List.getElem?_eq_getElem (by omega)
            have := Tree.size_mem (List.mem_of_getElem? hj')
            simp only [Tree.size] at hu
            exact ih (by omega) (by omega) (hus j _ hj')
          exact fin (.efn hc t1 fun i x hx => (t2 i x hx).1) (grounds_of fun i x hx => (t2 i x hx).2)

theorem fold_some (u : Tree) : u.fold itreeAlg ≠ fun _ => none := fun h => by
  have := congrFun h []
  cases u <;> cases this

/-- If the search has found nothing but values that can be written down, then the answer has them. -/
theorem ShowsInsts.values {st : Storage} (hpr : Printable st) (sok : StOK st) {atoms fuel bs S} (h : ShowsInsts st atoms fuel bs S)
    (hw : ∀ ρ gs, S ρ gs → ∀ x, InQuery atoms x → ∃ (u : Tree) (s : Name), ρ x = u.fold itreeAlg ∧ Text u s) {ρ gs} (hS : S ρ gs) :
    ((bs.map fun b => (b.name, b.value)).map (·.1)).Nodup ∧ (∀ x, x ∈ (bs.map fun b => (b.name, b.value)).map (·.1) ↔ InQuery atoms x) ∧
      ∀ y ∈ bs.map fun b => (b.name, b.value), ∃ u : Tree, ρ y.1 = u.fold itreeAlg ∧ Text u y.2 := by
  obtain ⟨pre, hp, L, g, P, hv, ag, h⟩ := h
  have names : ∀ x, x ∈ (bs.map fun b => (b.name, b.value)).map (·.1) ↔ InQuery atoms x := by
    intro x
    rw [List.map_map]
    refine Iff.trans ⟨fun hx => ?_, fun hx => ?_⟩ (hv x)
    · obtain ⟨b, hb, rfl⟩ := List.mem_map.1 hx
      obtain ⟨a, ha, _⟩ := P.value b hb
      exact List.mem_map.2 ⟨_, ha, rfl⟩
    · obtain ⟨y, hy, rfl⟩ := List.mem_map.1 hx
      exact P.all y hy
  refine ⟨by simpa [List.map_map, Function.comp_def] using P.once, names, fun y hy => ?_⟩
  · obtain ⟨b, hb, rfl⟩ := List.mem_map.1 hy
    obtain ⟨a, ha, hval⟩ := P.value b hb
    have hin : InQuery atoms b.name := (hv _).1 (List.mem_map.2 ⟨_, ha, rfl⟩)
    have fin : ∀ τ : Nat → ITree, Mod (toIAlg itreeAlg (interpOf st)) (hp.at? pre) τ → ∃ u : Tree, τ a = u.fold itreeAlg := by
      intro τ m
      obtain ⟨ρ1, hρ⟩ := ag τ m
      obtain ⟨ρ', gs, hS, hL⟩ := (h ρ1).2 ⟨τ, m, hρ⟩
      obtain ⟨u, s, hu, _⟩ := hw ρ' gs hS _ hin
      exact ⟨u, by rw [hρ _ ha, ← hL _ ha]; exact hu⟩
    obtain ⟨σ, m, hω⟩ := g.solve_itree (interpOf st) fun _ _ => none
    have hlt : a < hp.size := by
      by_contra hge
      have m' : Mod (toIAlg itreeAlg (interpOf st)) (hp.at? pre) fun b => if b < hp.size then σ b else fun _ => none := mod_congr g (fun b hb => if_pos hb) m
      obtain ⟨u, hu⟩ := fin _ m'
      simp only [if_neg hge] at hu
      exact fold_some u hu.symm
    obtain ⟨u, hu⟩ := fin σ m
    obtain ⟨t, ht, hg⟩ := reads_ground g m hω _ (Nat.le_refl _) hlt hu
    obtain ⟨σ', m', hσ⟩ := (h ρ).1 ⟨ρ, gs, hS, fun _ _ => rfl⟩
    obtain ⟨u', s, hu', hs⟩ := hw ρ gs hS _ hin
    have e : (t.eval treeAlg (interpOf st) fun _ => .int 0).fold itreeAlg = u'.fold itreeAlg := by
      rw [← hu', ← hσ _ ha, OTerm.fold_eval, ht.eval m' (fun _ _ _ => rfl)]
      exact OTerm.eval_ground t hg
    refine ⟨u', hu', ?_⟩
    have hs' := hs
    rw [← Tree.fold_inj e] at hs
    rcases (C28_ground_text (L := L) hpr sok g hlt ht hg hs).2 fuel with hh | hh
    · rw [hh] at hval; cases hval
    · rw [hh] at hval; cases hval; exact hs'

/-- The same for the text of the answer. -/
theorem ShowsInsts.line {st : Storage} (hpr : Printable st) (sok : StOK st) {atoms fuel bs S} (h : ShowsInsts st atoms fuel bs S)
    (hw : ∀ ρ gs, S ρ gs → ∀ x, InQuery atoms x → ∃ (u : Tree) (s : Name), ρ x = u.fold itreeAlg ∧ Text u s) {ρ gs} (hS : S ρ gs) : Line atoms ρ (Res.answer bs).text := by
  obtain ⟨h1, h2, h3⟩ := h.values hpr sok hw hS
  refine ⟨_, h1, h2, h3, fun h0 => ?_, fun h0 => ?_⟩
  · cases bs with
    | nil => exact C50_texts (.answer [])
    | cons => cases h0
  · cases bs with
    | nil => exact absurd rfl h0
    | cons b bs =>
      have := C50_texts (.answer (b :: bs))
      simp only [LineFor] at this
      rw [this, List.map_map]
      rfl

/-! ## From the texts in the two editors to the lines in the box -/

theorem OpenedBy.asked {ord program query o cs q} (h : OpenedBy ord program query o) (ho : ord.OK) (hr : Readable program query cs q) : Asked o cs q ∧ Printable o.st := by
  obtain ⟨o0, o1, h1, h2, h3⟩ := h
  have hp := C41_program_text.2 hr.prog
  have hq := C41_query_text.2 hr.goals
  have e : o0.loadProgramText ord program = o0.loadProgram ord (some cs) := by unfold Org.loadProgramText; rw [hp]
  have hs : Serves o1 ord cs := .program (ord := ord) (.init h1) (by rw [← e, h2])
  have hf : FedBy o1 (0 + program.length) := by
    have := FedBy.program ord program (.init h1)
    rwa [h2] at this
  obtain ⟨q', a1, a2, a3⟩ := C73_asked hs hf ho hr.untangled ho h3 (by rw [hq]; simp) (by have := hr.short; omega)
  have : q' = q := by
    have := C41_query_text.2 a1
    rw [hq] at this
    cases this; rfl
  exact ⟨this ▸ a2, a3⟩

/-- The predicates that the goals call. -/
def SItem.Calls : SItem → FV → Prop
  | .goals ts _, f => f ∈ calls ts
  | .clause c ts _, f => f ∈ calls ts ∨ f ∈ c.body.map Node.fv
  | .own _ _ _, _ => True

theorem STurn.noOwn {P : List Clause} (hP : ∀ c ∈ P, ∀ b ∈ c.body, b.fv ∉ ownFVs) {i news r} (h : STurn P i news r) (hi : ∀ f, i.Calls f → f ∉ ownFVs) :
    (∀ j ∈ news, ∀ f, j.Calls f → f ∉ ownFVs) ∧ ∀ e, r ≠ some (.error e) := by
  have own : ∀ {f ts S}, ¬ ∀ g, (SItem.own f ts S).Calls g → g ∉ ownFVs := fun h => h ⟨n!"is", 2⟩ trivial (.head _)
  cases h with
  | leave => exact ⟨fun j hj f hf => by rw [List.mem_singleton.1 hj] at hf; exact hi f hf, by simp⟩
  | @call f ts S hf =>
    refine ⟨fun j hj g hg => ?_, by simp⟩
    obtain ⟨c, hc, rfl⟩ := List.mem_map.1 hj
    rcases hg with hg | hg
    · exact hi g (List.mem_cons_of_mem _ hg)
    · obtain ⟨b, hb, rfl⟩ := List.mem_map.1 hg
      exact hP c (List.mem_filter.1 hc).1 b hb
  | callOwn hf => exact absurd hf (hi _ (.head _))
  | reject => exact ⟨by simp, by simp⟩
  | enter =>
    refine ⟨fun j hj g hg => ?_, by simp⟩
    rw [List.mem_singleton.1 hj] at hg
    simp only [SItem.Calls, calls_append, calls_todo] at hg
    exact hi g (List.mem_append.1 hg).symm
  | answer => exact ⟨by simp, by simp⟩
  | ownFail => exact absurd hi own
  | ownPass => exact absurd hi own
  | ownAnswer => exact absurd hi own
  | error => exact absurd hi own

theorem SRun.noError {P : List Clause} (hP : ∀ c ∈ P, ∀ b ∈ c.body, b.fv ∉ ownFVs) {q rs q'} (h : SRun P q rs q') (hq : ∀ i ∈ q, ∀ f, i.Calls f → f ∉ ownFVs) :
    ∀ e, some (.error e) ∉ rs := by
  induction h with
  | nil => simp
  | cons t _ ih =>
    obtain ⟨h1, h2⟩ := t.noOwn hP (hq _ (.head _))
    intro e he
    rcases List.mem_cons.1 he with he | he
    · exact h2 e he.symm
    · refine ih (fun i hi => ?_) e he
      rcases List.mem_append.1 hi with hi | hi
      · exact hq i (List.mem_cons_of_mem _ hi)
      · exact h1 i hi

theorem forall₂_of_mem {α β} {R : α → β → Prop} {l : List α} {m : List β} (h : List.Forall₂ R l m) {x} (hx : x ∈ l) : ∃ y ∈ m, R x y := by
  induction h with
  | nil => cases hx
  | cons h1 _ ih =>
    rcases List.mem_cons.1 hx with rfl | hx
    · exact ⟨_, .head _, h1⟩
    · obtain ⟨y, h2, h3⟩ := ih hx
      exact ⟨y, .tail _ h2, h3⟩

theorem forall₂_of_mem' {α β} {R : α → β → Prop} {l : List α} {m : List β} (h : List.Forall₂ R l m) {y} (hy : y ∈ m) : ∃ x ∈ l, R x y := by
  induction h with
  | nil => cases hy
  | cons h1 _ ih =>
    rcases List.mem_cons.1 hy with rfl | hy
    · exact ⟨_, .head _, h1⟩
    · obtain ⟨y, h2, h3⟩ := ih hy
      exact ⟨y, .tail _ h2, h3⟩

theorem forall₂_error {st atoms fuel} {rs : List Org.Res} {reps : List Rep} (h : List.Forall₂ (Meets st atoms fuel) rs reps) {e} (he : Org.Res.error e ∈ rs) :
    ∃ k, Rep.error k ∈ reps := by
  obtain ⟨r, h1, h2⟩ := forall₂_of_mem h he
  cases h2
  exact ⟨_, h1⟩

theorem answer_not_false {bs} : (Res.answer bs).text ≠ n!"false" := by
  cases bs with
  | nil => decide
  | cons b bs =>
    obtain ⟨x, hx⟩ := bindingsStr_head (bs := b :: bs) (by simp)
    show answerStr (some (b :: bs)) ≠ _
    simp only [answerStr, hx]
    intro h
    exact absurd (List.cons.inj h).1 (by decide)

/-- **C79**: every box belongs to a click on "Run".  If its texts are a program and a query, then its lines are, apart from messages about the memory limit and "false" at the end, what the search
reports, and the answers among them together show nothing but solutions of the query; after "false", and if there is no `is`, `==` and `\\==`, all of them. -/
theorem C79_answers {fuel : Nat} {es : List Event} {s : Site} (ha : Ample es) (ho : ProperRuns es) (h : Site.empty.steps fuel es = .ok s) :
    ∀ p ∈ s.pages, ∃ ord program c, Event.run ord program p.query c ∈ es ∧ ∀ cs q, Readable program p.query cs q →
      ∃ (st : Storage) (rs : List Res) (k : Nat) (reps : List Rep), Printable st ∧ StOK st ∧
        p.lines.filter (· ≠ n!"Soft memory limit reached. Please close some results.") = rs.map Res.text ++ List.replicate k n!"false" ∧
        List.Forall₂ (Meets st q fuel) rs reps ∧ (∀ ρ, Gives reps ρ → Solves (inForce cs) q ρ) ∧
        (OnlyClauses cs q → (∀ e, .error e ∉ rs) ∧ (k ≠ 0 → ∀ ρ, Solves (inForce cs) q ρ → Gives reps ρ)) := by
  intro p hp
  obtain ⟨ord, program, c, o0, o, h1, h2, _, ts, k, h3, h4, h5⟩ := C50_lines_show_search ha h p hp
  refine ⟨ord, program, c, h1, fun cs q hr => ?_⟩
  obtain ⟨a1, a2⟩ := h2.asked (ho _ _ _ _ h1) hr
  obtain ⟨items, rs, b1, b2, b3⟩ := C42_breadth_first_resolution_partial a1 h3
  refine ⟨o0.st, reports ts, k, _, a2, a1.stOK, h5, Says.meets b2, fun ρ hg => ?_, fun hb => ⟨fun e he => ?_, fun hk ρ hs => ?_⟩⟩
  · obtain ⟨S, gs, hS, hs⟩ := gives_of.1 hg
    exact b1.enough (by simpa using enough_query) S hS ρ gs hs
  · obtain ⟨e', he'⟩ := forall₂_error (Says.meets b2) he
    exact b1.noError hb.inForce (by
      intro i hi f hf
      rw [List.mem_singleton.1 hi] at hf
      simp only [SItem.Calls, calls_goals] at hf
      obtain ⟨a, ha, rfl⟩ := List.mem_map.1 hf
      exact hb.1 a ha) e' (by simpa using he')
  · have hq := h4 hk
    rw [hq] at b3
    obtain rfl := List.length_eq_zero_iff.1 b3
    exact gives_of.2 (b1.complete hb a1.ne hs)

/-- **C79, any program**: if the values of the variables can be written down in all solutions of the query, then every line is a message about the memory limit or an error, "false", or shows a
solution of the query. -/
theorem C79_lines {fuel : Nat} {es : List Event} {s : Site} (ha : Ample es) (ho : ProperRuns es) (h : Site.empty.steps fuel es = .ok s) :
    ∀ p ∈ s.pages, ∃ ord program c, Event.run ord program p.query c ∈ es ∧ ∀ cs q, Readable program p.query cs q → HasTexts (inForce cs) q →
      ∀ l ∈ p.lines, l = n!"Soft memory limit reached. Please close some results." ∨ l = n!"false" ∨ (∃ e, LineFor (.error e) l) ∨ ∃ ρ, Solves (inForce cs) q ρ ∧ Line q ρ l := by
  intro p hp
  obtain ⟨ord, program, c, h1, h2⟩ := C79_answers ha ho h p hp
  refine ⟨ord, program, c, h1, fun cs q hr hw l hl => ?_⟩
  obtain ⟨st, rs, k, reps, b1, b2, b3, b4, b5, _⟩ := h2 cs q hr
  by_cases hs : l = n!"Soft memory limit reached. Please close some results."
  · exact .inl hs
  · have : l ∈ p.lines.filter (· ≠ n!"Soft memory limit reached. Please close some results.") := List.mem_filter.2 ⟨hl, by simpa using hs⟩
    rw [b3] at this
    rcases List.mem_append.1 this with h3 | h3
    · obtain ⟨r, hr, rfl⟩ := List.mem_map.1 h3
      obtain ⟨rep, h4, h5⟩ := forall₂_of_mem b4 hr
      cases h5 with
      | @answer bs S h5 =>
        obtain ⟨ρ, gs, hS⟩ := h5.some
        exact .inr (.inr (.inr ⟨ρ, b5 ρ ⟨S, gs, h4, hS⟩, h5.line b1 b2 (fun ρ gs hS => hw ρ (b5 ρ ⟨S, gs, h4, hS⟩)) hS⟩))
      | @error e => exact .inr (.inr (.inl ⟨e, C50_texts _⟩))
    · exact .inr (.inl (List.eq_of_mem_replicate h3))

/-- **C79**: if, moreover, `is`, `==` and `\\==` are not used, then there are no errors, and a box with "false" has a line for every solution of the query.  So what is to be read in the box is exactly what
follows from the text in the editor. -/
theorem C79_exact {fuel : Nat} {es : List Event} {s : Site} (ha : Ample es) (ho : ProperRuns es) (h : Site.empty.steps fuel es = .ok s) :
    ∀ p ∈ s.pages, ∃ ord program c, Event.run ord program p.query c ∈ es ∧ ∀ cs q, Readable program p.query cs q → HasTexts (inForce cs) q → OnlyClauses cs q →
      (∀ l ∈ p.lines, l = n!"Soft memory limit reached. Please close some results." ∨ l = n!"false" ∨ ∃ ρ, Solves (inForce cs) q ρ ∧ Line q ρ l) ∧
      (n!"false" ∈ p.lines → ∀ ρ, Solves (inForce cs) q ρ → ∃ l ∈ p.lines, Line q ρ l) := by
  intro p hp
  obtain ⟨ord, program, c, h1, h2⟩ := C79_answers ha ho h p hp
  refine ⟨ord, program, c, h1, fun cs q hr hw hb => ?_⟩
  obtain ⟨st, rs, k, reps, b1, b2, b3, b4, b5, b6⟩ := h2 cs q hr
  obtain ⟨b8, b7⟩ := b6 hb
  refine ⟨fun l hl => ?_, fun hf ρ hs => ?_⟩
  · by_cases hs : l = n!"Soft memory limit reached. Please close some results."
    · exact .inl hs
    · have : l ∈ p.lines.filter (· ≠ n!"Soft memory limit reached. Please close some results.") := List.mem_filter.2 ⟨hl, by simpa using hs⟩
      rw [b3] at this
      rcases List.mem_append.1 this with h3 | h3
      · obtain ⟨r, hr, rfl⟩ := List.mem_map.1 h3
        obtain ⟨rep, h4, h5⟩ := forall₂_of_mem b4 hr
        cases h5 with
        | @answer bs S h5 =>
          obtain ⟨ρ, gs, hS⟩ := h5.some
          exact .inr (.inr ⟨ρ, b5 ρ ⟨S, gs, h4, hS⟩, h5.line b1 b2 (fun ρ gs hS => hw ρ (b5 ρ ⟨S, gs, h4, hS⟩)) hS⟩)
        | @error e => exact absurd hr (b8 e)
      · exact .inr (.inl (List.eq_of_mem_replicate h3))
  · have hk : k ≠ 0 := by
      rintro rfl
      have : n!"false" ∈ p.lines.filter (· ≠ n!"Soft memory limit reached. Please close some results.") := List.mem_filter.2 ⟨hf, by decide⟩
      rw [b3, List.replicate_zero, List.append_nil] at this
      obtain ⟨r, hr, h3⟩ := List.mem_map.1 this
      obtain ⟨rep, _, h5⟩ := forall₂_of_mem b4 hr
      cases h5 with
      | @answer bs S h5 => exact answer_not_false h3
      | @error e => exact b8 e hr
    obtain ⟨S, gs, h3, h4⟩ := b7 hk ρ hs
    obtain ⟨r, hr, h5⟩ := forall₂_of_mem' b4 h3
    cases h5 with
    | @answer bs S h5 =>
      refine ⟨_, ?_, h5.line b1 b2 (fun ρ gs hS => hw ρ (b5 ρ ⟨S, gs, h3, hS⟩)) h4⟩
      have : (Res.answer bs).text ∈ p.lines.filter (· ≠ n!"Soft memory limit reached. Please close some results.") := by
        rw [b3]; exact List.mem_append_left _ (List.mem_map_of_mem hr)
      exact (List.mem_filter.1 this).1

/-! ## The values can be read off -/

theorem joined_cons (x s : Name) (bs : List (Name × Name)) : (((((x, s) :: bs).map fun b => n!"[" ++ b.1 ++ n!" / " ++ b.2 ++ n!"]").intersperse n!" ").flatten) =
    '[' :: (x ++ ' ' :: '/' :: ' ' :: (s ++ ']' :: (if bs = [] then [] else ' ' :: ((bs.map fun b => n!"[" ++ b.1 ++ n!" / " ++ b.2 ++ n!"]").intersperse n!" ").flatten))) := by
  cases bs <;> simp

theorem joined_inj {ρ ρ' : Name → ITree} : ∀ {bs bs' : List (Name × Name)}, (∀ b ∈ bs, CleanName b.1) → (∀ b ∈ bs', CleanName b.1) →
    (∀ b ∈ bs, ∃ u : Tree, ρ b.1 = u.fold itreeAlg ∧ Text u b.2 ∧ Clean u) → (∀ b ∈ bs', ∃ u : Tree, ρ' b.1 = u.fold itreeAlg ∧ Text u b.2 ∧ Clean u) → bs ≠ [] → bs' ≠ [] →
    ((bs.map fun b => n!"[" ++ b.1 ++ n!" / " ++ b.2 ++ n!"]").intersperse n!" ").flatten = ((bs'.map fun b => n!"[" ++ b.1 ++ n!" / " ++ b.2 ++ n!"]").intersperse n!" ").flatten →
    ∀ b ∈ bs, ρ b.1 = ρ' b.1
  | [], _, _, _, _, _, h, _, _ => absurd rfl h
  | _ :: _, [], _, _, _, _, _, h, _ => absurd rfl h
  | (x, s) :: bs, (x', s') :: bs', hn, hn', hv, hv', _, _, h => by
    rw [joined_cons, joined_cons] at h
    obtain ⟨hx, h6⟩ := split_at_punct (hn _ (.head _)).2 (hn' _ (.head _)).2 (punctFirst_cons (by decide)) (punctFirst_cons (by decide)) (List.cons.inj h).2
    simp only at hx
    subst hx
    obtain ⟨u, u1, u2, u3⟩ := hv _ (.head _)
    obtain ⟨u', v1, v2, v3⟩ := hv' _ (.head _)
    simp only [List.cons.injEq, true_and] at h6
    obtain ⟨hu, h7⟩ := u2.inj u3 v3 v2 stops_bracket stops_bracket h6
    subst hu
    have h8 := (List.cons.inj h7).2
    intro b hb
    rcases List.mem_cons.1 hb with rfl | hb
    · exact u1.trans v1.symm
    · have hne : bs ≠ [] := List.ne_nil_of_mem hb
      have hne' : bs' ≠ [] := by
        rintro rfl
        simp [hne] at h8
      rw [if_neg hne, if_neg hne'] at h8
      exact joined_inj (fun b hb => hn b (.tail _ hb)) (fun b hb => hn' b (.tail _ hb)) (fun b hb => hv b (.tail _ hb)) (fun b hb => hv' b (.tail _ hb)) hne hne' (List.cons.inj h8).2 b hb

/-- **C79, reading**: a line shows one solution only, if no names contain punctuation and no constants look like numbers. -/
theorem C79_read {q : List Node} {ρ ρ' : Name → ITree} {l : Name} (hn : ∀ x, InQuery q x → CleanName x)
    (hc : ∀ x, InQuery q x → ∀ u : Tree, ρ x = u.fold itreeAlg → Clean u) (hc' : ∀ x, InQuery q x → ∀ u : Tree, ρ' x = u.fold itreeAlg → Clean u)
    (h : Line q ρ l) (h' : Line q ρ' l) : ∀ x, InQuery q x → ρ x = ρ' x := by
  obtain ⟨bs, _, h2, h3, h4, h5⟩ := h
  obtain ⟨bs', _, g2, g3, g4, g5⟩ := h'
  intro x hx
  have key : ∀ {bs : List (Name × Name)}, (∀ x, x ∈ bs.map (·.1) ↔ InQuery q x) → bs ≠ [] ∧ ∀ b ∈ bs, InQuery q b.1 := by
    intro bs hb
    refine ⟨?_, fun b h => (hb _).1 (List.mem_map_of_mem h)⟩
    rintro rfl
    exact absurd ((hb x).2 hx) (by simp)
  obtain ⟨a1, a2⟩ := key h2
  obtain ⟨b1, b2⟩ := key g2
  obtain ⟨b, hb, rfl⟩ := List.mem_map.1 ((h2 x).2 hx)
  refine joined_inj (fun b hb => hn _ (a2 b hb)) (fun b hb => hn _ (b2 b hb)) (fun b hb => ?_) (fun b hb => ?_) a1 b1 ((h5 a1).symm.trans (g5 b1)) b hb
  · obtain ⟨u, hu, ht⟩ := h3 b hb
    exact ⟨u, hu, ht, hc _ (a2 b hb) u hu⟩
  · obtain ⟨u, hu, ht⟩ := g3 b hb
    exact ⟨u, hu, ht, hc' _ (b2 b hb) u hu⟩

/-! ## A concrete case -/

namespace ShownExample
open PageExample MeaningExamples SoundExamples

def program : List Char := n!"p(a). p(b). q(b). q(c). r(X) :- p(X), q(X)."

/-- One box, with a time-out; the button "Next" is clicked once. -/
def clicks : List Event := [.run id program n!"r(A)" ⟨[false, false, true], false, false⟩, .timer 0 0 ⟨List.replicate 30 false, false, false⟩, .next 0 ⟨List.replicate 30 false, false, false⟩]

theorem clicks_run : (Site.empty.steps 30 clicks).toOption.map (fun s => s.pages.map (fun p => (p.query, p.lines))) = some [(n!"r(A)", [n!"[A / b]", n!"false"])] := by decide +kernel

theorem clicks_ample : Ample clicks := by
  intro e he c hc
  simp only [clicks, List.mem_cons, List.not_mem_nil, or_false] at he
  rcases he with rfl | rfl | rfl <;> simp [Event.call?] at hc <;> subst hc <;> rfl

theorem clicks_proper : ProperRuns clicks := by
  intro ord program query c h
  simp only [clicks, List.mem_cons, List.not_mem_nil, or_false] at h
  rcases h with h | h | h <;> cases h
  exact HashOrder.id_ok

theorem readable : Readable program n!"r(A)" first askR :=
  ⟨C41_program_text.1 (by decide +kernel), C41_query_text.1 (by decide +kernel), safe_of_b (by decide +kernel), by decide⟩

theorem hasTexts : HasTexts (inForce first) askR := by
  rintro ρ h x ⟨a, ha, hx⟩
  obtain rfl := List.mem_singleton.1 ha
  obtain rfl : x = n!"A" := by simpa [Node.children, Node.varss, Node.vars] using hx
  exact ⟨_, _, (one_solution ρ).1 h, .cons⟩

theorem only : OnlyClauses first askR := by unfold OnlyClauses; decide +kernel

/-- The hypotheses of C79 are met, and the lines are those of the only solution and "false". -/
example : Ample clicks ∧ ProperRuns clicks ∧ Readable program n!"r(A)" first askR ∧ HasTexts (inForce first) askR ∧ OnlyClauses first askR ∧
    (∀ ρ, Solves (inForce first) askR ρ ↔ ρ n!"A" = (Tree.cons n!"b").fold itreeAlg) ∧
    (Site.empty.steps 30 clicks).toOption.map (fun s => s.pages.map (fun p => (p.query, p.lines))) = some [(n!"r(A)", [n!"[A / b]", n!"false"])] :=
  ⟨clicks_ample, clicks_proper, readable, hasTexts, only, one_solution, clicks_run⟩

/-- The hypotheses of `C79_read` are met. -/
example : (∀ x, InQuery askR x → CleanName x) ∧ ∀ ρ, Solves (inForce first) askR ρ → ∀ x, InQuery askR x → ∀ u : Tree, ρ x = u.fold itreeAlg → Clean u := by
  have hx : ∀ x, InQuery askR x → x = n!"A" := by
    rintro x ⟨a, ha, hx⟩
    obtain rfl := List.mem_singleton.1 ha
    simpa [Node.children, Node.varss, Node.vars] using hx
  refine ⟨fun x h => ?_, fun ρ hs x h u hu => ?_⟩
  · rw [hx x h]; exact ⟨by decide, by decide⟩
  · rw [hx x h] at hu
    rw [← Tree.fold_inj (((one_solution ρ).1 hs).symm.trans hu)]
    exact .cons ⟨by decide, by decide⟩ (by rintro c hc; cases hc; decide)

end ShownExample
end PBfs
