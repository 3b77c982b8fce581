import Verif.Model.Notice
import Verif.Props.Validate
import Verif.Props.History
/-! # C65: the notices of the web page -/
namespace PBfs
open Desk

/-! ## What the notices are about -/

/-- What the interpreter says of the text in one editor: of a program in any case, of a query after some program. -/
inductive Wrong : Side → List Char → CErr → Nat → Prop
  | program {ord : HashOrder} {text e row} : ord.OK → Org.init0.programReport ord text = .error e row → Wrong .program text e row
  | query {ord : HashOrder} {program text e row} : ord.OK → Org.init0.programReport ord program = .empty →
      (Org.init0.loadProgramText ord program).1.queryReport ord text = .error e row → Wrong .query text e row

/-- All hash orders used are permutations. -/
def Desk.Action.OK : Action → Prop
  | .run ord => ord.OK
  | _ => True

/-- The page after some actions of its user. -/
inductive Used : Desk → Prop
  | new (p q) : Used (.new p q)
  | act {d} (a : Action) : Used d → a.OK → Used (d.act a)

/-! ## The functions that listen -/

@[simp] theorem hide_program (d : Desk) : d.hide.program = d.program := by unfold hide; split <;> rfl
@[simp] theorem hide_query (d : Desk) : d.hide.query = d.query := by unfold hide; split <;> rfl
@[simp] theorem hide_alert (d : Desk) : d.hide.alert = none := by unfold hide; split <;> rfl
@[simp] theorem hide_listeners (d : Desk) : d.hide.listeners = d.listeners := by unfold hide; split <;> rfl
@[simp] theorem hide_current (d : Desk) : d.hide.current = d.current := by unfold hide; split <;> simp_all
@[simp] theorem hide_started (d : Desk) : d.hide.started = d.started := by unfold hide; split <;> rfl

theorem notify_same (s : Side) (ls : List Side) (d : Desk) : (notify s ls d).program = d.program ∧ (notify s ls d).query = d.query ∧
    (notify s ls d).listeners = d.listeners ∧ (notify s ls d).current = d.current ∧ (notify s ls d).started = d.started := by
  induction ls generalizing d with
  | nil => exact ⟨rfl, rfl, rfl, rfl, rfl⟩
  | cons l ls ih =>
    unfold notify
    obtain ⟨h1, h2, h3, h4, h5⟩ := ih (if l = s then d.hide else d)
    rw [h1, h2, h3, h4, h5]
    split <;> simp

/-- Either the alert stays, and nobody has listened, or it is hidden. -/
theorem notify_alert (s : Side) (ls : List Side) (d : Desk) : (notify s ls d).alert = if s ∈ ls then none else d.alert := by
  induction ls generalizing d with
  | nil => simp [notify]
  | cons l ls ih =>
    unfold notify
    rw [ih]
    by_cases h : l = s
    · subst h; simp
    · rw [if_neg h]
      simp only [List.mem_cons, Ne.symm h, false_or]

theorem edit_alert (s : Side) (t : List Char) (d : Desk) : (d.edit s t).alert = if s ∈ d.listeners then none else d.alert := by
  unfold edit; rw [notify_alert]; cases s <;> rfl

theorem edit_text (s : Side) (t : List Char) (d : Desk) : (d.edit s t).text s = t ∧ ∀ s', s' ≠ s → (d.edit s t).text s' = d.text s' := by
  obtain ⟨h1, h2, -⟩ := notify_same s d.listeners (d.setText s t)
  unfold edit
  refine ⟨?_, fun s' hs => ?_⟩
  · cases s
    · exact h1
    · exact h2
  · cases s <;> cases s' <;> first | exact absurd rfl hs | exact h1 | exact h2

theorem edit_listeners (s : Side) (t : List Char) (d : Desk) : (d.edit s t).listeners = d.listeners := by
  unfold edit; rw [(notify_same s d.listeners (d.setText s t)).2.2.1]; cases s <;> rfl

/-! ## The alert -/

/-- What holds of the alert all the time. -/
def Fits (d : Desk) : Prop := ∀ s e row, d.alert = some (.wrong s e row) → Wrong s (d.text s) e row ∧ s ∈ d.listeners

theorem run_cases (ord : HashOrder) (d : Desk) :
    (Org.init0.programReport ord d.program = .exception ∧ d.run ord = { d with alert := some .trouble }) ∨
    (∃ e row, Org.init0.programReport ord d.program = .error e row ∧ d.run ord = d.display .program e row) ∨
    (Org.init0.programReport ord d.program = .empty ∧
      (((Org.init0.loadProgramText ord d.program).1.queryReport ord d.query = .exception ∧ d.run ord = { d with alert := some .trouble }) ∨
       (∃ e row, (Org.init0.loadProgramText ord d.program).1.queryReport ord d.query = .error e row ∧ d.run ord = d.display .query e row) ∨
       ((Org.init0.loadProgramText ord d.program).1.queryReport ord d.query = .empty ∧
         d.run ord = { d with started := d.started ++ [(d.program, d.query)] }))) := by
  unfold run
  rw [Org.init_eq]
  cases h : Org.init0.programReport ord d.program with
  | exception => simp [h]
  | error e row => simp [h]
  | empty =>
    cases h2 : (Org.init0.loadProgramText ord d.program).1.queryReport ord d.query with
    | exception => simp [h, h2]
    | error e row => simp [h, h2]
    | empty => simp [h, h2]

theorem Used.fits {d : Desk} (h : Used d) : Fits d := by
  induction h with
  | new p q => intro s e row h; cases h
  | @act d a _ ha ih =>
    cases a with
    | dismiss => intro s e row h; cases h
    | edit s t =>
      unfold Desk.act
      dsimp only
      split
      · exact ih
      · intro s' e row h
        rw [edit_alert] at h
        by_cases hs : s ∈ d.listeners
        · rw [if_pos hs] at h; cases h
        · rw [if_neg hs] at h
          obtain ⟨h1, h2⟩ := ih s' e row h
          rw [edit_listeners]
          by_cases hss : s' = s
          · subst hss; exact absurd h2 hs
          · rw [(edit_text s t d).2 s' hss]; exact ⟨h1, h2⟩
    | run ord =>
      intro s e row h
      rcases run_cases ord d with ⟨h1, h2⟩ | ⟨e', row', h1, h2⟩ | ⟨h1, ⟨h3, h2⟩ | ⟨e', row', h3, h2⟩ | ⟨h3, h2⟩⟩ <;>
        simp only [Desk.act, h2, display] at h ⊢
      · cases h
      · cases h; exact ⟨.program ha h1, by simp⟩
      · cases h
      · cases h; exact ⟨.query ha h1 h3, by simp⟩
      · exact ih s e row h

/-- **C65.** As long as the alert says that there is an error in the program or in the query, this text is one in which the interpreter finds this error, in
this row. -/
theorem C65_about {d : Desk} (h : Used d) {s e row} (ha : d.alert = some (.wrong s e row)) : Wrong s (d.text s) e row := (h.fits s e row ha).1

/-- **C65.** The alert is hidden as soon as the text is changed in which the error was found. -/
theorem C65_hidden {d : Desk} (h : Used d) {s e row} (ha : d.alert = some (.wrong s e row)) {t : List Char} (ht : t ≠ d.text s) :
    (d.act (.edit s t)).alert = none := by
  unfold Desk.act
  dsimp only
  rw [if_neg ht, edit_alert, if_pos (h.fits s e row ha).2]

/-- An error of the program is one for every order of the hash tables. -/
theorem Wrong.program_stays {text e row} (h : Wrong .program text e row) {ord : HashOrder} (ho : ord.OK) :
    Org.init0.programReport ord text ≠ .empty := by
  cases h with
  | @program ord' _ _ _ ho' hr =>
    intro he
    have h1 := (C62_same Org.init0 ord text).1
    have h2 := (C62_same Org.init0 ord' text).1
    rw [he] at h1
    rw [hr] at h2
    have hs : SameTalk Org.init0 Org.init0 := C36_hash_order (.start ⟨Org.init_eq, Org.init_eq⟩)
    have e : (Org.init0.loadProgramText ord text).2 = (Org.init0.loadProgramText ord' text).2 := by
      unfold Org.loadProgramText
      split
      · exact hs.program _ _ _ ho ho'
      · exact hs.program _ _ _ ho ho'
    rw [← h1, ← h2] at e
    cases e

/-- An error of the query is one after every program. -/
theorem Wrong.query_stays {text e row} (h : Wrong .query text e row) (o : Org) {ord : HashOrder} (ho : ord.OK) : o.queryReport ord text ≠ .empty := by
  cases h with
  | @query ord' prog _ _ _ ho' _ hr =>
    intro he
    unfold Org.queryReport at hr he
    cases hp : parseQueryAt (appendDot text) with
    | error pos => rw [hp] at he; cases he
    | blank => rw [hp] at hr; cases hr
    | ok q =>
      rw [hp] at hr he
      cases hc : compileQueryAt ord q o.st with
      | error x =>
        simp only [hc] at he
        obtain ⟨e', i, st⟩ := x
        cases e' <;> cases he
      | ok rs =>
        have h1 := compileQueryAt_unlocated ord q o.st
        rw [hc] at h1
        have h2 := undefinedGoal_none.2 (compileQuery_exact ho h1.symm)
        cases hc' : compileQueryAt ord' q (Org.init0.loadProgramText ord' prog).1.st with
        | ok rs => simp only [hc'] at hr; cases hr
        | error x =>
          obtain ⟨e', i, st⟩ := x
          have hne : e' ≠ .outOfRange := by
            rintro rfl
            simp only [hc'] at hr
            cases hr
          obtain ⟨gs, a, gs', rfl, h3, h4⟩ := compileQueryAt_fault ho' hc' hne
          rw [undefinedGoal_split h4 h3] at h2
          cases h2

/-- **C65 (part that holds).** When a run is started no error of an earlier text is shown.  Missing: the notice that there was an
exception should not be shown either (`C65_trouble_stays`). -/
theorem C65_started_partial {d : Desk} (h : Used d) {ord : HashOrder} (ho : ord.OK) (hs : (d.run ord).started ≠ d.started)
    (ht : d.alert ≠ some .trouble) : (d.run ord).alert = none := by
  rcases run_cases ord d with ⟨h1, h2⟩ | ⟨e', row', h1, h2⟩ | ⟨h1, ⟨h3, h2⟩ | ⟨e', row', h3, h2⟩ | ⟨h3, h2⟩⟩ <;> rw [h2] at hs ⊢
  · exact absurd rfl hs
  · exact absurd rfl hs
  · exact absurd rfl hs
  · exact absurd rfl hs
  · show d.alert = none
    cases ha : d.alert with
    | none => rfl
    | some n =>
      cases n with
      | trouble => exact absurd ha ht
      | wrong s e row =>
        have hw := C65_about h ha
        cases s with
        | program => exact absurd h1 (hw.program_stays ho)
        | query => exact absurd h3 (hw.query_stays _ ho)

/-- **C65.** A click on "Run" starts a run with the two texts, or reports an error in one of them and marks its row, or reports an exception. -/
theorem C65_run {d : Desk} {ord : HashOrder} (ho : ord.OK) :
    ((d.run ord).started = d.started ++ [(d.program, d.query)] ∧ (d.run ord).marks = d.marks) ∨
    ((d.run ord).started = d.started ∧
      ((∃ s e row i, Wrong s (d.text s) e row ∧ (d.run ord).alert = some (.wrong s e row) ∧ (d.run ord).marks = d.marks ++ [⟨s, i, row - 1⟩]) ∨
       ((d.run ord).alert = some .trouble ∧ (d.run ord).marks = d.marks))) := by
  rcases run_cases ord d with ⟨h1, h2⟩ | ⟨e', row', h1, h2⟩ | ⟨h1, ⟨h3, h2⟩ | ⟨e', row', h3, h2⟩ | ⟨h3, h2⟩⟩ <;> rw [h2]
  · exact .inr ⟨rfl, .inr ⟨rfl, rfl⟩⟩
  · exact .inr ⟨rfl, .inl ⟨.program, e', row', _, .program ho h1, rfl, rfl⟩⟩
  · exact .inr ⟨rfl, .inr ⟨rfl, rfl⟩⟩
  · exact .inr ⟨rfl, .inl ⟨.query, e', row', _, .query ho h1 h3, rfl, rfl⟩⟩
  · exact .inl ⟨rfl, rfl⟩

/-! ## The marks -/

theorem hide_marks_sub (d : Desk) : ∀ m ∈ d.hide.marks, m ∈ d.marks := by
  unfold hide
  split
  · intro m h; exact h
  · intro m h; exact (List.mem_filter.1 h).1

theorem notify_marks_sub (s : Side) : ∀ (ls : List Side) (d : Desk), ∀ m ∈ (notify s ls d).marks, m ∈ d.marks
  | [], _, _, h => h
  | l :: ls, d, m, h => by
    have := notify_marks_sub s ls _ m h
    split at this
    · exact hide_marks_sub d m this
    · exact this

/-- Only these marks are left, and the functions that listen know them. -/
structure Marked (s : Side) (i : Nat) (d : Desk) : Prop where
  current : d.current = some (s, i)
  only : ∀ m ∈ d.marks, m.side = s ∧ m.id = i
  listens : s ∈ d.listeners

theorem Marked.hide {s i d} (h : Marked s i d) : d.hide.marks = [] := by
  unfold Desk.hide
  rw [h.current]
  refine List.filter_eq_nil_iff.2 fun m hm => ?_
  obtain ⟨h1, h2⟩ := h.only m hm
  simp [h1, h2]

theorem notify_nil (s : Side) : ∀ (ls : List Side) (d : Desk), d.marks = [] → (notify s ls d).marks = [] := fun ls d h =>
  List.eq_nil_iff_forall_not_mem.2 fun m hm => by
    have := notify_marks_sub s ls d m hm
    rw [h] at this
    cases this

theorem Marked.notify {s i} : ∀ (ls : List Side) {d}, Marked s i d → s ∈ ls → (notify s ls d).marks = []
  | l :: ls, d, h, hm => by
    unfold Desk.notify
    by_cases hl : l = s
    · rw [if_pos hl]
      exact notify_nil s ls _ h.hide
    · rw [if_neg hl]
      exact Marked.notify ls h (by simpa [Ne.symm hl] using hm)

theorem Marked.edit {s i d} (h : Marked s i d) (s' : Side) (t : List Char) : Marked s i (d.edit s' t) := by
  obtain ⟨_, _, h3, h4, _⟩ := notify_same s' d.listeners (d.setText s' t)
  refine ⟨?_, fun m hm => ?_, ?_⟩
  · unfold Desk.edit; rw [h4]; cases s' <;> exact h.current
  · have := notify_marks_sub s' _ _ m hm
    exact h.only m (by cases s' <;> exact this)
  · rw [edit_listeners]; exact h.listens

theorem Marked.acts {s i} : ∀ {as : List Action} {d}, Marked s i d → (∀ a ∈ as, ∀ ord, a ≠ .run ord) → Marked s i (d.acts as)
  | [], _, h, _ => h
  | a :: as, d, h, ha => by
    refine Marked.acts (as := as) ?_ fun a h => ha a (.tail _ h)
    cases a with
    | run ord => exact absurd rfl (ha _ (.head _) ord)
    | dismiss => exact ⟨h.current, h.only, h.listens⟩
    | edit s' t =>
      unfold Desk.act
      dsimp only
      split
      · exact h
      · exact h.edit s' t

/-- **C65 (part that holds).** If there were no marks, the mark of an error is removed by the next change of the text in which it stands,
unless there is another run before.  Missing: other runs before (`C65_marks_stay`). -/
theorem C65_marks_partial {d : Desk} (hm : d.marks = []) {ord : HashOrder} (h : (d.run ord).marks ≠ []) :
    ∃ s e row, (d.run ord).alert = some (.wrong s e row) ∧ (∃ i, (d.run ord).marks = [⟨s, i, row - 1⟩]) ∧
      ∀ (as : List Action) (t : List Char), (∀ a ∈ as, ∀ ord, a ≠ .run ord) → t ≠ ((d.run ord).acts as).text s →
        (((d.run ord).acts as).act (.edit s t)).marks = [] ∧ (((d.run ord).acts as).act (.edit s t)).alert = none := by
  have key : ∀ s e row, d.run ord = d.display s e row → ∃ s e row, (d.run ord).alert = some (.wrong s e row) ∧
      (∃ i, (d.run ord).marks = [⟨s, i, row - 1⟩]) ∧
      ∀ (as : List Action) (t : List Char), (∀ a ∈ as, ∀ ord, a ≠ .run ord) → t ≠ ((d.run ord).acts as).text s →
        (((d.run ord).acts as).act (.edit s t)).marks = [] ∧ (((d.run ord).acts as).act (.edit s t)).alert = none := by
    intro s e row hr
    refine ⟨s, e, row, by rw [hr]; rfl, ⟨d.nextId, by rw [hr]; simp [display, hm]⟩, fun as t ha ht => ?_⟩
    have h1 : Marked s d.nextId (d.run ord) := by
      rw [hr]
      refine ⟨rfl, fun m h => ?_, by simp [display]⟩
      simp only [display, hm, List.nil_append, List.mem_singleton] at h
      subst h; exact ⟨rfl, rfl⟩
    have h2 := h1.acts ha
    unfold Desk.act
    dsimp only
    rw [if_neg ht]
    constructor
    · unfold Desk.edit
      refine Marked.notify _ (i := d.nextId) ⟨?_, ?_, ?_⟩ h2.listens
      · cases s <;> exact h2.current
      · cases s <;> exact h2.only
      · cases s <;> exact h2.listens
    · rw [edit_alert, if_pos h2.listens]
  rcases run_cases ord d with ⟨h1, h2⟩ | ⟨e', row', h1, h2⟩ | ⟨h1, ⟨h3, h2⟩ | ⟨e', row', h3, h2⟩ | ⟨h3, h2⟩⟩
  · rw [h2] at h; exact absurd hm h
  · exact key _ _ _ h2
  · rw [h2] at h; exact absurd hm h
  · exact key _ _ _ h2
  · rw [h2] at h; exact absurd hm h

/-! ## What is false -/

/-- **C65 is false in general**: two clicks on "Run" with the same mistake leave a mark that is never removed: the mistake has been corrected, the run was started. -/
theorem C65_marks_stay : ((Desk.new n!"p(a).\nq(" n!"p(X)").acts
      [.run id, .run id, .edit .program n!"p(a).\nq(b).", .run id]) =
    ⟨n!"p(a).\nq(b).", n!"p(X)", none, [⟨.program, 0, 1⟩], 2, some (.program, 1), [.program, .program], [(n!"p(a).\nq(b).", n!"p(X)")]⟩ := by
  decide +kernel

/-- **C65 is false in general**: the notice of an exception stays although the number has been corrected and the run was started. -/
theorem C65_trouble_stays : ((Desk.new n!"p(99999999999)." n!"p(X)").acts [.run id, .edit .program n!"p(9).", .run id]) =
    ⟨n!"p(9).", n!"p(X)", some .trouble, [], 0, none, [], [(n!"p(9).", n!"p(X)")]⟩ := by
  decide +kernel

/-- C65, a concrete case of the parts that hold: a mistake in the second row of the query, which is then corrected. -/
theorem C65_samples :
    (Desk.new n!"p(a)." n!"p(X),\n Y is Z + 1").run id =
      ⟨n!"p(a).", n!"p(X),\n Y is Z + 1", some (.wrong .query .undefinedVar 2), [⟨.query, 0, 1⟩], 1, some (.query, 0), [.query], []⟩ ∧
    (Desk.new n!"p(a)." n!"p(X),\n Y is Z + 1").acts [.run id, .edit .query n!"p(X),\n Y is 1", .run id] =
      ⟨n!"p(a).", n!"p(X),\n Y is 1", none, [], 1, some (.query, 0), [.query], [(n!"p(a).", n!"p(X),\n Y is 1")]⟩ ∧
    ((Desk.new n!"p(a)." n!"p(X),\n Y is Z + 1").acts [.run id, .edit .program n!"q(a).", .run id]).alert = some (.wrong .query .undefinedVar 2) := by
  decide +kernel

end PBfs
