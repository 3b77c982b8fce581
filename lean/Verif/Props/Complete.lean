import Verif.Proof.Complete
import Verif.Props.Sound
/-! # C02, C03: the search is complete, "false" is conclusive -/
namespace PBfs

theorem Org.Inv.turn_keeps {o o' : Org} {fuel id q t} (inv : o.Inv) (ht : o.turn fuel = .ok (o', t)) (hq : o.queue = id :: q) :
    ∃ news, Keeps o o' id ∧ o'.queue = q ++ news := by
  have set : ∀ {e' : Exec} {j : Nat}, j ≠ id → (o.execs.set id e')[j]? = o.execs[j]? := by
    intro e' j hj
    rw [List.getElem?_set_ne (fun h => hj h.symm)]
  cases Org.turn_desc inv hq ht with
  | died => exact ⟨[], ⟨rfl, fun j hj _ => set hj⟩, by simp⟩
  | error => exact ⟨[], ⟨rfl, fun j hj _ => set hj⟩, by simp⟩
  | success => exact ⟨[], ⟨rfl, fun j hj _ => set hj⟩, by simp⟩
  | spawn =>
    refine ⟨_, ⟨rfl, fun j hj hlt => ?_⟩, rfl⟩
    simp only
    rw [List.getElem?_append_left (by simpa using hlt)]
    exact set hj
  | requeue => exact ⟨_, ⟨rfl, fun j hj _ => set hj⟩, rfl⟩

/-- The report shows the instance `ρq`, or says that an argument of `is` is not instantiated. -/
def Shows (X : Ctx) (ρq : Name → Tree) (fuel : Nat) (r : Org.Res) : Prop :=
  (∃ bs pre hp L, r = .answer bs ∧ Reported X fuel bs pre hp L ∧ Covers X ρq pre hp L) ∨
  ∃ err, r = .error err ∧ err.kind = .notInstantiated ∧ ¬ X.NoIs

/-- One turn, seen from an alternative that leads to the instance `ρq`: the alternative is still there,
and nearer, or the instance was reported. -/
theorem Lead.step {X : Ctx} (ok : X.OK) (pu : X.Plain) {o : Org} (w : Work X o) {ρq fuel o' t} (ht : o.turn fuel = .ok (o', t)) {i id n l : Nat}
    (hi : o.queue[i]? = some id) (h : Lead X o ρq id n l) :
    (∃ i' id' n' l', o'.queue[i']? = some id' ∧ Lead X o' ρq id' n' l' ∧ (n' < n ∨ (n' = n ∧ (l' < l ∨ (l' = l ∧ i' < i))))) ∨
    ∃ r, reports [t] = [r] ∧ Shows X ρq fuel r := by
  cases hq : o.queue with
  | nil => simp [hq] at hi
  | cons j q =>
    cases i with
    | zero =>
      simp only [hq, List.getElem?_cons_zero, Option.some.injEq] at hi
      subst hi
      rcases h.turn (fuel := fuel) ok pu w hq with ⟨x, h1⟩ | ⟨o1, id', n', l', h1, h2, h3, h4⟩ | ⟨o1, pre, hp, L, h1, h2⟩ | ⟨o1, err, h1, h2, h3⟩
      · rw [h1] at ht; cases ht
      · rw [h1] at ht; cases ht
        obtain ⟨i', hi'⟩ := list_getElem_of_mem h2
        exact .inl ⟨i', id', n', l', hi', h3, h4.imp_right fun h => ⟨h.1, .inl h.2⟩⟩
      · rw [h1] at ht
        simp only [bind_ok, Except.ok.injEq, Prod.mk.injEq] at ht
        obtain ⟨bs, hb, rfl, rfl⟩ := ht
        exact .inr ⟨_, rfl, .inl ⟨bs, pre, hp, L, rfl, ⟨hb, h2.1⟩, h2⟩⟩
      · rw [h1] at ht; cases ht
        exact .inr ⟨_, rfl, .inr ⟨err, rfl, h2, h3⟩⟩
    | succ i =>
      have hi' : q[i]? = some id := by simpa [hq] using hi
      have hmem : id ∈ q := List.mem_iff_getElem?.2 ⟨i, hi'⟩
      have hne : id ≠ j := by
        rintro rfl
        have := w.inv.qnd
        rw [hq] at this
        exact (List.nodup_cons.1 this).1 hmem
      obtain ⟨news, hk, hq'⟩ := w.inv.turn_keeps ht hq
      refine .inl ⟨i, id, n, l, ?_, h.other w.inv (by simp [hq]) hk hne, .inr ⟨rfl, .inr ⟨rfl, by omega⟩⟩⟩
      rw [hq', List.getElem?_append_left (List.getElem?_eq_some_iff.1 hi').1]
      exact hi'

/-- Some alternative leads to the instance. -/
def Leads (X : Ctx) (o : Org) (ρq : Name → Tree) : Prop := ∃ i id n l : Nat, o.queue[i]? = some id ∧ Lead X o ρq id n l

theorem reports_cons (t : Org.Turn) (ts : List Org.Turn) : reports (t :: ts) = reports [t] ++ reports ts := by
  cases t <;> rfl

/-- A run that is finished has reported every instance that it led to. -/
theorem Leads.exhausted {X : Ctx} (ok : X.OK) (pu : X.Plain) {ρq : Name → Tree} {fuel : Nat} : ∀ {k : Nat} {o o' : Org} {ts}, Work X o →
    Leads X o ρq → o.iterate fuel k = .ok (o', ts) → o'.queue = [] → ∃ r ∈ reports ts, Shows X ρq fuel r := by
  intro k
  induction k with
  | zero =>
    intro o o' ts w ⟨i, id, n, l, hi, _⟩ h hq
    simp only [Org.iterate, pure_ok, Prod.mk.injEq] at h
    rw [← h.1] at hq
    simp [hq] at hi
  | succ k ih =>
    intro o o' ts w ⟨i, id, n, l, hi, hl⟩ h hq
    unfold Org.iterate at h
    split at h
    · rename_i h0
      simp [h0] at hi
    · simp only [bind_ok, pure_ok, Prod.mk.injEq] at h
      obtain ⟨⟨o1, t⟩, h1, ⟨o2, ts2⟩, h2, rfl, rfl⟩ := h
      rw [reports_cons]
      rcases hl.step ok pu w h1 hi with ⟨i', id', n', l', a1, a2, _⟩ | ⟨r, a1, a2⟩
      · obtain ⟨r, b1, b2⟩ := ih (w.next ok h1) ⟨i', id', n', l', a1, a2⟩ h2 hq
        exact ⟨r, by simp [b1], b2⟩
      · exact ⟨r, by simp [a1], a2⟩

/-- The instance is shown after a number of turns, unless a turn does not terminate or, in a program with `is`, fails. -/
def Found (X : Ctx) (o : Org) (ρq : Name → Tree) : Prop :=
  (∃ k, ∀ fuel, o.iterate fuel k = .error .hang) ∨
  (¬ X.NoIs ∧ ∃ k fuel0 x, x ≠ Fault.hang ∧ ∀ fuel, fuel0 ≤ fuel → o.iterate fuel k = .error x) ∨
  ∃ k fuel0 r o' ts, (∀ fuel, fuel0 ≤ fuel → o.iterate fuel k = .ok (o', ts)) ∧ r ∈ reports ts ∧ Shows X ρq fuel0 r

theorem Org.turn_ne {o : Org} {fuel o1 t} (h : o.turn fuel = .ok (o1, t)) {n : Nat} : o.turn n = .error .hang ∨ o.turn n = .ok (o1, t) := by
  by_cases hn : o.turn n = .error .hang
  · exact .inl hn
  · right
    rcases Nat.le_total n fuel with hle | hle
    · rw [← Org.turn_fuel hle o hn]; exact h
    · rw [Org.turn_fuel hle o (by rw [h]; simp)]; exact h

theorem iterate_succ {o o1 : Org} {fuel t id q} (hq : o.queue = id :: q) (h : o.turn fuel = .ok (o1, t)) {k : Nat} :
    o.iterate fuel (k + 1) = (o1.iterate fuel k >>= fun s => .ok (s.1, t :: s.2)) := by
  conv => lhs; unfold Org.iterate
  simp only [hq, h, ok_bind]
  rfl

theorem Shows.mono {X : Ctx} {ρq fuel fuel' r} (h : Shows X ρq fuel r) (hle : fuel ≤ fuel') : Shows X ρq fuel' r := by
  rcases h with ⟨bs, pre, hp, L, h1, h2, h3⟩ | h
  · refine .inl ⟨bs, pre, hp, L, h1, ⟨?_, h2.2⟩, h3⟩
    rw [renderSubs_fuel (fun a => stringRep_fuel hle _ a) (by rw [h2.1]; simp)]
    exact h2.1
  · exact .inr h

theorem Found.step {X : Ctx} {o o1 : Org} {ρq id q fuel t} (hq : o.queue = id :: q) (h : o.turn fuel = .ok (o1, t)) (hf : Found X o1 ρq) : Found X o ρq := by
  have hle : ∀ n, fuel ≤ n → o.turn n = .ok (o1, t) := fun n hn => by
    rw [Org.turn_fuel hn o (by rw [h]; simp)]; exact h
  rcases hf with ⟨k, hk⟩ | ⟨h0, k, fuel0, x, h1, h2⟩ | ⟨k, fuel0, r, o', ts, h1, h2, h3⟩
  · refine .inl ⟨k + 1, fun n => ?_⟩
    rcases Org.turn_ne h (n := n) with hn | hn
    · unfold Org.iterate
      simp only [hq, hn, error_bind]
    · rw [iterate_succ hq hn, hk, error_bind]
  · refine .inr (.inl ⟨h0, k + 1, max fuel fuel0, x, h1, fun n hn => ?_⟩)
    rw [iterate_succ hq (hle n (by omega)), h2 n (by omega), error_bind]
  · refine .inr (.inr ⟨k + 1, max fuel fuel0, r, o', t :: ts, fun n hn => ?_, by rw [reports_cons]; simp [h2], h3.mono (by omega)⟩)
    rw [iterate_succ hq (hle n (by omega)), h1 n (by omega), ok_bind]

/-- With printable names a turn gives a result or does not terminate, or fails in `is`. -/
theorem Work.turn_cases {X : Ctx} (ok : X.OK) (hpr : Printable X.st) {o : Org} (w : Work X o) {id q} (hq : o.queue = id :: q) (fuel : Nat) :
    o.turn fuel = .error .hang ∨ (∃ r, o.turn fuel = .ok r) ∨ (¬ X.NoIs ∧ ∃ x, x ≠ .hang ∧ o.turn fuel = .error x) := by
  rcases w.turn (fuel := fuel) ok hq with ⟨x, h1, h2⟩ | ⟨o', _, h⟩
  · by_cases hx : x = .hang
    · exact .inl (by rw [h1, hx])
    · exact .inr (.inr ⟨fun no => hx (h2 no), x, hx, h1⟩)
  · rcases h with h | ⟨err, h, _⟩ | ⟨pre, hp, L, h, F⟩
    · exact .inr (.inl ⟨_, h⟩)
    · exact .inr (.inl ⟨_, h⟩)
    · rw [h]
      exact (orHang_bind (F.render hpr fuel) fun bs _ => .inr ⟨_, rfl⟩).imp_right .inl

/-- With printable names a turn gives a result or does not terminate. -/
theorem Work.turn_total {X : Ctx} (ok : X.OK) (no : X.NoIs) (hpr : Printable X.st) {o : Org} (w : Work X o) {id q} (hq : o.queue = id :: q) (fuel : Nat) :
    o.turn fuel = .error .hang ∨ ∃ r, o.turn fuel = .ok r := by
  rcases w.turn_cases ok hpr hq fuel with h | h | ⟨h, _⟩
  · exact .inl h
  · exact .inr h
  · exact absurd no h

theorem Lead.found {X : Ctx} (ok : X.OK) (pu : X.Plain) (hpr : Printable X.st) {ρq : Name → Tree} : ∀ (n l i : Nat) {o : Org} {id : Nat}, Work X o →
    o.queue[i]? = some id → Lead X o ρq id n l → Found X o ρq := by
  intro n
  induction n using Nat.strongRecOn with
  | _ n ihn =>
    intro l
    induction l using Nat.strongRecOn with
    | _ l ihl =>
      intro i
      induction i using Nat.strongRecOn with
      | _ i ihi =>
        intro o id w hi h
        cases hq : o.queue with
        | nil => simp [hq] at hi
        | cons j q =>
          by_cases hh : ∀ fuel, o.turn fuel = .error .hang
          · refine .inl ⟨1, fun fuel => ?_⟩
            unfold Org.iterate
            simp only [hq, hh, error_bind]
          · obtain ⟨fuel, hf⟩ := Classical.not_forall.1 hh
            rcases (w.turn_cases ok hpr hq fuel).resolve_left hf with ⟨⟨o', t⟩, ht⟩ | ⟨hno, x, hx, ht⟩
            · rcases h.step ok pu w ht hi with ⟨i', id', n', l', a1, a2, a3⟩ | ⟨r, a1, a2⟩
              · refine Found.step hq ht ?_
                have w' := w.next ok ht
                rcases a3 with a3 | ⟨rfl, a3 | ⟨rfl, a3⟩⟩
                · exact ihn _ a3 _ _ w' a1 a2
                · exact ihl _ a3 _ w' a1 a2
                · exact ihi _ a3 w' a1 a2
              · refine .inr (.inr ⟨1, fuel, r, o', [t], fun n hn => ?_, by simp [a1], a2⟩)
                have : o.turn n = .ok (o', t) := by
                  rw [Org.turn_fuel hn o (by rw [ht]; simp)]; exact ht
                rw [iterate_succ hq this]
                rfl
            · refine .inr (.inl ⟨hno, 1, fuel, x, hx, fun n hn => ?_⟩)
              have : o.turn n = .error x := by
                rw [Org.turn_fuel hn o (by rw [ht]; simp [hx])]; exact ht
              unfold Org.iterate
              simp only [hq, this, error_bind]

theorem reports_mem {ts : List Org.Turn} {bs} (h : Org.Turn.answer bs ∈ ts) : Org.Res.answer bs ∈ reports ts := by
  induction ts with
  | nil => cases h
  | cons t ts ih =>
    rcases List.mem_cons.1 h with rfl | h'
    · simp [reports]
    · cases t with
      | «continue» => exact ih h'
      | answer bs' => exact List.mem_cons_of_mem _ (ih h')
      | error e => exact List.mem_cons_of_mem _ (ih h')

theorem reports_length (ts : List Org.Turn) : (reports ts).length ≤ ts.length := by
  induction ts with
  | nil => simp [reports]
  | cons t ts ih => cases t <;> simp only [reports, List.length_cons] <;> omega

theorem iterate_done {o : Org} {fuel k : Nat} (h : o.queue = []) : o.iterate fuel k = .ok (o, []) := by
  cases k with
  | zero => rfl
  | succ k => simp [Org.iterate, h, pure, Except.pure]

/-- Calls of `get_answer` with enough time go through the turns. -/
theorem iterate_session {fuel m : Nat} {b : Org.Res} : ∀ {k : Nat} {o o' : Org} {ts m0}, o.iterate fuel k = .ok (o', ts) →
    b ∈ reports ts → k ≤ m0 → k ≤ m → ∃ j o'' rs, j < k ∧
      o.session fuel (List.replicate m0 false :: List.replicate j (List.replicate m false)) = .ok (o'', rs) ∧ rs.getLast? = some b := by
  intro k
  induction k with
  | zero =>
    intro o o' ts m0 h hb
    simp only [Org.iterate, pure_ok, Prod.mk.injEq] at h
    rw [← h.2] at hb
    cases hb
  | succ k ih =>
    intro o o' ts m0 h hb h0 hm
    obtain ⟨m0, rfl⟩ : ∃ x, m0 = x + 1 := ⟨m0 - 1, by omega⟩
    unfold Org.iterate at h
    split at h
    · simp only [pure_ok, Prod.mk.injEq] at h
      rw [← h.2] at hb
      cases hb
    · rename_i id q hq
      simp only [bind_ok, pure_ok, Prod.mk.injEq] at h
      obtain ⟨⟨o1, t⟩, h1, ⟨o2, ts2⟩, h2, rfl, rfl⟩ := h
      have hget : o.getAnswer fuel (List.replicate (m0 + 1) false) = (match t with
          | .continue => o1.getAnswer fuel (List.replicate m0 false)
          | .answer bs => .ok (o1, .answer bs)
          | .error e => .ok (o1, .error e)) := by
        rw [List.replicate_succ]
        conv => lhs; unfold Org.getAnswer
        simp only [hq, h1, ok_bind]
        cases t <;> rfl
      have hrep : ∀ r, o.getAnswer fuel (List.replicate (m0 + 1) false) = .ok (o1, r) → b = r ∨ b ∈ reports ts2 →
          ∃ j o'' rs, j < k + 1 ∧ o.session fuel (List.replicate (m0 + 1) false :: List.replicate j (List.replicate m false)) = .ok (o'', rs) ∧
            rs.getLast? = some b := by
        intro r hr hb
        by_cases he : b = r
        · subst he
          refine ⟨0, o1, [b], by omega, ?_, rfl⟩
          rw [Org.session, hr, ok_bind]
          rfl
        · obtain ⟨j, o'', rs, a1, a2, a3⟩ := ih (m0 := m) h2 (hb.resolve_left he) (by omega) (by omega)
          refine ⟨j + 1, o'', r :: rs, by omega, ?_, ?_⟩
          · rw [Org.session, hr, ok_bind, List.replicate_succ, a2, ok_bind]
            rfl
          · cases rs with
            | nil => cases a3
            | cons x rs => rw [List.getLast?_cons_cons]; exact a3
      cases t with
      | «continue» =>
        obtain ⟨j, o'', rs, a1, a2, a3⟩ := ih (m0 := m0) h2 hb (by omega) (by omega)
        refine ⟨j, o'', rs, by omega, ?_, a3⟩
        rw [Org.session, hget]
        rw [Org.session] at a2
        exact a2
      | answer bs' => exact hrep _ hget (by simpa [reports] using hb)
      | error e => exact hrep _ hget (by simpa [reports] using hb)

/-! ## The theorems -/

/-- The bindings `bs` are the text of terms, one for each variable of the query, of which `ρ` is an instance:
for some values `ω` of the open variables each term becomes the value of its variable. -/
def HasInstance (st : Storage) (atoms : List Node) (fuel : Nat) (bs : List Binding) (ρ : Name → Tree) : Prop :=
  ∃ pre hp L, WF st pre hp ∧ Prints (stringRep pre hp st L fuel false) L bs ∧
    (∀ v, v ∈ L.map (·.1) ↔ ∃ a ∈ atoms, v ∈ Node.varss a.children) ∧
    ∃ ω : Nat → Tree, ∀ x ∈ L, ∃ t, Reads (hp.at? pre) x.2 t ∧ t.eval treeAlg (interpOf st) ω = ρ x.1

theorem Covers.hasInstance {o : Org} {p atoms ρ fuel bs pre hp L} (hr : Reported (ctxOf o (interpOf o.st) p atoms) fuel bs pre hp L)
    (h : Covers (ctxOf o (interpOf o.st) p atoms) ρ pre hp L) : HasInstance o.st atoms fuel bs ρ := by
  obtain ⟨F, σ, m, hσ⟩ := h
  refine ⟨pre, hp, L, F.good, hr.prints, F.names, σ, fun x hx => ?_⟩
  obtain ⟨t, ht⟩ := F.good.reads_of m x.2 (F.lt x hx)
  exact ⟨t, ht, by rw [← hσ x hx]; exact (ht.eval m fun _ _ _ => rfl).symm⟩

/-- The predicates that are not defined by clauses. -/
def ownCode : List FV := [⟨n!"is", 2⟩, ⟨n!"==", 2⟩, ⟨n!"\\==", 2⟩]

/-- Neither the query nor a clause uses a predicate that is not defined by clauses. -/
def OnlyClauses (p : List Clause) (atoms : List Node) : Prop :=
  (∀ a ∈ atoms, a.fv ∉ ownCode) ∧ ∀ c ∈ p, ∀ a ∈ c.body, a.fv ∉ ownCode

/-- Neither the query nor a clause uses `==` or `\\==`. -/
def NoCompare (p : List Clause) (atoms : List Node) : Prop :=
  (∀ a ∈ atoms, a.fv ≠ ⟨n!"==", 2⟩ ∧ a.fv ≠ ⟨n!"\\==", 2⟩) ∧ ∀ c ∈ p, ∀ a ∈ c.body, a.fv ≠ ⟨n!"==", 2⟩ ∧ a.fv ≠ ⟨n!"\\==", 2⟩

/-- Neither the query nor a clause uses `is`. -/
def NoArith (p : List Clause) (atoms : List Node) : Prop :=
  (∀ a ∈ atoms, a.fv ≠ ⟨n!"is", 2⟩) ∧ ∀ c ∈ p, ∀ a ∈ c.body, a.fv ≠ ⟨n!"is", 2⟩

theorem OnlyClauses.noCompare {p atoms} (h : OnlyClauses p atoms) : NoCompare p atoms := by
  have key : ∀ {f : FV}, f ∉ ownCode → f ≠ ⟨n!"==", 2⟩ ∧ f ≠ ⟨n!"\\==", 2⟩ := by
    intro f hf
    constructor <;> (rintro rfl; exact hf (by simp [ownCode]))
  exact ⟨fun a ha => key (h.1 a ha), fun c hc a ha => key (h.2 c hc a ha)⟩

theorem OnlyClauses.noArith {p atoms} (h : OnlyClauses p atoms) : NoArith p atoms := by
  have key : ∀ {f : FV}, f ∉ ownCode → f ≠ ⟨n!"is", 2⟩ := by
    rintro f hf rfl; exact hf (by simp [ownCode])
  exact ⟨fun a ha => key (h.1 a ha), fun c hc a ha => key (h.2 c hc a ha)⟩

theorem text_of {o : Org} {I p atoms} {Q : FV → Prop} (h1 : ∀ a ∈ atoms, Q a.fv) (h2 : ∀ c ∈ p, ∀ a ∈ c.body, Q a.fv)
    (h3 : Q ⟨n!"append", 3⟩) {a} (ha : (ctxOf o I p atoms).Text a) : Q a.fv := by
  rcases ha with ha | ⟨c, hc, ha⟩
  · exact h1 a ha
  · change c ∈ inForce p at hc
    rw [inForce] at hc
    rcases List.mem_append.1 hc with hc | hc
    · exact h2 c (List.mem_filter.1 hc).1 a ha
    · simp only [appendClauses, List.mem_cons, List.not_mem_nil, or_false] at hc
      rcases hc with rfl | rfl
      · cases ha
      · simp only [List.mem_singleton] at ha
        subst ha
        exact h3

theorem NoCompare.plain {o : Org} {I p atoms} (h : NoCompare p atoms) : (ctxOf o I p atoms).Plain := by
  constructor
  · intro a ha b hb
    have := text_of (Q := fun f => f ≠ ⟨n!"==", 2⟩ ∧ f ≠ ⟨n!"\\==", 2⟩) h.1 h.2 (by decide) ha
    cases b
    · exact absurd rfl hb
    · exact this.1
    · exact this.2
  · intro c hc b hb
    change c ∈ inForce p at hc
    rw [inForce] at hc
    rcases List.mem_append.1 hc with hc | hc
    · have := (List.mem_filter.1 hc).2
      rw [hb] at this
      cases b <;> simp [builtinFVs, Builtin.name] at this
    · simp only [appendClauses, List.mem_cons, List.not_mem_nil, or_false] at hc
      rcases hc with rfl | rfl <;> cases b <;> revert hb <;> decide

theorem NoArith.noIs {o : Org} {I p atoms} (h : NoArith p atoms) : (ctxOf o I p atoms).NoIs := fun _ ha =>
  text_of (Q := fun f => f ≠ ⟨n!"is", 2⟩) h.1 h.2 (by decide) ha

/-- At the beginning every provable instance can be reached. -/
theorem Asked.leads {o : Org} {p atoms} (h : Asked o p atoms) (hb : NoCompare p atoms) {ρ : Name → Tree}
    (hp : ∀ a ∈ atoms, Proves treeAlg (inForce p) (a.inst treeAlg ρ)) : Leads (ctxOf o (interpOf o.st) p atoms) o ρ := by
  obtain ⟨o0, ord, ord', h1, h2, h3, h4, h5⟩ := h.loaded
  obtain ⟨ok, w, e, k, hp0, hq, ⟨fr, rfl, f1, f2, f3⟩, hv⟩ := Work.init h1 h2 (untangled_safe h2 h3) h4 h5 h.wf h.ne h.small
  have pu := hb.plain (o := o) (I := interpOf o.st)
  have hd : ∀ (l : List Node), (∀ a ∈ l, a ∈ atoms) → ∃ n, DerL treeAlg (inForce p) n (l.map (Node.inst treeAlg ρ)) := by
    intro l
    induction l with
    | nil => intro _; exact ⟨0, .nil⟩
    | cons a l ih =>
      intro hl
      obtain ⟨m, hm⟩ := ih fun a ha => hl a (by simp [ha])
      refine DerL.of_proves (fun c hc a ha b => pu.text a (.inr ⟨c, hc, ha⟩) b) (hp a (hl a (by simp))) (fun b e0 e1 e2 => ?_) hm
      refine pu.text a (.inl (hl a (by simp))) b e0 ?_
      simp only [Node.inst, evals_length] at e1 e2
      simp [Node.fv, e1, e2]
  obtain ⟨n, hn⟩ := hd atoms fun _ h => h
  have hwi : Kind.Within (ctxOf o (interpOf o.st) p atoms) (.res true fr []) := by
    intro f hf a ha
    simp only [List.mem_singleton] at hf
    subst hf
    rw [f2] at ha
    exact .inl ha
  refine ⟨0, 0, n, _, by simp [hq], .res (σ := fun _ => Tree.int 0) hp0 hwi (by rw [hv]; intro a c hc; cases hc) (gs := atoms.map (Node.inst treeAlg ρ)) ?_ hn⟩
  have := Goals.cons (A := treeAlg) (σ := fun _ => Tree.int 0) (ρq := ρ) (fr := fr) ρ (fun n k hk => by rw [f3] at hk; cases hk) (fun _ => rfl) .nil
  rwa [f2, List.append_nil] at this

/-- A report that accounts for the instance `ρ` of the query: an answer of which it is an instance, or the
error that an argument of `is` is not sufficiently instantiated. -/
def Accounts (st : Storage) (atoms : List Node) (fuel : Nat) (ρ : Name → Tree) (r : Org.Res) : Prop :=
  (∃ bs, r = .answer bs ∧ HasInstance st atoms fuel bs ρ) ∨ ∃ err, r = .error err ∧ err.kind = .notInstantiated

theorem Shows.accounts {o : Org} {p atoms ρ fuel r} (h : Shows (ctxOf o (interpOf o.st) p atoms) ρ fuel r) : Accounts o.st atoms fuel ρ r := by
  rcases h with ⟨bs, pre, hp, L, h1, h2, h3⟩ | ⟨err, h1, h2, _⟩
  · exact .inl ⟨bs, h1, h3.hasInstance h2⟩
  · exact .inr ⟨err, h1, h2⟩

theorem Shows.answer {o : Org} {p atoms ρ fuel r} (h : Shows (ctxOf o (interpOf o.st) p atoms) ρ fuel r) (hb : NoArith p atoms) :
    ∃ bs, r = .answer bs ∧ HasInstance o.st atoms fuel bs ρ := by
  rcases h with ⟨bs, pre, hp, L, h1, h2, h3⟩ | ⟨err, _, _, h3⟩
  · exact ⟨bs, h1, h3.hasInstance h2⟩
  · exact absurd hb.noIs h3

theorem Asked.conclusive {o o' : Org} {p atoms fuel clocks rs} (h : Asked o p atoms) (hb : NoCompare p atoms)
    (hs : o.session fuel clocks = .ok (o', rs)) (hl : rs.getLast? = some .noAnswer)
    {ρ : Name → Tree} (hp : ∀ a ∈ atoms, Proves treeAlg (inForce p) (a.inst treeAlg ρ)) :
    ∃ r ∈ rs, Shows (ctxOf o (interpOf o.st) p atoms) ρ fuel r := by
  obtain ⟨ts, h1, h2⟩ := C05_timeouts_transparent h.reach hs
  have hq := session_exhausted hs hl h.reach.rinv
  obtain ⟨r, a1, a2⟩ := (h.leads hb hp).exhausted h.work.1 hb.plain h.work.2 h1 hq
  rw [← h2] at a1
  exact ⟨r, (List.mem_filter.1 a1).1, a2⟩

/-- **C03 (part that holds).** When the last of any number of `get_answer` calls (with any time-outs) says that
there is no answer, then every instance `ρ` of the query that is provable over finite trees is an instance
of an answer given before.
Missing: programs with clauses that are compiled wrongly (`Asked` demands `Untangled`), for which C03 is false
(`C03_false_wrong`), and the predicates `is` (see `C03_false_conclusive_is_partial`), `==`, `\==`, whose results
depend on what is bound at the time. -/
theorem C03_false_conclusive_partial {o o' : Org} {p atoms fuel clocks rs} (h : Asked o p atoms) (hb : OnlyClauses p atoms)
    (hs : o.session fuel clocks = .ok (o', rs)) (hl : rs.getLast? = some .noAnswer)
    {ρ : Name → Tree} (hp : ∀ a ∈ atoms, Proves treeAlg (inForce p) (a.inst treeAlg ρ)) :
    ∃ bs, Org.Res.answer bs ∈ rs ∧ HasInstance o.st atoms fuel bs ρ := by
  obtain ⟨r, h1, h2⟩ := h.conclusive hb.noCompare hs hl hp
  obtain ⟨bs, rfl, h3⟩ := h2.answer hb.noArith
  exact ⟨bs, h1, h3⟩

/-- **C03 with arithmetic (part that holds).** In programs that use `is` as well: when the last call says that
there is no answer, then every provable instance of the query is an instance of an answer given before, or
the error "arguments not sufficiently instantiated" was reported before.
Missing: clauses that are compiled wrongly, and `==`, `\==`. -/
theorem C03_false_conclusive_is_partial {o o' : Org} {p atoms fuel clocks rs} (h : Asked o p atoms) (hb : NoCompare p atoms)
    (hs : o.session fuel clocks = .ok (o', rs)) (hl : rs.getLast? = some .noAnswer)
    {ρ : Name → Tree} (hp : ∀ a ∈ atoms, Proves treeAlg (inForce p) (a.inst treeAlg ρ)) :
    ∃ r ∈ rs, Accounts o.st atoms fuel ρ r := by
  obtain ⟨r, h1, h2⟩ := h.conclusive hb hs hl hp
  exact ⟨r, h1, h2.accounts⟩

/-- A report of the first turns is in every session that is long enough, and can be reached. -/
theorem Asked.sessions {o : Org} {p atoms} (h : Asked o p atoms) {k fuel r o' ts} (h1 : o.iterate fuel k = .ok (o', ts)) (h2 : r ∈ reports ts) :
    (∀ clocks o' rs, o.session fuel clocks = .ok (o', rs) → k ≤ (rs.filter Org.Res.isReport).length ∨ rs.getLast? = some .noAnswer → r ∈ rs) ∧
    ∃ j o' rs, j ≤ k ∧ o.session fuel (List.replicate j (List.replicate k false)) = .ok (o', rs) ∧ rs.getLast? = some r := by
  refine ⟨fun clocks o2 rs hs hc => ?_, ?_⟩
  · obtain ⟨ts2, i1, i2⟩ := C05_timeouts_transparent h.reach hs
    suffices r ∈ reports ts2 by
      rw [← i2] at this
      exact (List.mem_filter.1 this).1
    by_cases hle : k ≤ ts2.length
    · obtain ⟨d, hd⟩ := Nat.exists_eq_add_of_le hle
      rw [hd, iterate_add, h1, ok_bind] at i1
      simp only [bind_ok, pure_ok, Prod.mk.injEq] at i1
      obtain ⟨⟨_, ts3⟩, _, _, rfl⟩ := i1
      rw [reports_append]
      exact List.mem_append_left _ h2
    · have hlen := reports_length ts2
      rw [i2] at hc
      have hq := session_exhausted hs (hc.resolve_left (by omega)) h.reach.rinv
      obtain ⟨d, rfl⟩ := Nat.exists_eq_add_of_le (show ts2.length ≤ k by omega)
      have hh := h1
      rw [iterate_add, i1, ok_bind] at hh
      simp only [iterate_done hq, ok_bind, List.append_nil, pure_ok, Prod.mk.injEq] at hh
      rw [hh.2]
      exact h2
  · obtain ⟨j, o2, rs, a1, a2, a3⟩ := iterate_session (m := k) (m0 := k) h1 h2 (Nat.le_refl _) (Nat.le_refl _)
    exact ⟨j + 1, o2, rs, by omega, by rw [List.replicate_succ]; exact a2, a3⟩

/-- **C02 (part that holds).** Let `ρ` be an instance of the query that is provable over finite trees, by a
derivation of any size.  Then, unless some turn of the machine never terminates (unification without occurs check can do that, `C11_unify_may_hang`), a certain answer
`bs` of which `ρ` is an instance is found: every session of `get_answer` calls contains it that has `k`
reports or ends with "no answer", whatever the time-outs in between; and at most `k` calls with time
for `k` turns each are enough to get it.  Other branches of the search may be infinite.
Missing: as in C03, and programs for which a step of the machine does not terminate. -/
theorem C02_complete_partial {o : Org} {p atoms} (h : Asked o p atoms) (hb : OnlyClauses p atoms) (hpr : Printable o.st)
    {ρ : Name → Tree} (hp : ∀ a ∈ atoms, Proves treeAlg (inForce p) (a.inst treeAlg ρ)) :
    (∃ k, ∀ fuel, o.iterate fuel k = .error .hang) ∨
    ∃ k fuel0 bs, HasInstance o.st atoms fuel0 bs ρ ∧ ∀ fuel, fuel0 ≤ fuel →
      (∀ clocks o' rs, o.session fuel clocks = .ok (o', rs) → k ≤ (rs.filter Org.Res.isReport).length ∨ rs.getLast? = some .noAnswer →
        Org.Res.answer bs ∈ rs) ∧
      ∃ j o' rs, j ≤ k ∧ o.session fuel (List.replicate j (List.replicate k false)) = .ok (o', rs) ∧ rs.getLast? = some (.answer bs) := by
  obtain ⟨i, id, n, l, hi, hl⟩ := h.leads hb.noCompare hp
  rcases hl.found h.work.1 hb.noCompare.plain hpr n l i h.work.2 hi with hk | ⟨hk, _⟩ | ⟨k, fuel0, r, o', ts, h1, h2, h3⟩
  · exact .inl hk
  · exact absurd hb.noArith.noIs hk
  · obtain ⟨bs, rfl, h4⟩ := h3.answer hb.noArith
    exact .inr ⟨k, fuel0, bs, h4, fun fuel hf => h.sessions (h1 fuel hf) h2⟩

/-- **C02 with arithmetic (part that holds).** In programs that use `is` as well: for every provable instance `ρ`
of the query, a certain report is made that accounts for `ρ` (an answer of which it is an instance, or
the error "arguments not sufficiently instantiated"), unless some turn of the machine never terminates
or fails with an error of C++ (which `is` can do in other branches of the search, see C36).
Missing: as in C03, and programs for which a step of the machine does not terminate. -/
theorem C02_complete_is_partial {o : Org} {p atoms} (h : Asked o p atoms) (hb : NoCompare p atoms) (hpr : Printable o.st)
    {ρ : Name → Tree} (hp : ∀ a ∈ atoms, Proves treeAlg (inForce p) (a.inst treeAlg ρ)) :
    (∃ k, ∀ fuel, o.iterate fuel k = .error .hang) ∨
    (∃ k fuel0 x, x ≠ Fault.hang ∧ ∀ fuel, fuel0 ≤ fuel → o.iterate fuel k = .error x) ∨
    ∃ k fuel0 r, Accounts o.st atoms fuel0 ρ r ∧ ∀ fuel, fuel0 ≤ fuel →
      (∀ clocks o' rs, o.session fuel clocks = .ok (o', rs) → k ≤ (rs.filter Org.Res.isReport).length ∨ rs.getLast? = some .noAnswer →
        r ∈ rs) ∧
      ∃ j o' rs, j ≤ k ∧ o.session fuel (List.replicate j (List.replicate k false)) = .ok (o', rs) ∧ rs.getLast? = some r := by
  obtain ⟨i, id, n, l, hi, hl⟩ := h.leads hb hp
  rcases hl.found h.work.1 hb.plain hpr n l i h.work.2 hi with hk | ⟨_, hk⟩ | ⟨k, fuel0, r, o', ts, h1, h2, h3⟩
  · exact .inl hk
  · exact .inr (.inl hk)
  · exact .inr (.inr ⟨k, fuel0, r, h3.accounts, fun fuel hf => h.sessions (h1 fuel hf) h2⟩)

/-! ## Concrete cases -/

namespace CompleteExamples
open SoundExamples

/-- `p(X) :- p(X).  p(a).` -/
def loop : List Clause :=
  [⟨.fn n!"p" [.var n!"X"], [.fn n!"p" [.var n!"X"]]⟩, ⟨.fn n!"p" [.cons n!"a"], []⟩]

def askLoop : List Node := [.fn n!"p" [.var n!"X"]]

/-- The hypotheses of C02 and C03 are met, by a program with an infinite branch that comes first. -/
theorem asked_loop : Asked (demo loop askLoop) loop askLoop :=
  asked_demo (by decide +kernel) (by decide +kernel) (safe_of_b (by decide +kernel)) (by decide) (by simp [askLoop]) (by decide +kernel)

theorem only_loop : OnlyClauses loop askLoop := ⟨by decide, by decide⟩

theorem printable_loop : Printable (demo loop askLoop).st :=
  ⟨by decide +kernel, by decide +kernel, by decide +kernel, by decide +kernel⟩

theorem loop_force : inForce loop = loop ++ appendClauses := rfl

theorem proves_loop : ∀ a ∈ askLoop, Proves treeAlg (inForce loop) (a.inst treeAlg fun _ => .cons n!"a") := by
  intro a ha
  simp only [askLoop, List.mem_singleton] at ha
  subst ha
  exact .clause (c := ⟨.fn n!"p" [.cons n!"a"], []⟩) (ρ := fun _ => .int 0) (by rw [loop_force]; simp [loop]) (by intro a ha; cases ha)

example : ((demo loop askLoop).session 20 [List.replicate 8 false, List.replicate 8 false]).toOption.map (·.2) =
    some [Org.Res.answer [⟨n!"X", n!"a"⟩], Org.Res.answer [⟨n!"X", n!"a"⟩]] := by decide +kernel

/-- C03: a program whose search ends. -/
example : ((demo Demo.prog [.fn n!"r" [.var n!"X"]]).session 20 [List.replicate 20 false, List.replicate 20 false]).toOption.map (·.2) =
    some [Org.Res.answer [⟨n!"X", n!"b"⟩], .noAnswer] := by decide +kernel

/-- `p(X) :- q(Y), X is Y+1.  q(2).` -/
def count : List Clause :=
  [⟨.fn n!"p" [.var n!"X"], [.fn n!"q" [.var n!"Y"], .fn n!"is" [.var n!"X", .efn n!"+" [.var n!"Y", .int 1]]]⟩, ⟨.fn n!"q" [.int 2], []⟩]

/-- The hypotheses of C02 and C03 with arithmetic are met; the answer `X = 3` is the provable instance. -/
example : Asked (demo count askLoop) count askLoop ∧ NoCompare count askLoop ∧ Printable (demo count askLoop).st ∧
    (∀ a ∈ askLoop, Proves treeAlg (inForce count) (a.inst treeAlg fun _ => .int 3)) ∧
    ((demo count askLoop).session 20 [List.replicate 20 false, List.replicate 20 false]).toOption.map (·.2) =
      some [Org.Res.answer [⟨n!"X", n!"3"⟩], .noAnswer] := by
  refine ⟨asked_demo (by decide +kernel) (by decide +kernel) (safe_of_b (by decide +kernel)) (by decide) (by simp [askLoop]) (by decide +kernel),
    ⟨by decide, by decide⟩, ⟨by decide +kernel, by decide +kernel, by decide +kernel, by decide +kernel⟩, ?_, by decide +kernel⟩
  intro a ha
  simp only [askLoop, List.mem_singleton] at ha
  subst ha
  have hf : inForce count = count ++ appendClauses := rfl
  refine Proves.clause (c := ⟨.fn n!"p" [.var n!"X"], [.fn n!"q" [.var n!"Y"], .fn n!"is" [.var n!"X", .efn n!"+" [.var n!"Y", .int 1]]]⟩)
    (ρ := fun v => if v = n!"X" then Tree.int 3 else Tree.int 2) (by rw [hf]; simp [count]) fun a ha => ?_
  simp only [List.mem_cons, List.not_mem_nil, or_false] at ha
  rcases ha with rfl | rfl
  · exact .clause (c := ⟨.fn n!"q" [.int 2], []⟩) (ρ := fun _ => .int 0) (by rw [hf]; simp [count]) (by intro a ha; cases ha)
  · exact Proves.is (.op .int .int (ArithSpec.add (a := 2) (b := 1)))

/-- `p(X) :- q(Y), X is Y+1.  q(Z).` -/
def unbound : List Clause :=
  [⟨.fn n!"p" [.var n!"X"], [.fn n!"q" [.var n!"Y"], .fn n!"is" [.var n!"X", .efn n!"+" [.var n!"Y", .int 1]]]⟩, ⟨.fn n!"q" [.var n!"Z"], []⟩]

/-- The other outcome: every `X = n` is provable, and the error is reported. -/
example : Asked (demo unbound askLoop) unbound askLoop ∧ NoCompare unbound askLoop ∧
    ((demo unbound askLoop).session 20 [List.replicate 20 false, List.replicate 20 false]).toOption.map (·.2.map fun
      | .error e => some e.kind
      | _ => none) = some [some .notInstantiated, none] :=
  ⟨asked_demo (by decide +kernel) (by decide +kernel) (safe_of_b (by decide +kernel)) (by decide) (by simp [askLoop]) (by decide +kernel),
    ⟨by decide, by decide⟩, by decide +kernel⟩

/-- `p(X,Y) :- q(Z,W).  q(a,b).` -/
def lost : List Clause :=
  [⟨.fn n!"p" [.var n!"X", .var n!"Y"], [.fn n!"q" [.var n!"Z", .var n!"W"]]⟩, ⟨.fn n!"q" [.cons n!"a", .cons n!"b"], []⟩]

def askLost : List Node := [.fn n!"p" [.cons n!"c", .cons n!"d"]]

theorem lost_force : inForce lost = lost ++ appendClauses := rfl

theorem proves_lost : ∀ ρ, ∀ a ∈ askLost, Proves treeAlg (inForce lost) (a.inst treeAlg ρ) := by
  intro ρ a ha
  simp only [askLost, List.mem_singleton] at ha
  subst ha
  let ρ' : Name → Tree := fun v => if v = n!"X" then .cons n!"c" else if v = n!"Y" then .cons n!"d" else
    if v = n!"Z" then .cons n!"a" else .cons n!"b"
  refine Proves.clause (c := ⟨.fn n!"p" [.var n!"X", .var n!"Y"], [.fn n!"q" [.var n!"Z", .var n!"W"]]⟩) (ρ := ρ') (by rw [lost_force]; simp [lost]) fun a ha => ?_
  simp only [List.mem_singleton] at ha
  subst ha
  exact Proves.clause (c := ⟨.fn n!"q" [.cons n!"a", .cons n!"b"], []⟩) (ρ := fun _ => .int 0) (by rw [lost_force]; simp [lost]) (by intro a ha; cases ha)

end CompleteExamples

open CompleteExamples in
/-- **C02 and C03 are false in general**: in `p(X,Y) :- q(Z,W).` the code takes the registers of the head
for those of the goal, hence with `q(a,b).` the provable query `p(c,d)` is answered "false". -/
theorem C03_false_wrong : (∀ ρ, ∀ a ∈ askLost, Proves treeAlg (inForce lost) (a.inst treeAlg ρ)) ∧
    ((demo lost askLost).session 20 [List.replicate 20 false]).toOption.map (·.2) = some [Org.Res.noAnswer] :=
  ⟨proves_lost, by decide +kernel⟩


/-! ## C34 -/

theorem Work.getAnswer_total {X : Ctx} (ok : X.OK) (no : X.NoIs) (hpr : Printable X.st) {fuel : Nat} : ∀ {clock : List Bool} {o : Org}, Work X o →
    o.getAnswer fuel clock = .error .hang ∨ ∃ o' r, o.getAnswer fuel clock = .ok (o', r) ∧ Work X o' := by
  intro clock
  induction clock with
  | nil =>
    intro o w
    unfold Org.getAnswer
    split
    · exact .inr ⟨_, _, rfl, w⟩
    · exact .inr ⟨_, _, rfl, w⟩
  | cons c clock ih =>
    intro o w
    unfold Org.getAnswer
    split
    · exact .inr ⟨_, _, rfl, w⟩
    · rename_i id q hq
      cases c with
      | true => exact .inr ⟨_, _, rfl, w⟩
      | false =>
        simp only
        rcases w.turn_total ok no hpr hq fuel with h | ⟨⟨o1, t⟩, h⟩
        · rw [h]; exact .inl rfl
        · rw [h, ok_bind]
          have w1 := w.next ok h
          cases t with
          | «continue» => exact ih w1
          | answer bs => exact .inr ⟨_, _, rfl, w1⟩
          | error e => exact .inr ⟨_, _, rfl, w1⟩

theorem Work.session_total {X : Ctx} (ok : X.OK) (no : X.NoIs) (hpr : Printable X.st) {fuel : Nat} : ∀ {clocks : List (List Bool)} {o : Org}, Work X o →
    o.session fuel clocks = .error .hang ∨ ∃ r, o.session fuel clocks = .ok r := by
  intro clocks
  induction clocks with
  | nil => intro o w; exact .inr ⟨_, rfl⟩
  | cons c cs ih =>
    intro o w
    rw [Org.session]
    rcases w.getAnswer_total ok no hpr (fuel := fuel) (clock := c) with h | ⟨o', r, h, w'⟩
    · rw [h]; exact .inl rfl
    · rw [h, ok_bind]
      exact orHang_bind (ih w') fun s _ => .inr ⟨_, rfl⟩

/-- **C34 (part that holds).** No call of `get_answer`, however many there are, accesses anything outside the
heap, the registers, the environments or the tables of symbols, follows a missing parent, uses freed
code or trips an assertion: the only thing that can go wrong is a loop that does not end.
Missing: programs with clauses that are compiled wrongly (`C34_uninitialised`), `is/2` (`C34_is_message`), and
tables of more than 32768 names. -/
theorem C34_defined_partial {o : Org} {p atoms} (h : Asked o p atoms) (hn : NoArith p atoms) (hpr : Printable o.st) (fuel : Nat) (clocks) :
    o.session fuel clocks = .error .hang ∨ ∃ r, o.session fuel clocks = .ok r :=
  h.work.2.session_total h.work.1 hn.noIs hpr

namespace CompleteExamples
open SoundExamples

/-- The hypotheses of C34 are met, also by a program with `==`. -/
def eqProg : List Clause :=
  [⟨.fn n!"p" [.var n!"X"], [.fn n!"q" [.var n!"X", .var n!"Y"], .fn n!"==" [.var n!"Y", .cons n!"b"]]⟩,
   ⟨.fn n!"q" [.cons n!"a", .cons n!"b"], []⟩]

example : Asked (demo eqProg askLoop) eqProg askLoop ∧ NoArith eqProg askLoop ∧ Printable (demo eqProg askLoop).st ∧
    (demo eqProg askLoop).reportsOf 20 20 = some [.answer [⟨n!"X", n!"a"⟩]] :=
  ⟨asked_demo (by decide +kernel) (by decide +kernel) (safe_of_b (by decide +kernel)) (by decide) (by simp [askLoop]) (by decide +kernel),
   ⟨by decide, by decide⟩, ⟨by decide +kernel, by decide +kernel, by decide +kernel, by decide +kernel⟩, by decide +kernel⟩

/-- `p(X,Y) :- q(Z,W), r(X,Y).  q(a,b).` -/
def uninit : List Clause :=
  [⟨.fn n!"p" [.var n!"X", .var n!"Y"], [.fn n!"q" [.var n!"Z", .var n!"W"], .fn n!"r" [.var n!"X", .var n!"Y"]]⟩,
   ⟨.fn n!"q" [.cons n!"a", .cons n!"b"], []⟩]
end CompleteExamples

/-- What a session of the model ran into. -/
def faultOf {α} : R α → Option Fault
  | .error e => some e
  | .ok _ => none

open CompleteExamples in
/-- **C34 is false in general**: with `p(X,Y) :- q(Z,W), r(X,Y).  q(a,b).` the query `p(c,d)` reads a
register of an environment that was never set. -/
theorem C34_uninitialised : faultOf ((demo uninit askLost).session 20 [List.replicate 20 false]) = some .memory := by decide +kernel

/-- **C34 is false in general**: `X is a` (with no program at all) reads outside the heap while it makes its
error message. -/
theorem C34_is_message : faultOf ((demo [] [.fn n!"is" [.var n!"X", .cons n!"a"]]).session 20 [List.replicate 20 false]) = some .memory := by
  decide +kernel

end PBfs
