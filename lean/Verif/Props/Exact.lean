import Verif.Props.Moded
import Verif.Props.Resolution
/-! # Searches that end: all reports, in their order, and nothing else -/
namespace PBfs
open Org

/-! ## Ground values have one text -/

/-- What stands for a finite ground term in all solutions can be read. -/
theorem FixT.reads {V H size} (g : Good V H size size) {I : Int → FV} : ∀ (n : Nat) {u : Tree} {a}, u.size ≤ n → a < size → FixT I H a u → ∃ t, Reads H a t := by
  intro n
  induction n with
  | zero => intro u a hu; have := u.size_pos; omega
  | succ n ih =>
    intro u a hu ha h
    obtain ⟨d, hd⟩ := g.ends a ha
    have h' : FixT I H d u := h.eq fun τ m => m.deref hd
    have fin : ∀ {t}, Reads H d t → ∃ t, Reads H a t := fun h => ⟨_, (Reads.deref hd).2 h⟩
    rcases hd.end_cell.2 with ⟨v, hv⟩ | ⟨c, hc, hp⟩
    · exact fin (.var hv)
    · cases c with
      | cons => exact fin (.cons hc)
      | int => exact fin (.int hc)
      | ref => cases hp
      | str => cases hp
      | fn f k =>
        obtain ⟨us, rfl, hl, hus⟩ := h'.fn g hc
        have hlt := g.fnArgs _ _ _ hc
        obtain ⟨ts, t1, t2⟩ := exists_list (k := k) (P := fun j t => Reads H (d + 1 + j) t) fun j hj => by
          have hj' : us[j]? = some us[j] := List.getElem?_eq_getElem (by omega)
          have := Tree.size_mem (List.mem_of_getElem? hj')
          simp only [Tree.size] at hu
          exact ih (by omega) (by omega) (hus j _ hj')
        exact fin (.fn hc t1 t2)
      | efn f k =>
        obtain ⟨us, rfl, hl, hus⟩ := h'.efn g hc
        have hlt := g.efnArgs _ _ _ hc
        obtain ⟨ts, t1, t2⟩ := exists_list (k := k) (P := fun j t => Reads H (d + 1 + j) t) fun j hj => by
          have hj' : us[j]? = some us[j] := List.getElem?_eq_getElem (by omega)
          have := Tree.size_mem (List.mem_of_getElem? hj')
          simp only [Tree.size] at hu
          exact ih (by omega) (by omega) (hus j _ hj')
        exact fin (.efn hc t1 t2)

theorem FixT.lt {V H size} (g : Good V H size size) {I : Int → FV} {u : Tree} {a} (h : FixT I H a u) : a < size := by
  by_contra hge
  obtain ⟨τ, m, _⟩ := g.solve_itree I fun _ => itreeAlg.int 0
  have key : ∀ v, itreeAlg.int v = u.fold itreeAlg := by
    intro v
    have m' : Mod (toIAlg itreeAlg I) H fun b => if b < size then τ b else itreeAlg.int v := mod_congr g (fun b hb => if_pos hb) m
    have := h _ m'
    simpa only [if_neg hge] using this
  have := itreeAlg_sharp.int_inj ((key 0).trans (key 1).symm)
  omega

mutual
theorem OTerm.fold_eval {D} (A : Alg D) {I : Int → FV} (ω : Nat → Tree) : ∀ t : OTerm, (t.eval treeAlg I ω).fold A = t.eval A I (fun a => (ω a).fold A)
  | .var a => rfl
  | .cons _ => rfl
  | .int _ => rfl
  | .fn f ts => by
    rw [OTerm.eval, OTerm.eval, ← OTerm.fold_evals A ω ts]; rfl
  | .efn f ts => by
    rw [OTerm.eval, OTerm.eval, ← OTerm.fold_evals A ω ts]; rfl
theorem OTerm.fold_evals {D} (A : Alg D) {I : Int → FV} (ω : Nat → Tree) : ∀ ts : List OTerm,
    Tree.folds A (OTerm.evals treeAlg I ω ts) = OTerm.evals A I (fun a => (ω a).fold A) ts
  | [] => rfl
  | t :: ts => by rw [OTerm.evals, OTerm.evals, Tree.folds, OTerm.fold_eval A ω t, OTerm.fold_evals A ω ts]
end

/-- It is a ground term, with this value. -/
theorem FixT.ground {V H size} (g : Good V H size size) {I : Int → FV} {u : Tree} {a} (ha : a < size) (h : FixT I H a u) :
    ∃ t, Reads H a t ∧ t.ground = true ∧ ∀ ω, t.eval treeAlg I ω = u := by
  obtain ⟨t, ht⟩ := FixT.reads g _ (Nat.le_refl _) ha h
  obtain ⟨τ, m, hτ⟩ := g.solve_itree I fun _ => itreeAlg.int 0
  obtain ⟨τ', m', hτ'⟩ := g.solve_itree I fun _ => itreeAlg.int 1
  have hg : t.ground = true := OTerm.ground_of_eval itreeAlg_sharp (I := I) (ω := fun _ => itreeAlg.int 0) (ω' := fun _ => itreeAlg.int 1)
    (fun _ he => absurd (itreeAlg_sharp.int_inj he) (by decide)) t (by rw [← ht.eval m hτ, ← ht.eval m' hτ', h τ m, h τ' m'])
  refine ⟨t, ht, hg, fun ω => Tree.fold_inj ?_⟩
  rw [OTerm.fold_eval, ← h τ m, ht.eval m hτ]
  exact OTerm.eval_ground t hg

/-- If the search has found that a variable of the query is a certain finite ground term, then the text of this term is what is printed for it. -/
theorem ShowsInsts.text {st : Storage} (hpr : Printable st) (sok : StOK st) {atoms fuel bs S} (h : ShowsInsts st atoms fuel bs S) {x : Name} {u : Tree} {s}
    (hx : ∀ ρ gs, S ρ gs → ρ x = u.fold itreeAlg) (hs : Text u s) {b : Binding} (hb : b ∈ bs) (hn : b.name = x) : b.value = s := by
  obtain ⟨pre, hp, L, g, P, _, ag, h⟩ := h
  obtain ⟨a, ha, hv⟩ := P.value b hb
  have hfix : FixT (interpOf st) (hp.at? pre) a u := by
    intro τ m
    obtain ⟨ρ, hρ⟩ := ag τ m
    obtain ⟨ρ', gs, hS, hL⟩ := (h ρ).2 ⟨τ, m, hρ⟩
    rw [hρ _ ha, ← hL _ ha]
    exact hn ▸ hx ρ' gs hS
  have hlt : a < hp.size := hfix.lt g
  obtain ⟨t, ht, hg, he⟩ := hfix.ground g hlt
  rw [← he fun _ => .int 0] at hs
  rcases (C28_ground_text (L := L) hpr sok g hlt ht hg hs).2 fuel with hh | hh
  · rw [hh] at hv; cases hv
  · rw [hh] at hv; cases hv; rfl

/-! ## Searches that end -/

/-- The search has come to its end: what the turns up to then have done. -/
def Finished (fuel : Nat) (o : Org) (ts : List Org.Turn) (oe : Org) : Prop := o.iterate fuel ts.length = .ok (oe, ts) ∧ oe.queue = []

theorem Finished.of {fuel k : Nat} {o oe : Org} {ts} (h : o.iterate fuel k = .ok (oe, ts)) (hq : oe.queue = []) : Finished fuel o ts oe := by
  have hl := (iterate_length h).1
  obtain ⟨d, rfl⟩ := Nat.exists_eq_add_of_le hl
  have h' := h
  rw [iterate_add] at h'
  simp only [bind_ok, pure_ok, Prod.mk.injEq] at h'
  obtain ⟨⟨o1, t1⟩, h1, ⟨o2, t2⟩, h2, rfl, h3⟩ := h'
  have : t2 = [] := by
    rcases Nat.lt_or_ge t1.length ts.length with hlt | hge
    · have := (iterate_length h1).2 hlt
      rw [iterate_done this] at h2
      cases h2; rfl
    · have := congrArg List.length h3
      simp only [List.length_append] at this
      exact List.length_eq_zero_iff.1 (by omega)
  subst this
  simp only [List.append_nil] at h3
  subst h3
  have : o1 = o2 := by
    cases d with
    | zero => cases h2; rfl
    | succ d =>
      unfold Org.iterate at h2
      split at h2
      · cases h2; rfl
      · simp only [bind_ok, pure_ok, Prod.mk.injEq] at h2
        obtain ⟨_, _, _, _, _, h2⟩ := h2
        cases h2
  subst this
  exact ⟨h1, hq⟩

/-- All other numbers of turns are part of it. -/
theorem Finished.iterate {fuel : Nat} {o oe : Org} {ts} (h : Finished fuel o ts oe) (n : Nat) :
    ∃ o1 t1 t2, o.iterate fuel n = .ok (o1, t1) ∧ ts = t1 ++ t2 ∧ Finished fuel o1 t2 oe := by
  obtain ⟨h1, h2⟩ := h
  rcases Nat.le_total n ts.length with hn | hn
  · obtain ⟨d, hd⟩ := Nat.exists_eq_add_of_le hn
    rw [hd, iterate_add] at h1
    simp only [bind_ok, pure_ok, Prod.mk.injEq] at h1
    obtain ⟨⟨o1, t1⟩, h3, ⟨o2, t2⟩, h4, rfl, rfl⟩ := h1
    exact ⟨o1, t1, t2, h3, rfl, .of h4 h2⟩
  · obtain ⟨d, rfl⟩ := Nat.exists_eq_add_of_le hn
    refine ⟨oe, ts, [], ?_, by simp, rfl, h2⟩
    rw [iterate_add, h1, ok_bind]
    simp only [iterate_done h2, ok_bind, List.append_nil]
    rfl

/-- A call of `get_answer` during a search that ends. -/
theorem Finished.getAnswer {fuel : Nat} {o oe : Org} {ts} (hi : RInv o) (h : Finished fuel o ts oe) (clock) :
    ∃ o1 r t2, o.getAnswer fuel clock = .ok (o1, r) ∧ RInv o1 ∧ reports ts = [r].filter Res.isReport ++ reports t2 ∧ Finished fuel o1 t2 oe ∧
      (r = .noAnswer → t2 = []) := by
  cases hg : o.getAnswer fuel clock with
  | error x =>
    obtain ⟨n, hn⟩ := (getAnswer_iterate hi).1 x hg
    obtain ⟨o1, t1, t2, h1, _⟩ := h.iterate n
    rw [hn] at h1; cases h1
  | ok x =>
    obtain ⟨o1, r⟩ := x
    obtain ⟨t1, h1, h2, h3⟩ := (getAnswer_iterate hi).2 o1 r hg
    obtain ⟨o1', t1', t2, h4, rfl, h5⟩ := h.iterate t1.length
    rw [h1] at h4
    cases h4
    refine ⟨o1, r, t2, rfl, hi.getAnswer hg, by rw [reports_append, h2], h5, fun hr => ?_⟩
    have := h5.1
    rw [iterate_done (h3 hr)] at this
    cases this; rfl

/-- Any number of calls. -/
theorem Finished.session {fuel : Nat} {oe : Org} : ∀ {clocks : List (List Bool)} {o : Org} {ts}, RInv o → Finished fuel o ts oe →
    ∃ o1 rs t2, o.session fuel clocks = .ok (o1, rs) ∧ reports ts = rs.filter Res.isReport ++ reports t2 ∧ (.noAnswer ∈ rs → reports t2 = []) := by
  intro clocks
  induction clocks with
  | nil => intro o ts hi h; exact ⟨o, [], ts, rfl, rfl, fun h => by cases h⟩
  | cons c cs ih =>
    intro o ts hi h
    obtain ⟨o1, r, t2, g1, g2, g3, g4, g5⟩ := h.getAnswer hi c
    obtain ⟨o2, rs, t3, s1, s2, s3⟩ := ih g2 g4
    refine ⟨o2, r :: rs, t3, by rw [Org.session, g1, ok_bind, s1]; rfl, ?_, fun hm => ?_⟩
    · rw [g3, s2, ← List.append_assoc, ← List.filter_append]; rfl
    · rcases List.mem_cons.1 hm with rfl | hm
      · obtain rfl := g5 rfl
        exact (List.append_eq_nil_iff.1 s2.symm).2
      · exact s3 hm

/-- A call with enough time gets the next report, or says that there is none. -/
theorem Finished.next {fuel : Nat} {oe : Org} : ∀ {m : Nat} {o : Org} {ts}, Finished fuel o ts oe → ts.length ≤ m →
    (reports ts = [] ∧ o.getAnswer fuel (List.replicate m false) = .ok (oe, .noAnswer)) ∨
    ∃ o1 r t2, o.getAnswer fuel (List.replicate m false) = .ok (o1, r) ∧ reports ts = r :: reports t2 ∧ Finished fuel o1 t2 oe ∧ t2.length ≤ ts.length := by
  intro m
  induction m with
  | zero =>
    intro o ts h hm
    obtain rfl := List.length_eq_zero_iff.1 (by omega : ts.length = 0)
    have := h.1
    simp only [List.length_nil, Org.iterate, pure_ok, Prod.mk.injEq, and_true] at this
    subst this
    refine .inl ⟨rfl, ?_⟩
    unfold Org.getAnswer
    rw [h.2]; rfl
  | succ m ih =>
    intro o ts h hm
    cases ts with
    | nil =>
      have := h.1
      simp only [List.length_nil, Org.iterate, pure_ok, Prod.mk.injEq, and_true] at this
      subst this
      refine .inl ⟨rfl, ?_⟩
      unfold Org.getAnswer
      rw [h.2]; rfl
    | cons t ts =>
      obtain ⟨h1, h2⟩ := h
      simp only [List.length_cons] at h1 hm
      unfold Org.iterate at h1
      split at h1
      · cases h1
      · rename_i id q hq
        simp only [bind_ok, pure_ok, Prod.mk.injEq, List.cons.injEq] at h1
        obtain ⟨⟨o1, t'⟩, h3, ⟨o2, ts2⟩, h4, rfl, rfl, rfl⟩ := h1
        have hf : Finished fuel o1 ts2 o2 := ⟨h4, h2⟩
        simp only at hm
        have hget : o.getAnswer fuel (List.replicate (m + 1) false) = (match t' with
            | .continue => o1.getAnswer fuel (List.replicate m false)
            | .answer bs => .ok (o1, .answer bs)
            | .error e => .ok (o1, .error e)) := by
          rw [List.replicate_succ]
          conv => lhs; unfold Org.getAnswer
          simp only [hq, h3, ok_bind]
          cases t' <;> rfl
        rw [hget]
        cases t' with
        | «continue» =>
          rcases ih hf (by omega) with h | ⟨o3, r, t2, a1, a2, a3, a4⟩
          · exact .inl h
          · exact .inr ⟨o3, r, t2, a1, a2, a3, by simp only [List.length_cons]; omega⟩
        | answer bs => exact .inr ⟨o1, _, ts2, rfl, rfl, hf, by simp⟩
        | error e => exact .inr ⟨o1, _, ts2, rfl, rfl, hf, by simp⟩

/-- Calls with enough time get one report after the other, and then nothing more. -/
theorem Finished.calls {fuel m : Nat} {oe : Org} : ∀ {rs : List Org.Res} {o : Org} {ts}, Finished fuel o ts oe → reports ts = rs → ts.length ≤ m →
    o.session fuel (List.replicate (rs.length + 1) (List.replicate m false)) = .ok (oe, rs ++ [.noAnswer]) := by
  intro rs
  induction rs with
  | nil =>
    intro o ts h hr hm
    rcases h.next hm with ⟨_, h1⟩ | ⟨o1, r, t2, h1, h2, _⟩
    · simp only [List.length_nil, List.replicate_succ, List.replicate_zero, Org.session, h1, ok_bind]; rfl
    · rw [hr] at h2; cases h2
  | cons r rs ih =>
    intro o ts h hr hm
    rcases h.next hm with ⟨h1, _⟩ | ⟨o1, r', t2, h1, h2, h3, h4⟩
    · rw [hr] at h1; cases h1
    · rw [hr] at h2
      simp only [List.cons.injEq] at h2
      obtain ⟨rfl, h2⟩ := h2
      rw [List.length_cons, List.replicate_succ, Org.session, h1, ok_bind, ih h3 h2.symm (by omega), ok_bind]
      rfl

/-! ## C58 -/

/-- What `get_answer` returns, and what the search reports. -/
inductive Meets (st : Storage) (atoms : List Node) (fuel : Nat) : Org.Res → Rep → Prop
  | answer {bs S} : ShowsInsts st atoms fuel bs S → Meets st atoms fuel (.answer bs) (.answer S)
  | error {err} : Meets st atoms fuel (.error err) (.error err.kind)

theorem Says.meets {st atoms fuel} {ts : List Org.Turn} {rs : List (Option Rep)} (h : List.Forall₂ (Says st atoms fuel) ts rs) :
    List.Forall₂ (Meets st atoms fuel) (reports ts) (rs.filterMap id) := by
  induction h with
  | nil => exact .nil
  | cons h1 _ ih =>
    cases h1 with
    | «continue» => exact ih
    | answer h1 => exact .cons (.answer h1) ih
    | error => exact .cons .error ih

theorem SRun.nil_inv {P rs q} (h : SRun P [] rs q) : rs = [] ∧ q = [] := by cases h; exact ⟨rfl, rfl⟩

theorem SRun.append {P q rs q1 rs' q2} (h : SRun P q rs q1) (h' : SRun P q1 rs' q2) : SRun P q (rs ++ rs') q2 := by
  induction h with
  | nil => exact h'
  | cons t _ ih => exact .cons t (ih h')

/-- A run that has come to its end cannot be longer. -/
theorem SRun.ended {P q rs rs' q'} (h : SRun P q rs []) (h' : SRun P q rs' q') : rs'.length ≤ rs.length := by
  induction h' generalizing rs with
  | nil => simp
  | cons t _ ih =>
    cases h with
    | cons t' h =>
      obtain ⟨rfl, rfl⟩ := t.det t'
      have := ih h
      simp only [List.length_cons]; omega

/-- **C58**: if breadth-first resolution comes to an end, then so does the search of the interpreter, and the calls of `get_answer` return
exactly what it reports: with enough time they return one report after the other and then say that there are no more; whatever the
clock does they return an initial part, and everything if one of them has said so.  For programs that respect modes and do not call `is`. -/
theorem C58_exact {o : Org} {p atoms M} (h : Asked o p atoms) (hpr : Printable o.st) (hl : WellModed M p atoms) (hn : ¬ MayCall p atoms ⟨n!"is", 2⟩)
    {reps} (hr : SRun (inForce p) [.goals (atoms.map (.goal ·.fv)) (Insts.query atoms)] reps []) :
    ∃ fuel0 oe ans, List.Forall₂ (Meets o.st atoms fuel0) ans (reps.filterMap id) ∧ ∀ fuel, fuel0 ≤ fuel →
      (∀ m, reps.length ≤ m → o.session fuel (List.replicate (ans.length + 1) (List.replicate m false)) = .ok (oe, ans ++ [.noAnswer])) ∧
      ∀ clocks, ∃ o' rs rest, o.session fuel clocks = .ok (o', rs) ∧ ans = rs.filter Res.isReport ++ rest ∧ (.noAnswer ∈ rs → rest = []) := by
  obtain ⟨N, oe, ts, items, rs, h1, h2, h3, h4, h5⟩ := C57_search h hpr hl hn reps.length
  have hlen : ts.length = rs.length := h4.length_eq
  have hle := hr.ended h3
  obtain ⟨rfl, rfl⟩ : reps = rs ∧ items = [] := by
    rcases h2 with h2 | h2
    · obtain ⟨e1, e2⟩ := C42_determined hr h3 (by omega)
      exact ⟨e1, e2.symm⟩
    · rw [h2] at h5
      obtain rfl := List.length_eq_zero_iff.1 h5
      have := h3.ended hr
      obtain ⟨e1, e2⟩ := C42_determined hr h3 (by omega)
      exact ⟨e1, e2.symm⟩
  have hq : oe.queue = [] := List.length_eq_zero_iff.1 h5.symm
  refine ⟨N, oe, reports ts, Says.meets h4, fun fuel hf => ?_⟩
  have hfin : Finished fuel o ts oe := .of (h1 fuel hf) hq
  refine ⟨fun m hm => hfin.calls rfl (by omega), fun clocks => ?_⟩
  obtain ⟨o1, rs, t2, s1, s2, s3⟩ := hfin.session h.reach.rinv (clocks := clocks)
  exact ⟨o1, rs, reports t2, s1, s2, s3⟩

end PBfs
