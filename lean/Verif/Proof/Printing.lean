import Verif.Proof.Complete
import Verif.Proof.Unambiguous
/-!
# What `string_representation_of` prints
-/
namespace PBfs

section
variable {st : Storage} {pre : Nat → Option Cell} {h : Hp} {L : List (Name × Nat)}

theorem rep_mono {n m b a s} (hs : stringRep pre h st L n b a = .ok s) (hm : n ≤ m) : stringRep pre h st L m b a = .ok s := by
  rw [stringRep_fuel hm b a (by rw [hs]; simp), hs]

/-- More fuel for several results at once. -/
theorem rep_all {as : List Nat} {ss : List Name} (hl : ss.length = as.length)
    (hr : ∀ (i : Nat) a s, as[i]? = some a → ss[i]? = some s → ∃ n, stringRep pre h st L n false a = .ok s) :
    ∃ n, ∀ (i : Nat) a s, as[i]? = some a → ss[i]? = some s → stringRep pre h st L n false a = .ok s := by
  induction as generalizing ss with
  | nil => exact ⟨0, fun i a s h1 => by simp at h1⟩
  | cons a as ih =>
    cases ss with
    | nil => simp at hl
    | cons s ss =>
      obtain ⟨n, hn⟩ := ih (by simpa using hl) fun i a s h1 h2 => hr (i + 1) a s (by simpa using h1) (by simpa using h2)
      obtain ⟨m, hm⟩ := hr 0 a s rfl rfl
      refine ⟨max n m, fun i a' s' h1 h2 => ?_⟩
      cases i with
      | zero => simp only [List.getElem?_cons_zero, Option.some.injEq] at h1 h2; subst h1 h2; exact rep_mono hm (by omega)
      | succ i => exact rep_mono (hn i a' s' (by simpa using h1) (by simpa using h2)) (by omega)

/-- Dereferenced cell known: the rest of `string_representation_of`. -/
theorem rep_list_step {V lim} (g : Good V (h.at? pre) h.size lim) {a d i n b hd r c tl} (hd' : DerefTo (h.at? pre) a d) (hc : h.at? pre d = some (.fn i 2))
    (hf : st.functorAt i = some ⟨n!"[", 2⟩) (h1 : stringRep pre h st L n false (d + 1) = .ok hd)
    (hr : DerefTo (h.at? pre) (d + 2) r) (hcr : h.at? pre r = some c) (h2 : stringRep pre h st L n true (d + 2) = .ok tl) :
    stringRep pre h st L (n + 1) b a = .ok (if b then hd ++ (if c.isRef then n!"|" else n!",") ++ tl
      else (n!"[" ++ (hd ++ (if c.isRef then n!"|" else n!",") ++ tl)).dropLast ++ n!"]") := by
  rw [stringRep, deref_eq g hd', ok_bind, hc, orFault_some, ok_bind]
  simp only [hf, orFault_some, ok_bind]
  rw [if_neg (by decide), if_neg (by decide), if_pos (by decide)]
  simp only [h1, ok_bind, deref_eq g hr, hcr, orFault_some, h2]
  rfl

/-- The elements, each followed by a separator, then the rest: what a list prints inside the brackets. -/
def listBody (sep : Name) : List Name → Name → Name
  | [], u => u
  | [s], u => s ++ sep ++ u
  | s :: r, u => s ++ n!"," ++ listBody sep r u

theorem listBody_eq {sep : Name} : ∀ {ss : List Name} {u}, ss ≠ [] → listBody sep ss u = commas ss ++ sep ++ u := by
  intro ss
  induction ss with
  | nil => intro u h; exact absurd rfl h
  | cons s r ih =>
    intro u _
    cases r with
    | nil => rfl
    | cons s2 r => rw [listBody, ih (by simp), commas_cons (s := s) (by simp)] <;> simp

/-- A list is printed as its elements separated by commas and its rest `u`, after a bar if the rest is an
unbound variable and after a comma otherwise; the last character of all this is overwritten by `]`. -/
theorem rep_list {V lim} (g : Good V (h.at? pre) h.size lim) {a as tl ss u r c} (hl : ListFrom st (h.at? pre) a as tl) (hne : as ≠ [])
    (hs : ss.length = as.length)
    (hss : ∀ (i : Nat) a s, as[i]? = some a → ss[i]? = some s → ∃ n, stringRep pre h st L n false a = .ok s)
    (hr : DerefTo (h.at? pre) tl r) (hc : h.at? pre r = some c) (hu : ∃ n, stringRep pre h st L n true tl = .ok u) :
    ∃ n, stringRep pre h st L n false a = .ok ((n!"[" ++ (commas ss ++ (if c.isRef then n!"|" else n!",") ++ u)).dropLast ++ n!"]") ∧
      stringRep pre h st L n true a = .ok (commas ss ++ (if c.isRef then n!"|" else n!",") ++ u) := by
  obtain ⟨n0, hu⟩ := hu
  obtain ⟨n1, hss⟩ := rep_all hs hss
  generalize hN : max n0 n1 = N
  have hu : stringRep pre h st L N true tl = .ok u := rep_mono hu (by omega)
  have hss : ∀ (i : Nat) a s, as[i]? = some a → ss[i]? = some s → stringRep pre h st L N false a = .ok s :=
    fun i a s h1 h2 => rep_mono (hss i a s h1 h2) (by omega)
  have key : ∀ {a as tl ss}, ListFrom st (h.at? pre) a as tl → as ≠ [] → ss.length = as.length →
      (∀ (i : Nat) a s, as[i]? = some a → ss[i]? = some s → stringRep pre h st L N false a = .ok s) →
      DerefTo (h.at? pre) tl r → stringRep pre h st L N true tl = .ok u → ∃ n, N ≤ n ∧
      (∀ b, stringRep pre h st L n b a = .ok (if b then listBody (if c.isRef then n!"|" else n!",") ss u
        else (n!"[" ++ listBody (if c.isRef then n!"|" else n!",") ss u).dropLast ++ n!"]")) := by
    intro a as tl ss hl
    induction hl generalizing ss with
    | stop => intro hne; exact absurd rfl hne
    | @elem a d i es tl hd hci hfi hrest ih =>
      intro _ hs hss hr hu
      cases ss with
      | nil => simp at hs
      | cons s ss =>
        have he := hss 0 (d + 1) s rfl rfl
        cases hrest with
        | stop =>
          have : ss = [] := List.length_eq_zero_iff.1 (by simpa using hs)
          subst this
          exact ⟨N + 1, by omega, fun b => rep_list_step g hd hci hfi he hr hc hu⟩
        | @elem _ d2 i2 es2 _ hd2 hc2 hf2 hrest2 =>
          obtain ⟨n, hn, ih⟩ := @ih ss (by simp) (by simpa using hs) (fun i a s h1 h2 => hss (i + 1) a s (by simpa using h1) (by simpa using h2)) hr hu
          cases ss with
          | nil => simp at hs
          | cons s2 ss =>
            refine ⟨n + 1, by omega, fun b => ?_⟩
            rw [rep_list_step g hd hci hfi (rep_mono he hn) hd2 hc2 (ih true)]
            rfl
  obtain ⟨n, _, hk⟩ := key hl hne hs hss hr hu
  have hss' : ss ≠ [] := by
    rintro rfl
    exact hne (List.length_eq_zero_iff.1 hs.symm)
  rw [listBody_eq hss'] at hk
  exact ⟨n, hk false, hk true⟩

theorem rep_args {rep : Nat → R Name} {d : Nat} : ∀ {k i : Nat} {ss : List Name}, ss.length = k + 1 →
    (∀ (j : Nat) s, ss[j]? = some s → rep (d + (i + j)) = .ok s) → renderArgs rep d i k = .ok (commas ss) := by
  intro k
  induction k with
  | zero =>
    intro i ss hl hs
    match ss, hl with
    | [s], _ =>
      rw [renderArgs]
      exact hs 0 s rfl
  | succ k ih =>
    intro i ss hl hs
    match ss, hl with
    | s :: s2 :: ss, hl =>
      have h0 := hs 0 s rfl
      rw [Nat.add_zero] at h0
      rw [renderArgs, h0, ok_bind, ih (ss := s2 :: ss) (by simpa using hl) fun j s' hj => by
        have := hs (j + 1) s' (by simpa using hj)
        rwa [show i + 1 + j = i + (j + 1) by omega], ok_bind]
      simp [commas]
      rfl

/-- The terms a term consists of are ground, too. -/
theorem grounds_get : ∀ {ts : List OTerm}, OTerm.grounds ts = true → ∀ (i : Nat) t, ts[i]? = some t → t.ground = true := by
  intro ts
  induction ts with
  | nil => intro _ i t h; simp at h
  | cons x ts ih =>
    intro hg i t h
    rw [OTerm.grounds, Bool.and_eq_true] at hg
    cases i with
    | zero => cases h; exact hg.1
    | succ i => exact ih hg.2 i t (by simpa using h)

theorem evals_get {D} {A : Alg D} {I ω} : ∀ {ts : List OTerm} {i : Nat}, (OTerm.evals A I ω ts)[i]? = (ts[i]?).map (OTerm.eval A I ω) := by
  intro ts
  induction ts with
  | nil => intro i; simp [OTerm.evals]
  | cons x ts ih =>
    intro i
    cases i with
    | zero => simp [OTerm.evals]
    | succ i => simp [OTerm.evals, ih]

theorem oevals_length {D} {A : Alg D} {I ω} {ts : List OTerm} : (OTerm.evals A I ω ts).length = ts.length := by
  induction ts with
  | nil => rfl
  | cons x ts ih => simp [OTerm.evals, ih]

/-- A ground term at an address, seen from where dereferencing ends. -/
theorem Reads.cell {V lim} (g : Good V (h.at? pre) h.size lim) {a t} (ha : a < h.size) (hr : Reads (h.at? pre) a t) (hg : t.ground = true) :
    ∃ d, DerefTo (h.at? pre) a d ∧ d < h.size ∧
      ((∃ i, t = .cons i ∧ h.at? pre d = some (.cons i)) ∨ (∃ v, t = .int v ∧ h.at? pre d = some (.int v)) ∨
       (∃ f ts, t = .fn f ts ∧ h.at? pre d = some (.fn f ts.length) ∧ ∀ (i : Nat) t, ts[i]? = some t → Reads (h.at? pre) (d + 1 + i) t) ∨
       (∃ f ts, t = .efn f ts ∧ h.at? pre d = some (.efn f ts.length) ∧ ∀ (i : Nat) t, ts[i]? = some t → Reads (h.at? pre) (d + 1 + i) t)) := by
  obtain ⟨d, _, hd⟩ := deref_ok g ha
  refine ⟨d, hd, hd.lt g, ?_⟩
  have hr := (Reads.deref hd).1 hr
  have hend := hd.end_cell.2
  cases hr with
  | ref h1 h2 =>
    rcases hend with ⟨v, hv⟩ | ⟨c, hv, hp⟩
    · rw [h1] at hv; cases hv; exact absurd rfl h2
    · rw [h1] at hv; cases hv; cases hp
  | str h1 =>
    rcases hend with ⟨v, hv⟩ | ⟨c, hv, hp⟩
    · rw [h1] at hv; cases hv
    · rw [h1] at hv; cases hv; cases hp
  | var => cases hg
  | cons h1 => exact .inl ⟨_, rfl, h1⟩
  | int h1 => exact .inr (.inl ⟨_, rfl, h1⟩)
  | fn h1 h2 h3 => subst h2; exact .inr (.inr (.inl ⟨_, _, rfl, h1, h3⟩))
  | efn h1 h2 h3 => subst h2; exact .inr (.inr (.inr ⟨_, _, rfl, h1, h3⟩))

/-- The functor of a cell, by its index. -/
theorem interp_functor (hst : Printable st) (sok : StOK st) {f : Int} {n : Nat} (hv : ValidCell st (.fn f n)) :
    st.functorAt f = some (interpOf st f) ∧ (interpOf st f).arity = n ∧ interpOf st f ∈ st.functors := by
  obtain ⟨k, fv, h1, rfl, rfl, _⟩ := hv
  rw [functorAt_valid hst.functors h1, interpOf_ok sok k fv h1]
  exact ⟨rfl, rfl, List.mem_iff_getElem?.2 ⟨k, h1⟩⟩

theorem interp_cons (hst : Printable st) (sok : StOK st) {i : Int} (hv : ValidCell st (.cons i)) :
    st.functorAt i = some (interpOf st i) := by
  obtain ⟨k, fv, h1, h2, rfl⟩ := hv
  rw [functorAt_valid hst.functors h1, interpOf_ok sok k fv h1]

theorem rep_nil {V lim} (g : Good V (h.at? pre) h.size lim) {a d i} (hd : DerefTo (h.at? pre) a d) (hc : h.at? pre d = some (.fn i 0))
    (hf : st.functorAt i = some ⟨n!"[", 0⟩) (b : Bool) : stringRep pre h st L 1 b a = .ok (if b then [] else n!"[]") := by
  rw [stringRep, deref_eq g hd, ok_bind, hc, orFault_some, ok_bind]
  simp only [hf, orFault_some, ok_bind]
  rw [if_pos (by decide)]
  rfl

/-- A proper list in the heap. -/
theorem ProperList.cells (hst : Printable st) (sok : StOK st) (g : Good (ValidCell st) (h.at? pre) h.size h.size) {ω : Nat → Tree} {T ts} (hp : ProperList T ts) :
    ∀ {a t}, a < h.size → Reads (h.at? pre) a t → t.ground = true → t.eval treeAlg (interpOf st) ω = T →
    ∃ as tl d i, ListFrom st (h.at? pre) a as tl ∧ as.length = ts.length ∧
      DerefTo (h.at? pre) tl d ∧ h.at? pre d = some (.fn i 0) ∧ st.functorAt i = some ⟨n!"[", 0⟩ ∧
      (∀ (j : Nat) b x, as[j]? = some b → ts[j]? = some x → b < h.size ∧ ∃ t, Reads (h.at? pre) b t ∧ t.ground = true ∧ t.eval treeAlg (interpOf st) ω = x) := by
  induction hp with
  | nil =>
    intro a t ha hr hg he
    obtain ⟨d, hd, hdl, h1⟩ := hr.cell g ha hg
    rcases h1 with ⟨i, rfl, hc⟩ | ⟨v, rfl, hc⟩ | ⟨f, us, rfl, hc, hus⟩ | ⟨f, us, rfl, hc, hus⟩
    · cases he
    · cases he
    · simp only [OTerm.eval, treeAlg, Tree.fn.injEq] at he
      have hlen : us.length = 0 := by
        have := congrArg List.length he.2
        rwa [oevals_length] at this
      obtain ⟨h1, h2, _⟩ := interp_functor hst sok (g.valid _ _ hc)
      refine ⟨[], a, d, f, .stop, rfl, hd, by rw [hc, hlen], ?_, fun j b x hb => by simp at hb⟩
      rw [h1]
      congr 1
      cases hfv : interpOf st f with
      | mk n k => rw [hfv] at he h2; cases he.1; simp only at h2; rw [h2, hlen]
    · cases he
  | @cons x T ts _ ih =>
    intro a t ha hr hg he
    obtain ⟨d, hd, hdl, h1⟩ := hr.cell g ha hg
    rcases h1 with ⟨i, rfl, hc⟩ | ⟨v, rfl, hc⟩ | ⟨f, us, rfl, hc, hus⟩ | ⟨f, us, rfl, hc, hus⟩
    · cases he
    · cases he
    · simp only [OTerm.eval, treeAlg, Tree.fn.injEq] at he
      have hlen : us.length = 2 := by
        have := congrArg List.length he.2
        rwa [oevals_length] at this
      have hargs := g.fnArgs _ _ _ hc
      match us, hlen with
      | [u1, u2], _ =>
        simp only [OTerm.evals, List.cons.injEq, and_true] at he
        rw [OTerm.ground] at hg
        obtain ⟨as, tl, d', i', a1, a2, a3, a4, a5, a6⟩ := ih (a := d + 2) (t := u2) (by simp at hargs; omega) (hus 1 u2 rfl)
          (grounds_get hg 1 u2 rfl) he.2.2
        obtain ⟨h1, h2, _⟩ := interp_functor hst sok (g.valid _ _ hc)
        refine ⟨(d + 1) :: as, tl, d', i', .elem hd hc ?_ a1, by simp [a2], a3, a4, a5, ?_⟩
        · rw [h1]
          congr 1
          cases hfv : interpOf st f with
          | mk n k => rw [hfv] at he h2; cases he.1; simp only at h2; rw [h2]; rfl
        · intro j b y hb hy
          cases j with
          | zero =>
            cases hb; cases hy
            exact ⟨by simp at hargs; omega, u1, hus 0 u1 rfl, grounds_get hg 0 u1 rfl, he.2.1⟩
          | succ j => exact a6 j b y (by simpa using hb) (by simpa using hy)
    · cases he

/-- A ground term is printed as its text. -/
theorem Text.rep (hst : Printable st) (sok : StOK st) (g : Good (ValidCell st) (h.at? pre) h.size h.size) {ω : Nat → Tree} {T s} (ht : Text T s) :
    ∀ {a t}, a < h.size → Reads (h.at? pre) a t → t.ground = true → t.eval treeAlg (interpOf st) ω = T →
    ∃ n, stringRep pre h st L n false a = .ok s := by
  induction ht with
  | @cons n =>
    intro a t ha hr hg he
    obtain ⟨d, hd, hdl, h1⟩ := hr.cell g ha hg
    rcases h1 with ⟨i, rfl, hc⟩ | ⟨v, rfl, hc⟩ | ⟨f, us, rfl, hc, hus⟩ | ⟨f, us, rfl, hc, hus⟩
    · refine ⟨1, ?_⟩
      rw [stringRep, deref_eq g hd, ok_bind, hc, orFault_some, ok_bind]
      simp only [interp_cons hst sok (g.valid _ _ hc), orFault_some, ok_bind]
      simp only [OTerm.eval, treeAlg, Tree.cons.injEq] at he
      rw [he]; rfl
    all_goals cases he
  | @int v s hi =>
    intro a t ha hr hg he
    obtain ⟨d, hd, hdl, h1⟩ := hr.cell g ha hg
    rcases h1 with ⟨i, rfl, hc⟩ | ⟨w, rfl, hc⟩ | ⟨f, us, rfl, hc, hus⟩ | ⟨f, us, rfl, hc, hus⟩
    · cases he
    · refine ⟨1, ?_⟩
      rw [stringRep, deref_eq g hd, ok_bind, hc, orFault_some, ok_bind]
      simp only [OTerm.eval, treeAlg, Tree.int.injEq] at he
      subst he
      rw [hi.eq]; rfl
    all_goals cases he
  | @list T ts ss hp hlen hts ih =>
    intro a t ha hr hg he
    obtain ⟨as, tl, d, i, a1, a2, a3, a4, a5, a6⟩ := hp.cells hst sok g ha hr hg he
    have htl : ∀ b, stringRep pre h st L 1 b tl = _ := rep_nil (L := L) g a3 a4 a5
    cases hp with
    | nil =>
      have : as = [] := List.length_eq_zero_iff.1 a2
      subst this
      have : ss = [] := List.length_eq_zero_iff.1 hlen
      subst this
      cases a1
      exact ⟨1, htl false⟩
    | @cons x T ts _ =>
      obtain ⟨n, hn, _⟩ := rep_list (L := L) (ss := ss) (u := []) g a1 (by rintro rfl; simp at a2) (by rw [hlen, a2])
        (fun j b s hb hs => by
          have hj : j < (x :: ts).length := by rw [← hlen]; exact (List.getElem?_eq_some_iff.1 hs).1
          obtain ⟨hb1, t, hb2, hb3, hb4⟩ := a6 j b _ hb (List.getElem?_eq_getElem hj)
          exact ih j _ s (List.getElem?_eq_getElem hj) hs hb1 hb2 hb3 hb4) a3 a4 ⟨1, htl true⟩
      refine ⟨n, ?_⟩
      rw [hn]
      simp [Cell.isRef]
      rw [← List.cons_append, List.dropLast_concat]; rfl
  | @fn f ts ss hf hne hlen hts ih =>
    intro a t ha hr hg he
    obtain ⟨d, hd, hdl, h1⟩ := hr.cell g ha hg
    rcases h1 with ⟨i, rfl, hc⟩ | ⟨w, rfl, hc⟩ | ⟨fi, us, rfl, hc, hus⟩ | ⟨f, us, rfl, hc, hus⟩
    · cases he
    · cases he
    · have hargs := g.fnArgs _ _ _ hc
      simp only [OTerm.eval, treeAlg, Tree.fn.injEq] at he
      obtain ⟨hef, rfl⟩ := he
      rw [OTerm.ground] at hg
      have hlu : ss.length = us.length := by rw [hlen, oevals_length]
      obtain ⟨h1, h2, h3⟩ := interp_functor hst sok (g.valid _ _ hc)
      have hus' : us ≠ [] := by rintro rfl; exact hne rfl
      obtain ⟨n, hn⟩ := rep_all (L := L) (pre := pre) (h := h) (st := st) (as := List.range' (d + 1) us.length) (ss := ss) (by simpa using hlu) fun j b s hb hs => by
        have hj : j < us.length := by rw [← hlu]; exact (List.getElem?_eq_some_iff.1 hs).1
        rw [List.getElem?_range' hj] at hb
        simp only [Option.some.injEq, Nat.one_mul] at hb
        subst hb
        exact ih j _ s (by rw [evals_get, List.getElem?_eq_getElem hj]; rfl) hs (by omega) (hus j _ (List.getElem?_eq_getElem hj))
          (grounds_get hg j _ (List.getElem?_eq_getElem hj)) rfl
      refine ⟨n + 1, ?_⟩
      rw [stringRep, deref_eq g hd, ok_bind, hc, orFault_some, ok_bind]
      simp only [h1, orFault_some, ok_bind]
      have hnl : (interpOf st fi).isList = false := by simp [FV.isList, hef, hf]
      have hne' : (interpOf st fi).isEmptyList = false := by simp [FV.isEmptyList, hef, hf]
      rw [hne', hnl, if_neg (by simp), if_neg (hst.bar _ h3), if_neg (by simp)]
      obtain ⟨k, hk⟩ : ∃ k, us.length = k + 1 := ⟨us.length - 1, by have := List.length_pos_iff.2 hus'; omega⟩
      rw [h2, hk]
      simp only
      rw [rep_args (ss := ss) (by rw [hlu, hk]) fun j s hj => by
        have hjl : j < us.length := by rw [← hlu]; exact (List.getElem?_eq_some_iff.1 hj).1
        refine hn j _ s ?_ hj
        rw [List.getElem?_range' hjl]
        congr 1; omega]
      rw [ok_bind, hef]
      rfl
    · cases he
  | @efn f l x s1 s2 _ _ ihl ihx =>
    intro a t ha hr hg he
    obtain ⟨d, hd, hdl, h1⟩ := hr.cell g ha hg
    rcases h1 with ⟨i, rfl, hc⟩ | ⟨w, rfl, hc⟩ | ⟨fi, us, rfl, hc, hus⟩ | ⟨fi, us, rfl, hc, hus⟩
    · cases he
    · cases he
    · cases he
    · have hargs := g.efnArgs _ _ _ hc
      simp only [OTerm.eval, treeAlg, Tree.efn.injEq] at he
      have hlen : us.length = 2 := by
        have := congrArg List.length he.2
        rwa [oevals_length] at this
      match us, hlen with
      | [u1, u2], _ =>
        simp only [OTerm.evals, List.cons.injEq, and_true] at he
        rw [OTerm.ground] at hg
        simp at hargs
        obtain ⟨n, hn⟩ := ihl (a := d + 1) (t := u1) (by omega) (hus 0 u1 rfl) (grounds_get hg 0 u1 rfl) he.2.1
        obtain ⟨m, hm⟩ := ihx (a := d + 2) (t := u2) (by omega) (hus 1 u2 rfl) (grounds_get hg 1 u2 rfl) he.2.2
        refine ⟨max n m + 1, ?_⟩
        rw [stringRep, deref_eq g hd, ok_bind, hc, orFault_some, ok_bind]
        simp only [rep_mono hn (show n ≤ max n m by omega), rep_mono hm (show m ≤ max n m by omega), ok_bind]
        rw [he.1]
        rfl

end

end PBfs
