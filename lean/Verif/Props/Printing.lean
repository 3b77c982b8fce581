import Verif.Proof.Printing
import Verif.Props.Complete
/-! # C28, C29, C30: what is printed -/
namespace PBfs

/-! ## C28 -/

/-- **C28** Printing a ground term that has a text yields exactly this text: with enough stack for the
recursion, and nothing else with any amount. -/
theorem C28_ground_text {st : Storage} (hst : Printable st) (sok : StOK st) {pre h L a t s} {ω : Nat → Tree} (wf : WF st pre h) (ha : a < h.size)
    (hr : Reads (h.at? pre) a t) (hg : t.ground = true) (ht : Text (t.eval treeAlg (interpOf st) ω) s) :
    (∃ n, ∀ fuel, n ≤ fuel → stringRep pre h st L fuel false a = .ok s) ∧
    ∀ fuel, stringRep pre h st L fuel false a = .error .hang ∨ stringRep pre h st L fuel false a = .ok s := by
  obtain ⟨n, hn⟩ := ht.rep (L := L) hst sok wf ha hr hg rfl
  refine ⟨⟨n, fun fuel hf => rep_mono hn hf⟩, fun fuel => ?_⟩
  by_cases hh : stringRep pre h st L fuel false a = .error .hang
  · exact .inl hh
  · refine .inr ?_
    rw [← stringRep_fuel (Nat.le_max_left fuel n) false a hh]
    exact rep_mono hn (Nat.le_max_right _ _)

/-- **C28** Different ground terms have different texts, unless their names contain punctuation or look like
numbers. -/
theorem C28_text_injective {t t' : Tree} {s : Name} (h : Text t s) (h' : Text t' s) (hc : Clean t) (hc' : Clean t') : t = t' :=
  (h.inj hc hc' h' (r := []) (r' := []) (by rintro c hc; cases hc) (by rintro c hc; cases hc) rfl).1

/-- A ground term has at most one text. -/
theorem Text.det {t s s'} (h : Text t s) (h' : Text t s') : s = s' := by
  have same : ∀ {ts : List Tree} {ss ss' : List Name}, ss.length = ts.length → ss'.length = ts.length →
      (∀ (i : Nat) t s, ts[i]? = some t → ss[i]? = some s → ∀ {s'}, Text t s' → s = s') →
      (∀ (i : Nat) t s, ts[i]? = some t → ss'[i]? = some s → Text t s) → ss = ss' := by
    intro ts ss ss' h1 h2 h3 h4
    refine list_ext_of (by omega) fun i x y hx hy => ?_
    have hi : i < ts.length := by rw [← h1]; exact (List.getElem?_eq_some_iff.1 hx).1
    exact h3 i _ x (List.getElem?_eq_getElem hi) hx (h4 i _ y (List.getElem?_eq_getElem hi) hy)
  have plist : ∀ {t : Tree} {ts ts'}, ProperList t ts → ProperList t ts' → ts = ts' := by
    intro t ts ts' hp
    induction hp generalizing ts' with
    | nil => intro h; cases h; rfl
    | cons _ ih => intro h; cases h with | cons h => rw [ih h]
  induction h generalizing s' with
  | cons => cases h' with
    | cons => rfl
    | list hp => cases hp
  | int h => cases h' with
    | int h' => rw [h.eq, h'.eq]
    | list hp => cases hp
  | list hp h1 h2 ih =>
    cases h' with
    | cons => cases hp
    | int => cases hp
    | list hp' h1' h2' =>
      cases plist hp hp'
      rw [same h1 h1' (fun i t s a b => ih i t s a b) h2']
    | fn hf => cases hp <;> exact absurd rfl hf
    | efn => cases hp
  | fn hf h1 h2 h3 ih =>
    cases h' with
    | list hp' => cases hp' <;> exact absurd rfl hf
    | fn _ _ h2' h3' => rw [same h2 h2' (fun i t s a b => ih i t s a b) h3']
  | efn _ _ ih1 ih2 =>
    cases h' with
    | list hp => cases hp
    | efn h1 h2 => rw [ih1 h1, ih2 h2]

/-- **C28** In the answers of any session: for every binding there is an address recorded for the variable such
that, if the term there is ground and has a text, then exactly this text is shown. -/
theorem C28_answers_show_text {o o' : Org} {p atoms fuel clocks rs bs} (h : Asked o p atoms) (hpr : Printable o.st)
    (hs : o.session fuel clocks = .ok (o', rs)) (hb : Org.Res.answer bs ∈ rs) :
    ∃ pre hp, ∃ L : List (Name × Nat), WF o.st pre hp ∧ (∀ v, v ∈ L.map (·.1) ↔ ∃ a ∈ atoms, v ∈ Node.varss a.children) ∧
      (∀ (D : Type) (A : Alg D) (σ : Nat → D), Mod (toIAlg A (interpOf o.st)) (hp.at? pre) σ →
        ∃ ρ : Name → D, (∀ x ∈ L, ρ x.1 = σ x.2) ∧ ∀ a ∈ atoms, Proves A (inForce p) (a.inst A ρ)) ∧
      ∀ b ∈ bs, ∃ a, (b.name, a) ∈ L ∧ ∀ t ω s, Reads (hp.at? pre) a t → t.ground = true →
        Text (t.eval treeAlg (interpOf o.st) ω) s → b.value = s := by
  obtain ⟨pre, hp, L, hr⟩ := session_reported h hs hb
  have F := hr.2
  refine ⟨pre, hp, L, F.good, F.names, fun D A σ m => ?_, fun b hb' => ?_⟩
  · obtain ⟨ρ, hρ⟩ := F.agree D A σ m
    exact ⟨ρ, fun x hx => (hρ x hx).symm, F.sound D A σ ρ m hρ⟩
  · obtain ⟨a, h1, h2⟩ := hr.prints.value b hb'
    refine ⟨a, h1, fun t ω s ht hg htx => ?_⟩
    rcases (C28_ground_text (L := L) hpr h.stOK F.good (F.lt _ h1) ht hg htx).2 fuel with hh | hh
    · rw [show (ctxOf o (interpOf o.st) p atoms).st = o.st from rfl, hh] at h2; cases h2
    · rw [show (ctxOf o (interpOf o.st) p atoms).st = o.st from rfl, hh] at h2; cases h2; rfl

mutual
theorem Node.eval_vars {D} {A : Alg D} {ρ ρ' : Name → D} : ∀ {n : Node}, (∀ v ∈ n.vars, ρ v = ρ' v) → n.eval A ρ = n.eval A ρ'
  | .var n, h => h n (by simp [Node.vars])
  | .cons _, _ => rfl
  | .int _, _ => rfl
  | .fn f cs, h => by rw [Node.eval, Node.eval, Node.evals_vars (fun v hv => h v (by simpa [Node.vars] using hv))]
  | .efn f cs, h => by rw [Node.eval, Node.eval, Node.evals_vars (fun v hv => h v (by simpa [Node.vars] using hv))]
theorem Node.evals_vars {D} {A : Alg D} {ρ ρ' : Name → D} : ∀ {cs : List Node}, (∀ v ∈ Node.varss cs, ρ v = ρ' v) → Node.evals A ρ cs = Node.evals A ρ' cs
  | [], _ => rfl
  | c :: cs, h => by
    rw [Node.evals, Node.evals, Node.eval_vars (fun v hv => h v (by simp [Node.varss, hv])),
      Node.evals_vars (fun v hv => h v (by simp [Node.varss, hv]))]
end

/-- **C28** Reading an answer back: if the heap has no cyclic term and all variables of the query are bound to
ground terms with clean names that have a text, then the clean terms whose texts the answer shows are a
solution of the query. -/
theorem C28_reading_back {o o' : Org} {p atoms fuel clocks rs bs} (h : Asked o p atoms) (hpr : Printable o.st)
    (hs : o.session fuel clocks = .ok (o', rs)) (hb : Org.Res.answer bs ∈ rs) :
    ∃ pre hp L, Prints (stringRep pre hp o.st L fuel false) L bs ∧
      ((∀ a, a < hp.size → ∃ t, Reads (hp.at? pre) a t) →
       (∀ x ∈ L, ∀ t, Reads (hp.at? pre) x.2 t → t.ground = true ∧ ∀ ω, Clean (t.eval treeAlg (interpOf o.st) ω) ∧ ∃ s, Text (t.eval treeAlg (interpOf o.st) ω) s) →
       ∀ ρ : Name → Tree, (∀ b ∈ bs, Clean (ρ b.name) ∧ Text (ρ b.name) b.value) →
         ∀ a ∈ atoms, Proves treeAlg (inForce p) (a.inst treeAlg ρ)) := by
  obtain ⟨pre, hp, L, hr⟩ := session_reported h hs hb
  have F := hr.2
  refine ⟨pre, hp, L, hr.prints, fun hfin hgr ρ hρ a ha => ?_⟩
  obtain ⟨σ, m, hω⟩ := solve_finite treeAlg (interpOf o.st) F.good.dom hfin (fun _ => .int 0)
  obtain ⟨ρ0, hρ0⟩ := F.agree _ treeAlg σ m
  have hsol := F.sound _ treeAlg σ ρ0 m hρ0 a ha
  have : a.inst treeAlg ρ = a.inst treeAlg ρ0 := by
    unfold Node.inst
    rw [Node.evals_vars fun v hv => ?_]
    obtain ⟨x, hx, rfl⟩ := List.mem_map.1 ((F.names v).2 ⟨a, ha, hv⟩)
    obtain ⟨b, hb', hbn⟩ := List.mem_map.1 (hr.prints.all x hx)
    obtain ⟨c, h1, h2⟩ := hr.prints.value b hb'
    obtain ⟨t, ht⟩ := hfin c (F.lt _ h1)
    obtain ⟨hg, hcl⟩ := hgr _ h1 t ht
    obtain ⟨hc, s, htx⟩ := hcl (fun _ => .int 0)
    have hv : b.value = s := by
      rcases (C28_ground_text (L := L) hpr h.stOK F.good (F.lt _ h1) ht hg htx).2 fuel with hh | hh
      · rw [show (ctxOf o (interpOf o.st) p atoms).st = o.st from rfl, hh] at h2; cases h2
      · rw [show (ctxOf o (interpOf o.st) p atoms).st = o.st from rfl, hh] at h2; cases h2; rfl
    obtain ⟨q1, q2⟩ := hρ b hb'
    rw [hv] at q2
    have e1 := C28_text_injective q2 htx q1 hc
    have e2 : σ c = t.eval treeAlg (interpOf o.st) (fun _ => .int 0) := ht.eval m hω
    have e3 := hρ0 _ h1
    simp only at e3
    rw [← hbn, e1, ← e2, e3]
  rw [this]
  exact hsol

/-! ## C29 -/

/-- What is shown for an unbound variable at the end of a list. -/
theorem rep_rest_var {st : Storage} {pre h L V lim} (g : Good V (h.at? pre) h.size lim) {tl r v n b} (hd : DerefTo (h.at? pre) tl r)
    (hc : h.at? pre r = some (.ref r v)) (hv : st.varAt v = some n) :
    stringRep pre h st L 1 b tl = .ok (if tl = r ∧ !isUserVar L n then n ++ natStr tl else n) := by
  rw [stringRep, deref_eq g hd, ok_bind, hc, orFault_some, ok_bind]
  simp only [hv, orFault_some, ok_bind]
  rfl

/-- **C29 (part that holds).** A list whose end is an unbound variable or an atomic value is printed with all its
elements, in order and completely - but the last character of the rest is missing, and before an atomic
rest there is a comma instead of a bar.  Missing: that the complete text of the rest is shown, after a bar; this
never happens (`C29_rest_never_complete`). -/
theorem C29_rest_truncated_partial {st : Storage} {pre h L} (wf : WF st pre h) {a as tl ss u r c} (hl : ListFrom st (h.at? pre) a as tl)
    (hne : as ≠ []) (hs : ss.length = as.length)
    (hss : ∀ (i : Nat) a s, as[i]? = some a → ss[i]? = some s → ∃ n, stringRep pre h st L n false a = .ok s)
    (hr : DerefTo (h.at? pre) tl r) (hc : h.at? pre r = some c) (hat : ∀ f n, c ≠ .fn f n)
    (hu : ∃ n, stringRep pre h st L n false tl = .ok u) (hu0 : u ≠ []) :
    ∃ n, ∀ fuel, n ≤ fuel → stringRep pre h st L fuel false a =
      .ok (n!"[" ++ commas ss ++ (if c.isRef then n!"|" else n!",") ++ u.dropLast ++ n!"]") := by
  obtain ⟨n1, hu⟩ := hu
  have hu' : stringRep pre h st L n1 true tl = .ok u := by
    cases n1 with
    | zero => cases hu
    | succ n1 =>
      rw [stringRep, deref_eq wf hr, ok_bind, hc, orFault_some, ok_bind] at hu ⊢
      cases c with
      | fn f n => exact absurd rfl (hat f n)
      | _ => exact hu
  obtain ⟨n, hn, _⟩ := rep_list wf hl hne hs hss hr hc ⟨n1, hu'⟩
  refine ⟨n, fun fuel hf => ?_⟩
  rw [rep_mono hn hf, List.append_assoc, ← List.append_assoc n!"[", List.dropLast_append_of_ne_nil (by simp [hu0])]
  rw [List.dropLast_append_of_ne_nil hu0]
  simp [List.append_assoc]

/-- **C29 is false**: what is printed for such a list is never the elements, a bar and the complete text of the
rest. -/
theorem C29_rest_never_complete {st : Storage} {pre h L} (wf : WF st pre h) {a as tl ss u r c} (hl : ListFrom st (h.at? pre) a as tl)
    (hne : as ≠ []) (hs : ss.length = as.length)
    (hss : ∀ (i : Nat) a s, as[i]? = some a → ss[i]? = some s → ∃ n, stringRep pre h st L n false a = .ok s)
    (hr : DerefTo (h.at? pre) tl r) (hc : h.at? pre r = some c) (hat : ∀ f n, c ≠ .fn f n)
    (hu : ∃ n, stringRep pre h st L n false tl = .ok u) (hu0 : u ≠ []) (fuel : Nat) :
    stringRep pre h st L fuel false a ≠ .ok (n!"[" ++ commas ss ++ n!"|" ++ u ++ n!"]") := by
  obtain ⟨n, hn⟩ := C29_rest_truncated_partial wf hl hne hs hss hr hc hat hu hu0
  intro he
  have h1 := hn (max n fuel) (Nat.le_max_left _ _)
  rw [rep_mono he (Nat.le_max_right _ _)] at h1
  have := congrArg List.length (Except.ok.inj h1)
  have hpos := List.length_pos_iff.2 hu0
  have hsep : (if c.isRef then n!"|" else n!",").length = 1 := by split <;> rfl
  simp only [List.length_append, List.length_dropLast, hsep, List.length_cons, List.length_nil] at this
  omega

/-! ## C30 -/

/-- **C30 (part that holds).** Two unbound variables, shown at their own addresses and not named by the user, have
the same name if and only if they are the same, provided no variable name ends in a digit.  Missing: occurrences
that are references to the variable, which are shown without number (`C30_two_names`, `C30_one_name`). -/
theorem C30_own_cells_partial {st : Storage} {pre h L} (wf : WF st pre h) {a b v w n m} (ha : h.at? pre a = some (.ref a v))
    (hb : h.at? pre b = some (.ref b w)) (hv : st.varAt v = some n) (hw : st.varAt w = some m) (hn : isUserVar L n = false)
    (hm : isUserVar L m = false) (hnd : ∀ c, n.getLast? = some c → c.isDigit = false) (hmd : ∀ c, m.getLast? = some c → c.isDigit = false)
    (fuel : Nat) : stringRep pre h st L (fuel + 1) false a = stringRep pre h st L (fuel + 1) false b ↔ a = b := by
  have hA := rep_mono (rep_rest_var (L := L) (b := false) wf ⟨0, .self ha⟩ ha hv) (show 1 ≤ fuel + 1 by omega)
  have hB := rep_mono (rep_rest_var (L := L) (b := false) wf ⟨0, .self hb⟩ hb hw) (show 1 ≤ fuel + 1 by omega)
  rw [hA, hB, if_pos ⟨rfl, by simp [hn]⟩, if_pos ⟨rfl, by simp [hm]⟩]
  refine ⟨fun he => ?_, ?_⟩
  · have he := Except.ok.inj he
    have split : ∀ {x y x' y' : List Char}, (∀ c, x.getLast? = some c → c.isDigit = false) → (∀ c, x'.getLast? = some c → c.isDigit = false) →
        (∀ c ∈ y, c.isDigit = true) → (∀ c ∈ y', c.isDigit = true) → x ++ y = x' ++ y' → y = y' := by
      intro x y x' y' h1 h2 h3 h4 he
      have he := congrArg List.reverse he
      rw [List.reverse_append, List.reverse_append] at he
      have h1 : ∀ c, x.reverse.head? = some c → c.isDigit = false := by simpa using h1
      have h2 : ∀ c, x'.reverse.head? = some c → c.isDigit = false := by simpa using h2
      have h3 : ∀ c ∈ y.reverse, c.isDigit = true := by simpa using h3
      have h4 : ∀ c ∈ y'.reverse, c.isDigit = true := by simpa using h4
      rw [← List.reverse_inj]
      generalize y.reverse = p at *
      generalize y'.reverse = q at *
      generalize x.reverse = s at *
      generalize x'.reverse = t at *
      clear * - h1 h2 h3 h4 he
      induction p generalizing q with
      | nil =>
        cases q with
        | nil => rfl
        | cons c q =>
          have := h1 c (by simp only [List.nil_append] at he; rw [he]; rfl)
          rw [h4 c (by simp)] at this; cases this
      | cons c p ih =>
        cases q with
        | nil =>
          have := h2 c (by simp only [List.nil_append] at he; rw [← he]; rfl)
          rw [h3 c (by simp)] at this; cases this
        | cons d q =>
          simp only [List.cons_append, List.cons.injEq] at he
          rw [he.1, ih (fun c hc => h3 c (by simp [hc])) q (fun c hc => h4 c (by simp [hc])) he.2]
    have := split hnd hmd (natText a).2.1 (natText b).2.1 he
    rw [← (natText a).2.2.1, ← (natText b).2.2.1, this]
  · rintro rfl
    rw [ha] at hb
    cases hb
    rw [hv] at hw
    cases hw
    rfl

/-! ## Concrete cases -/

namespace PrintExamples

/-- `l([a|Xs]).  n([a|3]).  q(f(X),g(X)).  t([1,f(a,[]),-2]).` -/
def shapes : List Clause :=
  [⟨.fn n!"l" [.fn n!"[" [.cons n!"a", .var n!"Xs"]], []⟩,
   ⟨.fn n!"n" [.fn n!"[" [.cons n!"a", .int 3]], []⟩,
   ⟨.fn n!"q" [.fn n!"f" [.var n!"X"], .fn n!"g" [.var n!"X"]], []⟩,
   ⟨.fn n!"t" [.fn n!"[" [.int 1, .fn n!"[" [.fn n!"f" [.cons n!"a", .nil], .fn n!"[" [.int (-2), .nil]]]], []⟩]

/-- A ground answer is shown as its text. -/
example : (demo shapes [.fn n!"t" [.var n!"A"]]).reportsOf 20 20 = some [.answer [⟨n!"A", n!"[1,f(a,[]),-2]"⟩]] := by
  decide +kernel

/-- This text is the text of the list of `1`, `f(a,[])` and `-2`. -/
example : Text (.fn n!"[" [.int 1, .fn n!"[" [.fn n!"f" [.cons n!"a", .fn n!"[" []], .fn n!"[" [.int (-2), .fn n!"[" []]]])
    n!"[1,f(a,[]),-2]" := by
  have h0 : Text (.fn n!"[" []) n!"[]" := .list (ss := []) .nil rfl (by simp)
  have h1 : Text (.fn n!"f" [.cons n!"a", .fn n!"[" []]) n!"f(a,[])" :=
    .fn (f := n!"f") (ss := [n!"a", n!"[]"]) (by decide) (by simp) rfl fun i t s a b => by
      match i, a, b with
      | 0, a, b => cases a; cases b; exact .cons
      | 1, a, b => cases a; cases b; exact h0
      | i + 2, a, _ => simp at a
  refine .list (ss := [n!"1", n!"f(a,[])", n!"-2"]) (.cons (.cons (.cons .nil))) rfl fun i t s a b => ?_
  match i, a, b with
  | 0, a, b => cases a; cases b; exact .int (intText 1)
  | 1, a, b => cases a; cases b; exact h1
  | 2, a, b => cases a; cases b; exact .int (intText (-2))
  | i + 3, a, _ => simp at a

/-- The query meets the hypotheses of `C28_answers_show_text`. -/
example : Asked (demo shapes [.fn n!"t" [.var n!"A"]]) shapes [.fn n!"t" [.var n!"A"]] ∧
    Printable (demo shapes [.fn n!"t" [.var n!"A"]]).st :=
  ⟨SoundExamples.asked_demo (by decide +kernel) (by decide +kernel) (SoundExamples.safe_of_b (by decide +kernel)) (by decide) (by simp) (by decide +kernel),
    by decide +kernel, by decide +kernel, by decide +kernel, by decide +kernel⟩

/-- The heap of `[a|Xs]`, `Y` and `Z`; the hypotheses of `C29_rest_truncated_partial` and `C30_own_cells_partial` are met. -/
def listSt : Storage := ⟨[⟨n!"[", 2⟩, ⟨n!"a", 0⟩], [n!"Xs", n!"Y", n!"Z"]⟩
def listHp : Hp := ⟨0, [], [.fn 0 2, .cons 1, .ref 2 0, .ref 3 1, .ref 4 2]⟩

theorem listHp_wf : WF listSt (fun _ => none) listHp :=
  good_of_check (by decide)

example : ListFrom listSt (listHp.at? fun _ => none) 0 [1] 2 ∧ DerefTo (listHp.at? fun _ => none) 2 2 ∧
    stringRep (fun _ => none) listHp listSt [] 1 false 1 = .ok n!"a" ∧ stringRep (fun _ => none) listHp listSt [] 1 false 2 = .ok n!"Xs2" ∧
    stringRep (fun _ => none) listHp listSt [] 2 false 0 = .ok n!"[a|Xs]" :=
  ⟨.elem ⟨0, .val (by rfl) rfl⟩ rfl rfl .stop, ⟨0, .self (by rfl)⟩, by decide +kernel, by decide +kernel, by decide +kernel⟩

example : listHp.at? (fun _ => none) 3 = some (.ref 3 1) ∧ listHp.at? (fun _ => none) 4 = some (.ref 4 2) ∧
    stringRep (fun _ => none) listHp listSt [] 1 false 3 = .ok n!"Y3" ∧ stringRep (fun _ => none) listHp listSt [] 1 false 4 = .ok n!"Z4" := by
  decide +kernel

end PrintExamples

open PrintExamples in
/-- **C29 is false**: `l([a|Xs]).`, asked `l(A)`, shows `[a|Xs4]` without the last digit; `n([a|3]).`, asked
`n(A)`, shows `[a,]`; `q(f(X),g(X)).`, asked `q(f([H|Tail]),B)`, shows `g([H|Tai])`. -/
theorem C29_witness :
    (demo shapes [.fn n!"l" [.var n!"A"]]).reportsOf 20 20 = some [.answer [⟨n!"A", n!"[a|Xs]"⟩]] ∧
    (demo shapes [.fn n!"n" [.var n!"A"]]).reportsOf 20 20 = some [.answer [⟨n!"A", n!"[a,]"⟩]] ∧
    (demo shapes [.fn n!"q" [.fn n!"f" [.fn n!"[" [.var n!"H", .var n!"Tail"]], .var n!"B"]]).reportsOf 20 20 =
      some [.answer [⟨n!"B", n!"g([H|Tai])"⟩, ⟨n!"H", n!"H"⟩, ⟨n!"Tail", n!"Tail"⟩]] := by
  decide +kernel

open PrintExamples in
/-- **C30 is false**: one variable with two names.  `q(f(X),g(X)).`, asked `q(A,B)`. -/
theorem C30_two_names :
    (demo shapes [.fn n!"q" [.var n!"A", .var n!"B"]]).reportsOf 20 20 = some [.answer [⟨n!"A", n!"f(X3)"⟩, ⟨n!"B", n!"g(X)"⟩]] := by
  decide +kernel

open PrintExamples in
/-- **C30 is false**: one name for two variables.  Asked `q(A,B), q(C,D)`, the variables in `B` and `D` are
different. -/
theorem C30_one_name :
    (demo shapes [.fn n!"q" [.var n!"A", .var n!"B"], .fn n!"q" [.var n!"C", .var n!"D"]]).reportsOf 20 20 =
      some [.answer [⟨n!"C", n!"f(X9)"⟩, ⟨n!"D", n!"g(X)"⟩, ⟨n!"A", n!"f(X3)"⟩, ⟨n!"B", n!"g(X)"⟩]] := by
  decide +kernel

end PBfs
