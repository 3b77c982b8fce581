import Verif.Spec.Console
import Verif.Proof.Reach
/-! # The console: reading its input, and conversations -/
namespace PBfs
open Org

theorem upTo_hit {d : Char} : ∀ {t r : List Char}, d ∉ t → Cin.upTo d (t ++ d :: r) = (t, some r)
  | [], r, _ => by simp [Cin.upTo]
  | c :: t, r, h => by
    simp only [List.mem_cons, not_or] at h
    rw [List.cons_append, Cin.upTo, if_neg (fun e => h.1 e.symm), upTo_hit h.2]

theorem upTo_some {d : Char} : ∀ {s t r : List Char}, Cin.upTo d s = (t, some r) → s = t ++ d :: r ∧ d ∉ t
  | [], t, r, h => by simp [Cin.upTo] at h
  | c :: s, t, r, h => by
    rw [Cin.upTo] at h
    split at h
    · rename_i hc
      simp only [Prod.mk.injEq, Option.some.injEq] at h
      obtain ⟨rfl, rfl⟩ := h
      simp [hc]
    · rename_i hc
      simp only [Prod.mk.injEq] at h
      obtain ⟨rfl, h2⟩ := h
      obtain ⟨h3, h4⟩ := upTo_some (s := s) (t := (Cin.upTo d s).1) (r := r) (by rw [← h2])
      refine ⟨?_, ?_⟩
      · rw [List.cons_append, ← h3]
      · simp only [List.mem_cons, not_or]
        exact ⟨fun e => hc e.symm, h4⟩

theorem upTo_none {d : Char} : ∀ {s t : List Char}, Cin.upTo d s = (t, none) → s = t ∧ d ∉ t
  | [], t, h => by simp [Cin.upTo] at h; simp [h]
  | c :: s, t, h => by
    rw [Cin.upTo] at h
    split at h
    · simp at h
    · rename_i hc
      simp only [Prod.mk.injEq] at h
      obtain ⟨rfl, h2⟩ := h
      obtain ⟨h3, h4⟩ := upTo_none (s := s) (t := (Cin.upTo d s).1) (by rw [← h2])
      refine ⟨by rw [← h3], ?_⟩
      simp only [List.mem_cons, not_or]
      exact ⟨fun e => hc e.symm, h4⟩

theorem getline_hit {d : Char} {t r s : List Char} (h : d ∉ t) : (⟨t ++ d :: r, true⟩ : Cin).getline d s = (t, ⟨r, true⟩) := by
  simp only [Cin.getline, if_true, upTo_hit h]

theorem getline_good {d : Char} {c c' : Cin} {s t : List Char} (h : c.getline d s = (t, c')) (hg : c'.good = true) :
    c.good = true ∧ c.rest = t ++ d :: c'.rest ∧ d ∉ t := by
  unfold Cin.getline at h
  split at h
  · rename_i hc
    split at h
    · rename_i a r ha
      simp only [Prod.mk.injEq] at h
      obtain ⟨rfl, rfl⟩ := h
      exact ⟨hc, upTo_some ha⟩
    · simp only [Prod.mk.injEq] at h
      obtain ⟨_, rfl⟩ := h
      cases hg
  · rename_i hc
    simp only [Prod.mk.injEq] at h
    rw [h.2] at hc
    exact absurd hg hc

theorem skip_line {d : Char} : ∀ {n j r}, d ∉ j → j.length < n → Cin.skip d n (j ++ d :: r) = ⟨r, true⟩
  | 0, _, _, _, h => by omega
  | n + 1, [], r, _, _ => by simp [Cin.skip]
  | n + 1, c :: j, r, h, hl => by
    simp only [List.mem_cons, not_or, List.length_cons] at h hl
    rw [List.cons_append, Cin.skip, if_neg (fun e => h.1 e.symm)]
    exact skip_line h.2 (by omega)

theorem skip_full {d : Char} : ∀ {n j r}, d ∉ j → j.length = n → Cin.skip d n (j ++ r) = ⟨r, true⟩
  | 0, j, r, _, h => by rw [List.length_eq_zero_iff] at h; subst h; rfl
  | n + 1, [], r, _, h => by simp at h
  | n + 1, c :: j, r, h, hl => by
    simp only [List.mem_cons, not_or, List.length_cons] at h hl
    rw [List.cons_append, Cin.skip, if_neg (fun e => h.1 e.symm)]
    exact skip_full h.2 (by omega)

theorem skip_good {d : Char} : ∀ {n s c}, Cin.skip d n s = c → c.good = true →
    ∃ j, s = j ++ c.rest ∧ ((∃ k, j = k ++ [d] ∧ d ∉ k ∧ k.length < n) ∨ j.length = n ∧ d ∉ j)
  | 0, s, c, h, _ => by subst h; exact ⟨[], rfl, .inr ⟨rfl, by simp⟩⟩
  | n + 1, [], c, h, hg => by subst h; cases hg
  | n + 1, e :: s, c, h, hg => by
    rw [Cin.skip] at h
    split at h
    · rename_i he
      subst h he
      exact ⟨[e], rfl, .inl ⟨[], rfl, by simp, by simp⟩⟩
    · rename_i he
      obtain ⟨j, h1, h2⟩ := skip_good h hg
      refine ⟨e :: j, by rw [h1]; rfl, ?_⟩
      rcases h2 with ⟨k, rfl, h3, h4⟩ | ⟨h3, h4⟩
      · refine .inl ⟨e :: k, rfl, ?_, by simpa using h4⟩
        simp only [List.mem_cons, not_or]
        exact ⟨fun h => he h.symm, h3⟩
      · refine .inr ⟨by simp [h3], ?_⟩
        simp only [List.mem_cons, not_or]
        exact ⟨fun h => he h.symm, h4⟩

theorem ignore_hit {j r} (h : Skipped j) : (⟨j ++ r, true⟩ : Cin).ignore 1024 '\n' = ⟨r, true⟩ := by
  simp only [Cin.ignore, if_true]
  rcases h with ⟨k, rfl, h1, h2⟩ | ⟨h1, h2⟩
  · rw [List.append_assoc]; exact skip_line h1 h2
  · exact skip_full h2 h1

theorem ignore_good {c : Cin} (hg : (c.ignore 1024 '\n').good = true) :
    c.good = true ∧ ∃ j, Skipped j ∧ c.rest = j ++ (c.ignore 1024 '\n').rest := by
  unfold Cin.ignore at hg ⊢
  split
  · rename_i h
    rw [if_pos h] at hg
    obtain ⟨j, h1, h2⟩ := skip_good rfl hg
    exact ⟨h, j, h2, h1⟩
  · rename_i h
    rw [if_neg h] at hg
    exact absurd hg h

theorem bindingLines_said : ∀ {bs : List Binding}, bs ≠ [] → Con.bindingLines bs = said (.answer bs)
  | [], h => absurd rfl h
  | [b], _ => by simp [Con.bindingLines, said, List.intercalate, Binding.str]
  | b :: b' :: bs, _ => by
    have := bindingLines_said (bs := b' :: bs) (by simp)
    rw [Con.bindingLines, this]
    · simp [said, List.intercalate, Binding.str]
    · simp

namespace Con

theorem showAnswer_ne {bs : List Binding} (h : bs ≠ []) (c : Con) :
    c.showAnswer bs = { c with out := c.out ++ said (.answer bs), phase := .more } := by
  cases bs with
  | nil => exact absurd rfl h
  | cons b bs => rw [← bindingLines_said h]; rfl

theorem steps_append {fuel : Nat} : ∀ {es fs : List (HashOrder × List Bool)} {c : Con},
    c.steps fuel (es ++ fs) = (do let c ← c.steps fuel es; c.steps fuel fs)
  | [], fs, c => by simp [steps, pure, Except.pure, ok_bind]
  | e :: es, fs, c => by
    simp only [List.cons_append, steps]
    cases h : c.step fuel e.1 e.2 with
    | error => rfl
    | ok c' => simp only [ok_bind]; exact steps_append

end Con

theorem session_nil {fuel : Nat} {o o' : Org} {clocks} (h : o.session fuel clocks = .ok (o', [])) : o' = o := by
  cases clocks with
  | nil => simp only [session, pure_ok, Prod.mk.injEq, and_true] at h; exact h.symm
  | cons =>
    simp only [session, bind_ok, pure_ok, Prod.mk.injEq] at h
    obtain ⟨_, _, _, _, _, h⟩ := h
    cases h

theorem session_cons {fuel : Nat} {o o' : Org} {clocks r rs} (h : o.session fuel clocks = .ok (o', r :: rs)) :
    ∃ c cs o1, o.getAnswer fuel c = .ok (o1, r) ∧ o1.session fuel cs = .ok (o', rs) := by
  cases clocks with
  | nil =>
    simp only [session, pure_ok, Prod.mk.injEq] at h
    cases h.2
  | cons c cs =>
    simp only [session, bind_ok, pure_ok, Prod.mk.injEq, List.cons.injEq] at h
    obtain ⟨⟨o1, x⟩, h1, ⟨o2, xs⟩, h2, rfl, rfl, rfl⟩ := h
    exact ⟨c, cs, o1, h1, h2⟩

theorem Envs.nil : Envs [] := fun _ h => by simp at h

theorem Envs.cons {ord c es} (h : ord.OK) (he : Envs es) : Envs ((ord, c) :: es) := by
  intro e hm
  simp only [List.mem_cons] at hm
  rcases hm with rfl | hm
  · exact h
  · exact he e hm

theorem Envs.append {es fs} (h : Envs es) (h' : Envs fs) : Envs (es ++ fs) := by
  intro e hm
  simp only [List.mem_append] at hm
  exact hm.elim (h e) (h' e)

theorem id_ok : HashOrder.OK id := fun l => .refl l

/-- What is typed after bindings have been shown, if these are the further results. -/
def lineText : Option (List Char) → List Char
  | none => []
  | some l => l ++ n!"\n"

/-- Further results are told on demand. -/
theorem Told.more_steps {fuel : Nat} {rs line} (h : Told rs line) : ∀ {o o' : Org} {clocks r cur out}, o.session fuel clocks = .ok (o', rs) →
    ∃ es, Envs es ∧ (⟨o, ⟨(List.replicate rs.length n!";\n").flatten ++ lineText line ++ r, true⟩, cur, out, .more⟩ : Con).steps fuel es =
      .ok ⟨o', ⟨r, true⟩, cur, out ++ rs.flatMap said, .prompt⟩ := by
  have hsemi : ∀ s : List Char, s = n!";" → '\n' ∉ s := by rintro _ rfl; decide
  induction h with
  | no =>
    intro o o' clocks r cur out hs
    obtain ⟨c, cs, o1, h1, h2⟩ := session_cons hs
    obtain rfl := session_nil h2
    refine ⟨[(id, c)], .cons id_ok .nil, ?_⟩
    simp only [Con.steps, Con.step, Con.next, List.length_singleton, List.replicate, List.flatten_cons, List.flatten_nil, List.append_nil, lineText]
    rw [show n!";\n" ++ r = n!";" ++ '\n' :: r from rfl, getline_hit (hsemi _ rfl)]
    simp only [if_true, h1, ok_bind]
    simp [Con.write, said, pure, Except.pure]
  | yes =>
    intro o o' clocks r cur out hs
    obtain ⟨c, cs, o1, h1, h2⟩ := session_cons hs
    obtain rfl := session_nil h2
    refine ⟨[(id, c)], .cons id_ok .nil, ?_⟩
    simp only [Con.steps, Con.step, Con.next, List.length_singleton, List.replicate, List.flatten_cons, List.flatten_nil, List.append_nil, lineText]
    rw [show n!";\n" ++ r = n!";" ++ '\n' :: r from rfl, getline_hit (hsemi _ rfl)]
    simp only [if_true, h1, ok_bind]
    simp [Con.write, Con.showAnswer, said, pure, Except.pure]
  | @enough bs l hbs hl hn =>
    intro o o' clocks r cur out hs
    obtain ⟨c, cs, o1, h1, h2⟩ := session_cons hs
    obtain rfl := session_nil h2
    refine ⟨[(id, c), (id, c)], .cons id_ok (.cons id_ok .nil), ?_⟩
    simp only [Con.steps, Con.step, Con.next, List.length_singleton, List.replicate, List.flatten_cons, List.flatten_nil, List.append_nil, lineText]
    rw [show n!";\n" ++ (l ++ n!"\n") ++ r = n!";" ++ '\n' :: (l ++ '\n' :: r) by simp, getline_hit (hsemi _ rfl)]
    simp only [if_true, h1, ok_bind]
    simp only [Con.showAnswer_ne hbs, pure, Except.pure, ok_bind]
    rw [getline_hit hn]
    simp only [if_neg hl, ok_bind]
    simp
  | @more bs rs line hbs _ ih =>
    intro o o' clocks r cur out hs
    obtain ⟨c, cs, o1, h1, h2⟩ := session_cons hs
    obtain ⟨es, hen, he⟩ := ih (r := r) (cur := cur) (out := out ++ said (.answer bs)) h2
    refine ⟨(id, c) :: es, .cons id_ok hen, ?_⟩
    simp only [Con.steps, Con.step, Con.next, List.length_cons, List.replicate_succ, List.flatten_cons]
    rw [show n!";\n" ++ (List.replicate rs.length n!";\n").flatten ++ lineText line ++ r =
      n!";" ++ '\n' :: ((List.replicate rs.length n!";\n").flatten ++ lineText line ++ r) by simp, getline_hit (hsemi _ rfl)]
    simp only [if_true, h1, ok_bind, Con.showAnswer_ne hbs, pure, Except.pure]
    rw [he]
    simp

theorem Exchange.typed_eq (x : Exchange) : x.typed = x.text ++ '.' :: (x.skipped ++ ((List.replicate (x.results.length - 1) n!";\n").flatten ++ lineText x.line)) := by
  unfold Exchange.typed
  cases x.line <;> simp [lineText]

/-- One exchange takes place as described. -/
theorem Exchange.Proper.steps {x : Exchange} (hx : x.Proper) {fuel : Nat} {o o1 o2 : Org} {ord l clocks} (ho : ord.OK) (hl : o.loadQueryText ord x.text = (o1, l))
    (hne : l ≠ .exception) (hs : o1.session fuel clocks = .ok (o2, x.results)) (r cur out) :
    ∃ es, Envs es ∧ (⟨o, ⟨x.typed ++ r, true⟩, cur, out, .prompt⟩ : Con).steps fuel es = .ok ⟨o2, ⟨r, true⟩, x.text, out ++ x.shown, .prompt⟩ := by
  obtain ⟨text, skipped, results, line⟩ := x
  obtain ⟨h1, h2, h3, h4⟩ := hx
  simp only [Exchange.typed_eq, Exchange.shown] at *
  -- the first result
  have first : ∀ {c o2 x}, o1.getAnswer fuel c = .ok (o2, x) → ∀ rest,
      (⟨o, ⟨text ++ '.' :: (skipped ++ rest), true⟩, cur, out, .prompt⟩ : Con).step fuel ord c =
      (match x with
      | .error e => .ok ⟨o2, ⟨rest, true⟩, text, out ++ n!"?- " ++ (n!"error: " ++ e.explanation ++ n!"\n"), .prompt⟩
      | .noAnswer => .ok ⟨o2, ⟨rest, true⟩, text, out ++ n!"?- " ++ n!"false\n", .prompt⟩
      | .answer bs => .ok ((⟨o2, ⟨rest, true⟩, text, out ++ n!"?- ", .prompt⟩ : Con).showAnswer bs)
      | .running => .ok ⟨o2, ⟨rest, true⟩, text, out ++ n!"?- ", .busy⟩) := by
    intro c o2 x hc rest
    simp only [Con.step, Con.ask, Con.write, getline_hit h1, if_neg h2, ignore_hit h3, hl]
    cases l with
    | exception => exact absurd rfl hne
    | ok => simp only [hc, ok_bind]; cases x <;> rfl
    | rejected => simp only [hc, ok_bind]; cases x <;> rfl
  cases results with
  | nil => rcases h4 with h4 | ⟨e, h4, _⟩ <;> cases h4
  | cons y ys =>
  obtain ⟨c, cs, o3, g1, g2⟩ := session_cons hs
  have f := first g1
  rcases h4 with h4 | ⟨e, h4, rfl⟩
  · cases h4 with
    | no =>
      obtain rfl := session_nil g2
      refine ⟨[(ord, c)], .cons ho .nil, ?_⟩
      simp only [Con.steps, List.append_assoc, List.cons_append]
      rw [f]
      simp [ok_bind, lineText, said, pure, Except.pure]
    | yes =>
      obtain rfl := session_nil g2
      refine ⟨[(ord, c)], .cons ho .nil, ?_⟩
      simp only [Con.steps, List.append_assoc, List.cons_append]
      rw [f]
      simp [ok_bind, lineText, said, pure, Except.pure, Con.showAnswer, Con.write]
    | @enough bs l hbs hl hn =>
      obtain rfl := session_nil g2
      refine ⟨[(ord, c), (ord, c)], .cons ho (.cons ho .nil), ?_⟩
      simp only [Con.steps, List.append_assoc, List.cons_append]
      rw [f]
      simp only [Con.showAnswer_ne hbs, ok_bind, Con.step, Con.next]
      rw [show (List.replicate ([Res.answer bs].length - 1) n!";\n").flatten ++ (lineText (some l) ++ r) = l ++ '\n' :: r by simp [lineText],
        getline_hit hn]
      simp [if_neg hl, pure, Except.pure, ok_bind]
    | @more bs rs line hbs ht =>
      obtain ⟨es, hen, he⟩ := ht.more_steps (r := r) (cur := text) (out := out ++ n!"?- " ++ said (.answer bs)) g2
      refine ⟨(ord, c) :: es, .cons ho hen, ?_⟩
      simp only [Con.steps, List.append_assoc, List.cons_append]
      rw [f]
      simp only [Con.showAnswer_ne hbs, ok_bind, List.length_cons, Nat.add_sub_cancel]
      rw [← List.append_assoc (List.replicate _ _).flatten, he]
      simp
  · simp only [List.cons.injEq] at h4
    obtain ⟨rfl, rfl⟩ := h4
    obtain rfl := session_nil g2
    refine ⟨[(ord, c)], .cons ho .nil, ?_⟩
    simp only [Con.steps, List.append_assoc, List.cons_append]
    rw [f]
    simp [ok_bind, lineText, said, pure, Except.pure]

/-- Every conversation can be held. -/
theorem Talk.steps {fuel : Nat} {o xs o'} (h : Talk fuel o xs o') : ∀ r cur out, ∃ es cur', Envs es ∧
    (⟨o, ⟨xs.flatMap Exchange.typed ++ r, true⟩, cur, out, .prompt⟩ : Con).steps fuel es = .ok ⟨o', ⟨r, true⟩, cur', out ++ xs.flatMap Exchange.shown, .prompt⟩ := by
  induction h with
  | nil => intro r cur out; exact ⟨[], cur, .nil, by simp [Con.steps, pure, Except.pure]⟩
  | @snoc xs o1 ord x o2 l clocks o3 _ hx ho hl hne hs ih =>
    intro r cur out
    obtain ⟨es, cur1, e1, h1⟩ := ih (x.typed ++ r) cur out
    obtain ⟨fs, e2, h2⟩ := hx.steps ho hl hne hs r cur1 (out ++ xs.flatMap Exchange.shown)
    refine ⟨es ++ fs, x.text, e1.append e2, ?_⟩
    rw [Con.steps_append]
    simp only [List.flatMap_append, List.flatMap_singleton, List.append_assoc] at h1 h2 ⊢
    rw [h1]
    simp only [ok_bind]
    exact h2

/-! ## A stream that is not good stays as it is -/

theorem getline_bad {d : Char} {c : Cin} {s : Name} (h : c.good = false) : c.getline d s = (s, c) := by
  simp [Cin.getline, h]

theorem ignore_bad {d : Char} {c : Cin} {n : Nat} (h : c.good = false) : c.ignore n d = c := by
  simp [Cin.ignore, h]

@[simp] theorem Con.showAnswer_cin (bs) (c : Con) : (c.showAnswer bs).cin = c.cin := by cases bs <;> rfl
@[simp] theorem Con.showAnswer_cur (bs) (c : Con) : (c.showAnswer bs).cur = c.cur := by cases bs <;> rfl
theorem Con.showAnswer_phase (bs) (c : Con) : (c.showAnswer bs).phase ≠ .quit := by cases bs <;> simp [showAnswer]

/-- At the end of the input: nothing is read any more, the text of the query stays. -/
theorem Con.step_bad {fuel : Nat} {c c' : Con} {ord clock} (h : c.cin.good = false) (hs : c.step fuel ord clock = .ok c') :
    c'.cin = c.cin ∧ c'.cur = c.cur ∧ (c'.phase = .quit → c.phase = .quit ∨ c.phase = .prompt ∧ c.cur = n!"q") := by
  unfold Con.step at hs
  split at hs
  · rename_i hp
    simp only [Con.ask, Con.write, getline_bad h, ignore_bad h] at hs
    split at hs
    · rename_i hq
      simp only [pure, Except.pure, Except.ok.injEq] at hs
      subst hs
      exact ⟨rfl, rfl, fun _ => .inr ⟨hp, hq⟩⟩
    · split at hs
      · simp only [pure, Except.pure, Except.ok.injEq] at hs
        subst hs
        exact ⟨rfl, rfl, fun h => by cases h⟩
      · rw [bind_ok] at hs
        obtain ⟨⟨o2, r⟩, _, hs⟩ := hs
        cases r <;>
        · simp only [pure, Except.pure, Except.ok.injEq] at hs
          subst hs
          first
            | exact ⟨rfl, rfl, fun h => by cases h⟩
            | exact ⟨by simp, by simp, fun h => absurd h (Con.showAnswer_phase _ _)⟩
  · simp only [Con.next, Con.write, getline_bad h] at hs
    split at hs
    · rename_i hq; cases hq
    · simp only [pure, Except.pure, Except.ok.injEq] at hs
      subst hs
      exact ⟨rfl, rfl, fun h => by cases h⟩
  · simp only [pure, Except.pure, Except.ok.injEq] at hs
    subst hs
    exact ⟨rfl, rfl, .inl⟩

theorem Con.steps_good {fuel : Nat} : ∀ {es : List (HashOrder × List Bool)} {c c' : Con}, c.steps fuel es = .ok c' → c'.cin.good = true → c.cin.good = true
  | [], c, c', hs, hg => by
    simp only [Con.steps, pure_ok] at hs
    subst hs
    exact hg
  | e :: es, c, c', hs, hg => by
    simp only [Con.steps, bind_ok] at hs
    obtain ⟨c1, h1, h2⟩ := hs
    have := Con.steps_good h2 hg
    cases hc : c.cin.good with
    | true => rfl
    | false => rw [(Con.step_bad hc h1).1, hc] at this; cases this

/-! ## Every run of the console is a conversation -/

theorem session_snoc {fuel : Nat} : ∀ {clocks : List (List Bool)} {o o1 o2 : Org} {c rs r}, o.session fuel clocks = .ok (o1, rs) → o1.getAnswer fuel c = .ok (o2, r) →
    o.session fuel (clocks ++ [c]) = .ok (o2, rs ++ [r])
  | [], o, o1, o2, c, rs, r, h, hc => by
    simp only [session, pure_ok, Prod.mk.injEq] at h
    obtain ⟨rfl, rfl⟩ := h
    simp only [List.nil_append, session, hc, ok_bind, pure, Except.pure]
  | k :: ks, o, o1, o2, c, rs, r, h, hc => by
    simp only [session, bind_ok, pure_ok, Prod.mk.injEq] at h
    obtain ⟨⟨o3, x⟩, h1, ⟨o4, xs⟩, h2, rfl, rfl⟩ := h
    simp only [List.cons_append, session, h1, ok_bind, session_snoc h2 hc, pure, Except.pure]

/-- Results after which the user is asked whether they want more. -/
def Open (rs : List Res) : Prop := ∀ r ∈ rs, ∃ bs, r = Res.answer bs ∧ bs ≠ []

theorem Open.told {rs rs' line} (h : Open rs) (ht : Told rs' line) : Told (rs ++ rs') line := by
  induction rs with
  | nil => exact ht
  | cons r rs ih =>
    obtain ⟨bs, rfl, hb⟩ := h r (by simp)
    exact .more hb (ih fun r hr => h r (by simp [hr]))

/-- In the middle of an exchange: the results `rs` have been told. -/
structure Midway (fuel : Nat) (o0 : Org) (input out0 : List Char) (rs : List Res) (o : Org) (rest out : List Char) (xs : List Exchange) (text skipped : List Char) : Prop where
  talk : ∃ o1 ord o2 l clocks, Talk fuel o0 xs o1 ∧ ord.OK ∧ o1.loadQueryText ord text = (o2, l) ∧ l ≠ .exception ∧ o2.session fuel clocks = .ok (o, rs)
  noDot : '.' ∉ text
  notQ : text ≠ n!"q"
  skips : Skipped skipped
  read : input = xs.flatMap Exchange.typed ++ (text ++ '.' :: (skipped ++ ((List.replicate (rs.length - 1) n!";\n").flatten ++ rest)))
  written : out = out0 ++ (xs.flatMap Exchange.shown ++ (n!"?- " ++ rs.flatMap said))

/-- Where a conversation stands, as long as the end of the input has not been hit. -/
def Held (fuel : Nat) (o0 : Org) (input out0 : List Char) (c : Con) : Prop :=
  match c.phase with
  | .prompt => ∃ xs, Talk fuel o0 xs c.org ∧ input = xs.flatMap Exchange.typed ++ c.cin.rest ∧ c.out = out0 ++ xs.flatMap Exchange.shown
  | .more => ∃ rs xs text skipped, rs ≠ [] ∧ Open rs ∧ Midway fuel o0 input out0 rs c.org c.cin.rest c.out xs text skipped
  | .quit => ∃ xs, Talk fuel o0 xs c.org ∧ input = xs.flatMap Exchange.typed ++ n!"q." ++ c.cin.rest ∧ c.out = out0 ++ xs.flatMap Exchange.shown ++ n!"?- "
  | .abort => (∃ xs o1 ord text, Talk fuel o0 xs o1 ∧ '.' ∉ text ∧ (o1.loadQueryText ord text).2 = .exception) ∨
      ∃ rs xs text skipped o e rest out clock, rs ≠ [] ∧ Open rs ∧ Midway fuel o0 input out0 rs o rest out xs text skipped ∧ rest = n!";\n" ++ c.cin.rest ∧
        o.getAnswer fuel clock = .ok (c.org, .error e) ∧ c.out = out ++ n!"Error: " ++ e.explanation ++ n!"\n"
  | .busy => True

/-- The exchange is finished. -/
theorem Midway.finish {fuel : Nat} {o0 : Org} {input out0 rs o rest out xs text skipped} (m : Midway fuel o0 input out0 rs o rest out xs text skipped) {line r}
    (ht : Told rs line ∨ ∃ e, rs = [.error e] ∧ line = none) (hr : rest = lineText line ++ r) :
    ∃ xs, Talk fuel o0 xs o ∧ input = xs.flatMap Exchange.typed ++ r ∧ out = out0 ++ xs.flatMap Exchange.shown := by
  obtain ⟨o1, ord, o2, l, clocks, h1, ho1, h2, h3, h4⟩ := m.talk
  have hx : Exchange.Proper ⟨text, skipped, rs, line⟩ := ⟨m.noDot, m.notQ, m.skips, ht⟩
  have tx : Talk fuel o0 (xs ++ [⟨text, skipped, rs, line⟩]) o := Talk.snoc h1 hx ho1 h2 h3 h4
  refine ⟨_, tx, ?_, ?_⟩
  · refine m.read.trans ?_
    rw [hr, List.flatMap_append, List.flatMap_singleton, Exchange.typed_eq]
    simp only [List.append_assoc, List.cons_append]
  · refine m.written.trans ?_
    rw [List.flatMap_append, List.flatMap_singleton, Exchange.shown]

/-- One more result. -/
theorem Midway.next {fuel : Nat} {o0 : Org} {input out0 rs o rest out xs text skipped} (m : Midway fuel o0 input out0 rs o rest out xs text skipped) (hne : rs ≠ []) {clock o' r rest' out'}
    (hc : o.getAnswer fuel clock = .ok (o', r)) (hr : rest = n!";\n" ++ rest') (ho : out' = out ++ said r) :
    Midway fuel o0 input out0 (rs ++ [r]) o' rest' out' xs text skipped := by
  obtain ⟨o1, ord, o2, l, clocks, h1, ho1, h2, h3, h4⟩ := m.talk
  refine ⟨⟨o1, ord, o2, l, clocks ++ [clock], h1, ho1, h2, h3, session_snoc h4 hc⟩, m.noDot, m.notQ, m.skips, ?_, ?_⟩
  · rw [m.read, hr]
    obtain ⟨n, hn⟩ : ∃ n, rs.length = n + 1 := by
      cases rs with
      | nil => exact absurd rfl hne
      | cons => exact ⟨_, rfl⟩
    have hrep : ∀ n, List.replicate (n + 1) n!";\n" = List.replicate n n!";\n" ++ [n!";\n"] := fun n => List.replicate_succ'
    simp [hn, hrep]
  · rw [ho, m.written]
    simp

theorem Con.ask_held {fuel : Nat} {o0 : Org} {input out0 : List Char} {c c' : Con} {ord clock} (hp : c.phase = .prompt) (h : Held fuel o0 input out0 c)
    (hord : ord.OK) (hs : c.ask fuel ord clock = .ok c') (hg : c'.cin.good = true) : c.cin.good = true ∧ Held fuel o0 input out0 c' := by
  obtain ⟨o, cin, cur, out, ph⟩ := c
  cases hp
  obtain ⟨xs, h1, h2, h3⟩ := h
  simp only at h1 h2 h3
  obtain ⟨t, cin1, hgl⟩ : ∃ t cin1, cin.getline '.' cur = (t, cin1) := ⟨_, _, rfl⟩
  obtain ⟨o2, l, hlq⟩ : ∃ o2 l, o.loadQueryText ord t = (o2, l) := ⟨_, _, rfl⟩
  simp only [Con.ask, Con.write, hgl] at hs
  split at hs
  · rename_i hq
    simp only [pure, Except.pure, Except.ok.injEq] at hs
    subst hs
    obtain ⟨g1, g2, g3⟩ := getline_good hgl hg
    refine ⟨g1, xs, h1, ?_, ?_⟩
    · simp only at g2 ⊢
      rw [h2, g2, hq]
      simp
    · simp only [h3]
  · rename_i hq
    simp only [hlq] at hs
    -- what has been read
    have key : (cin1.ignore 1024 '\n').good = true → cin.good = true ∧ ∃ j, Skipped j ∧ cin.rest = t ++ '.' :: (j ++ (cin1.ignore 1024 '\n').rest) ∧ '.' ∉ t := by
      intro hg
      obtain ⟨k1, j, k2, k3⟩ := ignore_good hg
      obtain ⟨g1, g2, g3⟩ := getline_good hgl k1
      exact ⟨g1, j, k2, by rw [g2, k3], g3⟩
    by_cases hex : l = .exception
    · subst hex
      simp only [pure, Except.pure, Except.ok.injEq] at hs
      subst hs
      obtain ⟨g1, j, _, _, g3⟩ := key hg
      exact ⟨g1, .inl ⟨xs, o, ord, t, h1, g3, by rw [hlq]⟩⟩
    · have hs' : (do
          let x ← o2.getAnswer fuel clock
          match x.2 with
          | .error e => pure ⟨x.1, cin1.ignore 1024 '\n', t, out ++ n!"?- " ++ (n!"error: " ++ e.explanation ++ n!"\n"), .prompt⟩
          | .noAnswer => pure ⟨x.1, cin1.ignore 1024 '\n', t, out ++ n!"?- " ++ n!"false\n", .prompt⟩
          | .answer bs => pure ((⟨x.1, cin1.ignore 1024 '\n', t, out ++ n!"?- ", .prompt⟩ : Con).showAnswer bs)
          | .running => pure ⟨x.1, cin1.ignore 1024 '\n', t, out ++ n!"?- ", .busy⟩ : R Con) = .ok c' := by
        cases l with
        | exception => exact absurd rfl hex
        | ok => exact hs
        | rejected => exact hs
      clear hs
      rw [bind_ok] at hs'
      obtain ⟨⟨o3, r⟩, ha, hs⟩ := hs'
      have mid : (cin1.ignore 1024 '\n').good = true → cin.good = true ∧ ∃ j, ∀ out', out' = out ++ n!"?- " ++ said r →
          Midway fuel o0 input out0 [r] o3 (cin1.ignore 1024 '\n').rest out' xs t j := by
        intro hg
        obtain ⟨g1, j, k1, k2, g3⟩ := key hg
        refine ⟨g1, j, fun out' ho => ⟨⟨o, ord, o2, l, [clock], h1, hord, hlq, hex, ?_⟩, g3, hq, k1, ?_, ?_⟩⟩
        · simp only [session, ha, ok_bind, pure, Except.pure]
        · rw [h2, k2]; simp
        · rw [ho, h3]; simp
      cases r with
      | error e =>
        simp only [pure, Except.pure, Except.ok.injEq] at hs
        subst hs
        obtain ⟨g1, j, m⟩ := mid hg
        exact ⟨g1, (m _ rfl).finish (line := none) (.inr ⟨e, rfl, rfl⟩) rfl⟩
      | noAnswer =>
        simp only [pure, Except.pure, Except.ok.injEq] at hs
        subst hs
        obtain ⟨g1, j, m⟩ := mid hg
        exact ⟨g1, (m _ rfl).finish (line := none) (.inl .no) rfl⟩
      | answer bs =>
        simp only [pure, Except.pure, Except.ok.injEq] at hs
        subst hs
        by_cases hb : bs = []
        · subst hb
          obtain ⟨g1, j, m⟩ := mid hg
          exact ⟨g1, (m _ rfl).finish (line := none) (.inl .yes) rfl⟩
        · rw [Con.showAnswer_ne hb] at hg ⊢
          obtain ⟨g1, j, m⟩ := mid hg
          refine ⟨g1, [.answer bs], xs, t, j, by simp, ?_, m _ rfl⟩
          intro r hr
          simp only [List.mem_singleton] at hr
          exact ⟨bs, hr, hb⟩
      | running =>
        simp only [pure, Except.pure, Except.ok.injEq] at hs
        subst hs
        exact ⟨(mid hg).1, trivial⟩

theorem Con.next_held {fuel : Nat} {o0 : Org} {input out0 : List Char} {c c' : Con} {clock} (hp : c.phase = .more) (h : Held fuel o0 input out0 c)
    (hs : c.next fuel clock = .ok c') (hg : c'.cin.good = true) : c.cin.good = true ∧ Held fuel o0 input out0 c' := by
  obtain ⟨o, cin, cur, out, ph⟩ := c
  cases hp
  obtain ⟨rs, xs, text, skipped, hne, hop, m⟩ := h
  simp only at m
  obtain ⟨t, cin1, hgl⟩ : ∃ t cin1, cin.getline '\n' [] = (t, cin1) := ⟨_, _, rfl⟩
  simp only [Con.next, Con.write, hgl] at hs
  split at hs
  · rename_i hq
    subst hq
    rw [bind_ok] at hs
    obtain ⟨⟨o3, r⟩, ha, hs⟩ := hs
    have rd : cin1.good = true → cin.good = true ∧ cin.rest = n!";\n" ++ cin1.rest := by
      intro hg
      obtain ⟨g1, g2, g3⟩ := getline_good hgl hg
      exact ⟨g1, by rw [g2]; rfl⟩
    cases r with
    | error e =>
      simp only [pure, Except.pure, Except.ok.injEq] at hs
      subst hs
      obtain ⟨g1, g2⟩ := rd hg
      exact ⟨g1, .inr ⟨rs, xs, text, skipped, o, e, cin.rest, out, clock, hne, hop, m, g2, ha, by simp⟩⟩
    | noAnswer =>
      simp only [pure, Except.pure, Except.ok.injEq] at hs
      subst hs
      obtain ⟨g1, g2⟩ := rd hg
      exact ⟨g1, (m.next hne ha g2 rfl).finish (line := none) (.inl (hop.told .no)) rfl⟩
    | answer bs =>
      simp only [pure, Except.pure, Except.ok.injEq] at hs
      subst hs
      by_cases hb : bs = []
      · subst hb
        obtain ⟨g1, g2⟩ := rd hg
        exact ⟨g1, (m.next hne ha g2 rfl).finish (line := none) (.inl (hop.told .yes)) rfl⟩
      · rw [Con.showAnswer_ne hb] at hg ⊢
        obtain ⟨g1, g2⟩ := rd hg
        refine ⟨g1, rs ++ [.answer bs], xs, text, skipped, by simp, ?_, m.next hne ha g2 rfl⟩
        intro r hr
        simp only [List.mem_append, List.mem_singleton] at hr
        rcases hr with hr | hr
        · exact hop r hr
        · exact ⟨bs, hr, hb⟩
    | running =>
      simp only [pure, Except.pure, Except.ok.injEq] at hs
      subst hs
      exact ⟨(rd hg).1, trivial⟩
  · rename_i hq
    simp only [pure, Except.pure, Except.ok.injEq] at hs
    subst hs
    obtain ⟨g1, g2, g3⟩ := getline_good hgl hg
    refine ⟨g1, m.finish (line := some t) (.inl ?_) (by simp only at g2 ⊢; rw [g2]; simp [lineText])⟩
    clear m
    -- the last of the results is followed by the line
    rcases List.eq_nil_or_concat rs with rfl | ⟨rs', r, rfl⟩
    · exact absurd rfl hne
    · obtain ⟨bs, rfl, hb⟩ := hop r (by simp)
      have : Open rs' := fun r hr => hop r (by simp [hr])
      rw [List.concat_eq_append]
      exact this.told (.enough hb hq g3)

theorem Con.step_held {fuel : Nat} {o0 : Org} {input out0 : List Char} {c c' : Con} {ord clock} (h : Held fuel o0 input out0 c)
    (hord : ord.OK) (hs : c.step fuel ord clock = .ok c') (hg : c'.cin.good = true) : c.cin.good = true ∧ Held fuel o0 input out0 c' := by
  unfold Con.step at hs
  split at hs
  · rename_i hp; exact Con.ask_held hp h hord hs hg
  · rename_i hp; exact Con.next_held hp h hs hg
  · simp only [pure, Except.pure, Except.ok.injEq] at hs
    subst hs
    exact ⟨hg, h⟩

theorem Con.steps_held {fuel : Nat} {o0 : Org} {input out0 : List Char} : ∀ {es : List (HashOrder × List Bool)} {c c' : Con}, Envs es → Held fuel o0 input out0 c →
    c.steps fuel es = .ok c' → c'.cin.good = true → c.cin.good = true ∧ Held fuel o0 input out0 c'
  | [], c, c', _, h, hs, hg => by
    simp only [Con.steps, pure_ok] at hs
    subst hs
    exact ⟨hg, h⟩
  | e :: es, c, c', he, h, hs, hg => by
    simp only [Con.steps, bind_ok] at hs
    obtain ⟨c1, h1, h2⟩ := hs
    have hi : Held fuel o0 input out0 c → c1.cin.good = true → c.cin.good = true ∧ Held fuel o0 input out0 c1 :=
      fun h hg => Con.step_held h (he e (by simp)) h1 hg
    -- the stream was good before every step
    have hg1 : c1.cin.good = true := Con.steps_good h2 hg
    obtain ⟨g, h3⟩ := hi h hg1
    exact ⟨g, (Con.steps_held (fun x hx => he x (by simp [hx])) h3 h2 hg).2⟩

end PBfs
