import Verif.Props.Total
import Verif.Props.Spoken
/-! # C85 at the console: the exchange about a query comes to its end -/
namespace PBfs
open Org

/-- If the search for the answers ends and there are only answers, then so does the exchange at the console, with as many `;` as there are answers: after "false", or after "true" if the query
has no variables. -/
theorem exchange_ends {fuel k : Nat} {ord : HashOrder} {o o1 oE : Org} {text q ts} (hd : '.' ∉ text) (hn : text ≠ n!"q") (hl : o.loadQueryText ord text = (o1, .ok))
    (e1 : o1.iterate fuel k = .ok (oE, ts)) (hqE : oE.queue = []) (hbind : ∀ r ∈ reports ts, ∃ bs, r = .answer bs ∧ (bs = [] ↔ ∀ x, ¬ InQuery q x)) {i : Nat}
    (hi0 : (∀ x, ¬ InQuery q x) → i = 0) (hi1 : ¬ (∀ x, ¬ InQuery q x) → i = (reports ts).length) {clocks : List (List Bool)} (hcl : clocks.length = i + 1)
    (hc : ∀ c ∈ clocks, List.replicate k false <+: c) (rest cur out) :
    ∃ c, (⟨o, ⟨text ++ n!".\n" ++ ((List.replicate i n!";\n").flatten ++ rest), true⟩, cur, out, .prompt⟩ : Con).steps fuel (clocks.map (ord, ·)) = .ok c ∧
      c.cin = ⟨rest, true⟩ ∧ c.phase = .prompt ∧
      (c.out = out ++ n!"?- " ++ ((reports ts).map said).flatten ++ n!"false\n" ∧ ((∀ x, ¬ InQuery q x) → reports ts = []) ∨
        (∀ x, ¬ InQuery q x) ∧ reports ts ≠ [] ∧ c.out = out ++ n!"?- " ++ n!"true\n") := by
  cases hts : reports ts with
  | nil =>
    have : i = 0 := by
      by_cases hv : ∀ x, ¬ InQuery q x
      · exact hi0 hv
      · rw [hi1 hv, hts]; rfl
    subst this
    obtain ⟨c0, rfl⟩ := List.length_eq_one_iff.1 hcl
    have hask := ask_run hd hn hl (getAnswer_none e1 hts hqE (Nat.le_refl _) (hc c0 (.head _))) rest cur out
    refine ⟨⟨oE, ⟨rest, true⟩, text, out ++ n!"?- " ++ n!"false\n", .prompt⟩, ?_, rfl, rfl, .inl ⟨by simp, fun _ => rfl⟩⟩
    simp only [List.replicate_zero, List.flatten_nil, List.nil_append, List.map_cons, List.map_nil, Con.steps]
    rw [hask]; rfl
  | cons r0 pre =>
    obtain ⟨bs0, rfl, hb0⟩ := hbind r0 (by rw [hts]; exact .head _)
    by_cases hv : ∀ x, ¬ InQuery q x
    · obtain rfl := hb0.2 hv
      obtain rfl := hi0 hv
      obtain ⟨c0, rfl⟩ := List.length_eq_one_iff.1 hcl
      obtain ⟨o2, k1, ts1, x1, _⟩ := getAnswer_report e1 hts (Nat.le_refl _) (hc c0 (.head _))
      have hask := ask_run hd hn hl x1 rest cur out
      refine ⟨⟨o2, ⟨rest, true⟩, text, out ++ n!"?- " ++ n!"true\n", .prompt⟩, ?_, rfl, rfl, .inr ⟨hv, by simp, rfl⟩⟩
      simp only [List.replicate_zero, List.flatten_nil, List.nil_append, List.map_cons, List.map_nil, Con.steps]
      rw [hask]; rfl
    · have hne : ∀ x ∈ reports ts, ∃ bs, bs ≠ [] ∧ x = .answer bs := by
        intro x hx
        obtain ⟨bs, rfl, hb⟩ := hbind x hx
        exact ⟨bs, fun h0 => hv (hb.1 h0), rfl⟩
      have hi := hi1 hv
      rw [hts] at hne hi
      simp only [List.length_cons] at hi
      subst hi
      match clocks, hcl, hc with
      | c0 :: clocks, hcl, hc =>
        have hb0 : bs0 ≠ [] := fun h0 => hv (hb0.1 h0)
        obtain ⟨o2, k1, ts1, x1, x2, x3, x4⟩ := getAnswer_report e1 hts (Nat.le_refl _) (hc c0 (.head _))
        have hask := ask_run hd hn hl x1 ((List.replicate (pre.length + 1) n!";\n").flatten ++ rest) cur out
        simp only [Con.showAnswer_ne hb0] at hask
        simp only [List.length_cons, Nat.add_right_cancel_iff] at hcl
        obtain ⟨ys, c1, rfl⟩ : ∃ ys c1, clocks = ys ++ [c1] := by
          rcases List.eq_nil_or_concat clocks with rfl | ⟨ys, c1, hy⟩
          · cases hcl
          · exact ⟨ys, c1, by simpa using hy⟩
        obtain ⟨o3, k2, ts2, y1, y2, y3, y4⟩ := more_run (ord := ord) (rest := n!";\n" ++ rest) (cur := text) (out := out ++ n!"?- " ++ said (.answer bs0)) (clocks := ys) (post := [])
          (k := k) (fun c h => hc c (.tail _ (List.mem_append_left _ h))) x4 x2 (by rw [x3, List.append_nil]) (fun x hx => hne x (.tail _ hx)) (by simpa using hcl)
        have hnext := next_run (ord := ord) (getAnswer_none y2 y3 hqE (Nat.le_trans y4 x4) (hc c1 (.tail _ (List.mem_append_right _ (.head _))))) rest text (out ++ n!"?- " ++ said (.answer bs0) ++ pre.flatMap said)
        refine ⟨⟨oE, ⟨rest, true⟩, text, out ++ n!"?- " ++ said (.answer bs0) ++ pre.flatMap said ++ n!"false\n", .prompt⟩, ?_, rfl, rfl, .inl ⟨by simp [List.flatMap_def], fun h => absurd h hv⟩⟩
        simp only [List.map_cons, Con.steps]
        rw [hask]
        simp only [ok_bind, List.map_append, List.map_cons, List.map_nil, Con.steps_append]
        rw [show (List.replicate (pre.length + 1) n!";\n").flatten ++ rest = (List.replicate pre.length n!";\n").flatten ++ (n!";\n" ++ rest) by
          rw [List.replicate_succ']; simp, y1]
        simp only [ok_bind, Con.steps, hnext]
        rfl

/-- A console at its prompt, with a program without register clashes, at which a text that is a query can be typed. -/
structure AtPrompt (o : Org) (cs : List Clause) (text : List Char) (q : List Node) : Prop where
  program : ∃ ord n, ord.OK ∧ Serves o ord cs ∧ FedBy o n ∧ n + text.length ≤ 32765
  untangled : Untangled cs
  dot : '.' ∉ text
  notQ : text ≠ n!"q"
  query : QueryText q (text ++ n!".")
  numbers : ∀ a ∈ q, Node.readable a = true
  defined : Node.defined [] q = true

theorem AtPrompt.asked {o cs text q} (h : AtPrompt o cs text q) {ord' : HashOrder} (ho' : ord'.OK) :
    ∃ o1, o.loadQueryText ord' text = (o1, .ok) ∧ Asked o1 cs q ∧ Printable o1.st := by
  obtain ⟨ord, n, h1, h2, h3, h4⟩ := h.program
  have hpq := parseQuery_complete ((queryText_appendDot h.dot).2 h.query)
  have e : o.loadQueryText ord' text = o.loadQuery ord' (some q) := by
    unfold Org.loadQueryText
    rw [hpq]
  have hok : (o.loadQueryText ord' text).2 = .ok := by rw [e, C61_query ho' h.numbers, if_pos h.defined]
  have hl : o.loadQueryText ord' text = ((o.loadQueryText ord' text).1, .ok) := by rw [← hok]
  obtain ⟨a1, a2, _⟩ := asked_of_text h2 h3 h1 h.untangled ho' h.dot hl (by simp) h4 h.query h.defined
  exact ⟨_, hl, a1, a2⟩

theorem ShowsInsts.novars {st : Storage} {q fuel bs S} (h : ShowsInsts st q fuel bs S) : bs = [] ↔ ∀ x, ¬ InQuery q x := by
  obtain ⟨pre, hp, L, g, P, hv, _⟩ := h
  constructor
  · rintro rfl x hx
    obtain ⟨y, hy, _⟩ := List.mem_map.1 ((hv x).2 hx)
    exact absurd (P.all y hy) (by simp)
  · intro hn
    cases bs with
    | nil => rfl
    | cons b bs =>
      obtain ⟨a, ha, _⟩ := P.value b (.head _)
      exact absurd ((hv _).1 (List.mem_map.2 ⟨_, ha, rfl⟩)) (hn _)

/-- **C85 at the console**: if the program computes and keeps to a contract, the exchange about the query ends after no more than `enough` times `;`, with the prompt, and without an error.  Between, exactly
the solutions are told, and then "false"; if the query has no variables, only "true" or only "false". -/
theorem C85_console {o cs text q M lev I} {n : Nat} (h : AtPrompt o cs text q) (hM : WellModed M cs q) (ht : M.Tests) (hC : Contract (inForce cs) lev I) (hv : HasResults lev)
    (hq : ∀ ρ, Callable lev I n (q.map (Node.inst itreeAlg ρ))) {b m} (hb : AtMost b (inForce cs)) (hm : ∀ c ∈ inForce cs, c.body.length ≤ m) {ord : HashOrder} (ho : ord.OK) :
    ∃ fuel0 i told last, i ≤ enough b m n q.length ∧ (last = n!"false\n" ∨ last = [] ∧ told = [n!"true\n"]) ∧ ((∀ x, ¬ InQuery q x) → told = [] ∨ last = []) ∧
      (HasValues (inForce cs) q → (∀ s ∈ told, ∃ ρ, Fulfils (inForce cs) q ρ ∧ Spoken q ρ s) ∧ ∀ ρ, Fulfils (inForce cs) q ρ → ∃ s ∈ told, Spoken q ρ s) ∧
      ∀ fuel, fuel0 ≤ fuel → ∀ clocks : List (List Bool), clocks.length = i + 1 → (∀ c ∈ clocks, List.replicate (enough b m n q.length + 1) false <+: c) → ∀ rest cur out,
        ∃ c, (⟨o, ⟨text ++ n!".\n" ++ ((List.replicate i n!";\n").flatten ++ rest), true⟩, cur, out, .prompt⟩ : Con).steps fuel (clocks.map (ord, ·)) = .ok c ∧
          c.cin = ⟨rest, true⟩ ∧ c.phase = .prompt ∧ c.out = out ++ n!"?- " ++ told.flatten ++ last := by
  obtain ⟨o1, hl, a1, a2⟩ := h.asked ho
  obtain ⟨f0, oE, ts, e1⟩ := C85_iterates a1 a2 hM ht hC hq (enough b m n q.length + 1)
  have e0 := e1 f0 (Nat.le_refl _)
  obtain ⟨items, rs, b1, b2, b3⟩ := C42_breadth_first_resolution_partial a1 e0
  have hbound : ts.length ≤ enough b m n q.length := by
    rw [b2.length_eq]; exact C85_resolution (hM.directed ht) hC hb hm hq b1
  have hqE : oE.queue = [] := (iterate_length e0).2 (by omega)
  obtain rfl : items = [] := by rw [hqE] at b3; exact List.length_eq_zero_iff.1 b3
  have hrep := reports_length ts
  have hbind : ∀ r ∈ reports ts, ∃ bs, r = .answer bs ∧ (bs = [] ↔ ∀ x, ¬ InQuery q x) := by
    intro r hr
    obtain ⟨rep, _, g5⟩ := forall₂_of_mem (Says.meets b2) hr
    cases g5 with
    | answer g5 => exact ⟨_, rfl, g5.novars⟩
    | error => exact absurd hv (C85_errors a1 hM ht hC hq e0 (error_of_reports hr)).2
  have sound : HasValues (inForce cs) q → ∀ s ∈ (reports ts).map said, ∃ ρ, Fulfils (inForce cs) q ρ ∧ Spoken q ρ s := by
    intro hw s hs
    obtain ⟨r, hr, rfl⟩ := List.mem_map.1 hs
    obtain ⟨rep, c1, g5⟩ := forall₂_of_mem (Says.meets b2) hr
    cases g5 with
    | @answer bs S g5 =>
      have hS : some (.answer S) ∈ rs := by simpa using c1
      obtain ⟨ρ, gs, hg⟩ := g5.some
      exact ⟨ρ, b1.fulfils (hM.directed ht) hS hg, g5.spoken a2 a1.stOK (fun ρ gs hg => hw ρ (b1.fulfils (hM.directed ht) hS hg)) hg⟩
    | error => exact absurd hv (C85_errors a1 hM ht hC hq e0 (error_of_reports hr)).2
  have complete : HasValues (inForce cs) q → ∀ ρ, Fulfils (inForce cs) q ρ → ∃ s ∈ (reports ts).map said, Spoken q ρ s := by
    intro hw ρ hs
    obtain ⟨N, hN⟩ := SRun.computes (hM.directed ht) hs
    obtain ⟨S, gs, hS, hg⟩ := hN _ _ b1 (.inr rfl)
    obtain ⟨r, hr, g5⟩ := forall₂_of_mem' (Says.meets b2) (y := .answer S) (by simpa using hS)
    cases g5 with
    | @answer bs S g5 => exact ⟨_, List.mem_map.2 ⟨_, hr, rfl⟩, g5.spoken a2 a1.stOK (fun ρ gs hg => hw ρ (b1.fulfils (hM.directed ht) hS hg)) hg⟩
  by_cases hx : (∀ x, ¬ InQuery q x) ∧ reports ts ≠ []
  · have hall : ∀ s, s ∈ (reports ts).map said ↔ s ∈ [n!"true\n"] := by
      have h1 : ∀ r ∈ reports ts, said r = n!"true\n" := by
        intro r hr
        obtain ⟨bs, rfl, hb⟩ := hbind r hr
        rw [hb.2 hx.1]; rfl
      intro s
      simp only [List.mem_map, List.mem_singleton]
      constructor
      · rintro ⟨r, hr, rfl⟩; exact h1 r hr
      · rintro rfl
        obtain ⟨r, hr⟩ := List.exists_mem_of_ne_nil _ hx.2
        exact ⟨r, hr, h1 r hr⟩
    refine ⟨f0, 0, [n!"true\n"], [], Nat.zero_le _, .inr ⟨rfl, rfl⟩, fun _ => .inr rfl, fun hw => ⟨fun s hs => sound hw s ((hall s).2 hs), fun ρ hs => ?_⟩, fun fuel hf clocks hcl hc rest cur out => ?_⟩
    · obtain ⟨s, c1, c2⟩ := complete hw ρ hs
      exact ⟨s, (hall s).1 c1, c2⟩
    · obtain ⟨c, c1, c2, c3, c4⟩ := exchange_ends h.dot h.notQ hl (e1 fuel hf) hqE hbind (i := 0) (fun _ => rfl) (fun h => absurd hx.1 h) hcl hc rest cur out
      refine ⟨c, c1, c2, c3, ?_⟩
      rcases c4 with ⟨_, c4⟩ | c4
      · exact absurd (c4 hx.1) hx.2
      · rw [c4.2.2]; simp
  · refine ⟨f0, (reports ts).length, (reports ts).map said, n!"false\n", by omega, .inl rfl, fun h0 => .inl (by
        rw [List.map_eq_nil_iff]; exact Classical.byContradiction fun h => hx ⟨h0, h⟩), fun hw => ⟨sound hw, complete hw⟩, fun fuel hf clocks hcl hc rest cur out => ?_⟩
    obtain ⟨c, c1, c2, c3, c4⟩ := exchange_ends h.dot h.notQ hl (e1 fuel hf) hqE hbind (i := (reports ts).length)
      (fun h0 => by rw [Classical.byContradiction fun h => hx ⟨h0, h⟩]; rfl) (fun _ => rfl) hcl hc rest cur out
    refine ⟨c, c1, c2, c3, ?_⟩
    rcases c4 with ⟨c4, _⟩ | c4
    · exact c4
    · exact absurd ⟨c4.1, c4.2.1⟩ hx

/-! ## A concrete case -/

namespace DialogExample
open ComputesExample TotalExample SoundExamples EffortExamples

theorem works : WorksWith [text] fac :=
  .last (pre := []) (post := []) (C41_program_text.1 (by decide +kernel)) (by decide +kernel) (by decide +kernel) (by simp)

theorem atPrompt : ∃ o, Con.loadAll id [text] Org.init0 = some o ∧ AtPrompt o fac n!"fac(5,F)" (askFac 5) := by
  have h : (Con.loadAll id [text] Org.init0).isSome = true := by decide +kernel
  obtain ⟨o, ho⟩ := Option.isSome_iff_exists.1 h
  exact ⟨o, ho, ⟨_, _, HashOrder.id_ok, works.serves HashOrder.id_ok Org.init_eq ho, .loadAll (.init Org.init_eq) ho, by decide⟩, safe_of_b (by decide +kernel), by decide, by decide,
    C41_query_text.1 (by decide +kernel), by decide +kernel, by decide +kernel⟩

end DialogExample

open ComputesExample TotalExample DialogExample EffortExamples in
/-- **C85 at the console**, an example: the exchange about `fac(5,F)` ends with "false", something has been told before, and everything told is the factorial. -/
theorem C85_spoken : ∃ o, Con.loadAll id [text] Org.init0 = some o ∧ ∃ fuel0 i told, told ≠ [] ∧ (∀ s ∈ told, ∃ ρ, ρ n!"F" = itreeAlg.int 120 ∧ Spoken (askFac 5) ρ s) ∧
    ∀ fuel, fuel0 ≤ fuel → ∀ clocks : List (List Bool), clocks.length = i + 1 → (∀ c ∈ clocks, List.replicate (enough 2 4 7 1 + 1) false <+: c) → ∀ rest cur out,
      ∃ c, (⟨o, ⟨n!"fac(5,F).\n" ++ ((List.replicate i n!";\n").flatten ++ rest), true⟩, cur, out, .prompt⟩ : Con).steps fuel (clocks.map (id, ·)) = .ok c ∧
        c.cin = ⟨rest, true⟩ ∧ c.phase = .prompt ∧ c.out = out ++ n!"?- " ++ told.flatten ++ n!"false\n" := by
  obtain ⟨o, ho, hp⟩ := atPrompt
  obtain ⟨fuel0, i, told, last, -, h2, -, h4, h5⟩ := C85_console hp (wellModed 5) tests contract hasResults (callable (by decide)) (b := 2) (m := 4) (atMost_of (by decide +kernel)) (by decide) HashOrder.id_ok
  obtain ⟨h6, h7⟩ := h4 (hasValues 5)
  obtain ⟨s0, hs0, _⟩ := h7 (fun _ => itreeAlg.int (fact 5)) ((solutions 5 _).2 rfl)
  have hF : InQuery (askFac 5) n!"F" := ⟨_, .head _, by decide⟩
  obtain rfl : last = n!"false\n" := by
    rcases h2 with h2 | ⟨_, h2⟩
    · exact h2
    · obtain ⟨ρ, _, bs, _, g2, _, _, g4⟩ := h6 n!"true\n" (by rw [h2]; exact .head _)
      have hb : bs ≠ [] := by rintro rfl; cases (g2 n!"F").2 hF
      have := g4 hb
      cases bs with
      | nil => exact absurd rfl hb
      | cons b bs => cases bs <;> simp at this
  refine ⟨o, ho, fuel0, i, told, fun h => (by rw [h] at hs0; cases hs0), fun s hs => ?_, h5⟩
  obtain ⟨ρ, c1, c2⟩ := h6 s hs
  exact ⟨ρ, (solutions 5 ρ).1 c1, c2⟩

end PBfs
