import Verif.Proof.Table4
import Verif.Props.Symbols
/-! # C73: the tables of names -/
namespace PBfs
open Org

/-- **C73**, a new interpreter: the table of functors has the two functors of lists, the table of variables those of `append`. -/
theorem C73_new {o : Org} (h : Org.init = .ok o) : o.st.functors = [⟨n!"[", 0⟩, ⟨n!"[", 2⟩] ∧ o.st.vars = [n!"X", n!"Xs", n!"Rs"] := by
  rw [Org.init_eq] at h; cases h; decide +kernel

/-- **C73**, programs: after an accepted program the table of functors has what was there before and the symbols of the program, nothing else.  After a
rejected one there is nothing else, either.  What was there keeps its place.  A clause takes at most as many places in the table of variables as its head has symbols and its
body occurrences of variables. -/
theorem C73_program {ord : HashOrder} {cs : List Clause} {o o' : Org} {l} (h : o.loadProgram ord (some cs) = (o', l)) :
    (l = .ok → ∀ x, x ∈ o'.st.functors ↔ x ∈ o.st.functors ∨ x ∈ cs.flatMap Clause.syms) ∧ (∀ x ∈ o'.st.functors, x ∈ o.st.functors ∨ x ∈ cs.flatMap Clause.syms) ∧
    o.st.functors <+: o'.st.functors ∧ o.st.vars <+: o'.st.vars ∧
    o'.st.vars.length ≤ o.st.vars.length + (cs.map fun c => c.head.size + (Node.varss c.body).length).sum := by
  have hg := (loadProgram_grow (ord := ord) (o := o) (parsed := some cs)).le
  rw [h] at hg
  have ha := compileProgram_adds ord cs [] o.st
  unfold Org.loadProgram at h
  simp only [] at h
  cases hc : compileProgram ord cs [] o.st with
  | error e =>
    rw [hc] at h ha
    cases h
    exact ⟨fun hl => absurd hl (by cases e.1 <;> simp [Load.ofErr]), ha.1, hg.1, hg.2, ha.2⟩
  | ok r =>
    rw [hc] at h ha
    cases h
    exact ⟨fun _ => ha.1, fun x hx => (ha.1 x).1 hx, hg.1, hg.2, ha.2⟩

/-- **C73**, queries: the same; a query takes at most as many places in the table of variables as it has occurrences of variables. -/
theorem C73_query {ord : HashOrder} {atoms : List Node} {o o' : Org} {l} (h : o.loadQuery ord (some atoms) = (o', l)) :
    (l = .ok → ∀ x, x ∈ o'.st.functors ↔ x ∈ o.st.functors ∨ x ∈ querySyms atoms) ∧ (∀ x ∈ o'.st.functors, x ∈ o.st.functors ∨ x ∈ querySyms atoms) ∧
    o.st.functors <+: o'.st.functors ∧ o.st.vars <+: o'.st.vars ∧
    o'.st.vars.length ≤ o.st.vars.length + (Node.varss atoms).length := by
  have hg := (loadQuery_st (ord := ord) (o := o) (parsed := some atoms)).1.le
  rw [h] at hg
  have ha := compileQuery_adds ord atoms o.st
  unfold Org.loadQuery at h
  simp only [] at h
  cases hc : compileQuery ord atoms o.st with
  | error e =>
    rw [hc] at h ha
    cases h
    exact ⟨fun hl => absurd hl (by cases e.1 <;> simp [Load.ofErr]), ha.1, hg.1, hg.2, ha.2⟩
  | ok r =>
    rw [hc] at h ha
    cases h
    exact ⟨fun _ => ha.1, fun x hx => (ha.1 x).1 hx, hg.1, hg.2, ha.2⟩

/-- **C73**, everything else: answering leaves the tables as they are, so do texts that cannot be parsed; giving the memory back empties them. -/
theorem C73_others {o : Org} (h : Reach o) : (∀ ord, (o.loadProgram ord none).1.st = o.st ∧ (o.loadQuery ord none).1.st = o.st) ∧
    (∀ {o' fuel clock r}, o.getAnswer fuel clock = .ok (o', r) → o'.st = o.st) ∧ o.clearMemory.st = ⟨[], []⟩ :=
  ⟨fun _ => ⟨rfl, rfl⟩, fun ha => (getAnswer_keeps h.rinv ha).2.2.1, rfl⟩

theorem FedBy.fed {o n} (h : FedBy o n) : TextFed o := by
  induction h with
  | init h => exact .init h
  | program ord text _ ih => exact .program ord text ih
  | query ord text _ ih => exact .query ord text ih
  | answer _ ha ih => exact .answer ih ha
  | memory _ ih => exact .memory ih

theorem TextFed.by {o} (h : TextFed o) : ∃ n, FedBy o n := by
  induction h with
  | init h => exact ⟨_, .init h⟩
  | program ord text _ ih => exact ih.imp' _ fun _ => .program ord text
  | query ord text _ ih => exact ih.imp' _ fun _ => .query ord text
  | answer _ ha ih => exact ih.imp' _ fun _ h => .answer h ha
  | memory _ ih => exact ih.imp' _ fun _ => .memory

theorem FedBy.inv {o n} (h : FedBy o n) : (∀ x ∈ o.st.functors, x.Listy) ∧ o.st.functors.length ≤ n + 2 ∧ o.st.vars.length ≤ n + 3 := by
  induction h with
  | init h =>
    obtain ⟨h1, h2⟩ := C73_new h
    rw [h1, h2]
    refine ⟨?_, by simp, by simp⟩
    simp [FV.Listy]
  | @program o n ord text h ih =>
    obtain ⟨i1, i2, i3⟩ := ih
    unfold Org.loadProgramText
    split
    · rename_i p hp
      obtain ⟨p1, p2, p3⟩ := parseProgram_syms hp
      have hr := (Reach.program ord (some p) h.fed.reach).nodup
      obtain ⟨-, a1, -, -, a2⟩ := C73_program (o' := (o.loadProgram ord (some p)).1) (l := (o.loadProgram ord (some p)).2) (ord := ord) (cs := p) rfl
      have := nodup_length hr a1
      refine ⟨fun x hx => (a1 x hx).elim (i1 x) (p1 x), by omega, ?_⟩
      have p3' : (p.map fun c => c.head.size + (Node.varss c.body).length).sum ≤ text.length := p3
      omega
    · exact ⟨i1, by show o.st.functors.length ≤ _; omega, by show o.st.vars.length ≤ _; omega⟩
  | @query o n ord text h ih =>
    obtain ⟨i1, i2, i3⟩ := ih
    unfold Org.loadQueryText
    have hd := appendDot_le text
    split
    · rename_i q hq
      obtain ⟨p1, p2, p3⟩ := parseQuery_syms hq
      have hr := (Reach.query ord (some q) h.fed.reach).nodup
      obtain ⟨-, a1, -, -, a2⟩ := C73_query (o' := (o.loadQuery ord (some q)).1) (l := (o.loadQuery ord (some q)).2) (ord := ord) (atoms := q) rfl
      have := nodup_length hr a1
      exact ⟨fun x hx => (a1 x hx).elim (i1 x) (p1 x), by omega, by omega⟩
    · exact ⟨i1, by show o.st.functors.length ≤ _; omega, by show o.st.vars.length ≤ _; omega⟩
    · exact ⟨i1, by show o.st.functors.length ≤ _; omega, by show o.st.vars.length ≤ _; omega⟩
  | answer h ha ih => rw [(getAnswer_keeps h.fed.reach.rinv ha).2.2.1]; exact ih
  | memory h ih => exact ⟨fun x hx => absurd hx List.not_mem_nil, Nat.zero_le _, Nat.zero_le _⟩

/-- **C73**: however often an interpreter got programs and queries, if these texts have together `n` characters then the tables have at most `n + 2`
functors and `n + 3` variables. -/
theorem C73_characters {o n} (h : FedBy o n) : o.st.functors.length ≤ n + 2 ∧ o.st.vars.length ≤ n + 3 := h.inv.2

/-- **C73**: an interpreter that gets its programs and queries as texts prints its answers properly as long as the tables are not full: `|` never is
a functor, and `[` only one of those of lists. -/
theorem C73_printable {o} (h : TextFed o) : Printable o.st ↔ o.st.functors.length ≤ 32768 ∧ o.st.vars.length ≤ 32768 := by
  obtain ⟨n, h⟩ := h.by
  exact ⟨fun h => ⟨h.functors, h.vars⟩, fun hl => ⟨hl.1, hl.2, fun f hf => (h.inv.1 f hf).1, fun f hf => (h.inv.1 f hf).2⟩⟩

/-- **C73**: with texts of at most 32765 characters, the tables do not get full. -/
theorem C73_small {o n} (h : FedBy o n) (hn : n ≤ 32765) : Printable o.st := by
  have := C73_characters h
  exact (C73_printable h.fed).2 ⟨by omega, by omega⟩

/-- **C73**, what this is good for: an interpreter that works with a program without register clashes and accepts one more text as a query meets all that the
theorems about answers ask for (`Asked` and `Printable`), if all the texts it ever got have together at most 32765 characters. -/
theorem C73_asked {o o0 : Org} {p ord ord' text n} (hs : Serves o0 ord p) (hf : FedBy o0 n) (ho : ord.OK) (hu : Untangled p) (ho' : ord'.OK)
    (hl : o0.loadQueryText ord' text = (o, .ok)) (hb : parseQuery (appendDot text) ≠ .blank) (hn : n + text.length ≤ 32765) :
    ∃ q, QueryText q (appendDot text) ∧ Asked o p q ∧ Printable o.st := by
  have h := FedBy.query ord' text hf
  rw [hl] at h
  have hp := C73_small h hn
  obtain ⟨q, h1, h2⟩ := Asked.of_text hs ho hu ho' hl hb (Nat.le_trans hp.functors (by omega))
  exact ⟨q, h1, h2, hp⟩

namespace TableExamples

/-- A program with lists, an arithmetic term and constants as heads and goals. -/
def text : List Char := n!"len([], 0). len([X|Xs], N) :- len(Xs, M), N is M + 1, done. done. p(f(a, g(X)), X)."

/-- The interpreter after this program and a query. -/
def fed : Org := ((Org.init0.loadProgramText id text).1.loadQueryText id n!"len([b, c|T], N), p(h, N)").1

/-- The tables: `len` and `p` are not there, `done` is; `+` is not, nor are numbers.  The nested structure `g(X)` has a
place in the table of variables: its register is filled by an instruction for variables. -/
theorem C73_sample : fed.st.functors = [⟨n!"[", 0⟩, ⟨n!"[", 2⟩, ⟨n!"done", 0⟩, ⟨n!"f", 2⟩, ⟨n!"a", 0⟩, ⟨n!"g", 1⟩, ⟨n!"c", 0⟩, ⟨n!"b", 0⟩, ⟨n!"h", 0⟩] ∧
    fed.st.vars = [n!"X", n!"Xs", n!"Rs", n!"X", n!"Xs", n!"M", n!"g", n!"T", n!"N"] := by
  decide +kernel

end TableExamples

open TableExamples in
/-- The hypotheses of `C73_asked` are met. -/
theorem C73_sample_asked : ∃ p q, parseProgram text = .ok p ∧ Asked fed p q ∧ Printable fed.st := by
  have hp : (match parseProgram text with | .ok p => SoundExamples.safeB p | _ => false) = true := by decide +kernel
  have hb : (match parseQuery (appendDot n!"len([b, c|T], N), p(h, N)") with | .ok _ => true | _ => false) = true := by decide +kernel
  have h1 : (Org.init0.loadProgramText id text).2 = .ok := by decide +kernel
  have h2 : ((Org.init0.loadProgramText id text).1.loadQueryText id n!"len([b, c|T], N), p(h, N)").2 = .ok := by decide +kernel
  split at hp
  · rename_i p hp'
    have hs : Serves (Org.init0.loadProgramText id text).1 id p := by
      refine .program (o := Org.init0) (ord := id) (.init Org.init_eq) (ord' := id) (p' := p) ?_
      have : Org.init0.loadProgramText id text = Org.init0.loadProgram id (some p) := by
        unfold Org.loadProgramText; rw [hp']
      rw [← this]
      exact Prod.ext rfl h1
    obtain ⟨q, -, hq⟩ := C73_asked hs (.program id text (.init Org.init_eq)) HashOrder.id_ok (SoundExamples.safe_of_b hp) HashOrder.id_ok
      (Prod.ext rfl h2) (by intro e; rw [e] at hb; cases hb) (by decide)
    exact ⟨p, q, hp', hq⟩
  · cases hp

/-- A program that is rejected because of its second clause leaves the symbols of the first one in the table. -/
theorem C73_rejected : (Org.init0.loadProgram id (some [⟨.fn n!"p" [.cons n!"a"], []⟩, ⟨.fn n!"append" [.cons n!"b", .cons n!"b", .cons n!"b"], []⟩])).2 ≠ .ok ∧
    (⟨n!"a", 0⟩ : FV) ∈ (Org.init0.loadProgram id (some [⟨.fn n!"p" [.cons n!"a"], []⟩, ⟨.fn n!"append" [.cons n!"b", .cons n!"b", .cons n!"b"], []⟩])).1.st.functors := by
  decide +kernel

end PBfs
