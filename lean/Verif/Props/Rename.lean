import Verif.Proof.Rename5
/-! # C75: names do not matter -/
namespace PBfs

theorem HashOrder.OK.plain : HashOrder.OK id := fun l => List.Perm.refl l

theorem Say.Renamed.same {ρ} : ∀ {ws ws'}, List.Forall₂ (Say.Renamed ρ) ws ws' → List.Forall₂ Say.Same ws' (ws.map (Say.plain ρ))
  | _, _, .nil => .nil
  | _, _, .cons h t => by
    refine .cons ?_ (same t)
    cases h with
    | program h => exact .program h .plain
    | query h => exact .query h .plain
    | blank h => exact .blank h .plain
    | more => exact .more
    | forget => exact .forget

/-- **C75**: whatever is said to a new interpreter - any programs and queries, accepted or not, any calls of `get_answer`, memory running out - there is
one account of what is heard, with marked places for names, such that for every replacement of names everything that is heard when the
same is said with names replaced is that account with names replaced: the same outcomes of loading, the same number of answers in the same order,
with the same bindings, the same errors; or the same undefined behaviour. -/
theorem C75_names (fuel : Nat) (ws : List Say) : ∃ out : R (List HeardDoc), ∀ ρ, Renaming ρ → ∀ ws', List.Forall₂ (Say.Renamed ρ) ws ws' →
    ∀ o, Org.init = .ok o → o.converse fuel ws' = out.map (·.map (HeardDoc.text ρ)) := by
  obtain ⟨x, hx⟩ := Org.converse_rename fuel ws Org.init0
  refine ⟨x, fun ρ h ws' hw o ho => ?_⟩
  rw [← hx ρ h, Org.init0_rename h]
  refine Org.converse_same fuel _ _ (Say.Renamed.same hw) _ _ (.start ⟨ho, Org.init_eq⟩)

theorem HeardDoc.kind (ρ ρ' : Name → Name) (d : HeardDoc) : (d.text ρ).kind = (d.text ρ').kind := by
  cases d <;> simp [HeardDoc.text, Heard.kind]

theorem Renaming.id : Renaming id := ⟨fun _ _ h => h, fun _ _ => rfl⟩

theorem Node.rename_id : (∀ n : Node, n.rename id = n) := by
  have key : (∀ n : Node, n.rename id = n) ∧ ∀ l : List Node, Node.renames id l = l := by
    constructor
    · intro n
      induction n using Node.rec (motive_2 := fun l => Node.renames id l = l) <;> simp_all [Node.rename, Node.renames]
    · intro n
      induction n using Node.rec_1 (motive_1 := fun l => Node.rename id l = l) <;> simp_all [Node.rename, Node.renames]
  exact key.1

theorem Node.renames_id (l : List Node) : Node.renames id l = l := by
  rw [Node.renames_eq]
  exact (List.map_congr_left fun n _ => Node.rename_id n).trans (List.map_id _)

theorem Clause.rename_id (c : Clause) : c.rename id = c := by
  cases c; simp only [Clause.rename, Node.rename_id, Node.renames_id]

theorem Say.Renamed.refl : ∀ {ws : List Say}, (∀ s ∈ ws, s.OK) → List.Forall₂ (Say.Renamed id) ws ws
  | [], _ => .nil
  | s :: ws, h => by
    refine .cons ?_ (refl fun s hs => h s (List.mem_cons_of_mem _ hs))
    have hs := h s List.mem_cons_self
    cases s with
    | program ord parsed =>
      have := Say.Renamed.program (ρ := id) (ord := ord) (parsed := parsed) hs
      have e : parsed.map (·.map (Clause.rename id)) = parsed := by
        cases parsed with
        | none => rfl
        | some p => exact congrArg some ((List.map_congr_left fun c _ => Clause.rename_id c).trans (List.map_id _))
      rwa [e] at this
    | query ord parsed =>
      have := Say.Renamed.query (ρ := id) (ord := ord) (parsed := parsed) hs
      have e : parsed.map (Node.renames id) = parsed := by
        cases parsed with
        | none => rfl
        | some p => exact congrArg some (Node.renames_id p)
      rwa [e] at this
    | blank ord => exact .blank hs
    | more => exact .more
    | forget => exact .forget

/-- Without the account: what is heard before and after names are replaced is of the same kinds. -/
theorem C75_kinds {ρ} (h : Renaming ρ) (fuel : Nat) {ws ws' : List Say} (hw : ∀ s ∈ ws, s.OK) (hr : List.Forall₂ (Say.Renamed ρ) ws ws') {o} (ho : Org.init = .ok o) :
    (o.converse fuel ws').map (·.map Heard.kind) = (o.converse fuel ws).map (·.map Heard.kind) := by
  obtain ⟨x, hx⟩ := C75_names fuel ws
  rw [hx ρ h ws' hr o ho, hx id .id ws (Say.Renamed.refl hw) o ho]
  cases x with
  | error f => rfl
  | ok ds =>
    simp only [map_ok', List.map_map, Except.ok.injEq]
    exact List.map_congr_left fun d _ => d.kind ρ id

/-- Saying a text is giving it to `load_program`. -/
theorem C75_programText (fuel ord text ws) (o : Org) : o.converse fuel (.programText ord text :: ws) =
    (do let rest ← (o.loadProgramText ord text).1.converse fuel ws
        pure (.loaded (o.loadProgramText ord text).2 :: rest)) := by
  unfold Say.programText Org.loadProgramText
  cases parseProgram text <;> rfl

/-- Saying a text is giving it to `load_query`. -/
theorem C75_queryText (fuel ord text ws) (o : Org) : o.converse fuel (.queryText ord text :: ws) =
    (do let rest ← (o.loadQueryText ord text).1.converse fuel ws
        pure (.loaded (o.loadQueryText ord text).2 :: rest)) := by
  unfold Say.queryText Org.loadQueryText
  cases parseQuery (appendDot text) <;> rfl

/-! ## The hypotheses can be met, and are needed -/

namespace RenameExamples

/-- exchanging two names -/
def swap (a b n : Name) : Name := if n = a then b else if n = b then a else n

theorem swap_renaming {a b : Name} (ha : a ∉ reservedNames) (hb : b ∉ reservedNames) : Renaming (swap a b) where
  inj := by intro x y h; unfold swap at h; grind
  fixed := by
    intro n hn
    have h1 : n ≠ a := fun e => ha (e ▸ hn)
    have h2 : n ≠ b := fun e => hb (e ▸ hn)
    simp [swap, h1, h2]

theorem comp {f g : Name → Name} (hf : Renaming f) (hg : Renaming g) : Renaming fun n => f (g n) :=
  ⟨fun a b h => hg.inj a b (hf.inj _ _ h), fun n hn => by rw [hg.fixed n hn, hf.fixed n hn]⟩

def ρ (n : Name) : Name := swap n!"p" n!"likes" (swap n!"a" n!"anna" (swap n!"Y" n!"Who" (swap n!"V" n!"Y2" n)))

theorem ρ_ok : Renaming ρ :=
  comp (f := swap n!"p" n!"likes") (swap_renaming (by decide) (by decide)) (comp (f := swap n!"a" n!"anna") (swap_renaming (by decide) (by decide))
    (comp (f := swap n!"Y" n!"Who") (g := swap n!"V" n!"Y2") (swap_renaming (by decide) (by decide)) (swap_renaming (by decide) (by decide))))

def ws (ord : HashOrder) (program query : List Char) : List Say :=
  [.programText ord program, .queryText ord query, .more (List.replicate 100 false), .more (List.replicate 100 false), .more (List.replicate 100 false), .forget]

theorem rev_ok : HashOrder.OK List.reverse := fun l => List.reverse_perm l

/-- A program and a query, and the same with names replaced and hash maps enumerated the other way round. -/
theorem texts : List.Forall₂ (Say.Renamed ρ)
    (ws id n!"p(g(B,L),B) :- append([c],L,B). p(f(a),V)." n!"p(Y,V)")
    (ws List.reverse n!"likes(g(B,L),B) :- append([c],L,B). likes(f(anna),Y2)." n!"likes(Who,Y2)") :=
  .cons (.program (parsed := some [⟨.fn n!"p" [.fn n!"g" [.var n!"B", .var n!"L"], .var n!"B"], [.fn n!"append" [.fn n!"[" [.cons n!"c", .fn n!"[" []], .var n!"L", .var n!"B"]]⟩,
      ⟨.fn n!"p" [.fn n!"f" [.cons n!"a"], .var n!"V"], []⟩]) rev_ok)
    (.cons (.query (parsed := some [.fn n!"p" [.var n!"Y", .var n!"V"]]) rev_ok) (.cons .more (.cons .more (.cons .more (.cons .forget .nil)))))

/-- the replies -/
def replies (program query : List Char) : Option (List Heard) := (Org.init0.converse 30 (ws id program query)).toOption

theorem _root_.PBfs.C75_sample :
    replies n!"p(g(B,L),B) :- append([c],L,B). p(f(a),V)." n!"p(Y,V)" = some [.loaded .ok, .loaded .ok,
      .result (.answer [⟨n!"Y", n!"f(a)"⟩, ⟨n!"V", n!"V"⟩]), .result (.answer [⟨n!"Y", n!"g([c,],L4)"⟩, ⟨n!"V", n!"[c,]"⟩]), .result .noAnswer, .forgot] ∧
    replies n!"likes(g(B,L),B) :- append([c],L,B). likes(f(anna),Y2)." n!"likes(Who,Y2)" = some [.loaded .ok, .loaded .ok,
      .result (.answer [⟨n!"Who", n!"f(anna)"⟩, ⟨n!"Y2", n!"Y2"⟩]), .result (.answer [⟨n!"Who", n!"g([c,],L4)"⟩, ⟨n!"Y2", n!"[c,]"⟩]), .result .noAnswer, .forgot] := by
  decide +kernel

/-- Different names must stay different: with `b` replaced by `a`, `p(b)` has an answer. -/
theorem _root_.PBfs.C75_injective : replies n!"p(a)." n!"p(b)" = some [.loaded .ok, .loaded .ok, .result .noAnswer, .result .noAnswer, .result .noAnswer, .forgot] ∧
    replies n!"p(a)." n!"p(a)" = some [.loaded .ok, .loaded .ok, .result (.answer []), .result .noAnswer, .result .noAnswer, .forgot] := by
  decide +kernel

/-- The names of variables in the built-in predicates must stay: the variable of the query that is called `X` is taken for the one of `append`. -/
theorem _root_.PBfs.C75_reserved : replies n!"p." n!"append(X,[a],R)" = some [.loaded .ok, .loaded .ok,
      .result (.answer [⟨n!"X", n!"[]"⟩, ⟨n!"R", n!"[a]"⟩]), .result (.answer [⟨n!"X", n!"[X]"⟩, ⟨n!"R", n!"[X,a]"⟩]),
      .result (.answer [⟨n!"X", n!"[X,X]"⟩, ⟨n!"R", n!"[X,X,a]"⟩]), .forgot] ∧
    replies n!"p." n!"append(L,[a],R)" = some [.loaded .ok, .loaded .ok,
      .result (.answer [⟨n!"L", n!"[]"⟩, ⟨n!"R", n!"[a]"⟩]), .result (.answer [⟨n!"L", n!"[X7]"⟩, ⟨n!"R", n!"[X,a]"⟩]),
      .result (.answer [⟨n!"L", n!"[X7,X13]"⟩, ⟨n!"R", n!"[X,X,a]"⟩]), .forgot] := by
  decide +kernel

end RenameExamples

end PBfs
