import Verif.Proof.Plain2
import Verif.Props.Place
import Verif.Props.Page
import Verif.Props.Tree
/-! # C68: what is shown contains no markup -/
namespace PBfs
open Org

/-! ## Answers and errors -/

theorem RtErr.explanation_plain {x : RtErr} (h : Plain x.mention) : Plain x.explanation := by
  unfold RtErr.explanation
  split
  · simp only [plain_append]; exact ⟨⟨by decide, h⟩, by decide⟩
  · simp only [plain_append]; exact ⟨⟨by decide, h⟩, by decide⟩
  · decide
  · decide
  · decide

theorem Org.Res.Plain.text {r : Org.Res} (h : r.Plain) : PBfs.Plain r.text := by
  cases r with
  | answer bs => exact answerStr_plain fun bs' hb => by cases hb; exact h
  | noAnswer => decide
  | error x => exact RtErr.explanation_plain h
  | running => exact Plain.nil

/-- **C68.** Whatever texts an interpreter has been given, the text of every result consists of letters, digits, `_` and harmless signs. -/
theorem C68_results {o o' : Org} {fuel clock r} (h : TextFed o) (ha : o.getAnswer fuel clock = .ok (o', r)) : Plain r.text :=
  (h.plain.getAnswer h.reach.finv ha).2.text

/-! ## The lines of the boxes -/

theorem getAnswerOf_plain {o o' : Org} {fuel c r} (h : TextFed o) (ha : o.getAnswerOf fuel c = .ok (o', r)) : TextFed o' ∧ r.Plain := by
  simp only [Org.getAnswerOf, bind_ok] at ha
  obtain ⟨⟨o1, r1⟩, h1, ha⟩ := ha
  have hp := (h.plain.getAnswer h.reach.finv h1).2
  split at ha
  · split at ha
    · simp only [pure_ok, Prod.mk.injEq] at ha
      rw [← ha.1, ← ha.2]
      exact ⟨.memory (.answer h h1), Plain.nil⟩
    · cases ha
  · simp only [pure_ok, Prod.mk.injEq] at ha
    rw [← ha.1, ← ha.2]
    exact ⟨.answer h h1, hp⟩

theorem Page.callback_plain {k s} {p : Page} (h : ∀ l ∈ p.lines, Plain l) (hs : Plain s) :
    (p.callback k s).org = p.org ∧ ∀ l ∈ (p.callback k s).lines, Plain l := by
  have : (p.callback k s).lines = p.lines ++ [s] ∧ (p.callback k s).org = p.org := by
    unfold Page.callback
    cases k <;> exact ⟨rfl, rfl⟩
  refine ⟨this.2, ?_⟩
  rw [this.1]
  intro l hl
  rcases List.mem_append.1 hl with hl | hl
  · exact h l hl
  · simp only [List.mem_singleton] at hl; subst hl; exact hs

/-- The box only shows harmless texts, and its interpreter was only given texts. -/
def Page.Plain (p : Page) : Prop := (∀ o, p.org = some o → TextFed o) ∧ ∀ l ∈ p.lines, PBfs.Plain l

theorem Page.runOnce_plain {fuel c k} {p p' : Page} (hp : p.Plain) (h : p.runOnce fuel c k = .ok p') : p'.Plain := by
  unfold Page.runOnce at h
  split at h
  · simp only [pure_ok] at h; subst h; exact hp
  · rename_i o ho
    simp only [bind_ok] at h
    obtain ⟨⟨o1, r⟩, h1, h⟩ := h
    obtain ⟨h2, h3⟩ := getAnswerOf_plain (hp.1 o ho) h1
    have cb : ∀ {s}, PBfs.Plain s → Page.Plain ({ p with org := some o1 }.callback k s) := by
      intro s hs
      obtain ⟨c1, c2⟩ := Page.callback_plain (p := { p with org := some o1 }) (k := k) hp.2 hs
      refine ⟨fun o2 ho2 => ?_, c2⟩
      rw [c1] at ho2; cases ho2; exact h2
    simp only at h
    split at h
    · split at h
      · split at h
        · simp only [pure_ok] at h; subst h; exact cb (by decide)
        · simp only [pure_ok] at h; subst h
          exact ⟨fun o2 ho2 => by cases ho2; exact h2, hp.2⟩
      · simp only [pure_ok] at h; subst h; exact cb h3.text
    · simp only [pure_ok] at h; subst h; exact cb h3.text

theorem Opened.fed {program query o} (h : Opened program query o) : TextFed o := by
  obtain ⟨ord, o0, o1, h1, h2, h3⟩ := h
  have e1 : o1 = (o0.loadProgramText ord program).1 := by rw [h2]
  have e2 : o = (o1.loadQueryText ord query).1 := by rw [h3]
  rw [e2, e1]
  exact .query _ _ (.program _ _ (.init h1))

theorem pagesPlain (fuel : Nat) : PageInv fuel (fun _ => True) Page.Plain where
  start _ ho h := Page.runOnce_plain (p := ⟨_, _, [], false, false, [], 0⟩) ⟨fun o h => by cases h; exact ho.opened.fed, by simp⟩ h
  timer {p _ _ j _ _} _ _ hp _ h := Page.runOnce_plain (p := { p with polls := p.polls.eraseIdx j }) hp h
  next _ _ hp _ h := Page.runOnce_plain hp h
  drawn h := h
  close h := ⟨by simp, h.2⟩

/-- **C68.** Whatever happens on the page, the lines in the boxes are harmless. -/
theorem C68_lines {fuel : Nat} {es : List Event} {s : Site} (h : Site.empty.steps fuel es = .ok s) : ∀ p ∈ s.pages, ∀ l ∈ p.lines, Plain l :=
  fun p hp => ((pagesPlain fuel).pages (fun _ _ => trivial) h p hp).2

/-! ## The unification tree -/

mutual
def RNode.Plain : RNode → Prop
  | .var n _ => PBfs.Plain n
  | .cons n => PBfs.Plain n
  | .int _ => True
  | .fn n cs => PBfs.Plain n ∧ RNode.Plains cs
  | .efn n cs => PBfs.Plain n ∧ RNode.Plains cs
def RNode.Plains : List RNode → Prop
  | [] => True
  | c :: cs => c.Plain ∧ RNode.Plains cs
end

theorem RNode.plains_iff {cs : List RNode} : RNode.Plains cs ↔ ∀ c ∈ cs, c.Plain := by
  induction cs with
  | nil => simp [RNode.Plains]
  | cons c cs ih => simp [RNode.Plains, ih]

theorem RNode.Plain.child {n c : RNode} (h : n.Plain) (hc : c ∈ n.children) : c.Plain := by
  cases n <;> simp_all [RNode.Plain, RNode.children, RNode.plains_iff]

mutual
theorem RNode.str_plain : ∀ {n : RNode} {s}, n.Plain → n.str = .ok s → PBfs.Plain s
  | .var n _, s, h, hs => by simp only [RNode.str, pure_ok] at hs; subst hs; exact h
  | .cons n, s, h, hs => by simp only [RNode.str, pure_ok] at hs; subst hs; exact h
  | .int v, s, h, hs => by simp only [RNode.str, pure_ok] at hs; subst hs; exact intStr_plain _
  | .fn n cs, s, h, hs => by
    unfold RNode.str at hs
    split at hs
    · split at hs
      · simp only [pure_ok] at hs; subst hs; decide
      · rename_i c d
        simp only [bind_ok, pure_ok] at hs
        obtain ⟨a, h1, b, h2, rfl⟩ := hs
        simp only [plain_append]
        exact ⟨⟨by decide, RNode.str_plain h.2.1 h1⟩, RNode.tailStr_plain h.2.2.1 h2⟩
      · cases hs
    · simp only [bind_ok, pure_ok] at hs
      obtain ⟨a, h1, rfl⟩ := hs
      simp only [plain_append]
      exact ⟨⟨⟨h.1, by decide⟩, RNode.argStrs_plain h.2 h1⟩, by decide⟩
  | .efn n cs, s, h, hs => by
    unfold RNode.str at hs
    split at hs
    · simp only [bind_ok, pure_ok] at hs
      obtain ⟨a, h1, rfl⟩ := hs
      simp only [plain_append]
      exact ⟨⟨⟨⟨⟨by decide, h.1⟩, by decide⟩, RNode.str_plain h.2.1 h1⟩, by decide⟩, by decide⟩
    · simp only [bind_ok, pure_ok] at hs
      obtain ⟨a, h1, b, h2, rfl⟩ := hs
      simp only [plain_append]
      exact ⟨⟨⟨⟨⟨⟨by decide, RNode.str_plain h.2.1 h1⟩, by decide⟩, h.1⟩, by decide⟩, RNode.str_plain h.2.2.1 h2⟩, by decide⟩
    · cases hs
theorem RNode.tailStr_plain : ∀ {n : RNode} {s}, n.Plain → n.tailStr = .ok s → PBfs.Plain s
  | .var n _, s, h, hs => by
    simp only [RNode.tailStr, pure_ok] at hs; subst hs
    simp only [plain_append]
    exact ⟨⟨by decide, h⟩, by decide⟩
  | .cons n, s, h, hs => by
    simp only [RNode.tailStr, pure_ok] at hs; subst hs
    simp only [plain_append]
    exact ⟨⟨by decide, h⟩, by decide⟩
  | .int v, s, h, hs => by
    simp only [RNode.tailStr, pure_ok] at hs; subst hs
    simp only [plain_append]
    exact ⟨⟨by decide, intStr_plain _⟩, by decide⟩
  | .fn n cs, s, h, hs => by
    unfold RNode.tailStr at hs
    split at hs
    · split at hs
      · simp only [pure_ok] at hs; subst hs; decide
      · simp only [bind_ok, pure_ok] at hs
        obtain ⟨a, h1, b, h2, rfl⟩ := hs
        simp only [plain_append]
        exact ⟨⟨by decide, RNode.str_plain h.2.1 h1⟩, RNode.tailStr_plain h.2.2.1 h2⟩
      · cases hs
    · simp only [bind_ok, pure_ok] at hs
      obtain ⟨a, h1, rfl⟩ := hs
      simp only [plain_append]
      exact ⟨⟨by decide, ⟨⟨h.1, by decide⟩, RNode.argStrs_plain h.2 h1⟩, by decide⟩, by decide⟩
  | .efn n cs, s, h, hs => by
    unfold RNode.tailStr at hs
    split at hs
    · simp only [bind_ok, pure_ok] at hs
      obtain ⟨a, h1, rfl⟩ := hs
      simp only [plain_append]
      exact ⟨⟨by decide, ⟨⟨⟨⟨by decide, h.1⟩, by decide⟩, RNode.str_plain h.2.1 h1⟩, by decide⟩, by decide⟩, by decide⟩
    · simp only [bind_ok, pure_ok] at hs
      obtain ⟨a, h1, b, h2, rfl⟩ := hs
      simp only [plain_append]
      exact ⟨⟨by decide, ⟨⟨⟨⟨⟨by decide, RNode.str_plain h.2.1 h1⟩, by decide⟩, h.1⟩, by decide⟩, RNode.str_plain h.2.2.1 h2⟩, by decide⟩, by decide⟩
    · cases hs
theorem RNode.argStrs_plain : ∀ {cs : List RNode} {s}, RNode.Plains cs → RNode.argStrs cs = .ok s → PBfs.Plain s
  | [], s, _, hs => by cases hs
  | [c], s, h, hs => RNode.str_plain h.1 (by simpa only [RNode.argStrs] using hs)
  | c :: d :: cs, s, h, hs => by
    unfold RNode.argStrs at hs
    · simp only [bind_ok, pure_ok] at hs
      obtain ⟨a, h1, b, h2, rfl⟩ := hs
      simp only [plain_append]
      exact ⟨⟨RNode.str_plain h.1 h1, by decide⟩, RNode.argStrs_plain h.2 h2⟩
end

theorem repArgs_plain {rep : Nat → R RNode} (hr : ∀ a n, rep a = .ok n → n.Plain) : ∀ {k a ns}, repArgs rep a k = .ok ns → RNode.Plains ns := by
  intro k
  induction k with
  | zero => intro a ns h; simp only [repArgs, pure_ok] at h; subst h; trivial
  | succ k ih =>
    intro a ns h
    simp only [repArgs, bind_ok, pure_ok] at h
    obtain ⟨n, h1, ns', h2, rfl⟩ := h
    exact ⟨hr _ _ h1, ih h2⟩

theorem nodeRep_plain {pre} {h : Hp} {st : Storage} (hs : st.Plain) : ∀ {n a s}, nodeRep pre h st n a = .ok s → s.Plain := by
  intro n
  induction n with
  | zero => intro _ _ h; cases h
  | succ n ih =>
    intro a s hr
    simp only [nodeRep, bind_ok, orFault_ok] at hr
    obtain ⟨d, _, c, _, hr⟩ := hr
    split at hr
    · simp only [bind_ok, orFault_ok, pure_ok] at hr
      obtain ⟨name, hn, rfl⟩ := hr
      exact hs.varAt hn
    · simp only [pure_ok] at hr; subst hr; trivial
    · simp only [bind_ok, orFault_ok, pure_ok] at hr
      obtain ⟨f, hf, rfl⟩ := hr
      exact hs.functorAt hf
    · simp only [bind_ok, orFault_ok, pure_ok] at hr
      obtain ⟨f, hf, cs, h1, rfl⟩ := hr
      exact ⟨hs.functorAt hf, repArgs_plain (fun _ _ h => ih h) h1⟩
    · simp only [bind_ok, pure_ok] at hr
      obtain ⟨cs, h1, rfl⟩ := hr
      exact ⟨arithNames_plain _, repArgs_plain (fun _ _ h => ih h) h1⟩
    · cases hr

mutual
theorem Node.fill_plain {f : Name → R RNode} (hf : ∀ v n, f v = .ok n → n.Plain) : ∀ {n : Node} {r}, n.Plain → n.fill f = .ok r → r.Plain
  | .var n, r, _, h => hf n r (by simpa only [Node.fill] using h)
  | .cons n, r, hn, h => by simp only [Node.fill, pure_ok] at h; subst h; exact hn
  | .int v, r, _, h => by simp only [Node.fill, pure_ok] at h; subst h; trivial
  | .fn n cs, r, hn, h => by
    simp only [Node.fill, bind_ok, pure_ok] at h
    obtain ⟨ns, h1, rfl⟩ := h
    exact ⟨hn.1, Node.fills_plain hf hn.2 h1⟩
  | .efn n cs, r, hn, h => by
    simp only [Node.fill, bind_ok, pure_ok] at h
    obtain ⟨ns, h1, rfl⟩ := h
    exact ⟨hn.1, Node.fills_plain hf hn.2 h1⟩
theorem Node.fills_plain {f : Name → R RNode} (hf : ∀ v n, f v = .ok n → n.Plain) : ∀ {cs : List Node} {rs}, Node.Plains cs → Node.fills f cs = .ok rs → RNode.Plains rs
  | [], rs, _, h => by simp only [Node.fills, pure_ok] at h; subst h; trivial
  | c :: cs, rs, hn, h => by
    simp only [Node.fills, bind_ok, pure_ok] at h
    obtain ⟨n, h1, ns, h2, rfl⟩ := h
    exact ⟨Node.fill_plain hf hn.1 h1, Node.fills_plain hf hn.2 h2⟩
end

theorem RNode.bfs_plain : ∀ {n : Nat} {q : List RNode}, (∀ c ∈ q, c.Plain) → ∀ c ∈ RNode.bfs n q, c.Plain := by
  intro n
  induction n with
  | zero => intro q _; simp [RNode.bfs]
  | succ n ih =>
    intro q hq
    cases q with
    | nil => simp [RNode.bfs]
    | cons c q =>
      simp only [RNode.bfs, List.mem_cons, forall_eq_or_imp]
      refine ⟨hq c (by simp), ih fun d hd => ?_⟩
      rcases List.mem_append.1 hd with hd | hd
      · exact hq d (by simp [hd])
      · exact (hq c (by simp)).child hd

theorem RNode.addVars_plain : ∀ {cs : List RNode} {seen : List (Name × Nat)}, (∀ c ∈ cs, c.Plain) → (∀ x ∈ seen, PBfs.Plain x.1) → ∀ x ∈ RNode.addVars seen cs, PBfs.Plain x.1
  | [], seen, _, hs => hs
  | .var n a :: cs, seen, hc, hs => by
    simp only [RNode.addVars]
    refine RNode.addVars_plain (fun c h => hc c (by simp [h])) ?_
    split
    · exact hs
    · intro x hx
      simp only [List.mem_append, List.mem_singleton] at hx
      rcases hx with hx | rfl
      · exact hs x hx
      · exact hc (.var n a) (by simp)
  | .cons _ :: cs, seen, hc, hs => RNode.addVars_plain (cs := cs) (fun c h => hc c (by simp [h])) hs
  | .int _ :: cs, seen, hc, hs => RNode.addVars_plain (cs := cs) (fun c h => hc c (by simp [h])) hs
  | .fn _ _ :: cs, seen, hc, hs => RNode.addVars_plain (cs := cs) (fun c h => hc c (by simp [h])) hs
  | .efn _ _ :: cs, seen, hc, hs => RNode.addVars_plain (cs := cs) (fun c h => hc c (by simp [h])) hs

theorem RNode.uniqueVars_plain {n : RNode} (h : n.Plain) : ∀ x ∈ n.uniqueVars, PBfs.Plain x.1 :=
  RNode.addVars_plain (RNode.bfs_plain fun _ hc => h.child hc) (by simp)

theorem shownBindings_plain {rep : Nat → R RNode} (hr : ∀ a n, rep a = .ok n → n.Plain) : ∀ {vs : List (Name × Nat)} {bs}, (∀ x ∈ vs, Plain x.1) →
    shownBindings rep vs = .ok bs → ∀ b ∈ bs, b.Plain
  | [], bs, _, h => by simp only [shownBindings, pure_ok] at h; subst h; simp
  | (v, a) :: vs, bs, hv, h => by
    simp only [shownBindings, bind_ok] at h
    obtain ⟨n, h1, bs', h2, h⟩ := h
    have ih := shownBindings_plain hr (fun x hx => hv x (by simp [hx])) h2
    have hn := hr _ _ h1
    split at h
    · split at h
      · simp only [pure_ok] at h; subst h; exact ih
      · simp only [pure_ok] at h; subst h
        simp only [List.mem_cons, forall_eq_or_imp]
        exact ⟨⟨hv (v, a) (by simp), hn⟩, ih⟩
    · simp only [bind_ok, pure_ok] at h
      obtain ⟨s, h3, rfl⟩ := h
      simp only [List.mem_cons, forall_eq_or_imp]
      exact ⟨⟨hv (v, a) (by simp), RNode.str_plain hn h3⟩, ih⟩

theorem PlainOrg.topAtom {o : Org} (h : PlainOrg o) {j e a} (he : o.exec j = .ok e) (ha : o.topAtom e = .ok a) : a.Plain := by
  simp only [Org.exec, orFault_ok] at he
  unfold Org.topAtom at ha
  split at ha
  · cases ha
  · rename_i t ts hc
    rw [code_atom ha]
    exact h.code.exec e (List.mem_of_getElem? he) t (by simp [hc])

theorem PlainOrg.goalName {o : Org} (h : PlainOrg o) {fuel j e n} (he : o.exec j = .ok e) (hn : o.goalName fuel e = .ok (some n)) : n.Plain := by
  unfold Org.goalName at hn
  split at hn
  · cases hn
  · simp only [bind_ok, pure_ok, Option.some.injEq] at hn
    obtain ⟨a, h1, n', h2, rfl⟩ := hn
    refine Node.fill_plain (fun v m hm => ?_) (h.topAtom he h1).parsed h2
    simp only [bind_ok] at hm
    obtain ⟨i, _, hm⟩ := hm
    exact nodeRep_plain h.st hm

theorem PlainOrg.clauseBindings {o : Org} (h : PlainOrg o) {fuel n j e r} (he : o.exec j = .ok e) (hn : n.Plain)
    (hr : o.clauseBindings fuel n e = .ok r) : ∀ b ∈ r.1, b.Plain := by
  simp only [Org.clauseBindings, bind_ok, pure_ok] at hr
  obtain ⟨a, h1, fs, h2, qb, h3, fb, h4, rfl⟩ := hr
  have ha := h.topAtom he h1
  intro b hb
  rcases List.mem_append.1 hb with hb | hb
  · refine shownBindings_plain (fun _ _ hh => nodeRep_plain h.st hh) ?_ h3 b hb
    · split
      · simp
      · exact RNode.uniqueVars_plain hn
  · exact shownBindings_plain (fun _ _ hh => nodeRep_plain h.st hh) (pointSubs_plain ha.subst h2) h4 b hb

mutual
/-- All texts in the tree are harmless. -/
def UTree.Plain : UTree → Prop
  | .node i ks => PBfs.Plain i.title ∧ (∀ b ∈ i.bindings, b.Plain) ∧ (∀ bs, i.final = some bs → ∀ b ∈ bs, b.Plain) ∧ UTree.Plains ks
def UTree.Plains : List UTree → Prop
  | [] => True
  | t :: ts => t.Plain ∧ UTree.Plains ts
end

theorem treesOf_plain {f : Nat → Nat → R (UTree × Nat)} (hf : ∀ k c r, f k c = .ok r → r.1.Plain) : ∀ {ks c r}, treesOf f ks c = .ok r → UTree.Plains r.1
  | [], c, r, h => by simp only [treesOf, pure_ok] at h; subst h; trivial
  | k :: ks, c, r, h => by
    simp only [treesOf, bind_ok, pure_ok] at h
    obtain ⟨⟨t, c1⟩, h1, ⟨ts, c2⟩, h2, rfl⟩ := h
    exact ⟨hf _ _ _ h1, treesOf_plain hf h2⟩

theorem PlainOrg.goalTree {o : Org} (h : PlainOrg o) {fuel : Nat} : ∀ {n g c r}, goalTree fuel o n g c = .ok r → r.1.Plain := by
  intro n
  induction n with
  | zero => intro g c r h; cases h
  | succ n ih =>
    intro g c r hr
    simp only [Org.goalTree, bind_ok, pure_ok] at hr
    obtain ⟨e, _, ⟨ts, c1⟩, h1, rfl⟩ := hr
    refine ⟨Plain.nil, by simp, by simp, treesOf_plain (fun k c r hr => ?_) h1⟩
    simp only [Org.clauseTree, bind_ok] at hr
    obtain ⟨e, _, hr⟩ := hr
    split at hr
    · simp only [bind_ok, pure_ok] at hr
      obtain ⟨bs, h2, rfl⟩ := hr
      exact ⟨Plain.nil, by simp, fun bs' hb => by cases hb; exact h.answer h2, trivial⟩
    · simp only [bind_ok, pure_ok] at hr
      obtain ⟨g, _, ⟨t, c'⟩, h2, rfl⟩ := hr
      exact ⟨Plain.nil, by simp, by simp, ih h2, trivial⟩
    · simp only [pure_ok] at hr; subst hr
      exact ⟨Plain.nil, by simp, by simp, trivial⟩

mutual
theorem PlainOrg.resolveGoal {o : Org} (h : PlainOrg o) {fuel : Nat} : ∀ {t r : UTree}, t.Plain → o.resolveGoal fuel t = .ok r → r.Plain
  | .node i kids, r, ht, hr => by
    simp only [Org.resolveGoal, bind_ok] at hr
    obtain ⟨e, he, n, hn, hr⟩ := hr
    split at hr
    · simp only [pure_ok] at hr; subst hr
      exact ⟨(by decide : PBfs.Plain n!"cant determine name yet"), ht.2.1, ht.2.2.1, ht.2.2.2⟩
    · rename_i n
      simp only [bind_ok] at hr
      obtain ⟨s, h1, hr⟩ := hr
      have hnp := h.goalName he hn
      have hs := RNode.str_plain hnp h1
      split at hr
      · simp only [pure_ok] at hr; subst hr
        exact ⟨hs, ht.2.1, ht.2.2.1, ht.2.2.2⟩
      · simp only [bind_ok, pure_ok] at hr
        obtain ⟨ks, h2, rfl⟩ := hr
        exact ⟨hs, ht.2.1, ht.2.2.1, PlainOrg.resolveClauses h hnp ht.2.2.2 h2⟩
theorem PlainOrg.resolveClauses {o : Org} (h : PlainOrg o) {fuel : Nat} {n : RNode} (hn : n.Plain) : ∀ {ts rs : List UTree}, UTree.Plains ts →
    o.resolveClauses fuel n ts = .ok rs → UTree.Plains rs
  | [], rs, _, hr => by simp only [Org.resolveClauses, pure_ok] at hr; subst hr; trivial
  | .node i kids :: ts, rs, ht, hr => by
    simp only [Org.resolveClauses, bind_ok, pure_ok] at hr
    obtain ⟨e, he, t, h1, ts', h2, rfl⟩ := hr
    refine ⟨?_, PlainOrg.resolveClauses h hn ht.2 h2⟩
    split at h1
    · simp only [pure_ok] at h1; subst h1; exact ht.1
    · simp only [bind_ok, pure_ok] at h1
      obtain ⟨⟨bs, k⟩, h3, ks, h4, rfl⟩ := h1
      exact ⟨ht.1.1, h.clauseBindings he hn h3, ht.1.2.2.1, PlainOrg.resolveNext h ht.1.2.2.2 h4⟩
theorem PlainOrg.resolveNext {o : Org} (h : PlainOrg o) {fuel : Nat} : ∀ {ts rs : List UTree}, UTree.Plains ts → o.resolveNext fuel ts = .ok rs → UTree.Plains rs
  | [], rs, _, hr => by simp only [Org.resolveNext, pure_ok] at hr; subst hr; trivial
  | t :: ts, rs, ht, hr => by
    simp only [Org.resolveNext, bind_ok, pure_ok] at hr
    obtain ⟨t', h1, ts', h2, rfl⟩ := hr
    exact ⟨PlainOrg.resolveGoal h ht.1 h1, PlainOrg.resolveNext h ht.2 h2⟩
end

theorem PlainOrg.tree {o : Org} (h : PlainOrg o) {fuel t} (ht : o.unificationTree fuel = .ok t) : t.Plain := by
  simp only [Org.unificationTree, bind_ok] at ht
  obtain ⟨⟨t0, _⟩, h1, h2⟩ := ht
  exact h.resolveGoal (h.goalTree h1) h2

mutual
theorem UTree.Plain.nodes : ∀ {t : UTree}, t.Plain → ∀ u ∈ t.nodes, PBfs.Plain u.info.title ∧ (∀ b ∈ u.info.bindings, b.Plain) ∧
    ∀ bs, u.info.final = some bs → ∀ b ∈ bs, b.Plain
  | .node i ks, h => by
    simp only [UTree.nodes, List.mem_cons, forall_eq_or_imp]
    exact ⟨⟨h.1, h.2.1, h.2.2.1⟩, UTree.Plains.nodess h.2.2.2⟩
theorem UTree.Plains.nodess : ∀ {ts : List UTree}, UTree.Plains ts → ∀ u ∈ UTree.nodess ts, PBfs.Plain u.info.title ∧ (∀ b ∈ u.info.bindings, b.Plain) ∧
    ∀ bs, u.info.final = some bs → ∀ b ∈ bs, b.Plain
  | [], _ => by simp [UTree.nodess]
  | t :: ts, h => by
    simp only [UTree.nodess, List.mem_append]
    rintro u (hu | hu)
    · exact h.1.nodes u hu
    · exact UTree.Plains.nodess h.2 u hu
end

/-- **C68.** So do the texts in the unification tree: the goals, and what variables are bound to. -/
theorem C68_tree {o : Org} {fuel t} (h : TextFed o) (ht : o.unificationTree fuel = .ok t) : ∀ u ∈ t.nodes, Plain u.info.title ∧
    (∀ b ∈ u.info.bindings, Plain b.name ∧ Plain b.value) ∧ ∀ bs, u.info.final = some bs → ∀ b ∈ bs, Plain b.name ∧ Plain b.value :=
  (h.plain.tree ht).nodes

/-! ## The drawing -/

/-- What is written into a box. -/
def Box.words : Box → Name
  | .goal t => t
  | .more => n!"*continue search*"
  | .noRule => n!"no such rule"
  | .clash => n!"not unifiable"
  | .answer t => t

theorem flatMap_plain {bs : List Binding} (h : ∀ b ∈ bs, b.Plain) : Plain (bs.flatMap fun b => b.str ++ n!" ") := by
  intro c hc
  obtain ⟨b, hb, hc⟩ := List.mem_flatMap.1 hc
  exact (plain_append.2 ⟨(h b hb).str, by decide⟩ : Plain (b.str ++ n!" ")) c hc

theorem finalStr_plain {bs : List Binding} (h : ∀ b ∈ bs, b.Plain) : Plain (finalStr bs) := by
  unfold finalStr
  split
  · decide
  · exact flatMap_plain h

structure DrawSt.Plain (s : DrawSt) : Prop where
  nodes : ∀ v ∈ s.drawing.nodes, PBfs.Plain v.box.words
  queue : ∀ t ∈ s.queue, t.Plain

theorem DrawSt.Plain.leaf {s : DrawSt} (h : s.Plain) {src b} (hb : PBfs.Plain b.words) : (s.leaf src b).Plain := by
  refine ⟨fun v hv => ?_, h.queue⟩
  simp only [DrawSt.leaf, List.mem_append, List.mem_singleton] at hv
  rcases hv with hv | rfl
  · exact h.nodes v hv
  · exact hb

theorem drawAlt_plain {o : Org} {src t} {s s' : DrawSt} (ht : t.Plain) (hs : s.Plain) (h : o.drawAlt src t s = .ok s') : s'.Plain := by
  unfold Org.drawAlt at h
  split at h
  · simp only [pure_ok] at h; subst h
    refine ⟨hs.nodes, fun t' ht' => ?_⟩
    rcases List.mem_append.1 ht' with ht' | ht'
    · exact hs.queue _ ht'
    · simp only [List.mem_singleton] at ht'; subst ht'; exact ht.2.2.2.1
  · simp only [bind_ok] at h
    obtain ⟨e, _, h⟩ := h
    split at h
    · simp only [pure_ok] at h; subst h; exact hs.leaf (by decide)
    · split at h
      · simp only [bind_ok, orFault_ok, pure_ok] at h
        obtain ⟨bs, h1, rfl⟩ := h
        exact hs.leaf (finalStr_plain (ht.2.2.1 bs h1))
      · simp only [pure_ok] at h; subst h; exact hs.leaf (by decide)

theorem drawAlts_plain {o : Org} {src} : ∀ {ts} {s s' : DrawSt}, UTree.Plains ts → s.Plain → o.drawAlts src ts s = .ok s' → s'.Plain
  | [], s, s', _, hs, h => by simp only [Org.drawAlts, pure_ok] at h; subst h; exact hs
  | t :: ts, s, s', ht, hs, h => by
    simp only [Org.drawAlts, bind_ok] at h
    obtain ⟨s1, h1, h⟩ := h
    exact drawAlts_plain ht.2 (drawAlt_plain ht.1 hs h1) h

theorem drawGoal_plain {o : Org} {t} {s s' : DrawSt} (ht : t.Plain) (hs : s.Plain) (h : o.drawGoal t s = .ok s') : s'.Plain := by
  cases t with
  | node i kids =>
    simp only [Org.drawGoal, bind_ok] at h
    obtain ⟨e, _, h⟩ := h
    have hs1 : DrawSt.Plain { s with drawing := { s.drawing with nodes := s.drawing.nodes ++ [⟨i.id, .goal i.title⟩] } } := by
      refine ⟨fun v hv => ?_, hs.queue⟩
      simp only [List.mem_append, List.mem_singleton] at hv
      rcases hv with hv | rfl
      · exact hs.nodes v hv
      · exact ht.1
    split at h
    · simp only [pure_ok] at h; subst h; exact hs1.leaf (by decide)
    · split at h
      · simp only [pure_ok] at h; subst h; exact hs1.leaf (by decide)
      · exact drawAlts_plain ht.2.2.2 hs1 h

theorem drawLoop_plain {o : Org} : ∀ {n} {s s' : DrawSt}, s.Plain → o.drawLoop n s = .ok s' → s'.Plain := by
  intro n
  induction n with
  | zero =>
    intro s s' hs h
    unfold Org.drawLoop at h
    split at h
    · simp only [pure_ok] at h; subst h; exact hs
    · cases h
  | succ n ih =>
    intro s s' hs h
    unfold Org.drawLoop at h
    split at h
    · simp only [pure_ok] at h; subst h; exact hs
    · rename_i t q hq
      simp only [bind_ok] at h
      obtain ⟨s1, h1, h⟩ := h
      refine ih (drawGoal_plain (s := { s with queue := q }) (hs.queue t (by simp [hq])) ⟨hs.nodes, fun t' ht' => hs.queue t' ?_⟩ h1) h
      rw [hq]; exact List.mem_cons_of_mem _ ht'

/-- **C68.** So do the texts in the boxes of the drawing. -/
theorem C68_drawing {o : Org} {fuel n t d} (h : TextFed o) (ht : o.unificationTree fuel = .ok t) (hd : o.draw n t = .ok d) :
    ∀ v ∈ d.nodes, Plain v.box.words := by
  simp only [Org.draw, bind_ok, pure_ok] at hd
  obtain ⟨s, h1, rfl⟩ := hd
  exact (drawLoop_plain ⟨by simp, fun t' ht' => by simp only [List.mem_singleton] at ht'; subst ht'; exact h.plain.tree ht⟩ h1).nodes

/-! ## The texts at the tree -/

theorem plainText_append {s t : Name} : PlainText (s ++ t) ↔ PlainText s ∧ PlainText t := by
  simp only [PlainText, List.mem_append]
  grind

theorem Plain.toText {s : Name} (h : Plain s) : PlainText s := fun c hc => (h c hc).imp_right .inl

theorem Blank.toText {s : Name} (h : Blank s) : PlainText s := fun c hc => .inr (.inr (h c hc))

/-- No comment and no other signs than the harmless ones. -/
def Tok.Plain : Tok → Prop
  | .sym s => PBfs.Plain s
  | .comment _ => False
  | _ => True

theorem Tok.Plain.text {t : Tok} (h : t.Plain) (hv : t.Valid) : PBfs.Plain t.text := by
  have hl : ∀ c, isLower c = true → isWord c = true := by intro c h; simp [isWord, h]
  have hu : ∀ c, isUpper c = true → isWord c = true := by intro c h; simp [isWord, h]
  have hd : ∀ c, isDigit c = true → isWord c = true := by intro c h; simp [isWord, h]
  cases t with
  | sym s => exact h
  | comment => exact h.elim
  | name w => exact IsWord.plain hl hv
  | var w => exact IsWord.plain hu hv
  | opening w => exact plain_append.2 ⟨IsWord.plain hl hv, by decide⟩
  | num neg ds =>
    refine plain_append.2 ⟨?_, fun c hc => .inl (hd c (hv.2 c hc))⟩
    cases neg <;> decide

theorem Syn.plainToks {k es ts} (h : Syn k es ts) : ∀ t ∈ ts, t.Plain := by
  have e1 : PBfs.Plain n!"(" := by decide
  have e2 : PBfs.Plain n!")" := by decide
  have e3 : PBfs.Plain n!"," := by decide
  have e4 : PBfs.Plain n!"[" := by decide
  have e5 : PBfs.Plain n!"]" := by decide
  have e6 : PBfs.Plain n!"|" := by decide
  have e7 : PBfs.Plain n!"^" := by decide
  have e8 : PBfs.Plain n!"+" := by decide
  have e9 : PBfs.Plain n!"-" := by decide
  have e10 : PBfs.Plain n!"*" := by decide
  have e11 : PBfs.Plain n!"//" := by decide
  induction h <;> simp_all [Tok.Plain] <;> grind [Tok.Plain]

theorem HeadSyn.plainToks {a ts} (h : HeadSyn a ts) : ∀ t ∈ ts, t.Plain := by
  have e2 : PBfs.Plain n!")" := by decide
  cases h with
  | fn h => have := h.plainToks; simp_all [Tok.Plain]; grind
  | cons => simp [Tok.Plain]

theorem GoalSyn.plainToks {a ts} (h : GoalSyn a ts) : ∀ t ∈ ts, t.Plain := by
  have e1 : PBfs.Plain n!"==" := by decide
  have e2 : PBfs.Plain n!"\\==" := by decide
  have e3 : PBfs.Plain n!"is" := by decide
  cases h with
  | eq h1 h2 => have := h1.plainToks; have := h2.plainToks; simp_all [Tok.Plain]; grind [Tok.Plain]
  | neq h1 h2 => have := h1.plainToks; have := h2.plainToks; simp_all [Tok.Plain]; grind [Tok.Plain]
  | is h1 h2 => have := h1.plainToks; have := h2.plainToks; simp_all [Tok.Plain]; grind [Tok.Plain]
  | head h => exact h.plainToks

theorem Spell.plainText {ts s} (h : Spell ts s) (ht : ∀ t ∈ ts, t.Plain) : PlainText s := by
  induction h with
  | nil hw => exact Blank.toText hw
  | cons hw hv _ _ ih =>
    simp only [List.mem_cons, forall_eq_or_imp] at ht
    exact plainText_append.2 ⟨Blank.toText hw, plainText_append.2 ⟨(ht.1.text hv).toText, ih ht.2⟩⟩

theorem GoalText.plain {a v} (h : GoalText a v) : PlainText v := by
  obtain ⟨ts, h1, h2⟩ := h
  exact h2.plainText h1.plainToks

theorem HeadText.plain {a v} (h : HeadText a v) : PlainText v := by
  obtain ⟨ts, h1, h2⟩ := h
  exact h2.plainText h1.plainToks

theorem GoalsLaid.plain {pre as t} (h : GoalsLaid pre as t) : ∀ a ∈ as, PlainText a.2.value := by
  induction h with
  | one h hd => simp only [List.mem_singleton]; rintro _ rfl; rw [hd.1]; exact h.plain
  | more h hd _ _ _ ih =>
    simp only [List.mem_cons, forall_eq_or_imp]
    exact ⟨by rw [hd.1]; exact h.plain, ih⟩

/-- The positions of the clause have harmless texts. -/
def ClauseAt.PlainAt (c : ClauseAt) : Prop := PlainText c.head.2.value ∧ ∀ a ∈ c.body, PlainText a.2.value

theorem ProgLaid.plain {pre p t} (h : ProgLaid pre p t) : ∀ c ∈ p, c.PlainAt := by
  induction h with
  | nil => simp
  | comment _ _ _ ih => exact ih
  | @clause pre w c v p s _ h _ _ ih =>
    simp only [List.mem_cons, forall_eq_or_imp]
    refine ⟨?_, ih⟩
    obtain ⟨info, head, body⟩ := c
    simp only at h
    cases h with
    | fact h hd => exact ⟨by rw [hd.1]; exact h.plain, by simp⟩
    | rule h hd _ _ hb => exact ⟨by rw [hd.1]; exact h.plain, hb.plain⟩

/-- The texts of all positions are harmless. -/
structure Placed.Plain (a : Placed) : Prop where
  program : ∀ x ∈ a.program, ∀ r ∈ x.2, ∀ i ∈ r, PlainText i.value
  builtins : ∀ x ∈ a.builtins, ∀ r ∈ x.2, ∀ i ∈ r, PlainText i.value
  places : ∀ r ∈ a.places, ∀ i ∈ r, PlainText i.value

theorem Placed.Plain.own {a : Placed} (h : a.Plain) {id} : ∀ i ∈ a.own id, PlainText i.value := by
  unfold Placed.own
  cases hp : a.places[id]? with
  | none => simp
  | some r => exact h.places r (List.mem_of_getElem? hp)

theorem mem_lookup {f : FV} {p : Places} {rs} (h : List.lookup f p = some rs) : (f, rs) ∈ p := by
  induction p with
  | nil => cases h
  | cons x p ih =>
    obtain ⟨g, qs⟩ := x
    simp only [List.lookup] at h
    split at h
    · rename_i hb
      have : f = g := by simpa using hb
      cases h; subst this; simp
    · simp [ih h]

theorem Placed.Plain.set {a : Placed} (h : a.Plain) {id l} (hl : ∀ i ∈ l, PlainText i.value) : ∀ r ∈ a.places.set id l, ∀ i ∈ r, PlainText i.value := by
  intro r hr
  rcases List.mem_or_eq_of_mem_set hr with hr | rfl
  · exact h.places r hr
  · exact hl

theorem Placed.Plain.move {a : Placed} (h : a.Plain) {id i pl} (hm : a.move id i = .ok pl) : ∀ r ∈ pl, ∀ i ∈ r, PlainText i.value := by
  have ht : ∀ i ∈ (a.own id).take 1, PlainText i.value := fun i hi => h.own i (List.mem_of_mem_take hi)
  have hd : ∀ i ∈ (a.own id).drop 1, PlainText i.value := fun i hi => h.own i (List.mem_of_mem_drop hi)
  unfold Placed.move at hm
  split at hm
  · rename_i f
    split at hm
    · simp only [pure_ok] at hm; subst hm; exact h.places
    · simp only [pure_ok] at hm; subst hm
      intro r hr
      rcases List.mem_append.1 hr with hr | hr
      · exact h.set ht r hr
      · obtain ⟨q, hq, rfl⟩ := List.mem_map.1 hr
        intro i hi
        rcases List.mem_append.1 hi with hi | hi
        · cases hl : List.lookup f a.program with
          | none => simp [hl] at hq
          | some rs =>
            simp only [hl, Option.getD_some] at hq
            exact h.program _ (mem_lookup hl) q hq i hi
        · exact hd i hi
  · simp only [bind_ok] at hm
    obtain ⟨e, _, d, _, hm⟩ := hm
    split at hm
    · simp only [pure_ok] at hm; subst hm; exact h.set ht
    · simp only [pure_ok] at hm; subst hm
      intro r hr
      rcases List.mem_append.1 hr with hr | hr
      · exact h.set ht r hr
      · simp only [List.mem_singleton] at hr; subst hr; exact hd
  · simp only [pure_ok] at hm; subst hm; exact h.set hd
  · simp only [pure_ok] at hm; subst hm; exact h.places

theorem Placed.Plain.instr {a a' : Placed} (h : a.Plain) {fuel id i} (hi : a.instr fuel id i = .ok a') : a'.Plain := by
  simp only [Placed.instr, bind_ok, pure_ok] at hi
  obtain ⟨o, _, pl, h1, rfl⟩ := hi
  exact ⟨h.program, h.builtins, h.move h1⟩

theorem Placed.Plain.instrs {fuel id} : ∀ {is} {a a' : Placed}, a.Plain → Placed.instrs fuel id is a = .ok a' → a'.Plain
  | [], a, a', h, hi => by simp only [Placed.instrs, pure_ok] at hi; subst hi; exact h
  | i :: is, a, a', h, hi => by
    simp only [Placed.instrs, bind_ok] at hi
    obtain ⟨a1, h1, e, _, hi⟩ := hi
    have h2 := h.instr h1
    split at hi
    · simp only [pure_ok] at hi; subst hi
      exact ⟨h2.program, h2.builtins, h2.set fun i hi => h2.own i (List.mem_of_mem_take hi)⟩
    · exact Placed.Plain.instrs h2 hi

theorem Placed.Plain.turn {a a' : Placed} (h : a.Plain) {fuel t} (ht : a.turn fuel = .ok (a', t)) : a'.Plain := by
  unfold Placed.turn at ht
  split at ht
  · simp only [pure_ok, Prod.mk.injEq] at ht; rw [← ht.1]; exact h
  · rename_i id q hq
    simp only [Placed.turnOf, bind_ok] at ht
    obtain ⟨e, _, ht⟩ := ht
    split at ht
    · cases ht
    · simp only [bind_ok] at ht
      obtain ⟨c, _, a1, h1, e1, _, ht⟩ := ht
      have h2 : a1.Plain := (by exact ⟨h.program, h.builtins, h.places⟩ : Placed.Plain _).instrs h1
      split at ht <;> (simp only [bind_ok, pure_ok, Prod.mk.injEq] at ht)
      · obtain ⟨_, _, rfl, _⟩ := ht; exact h2
      · obtain ⟨_, _, rfl, _⟩ := ht; exact h2
      · obtain ⟨rfl, _⟩ := ht; exact h2

theorem Placed.Plain.getAnswer {fuel} : ∀ {clock} {a a' : Placed} {r}, a.Plain → a.getAnswer fuel clock = .ok (a', r) → a'.Plain := by
  intro clock
  induction clock with
  | nil =>
    intro a a' r h ha
    unfold Placed.getAnswer at ha
    split at ha <;> (simp only [pure_ok, Prod.mk.injEq] at ha; rw [← ha.1]; exact h)
  | cons b clock ih =>
    intro a a' r h ha
    unfold Placed.getAnswer at ha
    split at ha
    · simp only [pure_ok, Prod.mk.injEq] at ha; rw [← ha.1]; exact h
    · cases b with
      | true => simp only [pure_ok, Prod.mk.injEq] at ha; rw [← ha.1]; exact h
      | false =>
        simp only [bind_ok] at ha
        obtain ⟨⟨a1, t⟩, h1, ha⟩ := ha
        have h2 := h.turn h1
        cases t with
        | «continue» => exact ih h2 ha
        | answer => simp only [pure_ok, Prod.mk.injEq] at ha; rw [← ha.1]; exact h2
        | error => simp only [pure_ok, Prod.mk.injEq] at ha; rw [← ha.1]; exact h2

theorem Places.assign_plain {p : Places} {f rs} (hp : ∀ x ∈ p, ∀ r ∈ x.2, ∀ i ∈ r, PlainText i.value) (hr : ∀ r ∈ rs, ∀ i ∈ r, PlainText i.value) :
    ∀ x ∈ p.assign f rs, ∀ r ∈ x.2, ∀ i ∈ r, PlainText i.value := by
  induction p with
  | nil => simp only [Places.assign, List.mem_singleton]; rintro _ rfl; exact hr
  | cons x p ih =>
    obtain ⟨g, qs⟩ := x
    simp only [List.mem_cons, forall_eq_or_imp] at hp
    simp only [Places.assign]
    split <;> (simp only [List.mem_cons, forall_eq_or_imp])
    · exact ⟨hr, hp.2⟩
    · exact ⟨hp.1, ih hp.2⟩

theorem Places.addRule_plain {p : Places} {f r} (hp : ∀ x ∈ p, ∀ r ∈ x.2, ∀ i ∈ r, PlainText i.value) (hr : ∀ i ∈ r, PlainText i.value) :
    ∀ x ∈ p.addRule f r, ∀ r ∈ x.2, ∀ i ∈ r, PlainText i.value := by
  induction p with
  | nil => simp only [Places.addRule, List.mem_singleton]; rintro _ rfl; simpa using hr
  | cons x p ih =>
    obtain ⟨g, qs⟩ := x
    simp only [List.mem_cons, forall_eq_or_imp] at hp
    simp only [Places.addRule]
    split <;> (simp only [List.mem_cons, forall_eq_or_imp])
    · refine ⟨fun q hq => ?_, hp.2⟩
      rcases List.mem_append.1 hq with hq | hq
      · exact hp.1 q hq
      · simp only [List.mem_singleton] at hq; subst hq; exact hr
    · exact ⟨hp.1, ih hp.2⟩

theorem Places.foldl_assign_plain : ∀ {bs p : Places}, (∀ x ∈ p, ∀ r ∈ x.2, ∀ i ∈ r, PlainText i.value) → (∀ x ∈ bs, ∀ r ∈ x.2, ∀ i ∈ r, PlainText i.value) →
    ∀ x ∈ bs.foldl (fun p e => p.assign e.1 e.2) p, ∀ r ∈ x.2, ∀ i ∈ r, PlainText i.value
  | [], p, hp, _ => hp
  | b :: bs, p, hp, hb => by
    simp only [List.mem_cons, forall_eq_or_imp] at hb
    exact Places.foldl_assign_plain (p := p.assign b.1 b.2) (Places.assign_plain hp hb.1) hb.2

theorem collect_plain {rs : List (FV × Info × List (CAtom × Info))} (h : ∀ r ∈ rs, ∀ x ∈ r.2.2, PlainText x.2.value) :
    ∀ x ∈ Placed.collect rs, ∀ r ∈ x.2, ∀ i ∈ r, PlainText i.value := by
  unfold Placed.collect
  suffices ∀ {p : Places}, (∀ x ∈ p, ∀ r ∈ x.2, ∀ i ∈ r, PlainText i.value) →
      ∀ x ∈ rs.foldl (fun p r => p.addRule r.1 (r.2.2.map (·.2))) p, ∀ r ∈ x.2, ∀ i ∈ r, PlainText i.value from this (by simp)
  induction rs with
  | nil => intro p hp; exact hp
  | cons r rs ih =>
    intro p hp
    simp only [List.mem_cons, forall_eq_or_imp] at h
    exact ih h.2 (Places.addRule_plain hp fun i hi => by obtain ⟨x, hx, rfl⟩ := List.mem_map.1 hi; exact h.1 x hx)

theorem compileProgramAt_plain {ord : HashOrder} {p : List ClauseAt} {st rs} (hp : ∀ c ∈ p, c.PlainAt) (h : compileProgramAt ord p st = .ok rs) :
    ∀ r ∈ rs.1, ∀ x ∈ r.2.2, PlainText x.2.value := by
  have h1 := C62_compiled h
  generalize rs.1 = l at h1
  clear h
  induction h1 with
  | nil => simp
  | @cons c r p l hc _ ih =>
    simp only [List.mem_cons, forall_eq_or_imp] at hp ⊢
    refine ⟨fun x hx => ?_, ih hp.2⟩
    obtain ⟨_, _, k, hk⟩ := hc
    have hm : (x.1.parsed, x.2) ∈ r.2.2.map (fun x => (x.1.parsed, x.2)) := List.mem_map_of_mem (f := fun x : CAtom × Info => (x.1.parsed, x.2)) hx
    rw [hk] at hm
    simp only [List.cons_append, List.mem_cons, List.mem_append, List.mem_map] at hm
    rcases hm with hm | hm | ⟨y, _, hm⟩
    · rw [show x.2 = c.head.2 from congrArg Prod.snd hm]; exact hp.1.1
    · exact hp.1.2 _ hm
    · rw [← (congrArg Prod.snd hm : noInfo = x.2)]; exact (by decide : PlainText noInfo.value)

theorem Placed.Plain.loadProgram {a : Placed} (h : a.Plain) {ord text} : (a.loadProgram ord text).1.Plain := by
  unfold Placed.loadProgram
  simp only
  split
  · rename_i p hp
    split
    · rename_i rs st hc
      exact ⟨Places.foldl_assign_plain (collect_plain (compileProgramAt_plain (C62_positions hp).1.plain hc)) h.builtins, h.builtins, h.places⟩
    · exact ⟨h.program, h.builtins, h.places⟩
  · exact ⟨h.program, h.builtins, h.places⟩

theorem compileQueryAt_infos {ord : HashOrder} {q : List (Node × Info)} {st r} (h : compileQueryAt ord q st = .ok r) :
    r.1.map (·.2) = q.map (·.2) := by
  simp only [compileQueryAt, bind_ok, pure_ok] at h
  obtain ⟨⟨cs, g⟩, h1, rfl⟩ := h
  have := congrArg (List.map (·.2)) (compileQueryAtomsAt_parsed h1)
  simpa [Function.comp_def] using this

theorem Placed.Plain.loadQuery {a : Placed} (h : a.Plain) {ord text} : (a.loadQuery ord text).1.Plain := by
  unfold Placed.loadQuery
  simp only
  split
  · rename_i q hq
    split
    · rename_i cs st hc
      refine ⟨h.program, h.builtins, ?_⟩
      simp only [List.mem_singleton, forall_eq]
      obtain ⟨⟨_, _, _, _, _, _, _, _, hl⟩, _⟩ := C62_query_positions hq
      have e := compileQueryAt_infos hc
      simp only at e
      rw [e]
      intro i hi
      obtain ⟨a, ha, rfl⟩ := List.mem_map.1 hi
      exact hl.plain a ha
    · exact ⟨h.program, h.builtins, h.places⟩
  · exact ⟨h.program, h.builtins, h.places⟩

theorem PServes.plain {a p} (h : PServes a p) : a.Plain := by
  induction h with
  | init h =>
    simp only [Placed.init, bind_ok, pure_ok] at h
    obtain ⟨o, _, rfl⟩ := h
    have : ∀ x ∈ builtinPlaces, ∀ r ∈ x.2, ∀ i ∈ r, PlainText i.value := by decide +kernel
    exact ⟨this, this, by simp⟩
  | @program a a' ord p text p' _ hl _ ih =>
    have : a' = (a.loadProgram ord text).1 := by rw [hl]
    rw [this]; exact ih.loadProgram
  | @rejected a a' ord p text l _ hl _ ih =>
    have : a' = (a.loadProgram ord text).1 := by rw [hl]
    rw [this]; exact ih.loadProgram
  | query _ ih => exact ih.loadQuery
  | answer _ h ih => exact ih.getAnswer h

theorem PServes.fed {a p} (h : PServes a p) : TextFed a.org := by
  induction h with
  | init h =>
    simp only [Placed.init, bind_ok, pure_ok] at h
    obtain ⟨o, h, rfl⟩ := h
    exact .init h
  | @program a a' ord p text p' _ hl _ ih =>
    have : a' = (a.loadProgram ord text).1 := by rw [hl]
    rw [this, Placed.loadProgram_org.1]; exact .program _ _ ih
  | @rejected a a' ord p text l _ hl _ ih =>
    have : a' = (a.loadProgram ord text).1 := by rw [hl]
    rw [this, Placed.loadProgram_org.1]; exact .program _ _ ih
  | query _ ih => rw [Placed.loadQuery_org.1]; exact .query _ _ ih
  | answer _ h ih => exact .answer ih (Placed.getAnswer_org h).1

theorem lineText_plain {i : Info} (h : PlainText i.value) : PlainText (Placed.lineText i) := by
  unfold Placed.lineText
  refine plainText_append.2 ⟨plainText_append.2 ⟨?_, by decide⟩, h⟩
  split
  · decide
  · have e : (Nat.repr i.lineBegin).toList = natStr i.lineBegin := by simp [natStr, Nat.repr]
    rw [e]
    exact Plain.toText (plain_append.2 ⟨by decide, natStr_plain _⟩)

theorem Placed.Plain.info {a : Placed} (h : a.Plain) {id i} (hi : a.info id = .ok i) : PlainText i.value := by
  simp only [Placed.info, bind_ok, orFault_ok] at hi
  obtain ⟨_, _, _, _, hi⟩ := hi
  exact h.own i (List.mem_of_mem_head? hi)

/-- **C68.** The texts that appear at the goals and at the alternatives contain white space besides. -/
theorem C68_tips {a : Placed} {p fuel t} (h : PServes a p) (ht : a.org.unificationTree fuel = .ok t) : ∀ u ∈ t.nodes,
    (∀ s, a.goalTip u = .ok s → PlainText s) ∧ ∀ s, a.clauseTip u = .ok (some s) → PlainText s := by
  intro u hu
  have hb := (C68_tree h.fed ht u hu).2.1
  obtain ⟨i, ks⟩ := u
  constructor
  · intro s hs
    simp only [Placed.goalTip, bind_ok, pure_ok] at hs
    obtain ⟨i, hi, rfl⟩ := hs
    exact lineText_plain (h.plain.info hi)
  · intro s hs
    simp only [Placed.clauseTip, bind_ok] at hs
    obtain ⟨j, hi, e, _, hs⟩ := hs
    have hl := lineText_plain (h.plain.info hi)
    split at hs
    · cases hs
    · split at hs
      · simp only [pure_ok, Option.some.injEq] at hs; subst hs; exact hl
      · simp only [pure_ok, Option.some.injEq] at hs; subst hs
        exact plainText_append.2 ⟨plainText_append.2 ⟨hl, by decide⟩, (flatMap_plain hb).toText⟩

/-! ## Concrete cases -/

/-- The characters that have a meaning in HTML do not occur in such texts. -/
theorem C68_no_markup {s : Name} (h : PlainText s) : ∀ c ∈ n!"<>&\"'", c ∉ s := by
  intro c hc hs
  have := h c hs
  revert this
  simp only [List.mem_cons, List.not_mem_nil, or_false] at hc
  rcases hc with rfl | rfl | rfl | rfl | rfl <;> decide

def Demo.marked : List Char := n!"p([a, f(X, -3)], 2+3).\n% <b>\np([1 | T], q).\n"

def Demo.markedRun : List Event :=
  [.run id Demo.marked n!"p(X, Y), Z is Y" ⟨List.replicate 40 false, false, false⟩, .next 0 ⟨List.replicate 40 false, false, false⟩,
    .next 0 ⟨List.replicate 40 false, false, false⟩]

/-- An answer with a number, an expression, a list and a structure, and an error that mentions a name. -/
theorem C68_sample : (Site.empty.steps 40 Demo.markedRun).toOption.map (fun s => s.pages.map (·.lines)) =
    some [[n!"[Z / 5] [Y / (2 + 3)] [X / [a,f(X,-3)]]", n!"ERROR: Arithmetic: q/0 is not a function", n!"false"]] := by decide +kernel

/-- The texts at the tree for the same program; the comment does not come into them. -/
theorem C68_sample_tips : Placed.demoTips Demo.marked n!"p(X, Y), Z is Y" 40 = some
    [some "Line 1: p(X, Y)", some "Line 1: p([a, f(X, -3)], 2+3)\n[X / [a, f(X, -3)]] [Y / (2 + 3)] ",
      some "Line 1: Z is Y", some "built-in predicate: Lhs is Rhs\n[Z / 5] [Lhs / 5] [Rhs / (2 + 3)] ",
      some "Line 3: p([1 | T], q)\n[X / [1, T]] [Y / q] ", some "Line 1: Z is Y", none] := by decide +kernel

/-- C68 applies to it. -/
example : ∃ s, Site.empty.steps 40 Demo.markedRun = .ok s ∧ s.pages.length = 1 ∧ ∀ p ∈ s.pages, p.lines.length = 3 ∧ ∀ l ∈ p.lines, Plain l := by
  have h := C68_sample
  cases hs : Site.empty.steps 40 Demo.markedRun with
  | error => rw [hs] at h; cases h
  | ok s =>
    rw [hs] at h
    simp only [Except.toOption, Option.map_some, Option.some.injEq] at h
    refine ⟨s, rfl, by simpa using congrArg List.length h, fun p hp => ⟨?_, C68_lines hs p hp⟩⟩
    have : p.lines ∈ s.pages.map (·.lines) := List.mem_map_of_mem hp
    rw [h] at this
    simp only [List.mem_singleton] at this
    rw [this]; rfl

end PBfs
