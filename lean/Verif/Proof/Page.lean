import Verif.Spec.Page
import Verif.Props.Search
import Verif.Props.Text
import Verif.Props.Console
/-! # Invariants of the web page -/
namespace PBfs
open Org

/-- A property of boxes that everything that can happen on the page preserves, if all events satisfy `C`. -/
structure PageInv (fuel : Nat) (C : Event → Prop) (P : Page → Prop) : Prop where
  start : ∀ {ord program query o c p}, C (.run ord program query c) → OpenedBy ord program query o →
    (⟨some o, query, [], false, false, [], 0⟩ : Page).runOnce fuel c .first = .ok p → P p
  timer : ∀ {p : Page} {e c j k p'}, C e → e.call? = some c → P p → p.polls[j]? = some k → { p with polls := p.polls.eraseIdx j }.runOnce fuel c k = .ok p' → P p'
  next : ∀ {p : Page} {e c p'}, C e → e.call? = some c → P p → p.nextOn = true ∨ p.treeOn = true → p.runOnce fuel c .next = .ok p' → P p'
  drawn : ∀ {p : Page} {n}, P p → P { p with drawn := n }
  close : ∀ {p : Page}, P p → P { p with org := none }

theorem Page.runOnce_treeOn {fuel : Nat} {c k} {p p' : Page} (h : p.runOnce fuel c k = .ok p') (ht : p.treeOn = true) : p'.treeOn = true := by
  have cb : ∀ {p : Page} {s}, p.treeOn = true → (p.callback k s).treeOn = true := by
    intro p s hp
    unfold Page.callback
    cases k
    · rfl
    · exact hp
  unfold Page.runOnce at h
  split at h
  · simp only [pure_ok] at h; subst h; exact ht
  · simp only [bind_ok] at h
    obtain ⟨⟨o, r⟩, _, h⟩ := h
    simp only at h
    split at h
    · split at h
      · split at h
        · simp only [pure_ok] at h; subst h; exact cb ht
        · simp only [pure_ok] at h; subst h; exact ht
      · simp only [pure_ok] at h; subst h; exact cb ht
    · simp only [pure_ok] at h; subst h; exact cb ht

structure SiteInv (P : Page → Prop) (s : Site) : Prop where
  all : ∀ p ∈ s.pages, P p
  view : ∀ i d, s.view = some (i, d) → ∃ p, s.pages[i]? = some p ∧ p.treeOn = true

theorem mem_set_cases {α} {l : List α} {i : Nat} {x y : α} (h : y ∈ l.set i x) : y ∈ l ∨ y = x := by
  rcases List.mem_or_eq_of_mem_set h with h | h
  · exact .inl h
  · exact .inr h

theorem SiteInv.put {P : Page → Prop} {s : Site} (h : SiteInv P s) {i p p'} (hp : s.pages[i]? = some p) (hp' : P p')
    (ht : p.treeOn = true → p'.treeOn = true) (newest : Nat) : SiteInv P { s with pages := s.pages.set i p', newest := newest } where
  all q hq := by
    rcases mem_set_cases hq with hq | rfl
    · exact h.all q hq
    · exact hp'
  view j d hv := by
    obtain ⟨q, hq, hqt⟩ := h.view j d hv
    simp only
    by_cases hj : i = j
    · subst hj
      rw [hp] at hq; cases hq
      exact ⟨p', by rw [List.getElem?_set_self (List.getElem?_eq_some_iff.1 hp).1], ht hqt⟩
    · exact ⟨q, by rw [List.getElem?_set_ne hj, hq], hqt⟩

theorem SiteInv.onNext {fuel C} {P : Page → Prop} (I : PageInv fuel C P) {s s' : Site} (h : SiteInv P s) {i e c} (hc : C e) (he : e.call? = some c)
    (ht : ∀ p, s.pages[i]? = some p → p.nextOn = true ∨ p.treeOn = true) (hs : s.onNext fuel i c = .ok s') : SiteInv P s' := by
  unfold Site.onNext at hs
  split at hs
  · simp only [pure_ok] at hs; subst hs; exact h
  · rename_i p hp
    simp only [bind_ok, pure_ok] at hs
    obtain ⟨p', h1, rfl⟩ := hs
    exact h.put hp (I.next hc he (h.all p (List.mem_of_getElem? hp)) (ht p hp) h1) (Page.runOnce_treeOn h1) _

theorem SiteInv.drawTree {fuel C} {P : Page → Prop} (I : PageInv fuel C P) {s s' : Site} (h : SiteInv P s) {i}
    (ht : ∀ p, s.pages[i]? = some p → p.treeOn = true) (hs : s.drawTree fuel i = .ok s') : SiteInv P s' := by
  unfold Site.drawTree at hs
  split at hs
  · simp only [pure_ok] at hs; subst hs; exact h
  · rename_i p hp
    split at hs
    · simp only [pure_ok] at hs; subst hs; exact h
    · simp only [bind_ok] at hs
      obtain ⟨t, _, hs⟩ := hs
      split at hs
      · simp only [pure_ok] at hs; subst hs; exact h
      · simp only [bind_ok, pure_ok] at hs
        obtain ⟨d, _, rfl⟩ := hs
        have := h.put hp (I.drawn (n := s.newest + 1) (h.all p (List.mem_of_getElem? hp))) (fun h => h) (s.newest + 1)
        refine ⟨this.all, fun j d' hv => ?_⟩
        simp only [Option.some.injEq, Prod.mk.injEq] at hv
        obtain ⟨rfl, rfl⟩ := hv
        exact ⟨_, List.getElem?_set_self (List.getElem?_eq_some_iff.1 hp).1, ht p hp⟩

theorem SiteInv.step {fuel C} {P : Page → Prop} (I : PageInv fuel C P) {s s' : Site} (h : SiteInv P s) {e : Event}
    (hc : C e) (hs : s.step fuel e = .ok s') : SiteInv P s' := by
  cases e with
  | run ord program query c =>
    simp only [Site.step] at hs
    split at hs
    · simp only [pure_ok] at hs; subst hs; exact h
    · rename_i o0 hi
      split at hs
      · rename_i o1 h1
        split at hs
        · rename_i o2 h2
          simp only [bind_ok, pure_ok] at hs
          obtain ⟨p, hp, rfl⟩ := hs
          refine ⟨fun q hq => ?_, fun j d hv => ?_⟩
          · simp only [List.mem_append, List.mem_singleton] at hq
            rcases hq with hq | rfl
            · exact h.all q hq
            · exact I.start hc ⟨o0, o1, hi, h1, h2⟩ hp
          · obtain ⟨q, hq, hqt⟩ := h.view j d hv
            exact ⟨q, by simp only; rw [List.getElem?_append_left (List.getElem?_eq_some_iff.1 hq).1, hq], hqt⟩
        · simp only [pure_ok] at hs; subst hs; exact ⟨h.all, h.view⟩
      · simp only [pure_ok] at hs; subst hs; exact ⟨h.all, h.view⟩
  | timer i j c =>
    simp only [Site.step] at hs
    split at hs
    · simp only [pure_ok] at hs; subst hs; exact h
    · rename_i p hp
      split at hs
      · simp only [pure_ok] at hs; subst hs; exact h
      · rename_i k hk
        simp only [bind_ok, pure_ok] at hs
        obtain ⟨p', h1, rfl⟩ := hs
        exact h.put hp (I.timer hc rfl (h.all p (List.mem_of_getElem? hp)) hk h1) (fun ht => Page.runOnce_treeOn h1 ht) _
  | next i c =>
    simp only [Site.step] at hs
    split at hs
    · simp only [pure_ok] at hs; subst hs; exact h
    · rename_i p hp
      split at hs
      · rename_i hn
        exact h.onNext I hc rfl (fun q hq => by rw [hp] at hq; cases hq; exact .inl hn.2) hs
      · simp only [pure_ok] at hs; subst hs; exact h
  | tree i =>
    simp only [Site.step] at hs
    split at hs
    · simp only [pure_ok] at hs; subst hs; exact h
    · rename_i p hp
      split at hs
      · rename_i hn
        exact h.drawTree I (fun q hq => by rw [hp] at hq; cases hq; exact hn.2) hs
      · simp only [pure_ok] at hs; subst hs; exact h
  | node n c =>
    simp only [Site.step] at hs
    split at hs
    · simp only [pure_ok] at hs; subst hs; exact h
    · rename_i i d hv
      split at hs
      · simp only [bind_ok] at hs
        obtain ⟨s1, h1, h2⟩ := hs
        obtain ⟨p, hp, ht⟩ := h.view i d hv
        have k1 := h.onNext I hc rfl (fun q hq => by rw [hp] at hq; cases hq; exact .inr ht) h1
        have hv1 : s1.view = some (i, d) := by
          unfold Site.onNext at h1
          rw [hp] at h1
          simp only [bind_ok, pure_ok] at h1
          obtain ⟨p', _, rfl⟩ := h1
          exact hv
        obtain ⟨p1, hp1, ht1⟩ := k1.view i d hv1
        exact k1.drawTree I (fun q hq => by rw [hp1] at hq; cases hq; exact ht1) h2
      · simp only [pure_ok] at hs; subst hs; exact h
  | close i =>
    simp only [Site.step] at hs
    split at hs
    · simp only [pure_ok] at hs; subst hs; exact h
    · rename_i p hp
      simp only [pure_ok] at hs; subst hs
      exact h.put hp (I.close (h.all p (List.mem_of_getElem? hp))) (fun h => h) _

theorem SiteInv.steps {fuel C} {P : Page → Prop} (I : PageInv fuel C P) : ∀ {es : List Event} {s s' : Site}, SiteInv P s →
    (∀ e ∈ es, C e) → s.steps fuel es = .ok s' → SiteInv P s'
  | [], s, s', h, _, hs => by simp only [Site.steps, pure_ok] at hs; subst hs; exact h
  | e :: es, s, s', h, hc, hs => by
    simp only [Site.steps, bind_ok] at hs
    obtain ⟨s1, h1, h2⟩ := hs
    exact SiteInv.steps I (h.step I (hc e (by simp)) h1) (fun e he => hc e (by simp [he])) h2

theorem PageInv.pages {fuel C} {P : Page → Prop} (I : PageInv fuel C P) {es : List Event} {s : Site}
    (hc : ∀ e ∈ es, C e) (hs : Site.empty.steps fuel es = .ok s) : ∀ p ∈ s.pages, P p :=
  (SiteInv.steps I (s := Site.empty) ⟨by simp [Site.empty], by simp [Site.empty]⟩ hc hs).all

/-! ## What the lines say -/

theorem loadProgramText_fst (ord : HashOrder) (text : List Char) (o : Org) : ∃ parsed, (o.loadProgramText ord text).1 = (o.loadProgram ord parsed).1 := by
  unfold Org.loadProgramText
  split
  · exact ⟨_, rfl⟩
  · exact ⟨_, rfl⟩

theorem OpenedBy.opened {ord program query o} (h : OpenedBy ord program query o) : Opened program query o := ⟨ord, h⟩

theorem Opened.reach {program query o} (h : Opened program query o) : Reach o := by
  obtain ⟨ord, o0, o1, h1, h2, h3⟩ := h
  have r0 := Reach.init h1
  obtain ⟨a, ha⟩ := loadProgramText_fst ord program o0
  rw [h2] at ha
  have r1 : Reach o1 := by simp only at ha; rw [ha]; exact .program ord a r0
  obtain ⟨b, hb⟩ := loadQueryText_fst ord query o1
  rw [h3] at hb
  simp only at hb; rw [hb]; exact .query ord b r1

theorem Org.Res.text_not_soft {r : Org.Res} (h : r.isReport = true ∨ r = .noAnswer) : r.text ≠ softLimitText := by
  cases r with
  | answer bs =>
    cases bs with
    | nil => decide
    | cons b bs =>
      obtain ⟨x, hx⟩ := bindingsStr_head (bs := b :: bs) (by simp)
      show answerStr (some (b :: bs)) ≠ _
      simp only [answerStr, hx]
      intro h
      have := (List.cons.inj h).1
      exact absurd this (by decide)
  | noAnswer => decide
  | error e =>
    rcases h with h | h
    · obtain ⟨kind, m⟩ := e
      intro h
      have := congrArg List.head? h
      cases kind <;> simp [Org.Res.text, RtErr.explanation, softLimitText] at this
    · cases h
  | running => simp [Org.Res.isReport] at h

/-- What the box has shown. -/
def Page.Told (fuel : Nat) (es : List Event) (p : Page) : Prop :=
  ∃ ord program c o0 o, Event.run ord program p.query c ∈ es ∧ OpenedBy ord program p.query o0 ∧ Reach o ∧ (p.org = none ∨ p.org = some o) ∧ ShowsSearch fuel o0 o p.lines

theorem ShowsSearch.same {fuel o0 o lines} (h : ShowsSearch fuel o0 o lines) {o' ts} (hi : o.iterate fuel ts.length = .ok (o', ts)) (hr : reports ts = []) :
    ShowsSearch fuel o0 o' lines := by
  obtain ⟨us, k, h1, h2, h3⟩ := h
  refine ⟨us ++ ts, k, ?_, fun hk => ?_, by rw [h3, reports_append, hr]; simp⟩
  · rw [List.length_append, iterate_add, h1]; simp only [ok_bind, hi]; rfl
  · have hq := h2 hk
    have : o' = o := by
      cases hts : ts.length with
      | zero => rw [hts] at hi; simp only [iterate, pure_ok, Prod.mk.injEq] at hi; exact hi.1.symm
      | succ n =>
        rw [hts] at hi
        unfold iterate at hi
        rw [hq] at hi
        simp only [pure_ok, Prod.mk.injEq] at hi; exact hi.1.symm
    rw [this]; exact hq

theorem iterate_idle {fuel : Nat} {o o' : Org} {n ts} (hq : o.queue = []) (h : o.iterate fuel n = .ok (o', ts)) : o' = o ∧ ts = [] := by
  cases n with
  | zero => simp only [iterate, pure_ok, Prod.mk.injEq] at h; exact ⟨h.1.symm, h.2.symm⟩
  | succ n =>
    unfold iterate at h
    rw [hq] at h
    simp only [pure_ok, Prod.mk.injEq] at h; exact ⟨h.1.symm, h.2.symm⟩

theorem ShowsSearch.getAnswer {fuel o0 o lines} (h : ShowsSearch fuel o0 o lines) (hr : Reach o) {clock o' r} (hg : o.getAnswer fuel clock = .ok (o', r)) :
    (r.isReport = true ∨ r = .noAnswer → ShowsSearch fuel o0 o' (lines ++ [r.text])) ∧ (r.isReport = false → ShowsSearch fuel o0 o' lines) := by
  obtain ⟨ts, hi, hrep, hno⟩ := (getAnswer_iterate hr.rinv).2 _ _ hg
  refine ⟨fun hk => ?_, fun hk => h.same hi (by rw [← hrep]; simp [hk])⟩
  have hsoft := Org.Res.text_not_soft hk
  rcases hk with hk | rfl
  · obtain ⟨us, k, h1, h2, h3⟩ := h
    have hk0 : k = 0 := by
      by_cases hk0 : k = 0
      · exact hk0
      · obtain ⟨_, rfl⟩ := iterate_idle (h2 hk0) hi
        simp [reports, hk] at hrep
    subst hk0
    refine ⟨us ++ ts, 0, ?_, by simp, ?_⟩
    · rw [List.length_append, iterate_add, h1]; simp only [ok_bind, hi]; rfl
    · simp only [List.filter_cons, hk, if_true, List.filter_nil] at hrep
      rw [List.filter_append, h3, reports_append, ← hrep]
      simp only [softLimitText] at hsoft
      simp [hsoft]
  · have hrn : reports ts = [] := by rw [← hrep]; rfl
    obtain ⟨us, k, h1, h2, h3⟩ := h.same hi hrn
    refine ⟨us, k + 1, h1, fun _ => hno rfl, ?_⟩
    rw [List.filter_append, h3, List.replicate_succ', List.append_assoc]
    congr 1

theorem ShowsSearch.soft {fuel o0 o lines} (h : ShowsSearch fuel o0 o lines) : ShowsSearch fuel o0 o (lines ++ [softLimitText]) := by
  obtain ⟨us, k, h1, h2, h3⟩ := h
  refine ⟨us, k, h1, h2, ?_⟩
  rw [List.filter_append, h3]
  simp [softLimitText]

theorem Page.callback_lines (k : Poll) (s : Name) (p : Page) : (p.callback k s).lines = p.lines ++ [s] ∧ (p.callback k s).org = p.org ∧
    (p.callback k s).query = p.query := by
  unfold Page.callback; cases k <;> exact ⟨rfl, rfl, rfl⟩

theorem Page.Told.runOnce {fuel : Nat} {es : List Event} {p p' : Page} {c k} (h : p.Told fuel es) (hc : c.exhausted = false) (hr : p.runOnce fuel c k = .ok p') : p'.Told fuel es := by
  obtain ⟨ord, program, cc, o0, o, h0, h1, h2, h3, h4⟩ := h
  unfold Page.runOnce at hr
  split at hr
  · simp only [pure_ok] at hr; subst hr; exact ⟨ord, program, cc, o0, o, h0, h1, h2, h3, h4⟩
  · rename_i o' ho
    rw [ho] at h3
    simp only [reduceCtorEq, Option.some.injEq, false_or] at h3
    subst h3
    simp only [bind_ok] at hr
    obtain ⟨⟨o1, r⟩, hg, hr⟩ := hr
    have hg' : o'.getAnswer fuel c.clock = .ok (o1, r) ∧ r ≠ .running := by
      unfold getAnswerOf at hg
      simp only [bind_ok, hc] at hg
      obtain ⟨⟨o2, r2⟩, hg2, hg⟩ := hg
      cases r2 <;> simp [pure, Except.pure] at hg
      all_goals (obtain ⟨rfl, rfl⟩ := hg; exact ⟨hg2, by simp⟩)
    obtain ⟨hg', hrun⟩ := hg'
    have hr1 : Reach o1 := .answer h2 hg'
    obtain ⟨k1, k2⟩ := h4.getAnswer h2 hg'
    have cb : ∀ {s}, ShowsSearch fuel o0 o1 (p.lines ++ [s]) → (({ p with org := some o1 } : Page).callback k s).Told fuel es := by
      intro s hs
      obtain ⟨e1, e2, e3⟩ := Page.callback_lines k s { p with org := some o1 }
      exact ⟨ord, program, cc, o0, o1, by rw [e3]; exact h0, by rw [e3]; exact h1, hr1, .inr e2, by rw [e1]; exact hs⟩
    simp only at hr
    split at hr
    · rename_i e
      split at hr
      · rename_i he
        have hnr : (Org.Res.error e).isReport = false := by simp [Org.Res.isReport, he]
        split at hr
        · simp only [pure_ok] at hr; subst hr
          exact cb (k2 hnr).soft
        · simp only [pure_ok] at hr; subst hr
          exact ⟨ord, program, cc, o0, o1, h0, h1, hr1, .inr rfl, k2 hnr⟩
      · rename_i he
        simp only [pure_ok] at hr; subst hr
        exact cb (k1 (.inl (by simp [Org.Res.isReport, he])))
    · rename_i hne
      simp only [pure_ok] at hr; subst hr
      cases r with
      | answer => exact cb (k1 (.inl rfl))
      | noAnswer => exact cb (k1 (.inr rfl))
      | error e => exact absurd rfl (hne e)
      | running => exact absurd rfl hrun

theorem told_inv (fuel : Nat) (es : List Event) :
    PageInv fuel (fun e => e ∈ es ∧ ∀ c, e.call? = some c → c.exhausted = false) (Page.Told fuel es) where
  start hc ho hp := by
    refine Page.Told.runOnce (p := ⟨some _, _, [], false, false, [], 0⟩) ?_ (hc.2 _ rfl) hp
    exact ⟨_, _, _, _, _, hc.1, ho, ho.opened.reach, .inr rfl, [], 0, rfl, by simp, rfl⟩
  timer hc he h _ hp := Page.Told.runOnce (by exact h) (hc.2 _ he) hp
  next hc he h _ hp := h.runOnce (hc.2 _ he) hp
  drawn h := h
  close h := by
    obtain ⟨ord, program, cc, o0, o, h0, h1, h2, _, h4⟩ := h
    exact ⟨ord, program, cc, o0, o, h0, h1, h2, .inl rfl, h4⟩

/-! ## The buttons -/

/-- What the buttons of a box say about its lines. -/
def Page.Tidy (p : Page) : Prop :=
  (p.lines = [] ∧ p.nextOn = false ∧ p.treeOn = false ∧ (p.polls = [.first] ∨ p.org = none)) ∨
  (p.lines ≠ [] ∧ p.treeOn = true ∧ Poll.first ∉ p.polls ∧ (p.nextOn = true ↔ n!"false" ∉ p.lines))

theorem Page.Tidy.callback {p : Page} {s : Name} :
    (p.lines = [] → p.nextOn = false → p.polls = [] → (p.callback .first s).Tidy) ∧
    (p.lines ≠ [] → p.treeOn = true → Poll.first ∉ p.polls → (p.nextOn = true ↔ n!"false" ∉ p.lines) → (p.callback .next s).Tidy) := by
  constructor
  · intro h1 h2 h3
    right
    simp only [Page.callback, h1, h2, h3, List.nil_append]
    refine ⟨by simp, trivial, by simp, ?_⟩
    by_cases hs : s = n!"false"
    · simp [hs]
    · have : n!"false" ≠ s := Ne.symm hs
      simp [hs, this]
  · intro h1 h2 h3 h4
    right
    simp only [Page.callback]
    refine ⟨by simp, h2, h3, ?_⟩
    by_cases hs : s = n!"false"
    · simp [hs]
    · have : n!"false" ≠ s := Ne.symm hs
      simp [hs, this, h4]

theorem Page.runOnce_cases {fuel : Nat} {c k} {p p' : Page} (h : p.runOnce fuel c k = .ok p') :
    (p.org = none ∧ p' = p) ∨ (∃ o s, p.org ≠ none ∧ p' = { p with org := some o }.callback k s) ∨
    (∃ o, p.org ≠ none ∧ p' = { p with org := some o, polls := p.polls ++ [k] }) := by
  unfold Page.runOnce at h
  split at h
  · rename_i ho
    simp only [pure_ok] at h; exact .inl ⟨ho, h.symm⟩
  · rename_i o0 ho
    have hne : p.org ≠ none := by rw [ho]; simp
    simp only [bind_ok] at h
    obtain ⟨⟨o, r⟩, _, h⟩ := h
    simp only at h
    split at h
    · split at h
      · split at h
        · simp only [pure_ok] at h; exact .inr (.inl ⟨_, _, hne, h.symm⟩)
        · simp only [pure_ok] at h; exact .inr (.inr ⟨_, hne, h.symm⟩)
      · simp only [pure_ok] at h; exact .inr (.inl ⟨_, _, hne, h.symm⟩)
    · simp only [pure_ok] at h; exact .inr (.inl ⟨_, _, hne, h.symm⟩)

theorem tidy_inv (fuel : Nat) : PageInv fuel (fun _ => True) Page.Tidy where
  start _ _ hp := by
    rcases Page.runOnce_cases hp with ⟨h, _⟩ | ⟨o, s, hne, rfl⟩ | ⟨o, hne, rfl⟩
    · cases h
    · exact Page.Tidy.callback.1 rfl rfl rfl
    · exact .inl ⟨rfl, rfl, rfl, .inl rfl⟩
  timer {p e c j k p'} _ _ h hk hp := by
    have hmem : k ∈ p.polls := List.mem_of_getElem? hk
    rcases Page.runOnce_cases hp with ⟨h1, rfl⟩ | ⟨o, s, hne, rfl⟩ | ⟨o, hne, rfl⟩
    · rcases h with ⟨a, b, c, _⟩ | ⟨a, b, c, d⟩
      · exact .inl ⟨a, b, c, .inr h1⟩
      · exact .inr ⟨a, b, fun hm => c (List.mem_of_mem_eraseIdx hm), d⟩
    · rcases h with ⟨a, b, c, d⟩ | ⟨a, b, c, d⟩
      · rcases d with d | d
        · rw [d] at hmem hk
          simp only [List.mem_singleton] at hmem
          subst hmem
          have hj : j = 0 := by
            have := (List.getElem?_eq_some_iff.1 hk).1
            simp at this; exact this
          subst hj
          exact Page.Tidy.callback.1 a b (by simp [d])
        · exact absurd d hne
      · cases k with
        | first => exact absurd hmem c
        | next => exact Page.Tidy.callback.2 a b (fun hm => c (List.mem_of_mem_eraseIdx hm)) d
    · rcases h with ⟨a, b, c, d⟩ | ⟨a, b, c, d⟩
      · rcases d with d | d
        · rw [d] at hmem hk
          simp only [List.mem_singleton] at hmem
          subst hmem
          have hj : j = 0 := by
            have := (List.getElem?_eq_some_iff.1 hk).1
            simp at this; exact this
          subst hj
          exact .inl ⟨a, b, c, .inl (by simp [d])⟩
        · exact absurd d hne
      · refine .inr ⟨a, b, ?_, d⟩
        cases k with
        | first => exact absurd hmem c
        | next =>
          simp only [List.mem_append, List.mem_singleton, reduceCtorEq, or_false]
          exact fun hm => c (List.mem_of_mem_eraseIdx hm)
  next {p e c p'} _ _ h hb hp := by
    have hl : p.lines ≠ [] ∧ p.treeOn = true ∧ Poll.first ∉ p.polls ∧ (p.nextOn = true ↔ n!"false" ∉ p.lines) := by
      rcases h with ⟨_, h1, h2, _⟩ | h
      · rcases hb with hb | hb
        · rw [h1] at hb; cases hb
        · rw [h2] at hb; cases hb
      · exact h
    obtain ⟨h1, h2, h3, h4⟩ := hl
    rcases Page.runOnce_cases hp with ⟨_, rfl⟩ | ⟨o, s, hne, rfl⟩ | ⟨o, hne, rfl⟩
    · exact h
    · exact Page.Tidy.callback.2 h1 h2 h3 h4
    · exact .inr ⟨h1, h2, by simp [h3], h4⟩
  drawn h := h
  close h := by
    rcases h with ⟨a, b, c, _⟩ | h
    · exact .inl ⟨a, b, c, .inr rfl⟩
    · exact .inr h

/-! ## The tree view -/

/-- A box that counts as drawn is the one that is drawn. -/
structure DrawnInv (fuel : Nat) (s : Site) : Prop where
  pos : 0 < s.newest
  le : ∀ (i : Nat) (p : Page), s.pages[i]? = some p → p.drawn ≤ s.newest
  shows : ∀ (i : Nat) (p : Page), s.pages[i]? = some p → p.drawn = s.newest → p.polls = [] ∧ ∃ d, s.view = some (i, d) ∧
    ∀ o, p.org = some o → ∃ t, o.unificationTree fuel = .ok t ∧ o.draw fuel t = .ok d

theorem Page.runOnce_drawn {fuel : Nat} {c k} {p p' : Page} (h : p.runOnce fuel c k = .ok p') : p'.drawn = p.drawn := by
  rcases Page.runOnce_cases h with ⟨_, rfl⟩ | ⟨o, s, _, rfl⟩ | ⟨o, _, rfl⟩
  · rfl
  · cases k <;> rfl
  · rfl

theorem getElem?_set_cases {α} {l : List α} {i j : Nat} {x y : α} (h : (l.set i x)[j]? = some y) : (j = i ∧ y = x) ∨ (j ≠ i ∧ l[j]? = some y) := by
  by_cases hj : j = i
  · subst hj
    rw [List.getElem?_set] at h
    simp only [if_true] at h
    split at h
    · exact .inl ⟨rfl, (Option.some.inj h).symm⟩
    · cases h
  · rw [List.getElem?_set_ne (Ne.symm hj)] at h
    exact .inr ⟨hj, h⟩

theorem DrawnInv.onNext {fuel : Nat} {s s' : Site} {i c} (h : DrawnInv fuel s) (hs : s.onNext fuel i c = .ok s') : DrawnInv fuel s' := by
  unfold Site.onNext at hs
  split at hs
  · simp only [pure_ok] at hs; subst hs; exact h
  · rename_i p hp
    simp only [bind_ok, pure_ok] at hs
    obtain ⟨p', h1, rfl⟩ := hs
    have hd := Page.runOnce_drawn h1
    have hle : ∀ (j : Nat) (q : Page), (s.pages.set i p')[j]? = some q → q.drawn ≤ s.newest := by
      intro j q hq
      rcases getElem?_set_cases hq with ⟨_, rfl⟩ | ⟨_, hq⟩
      · rw [hd]; exact h.le i p hp
      · exact h.le j q hq
    refine ⟨Nat.succ_pos _, fun j q hq => Nat.le_succ_of_le (hle j q hq), fun j q hq hn => ?_⟩
    have := hle j q hq
    simp only at hn
    omega

/-- What drawing does: afterwards the tree of the box is shown, and only this box counts as drawn. -/
theorem DrawnInv.drawTree {fuel : Nat} {s s' : Site} {i p o} (h : DrawnInv fuel s) (hp : s.pages[i]? = some p) (ho : p.org = some o)
    (hs : s.drawTree fuel i = .ok s') : s'.ShowsTree fuel i ∧ ((∀ q, s'.pages[i]? = some q → q.polls = []) → DrawnInv fuel s') := by
  unfold Site.drawTree at hs
  simp only [hp, ho, bind_ok] at hs
  obtain ⟨t, ht, hs⟩ := hs
  split at hs
  · rename_i hn
    simp only [pure_ok] at hs; subst hs
    obtain ⟨_, d, hv, hd⟩ := h.shows i p hp hn
    obtain ⟨t', ht', hd'⟩ := hd o ho
    exact ⟨⟨p, o, t', d, hp, ho, ht', hd', hv⟩, fun _ => h⟩
  · simp only [bind_ok, pure_ok] at hs
    obtain ⟨d, hd, rfl⟩ := hs
    have hi := (List.getElem?_eq_some_iff.1 hp).1
    refine ⟨⟨_, o, t, d, List.getElem?_set_self hi, rfl, ht, hd, rfl⟩, fun hq => ⟨Nat.succ_pos _, fun j q hj => ?_, fun j q hj hn => ?_⟩⟩
    · rcases getElem?_set_cases hj with ⟨_, rfl⟩ | ⟨_, hj⟩
      · exact Nat.le_refl _
      · exact Nat.le_succ_of_le (h.le j q hj)
    · rcases getElem?_set_cases hj with ⟨rfl, rfl⟩ | ⟨_, hj⟩
      · refine ⟨hq _ (List.getElem?_set_self hi), d, rfl, fun o' ho' => ?_⟩
        have : o' = o := by simp only [Option.some.injEq] at ho'; exact ho'.symm
        subst this; exact ⟨t, ht, hd⟩
      · have := h.le j q hj
        simp only at hn
        omega

theorem Site.drawTree_none {fuel : Nat} {s s' : Site} {i} (h : ∀ p, s.pages[i]? = some p → p.org = none) (hs : s.drawTree fuel i = .ok s') : s' = s := by
  unfold Site.drawTree at hs
  split at hs
  · simp only [pure_ok] at hs; exact hs.symm
  · rename_i p hp
    rw [h p hp] at hs
    simp only [pure_ok] at hs; exact hs.symm

theorem DrawnInv.drawTree' {fuel : Nat} {s s' : Site} {i} (h : DrawnInv fuel s) (hs : s.drawTree fuel i = .ok s')
    (hq : ∀ j d q, s'.view = some (j, d) → s'.pages[j]? = some q → q.polls = []) : DrawnInv fuel s' := by
  by_cases hn : ∀ p, s.pages[i]? = some p → p.org = none
  · rw [Site.drawTree_none hn hs]; exact h
  · have : ∃ p o, s.pages[i]? = some p ∧ p.org = some o := by
      cases hp : s.pages[i]? with
      | none => exact absurd (fun p h => by rw [hp] at h; cases h) hn
      | some p =>
        cases ho : p.org with
        | none => exact absurd (fun q h => by rw [hp] at h; cases h; exact ho) hn
        | some o => exact ⟨p, o, rfl, ho⟩
    obtain ⟨p, o, hp, ho⟩ := this
    obtain ⟨⟨_, _, _, d, _, _, _, _, hv⟩, h2⟩ := h.drawTree hp ho hs
    exact h2 fun q hj => hq i d q hv hj

theorem DrawnInv.step {fuel : Nat} {s s' : Site} {e : Event} (h : DrawnInv fuel s) (hs : s.step fuel e = .ok s')
    (hq : (∃ i, e = .tree i) ∨ (∃ n c, e = .node n c) → ∀ i d p, s'.view = some (i, d) → s'.pages[i]? = some p → p.polls = []) : DrawnInv fuel s' := by
  cases e with
  | run ord program query c =>
    simp only [Site.step] at hs
    split at hs
    · simp only [pure_ok] at hs; subst hs; exact h
    · split at hs
      · split at hs
        · simp only [bind_ok, pure_ok] at hs
          obtain ⟨p, hp, rfl⟩ := hs
          have hd := Page.runOnce_drawn hp
          have hle : ∀ (j : Nat) (q : Page), (s.pages ++ [p])[j]? = some q → q.drawn ≤ s.newest := by
            intro j q hj
            rcases List.mem_append.1 (List.mem_of_getElem? hj) with hm | hm
            · obtain ⟨k, hk⟩ := List.mem_iff_getElem?.1 hm
              exact h.le k q hk
            · simp only [List.mem_singleton] at hm
              rw [hm, hd]; exact Nat.zero_le _
          refine ⟨Nat.succ_pos _, fun j q hj => Nat.le_succ_of_le (hle j q hj), fun j q hj hn => ?_⟩
          have := hle j q hj
          simp only at hn
          omega
        · simp only [pure_ok] at hs; subst hs; exact ⟨h.pos, h.le, h.shows⟩
      · simp only [pure_ok] at hs; subst hs; exact ⟨h.pos, h.le, h.shows⟩
  | timer i j c =>
    simp only [Site.step] at hs
    split at hs
    · simp only [pure_ok] at hs; subst hs; exact h
    · rename_i p hp
      split at hs
      · simp only [pure_ok] at hs; subst hs; exact h
      · rename_i k hk
        simp only [bind_ok, pure_ok] at hs
        obtain ⟨p', h1, rfl⟩ := hs
        have hd : p'.drawn = p.drawn := (Page.runOnce_drawn h1).trans rfl
        refine ⟨h.pos, fun a q ha => ?_, fun a q ha hn => ?_⟩
        · rcases getElem?_set_cases ha with ⟨_, rfl⟩ | ⟨_, ha⟩
          · rw [hd]; exact h.le i p hp
          · exact h.le a q ha
        · rcases getElem?_set_cases ha with ⟨_, rfl⟩ | ⟨_, ha⟩
          · rw [hd] at hn
            rw [(h.shows i p hp hn).1] at hk
            cases hk
          · exact h.shows a q ha hn
  | next i c =>
    simp only [Site.step] at hs
    split at hs
    · simp only [pure_ok] at hs; subst hs; exact h
    · split at hs
      · exact h.onNext hs
      · simp only [pure_ok] at hs; subst hs; exact h
  | tree i =>
    have hq' := hq (.inl ⟨i, rfl⟩)
    simp only [Site.step] at hs
    split at hs
    · simp only [pure_ok] at hs; subst hs; exact h
    · split at hs
      · exact h.drawTree' hs hq'
      · simp only [pure_ok] at hs; subst hs; exact h
  | node n c =>
    have hq' := hq (.inr ⟨n, c, rfl⟩)
    simp only [Site.step] at hs
    split at hs
    · simp only [pure_ok] at hs; subst hs; exact h
    · split at hs
      · simp only [bind_ok] at hs
        obtain ⟨s1, h1, h2⟩ := hs
        exact (h.onNext h1).drawTree' h2 hq'
      · simp only [pure_ok] at hs; subst hs; exact h
  | close i =>
    simp only [Site.step] at hs
    split at hs
    · simp only [pure_ok] at hs; subst hs; exact h
    · rename_i p hp
      simp only [pure_ok] at hs; subst hs
      refine ⟨h.pos, fun a q ha => ?_, fun a q ha hn => ?_⟩
      · rcases getElem?_set_cases ha with ⟨_, rfl⟩ | ⟨_, ha⟩
        · exact h.le i p hp
        · exact h.le a q ha
      · rcases getElem?_set_cases ha with ⟨rfl, rfl⟩ | ⟨_, ha⟩
        · obtain ⟨g1, d, g2, _⟩ := h.shows a p hp hn
          exact ⟨g1, d, g2, fun o ho => by cases ho⟩
        · exact h.shows a q ha hn

theorem DrawnInv.steps {fuel : Nat} : ∀ {es : List Event} {s s' : Site}, DrawnInv fuel s → Settled fuel s es → s.steps fuel es = .ok s' → DrawnInv fuel s'
  | [], s, s', h, _, hs => by simp only [Site.steps, pure_ok] at hs; subst hs; exact h
  | e :: es, s, s', h, hc, hs => by
    simp only [Site.steps, bind_ok] at hs
    obtain ⟨s1, h1, h2⟩ := hs
    obtain ⟨g1, g2⟩ := hc s1 h1
    exact DrawnInv.steps (h.step h1 g1) g2 h2

end PBfs
