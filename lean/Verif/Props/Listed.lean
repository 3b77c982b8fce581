import Verif.Spec.Since
import Verif.Proof.Listed
import Verif.Props.Sound
/-! # C35: every variable of the query once, for all programs -/
namespace PBfs
open Org

/-- The variables recorded for a goal of a query are its variables. -/
theorem compileQueryAtoms_names {yOf al fq} : ∀ {atoms g cs g'}, compileQueryAtoms yOf al fq atoms g = .ok (cs, g') →
    ∀ v, namesOf cs v ↔ ∃ a ∈ atoms, v ∈ Node.varss a.children
  | [], g, cs, g', h, v => by
    simp only [compileQueryAtoms, pure_ok, Prod.mk.injEq] at h
    rw [← h.1]; simp [namesOf]
  | a :: as, g, cs, g', h, v => by
    simp only [compileQueryAtoms, compileQueryAtom, bind_ok, pure_ok, Prod.mk.injEq] at h
    obtain ⟨⟨c, g1⟩, ⟨⟨is, g0⟩, h1, h1'⟩, ⟨cs', g2⟩, h2, rfl, _⟩ := h
    simp only [Prod.mk.injEq] at h1'
    obtain ⟨rfl, _⟩ := h1'
    have ih := compileQueryAtoms_names h2 v
    have N := assignSingle_nodes a
    obtain ⟨v1, v2⟩ := varRegs_spec (yOf := yOf) (as := (assignSingle a).1) (hd := [])
    have hv : v ∈ (varRegs yOf (assignSingle a).1 []).map (·.name) ↔ v ∈ Node.varss a.children := by
      rw [← varss_atomArgs, ← N.itemVar]
      constructor
      · intro hv
        obtain ⟨w, hw, rfl⟩ := List.mem_map.1 hv
        obtain ⟨a, ha, hn, _⟩ := v1 w hw
        exact ⟨a, ha, hn⟩
      · rintro ⟨a, ha, hn⟩
        exact (v2 a ha v hn).resolve_left (by simp)
    unfold namesOf at ih ⊢
    simp only [List.mem_cons, exists_eq_or_imp]
    rw [ih, hv]

theorem queryForm_not_dealloc {atoms q} (h : QueryForm atoms q) (hg : ∀ a ∈ atoms, a.goal = true) : ∀ c ∈ q, c.isDealloc = false := by
  obtain ⟨h1, _, rfl | ⟨n, g, gs, rfl, ⟨ds, h2, _, h3⟩, h4⟩⟩ := h
  · simp
  · have hgo : ∀ c ∈ g :: gs, c.parsed.goal = true := fun c hc => hg _ (by rw [← h1]; exact List.mem_map.2 ⟨c, hc, rfl⟩)
    intro c hc
    simp only [List.mem_cons] at hc
    rcases hc with rfl | hc
    · have := h3 (hgo c (by simp))
      have := List.length_pos_iff.2 this
      simp only [CAtom.isDealloc, h2, List.length_append, List.length_cons, List.length_nil]
      simp; omega
    · obtain ⟨ds, h2, _, h3⟩ := h4 c hc
      have := h3 (hgo c (by simp [hc]))
      have := List.length_pos_iff.2 this
      simp only [CAtom.isDealloc, h2, List.length_append, List.length_cons, List.length_nil]
      simp; omega

theorem allDealloc_true {o : Org} : ∀ {ts}, o.allDealloc ts = .ok true → ∀ t ∈ ts, t.atom.isDealloc = true
  | [], _ => by simp
  | t :: ts, h => by
    simp only [allDealloc, bind_ok] at h
    obtain ⟨a, ha, h⟩ := h
    have hat : a = t.atom := by
      unfold code at ha
      split at ha
      · cases ha
      · cases ha; rfl
    subst hat
    split at h
    · rename_i hd
      intro u hu
      simp only [List.mem_cons] at hu
      rcases hu with rfl | hu
      · exact hd
      · exact allDealloc_true h u hu
    · cases h

/-- The names in an answer are those recorded for the goals of the query. -/
theorem turn_names {o o' : Org} {fuel bs anc lab} (hf : FInv o) (w : WInv o anc) (k : KInv o lab) (hd : ∀ c ∈ o.query, c.isDealloc = false) (ht : o.turn fuel = .ok (o', .answer bs)) :
    (bs.map (·.name)).Nodup ∧ ∀ v, v ∈ bs.map (·.name) ↔ namesOf o.query v := by
  have inv := hf.rinv.inv
  cases hq : o.queue with
  | nil => simp only [Org.turn, hq, pure_ok, Prod.mk.injEq] at ht; cases ht.2
  | cons id q =>
    have hm : id ∈ o.queue := by simp [hq]
    obtain ⟨e, he, hrun, _⟩ := inv.qrun id hm
    cases hc : e.codes with
    | nil => simp [Org.turn, hq, turnOf, Org.exec, he, hc] at ht
    | cons t ts =>
      rcases hf.front hq he hc with ⟨ds, h1, h2, _, h4⟩ | hg | ⟨h1, env, es', h2, h3⟩
      · obtain ⟨e1, hrd, hst, hx⟩ := turn_proceed inv hq he hc h1 h2 ht
        rcases hx with ⟨_, k2, _⟩ | ⟨err, _, _, k3, _⟩ | ⟨_, k2, ⟨bs', k3, k4⟩, rfl⟩ | ⟨_, _, k3, _⟩
        · cases k2
        · cases k3
        · cases k3
          have hlab : lab id = false := by
            cases hl : lab id with
            | false => rfl
            | true =>
              have := k.goal _ _ he hl hm t (by simp [hc])
              rw [(head?_of_proceed h1).1] at this; cases this
          have fr := runData_frame hrd
          have hlt : id < o.execs.length := (List.getElem?_eq_some_iff.1 he).1
          simp only [answer, Org.exec, orFault_ok, bind_ok] at k4
          obtain ⟨ea, hea, k4⟩ := k4
          rw [List.getElem?_set_self hlt] at hea
          cases hea
          have hpar : e1.parent = e.parent := fr.parent
          cases hp : e.parent with
          | none =>
            split at k4
            · cases k4
            · rename_i p hp'
              rw [show ({ e1.clear with state := .success } : Exec).parent = e.parent from hpar, hp] at hp'; cases hp'
          | some p =>
            have k5 : ∃ L, collectSubs { o with queue := q, execs := o.execs.set id { e1.clear with state := .success } } (p + 1) p = .ok L ∧
                ∃ rep, renderSubs rep L [] = .ok bs := by
              split at k4
              · rename_i hp'
                rw [show ({ e1.clear with state := .success } : Exec).parent = e.parent from hpar, hp] at hp'; cases hp'
              · rename_i p' hp'
                rw [show ({ e1.clear with state := .success } : Exec).parent = e.parent from hpar, hp] at hp'; cases hp'
                simp only [bind_ok] at k4
                obtain ⟨L, h1, h2⟩ := k4
                exact ⟨L, h1, _, h2⟩
            clear k4
            obtain ⟨L, hL, _, hrs⟩ := k5
            have hlp : lab p = true := by
              have := k.alt _ _ _ he hp
              rw [hlab] at this
              cases hh : lab p
              · rw [hh] at this; cases this
              · rfl
            obtain ⟨hplt, ep, hep, _⟩ := inv.par _ _ _ he hp
            have hep' : (o.execs.set id { e1.clear with state := .success })[p]? = some ep := by
              rw [List.getElem?_set_ne (by omega)]; exact hep
            have wset : WInv { o with queue := q, execs := o.execs.set id { e1.clear with state := .success } } anc :=
              w.set inv he hq rfl hpar (by simp [Exec.clear, fr.codes]; intro u hu; exact List.mem_of_mem_take hu) (.inl rfl)
                (by have := inv.qnd; rw [hq] at this; exact (List.nodup_cons.1 this).1) rfl rfl rfl
            have kset : KInv { o with queue := q, execs := o.execs.set id { e1.clear with state := .success } } lab :=
              k.set he hq rfl hpar fr.children (by simp)
                (fun _ => ⟨t, [], by simp [Exec.clear, fr.codes]; rw [show (e.start t.atom).codes = e.codes from rfl, hc]; rfl, by rw [(head?_of_proceed h1).1]; rfl⟩)
                (.inl rfl) (by have := inv.qnd; rw [hq] at this; exact (List.nodup_cons.1 this).1) (fun hl => by rw [hlab] at hl; cases hl)
            have hn := collectSubs_names wset kset hL hep' hlp
            have P := renderSubs_prints (L0 := []) ⟨by simp, by simp, by simp⟩ hrs
            rw [List.nil_append] at P
            -- all goals of the query lie on the way to the root
            have hall : anc p ++ fqs ep.codes = o.query := by
              rw [← (w.step _ _ _ _ he hp hep).1, ← w.queue _ _ hm he]
              rw [fqs_nil, List.append_nil]
              intro u hu
              cases hfq : u.atom.fromQuery with
              | false => rfl
              | true =>
                exfalso
                have hmem : u.atom ∈ o.query := by
                  rw [← w.queue _ _ hm he]
                  refine List.mem_append_right _ ?_
                  simp only [fqs, List.mem_filter, List.mem_map]
                  exact ⟨⟨u, hu, rfl⟩, hfq⟩
                rw [hc] at hu
                simp only [List.mem_cons] at hu
                rcases hu with rfl | hu
                · have := w.head _ _ he u (by simp [hc]) hfq
                  rw [(head?_of_proceed h1).1] at this; cases this
                · have := allDealloc_true k2 u hu
                  rw [hd _ hmem] at this; cases this
            rw [hall] at hn
            refine ⟨P.once, fun v => ⟨fun hv => ?_, fun hv => ?_⟩⟩
            · obtain ⟨b, hb, rfl⟩ := List.mem_map.1 hv
              obtain ⟨a, h1, _⟩ := P.value b hb
              exact (hn _).1 (List.mem_map.2 ⟨_, h1, rfl⟩)
            · obtain ⟨x, hx, rfl⟩ := List.mem_map.1 ((hn v).2 hv)
              exact P.all x hx
        · cases k3
      · obtain ⟨ds, h1, h2, _, h3⟩ := hg
        obtain ⟨e1, hr, k1, _⟩ := turn_call inv hq he hc h1 h2 (fun e1 hr => (h3 _ _ _ (e.start t.atom) _ rfl hrun hr).1) ht
        cases k1
      · obtain ⟨_, _, _, k1, _⟩ := turn_dealloc inv hq he hc (by rw [h1]; rfl) ht
        cases k1

theorem turn_query {o o' : Org} {fuel r} (hf : FInv o) (ht : o.turn fuel = .ok (o', r)) : o'.query = o.query := by
  cases hq : o.queue with
  | nil => simp only [Org.turn, hq, pure_ok, Prod.mk.injEq] at ht; rw [← ht.1]
  | cons id q =>
    cases turn_desc hf.rinv.inv hq ht <;> rfl

theorem getAnswer_names {fuel clock r anc lab} {o o' : Org} (hf : FInv o) (w : WInv o anc) (k : KInv o lab)
    (hd : ∀ c ∈ o.query, c.isDealloc = false) (ha : o.getAnswer fuel clock = .ok (o', r)) :
    o'.query = o.query ∧ ∀ bs, r = .answer bs → (bs.map (·.name)).Nodup ∧ ∀ v, v ∈ bs.map (·.name) ↔ namesOf o.query v := by
  induction clock generalizing o anc lab with
  | nil =>
    unfold Org.getAnswer at ha
    split at ha <;> (simp only [pure_ok, Prod.mk.injEq] at ha; rw [← ha.1, ← ha.2]; exact ⟨rfl, by intro bs h; cases h⟩)
  | cons c clock ih =>
    unfold Org.getAnswer at ha
    split at ha
    · simp only [pure_ok, Prod.mk.injEq] at ha; rw [← ha.1, ← ha.2]; exact ⟨rfl, by intro bs h; cases h⟩
    · cases c with
      | true => simp only [pure_ok, Prod.mk.injEq] at ha; rw [← ha.1, ← ha.2]; exact ⟨rfl, by intro bs h; cases h⟩
      | false =>
        simp only [bind_ok] at ha
        obtain ⟨⟨o1, t⟩, h1, ha⟩ := ha
        have hq := turn_query hf h1
        cases t with
        | «continue» =>
          obtain ⟨anc', w'⟩ := w.turn hf h1
          obtain ⟨lab', k'⟩ := k.turn hf h1
          have := ih (hf.turn h1) w' k' (by rw [hq]; exact hd) ha
          rw [hq] at this
          exact this
        | answer bs =>
          simp only [pure_ok, Prod.mk.injEq] at ha; rw [← ha.1, ← ha.2]
          refine ⟨hq, fun bs' h => ?_⟩
          cases h
          exact turn_names hf w k hd h1
        | error => simp only [pure_ok, Prod.mk.injEq] at ha; rw [← ha.1, ← ha.2]; exact ⟨hq, by intro bs h; cases h⟩

theorem Since.query {o o'} (h : Since o o') (hr : Reach o) (hd : ∀ c ∈ o.query, c.isDealloc = false) : o'.query = o.query := by
  induction h with
  | refl => rfl
  | answer hs ha ih =>
    have hr' := hs.reach hr
    obtain ⟨_, w⟩ := hr'.winv
    obtain ⟨_, k⟩ := hr'.kinv
    exact (getAnswer_names hr'.finv w k (by rw [ih]; exact hd) ha).1.trans ih
  | program ord parsed hs ih =>
    rw [← ih]
    unfold Org.loadProgram
    split
    · rfl
    · split <;> rfl

/-- **C35**: whatever programs were loaded before and are loaded meanwhile, every answer to a query contains
each variable of the query once, and nothing else. -/
theorem C35_each_variable_once {o o1 o2 o3 : Org} {ord atoms fuel clock bs} (hr : Reach o)
    (hl : o.loadQuery ord (some atoms) = (o1, .ok)) (hg : ∀ a ∈ atoms, Node.goal a = true)
    (hs : Since o1 o2) (ha : o2.getAnswer fuel clock = .ok (o3, .answer bs)) :
    (bs.map (·.name)).Nodup ∧ ∀ v, v ∈ bs.map (·.name) ↔ ∃ a ∈ atoms, v ∈ Node.varss a.children := by
  have hr1 : Reach o1 := by have := Reach.query (o := o) ord (some atoms) hr; rw [hl] at this; exact this
  have hr2 := hs.reach hr1
  obtain ⟨q, hq1, hq2⟩ : ∃ q st, compileQuery ord atoms o.st = .ok (q, st) ∧ o1.query = q := by
    unfold Org.loadQuery at hl
    simp only at hl
    split at hl
    · rename_i e _ _
      cases e <;> simp [Load.ofErr] at hl
    · rename_i q st h
      cases hl
      exact ⟨q, st, h, rfl⟩
  obtain ⟨hc, rfl⟩ := hq2
  have hd := queryForm_not_dealloc (compileQuery_form hc) hg
  have hqq := hs.query hr1 hd
  obtain ⟨_, w⟩ := hr2.winv
  obtain ⟨_, k⟩ := hr2.kinv
  obtain ⟨h1, h2⟩ := (getAnswer_names hr2.finv w k (by rw [hqq]; exact hd) ha).2 bs rfl
  refine ⟨h1, fun v => (h2 v).trans ?_⟩
  rw [hqq]
  simp only [compileQuery, bind_ok, pure_ok, Prod.mk.injEq] at hc
  obtain ⟨⟨cs, g⟩, hc, hcs, _⟩ := hc
  rw [← hcs]
  exact compileQueryAtoms_names hc v

namespace ListedExample

/-- `p(X), q(Y,Z,X)` for the program `SoundExamples.clobber`, one clause of which is compiled wrongly. -/
def query : List Node := [.fn n!"p" [.var n!"X"], .fn n!"q" [.var n!"Y", .var n!"Z", .var n!"X"]]

/-- The hypotheses of C35 are met by a program for which C01 fails and a query that repeats a variable. -/
example : Reach (Org.init0.loadProgram id (some SoundExamples.clobber)).1 ∧
    ((Org.init0.loadProgram id (some SoundExamples.clobber)).1.loadQuery id (some query)).2 = .ok ∧
    (∀ a ∈ query, Node.goal a = true) ∧
    (((Org.init0.loadProgram id (some SoundExamples.clobber)).1.loadQuery id (some query)).1.getAnswer 20 (List.replicate 20 false)).toOption.map (·.2) =
      some (.answer [⟨n!"Y", n!"a"⟩, ⟨n!"Z", n!"b"⟩, ⟨n!"X", n!"b"⟩]) :=
  ⟨.program _ _ (.init Org.init_eq), by decide +kernel, by decide, by decide +kernel⟩

end ListedExample
end PBfs
