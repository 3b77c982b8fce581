import Verif.Proof.Load
/-! # Runs of a query -/
namespace PBfs

theorem Work.others {X : Ctx} {o o' : Org} {id q} (w : Work X o) (hq : o.queue = id :: q) (hk : Keeps o o' id) :
    ∀ j ∈ q, ∃ e k L, Pending X o' j e k L ∧ k.Within X := by
  intro j hj
  obtain ⟨e, k, L, h1, h2⟩ := w.pend j (by simp [hq, hj])
  refine ⟨e, k, L, h1.other w.inv (by simp [hq]) hk ?_, h2⟩
  rintro rfl
  have := w.inv.qnd
  rw [hq] at this
  exact (List.nodup_cons.1 this).1 hj

/-- No goal of the text is `is/2`. -/
def Ctx.NoIs (X : Ctx) : Prop := ∀ a, X.Text a → a.fv ≠ ⟨n!"is", 2⟩

/-- What an answer consists of. -/
def Reported (X : Ctx) (fuel : Nat) (bs : List Binding) (pre : Nat → Option Cell) (hp : Hp) (L : List (Name × Nat)) : Prop :=
  Org.renderSubs (stringRep pre hp X.st L fuel false) L [] = .ok bs ∧ Final X (hp.at? pre) hp.size L

/-- The outcome of a turn. -/
theorem Work.turn {X : Ctx} (ok : X.OK) {o : Org} (w : Work X o) {fuel id q} (hq : o.queue = id :: q) :
    (∃ x, o.turn fuel = .error x ∧ (X.NoIs → x = .hang)) ∨
    ∃ o', (∀ t, o.turn fuel = .ok (o', t) → Work X o') ∧
      (o.turn fuel = .ok (o', .continue) ∨ (∃ err, o.turn fuel = .ok (o', .error err) ∧ ¬ X.NoIs) ∨
      ∃ pre hp L, o.turn fuel = (Org.renderSubs (stringRep pre hp X.st L fuel false) L [] >>= fun bs => .ok (o', .answer bs)) ∧
        Final X (hp.at? pre) hp.size L) := by
  obtain ⟨e, k, L, hp, hw⟩ := w.pend id (by simp [hq])
  have mk : ∀ {o' : Org} {t} {news : List Nat}, o'.st = o.st → o'.gen = o.gen → o'.program = o.program → Keeps o o' id →
      o'.queue = q ++ news → (∀ j ∈ news, ∃ e k L, Pending X o' j e k L ∧ k.Within X) → o.turn fuel = .ok (o', t) → Work X o' := by
    intro o' t news h1 h2 h3 h4 h5 h6 ht
    refine ⟨w.inv.turn ht, h1.trans w.st, h2.trans w.gen, h3.trans w.prog, fun j hj => ?_⟩
    rw [h5] at hj
    rcases List.mem_append.1 hj with hj | hj
    · exact w.others hq h4 j hj
    · exact h6 j hj
  cases k with
  | res b fr fs =>
    cases hc : fr.codes with
    | nil =>
      obtain ⟨rfl, o', e', fr', fs', h1, h2, B, h3, h4, rfl, hp', h5, h6⟩ := step_dealloc (fuel := fuel) w.inv w.gen hq hp hc
      refine .inr ⟨o', fun t => mk B.st B.gen B.program B.keeps h3 ?_, .inl h1⟩
      intro j hj
      simp only [List.mem_singleton] at hj
      subst hj
      exact ⟨_, _, _, hp', fun f hf => hw f (by simp [hf])⟩
    | cons c cs =>
      obtain ⟨o', f, ps, fs', L', h1, h2, h3, h4, h5, h6, h7, h8, ⟨a, as, g1, g2, g3, _⟩, h9⟩ := step_goal (fuel := fuel) ok w.inv w.st w.gen w.prog hq hp hc
      refine .inr ⟨o', fun t => mk (by rw [h3, w.st]) (by rw [h4, w.gen]) (by rw [h5, w.prog]) h6 h7 ?_, .inl h1⟩
      intro j hj
      simp only [List.mem_range'_1] at hj
      obtain ⟨i, rfl⟩ : ∃ i, j = o.execs.length + i := ⟨j - o.execs.length, by omega⟩
      obtain ⟨r, hr⟩ : ∃ r, ((X.prog.rules? f).getD [])[i]? = some r := ⟨_, List.getElem?_eq_getElem (by omega)⟩
      obtain ⟨e', hp', _⟩ := h9 i r hr
      refine ⟨_, _, _, hp', ⟨a, hw fr (by simp) a (by simp [g1]), g2⟩, fun f' hf' b hb => ?_⟩
      rcases g3 f' hf' with hin | heq
      · exact hw f' (by simp [hin]) b hb
      · exact hw fr (by simp) b (by rw [g1, ← heq]; simp [hb])
  | head f ps fs r =>
    obtain ⟨hrun, hr, _⟩ := hp.exec
    cases hr with
    | @user cl h1 h2 h3 =>
      rcases step_user (fuel := fuel) w.inv w.st w.gen hq hp h1 h2 h3 with ⟨h, _⟩ | ⟨o', B, _, h⟩
      · exact .inl ⟨_, h, fun _ => rfl⟩
      · rcases h with ⟨t1, t2, t3, _⟩ | ⟨e', fr', fs', t1, t2, t3, t4, t5, _⟩ | ⟨pre, hp', t1, t2, t3, t4, _⟩
        · exact .inr ⟨o', fun t => mk (news := []) B.st B.gen B.program B.keeps (by simp [t2]) (by simp), .inl t1⟩
        · refine .inr ⟨o', fun t => mk B.st B.gen B.program B.keeps t2 ?_, .inl t1⟩
          intro j hj
          simp only [List.mem_singleton] at hj
          subst hj
          refine ⟨_, _, _, t4, fun f' hf' a ha => ?_⟩
          rcases t5 f' hf' with hin | heq
          · exact hw.2 f' hin a ha
          · exact .inr ⟨cl, h1, by rw [← heq]; exact ha⟩
        · exact .inr ⟨o', fun t => mk (news := []) B.st B.gen B.program B.keeps (by simp [t2]) (by simp), .inr (.inr ⟨pre, hp', L, t1, t4⟩)⟩
    | @builtin b sub src h1 h2 =>
      subst h1 h2
      have hno : b = .is → ¬ X.NoIs := by
        rintro rfl hno
        obtain ⟨⟨a, ha, he⟩, _⟩ := hw
        exact hno a ha he.symm
      rcases step_builtin (fuel := fuel) ok w.inv w.st w.gen hq hp with ⟨x, h, hx⟩ | ⟨o', B, _, h⟩
      · exact .inl ⟨x, h, fun hn => hx fun hb => hno hb hn⟩
      · rcases h with ⟨t1, t2, t3⟩ | ⟨err, t1, t2, t3, t4⟩ | ⟨e', fr', fs', t1, t2, t3, t4, t5⟩ | ⟨pre, hp', t1, t2, t3, t4, _⟩
        · exact .inr ⟨o', fun t => mk (news := []) B.st B.gen B.program B.keeps (by simp [t2]) (by simp), .inl t1⟩
        · exact .inr ⟨o', fun t => mk (news := []) B.st B.gen B.program B.keeps (by simp [t2]) (by simp), .inr (.inl ⟨err, t1, hno t4⟩)⟩
        · refine .inr ⟨o', fun t => mk B.st B.gen B.program B.keeps t2 ?_, .inl t1⟩
          intro j hj
          simp only [List.mem_singleton] at hj
          subst hj
          subst t4
          exact ⟨_, _, _, t5, hw.2⟩
        · exact .inr ⟨o', fun t => mk (news := []) B.st B.gen B.program B.keeps (by simp [t2]) (by simp), .inr (.inr ⟨pre, hp', L, t1, t4⟩)⟩

theorem Work.next {X : Ctx} (ok : X.OK) {o o' : Org} (w : Work X o) {fuel t} (h : o.turn fuel = .ok (o', t)) : Work X o' := by
  cases hq : o.queue with
  | nil =>
    simp only [Org.turn, hq, pure_ok, Prod.mk.injEq] at h
    rw [← h.1]; exact w
  | cons id q =>
    rcases w.turn (fuel := fuel) ok hq with ⟨x, h1, _⟩ | ⟨o1, h1, h2⟩
    · rw [h1] at h; cases h
    · have ho : o1 = o' := by
        rcases h2 with h2 | ⟨err, h2, _⟩ | ⟨pre, hp, L, h2, _⟩
        · rw [h2] at h; cases h; rfl
        · rw [h2] at h; cases h; rfl
        · rw [h2] at h
          simp only [bind_ok] at h
          obtain ⟨bs, _, h⟩ := h
          cases h; rfl
      subst ho
      exact h1 t h

theorem Work.answer {X : Ctx} (ok : X.OK) {o o' : Org} (w : Work X o) {fuel bs} (h : o.turn fuel = .ok (o', .answer bs)) :
    ∃ pre hp L, Reported X fuel bs pre hp L := by
  cases hq : o.queue with
  | nil =>
    simp only [Org.turn, hq, pure_ok, Prod.mk.injEq, reduceCtorEq, and_false] at h
  | cons id q =>
    rcases w.turn (fuel := fuel) ok hq with ⟨x, h1, _⟩ | ⟨o1, h1, h2⟩
    · rw [h1] at h; cases h
    · rcases h2 with h2 | ⟨err, h2, _⟩ | ⟨pre, hp, L, h2, h3⟩
      · rw [h2] at h; cases h
      · rw [h2] at h; cases h
      · rw [h2] at h
        simp only [bind_ok] at h
        obtain ⟨bs', h4, h⟩ := h
        cases h
        exact ⟨pre, hp, L, h4, h3⟩

theorem Work.runs {X : Ctx} (ok : X.OK) {o o' : Org} (w : Work X o) {fuel hist} (h : Runs fuel o hist o') : Work X o' := by
  induction h with
  | nil => exact w
  | snoc _ _ ht ih => exact ih.next ok ht

theorem Runs.answered {X : Ctx} (ok : X.OK) {o o' : Org} (w : Work X o) {fuel hist} (h : Runs fuel o hist o') {id bs}
    (hm : (id, Org.Turn.answer bs) ∈ hist) : ∃ pre hp L, Reported X fuel bs pre hp L := by
  induction h with
  | nil => cases hm
  | snoc hr _ ht ih =>
    rcases List.mem_append.1 hm with hm | hm
    · exact ih hm
    · simp only [List.mem_singleton, Prod.mk.injEq] at hm
      rw [← hm.2] at ht
      exact (w.runs ok hr).answer ok ht

end PBfs
