import Verif.Proof.Twin6
import Verif.Proof.Load
/-! # Loading the same text twice -/
namespace PBfs

/-- Two compilations with the same outcome; `F`, `F'` are later storages. -/
def SS {M : Cmp} (z : ZRel M) (F F' : Storage) (st st' : Storage) {α β} (f : α → Storage) (f' : β → Storage) (P : α → β → Prop) : CR α → CR β → Prop
  | .ok a, .ok b => Grow st (f a) ∧ Grow st' (f' b) ∧ (z.rel (f a) (f' b)) ∧ (StLe (f a) F → StLe (f' b) F' → P a b)
  | .error (e, s), .error (e', s') => e = e' ∧ (z.rel s s') ∧ Grow st s ∧ Grow st' s'
  | _, _ => False

section
variable {M : Cmp} {z : ZRel M} {F F' st st' : Storage} {fr : YFrame} {g g' : GenSt}

theorem CS.toSS {α β γ δ} {P : α → β → Prop} {Q : γ → δ → Prop} {f : γ → Storage} {f' : δ → Storage} {x : CR (α × GenSt)} {y : CR (β × GenSt)}
    {k : α × GenSt → γ} {l : β × GenSt → δ} (h : CS z F F' fr g g' P x y)
    (hf : ∀ a, f (k a) = a.2.st) (hf' : ∀ b, f' (l b) = b.2.st)
    (hk : ∀ a b g1 g1', P a b → Q (k (a, g1)) (l (b, g1'))) : SS z F F' g.st g'.st f f' Q (x >>= fun a => pure (k a)) (y >>= fun b => pure (l b)) := by
  cases x with
  | error e =>
    cases y with
    | error e' => exact h
    | ok b => cases h
  | ok a =>
    cases y with
    | error e' => cases h
    | ok b =>
      obtain ⟨a, g1⟩ := a
      obtain ⟨b, g1'⟩ := b
      obtain ⟨h1, h2, h3, h4⟩ := h
      refine ⟨?_, ?_, ?_, ?_⟩
      · rw [hf]; exact h1
      · rw [hf']; exact h2
      · rw [hf, hf']; exact h3.zero
      · rw [hf, hf']; exact fun s s' => hk _ _ _ _ (h4 s s')

theorem SS.bind {α β γ δ} {P : α → β → Prop} {Q : γ → δ → Prop} {e : α → Storage} {e' : β → Storage} {f : γ → Storage} {f' : δ → Storage} {x : CR α} {y : CR β}
    {k : α → CR γ} {l : β → CR δ} (h : SS z F F' st st' e e' P x y)
    (hk : ∀ a b, (z.rel (e a) (e' b)) → SS z F F' (e a) (e' b) f f' (fun c d => P a b → Q c d) (k a) (l b)) : SS z F F' st st' f f' Q (x >>= k) (y >>= l) := by
  cases x with
  | error e =>
    cases y with
    | error e' => exact h
    | ok b => cases h
  | ok a =>
    cases y with
    | error e' => cases h
    | ok b =>
      obtain ⟨h1, h2, h3, h4⟩ := h
      have := hk a b h3
      show SS z F F' st st' f f' Q (k a) (l b)
      cases hx : k a with
      | error e =>
        cases hy : l b with
        | error e' =>
          rw [hx, hy] at this
          obtain ⟨t1, t2, t3, t4⟩ := this
          exact ⟨t1, t2, h1.trans t3, h2.trans t4⟩
        | ok b => rw [hx, hy] at this; cases this
      | ok c =>
        cases hy : l b with
        | error e' => rw [hx, hy] at this; cases this
        | ok d =>
          rw [hx, hy] at this
          obtain ⟨t1, t2, t3, t4⟩ := this
          exact ⟨h1.trans t1, h2.trans t2, t3, fun s1 s2 => t4 s1 s2 (h4 (t1.le.trans s1) (t2.le.trans s2))⟩

theorem GR.start (fr) {st st' : Storage} (h : z.rel st st') : GR z fr ⟨[], st⟩ ⟨[], st'⟩ :=
  ⟨fun _ => rfl, fun _ _ _ => rfl, h⟩

/-- Frames inside a clause. -/
def inner (fr : YFrame) (frs : List YFrame) : List YFrame := if fr.ys.length = 0 then frs else fr :: frs

theorem YOK.inner {fr : YFrame} (frs) (hm : ∀ n, n ∈ fr.ys ↔ n ∈ fr.ys') : YOK fr (inner fr frs).head? := by
  refine ⟨hm, fun h => ?_⟩
  unfold PBfs.inner
  rw [if_neg fun h0 => h (List.eq_nil_of_length_eq_zero h0)]
  rfl

theorem alloc_rel {fr : YFrame} {frs is is' out} (hlen : fr.ys.length = fr.ys'.length) (h : ILRel M F F' (inner fr frs) is is' out) :
    ILRel M F F' frs (allocInstrs fr.ys.length ++ is) (allocInstrs fr.ys'.length ++ is') out := by
  unfold allocInstrs
  unfold inner at h
  rw [← hlen]
  split
  · rename_i h0; rw [if_pos h0] at h; exact h
  · rename_i h0
    rw [if_neg h0] at h
    have := ILRel.alloc fr h
    rw [← hlen] at this
    exact this

/-- The permanent variables for two hash orders. -/
def frame (ord ord' : HashOrder) (prog : Bool) (atoms : List Node) : YFrame := ⟨permVars ord prog atoms, permVars ord' prog atoms⟩

theorem frame_mem {ord ord' : HashOrder} (ho : ord.OK) (ho' : ord'.OK) (prog atoms) (n : Name) :
    n ∈ (frame ord ord' prog atoms).ys ↔ n ∈ (frame ord ord' prog atoms).ys' := by
  show n ∈ ord _ ↔ n ∈ ord' _
  rw [(ho _).mem_iff, (ho' _).mem_iff]

theorem frame_len {ord ord' : HashOrder} (ho : ord.OK) (ho' : ord'.OK) (prog atoms) :
    (frame ord ord' prog atoms).ys.length = (frame ord ord' prog atoms).ys'.length := by
  show (ord _).length = (ord' _).length
  rw [(ho _).length_eq, (ho' _).length_eq]

theorem compileQuery_ss (T : Twin M F F') {ord ord' : HashOrder} (ho : ord.OK) (ho' : ord'.OK) (atoms : List Node) (hl : ∀ a ∈ atoms, M.calls a.fv)
    (hz : z.rel st st') :
    SS z F F' st st' (·.2) (·.2) (fun r r' => ∃ out, ChainRel M F F' [] r.1 r'.1 out) (compileQuery ord atoms st) (compileQuery ord' atoms st') := by
  unfold compileQuery
  have hf := YOK.inner [] (frame_mem ho ho' false atoms)
  refine CS.toSS (g := ⟨[], st⟩) (g' := ⟨[], st'⟩) (fr := frame ord ord' false atoms) (P := fun r r' => ∃ out, ChainRel M F F' [] r r' out)
    (k := fun a => (a.1, a.2.st)) (l := fun a => (a.1, a.2.st)) ?_ (fun _ => rfl) (fun _ => rfl) fun _ _ _ _ h => h
  cases atoms with
  | nil => exact .ret (.start _ hz) ⟨_, .nil _⟩
  | cons a as =>
    unfold compileQueryAtoms
    refine (compileQueryAtom_cs (M := M) T hf true a (hl a (by simp)) (frs0 := []) (fun is is' h => alloc_rel (frame_len ho ho' _ _) h) (.start _ hz)).bind
      fun c c' g1 g1' h1 => ?_
    refine (compileQueryAtoms_cs (M := M) T hf true as (fun a ha => hl a (by simp [ha])) h1).bind fun cs cs' g2 g2' h2 => ?_
    exact .ret h2 fun hc ha => ⟨_, .cons ha hc⟩

theorem ChainRel.app {frs mid out} {r r' s s' : Rule} (h : ChainRel M F F' frs r r' mid) (hs : ChainRel M F F' mid s s' out) :
    ChainRel M F F' frs (r ++ s) (r' ++ s') out := by
  induction h with
  | nil => exact hs
  | cons ha _ ih => exact .cons ha (ih hs)

theorem dealloc_rel {fr : YFrame} {frs} (hlen : fr.ys.length = fr.ys'.length) :
    ChainRel M F F' (inner fr frs) (deallocAtoms fr.ys.length) (deallocAtoms fr.ys'.length) frs := by
  unfold deallocAtoms inner
  rw [← hlen]
  split
  · exact .nil _
  · exact .cons ⟨rfl, .dealloc, rfl, .nil⟩ (.nil _)

theorem SS.all {α β ι} [Inhabited ι] {f : α → Storage} {f' : β → Storage} {P : ι → α → β → Prop} {x : CR α} {y : CR β} (h : ∀ i, SS z F F' st st' f f' (P i) x y) :
    SS z F F' st st' f f' (fun a b => ∀ i, P i a b) x y := by
  have h0 := h default
  cases x with
  | error e =>
    cases y with
    | error e' => exact h0
    | ok b => cases h0
  | ok a =>
    cases y with
    | error e' => cases h0
    | ok b => exact ⟨h0.1, h0.2.1, h0.2.2.1, fun s s' i => (h i).2.2.2 s s'⟩

theorem compileClause_ss (T : Twin M F F') {ord ord' : HashOrder} (ho : ord.OK) (ho' : ord'.OK) (bi : Bool) (head : Node) (body : List Node)
    (hl : ∀ a ∈ body, M.calls a.fv) (hz : z.rel st st') :
    SS z F F' st st' (·.2.2) (·.2.2) (fun r r' => r.1 = r'.1 ∧ RuleRel M F F' r.2.1 r'.2.1) (compileClause ord bi head body st) (compileClause ord' bi head body st') := by
  suffices h : ∀ frs, SS z F F' st st' (·.2.2) (·.2.2) (fun r r' => r.1 = r'.1 ∧ ChainRel M F F' frs r.2.1 r'.2.1 frs)
      (compileClause ord bi head body st) (compileClause ord' bi head body st') by
    have := SS.all h
    revert this
    generalize compileClause ord bi head body st = x
    generalize compileClause ord' bi head body st' = y
    intro h
    cases x with
    | error e =>
      cases y with
      | error e' => exact h
      | ok b => cases h
    | ok a =>
      cases y with
      | error e' => cases h
      | ok b => exact ⟨h.1, h.2.1, h.2.2.1, fun s s' => ⟨(h.2.2.2 s s' []).1, fun frs => (h.2.2.2 s s' frs).2⟩⟩
  intro frs
  have hm := frame_mem ho ho' true (head :: body)
  have hlen := frame_len ho ho' true (head :: body)
  have hf := YOK.inner frs hm
  unfold compileClause
  simp only []
  by_cases hr : (!bi && redefines head) = true
  · rw [if_pos hr, if_pos hr]
    exact ⟨rfl, hz, .refl _, .refl _⟩
  · rw [if_neg hr, if_neg hr]
    cases body with
    | nil =>
      refine CS.toSS (g := ⟨[], st⟩) (g' := ⟨[], st'⟩) (toProgram_cs (M := M) T hf head _ (.start _ hz)) (fun _ => rfl) (fun _ => rfl) ?_
      intro a b g1 g1' ha
      exact ⟨rfl, .cons ⟨rfl, alloc_rel hlen ha, rfl, varRegs_rel hf _ _⟩ (dealloc_rel hlen)⟩
    | cons b bs =>
      simp only []
      generalize (assignPair head b).1.1 = hs
      generalize (assignPair head b).2.1.1 = fs
      generalize (assignPair head b).2.1.2 = fv
      generalize (assignPair head b).2.2 = n
      have key : CS z F F' (frame ord ord' true (head :: b :: bs)) ⟨[], st⟩ ⟨[], st'⟩
          (fun r r' => ILRel M F F' (inner (frame ord ord' true (head :: b :: bs)) frs) r.1 r'.1 (inner (frame ord ord' true (head :: b :: bs)) frs) ∧
            ILRel M F F' (inner (frame ord ord' true (head :: b :: bs)) frs) r.2.1 r'.2.1 (inner (frame ord ord' true (head :: b :: bs)) frs) ∧
            ChainRel M F F' (inner (frame ord ord' true (head :: b :: bs)) frs) r.2.2 r'.2.2 (inner (frame ord ord' true (head :: b :: bs)) frs))
          (toProgram (indexOf? · (permVars ord true (head :: b :: bs))) head hs ⟨[], st⟩ >>= fun p =>
            toQuery (indexOf? · (permVars ord true (head :: b :: bs))) (fv.lookup ·) b fs { p.2 with seen := eraseStructRegs head hs p.2.seen } >>= fun q =>
            compileQueryAtoms (indexOf? · (permVars ord true (head :: b :: bs))) [] false bs { q.2 with seen := dropX q.2.seen } >>= fun c => pure ((p.1, q.1, c.1), c.2))
          (toProgram (indexOf? · (permVars ord' true (head :: b :: bs))) head hs ⟨[], st'⟩ >>= fun p =>
            toQuery (indexOf? · (permVars ord' true (head :: b :: bs))) (fv.lookup ·) b fs { p.2 with seen := eraseStructRegs head hs p.2.seen } >>= fun q =>
            compileQueryAtoms (indexOf? · (permVars ord' true (head :: b :: bs))) [] false bs { q.2 with seen := dropX q.2.seen } >>= fun c => pure ((p.1, q.1, c.1), c.2)) := by
        refine (toProgram_cs (M := M) T hf head hs (.start _ hz)).bind fun p p' g1 g1' h1 => ?_
        refine CS.from (g1 := { g1 with seen := eraseStructRegs head hs g1.seen }) (g1' := { g1' with seen := eraseStructRegs head hs g1'.seen }) ?_ (.refl g1.st) (.refl g1'.st)
        refine (toQuery_cs (M := M) T hf _ b (hl b (by simp)) fs (h1.erase head hs)).bind fun q q' g2 g2' h2 => ?_
        refine CS.from (g1 := { g2 with seen := dropX g2.seen }) (g1' := { g2' with seen := dropX g2'.seen }) ?_ (.refl g2.st) (.refl g2'.st)
        refine (compileQueryAtoms_cs (M := M) T hf false bs (fun a ha => hl a (by simp [ha])) h2.dropX).bind fun c c' g3 g3' h3 => ?_
        exact .ret h3 fun hc hq hp => ⟨hp, hq, hc⟩
      have := CS.toSS (f := fun r : FV × Rule × Storage => r.2.2) (f' := fun r : FV × Rule × Storage => r.2.2)
        (Q := fun r r' => r.1 = r'.1 ∧ ChainRel M F F' frs r.2.1 r'.2.1 frs)
        (k := fun a => (head.fv, [⟨n, allocInstrs (permVars ord true (head :: b :: bs)).length ++ a.1.1, varRegs (indexOf? · (permVars ord true (head :: b :: bs))) hs [], head, false⟩,
          ⟨n, a.1.2.1, varRegs (indexOf? · (permVars ord true (head :: b :: bs))) fs [], b, false⟩] ++ a.1.2.2 ++ deallocAtoms (permVars ord true (head :: b :: bs)).length, a.2.st))
        (l := fun a => (head.fv, [⟨n, allocInstrs (permVars ord' true (head :: b :: bs)).length ++ a.1.1, varRegs (indexOf? · (permVars ord' true (head :: b :: bs))) hs [], head, false⟩,
          ⟨n, a.1.2.1, varRegs (indexOf? · (permVars ord' true (head :: b :: bs))) fs [], b, false⟩] ++ a.1.2.2 ++ deallocAtoms (permVars ord' true (head :: b :: bs)).length, a.2.st))
        key (fun _ => rfl) (fun _ => rfl) (by
          rintro a a' g1 g1' ⟨h1, h2, h3⟩
          refine ⟨rfl, ?_⟩
          refine ChainRel.app (mid := inner (frame ord ord' true (head :: b :: bs)) frs) ?_ (dealloc_rel hlen)
          exact .cons ⟨rfl, alloc_rel hlen h1, rfl, varRegs_rel hf _ _⟩ (.cons ⟨rfl, h2, rfl, varRegs_rel hf _ _⟩ h3))
      simp only [bind_assoc, pure_bind] at this
      exact this

end
end PBfs
