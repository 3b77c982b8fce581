import Verif.Spec.Alternatives
import Verif.Props.Named
/-! # C93: alternatives -/
namespace PBfs
open Org

section
variable {p : List Clause} {h : Node} {ks : List Nat} {body : Nat → List Node}

/-- The proofs of the goal are those of the bodies, with the clause before them. -/
theorem provedBy_alternatives (ha : Alternatives (inForce p) h ks body) (hf : h.fv ∉ ownFVs) {w ρ} :
    ProvedBy (inForce p) [h] w ρ ↔ ∃ k ∈ ks, ∃ v σ, w = k :: v ∧ SameArgs h ρ σ ∧ ProvedBy (inForce p) (body k) v σ := by
  constructor
  · intro hw
    obtain ⟨k, c, σ, v, rfl, hk, e, hv⟩ := Follows.clause_inv hw (by rw [head_fv]; exact hf)
    have hf : c.head.fv = h.fv := by rw [← head_fv (A := itreeAlg) (ρ := σ), ← head_fv (A := itreeAlg) (ρ := ρ), e]
    have hk' := ha.all k c hk hf
    obtain rfl := Option.some.inj ((ha.at_ k hk').symm.trans hk)
    rw [List.map_nil, List.append_nil] at hv
    exact ⟨k, hk', v, σ, rfl, inst_same.1 e, hv⟩
  · rintro ⟨k, hk, v, σ, rfl, hs, hv⟩
    rw [ProvedBy, List.map_cons, inst_same.2 hs]
    exact Follows.clause (c := ⟨h, body k⟩) (ha.at_ k hk) (by rw [List.map_nil, List.append_nil]; exact hv)

theorem begunBy_alternatives (ha : Alternatives (inForce p) h ks body) (hf : h.fv ∉ ownFVs) {w} (hw : BegunBy (inForce p) [h] w) :
    w = [] ∨ ∃ k ∈ ks, ∃ v, w = k :: v ∧ BegunBy (inForce p) (body k) v := by
  obtain ⟨ρ, hw⟩ := hw
  generalize hgs : [h].map (Node.inst itreeAlg ρ) = gs at hw
  cases hw with
  | nil => exact .inl rfl
  | @clause k c σ v rest hk hv =>
    obtain ⟨e, rfl⟩ := List.cons.inj hgs
    have hf : c.head.fv = h.fv := by rw [← head_fv (A := itreeAlg) (ρ := σ), ← head_fv (A := itreeAlg) (ρ := ρ), e]
    have hk' := ha.all k c hk hf
    obtain rfl := Option.some.inj ((ha.at_ k hk').symm.trans hk)
    rw [List.map_nil, List.append_nil] at hv
    exact .inr ⟨k, hk', v, rfl, σ, hv⟩
  | own ho =>
    obtain ⟨rfl, _⟩ := List.cons.inj hgs
    exact absurd ho.fv (by rw [head_fv]; exact hf)

/-- Words for the alternatives, each with its clause before it. -/
def gathered (ks : List Nat) (L : Nat → List (List Nat)) : List (List Nat) := ks.flatMap fun k => (L k).map (List.cons k)

theorem mem_gathered {L w} : w ∈ gathered ks L ↔ ∃ k ∈ ks, ∃ v ∈ L k, w = k :: v := by
  simp [gathered, eq_comm]

theorem gathered_length {L : Nat → List (List Nat)} : (gathered ks L).length = (ks.map fun k => (L k).length).sum := by
  simp [gathered, List.length_flatMap]

theorem gathered_nodup {L} (hk : ks.Nodup) (hL : ∀ k ∈ ks, (L k).Nodup) : (gathered ks L).Nodup := by
  induction ks with
  | nil => simp [gathered]
  | cons k ks ih =>
    have e : gathered (k :: ks) L = (L k).map (List.cons k) ++ gathered ks L := rfl
    rw [List.nodup_cons] at hk
    rw [e, List.nodup_append]
    refine ⟨?_, ih hk.2 fun k hk => hL k (.tail _ hk), fun a ha b hb hab => ?_⟩
    · rw [List.Nodup, List.pairwise_map]
      exact List.Pairwise.imp (fun {a b} hab e => hab (List.cons.inj e).2) (hL k (.head _))
    · subst hab
      obtain ⟨v, _, rfl⟩ := List.mem_map.1 ha
      obtain ⟨k', hk', v', _, e⟩ := mem_gathered.1 hb
      exact hk.1 ((List.cons.inj e).1 ▸ hk')

end

theorem sum_le_sum {ks : List Nat} {f g : Nat → Nat} (h : ∀ k ∈ ks, f k ≤ g k) : (ks.map f).sum ≤ (ks.map g).sum := by
  induction ks with
  | nil => simp
  | cons k ks ih =>
    simp only [List.map_cons, List.sum_cons]
    exact Nat.add_le_add (h k (.head _)) (ih fun k hk => h k (.tail _ hk))

theorem le_sum_of_mem {ks : List Nat} {f : Nat → Nat} {k} (h : k ∈ ks) : f k ≤ (ks.map f).sum := by
  induction h with
  | head => simp
  | tail _ _ ih =>
    simp only [List.map_cons, List.sum_cons]
    omega

section
variable {p : List Clause} {h : Node} {ks : List Nat} {body : Nat → List Node} {os es : Nat → Org} {Ns : Nat → Modes} {fs ns : Nat → Nat} {tss : Nat → List Turn}

/-- **C93, where answers come from**: when the searches for the bodies of all clauses for a predicate have ended, every answer to their common head shows exactly what one of the answers to one of the bodies
shows of the variables of the head. -/
theorem C93_from {o o' : Org} {M fuel n ts} (ha : Alternatives (inForce p) h ks body) (hf : h.fv ∉ ownFVs) (h1 : Asked o p [h]) (hM : Directed M p [h]) (hr : o.iterate fuel n = .ok (o', ts))
    (h2 : ∀ k ∈ ks, Asked (os k) p (body k) ∧ Directed (Ns k) p (body k) ∧ (os k).iterate (fs k) (ns k) = .ok (es k, tss k) ∧ (es k).queue = []) {bs} (hb : Res.answer bs ∈ reports ts) :
    ∃ k ∈ ks, ∃ bs2 S S2, Res.answer bs2 ∈ reports (tss k) ∧ ShowsInsts o.st [h] fuel bs S ∧ ShowsInsts (os k).st (body k) (fs k) bs2 S2 ∧
      ∀ ρ, (∃ gs, S ρ gs) ↔ ∃ σ gs, SameArgs h ρ σ ∧ S2 σ gs := by
  obtain ⟨reps, ws, a1, a2, _, _⟩ := C86_proofs h1 hM hr
  obtain ⟨w, _, rep, d1, d2⟩ := forall₂_of_mem (forall₂_trans a1 a2) hb
  cases d1 with
  | @answer _ S d1 =>
    cases d2 with
    | @answer _ w d2 =>
      obtain ⟨ρ, gs, hg⟩ := d1.some
      obtain ⟨k, hk, v, σ, rfl, _, hv⟩ := (provedBy_alternatives ha hf).1 ((d2 ρ).1 ⟨gs, hg⟩)
      obtain ⟨k1, k2, k3, k4⟩ := h2 k hk
      obtain ⟨reps2, ws2, b1, b2, _, b4⟩ := C86_proofs k1 k2 k3
      obtain ⟨r2, hr2, rep2, g1, g2⟩ := forall₂_of_mem' (forall₂_trans b1 b2) (b4 k4 v _ hv)
      cases g2 with
      | @answer S2 _ g2 =>
        cases g1 with
        | @answer bs2 _ g1 =>
          refine ⟨k, hk, bs2, S, S2, hr2, d1, g1, fun ρ' => ?_⟩
          rw [d2, provedBy_alternatives ha hf]
          constructor
          · rintro ⟨k', _, v', σ', e, hs, hv'⟩
            obtain ⟨rfl, rfl⟩ := List.cons.inj e
            obtain ⟨gs', hg'⟩ := (g2 σ').2 hv'
            exact ⟨σ', gs', hs, hg'⟩
          · rintro ⟨σ', gs', hs, hg'⟩
            exact ⟨k, hk, v, σ', rfl, hs, (g2 σ').1 ⟨gs', hg'⟩⟩

/-- **C93, the other way**: every answer to one of the bodies leads to an answer to the head, after some number of iterations, whether the searches end or not. -/
theorem C93_soon {M N} {o2 e2 : Org} {k fuel2 n2 ts2} (ha : Alternatives (inForce p) h ks body) (hf : h.fv ∉ ownFVs) (hM : Directed M p [h]) (hk : k ∈ ks) (h2 : Asked o2 p (body k))
    (hN : Directed N p (body k)) (hr2 : o2.iterate fuel2 n2 = .ok (e2, ts2)) {bs2} (hb : Res.answer bs2 ∈ reports ts2) :
    ∃ S2, ShowsInsts o2.st (body k) fuel2 bs2 S2 ∧ ∃ K, ∀ {o o' : Org} {fuel n ts}, Asked o p [h] → o.iterate fuel n = .ok (o', ts) → K ≤ ts.length ∨ o'.queue = [] →
      ∃ bs S, Res.answer bs ∈ reports ts ∧ ShowsInsts o.st [h] fuel bs S ∧ ∀ ρ, (∃ gs, S ρ gs) ↔ ∃ σ gs, SameArgs h ρ σ ∧ S2 σ gs := by
  obtain ⟨reps2, ws2, b1, b2, _, _⟩ := C86_proofs h2 hN hr2
  obtain ⟨w, _, rep, d1, d2⟩ := forall₂_of_mem (forall₂_trans b1 b2) hb
  cases d1 with
  | @answer _ S2 d1 =>
    cases d2 with
    | @answer _ v d2 =>
      obtain ⟨ρ, gs, hg⟩ := d1.some
      refine ⟨S2, d1, ?_⟩
      obtain ⟨K, hK⟩ := C86_soon hM ((provedBy_alternatives ha hf).2 ⟨k, hk, v, ρ, rfl, fun _ _ => rfl, (d2 ρ).1 ⟨gs, hg⟩⟩)
      refine ⟨K, fun {o o' fuel n ts} h1 hr hn => ?_⟩
      obtain ⟨bs, S, c1, c2, c3⟩ := hK h1 hr hn
      cases c3 with
      | answer c3 =>
        refine ⟨bs, S, c1, c2, fun ρ' => ?_⟩
        rw [c3, provedBy_alternatives ha hf]
        constructor
        · rintro ⟨k', _, v', σ', e, hs, hv'⟩
          obtain ⟨rfl, rfl⟩ := List.cons.inj e
          obtain ⟨gs', hg'⟩ := (d2 σ').2 hv'
          exact ⟨σ', gs', hs, hg'⟩
        · rintro ⟨σ', gs', hs, hg'⟩
          exact ⟨k, hk, v, σ', rfl, hs, (d2 σ').1 ⟨gs', hg'⟩⟩

/-- **C93, numbers**: when all searches have ended, the number of answers to the head is the sum of the numbers of answers to the bodies. -/
theorem C93_count {o e : Org} {M fuel n ts} (ha : Alternatives (inForce p) h ks body) (hf : h.fv ∉ ownFVs) (h1 : Asked o p [h]) (hM : Directed M p [h]) (hr : o.iterate fuel n = .ok (e, ts)) (hq : e.queue = [])
    (h2 : ∀ k ∈ ks, Asked (os k) p (body k) ∧ Directed (Ns k) p (body k) ∧ (os k).iterate (fs k) (ns k) = .ok (es k, tss k) ∧ (es k).queue = []) :
    ((reports ts).filter Res.isAnswer).length = (ks.map fun k => ((reports (tss k)).filter Res.isAnswer).length).sum := by
  classical
  obtain ⟨ws, a1, a2, a3⟩ := C86_count h1 hM hr hq
  have hL : ∀ k, ∃ L : List (List Nat), k ∈ ks → L.Nodup ∧ (∀ w, w ∈ L ↔ ∃ ρ, ProvedBy (inForce p) (body k) w ρ) ∧ ((reports (tss k)).filter Res.isAnswer).length = L.length := by
    intro k
    by_cases hk : k ∈ ks
    · obtain ⟨k1, k2, k3, k4⟩ := h2 k hk
      obtain ⟨L, c⟩ := C86_count k1 k2 k3 k4
      exact ⟨L, fun _ => c⟩
    · exact ⟨[], fun h => absurd h hk⟩
  let L : Nat → List (List Nat) := fun k => Classical.choose (hL k)
  have hL : ∀ k ∈ ks, (L k).Nodup ∧ (∀ w, w ∈ L k ↔ ∃ ρ, ProvedBy (inForce p) (body k) w ρ) ∧ ((reports (tss k)).filter Res.isAnswer).length = (L k).length := fun k => Classical.choose_spec (hL k)
  rw [a3, List.map_congr_left (fun k hk => (hL k hk).2.2), ← gathered_length]
  refine Nat.le_antisymm (List.subperm_of_subset a1 fun w hw => ?_).length_le (List.subperm_of_subset (gathered_nodup ha.nodup fun k hk => (hL k hk).1) fun w hw => ?_).length_le
  · obtain ⟨ρ, hw⟩ := (a2 w).1 hw
    obtain ⟨k, hk, v, σ, rfl, _, hv⟩ := (provedBy_alternatives ha hf).1 hw
    exact mem_gathered.2 ⟨k, hk, v, ((hL k hk).2.1 v).2 ⟨σ, hv⟩, rfl⟩
  · obtain ⟨k, hk, v, hv, rfl⟩ := mem_gathered.1 hw
    obtain ⟨σ, hv⟩ := ((hL k hk).2.1 v).1 hv
    exact (a2 _).2 ⟨σ, (provedBy_alternatives ha hf).2 ⟨k, hk, v, σ, rfl, fun _ _ => rfl, hv⟩⟩

/-- **C93, the end**: when the searches for all bodies have ended, the search for the head ends. -/
theorem C93_ends {o o' : Org} {M fuel n ts b m} (ha : Alternatives (inForce p) h ks body) (hf : h.fv ∉ ownFVs) (h1 : Asked o p [h]) (hM : Directed M p [h]) (hb : AtMost b (inForce p))
    (hm : ∀ c ∈ inForce p, c.body.length ≤ m)
    (h2 : ∀ k ∈ ks, Asked (os k) p (body k) ∧ Directed (Ns k) p (body k) ∧ (os k).iterate (fs k) (ns k) = .ok (es k, tss k) ∧ (es k).queue = []) (hr : o.iterate fuel n = .ok (o', ts)) :
    ts.length ≤ perBeginning b m (ks.map fun k => (tss k).length).sum 1 * ((ks.map fun k => (tss k).length).sum + 1) ∧
    (perBeginning b m (ks.map fun k => (tss k).length).sum 1 * ((ks.map fun k => (tss k).length).sum + 1) < n → o'.queue = []) := by
  classical
  have hL : ∀ k, ∃ L : List (List Nat), k ∈ ks → L.length ≤ (tss k).length ∧ (∀ w, BegunBy (inForce p) (body k) w → w ∈ L) ∧ ∀ w ∈ L, w.length < (tss k).length := by
    intro k
    by_cases hk : k ∈ ks
    · obtain ⟨k1, k2, k3, k4⟩ := h2 k hk
      obtain ⟨L, c1, _, c2⟩ := begun_list k1 k2 k3 k4
      exact ⟨L, fun _ => ⟨c1, c2⟩⟩
    · exact ⟨[], fun h => absurd h hk⟩
  let L : Nat → List (List Nat) := fun k => Classical.choose (hL k)
  have hL : ∀ k ∈ ks, (L k).length ≤ (tss k).length ∧ (∀ w, BegunBy (inForce p) (body k) w → w ∈ L k) ∧ ∀ w ∈ L k, w.length < (tss k).length := fun k => Classical.choose_spec (hL k)
  generalize hT : (ks.map fun k => (tss k).length).sum = T
  have hl : (gathered ks L).length ≤ T := by
    rw [gathered_length, ← hT]
    exact sum_le_sum fun k hk => (hL k hk).1
  obtain ⟨g1, g2⟩ := C89_most h1 hM (L := [] :: gathered ks L) (d := T) (fun w hw => by
      rcases begunBy_alternatives ha hf hw with rfl | ⟨k, hk, v, rfl, hv⟩
      · exact .head _
      · exact .tail _ (mem_gathered.2 ⟨k, hk, v, (hL k hk).2.1 v hv, rfl⟩)) (fun w hw => by
      rcases List.mem_cons.1 hw with rfl | hw
      · exact Nat.zero_le _
      · obtain ⟨k, hk, v, hv, rfl⟩ := mem_gathered.1 hw
        have h3 := (hL k hk).2.2 v hv
        have h4 : (tss k).length ≤ T := hT ▸ le_sum_of_mem (f := fun k => (tss k).length) hk
        rw [List.length_cons]
        omega) hb hm hr
  have hmul : perBeginning b m T [h].length * ([] :: gathered ks L).length ≤ perBeginning b m T 1 * (T + 1) :=
    Nat.mul_le_mul_left _ (by rw [List.length_cons]; omega)
  exact ⟨Nat.le_trans g1 hmul, fun hk => g2 (Nat.lt_of_le_of_lt hmul hk)⟩

end

/-! ## A concrete case -/

namespace AlternativesExamples
open SoundExamples JoinedExamples

/-- `either(X)` -/
def eitherX : Node := .fn n!"either" [.var n!"X"]

/-- `either(X) :- p(X). either(X) :- q(X).` before `p(a). p(b). q(b). q(c).` -/
def prog : List Clause := ⟨eitherX, px⟩ :: ⟨eitherX, qx⟩ :: two

/-- The hypotheses are met: four answers to `either(X)`, two of them to `p(X)` and two to `q(X)`; `b` is told twice. -/
example : Alternatives (inForce prog) eitherX [0, 1] (fun k => if k = 0 then px else qx) ∧ eitherX.fv ∉ ownFVs ∧ Asked (demo prog [eitherX]) prog [eitherX] ∧ Directed .free prog [eitherX] ∧
    Asked (demo prog px) prog px ∧ Directed .free prog px ∧ Asked (demo prog qx) prog qx ∧ Directed .free prog qx ∧
    ((demo prog [eitherX]).iterate 20 100).toOption.map (fun r => (r.1.queue, reports r.2)) =
      some ([], [.answer [⟨n!"X", n!"a"⟩], .answer [⟨n!"X", n!"b"⟩], .answer [⟨n!"X", n!"b"⟩], .answer [⟨n!"X", n!"c"⟩]]) ∧
    ((demo prog px).iterate 20 100).toOption.map (fun r => (r.1.queue, (reports r.2).length)) = some ([], 2) ∧
    ((demo prog qx).iterate 20 100).toOption.map (fun r => (r.1.queue, (reports r.2).length)) = some ([], 2) :=
  ⟨⟨by decide, by
      intro k hk
      simp only [List.mem_cons, List.not_mem_nil, or_false] at hk
      rcases hk with rfl | rfl <;> rfl, fun k' c' hk hf => by
      match k', hk with
      | 0, _ => decide
      | 1, _ => decide
      | 2, hk => cases hk; revert hf; decide
      | 3, hk => cases hk; revert hf; decide
      | 4, hk => cases hk; revert hf; decide
      | 5, hk => cases hk; revert hf; decide
      | 6, hk => cases hk; revert hf; decide
      | 7, hk => cases hk; revert hf; decide
      | _ + 8, hk => cases hk⟩, by decide,
   asked_demo (by decide +kernel) (by decide +kernel) (safe_of_b (by decide +kernel)) (by decide) (by simp) (by decide +kernel), OnlyClauses.directed ⟨by decide, by decide⟩,
   asked_demo (by decide +kernel) (by decide +kernel) (safe_of_b (by decide +kernel)) (by decide) (by simp [px]) (by decide +kernel), OnlyClauses.directed ⟨by decide, by decide⟩,
   asked_demo (by decide +kernel) (by decide +kernel) (safe_of_b (by decide +kernel)) (by decide) (by simp [qx]) (by decide +kernel), OnlyClauses.directed ⟨by decide, by decide⟩,
   by decide +kernel, by decide +kernel, by decide +kernel⟩

end AlternativesExamples
end PBfs
