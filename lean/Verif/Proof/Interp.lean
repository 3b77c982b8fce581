import Verif.Spec.Logic
import Verif.Proof.Sem
/-! # Indices of the symbol storage and the symbols they stand for -/
namespace PBfs

/-- The symbol storage has not overflowed: no symbol twice, indices distinguishable in 16 bits. -/
structure StOK (st : Storage) : Prop where
  nodup : st.functors.Nodup
  small : st.functors.length ≤ 65536

/-- `I` tells which symbol an index stands for. -/
def Interp (I : Int → FV) (st : Storage) : Prop :=
  ∀ (k : Nat) fv, st.functors[k]? = some fv → I (toShort k) = fv

/-- The heap cells that can be built from the storage. -/
def ValidCell (st : Storage) : Cell → Prop
  | .cons i => ∃ (k : Nat) (fv : FV), st.functors[k]? = some fv ∧ fv.arity = 0 ∧ i = toShort k
  | .fn i n => ∃ (k : Nat) (fv : FV), st.functors[k]? = some fv ∧ fv.arity = n ∧ i = toShort k ∧ (n = 0 → fv.name = n!"[")
  | .efn f n => f < arithNames.length ∧ n = 2
  | .ref _ v => ∃ k, k < st.vars.length ∧ v = toShort k
  | .int v => -2147483648 ≤ v ∧ v ≤ 2147483647
  | .str _ => True

/-- Symbols by index, interpreted by name. -/
def toIAlg {D} (A : Alg D) (I : Int → FV) : IAlg D where
  cons i := A.cons (I i).name
  int := A.int
  fn i as := A.fn (I i).name as
  efn f as := A.efn (arithNames.getD f []) as

theorem toShort_inj {a b : Nat} (ha : a < 65536) (hb : b < 65536) (h : toShort a = toShort b) : a = b := by
  unfold toShort at h
  split at h <;> split at h <;> omega

theorem toShort_small {a : Nat} (ha : a < 32768) : toShort a = a := by
  unfold toShort
  rw [Nat.mod_eq_of_lt (by omega), if_pos ha]

theorem StOK.lt {st : Storage} (s : StOK st) {k fv} (h : st.functors[k]? = some fv) : k < 65536 := by
  have := (List.getElem?_eq_some_iff.1 h).1
  have := s.small
  omega

theorem StOK.index_inj {st : Storage} (s : StOK st) {k k' : Nat} {fv fv' : FV}
    (h : st.functors[k]? = some fv) (h' : st.functors[k']? = some fv') (e : toShort k = toShort k') :
    k = k' ∧ fv = fv' := by
  have := toShort_inj (s.lt h) (s.lt h') e
  subst this
  rw [h] at h'; cases h'
  exact ⟨rfl, rfl⟩

theorem StOK.fv_inj {st : Storage} (s : StOK st) {k k' : Nat} {fv : FV}
    (h : st.functors[k]? = some fv) (h' : st.functors[k']? = some fv) : k = k' := by
  obtain ⟨hk, e⟩ := List.getElem?_eq_some_iff.1 h
  obtain ⟨hk', e'⟩ := List.getElem?_eq_some_iff.1 h'
  exact (List.Nodup.getElem_inj_iff s.nodup).1 (e.trans e'.symm)

/-- Every storage that has not overflowed has an interpretation. -/
theorem StOK.interp {st : Storage} (s : StOK st) : ∃ I, Interp I st := by
  classical
  refine ⟨fun i => if h : ∃ k fv, st.functors[k]? = some fv ∧ toShort k = i then h.choose_spec.choose
    else ⟨[], 0⟩, ?_⟩
  intro k fv h
  have hex : ∃ k' fv, st.functors[k']? = some fv ∧ toShort k' = toShort k := ⟨k, fv, h, rfl⟩
  simp only [dif_pos hex]
  have := hex.choose_spec.choose_spec
  exact ((s.index_inj h this.1 this.2.symm).2).symm

theorem ValidCell.laws {st : Storage} (s : StOK st) : VLaws (ValidCell st) where
  ref _ _ _ h := h
  str _ := trivial
  fn f n m h h' := by
    obtain ⟨k, fv, hk, ha, hi, _⟩ := h
    obtain ⟨k', fv', hk', ha', hi', _⟩ := h'
    have := (s.index_inj hk hk' (hi.symm.trans hi')).2
    rw [← ha, ← ha', this]
  efn f n m h h' := h.2.trans h'.2.symm

/-- Different terms have different values. -/
structure Alg.Sharp {D} (A : Alg D) : Prop where
  cons_inj : ∀ {n m}, A.cons n = A.cons m → n = m
  int_inj : ∀ {v w}, A.int v = A.int w → v = w
  fn_inj : ∀ {f g as bs}, A.fn f as = A.fn g bs → f = g ∧ as = bs
  efn_inj : ∀ {f g as bs}, A.efn f as = A.efn g bs → f = g ∧ as = bs
  cons_int : ∀ {n v}, A.cons n ≠ A.int v
  cons_fn : ∀ {n f as}, A.cons n ≠ A.fn f as
  cons_efn : ∀ {n f as}, A.cons n ≠ A.efn f as
  int_fn : ∀ {v f as}, A.int v ≠ A.fn f as
  int_efn : ∀ {v f as}, A.int v ≠ A.efn f as
  fn_efn : ∀ {f as g bs}, A.fn f as ≠ A.efn g bs

theorem treeAlg_sharp : treeAlg.Sharp := by
  constructor <;> intros <;> simp_all [treeAlg]

theorem Alg.Sharp.free {D} {A : Alg D} (S : A.Sharp) {st : Storage} {I} (s : StOK st) (hI : Interp I st) :
    Free (toIAlg A I) (ValidCell st) where
  cons_inj := by
    rintro i j ⟨k, fv, hk, ha, hi⟩ ⟨k', fv', hk', ha', hi'⟩ h
    subst hi; subst hi'
    have h := S.cons_inj h
    rw [hI _ _ hk, hI _ _ hk'] at h
    have : fv = fv' := by
      cases fv; cases fv'; simp_all
    subst this
    rw [s.fv_inj hk hk']
  int_inj := fun h => S.int_inj h
  fn_inj := by
    rintro f g n m as bs ⟨k, fv, hk, ha, hi, _⟩ ⟨k', fv', hk', ha', hi', _⟩ hl hl' h
    subst hi; subst hi'
    obtain ⟨h1, rfl⟩ := S.fn_inj h
    rw [hI _ _ hk, hI _ _ hk'] at h1
    have : fv = fv' := by
      cases fv; cases fv'; simp_all
    subst this
    rw [s.fv_inj hk hk']
    exact ⟨rfl, rfl⟩
  efn_inj := by
    rintro f g n m as bs ⟨hf, _⟩ ⟨hg, _⟩ _ _ h
    have h := S.efn_inj h
    refine ⟨?_, h.2⟩
    have h1 := h.1
    simp only [arithNames, List.length_cons, List.length_nil] at hf hg
    revert h1
    have hf' : f = 0 ∨ f = 1 ∨ f = 2 ∨ f = 3 ∨ f = 4 := by omega
    have hg' : g = 0 ∨ g = 1 ∨ g = 2 ∨ g = 3 ∨ g = 4 := by omega
    rcases hf' with rfl | rfl | rfl | rfl | rfl <;> rcases hg' with rfl | rfl | rfl | rfl | rfl <;>
      simp [arithNames]
  cons_int := S.cons_int
  cons_fn := S.cons_fn
  cons_efn := S.cons_efn
  int_fn := S.int_fn
  int_efn := S.int_efn
  fn_efn := S.fn_efn

theorem treeAlg_free {st : Storage} {I} (s : StOK st) (hI : Interp I st) :
    Free (toIAlg treeAlg I) (ValidCell st) := treeAlg_sharp.free s hI

/-- `st'` has everything of `st`. -/
structure StLe (st st' : Storage) : Prop where
  functors : st.functors <+: st'.functors
  vars : st.vars <+: st'.vars

theorem StLe.refl (st : Storage) : StLe st st := ⟨List.prefix_refl _, List.prefix_refl _⟩

theorem StLe.trans {a b c : Storage} (h : StLe a b) (h' : StLe b c) : StLe a c :=
  ⟨h.1.trans h'.1, h.2.trans h'.2⟩

theorem prefix_getElem? {α} {l l' : List α} (h : l <+: l') {k : Nat} {a} (hk : l[k]? = some a) :
    l'[k]? = some a := by
  obtain ⟨t, rfl⟩ := h
  obtain ⟨hlt, e⟩ := List.getElem?_eq_some_iff.1 hk
  rw [List.getElem?_append_left hlt, hk]

theorem StLe.stOK {a b : Storage} (h : StLe a b) (s : StOK b) : StOK a :=
  ⟨s.nodup.sublist h.1.sublist, by have := h.1.length_le; have := s.small; omega⟩

theorem StLe.interp {a b : Storage} {I} (h : StLe a b) (s : Interp I b) : Interp I a :=
  fun k fv hk => s k fv (prefix_getElem? h.1 hk)

theorem StLe.valid {a b : Storage} (h : StLe a b) {c} (v : ValidCell a c) : ValidCell b c := by
  cases c with
  | cons i => obtain ⟨k, fv, hk, r⟩ := v; exact ⟨k, fv, prefix_getElem? h.1 hk, r⟩
  | fn i n => obtain ⟨k, fv, hk, r⟩ := v; exact ⟨k, fv, prefix_getElem? h.1 hk, r⟩
  | ref a x => obtain ⟨k, hk, r⟩ := v; exact ⟨k, by have := h.2.length_le; omega, r⟩
  | int => exact v
  | efn => exact v
  | str => exact v

theorem Good.valid_mono {V W : Cell → Prop} {H sz lim} (g : Good V H sz lim) (h : ∀ c, V c → W c) :
    Good W H sz lim := { g with valid := fun a c hc => h c (g.valid a c hc) }

end PBfs
