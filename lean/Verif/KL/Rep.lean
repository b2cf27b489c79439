import Verif.KL.Formulas
import Verif.KL.Model
import Verif.Poly.SafeProps

/-!
# What it means that the program's block represents a block of the specification
-/

set_option linter.unusedSectionVars false

namespace Verif.KL

open Polynomial
open Verif.Poly (val Canon Fits coeff_val canon_iff fits_iff safeAdd safeAdd1 safeSubtract
  safeSubtract1 safeDivide safeQuotient)

variable {B : Type} [Fintype B] [DecidableEq B]

/-- the number `o` (with `none` for `UndefBlock`) stands for `z`; elements of `B` without a number
(in a block that is generated only partially) are represented by `UndefBlock` -/
def Names (n : ℕ) (el : ℕ → B) (o : Option ℕ) (z : B) : Prop :=
  match o with
  | some j => j < n ∧ el j = z
  | none => ∀ j, j < n → el j ≠ z

/-- the numbers `0, ..., size-1` of the program's block stand for different elements `el i` of `B`,
in an order of weakly increasing length, and the tables of the program agree with those of `B` -/
structure Represents (bt : Block) (b : Blk B) (el : ℕ → B) : Prop where
  rank : bt.rank = b.rank
  inj : ∀ i j, i < bt.size → j < bt.size → el i = el j → i = j
  len : ∀ i, i < bt.size → bt.length i = b.len (el i)
  mono : ∀ i j, i ≤ j → j < bt.size → bt.length i ≤ bt.length j
  bound : ∀ i, i < bt.size → bt.length i < 2 ^ 16
  st : ∀ s i, s < bt.rank → i < bt.size → bt.status s i = b.st s (el i)
  cross : ∀ s i, s < bt.rank → i < bt.size → Names bt.size el (bt.crossImage s i) (b.cross s (el i))
  cay1 : ∀ s i, s < bt.rank → i < bt.size →
    bt.status s i ∈ [.imaginaryTypeI, .imaginaryTypeII, .realTypeI, .realTypeII] →
    Names bt.size el (bt.cayleyImage s i).1 (b.cay s (el i)).1
  cay2 : ∀ s i, s < bt.rank → i < bt.size → bt.status s i ∈ [.imaginaryTypeII, .realTypeI] →
    Names bt.size el (bt.cayleyImage s i).2 (b.cay s (el i)).2
  cay2_i1 : ∀ s i, s < bt.rank → i < bt.size → bt.status s i = .imaginaryTypeI →
    (bt.cayleyImage s i).2 = none

/-- `x` is extremal for `y`: the tau invariant of `y` is contained in that of `x` -/
def Extremal (b : Blk B) (x y : B) : Prop :=
  ∀ s, s < b.rank → (b.st s y).isDescent = true → (b.st s x).isDescent = true

/-- the vanishing that the program relies on when no recursion formula applies (Lemma 3.1 of the
document cited at kl.cpp 296-322) -/
def Vanishing (b : Blk B) (P : B → B → ℕ[X]) : Prop :=
  ∀ x y : B, b.len x < b.len y → Extremal b x y →
    (∀ s, s < b.rank → b.st s y ≠ .complexDescent ∧ b.st s y ≠ .realTypeI) →
    (∀ s, s < b.rank → b.st s y = .realNonparity →
      b.st s x ≠ .complexAscent ∧ b.st s x ≠ .imaginaryTypeII ∧ b.st s x ≠ .imaginaryCompact) →
    (∀ s t, s < b.rank → t < b.rank → b.st s y = .realNonparity → b.st s x = .imaginaryTypeI →
      b.st t y = .realTypeII →
        b.st t (b.cross s x) ≠ .imaginaryTypeI ∧ b.st t (b.cross s x) ≠ .imaginaryTypeII) →
    P x y = 0

/-- the setting of the correctness theorems: a block `b` with Hecke module duality `D` and
polynomials `P`, and a program block that represents it, or represents a part of it that contains
with each element `y` all `z` with `P z y ≠ 0` -/
structure Ctx (bt : Block) (b : Blk B) (D : Mod B → Mod B) (P : B → B → ℕ[X]) (el : ℕ → B)
    (M : ℕ) : Prop where
  data : Data b D P
  rep : Represents bt b el
  closed : ∀ y, y < bt.size → ∀ z, P z (el y) ≠ 0 → ∃ j, j < bt.size ∧ el j = z
  vanishing : Vanishing b P
  two : 2 ≤ M

/-- the coefficients are small compared to the capacity `M` of a coefficient -/
def Small (P : B → B → ℕ[X]) (M : ℕ) : Prop := ∀ x y i, 4 * (P x y).coeff i < M

/-- a list of coefficients is the reduced representation of a polynomial -/
def Is (M : ℕ) (l : Pol) (p : ℕ[X]) : Prop := Canon l ∧ Fits M l ∧ val l = p

/-- a call returns a value with property `Q`, or throws and `small` is false -/
def Ok {α : Type} (small : Prop) (r : Res α) (Q : α → Prop) : Prop :=
  (∃ a, r = .ok a ∧ Q a) ∨ (r = .throw ∧ ¬ small)

section Ok
variable {α β : Type} {small : Prop}

theorem Ok.ret {a : α} {Q : α → Prop} (h : Q a) : Ok small (.ok a) Q := Or.inl ⟨a, rfl, h⟩

theorem Ok.bind {r : Res α} {f : α → Res β} {Q : α → Prop} {R : β → Prop} (h : Ok small r Q)
    (g : ∀ a, Q a → Ok small (f a) R) : Ok small (r >>= f) R := by
  rcases h with ⟨a, rfl, ha⟩ | ⟨rfl, hs⟩
  · exact g a ha
  · exact Or.inr ⟨rfl, hs⟩

theorem Ok.mono {r : Res α} {Q R : α → Prop} (h : Ok small r Q) (g : ∀ a, Q a → R a) :
    Ok small r R := by
  rcases h with ⟨a, e, ha⟩ | hs
  · exact Or.inl ⟨a, e, g a ha⟩
  · exact Or.inr hs

theorem Ok.of {r : Res α} {Q : α → Prop} (h : ∃ a, r = .ok a ∧ Q a) : Ok small r Q := Or.inl h

end Ok

section Is
variable {M : ℕ} {small : Prop}

theorem Is.coeff {l : Pol} {p : ℕ[X]} (h : Is M l p) (i : ℕ) : p.coeff i = l.getD i 0 := by
  rw [← h.2.2, coeff_val]

theorem Is.nil : Is M [] 0 := ⟨fun h => absurd rfl h, by simp [Fits], Poly.val_nil⟩

theorem Is.one (hM : 2 ≤ M) : Is M [1] 1 := by
  refine ⟨fun _ => by simp, by simp [Fits]; omega, Poly.val_ext fun n => ?_⟩
  cases n <;> simp [Polynomial.coeff_one]

theorem Is.congr {l : Pol} {p p' : ℕ[X]} (h : Is M l p) (e : p = p') : Is M l p' := e ▸ h

theorem Is.isEmpty_iff {l : Pol} {p : ℕ[X]} (h : Is M l p) : l.isEmpty = true ↔ p = 0 := by
  constructor
  · intro e
    rw [List.isEmpty_iff.1 e] at h
    rw [← h.2.2, Poly.val_nil]
  · intro e
    have h1 := (canon_iff l).1 h.1
    by_contra hne
    have hl : l.length ≠ 0 := fun e => hne (by rw [List.length_eq_zero_iff.1 e]; rfl)
    apply h1 hl
    rw [← h.coeff, e]; simp

/-- the last coefficient of a nonempty list is that of the degree -/
theorem Is.lead {l : Pol} {p : ℕ[X]} (h : Is M l p) (hl : l.isEmpty = false) :
    p.coeff (l.length - 1) ≠ 0 ∧ p.coeff (l.length - 1) = l.getD (l.length - 1) 0 ∧
      ∀ i, p.coeff i ≠ 0 → i ≤ l.length - 1 := by
  have hl' : l.length ≠ 0 := fun e => by rw [List.length_eq_zero_iff.1 e] at hl; simp at hl
  refine ⟨?_, h.coeff _, fun i hi => ?_⟩
  · rw [h.coeff]; exact (canon_iff l).1 h.1 hl'
  · by_contra hlt
    rw [h.coeff, List.getD_eq_default _ _ (by omega)] at hi
    exact hi rfl

theorem poly_cancel {a c r : ℕ[X]} (h : a + r = c + r) : a = c := by
  ext i
  have := congrArg (fun f => f.coeff i) h
  simp only [coeff_add] at this
  omega

theorem addMul_ok {p r : Pol} {a c : ℕ[X]} (hM : 2 ≤ M) (hp : Is M p a) (hr : Is M r c) (d k : ℕ)
    (hs : small → ∀ i, (a + Polynomial.C k * X ^ d * c).coeff i < M) :
    Ok small (addMul M p r d k) (fun l => Is M l (a + Polynomial.C k * X ^ d * c)) := by
  have h := Poly.C28_safeAdd (by omega : 0 < M) false (p := p) (q := r) (by simp) d k hp.1 hr.1 hp.2.1
    hr.2.1
  rw [hp.2.2, hr.2.2] at h
  unfold addMul
  by_cases e : (safeAdd M false p r d k).1 = true
  · right
    refine ⟨by simp [e], fun hsm => ?_⟩
    obtain ⟨i, hi⟩ := h.2.1 e
    have := hs hsm i; omega
  · left
    have e' : (safeAdd M false p r d k).1 = false := by simpa using e
    exact ⟨_, by simp [e'], h.1 e'⟩

theorem addTo_ok {p r : Pol} {a c : ℕ[X]} (hM : 2 ≤ M) (hp : Is M p a) (hr : Is M r c) (d : ℕ)
    (hs : small → ∀ i, (a + X ^ d * c).coeff i < M) :
    Ok small (addTo M p r d) (fun l => Is M l (a + X ^ d * c)) := by
  have h := addMul_ok (small := small) hM hp hr d 1 (by simpa using hs)
  simp only [map_one, one_mul] at h
  unfold addTo
  rw [Poly.C28_safeAdd1 (by omega) false d hp.2.1 hr.2.1]
  exact h

theorem addSelf_ok {p : Pol} {a : ℕ[X]} (hM : 2 ≤ M) (hp : Is M p a)
    (hs : small → ∀ i, (a + X * a).coeff i < M) :
    Ok small (addSelf M p) (fun l => Is M l (a + X * a)) := by
  have h := Poly.C28_safeAdd (by omega : 0 < M) true (p := p) (q := p) (by simp) 1 1 hp.1 hp.1 hp.2.1
    hp.2.1
  rw [hp.2.2] at h
  simp only [map_one, one_mul, pow_one] at h
  unfold addSelf
  rw [Poly.C28_safeAdd1 (by omega) true 1 hp.2.1 hp.2.1]
  by_cases e : (safeAdd M true p p 1 1).1 = true
  · right
    refine ⟨by simp [e], fun hsm => ?_⟩
    obtain ⟨i, hi⟩ := h.2.1 e
    have := hs hsm i; omega
  · left
    have e' : (safeAdd M true p p 1 1).1 = false := by simpa using e
    exact ⟨_, by simp [e'], h.1 e'⟩

theorem sub_ok (nd : Bool) {p r : Pol} {a c t : ℕ[X]} (hM : 2 ≤ M) (hp : Is M p t) (hr : Is M r c)
    (d k : ℕ) (e : t = a + Polynomial.C k * X ^ d * c) :
    ∃ l, safeSubtract nd M false p r d k = .ok l ∧ Is M l a := by
  obtain ⟨l, h1, h2, h3, h4⟩ := Poly.C28_safeSubtract nd (by omega : 0 < M) false (p := p) (q := r)
    (by simp) d k hp.1 hr.1 hp.2.1 hr.2.1 (by
      intro i; rw [hp.2.2, hr.2.2, e, coeff_add]; omega)
  rw [hp.2.2, hr.2.2, e] at h4
  exact ⟨l, h1, h2, h3, poly_cancel h4⟩

theorem sub1_ok (nd : Bool) {p r : Pol} {a c t : ℕ[X]} (hM : 2 ≤ M) (hp : Is M p t) (hr : Is M r c)
    (d : ℕ) (e : t = a + X ^ d * c) :
    ∃ l, safeSubtract1 nd M false p r d = .ok l ∧ Is M l a := by
  obtain ⟨l, h1, h2, h3, h4⟩ := Poly.C28_safeSubtract1 nd (by omega : 1 < M) false (p := p) (q := r)
    (by simp) d hp.1 hr.1 hp.2.1 hr.2.1 (by
      intro i; rw [hp.2.2, hr.2.2, e, coeff_add]; omega)
  rw [hp.2.2, hr.2.2, e] at h4
  exact ⟨l, h1, h2, h3, poly_cancel h4⟩

theorem div2_ok (nd : Bool) {p : Pol} {a : ℕ[X]} (hM : 2 ≤ M) (hp : Is M p (2 * a)) :
    ∃ l, safeDivide nd p 2 = .ok l ∧ Is M l a := by
  have hc : ∀ (f : ℕ[X]) i, (2 * f).coeff i = 2 * f.coeff i := by
    intro f i; rw [two_mul, coeff_add]; omega
  obtain ⟨l, h1, h2, h3⟩ := (Poly.C28_safeDivide nd hp.1 (c := 2) (by omega)).1 (by
    intro i; rw [hp.2.2, hc]; exact ⟨_, rfl⟩)
  rw [hp.2.2] at h3
  have h4 : val l = a := by
    ext i
    have := congrArg (fun f => f.coeff i) h3
    simp only [hc, coeff_C_mul] at this
    omega
  refine ⟨l, h1, h2, ?_, h4⟩
  rw [fits_iff (by omega)]
  intro i
  have := (fits_iff (by omega : 0 < M) p).1 hp.2.1 i
  rw [← hp.coeff, hc] at this
  rw [← coeff_val, h4]; omega

theorem mono_ok (nd : Bool) {d c : ℕ} (hc : c ≠ 0) (hM : c < M) :
    ∃ l, monoPol nd d c = .ok l ∧ Is M l (Polynomial.C c * X ^ d) := by
  refine ⟨_, by rw [monoPol, Res.assertIn_bind nd (by simpa using hc)], ?_, ?_, ?_⟩
  · intro _; simp [hc]
  · intro x hx
    rcases List.mem_append.1 hx with h | h
    · rw [(List.mem_replicate.1 h).2]; omega
    · simp at h; omega
  · apply Poly.val_ext
    intro n
    rw [coeff_C_mul, coeff_X_pow]
    rcases Nat.lt_trichotomy n d with h | h | h
    · rw [List.getD_append _ _ _ _ (by simpa using h)]
      rw [List.getD_eq_getElem _ _ (by simpa using h)]
      simp; omega
    · subst h
      rw [List.getD_append_right _ _ _ _ (by simp)]; simp
    · rw [List.getD_eq_default _ _ (by simp; omega)]
      simp; omega

end Is

/-! ### Statuses and descent sets -/

theorem isDescent_eq (v : Status) : isDescent v = v.isDescent := by cases v <;> rfl

theorem isDirectRecursion_eq (v : Status) :
    isDirectRecursion v = (decide (v = .complexDescent) || decide (v = .realTypeI)) := by
  cases v <;> rfl

section Block
variable {bt : Block} {b : Blk B} {el : ℕ → B}

theorem mem_descentSet (hr : Represents bt b el) {x s : ℕ} (hx : x < bt.size) :
    s ∈ bt.descentSet x ↔ s < b.rank ∧ (b.st s (el x)).isDescent = true := by
  rw [Block.descentSet, List.mem_filter, List.mem_range, isDescent_eq, hr.rank]
  constructor
  · rintro ⟨h1, h2⟩
    rw [hr.st s x (by rw [hr.rank]; exact h1) hx] at h2
    exact ⟨h1, h2⟩
  · rintro ⟨h1, h2⟩
    refine ⟨h1, ?_⟩
    rw [hr.st s x (by rw [hr.rank]; exact h1) hx]
    exact h2

theorem mem_goodAscentSet (hr : Represents bt b el) {x s : ℕ} (hx : x < bt.size) :
    s ∈ bt.goodAscentSet x ↔ s < b.rank ∧ (b.st s (el x)).isDescent = false ∧
      b.st s (el x) ≠ .imaginaryTypeII := by
  rw [Block.goodAscentSet, List.mem_filter, List.mem_range, isDescent_eq, hr.rank]
  constructor
  · rintro ⟨h1, h2⟩
    rw [hr.st s x (by rw [hr.rank]; exact h1) hx] at h2
    simp at h2
    exact ⟨h1, h2⟩
  · rintro ⟨h1, h2⟩
    refine ⟨h1, ?_⟩
    rw [hr.st s x (by rw [hr.rank]; exact h1) hx]
    simp [h2]

theorem isExtremal_iff (hr : Represents bt b el) {x y : ℕ} (hx : x < bt.size) (hy : y < bt.size) :
    bt.isExtremal x (bt.descentSet y) = true ↔ Extremal b (el x) (el y) := by
  rw [Block.isExtremal, List.all_eq_true]
  constructor
  · intro h s hs hd
    have := h s ((mem_descentSet hr hy).2 ⟨hs, hd⟩)
    exact ((mem_descentSet hr hx).1 (by simpa using this)).2
  · intro h s hs
    obtain ⟨h1, h2⟩ := (mem_descentSet hr hy).1 hs
    simpa using (mem_descentSet hr hx).2 ⟨h1, h s h1 h2⟩

theorem isPrimitive_iff (hr : Represents bt b el) {x y : ℕ} (hx : x < bt.size) (hy : y < bt.size) :
    bt.isPrimitive x (bt.descentSet y) = true ↔
      ∀ s, s < b.rank → (b.st s (el y)).isDescent = true →
        (b.st s (el x)).isDescent = true ∨ b.st s (el x) = .imaginaryTypeII := by
  rw [Block.isPrimitive, List.isEmpty_iff, List.filter_eq_nil_iff]
  constructor
  · intro h s hs hd
    by_contra hcon
    rw [not_or] at hcon
    apply h s ((mem_goodAscentSet hr hx).2 ⟨hs, by simpa using hcon.1, hcon.2⟩)
    simpa using (mem_descentSet hr hy).2 ⟨hs, hd⟩
  · intro h s hs
    obtain ⟨h1, h2, h3⟩ := (mem_goodAscentSet hr hx).1 hs
    simp only [decide_eq_true_eq]
    intro hy'
    rcases h s h1 ((mem_descentSet hr hy).1 hy').2 with h4 | h4
    · rw [h2] at h4; cases h4
    · exact h3 h4

theorem extremal_primitive (hr : Represents bt b el) {x y : ℕ} (hx : x < bt.size) (hy : y < bt.size)
    (h : Extremal b (el x) (el y)) : bt.isPrimitive x (bt.descentSet y) = true :=
  (isPrimitive_iff hr hx hy).2 fun s hs hd => Or.inl (h s hs hd)

theorem primitive_self (hr : Represents bt b el) {y : ℕ} (hy : y < bt.size) :
    bt.isPrimitive y (bt.descentSet y) = true :=
  extremal_primitive hr hy hy fun _ _ h => h

/-! ### Lengths -/

theorem lt_of_len (hr : Represents bt b el) {x y : ℕ} (hx : x < bt.size)
    (h : bt.length x < bt.length y) : x < y := by
  by_contra hc
  have := hr.mono y x (by omega) hx
  omega

theorem lengthStopLoop_spec (hr : Represents bt b el) : ∀ (n z : ℕ) (v : List ℕ), z + n = bt.size →
    (∀ x, x < z → bt.length x < v.length) →
    (∀ l f, v[l]? = some f → f ≤ bt.size ∧ ∀ x, x < bt.size → (x < f ↔ bt.length x < l)) →
    (∀ x, x < bt.size → bt.length x < (bt.lengthStopLoop z n v).length) ∧
    (∀ l f, (bt.lengthStopLoop z n v)[l]? = some f →
      f ≤ bt.size ∧ ∀ x, x < bt.size → (x < f ↔ bt.length x < l)) := by
  intro n
  induction n with
  | zero => intro z v hz h1 h2; exact ⟨fun x hx => h1 x (by omega), h2⟩
  | succ n ih =>
    intro z v hz h1 h2
    rw [Block.lengthStopLoop]
    apply ih (z + 1) _ (by omega)
    · intro x hx
      rw [List.length_append, List.length_replicate]
      by_cases h : x = z
      · subst h; omega
      · have := h1 x (by omega); omega
    · intro l f hf
      by_cases hl : l < v.length
      · rw [List.getElem?_append_left hl] at hf; exact h2 l f hf
      · rw [List.getElem?_append_right (by omega), List.getElem?_replicate] at hf
        by_cases hc : l - v.length < bt.length z + 1 - v.length
        · rw [if_pos hc] at hf
          cases hf
          refine ⟨by omega, fun x hx => ⟨fun h => by have := h1 x h; omega, fun h => ?_⟩⟩
          by_contra hcon
          have := hr.mono z x (by omega) hx
          omega
        · rw [if_neg hc] at hf; cases hf

/-- `f` separates the elements of length less than that of `y` -/
def Floor (bt : Block) (y f : ℕ) : Prop :=
  f ≤ bt.size ∧ ∀ x, x < bt.size → (x < f ↔ bt.length x < bt.length y)

theorem lengthFloor_ok (hr : Represents bt b el) {y : ℕ} (hy : y < bt.size) :
    ∃ f, bt.lengthFloor y = .ok f ∧ Floor bt y f := by
  obtain ⟨h1, h2⟩ := lengthStopLoop_spec hr bt.size 0 [] (by omega) (by omega) (by simp)
  have hl := h1 y hy
  refine ⟨(bt.lengthStopLoop 0 bt.size [])[bt.length y], ?_, h2 _ _ (List.getElem?_eq_getElem hl)⟩
  have e : bt.lengthStop[bt.length y]? = some (bt.lengthStopLoop 0 bt.size [])[bt.length y] := by
    rw [Block.lengthStop, List.getElem?_append_left hl]; exact List.getElem?_eq_getElem hl
  rw [Block.lengthFloor, Block.lengthLess, e]

theorem lDiff_ok (hr : Represents bt b el) (nd : Bool) {x y : ℕ} (hx : x < bt.size) (hy : y < bt.size)
    (h : bt.length x ≤ bt.length y) : bt.lDiff nd y x = .ok (bt.length y - bt.length x) := by
  rw [Block.lDiff, Res.assertIn_bind nd (by simpa using h)]
  congr 1
  have := hr.bound x hx
  have := hr.bound y hy
  omega

end Block

end Verif.KL
