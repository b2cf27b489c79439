import Verif.KL.Prim

/-! The recursion for a column with a complex descent or a real descent of type I. -/

set_option linter.unusedSectionVars false

namespace Verif.KL

open Polynomial
open Verif.Poly (safeSubtract safeSubtract1)

variable {B : Type} [Fintype B] [DecidableEq B]
variable {bt : Block} {b : Blk B} {D : Mod B → Mod B} {P : B → B → ℕ[X]} {el : ℕ → B} {M : ℕ}

/-! ### Facts about mu -/

theorem mu_ne (b : Blk B) (P : B → B → ℕ[X]) {x y : B} (h : mu b P x y ≠ 0) :
    b.len x < b.len y ∧ (b.len y - b.len x) % 2 = 1 ∧
      (P x y).coeff ((b.len y - b.len x - 1) / 2) = mu b P x y ∧ P x y ≠ 0 := by
  by_cases hc : b.len x < b.len y ∧ (b.len y - b.len x) % 2 = 1
  · have e : mu b P x y = (P x y).coeff ((b.len y - b.len x - 1) / 2) := by rw [mu, if_pos hc]
    refine ⟨hc.1, hc.2, e.symm, fun h0 => h ?_⟩
    rw [e, h0, coeff_zero]
  · exact absurd (by rw [mu, if_neg hc]) h

/-- the program's list of nonzero mu for `y` is correct -/
def MuList (bt : Block) (b : Blk B) (P : B → B → ℕ[X]) (el : ℕ → B) (y : ℕ) (l : List (ℕ × ℕ)) :
    Prop :=
  (l.map Prod.fst).Pairwise (· < ·) ∧
    ∀ z c, (z, c) ∈ l ↔ z < bt.size ∧ c = mu b P (el z) (el y) ∧ c ≠ 0

/-- the same with a weaker condition on the order: by length, and no repetitions.  A column that is
taken over from the table of a subblock has this property. -/
def MuWeak (bt : Block) (b : Blk B) (P : B → B → ℕ[X]) (el : ℕ → B) (y : ℕ) (l : List (ℕ × ℕ)) :
    Prop :=
  (l.map Prod.fst).Pairwise (fun i j => i ≠ j ∧ b.len (el i) ≤ b.len (el j)) ∧
    ∀ z c, (z, c) ∈ l ↔ z < bt.size ∧ c = mu b P (el z) (el y) ∧ c ≠ 0

theorem MuList.weak (hr : Represents bt b el) {y : ℕ} {l : List (ℕ × ℕ)}
    (h : MuList bt b P el y l) : MuWeak bt b P el y l := by
  refine ⟨?_, h.2⟩
  refine h.1.imp_of_mem ?_
  intro i j _ hj hij
  obtain ⟨⟨z, c⟩, h1, rfl⟩ := List.mem_map.1 hj
  have hz := ((h.2 z c).1 h1).1
  refine ⟨by omega, ?_⟩
  have := hr.mono i z (by simp only at hij; omega) hz
  rwa [hr.len i (by simp only at hij; omega), hr.len z hz] at this

def MuOK (bt : Block) (b : Blk B) (P : B → B → ℕ[X]) (el : ℕ → B) (t : Table) (y : ℕ) : Prop :=
  ∃ l, t.mu[y]? = some l ∧ MuWeak bt b P el y l

/-- the column of `y` has been computed -/
structure Filled (bt : Block) (b : Blk B) (P : B → B → ℕ[X]) (el : ℕ → B) (M : ℕ) (t : Table)
    (y : ℕ) : Prop where
  col : ColFrom bt P el M t y 0
  mu : MuOK bt b P el t y
  recd : ∃ r, t.prim.lookup (bt.descentSet y) = some r ∧ RecOK bt P el (bt.descentSet y) r

theorem Filled.klPol (hc : Ctx bt b D P el M) (nd : Bool) {t : Table} {y : ℕ} (hy : y < bt.size)
    (h : Filled bt b P el M t y) (o : Option ℕ) (ho : ∀ j, o = some j → j < bt.size) :
    ∃ p, klPol nd bt t o y = .ok p ∧ Is M p (polO P el o (el y)) := by
  obtain ⟨r, h1, h2⟩ := h.recd
  exact klPol_ok hc nd h1 h2 hy h.col o (fun j e => ⟨ho j e, by omega⟩)

theorem names_lt {n : ℕ} {o : Option ℕ} {z : B} (h : Names n el o z) : ∀ j, o = some j → j < n := by
  intro j e; subst e; exact h.1

theorem Filled.klNames (hc : Ctx bt b D P el M) (nd : Bool) {t : Table} {y : ℕ} (hy : y < bt.size)
    (h : Filled bt b P el M t y) {o : Option ℕ} {z : B} (ho : Names bt.size el o z) :
    ∃ p, Verif.KL.klPol nd bt t o y = .ok p ∧ Is M p (P z (el y)) := by
  rw [← hc.names hy ho]
  exact h.klPol hc nd hy o (names_lt ho)

theorem Filled.klSome (hc : Ctx bt b D P el M) (nd : Bool) {t : Table} {x y : ℕ} (hx : x < bt.size)
    (hy : y < bt.size) (h : Filled bt b P el M t y) :
    ∃ p, Verif.KL.klPol nd bt t (some x) y = .ok p ∧ Is M p (P (el x) (el y)) :=
  h.klNames hc nd hy (o := some x) ⟨hx, rfl⟩

theorem muVal_ok (hc : Ctx bt b D P el M) (nd : Bool) {t : Table} {x y : ℕ} (hx : x < bt.size)
    (hy : y < bt.size) (h : Filled bt b P el M t y) (hne : x ≠ y) :
    muVal nd bt t x y = .ok (mu b P (el x) (el y)) := by
  obtain ⟨p, h1, h2⟩ := h.klSome hc nd hx hy
  have hne' : el x ≠ el y := fun e => hne (hc.rep.inj x y hx hy e)
  rw [muVal, h1, Res.ok_bind]
  by_cases he : p.isEmpty = true
  · rw [if_pos he]
    have h0 := h2.isEmpty_iff.1 he
    congr 1
    rw [mu, h0]; simp
  · rw [if_neg he]
    obtain ⟨l1, l2, l3⟩ := h2.lead (by simpa using he)
    have hd := hc.data.klv.deg _ _ hne' _ l1
    have hlx := hc.rep.len x hx
    have hly := hc.rep.len y hy
    rw [lDiff_ok hc.rep nd hx hy (by omega), Res.ok_bind]
    congr 1
    by_cases hlt : 2 * (p.length - 1) + 1 < bt.length y - bt.length x
    · rw [if_pos hlt, mu]
      by_cases hpar : b.len (el x) < b.len (el y) ∧ (b.len (el y) - b.len (el x)) % 2 = 1
      · rw [if_pos hpar]
        by_contra hcon
        have := l3 _ (Ne.symm hcon)
        omega
      · rw [if_neg hpar]
    · rw [if_neg hlt, mu, if_pos (by omega), ← l2]
      congr 1; omega

/-! ### The sum over the nonzero mu as a sum over a list -/

/-- the contribution of a pair of the list -/
noncomputable def lterm (b : Blk B) (P : B → B → ℕ[X]) (el : ℕ → B) (s ly : ℕ) (x : B)
    (zc : ℕ × ℕ) : ℕ[X] :=
  if (b.st s (el zc.1)).isDescent then
    Polynomial.C zc.2 * X ^ ((ly + 1 - b.len (el zc.1)) / 2) * P x (el zc.1) else 0

theorem muSum_list (hc : Ctx bt b D P el M) {s y : ℕ} {x : B} {l : List (ℕ × ℕ)}
    (hnd : (l.map Prod.fst).Nodup)
    (hmem : ∀ zc ∈ l, zc.1 < bt.size ∧ zc.2 = mu b P (el zc.1) (el y))
    (hcov : ∀ z : B, (b.st s z).isDescent = true → mu b P z (el y) ≠ 0 → P x z ≠ 0 →
      ∃ zc ∈ l, el zc.1 = z) :
    muSum b P s (el y) x = (l.map (lterm b P el s (b.len (el y)) x)).sum := by
  have hnd' : l.Nodup := List.Nodup.of_map _ hnd
  rw [← List.sum_toFinset _ hnd', muSum]
  symm
  apply Finset.sum_of_injOn (fun zc : ℕ × ℕ => el zc.1)
  · intro p hp q hq e
    simp only [List.coe_toFinset, Set.mem_setOf_eq] at hp hq
    have e1 := hc.rep.inj _ _ (hmem p hp).1 (hmem q hq).1 e
    apply Prod.ext e1
    rw [(hmem p hp).2, (hmem q hq).2, e1]
  · intro p _; simp
  · intro z _ hz
    by_contra hne
    by_cases hd : (b.st s z).isDescent = true
    · rw [if_pos hd] at hne
      have h1 : mu b P z (el y) ≠ 0 := by intro e; rw [e] at hne; simp at hne
      have h2 : P x z ≠ 0 := by intro e; rw [e] at hne; simp at hne
      obtain ⟨zc, h3, h4⟩ := hcov z hd h1 h2
      exact hz ⟨zc, by simpa using h3, h4⟩
    · rw [if_neg hd] at hne; exact hne rfl
  · intro p hp
    rw [List.mem_toFinset] at hp
    rw [lterm, (hmem p hp).2]

theorem muSum_col (hc : Ctx bt b D P el M) {s y : ℕ} (hy : y < bt.size) {x : B} {l : List (ℕ × ℕ)}
    (hl : MuWeak bt b P el y l) :
    muSum b P s (el y) x = (l.map (lterm b P el s (b.len (el y)) x)).sum := by
  apply muSum_list hc
  · exact hl.1.imp (fun h => h.1)
  · rintro ⟨z, c⟩ h; have := (hl.2 z c).1 h; exact ⟨this.1, this.2.1⟩
  · intro z _ h1 _
    obtain ⟨j, hj, e⟩ := hc.closed y hy z (mu_ne b P h1).2.2.2
    refine ⟨(j, mu b P z (el y)), (hl.2 _ _).2 ⟨hj, by rw [e], h1⟩, e⟩

/-! ### The terms -/

theorem X_coeff_small {f : ℕ[X]} (h : ∀ i, 4 * f.coeff i < M) (i : ℕ) : 4 * (X * f).coeff i < M := by
  cases i with
  | zero => simpa using Nat.lt_of_le_of_lt (Nat.zero_le _) (h 0)
  | succ i => rw [coeff_X_mul]; exact h i

theorem recTerm_ok (hc : Ctx bt b D P el M) (nd : Bool) {t : Table} {s sy x : ℕ} (hs : s < b.rank)
    (hx : x < bt.size) (hsy : sy < bt.size) (hdx : (b.st s (el x)).isDescent = true)
    (hdy : (b.st s (el sy)).isDescent = false) (hf : Filled bt b P el M t sy) :
    Ok (Small P M) (recTerm nd M bt t s sy x)
      (fun p => Is M p (upSum b P s (el sy) (el x) + muSum b P s (el sy) (el x))) := by
  have hst := hc.st hs hx
  have hM := hc.two
  have hinv : bt.inverseCayley s x = bt.cayleyImage s x := by
    rw [Block.inverseCayley, if_pos (by rw [hst, isDescent_eq]; exact hdx)]
  obtain ⟨p, hp, hpI⟩ := hf.klSome hc nd hx hsy
  rw [recTerm]
  cases hv : b.st s (el x) <;> rw [hv] at hdx <;>
    simp only [Status.isDescent, Bool.false_eq_true] at hdx
  · -- imaginary compact
    rw [hst, hv]; dsimp only
    rw [hp, Res.ok_bind, ← hc.data.rec_ic hs hdy hv, add_comm]
    apply addSelf_ok hM hpI
    intro hsm i
    have h1 := hsm (el x) (el sy) i
    have h2 := X_coeff_small (hsm (el x) (el sy)) i
    rw [coeff_add]; omega
  · -- complex descent
    rw [hst, hv]; dsimp only
    obtain ⟨p1, hp1, hpI1⟩ := hf.klNames hc nd hsy (hc.cross hs hx)
    rw [hp1, Res.ok_bind, hp, Res.ok_bind, ← hc.data.rec_cd hs hdy hv]
    refine (addTo_ok hM hpI1 hpI 1 ?_).mono (fun l h => h.congr (by rw [pow_one]))
    intro hsm i
    have h1 := hsm (b.cross s (el x)) (el sy) i
    have h2 := X_coeff_small (hsm (el x) (el sy)) i
    rw [coeff_add, pow_one]; omega
  · -- real type II
    rw [hst, hv]; dsimp only
    obtain ⟨p1, hp1, hpI1⟩ := hf.klNames hc nd hsy (hc.cay1 hs hx (by simp [hv]))
    obtain ⟨p2, hp2, hpI2⟩ := hf.klNames hc nd hsy (hc.cross hs hx)
    rw [hinv, hp1, Res.ok_bind, hp, Res.ok_bind]
    refine Ok.bind (addTo_ok hM hpI1 hpI 1 ?_) ?_
    · intro hsm i
      have h1 := hsm (b.cay s (el x)).1 (el sy) i
      have h2 := X_coeff_small (hsm (el x) (el sy)) i
      rw [coeff_add, pow_one]; omega
    · intro l hl
      rw [hp2, Res.ok_bind]
      apply Ok.of
      apply sub1_ok nd hM hl hpI2 0
      rw [pow_zero, one_mul, pow_one, hc.data.rec_r2 hs hdy hv, add_comm]
  · -- real type I
    rw [hst, hv]; dsimp only
    obtain ⟨p1, hp1, hpI1⟩ := hf.klNames hc nd hsy (hc.cay1 hs hx (by simp [hv]))
    obtain ⟨p2, hp2, hpI2⟩ := hf.klNames hc nd hsy (hc.cay2 hs hx (by simp [hv]))
    rw [hinv, hp1, Res.ok_bind, hp2, Res.ok_bind]
    refine Ok.bind (addTo_ok hM hpI1 hpI2 0 ?_) ?_
    · intro hsm i
      have h1 := hsm (b.cay s (el x)).1 (el sy) i
      have h2 := hsm (b.cay s (el x)).2 (el sy) i
      rw [coeff_add, pow_zero, one_mul]; omega
    · intro l hl
      rw [hp, Res.ok_bind]
      refine Ok.bind (addTo_ok hM hl hpI 1 ?_) ?_
      · intro hsm i
        have h1 := hsm (b.cay s (el x)).1 (el sy) i
        have h2 := hsm (b.cay s (el x)).2 (el sy) i
        have h3 := X_coeff_small (hsm (el x) (el sy)) i
        rw [coeff_add, coeff_add, pow_zero, one_mul, pow_one]; omega
      · intro l' hl'
        apply Ok.of
        apply sub1_ok nd hM hl' hpI 0
        rw [pow_zero, one_mul, one_mul, pow_one, hc.data.rec_r1 hs hdy hv, add_comm]

theorem recAssert_ok (hc : Ctx bt b D P el M) (nd : Bool) {t : Table} {s y sy x : ℕ} (hs : s < b.rank)
    (hx : x < bt.size) (hy : y < bt.size) (hsy : sy < bt.size)
    (hdx : (b.st s (el x)).isDescent = true)
    (hdy : (b.st s (el sy)).isDescent = false) (hf : Filled bt b P el M t sy)
    (hl : b.len (el y) = b.len (el sy) + 1) (hlx : b.len (el x) < b.len (el y))
    (hup : el x ∉ up b s (el sy)) {p : Pol}
    (hp : Is M p (upSum b P s (el sy) (el x) + muSum b P s (el sy) (el x))) :
    recAssert nd bt t y sy x p = .ok () := by
  rw [recAssert]
  by_cases h0 : nd = true ∨ p.isEmpty = true
  · rw [if_pos h0]
  · rw [if_neg h0]
    rw [not_or] at h0
    obtain ⟨l1, l2, l3⟩ := hp.lead (by simpa using h0.2)
    have hlx' := hc.rep.len x hx
    have hly' := hc.rep.len y hy
    rw [lDiff_ok hc.rep nd hx hy (by omega), Res.ok_bind]
    have hdeg := hc.data.total_deg hs hdy _ l1
    by_cases hlt : 2 * (p.length - 1) < bt.length y - bt.length x
    · rw [if_pos hlt]
    · rw [if_neg hlt]
      have hne : x ≠ sy := by rintro rfl; rw [hdx] at hdy; cases hdy
      rw [muVal_ok hc nd hx hsy hf hne, Res.ok_bind]
      have hmid := hc.data.total_mid hs hdy hdx hup (p.length - 1) (by omega)
      rw [Res.assert, if_pos]
      rw [decide_eq_true_iff]
      exact ⟨by omega, by rw [← l2, hmid]⟩

theorem recLoop_ok (hc : Ctx bt b D P el M) (nd : Bool) {t : Table} {s y sy : ℕ} (hs : s < b.rank)
    (hy : y < bt.size) (hsy : sy < bt.size)
    (hdy : (b.st s (el sy)).isDescent = false) (hf : Filled bt b P el M t sy)
    (hl : b.len (el y) = b.len (el sy) + 1) :
    ∀ ext : List ℕ, (∀ x ∈ ext, x < bt.size ∧ (b.st s (el x)).isDescent = true ∧
      b.len (el x) < b.len (el y) ∧ el x ∉ up b s (el sy)) →
    Ok (Small P M) (recLoop nd M bt t y s sy ext) (fun klv => List.Forall₂ (fun x p =>
      Is M p (upSum b P s (el sy) (el x) + muSum b P s (el sy) (el x))) ext klv) := by
  intro ext
  induction ext with
  | nil => intro _; exact Ok.ret .nil
  | cons x l ih =>
    intro h
    obtain ⟨h1, h2, h3, h4⟩ := h x (by simp)
    rw [recLoop]
    refine Ok.bind (recTerm_ok hc nd hs h1 hsy h2 hdy hf) (fun p hp => ?_)
    rw [recAssert_ok hc nd hs h1 hy hsy h2 hdy hf hl h3 h4 hp, Res.ok_bind]
    exact Ok.bind (ih (fun x hx => h x (by simp [hx]))) (fun r hr => Ok.ret (.cons hp hr))

/-! ### Subtraction of the terms with mu -/

theorem forall2_imp {α β : Type} {R S : α → β → Prop} {xs : List α} {ps : List β}
    (h : List.Forall₂ R xs ps) (g : ∀ x ∈ xs, ∀ p, R x p → S x p) : List.Forall₂ S xs ps := by
  induction h with
  | nil => exact .nil
  | cons h1 _ ih => exact .cons (g _ (by simp) _ h1) (ih fun x hx => g x (by simp [hx]))

theorem muFinal_ok (hM : 2 ≤ M) (nd : Bool) {z d c : ℕ} {F : ℕ → ℕ[X]} (hc0 : c ≠ 0)
    (hdeg : ∀ i, (F z).coeff i ≠ 0 → i < d) :
    ∀ (xs : List ℕ) (ps : List Pol), z ∈ xs → xs.Pairwise (· < ·) →
      List.Forall₂ (fun x p => Is M p (if x = z then F x + Polynomial.C c * X ^ d else F x)) xs ps →
      ∃ ps', muFinal nd M z d c xs ps = .ok ps' ∧ List.Forall₂ (fun x p => Is M p (F x)) xs ps' := by
  intro xs
  induction xs with
  | nil => intro ps h; simp at h
  | cons x xs ih =>
    intro ps hz hsort hf
    cases hf with
    | cons hp hr =>
      rename_i p ps
      rw [List.pairwise_cons] at hsort
      rw [muFinal]
      by_cases e : x = z
      · subst e
        rw [if_pos rfl] at hp
        rw [if_neg (by simp)]
        have hcd : (F x + Polynomial.C c * X ^ d).coeff d = c := by
          rw [coeff_add, coeff_C_mul, coeff_X_pow_self, mul_one]
          by_contra hcon
          have := hdeg d (by omega)
          omega
        have hne : p.isEmpty = false := by
          by_contra hcon
          have := hp.isEmpty_iff.1 (by simpa using hcon)
          rw [this, coeff_zero] at hcd
          exact hc0 hcd.symm
        obtain ⟨l1, l2, l3⟩ := hp.lead hne
        have h1 := l3 d (by rw [hcd]; exact hc0)
        have h2 : p.length - 1 ≤ d := by
          by_contra hcon
          apply l1
          rw [coeff_add, coeff_C_mul, coeff_X_pow, if_neg (by omega), mul_zero, add_zero]
          by_contra hh
          have := hdeg _ hh
          omega
        have h3 : p.length ≠ 0 := fun e => by rw [List.length_eq_zero_iff.1 e] at hne; simp at hne
        rw [Res.assertIn_bind nd (by
          rw [decide_eq_true_iff]
          exact ⟨by omega, by rw [← hp.coeff, hcd]⟩)]
        obtain ⟨m, hm, hmI⟩ := mono_ok nd (M := M) (d := d) hc0 (by
          have := (Poly.fits_iff (by omega : 0 < M) p).1 hp.2.1 d
          rw [← hp.coeff, hcd] at this; exact this)
        rw [hm, Res.ok_bind]
        obtain ⟨l, hl, hlI⟩ := sub1_ok nd hM hp hmI 0 (a := F x) (by rw [pow_zero, one_mul])
        rw [hl, Res.ok_bind]
        refine ⟨_, rfl, .cons hlI ?_⟩
        have : ∀ x' ∈ xs, x' ≠ x := fun x' h => by have := hsort.1 x' h; omega
        refine forall2_imp hr fun x1 hx1 p1 h1 => ?_
        rw [if_neg (this _ hx1)] at h1
        exact h1
      · rw [if_pos e]
        rw [if_neg e] at hp
        obtain ⟨ps', h1, h2⟩ := ih ps (by simpa [Ne.symm e] using hz) hsort.2 hr
        rw [h1, Res.ok_bind]
        exact ⟨_, rfl, .cons hp h2⟩

theorem muInner_ok (hc : Ctx bt b D P el M) (nd : Bool) {t : Table} {A : List ℕ} {z d c : ℕ}
    {F : ℕ → ℕ[X]} (hz : z < bt.size) (hfz : Filled bt b P el M t z) (hc0 : c ≠ 0)
    (hdeg : ∀ i, (F z).coeff i ≠ 0 → i < d) :
    ∀ (xs : List ℕ) (ps : List Pol), (bt.isExtremal z A = true ↔ z ∈ xs) → xs.Pairwise (· < ·) →
      (∀ x ∈ xs, x < bt.size) →
      List.Forall₂ (fun x p => Is M p (F x + Polynomial.C c * X ^ d * P (el x) (el z))) xs ps →
      ∃ ps', muInner nd M bt t A z d c xs ps = .ok ps' ∧
        List.Forall₂ (fun x p => Is M p (F x)) xs ps' := by
  intro xs
  induction xs with
  | nil =>
    intro ps hex _ _ hf
    cases hf
    rw [muInner, if_neg (by rw [hex]; simp)]
    exact ⟨[], rfl, .nil⟩
  | cons x xs ih =>
    intro ps hex hsort hlt hf
    cases hf with
    | cons hp hr =>
      rename_i p ps
      have hx := hlt x (by simp)
      rw [List.pairwise_cons] at hsort
      rw [muInner]
      by_cases hl : bt.length x < bt.length z
      · rw [if_pos hl]
        obtain ⟨pol, h1, h2⟩ := hfz.klSome hc nd hx hz
        rw [h1, Res.ok_bind]
        have hxz : z ≠ x := by rintro rfl; omega
        obtain ⟨ps', h3, h4⟩ := ih ps (by rw [hex]; simp [hxz]) hsort.2
          (fun x h => hlt x (by simp [h])) hr
        have hsub : ∃ p', (if c = 1 then safeSubtract1 nd M false p pol d
            else safeSubtract nd M false p pol d c) = .ok p' ∧ Is M p' (F x) := by
          by_cases h1 : c = 1
          · rw [if_pos h1]
            exact sub1_ok nd hc.two hp h2 d (by rw [h1, map_one, one_mul])
          · rw [if_neg h1]
            exact sub_ok nd hc.two hp h2 d c rfl
        obtain ⟨p', h5, h6⟩ := hsub
        dsimp only
        by_cases h1 : c = 1
        · rw [if_pos h1] at h5 ⊢
          rw [h5, Res.ok_bind, h3, Res.ok_bind]
          exact ⟨_, rfl, .cons h6 h4⟩
        · rw [if_neg h1] at h5 ⊢
          rw [h5, Res.ok_bind, h3, Res.ok_bind]
          exact ⟨_, rfl, .cons h6 h4⟩
      · rw [if_neg hl]
        have hfin : List.Forall₂ (fun x p => Is M p (if x = z then F x + Polynomial.C c * X ^ d else F x))
            (x :: xs) (p :: ps) := by
          have hge : ∀ x' ∈ x :: xs, bt.length z ≤ bt.length x' := by
            intro x' hx'
            rcases List.mem_cons.1 hx' with e | e
            · rw [e]; omega
            · have := hr
              have h1 := hc.rep.mono x x' (le_of_lt (hsort.1 x' e)) (hlt x' (by simp [e]))
              omega
          have hall : List.Forall₂ (fun x p => Is M p (F x + Polynomial.C c * X ^ d * P (el x) (el z)))
            (x :: xs) (p :: ps) := .cons hp hr
          refine forall2_imp hall fun x1 hx1 p1 h1 => ?_
          by_cases e : x1 = z
          · rw [if_pos e]
            rw [e, hc.data.klv.one, mul_one] at h1
            rw [e]; exact h1
          · rw [if_neg e]
            rw [hc.pol_zero (hlt x1 hx1) hz e (hge x1 hx1), mul_zero, add_zero] at h1
            exact h1
        by_cases hext : bt.isExtremal z A = true
        · rw [if_pos hext]
          exact muFinal_ok hc.two nd hc0 hdeg _ _ (hex.1 hext)
            (List.pairwise_cons.2 hsort) hfin
        · rw [if_neg hext]
          refine ⟨_, rfl, ?_⟩
          have hnin : ∀ x' ∈ x :: xs, x' ≠ z := by
            intro x' h e; subst e; exact hext (hex.2 h)
          refine forall2_imp hfin fun x1 hx1 p1 h1 => ?_
          rw [if_neg (hnin _ hx1)] at h1
          exact h1

theorem muCorrection_ok (hc : Ctx bt b D P el M) (nd : Bool) {t : Table} {s y sy : ℕ}
    (hs : s < b.rank) (hy : y < bt.size) (hsy : sy < bt.size)
    (hl : b.len (el y) = b.len (el sy) + 1) {ext : List ℕ} (hsort : ext.Pairwise (· < ·))
    (hext : ∀ x ∈ ext, x < bt.size)
    (hmem : ∀ z, z < bt.size → b.len (el z) < b.len (el y) →
      (bt.isExtremal z (bt.descentSet y) = true ↔ z ∈ ext)) :
    ∀ (l : List (ℕ × ℕ)) (klv : List Pol),
      (l.map Prod.fst).Pairwise (fun j i => i ≠ j ∧ b.len (el i) ≤ b.len (el j)) →
      (∀ z c, (z, c) ∈ l → z < bt.size ∧ c = mu b P (el z) (el sy) ∧ c ≠ 0 ∧
        Filled bt b P el M t z) →
      List.Forall₂ (fun x p => Is M p (P (el x) (el y) +
        (l.map (lterm b P el s (b.len (el sy)) (el x))).sum)) ext klv →
      ∃ klv', muCorrection nd M bt t ext (bt.descentSet y) sy s l klv = .ok klv' ∧
        List.Forall₂ (fun x p => Is M p (P (el x) (el y))) ext klv' := by
  intro l
  induction l with
  | nil =>
    intro klv _ _ hf
    simp only [List.map_nil, List.sum_nil, add_zero] at hf
    exact ⟨klv, rfl, hf⟩
  | cons zc l ih =>
    obtain ⟨z, c⟩ := zc
    intro klv hso hl' hf
    rw [List.map_cons, List.pairwise_cons] at hso
    obtain ⟨hz, hcm, hc0, hfz⟩ := hl' z c (by simp)
    have hlz := hc.rep.len z hz
    have hlsy := hc.rep.len sy hsy
    rw [muCorrection, hc.st hs hz, isDescent_eq]
    simp only [List.map_cons, List.sum_cons] at hf
    by_cases hd : (b.st s (el z)).isDescent = true
    · rw [if_pos hd]
      obtain ⟨m1, m2, m3, m4⟩ := mu_ne b P (hcm ▸ hc0)
      have hFz : P (el z) (el y) + (l.map (lterm b P el s (b.len (el sy)) (el z))).sum =
          P (el z) (el y) := by
        have : (l.map (lterm b P el s (b.len (el sy)) (el z))).sum = 0 := by
          apply List.sum_eq_zero
          intro v hv
          obtain ⟨zc', h1, h2⟩ := List.mem_map.1 hv
          have h3 := hl' zc'.1 zc'.2 (by simp [h1])
          have h4 := hso.1 zc'.1 (List.mem_map.2 ⟨zc', h1, rfl⟩)
          rw [← h2, lterm, hc.pol_zero hz h3.1 (Ne.symm h4.1)
            (by rw [hc.rep.len _ h3.1, hlz]; exact h4.2), mul_zero]
          simp
        rw [this, add_zero]
      obtain ⟨klv', h1, h2⟩ := muInner_ok hc nd (A := bt.descentSet y)
        (d := (bt.length sy + 1 - bt.length z) / 2) (c := c)
        (F := fun x => P (el x) (el y) + (l.map (lterm b P el s (b.len (el sy)) (el x))).sum) hz hfz hc0
        (by
          intro i hi
          rw [hFz] at hi
          have := hc.data.klv.deg (el z) (el y) (by intro e; rw [e] at m1; omega) i hi
          omega) ext klv (hmem z hz (by omega)) hsort hext (by
          refine hf.imp fun x p h => ?_
          rw [lterm, if_pos hd] at h
          refine h.congr ?_
          rw [hlsy, hlz]; ring)
      rw [h1, Res.ok_bind]
      exact ih klv' hso.2 (fun z c h => hl' z c (by simp [h])) h2
    · rw [if_neg hd, Res.ok_bind]
      apply ih klv hso.2 (fun z c h => hl' z c (by simp [h]))
      refine hf.imp fun x p h => ?_
      rw [lterm, if_neg hd, zero_add] at h
      exact h

/-! ### The column -/

/-- the extremal elements, as the program lists them -/
def extList (bt : Block) (y f : ℕ) : List ℕ :=
  (List.range f).filter (fun x => bt.isExtremal x (bt.descentSet y))

theorem firstDirect_some (hc : Ctx bt b D P el M) {y s : ℕ} (hy : y < bt.size)
    (h : bt.firstDirectRecursion y = some s) :
    s < b.rank ∧ (b.st s (el y) = .complexDescent ∨ b.st s (el y) = .realTypeI) := by
  have h1 := List.find?_some h
  have h2 := List.mem_of_find?_eq_some h
  rw [List.mem_range, hc.rep.rank] at h2
  rw [isDirectRecursion_eq, hc.st h2 hy] at h1
  exact ⟨h2, by simpa using h1⟩

theorem firstDirect_none (hc : Ctx bt b D P el M) {y : ℕ} (hy : y < bt.size)
    (h : bt.firstDirectRecursion y = none) (s : ℕ) (hs : s < b.rank) :
    b.st s (el y) ≠ .complexDescent ∧ b.st s (el y) ≠ .realTypeI := by
  have := List.find?_eq_none.1 h s (by rw [List.mem_range, hc.rep.rank]; exact hs)
  rw [isDirectRecursion_eq, hc.st hs hy] at this
  simpa using this

/-- something below `y` by a descent has a number -/
theorem Ctx.down_num (hc : Ctx bt b D P el M) {y : ℕ} (hy : y < bt.size) {o : Option ℕ} {z : B}
    (hn : Names bt.size el o z) (hd : Down b z (el y)) :
    ∃ j, o = some j ∧ j < bt.size ∧ el j = z := by
  cases o with
  | some j => exact ⟨j, rfl, hn.1, hn.2⟩
  | none =>
    obtain ⟨j, hj, e⟩ := hc.closed y hy z (by rw [(hc.data.down_mu hd).1]; exact one_ne_zero)
    exact absurd e (hn j hj)

theorem recursionColumn_ok (hc : Ctx bt b D P el M) (nd : Bool) {t : Table} {s y f : ℕ}
    (hy : y < bt.size) (hf : bt.lengthFloor y = .ok f) (hfl : Floor bt y f)
    (hfd : bt.firstDirectRecursion y = some s)
    (hrec : ∃ r, t.prim.lookup (bt.descentSet y) = some r ∧ RecOK bt P el (bt.descentSet y) r)
    (hbelow : ∀ z, z < y → Filled bt b P el M t z) :
    Ok (Small P M) (recursionColumn nd M bt t y s)
      (fun klv => List.Forall₂ (fun x p => Is M p (P (el x) (el y))) (extList bt y f) klv) := by
  obtain ⟨hs, hv⟩ := firstDirect_some hc hy hfd
  have hrel := hc.data.wf s hs (el y)
  have hst := hc.st hs hy
  have hsyex : ∃ sy, (if bt.status s y = .complexDescent then bt.crossImage s y
      else (bt.inverseCayley s y).1) = some sy ∧ sy < bt.size ∧ up b s (el sy) = {el y} := by
    rcases hv with hv | hv
    · simp only [Blk.Rel, hv] at hrel
      have hup : up b s (b.cross s (el y)) = {el y} := by
        rw [up, hrel.1]; simp only [hrel.2.1]
      obtain ⟨j, h1, h2, h3⟩ := hc.down_num hy (hc.cross hs hy) ⟨s, hs, by rw [hup]; simp⟩
      exact ⟨j, by rw [if_pos (by rw [hst, hv]), h1], h2, by rw [h3, hup]⟩
    · simp only [Blk.Rel, hv] at hrel
      have hup : up b s (b.cay s (el y)).1 = {el y} := by
        rw [up, hrel.2.1]; simp only [hrel.2.2.2.2.2.2.2.1]
      obtain ⟨j, h1, h2, h3⟩ := hc.down_num hy (hc.cay1 hs hy (by simp [hv]))
        ⟨s, hs, by rw [hup]; simp⟩
      refine ⟨j, ?_, h2, by rw [h3, hup]⟩
      rw [if_neg (by rw [hst, hv]; decide), Block.inverseCayley,
        if_pos (by rw [hst, hv]; rfl), h1]
  obtain ⟨sy, e1, hsy, hup⟩ := hsyex
  obtain ⟨hlen, hdy', hdsy⟩ := up_len hc.data.wf hs (show el y ∈ up b s (el sy) by rw [hup]; simp)
  have hlt : sy < y := hc.gt hsy hy (by omega)
  have hfsy := hbelow sy hlt
  obtain ⟨r, hr1, hr2⟩ := hrec
  rw [recursionColumn]
  simp only [e1]
  rw [colSize_ok hc nd hr1 hr2 hf hfl, Res.ok_bind, extremals, hf, Res.ok_bind, Res.ok_bind]
  have hextmem : ∀ x ∈ extList bt y f, x < f ∧ bt.isExtremal x (bt.descentSet y) = true := by
    intro x hx
    have := List.mem_filter.1 hx
    exact ⟨List.mem_range.1 this.1, this.2⟩
  have hxlt : ∀ x ∈ extList bt y f, x < bt.size := fun x hx => by
    have := (hextmem x hx).1; have := hfl.1; omega
  have hxlen : ∀ x ∈ extList bt y f, b.len (el x) < b.len (el y) := fun x hx => by
    have h1 := (hfl.2 x (hxlt x hx)).1 (hextmem x hx).1
    rw [hc.rep.len x (hxlt x hx), hc.rep.len y hy] at h1
    exact h1
  refine Ok.bind (recLoop_ok hc nd hs hy hsy hdsy hfsy hlen (extList bt y f) ?_) ?_
  · intro x hx
    refine ⟨hxlt x hx, ?_, hxlen x hx, ?_⟩
    · exact (isExtremal_iff hc.rep (hxlt x hx) hy).1 (hextmem x hx).2 s hs hdy'
    · rw [hup, Finset.mem_singleton]
      intro e
      have := hxlen x hx
      rw [e] at this; omega
  · intro klv hklv
    obtain ⟨mcol, hm1, hm2⟩ := hfsy.mu
    rw [hm1]
    apply Ok.of
    refine muCorrection_ok hc nd hs hy hsy hlen ?_ hxlt ?_ mcol.reverse klv ?_ ?_ ?_
    · exact List.Pairwise.filter _ List.pairwise_lt_range
    · intro z hz hlz
      rw [extList, List.mem_filter, List.mem_range]
      have : z < f := (hfl.2 z hz).2 (by rw [hc.rep.len z hz, hc.rep.len y hy]; exact hlz)
      simp [this]
    · rw [List.map_reverse, List.pairwise_reverse]; exact hm2.1
    · intro z c h
      obtain ⟨h1, h2, h3⟩ := (hm2.2 z c).1 (by simpa using h)
      refine ⟨h1, h2, h3, hbelow z ?_⟩
      have := (mu_ne b P (h2 ▸ h3)).1
      have := hc.gt h1 hsy this
      omega
    · refine hklv.imp fun x p h => h.congr ?_
      rw [muSum_col hc hsy hm2, upSum, hup, Finset.sum_singleton]
      rw [List.map_reverse, List.sum_reverse]

end Verif.KL
