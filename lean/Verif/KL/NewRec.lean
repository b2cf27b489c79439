import Verif.KL.Complete

/-! The recursion for a column without complex descents and real descents of type I. -/

set_option linter.unusedSectionVars false

namespace Verif.KL

open Polynomial
open Verif.Poly (val Canon safeSubtract1 safeDivide safeQuotient coeff_val canon_iff fits_iff)

variable {B : Type} [Fintype B] [DecidableEq B]
variable {bt : Block} {b : Blk B} {D : Mod B → Mod B} {P : B → B → ℕ[X]} {el : ℕ → B} {M : ℕ}

/-! ### Polynomials as lists -/

theorem exists_is (hM : 2 ≤ M) (p : ℕ[X]) (h : ∀ i, p.coeff i < M) : ∃ l, Is M l p := by
  by_cases h0 : p = 0
  · exact ⟨[], h0 ▸ Is.nil⟩
  · have hg : ∀ i, ((List.range (p.natDegree + 1)).map p.coeff).getD i 0 = p.coeff i := by
      intro i
      by_cases hi : i < p.natDegree + 1
      · rw [List.getD_eq_getElem _ _ (by simpa using hi)]; simp
      · rw [List.getD_eq_default _ _ (by simp; omega),
          coeff_eq_zero_of_natDegree_lt (by omega)]
    refine ⟨(List.range (p.natDegree + 1)).map p.coeff, ?_, ?_, Poly.val_ext hg⟩
    · rw [canon_iff]
      intro _
      rw [hg]
      simpa using h0
    · rw [fits_iff (by omega)]
      intro i; rw [hg]; exact h i

theorem quotient_ok (nd : Bool) {p : Pol} {S Q : ℕ[X]} {delta m : ℕ} (hM : 2 ≤ M) (hp : Is M p S)
    (hdeg : ∀ i, Q.coeff i ≠ 0 → 2 * i + 1 ≤ delta)
    (hm : m = if delta % 2 = 1 then Q.coeff ((delta - 1) / 2) else 0)
    (heq : X * Q + Q = S + Polynomial.C m * X ^ ((delta + 1) / 2)) :
    ∃ l, safeQuotient nd M p delta = .ok l ∧ Is M l Q := by
  have hco : ∀ i, (X * Q).coeff i + Q.coeff i = S.coeff i + if i = (delta + 1) / 2 then m else 0 := by
    intro i
    have := congrArg (fun f => f.coeff i) heq
    simpa only [coeff_add, coeff_C_mul, coeff_X_pow, mul_ite, mul_one, mul_zero] using this
  have hS : ∀ i, S.coeff i = if 2 * i = delta + 1 then 0 else (X * Q).coeff i + Q.coeff i := by
    intro i
    have h1 := hco i
    by_cases h2 : 2 * i = delta + 1
    · rw [if_pos h2]
      rw [if_pos (by omega)] at h1
      have h3 : Q.coeff i = 0 := by
        by_contra hne; have := hdeg i hne; omega
      obtain ⟨j, rfl⟩ : ∃ j, i = j + 1 := ⟨i - 1, by omega⟩
      rw [coeff_X_mul, h3] at h1
      rw [if_pos (by omega), show (delta - 1) / 2 = j by omega] at hm
      omega
    · rw [if_neg h2]
      by_cases h3 : i = (delta + 1) / 2
      · rw [if_pos h3] at h1
        rw [if_neg (by omega)] at hm
        omega
      · rw [if_neg h3] at h1; omega
  have hQM : ∀ i, Q.coeff i < M := by
    intro i
    by_cases h2 : 2 * i = delta + 1
    · have h3 : Q.coeff i = 0 := by
        by_contra hne; have := hdeg i hne; omega
      omega
    · have h1 := hS i
      rw [if_neg h2] at h1
      have := (fits_iff (by omega : 0 < M) p).1 hp.2.1 i
      rw [← hp.coeff] at this
      omega
  obtain ⟨l, hl⟩ := exists_is hM Q hQM
  refine ⟨l, ?_, hl⟩
  apply Poly.C28_safeQuotient nd delta hp.1 hl.1 hp.2.1
  · by_cases he : l.isEmpty = true
    · rw [List.isEmpty_iff.1 he]; simp
    · have := hdeg _ (hl.lead (by simpa using he)).1
      omega
  · intro i
    rw [hp.2.2, hl.2.2, hS]
    congr 1
    rw [add_mul, one_mul, coeff_add, add_comm]

/-! ### The column under construction -/

/-- the slots of `cur` for primitive elements from `m` on hold the polynomials, the others are
zero, and so is the additional last slot -/
structure CurFrom (bt : Block) (P : B → B → ℕ[X]) (el : ℕ → B) (M : ℕ) (y m : ℕ) (cur : List Pol) :
    Prop where
  length : cur.length = pcount bt (bt.descentSet y) bt.size + 1
  last : cur[pcount bt (bt.descentSet y) bt.size]? = some []
  done : ∀ x, m ≤ x → x < bt.size → bt.isPrimitive x (bt.descentSet y) = true →
    ∃ p, cur[pcount bt (bt.descentSet y) x]? = some p ∧ Is M p (P (el x) (el y))
  todo : ∀ x, x < m → x < bt.size → bt.isPrimitive x (bt.descentSet y) = true →
    cur[pcount bt (bt.descentSet y) x]? = some []

theorem klY_ok (nd : Bool) {t : Table} {y m : ℕ} {r : PrimRec}
    (hr : t.prim.lookup (bt.descentSet y) = some r) (h : RecOK bt P el (bt.descentSet y) r)
    (hy : y < bt.size) {cur : List Pol} (hcur : CurFrom bt P el M y m cur) (x : Option ℕ)
    (hx : ∀ j, x = some j → j < bt.size ∧ m ≤ j) :
    ∃ p, klY nd t (bt.descentSet y) cur x = .ok p ∧ Is M p (polO P el x (el y)) := by
  obtain ⟨o, h1, h2, h3, h4⟩ := primIndex_ok nd hr h x (fun j e => (hx j e).1)
  rw [klY, h1, Res.ok_bind, h3 y hy rfl]
  cases o with
  | none =>
    dsimp only
    rw [hcur.last]
    exact ⟨[], rfl, Is.nil⟩
  | some x' =>
    obtain ⟨hx', hp, j, e, hj⟩ := h2 x' rfl
    obtain ⟨p, h5, h6⟩ := hcur.done x' (by have := (hx j e).2; omega) hx' hp
    dsimp only
    rw [h5]
    exact ⟨p, rfl, h6⟩

/-! ### The sum with mu -/

theorem muNewFormula_ok (hc : Ctx bt b D P el M) (nd : Bool) {t : Table} {x y s : ℕ}
    (hx : x < bt.size) (hy : y < bt.size) (hs : s < b.rank) :
    ∀ (l : List (ℕ × ℕ)) (pol : Pol) (acc : ℕ[X]),
      l.Pairwise (fun a c => bt.length c.1 ≤ bt.length a.1) →
      (∀ zc ∈ l, zc.1 < bt.size ∧ Filled bt b P el M t zc.1 ∧ bt.length zc.1 < bt.length y) →
      Is M pol acc →
      (Small P M → ∀ i, (acc + ((l.filter (fun zc => decide (bt.length x < bt.length zc.1))).map
        (lterm b P el s (b.len (el y)) (el x))).sum).coeff i < M) →
      Ok (Small P M) (muNewFormula nd M bt t x y s l pol)
        (fun p => Is M p (acc + ((l.filter (fun zc => decide (bt.length x < bt.length zc.1))).map
          (lterm b P el s (b.len (el y)) (el x))).sum)) := by
  intro l
  induction l with
  | nil =>
    intro pol acc _ _ hpol _
    exact Ok.ret (hpol.congr (by simp))
  | cons zc l ih =>
    obtain ⟨z, c⟩ := zc
    intro pol acc hso hl hpol hsm
    rw [List.pairwise_cons] at hso
    obtain ⟨hz, hfz, hlz⟩ := hl (z, c) (by simp)
    have hl' : ∀ zc ∈ l, zc.1 < bt.size ∧ Filled bt b P el M t zc.1 ∧ bt.length zc.1 < bt.length y :=
      fun zc h => hl zc (by simp [h])
    rw [muNewFormula]
    by_cases h1 : bt.length z ≤ bt.length x
    · rw [if_pos h1]
      refine Ok.ret (hpol.congr ?_)
      have : ((z, c) :: l).filter (fun zc => decide (bt.length x < bt.length zc.1)) = [] := by
        rw [List.filter_eq_nil_iff]
        intro zc hzc
        rw [decide_eq_true_iff]
        rcases List.mem_cons.1 hzc with e | e
        · rw [e]; show ¬ bt.length x < bt.length z; omega
        · have := hso.1 zc e; dsimp only at this; omega
      rw [this]; simp
    · rw [if_neg h1]
      have hfil : ((z, c) :: l).filter (fun zc => decide (bt.length x < bt.length zc.1)) =
          (z, c) :: l.filter (fun zc => decide (bt.length x < bt.length zc.1)) := by
        rw [List.filter_cons_of_pos]; rw [decide_eq_true_iff]; show bt.length x < bt.length z; omega
      rw [hfil, List.map_cons, List.sum_cons] at hsm ⊢
      rw [hc.st hs hz, isDescent_eq]
      by_cases hd : (b.st s (el z)).isDescent = true
      · rw [if_neg (by rw [hd]; simp)]
        obtain ⟨pxz, h2, h3⟩ := hfz.klSome hc nd hx hz
        rw [h2, Res.ok_bind]
        have hlt : lterm b P el s (b.len (el y)) (el x) (z, c) =
            Polynomial.C c * X ^ ((bt.length y - bt.length z + 1) / 2) * P (el x) (el z) := by
          rw [lterm, if_pos hd]
          dsimp only at hlz ⊢
          rw [← hc.rep.len y hy, ← hc.rep.len z hz,
            show bt.length y + 1 - bt.length z = bt.length y - bt.length z + 1 by omega]
        rw [hlt, ← add_assoc] at hsm ⊢
        have hb : Small P M → ∀ i, (acc + Polynomial.C c * X ^ ((bt.length y - bt.length z + 1) / 2) *
            P (el x) (el z)).coeff i < M := by
          intro h i
          have := hsm h i
          rw [coeff_add] at this
          omega
        dsimp only
        by_cases h1 : c = 1
        · rw [if_pos h1]
          subst h1
          rw [map_one, one_mul] at hb hsm ⊢
          exact Ok.bind (addTo_ok hc.two hpol h3 _ hb)
            (fun p hp => ih p _ hso.2 hl' hp hsm)
        · rw [if_neg h1]
          exact Ok.bind (addMul_ok hc.two hpol h3 _ c hb)
            (fun p hp => ih p _ hso.2 hl' hp hsm)
      · rw [if_pos (by simpa using hd)]
        have hlt : lterm b P el s (b.len (el y)) (el x) (z, c) = 0 := by rw [lterm, if_neg hd]
        rw [hlt, zero_add] at hsm ⊢
        exact ih pol acc hso.2 hl' hpol hsm

/-- the list of pairs under construction: those below `y`, then extremal ones in decreasing
order -/
def MusNew (b : Blk B) (P : B → B → ℕ[X]) (el : ℕ → B) (y f m : ℕ) (ds : List ℕ)
    (mus : List (ℕ × ℕ)) : Prop :=
  ∃ E, mus = ds.map (fun x => (x, 1)) ++ E ∧ MuFrom b P el y f m E.reverse

section Sum
variable (hc : Ctx bt b D P el M) {t : Table} {x y f s : ℕ} (hy : y < bt.size)
  (hfl : Floor bt y f) (hx : x < f) {ds : List ℕ} (hds : ds.Pairwise (· < ·))
  (hdm : ∀ x, x ∈ ds ↔ x < bt.size ∧ Down b (el x) (el y)) {mus : List (ℕ × ℕ)}
  (hmus : MusNew b P el y f (x + 1) ds mus)
include hc hy hfl hx hds hdm hmus

theorem musNew_mem : ∀ zc ∈ mus, zc.1 < bt.size ∧ zc.2 = mu b P (el zc.1) (el y) ∧
    bt.length zc.1 < bt.length y := by
  obtain ⟨E, e, hE⟩ := hmus
  rintro ⟨z, c⟩ h
  rw [e, List.mem_append] at h
  rcases h with h | h
  · obtain ⟨x', h1, h2⟩ := List.mem_map.1 h
    cases h2
    obtain ⟨h3, h4⟩ := (hdm z).1 h1
    obtain ⟨_, h5, h6⟩ := hc.data.down_mu h4
    refine ⟨h3, h5.symm, ?_⟩
    rw [hc.rep.len z h3, hc.rep.len y hy]; omega
  · obtain ⟨h1, h2, h3, h4, h5⟩ := (hE.2 z c).1 (by simpa using h)
    have h6 : z < bt.size := by have := hfl.1; omega
    exact ⟨h6, h4, (hfl.2 z h6).1 h2⟩

theorem musNew_nodup : (mus.map Prod.fst).Nodup := by
  obtain ⟨E, e, hE⟩ := hmus
  rw [e, List.map_append, List.map_map]
  have : (Prod.fst ∘ fun x : ℕ => (x, 1)) = id := rfl
  rw [this, List.map_id, List.nodup_append]
  refine ⟨hds.imp (fun h => Nat.ne_of_lt h), ?_, ?_⟩
  · have h1 := hE.1
    rw [List.map_reverse, List.pairwise_reverse] at h1
    exact h1.imp (fun h => Nat.ne_of_gt h)
  · rintro a ha c hc' e'
    subst e'
    obtain ⟨⟨z, c⟩, h3, rfl⟩ := List.mem_map.1 hc'
    exact down_not_extremal hc ((hdm z).1 ha).2 ((hE.2 z c).1 (by simpa using h3)).2.2.1

theorem musNew_sorted : mus.Pairwise (fun a c => bt.length c.1 ≤ bt.length a.1) := by
  have hmem := musNew_mem hc hy hfl hx hds hdm hmus
  obtain ⟨E, e, hE⟩ := hmus
  rw [e] at hmem
  rw [e, List.pairwise_append]
  have hdl : ∀ z ∈ ds, bt.length y = bt.length z + 1 := by
    intro z hz
    obtain ⟨h3, h4⟩ := (hdm z).1 hz
    rw [hc.rep.len z h3, hc.rep.len y hy, (hc.data.down_mu h4).2.2]
  refine ⟨?_, ?_, ?_⟩
  · rw [List.pairwise_map]
    refine hds.imp_of_mem ?_
    intro a c ha hc' _
    have := hdl a ha
    have := hdl c hc'
    dsimp only
    omega
  · have h1 := hE.1
    rw [List.map_reverse, List.pairwise_reverse, List.pairwise_map] at h1
    refine h1.imp_of_mem ?_
    intro a c ha _ h
    exact hc.rep.mono _ _ (le_of_lt h) (hmem a (by simp [ha])).1
  · intro a ha c hc'
    obtain ⟨z, h1, rfl⟩ := List.mem_map.1 ha
    have h2 := hdl z h1
    have h3 := (hmem c (by simp [hc'])).2.2
    dsimp only
    omega

/-- every nonzero mu for something longer than `x` is in the list -/
theorem musNew_cover {z : B} (h : mu b P z (el y) ≠ 0) (hl : b.len (el x) < b.len z) :
    ∃ zc ∈ mus, el zc.1 = z := by
  obtain ⟨E, e, hE⟩ := hmus
  obtain ⟨m1, m2, m3, m4⟩ := mu_ne b P h
  obtain ⟨j, hj, ej⟩ := hc.closed y hy z m4
  subst ej
  have hx' : x < bt.size := by have := hfl.1; omega
  have hxj := hc.gt hx' hj hl
  rcases mu_cases hc h with h1 | h1
  · refine ⟨(j, mu b P (el j) (el y)), ?_, rfl⟩
    rw [e, List.mem_append]
    right
    have := (hE.2 j (mu b P (el j) (el y))).2 ⟨hxj,
      (hfl.2 j hj).2 (by rw [hc.rep.len j hj, hc.rep.len y hy]; exact m1), h1, rfl, h⟩
    simpa using this
  · refine ⟨(j, 1), ?_, rfl⟩
    rw [e, List.mem_append]
    exact Or.inl (List.mem_map.2 ⟨j, (hdm j).2 ⟨hj, h1⟩, rfl⟩)

/-- the sum that the program computes -/
theorem newSum (s : ℕ) : muSum b P s (el y) (el x) =
    ((mus.filter (fun zc => decide (bt.length x < bt.length zc.1))).map
      (lterm b P el s (b.len (el y)) (el x))).sum +
    if (b.st s (el x)).isDescent then
      Polynomial.C (mu b P (el x) (el y)) * X ^ ((b.len (el y) + 1 - b.len (el x)) / 2) else 0 := by
  have hx' : x < bt.size := by have := hfl.1; omega
  have h1 := musNew_mem hc hy hfl hx hds hdm hmus
  have h2 := musNew_nodup hc hy hfl hx hds hdm hmus
  rw [muSum_list hc (l := (x, mu b P (el x) (el y)) ::
    mus.filter (fun zc => decide (bt.length x < bt.length zc.1)))]
  · rw [List.map_cons, List.sum_cons, add_comm]
    congr 1
    rw [lterm]
    by_cases hd : (b.st s (el x)).isDescent = true
    · rw [if_pos hd, if_pos hd, hc.data.klv.one, mul_one]
    · rw [if_neg hd, if_neg hd]
  · rw [List.map_cons, List.nodup_cons]
    constructor
    · intro h
      obtain ⟨zc, h3, h4⟩ := List.mem_map.1 h
      have h5 := (List.mem_filter.1 h3).2
      rw [decide_eq_true_iff, h4] at h5
      dsimp only at h5
      omega
    · exact h2.sublist (List.filter_sublist.map _)
  · intro zc h
    rcases List.mem_cons.1 h with e | e
    · rw [e]; exact ⟨hx', rfl⟩
    · have := h1 zc (List.mem_filter.1 e).1; exact ⟨this.1, this.2.1⟩
  · intro z _ hm hP
    by_cases e : el x = z
    · exact ⟨_, List.mem_cons_self, e⟩
    · have hl : b.len (el x) < b.len z := by
        obtain ⟨i, hi⟩ : ∃ i, (P (el x) z).coeff i ≠ 0 := by
          by_contra hcon
          push Not at hcon
          exact hP (Polynomial.ext hcon)
        have := hc.data.klv.deg (el x) z e i hi
        omega
      obtain ⟨zc, h3, h4⟩ := musNew_cover hc hy hfl hx hds hdm hmus hm hl
      refine ⟨zc, List.mem_cons_of_mem _ (List.mem_filter.2 ⟨h3, ?_⟩), h4⟩
      rw [decide_eq_true_iff, hc.rep.len x hx', hc.rep.len zc.1 (h1 zc h3).1, h4]
      exact hl

/-- the outcome of `mu_new_formula` -/
theorem muNew_ok (nd : Bool) (hs : s < b.rank) (hbelow : ∀ z, z < y → Filled bt b P el M t z)
    (hbd : Small P M → ∀ i, (muSum b P s (el y) (el x)).coeff i < M) :
    Ok (Small P M) (muNewFormula nd M bt t x y s mus []) (fun p => ∃ S, Is M p S ∧
      muSum b P s (el y) (el x) = S + if (b.st s (el x)).isDescent then
        Polynomial.C (mu b P (el x) (el y)) * X ^ ((b.len (el y) + 1 - b.len (el x)) / 2) else 0) := by
  have hx' : x < bt.size := by have := hfl.1; omega
  have h1 := musNew_mem hc hy hfl hx hds hdm hmus
  have h3 := newSum hc hy hfl hx hds hdm hmus s
  refine (muNewFormula_ok hc nd hx' hy hs mus [] 0 (musNew_sorted hc hy hfl hx hds hdm hmus) ?_ Is.nil
    ?_).mono ?_
  · intro zc h
    obtain ⟨g1, g2, g3⟩ := h1 zc h
    exact ⟨g1, hbelow _ (lt_of_len hc.rep g1 g3), g3⟩
  · intro hsm i
    have := hbd hsm i
    rw [h3, coeff_add] at this
    rw [zero_add]; omega
  · intro p hp
    exact ⟨_, hp.congr (zero_add _), h3⟩

end Sum

/-! ### The choice of the formula -/

theorem firstNice_some (hc : Ctx bt b D P el M) {x y s : ℕ} (hx : x < bt.size) (hy : y < bt.size)
    (h : bt.firstNiceAndReal x y = some s) :
    s < b.rank ∧ b.st s (el y) = .realNonparity ∧ (b.st s (el x) = .complexAscent ∨
      b.st s (el x) = .imaginaryTypeII ∨ b.st s (el x) = .imaginaryCompact) := by
  have h1 := List.find?_some h
  have h2 := List.mem_of_find?_eq_some h
  rw [List.mem_range, hc.rep.rank] at h2
  rw [hc.st h2 hy, hc.st h2 hx] at h1
  simp only [Bool.and_eq_true, Bool.or_eq_true, decide_eq_true_eq] at h1
  exact ⟨h2, h1.1, by tauto⟩

theorem firstNice_none (hc : Ctx bt b D P el M) {x y : ℕ} (hx : x < bt.size) (hy : y < bt.size)
    (h : bt.firstNiceAndReal x y = none) (s : ℕ) (hs : s < b.rank)
    (hy' : b.st s (el y) = .realNonparity) : b.st s (el x) ≠ .complexAscent ∧
      b.st s (el x) ≠ .imaginaryTypeII ∧ b.st s (el x) ≠ .imaginaryCompact := by
  have := List.find?_eq_none.1 h s (by rw [List.mem_range, hc.rep.rank]; exact hs)
  rw [hc.st hs hy, hc.st hs hx] at this
  simp only [Bool.and_eq_true, Bool.or_eq_true, decide_eq_true_eq] at this
  tauto

theorem endgameLoop_some {x y s : ℕ} {ot : Option ℕ} : ∀ l : List ℕ,
    bt.endgameLoop x y l = some (s, ot) → s ∈ l ∧ bt.status s y = .realNonparity ∧
      bt.status s x = .imaginaryTypeI ∧ ((ot = none ∧ bt.crossImage s x = none) ∨
        ∃ sx t', ot = some t' ∧ bt.crossImage s x = some sx ∧ bt.endgameT sx y = some t') := by
  intro l
  induction l with
  | nil => intro h; simp [Block.endgameLoop] at h
  | cons a l ih =>
    intro h
    have hrec : bt.endgameLoop x y l = some (s, ot) → s ∈ a :: l ∧ bt.status s y = .realNonparity ∧
        bt.status s x = .imaginaryTypeI ∧ ((ot = none ∧ bt.crossImage s x = none) ∨
        ∃ sx t', ot = some t' ∧ bt.crossImage s x = some sx ∧ bt.endgameT sx y = some t') := by
      intro h'
      obtain ⟨g1, g2⟩ := ih h'
      exact ⟨by simp [g1], g2⟩
    rw [Block.endgameLoop] at h
    by_cases hcond : bt.status a y = .realNonparity ∧ bt.status a x = .imaginaryTypeI
    · rw [if_pos hcond] at h
      cases h1 : bt.crossImage a x with
      | none =>
        rw [h1] at h
        simp only [Option.some.injEq, Prod.mk.injEq] at h
        obtain ⟨rfl, rfl⟩ := h
        exact ⟨by simp, hcond.1, hcond.2, Or.inl ⟨rfl, h1⟩⟩
      | some sx =>
        rw [h1] at h
        dsimp only at h
        cases h2 : bt.endgameT sx y with
        | none => rw [h2] at h; exact hrec h
        | some t' =>
          rw [h2] at h
          simp only [Option.some.injEq, Prod.mk.injEq] at h
          obtain ⟨rfl, rfl⟩ := h
          exact ⟨by simp, hcond.1, hcond.2, Or.inr ⟨sx, t', rfl, h1, h2⟩⟩
    · rw [if_neg hcond] at h
      exact hrec h

theorem endgameLoop_none {x y : ℕ} : ∀ l : List ℕ, bt.endgameLoop x y l = none → ∀ s ∈ l,
    bt.status s y = .realNonparity → bt.status s x = .imaginaryTypeI →
      ∃ sx, bt.crossImage s x = some sx ∧ bt.endgameT sx y = none := by
  intro l
  induction l with
  | nil => intro _ s hs; simp at hs
  | cons a l ih =>
    intro h s hs h1 h2
    rw [Block.endgameLoop] at h
    by_cases hcond : bt.status a y = .realNonparity ∧ bt.status a x = .imaginaryTypeI
    · rw [if_pos hcond] at h
      cases h3 : bt.crossImage a x with
      | none => rw [h3] at h; cases h
      | some sx =>
        rw [h3] at h
        dsimp only at h
        cases h4 : bt.endgameT sx y with
        | some t' => rw [h4] at h; cases h
        | none =>
          rw [h4] at h
          rcases List.mem_cons.1 hs with e | e
          · subst e; exact ⟨sx, h3, h4⟩
          · exact ih h s e h1 h2
    · rw [if_neg hcond] at h
      rcases List.mem_cons.1 hs with e | e
      · subst e; exact absurd ⟨h1, h2⟩ hcond
      · exact ih h s e h1 h2

/-! ### One polynomial -/

theorem up_rn {b : Blk B} {s : ℕ} {y : B} (h : b.st s y = .realNonparity) : up b s y = ∅ := by
  rw [up, h]

theorem newTerm_ok (hc : Ctx bt b D P el M) (nd : Bool) {t : Table} {x y f : ℕ} (hy : y < bt.size)
    (hfl : Floor bt y f) (hx : x < f) {ds : List ℕ} (hds : ds.Pairwise (· < ·))
    (hdm : ∀ x, x ∈ ds ↔ x < bt.size ∧ Down b (el x) (el y)) {mus : List (ℕ × ℕ)}
    (hmus : MusNew b P el y f (x + 1) ds mus)
    (hdir : ∀ s, s < b.rank → b.st s (el y) ≠ .complexDescent ∧ b.st s (el y) ≠ .realTypeI)
    (hbelow : ∀ z, z < y → Filled bt b P el M t z)
    (hrec : ∃ r, t.prim.lookup (bt.descentSet y) = some r ∧ RecOK bt P el (bt.descentSet y) r)
    {cur : List Pol} (hcur : CurFrom bt P el M y (x + 1) cur)
    (hp : bt.isPrimitive x (bt.descentSet y) = true) :
    Ok (Small P M) (newTerm nd M bt t y x cur [] mus) (fun r => Is M r.1 (P (el x) (el y)) ∧
      (r.2 = none → Extremal b (el x) (el y) → mu b P (el x) (el y) = 0) ∧
      (r.2 ≠ none → Extremal b (el x) (el y))) := by
  have hx' : x < bt.size := by have := hfl.1; omega
  obtain ⟨r, hr1, hr2⟩ := hrec
  have hM := hc.two
  have hkl : ∀ {o : Option ℕ} {z : B}, Names bt.size el o z → b.len (el x) < b.len z →
      ∃ p, klY nd t (bt.descentSet y) cur o = .ok p ∧ Is M p (P z (el y)) := by
    intro o z hn hl
    rw [← hc.names hy hn]
    apply klY_ok nd hr1 hr2 hy hcur o
    intro j e
    subst e
    exact ⟨hn.1, hc.gt hx' hn.1 (by rw [hn.2]; exact hl)⟩
  have hup0 : ∀ s, b.st s (el y) = .realNonparity → upSum b P s (el y) (el x) = 0 := by
    intro s h; rw [upSum, up_rn h, Finset.sum_empty]
  have hnd : ∀ s, b.st s (el y) = .realNonparity → (b.st s (el y)).isDescent = false := by
    intro s h; rw [h]; rfl
  rw [newTerm]
  cases had : bt.ascentDescent x y with
  | some s =>
    dsimp only
    obtain ⟨hs, hd1, hd2⟩ := ascentDescent_some hc hx' hy had
    have hi2 := prim_i2 hc hx' hy hp hs hd1 hd2
    obtain ⟨u1, u2, u3, u4⟩ := i2_up hc hx' hs hi2
    have hrel := hc.data.wf s hs (el x)
    simp only [Blk.Rel, hi2] at hrel
    obtain ⟨p1, q1, q2⟩ := hkl u3 (by omega)
    obtain ⟨p2, q3, q4⟩ := hkl u4 (by omega)
    rw [Res.assertIn_bind nd (by rw [hc.st hs hx', hi2]; rfl), q1, Res.ok_bind, q3, Res.ok_bind]
    have heq : P (b.cay s (el x)).1 (el y) + X ^ 0 * P (b.cay s (el x)).2 (el y) =
        P (el x) (el y) := by rw [pow_zero, one_mul, hc.data.easy_i2 hs hd1 hi2]
    refine Ok.bind (addTo_ok hM q2 q4 0 (fun hsm i => ?_)) (fun p hpI => ?_)
    · rw [heq]; have := hsm (el x) (el y) i; omega
    · rw [heq] at hpI
      refine Ok.ret ⟨hpI, fun _ he => ?_, fun h => absurd rfl h⟩
      rw [he s hs hd1] at hd2; cases hd2
  | none =>
    dsimp only
    have hE := ascentDescent_none hc hx' hy had
    cases hn : bt.firstNiceAndReal x y with
    | some s =>
      dsimp only
      obtain ⟨hs, hrn, hcase⟩ := firstNice_some hc hx' hy hn
      have hrel := hc.data.wf s hs (el x)
      have hst := hc.st hs hx'
      rcases hcase with hv | hv | hv
      · -- complex ascent
        simp only [Blk.Rel, hv] at hrel
        have hform := hc.data.rec_ca (y := el y) hs (hnd s hrn) hv
        rw [hup0 s hrn, zero_add] at hform
        refine Ok.bind (muNew_ok hc hy hfl hx hds hdm hmus nd hs hbelow (fun hsm i => ?_))
          (fun p hpS => ?_)
        · rw [← hform, coeff_add]
          have h1 := hsm (el x) (el y) i
          have h2 := X_coeff_small (hsm (b.cross s (el x)) (el y)) i
          omega
        · obtain ⟨S, hS, hS2⟩ := hpS
          rw [if_neg (by rw [hv]; simp [Status.isDescent]), add_zero] at hS2
          rw [hst, hv]
          dsimp only
          obtain ⟨r', q1, q2⟩ := hkl (hc.cross hs hx') (by omega)
          rw [q1, Res.ok_bind]
          obtain ⟨l, g1, g2⟩ := sub1_ok nd hM hS q2 1 (a := P (el x) (el y))
            (by rw [← hS2, ← hform, pow_one])
          rw [g1, Res.ok_bind]
          exact Ok.ret ⟨g2, fun h => (by simp at h), fun _ => hE⟩
      · -- imaginary type II
        simp only [Blk.Rel, hv] at hrel
        have hform := hc.data.rec_i2 (y := el y) hs (hnd s hrn) hv
        rw [hup0 s hrn, zero_add] at hform
        obtain ⟨u1, u2, u3, u4⟩ := i2_up hc hx' hs hv
        obtain ⟨p1, q1, q2⟩ := hkl u3 (by omega)
        obtain ⟨p2, q3, q4⟩ := hkl u4 (by omega)
        have hbd : Small P M → ∀ i, (P (b.cay s (el x)).1 (el y) + P (b.cay s (el x)).2 (el y) +
            muSum b P s (el y) (el x)).coeff i < M := by
          intro hsm i
          rw [← hform, mul_add, two_mul]
          have h1 := hsm (el x) (el y) i
          have h2 := X_coeff_small (hsm (b.cay s (el x)).1 (el y)) i
          have h3 := X_coeff_small (hsm (b.cay s (el x)).2 (el y)) i
          simp only [coeff_add]
          omega
        refine Ok.bind (muNew_ok hc hy hfl hx hds hdm hmus nd hs hbelow (fun hsm i => ?_))
          (fun p hpS => ?_)
        · have := hbd hsm i
          rw [coeff_add] at this; omega
        · obtain ⟨S, hS, hS2⟩ := hpS
          rw [if_neg (by rw [hv]; simp [Status.isDescent]), add_zero] at hS2
          rw [hst, hv]
          dsimp only
          rw [q1, Res.ok_bind, q3, Res.ok_bind]
          refine Ok.bind (addTo_ok hM q2 q4 0 (fun hsm i => ?_)) (fun sum hsum => ?_)
          · have := hbd hsm i
            rw [coeff_add] at this
            rw [pow_zero, one_mul]; omega
          · rw [pow_zero, one_mul] at hsum
            refine Ok.bind (addTo_ok hM hS hsum 0 (fun hsm i => ?_)) (fun p2' hp2' => ?_)
            · rw [pow_zero, one_mul, add_comm, ← hS2]; exact hbd hsm i
            · rw [pow_zero, one_mul, add_comm, ← hS2, ← hform] at hp2'
              obtain ⟨l, g1, g2⟩ := sub1_ok nd hM hp2' hsum 1 (a := 2 * P (el x) (el y))
                (by rw [pow_one])
              rw [g1, Res.ok_bind]
              obtain ⟨l', g3, g4⟩ := div2_ok nd hM g2
              rw [g3, Res.ok_bind]
              exact Ok.ret ⟨g4, fun h => (by simp at h), fun _ => hE⟩
      · -- imaginary compact
        have hform := hc.data.rec_ic (y := el y) hs (hnd s hrn) hv
        rw [hup0 s hrn, zero_add] at hform
        refine Ok.bind (muNew_ok hc hy hfl hx hds hdm hmus nd hs hbelow (fun hsm i => ?_))
          (fun p hpS => ?_)
        · rw [← hform, coeff_add]
          have h1 := hsm (el x) (el y) i
          have h2 := X_coeff_small (hsm (el x) (el y)) i
          omega
        · obtain ⟨S, hS, hS2⟩ := hpS
          rw [if_pos (by rw [hv]; simp [Status.isDescent])] at hS2
          rw [hst, hv]
          dsimp only
          have hlx := hc.rep.len x hx'
          have hly := hc.rep.len y hy
          have hlt := (hfl.2 x hx').1 hx
          obtain ⟨l, g1, g2⟩ := quotient_ok nd (delta := bt.length y - bt.length x)
            (m := mu b P (el x) (el y)) (Q := P (el x) (el y)) hM hS (by
              intro i hi
              have := hc.data.klv.deg (el x) (el y) (by intro e; rw [e] at hlx; omega) i hi
              omega) (by
              rw [mu]
              by_cases hpar : (bt.length y - bt.length x) % 2 = 1
              · rw [if_pos hpar, if_pos (by omega), hlx, hly]
              · rw [if_neg hpar, if_neg (by omega)]) (by
              rw [hform, hS2, hlx, hly,
                show b.len (el y) - b.len (el x) + 1 = b.len (el y) + 1 - b.len (el x) by omega])
          rw [g1, Res.ok_bind]
          exact Ok.ret ⟨g2, fun h => (by simp at h), fun _ => hE⟩
    | none =>
      dsimp only
      cases hg : bt.firstEndgamePair x y with
      | some st =>
        obtain ⟨s, ot⟩ := st
        dsimp only
        obtain ⟨hsm', hrn, hi1, hot⟩ := endgameLoop_some _ hg
        have hs : s < b.rank := by rw [List.mem_range, hc.rep.rank] at hsm'; exact hsm'
        rw [hc.st hs hy] at hrn
        rw [hc.st hs hx'] at hi1
        have hrel := hc.data.wf s hs (el x)
        simp only [Blk.Rel, hi1] at hrel
        have hform := hc.data.rec_i1 (y := el y) hs (hnd s hrn) hi1
        rw [hup0 s hrn, zero_add] at hform
        have hcay : bt.cayley s x = bt.cayleyImage s x := by
          rw [Block.cayley, if_pos (by rw [hc.st hs hx', hi1]; rfl)]
        have hnames := hc.cay1 hs hx' (Or.inl hi1)
        rw [← hcay] at hnames
        obtain ⟨p1, q1, q2⟩ := hkl hnames (by omega)
        have hbd : Small P M → ∀ i, (P (b.cay s (el x)).1 (el y) +
            muSum b P s (el y) (el x)).coeff i < M := by
          intro hsm i
          rw [← hform]
          have h1 := hsm (el x) (el y) i
          have h2 := hsm (b.cross s (el x)) (el y) i
          have h3 := X_coeff_small (hsm (b.cay s (el x)).1 (el y)) i
          simp only [coeff_add]
          omega
        refine Ok.bind (muNew_ok hc hy hfl hx hds hdm hmus nd hs hbelow (fun hsm i => ?_))
          (fun p hpS => ?_)
        · have := hbd hsm i
          rw [coeff_add] at this; omega
        · obtain ⟨S, hS, hS2⟩ := hpS
          rw [if_neg (by rw [hi1]; simp [Status.isDescent]), add_zero] at hS2
          rw [q1, Res.ok_bind]
          refine Ok.bind (addTo_ok hM hS q2 0 (fun hsm i => ?_)) (fun p2 hp2 => ?_)
          · rw [pow_zero, one_mul, add_comm, ← hS2]; exact hbd hsm i
          · rw [pow_zero, one_mul, add_comm, ← hS2, ← hform] at hp2
            obtain ⟨l, g1, g2⟩ := sub1_ok nd hM hp2 q2 1
              (a := P (el x) (el y) + P (b.cross s (el x)) (el y)) (by rw [pow_one])
            rw [g1, Res.ok_bind]
            have hncross := hc.cross hs hx'
            rcases hot with ⟨e1, e2⟩ | ⟨sx, t', e1, e2, e3⟩
            · subst e1
              dsimp only
              have h0 := hc.names hy hncross
              rw [e2, polO] at h0
              refine Ok.ret ⟨g2.congr (by rw [← h0, add_zero]), fun h => (by simp at h), fun _ => hE⟩
            · subst e1
              rw [e2] at hncross ⊢
              obtain ⟨hsx, hsx2⟩ := hncross
              dsimp only
              have ht1 := List.find?_some e3
              have ht2 := List.mem_of_find?_eq_some e3
              rw [List.mem_range, hc.rep.rank] at ht2
              simp only [Bool.and_eq_true, Bool.or_eq_true, decide_eq_true_eq, hc.st ht2 hy,
                hc.st ht2 hsx] at ht1
              obtain ⟨hr2', hor⟩ := ht1
              have hdt : (b.st t' (el y)).isDescent = true := by rw [hr2']; rfl
              have hrelt := hc.data.wf t' ht2 (el sx)
              rw [← hsx2] at g2 hrel
              rcases hor with h1 | h2
              · simp only [Blk.Rel, h1] at hrelt
                have hcay' : bt.cayley t' sx = bt.cayleyImage t' sx := by
                  rw [Block.cayley, if_pos (by rw [hc.st ht2 hsx, h1]; rfl)]
                have hn1 := hc.cay1 ht2 hsx (Or.inl h1)
                obtain ⟨r1, w1, w2⟩ := hkl hn1 (by omega)
                rw [hcay', w1, Res.ok_bind]
                obtain ⟨l2, g3, g4⟩ := sub1_ok nd hM g2 w2 0 (a := P (el x) (el y))
                  (by rw [pow_zero, one_mul, hc.data.easy_i1 ht2 hdt h1])
                rw [g3, Res.ok_bind, hc.rep.cay2_i1 t' sx (by rw [hc.rep.rank]; exact ht2) hsx
                  (by rw [hc.st ht2 hsx, h1])]
                obtain ⟨r2', w3, w4⟩ := klY_ok nd hr1 hr2 hy hcur none (by simp)
                rw [w3, Res.ok_bind]
                obtain ⟨l3, g5, g6⟩ := sub1_ok nd hM g4 w4 0 (a := P (el x) (el y))
                  (by rw [polO, mul_zero, add_zero])
                rw [g5, Res.ok_bind]
                exact Ok.ret ⟨g6, fun h => (by simp at h), fun _ => hE⟩
              · simp only [Blk.Rel, h2] at hrelt
                obtain ⟨u1, u2, u3, u4⟩ := i2_up hc hsx ht2 h2
                obtain ⟨r1, w1, w2⟩ := hkl u3 (by omega)
                obtain ⟨r2', w3, w4⟩ := hkl u4 (by omega)
                rw [w1, Res.ok_bind]
                obtain ⟨l2, g3, g4⟩ := sub1_ok nd hM g2 w2 0
                  (a := P (el x) (el y) + P (b.cay t' (el sx)).2 (el y))
                  (by rw [pow_zero, one_mul, hc.data.easy_i2 ht2 hdt h2]; ring)
                rw [g3, Res.ok_bind, w3, Res.ok_bind]
                obtain ⟨l3, g5, g6⟩ := sub1_ok nd hM g4 w4 0 (a := P (el x) (el y))
                  (by rw [pow_zero, one_mul])
                rw [g5, Res.ok_bind]
                exact Ok.ret ⟨g6, fun h => (by simp at h), fun _ => hE⟩
      | none =>
        dsimp only
        rw [Res.assertIn_bind nd (by rfl)]
        have h0 : P (el x) (el y) = 0 := by
          apply hc.vanishing (el x) (el y) ?_ hE hdir
          · intro s hs hrn; exact firstNice_none hc hx' hy hn s hs hrn
          · intro s t' hs ht' hrn hi1 hr2'
            obtain ⟨sx, k1, k2⟩ := endgameLoop_none _ hg s
              (by rw [List.mem_range, hc.rep.rank]; exact hs)
              (by rw [hc.st hs hy]; exact hrn) (by rw [hc.st hs hx']; exact hi1)
            have hncross := hc.cross hs hx'
            rw [k1] at hncross
            have := List.find?_eq_none.1 k2 t' (by rw [List.mem_range, hc.rep.rank]; exact ht')
            rw [hc.st ht' hy, hc.st ht' hncross.1, hncross.2] at this
            simp only [Bool.and_eq_true, Bool.or_eq_true, decide_eq_true_eq] at this
            tauto
          · rw [← hc.rep.len x hx', ← hc.rep.len y hy]
            exact (hfl.2 x hx').1 hx
        refine Ok.ret ⟨Is.nil.congr h0.symm, fun _ _ => ?_, fun h => absurd rfl h⟩
        rw [mu, h0]; simp


/-! ### The column -/

theorem CurFrom.set {y m : ℕ} {cur : List Pol} (h : CurFrom bt P el M y (m + 1) cur)
    (hm : m < bt.size) (hp : bt.isPrimitive m (bt.descentSet y) = true) {p : Pol}
    (hI : Is M p (P (el m) (el y))) :
    CurFrom bt P el M y m (cur.set (pcount bt (bt.descentSet y) m) p) := by
  have hlt := pcount_lt hp hm
  refine ⟨by rw [List.length_set, h.length], ?_, ?_, ?_⟩
  · rw [List.getElem?_set_ne (by omega), h.last]
  · intro x h1 h2 h3
    by_cases e : x = m
    · subst e
      exact ⟨p, by rw [List.getElem?_set_self (by rw [h.length]; omega)], hI⟩
    · obtain ⟨q, h4, h5⟩ := h.done x (by omega) h2 h3
      refine ⟨q, ?_, h5⟩
      rw [List.getElem?_set_ne (fun e' => e (pcount_inj hp h3 e').symm), h4]
  · intro x h1 h2 h3
    rw [List.getElem?_set_ne, h.todo x (by omega) h2 h3]
    intro e
    have := pcount_inj hp h3 e
    omega

theorem CurFrom.skip {y m : ℕ} {cur : List Pol} (h : CurFrom bt P el M y (m + 1) cur)
    (hp : ¬ bt.isPrimitive m (bt.descentSet y) = true) : CurFrom bt P el M y m cur := by
  refine ⟨h.length, h.last, fun x h1 h2 h3 => ?_, fun x h1 h2 h3 => h.todo x (by omega) h2 h3⟩
  exact h.done x (by
    have : x ≠ m := by intro e; subst e; exact hp h3
    omega) h2 h3

theorem MusNew.keep {y f m : ℕ} {ds : List ℕ} {mus : List (ℕ × ℕ)}
    (h : MusNew b P el y f (m + 1) ds mus)
    (h0 : Extremal b (el m) (el y) → mu b P (el m) (el y) = 0) : MusNew b P el y f m ds mus := by
  obtain ⟨E, e, h1, h2⟩ := h
  refine ⟨E, e, h1, fun z c => ?_⟩
  rw [h2]
  constructor
  · rintro ⟨g1, g2⟩; exact ⟨by omega, g2⟩
  · rintro ⟨g1, g2, g3, g4, g5⟩
    refine ⟨?_, g2, g3, g4, g5⟩
    by_contra hcon
    have e : z = m := by omega
    subst e; rw [g4] at g5; exact g5 (h0 g3)

theorem MusNew.add {y f m : ℕ} {ds : List ℕ} {mus : List (ℕ × ℕ)} (hm : m < f)
    (h : MusNew b P el y f (m + 1) ds mus) (hE : Extremal b (el m) (el y))
    (hne : mu b P (el m) (el y) ≠ 0) :
    MusNew b P el y f m ds (mus ++ [(m, mu b P (el m) (el y))]) := by
  obtain ⟨E, e, h1, h2⟩ := h
  refine ⟨E ++ [(m, mu b P (el m) (el y))], by rw [e, List.append_assoc], ?_, fun z c => ?_⟩
  · rw [List.reverse_append, List.reverse_singleton, List.singleton_append, List.map_cons,
      List.pairwise_cons]
    refine ⟨fun z hz => ?_, h1⟩
    obtain ⟨⟨z', c⟩, h6, rfl⟩ := List.mem_map.1 hz
    have := ((h2 z' c).1 h6).1
    show m < z'
    omega
  · rw [List.reverse_append, List.reverse_singleton, List.singleton_append, List.mem_cons, h2,
      Prod.mk.injEq]
    constructor
    · rintro (⟨rfl, rfl⟩ | ⟨g1, g2⟩)
      · exact ⟨le_refl _, hm, hE, rfl, hne⟩
      · exact ⟨by omega, g2⟩
    · rintro ⟨g1, g2, g3, g4, g5⟩
      by_cases e : z = m
      · subst e; exact Or.inl ⟨rfl, g4⟩
      · exact Or.inr ⟨by omega, g2, g3, g4, g5⟩

theorem newMu_ok (hc : Ctx bt b D P el M) {y f m : ℕ} (hy : y < bt.size) (hfl : Floor bt y f)
    (hm : m < f) {ds : List ℕ} {mus : List (ℕ × ℕ)} (h : MusNew b P el y f (m + 1) ds mus)
    {p : Pol} {flag : Option Bool} (hI : Is M p (P (el m) (el y)))
    (h1 : flag = none → Extremal b (el m) (el y) → mu b P (el m) (el y) = 0)
    (h2 : flag ≠ none → Extremal b (el m) (el y)) :
    MusNew b P el y f m ds (newMu bt m y p flag mus) := by
  have hms : m < bt.size := by have := hfl.1; omega
  have hlm := (hfl.2 m hms).1 hm
  obtain ⟨t1, t2⟩ := muTest hc hms hy hlm hI
  have hy16 := hc.rep.bound y hy
  have hlx := hc.rep.len m hms
  have hly := hc.rep.len y hy
  have hcond : (bt.length y = (bt.length m + 2 * (if p.isEmpty = true then 2^32 - 1 else p.length - 1) + 1)
      % 2^32) ↔ (¬ p.isEmpty = true ∧ bt.length y = bt.length m + 2 * (p.length - 1) + 1) := by
    by_cases he : p.isEmpty = true
    · rw [if_pos he]
      constructor
      · intro h; exfalso; omega
      · rintro ⟨g, _⟩; exact absurd he g
    · rw [if_neg he]
      have h3 := hc.data.klv.deg (el m) (el y) (by intro e; rw [e] at hlx; omega) _
        (hI.lead (by simpa using he)).1
      constructor
      · intro h; exact ⟨he, by omega⟩
      · rintro ⟨_, g⟩; omega
  match flag with
  | none => exact h.keep (h1 rfl)
  | some true =>
    rw [newMu]
    by_cases hmu : mu b P (el m) (el y) ≠ 0
    · rw [if_pos (by simpa using t1.2 hmu), t2 hmu]
      exact h.add hm (h2 (by simp)) hmu
    · rw [if_neg (by simpa using t1.not.2 hmu)]
      exact h.keep (fun _ => by simpa using hmu)
  | some false =>
    rw [newMu]
    by_cases hmu : mu b P (el m) (el y) ≠ 0
    · rw [if_pos (hcond.2 (t1.2 hmu)), t2 hmu]
      exact h.add hm (h2 (by simp)) hmu
    · rw [if_neg (fun hh => hmu (t1.1 (hcond.1 hh)))]
      exact h.keep (fun _ => by simpa using hmu)

theorem newLoop_ok (hc : Ctx bt b D P el M) (nd : Bool) {t : Table} {y f : ℕ} (hy : y < bt.size)
    (hfl : Floor bt y f) {ds : List ℕ} (hds : ds.Pairwise (· < ·))
    (hdm : ∀ x, x ∈ ds ↔ x < bt.size ∧ Down b (el x) (el y))
    (hdir : ∀ s, s < b.rank → b.st s (el y) ≠ .complexDescent ∧ b.st s (el y) ≠ .realTypeI)
    (hbelow : ∀ z, z < y → Filled bt b P el M t z)
    (hrec : ∃ r, t.prim.lookup (bt.descentSet y) = some r ∧ RecOK bt P el (bt.descentSet y) r) :
    ∀ (m : ℕ) (cur : List Pol) (mus : List (ℕ × ℕ)), m ≤ f → CurFrom bt P el M y m cur →
      MusNew b P el y f m ds mus →
      Ok (Small P M) (newLoop nd M bt t y (primsDown bt (bt.descentSet y) m) cur
        (pcount bt (bt.descentSet y) m) mus)
        (fun r => CurFrom bt P el M y 0 r.1 ∧ r.2.1 = 0 ∧ MusNew b P el y f 0 ds r.2.2) := by
  intro m
  induction m with
  | zero => intro cur mus _ hcur hmus; exact Ok.ret ⟨hcur, rfl, hmus⟩
  | succ m ih =>
    intro cur mus hm hcur hmus
    have hms : m < bt.size := by have := hfl.1; omega
    rw [primsDown_succ, pcount_succ]
    by_cases hp : bt.isPrimitive m (bt.descentSet y) = true
    · rw [if_pos hp, if_pos hp]
      unfold newLoop
      dsimp only
      rw [hcur.todo m (by omega) hms hp]
      dsimp only [Res.ok_bind]
      refine Ok.bind (newTerm_ok hc nd hy hfl (by omega) hds hdm hmus hdir hbelow hrec hcur hp) ?_
      rintro ⟨p, flag⟩ ⟨g1, g2, g3⟩
      exact ih _ _ (by omega) (hcur.set hms hp g1) (newMu_ok hc hy hfl (by omega) hmus g1 g2 g3)
    · rw [if_neg hp, if_neg hp, Nat.add_zero]
      refine ih _ _ (by omega) (hcur.skip hp) (hmus.keep fun hE => ?_)
      exact absurd (extremal_primitive hc.rep hms hy hE) hp

theorem newRecursionColumn_ok (hc : Ctx bt b D P el M) (nd : Bool) {t : Table} {y f : ℕ}
    (hy : y < bt.size) (hf : bt.lengthFloor y = .ok f) (hfl : Floor bt y f)
    (hfd : bt.firstDirectRecursion y = none)
    (hk : t.kl.length = bt.size) (hm : t.mu.length = bt.size) (hempty : t.kl[y]? = some [])
    (hrec : ∃ r, t.prim.lookup (bt.descentSet y) = some r ∧ RecOK bt P el (bt.descentSet y) r)
    (hbelow : ∀ z, z < y → Filled bt b P el M t z) :
    Ok (Small P M) (newRecursionColumn nd M bt t y)
      (fun t' => Filled bt b P el M t' y ∧ Changed t t' y) := by
  obtain ⟨r, hr1, hr2⟩ := id hrec
  obtain ⟨ds, d1, d2, d3⟩ := downSet_ok hc hy
  have hprim := primitive_self hc.rep hy
  have hyp := pcount_lt hprim hy
  have hfn : pcount bt (bt.descentSet y) f ≤ pcount bt (bt.descentSet y) bt.size :=
    pcount_mono _ hfl.1
  have hf' : bt.lengthLess (bt.length y) = .ok f := hf
  have hrecord : record nd t (bt.descentSet y) = .ok r := by rw [record, hr1]
  rw [newRecursionColumn]
  dsimp only
  rw [colSize_ok hc nd hr1 hr2 hf hfl, Res.ok_bind, hrecord, Res.ok_bind, Res.ok_bind,
    selfIndex_ok hc nd hr1 hr2 hy, Res.ok_bind, hr2.2.1, if_neg (by omega), d1, Res.ok_bind, hf',
    Res.ok_bind, if_neg (by omega)]
  have hfy : f ≤ y := by
    by_contra hcon
    have := (hfl.2 y hy).1 (by omega)
    omega
  refine Ok.bind (newLoop_ok hc nd hy hfl d2 d3 (firstDirect_none hc hy hfd) hbelow hrec f _ _
    (le_refl _) ?_ ⟨[], by simp, by simp, ?_⟩) ?_
  · refine ⟨by simp, ?_, ?_, ?_⟩
    · rw [List.getElem?_set_ne (by omega), List.getElem?_replicate_of_lt (by omega)]
    · intro x h1 h2 h3
      have hlx : bt.length y ≤ bt.length x := by
        by_contra hcon
        have := (hfl.2 x h2).2 (by omega)
        omega
      by_cases e : x = y
      · subst e
        refine ⟨[1], by rw [List.getElem?_set_self (by simp; omega)], ?_⟩
        rw [hc.data.klv.one]; exact Is.one hc.two
      · refine ⟨[], ?_, ?_⟩
        · rw [List.getElem?_set_ne (fun e' => e (pcount_inj hprim h3 e').symm),
            List.getElem?_replicate_of_lt (by have := pcount_lt h3 h2; omega)]
        · exact Is.nil.congr (hc.pol_zero h2 hy e hlx).symm
    · intro x h1 h2 h3
      rw [List.getElem?_set_ne (fun e' => ?_),
        List.getElem?_replicate_of_lt (by have := pcount_lt h3 h2; omega)]
      have := pcount_inj hprim h3 e'
      omega
  · intro z c
    simp only [List.reverse_nil, List.not_mem_nil, false_iff]
    rintro ⟨g1, g2, _⟩; omega
  · rintro ⟨cur, pos, mus⟩ ⟨g1, g2, E, g3, g4⟩
    dsimp only at g1 g2 g3 g4 ⊢
    rw [Res.assertIn_bind nd (by simpa using g2)]
    have e1 : mus.drop ds.length = E := by
      rw [g3, List.drop_append_of_le_length (by simp), List.drop_eq_nil_of_le (by simp)]; rfl
    have e2 : mus.take ds.length = ds.map (fun x => (x, 1)) := by
      rw [g3, List.take_append_of_le_length (by simp), List.take_of_length_le (by simp)]
    rw [e1, e2]
    have e3 : t.kl.getD y [] = [] := by
      rw [List.getD_eq_getElem?_getD, hempty]; rfl
    rw [e3, List.nil_append]
    have hmu := muMerge_ok hc hy hfl g4 d2 d3
    refine Ok.ret ⟨⟨?_, ⟨_, ?_, hmu.weak hc.rep⟩, hrec⟩, rfl, rfl, ⟨_, rfl⟩, ⟨_, rfl, hmu.1⟩⟩
    · refine ⟨f, _, hf, hfl, by rw [List.getElem?_set_self (by omega)], ?_, ?_⟩
      · rw [List.length_take, g1.length]; omega
      · intro x _ hx hpx
        obtain ⟨p, k1, k2⟩ := g1.done x (by omega) (by have := hfl.1; omega) hpx
        refine ⟨p, ?_, k2⟩
        rw [List.getElem?_take_of_lt (pcount_lt hpx hx), k1]
    · show (t.mu.set y _)[y]? = _
      rw [List.getElem?_set_self (by omega)]

end Verif.KL
