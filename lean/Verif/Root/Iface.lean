import Verif.Root.Make
import Verif.Root.Spec
/-
The accessors of a root system give what is expected.
-/
namespace Verif.Root
open Verif.Coxeter CoxeterSystem

section
variable {rk : Nat} {M : CoxeterMatrix (Fin rk)} {W : Type} [Group W] {cs : CoxeterSystem M W} {C : Fin rk → Fin rk → ℤ} {h : IsCartan C M}

theorem unit_eq (s : Fin rk) : Spec.unit s = root s := by
  funext i
  rw [root_apply]
  rfl

theorem pair_eq (x y : Fin rk → ℤ) : Spec.pair C x y = form C x y := rfl

/-- the roots of the specification are those of the Coxeter group -/
theorem spec_isRoot (cs : CoxeterSystem M W) (h : IsCartan C M) (x y : Fin rk → ℤ) : Spec.IsRoot C x y ↔ ∃ t, IsRoot cs h x y t := by
  have hstep : ∀ (s : Fin rk) (x y : Fin rk → ℤ), (fun i => x i - Spec.pair C x (Spec.unit s) * Spec.unit s i) = geom cs h (cs.simple s) x ∧
      (fun i => y i - Spec.pair C (Spec.unit s) y * Spec.unit s i) = geom cs h.dual (cs.simple s) y := by
    intro s x y
    rw [geom_simple, geom_simple, srefl_apply, srefl_apply, unit_eq, pair_eq, pair_eq, form_root_right, form_root_left]
    exact ⟨rfl, rfl⟩
  constructor
  · intro hr
    induction hr with
    | simple s => rw [unit_eq]; exact ⟨_, isRoot_simple s⟩
    | reflect s _ ih =>
      obtain ⟨t, ht⟩ := ih
      have e := hstep s
      exact ⟨_, by rw [(e _ 0).1, (e 0 _).2]; exact ht.act (cs.simple s)⟩
  · rintro ⟨t, w, s, rfl, rfl, -⟩
    obtain ⟨l, rfl⟩ := cs.wordProd_surjective w
    induction l with
    | nil =>
      have := Spec.IsRoot.simple (C := C) s
      rw [unit_eq] at this
      simpa using this
    | cons r l ih =>
      rw [cs.wordProd_cons, geom_mul, geom_mul, ← (hstep r _ 0).1, ← (hstep r 0 _).2]
      exact ih.reflect r

theorem lessLoop_last : ∀ (v w : List ℤ), v.length = w.length → lessLoop v w = true → ∃ i, ∃ h1 : i < v.length, ∃ h2 : i < w.length, v[i] < w[i] ∧
    ∀ j (h3 : j < v.length) (h4 : j < w.length), j < i → v[j] = w[j]
  | [], _, _, hl => by simp [lessLoop] at hl
  | _ :: _, [], hl, _ => by simp at hl
  | a :: v, b :: w, hl, h1 => by
    rw [lessLoop] at h1
    by_cases hab : a = b
    · subst hab
      rw [if_neg (by omega)] at h1
      obtain ⟨i, i1, i2, i3, i4⟩ := lessLoop_last v w (by simpa using hl) h1
      refine ⟨i + 1, by simpa using i1, by simpa using i2, by simpa using i3, fun j h3 h4 hj => ?_⟩
      cases j with
      | zero => rfl
      | succ j =>
        simp only [List.getElem_cons_succ]
        exact i4 j (by simpa using h3) (by simpa using h4) (by omega)
    · rw [if_pos (by omega), decide_eq_true_iff] at h1
      exact ⟨0, by simp, by simp, by simp only [List.getElem_cons_zero]; omega, fun j _ _ hj => absurd hj (by omega)⟩

theorem lastLess_of_less {x y : Fin rk → ℤ} (hl : less (enc x) (enc y) = true) : Spec.lastLess x y := by
  obtain ⟨i, h1, h2, h3, h4⟩ := lessLoop_last _ _ (by simp) hl
  simp only [List.length_reverse, List.length_ofFn] at h1
  simp only [List.getElem_reverse, List.length_ofFn, List.getElem_ofFn] at h3 h4
  refine ⟨⟨rk - 1 - i, by omega⟩, h3, fun j hj => ?_⟩
  have hj' : rk - 1 - i < j.1 := hj
  have hj2 := j.2
  have := h4 (rk - 1 - j.1) (by simp; omega) (by simp; omega) (by omega)
  have e : (⟨rk - 1 - (rk - 1 - j.1), by omega⟩ : Fin rk) = j := by ext; simp; omega
  rwa [e] at this

variable {n : Nat} {β β' : Nat → Fin rk → ℤ} {fd fa : Nat → Nat → Bool} {fl : Nat → Nat → Nat} {pc nd : Bool} {rs : RS}

theorem full_minus {n : Nat} (β : Nat → Fin rk → ℤ) {k : Nat} (hk : k < 2 * n) : full n β (2 * n - 1 - k) = -full n β k := by
  obtain ⟨a, ha, rfl | rfl⟩ := num_cases hk
  · rw [full_pos, show 2 * n - 1 - (n + a) = n - 1 - a by omega, full_neg β ha]
  · rw [full_neg β ha, show 2 * n - 1 - (n - 1 - a) = n + a by omega, full_pos, neg_neg]

theorem RData.full_isRoot (D : RData cs h n β β' fd fa fl) {k : Nat} (hk : k < 2 * n) : ∃ t, IsRoot cs h (full n β k) (full n β' k) t := by
  obtain ⟨a, ha, rfl | rfl⟩ := num_cases hk
  · rw [full_pos, full_pos]; exact D.isRoot a ha
  · rw [full_neg β ha, full_neg β' ha]
    obtain ⟨t, ht⟩ := D.isRoot a ha
    exact ⟨t, ht.neg⟩

theorem RData.full_sign (D : RData cs h n β β' fd fa fl) {k : Nat} (hk : k < 2 * n) : (n ≤ k ↔ ∀ i, 0 ≤ full n β k i) ∧ (k < n ↔ ∀ i, full n β k i ≤ 0) := by
  obtain ⟨t, ht⟩ := D.full_isRoot hk
  have hne := ht.ne_zero
  obtain ⟨a, ha, rfl | rfl⟩ := num_cases hk
  · have hp := D.pos a ha
    rw [full_pos] at hne ⊢
    exact ⟨⟨fun _ => hp, fun _ => by omega⟩, ⟨fun hc => by omega, fun hc => absurd (funext fun i => le_antisymm (hc i) (hp i)) hne⟩⟩
  · have hp := D.pos a ha
    rw [full_neg β ha] at hne ⊢
    have hp' : ∀ i, (-β a) i ≤ 0 := fun i => by have := hp i; rw [Pi.neg_apply]; omega
    exact ⟨⟨fun hc => by omega, fun hc => absurd (funext fun i => le_antisymm (hp' i) (hc i)) hne⟩, ⟨fun _ => hp', fun _ => by omega⟩⟩

theorem RData.full_surj' (D : RData cs h n β β' fd fa fl) {v v' : Fin rk → ℤ} {t : W} (hv : IsRoot cs h v v' t) : ∃ k < 2 * n, full n β k = v ∧ full n β' k = v' := by
  obtain ⟨k, hk, e⟩ := D.full_surj ⟨v', t, hv⟩
  refine ⟨k, hk, e, ?_⟩
  obtain ⟨u, hu⟩ := D.full_isRoot hk
  rw [e] at hu
  exact (hu.unique hv).1

theorem RData.full_simple (D : RData cs h n β β' fd fa fl) {k : Nat} (hk : k < 2 * n) (i : Fin rk) : full n β k = root i ↔ k = n + i := by
  have hi := lt_of_lt_of_le i.2 D.rkn
  constructor
  · intro e
    refine D.full_inj hk (by omega) ?_
    rw [e, full_pos, D.simple]
  · rintro rfl
    rw [full_pos, D.simple]

theorem Holds.numbering [Finite W] (H : Holds cs h pc n β β' fd fa fl rs) : Spec.Numbering C pc n (full n β) (full n β') where
  root k hk := (spec_isRoot cs h _ _).mpr (H.data.full_isRoot hk)
  inj k hk l hl e := H.data.full_inj hk hl e
  surj x y hr := by
    obtain ⟨t, ht⟩ := (spec_isRoot cs h _ _).mp hr
    exact H.data.full_surj' ht
  pos k hk hn i := ⟨(H.data.full_sign hk).1.mp hn i, (H.data.dual.full_sign hk).1.mp hn i⟩
  neg k hk := by
    rw [full_minus β hk, full_minus β' hk]
    exact ⟨fun _ => rfl, fun _ => rfl⟩
  simple := by
    refine ⟨H.data.rkn, fun i => ?_⟩
    rw [full_pos, full_pos, unit_eq, H.data.simple, H.data.co_simple]
    exact ⟨rfl, rfl⟩
  order k l hk hkl hl := by
    have ho := H.order (k - n) (l - n) (by omega) (by omega)
    have e : ∀ b : Nat → Fin rk → ℤ, full n b k = b (k - n) ∧ full n b l = b (l - n) := fun b => by
      rw [full, full, if_pos hk, if_pos (by omega)]; exact ⟨rfl, rfl⟩
    rw [(e β).1, (e β).2, (e β').1, (e β').2]
    cases pc with
    | false =>
      simp only [Bool.false_eq_true, if_false] at ho ⊢
      rcases ho with ho | ⟨h1, h2⟩
      · exact .inl ho
      · exact .inr ⟨h1, lastLess_of_less h2⟩
    | true =>
      simp only [if_true] at ho ⊢
      rcases ho with ho | ⟨h1, h2⟩
      · exact .inl ho
      · exact .inr ⟨h1, lastLess_of_less h2⟩

/-! ### accessors -/

theorem Holds.numPos (H : Holds cs h pc n β β' fd fa fl rs) : rs.numPos = n := by rw [RS.numPos, H.roots]; simp

theorem Holds.rtAbs_pos (H : Holds cs h pc n β β' fd fa fl rs) (a : Nat) : rs.rtAbs (n + a) = a ∧ rs.isPos (n + a) = true ∧ rs.isNeg (n + a) = false := by
  rw [RS.rtAbs, RS.isPos, RS.isNeg, H.numPos]
  have h1 : n ≤ n + a := by omega
  have h2 : ¬ (n + a < n) := by omega
  refine ⟨?_, by simpa using h1, by simpa using h2⟩
  rw [if_pos (by simpa using h1)]
  omega

theorem Holds.rtAbs_neg (H : Holds cs h pc n β β' fd fa fl rs) {a : Nat} (ha : a < n) : rs.rtAbs (n - 1 - a) = a ∧ rs.isPos (n - 1 - a) = false ∧ rs.isNeg (n - 1 - a) = true := by
  rw [RS.rtAbs, RS.isPos, RS.isNeg, H.numPos]
  have h1 : ¬ (n ≤ n - 1 - a) := by omega
  have h2 : n - 1 - a < n := by omega
  refine ⟨?_, by simpa using h1, by simpa using h2⟩
  rw [if_neg (by simpa using h1)]
  omega

theorem sumLoop_eq : ∀ {rk : Nat} (v : Fin rk → ℤ) (r : ℤ), RS.sumLoop (enc v) r = r + ∑ i, v i
  | 0, v, r => by simp [RS.sumLoop, enc]
  | rk + 1, v, r => by
    have := sumLoop_eq (fun i : Fin rk => v i.succ) (r + v 0)
    rw [enc] at this ⊢
    rw [List.ofFn_succ, RS.sumLoop, this, Fin.sum_univ_succ]
    ring

theorem map_enc (v : Fin rk → ℤ) (f : ℤ → ℤ) : (enc v).map f = enc fun i => f (v i) := by simp [enc, List.map_ofFn, Function.comp_def]

/-- vectors of coefficients -/
theorem expr_ok {vecs : List BV} {v : Nat → Fin rk → ℤ} (hv : vecs = (List.range n).map fun j => enc (v j)) {a : Nat} (ha : a < n) : Vec.get vecs a = .ok (enc (v a)) := by
  rw [hv, row_get _ ha]

theorem Holds.root_all (H : Holds cs h pc n β β' fd fa fl rs) {k : Nat} (hk : k < 2 * n) : (∀ i : Fin rk, rs.rootCoef k i = .ok (full n β k i)) ∧
    rs.rootExpr k = .ok (enc (full n β k)) ∧ rs.level k = .ok (lev (full n β k)) ∧ (∀ i : Fin rk, rs.corootCoef k i = .ok (full n β' k i)) ∧
    rs.corootExpr k = .ok (enc (full n β' k)) ∧ rs.colevel k = .ok (lev (full n β' k)) := by
  obtain ⟨a, ha, rfl | rfl⟩ := num_cases hk
  · obtain ⟨e1, e2, e3⟩ := H.rtAbs_pos a
    simp only [RS.rootCoef, RS.rootExpr, RS.level, RS.corootCoef, RS.corootExpr, RS.colevel, e1, e3, expr_ok H.roots ha, expr_ok H.coroots ha, Res.ok_bind, enc_get,
      Bool.false_eq_true, if_false, full_pos, sumLoop_eq]
    simp [lev]
  · obtain ⟨e1, e2, e3⟩ := H.rtAbs_neg ha
    simp only [RS.rootCoef, RS.rootExpr, RS.level, RS.corootCoef, RS.corootExpr, RS.colevel, e1, e3, expr_ok H.roots ha, expr_ok H.coroots ha, Res.ok_bind, enc_get, if_true,
      full_neg β ha, full_neg β' ha, sumLoop_eq, map_enc]
    refine ⟨fun i => rfl, ?_, ?_, fun i => rfl, ?_, ?_⟩
    · congr 2; funext i; simp
    · congr 1; simp [lev]
    · congr 2; funext i; simp
    · congr 1; simp [lev]

/-- reflections -/
theorem Holds.reflected (H : Holds cs h pc n β β' fd fa fl rs) {k l : Nat} (hk : k < 2 * n) (hl : l < 2 * n) : ∃ m < 2 * n, rs.reflected k l = .ok m ∧
    full n β m = full n β l - form C (full n β l) (full n β' k) • full n β k ∧
    full n β' m = full n β' l - form C (full n β k) (full n β' l) • full n β' k := by
  obtain ⟨a, ha, e⟩ : ∃ a < n, rs.rtAbs k = a ∧ (k = n + a ∨ k = n - 1 - a) := by
    obtain ⟨a, ha, rfl | rfl⟩ := num_cases hk
    · exact ⟨a, ha, (H.rtAbs_pos a).1, .inl rfl⟩
    · exact ⟨a, ha, (H.rtAbs_neg ha).1, .inr rfl⟩
  obtain ⟨f, t, p1, p2, p3⟩ := (H.row a ha).perm
  obtain ⟨q1, q2⟩ := p3 l hl
  refine ⟨f l, q1, ?_, ?_⟩
  · rw [RS.reflected, e.1, Vec.get]
    simp only [p1, Res.ok_bind]
    exact row_get f hl
  · have hroot : IsRoot cs h (full n β k) (full n β' k) t := by
      rcases e.2 with rfl | rfl
      · rw [full_pos, full_pos]; exact p2
      · rw [full_neg β ha, full_neg β' ha]; exact p2.neg
    refine ⟨by rw [q2, hroot.refl], ?_⟩
    obtain ⟨u, hu⟩ := H.data.full_isRoot q1
    obtain ⟨u', hu'⟩ := H.data.full_isRoot hl
    have h2 := hu'.act t
    rw [← q2] at h2
    rw [(hu.unique h2).1, hroot.dual.refl, form_swap]

theorem Holds.simpleReflected (H : Holds cs h pc n β β' fd fa fl rs) (s : Fin rk) {l : Nat} (hl : l < 2 * n) : rs.simpleReflected s l = rs.reflected (n + s) l := by
  rw [RS.simpleReflected, RS.reflected, (H.rtAbs_pos s).1]

theorem Holds.full_root (H : Holds cs h pc n β β' fd fa fl rs) (s : Fin rk) : full n β (n + s) = root s ∧ full n β' (n + s) = root s := by
  rw [full_pos, full_pos, H.data.simple, H.data.co_simple]
  exact ⟨rfl, rfl⟩

theorem before_lev {v w : Fin rk → ℤ} (hb : before v w) : lev v ≤ lev w := by
  rcases hb with hb | hb <;> omega

/-- numbers are in the order of levels -/
theorem InOrder.full {b : Nat → Fin rk → ℤ} (ho : InOrder n b) (hp : ∀ j < n, 0 < lev (b j)) {k l : Nat} (hk : k < 2 * n) (hl : l < 2 * n)
    (hlt : lev (Root.full n b k) < lev (Root.full n b l)) : k < l := by
  have hneg : ∀ v : Fin rk → ℤ, lev (-v) = -lev v := fun v => by simp [lev]
  obtain ⟨a, ha, rfl | rfl⟩ := num_cases hk <;> obtain ⟨c, hc, rfl | rfl⟩ := num_cases hl
  · rw [full_pos, full_pos] at hlt
    by_contra hle
    rcases Nat.lt_or_ge c a with hca | hca
    · have := before_lev (ho c a hca ha); omega
    · have : a = c := by omega
      subst this
      omega
  · rw [full_pos, full_neg b hc, hneg] at hlt
    have := hp a ha
    have := hp c hc
    omega
  · omega
  · rw [full_neg b ha, full_neg b hc, hneg, hneg] at hlt
    by_contra hle
    rcases Nat.lt_or_ge a c with hca | hca
    · have := before_lev (ho a c hca hc); omega
    · have : a = c := by omega
      subst this
      omega

theorem RData.lev_pos (D : RData cs h n β β' fd fa fl) : ∀ j < n, 0 < lev (β j) := by
  intro j hj
  obtain ⟨t, ht⟩ := D.isRoot j hj
  exact Verif.Coxeter.lev_pos (D.pos j hj) ht.ne_zero

/-- A reflection in a positive root lowers the number of a root just if the pairing is positive. -/
theorem Holds.reflected_lt [Finite W] (H : Holds cs h pc n β β' fd fa fl rs) {k l m : Nat} (hk : k < 2 * n) (hkn : n ≤ k) (hl : l < 2 * n) (hm : m < 2 * n)
    (e1 : Root.full n β m = Root.full n β l - form C (Root.full n β l) (Root.full n β' k) • Root.full n β k)
    (e2 : Root.full n β' m = Root.full n β' l - form C (Root.full n β k) (Root.full n β' l) • Root.full n β' k) :
    (m < l ↔ 0 < form C (Root.full n β l) (Root.full n β' k)) ∧ (l < m ↔ form C (Root.full n β l) (Root.full n β' k) < 0) ∧
      (m = l ↔ form C (Root.full n β l) (Root.full n β' k) = 0) := by
  have D := H.data
  obtain ⟨t, ht⟩ := D.full_isRoot hk
  obtain ⟨u, hu⟩ := D.full_isRoot hl
  have hpair := ht.pair hu
  obtain ⟨a, ha, rfl⟩ : ∃ a < n, k = n + a := ⟨k - n, by omega, by omega⟩
  rw [full_pos, full_pos] at *
  have l1 := D.lev_pos a ha
  have l2 := D.dual.lev_pos a ha
  have lv : ∀ (x y : Fin rk → ℤ) (c : ℤ), lev (x - c • y) = lev x - c * lev y := fun x y c => by simp [lev, Finset.mul_sum]
  have key : ∃ b : Nat → Fin rk → ℤ, ∃ c y : ℤ, InOrder n b ∧ (∀ j < n, 0 < lev (b j)) ∧ 0 < y ∧ lev (Root.full n b m) = lev (Root.full n b l) - c * y ∧
      (0 < c ↔ 0 < form C (Root.full n β l) (β' a)) ∧ (c = 0 ↔ form C (Root.full n β l) (β' a) = 0) := by
    have ho := H.order
    cases pc with
    | false =>
      simp only [Bool.false_eq_true, if_false] at ho
      exact ⟨β, _, _, ho, D.lev_pos, l1, by rw [e1, lv], Iff.rfl, Iff.rfl⟩
    | true =>
      simp only [if_true] at ho
      exact ⟨β', _, _, ho, D.dual.lev_pos, l2, by rw [e2, lv], hpair.1.symm, hpair.2.1.symm⟩
  obtain ⟨b, c, y, ho, hp, hy, e3, c1, c2⟩ := key
  have z : form C (Root.full n β l) (β' a) = 0 → m = l := by
    intro hz
    refine D.full_inj hm hl ?_
    rw [e1, hz, zero_smul, sub_zero]
  have d1 : 0 < form C (Root.full n β l) (β' a) → m < l := by
    intro hc
    have := mul_pos (c1.mpr hc) hy
    exact ho.full hp hm hl (by omega)
  have d2 : form C (Root.full n β l) (β' a) < 0 → l < m := by
    intro hc
    have h3 : ¬ 0 < c := fun hc' => by have := c1.mp hc'; omega
    have h4 : ¬ c = 0 := fun hc' => by have := c2.mp hc'; omega
    have : c * y < 0 := mul_neg_of_neg_of_pos (by omega) hy
    exact ho.full hp hl hm (by omega)
  refine ⟨⟨fun h3 => ?_, d1⟩, ⟨fun h3 => ?_, d2⟩, ⟨fun h3 => ?_, z⟩⟩
  all_goals
    rcases lt_trichotomy (form C (Root.full n β l) (β' a)) 0 with hc | hc | hc
    · have := d2 hc; omega
    · have := z hc; omega
    · have := d1 hc; omega

theorem Holds.isOrthogonal [Finite W] (H : Holds cs h pc n β β' fd fa fl rs) {k l : Nat} (hk : k < 2 * n) (hl : l < 2 * n) :
    ∃ b, rs.isOrthogonal k l = .ok b ∧ (b = true ↔ form C (full n β k) (full n β' l) = 0) := by
  obtain ⟨m, hm, e, e1, e2⟩ := H.reflected hk hl
  rw [RS.isOrthogonal, e]
  refine ⟨_, rfl, ?_⟩
  rw [decide_eq_true_iff]
  obtain ⟨t, ht⟩ := H.data.full_isRoot hk
  obtain ⟨u, hu⟩ := H.data.full_isRoot hl
  rw [← (ht.pair hu).2.1]
  constructor
  · rintro rfl
    have h3 : form C (full n β m) (full n β' k) • full n β k = 0 := by
      have := e1.symm
      rwa [sub_eq_self] at this
    rcases smul_eq_zero.mp h3 with h4 | h4
    · exact h4
    · exact absurd h4 ht.ne_zero
  · intro hz
    refine H.data.full_inj hm hl ?_
    rw [e1, hz, zero_smul, sub_zero]

theorem bracketInner_ok (v w : Fin rk → ℤ) (i : Fin rk) : ∀ (l : List (Fin rk)) (c : ℤ), RS.bracketInner (enc v) (enc w) (encM C) i (l.map Fin.val) c =
    .ok (c + (l.map fun j => v i * C i j * w j).sum)
  | [], c => by simp [RS.bracketInner]
  | j :: l, c => by
    rw [List.map_cons, RS.bracketInner, enc_get, Res.ok_bind, entry_enc, Res.ok_bind, enc_get, Res.ok_bind, bracketInner_ok v w i l, List.map_cons, List.sum_cons, add_assoc]

theorem bracketLoop_ok (v w : Fin rk → ℤ) : ∀ (l : List (Fin rk)) (c : ℤ), RS.bracketLoop rk (enc v) (enc w) (encM C) (l.map Fin.val) c =
    .ok (c + (l.map fun i => ∑ j, v i * C i j * w j).sum)
  | [], c => by simp [RS.bracketLoop]
  | i :: l, c => by
    rw [List.map_cons, RS.bracketLoop, range_eq_map_val, bracketInner_ok, Res.ok_bind, bracketLoop_ok v w l, List.map_cons, List.sum_cons, add_assoc]
    congr 3

theorem Holds.bracket [Finite W] (H : Holds cs h pc n β β' fd fa fl rs) {k l : Nat} (hk : k < 2 * n) (hl : l < 2 * n) :
    rs.bracket k l = .ok (form C (full n β k) (full n β' l)) := by
  obtain ⟨b, e, hb⟩ := H.isOrthogonal hk hl
  rw [RS.bracket, e, Res.ok_bind]
  by_cases hbt : b = true
  · rw [if_pos hbt, hb.mp hbt]
  · rw [if_neg hbt]
    have hsum : ∀ v w : Fin rk → ℤ, RS.bracketLoop rs.rk (enc v) (enc w) rs.cmat (List.range rs.rk) 0 = .ok (form C v w) := by
      intro v w
      rw [H.rank, H.cmat, range_eq_map_val, bracketLoop_ok, zero_add, ← List.ofFn_eq_map, List.sum_ofFn]
      rfl
    obtain ⟨a, ha, rfl | rfl⟩ := num_cases hk <;> obtain ⟨c, hc, rfl | rfl⟩ := num_cases hl
    · obtain ⟨q1, q2, -⟩ := H.rtAbs_pos a
      obtain ⟨r1, r2, -⟩ := H.rtAbs_pos c
      rw [q1, r1, q2, r2, expr_ok H.roots ha, Res.ok_bind, expr_ok H.coroots hc, Res.ok_bind, hsum, Res.ok_bind, if_neg (by simp), full_pos, full_pos]
    · obtain ⟨q1, q2, -⟩ := H.rtAbs_pos a
      obtain ⟨r1, r2, -⟩ := H.rtAbs_neg hc
      rw [q1, r1, q2, r2, expr_ok H.roots ha, Res.ok_bind, expr_ok H.coroots hc, Res.ok_bind, hsum, Res.ok_bind, if_pos (by simp), full_pos, full_neg β' hc, form_neg_right]
    · obtain ⟨q1, q2, -⟩ := H.rtAbs_neg ha
      obtain ⟨r1, r2, -⟩ := H.rtAbs_pos c
      rw [q1, r1, q2, r2, expr_ok H.roots ha, Res.ok_bind, expr_ok H.coroots hc, Res.ok_bind, hsum, Res.ok_bind, if_pos (by simp), full_pos, full_neg β ha, form_neg_left]
    · obtain ⟨q1, q2, -⟩ := H.rtAbs_neg ha
      obtain ⟨r1, r2, -⟩ := H.rtAbs_neg hc
      rw [q1, r1, q2, r2, expr_ok H.roots ha, Res.ok_bind, expr_ok H.coroots hc, Res.ok_bind, hsum, Res.ok_bind, if_neg (by simp), full_neg β ha, full_neg β' hc, form_neg_left,
        form_neg_right, neg_neg]

theorem cartanRow_ok {f : Nat → ℤ} {a : Nat} : ∀ (l : List Nat), (∀ b ∈ l, rs.bracket a b = .ok (f b)) → rs.cartanRow a l = .ok (l.map f)
  | [], _ => rfl
  | b :: l, hb => by
    rw [RS.cartanRow, hb b (by simp), Res.ok_bind, cartanRow_ok l (fun c hc => hb c (by simp [hc]))]
    rfl

theorem cartanRows_ok {f : Nat → Nat → ℤ} (rb : List Nat) : ∀ (l : List Nat), (∀ a ∈ l, ∀ b ∈ rb, rs.bracket a b = .ok (f a b)) → rs.cartanRows rb l = .ok (l.map fun a => rb.map (f a))
  | [], _ => rfl
  | a :: l, hb => by
    rw [RS.cartanRows, cartanRow_ok rb (hb a (by simp)), Res.ok_bind, cartanRows_ok rb l (fun c hc => hb c (by simp [hc]))]
    rfl

/-! ### sets -/

theorem bits_map {m : Nat} {f : Nat → Bool} {P : Nat → Prop} (hf : ∀ k < m, f k = true ↔ P k) : Spec.Bits ((List.range m).map f) m P := by
  refine ⟨by simp, fun k hk => ?_⟩
  rw [RS.bit, List.getElem?_map, List.getElem?_range hk]
  exact hf k hk

theorem Holds.descents (H : Holds cs h pc n β β' fd fa fl rs) {k : Nat} (hk : k < 2 * n) :
    (∃ b, rs.descentSet k = .ok b ∧ Spec.Bits b 32 fun j => ∃ hj : j < rk, 0 < form C (full n β k) (root ⟨j, hj⟩)) ∧
    ∃ b, rs.ascentSet k = .ok b ∧ Spec.Bits b 32 fun j => ∃ hj : j < rk, form C (full n β k) (root ⟨j, hj⟩) < 0 := by
  have D := H.data
  obtain ⟨a, ha, rfl | rfl⟩ := num_cases hk
  · obtain ⟨q1, q2, -⟩ := H.rtAbs_pos a
    rw [RS.descentSet, RS.ascentSet, q1, q2, if_pos rfl, if_pos rfl, H.desc, H.asc, tab_get _ ha, tab_get _ ha, full_pos]
    refine ⟨⟨_, rfl, bits_map fun j _ => ?_⟩, ⟨_, rfl, bits_map fun j _ => ?_⟩⟩
    · rw [D.desc a ha]
      simp only [form_root_right]
    · rw [D.asc a ha]
      simp only [form_root_right]
  · obtain ⟨q1, q2, -⟩ := H.rtAbs_neg ha
    rw [RS.descentSet, RS.ascentSet, q1, q2, if_neg (by simp), if_neg (by simp), H.desc, H.asc, tab_get _ ha, tab_get _ ha, full_neg β ha]
    refine ⟨⟨_, rfl, bits_map fun j _ => ?_⟩, ⟨_, rfl, bits_map fun j _ => ?_⟩⟩
    · rw [D.asc a ha]
      refine exists_congr fun hj => ?_
      rw [form_root_right, map_neg]
      omega
    · rw [D.desc a ha]
      refine exists_congr fun hj => ?_
      rw [form_root_right, map_neg]
      omega

theorem Holds.sum (H : Holds cs h pc n β β' fd fa fl rs) {k l : Nat} (hk : k < 2 * n) (hl : l < 2 * n) :
    (∃ b, rs.sumIsRoot k l = .ok b ∧ (b = true ↔ IsR cs h (full n β k + full n β l))) ∧
    ∃ b, rs.sumIsCoroot k l = .ok b ∧ (b = true ↔ IsR cs h.dual (full n β' k + full n β' l)) := by
  have hminus : rs.minus k = 2 * n - 1 - k := by rw [RS.minus, RS.numRoots, H.numPos]
  have hget : ∀ (bs : List (List Bool)) (f : Nat → Bool) (i : Nat), bs[i]? = some ((List.range (2 * n)).map f) →
      (do .ok (!RS.bit (← Vec.get bs i) l) : Res Bool) = .ok (!f l) := by
    intro bs f i e
    rw [Vec.get]
    simp only [e, Res.ok_bind]
    rw [RS.bit, List.getElem?_map, List.getElem?_range hl]
    rfl
  have hnot : ∀ {b : Bool} {P : Prop}, (b = true ↔ ¬ P) → ((!b) = true ↔ P) := by
    intro b P hb
    cases b <;> simp_all
  rw [RS.sumIsRoot, RS.sumIsCoroot, hminus]
  obtain ⟨a, ha, rfl | rfl⟩ := num_cases hk
  · rw [show 2 * n - 1 - (n + a) = n - 1 - a by omega, full_pos, full_pos]
    obtain ⟨f, f1, f2⟩ := (H.negRow a ha).bots
    obtain ⟨g, g1, g2⟩ := (H.negRow a ha).cobots
    refine ⟨⟨_, hget _ f _ f1, hnot ?_⟩, ⟨_, hget _ g _ g1, hnot ?_⟩⟩
    · rw [f2 l hl, sub_neg_eq_add, add_comm]
    · rw [g2 l hl, sub_neg_eq_add, add_comm]
  · rw [show 2 * n - 1 - (n - 1 - a) = n + a by omega, full_neg β ha, full_neg β' ha]
    obtain ⟨f, f1, f2⟩ := (H.row a ha).bots
    obtain ⟨g, g1, g2⟩ := (H.row a ha).cobots
    refine ⟨⟨_, hget _ f _ f1, hnot ?_⟩, ⟨_, hget _ g _ g1, hnot ?_⟩⟩
    · rw [f2 l hl, sub_eq_add_neg, add_comm]
    · rw [g2 l hl, sub_eq_add_neg, add_comm]

theorem RData.isR_iff (D : RData cs h n β β' fd fa fl) (v : Fin rk → ℤ) : IsR cs h v ↔ ∃ m < 2 * n, full n β m = v := by
  constructor
  · exact D.full_surj
  · rintro ⟨m, hm, rfl⟩
    exact D.full_isR hm

theorem simpleListLoop_ok : ∀ (l : List Nat), (∀ i ∈ l, i < rs.rk) → rs.simpleListLoop nd l = .ok (l.map (rs.numPos + ·))
  | [], _ => rfl
  | i :: l, hl => by
    rw [RS.simpleListLoop, RS.simpleNbr, Res.assertIn_bind nd (decide_eq_true (hl i (by simp))), Res.ok_bind, simpleListLoop_ok l (fun j hj => hl j (by simp [hj]))]
    rfl

theorem Holds.simpleNbr (H : Holds cs h pc n β β' fd fa fl rs) {i : Nat} (hi : i < rk) : rs.simpleNbr nd i = .ok (n + i) := by
  rw [RS.simpleNbr, H.rank, H.numPos, Res.assertIn_bind nd (decide_eq_true hi)]

theorem Holds.posNbr (H : Holds cs h pc n β β' fd fa fl rs) {i : Nat} (hi : i < n) : rs.posNbr nd i = .ok (n + i) := by
  rw [RS.posNbr, H.numPos, Res.assertIn_bind nd (decide_eq_true hi)]

theorem bits_and {a b : List Bool} {m : Nat} {P Q : Nat → Prop} (ha : Spec.Bits a m P) (hb : Spec.Bits b m Q) : Spec.Bits (RS.andBits a b) m fun k => P k ∧ Q k := by
  refine ⟨by rw [RS.andBits, List.length_zipWith, ha.1, hb.1, min_self], fun k hk => ?_⟩
  beta_reduce
  rw [← ha.2 k hk, ← hb.2 k hk, RS.bit, RS.bit, RS.bit, RS.andBits, List.getElem?_zipWith, List.getElem?_eq_getElem (by rw [ha.1]; exact hk),
    List.getElem?_eq_getElem (by rw [hb.1]; exact hk)]
  simp

theorem bits_or {a b : List Bool} {m : Nat} {P Q : Nat → Prop} (ha : Spec.Bits a m P) (hb : Spec.Bits b m Q) : Spec.Bits (RS.orBits a b) m fun k => P k ∨ Q k := by
  refine ⟨by rw [RS.orBits, List.length_zipWith, ha.1, hb.1, min_self], fun k hk => ?_⟩
  beta_reduce
  rw [← ha.2 k hk, ← hb.2 k hk, RS.bit, RS.bit, RS.bit, RS.orBits, List.getElem?_zipWith, List.getElem?_eq_getElem (by rw [ha.1]; exact hk),
    List.getElem?_eq_getElem (by rw [hb.1]; exact hk)]
  simp

theorem bits_congr {b : List Bool} {m : Nat} {P Q : Nat → Prop} (hb : Spec.Bits b m P) (e : ∀ k < m, P k ↔ Q k) : Spec.Bits b m Q :=
  ⟨hb.1, fun k hk => (hb.2 k hk).trans (e k hk)⟩

theorem Holds.wallsLoop (H : Holds cs h pc n β β' fd fa fl rs) : ∀ (l : List Nat) {b : List Bool} {P : Nat → Prop}, (∀ i ∈ l, i < rk) → Spec.Bits b (2 * n) P →
    ∃ b', rs.wallsLoop nd l b = .ok b' ∧ Spec.Bits b' (2 * n) fun k => P k ∧ ∀ i ∈ l, ¬ IsR cs h.dual (Root.full n β' k - β' i)
  | [], b, P, _, hb => ⟨b, rfl, bits_congr hb fun k _ => by simp⟩
  | i :: l, b, P, hl, hb => by
    have hi := hl i (by simp)
    have hin : i < n := lt_of_lt_of_le hi H.data.rkn
    obtain ⟨g, g1, g2⟩ := (H.row i hin).cobots
    have e : Vec.get rs.cobots (n + i) = .ok ((List.range (2 * n)).map g) := by
      rw [Vec.get]
      simp only [g1]
    obtain ⟨b', e', hb'⟩ := H.wallsLoop l (fun j hj => hl j (by simp [hj])) (bits_and hb (bits_map (f := g) g2))
    refine ⟨b', ?_, bits_congr hb' fun k _ => ?_⟩
    · rw [RS.wallsLoop, H.posNbr hin, Res.ok_bind, e, Res.ok_bind, e']
    · simp only [List.mem_cons, forall_eq_or_imp, and_assoc]

theorem Holds.minus (H : Holds cs h pc n β β' fd fa fl rs) (k : Nat) : rs.minus k = 2 * n - 1 - k := by rw [RS.minus, RS.numRoots, H.numPos]

theorem Holds.highLoop {Q : Nat → Prop} (hq : ∀ k < rs.numPos, ∃ b, rs.descentSet k = .ok b ∧ (b.all (!·) = true ↔ Q (rs.minus k))) : ∀ (d k : Nat), k + d = rs.numPos → ∀ acc : List Nat,
    acc.Pairwise (· > ·) → (∀ x, x ∈ acc ↔ rs.minus k < x ∧ x < rs.numRoots ∧ Q x) →
    ∃ l, rs.highLoop (List.range' k d) acc = .ok l ∧ l.Pairwise (· > ·) ∧ ∀ x, x ∈ l ↔ rs.numPos ≤ x ∧ x < rs.numRoots ∧ Q x
  | 0, k, hk, acc, h1, h2 => by
    refine ⟨acc, rfl, h1, fun x => ?_⟩
    rw [h2, RS.minus, RS.numRoots]
    constructor
    · rintro ⟨a, b, c⟩; exact ⟨by omega, b, c⟩
    · rintro ⟨a, b, c⟩; exact ⟨by omega, b, c⟩
  | d + 1, k, hk, acc, h1, h2 => by
    obtain ⟨b, e, hb⟩ := hq k (by omega)
    have m1 : rs.minus k = 2 * rs.numPos - 1 - k := rfl
    have m2 : rs.minus (k + 1) = 2 * rs.numPos - 1 - (k + 1) := rfl
    have hnr : rs.numRoots = 2 * rs.numPos := rfl
    rw [List.range'_succ, RS.highLoop, e, Res.ok_bind]
    by_cases hbt : b.all (!·) = true
    · rw [if_pos hbt]
      refine Holds.highLoop hq d (k + 1) (by omega) _ ?_ fun x => ?_
      · rw [List.pairwise_append]
        refine ⟨h1, by simp, fun x hx y hy => ?_⟩
        rw [List.mem_singleton] at hy
        subst hy
        exact ((h2 x).mp hx).1
      · rw [List.mem_append, List.mem_singleton, h2]
        constructor
        · rintro (⟨a1, a2, a3⟩ | rfl)
          · exact ⟨by omega, a2, a3⟩
          · exact ⟨by omega, by omega, hb.mp hbt⟩
        · rintro ⟨a1, a2, a3⟩
          by_cases hx : x = rs.minus k
          · exact .inr hx
          · exact .inl ⟨by omega, a2, a3⟩
    · rw [if_neg hbt]
      refine Holds.highLoop hq d (k + 1) (by omega) _ h1 fun x => ?_
      rw [h2]
      constructor
      · rintro ⟨a1, a2, a3⟩
        exact ⟨by omega, a2, a3⟩
      · rintro ⟨a1, a2, a3⟩
        refine ⟨?_, a2, a3⟩
        by_contra hx
        have : x = rs.minus k := by omega
        subst this
        exact hbt (hb.mpr a3)

end
end Verif.Root
