import Verif.Arith.Lemmas
import Verif.Mat.Adapt
import Verif.Mat.Sol

/-!
`Smith_basis`.
-/

open Finset
open scoped Matrix

namespace Verif.Mat

variable {m n : Nat}

theorem toU_pos {a : Int} (h : 0 < a) (h' : a < 2 ^ 64) : Verif.Arith.toU 64 a = a.toNat := by
  rw [Verif.Arith.toU, Int.emod_eq_of_lt h.le (by simpa using h')]

/-- the diagonal after replacing two successive entries by their greatest common divisor and least common multiple -/
def gl (D : List Int) (i : Nat) (a b : Nat) : List Int := (D.set (i + 1) (Nat.lcm a b : Nat)).set i (Nat.gcd a b : Nat)

theorem gl_get (D : List Int) (i : Nat) (a b : Nat) (hi : i + 1 < D.length) (t : Nat) :
    (gl D i a b)[t]? = if t = i then some (Nat.gcd a b : Int) else if t = i + 1 then some (Nat.lcm a b : Int) else D[t]? := by
  rw [gl, List.getElem?_set, List.getElem?_set, List.length_set]
  by_cases c1 : i = t
  · rw [if_pos c1, if_pos (by omega), if_pos c1.symm]
  · rw [if_neg c1, if_neg (Ne.symm c1)]
    by_cases c2 : i + 1 = t
    · rw [if_pos c2, if_pos (by omega), if_pos c2.symm]
    · rw [if_neg c2, if_neg (Ne.symm c2)]

/-- the change of basis and of the diagonal agree -/
theorem smith_pair {D : List Int} {i a b p : Nat} (hm : i + 1 < m) (hn : i + 1 < n) (hD : i + 1 < D.length) (ha : D[i]? = some (a : Int)) (hb : D[i + 1]? = some (b : Int))
    (ha0 : 0 < a) (hb0 : 0 < b) (h1 : a ∣ p) (h2 : (b : Int) ∣ p - Nat.gcd a b) (B : Matrix (Fin m) (Fin m) Int) :
    ∃ Q : Matrix (Fin n) (Fin n) Int, Q.det = 1 ∧
      B * diagMat m n D * Q = (fun B' : Matrix (Fin m) (Fin m) Int => B'.updateCol ⟨i, Nat.lt_of_succ_lt hm⟩ (fun r => B' r ⟨i, Nat.lt_of_succ_lt hm⟩ + (1 - (p / Nat.gcd a b : Nat)) * B' r ⟨i + 1, hm⟩))
        (B.updateCol ⟨i + 1, hm⟩ (fun r => B r ⟨i + 1, hm⟩ + -1 * B r ⟨i, Nat.lt_of_succ_lt hm⟩)) * diagMat m n (gl D i a b) := by
  obtain ⟨g, hg⟩ : ∃ g, g = Nat.gcd a b := ⟨_, rfl⟩
  have hg0 : 0 < g := by rw [hg]; exact Nat.gcd_pos_of_pos_left _ ha0
  obtain ⟨a', ha'⟩ : g ∣ a := hg ▸ Nat.gcd_dvd_left a b
  obtain ⟨b', hb'⟩ : g ∣ b := hg ▸ Nat.gcd_dvd_right a b
  obtain ⟨u, hu⟩ := h1
  obtain ⟨q, hq⟩ := h2
  rw [← hg] at hq ⊢
  have hl : (Nat.lcm a b : Int) = (g : Int) * a' * b' := by
    have := Nat.gcd_mul_lcm a b
    rw [← hg] at this
    have e : g * Nat.lcm a b = g * (g * a' * b') := by rw [this, ha', hb']; ring
    have := Nat.eq_of_mul_eq_mul_left hg0 e
    rw [this]; push_cast; ring
  have hpd : ((p / g : Nat) : Int) = a' * u := by
    rw [hu, ha', Nat.mul_assoc, Nat.mul_div_cancel_left _ hg0]; push_cast; ring
  have haz : (a : Int) = g * a' := by exact_mod_cast ha'
  have hbz : (b : Int) = g * b' := by exact_mod_cast hb'
  have hpz : (p : Int) = a * u := by exact_mod_cast hu
  have hbez : (a' : Int) * u - b' * q = 1 := by
    have hg' : (g : Int) ≠ 0 := by exact_mod_cast hg0.ne'
    apply mul_left_cancel₀ hg'
    rw [hpz, haz, hbz] at hq
    linarith
  refine ⟨embed n i !![(u : Int), -b'; -q, a'], ?_, ?_⟩
  · rw [det_embed (by omega), Matrix.det_fin_two_of]; linarith
  rw [hpd, Matrix.mul_assoc]
  -- the change of basis
  have hB : (fun B' : Matrix (Fin m) (Fin m) Int => B'.updateCol ⟨i, Nat.lt_of_succ_lt hm⟩ (fun r => B' r ⟨i, Nat.lt_of_succ_lt hm⟩ + (1 - (a' * u : Int)) * B' r ⟨i + 1, hm⟩))
        (B.updateCol ⟨i + 1, hm⟩ (fun r => B r ⟨i + 1, hm⟩ + -1 * B r ⟨i, Nat.lt_of_succ_lt hm⟩)) = B * embed m i !![(a' * u : Int), -1; 1 - a' * u, 1] := by
    ext r c
    have hne : (⟨i, Nat.lt_of_succ_lt hm⟩ : Fin m) ≠ ⟨i + 1, hm⟩ := by intro e; have := congrArg Fin.val e; simp only at this; omega
    simp only
    by_cases c1 : c.val = i
    · obtain rfl : c = ⟨i, Nat.lt_of_succ_lt hm⟩ := Fin.ext c1
      rw [Matrix.updateCol_self, Matrix.updateCol_ne hne, Matrix.updateCol_self]
      have := mul_embed_in (a := i) (k := 2) (by omega) B !![(a' * u : Int), -1; 1 - a' * u, 1] r 0
      simp only [Fin.val_zero, Nat.add_zero] at this
      rw [this, Fin.sum_univ_two]
      simp only [Fin.val_zero, Fin.val_one, Nat.add_zero, Matrix.of_apply, Matrix.cons_val', Matrix.cons_val_zero, Matrix.cons_val_one, Matrix.cons_val_fin_one]
      ring
    · by_cases c2 : c.val = i + 1
      · obtain rfl : c = ⟨i + 1, hm⟩ := Fin.ext c2
        rw [Matrix.updateCol_ne hne.symm, Matrix.updateCol_self]
        have := mul_embed_in (a := i) (k := 2) (by omega) B !![(a' * u : Int), -1; 1 - a' * u, 1] r 1
        simp only [Fin.val_one] at this
        rw [this, Fin.sum_univ_two]
        simp only [Fin.val_zero, Fin.val_one, Nat.add_zero, Matrix.of_apply, Matrix.cons_val', Matrix.cons_val_zero, Matrix.cons_val_one, Matrix.cons_val_fin_one]
        ring
      · rw [Matrix.updateCol_ne (fun e => c1 (congrArg Fin.val e)), Matrix.updateCol_ne (fun e => c2 (congrArg Fin.val e)), mul_embed_out _ _ _ (by omega)]
  rw [hB, Matrix.mul_assoc]
  congr 1
  have hDi : D[i]?.getD 0 = (g : Int) * a' := by rw [ha, Option.getD_some, haz]
  have hDi' : D[i + 1]?.getD 0 = (g : Int) * b' := by rw [hb, Option.getD_some, hbz]
  have hGi : (gl D i a b)[i]?.getD 0 = (g : Int) := by rw [gl_get _ _ _ _ hD, if_pos rfl, Option.getD_some, hg]
  have hGi' : (gl D i a b)[i + 1]?.getD 0 = (g : Int) * a' * b' := by
    rw [gl_get _ _ _ _ hD, if_neg (by omega), if_pos rfl, Option.getD_some, hl]
  -- rows of the products
  have hrow0 : ∀ c : Fin n, (embed m i !![(a' * u : Int), -1; 1 - a' * u, 1] * diagMat m n (gl D i a b)) ⟨i, Nat.lt_of_succ_lt hm⟩ c =
      if c.val = i then (a' * u * g : Int) else if c.val = i + 1 then - (g * a' * b' : Int) else 0 := by
    intro c
    have := embed_mul_in (a := i) (k := 2) (by omega) (diagMat m n (gl D i a b)) !![(a' * u : Int), -1; 1 - a' * u, 1] 0 c
    simp only [Fin.val_zero, Nat.add_zero] at this
    rw [this, Fin.sum_univ_two]
    simp only [Fin.val_zero, Fin.val_one, Nat.add_zero, diagMat, Matrix.of_apply, Matrix.cons_val', Matrix.cons_val_zero, Matrix.cons_val_one, Matrix.cons_val_fin_one]
    rw [hGi, hGi']
    by_cases c1 : c.val = i
    · rw [if_pos c1.symm, if_neg (by omega), if_pos c1]; ring
    · rw [if_neg (Ne.symm c1), if_neg c1]
      by_cases c2 : c.val = i + 1
      · rw [if_pos c2.symm, if_pos c2]; ring
      · rw [if_neg (Ne.symm c2), if_neg c2]; ring
  have hrow1 : ∀ c : Fin n, (embed m i !![(a' * u : Int), -1; 1 - a' * u, 1] * diagMat m n (gl D i a b)) ⟨i + 1, hm⟩ c =
      if c.val = i then ((1 - a' * u) * g : Int) else if c.val = i + 1 then (g * a' * b' : Int) else 0 := by
    intro c
    have := embed_mul_in (a := i) (k := 2) (by omega) (diagMat m n (gl D i a b)) !![(a' * u : Int), -1; 1 - a' * u, 1] 1 c
    simp only [Fin.val_one] at this
    rw [this, Fin.sum_univ_two]
    simp only [Fin.val_zero, Fin.val_one, Nat.add_zero, diagMat, Matrix.of_apply, Matrix.cons_val', Matrix.cons_val_zero, Matrix.cons_val_one, Matrix.cons_val_fin_one]
    rw [hGi, hGi']
    by_cases c1 : c.val = i
    · rw [if_pos c1.symm, if_neg (by omega), if_pos c1]; ring
    · rw [if_neg (Ne.symm c1), if_neg c1]
      by_cases c2 : c.val = i + 1
      · rw [if_pos c2.symm, if_pos c2]; ring
      · rw [if_neg (Ne.symm c2), if_neg c2]; ring
  ext r c
  -- the left hand side
  have hleft : (diagMat m n D * embed n i !![(u : Int), -b'; -q, a']) r c =
      if c.val = i then (if r.val = i then (g * a' * u : Int) else if r.val = i + 1 then g * b' * -q else 0)
      else if c.val = i + 1 then (if r.val = i then (g * a' * -b' : Int) else if r.val = i + 1 then (g * b' * a' : Int) else 0) else diagMat m n D r c := by
    have hd : ∀ (t : Nat) (ht : t < n) (x : Int), D[t]?.getD 0 = x → diagMat m n D r ⟨t, ht⟩ = if r.val = t then x else 0 := by
      intro t ht x hx
      rw [diagMat, Matrix.of_apply]
      by_cases e : r.val = t
      · rw [if_pos e, if_pos e, e, hx]
      · rw [if_neg e, if_neg e]
    by_cases c1 : c.val = i
    · obtain rfl : c = ⟨i, Nat.lt_of_succ_lt hn⟩ := Fin.ext c1
      have := mul_embed_in (a := i) (k := 2) (by omega) (diagMat m n D) !![(u : Int), -b'; -q, a'] r 0
      simp only [Fin.val_zero, Nat.add_zero] at this
      rw [this, Fin.sum_univ_two]
      simp only [Fin.val_zero, Fin.val_one, Nat.add_zero, Matrix.of_apply, Matrix.cons_val', Matrix.cons_val_zero, Matrix.cons_val_one, Matrix.cons_val_fin_one, if_true]
      rw [hd i (Nat.lt_of_succ_lt hn) _ hDi, hd (i + 1) hn _ hDi']
      by_cases r1 : r.val = i
      · rw [if_pos r1, if_neg (by omega), if_pos r1]; ring
      · rw [if_neg r1, if_neg r1]
        by_cases r2 : r.val = i + 1
        · rw [if_pos r2, if_pos r2]; ring
        · rw [if_neg r2, if_neg r2]; ring
    · rw [if_neg c1]
      by_cases c2 : c.val = i + 1
      · obtain rfl : c = ⟨i + 1, hn⟩ := Fin.ext c2
        have := mul_embed_in (a := i) (k := 2) (by omega) (diagMat m n D) !![(u : Int), -b'; -q, a'] r 1
        simp only [Fin.val_one] at this
        rw [this, Fin.sum_univ_two]
        simp only [Fin.val_zero, Fin.val_one, Nat.add_zero, Matrix.of_apply, Matrix.cons_val', Matrix.cons_val_zero, Matrix.cons_val_one, Matrix.cons_val_fin_one, if_true]
        rw [hd i (Nat.lt_of_succ_lt hn) _ hDi, hd (i + 1) hn _ hDi']
        by_cases r1 : r.val = i
        · rw [if_pos r1, if_neg (by omega), if_pos r1]; ring
        · rw [if_neg r1, if_neg r1]
          by_cases r2 : r.val = i + 1
          · rw [if_pos r2, if_pos r2]; ring
          · rw [if_neg r2, if_neg r2]; ring
      · rw [if_neg c2, mul_embed_out _ _ _ (by omega)]
  rw [hleft]
  by_cases r1 : r.val = i
  · obtain rfl : r = ⟨i, Nat.lt_of_succ_lt hm⟩ := Fin.ext r1
    rw [hrow0]
    by_cases c1 : c.val = i
    · rw [if_pos c1, if_pos c1, if_pos rfl]; ring
    · rw [if_neg c1, if_neg c1]
      by_cases c2 : c.val = i + 1
      · rw [if_pos c2, if_pos c2, if_pos rfl]; ring
      · rw [if_neg c2, if_neg c2, diagMat, Matrix.of_apply, if_neg (by simp only; omega)]
  · by_cases r2 : r.val = i + 1
    · obtain rfl : r = ⟨i + 1, hm⟩ := Fin.ext r2
      rw [hrow1]
      by_cases c1 : c.val = i
      · rw [if_pos c1, if_pos c1, if_neg (by simp only; omega), if_pos rfl]
        linear_combination (g : Int) * hbez
      · rw [if_neg c1, if_neg c1]
        by_cases c2 : c.val = i + 1
        · rw [if_pos c2, if_pos c2, if_neg (by simp only; omega), if_pos rfl]; ring
        · rw [if_neg c2, if_neg c2, diagMat, Matrix.of_apply, if_neg (by simp only; omega)]
    · rw [embed_mul_out _ _ _ (by omega), if_neg r1, if_neg r1, if_neg r2, if_neg r2, diagMat, diagMat, Matrix.of_apply, Matrix.of_apply, gl_get _ _ _ _ hD,
        if_neg r1, if_neg r2]
      by_cases c1 : c.val = i
      · rw [if_pos c1, if_neg (by omega)]
      · rw [if_neg c1]
        by_cases c2 : c.val = i + 1
        · rw [if_pos c2, if_neg (by omega)]
        · rw [if_neg c2]

/-! ### the loops -/

theorem natLcm_dvd {a b : Nat} {x : Int} (h1 : (a : Int) ∣ x) (h2 : (b : Int) ∣ x) : ((Nat.lcm a b : Nat) : Int) ∣ x := by
  rw [Int.natCast_dvd] at *
  exact Nat.lcm_dvd h1 h2

/-- entry of the diagonal -/
def dv (D : List Int) (t : Nat) : Int := D[t]?.getD 0

theorem dv_lt {D : List Int} {t : Nat} (h : t < D.length) : dv D t = D[t] := by rw [dv, List.getElem?_eq_getElem h, Option.getD_some]

/-- the basis is adapted, with positive diagonal entries dividing `L` -/
structure SInv (A : Matrix (Fin m) (Fin n) Int) (L : Nat) (B : Mat Int) (D : List Int) : Prop where
  ex : ∃ (B' : Matrix (Fin m) (Fin m) Int) (U : Matrix (Fin n) (Fin n) Int), B = enc B' ∧ A * U = B' * diagMat m n D ∧ IsUnit U.det ∧ IsUnit B'.det
  lm : D.length ≤ m
  ln : D.length ≤ n
  pos : ∀ t, t < D.length → 0 < dv D t
  dvd : ∀ t, t < D.length → dv D t ∣ (L : Int)

/-- state of the inner loop before the iteration for `i` -/
structure SIn (stop : Nat) (i : Nat) (D : List Int) (ns nst : Nat) : Prop where
  upto : ∀ p, p ≤ i → dv D p ∣ dv D i
  after : ∀ p q, p ≤ q → stop < q → q < D.length → dv D p ∣ dv D q
  mid : ∀ p q, p ≤ q → nst < q → q ≤ i → dv D p ∣ dv D q
  cases : (ns = stop ∧ nst = stop ∧ ∀ p, p < i → dv D p ∣ dv D (p + 1)) ∨
    (ns < i ∧ ns ≤ nst ∧ nst < i ∧ nst < stop ∧ ∀ p, p < ns → dv D p ∣ dv D (p + 1))

theorem smithStep_spec (nd : Bool) {A : Matrix (Fin m) (Fin n) Int} {L : Nat} (hL : 0 < L) (h64 : L < 2 ^ 64) {stop i : Nat} (hi : i < stop) {s : Smith}
    (h : SInv A L s.B s.diag) (hs : stop < s.diag.length) (hin : SIn stop i s.diag s.start s.stop) :
    ∃ s', smithStep nd stop i s = .ok s' ∧ SInv A L s'.B s'.diag ∧ s'.diag.length = s.diag.length ∧ SIn stop (i + 1) s'.diag s'.start s'.stop := by
  obtain ⟨B0, D, ns, nst⟩ := s
  simp only at h hs hin
  have hi1 : i + 1 < D.length := by omega
  have hi0 : i < D.length := by omega
  have hposa := h.pos i hi0
  have hposb := h.pos (i + 1) hi1
  rw [smithStep]
  simp only
  rw [Vec.get_ok hi1, Res.ok_bind, Vec.get_ok hi0, Res.ok_bind, ← dv_lt hi0, ← dv_lt hi1, if_neg hposa.ne']
  by_cases c : dv D i ∣ dv D (i + 1)
  · rw [if_neg (fun e => e (Int.dvd_iff_tmod_eq_zero.1 c)), Res.pure_eq]
    refine ⟨_, rfl, h, rfl, ?_, hin.after, ?_, ?_⟩
    · intro p hp
      by_cases e : p = i + 1
      · rw [e]
      · exact (hin.upto p (by omega)).trans c
    · intro p q hpq hq hqi
      by_cases e : q = i + 1
      · subst e
        by_cases e' : p = i + 1
        · rw [e']
        · exact (hin.upto p (by omega)).trans c
      · exact hin.mid p q hpq hq (by omega)
    · rcases hin.cases with ⟨e1, e2, h3⟩ | ⟨h1, h2, h3, h4, h5⟩
      · refine .inl ⟨e1, e2, fun p hp => ?_⟩
        by_cases e : p = i
        · rw [e]; exact c
        · exact h3 p (by omega)
      · exact .inr ⟨by simp only; omega, h2, by simp only; omega, h4, h5⟩
  · rw [if_pos (fun e => c (Int.dvd_iff_tmod_eq_zero.2 e))]
    obtain ⟨a, ha⟩ : ∃ a : Nat, dv D i = a := ⟨(dv D i).toNat, by omega⟩
    obtain ⟨b, hb⟩ : ∃ b : Nat, dv D (i + 1) = b := ⟨(dv D (i + 1)).toNat, by omega⟩
    rw [ha] at hposa
    rw [hb] at hposb
    have ha0 : 0 < a := by omega
    have hb0 : 0 < b := by omega
    have haL : a ∣ L := by have := h.dvd i hi0; rw [ha] at this; exact_mod_cast this
    have hbL : b ∣ L := by have := h.dvd (i + 1) hi1; rw [hb] at this; exact_mod_cast this
    have haL' := Nat.le_of_dvd hL haL
    have hbL' := Nat.le_of_dvd hL hbL
    have hl64 : Nat.lcm a b < 2 ^ 64 := lt_of_le_of_lt (Nat.le_of_dvd hL (Nat.lcm_dvd haL hbL)) h64
    obtain ⟨p, e1, e2, e3, -⟩ := Verif.Arith.lcm_spec ha0 hl64 (by omega)
    obtain ⟨⟨B', U, rfl, hAU, hU, hB⟩, hlm, hln, hpos, hdvd⟩ := h
    rw [ha, hb, toU_pos (by omega) (by omega), toU_pos (by omega) (by omega), Int.toNat_natCast, Int.toNat_natCast, e1, Res.ok_bind]
    simp only
    rw [Vec.put_ok hi1, Res.ok_bind, Vec.put_ok (by rw [List.length_set]; exact hi0), Res.ok_bind]
    have hm : i + 1 < m := by omega
    have hn : i + 1 < n := by omega
    rw [C45_colOp nd B' ⟨i + 1, hm⟩ ⟨i, Nat.lt_of_succ_lt hm⟩, Res.ok_bind,
      C45_colOp nd (B'.updateCol ⟨i + 1, hm⟩ (fun r => B' r ⟨i + 1, hm⟩ + -1 * B' r ⟨i, Nat.lt_of_succ_lt hm⟩)) ⟨i, Nat.lt_of_succ_lt hm⟩ ⟨i + 1, hm⟩,
      Res.ok_bind, Res.pure_eq]
    have hDi : D[i]? = some (a : Int) := by rw [List.getElem?_eq_getElem hi0, ← dv_lt hi0, ha]
    have hDi' : D[i + 1]? = some (b : Int) := by rw [List.getElem?_eq_getElem hi1, ← dv_lt hi1, hb]
    obtain ⟨Q, hQ, hBQ⟩ := smith_pair (m := m) (n := n) hm hn hi1 hDi hDi' ha0 hb0 e2 e3 B'
    have hlen : (gl D i a b).length = D.length := by simp [gl]
    have w0 : dv (gl D i a b) i = (Nat.gcd a b : Nat) := by rw [dv, gl_get _ _ _ _ hi1, if_pos rfl]; rfl
    have w1 : dv (gl D i a b) (i + 1) = (Nat.lcm a b : Nat) := by rw [dv, gl_get _ _ _ _ hi1, if_neg (by omega), if_pos rfl]; rfl
    have w2 : ∀ t, t ≠ i → t ≠ i + 1 → dv (gl D i a b) t = dv D t := by
      intro t h1 h2
      rw [dv, gl_get _ _ _ _ hi1, if_neg h1, if_neg h2]; rfl
    have hga : ((Nat.gcd a b : Nat) : Int) ∣ a := by exact_mod_cast Nat.gcd_dvd_left a b
    have hgb : ((Nat.gcd a b : Nat) : Int) ∣ b := by exact_mod_cast Nat.gcd_dvd_right a b
    have hal : (a : Int) ∣ (Nat.lcm a b : Nat) := by exact_mod_cast Nat.dvd_lcm_left a b
    have hbl : (b : Int) ∣ (Nat.lcm a b : Nat) := by exact_mod_cast Nat.dvd_lcm_right a b
    -- new values divide what both old ones divide
    have hsub : ∀ t x, (∀ u, u ≤ max t (i + 1) → dv D u ∣ x) → dv (gl D i a b) t ∣ x := by
      intro t x hx
      have hax : (a : Int) ∣ x := by rw [← ha]; exact hx i (by omega)
      have hbx : (b : Int) ∣ x := by rw [← hb]; exact hx (i + 1) (by omega)
      by_cases t1 : t = i
      · rw [t1, w0]; exact hga.trans hax
      · by_cases t2 : t = i + 1
        · rw [t2, w1]; exact natLcm_dvd hax hbx
        · rw [w2 t t1 t2]; exact hx t (by omega)
    have hup : ∀ p, p ≤ i + 1 → dv (gl D i a b) p ∣ dv (gl D i a b) (i + 1) := by
      intro p hp
      rw [w1]
      by_cases t1 : p = i
      · rw [t1, w0]; exact hga.trans hal
      · by_cases t2 : p = i + 1
        · rw [t2, w1]
        · rw [w2 p t1 t2]
          have := hin.upto p (by omega)
          rw [ha] at this
          exact this.trans hal
    refine ⟨_, rfl, ⟨⟨_, U * Q, rfl, ?_, ?_, ?_⟩, by rw [← hlen] at hlm; exact hlm, by rw [← hlen] at hln; exact hln, ?_, ?_⟩, hlen, hup, ?_, ?_, ?_⟩
    · rw [← Matrix.mul_assoc, hAU, hBQ]; rfl
    · rw [Matrix.det_mul, hQ, mul_one]; exact hU
    · rw [det_addCol _ (by intro e; have := congrArg Fin.val e; simp only at this; omega),
        det_addCol _ (by intro e; have := congrArg Fin.val e; simp only at this; omega)]
      exact hB
    · intro t ht
      change t < (gl D i a b).length at ht
      change 0 < dv (gl D i a b) t
      by_cases t1 : t = i
      · rw [t1, w0]; exact_mod_cast Nat.gcd_pos_of_pos_left b ha0
      · by_cases t2 : t = i + 1
        · rw [t2, w1]; exact_mod_cast Nat.lcm_pos ha0 hb0
        · rw [w2 t t1 t2]; exact hpos t (by omega)
    · intro t ht
      change t < (gl D i a b).length at ht
      change dv (gl D i a b) t ∣ (L : Int)
      refine hsub t _ fun u hu => hdvd u (by omega)
    · intro p q hpq hq hqN
      change dv (gl D i a b) p ∣ dv (gl D i a b) q
      rw [w2 q (by omega) (by omega)]
      change q < (gl D i a b).length at hqN
      exact hsub p _ fun u hu => hin.after u q (by omega) hq (by omega)
    · intro p q hpq hq hqi
      simp only at hq
      obtain rfl : q = i + 1 := by omega
      exact hup p hpq
    · right
      have hcs := hin.cases
      have hns : (if ns = stop then i - 1 else ns) < i + 1 ∧ (if ns = stop then i - 1 else ns) ≤ i ∧
          ∀ p, p < (if ns = stop then i - 1 else ns) → p + 1 < i ∧ dv D p ∣ dv D (p + 1) := by
        rcases hcs with ⟨e1, e2, h3⟩ | ⟨h1, h2, h3, h4, h5⟩
        · rw [if_pos e1]
          exact ⟨by omega, by omega, fun p hp => ⟨by omega, h3 p (by omega)⟩⟩
        · rw [if_neg (by omega)]
          exact ⟨by omega, by omega, fun p hp => ⟨by omega, h5 p hp⟩⟩
      refine ⟨hns.1, hns.2.1, by simp, hi, fun p hp => ?_⟩
      obtain ⟨h1, h2⟩ := hns.2.2 p hp
      change dv (gl D i a b) p ∣ dv (gl D i a b) (p + 1)
      rw [w2 p (by omega) (by omega), w2 (p + 1) (by omega) (by omega)]
      exact h2

/-- state of the outer loop -/
structure SOut (start stop : Nat) (D : List Int) : Prop where
  before : ∀ p, p < start → dv D p ∣ dv D (p + 1)
  after : ∀ p q, p ≤ q → stop < q → q < D.length → dv D p ∣ dv D q
  bound : stop ≤ D.length - 1
  le : start ≤ stop

theorem chain_dvd {D : List Int} {k : Nat} (h : ∀ p, p < k → dv D p ∣ dv D (p + 1)) (p q : Nat) (hpq : p ≤ q) (hq : q ≤ k) : dv D p ∣ dv D q := by
  induction q with
  | zero => rw [show p = 0 by omega]
  | succ q ih =>
    by_cases e : p = q + 1
    · rw [e]
    · exact (ih (by omega) (by omega)).trans (h q (by omega))

theorem smithLoop_spec (nd : Bool) {A : Matrix (Fin m) (Fin n) Int} {L : Nat} (hL : 0 < L) (h64 : L < 2 ^ 64) (fuel : Nat) {B : Mat Int} {D : List Int}
    {start stop : Nat} (h : SInv A L B D) (ho : SOut start stop D) (hf : 0 < fuel) (hfuel : start < stop → stop < fuel) :
    ∃ B' D', smithLoop nd fuel B D start stop = .ok (B', D') ∧ SInv A L B' D' ∧ ∀ p, p + 1 < D'.length → dv D' p ∣ dv D' (p + 1) := by
  induction fuel generalizing B D start stop with
  | zero => omega
  | succ fuel ih =>
    rw [smithLoop]
    by_cases c : start < stop
    · rw [if_pos c]
      have hbd := ho.bound
      obtain ⟨s, e, h1, h2, h3⟩ := forUp_inv (body := smithStep nd stop) (fun i s => SInv A L s.B s.diag ∧ s.diag.length = D.length ∧
          SIn stop i s.diag s.start s.stop) (stop - start) start ⟨B, D, stop, stop⟩
        ⟨h, rfl, fun p hp => chain_dvd ho.before p start hp le_rfl, ho.after, fun p q _ h1 h2 => by simp only at h1; omega, .inl ⟨rfl, rfl, ho.before⟩⟩
        (fun i s hi1 hi2 ⟨g1, g2, g3⟩ => by
          obtain ⟨s', k1, k2, k3, k4⟩ := smithStep_spec nd hL h64 (show i < stop by omega) g1 (by omega) g3
          exact ⟨s', k1, k2, k3.trans g2, k4⟩)
      rw [show start + (stop - start) = stop by omega] at h3
      rw [e, Res.ok_bind]
      refine ih h1 ⟨?_, ?_, ?_, ?_⟩ (by have := hfuel c; omega) ?_
      · rcases h3.cases with ⟨e1, e2, k3⟩ | ⟨k1, k2, k3, k4, k5⟩
        · rw [e1]; exact k3
        · exact k5
      · rcases h3.cases with ⟨e1, e2, k3⟩ | ⟨k1, k2, k3, k4, k5⟩
        · rw [e2]; exact h3.after
        · intro p q hpq hq hqN
          by_cases c' : q ≤ stop
          · exact h3.mid p q hpq hq c'
          · exact h3.after p q hpq (by omega) hqN
      · rcases h3.cases with ⟨e1, e2, k3⟩ | ⟨k1, k2, k3, k4, k5⟩
        · omega
        · omega
      · rcases h3.cases with ⟨e1, e2, k3⟩ | ⟨k1, k2, k3, k4, k5⟩
        · omega
        · omega
      · have := hfuel c
        rcases h3.cases with ⟨e1, e2, k3⟩ | ⟨k1, k2, k3, k4, k5⟩
        · omega
        · omega
    · rw [if_neg c, Res.pure_eq]
      refine ⟨B, D, rfl, h, fun p hp => ?_⟩
      by_cases c' : p < start
      · exact ho.before p c'
      · exact ho.after p (p + 1) (by omega) (by have := ho.le; omega) hp

/-- `L` annihilates the torsion of the quotient by the lattice spanned by the columns of `A` -/
def KillsTorsion (A : Matrix (Fin m) (Fin n) Int) (L : Int) : Prop :=
  ∀ (v : Fin m → Int) (c : Int), c ≠ 0 → (∃ x, A *ᵥ x = c • v) → ∃ x, A *ᵥ x = L • v

theorem KillsTorsion.dvd {A : Matrix (Fin m) (Fin n) Int} {L : Int} (h : KillsTorsion A L) {B : Matrix (Fin m) (Fin m) Int} {U : Matrix (Fin n) (Fin n) Int}
    {D : List Int} (hm : D.length ≤ m) (hn : D.length ≤ n) (hAU : A * U = B * diagMat m n D) (hU : IsUnit U.det) (hB : IsUnit B.det) {t : Nat} (ht : t < D.length)
    (hd : dv D t ≠ 0) : dv D t ∣ L := by
  have htm : t < m := by omega
  have htn : t < n := by omega
  have hcol : ∀ r, (A *ᵥ (U *ᵥ Pi.single ⟨t, htn⟩ 1)) r = dv D t * B r ⟨t, htm⟩ := by
    intro r
    rw [Matrix.mulVec_mulVec, hAU, Matrix.mulVec_single_one, Matrix.col_apply, Matrix.mul_apply, Finset.sum_eq_single ⟨t, htm⟩]
    · simp only [diagMat, Matrix.of_apply, if_true]
      rw [dv, mul_comm]
    · intro b _ hb
      rw [diagMat, Matrix.of_apply, if_neg (fun e => hb (Fin.ext e)), mul_zero]
    · intro h; exact absurd (Finset.mem_univ _) h
  obtain ⟨x, hx⟩ := h (fun r => B r ⟨t, htm⟩) (dv D t) hd ⟨U *ᵥ Pi.single ⟨t, htn⟩ 1, funext hcol⟩
  have e1 : B *ᵥ (diagMat m n D *ᵥ (U⁻¹ *ᵥ x)) = B *ᵥ (L • Pi.single ⟨t, htm⟩ 1) := by
    rw [Matrix.mulVec_mulVec, ← hAU, Matrix.mulVec_mulVec, Matrix.mul_assoc, Matrix.mul_nonsing_inv _ hU, Matrix.mul_one, hx, Matrix.mulVec_smul,
      Matrix.mulVec_single_one]
    rfl
  have e2 := congrFun (Matrix.mulVec_injective_of_isUnit ((Matrix.isUnit_iff_isUnit_det B).2 hB) e1) ⟨t, htm⟩
  rw [Pi.smul_apply, Pi.single_eq_same, smul_eq_mul, mul_one, diagMat_mulVec hn, dif_pos ht, ← dv_lt ht] at e2
  exact ⟨_, e2.symm⟩

theorem smithBasis_spec (nd : Bool) (A : Matrix (Fin m) (Fin n) Int) {L : Nat} (hL : 0 < L) (h64 : L < 2 ^ 64) (hA : KillsTorsion A L) :
    ∃ (B : Matrix (Fin m) (Fin m) Int) (D : List Int) (U : Matrix (Fin n) (Fin n) Int), smithBasis nd (enc A) = .ok (enc B, D) ∧
      D.length ≤ m ∧ D.length ≤ n ∧ A * U = B * diagMat m n D ∧ IsUnit U.det ∧ IsUnit B.det ∧ (∀ d ∈ D, 0 < d) ∧
      ∀ t (h : t + 1 < D.length), D[t] ∣ D[t + 1] := by
  obtain ⟨B, D, U, h1, hm, hn, h2, hU, hB, hpos⟩ := adaptedBasis_spec nd A
  have hpos' : ∀ t, t < D.length → 0 < dv D t := fun t ht => by rw [dv_lt ht]; exact hpos _ (List.getElem_mem ht)
  rw [smithBasis, h1, Res.ok_bind]
  obtain ⟨B1, D1, e, ⟨⟨B', U', rfl, k1, k2, k3⟩, k4, k5, k6, k7⟩, hd⟩ := smithLoop_spec nd hL h64 (A := A) (D.length + 1) (B := enc B) (D := D) (start := 0)
    (stop := D.length - 1) ⟨⟨B, U, rfl, h2, hU, hB⟩, hm, hn, hpos', fun t ht => hA.dvd hm hn h2 hU hB ht (hpos' t ht).ne'⟩
    ⟨fun p hp => by omega, fun p q _ h1 h2 => by omega, le_rfl, Nat.zero_le _⟩ (by omega) (by omega)
  refine ⟨B', D1, U', e, k4, k5, k1, k2, k3, ?_, ?_⟩
  · intro d hd
    obtain ⟨t, ht, rfl⟩ := List.getElem_of_mem hd
    rw [← dv_lt ht]; exact k6 t ht
  · intro t ht
    have := hd t ht
    rwa [dv_lt (by omega), dv_lt ht] at this

end Verif.Mat
