import Verif.Root.Basis
/-
Weyl words acting on roots; words for reflections.
-/
namespace Verif.Root
open Verif.Coxeter CoxeterSystem

namespace Spec
variable {rk : Nat}

/-- simple reflection of a vector on the simple roots -/
def reflect (C : Fin rk → Fin rk → ℤ) (s : Fin rk) (x : Fin rk → ℤ) : Fin rk → ℤ := fun i => x i - pair C x (unit s) * unit s i

/-- action of a word: the last letter acts first -/
def act (C : Fin rk → Fin rk → ℤ) : List (Fin rk) → (Fin rk → ℤ) → Fin rk → ℤ
  | [], x => x
  | s :: w, x => reflect C s (act C w x)

/-- no shorter word has the same action -/
def Reduced (C : Fin rk → Fin rk → ℤ) (w : List (Fin rk)) : Prop := ∀ w' : List (Fin rk), (∀ x, act C w' x = act C w x) → w.length ≤ w'.length

end Spec

section
variable {rk : Nat} {M : CoxeterMatrix (Fin rk)} {W : Type} [Group W] (cs : CoxeterSystem M W) {C : Fin rk → Fin rk → ℤ} (h : IsCartan C M)
variable {nd pc : Bool} {N : Nat} {R R' : Nat → Fin rk → ℤ} {rs : RS}

theorem reflect_eq (s : Fin rk) (x : Fin rk → ℤ) : Spec.reflect C s x = geom cs h (cs.simple s) x := by
  unfold Spec.reflect
  rw [geom_simple, srefl_apply, unit_eq, pair_eq, form_root_right]
  rfl

theorem act_eq (w : List (Fin rk)) (x : Fin rk → ℤ) : Spec.act C w x = geom cs h (cs.wordProd w) x := by
  induction w with
  | nil => simp [Spec.act]
  | cons s w ih => rw [Spec.act, reflect_eq cs h, ih, cs.wordProd_cons, geom_mul]

theorem act_append (w w' : List (Fin rk)) (x : Fin rk → ℤ) : Spec.act C (w ++ w') x = Spec.act C w (Spec.act C w' x) := by
  induction w with
  | nil => rfl
  | cons s w ih => rw [List.cons_append, Spec.act, ih, Spec.act]

theorem reduced_of (w : List (Fin rk)) (hl : cs.length (cs.wordProd w) = w.length) (h : IsCartan C M) : Spec.Reduced C w := by
  intro w' hw
  have : cs.wordProd w' = cs.wordProd w := by
    apply geom_faithful cs h
    apply LinearMap.ext
    intro x
    rw [← act_eq cs h, ← act_eq cs h, hw]
  rw [← hl, ← this]
  exact cs.length_wordProd_le w'

variable (hN : Spec.Numbering C pc N R R') (hA : Spec.Answers nd C pc N R R' rs)

include hA in
theorem acc_simple (s : Fin rk) {l : Nat} (hl : l < 2 * N) : ∃ m < 2 * N, rs.simpleReflected s l = .ok m ∧ R m = Spec.reflect C s (R l) ∧
    R' m = Spec.reflect (fun i j => C j i) s (R' l) := by
  obtain ⟨m, hm, h1, h2, h3⟩ := hA.simpleReflected s l hl
  refine ⟨m, hm, h1, funext h2, funext fun i => ?_⟩
  rw [h3 i, Spec.reflect, pair_eq, pair_eq, form_swap]

include hA in
theorem permuteLoop_ok : ∀ (w : List (Fin rk)) {r : Nat}, r < 2 * N → ∃ m < 2 * N, rs.permuteLoop (w.map Fin.val) r = .ok m ∧ R m = Spec.act C w.reverse (R r) ∧
    R' m = Spec.act (fun i j => C j i) w.reverse (R' r)
  | [], r, hr => ⟨r, hr, rfl, rfl, rfl⟩
  | s :: w, r, hr => by
    obtain ⟨m, hm, h1, h2, h3⟩ := acc_simple hA s hr
    obtain ⟨m', hm', h1', h2', h3'⟩ := permuteLoop_ok w hm
    refine ⟨m', hm', ?_, ?_, ?_⟩
    · rw [List.map_cons, RS.permuteLoop, h1, Res.ok_bind, h1']
    · rw [h2', h2, List.reverse_cons, act_append]
      rfl
    · rw [h3', h3, List.reverse_cons, act_append]
      rfl

include hA in
theorem permuted_ok (w : List (Fin rk)) {r : Nat} (hr : r < 2 * N) :
    (∃ m < 2 * N, rs.permutedLeft (w.map Fin.val) r = .ok m ∧ R m = Spec.act C w (R r) ∧ R' m = Spec.act (fun i j => C j i) w (R' r)) ∧
    (∃ m < 2 * N, rs.permutedRight r (w.map Fin.val) = .ok m ∧ R m = Spec.act C w.reverse (R r) ∧ R' m = Spec.act (fun i j => C j i) w.reverse (R' r)) := by
  refine ⟨?_, permuteLoop_ok hA w hr⟩
  have := permuteLoop_ok hA w.reverse hr
  rw [List.reverse_reverse] at this
  rwa [RS.permutedLeft, ← List.map_reverse]

include hN hA in
/-- the first descent of a positive root -/
theorem first_descent (cs : CoxeterSystem M W) (h : IsCartan C M) (hrk : rk ≤ 32) {a : Nat} (ha : a < 2 * N) (han : N ≤ a) :
    ∃ (i : Fin rk) (b : List Bool), Vec.get rs.desc (a - N) = .ok b ∧ firstBit b = i ∧ 0 < form C (R a) (root i) := by
  obtain ⟨b, h1, h2⟩ := hA.descents a ha
  have hp : rs.isPos a = true := (acc_isPos hA a).mpr han
  rw [RS.descentSet, if_pos hp, RS.rtAbs, if_pos hp, hA.numPos] at h1
  obtain ⟨t, ht⟩ := hN.isRoot cs h ha
  obtain ⟨s, hs⟩ := ht.exists_descent fun i => (hN.pos a ha han i).1
  have hmem : true ∈ b := by
    have hbs := (h2.2 s (by have := s.2; omega)).mpr ⟨s.2, by rw [unit_eq, pair_eq, form_root_right]; exact hs⟩
    rw [RS.bit] at hbs
    cases hg : b[s.1]? with
    | none => rw [hg] at hbs; simp at hbs
    | some x =>
      rw [hg] at hbs
      have : x = true := by simpa using hbs
      rw [this] at hg
      exact List.mem_of_getElem? hg
  have hlt : b.idxOf true < b.length := List.idxOf_lt_length_iff.mpr hmem
  have hb : RS.bit b (b.idxOf true) = true := by
    rw [RS.bit, List.getElem?_eq_getElem hlt, List.getElem_idxOf]
    rfl
  obtain ⟨hj, hpos⟩ := (h2.2 _ (by rw [← h2.1]; exact hlt)).mp hb
  exact ⟨⟨_, hj⟩, b, h1, rfl, by rw [← unit_eq]; exact hpos⟩

include hN in
theorem simple_of_root {a : Nat} (ha : a < 2 * N) (i : Fin rk) : R a = root i ↔ a = N + i := by
  have h1 := hN.simple.2 i
  have h2 := hN.simple.1
  rw [unit_eq] at h1
  constructor
  · intro e
    exact hN.inj a ha (N + i) (by have := i.2; omega) (by rw [e, h1.1])
  · rintro rfl
    exact h1.1

/-- a reflection becomes longer by two when conjugated by a simple reflection raising its root -/
theorem length_conj [Finite W] {α α' : Fin rk → ℤ} {t : W} (hr : IsRoot cs h α α' t) {i : Fin rk} (hp : ∀ j, 0 ≤ α j) (hn : form C (root i) α' < 0) :
    cs.length (cs.simple i * t * cs.simple i) = cs.length t + 2 := by
  have hl := lev_pos hp hr.ne_zero
  have hlr := lev_root i
  have e1 : geom cs h t (root i) = root i - form C (root i) α' • α := hr.refl _
  have nonpos : ∀ x : Fin rk → ℤ, (∀ j, x j ≤ 0) → lev x ≤ 0 := fun x hx => Finset.sum_nonpos fun j _ => hx j
  have d1 : ¬ cs.IsRightDescent t i := by
    intro hd
    have h1 := nonpos _ (geom_neg cs h hd)
    rw [e1, lev_sub_smul, hlr] at h1
    nlinarith
  have d2 : ¬ cs.IsRightDescent (cs.simple i * t) i := by
    intro hd
    have h1 := nonpos _ (geom_neg cs h hd)
    rw [geom_mul, e1, map_sub, map_smul, geom_simple_root, geom_simple, srefl_apply, lev_sub_smul, lev_sub_smul, lev_neg, hlr, ← form_root_right] at h1
    have h2 : form C α (root i) < 0 := by
      have := (isRoot_simple i).pair hr
      omega
    generalize form C α (root i) = p at *
    generalize form C (root i) α' = f at *
    generalize lev α = l at *
    nlinarith
  have e2 : (cs.simple i * t)⁻¹ = t * cs.simple i := by
    rw [mul_inv_rev, cs.inv_simple, inv_eq_of_mul_eq_one_left hr.sq]
  rw [cs.not_isRightDescent_iff] at d1 d2
  rw [d2, ← cs.length_inv, e2, d1]

/-! ### reflection_word and conjugate_to_simple -/

variable [Finite W] (hrk : rk ≤ 32)
include hN hA hrk

/-- lowering a positive root that is not simple -/
theorem lower_step {a : Nat} (ha : a < 2 * N) (han : N ≤ a) {i : Fin rk} (hp : 0 < form C (R a) (root i)) (hne : a ≠ N + i) :
    ∃ b, rs.simpleReflected i a = .ok b ∧ N ≤ b ∧ b < a ∧ R a = geom cs h (cs.simple i) (R b) ∧ form C (root i) (R' b) < 0 := by
  obtain ⟨b, hb, h1, h2, h3⟩ := acc_simple hA i ha
  obtain ⟨t, ht⟩ := hN.isRoot cs h ha
  rw [reflect_eq cs h] at h2
  rw [reflect_eq cs h.dual] at h3
  have hs := hN.simple.2 i
  rw [unit_eq] at hs
  have hni : N + i < 2 * N := by have := hN.simple.1; have := i.2; omega
  have e2 : R b = R a - form C (R a) (R' (N + i)) • R (N + i) := by
    rw [h2, geom_simple, srefl_apply, hs.1, hs.2, form_root_right]
  have hbn : N ≤ b := by
    rw [(hN.sign_of cs h hb).1, h2, geom_simple]
    exact ht.simple_pos (fun j => (hN.pos a ha han j).1) (fun e => hne ((simple_of_root hN ha i).mp e))
  refine ⟨b, h1, hbn, ?_, ?_, ?_⟩
  · refine (hN.reflected_lt cs h hni (by omega) ha hb e2).1.mpr ?_
    rw [hs.2]
    exact hp
  · rw [h2, ← geom_mul, cs.simple_mul_simple_self, map_one]
    rfl
  · rw [h3, geom_simple, srefl_apply, ← form_root_left, form_sub_right, form_smul_right, form_root_root, h.diag]
    have := ((isRoot_simple (cs := cs) (h := h) i).pair ht).1.mp hp
    omega

/-- what the loops of `reflection_word` and `conjugate_to_simple` find for the positive root `a`: a word `v` and a simple root `j` -/
def Lowered (cs : CoxeterSystem M W) (h : IsCartan C M) (x : Fin rk → ℤ) (v : List (Fin rk)) (j : Fin rk) : Prop :=
  x = geom cs h (cs.wordProd v) (root j) ∧ cs.length (cs.wordProd v * cs.simple j * (cs.wordProd v)⁻¹) = 2 * v.length + 1

omit hA hrk in
theorem lowered_cons {a b : Nat} (ha : a < 2 * N) (hbn : N ≤ b) (hba : b < a) {i : Fin rk} (e : R a = geom cs h (cs.simple i) (R b)) (hn : form C (root i) (R' b) < 0)
    {v : List (Fin rk)} {j : Fin rk} (hL : Lowered cs h (R b) v j) : Lowered cs h (R a) (i :: v) j := by
  refine ⟨by rw [e, hL.1, cs.wordProd_cons, geom_mul], ?_⟩
  obtain ⟨t, ht⟩ := hN.isRoot cs h (show b < 2 * N by omega)
  have e2 : t = cs.wordProd v * cs.simple j * (cs.wordProd v)⁻¹ := (ht.unique (β2 := geom cs h.dual (cs.wordProd v) (root j)) ⟨cs.wordProd v, j, hL.1, rfl, rfl⟩).2
  have := length_conj cs h ht (i := i) (fun j => (hN.pos b (by omega) hbn j).1) hn
  rw [e2, hL.2] at this
  rw [cs.wordProd_cons, mul_inv_rev, cs.inv_simple, List.length_cons]
  simp only [mul_assoc] at this ⊢
  rw [this]
  ring

theorem wordLoop_ok : ∀ (f : Nat) {a : Nat} (w0 : List Nat), N ≤ a → a < 2 * N → a - N < f →
    ∃ (v : List (Fin rk)) (j : Fin rk), rs.wordLoop f a w0 = .ok (N + j, w0 ++ v.map Fin.val) ∧ Lowered cs h (R a) v j := by
  intro f
  induction f with
  | zero => intro a w0 _ _ hf; omega
  | succ f ih =>
    intro a w0 han ha hf
    rw [RS.wordLoop, hA.rank, hA.numPos]
    by_cases hc : rk + N ≤ a
    · rw [if_pos hc]
      obtain ⟨i, d, h1, h2, h3⟩ := first_descent hN hA cs h hrk ha han
      obtain ⟨b, b1, b2, b3, b4, b5⟩ := lower_step cs h hN hA hrk ha han h3 (by have := i.2; omega)
      rw [h1, Res.ok_bind]
      dsimp only
      rw [h2, b1, Res.ok_bind]
      obtain ⟨v, j, v1, v2⟩ := ih (w0 ++ [i.1]) b2 (by omega) (by omega)
      refine ⟨i :: v, j, by rw [v1, List.append_assoc]; rfl, lowered_cons cs h hN ha b2 b3 b4 b5 v2⟩
    · rw [if_neg hc]
      refine ⟨[], ⟨a - N, by omega⟩, ?_, ?_⟩
      · rw [List.map_nil, List.append_nil]
        dsimp only
        rw [show N + (a - N) = a by omega]
      · refine ⟨?_, by simp⟩
        rw [(simple_of_root hN ha ⟨a - N, by omega⟩).mpr (by dsimp only; omega)]
        simp

theorem conjLoop_ok : ∀ (f : Nat) {a : Nat} (w0 : List Nat), N ≤ a → a < 2 * N → a - N < f →
    ∃ (v : List (Fin rk)) (j : Fin rk), rs.conjLoop nd f a w0 = .ok (w0 ++ v.map Fin.val, j.1) ∧ Lowered cs h (R a) v j := by
  intro f
  induction f with
  | zero => intro a w0 _ _ hf; omega
  | succ f ih =>
    intro a w0 han ha hf
    obtain ⟨i, d, h1, h2, h3⟩ := first_descent hN hA cs h hrk ha han
    have hp : rs.isPos a = true := (acc_isPos hA a).mpr han
    rw [RS.conjLoop, RS.findDescent, RS.descentSet, if_pos hp, RS.rtAbs, if_pos hp, hA.numPos, h1, Res.ok_bind, Res.ok_bind, h2, hA.simpleNbr i, Res.ok_bind]
    by_cases hc : a = N + i
    · rw [if_neg (by simpa using hc)]
      refine ⟨[], i, by simp, ?_, by simp⟩
      rw [(simple_of_root hN ha i).mpr hc]
      simp
    · rw [if_pos hc]
      obtain ⟨b, b1, b2, b3, b4, b5⟩ := lower_step cs h hN hA hrk ha han h3 hc
      rw [b1, Res.ok_bind]
      obtain ⟨v, j, v1, v2⟩ := ih (w0 ++ [i.1]) b2 (by omega) (by omega)
      refine ⟨i :: v, j, by rw [v1, List.append_assoc]; rfl, lowered_cons cs h hN ha b2 b3 b4 b5 v2⟩

omit [Finite W] [Group W] hrk in
theorem makePos_ok {a : Nat} (ha : a < 2 * N) : N ≤ rs.makePos a ∧ rs.makePos a < 2 * N ∧ R (rs.makePos a) = (if N ≤ a then R a else -R a) ∧
    R' (rs.makePos a) = (if N ≤ a then R' a else -R' a) := by
  rw [RS.makePos, RS.isNeg, hA.numPos, RS.minus, RS.numRoots, hA.numPos]
  by_cases hc : N ≤ a
  · rw [if_neg (by simpa using hc), if_pos hc, if_pos hc]
    exact ⟨hc, ha, rfl, rfl⟩
  · rw [if_pos (by simpa using hc), if_neg hc, if_neg hc]
    exact ⟨by omega, by omega, hN.minus ha⟩

include cs h

/-- `reflection_word` -/
theorem reflectionWord_ok {a : Nat} (ha : a < 2 * N) : ∃ w : List (Fin rk), rs.reflectionWord a = .ok (w.map Fin.val) ∧ w.reverse = w ∧ Spec.Reduced C w ∧
    ∀ x i, Spec.act C w x i = x i - Spec.pair C x (R' a) * R a i := by
  obtain ⟨p1, p2, p3, p4⟩ := makePos_ok hN hA ha
  obtain ⟨v, j, v1, v2, v3⟩ := wordLoop_ok cs h hN hA hrk (N + 1) [] p1 p2 (by omega)
  have hw : cs.wordProd (v ++ [j] ++ v.reverse) = cs.wordProd v * cs.simple j * (cs.wordProd v)⁻¹ := by
    rw [cs.wordProd_append, cs.wordProd_append, cs.wordProd_singleton, cs.wordProd_reverse]
  refine ⟨v ++ [j] ++ v.reverse, ?_, by simp, reduced_of cs _ ?_ h, fun x i => ?_⟩
  · rw [RS.reflectionWord, hA.numPos, v1, Res.ok_bind]
    dsimp only
    rw [Nat.add_sub_cancel_left]
    simp
  · rw [hw, v3]
    simp
    omega
  · obtain ⟨t, ht⟩ := hN.isRoot cs h p2
    have e2 : t = cs.wordProd v * cs.simple j * (cs.wordProd v)⁻¹ := (ht.unique (β2 := geom cs h.dual (cs.wordProd v) (root j)) ⟨cs.wordProd v, j, v2, rfl, rfl⟩).2
    rw [act_eq cs h, hw, ← e2, ht.refl, pair_eq, p3, p4]
    by_cases hc : N ≤ a
    · rw [if_pos hc, if_pos hc]
      rfl
    · rw [if_neg hc, if_neg hc, form_neg_right]
      simp

/-- `conjugate_to_simple` -/
theorem conjugate_ok {a : Nat} (ha : a < 2 * N) : ∃ (w : List (Fin rk)) (j : Fin rk), rs.conjugate nd a = .ok (w.map Fin.val, j.1) ∧
    Spec.Reduced C (w ++ [j] ++ w.reverse) ∧ Spec.act C w.reverse (if N ≤ a then R a else -R a) = Spec.unit j := by
  obtain ⟨p1, p2, p3, p4⟩ := makePos_ok hN hA ha
  obtain ⟨v, j, v1, v2, v3⟩ := conjLoop_ok cs h hN hA hrk (N + 1) [] p1 p2 (by omega)
  have hw : cs.wordProd (v ++ [j] ++ v.reverse) = cs.wordProd v * cs.simple j * (cs.wordProd v)⁻¹ := by
    rw [cs.wordProd_append, cs.wordProd_append, cs.wordProd_singleton, cs.wordProd_reverse]
  refine ⟨v, j, ?_, reduced_of cs _ ?_ h, ?_⟩
  · rw [RS.conjugate, hA.numPos, v1]
    rfl
  · rw [hw, v3]
    simp
    omega
  · rw [← p3, v2, act_eq cs h, cs.wordProd_reverse, geom_inv, unit_eq]

end
end Verif.Root
