import Verif.Root.Iface
/-
All accessors of a root system together.
-/
namespace Verif.Root
open Verif.Coxeter CoxeterSystem

section
variable {rk : Nat} {M : CoxeterMatrix (Fin rk)} {W : Type} [Group W] {cs : CoxeterSystem M W} {C : Fin rk → Fin rk → ℤ} {h : IsCartan C M}
variable {n : Nat} {β β' : Nat → Fin rk → ℤ} {fd fa : Nat → Nat → Bool} {fl : Nat → Nat → Nat} {pc : Bool} {rs : RS}

theorem RData.simple_iff (D : RData cs h n β β' fd fa fl) {k : Nat} (hk : k < 2 * n) : (∃ i : Fin rk, full n β k = Spec.unit i) ↔ n ≤ k ∧ k < n + rk := by
  constructor
  · rintro ⟨i, hi⟩
    rw [unit_eq, D.full_simple hk] at hi
    have := i.2
    omega
  · rintro ⟨h1, h2⟩
    refine ⟨⟨k - n, by omega⟩, ?_⟩
    rw [unit_eq, D.full_simple hk]
    simp only
    omega

theorem Holds.answers [Finite W] (nd : Bool) (H : Holds cs h pc n β β' fd fa fl rs) (hrk : rk ≤ 32) (hn : n < 32768) : Spec.Answers nd C pc n (full n β) (full n β') rs where
  rank := H.rank
  prefers := H.pref
  cartan := H.cmat
  numPos := H.numPos
  numRoots := by rw [RS.numRoots, H.numPos]
  isPos k hk := by rw [RS.isPos, H.numPos, decide_eq_true_iff]; exact (H.data.full_sign hk).1
  isNeg k hk := by rw [RS.isNeg, H.numPos, decide_eq_true_iff]; exact (H.data.full_sign hk).2
  isSimple k hk := by
    rw [H.data.simple_iff hk, RS.isSimple, H.numPos, H.rank, decide_eq_true_iff]
    omega
  minus k hk := by
    rw [H.minus, full_minus β hk]
    exact ⟨by omega, fun _ => rfl⟩
  simpleNbr i := H.simpleNbr i.2
  posNbr k hk := H.posNbr hk
  negNbr k hk := by
    refine ⟨n - 1 - k, by omega, ?_, fun i => ?_⟩
    · rw [RS.negNbr, H.numPos, Res.assertIn_bind nd (decide_eq_true hk)]
    · rw [full_neg β hk, full_pos]
      rfl
  rootCoef k hk := (H.root_all hk).1
  corootCoef k hk := (H.root_all hk).2.2.2.1
  rootExpr k hk := (H.root_all hk).2.1
  corootExpr k hk := (H.root_all hk).2.2.2.2.1
  level k hk := (H.root_all hk).2.2.1
  colevel k hk := (H.root_all hk).2.2.2.2.2
  bracket k hk l hl := H.bracket hk hl
  isOrthogonal k hk l hl := H.isOrthogonal hk hl
  subCartan rb hrb := cartanRows_ok rb rb fun a ha b hb => H.bracket (hrb a ha) (hrb b hb)
  reflected k hk l hl := by
    obtain ⟨m, hm, e, e1, e2⟩ := H.reflected hk hl
    refine ⟨m, hm, e, fun i => ?_, fun i => ?_⟩
    · rw [e1]; rfl
    · rw [e2]; rfl
  simpleReflected s l hl := by
    have hs := lt_of_lt_of_le s.2 H.data.rkn
    obtain ⟨m, hm, e, e1, e2⟩ := H.reflected (k := n + s) (by omega) hl
    obtain ⟨r1, r2⟩ := H.full_root s
    refine ⟨m, hm, (H.simpleReflected s hl).trans e, fun i => ?_, fun i => ?_⟩
    · rw [e1, r1, r2, unit_eq]; rfl
    · rw [e2, r1, r2, unit_eq]; rfl
  descents k hk := by
    obtain ⟨b, e, hb⟩ := (H.descents hk).1
    refine ⟨b, e, bits_congr hb fun j _ => exists_congr fun hj => ?_⟩
    rw [unit_eq]; rfl
  ascents k hk := by
    obtain ⟨b, e, hb⟩ := (H.descents hk).2
    refine ⟨b, e, bits_congr hb fun j _ => exists_congr fun hj => ?_⟩
    rw [unit_eq]; rfl
  isDescent s l hl := by
    have hs := lt_of_lt_of_le s.2 H.data.rkn
    obtain ⟨m, hm, e, e1, e2⟩ := H.reflected (k := n + s) (by omega) hl
    obtain ⟨r1, r2⟩ := H.full_root s
    rw [RS.isDescent, H.simpleReflected s hl, e]
    refine ⟨_, rfl, ?_⟩
    rw [decide_eq_true_iff, (H.reflected_lt (by omega) (by omega) hl hm e1 e2).1, unit_eq, r2]
    rfl
  isAscent s l hl := by
    have hs := lt_of_lt_of_le s.2 H.data.rkn
    obtain ⟨m, hm, e, e1, e2⟩ := H.reflected (k := n + s) (by omega) hl
    obtain ⟨r1, r2⟩ := H.full_root s
    rw [RS.isAscent, H.simpleReflected s hl, e]
    refine ⟨_, rfl, ?_⟩
    rw [decide_eq_true_iff, (H.reflected_lt (by omega) (by omega) hl hm e1 e2).2.1, unit_eq, r2]
    rfl
  sumIsRoot k hk l hl := by
    obtain ⟨b, e, hb⟩ := (H.sum hk hl).1
    refine ⟨b, e, ?_⟩
    rw [hb, H.data.isR_iff]
    exact exists_congr fun m => and_congr_right fun _ => funext_iff
  sumIsCoroot k hk l hl := by
    obtain ⟨b, e, hb⟩ := (H.sum hk hl).2
    refine ⟨b, e, ?_⟩
    rw [hb, H.data.dual.isR_iff]
    exact exists_congr fun m => and_congr_right fun _ => funext_iff
  simpleSet := by
    rw [RS.simpleSet, RS.numRoots, H.numPos, H.rank]
    refine bits_map fun k hk => ?_
    rw [decide_eq_true_iff, H.data.simple_iff hk]
  posSet := by
    rw [RS.posSet, RS.numRoots, H.numPos]
    refine bits_map fun k hk => ?_
    rw [decide_eq_true_iff, ← (H.data.full_sign hk).1]
    omega
  simpleList := by
    rw [RS.simpleList, H.rank, simpleListLoop_ok _ fun i hi => by rw [H.rank]; exact List.mem_range.mp hi, H.numPos]
  walls := by
    have h0 : Spec.Bits (rs.posSet.map (!·)) (2 * n) fun k => k < n := by
      rw [RS.posSet, RS.numRoots, H.numPos, List.map_map]
      refine bits_map fun k hk => ?_
      simp only [Function.comp_apply, Bool.not_eq_true', decide_eq_false_iff_not]
      omega
    obtain ⟨b, e, hb⟩ := H.wallsLoop (nd := nd) (List.range rk) (fun i hi => List.mem_range.mp hi) h0
    have h1 : Spec.Bits rs.simpleSet (2 * n) fun k => n ≤ k ∧ k < n + rk := by
      rw [RS.simpleSet, RS.numRoots, H.numPos, H.rank]
      exact bits_map fun k hk => by rw [decide_eq_true_iff]
    rw [RS.walls, H.rank, e, Res.ok_bind]
    refine ⟨_, rfl, bits_congr (bits_or hb h1) fun k hk => ?_⟩
    beta_reduce
    rw [H.data.simple_iff hk, ← (H.data.full_sign hk).2, or_comm]
    refine or_congr_right (and_congr_right fun _ => ?_)
    constructor
    · intro h2 s hs
      have h3 := h2 s (List.mem_range.mpr s.2)
      rw [H.data.dual.isR_iff, H.data.co_simple] at h3
      apply h3
      obtain ⟨m, hm, e⟩ := hs
      refine ⟨m, hm, funext fun i => ?_⟩
      rw [e, unit_eq]; rfl
    · intro h2 i hi h3
      have hi' := List.mem_range.mp hi
      have hs : β' i = root (⟨i, hi'⟩ : Fin rk) := H.data.co_simple ⟨i, hi'⟩
      rw [H.data.dual.isR_iff, hs] at h3
      obtain ⟨m, hm, e⟩ := h3
      refine h2 ⟨i, hi'⟩ ⟨m, hm, fun j => ?_⟩
      rw [e, unit_eq]; rfl
  highRoots := by
    have hq : ∀ k < rs.numPos, ∃ b, rs.descentSet k = .ok b ∧ (b.all (!·) = true ↔ ∀ s : Fin rk, 0 ≤ form C (full n β (rs.minus k)) (root s)) := by
      intro k hk
      rw [H.numPos] at hk
      obtain ⟨b, e, hb⟩ := (H.descents (k := k) (by omega)).1
      refine ⟨b, e, ?_⟩
      rw [H.minus, full_minus β (by omega : k < 2 * n), List.all_eq_true]
      constructor
      · intro h1 s
        rw [form_neg_left]
        by_contra hc
        have h2 := (hb.2 s.1 (by have := s.2; omega)).mpr ⟨s.2, by simpa using hc⟩
        rw [RS.bit] at h2
        have h3 : s.1 < b.length := by rw [hb.1]; have := s.2; omega
        rw [List.getElem?_eq_getElem h3] at h2
        have := h1 _ (List.getElem_mem h3)
        simp only [Option.getD_some] at h2
        rw [h2] at this
        simp at this
      · intro h1 x hx
        obtain ⟨i, hi, rfl⟩ := List.getElem_of_mem hx
        by_contra hc
        have h2 : RS.bit b i = true := by
          rw [RS.bit, List.getElem?_eq_getElem hi]
          simpa using hc
        obtain ⟨hj, h3⟩ := (hb.2 i (by rw [← hb.1]; exact hi)).mp h2
        have := h1 ⟨i, hj⟩
        rw [form_neg_left] at this
        omega
    obtain ⟨l, e, h1, h2⟩ := Holds.highLoop (rs := rs) (Q := fun x => ∀ s : Fin rk, 0 ≤ form C (full n β x) (root s)) hq rs.numPos 0 (by omega) [] List.Pairwise.nil fun x => by
      have : rs.minus 0 = 2 * rs.numPos - 1 - 0 := rfl
      have : rs.numRoots = 2 * rs.numPos := rfl
      simp only [List.not_mem_nil, false_iff]
      rintro ⟨a1, a2, -⟩
      omega
    refine ⟨l, ?_, h1, fun k => ?_⟩
    · rw [RS.highRoots, List.range_eq_range', e]
    · rw [h2, RS.numRoots, H.numPos]
      constructor
      · rintro ⟨a1, a2, a3⟩
        refine ⟨a2, (H.data.full_sign a2).1.mp a1, fun s => ?_⟩
        rw [unit_eq]
        exact a3 s
      · rintro ⟨a1, a2, a3⟩
        refine ⟨(H.data.full_sign a1).1.mpr a2, a1, fun s => ?_⟩
        have := a3 s
        rwa [unit_eq] at this

end
end Verif.Root
