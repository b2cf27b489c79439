import Verif.Root.Extend
import Verif.Root.Access2
/-
Roots made negative by a word (`pos_to_neg`), images of sets of roots, and long roots.
-/
namespace Verif.Root
open Verif.Coxeter CoxeterSystem

theorem mapBits_bits {m : Nat} {p : List Nat} {f : Nat → Nat} (hp : ∀ x < m, Vec.get p x = .ok (f x)) (hf : ∀ x < m, f x < m) : ∀ (xs : List Nat) {r : List Bool} {P : Nat → Prop},
    (∀ x ∈ xs, x < m) → Spec.Bits r m P → ∃ r', mapBits p xs r = .ok r' ∧ Spec.Bits r' m fun y => P y ∨ ∃ x ∈ xs, f x = y
  | [], r, P, _, hr => ⟨r, rfl, bits_congr hr fun k _ => by simp⟩
  | x :: xs, r, P, hx, hr => by
    obtain ⟨r1, h1, h2⟩ := bits_put hr (hf x (hx x (by simp))) true
    obtain ⟨r', h3, h4⟩ := mapBits_bits hp hf xs (fun y hy => hx y (by simp [hy])) h2
    refine ⟨r', ?_, bits_congr h4 fun y hy => ?_⟩
    · rw [mapBits, hp x (hx x (by simp)), Res.ok_bind, bitSet, h1, Res.ok_bind, h3]
    · by_cases hyx : y = f x
      · simp [hyx]
      · rw [if_neg hyx]
        constructor
        · rintro (g | ⟨z, g1, g2⟩)
          exacts [.inl g, .inr ⟨z, by simp [g1], g2⟩]
        · rintro (g | ⟨z, g1, g2⟩)
          · exact .inl g
          · rcases List.mem_cons.mp g1 with rfl | g1
            · exact absurd g2.symm hyx
            · exact .inr ⟨z, g1, g2⟩

theorem bits_replicate (m : Nat) : Spec.Bits (List.replicate m false) m fun _ => False := by
  refine ⟨by simp, fun k hk => ?_⟩
  simp [RS.bit, List.getElem?_replicate, hk]

theorem bits_get {b : List Bool} {m : Nat} {P : Nat → Prop} (hb : Spec.Bits b m P) {k : Nat} (hk : k < m) : ∃ x, Vec.get b k = .ok x ∧ (x = true ↔ P k) := by
  have h1 := hb.2 k hk
  have hl : k < b.length := by rw [hb.1]; exact hk
  rw [RS.bit, List.getElem?_eq_getElem hl] at h1
  exact ⟨b[k], Vec.get_ok hl, h1⟩

section
variable {rk : Nat} {M : CoxeterMatrix (Fin rk)} {W : Type} [Group W] (cs : CoxeterSystem M W) {C : Fin rk → Fin rk → ℤ} (h : IsCartan C M)
variable {nd pc : Bool} {N : Nat} {R R' : Nat → Fin rk → ℤ} {rs : RS}
variable (hN : Spec.Numbering C pc N R R') (hA : Spec.Answers nd C pc N R R' rs)

include hA in
/-- `image` -/
theorem imageLoop_ok (w : List (Fin rk)) : ∀ (xs : List Nat) {r : List Bool} {P : Nat → Prop}, (∀ x ∈ xs, x < 2 * N) → Spec.Bits r (2 * N) P →
    ∃ r', rs.imageLoop (w.map Fin.val) xs r = .ok r' ∧ ∃ Q : Nat → Prop, Spec.Bits r' (2 * N) Q ∧ ∀ y < 2 * N, Q y ↔ P y ∨ ∃ x ∈ xs, ∃ m < 2 * N, R m = Spec.act C w (R x) ∧
      rs.permutedLeft (w.map Fin.val) x = .ok m ∧ m = y
  | [], r, P, _, hr => ⟨r, rfl, P, hr, fun y _ => by simp⟩
  | x :: xs, r, P, hx, hr => by
    obtain ⟨m, m1, m2, m3, -⟩ := (permuted_ok hA w (hx x (by simp))).1
    obtain ⟨r1, h1, h2⟩ := bits_put hr m1 true
    obtain ⟨r', h3, Q, h4, h5⟩ := imageLoop_ok w xs (fun y hy => hx y (by simp [hy])) h2
    refine ⟨r', ?_, Q, h4, fun y hy => ?_⟩
    · rw [RS.imageLoop, m2, Res.ok_bind, bitSet, h1, Res.ok_bind, h3]
    · rw [h5 y hy]
      by_cases hym : y = m
      · subst hym
        rw [if_pos rfl]
        exact iff_of_true (.inl rfl) (.inr ⟨x, by simp, y, m1, m3, m2, rfl⟩)
      · rw [if_neg hym]
        constructor
        · rintro (g | ⟨z, g1, g2⟩)
          exacts [.inl g, .inr ⟨z, by simp [g1], g2⟩]
        · rintro (g | ⟨z, g1, k, k1, k2, k3, k4⟩)
          · exact .inl g
          · rcases List.mem_cons.mp g1 with rfl | g1
            · rw [m2] at k3
              injection k3 with k3
              omega
            · exact .inr ⟨z, g1, k, k1, k2, k3, k4⟩

include hN hA in
theorem image_ok (w : List (Fin rk)) {b : List Bool} {P : Nat → Prop} (hb : Spec.Bits b (2 * N) P) :
    ∃ r, rs.image (w.map Fin.val) b = .ok r ∧ Spec.Bits r (2 * N) fun y => ∃ x < 2 * N, P x ∧ R y = Spec.act C w (R x) := by
  have hm : ∀ x ∈ members b, x < 2 * N := fun x hx => ((bits_mem hb x).mp hx).1
  have hr0 := bits_replicate (2 * N)
  rw [← hb.1] at hr0
  obtain ⟨r, h1, Q, h2, h3⟩ := imageLoop_ok hA w (members b) (r := List.replicate b.length false) (P := fun _ => False) hm (by rw [hb.1]; exact bits_replicate _)
  refine ⟨r, h1, bits_congr h2 fun y hy => ?_⟩
  rw [h3 y hy]
  constructor
  · rintro (g | ⟨x, x1, m, m1, m2, m3, rfl⟩)
    · exact g.elim
    · exact ⟨x, hm x x1, ((bits_mem hb x).mp x1).2, m2⟩
  · rintro ⟨x, x1, x2, x3⟩
    obtain ⟨m, m1, m2, m3, -⟩ := (permuted_ok hA w x1).1
    exact .inr ⟨x, (bits_mem hb x).mpr ⟨x1, x2⟩, m, m1, m3, m2, hN.inj m m1 y hy (by rw [m3, x3])⟩

/-! ### pos_to_neg -/

/-- what the permutations of the positive roots do -/
def PosPerm (C : Fin rk → Fin rk → ℤ) (N : Nat) (R : Nat → Fin rk → ℤ) (s : Fin rk) (f : Nat → Nat) : Prop :=
  (∀ j < N, f j < N) ∧ f s = s ∧ ∀ j < N, j ≠ s → R (N + f j) = Spec.reflect C s (R (N + j))

include hN hA cs h

theorem pos_simple (s : Fin rk) {j : Nat} (hj : j < N) (hjs : j ≠ s) : ∃ m, rs.simpleReflected s (N + j) = .ok m ∧ N ≤ m ∧ m < 2 * N ∧ R m = Spec.reflect C s (R (N + j)) := by
  obtain ⟨m, m1, m2, m3, -⟩ := acc_simple hA s (l := N + j) (by omega)
  refine ⟨m, m2, ?_, m1, m3⟩
  obtain ⟨t, ht⟩ := hN.isRoot cs h (k := N + j) (by omega)
  rw [(hN.sign_of cs h m1).1, m3, reflect_eq cs h, geom_simple]
  refine ht.simple_pos (fun i => (hN.pos (N + j) (by omega) (by omega) i).1) fun e => hjs ?_
  have := (simple_of_root hN (a := N + j) (by omega) s).mp e
  omega

theorem posPermRow_ok (s : Fin rk) : ∃ f, PosPerm C N R s f ∧ ∀ xs : List Nat, (∀ x ∈ xs, x < N) → rs.posPermRow nd s xs = .ok (xs.map f) := by
  have hle := hN.simple.1
  have hs := s.2
  have : ∀ j, ∃ y, j < N → y < N ∧ (j = s → y = s) ∧ (j ≠ s → rs.simpleReflected s (N + j) = .ok (N + y) ∧ R (N + y) = Spec.reflect C s (R (N + j))) := by
    intro j
    by_cases hj : j < N
    · by_cases hjs : j = s
      · exact ⟨s, fun _ => ⟨by omega, fun _ => rfl, fun hc => absurd hjs hc⟩⟩
      · obtain ⟨m, m1, m2, m3, m4⟩ := pos_simple cs h hN hA s hj hjs
        refine ⟨m - N, fun _ => ⟨by omega, fun hc => absurd hc hjs, fun _ => ?_⟩⟩
        rw [show N + (m - N) = m by omega]
        exact ⟨m1, m4⟩
    · exact ⟨0, fun hc => absurd hc hj⟩
  choose f hf using this
  refine ⟨f, ⟨fun j hj => (hf j hj).1, (hf s (by omega)).2.1 rfl, fun j hj hjs => ((hf j hj).2.2 hjs).2⟩, ?_⟩
  intro xs
  induction xs with
  | nil => intro _; rfl
  | cons x xs ih =>
    intro hx
    have hxN := hx x (by simp)
    rw [RS.posPermRow, List.map_cons]
    by_cases hxs : x = s
    · rw [if_pos hxs, Res.ok_bind, ih fun y hy => hx y (by simp [hy]), (hf x hxN).2.1 hxs]
      rfl
    · have h3 := ((hf x hxN).2.2 hxs).1
      rw [if_neg hxs, hA.posNbr x hxN, Res.ok_bind, h3, Res.ok_bind, Res.assertIn_bind nd ((acc_isPos hA _).mpr (by omega)), Res.ok_bind, hA.numPos, Nat.add_sub_cancel_left,
        ih fun y hy => hx y (by simp [hy])]
      rfl

theorem posPerms_ok : ∃ F : Fin rk → Nat → Nat, (∀ s, PosPerm C N R s (F s)) ∧ rs.posPerms nd (List.range rk) = .ok (List.ofFn fun s => (List.range N).map (F s)) := by
  choose F hF hF' using posPermRow_ok cs h hN hA
  refine ⟨F, hF, ?_⟩
  have : ∀ l : List (Fin rk), rs.posPerms nd (l.map Fin.val) = .ok (l.map fun s => (List.range N).map (F s)) := by
    intro l
    induction l with
    | nil => rfl
    | cons s l ih =>
      rw [List.map_cons, RS.posPerms, hA.numPos, hF' s _ fun x hx => List.mem_range.mp hx, Res.ok_bind, ih]
      rfl
  have h1 := this (List.finRange rk)
  rw [show (List.finRange rk).map Fin.val = List.range rk by simp] at h1
  rw [h1, List.ofFn_eq_map]

omit hA in
/-- the sets of positive roots made negative by successive words -/
theorem neg_step {s : Fin rk} {f : Nat → Nat} (hf : PosPerm C N R s f) (u : W) {k : Nat} (hk : k < N) :
    (∀ i, geom cs h (u * cs.simple s) (R (N + k)) i ≤ 0) ↔ if k = s then ¬ ∀ i, geom cs h u (R (N + k)) i ≤ 0 else ∃ x < N, (∀ i, geom cs h u (R (N + x)) i ≤ 0) ∧ f x = k := by
  have hle := hN.simple.1
  obtain ⟨f1, f2, f3⟩ := hf
  have hr : ∀ k < N, ∃ t, IsRoot cs h (R (N + k)) (R' (N + k)) t := fun k hk => hN.isRoot cs h (by omega)
  by_cases hks : k = s
  · rw [if_pos hks]
    obtain ⟨t, ht⟩ := hr k hk
    have e : R (N + k) = root s := (simple_of_root hN (by omega) s).mpr (by omega)
    rw [e] at ht ⊢
    rw [geom_mul, geom_simple_root, map_neg]
    have h1 := (ht.act u).sign
    have h2 := (ht.act u).ne_zero
    constructor
    · intro g g'
      apply h2
      funext i
      have := g i
      have := g' i
      simp only [Pi.neg_apply] at *
      simp only [Pi.zero_apply]
      omega
    · intro g
      rcases h1 with h1 | h1
      · intro i
        have := h1.1 i
        simp only [Pi.neg_apply]
        omega
      · exact absurd h1.1 g
  · rw [if_neg hks]
    have hinv : ∀ x < N, x ≠ s → f x ≠ s ∧ R (N + x) = geom cs h (cs.simple s) (R (N + f x)) := by
      intro x hx hxs
      have e := f3 x hx hxs
      rw [reflect_eq cs h] at e
      have e' : R (N + x) = geom cs h (cs.simple s) (R (N + f x)) := by
        rw [e, ← geom_mul, cs.simple_mul_simple_self, map_one]
        rfl
      refine ⟨fun hc => ?_, e'⟩
      rw [hc, (simple_of_root hN (a := N + s) (by have := s.2; omega) s).mpr rfl, geom_simple_root] at e'
      have := hN.lev_pos cs h (k := N + x) (by omega) (by omega)
      rw [e', lev_neg, lev_root] at this
      omega
    obtain ⟨g1, g2⟩ := hinv k hk hks
    rw [geom_mul]
    constructor
    · intro g
      refine ⟨f k, f1 k hk, ?_, ?_⟩
      · rwa [g2, ← geom_mul cs h (cs.simple s), cs.simple_mul_simple_self, map_one] at g
      · obtain ⟨g3, g4⟩ := hinv (f k) (f1 k hk) g1
        have e5 := f3 k hk hks
        have e6 := f3 (f k) (f1 k hk) g1
        rw [reflect_eq cs h] at e5 e6
        have := f1 (f k) (f1 k hk)
        have := hN.inj (N + f (f k)) (by omega) (N + k) (by omega) (by rw [e6, g2])
        omega
    · rintro ⟨x, x1, x2, x3⟩
      have hxs : x ≠ s := fun hc => hks (by rw [← x3, hc, f2])
      have e := (hinv x x1 hxs).2
      rw [x3] at e
      rwa [← e]

theorem negSetLoop_ok {F : Fin rk → Nat → Nat} (hF : ∀ s, PosPerm C N R s (F s)) : ∀ (w : List (Fin rk)) (u : W) (cur : List Bool),
    Spec.Bits cur N (fun k => ∀ i, geom cs h u (R (N + k)) i ≤ 0) → ∃ r, rs.negSetLoop (List.ofFn fun s => (List.range N).map (F s)) (w.map Fin.val) cur = .ok r ∧
      Spec.Bits r N fun k => ∀ i, geom cs h (u * cs.wordProd w) (R (N + k)) i ≤ 0
  | [], u, cur, hc => ⟨cur, rfl, by simpa using hc⟩
  | s :: w, u, cur, hc => by
    have hle := hN.simple.1
    have hs := s.2
    obtain ⟨t, t1, t2⟩ := mapBits_bits (p := (List.range N).map (F s)) (f := F s) (m := N) (fun x hx => row_get _ hx) (hF s).1 (members cur)
      (fun x hx => ((bits_mem hc x).mp hx).1) (bits_replicate N)
    obtain ⟨x, x1, x2⟩ := bits_get t2 (k := s.1) (by omega)
    obtain ⟨c, c1, c2⟩ := bits_put t2 (i := s.1) (by omega) (!x)
    obtain ⟨r, r1, r2⟩ := negSetLoop_ok hF w (u * cs.simple s) c (bits_congr c2 fun k hk => by
      rw [neg_step cs h hN (hF s) u hk]
      by_cases hks : k = s
      · rw [if_pos hks, if_pos hks, Bool.not_eq_true', ← Bool.not_eq_true, x2]
        rw [hks]
        constructor
        · intro g g'
          exact g (.inr ⟨s, (bits_mem hc _).mpr ⟨by omega, g'⟩, (hF s).2.1⟩)
        · rintro g (g' | ⟨y, y1, y2⟩)
          · exact g'
          · have hys : y = s := by
              by_contra hne
              have hyN := ((bits_mem hc _).mp y1).1
              have e := (hF s).2.2 y hyN hne
              rw [y2, (simple_of_root hN (a := N + s) (by omega) s).mpr rfl, reflect_eq cs h] at e
              have e' : R (N + y) = -root s := by
                rw [← geom_simple_root cs h s, e, ← geom_mul, cs.simple_mul_simple_self, map_one]
                rfl
              have := hN.lev_pos cs h (k := N + y) (by omega) (by omega)
              rw [e', lev_neg, lev_root] at this
              omega
            rw [hys] at y1
            exact g ((bits_mem hc _).mp y1).2
      · rw [if_neg hks, if_neg hks]
        constructor
        · rintro (g | ⟨y, y1, y2⟩)
          · exact g.elim
          · exact ⟨y, ((bits_mem hc _).mp y1).1, ((bits_mem hc _).mp y1).2, y2⟩
        · rintro ⟨y, y1, y2, y3⟩
          exact .inr ⟨y, (bits_mem hc _).mpr ⟨y1, y2⟩, y3⟩)
    refine ⟨r, ?_, ?_⟩
    · rw [List.map_cons, RS.negSetLoop, Vec.get_ok (by simp), Res.ok_bind, hA.numPos]
      simp only [List.getElem_ofFn, Fin.eta]
      rw [t1, Res.ok_bind, x1, Res.ok_bind, c1, Res.ok_bind, r1]
    · rwa [cs.wordProd_cons, ← mul_assoc]

/-- `pos_to_neg` -/
theorem posToNeg_ok (w : List (Fin rk)) : ∃ r, rs.posToNeg nd (w.map Fin.val) = .ok r ∧ Spec.Bits r (2 * N) fun k => N ≤ k ∧ ∀ i, Spec.act C w (R k) i ≤ 0 := by
  obtain ⟨F, hF, h1⟩ := posPerms_ok cs h hN hA
  obtain ⟨r, r1, r2⟩ := negSetLoop_ok cs h hN hA hF w 1 (List.replicate N false) (bits_congr (bits_replicate N) fun k hk => by
    rw [map_one]
    refine iff_of_false id fun hc => ?_
    have := hN.lev_pos cs h (k := N + k) (by omega) (by omega)
    have : lev (R (N + k)) ≤ 0 := Finset.sum_nonpos fun i _ => hc i
    omega)
  refine ⟨List.replicate N false ++ r, ?_, ?_⟩
  · rw [RS.posToNeg, hA.rank, h1, Res.ok_bind, hA.numPos, r1, Res.ok_bind]
  · refine ⟨by rw [List.length_append, r2.1, List.length_replicate]; omega, fun k hk => ?_⟩
    rw [one_mul] at r2
    by_cases hkN : N ≤ k
    · have h3 := r2.2 (k - N) (by omega)
      beta_reduce at h3
      rw [show N + (k - N) = k by omega] at h3
      beta_reduce
      rw [RS.bit, List.getElem?_append_right (by simpa using hkN), List.length_replicate, act_eq cs h]
      rw [RS.bit] at h3
      rw [h3]
      exact ⟨fun g => ⟨hkN, g⟩, fun g => g.2⟩
    · rw [RS.bit, List.getElem?_append_left (by simpa using hkN)]
      refine iff_of_false ?_ fun g => hkN g.1
      rw [List.getElem?_replicate, if_pos (by omega)]
      simp

end
end Verif.Root
