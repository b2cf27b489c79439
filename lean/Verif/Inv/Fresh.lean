import Verif.Inv.Math
import Verif.Tits.CosetProps
/-
Construction of the data of an involution from its matrix.
-/
namespace Verif.Inv
open Verif Verif.Root Verif.Mat Verif.Datum Verif.Weyl Verif.Coxeter CoxeterSystem
open scoped Matrix

variable {n r : Nat}

/-! ### bits -/

theorem bit_set {b : List Bool} {a k : Nat} (ha : a < b.length) : RS.bit (b.set a true) k = true ↔ k = a ∨ RS.bit b k = true := by
  unfold RS.bit
  rw [List.getElem?_set]
  by_cases h : a = k
  · subst h; simp [ha]
  · rw [if_neg h]
    exact ⟨.inr, fun o => o.resolve_left fun e => h e.symm⟩

theorem cls_aux {perm : List Nat} {P : Nat → Nat → Prop} {l : List Nat} {k a b : Nat} (hb : perm[a]? = some b) :
    (k ∈ a :: l ∧ ∃ c, perm[k]? = some c ∧ P k c) ↔ (k = a ∧ P a b) ∨ (k ∈ l ∧ ∃ c, perm[k]? = some c ∧ P k c) := by
  rw [List.mem_cons, or_and_right]
  refine or_congr ⟨?_, ?_⟩ Iff.rfl
  · rintro ⟨rfl, c, h1, h2⟩
    rw [hb] at h1
    cases h1
    exact ⟨rfl, h2⟩
  · rintro ⟨rfl, h⟩
    exact ⟨rfl, b, hb, h⟩

theorem classifyLoop_ok (rs : RS) (perm : List Nat) (m : Nat) : ∀ (l : List Nat) (im re cx : List Bool), im.length = m → re.length = m → cx.length = m →
    (∀ a ∈ l, a < m ∧ ∃ b, perm[a]? = some b) → ∃ im' re' cx', classifyLoop rs perm l (im, re, cx) = .ok (im', re', cx') ∧
      im'.length = m ∧ re'.length = m ∧ cx'.length = m ∧
      (∀ k, RS.bit im' k = true ↔ RS.bit im k = true ∨ (k ∈ l ∧ ∃ b, perm[k]? = some b ∧ b = k)) ∧
      (∀ k, RS.bit re' k = true ↔ RS.bit re k = true ∨ (k ∈ l ∧ ∃ b, perm[k]? = some b ∧ b ≠ k ∧ b = rs.minus k)) ∧
      (∀ k, RS.bit cx' k = true ↔ RS.bit cx k = true ∨ (k ∈ l ∧ ∃ b, perm[k]? = some b ∧ b ≠ k ∧ b ≠ rs.minus k)) := by
  intro l
  induction l with
  | nil => intro im re cx h1 h2 h3 _; exact ⟨im, re, cx, rfl, h1, h2, h3, by simp, by simp, by simp⟩
  | cons a l ih =>
    intro im re cx h1 h2 h3 h
    obtain ⟨ha, b, hb⟩ := h a (by simp)
    rw [classifyLoop, Perm.Vec.get_of hb, Res.ok_bind]
    have hl : ∀ a ∈ l, a < m ∧ ∃ b, perm[a]? = some b := fun x hx => h x (by simp [hx])
    by_cases e1 : b = a
    · rw [if_pos e1, Vec.put_ok (by omega), Res.ok_bind]
      obtain ⟨im', re', cx', g0, g1, g2, g3, g4, g5, g6⟩ := ih (im.set a true) re cx (by simpa using h1) h2 h3 hl
      refine ⟨im', re', cx', g0, g1, g2, g3, fun k => ?_, fun k => ?_, fun k => ?_⟩
      · rw [g4, bit_set (by omega), cls_aux (P := fun k c => c = k) hb]; tauto
      · rw [g5, cls_aux (P := fun k c => c ≠ k ∧ c = rs.minus k) hb]; tauto
      · rw [g6, cls_aux (P := fun k c => c ≠ k ∧ c ≠ rs.minus k) hb]; tauto
    · rw [if_neg e1]
      by_cases e2 : b = rs.minus a
      · rw [if_pos e2, Vec.put_ok (by omega), Res.ok_bind]
        obtain ⟨im', re', cx', g0, g1, g2, g3, g4, g5, g6⟩ := ih im (re.set a true) cx h1 (by simpa using h2) h3 hl
        refine ⟨im', re', cx', g0, g1, g2, g3, fun k => ?_, fun k => ?_, fun k => ?_⟩
        · rw [g4, cls_aux (P := fun k c => c = k) hb]; tauto
        · rw [g5, bit_set (by omega), cls_aux (P := fun k c => c ≠ k ∧ c = rs.minus k) hb]; tauto
        · rw [g6, cls_aux (P := fun k c => c ≠ k ∧ c ≠ rs.minus k) hb]; tauto
      · rw [if_neg e2, Vec.put_ok (by omega), Res.ok_bind]
        obtain ⟨im', re', cx', g0, g1, g2, g3, g4, g5, g6⟩ := ih im re (cx.set a true) h1 h2 (by simpa using h3) hl
        refine ⟨im', re', cx', g0, g1, g2, g3, fun k => ?_, fun k => ?_, fun k => ?_⟩
        · rw [g4, cls_aux (P := fun k c => c = k) hb]; tauto
        · rw [g5, cls_aux (P := fun k c => c ≠ k ∧ c = rs.minus k) hb]; tauto
        · rw [g6, bit_set (by omega), cls_aux (P := fun k c => c ≠ k ∧ c ≠ rs.minus k) hb]; tauto

/-- the part of `IsRec` about roots -/
structure IsData (α : Fin n → Fin r → ℤ) (N : Nat) (R : Nat → Fin n → ℤ) (Θ : Matrix (Fin r) (Fin r) ℤ) (d : Data) : Prop where
  perm_length : d.perm.length = 2 * N
  perm : ∀ k < 2 * N, ∃ m < 2 * N, d.perm[k]? = some m ∧ Θ *ᵥ lin α (R k) = lin α (R m)
  im : Spec.Bits d.im (2 * N) fun k => Θ *ᵥ lin α (R k) = lin α (R k)
  re : Spec.Bits d.re (2 * N) fun k => Θ *ᵥ lin α (R k) = -lin α (R k)
  cx : Spec.Bits d.cx (2 * N) fun k => Θ *ᵥ lin α (R k) ≠ lin α (R k) ∧ Θ *ᵥ lin α (R k) ≠ -lin α (R k)
  simpleIm : d.simpleIm.Nodup ∧ ∀ k, k ∈ d.simpleIm ↔ Spec.IsSimpleIn N R (fun k => k < 2 * N ∧ Θ *ᵥ lin α (R k) = lin α (R k)) k
  simpleRe : d.simpleRe.Nodup ∧ ∀ k, k ∈ d.simpleRe ↔ Spec.IsSimpleIn N R (fun k => k < 2 * N ∧ Θ *ᵥ lin α (R k) = -lin α (R k)) k

variable {nd : Bool} {α αv : Fin n → Fin r → ℤ} {comps : List Comp} {pc : Bool} {rd : RD} {N : Nat} {R R' : Nat → Fin n → ℤ}

section
variable (hs : Datum.System nd α αv comps pc rd N R R')
include hs

theorem fix_sub (Θ : Matrix (Fin r) (Fin r) ℤ) (c : ℤ) : Spec.Subsystem (cart α αv) N R R' fun k => k < 2 * N ∧ Θ *ᵥ lin α (R k) = c • lin α (R k) where
  lt := fun k hk => hk.1
  closed := fun a b ha hb => by
    obtain ⟨m, hm, -, h1, -⟩ := hs.base.answers.reflected a ha.1 b hb.1
    refine ⟨m, ⟨hm, ?_⟩, h1⟩
    have e : R m = R b - Spec.pair (cart α αv) (R b) (R' a) • R a := by funext i; simp [h1]
    rw [e, Datum.lin_sub, Datum.lin_smul, Matrix.mulVec_sub, Matrix.mulVec_smul, ha.2, hb.2, smul_sub, smul_comm]

theorem Data.make_ok {Θ : Matrix (Fin r) (Fin r) ℤ} (h1 : ∀ k < 2 * N, ∃ m < 2 * N, Θ *ᵥ lin α (R k) = lin α (R m))
    (h2 : ∀ k < 2 * N, ∀ l < 2 * N, Θ *ᵥ lin α (R k) = Θ *ᵥ lin α (R l) → k = l) : ∃ d, Data.make nd rd (enc Θ) = .ok d ∧ IsData α N R Θ d := by
  obtain ⟨p, hp, hpl, hpp⟩ := (C69_datum hs).rootPermutation Θ h1 h2
  have hm := hs.base.answers.minus
  have hlen : rd.rs.numRoots = 2 * N := hs.base.answers.numRoots
  obtain ⟨im, re, cx, g0, g1, g2, g3, g4, g5, g6⟩ := classifyLoop_ok rd.rs p (2 * N) (List.range (2 * N)) (List.replicate (2 * N) false)
    (List.replicate (2 * N) false) (List.replicate (2 * N) false) (by simp) (by simp) (by simp) (fun a ha => by
      have ha := List.mem_range.1 ha
      obtain ⟨m, _, hm, _⟩ := hpp a ha
      exact ⟨ha, m, hm⟩)
  have hrep : ∀ k, RS.bit (List.replicate (2 * N) false) k = false := fun k => by
    unfold RS.bit
    rw [List.getElem?_replicate]
    split <;> rfl
  simp only [hrep, Bool.false_eq_true, false_or, List.mem_range] at g4 g5 g6
  have hinj : ∀ k < 2 * N, ∀ l < 2 * N, lin α (R k) = lin α (R l) → k = l := fun k hk l hl h => all_inj hs.base hk hl (.inl h)
  have hmin : ∀ k < 2 * N, lin α (R (rd.rs.minus k)) = -lin α (R k) := fun k hk => by
    rw [← Datum.lin_neg]; congr 1; funext i; exact (hm k hk).2 i
  have hne : ∀ k < 2 * N, rd.rs.minus k ≠ k := fun k hk e => by
    have h3 := (hm k hk).2
    rw [e] at h3
    have : R k = 0 := by funext i; have := h3 i; simp; omega
    have hf := hs.cartan.finite
    obtain ⟨t, ht⟩ := hs.base.numbering.isRoot (Weyl.coxMatrix (cart α αv)).toCoxeterSystem hs.cartan.isCartan hk
    exact ht.ne_zero this
  have b1 : Spec.Bits im (2 * N) fun k => Θ *ᵥ lin α (R k) = lin α (R k) := by
    refine ⟨g1, fun k hk => ?_⟩
    obtain ⟨m, hm', e1, e2⟩ := hpp k hk
    simp only []
    rw [g4, e1, e2]
    constructor
    · rintro ⟨_, b, e, e3⟩; rw [Option.some.inj e, e3]
    · intro e; exact ⟨hk, m, rfl, hinj m hm' k hk e⟩
  have b2 : Spec.Bits re (2 * N) fun k => Θ *ᵥ lin α (R k) = -lin α (R k) := by
    refine ⟨g2, fun k hk => ?_⟩
    obtain ⟨m, hm', e1, e2⟩ := hpp k hk
    simp only []
    rw [g5, e1, e2]
    constructor
    · rintro ⟨_, b, e, _, e3⟩; rw [Option.some.inj e, e3, hmin k hk]
    · intro e
      have : m = rd.rs.minus k := hinj m hm' _ (hm k hk).1 (by rw [e, hmin k hk])
      exact ⟨hk, m, rfl, fun e' => hne k hk (by rw [← this, e']), this⟩
  have b3 : Spec.Bits cx (2 * N) fun k => Θ *ᵥ lin α (R k) ≠ lin α (R k) ∧ Θ *ᵥ lin α (R k) ≠ -lin α (R k) := by
    refine ⟨g3, fun k hk => ?_⟩
    obtain ⟨m, hm', e1, e2⟩ := hpp k hk
    simp only []
    rw [g6, e1, e2]
    constructor
    · rintro ⟨_, b, e, e3, e4⟩
      cases Option.some.inj e
      exact ⟨fun e => e3 (hinj _ hm' _ hk e), fun e => e4 (hinj _ hm' _ (hm k hk).1 (by rw [e, hmin k hk]))⟩
    · rintro ⟨e3, e4⟩
      exact ⟨hk, m, rfl, fun e => e3 (by rw [e]), fun e => e4 (by rw [e, hmin k hk])⟩
  have f1 := fix_sub hs Θ 1
  have f2 := fix_sub hs Θ (-1)
  simp only [one_smul, neg_smul] at f1 f2
  obtain ⟨l1, k1, k2, k3⟩ := C49_simpleBasis hs.base f1 b1 (fun k _ hk => by simp [hk])
  obtain ⟨l2, k4, k5, k6⟩ := C49_simpleBasis hs.base f2 b2 (fun k _ hk => by simp [hk])
  refine ⟨⟨p, im, re, cx, l1, l2⟩, ?_, hpl, hpp, b1, b2, b3, ⟨k2.imp fun h => Nat.ne_of_lt h, k3⟩, ⟨k5.imp fun h => Nat.ne_of_lt h, k6⟩⟩
  rw [Data.make, hp, Res.ok_bind, hlen]
  simp only [g0, Res.ok_bind, k1, k4]

end

/-! ### matrices -/

theorem imageMats_ok (nd : Bool) (hr : r ≤ 32) (Θ : Matrix (Fin r) (Fin r) ℤ) : ∃ (k : Nat) (L : Matrix (Fin r) (Fin k) ℤ) (M : Matrix (Fin k) (Fin r) ℤ), k ≤ r ∧
    Tab.imageMats nd (enc Θ) = .ok (enc M, enc L) ∧ L * M = 1 - Θ ∧ Function.Injective (L *ᵥ ·) ∧ Function.Surjective (M *ᵥ ·) := by
  obtain ⟨k, piv, E, C, flip, h1, hE, hdet, hk, hAC⟩ := C36_columnEchelon nd (by omega : r < 2 ^ 64) (-Θ + (1 : ℤ) • 1)
  obtain ⟨D, h2, h3, h4⟩ := C36_inverseExact nd (by omega : r < 2 ^ 64) C (by rw [hdet]; exact sgn_unit _)
  have hb := C45_block nd D (i0 := 0) (j0 := 0) (i1 := k) (j1 := r) (Nat.zero_le _) hk (Nat.zero_le _) le_rfl
  refine ⟨k, E, Matrix.of fun i j => D (i.castLE hk) j, hk, ?_, ?_, ?_, ?_⟩
  · unfold Tab.imageMats
    rw [C45_negate, Res.ok_bind, C45_addScalar, Res.ok_bind, h1, Res.ok_bind]
    show (do let X ← inverseExact nd (enc C); let M ← block nd X 0 0 (enc E).cols (enc E).rows; Res.ok (M, enc E)) = _
    rw [h2, Res.ok_bind, show (enc E).cols = k from rfl, show (enc E).rows = r from rfl, hb, Res.ok_bind]
    have e : (Matrix.of fun (i : Fin (k - 0)) (j : Fin (r - 0)) => D ⟨0 + i, by omega⟩ ⟨0 + j, by omega⟩) = Matrix.of fun (i : Fin k) (j : Fin r) => D (i.castLE hk) j := by
      ext i j
      show D _ _ = D _ _
      congr 1 <;> exact Fin.ext (by simp)
    exact congrArg (fun (Z : Matrix (Fin k) (Fin r) ℤ) => Res.ok (enc Z, enc E)) e
  · have : E * (Matrix.of fun (i : Fin k) j => D (i.castLE hk) j) = (-Θ + (1 : ℤ) • 1) * C * D := by
      ext i j
      rw [Matrix.mul_apply, Matrix.mul_apply, ← Finset.sum_subset (Finset.subset_univ (Finset.univ.map (Fin.castLEEmb hk))), Finset.sum_map]
      · refine Finset.sum_congr rfl fun t _ => ?_
        rw [hAC, dif_pos (show (Fin.castLEEmb hk t).val < k from t.2)]; rfl
      · intro t _ ht
        rw [hAC, dif_neg, zero_mul]
        intro h
        exact ht (Finset.mem_map.2 ⟨⟨t.val, h⟩, Finset.mem_univ _, Fin.ext rfl⟩)
    rw [this, mul_assoc, h3, mul_one, one_smul]; abel
  · intro y z hyz
    have : E *ᵥ (y - z) = 0 := by rw [Matrix.mulVec_sub, sub_eq_zero]; exact hyz
    funext t
    have := hE.zero_of_rows (i := 0) (fun r _ => by rw [this]; rfl) t (Nat.zero_le _)
    rwa [Pi.sub_apply, sub_eq_zero] at this
  · intro y
    refine ⟨C *ᵥ fun j => if h : j.val < k then y ⟨j.val, h⟩ else 0, ?_⟩
    funext i
    have : (D *ᵥ (C *ᵥ fun j => if h : j.val < k then y ⟨j.val, h⟩ else 0)) (i.castLE hk) = y i := by
      rw [Matrix.mulVec_mulVec, h4, Matrix.one_mulVec, dif_pos (show (i.castLE hk).val < k from i.2)]; rfl
    exact this

theorem fiberDenom_ok (nd : Bool) (hr : r ≤ 32) (Θ : Matrix (Fin r) (Fin r) ℤ) : ∃ V, Tits.fiberDenom nd (enc Θ) = .ok V ∧ IsNegSpace Θ V := by
  have hv : ∀ v : Fin r → ℤ, v ᵥ* Θ = Tits.inv (1 : (Multiplicative (ZMod 1)) →* Module.End ℤ (Fin r → ℤ)) Θ 1 v := fun v => by
    funext i
    show ∑ j, v j * Θ j i = ∑ j, Θ j i * v j
    exact Finset.sum_congr rfl fun j _ => mul_comm _ _
  obtain ⟨V, h1, U, h2, h3⟩ := Tits.C67_fiberDenom nd hr Θ hv
  exact ⟨V, h1, U, h2, fun u => by rw [h3]; simp only [hv]⟩

/-! ### action of a Weyl group element on a matrix -/

theorem unwind_nat {α β : Type} (nd : Bool) (T : Transducer) (e : α → β) (f : α → Nat → Res α) (g : β → Nat → Res β) (h : ∀ a s b, f a s = .ok b → g (e a) s = .ok (e b)) :
    ∀ (k x : Nat) (a b : α), T.unwind nd f k x a = .ok b → T.unwind nd g k x (e a) = .ok (e b) := by
  intro k
  induction k with
  | zero => intro x a b hh; cases hh
  | succ k ih =>
    intro x a b hh
    rw [Transducer.unwind] at hh ⊢
    by_cases hx : x > 0
    · rw [if_pos hx] at hh ⊢
      cases hu : T.unshift nd x with
      | ok p =>
        rw [hu, Res.ok_bind] at hh
        rw [Res.ok_bind]
        simp only [] at hh ⊢
        cases hf : f a p.1 with
        | ok c =>
          rw [hf, Res.ok_bind] at hh
          rw [h _ _ _ hf, Res.ok_bind]
          exact ih _ _ _ hh
        | _ => rw [hf] at hh; cases hh
      | _ => rw [hu] at hh; cases hh
    · rw [if_neg hx] at hh ⊢
      cases hh; rfl

theorem actLoop_nat {α β : Type} (nd : Bool) (W : WG) (e : α → β) (f : Nat → α → Res α) (g : Nat → β → Res β) (h : ∀ a s b, f s a = .ok b → g s (e a) = .ok (e b)) (w : List Nat) :
    ∀ (l : List Nat) (a b : α), W.actLoop nd f w l a = .ok b → W.actLoop nd g w l (e a) = .ok (e b) := by
  intro l
  induction l with
  | nil => intro a b hh; cases hh; rfl
  | cons i l ih =>
    intro a b hh
    rw [WG.actLoop] at hh ⊢
    cases h1 : Vec.get w i with
    | ok x =>
      rw [h1, Res.ok_bind] at hh
      rw [Res.ok_bind]
      cases h2 : Vec.get W.tr i with
      | ok tr =>
        rw [h2, Res.ok_bind] at hh
        rw [Res.ok_bind]
        cases h3 : tr.T.unwind nd (fun a s => do f (← Vec.get W.dout (s + tr.offset)) a) 256 x a with
        | ok c =>
          rw [h3, Res.ok_bind] at hh
          rw [unwind_nat nd tr.T e _ _ _ _ _ _ _ h3, Res.ok_bind]
          · exact ih _ _ hh
          · intro a s b hf
            cases h4 : Vec.get W.dout (s + tr.offset) with
            | ok y =>
              rw [h4, Res.ok_bind] at hf
              rw [Res.ok_bind]
              exact h _ _ _ hf
            | _ => rw [h4] at hf; cases hf
        | _ => rw [h3] at hh; cases hh
      | _ => rw [h2] at hh; cases hh
    | _ => rw [h1] at hh; cases hh

end Verif.Inv
