import Verif.F2.Matrix
import Verif.Graph.Tab
/-
C33: `section` computes a generalised inverse.
-/
namespace Verif.F2
open Verif

/-- the linear map of a matrix, bundled -/
def actL (A : BM) (c : Nat) : (Nat → ZMod 2) →ₗ[ZMod 2] (Nat → ZMod 2) where
  toFun := act A c
  map_add' x y := by
    funext i
    change ∑ j ∈ Finset.range c, entry A i j * (x j + y j) = (∑ j ∈ Finset.range c, entry A i j * x j) + ∑ j ∈ Finset.range c, entry A i j * y j
    rw [← Finset.sum_add_distrib]
    exact Finset.sum_congr rfl fun j _ => mul_add _ _ _
  map_smul' a x := by
    funext i
    change ∑ j ∈ Finset.range c, entry A i j * (a * x j) = a * ∑ j ∈ Finset.range c, entry A i j * x j
    rw [Finset.mul_sum]
    exact Finset.sum_congr rfl fun j _ => by ring

theorem actL_apply (A : BM) (c : Nat) (x : Nat → ZMod 2) : actL A c x = act A c x := rfl

theorem act_eq_sum (A : BM) (c : Nat) (x : Nat → ZMod 2) : act A c x = ∑ j ∈ Finset.range c, x j • vec (A.cols.getD j 0) := by
  funext i
  rw [Finset.sum_apply]
  exact Finset.sum_congr rfl fun j _ => by rw [Pi.smul_apply, smul_eq_mul, mul_comm]; rfl

/-! ### Column operations -/

/-- bit `r` cleared in the columns selected by `J` -/
def clC (r ck : Nat) (J : Nat → Bool) (C : Nat → Nat) (j : Nat) : Nat := if J j && (C j).testBit r then C j ^^^ ck else C j
/-- the same operations on the basis -/
def clB (r bk : Nat) (J : Nat → Bool) (C B : Nat → Nat) (j : Nat) : Nat := if J j && (C j).testBit r then B j ^^^ bk else B j

theorem secAdd_spec {dim c r ck bk j : Nat} (hr : r < dim) (hj : j < c) (hck : ck.testBit r = true) (J : Nat → Bool) (C B : Nat → Nat) (P : Nat)
    (Q : List (Option Nat)) : secAdd dim r ck bk j ⟨tab c (clB r bk J C B), tab c (clC r ck J C), P, Q⟩ =
      .ok ⟨tab c (clB r bk (fun i => J i || decide (i = j)) C B), tab c (clC r ck (fun i => J i || decide (i = j)) C), P, Q⟩ := by
  unfold secAdd
  simp only
  rw [tab_get hj, Res.ok_bind, bsTest_ok hr, Res.ok_bind]
  have hother : ∀ i, i ≠ j → clC r ck (fun i => J i || decide (i = j)) C i = clC r ck J C i ∧
      clB r bk (fun i => J i || decide (i = j)) C B i = clB r bk J C B i := by
    intro i hi
    unfold clC clB; simp [hi]
  by_cases hb : (C j).testBit r = true
  · by_cases hJ : J j = true
    · have hcl : (clC r ck J C j).testBit r = false := by
        unfold clC; simp [hJ, hb, hck]
      rw [hcl, if_neg (by simp), Res.pure_eq]
      congr 2
      · apply tab_congr
        intro i _
        unfold clB
        by_cases hi : i = j <;> simp [hi, hJ]
      · apply tab_congr
        intro i _
        unfold clC
        by_cases hi : i = j <;> simp [hi, hJ]
    · have hc : clC r ck J C j = C j := by unfold clC; simp [hJ]
      have hB : clB r bk J C B j = B j := by unfold clB; simp [hJ]
      rw [hc, if_pos hb, tab_put hj, Res.ok_bind, tab_get hj, Res.ok_bind, tab_put hj, Res.ok_bind, Res.pure_eq, hB]
      congr 2
      · apply tab_congr
        intro i _
        by_cases hi : i = j
        · subst hi; rw [Function.update_self]; unfold clB; simp [hb]
        · rw [Function.update_of_ne hi, (hother i hi).2]
      · apply tab_congr
        intro i _
        by_cases hi : i = j
        · subst hi; rw [Function.update_self]; unfold clC; simp [hb]
        · rw [Function.update_of_ne hi, (hother i hi).1]
  · have hc : clC r ck J C j = C j := by unfold clC; simp [hb]
    rw [hc, if_neg hb, Res.pure_eq]
    congr 2
    · apply tab_congr
      intro i _
      by_cases hi : i = j
      · subst hi; unfold clB; simp [hb]
      · rw [(hother i hi).2]
    · apply tab_congr
      intro i _
      by_cases hi : i = j
      · subst hi; unfold clC; simp [hb]
      · rw [(hother i hi).1]

theorem secBack_spec {dim c r ck bk : Nat} (hr : r < dim) (hck : ck.testBit r = true) (C B : Nat → Nat) (P : Nat) (Q : Nat → Option Nat)
    : ∀ (l : List Nat), l.Pairwise (· < ·) → (∀ p ∈ l, p < r → ∃ j < c, Q p = some j) → ∀ J, ∃ J',
      secBack dim r ck bk l ⟨tab c (clB r bk J C B), tab c (clC r ck J C), P, tab dim Q⟩ =
        .ok ⟨tab c (clB r bk J' C B), tab c (clC r ck J' C), P, tab dim Q⟩ ∧
      (∀ i, J' i = true ↔ J i = true ∨ ∃ p ∈ l, p < r ∧ Q p = some i) := by
  intro l
  induction l with
  | nil => intro _ _ J; exact ⟨J, rfl, by simp⟩
  | cons p l ih =>
    intro hs hl J
    have hsc := List.pairwise_cons.1 hs
    unfold secBack
    by_cases hp : p < r
    · rw [if_pos hp]
      obtain ⟨j, hj, hQ⟩ := hl p List.mem_cons_self hp
      simp only
      rw [tab_get?, if_pos (by omega), hQ]
      simp only
      rw [secAdd_spec hr hj hck, Res.ok_bind]
      obtain ⟨J', h1, h2⟩ := ih hsc.2 (fun q hq => hl q (List.mem_cons_of_mem _ hq)) (fun i => J i || decide (i = j))
      refine ⟨J', h1, fun i => ?_⟩
      rw [h2]
      simp only [Bool.or_eq_true, decide_eq_true_eq, List.mem_cons]
      constructor
      · rintro ((h | rfl) | ⟨q, hq, h⟩)
        · exact Or.inl h
        · exact Or.inr ⟨p, Or.inl rfl, hp, hQ⟩
        · exact Or.inr ⟨q, Or.inr hq, h⟩
      · rintro (h | ⟨q, rfl | hq, h1, h2⟩)
        · exact Or.inl (Or.inl h)
        · rw [hQ] at h2; exact Or.inl (Or.inr (Option.some.inj h2).symm)
        · exact Or.inr ⟨q, hq, h1, h2⟩
    · rw [if_neg hp]
      refine ⟨J, rfl, fun i => ⟨Or.inl, ?_⟩⟩
      rintro (h | ⟨q, hq, h1, h2⟩)
      · exact h
      · rcases List.mem_cons.1 hq with rfl | hq
        · exact absurd h1 hp
        · have := hsc.1 q hq; omega

theorem secForw_spec {dim c r ck bk : Nat} (hr : r < dim) (hck : ck.testBit r = true) (C B : Nat → Nat) (P : Nat) (Q : List (Option Nat))
    : ∀ m j, j + m = c → ∀ J, ∃ J', secForw dim r ck bk m j ⟨tab c (clB r bk J C B), tab c (clC r ck J C), P, Q⟩ =
        .ok ⟨tab c (clB r bk J' C B), tab c (clC r ck J' C), P, Q⟩ ∧ (∀ i, J' i = true ↔ J i = true ∨ j ≤ i ∧ i < c) := by
  intro m
  induction m with
  | zero => intro j hj J; exact ⟨J, rfl, fun i => ⟨Or.inl, fun h => h.elim id fun h => by omega⟩⟩
  | succ m ih =>
    intro j hj J
    rw [secForw, secAdd_spec hr (by omega) hck, Res.ok_bind]
    obtain ⟨J', h1, h2⟩ := ih (j + 1) (by omega) (fun i => J i || decide (i = j))
    refine ⟨J', h1, fun i => ?_⟩
    rw [h2]
    simp only [Bool.or_eq_true, decide_eq_true_eq]
    constructor
    · rintro ((h | rfl) | h)
      · exact Or.inl h
      · exact Or.inr (by omega)
      · exact Or.inr (by omega)
    · rintro (h | h)
      · exact Or.inl (Or.inl h)
      · by_cases e : i = j
        · exact Or.inl (Or.inr e)
        · exact Or.inr (by omega)

/-! ### The invariant -/

/-- the invariant before treating column `k` -/
structure SInv (r c : Nat) (A : BM) (k : Nat) (C B : Nat → Nat) (P : Nat) (Q : Nat → Option Nat) : Prop where
  clt : ∀ j < c, C j < 2 ^ r
  blt : ∀ j < c, B j < 2 ^ c
  rel : ∀ j < c, vec (C j) = act A c (vec (B j))
  gen : ∀ j < c, vec (A.cols.getD j 0) ∈ Submodule.span (ZMod 2) {u | ∃ i < c, vec (C i) = u}
  piv : ∀ p, P.testBit p = true → ∃ j < k, Q p = some j ∧ Lead (C j) p
  cov : ∀ j < k, C j = 0 ∨ ∃ p, P.testBit p = true ∧ Q p = some j
  clr : ∀ p, P.testBit p = true → ∀ j < c, Q p ≠ some j → (C j).testBit p = false

theorem SInv.step {r c : Nat} {A : BM} {k : Nat} {C B : Nat → Nat} {P : Nat} {Q : Nat → Option Nat} (h : SInv r c A k C B P Q) (hk : k < c)
    {p : Nat} (hp : Lead (C k) p) : SInv r c A (k + 1) (clC p (C k) (fun j => decide (j ≠ k)) C) (clB p (B k) (fun j => decide (j ≠ k)) C B)
      (putBit P p true) (Function.update Q p (some k)) := by
  have hPp : P.testBit p = false := by
    by_contra hc
    obtain ⟨j, hj, hQ, _⟩ := h.piv p (by simpa using hc)
    have := h.clr p (by simpa using hc) k hk (by rw [hQ]; simp; omega)
    rw [hp.1] at this; cases this
  have hCk : clC p (C k) (fun j => decide (j ≠ k)) C k = C k := by unfold clC; simp
  refine ⟨?_, ?_, ?_, ?_, ?_, ?_, ?_⟩
  · intro j hj
    unfold clC
    split
    · exact xor_lt (h.clt j hj) (h.clt k hk)
    · exact h.clt j hj
  · intro j hj
    unfold clB
    split
    · exact xor_lt (h.blt j hj) (h.blt k hk)
    · exact h.blt j hj
  · intro j hj
    unfold clC clB
    by_cases hc : (decide (j ≠ k) && (C j).testBit p) = true
    · rw [if_pos hc, if_pos hc, vec_xor, vec_xor, h.rel j hj, h.rel k hk]
      exact ((actL A c).map_add _ _).symm
    · rw [if_neg hc, if_neg hc]; exact h.rel j hj
  · intro j hj
    refine (Submodule.span_le.2 ?_) (h.gen j hj)
    rintro u ⟨i, hi, rfl⟩
    have hkm : vec (C k) ∈ Submodule.span (ZMod 2) {u | ∃ i < c, vec (clC p (C k) (fun j => decide (j ≠ k)) C i) = u} :=
      Submodule.subset_span ⟨k, hk, by rw [hCk]⟩
    have him : vec (clC p (C k) (fun j => decide (j ≠ k)) C i) ∈
        Submodule.span (ZMod 2) {u | ∃ i < c, vec (clC p (C k) (fun j => decide (j ≠ k)) C i) = u} := Submodule.subset_span ⟨i, hi, rfl⟩
    unfold clC at him
    split at him
    · have := Submodule.add_mem _ him hkm
      rw [vec_xor, add_assoc, add_self, add_zero] at this
      exact this
    · exact him
  · intro q hq
    rw [testBit_putBit] at hq
    by_cases hqp : q = p
    · subst hqp
      exact ⟨k, by omega, Function.update_self _ _ _, by rw [hCk]; exact hp⟩
    · rw [if_neg hqp] at hq
      obtain ⟨j, hj, hQ, hl⟩ := h.piv q hq
      refine ⟨j, by omega, by rw [Function.update_of_ne hqp]; exact hQ, ?_⟩
      unfold clC
      by_cases hb : (C j).testBit p = true
      · have hlt : q < p := by
          by_contra hc
          have := hl.2 p (by omega)
          rw [hb] at this; cases this
        rw [if_pos (by simp [hb]; omega)]
        refine ⟨by rw [Nat.testBit_xor, hl.1, hp.2 q hlt]; rfl, fun s hs => ?_⟩
        rw [Nat.testBit_xor, hl.2 s hs, hp.2 s (by omega)]; rfl
      · rw [if_neg (by simp [hb])]; exact hl
  · intro j hj
    by_cases hjk : j = k
    · subst hjk
      exact Or.inr ⟨p, by rw [testBit_putBit, if_pos rfl], Function.update_self _ _ _⟩
    · rcases h.cov j (by omega) with h0 | ⟨q, hq, hQ⟩
      · left
        unfold clC
        rw [h0]; simp
      · right
        have hqp : q ≠ p := by rintro rfl; rw [hq] at hPp; cases hPp
        exact ⟨q, by rw [testBit_putBit, if_neg hqp]; exact hq, by rw [Function.update_of_ne hqp]; exact hQ⟩
  · intro q hq j hj hQ
    rw [testBit_putBit] at hq
    by_cases hqp : q = p
    · subst hqp
      rw [Function.update_self] at hQ
      have hjk : j ≠ k := by rintro rfl; exact hQ rfl
      unfold clC
      by_cases hb : (C j).testBit q = true
      · rw [if_pos (by simp [hb, hjk]), Nat.testBit_xor, hb, hp.1]; rfl
      · rw [if_neg (by simp [hb])]; simpa using hb
    · rw [if_neg hqp] at hq
      rw [Function.update_of_ne hqp] at hQ
      obtain ⟨i, hi, hQi, _⟩ := h.piv q hq
      have h1 := h.clr q hq j hj hQ
      have h2 := h.clr q hq k hk (by rw [hQi]; simp; omega)
      unfold clC
      split
      · rw [Nat.testBit_xor, h1, h2]; rfl
      · exact h1

theorem secLoop_spec {dim r c : Nat} (hr : r ≤ dim) (hd : dim ≤ 64) {A : BM} : ∀ m k, k + m = c → ∀ C B P Q, SInv r c A k C B P Q →
    ∃ C' B' P' Q', secLoop dim m k ⟨tab c B, tab c C, P, tab dim Q⟩ = .ok ⟨tab c B', tab c C', P', tab dim Q'⟩ ∧ SInv r c A c C' B' P' Q' := by
  intro m
  induction m with
  | zero =>
    intro k hk C B P Q h
    have : k = c := by omega
    subst this
    exact ⟨C, B, P, Q, rfl, h⟩
  | succ m ih =>
    intro k hk C B P Q h
    have hkc : k < c := by omega
    rw [secLoop]
    simp only
    rw [tab_get hkc, Res.ok_bind]
    by_cases h0 : C k = 0
    · rw [if_pos h0]
      refine ih (k + 1) (by omega) C B P Q ⟨h.clt, h.blt, h.rel, h.gen, ?_, ?_, h.clr⟩
      · intro p hp
        obtain ⟨j, hj, h⟩ := h.piv p hp
        exact ⟨j, by omega, h⟩
      · intro j hj
        by_cases e : j = k
        · subst e; exact Or.inl h0
        · exact h.cov j (by omega)
    · rw [if_neg h0]
      have hl := lead_firstBit (h.clt k hkc) (hr.trans hd) h0
      have hp := testBit_lt (h.clt k hkc) hl.1
      generalize Bits.firstBit (C k) = p at hl hp ⊢
      rw [bsSet_ok (by omega), Res.ok_bind, tab_put (by omega), Res.ok_bind, tab_get hkc, Res.ok_bind]
      have hstep := h.step hkc hl
      have e0 : (⟨tab c B, tab c C, putBit P p true, tab dim (Function.update Q p (some k))⟩ : Sec) =
          ⟨tab c (clB p (B k) (fun _ => false) C B), tab c (clC p (C k) (fun _ => false) C), putBit P p true, tab dim (Function.update Q p (some k))⟩ := by
        congr 1
      rw [e0]
      obtain ⟨J1, h1, h2⟩ := secBack_spec (c := c) (ck := C k) (bk := B k) (show p < dim by omega) hl.1 C B (putBit P p true) (Function.update Q p (some k))
        (members (putBit P p true)) (List.Pairwise.filter _ List.pairwise_lt_range) (by
          intro q hq hqp
          unfold members at hq
          obtain ⟨j, hj, hQ, _⟩ := hstep.piv q (by simpa using (List.mem_filter.1 hq).2)
          exact ⟨j, by omega, hQ⟩) (fun _ => false)
      rw [h1, Res.ok_bind]
      obtain ⟨J2, g1, g2⟩ := secForw_spec (c := c) (ck := C k) (bk := B k) (show p < dim by omega) hl.1 C B (putBit P p true)
        (tab dim (Function.update Q p (some k))) m (k + 1) (by omega) J1
      rw [g1, Res.ok_bind]
      have hsel : ∀ j < c, (J2 j && (C j).testBit p) = (decide (j ≠ k) && (C j).testBit p) := by
        intro j hj
        by_cases hb : (C j).testBit p = true
        · rw [hb, Bool.and_true, Bool.and_true, Bool.eq_iff_iff, g2, h2, decide_eq_true_eq]
          constructor
          · rintro ((h' | ⟨q, hq, hqp, hQ⟩) | h')
            · cases h'
            · rw [Function.update_of_ne (by omega)] at hQ
              have hq2 := (List.mem_filter.1 hq).2
              rw [testBit_putBit, if_neg (by omega)] at hq2
              obtain ⟨i, hi, hQi, _⟩ := h.piv q hq2
              rw [hQ] at hQi
              have := Option.some.inj hQi
              omega
            · omega
          · intro hjk
            by_cases hlt : k < j
            · exact Or.inr (by omega)
            · left; right
              rcases h.cov j (by omega) with h0' | ⟨q, hq, hQ⟩
              · rw [h0'] at hb; simp at hb
              · obtain ⟨i, hi, hQi, hli⟩ := h.piv q hq
                rw [hQ] at hQi
                have := Option.some.inj hQi
                subst this
                have hqp : q ≠ p := by
                  rintro rfl
                  have := h.clr q hq k hkc (by rw [hQ]; simp; omega)
                  rw [hl.1] at this; cases this
                have hqlt : q < p := by
                  by_contra hc
                  have := hli.2 p (by omega)
                  rw [hb] at this; cases this
                refine ⟨q, ?_, hqlt, by rw [Function.update_of_ne hqp]; exact hQ⟩
                unfold members
                rw [List.mem_filter, List.mem_range]
                exact ⟨by omega, by rw [testBit_putBit, if_neg hqp]; exact hq⟩
        · have hb : (C j).testBit p = false := by simpa using hb
          rw [hb, Bool.and_false, Bool.and_false]
      have e1 : tab c (clB p (B k) J2 C B) = tab c (clB p (B k) (fun j => decide (j ≠ k)) C B) :=
        tab_congr fun j hj => by unfold clB; simp only [hsel j hj]
      have e2 : tab c (clC p (C k) J2 C) = tab c (clC p (C k) (fun j => decide (j ≠ k)) C) :=
        tab_congr fun j hj => by unfold clC; simp only [hsel j hj]
      rw [e1, e2]
      exact ih (k + 1) (by omega) _ _ _ _ hstep

theorem secInit_spec {dim c : Nat} (hc : c ≤ dim) : ∀ m i, i + m = c → secInit dim m i = .ok ((List.range' i m).map fun j => putBit 0 j true) := by
  intro m
  induction m with
  | zero => intro i _; rfl
  | succ m ih =>
    intro i hi
    rw [secInit, bsSet_ok (by omega), Res.ok_bind, ih (i + 1) (by omega), Res.ok_bind, List.range'_succ]; rfl

theorem secFinal_spec (nd : Bool) {dim r c : Nat} (hr : r ≤ dim) {B : Nat → Nat} {C : List Nat} {P : Nat} {Q : Nat → Option Nat} : ∀ (l : List Nat),
    (∀ p ∈ l, p < r ∧ ∃ j < c, Q p = some j) → ∀ D : Nat → Nat, ∃ D', secFinal nd r ⟨tab c B, C, P, tab dim Q⟩ l (tab r D) = .ok (tab r D') ∧
      (∀ p j, p ∈ l → Q p = some j → D' p = B j) ∧ ∀ p, p ∉ l → D' p = D p := by
  intro l
  induction l with
  | nil => intro _ D; exact ⟨D, rfl, by simp, fun _ _ => rfl⟩
  | cons p l ih =>
    intro hl D
    obtain ⟨hp, j, hj, hQ⟩ := hl p List.mem_cons_self
    obtain ⟨D', h1, h2, h3⟩ := ih (fun q hq => hl q (List.mem_cons_of_mem _ hq)) (Function.update D p (B j))
    refine ⟨D', ?_, ?_, ?_⟩
    · rw [secFinal]
      simp only
      rw [tab_get?, if_pos (by omega), hQ]
      simp only
      rw [tab_get hj, Res.ok_bind, Res.assertIn_bind nd (by simpa using hp), tab_put hp, Res.ok_bind]
      exact h1
    · intro q i hq hQi
      by_cases hql : q ∈ l
      · exact h2 q i hql hQi
      · have : q = p := by
          rcases List.mem_cons.1 hq with h | h
          · exact h
          · exact absurd h hql
        subst this
        rw [hQ] at hQi
        rw [h3 q hql, Function.update_self, Option.some.inj hQi]
    · intro q hq
      rw [List.mem_cons, not_or] at hq
      rw [h3 q hq.2, Function.update_of_ne hq.1]

theorem unit_act {A : BM} {c j : Nat} (hj : j < c) : act A c (vec (putBit 0 j true)) = vec (A.cols.getD j 0) := by
  rw [act_eq_sum, Finset.sum_eq_single j]
  · rw [vec_eq_one.2 (by rw [testBit_putBit, if_pos rfl]), one_smul]
  · intro i _ hi
    rw [vec_eq_zero.2 (by rw [testBit_putBit, if_neg hi, Nat.zero_testBit]), zero_smul]
  · intro hc; exact absurd (Finset.mem_range.2 hj) hc

/-- C33: `section` returns a matrix `B` with `A B A = A` and `B A B = B`; so `B A` is the identity if `A` is injective
and `A B` is the identity if `A` is surjective. -/
theorem C33_section (nd : Bool) {dim r c : Nat} (hr : r ≤ dim) (hc : c ≤ dim) (hd : dim ≤ 64) {A : BM} (hA : IsMatrix r c A) :
    ∃ R, A.section nd dim = .ok R ∧ IsMatrix c r R ∧ (∀ x, act A c (act R r (act A c x)) = act A c x) ∧
      (∀ y, act R r (act A c (act R r y)) = act R r y) ∧
      ((∀ x, (∀ i, c ≤ i → x i = 0) → act A c x = 0 → x = 0) → ∀ x, (∀ i, c ≤ i → x i = 0) → act R r (act A c x) = x) ∧
      ((∀ y, (∀ i, r ≤ i → y i = 0) → ∃ x, act A c x = y) → ∀ y, (∀ i, r ≤ i → y i = 0) → act A c (act R r y) = y) := by
  have hcols : A.cols = tab c fun j => A.cols.getD j 0 := by
    have := eq_tab A.cols
    rw [hA.length] at this
    exact this
  have hbasis : secInit dim c 0 = .ok (tab c fun j => putBit 0 j true) := by
    rw [secInit_spec hc c 0 (by omega), ← List.range_eq_range']; rfl
  have hpc : List.replicate dim (none : Option Nat) = tab dim fun _ => none := by unfold tab; simp
  have h0 : SInv r c A 0 (fun j => A.cols.getD j 0) (fun j => putBit 0 j true) 0 (fun _ => none) := by
    refine ⟨fun j _ => hA.col_lt j, fun j hj => putBit_lt (Nat.pow_pos (by omega)) hj, fun j hj => (unit_act hj).symm,
      fun j hj => Submodule.subset_span ⟨j, hj, rfl⟩, ?_, ?_, ?_⟩
    · intro p hp; rw [Nat.zero_testBit] at hp; cases hp
    · intro j hj; omega
    · intro p hp; rw [Nat.zero_testBit] at hp; cases hp
  obtain ⟨C, B, P, Q, h1, h2⟩ := secLoop_spec hr hd c 0 (by omega) _ _ _ _ h0
  have hPr : ∀ p, P.testBit p = true → p < r := by
    intro p hp
    obtain ⟨j, hj, _, hl⟩ := h2.piv p hp
    exact testBit_lt (h2.clt j hj) hl.1
  have hmem : ∀ p, p ∈ members P ↔ P.testBit p = true := by
    intro p
    unfold members
    rw [List.mem_filter, List.mem_range]
    exact ⟨fun h => h.2, fun h => ⟨by have := hPr p h; omega, h⟩⟩
  obtain ⟨D, g1, g2, g3⟩ := secFinal_spec nd hr (B := B) (C := tab c C) (P := P) (Q := Q) (c := c) (members P) (by
    intro p hp
    rw [hmem] at hp
    obtain ⟨j, hj, hQ, _⟩ := h2.piv p hp
    exact ⟨hPr p hp, j, hj, hQ⟩) (fun _ => 0)
  have hrep : List.replicate r 0 = tab r fun _ => 0 := by unfold tab; simp
  have hDget : ∀ p < r, (tab r D).getD p 0 = D p := by
    intro p hp
    rw [List.getD_eq_getElem?_getD, tab_get?, if_pos hp]; rfl
  have hD0 : ∀ p, P.testBit p = false → D p = 0 := by
    intro p hp
    rw [g3 p (by rw [hmem, hp]; simp)]
  have hDlt : ∀ p, D p < 2 ^ c := by
    intro p
    by_cases hp : P.testBit p = true
    · obtain ⟨j, hj, hQ, _⟩ := h2.piv p hp
      rw [g2 p j ((hmem p).2 hp) hQ]
      exact h2.blt j hj
    · rw [hD0 p (by simpa using hp)]; exact Nat.pow_pos (by omega)
  have hR : IsMatrix c r ⟨tab r D, c, r⟩ := by
    refine ⟨rfl, rfl, by simp, ?_⟩
    intro x hx
    obtain ⟨p, _, rfl⟩ := List.mem_map.1 hx
    exact hDlt p
  -- the columns found, at the pivots
  obtain ⟨E, hE⟩ : ∃ E : Nat → Nat → ZMod 2, ∀ p, (P.testBit p = true → E p = act A c (vec (D p)) ∧
      ∀ q, P.testBit q = true → E p q = if q = p then 1 else 0) ∧ (P.testBit p = false → E p = 0 ∧ act A c (vec (D p)) = 0) := by
    refine ⟨fun p => act A c (vec (D p)), fun p => ⟨fun hp => ⟨rfl, fun q hq => ?_⟩, fun hp => ?_⟩⟩
    · obtain ⟨j, hj, hQ, hl⟩ := h2.piv p hp
      simp only
      rw [g2 p j ((hmem p).2 hp) hQ, ← h2.rel j hj]
      by_cases hqp : q = p
      · subst hqp; rw [if_pos rfl]; exact vec_eq_one.2 hl.1
      · rw [if_neg hqp, vec_eq_zero]
        refine h2.clr q hq j hj fun hQq => hqp ?_
        obtain ⟨i, hi, hQi, hli⟩ := h2.piv q hq
        rw [hQq] at hQi
        rw [← Option.some.inj hQi] at hli
        exact hli.unique hl
    · have : act A c (vec (D p)) = 0 := by
        rw [hD0 p hp, vec_zero]; exact (actL A c).map_zero
      exact ⟨this, this⟩
  have hact : ∀ p, act A c (vec (D p)) = E p := by
    intro p
    by_cases hp : P.testBit p = true
    · exact ((hE p).1 hp).1.symm
    · have := (hE p).2 (by simpa using hp)
      rw [this.1, this.2]
  have hRy : ∀ y, act ⟨tab r D, c, r⟩ r y = ∑ p ∈ Finset.range r, y p • vec (D p) := by
    intro y
    rw [act_eq_sum]
    exact Finset.sum_congr rfl fun p hp => by rw [hDget p (Finset.mem_range.1 hp)]
  have hARy : ∀ y, act A c (act ⟨tab r D, c, r⟩ r y) = ∑ p ∈ Finset.range r, y p • E p := by
    intro y
    rw [hRy, ← actL_apply, map_sum]
    exact Finset.sum_congr rfl fun p _ => by rw [map_smul, actL_apply, hact]
  have hARq : ∀ y q, P.testBit q = true → act A c (act ⟨tab r D, c, r⟩ r y) q = y q := by
    intro y q hq
    rw [hARy, Finset.sum_apply, Finset.sum_eq_single q]
    · rw [Pi.smul_apply, ((hE q).1 hq).2 q hq, if_pos rfl, smul_eq_mul, mul_one]
    · intro p _ hpq
      rw [Pi.smul_apply]
      by_cases hp : P.testBit p = true
      · rw [((hE p).1 hp).2 q hq, if_neg (Ne.symm hpq), smul_zero]
      · rw [((hE p).2 (by simpa using hp)).1, Pi.zero_apply, smul_zero]
    · intro hc'; exact absurd (Finset.mem_range.2 (hPr q hq)) hc'
  have hfix : ∀ y ∈ Submodule.span (ZMod 2) {u | ∃ i < c, vec (C i) = u}, act A c (act ⟨tab r D, c, r⟩ r y) = y := by
    intro y hy
    induction hy using Submodule.span_induction with
    | mem u hu =>
      obtain ⟨i, hi, rfl⟩ := hu
      rcases h2.cov i hi with h0 | ⟨p, hp, hQ⟩
      · rw [h0, vec_zero]
        have : act ⟨tab r D, c, r⟩ r 0 = 0 := (actL _ r).map_zero
        rw [this]; exact (actL A c).map_zero
      · rw [hARy, Finset.sum_eq_single p]
        · obtain ⟨j, hj, hQj, hl⟩ := h2.piv p hp
          rw [hQ] at hQj
          have := Option.some.inj hQj
          subst this
          rw [vec_eq_one.2 hl.1, one_smul, ((hE p).1 hp).1, g2 p i ((hmem p).2 hp) hQ, ← h2.rel i hi]
        · intro q _ hqp
          by_cases hq : P.testBit q = true
          · rw [vec_eq_zero.2, zero_smul]
            refine h2.clr q hq i hi fun hQq => hqp ?_
            obtain ⟨j, _, hQj, hl⟩ := h2.piv p hp
            obtain ⟨j', _, hQj', hl'⟩ := h2.piv q hq
            rw [hQ] at hQj
            rw [hQq] at hQj'
            rw [← Option.some.inj hQj] at hl
            rw [← Option.some.inj hQj'] at hl'
            exact hl'.unique hl
          · rw [((hE q).2 (by simpa using hq)).1, smul_zero]
        · intro hc'; exact absurd (Finset.mem_range.2 (hPr p hp)) hc'
    | zero =>
      have : act ⟨tab r D, c, r⟩ r 0 = 0 := (actL _ r).map_zero
      rw [this]; exact (actL A c).map_zero
    | add u v _ _ a b =>
      have e1 : act ⟨tab r D, c, r⟩ r (u + v) = act ⟨tab r D, c, r⟩ r u + act ⟨tab r D, c, r⟩ r v := (actL _ r).map_add u v
      have e2 := (actL A c).map_add (act ⟨tab r D, c, r⟩ r u) (act ⟨tab r D, c, r⟩ r v)
      rw [actL_apply, actL_apply, actL_apply, a, b] at e2
      rw [e1, e2]
    | smul a u _ b =>
      have e1 : act ⟨tab r D, c, r⟩ r (a • u) = a • act ⟨tab r D, c, r⟩ r u := (actL _ r).map_smul a u
      have e2 := (actL A c).map_smul a (act ⟨tab r D, c, r⟩ r u)
      rw [actL_apply, actL_apply, b] at e2
      rw [e1, e2]
  have hspan : ∀ x, act A c x ∈ Submodule.span (ZMod 2) {u | ∃ i < c, vec (C i) = u} := by
    intro x
    rw [act_eq_sum]
    exact Submodule.sum_mem _ fun j hj => Submodule.smul_mem _ _ (h2.gen j (Finset.mem_range.1 hj))
  have hABA : ∀ x, act A c (act ⟨tab r D, c, r⟩ r (act A c x)) = act A c x := fun x => hfix _ (hspan x)
  have hsupp : ∀ y, ∀ i, c ≤ i → act ⟨tab r D, c, r⟩ r y i = 0 := by
    intro y i hi
    rw [hRy, Finset.sum_apply]
    refine Finset.sum_eq_zero fun p _ => ?_
    rw [Pi.smul_apply, vec_eq_zero.2 (Nat.testBit_lt_two_pow ((hDlt p).trans_le (Nat.pow_le_pow_right (by omega) hi))), smul_zero]
  refine ⟨⟨tab r D, c, r⟩, ?_, hR, hABA, ?_, ?_, ?_⟩
  · unfold BM.section BM.zero
    rw [hA.columns, hbasis, Res.ok_bind, hpc]
    rw [hcols, h1, Res.ok_bind, Res.assertIn_bind nd (by simpa using hc), Res.pure_eq, Res.ok_bind, hA.rows, hrep]
    simp only
    rw [g1]; rfl
  · intro y
    rw [hRy (act A c _), hRy y]
    refine Finset.sum_congr rfl fun p _ => ?_
    by_cases hp : P.testBit p = true
    · rw [← hRy, hARq y p hp]
    · rw [hD0 p (by simpa using hp), vec_zero, smul_zero, smul_zero]
  · intro hinj x hx
    have := hinj (act ⟨tab r D, c, r⟩ r (act A c x) + x) (fun i hi => by rw [Pi.add_apply, hsupp _ i hi, hx i hi, add_zero]) (by
      have e := (actL A c).map_add (act ⟨tab r D, c, r⟩ r (act A c x)) x
      rw [actL_apply, actL_apply, actL_apply, hABA, add_self] at e
      exact e)
    have h := congrArg (· + x) this
    simpa [add_assoc, add_self] using h
  · intro hsurj y hy
    obtain ⟨x, rfl⟩ := hsurj y hy
    exact hABA x

example : IsMatrix 3 3 ⟨[3, 6, 5], 3, 3⟩ ∧ (⟨[3, 6, 5], 3, 3⟩ : BM).section false 32 = .ok ⟨[3, 2, 0], 3, 3⟩ ∧
    (⟨[3, 2, 6], 3, 3⟩ : BM).section false 32 = .ok ⟨[3, 2, 6], 3, 3⟩ := ⟨⟨rfl, rfl, rfl, by decide⟩, by decide +kernel⟩

end Verif.F2
