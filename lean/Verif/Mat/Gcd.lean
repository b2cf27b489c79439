import Mathlib.LinearAlgebra.Matrix.NonsingularInverse
import Mathlib.LinearAlgebra.Matrix.Transvection
import Verif.Mat.Props
import Verif.Mat.Reduc

/-!
Lemmas about `matreduc::gcd`.
-/

open Finset
open scoped Matrix

namespace Verif.Mat

variable {n : Nat}

/-- the sign recorded by a `flip` flag -/
def sgn (b : Bool) : Int := if b then -1 else 1

@[simp] theorem sgn_not (b : Bool) : sgn (!b) = -sgn b := by cases b <;> rfl
@[simp] theorem sgn_false : sgn false = 1 := rfl
@[simp] theorem sgn_true : sgn true = -1 := rfl
theorem sgn_xor (a b : Bool) : sgn (xor a b) = sgn a * sgn b := by cases a <;> cases b <;> rfl
theorem sgn_sq (a : Bool) : sgn a * sgn a = 1 := by cases a <;> rfl
theorem sgn_unit (a : Bool) : IsUnit (sgn a) := by cases a <;> simp

theorem get_ofFn {α : Type} (r : Fin n → α) (i : Fin n) : Vec.get (List.ofFn r) i.val = .ok (r i) := by
  rw [Vec.get_ok (by simp)]; simp

theorem put_ofFn {α : Type} (r : Fin n → α) (i : Fin n) (x : α) :
    Vec.put (List.ofFn r) i.val x = .ok (List.ofFn (Function.update r i x)) := by
  rw [Vec.put_ok (by simp)]
  congr 1
  refine List.ext_getElem (by simp) ?_
  intro k h1 h2
  rw [List.getElem_set]
  simp only [List.getElem_ofFn, Function.update_apply]
  by_cases c : i.val = k
  · rw [if_pos c, if_pos (Fin.ext c.symm)]
  · rw [if_neg c, if_neg (fun e => c (congrArg Fin.val e).symm)]

/-- the recording matrix is absent, or is `C` -/
def Rep (col : Option (Mat Int)) (C : Matrix (Fin n) (Fin n) Int) : Prop := col = none ∨ col = some (enc C)

/-- column operation: effect on the row vector -/
theorem vecMul_colOp (r0 : Fin n → Int) (C : Matrix (Fin n) (Fin n) Int) (j k : Fin n) (c : Int) :
    r0 ᵥ* C.updateCol j (fun i => C i j + c * C i k) = Function.update (r0 ᵥ* C) j ((r0 ᵥ* C) j + c * (r0 ᵥ* C) k) := by
  funext l
  by_cases h : l = j
  · subst h
    simp only [Matrix.vecMul, dotProduct, Matrix.updateCol_apply, Function.update_self, if_true]
    rw [Finset.mul_sum, ← Finset.sum_add_distrib]
    exact Finset.sum_congr rfl fun i _ => by ring
  · simp [Matrix.vecMul, dotProduct, Matrix.updateCol_apply, h]

theorem det_colOp (C : Matrix (Fin n) (Fin n) Int) {j k : Fin n} (h : j ≠ k) (c : Int) :
    (C.updateCol j (fun i => C i j + c * C i k)).det = C.det := Matrix.det_updateCol_add_smul_self C h c

theorem onCol_colOp (nd : Bool) {col : Option (Mat Int)} {C : Matrix (Fin n) (Fin n) Int} (h : Rep col C) (j k : Fin n) (c : Int) :
    ∃ col', onCol col (fun M => colOp nd M j k c) = .ok col' ∧ Rep col' (C.updateCol j (fun i => C i j + c * C i k)) ∧
      (col' = none ↔ col = none) := by
  rcases h with rfl | rfl
  · exact ⟨none, rfl, .inl rfl, Iff.rfl⟩
  · refine ⟨some _, ?_, .inr rfl, by simp⟩
    show (do pure (some (← colOp nd (enc C) j k c)) : Res (Option (Mat Int))) = _
    rw [C45_colOp, Res.ok_bind, Res.pure_eq]

/-- what the first loop of `gcd` has found in the entries before position `j` -/
structure Scan (r : Fin n → Int) (j : Nat) (act : List Nat) (mn : Int) (mi : Nat) : Prop where
  mem : ∀ x : Fin n, x.val ∈ act ↔ x.val < j ∧ r x ≠ 0
  lt : ∀ x ∈ act, x < j
  nodup : act.Nodup
  none : act = [] → mn = 0
  mi : act ≠ [] → ∃ h : mi < n, mi ∈ act ∧ mn = (r ⟨mi, h⟩).natAbs ∧ mn ≠ 0 ∧ (∀ x : Fin n, x.val < j → r x ≠ 0 → mn ≤ (r x).natAbs) ∧
    ∀ x : Fin n, x.val < mi → r x ≠ 0 → mn < (r x).natAbs

theorem gcdScan_spec (r : Fin n → Int) (k : Nat) {j : Nat} {act : List Nat} {mn : Int} {mi : Nat} (hk : j + k = n)
    (h : Scan r j act mn mi) : ∃ act' mn' mi', gcdScan (List.ofFn r) k j act mn mi = .ok (act', mn', mi') ∧ Scan r n act' mn' mi' := by
  induction k generalizing j act mn mi with
  | zero =>
    obtain rfl : j = n := by omega
    exact ⟨act, mn, mi, rfl, h⟩
  | succ k ih =>
    have hj : j < n := by omega
    rw [gcdScan, get_ofFn r ⟨j, hj⟩, Res.ok_bind]
    have hlt : ∀ x ∈ act, x < j + 1 := fun x hx => Nat.lt_succ_of_lt (h.lt x hx)
    by_cases c : r ⟨j, hj⟩ = 0
    · rw [if_neg (by simp [c])]
      refine ih (by omega) ⟨?_, hlt, h.nodup, h.none, ?_⟩
      · intro x
        rw [h.mem x]
        constructor
        · rintro ⟨h1, h2⟩; exact ⟨by omega, h2⟩
        · rintro ⟨h1, h2⟩
          refine ⟨?_, h2⟩
          rcases Nat.lt_or_ge x.val j with h3 | h3
          · exact h3
          · exact absurd (by obtain rfl : x = ⟨j, hj⟩ := Fin.ext (by show x.val = j; omega)
                             exact c) h2
      · intro hne
        obtain ⟨h1, h2, h3, h4, h5, h6⟩ := h.mi hne
        refine ⟨h1, h2, h3, h4, ?_, h6⟩
        intro x hx hx0
        refine h5 x ?_ hx0
        rcases Nat.lt_or_ge x.val j with h7 | h7
        · exact h7
        · exact absurd (by obtain rfl : x = ⟨j, hj⟩ := Fin.ext (by show x.val = j; omega)
                           exact c) hx0
    · rw [if_pos c]
      have hmem : ∀ x : Fin n, x.val ∈ act ++ [j] ↔ x.val < j + 1 ∧ r x ≠ 0 := by
        intro x
        rw [List.mem_append, List.mem_singleton, h.mem x]
        constructor
        · rintro (⟨h1, h2⟩ | h1)
          · exact ⟨by omega, h2⟩
          · obtain rfl : x = ⟨j, hj⟩ := Fin.ext h1
            exact ⟨by omega, c⟩
        · rintro ⟨h1, h2⟩
          rcases Nat.lt_or_ge x.val j with h7 | h7
          · exact .inl ⟨h7, h2⟩
          · exact .inr (by omega)
      have hlt' : ∀ x ∈ act ++ [j], x < j + 1 := by
        intro x hx
        rw [List.mem_append, List.mem_singleton] at hx
        rcases hx with hx | rfl
        · exact hlt x hx
        · omega
      have hnd : (act ++ [j]).Nodup := by
        rw [List.nodup_append]
        refine ⟨h.nodup, by simp, ?_⟩
        intro a ha b hb
        rw [List.mem_singleton] at hb
        have := h.lt a ha
        omega
      by_cases c2 : mn = 0 ∨ ((r ⟨j, hj⟩).natAbs : Int) < mn
      · rw [if_pos c2]
        refine ih (by omega) ⟨hmem, hlt', hnd, by simp, ?_⟩
        intro _
        have hle : ∀ x : Fin n, x.val < j → r x ≠ 0 → ((r ⟨j, hj⟩).natAbs : Int) < (r x).natAbs := by
          intro x hx hx0
          have hne : act ≠ [] := by
            intro e
            have := (h.mem x).2 ⟨hx, hx0⟩
            rw [e] at this; cases this
          obtain ⟨h1, h2, h3, h4, h5, h6⟩ := h.mi hne
          rcases c2 with c2 | c2
          · exact absurd c2 h4
          · exact lt_of_lt_of_le c2 (h5 x hx hx0)
        refine ⟨hj, by simp, rfl, by simpa using c, ?_, hle⟩
        intro x hx hx0
        rcases Nat.lt_or_ge x.val j with h7 | h7
        · exact (hle x h7 hx0).le
        · obtain rfl : x = ⟨j, hj⟩ := Fin.ext (by show x.val = j; omega)
          exact le_rfl
      · rw [if_neg c2]
        refine ih (by omega) ⟨hmem, hlt', hnd, by simp, ?_⟩
        intro _
        have hne : act ≠ [] := by
          intro e
          exact c2 (.inl (h.none e))
        obtain ⟨h1, h2, h3, h4, h5, h6⟩ := h.mi hne
        refine ⟨h1, by simp [h2], h3, h4, ?_, h6⟩
        intro x hx hx0
        rcases Nat.lt_or_ge x.val j with h7 | h7
        · exact h5 x h7 hx0
        · obtain rfl : x = ⟨j, hj⟩ := Fin.ext (by show x.val = j; omega)
          push Not at c2
          exact c2.2

/-- result of the inner loop of `gcd` -/
structure Pass (r0 : Fin n → Int) (c : Fin n) (d : Int) (js : List Nat) (r : Fin n → Int) (mi : Nat) (C : Matrix (Fin n) (Fin n) Int)
    (col : Option (Mat Int)) (js' : List Nat) (r' : Fin n → Int) (mn' : Int) (mi' : Nat) (C' : Matrix (Fin n) (Fin n) Int)
    (col' : Option (Mat Int)) : Prop where
  rep : Rep col' C'
  none : col' = none ↔ col = none
  row : r0 ᵥ* C' = r'
  det : C'.det = C.det
  piv : r' c = d
  out : ∀ x : Fin n, x.val ∉ js → r' x = r x
  rem : ∀ x : Fin n, x.val ∈ js → x ≠ c → 0 ≤ r' x ∧ r' x < d
  sub : js'.Sublist js
  mem : ∀ x : Fin n, x.val ∈ js' ↔ x.val ∈ js ∧ r' x ≠ 0
  cases : (mi' = c.val ∧ mn' = d ∧ mi = c.val ∧ ∀ x : Fin n, x.val ∈ js → x ≠ c → r' x = 0) ∨
    (∃ h : mi' < n, mi' ≠ c.val ∧ r' ⟨mi', h⟩ = mn' ∧ 0 < mn' ∧ mn' < d ∧ (mi' = mi ∨ mi' ∈ js))
  fix : ∀ i, C' i c = C i c
  dvd : (∀ x, d ∣ r x) → ∀ x, d ∣ r' x

theorem gcdPass_spec (nd : Bool) (r0 : Fin n → Int) (c : Fin n) {d : Int} (hd : 0 < d) (js : List Nat) {r : Fin n → Int} {mn : Int} {mi : Nat}
    {C : Matrix (Fin n) (Fin n) Int} {col : Option (Mat Int)} (hrep : Rep col C) (hrow : r0 ᵥ* C = r) (hpiv : r c = d) (hnd : js.Nodup)
    (hlt : ∀ x ∈ js, x < n)
    (hmi : (mi = c.val ∧ mn = d) ∨ ∃ h : mi < n, mi ≠ c.val ∧ mi ∉ js ∧ r ⟨mi, h⟩ = mn ∧ 0 < mn ∧ mn < d) :
    ∃ js' r' mn' mi' C' col', gcdPass nd c.val d js (List.ofFn r) mn mi col = .ok (js', List.ofFn r', mn', mi', col') ∧
      Pass r0 c d js r mi C col js' r' mn' mi' C' col' := by
  induction js generalizing r mn mi C col with
  | nil =>
    refine ⟨[], r, mn, mi, C, col, rfl, hrep, Iff.rfl, hrow, rfl, hpiv, fun _ _ => rfl, fun x hx => absurd hx (by simp), List.Sublist.refl _,
      fun x => by simp, ?_, fun _ => rfl, id⟩
    rcases hmi with ⟨rfl, rfl⟩ | ⟨h, h1, h2, h3, h4, h5⟩
    · exact .inl ⟨rfl, rfl, rfl, fun x hx => absurd hx (by simp)⟩
    · exact .inr ⟨h, h1, h3, h4, h5, .inl rfl⟩
  | cons j js ih =>
    obtain ⟨hj, hnd'⟩ := List.nodup_cons.1 hnd
    have hjn : j < n := hlt j (by simp)
    have hlt' : ∀ x ∈ js, x < n := fun x hx => hlt x (by simp [hx])
    rw [gcdPass]
    by_cases e : j = c.val
    · rw [if_pos e]
      have hmi' : (mi = c.val ∧ mn = d) ∨ ∃ h : mi < n, mi ≠ c.val ∧ mi ∉ js ∧ r ⟨mi, h⟩ = mn ∧ 0 < mn ∧ mn < d := by
        rcases hmi with h | ⟨h, h1, h2, h3⟩
        · exact .inl h
        · exact .inr ⟨h, h1, fun h' => h2 (by simp [h']), h3⟩
      obtain ⟨js', r', mn', mi', C', col', h1, h2⟩ := ih hrep hrow hpiv hnd' hlt' hmi'
      rw [h1, Res.ok_bind, Res.pure_eq]
      refine ⟨j :: js', r', mn', mi', C', col', rfl, h2.rep, h2.none, h2.row, h2.det, h2.piv, ?_, ?_, h2.sub.cons_cons _, ?_, ?_, h2.fix, h2.dvd⟩
      · intro x hx; exact h2.out x (fun h' => hx (by simp [h']))
      · intro x hx hxc
        rcases List.mem_cons.1 hx with h' | h'
        · exact absurd (Fin.ext (h'.trans e)) hxc
        · exact h2.rem x h' hxc
      · intro x
        rw [List.mem_cons, List.mem_cons, h2.mem x]
        constructor
        · rintro (h' | ⟨h', h''⟩)
          · refine ⟨.inl h', ?_⟩
            obtain rfl : x = c := Fin.ext (h'.trans e)
            rw [h2.piv]; omega
          · exact ⟨.inr h', h''⟩
        · rintro ⟨h' | h', h''⟩
          · exact .inl h'
          · exact .inr ⟨h', h''⟩
      · rcases h2.cases with ⟨g1, g2, g3, g4⟩ | ⟨g, g1, g2, g3, g4, g5⟩
        · refine .inl ⟨g1, g2, g3, ?_⟩
          intro x hx hxc
          rcases List.mem_cons.1 hx with h' | h'
          · exact absurd (Fin.ext (h'.trans e)) hxc
          · exact g4 x h' hxc
        · refine .inr ⟨g, g1, g2, g3, g4, ?_⟩
          rcases g5 with g5 | g5
          · exact .inl g5
          · exact .inr (by simp [g5])
    · rw [if_neg e, if_neg (by omega)]
      have hjc : (⟨j, hjn⟩ : Fin n) ≠ c := fun h => e (congrArg Fin.val h)
      rw [get_ofFn r ⟨j, hjn⟩, Res.ok_bind]
      generalize hx : r ⟨j, hjn⟩ = x
      obtain ⟨col1, k1, k2, k3⟩ := onCol_colOp nd hrep ⟨j, hjn⟩ c (-x.fdiv d)
      rw [k1, Res.ok_bind, put_ofFn r ⟨j, hjn⟩, Res.ok_bind]
      have hy : x - d * x.fdiv d = x % d := by
        rw [Int.fdiv_eq_ediv_of_nonneg _ hd.le, Int.emod_def]
      rw [hy]
      have y0 : 0 ≤ x % d := Int.emod_nonneg _ hd.ne'
      have yd : x % d < d := Int.emod_lt_of_pos _ hd
      have hrow' : r0 ᵥ* C.updateCol ⟨j, hjn⟩ (fun i => C i ⟨j, hjn⟩ + -x.fdiv d * C i c) = Function.update r ⟨j, hjn⟩ (x % d) := by
        rw [vecMul_colOp, hrow, hpiv, hx, ← hy]; congr 1; ring
      have hpiv' : Function.update r ⟨j, hjn⟩ (x % d) c = d := by rw [Function.update_of_ne (Ne.symm hjc), hpiv]
      have hself : Function.update r ⟨j, hjn⟩ (x % d) ⟨j, hjn⟩ = x % d := by simp
      have hfix : ∀ i, C.updateCol ⟨j, hjn⟩ (fun i => C i ⟨j, hjn⟩ + -x.fdiv d * C i c) i c = C i c := by
        intro i; rw [Matrix.updateCol_ne (Ne.symm hjc)]
      -- common conclusion
      have fin : ∀ (keep : Bool) (mn1 : Int) (mi1 : Nat), (keep = true ↔ x % d ≠ 0) →
          ((mi1 = mi ∧ mn1 = mn ∧ (keep = true → mi ≠ c.val)) ∨ (mi1 = j ∧ mn1 = x % d ∧ keep = true)) →
          ∃ js' r' mn' mi' C' col', (do
              let r ← gcdPass nd c.val d js (List.ofFn (Function.update r ⟨j, hjn⟩ (x % d))) mn1 mi1 col1
              pure (if keep then j :: r.1 else r.1, r.2) :
                Res (List Nat × List Int × Int × Nat × Option (Mat Int))) = .ok (js', List.ofFn r', mn', mi', col') ∧
            Pass r0 c d (j :: js) r mi C col js' r' mn' mi' C' col' := by
        intro keep mn1 mi1 hkeep hcase
        have hmi' : (mi1 = c.val ∧ mn1 = d) ∨ ∃ h : mi1 < n, mi1 ≠ c.val ∧ mi1 ∉ js ∧
            Function.update r ⟨j, hjn⟩ (x % d) ⟨mi1, h⟩ = mn1 ∧ 0 < mn1 ∧ mn1 < d := by
          rcases hcase with ⟨rfl, rfl, _⟩ | ⟨rfl, rfl, hk⟩
          · rcases hmi with h | ⟨h, h1, h2, h3, h4⟩
            · exact .inl h
            · refine .inr ⟨h, h1, fun h' => h2 (by simp [h']), ?_, h4⟩
              rw [Function.update_of_ne (fun h' => h2 (by rw [Fin.ext_iff] at h'; simp only at h'; simp [h'])), h3]
          · have := hkeep.1 hk
            exact .inr ⟨hjn, e, hj, hself, by omega, yd⟩
        obtain ⟨js', r', mn', mi', C', col', h1, h2⟩ := ih k2 hrow' hpiv' hnd' hlt' hmi'
        rw [h1, Res.ok_bind, Res.pure_eq]
        have hrj : r' ⟨j, hjn⟩ = x % d := by rw [h2.out _ hj, hself]
        refine ⟨if keep then j :: js' else js', r', mn', mi', C', col', rfl, h2.rep, h2.none.trans k3, h2.row,
          h2.det.trans (det_colOp C hjc _), h2.piv, ?_, ?_, ?_, ?_, ?_, fun i => (h2.fix i).trans (hfix i),
          fun hdv => h2.dvd (fun y => by
            by_cases e' : y = ⟨j, hjn⟩
            · rw [e', hself, Int.emod_eq_zero_of_dvd (hx ▸ hdv ⟨j, hjn⟩)]; exact dvd_zero d
            · rw [Function.update_of_ne e']; exact hdv y)⟩
        · intro y hy'
          rw [h2.out y (fun h' => hy' (by simp [h'])), Function.update_of_ne (fun h' => hy' (by rw [h']; simp))]
        · intro y hy' hyc
          rcases List.mem_cons.1 hy' with h' | h'
          · obtain rfl : y = ⟨j, hjn⟩ := Fin.ext h'
            rw [hrj]; exact ⟨y0, yd⟩
          · exact h2.rem y h' hyc
        · cases keep
          · exact h2.sub.cons _
          · exact h2.sub.cons_cons _
        · intro y
          have hm := h2.mem y
          cases keep
          · have hz : x % d = 0 := by
              by_contra h'
              exact absurd (hkeep.2 h') (by simp)
            show y.val ∈ js' ↔ _
            rw [List.mem_cons, hm]
            constructor
            · rintro ⟨h', h''⟩; exact ⟨.inr h', h''⟩
            · rintro ⟨h' | h', h''⟩
              · obtain rfl : y = ⟨j, hjn⟩ := Fin.ext h'
                rw [hrj] at h''; exact absurd hz h''
              · exact ⟨h', h''⟩
          · show y.val ∈ j :: js' ↔ _
            rw [List.mem_cons, List.mem_cons, hm]
            constructor
            · rintro (h' | ⟨h', h''⟩)
              · refine ⟨.inl h', ?_⟩
                obtain rfl : y = ⟨j, hjn⟩ := Fin.ext h'
                rw [hrj]; exact hkeep.1 rfl
              · exact ⟨.inr h', h''⟩
            · rintro ⟨h' | h', h''⟩
              · exact .inl h'
              · exact .inr ⟨h', h''⟩
        · rcases h2.cases with ⟨g1, g2, g3, g4⟩ | ⟨g, g1, g2, g3, g4, g5⟩
          · rcases hcase with ⟨rfl, rfl, hk⟩ | ⟨rfl, rfl, hk⟩
            · refine .inl ⟨g1, g2, g3, ?_⟩
              intro y hy' hyc
              rcases List.mem_cons.1 hy' with h' | h'
              · obtain rfl : y = ⟨j, hjn⟩ := Fin.ext h'
                rw [hrj]
                by_contra h''
                exact hk (hkeep.2 h'') g3
              · exact g4 y h' hyc
            · exact absurd g3 e
          · refine .inr ⟨g, g1, g2, g3, g4, ?_⟩
            rcases g5 with g5 | g5
            · rcases hcase with ⟨rfl, rfl, hk⟩ | ⟨rfl, rfl, hk⟩
              · exact .inl g5
              · exact .inr (by simp [g5])
            · exact .inr (by simp [g5])
      by_cases z : x % d = 0
      · rw [if_pos z]
        obtain ⟨js', r', mn', mi', C', col', h1, h2⟩ := fin false mn mi (by simp [z]) (.inl ⟨rfl, rfl, by simp⟩)
        refine ⟨js', r', mn', mi', C', col', ?_, h2⟩
        rw [← h1]
        cases gcdPass nd c.val d js (List.ofFn (Function.update r ⟨j, hjn⟩ (x % d))) mn mi col1 <;> rfl
      · rw [if_neg z]
        by_cases z2 : x % d < mn
        · rw [if_pos z2]
          exact fin true (x % d) j (by simp [z]) (.inr ⟨rfl, rfl, rfl⟩)
        · rw [if_neg z2]
          refine fin true mn mi (by simp [z]) (.inl ⟨rfl, rfl, fun _ h' => ?_⟩)
          rcases hmi with ⟨g1, g2⟩ | ⟨g, g1, _⟩
          · omega
          · exact g1 h'

/-- result of the outer loop of `gcd` -/
structure Loop (r0 : Fin n → Int) (r : Fin n → Int) (mn : Int) (mi : Nat) (C : Matrix (Fin n) (Fin n) Int) (col : Option (Mat Int))
    (mn' : Int) (m' : Fin n) (C' : Matrix (Fin n) (Fin n) Int) (col' : Option (Mat Int)) : Prop where
  rep : Rep col' C'
  none : col' = none ↔ col = none
  row : r0 ᵥ* C' = Pi.single m' mn'
  det : C'.det = C.det
  pos : 0 < mn'
  fix : (∀ x, mn ∣ r x) → m'.val = mi ∧ mn' = mn ∧ ∀ i, C' i m' = C i m'

theorem gcdLoop_spec (nd : Bool) (r0 : Fin n → Int) (fuel : Nat) {act : List Nat} {r : Fin n → Int} {mn : Int} {mi : Nat}
    {C : Matrix (Fin n) (Fin n) Int} {col : Option (Mat Int)} (hrep : Rep col C) (hrow : r0 ᵥ* C = r) (hnd : act.Nodup)
    (hlt : ∀ x ∈ act, x < n) (hact : ∀ x : Fin n, x.val ∈ act ↔ r x ≠ 0) (hmi : ∃ h : mi < n, r ⟨mi, h⟩ = mn) (hpos : 0 < mn)
    (hf : (act.length = 1 ∧ 1 ≤ fuel) ∨ mn.natAbs + 2 ≤ fuel) :
    ∃ mn' m' C' col', gcdLoop nd fuel act (List.ofFn r) mn mi col = .ok (List.ofFn (Pi.single m' mn'), mn', m'.val, col') ∧
      Loop r0 r mn mi C col mn' m' C' col' := by
  induction fuel generalizing act r mn mi C col with
  | zero => omega
  | succ fuel ih =>
    obtain ⟨hm, hmn⟩ := hmi
    rw [gcdLoop]
    by_cases c : act.length = 1
    · rw [if_pos c]
      have hr : r = Pi.single ⟨mi, hm⟩ mn := by
        funext x
        obtain ⟨a, ha⟩ := List.length_eq_one_iff.1 c
        have h1 : mi = a := by
          have := (hact ⟨mi, hm⟩).2 (by rw [hmn]; omega)
          rw [ha] at this; simpa using this
        by_cases e : x = ⟨mi, hm⟩
        · subst e; rw [Pi.single_eq_same, hmn]
        · rw [Pi.single_eq_of_ne e]
          by_contra h'
          have := (hact x).2 h'
          rw [ha, List.mem_singleton, ← h1] at this
          exact e (Fin.ext this)
      refine ⟨mn, ⟨mi, hm⟩, C, col, by rw [← hr], hrep, Iff.rfl, by rw [hrow, ← hr], rfl, hpos, fun _ => ⟨rfl, rfl, fun _ => rfl⟩⟩
    · rw [if_neg c, get_ofFn r ⟨mi, hm⟩, Res.ok_bind, hmn]
      obtain ⟨act', r', mn', mi', C', col', h1, h2⟩ := gcdPass_spec nd r0 ⟨mi, hm⟩ hpos act hrep hrow hmn hnd hlt (.inl ⟨rfl, rfl⟩)
      rw [h1, Res.ok_bind]
      have hact' : ∀ x : Fin n, x.val ∈ act' ↔ r' x ≠ 0 := by
        intro x
        rw [h2.mem x]
        constructor
        · exact fun h => h.2
        · intro h
          refine ⟨?_, h⟩
          by_contra h'
          rw [h2.out x h'] at h
          exact h' ((hact x).2 h)
      have hnd' := h2.sub.nodup hnd
      have hlt' : ∀ x ∈ act', x < n := fun x hx => hlt x (h2.sub.subset hx)
      have one : (∀ x : Fin n, x.val ∈ act → x ≠ ⟨mi, hm⟩ → r' x = 0) → act'.length = 1 := by
        intro h
        have : act' = [mi] := by
          have hmem : mi ∈ act' := (hact' ⟨mi, hm⟩).2 (by rw [h2.piv]; omega)
          have hall : ∀ x ∈ act', x = mi := by
            intro x hx
            have hx' := hlt' x hx
            by_contra hne
            exact (hact' ⟨x, hx'⟩).1 hx (h ⟨x, hx'⟩ (h2.sub.subset hx) (fun e => hne (congrArg Fin.val e)))
          cases ha : act' with
          | nil => rw [ha] at hmem; cases hmem
          | cons a t =>
            rw [ha] at hall hnd'
            obtain rfl := hall a (by simp)
            cases t with
            | nil => rfl
            | cons b t =>
              have := hall b (by simp)
              subst this
              simp at hnd'
        rw [this]; rfl
      rcases h2.cases with ⟨g1, g2, g3, g4⟩ | ⟨g, g1, g2, g3, g4, g5⟩
      · rw [Res.assertIn_bind nd (decide_eq_true (.inl (one g4)))]
        show ∃ mn'' m' C'' col'', gcdLoop nd fuel act' (List.ofFn r') mn' mi' col' = _ ∧ _
        have hm' : mi' < n := by rw [g1]; exact hm
        have hr' : r' ⟨mi', hm'⟩ = mn' := by
          rw [g2, ← h2.piv]; congr 1; exact Fin.ext g1
        have hf' : (act'.length = 1 ∧ 1 ≤ fuel) ∨ mn'.natAbs + 2 ≤ fuel := by
          refine .inl ⟨one g4, ?_⟩
          rcases hf with ⟨hf, _⟩ | hf
          · exact absurd hf c
          · omega
        obtain ⟨mn'', m'', C'', col'', k1, k2⟩ := ih h2.rep h2.row hnd' hlt' hact' ⟨hm', hr'⟩ (by omega) hf'
        refine ⟨mn'', m'', C'', col'', k1, k2.rep, k2.none.trans h2.none, k2.row, k2.det.trans h2.det, k2.pos, ?_⟩
        intro hdv
        have hdv' : ∀ x, mn' ∣ r' x := by
          intro x
          rw [g2]
          by_cases e : x = ⟨mi, hm⟩
          · rw [e, h2.piv]
          · by_cases e2 : x.val ∈ act
            · rw [g4 x e2 e]; exact dvd_zero _
            · rw [h2.out x e2]; exact hdv x
        obtain ⟨l1, l2, l3⟩ := k2.fix hdv'
        have e : m'' = ⟨mi, hm⟩ := Fin.ext (l1.trans g1)
        refine ⟨l1.trans g1, l2.trans g2, fun i => ?_⟩
        rw [l3 i, e, h2.fix i]
      · have hne : mi' ≠ mi := g1
        rw [Res.assertIn_bind nd (decide_eq_true (.inr hne))]
        show ∃ mn'' m' C'' col'', gcdLoop nd fuel act' (List.ofFn r') mn' mi' col' = _ ∧ _
        obtain ⟨mn'', m'', C'', col'', k1, k2⟩ := ih h2.rep h2.row hnd' hlt' hact' ⟨g, g2⟩ g3 (.inr (by
          rcases hf with ⟨hf, _⟩ | hf
          · exact absurd hf c
          · omega))
        refine ⟨mn'', m'', C'', col'', k1, k2.rep, k2.none.trans h2.none, k2.row, k2.det.trans h2.det, k2.pos, ?_⟩
        intro hdv
        -- impossible: the remainder is a positive multiple of `mn` below `mn`
        exfalso
        have hmem : mi' ∈ act := by
          rcases g5 with g5 | g5
          · exact absurd g5 hne
          · exact g5
        have hdr : mn ∣ r' ⟨mi', g⟩ := h2.dvd hdv _
        rw [g2] at hdr
        have := Int.le_of_dvd g3 hdr
        omega

/-- what `gcd` computes -/
structure GcdRes (r0 : Fin n → Int) (dest : Nat) (flip : Bool) (g : Int) (C : Matrix (Fin n) (Fin n) Int) (flip' : Bool) : Prop where
  row : r0 ᵥ* C = fun j => if j.val = dest then g else 0
  det : C.det = sgn (xor flip flip')
  zero : r0 = 0 → g = 0 ∧ C = 1 ∧ flip' = flip
  pos : r0 ≠ 0 → 0 < g
  fix : ∀ h : 0 < n, dest = 0 → 0 < r0 ⟨0, h⟩ → (∀ j, r0 ⟨0, h⟩ ∣ r0 j) →
    g = r0 ⟨0, h⟩ ∧ flip' = flip ∧ ∀ i, C i ⟨0, h⟩ = if i.val = 0 then 1 else 0

/-- the pivot has been made positive -/
structure Start (r0 r : Fin n → Int) (C : Matrix (Fin n) (Fin n) Int) (act : List Nat) (mn : Int) (mi : Nat) : Prop where
  row : r0 ᵥ* C = r
  nodup : act.Nodup
  lt : ∀ x ∈ act, x < n
  act : ∀ x : Fin n, x.val ∈ act ↔ r x ≠ 0
  mi : ∃ h : mi < n, r ⟨mi, h⟩ = mn
  pos : 0 < mn

theorem gcdMain_some (nd : Bool) {r0 r : Fin n → Int} {C : Matrix (Fin n) (Fin n) Int} {act : List Nat} {mn : Int} {mi : Nat}
    (h : Start r0 r C act mn mi) (flip : Bool) {dest : Nat} (hdest : dest < n) :
    ∃ g C' flip', gcdMain nd act (List.ofFn r) mn mi (some (enc C)) flip dest = .ok (g, some (enc C'), flip') ∧
      (r0 ᵥ* C' = fun j => if j.val = dest then g else 0) ∧ C'.det = sgn (xor flip flip') * C.det ∧ 0 < g ∧
      ((∀ x, mn ∣ r x) → mi = dest → g = mn ∧ flip' = flip ∧ ∀ i, C' i ⟨dest, hdest⟩ = C i ⟨dest, hdest⟩) := by
  obtain ⟨mn', m', C', col', h1, h2⟩ := gcdLoop_spec nd r0 (mn.natAbs + 2) (.inr rfl) h.row h.nodup h.lt h.act h.mi h.pos (.inr le_rfl)
  have hcol : col' = some (enc C') := by
    rcases h2.rep with e | e
    · exact absurd (h2.none.1 e) (by simp)
    · exact e
  subst hcol
  rw [gcdMain, h1, Res.ok_bind]
  by_cases c : m'.val = dest
  · refine ⟨mn', C', flip, ?_, ?_, ?_, h2.pos, ?_⟩
    · show (if m'.val ≠ dest then _ else _) = _
      rw [if_neg (by simp [c]), Res.pure_eq]
    · rw [h2.row]; funext j
      by_cases e : j = m'
      · rw [e, Pi.single_eq_same, if_pos c]
      · rw [Pi.single_eq_of_ne e, if_neg (fun e' => e (Fin.ext (e'.trans c.symm)))]
    · rw [h2.det]; simp
    · intro hdv hmd
      obtain ⟨k1, k2, k3⟩ := h2.fix hdv
      have : (⟨dest, hdest⟩ : Fin n) = m' := Fin.ext c.symm
      rw [this]
      exact ⟨k2, rfl, k3⟩
  · have hne : m' ≠ ⟨dest, hdest⟩ := fun e => c (congrArg Fin.val e)
    refine ⟨mn', C'.submatrix id (Equiv.swap ⟨dest, hdest⟩ m'), !flip, ?_, ?_, ?_, h2.pos, ?_⟩
    · show (if m'.val ≠ dest then (do
        let M ← swapCols nd (enc C') dest m'.val
        pure (mn', some M, !flip)) else _) = _
      rw [if_pos c]
      have := C45_swapCols nd C' ⟨dest, hdest⟩ m'
      rw [show swapCols nd (enc C') dest m'.val = _ from this, Res.ok_bind, Res.pure_eq]
    · funext j
      have e : (r0 ᵥ* C'.submatrix id (Equiv.swap ⟨dest, hdest⟩ m')) j = (r0 ᵥ* C') (Equiv.swap ⟨dest, hdest⟩ m' j) := rfl
      rw [e, h2.row]
      by_cases e1 : j = ⟨dest, hdest⟩
      · subst e1; rw [Equiv.swap_apply_left, Pi.single_eq_same, if_pos rfl]
      · rw [if_neg (fun e' => e1 (Fin.ext e'))]
        apply Pi.single_eq_of_ne
        intro e2
        apply e1
        have := congrArg (Equiv.swap ⟨dest, hdest⟩ m') e2
        rw [Equiv.swap_apply_right, Equiv.swap_apply_self] at this
        exact this
    · have := Matrix.det_permute' (Equiv.swap ⟨dest, hdest⟩ m') C'
      rw [this, h2.det, Equiv.Perm.sign_swap (Ne.symm hne)]
      cases flip <;> simp
    · intro hdv hmd
      exact absurd ((h2.fix hdv).1.trans hmd) c

theorem gcdMain_none (nd : Bool) {r0 r : Fin n → Int} {C : Matrix (Fin n) (Fin n) Int} {act : List Nat} {mn : Int} {mi : Nat}
    (h : Start r0 r C act mn mi) (flip : Bool) (dest : Nat) :
    ∃ g C' m', gcdMain nd act (List.ofFn r) mn mi none flip dest = .ok (g, none, flip) ∧
      r0 ᵥ* C' = Pi.single m' g ∧ C'.det = C.det ∧ 0 < g := by
  obtain ⟨mn', m', C', col', h1, h2⟩ := gcdLoop_spec nd r0 (mn.natAbs + 2) (.inl rfl) h.row h.nodup h.lt h.act h.mi h.pos (.inr le_rfl)
  obtain rfl := h2.none.2 rfl
  rw [gcdMain, h1, Res.ok_bind]
  exact ⟨mn', C', m', rfl, h2.row, h2.det, h2.pos⟩

theorem scan_zero {r : Fin n → Int} {mn : Int} {mi : Nat} (h : Scan r n [] mn mi) : r = 0 := by
  funext x
  by_contra hx
  have := (h.mem x).2 ⟨x.2, hx⟩
  cases this

theorem enc_one_set (mi : Fin n) : (enc (1 : Matrix (Fin n) (Fin n) Int)).set mi mi (-1) =
    .ok (enc (Matrix.diagonal (Function.update 1 mi (-1)))) := by
  rw [C45_set]
  congr 2
  ext i j
  by_cases h1 : i = mi
  · subst h1
    rw [Matrix.updateRow_self]
    by_cases h2 : j = i
    · subst h2; simp
    · rw [Function.update_of_ne h2, Matrix.diagonal_apply_ne _ (Ne.symm h2), Matrix.one_apply_ne (Ne.symm h2)]
  · rw [Matrix.updateRow_ne h1]
    by_cases h2 : i = j
    · subst h2; rw [Matrix.diagonal_apply_eq, Function.update_of_ne h1]; simp
    · rw [Matrix.diagonal_apply_ne _ h2, Matrix.one_apply_ne h2]

theorem scan_facts {r0 : Fin n → Int} {act : List Nat} {mn : Int} {mi : Nat} (h : Scan r0 n act mn mi) (hne : act ≠ []) :
    ∃ hm : mi < n, r0 ≠ 0 ∧
      (0 ≤ r0 ⟨mi, hm⟩ → Start r0 r0 1 act mn mi) ∧
      (r0 ⟨mi, hm⟩ < 0 → Start r0 (Function.update r0 ⟨mi, hm⟩ (-r0 ⟨mi, hm⟩)) (Matrix.diagonal (Function.update 1 ⟨mi, hm⟩ (-1))) act mn mi) := by
  obtain ⟨hm, h1, h2, h3, h4, h5⟩ := h.mi hne
  have h0 : r0 ⟨mi, hm⟩ ≠ 0 := ((h.mem ⟨mi, hm⟩).1 h1).2
  refine ⟨hm, fun e => h0 (by rw [e]; rfl), ?_, ?_⟩
  · intro hp
    refine ⟨by simp, h.nodup, h.lt, fun x => ?_, ⟨hm, by omega⟩, by omega⟩
    rw [h.mem x]; exact ⟨fun h => h.2, fun h => ⟨x.2, h⟩⟩
  · intro hp
    refine ⟨?_, h.nodup, h.lt, fun x => ?_, ⟨hm, by rw [Function.update_self]; omega⟩, by omega⟩
    · funext j
      rw [Matrix.vecMul_diagonal]
      by_cases e : j = ⟨mi, hm⟩
      · subst e; simp
      · simp [Function.update_of_ne e]
    · rw [h.mem x]
      by_cases e : x = ⟨mi, hm⟩
      · subst e; simp [hm]
      · simp [Function.update_of_ne e]

theorem det_flip (mi : Fin n) : (Matrix.diagonal (Function.update (1 : Fin n → Int) mi (-1))).det = -1 := by
  rw [Matrix.det_diagonal, Finset.prod_update_of_mem (Finset.mem_univ _)]
  simp

theorem gcd_spec (nd : Bool) (r0 : Fin n → Int) (flip : Bool) (dest : Nat) (hdest : dest < n ∨ r0 = 0) :
    ∃ g C flip', gcd nd (List.ofFn r0) true flip dest = .ok (g, some (enc C), flip') ∧ GcdRes r0 dest flip g C flip' := by
  obtain ⟨act, mn, mi, h1, h2⟩ := gcdScan_spec r0 n (j := 0) (act := []) (mn := 0) (mi := 0) (by omega)
    ⟨fun x => by simp, by simp, by simp, by simp, by simp⟩
  have hlen : (List.ofFn r0).length = n := by simp
  rw [gcd, hlen, if_pos rfl, C45_identity, Res.ok_bind, Res.pure_eq, Res.ok_bind, h1, Res.ok_bind]
  by_cases c : act = []
  · subst c
    obtain rfl := scan_zero h2
    refine ⟨0, 1, flip, by rw [if_pos rfl, Res.pure_eq], ?_, by simp, fun _ => ⟨rfl, rfl, rfl⟩, fun h => absurd rfl h, ?_⟩
    · funext j; simp
    · intro h _ h'; exact absurd h' (by simp)
  · obtain ⟨hm, k0, k1, k2⟩ := scan_facts h2 c
    have hdest' : dest < n := by
      rcases hdest with h | h
      · exact h
      · exact absurd h k0
    have hmi0 : ∀ h : 0 < n, 0 < r0 ⟨0, h⟩ → (∀ j, r0 ⟨0, h⟩ ∣ r0 j) → mi = 0 ∧ mn = r0 ⟨0, h⟩ := by
      intro h hp hdv
      obtain ⟨_, m1, m2, m3, m4, m5⟩ := h2.mi c
      have hle : mn ≤ (r0 ⟨0, h⟩).natAbs := m4 ⟨0, h⟩ h (by omega)
      have hge : r0 ⟨0, h⟩ ≤ mn := by
        rw [m2]
        have : r0 ⟨0, h⟩ ∣ ((r0 ⟨mi, hm⟩).natAbs : Int) := Int.dvd_natAbs.2 (hdv _)
        exact Int.le_of_dvd (by omega) this
      have : mi = 0 := by
        by_contra hmi
        have := m5 ⟨0, h⟩ (by show 0 < mi; omega) (by omega)
        omega
      exact ⟨this, by omega⟩
    rw [if_neg c, get_ofFn r0 ⟨mi, hm⟩, Res.ok_bind]
    by_cases hs : r0 ⟨mi, hm⟩ < 0
    · rw [if_pos hs, put_ofFn r0 ⟨mi, hm⟩, Res.ok_bind]
      have e : onCol (some (enc (1 : Matrix (Fin n) (Fin n) Int))) (fun M => M.set mi mi (-1)) =
          .ok (some (enc (Matrix.diagonal (Function.update 1 ⟨mi, hm⟩ (-1))))) := by
        show (do pure (some (← (enc (1 : Matrix (Fin n) (Fin n) Int)).set mi mi (-1))) : Res (Option (Mat Int))) = _
        rw [show (enc (1 : Matrix (Fin n) (Fin n) Int)).set mi mi (-1) = _ from enc_one_set ⟨mi, hm⟩, Res.ok_bind, Res.pure_eq]
      rw [e, Res.ok_bind]
      obtain ⟨g, C', flip', g1, g2, g3, g4, g5⟩ := gcdMain_some nd (k2 hs) (!flip) hdest'
      refine ⟨g, C', flip', g1, g2, ?_, fun h => absurd h k0, fun _ => g4, ?_⟩
      · rw [g3, det_flip]; cases flip <;> cases flip' <;> rfl
      · intro h _ hp hdv
        obtain ⟨e1, _⟩ := hmi0 h hp hdv
        have : (⟨mi, hm⟩ : Fin n) = ⟨0, h⟩ := Fin.ext e1
        rw [this] at hs; omega
    · rw [if_neg hs]
      obtain ⟨g, C', flip', g1, g2, g3, g4, g5⟩ := gcdMain_some nd (k1 (by omega)) flip hdest'
      refine ⟨g, C', flip', g1, g2, ?_, fun h => absurd h k0, fun _ => g4, ?_⟩
      · rw [g3, Matrix.det_one, mul_one]
      · intro h hd hp hdv
        subst hd
        obtain ⟨e1, e2⟩ := hmi0 h hp hdv
        obtain ⟨l1, l2, l3⟩ := g5 (by rw [e2]; exact hdv) e1
        refine ⟨l1.trans e2, l2, fun i => ?_⟩
        rw [l3 i, Matrix.one_apply]
        by_cases e3 : i.val = 0
        · rw [if_pos e3, if_pos (Fin.ext e3)]
        · rw [if_neg e3, if_neg (fun e' => e3 (congrArg Fin.val e'))]

/-- the value is the greatest common divisor -/
theorem gcd_unique {r0 : Fin n → Int} {C : Matrix (Fin n) (Fin n) Int} {m : Fin n} {g : Int} (h : r0 ᵥ* C = Pi.single m g)
    (hu : IsUnit C.det) (hg : 0 ≤ g) : g = univ.gcd r0 := by
  have h1 : univ.gcd r0 ∣ g := by
    have : g = (r0 ᵥ* C) m := by rw [h, Pi.single_eq_same]
    rw [this, Matrix.vecMul, dotProduct]
    exact Finset.dvd_sum fun i _ => Dvd.dvd.mul_right (Finset.gcd_dvd (Finset.mem_univ i)) _
  have h2 : g ∣ univ.gcd r0 := by
    apply Finset.dvd_gcd
    intro j _
    have : r0 = (Pi.single m g : Fin n → Int) ᵥ* C⁻¹ := by
      rw [← h, Matrix.vecMul_vecMul, Matrix.mul_nonsing_inv C hu, Matrix.vecMul_one]
    rw [this, Matrix.vecMul, dotProduct]
    refine Finset.dvd_sum fun i _ => Dvd.dvd.mul_right ?_ _
    by_cases e : i = m
    · subst e; rw [Pi.single_eq_same]
    · rw [Pi.single_eq_of_ne e]; exact dvd_zero g
  have h3 : univ.gcd r0 = normalize g := by
    rw [← Finset.normalize_gcd]
    exact normalize_eq_normalize h1 h2
  rw [h3, Int.normalize_of_nonneg hg]

theorem GcdRes.value {r0 : Fin n → Int} {dest : Nat} {flip flip' : Bool} {g : Int} {C : Matrix (Fin n) (Fin n) Int}
    (h : GcdRes r0 dest flip g C flip') (hdest : dest < n ∨ r0 = 0) : g = univ.gcd r0 := by
  by_cases c : r0 = 0
  · rw [(h.zero c).1, c]
    symm; rw [Finset.gcd_eq_zero_iff]; intros; rfl
  · rcases hdest with hdest | hdest
    · refine gcd_unique (C := C) (m := ⟨dest, hdest⟩) ?_ ?_ (h.pos c).le
      · rw [h.row]; funext j
        by_cases e : j = ⟨dest, hdest⟩
        · subst e; rw [Pi.single_eq_same, if_pos rfl]
        · rw [Pi.single_eq_of_ne e, if_neg (fun e' => e (Fin.ext e'))]
      · rw [h.det]; exact sgn_unit _
    · exact absurd hdest c

/-- without recording, the same value is returned -/
theorem gcd_none_spec (nd : Bool) (r0 : Fin n → Int) (flip : Bool) (dest : Nat) :
    ∃ flip', gcd nd (List.ofFn r0) false flip dest = .ok (univ.gcd r0, none, flip') := by
  obtain ⟨act, mn, mi, h1, h2⟩ := gcdScan_spec r0 n (j := 0) (act := []) (mn := 0) (mi := 0) (by omega)
    ⟨fun x => by simp, by simp, by simp, by simp, by simp⟩
  have hlen : (List.ofFn r0).length = n := by simp
  rw [gcd, hlen, if_neg (by simp), Res.pure_eq, Res.ok_bind, h1, Res.ok_bind]
  by_cases c : act = []
  · subst c
    obtain rfl := scan_zero h2
    have : univ.gcd (0 : Fin n → Int) = 0 := by rw [Finset.gcd_eq_zero_iff]; intros; rfl
    exact ⟨flip, by rw [if_pos rfl, Res.pure_eq, this]⟩
  · obtain ⟨hm, k0, k1, k2⟩ := scan_facts h2 c
    rw [if_neg c, get_ofFn r0 ⟨mi, hm⟩, Res.ok_bind]
    by_cases hs : r0 ⟨mi, hm⟩ < 0
    · rw [if_pos hs, put_ofFn r0 ⟨mi, hm⟩, Res.ok_bind]
      obtain ⟨g, C', m', g1, g2, g3, g4⟩ := gcdMain_none nd (k2 hs) (!flip) dest
      refine ⟨!flip, ?_⟩
      rw [← gcd_unique g2 (by rw [g3, det_flip]; simp) g4.le]
      exact g1
    · rw [if_neg hs]
      obtain ⟨g, C', m', g1, g2, g3, g4⟩ := gcdMain_none nd (k1 (by omega)) flip dest
      refine ⟨flip, ?_⟩
      rw [← gcd_unique g2 (by rw [g3]; simp) g4.le]
      exact g1

end Verif.Mat
