import Verif.F2.Mod2
/-
C35: the solution basis of `Mod2_System`.
-/
namespace Verif.F2
open Verif

theorem basisInit_spec (nd : Bool) {n : Nat} : ∀ (l : List (Option Nat)) (j : Nat) (J : List Nat) (inx : List (Option Nat)), j + l.length = n →
    inx.length = j → (∀ (i k : Nat), inx[i]? = some (some k) ↔ J[k]? = some i) → (∀ i ∈ J, i < j) → J.Nodup →
    ∃ (J' : List Nat) (inx' : List (Option Nat)), basisInit nd n l j (J.map fun i => 1 <<< i) inx = .ok (J'.map fun i => 1 <<< i, inx') ∧ inx'.length = n ∧
      (∀ (i k : Nat), inx'[i]? = some (some k) ↔ J'[k]? = some i) ∧ J'.Nodup ∧ (∀ i ∈ J', i < n) ∧
      ∀ i, i ∈ J' ↔ i ∈ J ∨ ∃ m, i = j + m ∧ l[m]? = some none := by
  intro l
  induction l with
  | nil =>
    intro j J inx hj hi h1 h2 h3
    rw [List.length_nil, Nat.add_zero] at hj
    refine ⟨J, inx, rfl, by omega, h1, h3, fun i hi => by have := h2 i hi; omega, fun i => ?_⟩
    simp
  | cons o l ih =>
    intro j J inx hj hi h1 h2 h3
    rw [List.length_cons] at hj
    cases o with
    | none =>
      have hjn : j < n := by omega
      rw [basisInit, bmInsert_ok nd 0 hjn, Res.ok_bind, Nat.zero_or, List.length_map]
      have e : (J.map fun i => 1 <<< i) ++ [1 <<< j] = (J ++ [j]).map fun i => 1 <<< i := by rw [List.map_append]; rfl
      rw [e]
      obtain ⟨J', inx', g1, g2, g3, g4, g5, g6⟩ := ih (j + 1) (J ++ [j]) (inx ++ [some J.length]) (by omega) (by simp [hi])
        (by
          intro i k
          rw [List.getElem?_append, List.getElem?_append]
          by_cases a : i < inx.length
          · rw [if_pos a, h1]
            by_cases b : k < J.length
            · rw [if_pos b]
            · rw [if_neg b]
              constructor
              · intro h
                have := (List.getElem?_eq_some_iff.1 h).1
                omega
              · intro h
                have hk := (List.getElem?_eq_some_iff.1 h).1
                rw [List.length_singleton] at hk
                rw [show k - J.length = 0 by omega] at h
                have : j = i := by simpa using h
                omega
          · rw [if_neg a]
            by_cases b : k < J.length
            · rw [if_pos b]
              constructor
              · intro h
                have hk := (List.getElem?_eq_some_iff.1 h).1
                rw [List.length_singleton] at hk
                rw [show i - inx.length = 0 by omega] at h
                have : J.length = k := by simpa using h
                omega
              · intro h
                have := h2 i (List.mem_of_getElem? h)
                omega
            · rw [if_neg b]
              constructor
              · intro h
                have hk := (List.getElem?_eq_some_iff.1 h).1
                rw [List.length_singleton] at hk
                rw [show i - inx.length = 0 by omega] at h
                have e1 : J.length = k := by simpa using h
                rw [show k - J.length = 0 by omega]
                simp; omega
              · intro h
                have hk := (List.getElem?_eq_some_iff.1 h).1
                rw [List.length_singleton] at hk
                rw [show k - J.length = 0 by omega] at h
                have e1 : j = i := by simpa using h
                rw [show i - inx.length = 0 by omega]
                simp; omega)
        (by
          intro i hi
          rcases List.mem_append.1 hi with hi | hi
          · have := h2 i hi; omega
          · have := List.mem_singleton.1 hi; omega)
        (by
          rw [List.nodup_append]
          refine ⟨h3, by simp, ?_⟩
          intro a ha b hb
          rw [List.mem_singleton] at hb
          have := h2 a ha
          omega)
      refine ⟨J', inx', g1, g2, g3, g4, g5, fun i => ?_⟩
      rw [g6, List.mem_append, List.mem_singleton, or_assoc]
      refine or_congr_right ?_
      constructor
      · rintro (h | ⟨m, h, hm⟩)
        · exact ⟨0, by omega, rfl⟩
        · exact ⟨m + 1, by omega, by rw [List.getElem?_cons_succ]; exact hm⟩
      · rintro ⟨m, h, hm⟩
        cases m with
        | zero => exact Or.inl (by omega)
        | succ m =>
          rw [List.getElem?_cons_succ] at hm
          exact Or.inr ⟨m, by omega, hm⟩
    | some q =>
      rw [basisInit]
      obtain ⟨J', inx', g1, g2, g3, g4, g5, g6⟩ := ih (j + 1) J (inx ++ [none]) (by omega) (by simp [hi])
        (by
          intro i k
          rw [← h1, List.getElem?_append]
          by_cases a : i < inx.length
          · rw [if_pos a]
          · rw [if_neg a]
            constructor
            · intro h
              have hk := (List.getElem?_eq_some_iff.1 h).1
              rw [List.length_singleton] at hk
              rw [show i - inx.length = 0 by omega] at h
              simp at h
            · intro h
              have hk := (List.getElem?_eq_some_iff.1 h).1
              omega)
        (fun i hi => by have := h2 i hi; omega) h3
      refine ⟨J', inx', g1, g2, g3, g4, g5, fun i => ?_⟩
      rw [g6]
      refine or_congr_right ?_
      constructor
      · rintro ⟨m, h, hm⟩
        exact ⟨m + 1, by omega, by rw [List.getElem?_cons_succ]; exact hm⟩
      · rintro ⟨m, h, hm⟩
        cases m with
        | zero => simp at hm
        | succ m =>
          rw [List.getElem?_cons_succ] at hm
          exact ⟨m, by omega, hm⟩

theorem basisRow_spec (nd : Bool) {n p : Nat} (hp : p < n) {inx : List (Option Nat)} {J : List Nat} (hJ : J.Nodup) (hJn : ∀ j ∈ J, j < n)
    (hinx : ∀ (i k : Nat), inx[i]? = some (some k) ↔ J[k]? = some i) : ∀ (L : List Nat), (∀ i ∈ L, i ∈ J) → ∀ k : Nat → Nat,
      (∀ j ∈ J, (k j).testBit j = true) →
      basisRow nd n p inx L (J.map k) = .ok (J.map fun j => if j ∈ L then k j ||| 1 <<< p else k j) := by
  intro L
  induction L with
  | nil => intro _ k _; rw [basisRow]; simp
  | cons i L ih =>
    intro hL k hk
    obtain ⟨a, ha⟩ := List.mem_iff_getElem?.1 (hL i List.mem_cons_self)
    have hal : a < J.length := (List.getElem?_eq_some_iff.1 ha).1
    have hJa : J[a] = i := (List.getElem?_eq_some_iff.1 ha).2
    have h1 : Vec.get inx i = .ok (some a) := by unfold Vec.get; rw [(hinx i a).2 ha]
    have h2 : Vec.get (J.map k) a = .ok (k i) := by unfold Vec.get; rw [List.getElem?_map, ha]; rfl
    rw [basisRow, h1, Res.ok_bind]
    simp only
    rw [h2, Res.ok_bind, Res.assertIn_bind nd (by simp [bmMember, hk i (hL i List.mem_cons_self), hJn i (hL i List.mem_cons_self)]),
      bmInsert_ok nd _ hp, Res.ok_bind, Vec.put_ok (by simpa using hal), Res.ok_bind]
    have e : (J.map k).set a (k i ||| 1 <<< p) = J.map fun j => if j = i then k j ||| 1 <<< p else k j := by
      apply List.ext_getElem (by simp)
      intro b hb1 hb2
      rw [List.length_map] at hb2
      rw [List.getElem_set, List.getElem_map, List.getElem_map]
      by_cases hab : a = b
      · subst hab
        rw [if_pos rfl, hJa, if_pos rfl]
      · rw [if_neg hab, if_neg]
        intro h
        exact hab ((List.Nodup.getElem_inj_iff hJ).1 (hJa.trans h.symm))
    rw [e, ih (fun q hq => hL q (List.mem_cons_of_mem _ hq)) _ (by
      intro j hj
      have := hk j hj
      by_cases h : j = i
      · rw [if_pos h, Nat.testBit_or, this]; rfl
      · rw [if_neg h]; exact this)]
    congr 1
    apply List.map_congr_left
    intro j hj
    by_cases h1 : j = i
    · subst h1
      by_cases h2 : j ∈ L
      · simp [h2]
      · simp [h2]
    · by_cases h2 : j ∈ L <;> simp [h1, h2]

theorem basisLoop_spec (nd : Bool) {n : Nat} {inx : List (Option Nat)} {J : List Nat} (hJ : J.Nodup) (hJn : ∀ j ∈ J, j < n)
    (hinx : ∀ (i k : Nat), inx[i]? = some (some k) ↔ J[k]? = some i) : ∀ (t : Eqs), Red n (prs t) →
      (∀ y ∈ t, ∀ i, y.1.1.testBit i = true → i ≠ y.1.2 → i ∈ J) → ∀ k : Nat → Nat,
      (∀ j ∈ J, (k j).testBit j = true) → (∀ j ∈ J, k j < 2 ^ n) → ∃ k' : Nat → Nat,
      basisLoop nd n inx (enc n t) (J.map k) = .ok (J.map k') ∧ (∀ j ∈ J, k' j < 2 ^ n) ∧
        (∀ j ∈ J, ∀ y ∈ t, j ≠ y.1.2 → (k' j).testBit y.1.2 = ((k j).testBit y.1.2 || y.1.1.testBit j)) ∧
        ∀ j ∈ J, ∀ i, i ∉ pivs t → (k' j).testBit i = (k j).testBit i := by
  intro t
  induction t with
  | nil => intro _ _ k _ hk; exact ⟨k, rfl, hk, by simp, fun _ _ _ _ => rfl⟩
  | cons y t ih =>
    intro hR hfree k hk hkn
    have hpos : y.1.2 < n := hR.tri.pos (x := y.1) List.mem_cons_self
    have hlt : y.1.1 < 2 ^ n := hR.lt y.1 List.mem_cons_self
    have hld := hR.lead y.1 List.mem_cons_self
    obtain ⟨l, g1, g2, g3⟩ := bmMembers_head hlt hld
    have hnp : y.1.2 ∉ pivs t := by
      intro h
      obtain ⟨z, hz, e⟩ := List.mem_map.1 h
      have h1 := ((List.pairwise_cons.1 hR.red).1 z.1 (List.mem_map_of_mem hz)).1
      rw [← e, (hR.lead z.1 (List.mem_cons_of_mem _ (List.mem_map_of_mem (f := Prod.fst) hz))).1] at h1
      cases h1
    rw [enc_cons, basisLoop]
    simp only
    rw [get_head n hlt hld, Res.ok_bind, g1, List.tail_cons, basisRow_spec nd hpos hJ hJn hinx l
      (fun i hi => hfree y List.mem_cons_self i ((g3 i).1 hi).1 ((g3 i).1 hi).2) k hk, Res.ok_bind]
    obtain ⟨k', r1, r2, r3, r4⟩ := ih hR.tail (fun z hz => hfree z (List.mem_cons_of_mem _ hz))
      (fun j => if j ∈ l then k j ||| 1 <<< y.1.2 else k j) (by
        intro j hj
        by_cases h : j ∈ l
        · rw [if_pos h, Nat.testBit_or, hk j hj]; rfl
        · rw [if_neg h]; exact hk j hj) (by
        intro j hj
        by_cases h : j ∈ l
        · rw [if_pos h]
          apply Nat.or_lt_two_pow (hkn j hj)
          rw [Nat.shiftLeft_eq, Nat.one_mul]
          exact Nat.pow_lt_pow_right (by omega) hpos
        · rw [if_neg h]; exact hkn j hj)
    have hstep : ∀ j i, i ≠ y.1.2 → (if j ∈ l then k j ||| 1 <<< y.1.2 else k j).testBit i = (k j).testBit i := by
      intro j i hi
      by_cases h : j ∈ l
      · rw [if_pos h, Nat.testBit_or, testBit_one_shift]; simp [Ne.symm hi]
      · rw [if_neg h]
    refine ⟨k', r1, r2, ?_, ?_⟩
    · intro j hj z hz hne
      rcases List.mem_cons.1 hz with rfl | hz
      · rw [r4 j hj _ hnp]
        by_cases h : j ∈ l
        · rw [if_pos h, Nat.testBit_or, testBit_one_shift, ((g3 j).1 h).1]; simp
        · rw [if_neg h]
          have : z.1.1.testBit j = false := by
            cases hb : z.1.1.testBit j with
            | false => rfl
            | true => exact absurd ((g3 j).2 ⟨hb, hne⟩) h
          rw [this, Bool.or_false]
      · rw [r3 j hj z hz hne, hstep]
        rintro e
        exact hnp (e ▸ List.mem_map_of_mem (f := fun z : (Nat × Nat) × Bool => z.1.2) hz)
    · intro j hj i hi
      have hi' : i ≠ y.1.2 ∧ i ∉ pivs t := by
        constructor
        · intro e; exact hi (e ▸ List.mem_cons_self)
        · intro h; exact hi (List.mem_cons_of_mem _ h)
      rw [r4 j hj i hi'.2, hstep j i hi'.1]

end Verif.F2
