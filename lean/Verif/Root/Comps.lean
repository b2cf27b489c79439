import Verif.Root.Neg
import Mathlib.Logic.Relation
/-
Connected components of sets of roots (`components`), and long roots.
-/
namespace Verif.Root
open Verif.Coxeter CoxeterSystem

/-- `x` and `y` are in the set `P` and are linked by a chain of roots of `P` in which no root is orthogonal to the next -/
def Spec.Linked {rk : Nat} (C : Fin rk → Fin rk → ℤ) (R R' : Nat → Fin rk → ℤ) (P : Nat → Prop) : Nat → Nat → Prop :=
  Relation.ReflTransGen fun x y => P x ∧ P y ∧ Spec.pair C (R x) (R' y) ≠ 0

/-- the sets `r` are the connected components of the set `P` of roots -/
structure Spec.Components {rk : Nat} (C : Fin rk → Fin rk → ℤ) (R R' : Nat → Fin rk → ℤ) (n : Nat) (P : Nat → Prop) (r : List (List Bool)) : Prop where
  /-- the sets are not empty -/
  nonempty : ∀ c ∈ r, ∃ k, RS.bit c k = true
  /-- their elements are those of `P` -/
  cover : ∀ k, (∃ c ∈ r, RS.bit c k = true) ↔ k < n ∧ P k
  /-- no two of them intersect -/
  disjoint : r.Pairwise fun c d => ∀ k, ¬ (RS.bit c k = true ∧ RS.bit d k = true)
  /-- each of them is formed of the roots that are linked to any of its roots -/
  linked : ∀ c ∈ r, c.length = n ∧ ∀ a, RS.bit c a = true → ∀ b, RS.bit c b = true ↔ Spec.Linked C R R' (fun k => k < n ∧ P k) a b

section
variable {rk : Nat} {M : CoxeterMatrix (Fin rk)} {W : Type} [Group W] (cs : CoxeterSystem M W) {C : Fin rk → Fin rk → ℤ} (h : IsCartan C M)
variable {nd pc : Bool} {N : Nat} {R R' : Nat → Fin rk → ℤ} {rs : RS}
variable (hN : Spec.Numbering C pc N R R') (hA : Spec.Answers nd C pc N R R' rs)

theorem pairwise_ne {α : Type} {S : α → α → Prop} (hs : ∀ a b, S a b → S b a) : ∀ {l : List α}, l.Pairwise S → ∀ {a b : α}, a ∈ l → b ∈ l → a ≠ b → S a b
  | [], _, _, _, ha, _, _ => by simp at ha
  | c :: l, hp, a, b, ha, hb, hne => by
    rw [List.pairwise_cons] at hp
    rcases List.mem_cons.mp ha with ha' | ha' <;> rcases List.mem_cons.mp hb with hb' | hb'
    · exact absurd (ha'.trans hb'.symm) hne
    · exact ha' ▸ hp.1 b hb'
    · exact hb' ▸ hs _ _ (hp.1 a ha')
    · exact pairwise_ne hs hp.2 ha' hb' hne

theorem bit_lt {c : List Bool} {k : Nat} (hk : RS.bit c k = true) : k < c.length := by
  by_contra hc
  rw [RS.bit, List.getElem?_eq_none (by omega)] at hk
  simp at hk

theorem mem_members' {c : List Bool} {k : Nat} : k ∈ members c ↔ RS.bit c k = true := by
  rw [members, List.mem_filter, List.mem_range]
  exact ⟨fun g => g.2, fun g => ⟨bit_lt g, g⟩⟩

include hA in
theorem stick_ok {a : Nat} (ha : a < 2 * N) : ∀ (bs : List Nat), (∀ b ∈ bs, b < 2 * N) →
    ∃ x, rs.stick a bs = .ok x ∧ (x = true ↔ ∃ b ∈ bs, Spec.pair C (R a) (R' b) ≠ 0)
  | [], _ => ⟨false, rfl, by simp⟩
  | b :: bs, hb => by
    obtain ⟨x, h1, h2⟩ := hA.isOrthogonal a ha b (hb b (by simp))
    rw [RS.stick, h1, Res.ok_bind]
    by_cases hx : x = true
    · rw [if_pos hx]
      obtain ⟨y, y1, y2⟩ := stick_ok ha bs fun b hb' => hb b (by simp [hb'])
      refine ⟨y, y1, ?_⟩
      rw [y2]
      simp [h2.mp hx]
    · rw [if_neg hx]
      refine ⟨true, rfl, iff_of_true rfl ⟨b, by simp, ?_⟩⟩
      rwa [ne_eq, ← h2]

/-- `c` meets a root not orthogonal to `a` -/
def Touches (C : Fin rk → Fin rk → ℤ) (R R' : Nat → Fin rk → ℤ) (a : Nat) (c : List Bool) : Prop := ∃ b, RS.bit c b = true ∧ Spec.pair C (R a) (R' b) ≠ 0

open Classical in
include hA in
theorem adhereLoop_ok {a : Nat} (ha : a < 2 * N) : ∀ (l stay adh : List (List Bool)), (∀ c ∈ l, c.length = 2 * N) →
    rs.adhereLoop a l stay adh = .ok (stay ++ l.filter (fun c => ¬ Touches C R R' a c), adh ++ l.filter fun c => Touches C R R' a c)
  | [], stay, adh, _ => by simp [RS.adhereLoop]
  | c :: l, stay, adh, hl => by
    obtain ⟨x, x1, x2⟩ := stick_ok hA ha (members c) fun b hb => by
      have := bit_lt (mem_members'.mp hb)
      rwa [hl c (by simp)] at this
    have hx : x = true ↔ Touches C R R' a c := by
      rw [x2]
      exact exists_congr fun b => by rw [mem_members']
    have hl' : ∀ c ∈ l, c.length = 2 * N := fun d hd => hl d (by simp [hd])
    rw [RS.adhereLoop, x1, Res.ok_bind]
    by_cases ht : Touches C R R' a c
    · rw [if_pos (hx.mpr ht), adhereLoop_ok ha l _ _ hl']
      simp [ht]
    · rw [if_neg (fun hc => ht (hx.mp hc)), adhereLoop_ok ha l _ _ hl']
      simp [ht]

theorem uniteLoop_ok {m : Nat} : ∀ (ds : List (List Bool)) (c : List Bool), c.length = m → (∀ d ∈ ds, d.length = m) →
    (RS.uniteLoop ds c).length = m ∧ ∀ k, RS.bit (RS.uniteLoop ds c) k = true ↔ RS.bit c k = true ∨ ∃ d ∈ ds, RS.bit d k = true
  | [], c, hc, _ => ⟨hc, fun k => by simp [RS.uniteLoop]⟩
  | d :: ds, c, hc, hd => by
    have hb : ∀ e : List Bool, e.length = m → Spec.Bits e m fun k => RS.bit e k = true := fun e he => ⟨he, fun k _ => Iff.rfl⟩
    have h1 := bits_or (hb c hc) (hb d (hd d (by simp)))
    obtain ⟨h2, h3⟩ := uniteLoop_ok ds (RS.orBits c d) h1.1 fun e he => hd e (by simp [he])
    refine ⟨h2, fun k => ?_⟩
    rw [RS.uniteLoop, h3]
    have h4 : RS.bit (RS.orBits c d) k = true ↔ RS.bit c k = true ∨ RS.bit d k = true := by
      by_cases hk : k < m
      · exact h1.2 k hk
      · refine iff_of_false (fun g => hk ?_) ?_
        · have := bit_lt g
          rwa [h1.1] at this
        · rintro (g | g)
          · have := bit_lt g
            omega
          · have := bit_lt g
            have := hd d (by simp)
            omega
    rw [h4]
    simp only [List.mem_cons, exists_eq_or_imp, or_assoc]

/-- state of the main loop after the roots `xs` -/
structure CompInv (C : Fin rk → Fin rk → ℤ) (R R' : Nat → Fin rk → ℤ) (n : Nat) (xs : List Nat) (r : List (List Bool)) : Prop where
  nonempty : ∀ c ∈ r, ∃ k, RS.bit c k = true
  cover : ∀ k, (∃ c ∈ r, RS.bit c k = true) ↔ k ∈ xs
  disjoint : r.Pairwise fun c d => ∀ k, ¬ (RS.bit c k = true ∧ RS.bit d k = true)
  len : ∀ c ∈ r, c.length = n
  conn : ∀ c ∈ r, ∀ a b, RS.bit c a = true → RS.bit c b = true → Spec.Linked C R R' (· ∈ xs) a b
  closed : ∀ c ∈ r, ∀ a b, RS.bit c a = true → b ∈ xs → Spec.pair C (R a) (R' b) ≠ 0 → RS.bit c b = true

include hN hA cs h

open Classical in
theorem compLoop_ok [Finite W] : ∀ (ys xs : List Nat) (r : List (List Bool)), (∀ x ∈ xs, x < 2 * N) → (∀ y ∈ ys, y < 2 * N) → (∀ y ∈ ys, y ∉ xs) → ys.Nodup → CompInv C R R' (2 * N) xs r →
    ∃ r', rs.compLoop (2 * N) ys r = .ok r' ∧ CompInv C R R' (2 * N) (xs ++ ys) r'
  | [], xs, r, _, _, _, _, hI => ⟨r, rfl, by simpa using hI⟩
  | a :: ys, xs, r, hx, hy, hd, hn, hI => by
    have ha := hy a (by simp)
    have hax : a ∉ xs := hd a (by simp)
    have sym : ∀ x y, x < 2 * N → y < 2 * N → Spec.pair C (R x) (R' y) ≠ 0 → Spec.pair C (R y) (R' x) ≠ 0 := by
      intro x y hx hy hne
      obtain ⟨t, ht⟩ := hN.isRoot cs h hx
      obtain ⟨u, hu⟩ := hN.isRoot cs h hy
      exact fun g => hne ((ht.pair hu).2.1.mp g)
    have hcx : ∀ c ∈ r, ∀ k, RS.bit c k = true → k ∈ xs := fun c hc k hk => (hI.cover k).mp ⟨c, hc, hk⟩
    obtain ⟨s, s1, s2⟩ := bits_put (bits_replicate (2 * N)) ha true
    have hs : ∀ k, RS.bit s k = true ↔ k = a := by
      intro k
      by_cases hk : k < 2 * N
      · rw [s2.2 k hk]
        by_cases hka : k = a <;> simp [hka]
      · refine iff_of_false (fun g => hk ?_) (by omega)
        have := bit_lt g
        rwa [s2.1] at this
    obtain ⟨u1, u2⟩ := uniteLoop_ok (m := 2 * N) (r.filter fun c => Touches C R R' a c) s s2.1 fun c hc => hI.len c (List.mem_filter.mp hc).1
    obtain ⟨z, hz⟩ : ∃ z, z = RS.uniteLoop (r.filter fun c => Touches C R R' a c) s := ⟨_, rfl⟩
    rw [← hz] at u1 u2
    have u3 : ∀ k, RS.bit z k = true ↔ k = a ∨ ∃ d ∈ r, Touches C R R' a d ∧ RS.bit d k = true := by
      intro k
      rw [u2, hs]
      refine or_congr_right (exists_congr fun d => ?_)
      rw [List.mem_filter, decide_eq_true_iff, and_assoc]
    have key : CompInv C R R' (2 * N) (xs ++ [a]) (r.filter (fun c => ¬ Touches C R R' a c) ++ [z]) := by
      have hmem : ∀ c, c ∈ r.filter (fun c => ¬ Touches C R R' a c) ++ [z] ↔ (c ∈ r ∧ ¬ Touches C R R' a c) ∨ c = z := by
        intro c
        rw [List.mem_append, List.mem_filter, decide_eq_true_iff, List.mem_singleton]
      have mono : ∀ x y, Spec.Linked C R R' (· ∈ xs) x y → Spec.Linked C R R' (· ∈ xs ++ [a]) x y := fun x y g => by
        induction g with
        | refl => exact Relation.ReflTransGen.refl
        | tail _ g2 ih => exact ih.tail ⟨by simp [g2.1], by simp [g2.2.1], g2.2.2⟩
      constructor
      · intro c hc
        rcases (hmem c).mp hc with ⟨hc, -⟩ | rfl
        · exact hI.nonempty c hc
        · exact ⟨a, (u3 a).mpr (.inl rfl)⟩
      · intro k
        constructor
        · rintro ⟨c, hc, hk⟩
          rcases (hmem c).mp hc with ⟨hc, -⟩ | rfl
          · simp [hcx c hc k hk]
          · rcases (u3 k).mp hk with rfl | ⟨d, d1, -, d2⟩
            · simp
            · simp [hcx d d1 k d2]
        · intro hk
          rcases List.mem_append.mp hk with hk | hk
          · obtain ⟨c, c1, c2⟩ := (hI.cover k).mpr hk
            by_cases ht : Touches C R R' a c
            · exact ⟨z, (hmem z).mpr (.inr rfl), (u3 k).mpr (.inr ⟨c, c1, ht, c2⟩)⟩
            · exact ⟨c, (hmem c).mpr (.inl ⟨c1, ht⟩), c2⟩
          · rw [List.mem_singleton] at hk
            exact ⟨z, (hmem z).mpr (.inr rfl), (u3 k).mpr (.inl hk)⟩
      · rw [List.pairwise_append]
        refine ⟨hI.disjoint.filter _, List.pairwise_singleton _ _, ?_⟩
        intro c hc d hd' k ⟨k1, k2⟩
        rw [List.mem_singleton] at hd'
        subst hd'
        rw [List.mem_filter, decide_eq_true_iff] at hc
        rcases (u3 k).mp k2 with rfl | ⟨e, e1, e2, e3⟩
        · exact hax (hcx c hc.1 k k1)
        · have hce : c ≠ e := fun g => hc.2 (g ▸ e2)
          have hsymm : ∀ c d : List Bool, (∀ k, ¬ (RS.bit c k = true ∧ RS.bit d k = true)) → ∀ k, ¬ (RS.bit d k = true ∧ RS.bit c k = true) := fun c d g k g' => g k ⟨g'.2, g'.1⟩
          have := pairwise_ne hsymm hI.disjoint hc.1 e1 hce k
          exact this ⟨k1, e3⟩
      · intro c hc
        rcases (hmem c).mp hc with ⟨hc, -⟩ | rfl
        · exact hI.len c hc
        · exact u1
      · intro c hc x y hx' hy'
        rcases (hmem c).mp hc with ⟨hc, -⟩ | rfl
        · exact mono _ _ (hI.conn c hc x y hx' hy')
        · have toA : ∀ x, RS.bit c x = true → Spec.Linked C R R' (· ∈ xs ++ [a]) x a ∧ Spec.Linked C R R' (· ∈ xs ++ [a]) a x := by
            intro x hx'
            rcases (u3 x).mp hx' with rfl | ⟨d, d1, ⟨b, b1, b2⟩, d3⟩
            · exact ⟨Relation.ReflTransGen.refl, Relation.ReflTransGen.refl⟩
            · have hb : b ∈ xs := hcx d d1 b b1
              exact ⟨(mono _ _ (hI.conn d d1 x b d3 b1)).tail ⟨by simp [hb], by simp, sym a b ha (hx b hb) b2⟩,
                Relation.ReflTransGen.head ⟨by simp, by simp [hb], b2⟩ (mono _ _ (hI.conn d d1 b x b1 d3))⟩
          exact (toA x hx').1.trans (toA y hy').2
      · intro c hc x b hxc hb hp
        rcases (hmem c).mp hc with ⟨hc, hnt⟩ | rfl
        · have hxx := hcx c hc x hxc
          rcases List.mem_append.mp hb with hb | hb
          · exact hI.closed c hc x b hxc hb hp
          · rw [List.mem_singleton] at hb
            subst hb
            exact absurd ⟨x, hxc, sym x b (hx x hxx) ha hp⟩ hnt
        · rw [u3]
          rcases List.mem_append.mp hb with hb' | hb
          · rcases (u3 x).mp hxc with rfl | ⟨d, d1, d2, d3⟩
            · obtain ⟨c', c1, c2⟩ := (hI.cover b).mpr hb'
              exact .inr ⟨c', c1, ⟨b, c2, hp⟩, c2⟩
            · exact .inr ⟨d, d1, d2, hI.closed d d1 x b d3 hb' hp⟩
          · rw [List.mem_singleton] at hb
            exact .inl hb
    rw [List.nodup_cons] at hn
    obtain ⟨r', r1, r2⟩ := compLoop_ok ys (xs ++ [a]) _ (fun x hx' => by
        rcases List.mem_append.mp hx' with hx' | hx'
        · exact hx x hx'
        · rw [List.mem_singleton] at hx'
          omega) (fun y hy' => hy y (by simp [hy'])) (fun y hy' hc => by
        rcases List.mem_append.mp hc with hc | hc
        · exact hd y (by simp [hy']) hc
        · rw [List.mem_singleton] at hc
          exact hn.1 (hc ▸ hy')) hn.2 key
    refine ⟨r', ?_, by simpa using r2⟩
    rw [RS.compLoop, adhereLoop_ok hA ha r [] [] hI.len, Res.ok_bind]
    dsimp only
    rw [bitSet, s1, Res.ok_bind, List.nil_append, List.nil_append, ← hz, r1]

/-- `components` -/
theorem components_ok [Finite W] {b : List Bool} {P : Nat → Prop} (hb : Spec.Bits b (2 * N) P) : ∃ r, rs.components b = .ok r ∧ Spec.Components C R R' (2 * N) P r := by
  have hm : ∀ x, x ∈ members b ↔ x < 2 * N ∧ P x := bits_mem hb
  obtain ⟨r, r1, r2⟩ := compLoop_ok cs h hN hA (members b) [] [] (by simp) (fun y hy => ((hm y).mp hy).1) (by simp)
    ((members_sorted b).imp fun g => Nat.ne_of_lt g) ⟨by simp, by simp, List.Pairwise.nil, by simp, by simp, by simp⟩
  rw [List.nil_append] at r2
  have hmem : (· ∈ members b) = fun k => k < 2 * N ∧ P k := funext fun x => propext (hm x)
  refine ⟨r, by rw [RS.components, hb.1, r1], r2.nonempty, fun k => by rw [r2.cover, hm], r2.disjoint, fun c hc => ⟨r2.len c hc, fun a ha b' => ?_⟩⟩
  have hconn := r2.conn c hc a b' ha
  rw [hmem] at hconn
  refine ⟨hconn, fun hl => ?_⟩
  induction hl with
  | refl => exact ha
  | tail _ h2 ih =>
    have ih' := ih fun hh => by
      have := r2.conn c hc a _ ha hh
      rwa [hmem] at this
    exact r2.closed c hc _ _ ih' ((hm _).mpr h2.2.1) h2.2.2

end
end Verif.Root
