import Verif.Root.Orth
import Verif.Root.Access2
/-
Maximal orthogonal sets of noncompact roots.
-/
namespace Verif.Root
open Verif.Coxeter CoxeterSystem

/-- the sum of the roots `a` and `b` is a root -/
def Spec.SumIsRoot {rk : Nat} (N : Nat) (R : Nat → Fin rk → ℤ) (a b : Nat) : Prop := ∃ m < 2 * N, ∀ i, R m i = R a i + R b i

/-- The root `k` is noncompact after passing through the roots of a list, the first of which is the last that was passed through;
`nc` holds for the roots that are noncompact at the start.  Passing through a root `a` changes the status of the roots whose sum with `a` is a root. -/
def Spec.Noncompact {rk : Nat} (N : Nat) (R : Nat → Fin rk → ℤ) (nc : Nat → Prop) : List Nat → Nat → Prop
  | [], k => nc k
  | a :: l, k => ¬ (Noncompact N R nc l k ↔ Spec.SumIsRoot N R a k)

section
variable {rk : Nat} {M : CoxeterMatrix (Fin rk)} {W : Type} [Group W] {C : Fin rk → Fin rk → ℤ}
variable {nd pc : Bool} {N : Nat} {R R' : Nat → Fin rk → ℤ} {rs : RS}
variable (cs : CoxeterSystem M W) (h : IsCartan C M) (hN : Spec.Numbering C pc N R R') (hA : Spec.Answers nd C pc N R R' rs) (hl : rs.coroots.length = rs.roots.length)

theorem bool_flip {b : List Bool} {m : Nat} {P : Nat → Prop} (hb : Spec.Bits b m P) {i : Nat} (hi : i < m) :
    ∃ b', (do Vec.put b i (!(← Vec.get b i)) : Res (List Bool)) = .ok b' ∧ Spec.Bits b' m fun k => if k = i then ¬ P k else P k := by
  obtain ⟨x, x1, x2⟩ := bits_get hb hi
  obtain ⟨b', b1, b2⟩ := bits_put hb hi (!x)
  refine ⟨b', by rw [x1, Res.ok_bind, b1], bits_congr b2 fun k hk => ?_⟩
  by_cases e : k = i
  · rw [if_pos e, if_pos e, e, ← x2]
    simp
  · rw [if_neg e, if_neg e]

include hA in
open Classical in
theorem maxInner_ok {a : Nat} (ha : a < 2 * N) : ∀ (ks : List Nat), ks.Nodup → (∀ k ∈ ks, k < 2 * N) → ∀ {sub ncr : List Bool} {P Q : Nat → Prop}, Spec.Bits sub (2 * N) P → Spec.Bits ncr (2 * N) Q →
    ∃ sub' ncr', rs.maxInner a ks sub ncr = .ok (sub', ncr') ∧ Spec.Bits sub' (2 * N) (fun k => P k ∧ (k ∈ ks → Spec.pair C (R a) (R' k) = 0)) ∧
      Spec.Bits ncr' (2 * N) fun k => if k ∈ ks ∧ Spec.pair C (R a) (R' k) = 0 ∧ Spec.SumIsRoot N R a k then ¬ Q k else Q k
  | [], _, _, sub, ncr, P, Q, hP, hQ => ⟨sub, ncr, rfl, bits_congr hP (by simp), bits_congr hQ (by simp)⟩
  | k :: ks, hnd, hlt, sub, ncr, P, Q, hP, hQ => by
    have hk := hlt k (by simp)
    have hnk : k ∉ ks := (List.nodup_cons.mp hnd).1
    have ih := fun {sub ncr : List Bool} {P Q : Nat → Prop} => maxInner_ok (sub := sub) (ncr := ncr) (P := P) (Q := Q) ha ks (List.nodup_cons.mp hnd).2 fun x hx => hlt x (by simp [hx])
    obtain ⟨x, x1, x2⟩ := hA.isOrthogonal a ha k hk
    obtain ⟨y, y1, y2⟩ := hA.sumIsRoot a ha k hk
    rw [RS.maxInner, x1, Res.ok_bind]
    by_cases hx : x = true
    · rw [if_neg (by simp [hx]), y1, Res.ok_bind]
      have ho := x2.mp hx
      by_cases hy : y = true
      · rw [if_pos hy]
        obtain ⟨n1, e1, hn1⟩ := bool_flip hQ hk
        obtain ⟨sub', ncr', e2, b1, b2⟩ := ih hP hn1
        have e3 : (do RS.maxInner rs a ks sub (← Vec.put ncr k (!(← Vec.get ncr k))) : Res _) = .ok (sub', ncr') := by
          have : (do RS.maxInner rs a ks sub (← Vec.put ncr k (!(← Vec.get ncr k))) : Res (List Bool × List Bool)) = (do
            let z ← (do Vec.put ncr k (!(← Vec.get ncr k)) : Res (List Bool))
            RS.maxInner rs a ks sub z) := by
            cases Vec.get ncr k <;> rfl
          rw [this, e1, Res.ok_bind, e2]
        refine ⟨sub', ncr', e3, bits_congr b1 fun z hz => ?_, bits_congr b2 fun z hz => ?_⟩
        · by_cases hzk : z = k
          · simp [hzk, hnk, ho]
          · simp [hzk]
        · by_cases hzk : z = k
          · subst hzk
            rw [if_neg (fun g => hnk g.1), if_pos rfl, if_pos ⟨by simp, ho, y2.mp hy⟩]
          · simp [hzk]
      · rw [if_neg hy]
        obtain ⟨sub', ncr', e2, b1, b2⟩ := ih hP hQ
        refine ⟨sub', ncr', e2, bits_congr b1 fun z hz => ?_, bits_congr b2 fun z hz => ?_⟩
        · by_cases hzk : z = k
          · simp [hzk, hnk, ho]
          · simp [hzk]
        · by_cases hzk : z = k
          · subst hzk
            rw [if_neg (fun g => hnk g.1), if_neg (fun g => hy (y2.mpr g.2.2))]
          · simp [hzk]
    · rw [if_pos (by simpa using hx)]
      have ho : ¬ Spec.pair C (R a) (R' k) = 0 := fun g => hx (x2.mpr g)
      obtain ⟨s1, e1, hs1⟩ := bits_put hP hk false
      obtain ⟨sub', ncr', e2, b1, b2⟩ := ih hs1 hQ
      refine ⟨sub', ncr', by rw [e1, Res.ok_bind, e2], bits_congr b1 fun z hz => ?_, bits_congr b2 fun z hz => ?_⟩
      · by_cases hzk : z = k
        · simp [hzk, ho]
        · simp [hzk]
      · by_cases hzk : z = k
        · subst hzk
          rw [if_neg (fun g => hnk g.1), if_neg (fun g => ho g.2.1)]
        · simp [hzk]

/-- invariant of the outer loop, after passing through the roots of `l` -/
structure MInv (C : Fin rk → Fin rk → ℤ) (N : Nat) (R R' : Nat → Fin rk → ℤ) (S nc : Nat → Prop) (l : List Nat) (sub ncr res : List Bool) : Prop where
  sub : Spec.Bits sub (2 * N) fun k => (S k ∧ N ≤ k) ∧ ∀ a ∈ l, Spec.pair C (R a) (R' k) = 0
  ncr : Spec.Bits ncr (2 * N) fun k => ((S k ∧ N ≤ k) ∧ ∀ a ∈ l, Spec.pair C (R a) (R' k) = 0) ∧ Spec.Noncompact N R nc l k
  res : Spec.Bits res (2 * N) (· ∈ l)
  mem : ∀ a ∈ l, a < 2 * N ∧ S a ∧ N ≤ a
  seq : ∀ a l', (a :: l') <:+ l → Spec.Noncompact N R nc l' a
  orth : ∀ a ∈ l, ∀ b ∈ l, a ≠ b → Spec.pair C (R a) (R' b) = 0
  nodup : l.Nodup

theorem bits_count {b : List Bool} {m : Nat} {P : Nat → Prop} (hb : Spec.Bits b m P) : b.count true ≤ m := hb.1 ▸ List.count_le_length

include cs h hN hA in
open Classical in
theorem maxLoop_ok [Finite W] {S nc : Nat → Prop} : ∀ (f : Nat) {l : List Nat} {sub ncr res : List Bool}, MInv C N R R' S nc l sub ncr res → sub.count true < f →
    ∃ l' sub' ncr' r, rs.maxLoop f sub ncr res = .ok r ∧ MInv C N R R' S nc l' sub' ncr' r ∧ members ncr' = []
  | 0, l, sub, ncr, res, hI, hf => by omega
  | f + 1, l, sub, ncr, res, hI, hf => by
    rw [RS.maxLoop]
    cases hm : members ncr with
    | nil => exact ⟨l, sub, ncr, res, rfl, hI, hm⟩
    | cons a tl =>
      dsimp only
      obtain ⟨ha, ⟨⟨haS, haN⟩, haO⟩, haC⟩ := (bits_mem hI.ncr a).mp (by rw [hm]; simp)
      obtain ⟨r1, e1, b1⟩ := bits_put hI.res ha true
      have hmem := bits_mem hI.sub
      obtain ⟨s1, n1, e2, b2, b3⟩ := maxInner_ok hA ha (members sub) ((members_sorted sub).imp fun g => Nat.ne_of_lt g) (fun k hk => ((hmem k).mp hk).1) hI.sub hI.ncr
      rw [bitSet, e1, Res.ok_bind, e2, Res.ok_bind]
      dsimp only
      obtain ⟨ta, hta⟩ := hN.isRoot cs h ha
      have haa : ¬ Spec.pair C (R a) (R' a) = 0 := by
        rw [pair_eq, hta.form_self]
        omega
      have hal : a ∉ l := fun g => haa (haO a g)
      have hs1 : Spec.Bits s1 (2 * N) fun k => (S k ∧ N ≤ k) ∧ ∀ b ∈ a :: l, Spec.pair C (R b) (R' k) = 0 := by
        refine bits_congr b2 fun k hk => ⟨fun g => ⟨g.1.1, fun b hb => ?_⟩, fun g => ⟨⟨g.1, fun b hb => g.2 b (by simp [hb])⟩, fun _ => g.2 a (by simp)⟩⟩
        rcases List.mem_cons.mp hb with rfl | hb
        · exact g.2 ((hmem k).mpr ⟨hk, g.1⟩)
        · exact g.1.2 b hb
      refine maxLoop_ok f (l := a :: l) ⟨hs1, ?_, ?_, ?_, ?_, ?_, List.nodup_cons.mpr ⟨hal, hI.nodup⟩⟩ ?_
      · refine bits_congr (bits_and b3 hs1) fun k hk => ?_
        constructor
        · rintro ⟨g1, g2⟩
          refine ⟨g2, ?_⟩
          have hks : k ∈ members sub := (hmem k).mpr ⟨hk, g2.1, fun b hb => g2.2 b (by simp [hb])⟩
          have hko := g2.2 a (by simp)
          have hq : (S k ∧ N ≤ k) ∧ ∀ b ∈ l, Spec.pair C (R b) (R' k) = 0 := ⟨g2.1, fun b hb => g2.2 b (by simp [hb])⟩
          rw [Spec.Noncompact]
          by_cases hsum : Spec.SumIsRoot N R a k
          · rw [if_pos ⟨hks, hko, hsum⟩] at g1
            intro e
            exact g1 ⟨hq, e.mpr hsum⟩
          · rw [if_neg (fun g => hsum g.2.2)] at g1
            intro e
            exact hsum (e.mp g1.2)
        · rintro ⟨g1, g2⟩
          refine ⟨?_, g1⟩
          have hks : k ∈ members sub := (hmem k).mpr ⟨hk, g1.1, fun b hb => g1.2 b (by simp [hb])⟩
          have hko := g1.2 a (by simp)
          have hq : (S k ∧ N ≤ k) ∧ ∀ b ∈ l, Spec.pair C (R b) (R' k) = 0 := ⟨g1.1, fun b hb => g1.2 b (by simp [hb])⟩
          rw [Spec.Noncompact] at g2
          by_cases hsum : Spec.SumIsRoot N R a k
          · rw [if_pos ⟨hks, hko, hsum⟩]
            intro e
            exact g2 ⟨fun _ => hsum, fun _ => e.2⟩
          · rw [if_neg (fun g => hsum g.2.2)]
            refine ⟨hq, ?_⟩
            by_contra hc
            exact g2 ⟨fun g => absurd g hc, fun g => absurd g hsum⟩
      · refine bits_congr b1 fun k hk => ?_
        by_cases e : k = a <;> simp [e]
      · intro b hb
        rcases List.mem_cons.mp hb with rfl | hb
        · exact ⟨ha, haS, haN⟩
        · exact hI.mem b hb
      · intro b l' hs
        rcases List.suffix_cons_iff.mp hs with e | hs
        · injection e with e1 e2
          rw [e1, e2]
          exact haC
        · exact hI.seq b l' hs
      · intro b hb c hc hbc
        rcases List.mem_cons.mp hb with eb | hb <;> rcases List.mem_cons.mp hc with ec | hc
        · exact absurd (eb.trans ec.symm) hbc
        · obtain ⟨tc, htc⟩ := hN.isRoot cs h (hI.mem c hc).1
          rw [eb]
          exact (htc.pair hta).2.1.mpr (haO c hc)
        · rw [ec]
          exact haO b hb
        · exact hI.orth b hb c hc hbc
      · have hg : Grows (fun _ => True) s1 sub := by
          refine ⟨hI.sub.1.trans b2.1.symm, fun k hk => ?_, fun k hk => .inr trivial⟩
          have hk2 : k < 2 * N := b2.1 ▸ bit_lt hk
          exact (hI.sub.2 k hk2).mpr ((b2.2 k hk2).mp hk).1
        obtain ⟨c1, c2⟩ := count_le_of_grows hg
        by_contra hc
        have hss := c2 (by omega)
        have ha1 : RS.bit sub a = true := (hI.sub.2 a ha).mpr ⟨⟨haS, haN⟩, haO⟩
        rw [hss] at ha1
        exact haa (((hs1.2 a ha).mp ha1).2 a (by simp))

include cs h hN hA hl in
/-- `gradings::max_orth` -/
theorem maxOrth_ok [Finite W] {S nc : Nat → Prop} {sb nb : List Bool} (hS : Spec.Bits sb (2 * N) S) (hnc : Spec.Bits nb (2 * N) nc) (hsub : ∀ k, N ≤ k → k < 2 * N → nc k → S k) :
    ∃ (l : List Nat) (r : List Bool), rs.maxOrth nd nb sb = .ok r ∧
      (∀ a ∈ l, a < 2 * N ∧ S a ∧ N ≤ a) ∧ Spec.Orthogonal C R R' (· ∈ l) ∧ (∀ a l', (a :: l') <:+ l → Spec.Noncompact N R nc l' a) ∧
      (∀ b, N ≤ b → b < 2 * N → S b → (∀ a ∈ l, Spec.pair C (R a) (R' b) = 0) → ¬ Spec.Noncompact N R nc l b) ∧
      r.length = 2 * N ∧ Spec.Orthogonal C R R' (fun k => RS.bit r k = true) ∧ Spec.NoSums N R (fun k => RS.bit r k = true) ∧
      ∀ x i, Spec.drop C N R R' r x i = (l.map fun a => Spec.pair C x (R' a) * R a i).sum := by
  have hps := bits_congr hA.posSet (Q := fun k => N ≤ k) fun k hk => (hN.sign_of cs h hk).1.symm
  have h0 : MInv C N R R' S nc [] (RS.andBits sb rs.posSet) (RS.andBits nb rs.posSet) (List.replicate (2 * N) false) :=
    ⟨bits_congr (bits_and hS hps) (by simp), bits_congr (bits_and hnc hps) fun k hk =>
      ⟨fun g => ⟨⟨⟨hsub k g.2 hk g.1, g.2⟩, by simp⟩, g.1⟩, fun g => ⟨g.2, g.1.1.2⟩⟩, bits_congr (bits_replicate _) (by simp), by simp, by simp, by simp, List.nodup_nil⟩
  obtain ⟨l, sub', ncr', r, e1, hI, hz⟩ := maxLoop_ok cs h hN hA (2 * N + 1) h0 (by have := bits_count h0.sub; omega)
  obtain ⟨r', e2, l2, o2, n2, d2⟩ := longOrth_ok cs h hN hA hl hI.res (fun k _ hk => (hI.mem k hk).2.2) (fun a b ha hb hab => hI.orth a ha.2 b hb.2 hab)
  refine ⟨l, r', by rw [RS.maxOrth, hA.numRoots, e1, Res.ok_bind, e2], hI.mem, fun a b ha hb hab => hI.orth a ha b hb hab, hI.seq, fun b hb1 hb2 hbS hbO hbC => ?_, l2, o2, n2, fun x i => ?_⟩
  · have := (bits_mem hI.ncr b).mpr ⟨hb2, ⟨⟨hbS, hb1⟩, hbO⟩, hbC⟩
    rw [hz] at this
    simp at this
  · rw [d2, Spec.drop, ← List.sum_toFinset _ hI.nodup, ← Finset.sum_filter]
    refine Finset.sum_congr (Finset.ext fun k => ?_) fun _ _ => rfl
    rw [Finset.mem_filter, Finset.mem_range, List.mem_toFinset]
    exact ⟨fun g => (hI.res.2 k g.1).mp g.2, fun g => ⟨(hI.mem k g).1, (hI.res.2 k (hI.mem k g).1).mpr g⟩⟩

end
end Verif.Root
