import Verif.Root.Perms
/-
The root permutations and ladder bottoms (rootdata.cpp L288-326), continued: all positive and all negative roots.
-/
namespace Verif.Root
open Verif.Coxeter CoxeterSystem

section
variable {rk : Nat} {M : CoxeterMatrix (Fin rk)} {W : Type} [Group W] {cs : CoxeterSystem M W} {C : Fin rk → Fin rk → ℤ} {h : IsCartan C M}
variable {n : Nat} {β β' : Nat → Fin rk → ℤ} {fd fa : Nat → Nat → Bool} {fl : Nat → Nat → Nat}

theorem renumberLoop_map {m : Nat} (f : Nat → Nat) : ∀ (v r : List Nat), (∀ x ∈ v, x < m) → Perm.renumberLoop ((List.range m).map f) none v r = .ok (r ++ v.map f)
  | [], r, _ => by simp [Perm.renumberLoop]
  | x :: v, r, hv => by
    rw [Perm.renumberLoop, if_neg (by simp), row_get _ (hv x (by simp)), Res.ok_bind, renumberLoop_map f v _ fun y hy => hv y (by simp [hy])]
    simp

theorem renumber_map {m : Nat} (f g : Nat → Nat) (hg : ∀ x < m, g x < m) :
    Perm.renumber ((List.range m).map f) none ((List.range m).map g) = .ok ((List.range m).map fun x => f (g x)) := by
  rw [Perm.renumber, renumberLoop_map]
  · rw [List.nil_append, List.map_map]; rfl
  · intro x hx
    obtain ⟨y, hy, rfl⟩ := List.mem_map.mp hx
    exact hg y (List.mem_range.mp hy)

theorem mem_members {m : Nat} (f : Nat → Bool) (x : Nat) : x ∈ members ((List.range m).map f) ↔ x < m ∧ f x = true := by
  rw [members, List.mem_filter, List.length_map, List.length_range, List.mem_range]
  refine and_congr_right fun hx => ?_
  rw [List.getElem?_map, List.getElem?_range hx]
  rfl

theorem mapBits_ok {m : Nat} (f : Nat → Nat) (hf : ∀ x < m, f x < m) : ∀ (xs : List Nat) (g : Nat → Bool), (∀ x ∈ xs, x < m) →
    ∃ g', mapBits ((List.range m).map f) xs ((List.range m).map g) = .ok ((List.range m).map g') ∧ ∀ y, g' y = true ↔ g y = true ∨ ∃ x ∈ xs, f x = y
  | [], g, _ => ⟨g, rfl, by simp⟩
  | x :: xs, g, hx => by
    obtain ⟨g', h1, h2⟩ := mapBits_ok f hf xs (fun k => if k = f x then true else g k) fun y hy => hx y (by simp [hy])
    refine ⟨g', ?_, fun y => ?_⟩
    · rw [mapBits, row_get _ (hx x (by simp)), Res.ok_bind, bitSet, row_put _ (hf x (hx x (by simp))), Res.ok_bind, h1]
    · rw [h2]
      by_cases hy : y = f x
      · simp [hy]
      · rw [if_neg hy]
        simp only [List.mem_cons]
        constructor
        · rintro (h3 | ⟨z, h3, h4⟩)
          · exact .inl h3
          · exact .inr ⟨z, .inr h3, h4⟩
        · rintro (h3 | ⟨z, h3 | h3, h4⟩)
          · exact .inl h3
          · subst h3; exact absurd h4.symm hy
          · exact .inr ⟨z, h3, h4⟩

theorem replicate_eq_map {α : Type} (m : Nat) (x : α) : List.replicate m x = (List.range m).map fun _ => x := by
  apply List.ext_getElem <;> simp

/-- images of ladder bottoms -/
theorem mapBots (D : RData cs h n β β' fd fa fl) {f : Nat → Nat} {t : W} (hf : PermSpec cs h n β f t) {g : Nat → Bool} {α : Fin rk → ℤ} (hg : BotSpec cs h n β α g) :
    ∃ g', mapBits ((List.range (2 * n)).map f) (members ((List.range (2 * n)).map g)) (List.replicate (2 * n) false) = .ok ((List.range (2 * n)).map g') ∧
      BotSpec cs h n β (geom cs h t α) g' := by
  rw [replicate_eq_map]
  obtain ⟨g', h1, h2⟩ := mapBits_ok f (fun x hx => (hf x hx).1) (members ((List.range (2 * n)).map g)) (fun _ => false) fun x hx => ((mem_members g x).mp hx).1
  refine ⟨g', h1, fun y hy => ?_⟩
  rw [h2]
  simp only [Bool.false_eq_true, false_or]
  -- the number of the inverse image
  obtain ⟨x, hx, e⟩ := D.full_surj ((D.full_isR hy).act t⁻¹)
  have hfx : f x = y := by
    apply D.full_inj (hf x hx).1 hy
    rw [(hf x hx).2, e, ← geom_mul, mul_inv_cancel, map_one]
    rfl
  have hfy : full n β y = geom cs h t (full n β x) := by rw [← hfx, (hf x hx).2]
  constructor
  · rintro ⟨z, hz, hzy⟩
    obtain ⟨hz1, hz2⟩ := (mem_members g z).mp hz
    rw [← hzy, (hf z hz1).2, ← map_sub, isR_act]
    exact (hg z hz1).mp hz2
  · intro hR
    refine ⟨x, (mem_members g x).mpr ⟨hx, (hg x hx).mpr ?_⟩, hfx⟩
    rwa [hfy, ← map_sub, isR_act] at hR

/-- the numbers of the reflected coroots are the same -/
theorem PermSpec.dual {f : Nat → Nat} {t : W} (hf : PermSpec cs h n β f t) (D : RData cs h n β β' fd fa fl) : PermSpec cs h.dual n β' f t := by
  have hfull : ∀ x < 2 * n, ∃ u, IsRoot cs h (full n β x) (full n β' x) u := by
    intro x hx
    obtain ⟨a, ha, rfl | rfl⟩ := num_cases hx
    · obtain ⟨u, hu⟩ := D.isRoot a ha
      rw [full_pos, full_pos]
      exact ⟨u, hu⟩
    · obtain ⟨u, hu⟩ := D.isRoot a ha
      rw [full_neg β ha, full_neg β' ha]
      exact ⟨u, hu.neg⟩
  intro x hx
  obtain ⟨h1, h2⟩ := hf x hx
  obtain ⟨u, hu⟩ := hfull x hx
  obtain ⟨v, hv⟩ := hfull _ h1
  have := hu.act t
  rw [← h2] at this
  exact ⟨h1, (hv.unique this).1⟩

theorem extendLoop_ok [Finite W] (nd : Bool) (hrk : rk ≤ 32) (D : RData cs h n β β' fd fa fl) : ∀ (d k : Nat), k + d = n → rk ≤ k → ∀ {p : Perms}, Sizes n p →
    (∀ a < k, Row cs h n β β' p a) → ∃ p', extendLoop nd rk n (tab n 32 fd) (tab n rk fl) (List.range' k d) p = .ok p' ∧ Sizes n p' ∧ ∀ a < n, Row cs h n β β' p' a
  | 0, k, hk, hkr, p, h1, h2 => ⟨p, rfl, h1, fun a ha => h2 a (by omega)⟩
  | d + 1, k, hk, hkr, p, h1, h2 => by
    have hkn : k < n := by omega
    obtain ⟨i, hi1, hi2, hi3⟩ := D.firstBit_ok hrk hkn hkr
    obtain ⟨h3, h4⟩ := D.link k hkn i hi3
    have h5 := D.down k hkn i hi3 hi2
    have hik : i.1 < k := lt_of_lt_of_le i.2 hkr
    obtain ⟨⟨fi, ti, ei, ri, pi⟩, -, -⟩ := h2 i hik
    obtain ⟨⟨fb, tb, eb, rb, pb⟩, ⟨bb, ebb, sbb⟩, ⟨cb, ecb, scb⟩⟩ := h2 _ h5
    have hti : ti = cs.simple i := by
      rw [D.simple i] at ri
      exact (ri.unique (isRoot_simple i)).2
    subst hti
    obtain ⟨t, ht⟩ := D.isRoot k hkn
    have hact := rb.act (cs.simple i)
    rw [geom_simple, geom_simple, h4, srefl_srefl h] at hact
    have hu := ht.unique hact
    -- the permutation
    have hperm : PermSpec cs h n β (fun x => fi (fb (fi x))) t := by
      intro x hx
      obtain ⟨q1, q2⟩ := pi x hx
      obtain ⟨q3, q4⟩ := pb _ q1
      obtain ⟨q5, q6⟩ := pi _ q3
      refine ⟨q5, ?_⟩
      rw [q6, q4, q2, hu.2, ← geom_mul, ← geom_mul, cs.inv_simple, mul_assoc]
    obtain ⟨gb, e1, s1⟩ := mapBots D pi sbb
    obtain ⟨gc, e2, s2⟩ := mapBots D.dual (pi.dual D) scb
    rw [geom_simple, h4, srefl_srefl h] at s1
    rw [geom_simple, ← hu.1] at s2
    obtain ⟨p1, e3, z3, r3⟩ := row_set h1 hkn ht hperm s1 s2 h2
    obtain ⟨p2, e4, z4, r4⟩ := extendLoop_ok nd hrk D d (k + 1) (by omega) (by omega) z3 r3
    refine ⟨p2, ?_, z4, r4⟩
    have gvi : Vec.get p.perms i = .ok ((List.range (2 * n)).map fi) := by rw [Vec.get, ei]
    have gvb : Vec.get p.perms (fl k i) = .ok ((List.range (2 * n)).map fb) := by rw [Vec.get, eb]
    have gbb : Vec.get p.bots (n + fl k i) = .ok ((List.range (2 * n)).map bb) := by rw [Vec.get, ebb]
    have gcb : Vec.get p.cobots (n + fl k i) = .ok ((List.range (2 * n)).map cb) := by rw [Vec.get, ecb]
    rw [List.range'_succ, extendLoop, tab_get _ hkn, Res.ok_bind, tab_get _ hkn, Res.ok_bind]
    simp only [hi1]
    rw [row_get _ i.2, Res.ok_bind, Res.assertIn_bind nd (decide_eq_true i.2), Res.assertIn_bind nd (decide_eq_true h5), gvi, Res.ok_bind, gvb, Res.ok_bind,
      renumber_map _ _ fun x hx => (pi x hx).1, Res.ok_bind, renumber_map _ _ fun x hx => (pb _ (pi x hx).1).1, Res.ok_bind, gbb, gcb]
    simp only [Res.ok_bind]
    rw [e1, e2]
    have hb : ∀ {α β γ : Type} (x : Res α) (f : α → Res β) (g : β → Res γ), ((x >>= f) >>= g) = x >>= fun a => f a >>= g := by
      intro α β γ x f g; cases x <;> rfl
    have := congrArg (fun x => x >>= fun q => extendLoop nd rk n (tab n 32 fd) (tab n rk fl) (List.range' (k + 1) d) q) e3
    simp only [hb, Res.ok_bind] at this
    rw [e4] at this
    simp only [Res.ok_bind]
    exact this

/-- what is known for one negative root -/
structure NegRow (cs : CoxeterSystem M W) (h : IsCartan C M) (n : Nat) (β β' : Nat → Fin rk → ℤ) (p : Perms) (a : Nat) : Prop where
  bots : ∃ f, p.bots[n - 1 - a]? = some ((List.range (2 * n)).map f) ∧ BotSpec cs h n β (-β a) f
  cobots : ∃ f, p.cobots[n - 1 - a]? = some ((List.range (2 * n)).map f) ∧ BotSpec cs h.dual n β' (-β' a) f

theorem negLoop_ok [Finite W] (D : RData cs h n β β' fd fa fl) : ∀ (d k : Nat), k + d = n → ∀ {p : Perms}, Sizes n p → (∀ a < n, Row cs h n β β' p a) → (∀ a < k, NegRow cs h n β β' p a) →
    ∃ p', negLoop n (List.range' k d) p = .ok p' ∧ Sizes n p' ∧ (∀ a < n, Row cs h n β β' p' a) ∧ ∀ a < n, NegRow cs h n β β' p' a
  | 0, k, hk, p, h1, h2, h3 => ⟨p, rfl, h1, h2, fun a ha => h3 a (by omega)⟩
  | d + 1, k, hk, p, h1, h2, h3 => by
    have hkn : k < n := by omega
    obtain ⟨⟨f, t, e, r, pt⟩, ⟨bb, ebb, sbb⟩, ⟨cb, ecb, scb⟩⟩ := h2 k hkn
    obtain ⟨gb, e1, s1⟩ := mapBots D pt sbb
    obtain ⟨gc, e2, s2⟩ := mapBots D.dual (pt.dual D) scb
    have hn : geom cs h t (β k) = -β k := by
      rw [r.refl, r.form_self]
      funext i
      simp only [Pi.sub_apply, Pi.smul_apply, Pi.neg_apply, smul_eq_mul]
      ring
    have hn' : geom cs h.dual t (β' k) = -β' k := by
      rw [r.dual.refl, form_swap, r.form_self]
      funext i
      simp only [Pi.sub_apply, Pi.smul_apply, Pi.neg_apply, smul_eq_mul]
      ring
    rw [hn] at s1
    rw [hn'] at s2
    have key := negLoop_ok D d (k + 1) (by omega) (p := ⟨p.perms, p.bots.set (n - 1 - k) ((List.range (2 * n)).map gb), p.cobots.set (n - 1 - k) ((List.range (2 * n)).map gc)⟩)
      ⟨h1.perms, by rw [List.length_set]; exact h1.bots, by rw [List.length_set]; exact h1.cobots⟩ ?_ ?_
    · obtain ⟨p', q1, q2⟩ := key
      refine ⟨p', ?_, q2⟩
      have gp : Vec.get p.perms k = .ok ((List.range (2 * n)).map f) := by rw [Vec.get, e]
      have gb' : Vec.get p.bots (n + k) = .ok ((List.range (2 * n)).map bb) := by rw [Vec.get, ebb]
      have gc' : Vec.get p.cobots (n + k) = .ok ((List.range (2 * n)).map cb) := by rw [Vec.get, ecb]
      rw [List.range'_succ, negLoop, gp, Res.ok_bind, gb', gc']
      simp only [Res.ok_bind]
      rw [e1, e2]
      simp only [Res.ok_bind]
      rw [Vec.put_ok (by rw [h1.bots]; omega), Vec.put_ok (by rw [h1.cobots]; omega)]
      simp only [Res.ok_bind]
      exact q1
    · intro a ha
      obtain ⟨q1, ⟨b, q2, q3⟩, ⟨c, q4, q5⟩⟩ := h2 a ha
      exact ⟨q1, ⟨b, by simp only []; rw [List.getElem?_set_ne (by omega), q2], q3⟩, ⟨c, by simp only []; rw [List.getElem?_set_ne (by omega), q4], q5⟩⟩
    · intro a ha
      by_cases hak : a = k
      · subst hak
        exact ⟨⟨gb, by simp only []; rw [List.getElem?_set_self (by rw [h1.bots]; omega)], s1⟩, ⟨gc, by simp only []; rw [List.getElem?_set_self (by rw [h1.cobots]; omega)], s2⟩⟩
      · obtain ⟨⟨b, q2, q3⟩, ⟨c, q4, q5⟩⟩ := h3 a (by omega)
        exact ⟨⟨b, by simp only []; rw [List.getElem?_set_ne (by omega), q2], q3⟩, ⟨c, by simp only []; rw [List.getElem?_set_ne (by omega), q4], q5⟩⟩

/-- Permutations and ladder bottoms of all roots. -/
theorem makePerms_ok [Finite W] (nd : Bool) (hrk : rk ≤ 32) (D : RData cs h n β β' fd fa fl) :
    ∃ p, makePerms nd rk ((List.range n).map fun j => enc (β j)) ((List.range n).map fun j => enc (β' j)) (tab n 32 fd) (tab n rk fl) = .ok p ∧ Sizes n p ∧
      (∀ a < n, Row cs h n β β' p a) ∧ ∀ a < n, NegRow cs h n β β' p a := by
  have hrkn := D.rkn
  obtain ⟨p1, e1, s1, r1⟩ := simpleLoop_ok D rk 0 (by omega) (p := ⟨List.replicate n [], List.replicate (2 * n) [], List.replicate (2 * n) []⟩) ⟨by simp, by simp, by simp⟩
    (fun a ha => by omega)
  obtain ⟨p2, e2, s2, r2⟩ := extendLoop_ok nd hrk D (n - rk) rk (by omega) (le_refl _) s1 r1
  obtain ⟨p3, e3, s3, r3, r4⟩ := negLoop_ok D n 0 (by omega) s2 r2 (fun a ha => by omega)
  refine ⟨p3, ?_, s3, r3, r4⟩
  have hlen : ((List.range n).map fun j => enc (β j)).length = n := by simp
  rw [← List.range_eq_range'] at e1 e3
  rw [makePerms, hlen, e1, Res.ok_bind, e2, Res.ok_bind, e3]

/-! ### transposition -/

theorem setEntry_enc (m : Fin rk → Fin rk → ℤ) (i j : Fin rk) (x : ℤ) : setEntry (encM m) i j x = .ok (encM fun a b => if a = i ∧ b = j then x else m a b) := by
  rw [setEntry, encM_row, Res.ok_bind, enc_put, Res.ok_bind, Vec.put_ok (by rw [encM_length]; exact i.2)]
  congr 1
  apply List.ext_getElem
  · simp
  · intro k h1 h2
    rw [List.getElem_set]
    simp only [List.getElem_ofFn]
    by_cases hk : i.1 = k
    · rw [if_pos hk]
      congr 1
      funext b
      rw [Function.update_apply]
      subst hk
      simp
    · rw [if_neg hk]
      congr 1
      funext b
      rw [if_neg (by rintro ⟨e, -⟩; exact hk (by rw [← e]))]

/-- partly transposed matrix: the pairs treated are those with first index less than `i`, or equal to `i` and second index less than `j` -/
def part (C : Fin rk → Fin rk → ℤ) (i j : Nat) (a b : Fin rk) : ℤ :=
  if (a.1 < b.1 ∧ (a.1 < i ∨ a.1 = i ∧ b.1 < j)) ∨ (b.1 < a.1 ∧ (b.1 < i ∨ b.1 = i ∧ a.1 < j)) then C b a else C a b

/-- the flag says whether all pairs treated were symmetric -/
def partSym (C : Fin rk → Fin rk → ℤ) (i j : Nat) : Prop := ∀ a b : Fin rk, a.1 < b.1 → (a.1 < i ∨ a.1 = i ∧ b.1 < j) → C a b = C b a

theorem transLoop_ok (C : Fin rk → Fin rk → ℤ) (i : Fin rk) : ∀ (d j : Nat), i.1 < j → j + d = rk → ∀ {sl : Bool}, (sl = true ↔ partSym C i j) →
    ∃ sl', transLoop i (List.range' j d) (sl, encM (part C i j)) = .ok (sl', encM (part C i rk)) ∧ (sl' = true ↔ partSym C i rk)
  | 0, j, hij, hj, sl, h1 => by
    obtain rfl : j = rk := hj
    exact ⟨sl, rfl, h1⟩
  | d + 1, j, hij, hj, sl, h1 => by
    have hjr : j < rk := by omega
    obtain ⟨b, hb⟩ : ∃ b : Fin rk, b.1 = j := ⟨⟨j, hjr⟩, rfl⟩
    subst hb
    have e1 : part C i b i b = C i b := by rw [part, if_neg (by omega)]
    have e2 : part C i b b i = C b i := by rw [part, if_neg (by omega)]
    rw [List.range'_succ, transLoop, entry_enc, Res.ok_bind, entry_enc, Res.ok_bind, e1, e2]
    have hsym : partSym C i (b.1 + 1) ↔ partSym C i b ∧ C i b = C b i := by
      constructor
      · intro hp
        exact ⟨fun x y hxy hc => hp x y hxy (by omega), hp i b (by omega) (by omega)⟩
      · rintro ⟨hp, he⟩ x y hxy hc
        by_cases hx : x.1 = i.1 ∧ y.1 = b.1
        · have ex : x = i := Fin.ext hx.1
          have ey : y = b := Fin.ext hx.2
          rw [ex, ey]
          exact he
        · exact hp x y hxy (by omega)
    by_cases hne : C i b = C b i
    · rw [if_neg (by simp [hne])]
      have hpart : part C i b = part C i (b.1 + 1) := by
        funext x y
        unfold part
        by_cases hx : x.1 = i.1 ∧ y.1 = b.1
        · have ex : x = i := Fin.ext hx.1
          have ey : y = b := Fin.ext hx.2
          subst ex ey
          rw [if_neg (by omega), if_pos (by omega), hne]
        · by_cases hy : y.1 = i.1 ∧ x.1 = b.1
          · have ex : y = i := Fin.ext hy.1
            have ey : x = b := Fin.ext hy.2
            subst ex ey
            rw [if_neg (by omega), if_pos (by omega), hne]
          · refine if_congr ?_ rfl rfl
            omega
      rw [hpart]
      exact transLoop_ok C i d (b.1 + 1) (by omega) (by omega) (by rw [hsym, h1]; simp [hne])
    · rw [if_pos hne, setEntry_enc, Res.ok_bind, setEntry_enc, Res.ok_bind]
      have hpart : (fun x y => if x = b ∧ y = i then C i b else if x = i ∧ y = b then C b i else part C i b x y) = part C i (b.1 + 1) := by
        funext x y
        by_cases hx : x = b ∧ y = i
        · obtain ⟨rfl, rfl⟩ := hx
          rw [if_pos ⟨rfl, rfl⟩, part, if_pos (by omega)]
        · rw [if_neg hx]
          by_cases hy : x = i ∧ y = b
          · obtain ⟨rfl, rfl⟩ := hy
            rw [if_pos ⟨rfl, rfl⟩, part, if_pos (by omega)]
          · rw [if_neg hy]
            unfold part
            refine if_congr ?_ rfl rfl
            have h2 : ¬ (x.1 = b.1 ∧ y.1 = i.1) := fun e => hx ⟨Fin.ext e.1, Fin.ext e.2⟩
            have h3 : ¬ (x.1 = i.1 ∧ y.1 = b.1) := fun e => hy ⟨Fin.ext e.1, Fin.ext e.2⟩
            omega
      rw [hpart]
      exact transLoop_ok C i d (b.1 + 1) (by omega) (by omega) (by rw [hsym]; simp [hne])

theorem transRows_ok (C : Fin rk → Fin rk → ℤ) : ∀ (d i : Nat), i + d = rk → ∀ {sl : Bool}, (sl = true ↔ partSym C i 0) →
    ∃ sl', transRows rk (List.range' i d) (sl, encM (part C i 0)) = .ok (sl', encM fun a b => C b a) ∧ (sl' = true ↔ ∀ a b, C a b = C b a)
  | 0, i, hi, sl, h1 => by
    obtain rfl : i = rk := hi
    refine ⟨sl, ?_, ?_⟩
    · rw [List.range'_zero, transRows]
      congr 3
      funext a b
      rcases Nat.lt_trichotomy a.1 b.1 with hlt | heq | hgt
      · rw [part, if_pos (by omega)]
      · have : a = b := Fin.ext heq
        subst this
        rw [part, if_neg (by omega)]
      · rw [part, if_pos (by omega)]
    · rw [h1]
      constructor
      · intro hp a b
        rcases Nat.lt_trichotomy a.1 b.1 with hlt | heq | hgt
        · exact hp a b hlt (by omega)
        · have : a = b := Fin.ext heq
          rw [this]
        · exact (hp b a hgt (by omega)).symm
      · intro hp a b _ _
        exact hp a b
  | d + 1, i, hi, sl, h1 => by
    have hir : i < rk := by omega
    have hp0 : part C i 0 = part C i (i + 1) := by
      funext a b
      unfold part
      refine if_congr ?_ rfl rfl
      omega
    have hs0 : partSym C i 0 ↔ partSym C i (i + 1) := by
      constructor
      · intro hp a b hab hc; exact hp a b hab (by omega)
      · intro hp a b hab hc; exact hp a b hab (by omega)
    have hp1 : part C i rk = part C (i + 1) 0 := by
      funext a b
      unfold part
      refine if_congr ?_ rfl rfl
      have := a.2
      have := b.2
      omega
    have hs1 : partSym C i rk ↔ partSym C (i + 1) 0 := by
      constructor
      · intro hp a b hab hc; exact hp a b hab (by have := b.2; omega)
      · intro hp a b hab hc; exact hp a b hab (by omega)
    obtain ⟨sl1, e1, q1⟩ := transLoop_ok C ⟨i, hir⟩ (rk - (i + 1)) (i + 1) (by simp) (by omega) (sl := sl) (by rw [h1, hs0])
    simp only [] at e1 q1
    rw [hp1] at e1
    rw [hs1] at q1
    obtain ⟨sl2, e2, q2⟩ := transRows_ok C d (i + 1) (by omega) q1
    refine ⟨sl2, ?_, q2⟩
    rw [List.range'_succ, transRows, hp0, e1, Res.ok_bind, e2]

/-- `swap_roots_and_coroots` transposes the matrix, and exchanges roots and coroots unless the matrix is symmetric -/
theorem swapRC_ok (C : Fin rk → Fin rk → ℤ) (roots coroots : List BV) (hs : (∀ a b, C a b = C b a) → roots = coroots) :
    swapRC rk (encM C) roots coroots = .ok (encM fun a b => C b a, coroots, roots) := by
  have h0 : part C 0 0 = C := by
    funext a b
    rw [part, if_neg (by omega)]
  obtain ⟨sl, e, q⟩ := transRows_ok C rk 0 (by omega) (sl := true) (by simp [partSym])
  rw [h0] at e
  rw [swapRC, List.range_eq_range', e]
  show (if sl then Res.ok (encM fun a b => C b a, roots, coroots) else .ok (encM fun a b => C b a, coroots, roots)) = _
  cases sl with
  | false => rfl
  | true =>
    have := hs (q.mp rfl)
    rw [this]
    rfl

/-- for a symmetric matrix roots and coroots have the same coefficients -/
theorem isRoot_sym (hs : ∀ a b, C a b = C b a) {v v' : Fin rk → ℤ} {t : W} (hr : IsRoot cs h v v' t) : v = v' := by
  obtain ⟨w, s, rfl, rfl, -⟩ := hr
  have key : ∀ (C' : Fin rk → Fin rk → ℤ) (h' : IsCartan C' M), C' = C → geom cs h' = geom cs h := by
    rintro C' h' rfl
    rfl
  rw [key _ h.dual (by funext a b; exact hs b a)]

end

end Verif.Root
