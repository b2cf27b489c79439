import Verif.Root.Data
/-
The root permutations and ladder bottoms (rootdata.cpp L244-326).
-/
namespace Verif.Root
open Verif.Coxeter CoxeterSystem

section
variable {rk : Nat} {M : CoxeterMatrix (Fin rk)} {W : Type} [Group W] {cs : CoxeterSystem M W} {C : Fin rk → Fin rk → ℤ} {h : IsCartan C M}

/-- being a root -/
def IsR (cs : CoxeterSystem M W) (h : IsCartan C M) (v : Fin rk → ℤ) : Prop := ∃ v' t, IsRoot cs h v v' t

theorem IsR.neg {v : Fin rk → ℤ} (hv : IsR cs h v) : IsR cs h (-v) := by
  obtain ⟨v', t, hr⟩ := hv
  exact ⟨_, _, hr.neg⟩

theorem isR_neg {v : Fin rk → ℤ} : IsR cs h (-v) ↔ IsR cs h v := ⟨fun hv => by have := hv.neg; rwa [neg_neg] at this, IsR.neg⟩

theorem IsR.act {v : Fin rk → ℤ} (hv : IsR cs h v) (u : W) : IsR cs h (geom cs h u v) := by
  obtain ⟨v', t, hr⟩ := hv
  exact ⟨_, _, hr.act u⟩

theorem isR_act {v : Fin rk → ℤ} (u : W) : IsR cs h (geom cs h u v) ↔ IsR cs h v := by
  refine ⟨fun hv => ?_, fun hv => hv.act u⟩
  have := hv.act u⁻¹
  rwa [geom_inv] at this

theorem isR_zero : ¬ IsR cs h (0 : Fin rk → ℤ) := by
  rintro ⟨v', t, hr⟩
  exact hr.ne_zero rfl

theorem isR_two {v : Fin rk → ℤ} : ¬ IsR cs h (-v - v) := by
  rintro ⟨v', t, hr⟩
  have : -v - v = (-2 : ℤ) • v := by funext i; simp only [Pi.sub_apply, Pi.neg_apply, Pi.smul_apply, smul_eq_mul]; ring
  rcases hr.primitive this with e | e <;> omega

theorem IsR.sign {v : Fin rk → ℤ} (hv : IsR cs h v) : (∀ i, 0 ≤ v i) ∨ ∀ i, v i ≤ 0 := by
  obtain ⟨v', t, hr⟩ := hv
  rcases hr.sign with ⟨h1, -⟩ | ⟨h1, -⟩
  · exact .inl h1
  · exact .inr h1

/-- the root with a given number -/
def full (n : Nat) (β : Nat → Fin rk → ℤ) (k : Nat) : Fin rk → ℤ := if n ≤ k then β (k - n) else -β (n - 1 - k)

variable {n : Nat} {β β' : Nat → Fin rk → ℤ} {fd fa : Nat → Nat → Bool} {fl : Nat → Nat → Nat}

theorem full_pos (n : Nat) (β : Nat → Fin rk → ℤ) (a : Nat) : full n β (n + a) = β a := by rw [full, if_pos (by omega)]; congr 1; omega

theorem full_neg {n : Nat} (β : Nat → Fin rk → ℤ) {a : Nat} (ha : a < n) : full n β (n - 1 - a) = -β a := by
  rw [full, if_neg (by omega)]
  congr 2
  omega

/-- a number is that of a positive or of a negative root -/
theorem num_cases {n x : Nat} (hx : x < 2 * n) : ∃ a, a < n ∧ (x = n + a ∨ x = n - 1 - a) := by
  by_cases hn : n ≤ x
  · exact ⟨x - n, by omega, .inl (by omega)⟩
  · exact ⟨n - 1 - x, by omega, .inr (by omega)⟩

theorem RData.full_isR (D : RData cs h n β β' fd fa fl) {x : Nat} (hx : x < 2 * n) : IsR cs h (full n β x) := by
  obtain ⟨a, ha, rfl | rfl⟩ := num_cases hx
  · rw [full_pos]
    obtain ⟨t, ht⟩ := D.isRoot a ha
    exact ⟨_, _, ht⟩
  · rw [full_neg β ha]
    obtain ⟨t, ht⟩ := D.isRoot a ha
    exact ⟨_, _, ht.neg⟩

theorem RData.ne_neg (D : RData cs h n β β' fd fa fl) {a b : Nat} (ha : a < n) (hb : b < n) : β a ≠ -β b := by
  intro e
  obtain ⟨t, ht⟩ := D.isRoot a ha
  apply ht.ne_zero
  funext i
  have h1 := D.pos a ha i
  have h2 := D.pos b hb i
  have h3 := congrFun e i
  rw [Pi.neg_apply] at h3
  rw [Pi.zero_apply]
  omega

theorem RData.full_inj (D : RData cs h n β β' fd fa fl) {x y : Nat} (hx : x < 2 * n) (hy : y < 2 * n) (e : full n β x = full n β y) : x = y := by
  obtain ⟨a, ha, rfl | rfl⟩ := num_cases hx <;> obtain ⟨b, hb, rfl | rfl⟩ := num_cases hy
  · rw [full_pos, full_pos] at e
    rw [D.inj a ha b hb e]
  · rw [full_pos, full_neg β hb] at e
    exact absurd e (D.ne_neg ha hb)
  · rw [full_pos, full_neg β ha] at e
    exact absurd e.symm (D.ne_neg hb ha)
  · rw [full_neg β ha, full_neg β hb] at e
    rw [D.inj a ha b hb (neg_injective e)]

theorem RData.full_surj (D : RData cs h n β β' fd fa fl) {v : Fin rk → ℤ} (hv : IsR cs h v) : ∃ x < 2 * n, full n β x = v := by
  rcases hv.sign with hp | hp
  · obtain ⟨a, ha, e⟩ := D.surj v ⟨hv, hp⟩
    exact ⟨n + a, by omega, by rw [full_pos, e]⟩
  · obtain ⟨a, ha, e⟩ := D.surj (-v) ⟨hv.neg, fun i => by have := hp i; rw [Pi.neg_apply]; omega⟩
    exact ⟨n - 1 - a, by omega, by rw [full_neg β ha, e, neg_neg]⟩

/-- the function gives the action of `t` on the numbers -/
def PermSpec (cs : CoxeterSystem M W) (h : IsCartan C M) (n : Nat) (β : Nat → Fin rk → ℤ) (f : Nat → Nat) (t : W) : Prop :=
  ∀ x < 2 * n, f x < 2 * n ∧ full n β (f x) = geom cs h t (full n β x)

/-- the flags are those of the roots from which `α` cannot be subtracted -/
def BotSpec (cs : CoxeterSystem M W) (h : IsCartan C M) (n : Nat) (β : Nat → Fin rk → ℤ) (α : Fin rk → ℤ) (f : Nat → Bool) : Prop :=
  ∀ x < 2 * n, f x = true ↔ ¬ IsR cs h (full n β x - α)

/-! ### simple roots -/

theorem lookupPos_eq (v : BV) : ∀ (l : List BV) (i : Nat), lookupPos v l i = i + l.idxOf v
  | [], i => by simp [lookupPos]
  | w :: l, i => by
    rw [lookupPos, List.idxOf_cons]
    by_cases e : w = v
    · simp [e]
    · rw [if_neg e, lookupPos_eq v l (i + 1)]
      have : (w == v) = false := by simpa using e
      rw [this]
      simp only [cond_false]
      omega

theorem isBottom_ok (D : RData cs h n β β' fd fa fl) {a : Nat} (ha : a < n) (i : Fin rk) (hne : β a ≠ root i) :
    ∃ b, isBottom ((List.range n).map fun j => enc (β j)) i a = .ok b ∧ (b = true ↔ ¬ IsR cs h (β a - root i)) := by
  have hupd : Function.update (β a) i (β a i - 1) = β a - root i := by
    funext k
    rw [Function.update_apply, Pi.sub_apply, root_apply]
    by_cases hk : k = i
    · subst hk; simp
    · simp [hk]
  rw [isBottom, row_get _ ha, Res.ok_bind, enc_get, Res.ok_bind, enc_put, Res.ok_bind, hupd]
  refine ⟨_, rfl, ?_⟩
  rw [Bool.or_eq_true, decide_eq_true_iff, decide_eq_true_iff, lookupPos_eq, Nat.zero_add, List.length_map, List.length_range]
  have hidx : ((List.range n).map fun j => enc (β j)).idxOf (enc (β a - root i)) = n ↔ ¬ ∃ j < n, β j = β a - root i := by
    have h1 := List.idxOf_lt_length_iff (a := enc (β a - root i)) (l := (List.range n).map fun j => enc (β j))
    have h2 := List.idxOf_le_length (a := enc (β a - root i)) (l := (List.range n).map fun j => enc (β j))
    rw [List.length_map, List.length_range] at h1 h2
    have h3 : enc (β a - root i) ∈ (List.range n).map (fun j => enc (β j)) ↔ ∃ j < n, β j = β a - root i := by
      rw [List.mem_map]
      simp only [List.mem_range, enc_inj]
    rw [← h3, ← h1]
    omega
  rw [hidx]
  obtain ⟨t, ht⟩ := D.isRoot a ha
  constructor
  · rintro (h0 | h0) hR
    · rcases hR.sign with h1 | h1
      · have := h1 i
        rw [Pi.sub_apply, root_apply, if_pos rfl, h0] at this
        omega
      · apply ht.ne_zero
        funext k
        have h2 := h1 k
        have h3 := D.pos a ha k
        rw [Pi.sub_apply, root_apply] at h2
        rw [Pi.zero_apply]
        by_cases hk : k = i
        · rw [hk, h0]
        · rw [if_neg hk] at h2; omega
    · rcases hR.sign with h1 | h1
      · exact h0 (D.surj _ ⟨hR, h1⟩)
      · apply hne
        have h4 : ∀ k, k ≠ i → β a k = 0 := by
          intro k hk
          have h2 := h1 k
          have h3 := D.pos a ha k
          rw [Pi.sub_apply, root_apply, if_neg hk] at h2
          omega
        have e : β a = β a i • root i := by
          funext k
          rw [Pi.smul_apply, root_apply, smul_eq_mul]
          by_cases hk : k = i
          · rw [if_pos hk, hk]; ring
          · rw [if_neg hk, h4 k hk]; ring
        rcases ht.primitive e with h5 | h5
        · rw [h5, one_smul] at e; exact e
        · have := D.pos a ha i; omega
  · intro hR
    by_contra hc
    push Not at hc
    obtain ⟨-, j, hj, e⟩ := hc
    obtain ⟨u, hu⟩ := D.isRoot j hj
    rw [e] at hu
    exact hR ⟨_, _, hu⟩

/-- the position of the reflected root, in absolute value -/
def lk (fl : Nat → Nat → Nat) (i a : Nat) : Nat := if a = i then i else fl a i

theorem RData.ne_root (D : RData cs h n β β' fd fa fl) {a : Nat} (ha : a < n) {i : Fin rk} (hai : a ≠ i.1) : β a ≠ root i := by
  intro e
  exact hai (D.inj a ha i (lt_of_lt_of_le i.2 D.rkn) (e.trans (D.simple i).symm))

theorem RData.lk_lt (D : RData cs h n β β' fd fa fl) {a : Nat} (ha : a < n) (i : Fin rk) : lk fl i a < n := by
  unfold lk
  by_cases hai : a = i.1
  · rw [if_pos hai]; exact lt_of_lt_of_le i.2 D.rkn
  · rw [if_neg hai]; exact (D.link a ha i (D.ne_root ha hai)).1

theorem RData.lk_lk (D : RData cs h n β β' fd fa fl) {a : Nat} (ha : a < n) (i : Fin rk) : lk fl i (lk fl i a) = a := by
  by_cases hai : a = i.1
  · simp [lk, hai]
  · obtain ⟨h1, h2⟩ := D.link a ha i (D.ne_root ha hai)
    have h3 : lk fl i a = fl a i := by rw [lk, if_neg hai]
    rw [h3]
    have h4 : fl a i ≠ i.1 := by
      intro e
      rw [e, D.simple i] at h2
      have h5 := D.pos a ha i
      rw [(srefl_eq_iff h i).mp h2.symm, srefl_root h, Pi.neg_apply, root_apply, if_pos rfl] at h5
      omega
    obtain ⟨h5, h6⟩ := D.link _ h1 i (D.ne_root h1 h4)
    rw [lk, if_neg h4]
    apply D.inj _ h5 _ ha
    rw [h6, h2, srefl_srefl h]

/-- flags set for a part of the positive roots and their reflections -/
structure Bots (n k i : Nat) (fl : Nat → Nat → Nat) (P : Nat → Prop) (f : Nat → Bool) : Prop where
  pos : ∀ a < n, f (n + a) = true ↔ a < k ∧ P a
  neg : ∀ a < n, f (n - 1 - a) = true ↔ lk fl i a < k ∧ P (lk fl i a)

theorem bots_keep {n k i : Nat} {P : Nat → Prop} {f : Nat → Bool} (hB : Bots n k i fl P f) (hk : ¬ P k) : Bots n (k + 1) i fl P f := by
  have : ∀ a, (a < k + 1 ∧ P a) ↔ (a < k ∧ P a) := by
    intro a
    constructor
    · rintro ⟨h1, h2⟩
      refine ⟨?_, h2⟩
      by_contra hc
      have : a = k := by omega
      subst this
      exact hk h2
    · rintro ⟨h1, h2⟩
      exact ⟨by omega, h2⟩
  exact ⟨fun a ha => by rw [this, hB.pos a ha], fun a ha => by rw [this, hB.neg a ha]⟩

theorem bots_set (D : RData cs h n β β' fd fa fl) {k : Nat} (hkn : k < n) {i : Fin rk} {P : Nat → Prop} {f : Nat → Bool} (hB : Bots n k i fl P f) (hk : P k) :
    ∃ f', (do bitSet (← bitSet ((List.range (2 * n)).map f) (n + k)) (n - 1 - lk fl i k) : Res (List Bool)) = .ok ((List.range (2 * n)).map f') ∧ Bots n (k + 1) i fl P f' := by
  have hlk := D.lk_lt hkn i
  rw [bitSet, row_put _ (by omega), Res.ok_bind, bitSet, row_put _ (by omega)]
  refine ⟨_, rfl, ⟨fun a ha => ?_, fun a ha => ?_⟩⟩
  · beta_reduce
    rw [if_neg (by omega)]
    by_cases hak : a = k
    · subst hak; simp [hk]
    · rw [if_neg (by omega), hB.pos a ha]
      exact and_congr_left fun _ => by omega
  · beta_reduce
    by_cases hak : a = lk fl i k
    · subst hak
      rw [if_pos rfl, D.lk_lk hkn]
      simp [hk]
    · have hne : lk fl i a ≠ k := by
        intro e
        rw [← e, D.lk_lk ha] at hak
        exact hak rfl
      rw [if_neg (by omega), if_neg (by omega), hB.neg a ha]
      exact and_congr_left fun _ => by omega

/-- Flags set for all positive roots are those of the ladder bottoms. -/
theorem bots_done (D : RData cs h n β β' fd fa fl) {i : Fin rk} {f : Nat → Bool}
    (hB : Bots n n i fl (fun a => ¬ IsR cs h (β a - root i)) f) : BotSpec cs h n β (root i) f := by
  intro x hx
  obtain ⟨a, ha, rfl | rfl⟩ := num_cases hx
  · rw [hB.pos a ha, full_pos]
    exact ⟨fun h1 => h1.2, fun h1 => ⟨ha, h1⟩⟩
  · rw [hB.neg a ha, full_neg β ha]
    have hlk := D.lk_lt ha i
    have key : IsR cs h (β (lk fl i a) - root i) ↔ IsR cs h (-β a - root i) := by
      by_cases hai : a = i.1
      · subst hai
        rw [lk, if_pos rfl, D.simple i, sub_self]
        exact ⟨fun h1 => absurd h1 isR_zero, fun h1 => absurd h1 isR_two⟩
      · obtain ⟨h1, h2⟩ := D.link a ha i (D.ne_root ha hai)
        rw [lk, if_neg hai, h2, ← isR_act (cs.simple i), ← isR_neg]
        have : -geom cs h (cs.simple i) (srefl C i (β a) - root i) = -β a - root i := by
          rw [geom_simple, map_sub, srefl_srefl h, srefl_root h]
          funext k
          simp only [Pi.sub_apply, Pi.neg_apply]
          ring
        rw [this]
    rw [key]
    exact ⟨fun h1 => h1.2, fun h1 => ⟨hlk, h1⟩⟩

/-- the partial permutation of a simple root -/
def PartPerm (n k : Nat) (β : Nat → Fin rk → ℤ) (C : Fin rk → Fin rk → ℤ) (i : Fin rk) (f : Nat → Nat) : Prop :=
  ∀ a < k, (f (n + a) < 2 * n ∧ full n β (f (n + a)) = srefl C i (β a)) ∧ f (n - 1 - a) < 2 * n ∧ full n β (f (n - 1 - a)) = -srefl C i (β a)

theorem RData.partPerm_set (D : RData cs h n β β' fd fa fl) {k : Nat} (hkn : k < n) {i : Fin rk} {f : Nat → Nat} (hP : PartPerm n k β C i f) {p q : Nat} (hp : p < 2 * n)
    (hq : q < 2 * n) (hp' : full n β p = srefl C i (β k)) (hq' : full n β q = -srefl C i (β k)) :
    ∃ f', (do Vec.put (← Vec.put ((List.range (2 * n)).map f) (n + k) p) (n - 1 - k) q : Res (List Nat)) = .ok ((List.range (2 * n)).map f') ∧ PartPerm n (k + 1) β C i f' := by
  rw [row_put _ (by omega), Res.ok_bind, row_put _ (by omega)]
  refine ⟨_, rfl, fun a ha => ?_⟩
  beta_reduce
  by_cases hak : a = k
  · subst hak
    rw [if_neg (by omega), if_pos rfl, if_pos rfl]
    exact ⟨⟨hp, hp'⟩, hq, hq'⟩
  · rw [if_neg (by omega), if_neg (by omega), if_neg (by omega), if_neg (by omega)]
    exact hP a (by omega)

theorem simpleStep_unfold (roots coroots : List BV) (link : List (List Nat)) (i : Nat) (perm : List Nat) (bots cobots : List Bool) (alpha : Nat) :
    simpleStep roots coroots link i (perm, bots, cobots) alpha = (if alpha = i then do
      let perm ← (do Vec.put (← Vec.put perm (roots.length + alpha) (roots.length - 1 - alpha)) (roots.length - 1 - alpha) (roots.length + alpha) : Res (List Nat))
      let bots ← (do bitSet (← bitSet bots (roots.length + alpha)) (roots.length - 1 - alpha) : Res (List Bool))
      let cobots ← (do bitSet (← bitSet cobots (roots.length + alpha)) (roots.length - 1 - alpha) : Res (List Bool))
      .ok (perm, bots, cobots)
    else do
      let beta ← Vec.get (← Vec.get link alpha) i
      if roots.length ≤ beta then .assertFail else do
      let perm ← (do Vec.put (← Vec.put perm (roots.length + alpha) (roots.length + beta)) (roots.length - 1 - alpha) (roots.length - 1 - beta) : Res (List Nat))
      let b ← isBottom roots i alpha
      let bots ← (if b then do bitSet (← bitSet bots (roots.length + alpha)) (roots.length - 1 - beta) else .ok bots : Res (List Bool))
      let b ← isBottom coroots i alpha
      let cobots ← (if b then do bitSet (← bitSet cobots (roots.length + alpha)) (roots.length - 1 - beta) else .ok cobots : Res (List Bool))
      .ok (perm, bots, cobots)) := by
  have hb : ∀ {α β γ : Type} (x : Res α) (f : α → Res β) (g : β → Res γ), ((x >>= f) >>= g) = x >>= fun a => f a >>= g := by
    intro α β γ x f g; cases x <;> rfl
  simp only [hb]
  rfl

theorem simpleInner_ok [Finite W] (D : RData cs h n β β' fd fa fl) (i : Fin rk) : ∀ (d k : Nat), k + d = n → ∀ {fp : Nat → Nat} {fb fc : Nat → Bool}, PartPerm n k β C i fp →
    Bots n k i fl (fun a => ¬ IsR cs h (β a - root i)) fb → Bots n k i fl (fun a => ¬ IsR cs h.dual (β' a - root i)) fc →
    ∃ fp' fb' fc', simpleInner ((List.range n).map fun j => enc (β j)) ((List.range n).map fun j => enc (β' j)) (tab n rk fl) i (List.range' k d)
        ((List.range (2 * n)).map fp, (List.range (2 * n)).map fb, (List.range (2 * n)).map fc) =
        .ok ((List.range (2 * n)).map fp', (List.range (2 * n)).map fb', (List.range (2 * n)).map fc') ∧
      PartPerm n n β C i fp' ∧ Bots n n i fl (fun a => ¬ IsR cs h (β a - root i)) fb' ∧ Bots n n i fl (fun a => ¬ IsR cs h.dual (β' a - root i)) fc'
  | 0, k, hk, fp, fb, fc, h1, h2, h3 => by
    obtain rfl : k = n := hk
    exact ⟨fp, fb, fc, rfl, h1, h2, h3⟩
  | d + 1, k, hk, fp, fb, fc, h1, h2, h3 => by
    have hkn : k < n := by omega
    have hlen : ((List.range n).map fun j => enc (β j)).length = n := by simp
    have step : ∃ fp' fb' fc', simpleStep ((List.range n).map fun j => enc (β j)) ((List.range n).map fun j => enc (β' j)) (tab n rk fl) i
        ((List.range (2 * n)).map fp, (List.range (2 * n)).map fb, (List.range (2 * n)).map fc) k =
        .ok ((List.range (2 * n)).map fp', (List.range (2 * n)).map fb', (List.range (2 * n)).map fc') ∧
        PartPerm n (k + 1) β C i fp' ∧ Bots n (k + 1) i fl (fun a => ¬ IsR cs h (β a - root i)) fb' ∧ Bots n (k + 1) i fl (fun a => ¬ IsR cs h.dual (β' a - root i)) fc' := by
      rw [simpleStep_unfold, hlen]
      by_cases hki : k = i.1
      · rw [if_pos hki]
        have hβ : β k = root i := by rw [hki]; exact D.simple i
        have hβ' : β' k = root i := by rw [hki]; exact D.co_simple i
        have hlk : lk fl i k = k := by rw [lk, if_pos hki, hki]
        obtain ⟨fp', e1, p1⟩ := D.partPerm_set hkn h1 (p := n - 1 - k) (q := n + k) (by omega) (by omega) (by rw [full_neg β hkn, hβ, srefl_root h])
          (by rw [full_pos, hβ, srefl_root h, neg_neg])
        obtain ⟨fb', e2, p2⟩ := bots_set D hkn h2 (by rw [hβ, sub_self]; exact isR_zero)
        obtain ⟨fc', e3, p3⟩ := bots_set D hkn h3 (by rw [hβ', sub_self]; exact isR_zero)
        rw [hlk] at e2 e3
        refine ⟨fp', fb', fc', ?_, p1, p2, p3⟩
        rw [e1, Res.ok_bind, e2, Res.ok_bind, e3, Res.ok_bind]
      · have hne := D.ne_root hkn hki
        have hne' := D.dual.ne_root hkn hki
        obtain ⟨hl1, hl2⟩ := D.link k hkn i hne
        have hlk : lk fl i k = fl k i := by rw [lk, if_neg hki]
        obtain ⟨fp', e1, p1⟩ := D.partPerm_set hkn h1 (p := n + fl k i) (q := n - 1 - fl k i) (by omega) (by omega) (by rw [full_pos, hl2])
          (by rw [full_neg β hl1, hl2])
        obtain ⟨b, eb, hb⟩ := isBottom_ok D hkn i hne
        obtain ⟨c, ec, hc⟩ := isBottom_ok D.dual hkn i hne'
        have hbs : ∃ fb', (if b then (do bitSet (← bitSet ((List.range (2 * n)).map fb) (n + k)) (n - 1 - fl k i)) else .ok ((List.range (2 * n)).map fb) : Res (List Bool)) =
            .ok ((List.range (2 * n)).map fb') ∧ Bots n (k + 1) i fl (fun a => ¬ IsR cs h (β a - root i)) fb' := by
          by_cases hbt : b = true
          · rw [if_pos hbt, ← hlk]
            exact bots_set D hkn h2 (hb.mp hbt)
          · rw [if_neg hbt]
            exact ⟨fb, rfl, bots_keep h2 (fun hx => hbt (hb.mpr hx))⟩
        have hcs : ∃ fc', (if c then (do bitSet (← bitSet ((List.range (2 * n)).map fc) (n + k)) (n - 1 - fl k i)) else .ok ((List.range (2 * n)).map fc) : Res (List Bool)) =
            .ok ((List.range (2 * n)).map fc') ∧ Bots n (k + 1) i fl (fun a => ¬ IsR cs h.dual (β' a - root i)) fc' := by
          by_cases hct : c = true
          · rw [if_pos hct, ← hlk]
            exact bots_set D hkn h3 (hc.mp hct)
          · rw [if_neg hct]
            exact ⟨fc, rfl, bots_keep h3 (fun hx => hct (hc.mpr hx))⟩
        obtain ⟨fb', e2, p2⟩ := hbs
        obtain ⟨fc', e3, p3⟩ := hcs
        refine ⟨fp', fb', fc', ?_, p1, p2, p3⟩
        rw [if_neg hki, tab_get _ hkn, Res.ok_bind, row_get _ i.2, Res.ok_bind, if_neg (by omega), e1, Res.ok_bind, eb, Res.ok_bind, e2, Res.ok_bind, ec, Res.ok_bind, e3, Res.ok_bind]
    obtain ⟨fp', fb', fc', e, p1, p2, p3⟩ := step
    obtain ⟨fp2, fb2, fc2, e', q⟩ := simpleInner_ok D i d (k + 1) (by omega) p1 p2 p3
    refine ⟨fp2, fb2, fc2, ?_, q⟩
    rw [List.range'_succ, simpleInner, e, Res.ok_bind, e']

/-- what is known for one positive root -/
structure Row (cs : CoxeterSystem M W) (h : IsCartan C M) (n : Nat) (β β' : Nat → Fin rk → ℤ) (p : Perms) (a : Nat) : Prop where
  perm : ∃ f t, p.perms[a]? = some ((List.range (2 * n)).map f) ∧ IsRoot cs h (β a) (β' a) t ∧ PermSpec cs h n β f t
  bots : ∃ f, p.bots[n + a]? = some ((List.range (2 * n)).map f) ∧ BotSpec cs h n β (β a) f
  cobots : ∃ f, p.cobots[n + a]? = some ((List.range (2 * n)).map f) ∧ BotSpec cs h.dual n β' (β' a) f

/-- sizes -/
structure Sizes (n : Nat) (p : Perms) : Prop where
  perms : p.perms.length = n
  bots : p.bots.length = 2 * n
  cobots : p.cobots.length = 2 * n

theorem row_set {p : Perms} (hs : Sizes n p) {k : Nat} (hk : k < n) {f : Nat → Nat} {t : W} (h1 : IsRoot cs h (β k) (β' k) t) (h2 : PermSpec cs h n β f t) {fb fc : Nat → Bool}
    (h3 : BotSpec cs h n β (β k) fb) (h4 : BotSpec cs h.dual n β' (β' k) fc) (ho : ∀ a < k, Row cs h n β β' p a) :
    ∃ p', (do .ok ⟨← Vec.put p.perms k ((List.range (2 * n)).map f), ← Vec.put p.bots (n + k) ((List.range (2 * n)).map fb),
        ← Vec.put p.cobots (n + k) ((List.range (2 * n)).map fc)⟩ : Res Perms) = .ok p' ∧ Sizes n p' ∧ ∀ a < k + 1, Row cs h n β β' p' a := by
  rw [Vec.put_ok (by rw [hs.perms]; exact hk), Res.ok_bind, Vec.put_ok (by rw [hs.bots]; omega), Res.ok_bind, Vec.put_ok (by rw [hs.cobots]; omega), Res.ok_bind]
  refine ⟨_, rfl, ⟨by rw [List.length_set]; exact hs.perms, by rw [List.length_set]; exact hs.bots, by rw [List.length_set]; exact hs.cobots⟩, fun a ha => ?_⟩
  by_cases hak : a = k
  · subst hak
    exact ⟨⟨f, t, by simp only []; rw [List.getElem?_set_self (by rw [hs.perms]; exact hk)], h1, h2⟩,
      ⟨fb, by simp only []; rw [List.getElem?_set_self (by rw [hs.bots]; omega)], h3⟩, ⟨fc, by simp only []; rw [List.getElem?_set_self (by rw [hs.cobots]; omega)], h4⟩⟩
  · obtain ⟨⟨f', t', e1, q1⟩, ⟨fb', e2, q2⟩, ⟨fc', e3, q3⟩⟩ := ho a (by omega)
    exact ⟨⟨f', t', by simp only []; rw [List.getElem?_set_ne (by omega), e1], q1⟩, ⟨fb', by simp only []; rw [List.getElem?_set_ne (by omega), e2], q2⟩,
      ⟨fc', by simp only []; rw [List.getElem?_set_ne (by omega), e3], q3⟩⟩

theorem partPerm_done (D : RData cs h n β β' fd fa fl) {i : Fin rk} {f : Nat → Nat} (hP : PartPerm n n β C i f) : PermSpec cs h n β f (cs.simple i) := by
  intro x hx
  obtain ⟨a, ha, rfl | rfl⟩ := num_cases hx
  · rw [full_pos, geom_simple]; exact (hP a ha).1
  · rw [full_neg β ha, geom_simple, map_neg]; exact (hP a ha).2

theorem simpleLoop_ok [Finite W] (D : RData cs h n β β' fd fa fl) : ∀ (d k : Nat), k + d = rk → ∀ {p : Perms}, Sizes n p → (∀ a < k, Row cs h n β β' p a) →
    ∃ p', simpleLoop ((List.range n).map fun j => enc (β j)) ((List.range n).map fun j => enc (β' j)) (tab n rk fl) (List.range' k d) p = .ok p' ∧ Sizes n p' ∧
      ∀ a < rk, Row cs h n β β' p' a
  | 0, k, hk, p, h1, h2 => ⟨p, rfl, h1, fun a ha => h2 a (by omega)⟩
  | d + 1, k, hk, p, h1, h2 => by
    have hkr : k < rk := by omega
    have hrkn := D.rkn
    have hrep : ∀ {α : Type} (x : α), List.replicate (2 * n) x = (List.range (2 * n)).map fun _ => x := by
      intro α x
      apply List.ext_getElem <;> simp
    have key := simpleInner_ok D ⟨k, hkr⟩ n 0 (by omega) (fp := fun _ => 0) (fb := fun _ => false) (fc := fun _ => false) (fun a ha => by omega)
      ⟨fun a _ => by simp, fun a _ => by simp⟩ ⟨fun a _ => by simp, fun a _ => by simp⟩
    obtain ⟨fp, fb, fc, e, q1, q2, q3⟩ := key
    have hR : IsRoot cs h (β k) (β' k) (cs.simple ⟨k, hkr⟩) := by
      have e1 := D.simple ⟨k, hkr⟩
      have e2 := D.co_simple ⟨k, hkr⟩
      simp only [] at e1 e2
      rw [e1, e2]
      exact isRoot_simple _
    have hb := bots_done D q2
    have hc := bots_done D.dual q3
    rw [show (root (⟨k, hkr⟩ : Fin rk) : Fin rk → ℤ) = β k from (D.simple ⟨k, hkr⟩).symm] at hb
    rw [show (root (⟨k, hkr⟩ : Fin rk) : Fin rk → ℤ) = β' k from (D.co_simple ⟨k, hkr⟩).symm] at hc
    obtain ⟨p1, e1, s1, r1⟩ := row_set h1 (by omega) hR (partPerm_done D q1) hb hc h2
    obtain ⟨p2, e2, s2, r2⟩ := simpleLoop_ok D d (k + 1) (by omega) s1 r1
    refine ⟨p2, ?_, s2, r2⟩
    have hlen : ((List.range n).map fun j => enc (β j)).length = n := by simp
    rw [List.range'_succ, simpleLoop, hlen, Vec.get_ok (by rw [h1.bots]; omega), Res.ok_bind, hrep, hrep, List.range_eq_range' (n := n)]
    rw [List.range_eq_range' (n := n)] at e
    rw [e, Res.ok_bind]
    have hb : ∀ {α β γ : Type} (x : Res α) (f : α → Res β) (g : β → Res γ), ((x >>= f) >>= g) = x >>= fun a => f a >>= g := by
      intro α β γ x f g; cases x <;> rfl
    have := congrArg (fun x => x >>= fun q => simpleLoop ((List.range n).map fun j => enc (β j)) ((List.range n).map fun j => enc (β' j)) (tab n rk fl) (List.range' (k + 1) d) q) e1
    simp only [hb, Res.ok_bind] at this
    rw [e2] at this
    rw [← List.range_eq_range' (n := n)]
    exact this

end

end Verif.Root
