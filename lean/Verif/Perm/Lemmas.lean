import Verif.Perm.Model
import Mathlib.GroupTheory.Perm.Sign
import Mathlib.Data.List.Perm.Basic
import Mathlib.Data.List.NodupEquivFin
/-
Permutations as lists, and following their cycles.
-/
namespace Verif.Perm
open Verif

variable {α : Type}

/-- `p` is a permutation of `[0,n)`: a rearrangement of the numbers `0,…,n-1` -/
def IsPerm (n : Nat) (p : List Nat) : Prop := p.Perm (List.range n)

variable {n : Nat} {p : List Nat}

theorem IsPerm.length (h : IsPerm n p) : p.length = n := by simpa using h.length_eq
theorem IsPerm.nodup (h : IsPerm n p) : p.Nodup := h.nodup_iff.2 List.nodup_range
theorem IsPerm.mem (h : IsPerm n p) {x : Nat} : x ∈ p ↔ x < n := by rw [h.mem_iff, List.mem_range]
theorem IsPerm.lt (h : IsPerm n p) {i : Nat} (hi : i < p.length) : p[i] < n := h.mem.1 (List.getElem_mem hi)
theorem IsPerm.inj (h : IsPerm n p) {i j : Nat} (hi : i < p.length) (hj : j < p.length) (e : p[i] = p[j]) : i = j :=
  (h.nodup.getElem_inj_iff).1 e

theorem isPerm_of {p : List Nat} (hl : p.length = n) (hlt : ∀ x ∈ p, x < n) (hnd : p.Nodup) : IsPerm n p := by
  apply List.Subperm.perm_of_length_le
  · exact List.subperm_of_subset hnd (fun x hx => List.mem_range.2 (hlt x hx))
  · simp [hl]

/-- the permutation of `Fin n` -/
noncomputable def IsPerm.toPerm (h : IsPerm n p) : Equiv.Perm (Fin n) :=
  Equiv.ofBijective (fun i => ⟨p[i.val]'(by rw [h.length]; exact i.2), h.lt _⟩)
    (Finite.injective_iff_bijective.1 (by
      intro i j e
      have := h.inj _ _ (Fin.mk.inj e)
      exact Fin.ext this))

theorem IsPerm.toPerm_apply (h : IsPerm n p) (i : Fin n) : (h.toPerm i).val = p[i.val]'(by rw [h.length]; exact i.2) := rfl

theorem IsPerm.get (h : IsPerm n p) (i : Fin n) : Vec.get p i.val = .ok (h.toPerm i).val := by
  rw [Vec.get_ok (by rw [h.length]; exact i.2)]; rfl

/-! ### following cycles -/

/-- state between cycles -/
structure Outer (σ ρ : Equiv.Perm (Fin n)) (i : Nat) (s : List Bool) : Prop where
  len : s.length = n
  fixed : ∀ x : Fin n, (x.val < i ∨ s[x.val]? = some true) → ρ x = x
  same : ∀ x : Fin n, i ≤ x.val → s[x.val]? = some false → ρ x = σ x

/-- state within the cycle of `i`, having arrived at `j` -/
structure Inner (σ ρ : Equiv.Perm (Fin n)) (i : Fin n) (s : List Bool) (j : Fin n) : Prop where
  len : s.length = n
  at_i : ρ i = j
  fixed : ∀ x : Fin n, x ≠ i → (x < i ∨ s[x.val]? = some true) → ρ x = x
  same : ∀ x : Fin n, i < x → s[x.val]? = some false → ρ x = σ x

theorem bool_or (s : List Bool) (hl : s.length = n) (x : Fin n) : s[x.val]? = some true ∨ s[x.val]? = some false := by
  have : x.val < s.length := by rw [hl]; exact x.2
  rw [List.getElem?_eq_getElem this]
  cases s[x.val] <;> simp

theorem set_get (s : List Bool) (hl : s.length = n) (j x : Fin n) (b : Bool) :
    (s.set j.val b)[x.val]? = if j = x then some b else s[x.val]? := by
  by_cases c : j = x
  · subst c
    rw [if_pos rfl, List.getElem?_set_self (by rw [hl]; exact j.2)]
  · rw [if_neg c, List.getElem?_set_ne (fun e => c (Fin.ext e))]

theorem Outer.enter {σ ρ : Equiv.Perm (Fin n)} {i : Fin n} {s : List Bool} (h : Outer σ ρ i.val s)
    (hs : s[i.val]? = some false) : Inner σ ρ i s (σ i) where
  len := h.len
  at_i := h.same i le_rfl hs
  fixed := fun x _ hx => h.fixed x (hx.imp id id)
  same := fun x hx hs => h.same x (le_of_lt hx) hs

theorem Inner.mark {σ ρ : Equiv.Perm (Fin n)} {i j : Fin n} {s : List Bool} (h : Inner σ ρ i s j) :
    Inner σ ρ i (s.set i.val true) j where
  len := by simp [h.len]
  at_i := h.at_i
  fixed := by
    intro x hx hc
    rw [set_get s h.len, if_neg (Ne.symm hx)] at hc
    exact h.fixed x hx hc
  same := by
    intro x hx hc
    rw [set_get s h.len, if_neg (ne_of_lt hx)] at hc
    exact h.same x hx hc

theorem Inner.leave {σ ρ : Equiv.Perm (Fin n)} {i : Fin n} {s : List Bool} (h : Inner σ ρ i s i) :
    Outer σ ρ (i.val + 1) s where
  len := h.len
  fixed := by
    intro x hx
    by_cases c : x = i
    · rw [c]; exact h.at_i
    · refine h.fixed x c (hx.imp (fun hx => ?_) id)
      have : x.val ≠ i.val := fun e => c (Fin.ext e)
      exact Fin.lt_def.2 (by omega)
  same := fun x hx hs => h.same x (Fin.lt_def.2 (by omega)) hs

theorem Outer.skip {σ ρ : Equiv.Perm (Fin n)} {i : Fin n} {s : List Bool} (h : Outer σ ρ i.val s)
    (hs : s[i.val]? = some true) : Outer σ ρ (i.val + 1) s where
  len := h.len
  fixed := by
    intro x hx
    by_cases c : x = i
    · subst c; exact h.fixed x (.inr hs)
    · refine h.fixed x (hx.imp (fun hx => ?_) id)
      have : x.val ≠ i.val := fun e => c (Fin.ext e)
      omega
  same := fun x hx hs => h.same x (by omega) hs

/-- one step along the cycle -/
theorem Inner.step {σ ρ : Equiv.Perm (Fin n)} {i j : Fin n} {s : List Bool} (h : Inner σ ρ i s j) (hj : j ≠ i) :
    s[j.val]? = some false ∧ ρ j = σ j ∧ Inner σ (ρ * Equiv.swap i j) i (s.set j.val true) (σ j) ∧
      (ρ * Equiv.swap i j).support.card < ρ.support.card := by
  have hne : ¬ (j < i ∨ s[j.val]? = some true) := by
    intro hc
    have := h.fixed j hj hc
    exact hj (ρ.injective (this.trans h.at_i.symm))
  have hs : s[j.val]? = some false := (bool_or s h.len j).resolve_left (fun e => hne (.inr e))
  have hlt : i < j := by
    rcases lt_trichotomy i j with e | e | e
    · exact e
    · exact absurd e.symm hj
    · exact absurd (.inl e) hne
  have hρj : ρ j = σ j := h.same j hlt hs
  refine ⟨hs, hρj, ⟨by simp [h.len], ?_, ?_, ?_⟩, ?_⟩
  · rw [Equiv.Perm.mul_apply, Equiv.swap_apply_left, hρj]
  · intro x hx hc
    rw [set_get s h.len] at hc
    by_cases e : j = x
    · subst e; rw [Equiv.Perm.mul_apply, Equiv.swap_apply_right, h.at_i]
    · rw [if_neg e] at hc
      rw [Equiv.Perm.mul_apply, Equiv.swap_apply_of_ne_of_ne hx (Ne.symm e)]
      exact h.fixed x hx hc
  · intro x hx hc
    rw [set_get s h.len] at hc
    by_cases e : j = x
    · rw [if_pos e] at hc; cases hc
    · rw [if_neg e] at hc
      rw [Equiv.Perm.mul_apply, Equiv.swap_apply_of_ne_of_ne (ne_of_gt hx) (Ne.symm e)]
      exact h.same x hx hc
  · apply Finset.card_lt_card
    rw [Finset.ssubset_iff_of_subset]
    · refine ⟨j, ?_, ?_⟩
      · rw [Equiv.Perm.mem_support]
        intro e
        exact hj (ρ.injective (e.trans h.at_i.symm))
      · rw [Equiv.Perm.notMem_support, Equiv.Perm.mul_apply, Equiv.swap_apply_right, h.at_i]
    · intro x hx
      rw [Equiv.Perm.mem_support] at hx ⊢
      intro e
      apply hx
      by_cases c1 : x = i
      · exact absurd (by rw [← h.at_i, ← c1, e] : j = x) (by rw [c1]; exact hj)
      · by_cases c2 : x = j
        · rw [c2, Equiv.Perm.mul_apply, Equiv.swap_apply_right, h.at_i]
        · rw [Equiv.Perm.mul_apply, Equiv.swap_apply_of_ne_of_ne c1 c2, e]

theorem support_card_lt (ρ : Equiv.Perm (Fin n)) : ρ.support.card < n + 1 := by
  have := Finset.card_le_univ ρ.support
  rw [Fintype.card_fin] at this
  omega

theorem Outer.done {σ ρ : Equiv.Perm (Fin n)} {s : List Bool} (h : Outer σ ρ n s) : ρ = 1 := by
  ext x; rw [h.fixed x (.inl x.2)]; rfl

theorem Outer.init (σ : Equiv.Perm (Fin n)) : Outer σ σ 0 (List.replicate n false) where
  len := by simp
  fixed := by
    intro x hx
    rcases hx with hx | hx
    · exact absurd hx (by omega)
    · rw [List.getElem?_replicate_of_lt x.2] at hx; cases hx
  same := fun _ _ _ => rfl

/-! ### the sign -/

theorem get_bool {s : List Bool} {i : Nat} {b : Bool} (h : s[i]? = some b) : Vec.get s i = .ok b := by
  rw [Vec.get, h]

/-- sign as a Boolean -/
def neg (σ : Equiv.Perm (Fin n)) : Bool := decide (Equiv.Perm.sign σ = -1)

theorem neg_mul_swap (ρ : Equiv.Perm (Fin n)) {i j : Fin n} (h : i ≠ j) : neg (ρ * Equiv.swap i j) = !neg ρ := by
  rw [neg, neg, Equiv.Perm.sign_mul, Equiv.Perm.sign_swap h]
  rcases Int.units_eq_one_or (Equiv.Perm.sign ρ) with e | e <;> rw [e] <;> decide

theorem signLoop_spec (nd : Bool) (h : IsPerm n p) {i j : Fin n} {ρ : Equiv.Perm (Fin n)} {s : List Bool}
    (k : Nat) (b : Bool) (hi : Inner h.toPerm ρ i s j) (hj : j ≠ i) (hk : ρ.support.card < k) :
    ∃ (b' : Bool) (s' : List Bool) (ρ' : Equiv.Perm (Fin n)), signLoop nd p i.val k j.val b s = .ok (b', s') ∧
      Inner h.toPerm ρ' i s' i ∧ (xor b' (neg ρ')) = (xor b (neg ρ)) := by
  induction k generalizing j ρ s b with
  | zero => omega
  | succ k ih =>
    obtain ⟨h1, h2, h3, h4⟩ := hi.step hj
    rw [signLoop, get_bool h1, Res.ok_bind, Res.assertIn_bind nd (show (!false) = true from rfl), Vec.put_ok (by rw [hi.len]; exact j.2), Res.ok_bind,
      h.get j, Res.ok_bind]
    by_cases c : h.toPerm j = i
    · rw [if_neg (by rw [c]; simp)]
      refine ⟨_, _, _, rfl, by rw [c] at h3; exact h3, ?_⟩
      rw [neg_mul_swap ρ (Ne.symm hj)]
      cases b <;> cases neg ρ <;> rfl
    · rw [if_pos (fun e => c (Fin.ext e))]
      obtain ⟨b', s', ρ', g1, g2, g3⟩ := ih (!b) h3 c (by omega)
      refine ⟨b', s', ρ', g1, g2, ?_⟩
      rw [g3, neg_mul_swap ρ (Ne.symm hj)]
      cases b <;> cases neg ρ <;> rfl

theorem negLoop_spec (nd : Bool) (h : IsPerm n p) {ρ : Equiv.Perm (Fin n)} {s : List Bool} (m i : Nat) (b : Bool)
    (hi : Outer h.toPerm ρ i s) (hm : i + m = n) : negLoop nd p m i b s = .ok (xor b (neg ρ)) := by
  induction m generalizing i ρ s b with
  | zero =>
    obtain rfl : i = n := by omega
    rw [negLoop, hi.done]
    have : neg (1 : Equiv.Perm (Fin i)) = false := by rw [neg, Equiv.Perm.sign_one]; decide
    rw [this]; simp
  | succ m ih =>
    have hin : i < n := by omega
    rw [negLoop]
    rcases bool_or s hi.len ⟨i, hin⟩ with c | c
    · rw [get_bool c, Res.ok_bind, if_pos rfl]
      exact ih (i + 1) b (Outer.skip (i := ⟨i, hin⟩) hi c) (by omega)
    · rw [get_bool c, Res.ok_bind, if_neg (by simp), h.get ⟨i, hin⟩, Res.ok_bind]
      have he := Outer.enter (i := ⟨i, hin⟩) hi c
      by_cases c2 : h.toPerm ⟨i, hin⟩ = ⟨i, hin⟩
      · rw [if_pos (by rw [c2])]
        rw [c2] at he
        exact ih (i + 1) b he.leave (by omega)
      · rw [if_neg (fun e => c2 (Fin.ext e))]
        obtain ⟨b', s', ρ', g1, g2, g3⟩ := signLoop_spec nd h (p.length + 1) b he c2 (by rw [h.length]; exact support_card_lt ρ)
        rw [g1, Res.ok_bind, ih (i + 1) b' g2.leave (by omega), g3]

/-! ### moving entries -/

theorem cycleLoop_spec (h : IsPerm n p) {i j : Fin n} {ρ : Equiv.Perm (Fin n)} {s : List Bool} (k : Nat) (tmp : α) (v : List α)
    (w : Fin n → Option α) (hv : n ≤ v.length) (hi : Inner h.toPerm ρ i s j) (hk : ρ.support.card < k)
    (hw : ∀ x, w (ρ x) = if x = i then some tmp else v[x.val]?) :
    ∃ (tmp' : α) (v' : List α) (s' : List Bool) (ρ' : Equiv.Perm (Fin n)), cycleLoop p i.val k j.val tmp v s = .ok (tmp', v', s') ∧
      v'.length = v.length ∧ (∀ x, n ≤ x → v'[x]? = v[x]?) ∧
      Inner h.toPerm ρ' i s' i ∧ ∀ x, w (ρ' x) = if x = i then some tmp' else v'[x.val]? := by
  induction k generalizing j ρ s tmp v with
  | zero => omega
  | succ k ih =>
    rw [cycleLoop]
    by_cases c : j = i
    · rw [if_pos (by rw [c])]
      subst c
      exact ⟨tmp, v, s, ρ, rfl, rfl, fun _ _ => rfl, hi, hw⟩
    · rw [if_neg (fun e => c (Fin.ext e))]
      obtain ⟨h1, h2, h3, h4⟩ := hi.step c
      have hjv : j.val < v.length := lt_of_lt_of_le j.2 hv
      rw [Vec.get_ok hjv, Res.ok_bind, Vec.put_ok hjv, Res.ok_bind, Vec.put_ok (by rw [hi.len]; exact j.2), Res.ok_bind,
        h.get j, Res.ok_bind]
      obtain ⟨tmp', v', s', ρ', g1, g2, g3, g4, g5⟩ := ih v[j.val] (v.set j.val tmp) (by simpa using hv) h3 (by omega) (by
        intro x
        by_cases c1 : x = i
        · subst c1
          rw [if_pos rfl, Equiv.Perm.mul_apply, Equiv.swap_apply_left, hw, if_neg c, List.getElem?_eq_getElem hjv]
        · rw [if_neg c1]
          by_cases c2 : x = j
          · subst c2
            rw [Equiv.Perm.mul_apply, Equiv.swap_apply_right, hw, if_pos rfl, List.getElem?_set_self hjv]
          · rw [Equiv.Perm.mul_apply, Equiv.swap_apply_of_ne_of_ne c1 c2, hw, if_neg c1,
              List.getElem?_set_ne (fun e => c2 (Fin.ext e).symm)])
      refine ⟨tmp', v', s', ρ', g1, by rw [g2, List.length_set], fun x hx => ?_, g4, g5⟩
      rw [g3 x hx, List.getElem?_set_ne (by have := j.2; omega)]

theorem permuteLoop_spec (h : IsPerm n p) {ρ : Equiv.Perm (Fin n)} {s : List Bool} (m i : Nat) (v : List α)
    (w : Fin n → Option α) (hv : n ≤ v.length) (hi : Outer h.toPerm ρ i s) (hm : i + m = n) (hw : ∀ x, w (ρ x) = v[x.val]?) :
    ∃ v', permuteLoop p m i v s = .ok v' ∧ v'.length = v.length ∧ (∀ x, n ≤ x → v'[x]? = v[x]?) ∧
      ∀ x : Fin n, w x = v'[x.val]? := by
  induction m generalizing i ρ s v with
  | zero =>
    obtain rfl : i = n := by omega
    refine ⟨v, rfl, rfl, fun _ _ => rfl, fun x => ?_⟩
    have := hw x
    rw [hi.done] at this
    exact this
  | succ m ih =>
    have hin : i < n := by omega
    rw [permuteLoop]
    rcases bool_or s hi.len ⟨i, hin⟩ with c | c
    · rw [get_bool c, Res.ok_bind, if_pos rfl]
      exact ih (i + 1) v hv (Outer.skip (i := ⟨i, hin⟩) hi c) (by omega) hw
    · rw [get_bool c, Res.ok_bind, if_neg (by simp), Vec.put_ok (by rw [hi.len]; exact hin), Res.ok_bind, h.get ⟨i, hin⟩, Res.ok_bind]
      have he := (Outer.enter (i := ⟨i, hin⟩) hi c).mark
      by_cases c2 : h.toPerm ⟨i, hin⟩ = ⟨i, hin⟩
      · rw [if_pos (by rw [c2])]
        rw [c2] at he
        exact ih (i + 1) v hv he.leave (by omega) hw
      · rw [if_neg (fun e => c2 (Fin.ext e))]
        have hiv : i < v.length := by omega
        rw [Vec.get_ok hiv, Res.ok_bind]
        obtain ⟨tmp', v', s', ρ', g1, g2, g3, g4, g5⟩ := cycleLoop_spec h (p.length + 1) v[i] v w hv he
          (by rw [h.length]; exact support_card_lt ρ) (by
            intro x
            rw [hw]
            by_cases e : x = ⟨i, hin⟩
            · rw [if_pos e, e, List.getElem?_eq_getElem hiv]
            · rw [if_neg e])
        rw [g1, Res.ok_bind]
        simp only
        rw [Vec.put_ok (by omega), Res.ok_bind]
        obtain ⟨v'', k1, k2, k3, k4⟩ := ih (i + 1) (v'.set i tmp') (by simp; omega) g4.leave (by omega) (by
          intro x
          rw [g5]
          by_cases e : x = ⟨i, hin⟩
          · rw [if_pos e, e, List.getElem?_set_self (by omega)]
          · rw [if_neg e, List.getElem?_set_ne (fun e' => e (Fin.ext e'.symm))])
        refine ⟨v'', k1, by rw [k2, List.length_set, g2], fun x hx => ?_, k4⟩
        rw [k3 x hx, List.getElem?_set_ne (by omega), g3 x hx]

end Verif.Perm
