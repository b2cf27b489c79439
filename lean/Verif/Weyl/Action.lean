import Verif.Weyl.Check
import Mathlib.Logic.Function.Basic
/-
The action of generators on sequences of states, one for each transducer of a component: it respects the Coxeter relations.
-/
namespace Verif.Weyl
open Verif

/-- `transduce` (weyl.cpp L627-638) as a function on sequences of pieces, for the first `r` transducers of the component that
starts at `off`; the call is for generator `s` (local numbering) -/
def tact (T : Nat → Transducer) (off : Nat) : Nat → Nat → (Nat → Nat) → Nat → Nat
  | 0, _, w => w
  | r + 1, s, w =>
    if (T (off + r)).ent (w (off + r)) s < (T (off + r)).n then Function.update w (off + r) ((T (off + r)).ent (w (off + r)) s)
    else tact T off r ((T (off + r)).ent (w (off + r)) s - (T (off + r)).n) w

/-- alternating action of `m` generators, first `s`, then `t`, and so forth -/
def alt {α : Type} (R : Nat → α → α) : Nat → Nat → Nat → α → α
  | 0, _, _, w => w
  | m + 1, s, t, w => alt R m t s (R s w)

theorem alt_succ' {α : Type} (R : Nat → α → α) (m s t : Nat) (w : α) :
    alt R (m + 1) s t w = R (if m % 2 = 0 then s else t) (alt R m s t w) := by
  induction m generalizing s t w with
  | zero => rfl
  | succ m ih =>
    rw [alt, ih]
    by_cases h : m % 2 = 0
    · rw [if_pos h, if_neg (by omega)]; rfl
    · rw [if_neg h, if_pos (by omega)]; rfl

/-- the braid relation passes to the image by one of the generators -/
theorem alt_step {α : Type} (R : Nat → α → α) (s t : Nat) (V : α → Prop) (hV : ∀ u, (u = s ∨ u = t) → ∀ w, V w → V (R u w))
    (hinv : ∀ u, (u = s ∨ u = t) → ∀ w, V w → R u (R u w) = w) (m : Nat) (w : α) (hw : V w)
    (h : alt R m s t (R s w) = alt R m t s (R s w)) : alt R m s t w = alt R m t s w := by
  have hval : ∀ (m : Nat) (a b : Nat) (w : α), (a = s ∨ a = t) → (b = s ∨ b = t) → V w → V (alt R m a b w) := by
    intro m
    induction m with
    | zero => intro _ _ _ _ _ h; exact h
    | succ m ih => intro a b w ha hb hw; exact ih b a _ hb ha (hV a ha w hw)
  cases m with
  | zero => rfl
  | succ m =>
    rw [alt, hinv s (.inl rfl) w hw, alt_succ'] at h
    rw [alt, alt_succ', h]
    have hz : (if m % 2 = 0 then t else s) = s ∨ (if m % 2 = 0 then t else s) = t := by
      by_cases hm : m % 2 = 0
      · rw [if_pos hm]; exact .inr rfl
      · rw [if_neg hm]; exact .inl rfl
    rw [hinv _ hz _ (hval m t s _ (.inr rfl) (.inl rfl) (hV s (.inl rfl) w hw))]

section
variable {T : Nat → Transducer} {off k : Nat} {M : Nat → Nat → Nat}

/-- all pieces of the component are states of their transducers -/
def VC (T : Nat → Transducer) (off k : Nat) (w : Nat → Nat) : Prop := ∀ r < k, w (off + r) < (T (off + r)).n

theorem tact_out (r s : Nat) (w : Nat → Nat) {j : Nat} (hj : j < off ∨ off + r ≤ j) : tact T off r s w j = w j := by
  induction r generalizing s with
  | zero => rfl
  | succ r ih =>
    rw [tact]
    by_cases h : (T (off + r)).ent (w (off + r)) s < (T (off + r)).n
    · rw [if_pos h, Function.update_of_ne (by omega)]
    · rw [if_neg h]; exact ih _ (by omega)

theorem tact_update (r s : Nat) (w : Nat → Nat) {j : Nat} (hj : j < off ∨ off + r ≤ j) (v : Nat) :
    tact T off r s (Function.update w j v) = Function.update (tact T off r s w) j v := by
  induction r generalizing s with
  | zero => rfl
  | succ r ih =>
    rw [tact, tact, Function.update_of_ne (by omega)]
    by_cases h : (T (off + r)).ent (w (off + r)) s < (T (off + r)).n
    · rw [if_pos h, if_pos h, Function.update_comm (by omega)]
    · rw [if_neg h, if_neg h]; exact ih _ (by omega)

theorem tact_congr (r s : Nat) {w w' : Nat → Nat} (h : ∀ j < r, w (off + j) = w' (off + j)) :
    ∀ j < r, tact T off r s w (off + j) = tact T off r s w' (off + j) := by
  induction r generalizing s with
  | zero => intro j hj; omega
  | succ r ih =>
    intro j hj
    rw [tact, tact, h r (by omega)]
    by_cases hc : (T (off + r)).ent (w' (off + r)) s < (T (off + r)).n
    · rw [if_pos hc, if_pos hc]
      by_cases hjr : j = r
      · subst hjr; rw [Function.update_self, Function.update_self]
      · rw [Function.update_of_ne (by omega), Function.update_of_ne (by omega), h j hj]
    · rw [if_neg hc, if_neg hc]
      by_cases hjr : j = r
      · subst hjr; rw [tact_out _ _ _ (by omega), tact_out _ _ _ (by omega), h j hj]
      · exact ih _ (fun j hj => h j (by omega)) j (by omega)

variable (hT : ∀ r < k, (T (off + r)).Good M r)
include hT

theorem tact_valid {r : Nat} (hr : r ≤ k) {s : Nat} (hs : s < r) {w : Nat → Nat} (hw : VC T off k w) :
    VC T off k (tact T off r s w) := by
  induction r generalizing s with
  | zero => exact hw
  | succ r ih =>
    rw [tact]
    by_cases h : (T (off + r)).ent (w (off + r)) s < (T (off + r)).n
    · rw [if_pos h]
      intro j hj
      by_cases hjr : j = r
      · subst hjr; rw [Function.update_self]; exact h
      · rw [Function.update_of_ne (by omega)]; exact hw j hj
    · rw [if_neg h]
      have := (hT r (by omega)).lt _ (hw r (by omega)) s hs
      exact ih (by omega) (by omega)

theorem tact_inv {r : Nat} (hr : r ≤ k) {s : Nat} (hs : s < r) {w : Nat → Nat} (hw : VC T off k w) :
    tact T off r s (tact T off r s w) = w := by
  induction r generalizing s with
  | zero => rfl
  | succ r ih =>
    have hg := hT r (by omega)
    have hwr := hw r (by omega)
    conv => lhs; arg 5; rw [tact]
    by_cases h : (T (off + r)).ent (w (off + r)) s < (T (off + r)).n
    · rw [if_pos h, tact, Function.update_self, (hg.inv _ hwr s hs h).2, if_pos hwr, Function.update_idem, Function.update_eq_self]
    · have := hg.lt _ hwr s hs
      rw [if_neg h, tact, tact_out _ _ _ (by omega), if_neg h]
      exact ih (by omega) (by omega)

theorem alt_valid {r : Nat} (hr : r ≤ k) (m : Nat) {s t : Nat} (hs : s < r) (ht : t < r) {w : Nat → Nat} (hw : VC T off k w) :
    VC T off k (alt (tact T off r) m s t w) := by
  induction m generalizing s t w with
  | zero => exact hw
  | succ m ih => exact ih ht hs (tact_valid hT hr hs hw)

omit hT in
theorem alt_up {r j b s t y : Nat} {w : Nat → Nat} (hb : w (off + r) = b) (h : (T (off + r)).up j b s t = some y) :
    alt (tact T off (r + 1)) j s t w = Function.update w (off + r) y := by
  induction j generalizing b s t w with
  | zero =>
    simp only [Transducer.up, Option.some.injEq] at h
    rw [alt, ← h, ← hb, Function.update_eq_self]
  | succ j ih =>
    rw [Transducer.up] at h
    cases hc : Nat.blt b ((T (off + r)).ent b s) && Nat.blt ((T (off + r)).ent b s) (T (off + r)).n with
    | false => rw [hc] at h; cases h
    | true =>
      rw [hc] at h
      simp only [Bool.and_eq_true, Nat.blt_eq] at hc
      have e : tact T off (r + 1) s w = Function.update w (off + r) ((T (off + r)).ent b s) := by
        rw [tact, hb, if_pos hc.2]
      rw [alt, e, ih (Function.update_self ..) h, Function.update_idem]

omit hT in
theorem alt_point {r b s t g h : Nat} (hs : (T (off + r)).ent b s = (T (off + r)).n + g)
    (ht : (T (off + r)).ent b t = (T (off + r)).n + h) (m : Nat) {w : Nat → Nat} (hb : w (off + r) = b) :
    alt (tact T off (r + 1)) m s t w = alt (tact T off r) m g h w := by
  induction m generalizing s t g h w with
  | zero => rfl
  | succ m ih =>
    have e : tact T off (r + 1) s w = tact T off r g w := by
      rw [tact, hb, hs, if_neg (by omega), Nat.add_sub_cancel_left]
    rw [alt, alt, e]
    exact ih ht hs (by rw [tact_out _ _ _ (by omega), hb])

theorem braid (hM : ∀ s t, M s t = M t s) (hM1 : ∀ s t, 1 ≤ M s t) {r : Nat} (hr : r ≤ k) {s t : Nat} (hs : s < r) (ht : t < r) (hst : s ≠ t)
    {w : Nat → Nat} (hw : VC T off k w) :
    alt (tact T off r) (M s t) s t w = alt (tact T off r) (M s t) t s w := by
  induction r generalizing s t w with
  | zero => omega
  | succ r ihr =>
    have hg := hT r (by omega)
    generalize hx : w (off + r) = x
    induction x using Nat.strongRecOn generalizing w with
    | _ x ihx =>
      have hxn : x < (T (off + r)).n := hx ▸ hw r (by omega)
      by_cases h1 : (T (off + r)).ent x s < x
      · have e : tact T off (r + 1) s w = Function.update w (off + r) ((T (off + r)).ent x s) := by
          rw [tact, hx, if_pos (by omega)]
        refine alt_step (tact T off (r + 1)) s t (VC T off k)
          (fun u hu w hw => tact_valid hT hr (by rcases hu with rfl | rfl <;> assumption) hw)
          (fun u hu w hw => tact_inv hT hr (by rcases hu with rfl | rfl <;> assumption) hw) _ w hw ?_
        exact ihx _ h1 (tact_valid hT hr hs hw) (by rw [e, Function.update_self])
      by_cases h2 : (T (off + r)).ent x t < x
      · have e : tact T off (r + 1) t w = Function.update w (off + r) ((T (off + r)).ent x t) := by
          rw [tact, hx, if_pos (by omega)]
        refine (alt_step (tact T off (r + 1)) t s (VC T off k)
          (fun u hu w hw => tact_valid hT hr (by rcases hu with rfl | rfl <;> assumption) hw)
          (fun u hu w hw => tact_inv hT hr (by rcases hu with rfl | rfl <;> assumption) hw) _ w hw ?_).symm
        exact (ihx _ h2 (tact_valid hT hr ht hw) (by rw [e, Function.update_self])).symm
      have hne : ∀ u < r + 1, ¬ (T (off + r)).ent x u < x → x < (T (off + r)).ent x u := by
        intro u hu h
        by_cases h' : (T (off + r)).ent x u < (T (off + r)).n
        · have := (hg.inv x hxn u hu h').1; omega
        · omega
      replace h1 := hne s hs h1
      replace h2 := hne t ht h2
      have hstring : ∀ s t, s < r + 1 → t < r + 1 → s ≠ t → x < (T (off + r)).ent x s → (T (off + r)).ent x s < (T (off + r)).n →
          (T (off + r)).n ≤ (T (off + r)).ent x t →
          alt (tact T off (r + 1)) (M s t) s t w = alt (tact T off (r + 1)) (M s t) t s w := by
        intro s t hs ht hst h1 h3 h4
        obtain ⟨y, hy, hy'⟩ := hg.string x hxn s hs t ht hst h1 h3 h4
        have hm : M s t = (M s t - 1) + 1 := by have := hM1 s t; omega
        generalize hmm : M s t - 1 = m at hm hy
        rw [hm] at hy' ⊢
        have e1 : tact T off (r + 1) t w = tact T off r ((T (off + r)).ent x t - (T (off + r)).n) w := by
          rw [tact, hx, if_neg (by omega)]
        have hpar : (if (m + 1) % 2 = 0 then t else s) = (if m % 2 = 0 then s else t) := by
          by_cases h : m % 2 = 0
          · rw [if_pos h, if_neg (by omega)]
          · rw [if_neg h, if_pos (by omega)]
        rw [hpar] at hy'
        have e2 : alt (tact T off (r + 1)) (m + 1) s t w =
            Function.update (tact T off r ((T (off + r)).ent x t - (T (off + r)).n) w) (off + r) y := by
          rw [alt_succ', alt_up hx hy, tact, Function.update_self, hy', if_neg (by omega), tact_update _ _ _ (by omega)]
        rw [e2, alt, e1, alt_up (by rw [tact_out _ _ _ (by omega), hx]) hy]
      by_cases h3 : (T (off + r)).ent x s < (T (off + r)).n
      · by_cases h4 : (T (off + r)).ent x t < (T (off + r)).n
        · have hcyc : ∀ s t, s < r + 1 → t < r + 1 → s < t → x < (T (off + r)).ent x s → (T (off + r)).ent x s < (T (off + r)).n →
              x < (T (off + r)).ent x t → (T (off + r)).ent x t < (T (off + r)).n →
              alt (tact T off (r + 1)) (M s t) s t w = alt (tact T off (r + 1)) (M s t) t s w := by
            intro s t hs ht hst h1 h3 h2 h4
            obtain ⟨y, hy, hy'⟩ := hg.cycle x hxn s hs t ht hst h1 h3 h2 h4
            rw [alt_up hx hy, alt_up hx hy']
          by_cases hlt : s < t
          · exact hcyc s t hs ht hlt h1 h3 h2 h4
          · rw [hM s t]; exact (hcyc t s ht hs (by omega) h2 h4 h1 h3).symm
        · exact hstring s t hs ht hst h1 h3 (by omega)
      · by_cases h4 : (T (off + r)).ent x t < (T (off + r)).n
        · rw [hM s t]; exact (hstring t s ht hs (Ne.symm hst) h2 h4 (by omega)).symm
        · have es : (T (off + r)).ent x s = (T (off + r)).n + ((T (off + r)).ent x s - (T (off + r)).n) := by omega
          have et : (T (off + r)).ent x t = (T (off + r)).n + ((T (off + r)).ent x t - (T (off + r)).n) := by omega
          rw [alt_point es et _ hx, alt_point et es _ hx]
          have ls := hg.lt x hxn s hs
          have lt := hg.lt x hxn t ht
          generalize hgg : (T (off + r)).ent x s - (T (off + r)).n = g at *
          generalize hhh : (T (off + r)).ent x t - (T (off + r)).n = h at *
          by_cases hgh : g = h
          · rw [hgh]
          · have hm : M g h = M s t := by
              by_cases hlt : s < t
              · have := hg.point x hxn s hs t ht hlt (by omega) (by omega)
                rwa [hgg, hhh] at this
              · have := hg.point x hxn t ht s hs (by omega) (by omega) (by omega)
                rwa [hgg, hhh, hM h g, hM t s] at this
            rw [← hm]
            exact ihr (by omega) (by omega) (by omega) hgh hw

end

end Verif.Weyl
