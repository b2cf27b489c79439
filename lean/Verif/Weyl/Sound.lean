import Verif.Weyl.Action
import Mathlib.Algebra.Group.Basic
import Mathlib.Algebra.BigOperators.Group.List.Basic
/-
Products of generators in a group in which the Coxeter relations hold: the entries of a transducer table describe the
products of the words of its states with a generator.
-/
namespace Verif.Weyl
open Verif

section
variable {G : Type} [Group G]

/-- product of `m` factors, alternately `a` and `b` and starting with `a` -/
def galt : Nat → G → G → G
  | 0, _, _ => 1
  | m + 1, a, b => a * galt m b a

theorem galt_succ' (m : Nat) (a b : G) : galt (m + 1) a b = galt m a b * (if m % 2 = 0 then a else b) := by
  induction m generalizing a b with
  | zero => simp [galt]
  | succ m ih =>
    rw [galt, ih, galt, mul_assoc]
    by_cases h : m % 2 = 0
    · rw [if_pos h, if_neg (by omega)]
    · rw [if_neg h, if_pos (by omega)]

theorem galt_mul_inv (m : Nat) {a b : G} (ha : a * a = 1) (hb : b * b = 1) : galt m a b * (galt m b a)⁻¹ = (a * b) ^ m := by
  induction m generalizing a b with
  | zero => simp [galt]
  | succ m ih =>
    have e : b⁻¹ = b := by rw [inv_eq_iff_mul_eq_one]; exact hb
    rw [galt, galt, mul_inv_rev, e, show a * galt m b a * ((galt m a b)⁻¹ * b) = a * (galt m b a * (galt m a b)⁻¹) * b by
      simp only [mul_assoc], ih hb ha]
    have : ∀ j : Nat, a * (b * a) ^ j * b = (a * b) ^ (j + 1) := by
      intro j
      induction j with
      | zero => simp
      | succ j ih => rw [pow_succ (b * a), pow_succ (a * b) (j + 1), ← ih]; simp only [mul_assoc]
    exact this m

theorem galt_comm {m : Nat} {a b : G} (ha : a * a = 1) (hb : b * b = 1) : galt m a b = galt m b a ↔ (a * b) ^ m = 1 := by
  rw [← galt_mul_inv m ha hb, mul_inv_eq_one]

/-- product of a word -/
def wprod (σ : Nat → G) (l : List Nat) : G := (l.map σ).prod

@[simp] theorem wprod_nil (σ : Nat → G) : wprod σ [] = 1 := rfl

theorem wprod_append (σ : Nat → G) (l l' : List Nat) : wprod σ (l ++ l') = wprod σ l * wprod σ l' := by
  simp [wprod]

theorem wprod_cons (σ : Nat → G) (i : Nat) (l : List Nat) : wprod σ (i :: l) = σ i * wprod σ l := by
  simp [wprod]

theorem wprod_single (σ : Nat → G) (i : Nat) : wprod σ [i] = σ i := by
  simp [wprod]

/-- the word of a state: `word_of_piece` (weyl.cpp L428-435) in local numbering -/
def pieceWord (T : Transducer) : Nat → Nat → List Nat
  | 0, _ => []
  | f + 1, x => if x = 0 then [] else pieceWord T f (T.ent x (T.right x)) ++ [T.right x]

theorem pieceWord_fuel {M : Nat → Nat → Nat} {r : Nat} {T : Transducer} (hg : T.Good M r) {f f' x : Nat} (hx : x < T.n) (h : x ≤ f) (h' : x ≤ f') :
    pieceWord T f x = pieceWord T f' x := by
  induction f generalizing f' x with
  | zero =>
    have : x = 0 := by omega
    subst this
    cases f' <;> rfl
  | succ f ih =>
    cases f' with
    | zero =>
      have : x = 0 := by omega
      subst this; rfl
    | succ f' =>
      rw [pieceWord, pieceWord]
      by_cases h0 : x = 0
      · rw [if_pos h0, if_pos h0]
      · have := hg.right_le x hx (by omega)
        rw [if_neg h0, if_neg h0, ih (f' := f') (by omega) (by omega) (by omega)]

/-- the word of a state -/
def pword (T : Transducer) (x : Nat) : List Nat := pieceWord T x x

theorem pword_zero (T : Transducer) : pword T 0 = [] := rfl

theorem pword_pos {M : Nat → Nat → Nat} {r : Nat} {T : Transducer} (hg : T.Good M r) {x : Nat} (hx : x < T.n) (h0 : 0 < x) :
    pword T x = pword T (T.ent x (T.right x)) ++ [T.right x] := by
  have hr := hg.right_le x hx h0
  obtain ⟨y, rfl⟩ : ∃ y, x = y + 1 := ⟨x - 1, by omega⟩
  rw [pword, pieceWord, if_neg (by omega)]
  rw [pword, pieceWord_fuel hg (by omega) (by omega) (Nat.le_refl _)]

theorem pword_length {M : Nat → Nat → Nat} {r : Nat} {T : Transducer} (hg : T.Good M r) {x : Nat} (hx : x < T.n) :
    (pword T x).length = T.len x := by
  induction x using Nat.strongRecOn with
  | _ x ih =>
    by_cases h0 : x = 0
    · subst h0; rw [pword_zero, hg.len0]; rfl
    · have hr := hg.right_le x hx (by omega)
      rw [pword_pos hg hx (by omega), List.length_append, ih _ hr.2 (by omega)]
      have hi := hg.inv x hx _ hr.1 (by omega)
      have := hg.up_len _ (by omega : T.ent x (T.right x) < T.n) _ hr.1 (by rw [hi.2]; exact hx) (by rw [hi.2]; exact hr.2)
      rw [hi.2] at this
      simp only [List.length_cons, List.length_nil]; omega

theorem pword_lt {M : Nat → Nat → Nat} {r : Nat} {T : Transducer} (hg : T.Good M r) {x : Nat} (hx : x < T.n) :
    ∀ i ∈ pword T x, i < r + 1 := by
  induction x using Nat.strongRecOn with
  | _ x ih =>
    by_cases h0 : x = 0
    · subst h0; intro i hi; rw [pword_zero] at hi; cases hi
    · have hr := hg.right_le x hx (by omega)
      rw [pword_pos hg hx (by omega)]
      intro i hi
      rcases List.mem_append.1 hi with h | h
      · exact ih _ hr.2 (by omega) i h
      · rw [List.mem_singleton.1 h]; exact hr.1

theorem up_succ' (T : Transducer) (j b s t : Nat) : T.up (j + 1) b s t = (T.up j b s t).bind fun y => T.up 1 y (if j % 2 = 0 then s else t) s := by
  induction j generalizing b s t with
  | zero =>
    simp only [Transducer.up, Option.bind_some, Nat.zero_mod, if_pos]
  | succ j ih =>
    rw [Transducer.up, ih, Transducer.up]
    cases hc : Nat.blt b (T.ent b s) && Nat.blt (T.ent b s) T.n with
    | false => rfl
    | true =>
      simp only [cond_true]
      congr 1
      funext y
      by_cases h : j % 2 = 0
      · rw [if_pos h, if_neg (by omega)]; simp only [Transducer.up]
      · rw [if_neg h, if_pos (by omega)]; simp only [Transducer.up]

theorem up_one {T : Transducer} {y u v z : Nat} : T.up 1 y u v = some z ↔ T.ent y u = z ∧ y < z ∧ z < T.n := by
  rw [Transducer.up]
  cases hc : Nat.blt y (T.ent y u) && Nat.blt (T.ent y u) T.n with
  | false =>
    simp only [cond_false, reduceCtorEq, false_iff]
    rintro ⟨rfl, h1, h2⟩
    rw [Bool.and_eq_false_iff, Bool.eq_false_iff, Bool.eq_false_iff, Ne, Ne, Nat.blt_eq, Nat.blt_eq] at hc
    omega
  | true =>
    simp only [Bool.and_eq_true, Nat.blt_eq] at hc
    simp only [cond_true, Transducer.up, Option.some.injEq]
    constructor
    · rintro rfl; exact ⟨rfl, hc⟩
    · exact fun h => h.1

/-- the state before the last of a number of upward steps -/
theorem up_prev {T : Transducer} {j b s t z : Nat} (h : T.up (j + 1) b s t = some z) :
    ∃ y, T.up j b s t = some y ∧ T.ent y (if j % 2 = 0 then s else t) = z ∧ y < z ∧ z < T.n := by
  rw [up_succ'] at h
  cases hy : T.up j b s t with
  | none => rw [hy] at h; cases h
  | some y =>
    rw [hy] at h
    exact ⟨y, rfl, up_one.1 h⟩

theorem up_next {T : Transducer} {j b s t y z : Nat} (h : T.up j b s t = some y) (h1 : T.ent y (if j % 2 = 0 then s else t) = z)
    (h2 : y < z) (h3 : z < T.n) : T.up (j + 1) b s t = some z := by
  rw [up_succ', h]
  exact up_one.2 ⟨h1, h2, h3⟩

theorem up_take {T : Transducer} {j b s t z : Nat} (h : T.up j b s t = some z) {i : Nat} (hi : i ≤ j) : ∃ y, T.up i b s t = some y := by
  induction j generalizing z with
  | zero => exact ⟨z, by rw [show i = 0 by omega]; exact h⟩
  | succ j ih =>
    obtain ⟨y, hy, _⟩ := up_prev h
    by_cases hij : i = j + 1
    · subst hij; exact ⟨z, h⟩
    · exact ih hy (by omega)

/-- sound description of the products with generators that do not go up, at state `x` -/
def DSound (T : Transducer) (r : Nat) (σ : Nat → G) (x : Nat) : Prop :=
  ∀ s < r + 1, (T.ent x s < x → wprod σ (pword T x) = wprod σ (pword T (T.ent x s)) * σ s) ∧
    (T.n ≤ T.ent x s → wprod σ (pword T x) * σ s = σ (T.ent x s - T.n) * wprod σ (pword T x))

variable {M : Nat → Nat → Nat} {r : Nat} {T : Transducer} {σ : Nat → G}

theorem wprod_up (hg : T.Good M r) {j b s t y : Nat} (hs : s < r + 1) (ht : t < r + 1)
    (h : T.up j b s t = some y) (hD : ∀ z ≤ y, DSound T r σ z) :
    wprod σ (pword T y) = wprod σ (pword T b) * galt j (σ s) (σ t) := by
  induction j generalizing y with
  | zero => simp only [Transducer.up, Option.some.injEq] at h; subst h; simp [galt]
  | succ j ih =>
    obtain ⟨x, hx, he, hlt, hn⟩ := up_prev h
    have hu : (if j % 2 = 0 then s else t) < r + 1 := by
      by_cases h : j % 2 = 0
      · rw [if_pos h]; exact hs
      · rw [if_neg h]; exact ht
    have hi := (hg.inv x (by omega) _ hu (by rw [he]; exact hn)).2
    rw [he] at hi
    have hd := (hD y (Nat.le_refl _) _ hu).1 (by rw [hi]; exact hlt)
    rw [hd, hi, ih hx fun z hz => hD z (by omega), galt_succ', mul_assoc]
    by_cases h : j % 2 = 0
    · rw [if_pos h, if_pos h]
    · rw [if_neg h, if_neg h]

/-- existence of the bottom of a dihedral orbit -/
theorem exists_bottom (hg : T.Good M r) {x u s : Nat} (hx : x < T.n) (hu : u < r + 1) (hs : s < r + 1) (h : T.ent x u < x) :
    ∃ b j p q, (p = u ∧ q = s ∨ p = s ∧ q = u) ∧ b < T.ent b p ∧ b < T.ent b q ∧ b < x ∧ T.up (j + 1) b p q = some x ∧ (if j % 2 = 0 then p else q) = u := by
  induction x using Nat.strongRecOn generalizing u s with
  | _ x ih =>
    have hi := (hg.inv x hx u hu (by omega)).2
    by_cases hd : T.ent (T.ent x u) s < T.ent x u
    · obtain ⟨b, j, p, q, hpq, h1, h2, h3, h4, h5⟩ := ih _ h (by omega) hs hu hd
      refine ⟨b, j + 1, p, q, hpq.symm, h1, h2, by omega, ?_⟩
      have hpar : (if (j + 1) % 2 = 0 then p else q) = u := by
        by_cases hj : j % 2 = 0
        · rw [if_neg (by omega)]; rw [if_pos hj] at h5; omega
        · rw [if_pos (by omega)]; rw [if_neg hj] at h5; omega
      refine ⟨up_next h4 (by rw [hpar]; exact hi) h hx, hpar⟩
    · refine ⟨T.ent x u, 0, u, s, .inl ⟨rfl, rfl⟩, by rw [hi]; exact h, ?_, h, up_one.2 ⟨hi, h, hx⟩, rfl⟩
      by_cases h' : T.ent (T.ent x u) s < T.n
      · have := (hg.inv _ (by omega : T.ent x u < T.n) s hs h').1; omega
      · omega

theorem dsound (hg : T.Good M r) (hM : ∀ s t, M s t = M t s) (hM1 : ∀ s t, 1 ≤ M s t) (hσ : ∀ s < r + 1, σ s * σ s = 1)
    (hbr : ∀ s < r + 1, ∀ t < r + 1, s ≠ t → galt (M s t) (σ s) (σ t) = galt (M s t) (σ t) (σ s)) {x : Nat} (hx : x < T.n) :
    DSound T r σ x := by
  induction x using Nat.strongRecOn with
  | _ x ih =>
    intro s hs
    by_cases h0 : x = 0
    · subst h0
      refine ⟨fun h => by omega, fun h => ?_⟩
      rw [pword_zero, wprod_nil, one_mul, mul_one]
      by_cases hsr : s = r
      · subst hsr; rw [hg.row0r] at h; have := hg.two_le; omega
      · rw [hg.row0 s (by omega), Nat.add_sub_cancel_left]
    · obtain ⟨hu, hux⟩ := hg.right_le x hx (by omega)
      have hself : wprod σ (pword T x) = wprod σ (pword T (T.ent x (T.right x))) * σ (T.right x) := by
        conv => lhs; rw [pword_pos hg hx (by omega)]
        rw [wprod_append, wprod_single]
      generalize T.right x = u at *
      by_cases hsu : s = u
      · subst hsu; exact ⟨fun _ => hself, fun h => by omega⟩
      obtain ⟨b, j, p, q, hpq, hbp, hbq, hbx, hup, hpar⟩ := exists_bottom hg hx hu hs hux
      have hp : p < r + 1 := by rcases hpq with ⟨rfl, rfl⟩ | ⟨rfl, rfl⟩ <;> assumption
      have hq : q < r + 1 := by rcases hpq with ⟨rfl, rfl⟩ | ⟨rfl, rfl⟩ <;> assumption
      have hpq' : p ≠ q := by omega
      have hnext : (if (j + 1) % 2 = 0 then p else q) = s := by
        by_cases hj : j % 2 = 0
        · rw [if_pos hj] at hpar; rw [if_neg (by omega)]; omega
        · rw [if_neg hj] at hpar; rw [if_pos (by omega)]; omega
      -- the product for `x`
      obtain ⟨x', hx', he', hlt', -⟩ := up_prev hup
      have hwx : wprod σ (pword T x) = wprod σ (pword T b) * galt (j + 1) (σ p) (σ q) := by
        have hx'u : T.ent x u = x' := by
          rw [hpar] at he'; rw [← he']; exact (hg.inv x' (by omega) u hu (by omega)).2
        rw [hself, hx'u, wprod_up hg hp hq hx' (fun z hz => ih z (by omega) (by omega)), galt_succ', mul_assoc]
        congr 2
        rw [← hpar]
        by_cases hj : j % 2 = 0
        · rw [if_pos hj, if_pos hj]
        · rw [if_neg hj, if_neg hj]
      have hbpn : T.ent b p < T.n := by
        obtain ⟨y, hy⟩ := up_take hup (i := 1) (by omega)
        have := up_one.1 hy; omega
      by_cases hbqn : T.ent b q < T.n
      · -- a cycle
        have hcyc : ∃ y, T.up (M p q) b p q = some y ∧ T.up (M p q) b q p = some y := by
          by_cases hlt : p < q
          · exact hg.cycle b (by omega) p hp q hq hlt hbp hbpn hbq hbqn
          · obtain ⟨y, h1, h2⟩ := hg.cycle b (by omega) q hq p hp (by omega) hbq hbqn hbp hbpn
            rw [hM q p] at h1 h2
            exact ⟨y, h2, h1⟩
        obtain ⟨y, hy1, hy2⟩ := hcyc
        -- if the orbit were to continue upwards
        by_cases hj : j + 1 < M p q
        · obtain ⟨z, hz⟩ := up_take hy1 (i := j + 2) (by omega)
          obtain ⟨x2, hx2, h2, h3, h4⟩ := up_prev hz
          rw [hup, Option.some.injEq] at hx2
          subst hx2
          rw [hnext] at h2
          exact ⟨fun h => by omega, fun h => by omega⟩
        obtain ⟨m, hm⟩ : ∃ m, M p q = m + 1 := ⟨M p q - 1, by have := hM1 p q; omega⟩
        rw [hm] at hy1 hy2 hj
        obtain ⟨z, hz, hez, hzlt, hyn⟩ := up_prev hy2
        have hlast : T.ent y (if (m + 1) % 2 = 0 then p else q) = z := by
          have hv : (if m % 2 = 0 then q else p) < r + 1 := by
            by_cases h : m % 2 = 0
            · rw [if_pos h]; exact hq
            · rw [if_neg h]; exact hp
          have := (hg.inv z (by omega) _ hv (by omega)).2
          rw [hez] at this
          rw [← this]
          by_cases h : m % 2 = 0
          · rw [if_pos h, if_neg (by omega)]
          · rw [if_neg h, if_pos (by omega)]
        by_cases hjm : j = m
        · subst hjm
          rw [hup, Option.some.injEq] at hy1
          subst hy1
          rw [hnext] at hlast
          refine ⟨fun _ => ?_, fun h => by omega⟩
          rw [hlast, wprod_up hg hq hp hz (fun w hw => ih w (by omega) (by omega)), hwx, ← hm,
            hbr p hp q hq hpq', hm, galt_succ', mul_assoc]
          congr 2
          rw [← hnext]
          by_cases h : j % 2 = 0
          · rw [if_pos h, if_neg (by omega)]
          · rw [if_neg h, if_pos (by omega)]
        · obtain ⟨w, hw⟩ := up_take hup (i := m + 2) (by omega)
          obtain ⟨y', hy', h2, h3, h4⟩ := up_prev hw
          rw [hy1, Option.some.injEq] at hy'
          subst hy'
          omega
      · -- a string
        obtain ⟨y, hy, hey⟩ := hg.string b (by omega) p hp q hq hpq' hbp hbpn (by omega)
        obtain ⟨m, hm⟩ : ∃ m, M p q = m + 1 := ⟨M p q - 1, by have := hM1 p q; omega⟩
        rw [hm, Nat.add_sub_cancel] at hy
        have hey' : T.ent y (if m % 2 = 0 then p else q) = T.ent b q := by
          rw [← hey, hm]
          by_cases h : m % 2 = 0
          · rw [if_pos h, if_neg (by omega)]
          · rw [if_neg h, if_pos (by omega)]
        by_cases hj : j + 1 < m
        · obtain ⟨z, hz⟩ := up_take hy (i := j + 2) (by omega)
          obtain ⟨x2, hx2, h2, h3, h4⟩ := up_prev hz
          rw [hup, Option.some.injEq] at hx2
          subst hx2
          rw [hnext] at h2
          exact ⟨fun h => by omega, fun h => by omega⟩
        by_cases hjm : j + 1 = m
        · subst hjm
          rw [hup, Option.some.injEq] at hy
          subst hy
          rw [hnext] at hey'
          refine ⟨fun h => by omega, fun _ => ?_⟩
          have hb := (ih b hbx (by omega) q hq).2 (by omega)
          have e1 : galt (j + 1) (σ p) (σ q) * σ s = galt (j + 2) (σ p) (σ q) := by
            rw [galt_succ' (j + 1), ← hnext]
            by_cases h : (j + 1) % 2 = 0
            · rw [if_pos h, if_pos h]
            · rw [if_neg h, if_neg h]
          rw [hwx, mul_assoc, e1, ← hm, hbr p hp q hq hpq', hm, galt, ← mul_assoc, hb, hey', mul_assoc]
        · obtain ⟨w, hw⟩ := up_take hup (i := m + 1) (by omega)
          obtain ⟨y', hy', h2, h3, h4⟩ := up_prev hw
          rw [hy, Option.some.injEq] at hy'
          subst hy'
          omega

/-- the table entries describe products in the group -/
theorem sound (hg : T.Good M r) (hM : ∀ s t, M s t = M t s) (hM1 : ∀ s t, 1 ≤ M s t) (hσ : ∀ s < r + 1, σ s * σ s = 1)
    (hbr : ∀ s < r + 1, ∀ t < r + 1, s ≠ t → galt (M s t) (σ s) (σ t) = galt (M s t) (σ t) (σ s)) {x s : Nat} (hx : x < T.n) (hs : s < r + 1) :
    (T.ent x s < T.n → wprod σ (pword T x) * σ s = wprod σ (pword T (T.ent x s))) ∧
    (T.n ≤ T.ent x s → wprod σ (pword T x) * σ s = σ (T.ent x s - T.n) * wprod σ (pword T x)) := by
  refine ⟨fun h => ?_, (dsound hg hM hM1 hσ hbr hx s hs).2⟩
  obtain ⟨hne, hi⟩ := hg.inv x hx s hs h
  by_cases hlt : T.ent x s < x
  · rw [(dsound hg hM hM1 hσ hbr hx s hs).1 hlt, mul_assoc, hσ s hs, mul_one]
  · have := (dsound hg hM hM1 hσ hbr h s hs).1 (by rw [hi]; omega)
    rw [this, hi]

end

end Verif.Weyl
