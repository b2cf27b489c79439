import Verif.Weyl.Sound
/-
Transducers for a diagram with several components.
-/
namespace Verif.Weyl
open Verif

/-- the transducers of a Weyl group: for each internal generator number below `n` its transducer, the first and last
generator of its component, and (indexed by the first generator) the Coxeter matrix of the component -/
structure Sys where
  n : Nat
  T : Nat → Transducer
  off : Nat → Nat
  top : Nat → Nat
  M : Nat → Nat → Nat → Nat

namespace Sys

structure OK (S : Sys) : Prop where
  off_le : ∀ i < S.n, S.off i ≤ i
  le_top : ∀ i < S.n, i ≤ S.top i
  top_lt : ∀ i < S.n, S.top i < S.n
  same : ∀ i < S.n, ∀ j, S.off i ≤ j → j ≤ S.top i → S.off j = S.off i ∧ S.top j = S.top i
  good : ∀ i < S.n, (S.T i).Good (S.M (S.off i)) (i - S.off i)
  symm : ∀ o s t, S.M o s t = S.M o t s
  one_le : ∀ o s t, 1 ≤ S.M o s t

/-- the Coxeter matrix, in internal numbering -/
def cox (S : Sys) (i j : Nat) : Nat :=
  if i = j then 1 else if S.off i = S.off j then S.M (S.off i) (i - S.off i) (j - S.off i) else 2

/-- sequences of pieces that represent an element -/
def Valid (S : Sys) (w : Nat → Nat) : Prop := (∀ i < S.n, w i < (S.T i).n) ∧ ∀ i, S.n ≤ i → w i = 0

/-- size of the component of `s` -/
def size (S : Sys) (s : Nat) : Nat := S.top s - S.off s + 1

/-- right multiplication by generator `s` -/
def R (S : Sys) (s : Nat) (w : Nat → Nat) : Nat → Nat := tact S.T (S.off s) (S.size s) (s - S.off s) w

variable {S : Sys} (hS : S.OK)
include hS

theorem OK.comp_good {i : Nat} (hi : i < S.n) : ∀ r < S.size i, (S.T (S.off i + r)).Good (S.M (S.off i)) r := by
  intro r hr
  unfold size at hr
  have h1 := hS.off_le i hi
  have h2 := hS.le_top i hi
  have h3 := hS.top_lt i hi
  have h4 := hS.same i hi (S.off i + r) (by omega) (by omega)
  have h5 := hS.good (S.off i + r) (by omega)
  rwa [h4.1, Nat.add_sub_cancel_left] at h5

theorem OK.valid_comp {i : Nat} (hi : i < S.n) {w : Nat → Nat} (hw : S.Valid w) : VC S.T (S.off i) (S.size i) w := by
  intro r hr
  unfold size at hr
  have h1 := hS.off_le i hi
  have h2 := hS.le_top i hi
  have h3 := hS.top_lt i hi
  exact hw.1 _ (by omega)

theorem OK.local_lt {i : Nat} (hi : i < S.n) : i - S.off i < S.size i := by
  unfold size
  have h1 := hS.off_le i hi
  have h2 := hS.le_top i hi
  omega

theorem OK.R_out {s : Nat} (hs : s < S.n) (w : Nat → Nat) {j : Nat} (hj : j < S.off s ∨ S.top s < j) : S.R s w j = w j := by
  have h1 := hS.off_le s hs
  have h2 := hS.le_top s hs
  exact tact_out _ _ _ (by unfold size; omega)

theorem OK.R_valid {s : Nat} (hs : s < S.n) {w : Nat → Nat} (hw : S.Valid w) : S.Valid (S.R s w) := by
  have h1 := hS.off_le s hs
  have h2 := hS.le_top s hs
  have h3 := hS.top_lt s hs
  have hv := tact_valid (hS.comp_good hs) (Nat.le_refl _) (hS.local_lt hs) (hS.valid_comp hs hw)
  refine ⟨fun i hi => ?_, fun i hi => ?_⟩
  · by_cases h : S.off s ≤ i ∧ i ≤ S.top s
    · have := hv (i - S.off s) (by unfold size; omega)
      rwa [show S.off s + (i - S.off s) = i by omega] at this
    · rw [hS.R_out hs w (by omega)]; exact hw.1 i hi
  · rw [hS.R_out hs w (by omega)]; exact hw.2 i hi

theorem OK.R_inv {s : Nat} (hs : s < S.n) {w : Nat → Nat} (hw : S.Valid w) : S.R s (S.R s w) = w :=
  tact_inv (hS.comp_good hs) (Nat.le_refl _) (hS.local_lt hs) (hS.valid_comp hs hw)

theorem OK.eq_comp {s t : Nat} (hs : s < S.n) (ht : t < S.n) (h : S.off s = S.off t) : S.top s = S.top t ∧ S.size s = S.size t := by
  have h1 := hS.off_le s hs
  have h2 := hS.le_top s hs
  have h3 := hS.off_le t ht
  have h4 := hS.le_top t ht
  have : S.top s = S.top t := by
    by_cases hle : s ≤ S.top t
    · exact (hS.same t ht s (by omega) hle).2
    · exact ((hS.same s hs t (by omega) (by omega)).2).symm
  exact ⟨this, by unfold size; omega⟩

/-- generators of different components: positions are disjoint -/
theorem OK.disjoint {s t : Nat} (hs : s < S.n) (ht : t < S.n) (h : S.off s ≠ S.off t) :
    S.top s < S.off t ∨ S.top t < S.off s := by
  have h1 := hS.off_le s hs
  have h2 := hS.le_top s hs
  have h3 := hS.off_le t ht
  have h4 := hS.le_top t ht
  have h5 := hS.top_lt s hs
  have h6 := hS.top_lt t ht
  by_cases hle : S.off s ≤ S.off t
  · left
    by_cases hc : S.off t ≤ S.top s
    · have e1 := hS.same s hs (S.off t) hle hc
      have e2 := hS.same t ht (S.off t) (Nat.le_refl _) (by omega)
      omega
    · omega
  · right
    by_cases hc : S.off s ≤ S.top t
    · have e1 := hS.same t ht (S.off s) (by omega) hc
      have e2 := hS.same s hs (S.off s) (Nat.le_refl _) (by omega)
      omega
    · omega

theorem OK.R_comm {s t : Nat} (hs : s < S.n) (ht : t < S.n) (h : S.off s ≠ S.off t) (w : Nat → Nat) :
    S.R s (S.R t w) = S.R t (S.R s w) := by
  have h1 := hS.off_le s hs
  have h2 := hS.le_top s hs
  have h3 := hS.off_le t ht
  have h4 := hS.le_top t ht
  have hd := hS.disjoint hs ht h
  have key : ∀ s t, s < S.n → t < S.n → (S.top s < S.off t ∨ S.top t < S.off s) → ∀ w j, S.off s ≤ j → j ≤ S.top s →
      S.R s (S.R t w) j = S.R t (S.R s w) j := by
    intro s t hs ht hd w j hj1 hj2
    rw [hS.R_out ht _ (by omega)]
    have h1 := hS.off_le s hs
    have h2 := hS.le_top s hs
    have := tact_congr (T := S.T) (off := S.off s) (S.size s) (s - S.off s) (w := S.R t w) (w' := w) (fun j hj => by
      unfold size at hj
      rw [hS.R_out ht _ (by omega)]) (j - S.off s) (by unfold size; omega)
    rwa [show S.off s + (j - S.off s) = j by omega] at this
  funext j
  by_cases hj : S.off s ≤ j ∧ j ≤ S.top s
  · exact key s t hs ht hd w j hj.1 hj.2
  by_cases hj' : S.off t ≤ j ∧ j ≤ S.top t
  · exact (key t s ht hs hd.symm w j hj'.1 hj'.2).symm
  rw [hS.R_out hs _ (by omega), hS.R_out ht _ (by omega), hS.R_out ht _ (by omega), hS.R_out hs _ (by omega)]

theorem OK.R_braid {s t : Nat} (hs : s < S.n) (ht : t < S.n) (hst : s ≠ t) {w : Nat → Nat} (hw : S.Valid w) :
    alt S.R (S.cox s t) s t w = alt S.R (S.cox s t) t s w := by
  rw [cox, if_neg hst]
  by_cases h : S.off s = S.off t
  · rw [if_pos h]
    obtain ⟨e1, e2⟩ := hS.eq_comp hs ht h
    have h1 := hS.off_le s hs
    have h3 := hS.off_le t ht
    have lt := hS.local_lt ht
    rw [← e2, ← h] at lt
    have hb := braid (hS.comp_good hs) (hS.symm _) (hS.one_le _) (Nat.le_refl _) (hS.local_lt hs) lt (by omega) (hS.valid_comp hs hw)
    have conv : ∀ m w, (∀ s' t', (s' = s ∨ s' = t) → (t' = s ∨ t' = t) → alt S.R m s' t' w =
        alt (tact S.T (S.off s) (S.size s)) m (s' - S.off s) (t' - S.off s) w) := by
      intro m
      induction m with
      | zero => intros; rfl
      | succ m ih =>
        intro w s' t' hs' ht'
        have : S.R s' w = tact S.T (S.off s) (S.size s) (s' - S.off s) w := by
          rcases hs' with rfl | rfl
          · rfl
          · rw [R, ← h, ← e2]
        rw [alt, alt, this]
        exact ih _ t' s' ht' hs'
    rw [conv _ w s t (.inl rfl) (.inr rfl), conv _ w t s (.inr rfl) (.inl rfl)]
    exact hb
  · rw [if_neg h]
    exact hS.R_comm ht hs (fun e => h e.symm) w

end Sys

/-! ### products in a group -/

section
variable {G : Type} [Group G] {S : Sys}

/-- the element of the group that a piece stands for -/
def Sys.piece (S : Sys) (σ : Nat → G) (i x : Nat) : G := wprod (fun g => σ (S.off i + g)) (pword (S.T i) x)

/-- product of the first `i` pieces -/
def Sys.pref (S : Sys) (σ : Nat → G) : Nat → (Nat → Nat) → G
  | 0, _ => 1
  | i + 1, w => S.pref σ i w * S.piece σ i (w i)

/-- the element of the group that a sequence of pieces stands for -/
def Sys.toG (S : Sys) (σ : Nat → G) (w : Nat → Nat) : G := S.pref σ S.n w

theorem Sys.pref_congr (σ : Nat → G) {i : Nat} {w w' : Nat → Nat} (h : ∀ j < i, w j = w' j) : S.pref σ i w = S.pref σ i w' := by
  induction i with
  | zero => rfl
  | succ i ih => rw [pref, pref, ih fun j hj => h j (by omega), h i (by omega)]

/-- elements of a group that satisfy the Coxeter relations -/
structure Sys.Rel (S : Sys) (σ : Nat → G) : Prop where
  sq : ∀ i < S.n, σ i * σ i = 1
  braid : ∀ i < S.n, ∀ j < S.n, i ≠ j → galt (S.cox i j) (σ i) (σ j) = galt (S.cox i j) (σ j) (σ i)

variable {σ : Nat → G} (hS : S.OK) (hσ : S.Rel σ)
include hS hσ

/-- the entries of the tables describe products in the group -/
theorem Sys.Rel.piece_mul {i x s : Nat} (hi : i < S.n) (hx : x < (S.T i).n) (hs : s < i - S.off i + 1) :
    ((S.T i).ent x s < (S.T i).n → S.piece σ i x * σ (S.off i + s) = S.piece σ i ((S.T i).ent x s)) ∧
    ((S.T i).n ≤ (S.T i).ent x s → S.piece σ i x * σ (S.off i + s) = σ (S.off i + ((S.T i).ent x s - (S.T i).n)) * S.piece σ i x) := by
  have h1 := hS.off_le i hi
  have h2 := hS.le_top i hi
  refine sound (σ := fun g => σ (S.off i + g)) (hS.good i hi) (hS.symm _) (hS.one_le _) (fun s hs => hσ.sq _ (by omega)) ?_ hx hs
  intro s hs t ht hst
  have e1 := (hS.same i hi (S.off i + s) (by omega) (by omega)).1
  have e2 := (hS.same i hi (S.off i + t) (by omega) (by omega)).1
  have := hσ.braid (S.off i + s) (by omega) (S.off i + t) (by omega) (by omega)
  rw [Sys.cox, if_neg (by omega), e1, e2, if_pos rfl, Nat.add_sub_cancel_left, Nat.add_sub_cancel_left] at this
  exact this

theorem Sys.Rel.pref_tact {o : Nat} (ho : o < S.n) {r : Nat} (hr : r ≤ S.size o) {s : Nat} (hs : s < r) {w : Nat → Nat} (hw : S.Valid w) :
    S.pref σ (S.off o + r) (tact S.T (S.off o) r s w) = S.pref σ (S.off o + r) w * σ (S.off o + s) := by
  have h1 := hS.off_le o ho
  have h2 := hS.le_top o ho
  have h3 := hS.top_lt o ho
  induction r generalizing s with
  | zero => omega
  | succ r ih =>
    have hr' := hr
    unfold size at hr'
    have e := (hS.same o ho (S.off o + r) (by omega) (by omega)).1
    have hwr := hw.1 (S.off o + r) (by omega)
    have hp := hσ.piece_mul hS (i := S.off o + r) (x := w (S.off o + r)) (s := s) (by omega) hwr (by omega)
    have hlt := (hS.good (S.off o + r) (by omega)).lt _ hwr s (by omega)
    rw [e] at hp hlt
    rw [tact, ← Nat.add_assoc, Sys.pref, Sys.pref]
    by_cases h : (S.T (S.off o + r)).ent (w (S.off o + r)) s < (S.T (S.off o + r)).n
    · rw [if_pos h, Function.update_self, ← hp.1 h, mul_assoc]
      congr 1
      exact Sys.pref_congr σ fun j hj => Function.update_of_ne (by omega) _ _
    · rw [if_neg h, ih (by omega) (by omega), tact_out _ _ _ (by omega), mul_assoc, ← hp.2 (by omega), mul_assoc]

theorem Sys.Rel.comm_piece {s i : Nat} (hs : s < S.n) (hi : i < S.n) (h : S.off s ≠ S.off i) {x : Nat} (hx : x < (S.T i).n) :
    S.piece σ i x * σ s = σ s * S.piece σ i x := by
  have h1 := hS.off_le i hi
  have h2 := hS.le_top i hi
  have hl := pword_lt (hS.good i hi) hx
  unfold Sys.piece
  generalize pword (S.T i) x = l at hl
  induction l with
  | nil => simp
  | cons g l ih =>
    have hg := hl g List.mem_cons_self
    have e := (hS.same i hi (S.off i + g) (by omega) (by omega)).1
    have hd := hS.disjoint hs hi h
    have h5 := hS.le_top s hs
    have h6 := hS.off_le s hs
    have hc := hσ.braid s hs (S.off i + g) (by omega) (by omega)
    rw [Sys.cox, if_neg (by omega), if_neg (by rw [e]; exact h)] at hc
    simp only [galt, mul_one] at hc
    rw [wprod_cons, mul_assoc, ih fun i hi => hl i (List.mem_cons_of_mem _ hi), ← mul_assoc, ← hc, mul_assoc]

/-- right multiplication by a generator -/
theorem Sys.Rel.toG_R {s : Nat} (hs : s < S.n) {w : Nat → Nat} (hw : S.Valid w) : S.toG σ (S.R s w) = S.toG σ w * σ s := by
  have h1 := hS.off_le s hs
  have h2 := hS.le_top s hs
  have h3 := hS.top_lt s hs
  have base := hσ.pref_tact hS hs (Nat.le_refl _) (hS.local_lt hs) hw
  have key : ∀ d, S.top s + 1 + d ≤ S.n → S.pref σ (S.top s + 1 + d) (S.R s w) = S.pref σ (S.top s + 1 + d) w * σ s := by
    intro d
    induction d with
    | zero =>
      intro _
      rw [show S.off s + S.size s = S.top s + 1 by unfold size; omega, show S.off s + (s - S.off s) = s by omega] at base
      exact base
    | succ d ih =>
      intro hd
      rw [← Nat.add_assoc, Sys.pref, Sys.pref, ih (by omega), hS.R_out hs w (by omega), mul_assoc, mul_assoc]
      congr 1
      refine (hσ.comm_piece hS hs (by omega) ?_ (hw.1 _ (by omega))).symm
      intro e
      have h4 := hS.off_le (S.top s + 1 + d) (by omega)
      have := (hS.eq_comp hs (by omega) e).1
      have := hS.le_top (S.top s + 1 + d) (by omega)
      omega
  have := key (S.n - (S.top s + 1)) (by omega)
  rwa [show S.top s + 1 + (S.n - (S.top s + 1)) = S.n by omega] at this

end

end Verif.Weyl
