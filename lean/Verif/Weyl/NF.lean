import Verif.Weyl.System
import Mathlib.GroupTheory.Coxeter.Length
import Mathlib.GroupTheory.Coxeter.Basic
/-
Sequences of pieces are in bijection with the elements of the Coxeter group, and the sum of the lengths of the pieces is the
length of the element.
-/
namespace Verif.Weyl
open Verif

section
variable {T : Nat → Transducer} {off k : Nat} {M : Nat → Nat → Nat}

/-- pieces in state 0 transmit lower generators unchanged -/
theorem tact_zero (hT : ∀ r < k, (T (off + r)).Good M r) {r r' s : Nat} (hr : r ≤ r') (hr' : r' ≤ k) (hs : s < r) {w : Nat → Nat}
    (h : ∀ j, r ≤ j → j < r' → w (off + j) = 0) : tact T off r' s w = tact T off r s w := by
  induction r' with
  | zero => rw [show r = 0 by omega]
  | succ r' ih =>
    by_cases he : r = r' + 1
    · rw [he]
    · rw [tact, h r' (by omega) (by omega), (hT r' (by omega)).row0 s (by omega), if_neg (by omega), Nat.add_sub_cancel_left]
      exact ih (by omega) (by omega) fun j h1 h2 => h j h1 (by omega)

/-- the value returned by `transduce` (weyl.cpp L627-638) -/
def tsgn (T : Nat → Transducer) (off : Nat) : Nat → Nat → (Nat → Nat) → Int
  | 0, _, _ => 0
  | r + 1, s, w =>
    if (T (off + r)).ent (w (off + r)) s < (T (off + r)).n then
      if (T (off + r)).ent (w (off + r)) s < w (off + r) then -1 else 1
    else tsgn T off r ((T (off + r)).ent (w (off + r)) s - (T (off + r)).n) w

end

namespace Sys
variable {S : Sys}

/-- sum of the lengths of the first `i` pieces -/
def preLen (S : Sys) : Nat → (Nat → Nat) → Nat
  | 0, _ => 0
  | i + 1, w => S.preLen i w + (S.T i).len (w i)

/-- sum of the lengths of the pieces -/
def len (S : Sys) (w : Nat → Nat) : Nat := S.preLen S.n w

/-- value returned by right multiplication -/
def sgn (S : Sys) (s : Nat) (w : Nat → Nat) : Int := tsgn S.T (S.off s) (S.size s) (s - S.off s) w

theorem preLen_congr {i : Nat} {w w' : Nat → Nat} (h : ∀ j < i, w j = w' j) : S.preLen i w = S.preLen i w' := by
  induction i with
  | zero => rfl
  | succ i ih => rw [preLen, preLen, ih fun j hj => h j (by omega), h i (by omega)]

/-- the word of the first `i` pieces -/
def preWord (S : Sys) : Nat → (Nat → Nat) → List Nat
  | 0, _ => []
  | i + 1, w => S.preWord i w ++ (pword (S.T i) (w i)).map (S.off i + ·)

/-- the word of a sequence of pieces (internal numbering) -/
def word (S : Sys) (w : Nat → Nat) : List Nat := S.preWord S.n w

theorem wprod_preWord {G : Type} [Group G] (σ : Nat → G) (i : Nat) (w : Nat → Nat) : wprod σ (S.preWord i w) = S.pref σ i w := by
  induction i with
  | zero => rfl
  | succ i ih =>
    rw [preWord, wprod_append, ih, pref, piece, wprod, wprod, List.map_map]
    rfl

/-- application of the generators of a word -/
def run (S : Sys) (l : List Nat) (w : Nat → Nat) : Nat → Nat := l.foldl (fun w s => S.R s w) w

theorem run_append (l l' : List Nat) (w : Nat → Nat) : S.run (l ++ l') w = S.run l' (S.run l w) := by
  simp [run]

variable (hS : S.OK)
include hS

theorem OK.preLen_tact {o : Nat} (ho : o < S.n) {r : Nat} (hr : r ≤ S.size o) {s : Nat} (hs : s < r) {w : Nat → Nat} (hw : S.Valid w) :
    (S.preLen (S.off o + r) (tact S.T (S.off o) r s w) : Int) = S.preLen (S.off o + r) w + tsgn S.T (S.off o) r s w ∧
    (tsgn S.T (S.off o) r s w = 1 ∨ tsgn S.T (S.off o) r s w = -1) := by
  have h1 := hS.off_le o ho
  have h2 := hS.le_top o ho
  have h3 := hS.top_lt o ho
  induction r generalizing s with
  | zero => omega
  | succ r ih =>
    have hr' := hr
    unfold size at hr'
    have e := (hS.same o ho (S.off o + r) (by omega) (by omega)).1
    have hwr := hw.1 (S.off o + r) (by omega)
    have hg := hS.good (S.off o + r) (by omega)
    rw [e, Nat.add_sub_cancel_left] at hg
    have hlt := hg.lt _ hwr s (by omega)
    rw [tact, tsgn, ← Nat.add_assoc, preLen, preLen]
    by_cases h : (S.T (S.off o + r)).ent (w (S.off o + r)) s < (S.T (S.off o + r)).n
    · rw [if_pos h, if_pos h, Function.update_self]
      rw [preLen_congr (w' := w) fun j hj => Function.update_of_ne (by omega) _ _]
      obtain ⟨hne, hi⟩ := hg.inv _ hwr s (by omega) h
      by_cases hd : (S.T (S.off o + r)).ent (w (S.off o + r)) s < w (S.off o + r)
      · have := hg.up_len _ h s (by omega) (by rw [hi]; exact hwr) (by rw [hi]; exact hd)
        rw [hi] at this
        rw [if_pos hd]; omega
      · have := hg.up_len _ hwr s (by omega) h (by omega)
        rw [if_neg hd]; omega
    · rw [if_neg h, if_neg h, tact_out _ _ _ (by omega)]
      have := ih (by omega) (by omega : (S.T (S.off o + r)).ent (w (S.off o + r)) s - (S.T (S.off o + r)).n < r)
      omega

/-- the change of length by right multiplication by a generator -/
theorem OK.len_R {s : Nat} (hs : s < S.n) {w : Nat → Nat} (hw : S.Valid w) :
    (S.len (S.R s w) : Int) = S.len w + S.sgn s w ∧ (S.sgn s w = 1 ∨ S.sgn s w = -1) := by
  have h1 := hS.off_le s hs
  have h2 := hS.le_top s hs
  have h3 := hS.top_lt s hs
  have base := hS.preLen_tact hs (Nat.le_refl _) (hS.local_lt hs) hw
  refine ⟨?_, base.2⟩
  have key : ∀ d, S.top s + 1 + d ≤ S.n → (S.preLen (S.top s + 1 + d) (S.R s w) : Int) = S.preLen (S.top s + 1 + d) w + S.sgn s w := by
    intro d
    induction d with
    | zero =>
      intro _
      have := base.1
      rw [show S.off s + S.size s = S.top s + 1 by unfold size; omega] at this
      exact this
    | succ d ih =>
      intro hd
      rw [← Nat.add_assoc, preLen, preLen, hS.R_out hs w (by omega)]
      have := ih (by omega)
      omega
  have := key (S.n - (S.top s + 1)) (by omega)
  rwa [show S.top s + 1 + (S.n - (S.top s + 1)) = S.n by omega] at this

theorem OK.zero_valid : S.Valid fun _ => 0 := by
  refine ⟨fun i hi => ?_, fun _ _ => rfl⟩
  have := (hS.good i hi).two_le
  show 0 < _
  omega

theorem OK.preWord_lt {i : Nat} (hi : i ≤ S.n) {w : Nat → Nat} (hw : S.Valid w) : ∀ j ∈ S.preWord i w, j < S.n := by
  induction i with
  | zero => intro j hj; cases hj
  | succ i ih =>
    intro j hj
    rw [preWord, List.mem_append, List.mem_map] at hj
    rcases hj with hj | ⟨g, hg, rfl⟩
    · exact ih (by omega) j hj
    · have := pword_lt (hS.good i (by omega)) (hw.1 i (by omega)) g hg
      have := hS.off_le i (by omega)
      omega

theorem OK.preWord_length {i : Nat} (hi : i ≤ S.n) {w : Nat → Nat} (hw : S.Valid w) : (S.preWord i w).length = S.preLen i w := by
  induction i with
  | zero => rfl
  | succ i ih => rw [preWord, preLen, List.length_append, List.length_map, ih (by omega), pword_length (hS.good i (by omega)) (hw.1 i (by omega))]

/-- multiplication by the letters of the word of a piece, when all later pieces are 0 -/
theorem OK.run_pword {i : Nat} (hi : i < S.n) {w : Nat → Nat} (h : ∀ j, i ≤ j → w j = 0) {x : Nat} (hx : x < (S.T i).n) :
    S.run ((pword (S.T i) x).map (S.off i + ·)) w = Function.update w i x := by
  have h1 := hS.off_le i hi
  have h2 := hS.le_top i hi
  have hg := hS.good i hi
  induction x using Nat.strongRecOn with
  | _ x ih =>
    by_cases h0 : x = 0
    · subst h0
      rw [pword_zero, ← h i (Nat.le_refl _), Function.update_eq_self]
      rfl
    · obtain ⟨hr, hlt⟩ := hg.right_le x hx (by omega)
      rw [pword_pos hg hx (by omega), List.map_append, run_append, ih _ hlt (by omega)]
      show S.R (S.off i + (S.T i).right x) _ = _
      have hinv := (hg.inv x hx _ hr (by omega)).2
      generalize (S.T i).right x = u at *
      obtain ⟨e1, e2⟩ := hS.same i hi (S.off i + u) (by omega) (by omega)
      have e3 : S.size (S.off i + u) = S.size i := by unfold size; rw [e1, e2]
      have e4 : i = S.off i + (i - S.off i) := by omega
      rw [R, e1, e3, Nat.add_sub_cancel_left,
        tact_zero (r := i - S.off i + 1) (hS.comp_good hi) (hS.local_lt hi) (Nat.le_refl _) hr
          (fun j hj _ => by rw [Function.update_of_ne (by omega)]; exact h _ (by omega)), tact, ← e4, Function.update_self,
        hinv, if_pos hx, Function.update_idem]

theorem OK.run_preWord {i : Nat} (hi : i ≤ S.n) {w : Nat → Nat} (hw : S.Valid w) :
    S.run (S.preWord i w) (fun _ => 0) = fun j => if j < i then w j else 0 := by
  induction i with
  | zero => rfl
  | succ i ih =>
    rw [preWord, run_append, ih (by omega), hS.run_pword (by omega) (fun j hj => if_neg (by omega)) (hw.1 i (by omega))]
    funext j
    by_cases hj : j = i
    · subst hj; rw [Function.update_self, if_pos (by omega)]
    · rw [Function.update_of_ne hj]
      by_cases hj' : j < i
      · rw [if_pos hj', if_pos (by omega)]
      · rw [if_neg hj', if_neg (by omega)]

theorem OK.run_word {w : Nat → Nat} (hw : S.Valid w) : S.run (S.word w) (fun _ => 0) = w := by
  rw [word, hS.run_preWord (Nat.le_refl _) hw]
  funext j
  by_cases hj : j < S.n
  · rw [if_pos hj]
  · rw [if_neg hj, hw.2 j (by omega)]

theorem OK.run_valid {l : List Nat} (hl : ∀ i ∈ l, i < S.n) {w : Nat → Nat} (hw : S.Valid w) : S.Valid (S.run l w) := by
  induction l generalizing w with
  | nil => exact hw
  | cons a l ih => exact ih (fun i hi => hl i (List.mem_cons_of_mem _ hi)) (hS.R_valid (hl a List.mem_cons_self) hw)

theorem OK.len_run_le {l : List Nat} (hl : ∀ i ∈ l, i < S.n) {w : Nat → Nat} (hw : S.Valid w) : S.len (S.run l w) ≤ S.len w + l.length := by
  induction l generalizing w with
  | nil => exact Nat.le_refl _
  | cons a l ih =>
    have := ih (fun i hi => hl i (List.mem_cons_of_mem _ hi)) (hS.R_valid (hl a List.mem_cons_self) hw)
    have h2 := hS.len_R (hl a List.mem_cons_self) hw
    rw [List.length_cons]
    change S.len (S.run l (S.R a w)) ≤ _
    omega

theorem OK.len_zero : S.len (fun _ => 0) = 0 := by
  have : ∀ i ≤ S.n, S.preLen i (fun _ => 0) = 0 := by
    intro i
    induction i with
    | zero => intro _; rfl
    | succ i ih => intro hi; rw [preLen, ih (by omega), (hS.good i (by omega)).len0]
  exact this _ (Nat.le_refl _)

end Sys

theorem Sys.Rel.toG_run {G : Type} [Group G] {S : Sys} {σ : Nat → G} (hS : S.OK) (hσ : S.Rel σ) {l : List Nat} (hl : ∀ i ∈ l, i < S.n)
    {w : Nat → Nat} (hw : S.Valid w) : S.toG σ (S.run l w) = S.toG σ w * wprod σ l := by
  induction l generalizing w with
  | nil => simp [Sys.run]
  | cons a l ih =>
    rw [wprod_cons, ← mul_assoc, ← hσ.toG_R hS (hl a List.mem_cons_self) hw]
    exact ih (fun i hi => hl i (List.mem_cons_of_mem _ hi)) (hS.R_valid (hl a List.mem_cons_self) hw)

theorem Sys.toG_zero {G : Type} [Group G] (S : Sys) (σ : Nat → G) : S.toG σ (fun _ => 0) = 1 := by
  have : ∀ i, S.pref σ i (fun _ => 0) = 1 := by
    intro i
    induction i with
    | zero => rfl
    | succ i ih => rw [Sys.pref, ih, Sys.piece, pword_zero, wprod_nil, mul_one]
  exact this _

theorem Sys.wprod_word {G : Type} [Group G] (S : Sys) (σ : Nat → G) (w : Nat → Nat) : wprod σ (S.word w) = S.toG σ w :=
  Sys.wprod_preWord σ S.n w

/-! ### the Coxeter group -/

section
variable {S : Sys} {Mx : CoxeterMatrix (Fin S.n)} {W : Type} [Group W] (cs : CoxeterSystem Mx W) (num : Fin S.n ≃ Fin S.n)

/-- simple generators in internal numbering; `num` is the internal number of an external one -/
def sig (i : Nat) : W := if h : i < S.n then cs.simple (num.symm ⟨i, h⟩) else 1

theorem sig_num (s : Fin S.n) : sig cs num (num s) = cs.simple s := by
  rw [sig, dif_pos (num s).2]
  congr 1
  exact num.symm_apply_apply s

theorem sig_lt {i : Nat} (hi : i < S.n) : sig cs num i = cs.simple (num.symm ⟨i, hi⟩) := dif_pos hi

variable (hM : ∀ s t : Fin S.n, S.cox (num s) (num t) = Mx s t)
include hM

theorem sig_rel : S.Rel (sig cs num) := by
  have sq : ∀ i < S.n, sig cs num i * sig cs num i = 1 := by
    intro i hi
    rw [sig_lt cs num hi, cs.simple_mul_simple_self]
  refine ⟨sq, fun i hi j hj hij => ?_⟩
  rw [galt_comm (sq i hi) (sq j hj), sig_lt cs num hi, sig_lt cs num hj]
  have := hM (num.symm ⟨i, hi⟩) (num.symm ⟨j, hj⟩)
  rw [Equiv.apply_symm_apply, Equiv.apply_symm_apply] at this
  rw [this, cs.simple_mul_simple_pow]

variable (hS : S.OK)
include hS

omit hM in
/-- right multiplication as a permutation of the valid sequences -/
def permR {S : Sys} (hS : S.OK) (s : Fin S.n) : Equiv.Perm {w : Nat → Nat // S.Valid w} where
  toFun w := ⟨S.R s w.1, hS.R_valid s.2 w.2⟩
  invFun w := ⟨S.R s w.1, hS.R_valid s.2 w.2⟩
  left_inv w := Subtype.ext (hS.R_inv s.2 w.2)
  right_inv w := Subtype.ext (hS.R_inv s.2 w.2)

omit hM in
theorem permR_sq (s : Fin S.n) : permR hS s * permR hS s = 1 := by
  ext1 w
  exact Subtype.ext (hS.R_inv s.2 w.2)

omit hM in
theorem galt_permR (m : Nat) (s t : Fin S.n) (w : {w : Nat → Nat // S.Valid w}) :
    ((galt m (permR hS s) (permR hS t))⁻¹ w).1 = alt S.R m s t w.1 := by
  induction m generalizing s t w with
  | zero => simp [galt, alt]
  | succ m ih =>
    rw [galt, mul_inv_rev, Equiv.Perm.mul_apply, ih]
    rfl

theorem permR_rel : Mx.IsLiftable fun s => permR hS (num s) := by
  intro s t
  show (permR hS (num s) * permR hS (num t)) ^ Mx s t = 1
  by_cases hst : s = t
  · subst hst; rw [Mx.diagonal, pow_one, permR_sq]
  · rw [← galt_comm (permR_sq hS _) (permR_sq hS _), ← inv_inj]
    ext1 w
    apply Subtype.ext
    rw [galt_permR, galt_permR, ← hM s t]
    exact hS.R_braid (num s).2 (num t).2 (fun h => hst (num.injective (Fin.ext h))) w.2

/-- the sequence of pieces of an element of the group -/
noncomputable def nf (g : W) : Nat → Nat :=
  (cs.lift ⟨fun s => permR hS (num s), permR_rel num hM hS⟩ g⁻¹ ⟨fun _ => 0, hS.zero_valid⟩).1

theorem nf_valid (g : W) : S.Valid (nf cs num hM hS g) := Subtype.prop _

theorem nf_one : nf cs num hM hS 1 = fun _ => 0 := by
  simp [nf]

theorem nf_mul (g : W) (s : Fin S.n) : nf cs num hM hS (g * cs.simple s) = S.R (num s) (nf cs num hM hS g) := by
  rw [nf, mul_inv_rev, cs.inv_simple, map_mul, Equiv.Perm.mul_apply, CoxeterSystem.lift_apply_simple]
  rfl

theorem toG_nf (g : W) : S.toG (sig cs num) (nf cs num hM hS g) = g := by
  induction g using cs.simple_induction_right with
  | one => rw [nf_one, Sys.toG_zero]
  | mul_simple_right w s ih =>
    rw [nf_mul, (sig_rel cs num hM).toG_R hS (num s).2 (nf_valid cs num hM hS w), ih, sig_num]

theorem nf_mul_word (g : W) {l : List Nat} (hl : ∀ i ∈ l, i < S.n) :
    nf cs num hM hS (g * wprod (sig cs num) l) = S.run l (nf cs num hM hS g) := by
  induction l generalizing g with
  | nil => simp [Sys.run]
  | cons a l ih =>
    have e := nf_mul cs num hM hS g (num.symm ⟨a, hl a List.mem_cons_self⟩)
    rw [← sig_lt cs num, Equiv.apply_symm_apply] at e
    rw [wprod_cons, ← mul_assoc, ih _ fun i hi => hl i (List.mem_cons_of_mem _ hi), e]
    rfl

theorem nf_toG {w : Nat → Nat} (hw : S.Valid w) : nf cs num hM hS (S.toG (sig cs num) w) = w := by
  have := nf_mul_word cs num hM hS 1 (hS.preWord_lt (Nat.le_refl _) hw)
  rw [one_mul, nf_one] at this
  rw [← S.wprod_word, Sys.word, this]
  exact hS.run_word hw

/-- distinct sequences stand for distinct elements -/
theorem toG_injective {w w' : Nat → Nat} (hw : S.Valid w) (hw' : S.Valid w') (h : S.toG (sig cs num) w = S.toG (sig cs num) w') : w = w' := by
  rw [← nf_toG cs num hM hS hw, h, nf_toG cs num hM hS hw']

omit hM hS in
theorem wprod_eq_wordProd {l : List Nat} (hl : ∀ i ∈ l, i < S.n) :
    ∃ ω : List (Fin S.n), ω.length = l.length ∧ (ω.map fun s => (num s : Nat)) = l ∧ cs.wordProd ω = wprod (sig cs num) l := by
  induction l with
  | nil => exact ⟨[], rfl, rfl, rfl⟩
  | cons a l ih =>
    obtain ⟨ω, h1, h2, h3⟩ := ih fun i hi => hl i (List.mem_cons_of_mem _ hi)
    refine ⟨num.symm ⟨a, hl a List.mem_cons_self⟩ :: ω, by simp [h1], by simp [h2], ?_⟩
    rw [cs.wordProd_cons, h3, wprod_cons, sig_lt cs num (hl a List.mem_cons_self)]

/-- the length of an element -/
theorem length_toG {w : Nat → Nat} (hw : S.Valid w) : cs.length (S.toG (sig cs num) w) = S.len w := by
  apply Nat.le_antisymm
  · obtain ⟨ω, h1, -, h3⟩ := wprod_eq_wordProd cs num (hS.preWord_lt (Nat.le_refl _) hw)
    have := cs.length_wordProd_le ω
    rw [h3, h1, hS.preWord_length (Nat.le_refl _) hw, Sys.wprod_preWord] at this
    exact this
  · obtain ⟨ω, h1, h2⟩ := cs.exists_isReduced (S.toG (sig cs num) w)
    have h3 : cs.wordProd ω = wprod (sig cs num) (ω.map fun s => (num s : Nat)) := by
      rw [wprod, List.map_map, CoxeterSystem.wordProd]
      congr 2
      funext s
      exact (sig_num cs num s).symm
    have hl : ∀ i ∈ ω.map fun s => (num s : Nat), i < S.n := by
      intro i hi
      obtain ⟨s, -, rfl⟩ := List.mem_map.1 hi
      exact (num s).2
    have h4 := nf_mul_word cs num hM hS 1 hl
    rw [one_mul, nf_one, ← h3, ← h2, nf_toG cs num hM hS hw] at h4
    have h5 := hS.len_run_le hl hS.zero_valid
    rw [← h4, hS.len_zero, List.length_map, Nat.zero_add] at h5
    rw [h2, h1.eq]
    exact h5

end

end Verif.Weyl
