import Verif.Weyl.Ops
/-
Left multiplication by a generator.
-/
namespace Verif.Weyl
open Verif

section
variable {M : Nat → Nat → Nat} {r : Nat} {T : Transducer} (hg : T.Good M r)
include hg

/-- state 1 is the generator itself -/
theorem pword_one : pword T 1 = [r] := by
  have h2 := hg.two_le
  obtain ⟨h1, h3⟩ := hg.right_le 1 (by omega) (by omega)
  have h4 := (hg.inv 1 (by omega) (T.right 1) h1 (by omega)).2
  have h0 : T.ent 1 (T.right 1) = 0 := by omega
  rw [h0] at h4
  have hr : T.right 1 = r := by
    by_contra hne
    rw [hg.row0 _ (by omega)] at h4
    omega
  rw [pword_pos hg (by omega) (by omega), h0, pword_zero, hr]
  rfl

end

section
variable {T : Nat → Transducer} {off k : Nat} {M : Nat → Nat → Nat}

/-- a generator acting on a sequence that is 0 below `t` leaves it so, or is transmitted to a piece below `t` -/
theorem tact_low (hT : ∀ r < k, (T (off + r)).Good M r) {t : Nat} {w : Nat → Nat} (hw : VC T off k w) (h0 : ∀ i < t, w i = 0)
    {r s : Nat} (hr : r ≤ k) (hs : s < r) :
    (∀ i < t, tact T off r s w i = 0) ∨ ∃ g, off ≤ g ∧ g < off + r ∧ g < t ∧ tact T off r s w = Function.update w g 1 := by
  induction r generalizing s with
  | zero => omega
  | succ r ih =>
    have hg := hT r (by omega)
    have hlt := hg.lt _ (hw r (by omega)) s hs
    rw [tact]
    by_cases hc : (T (off + r)).ent (w (off + r)) s < (T (off + r)).n
    · rw [if_pos hc]
      by_cases ht : off + r < t
      · right
        rw [h0 _ ht] at hc ⊢
        have : s = r := by
          by_contra hne
          rw [hg.row0 s (by omega)] at hc
          omega
        subst this
        exact ⟨off + s, by omega, by omega, ht, by rw [hg.row0r]⟩
      · left
        intro i hi
        rw [Function.update_of_ne (by omega)]
        exact h0 i hi
    · rw [if_neg hc]
      rcases ih (s := (T (off + r)).ent (w (off + r)) s - (T (off + r)).n) (by omega) (by omega) with h | ⟨g, h1, h2, h3, h4⟩
      · exact .inl h
      · exact .inr ⟨g, h1, by omega, h3, h4⟩

end

namespace Sys
variable {S : Sys}

/-- the pieces from `t` to `s` of a sequence -/
def mid (t s : Nat) (w : Nat → Nat) : Nat → Nat := fun i => if t ≤ i ∧ i ≤ s then w i else 0

/-- the sequence `w`, with the pieces from `t` to `s` replaced by those of `v` -/
def splice (t s : Nat) (v w : Nat → Nat) : Nat → Nat := fun i => if t ≤ i ∧ i ≤ s then v i else w i

section
variable (hS : S.OK)
include hS

theorem OK.R_low {g : Nat} (hg : g < S.n) {t : Nat} {w : Nat → Nat} (hw : S.Valid w) (h0 : ∀ i < t, w i = 0) :
    (∀ i < t, S.R g w i = 0) ∨ ∃ h < t, h < S.n ∧ S.R g w = Function.update w h 1 := by
  rcases tact_low (hS.comp_good hg) (hS.valid_comp hg hw) h0 (Nat.le_refl _) (hS.local_lt hg) with h | ⟨h, h1, h2, h3, h4⟩
  · exact .inl h
  · refine .inr ⟨h, h3, ?_, h4⟩
    unfold size at h2
    have := hS.top_lt g hg
    have := hS.off_le g hg
    have := hS.le_top g hg
    omega

theorem OK.R_above {g s : Nat} (hg : g < S.n) (hs : g ≤ s) {w : Nat → Nat} (h0 : ∀ i, s < i → w i = 0) : ∀ i, s < i → S.R g w i = 0 := by
  intro i hi
  have h1 := hS.off_le g hg
  have h2 := hS.le_top g hg
  by_cases h : S.top g < i
  · rw [hS.R_out hg w (.inr h), h0 i hi]
  · have hsz : s + 1 - S.off g ≤ S.size g := by unfold size; omega
    rw [R, tact_zero (hS.comp_good hg) (r := s + 1 - S.off g) hsz (Nat.le_refl _) (by omega), tact_out _ _ _ (by omega), h0 i hi]
    intro j h3 _
    exact h0 _ (by omega)

theorem OK.run_above {l : List Nat} {s : Nat} (hs : s < S.n) (hl : ∀ g ∈ l, g ≤ s) {w : Nat → Nat} (h0 : ∀ i, s < i → w i = 0) :
    ∀ i, s < i → S.run l w i = 0 := by
  induction l generalizing w with
  | nil => exact h0
  | cons a l ih =>
    have ha := hl a List.mem_cons_self
    exact ih (fun g hg => hl g (List.mem_cons_of_mem _ hg)) (hS.R_above (by omega) ha h0)

/-- the last letter of a sequence can be taken off -/
theorem OK.last_letter {y : Nat → Nat} (hy : S.Valid y) (hne : ∃ i, y i ≠ 0) :
    ∃ g < S.n, (∀ j, y j = 0 → S.R g y j = 0) ∧ S.len (S.R g y) < S.len y := by
  have hex : ∃ i < S.n, y i ≠ 0 ∧ ∀ j, i < j → y j = 0 := by
    obtain ⟨i, hi⟩ := hne
    have : ∀ m, ∀ i, S.n - i = m → y i ≠ 0 → ∃ i < S.n, y i ≠ 0 ∧ ∀ j, i < j → y j = 0 := by
      intro m
      induction m using Nat.strong_induction_on with
      | _ m ih =>
        intro i hm hi
        have hin : i < S.n := by
          by_contra h
          exact hi (hy.2 i (by omega))
        by_cases h : ∃ j, i < j ∧ y j ≠ 0
        · obtain ⟨j, h1, h2⟩ := h
          have hjn : j < S.n := by
            by_contra h
            exact h2 (hy.2 j (by omega))
          exact ih (S.n - j) (by omega) j rfl h2
        · push Not at h
          exact ⟨i, hin, hi, h⟩
    exact this _ i rfl hi
  obtain ⟨i, hi, h1, h2⟩ := hex
  have hg := hS.good i hi
  have hx := hy.1 i hi
  have h3 := hS.off_le i hi
  have h4 := hS.le_top i hi
  have h5 := hS.top_lt i hi
  obtain ⟨h6, h7⟩ := hg.right_le (y i) hx (by omega)
  obtain ⟨e1, e2⟩ := hS.same i hi (S.off i + (S.T i).right (y i)) (by omega) (by omega)
  have e3 : S.size (S.off i + (S.T i).right (y i)) = S.size i := by unfold size; rw [e1, e2]
  have hR : S.R (S.off i + (S.T i).right (y i)) y = Function.update y i ((S.T i).ent (y i) ((S.T i).right (y i))) := by
    rw [R, e1, e3, Nat.add_sub_cancel_left, tact_zero (hS.comp_good hi) (r := i - S.off i + 1) (by unfold size; omega) (Nat.le_refl _) h6, tact,
      show S.off i + (i - S.off i) = i by omega, if_pos (by omega)]
    intro j h8 _
    exact h2 _ (by omega)
  refine ⟨S.off i + (S.T i).right (y i), by omega, ?_, ?_⟩
  · intro j hj
    rw [hR, Function.update_of_ne (by rintro rfl; exact h1 hj), hj]
  · have hl : ∀ k, i < k → k ≤ S.n → S.preLen k (Function.update y i ((S.T i).ent (y i) ((S.T i).right (y i)))) < S.preLen k y := by
      intro k hk hkn
      induction k with
      | zero => omega
      | succ k ih =>
        rw [preLen, preLen]
        by_cases hik : i = k
        · subst hik
          rw [Function.update_self, preLen_congr (w' := y) fun j hj => Function.update_of_ne (by omega) _ _]
          have hinv := (hg.inv _ hx _ h6 (by omega)).2
          have := hg.up_len _ (by omega : (S.T i).ent (y i) ((S.T i).right (y i)) < (S.T i).n) _ h6 (by rw [hinv]; omega) (by rw [hinv]; omega)
          rw [hinv] at this
          omega
        · rw [Function.update_of_ne (by omega)]
          have := ih (by omega) (by omega)
          omega
    rw [hR]
    exact hl S.n hi (Nat.le_refl _)

end

end Sys

section
variable {S : Sys} {Mx : CoxeterMatrix (Fin S.n)} {G : Type} [Group G] (cs : CoxeterSystem Mx G) (num : Fin S.n ≃ Fin S.n)
  (hM : ∀ s t : Fin S.n, S.cox (num s) (num t) = Mx s t) (hS : S.OK)
include hM hS

omit hM in
theorem piece_one (σ : Nat → G) {i : Nat} (hi : i < S.n) : S.piece σ i 1 = σ i := by
  have := hS.off_le i hi
  rw [Sys.piece, pword_one (hS.good i hi), wprod_cons]
  simp [show S.off i + (i - S.off i) = i by omega]

omit hM hS in
theorem piece_zero (σ : Nat → G) (i : Nat) : S.piece σ i 0 = 1 := by
  rw [Sys.piece, pword_zero, wprod_nil]

omit hM hS in
theorem pref_low (σ : Nat → G) {t : Nat} {w : Nat → Nat} (h0 : ∀ i < t, w i = 0) : S.pref σ t w = 1 := by
  induction t with
  | zero => rfl
  | succ t ih => rw [Sys.pref, ih fun i hi => h0 i (by omega), h0 t (by omega), piece_zero, one_mul]

omit hM in
theorem pref_update (σ : Nat → G) {t : Nat} {w : Nat → Nat} (h0 : ∀ i < t, w i = 0) {g : Nat} (hg : g < t) (hgn : g < S.n) {i : Nat}
    (hi : g < i) : S.pref σ i (Function.update w g 1) = σ g * S.pref σ i w := by
  induction i with
  | zero => omega
  | succ i ih =>
    rw [Sys.pref, Sys.pref]
    by_cases h : g = i
    · subst h
      rw [Function.update_self, piece_one hS σ hgn, pref_low σ fun i hi => by rw [Function.update_of_ne (by omega)]; exact h0 i (by omega),
        pref_low σ fun i hi => h0 i (by omega), h0 g hg, piece_zero]
      simp
    · rw [Function.update_of_ne (Ne.symm h), ih (by omega), mul_assoc]

omit hS in
theorem sig_sq {i : Nat} (hi : i < S.n) : sig cs num i * sig cs num i = 1 := (sig_rel cs num hM).sq i hi

omit hS in
theorem sig_comm {i s : Nat} (hi : i < S.n) (hs : s < S.n) (h : S.cox i s = 2) : sig cs num i * sig cs num s = sig cs num s * sig cs num i := by
  by_cases his : i = s
  · rw [his]
  · have := (sig_rel cs num hM).braid i hi s hs his
    rw [h] at this
    simpa [galt] using this

theorem nf_mul_sig (g : G) {i : Nat} (hi : i < S.n) : nf cs num hM hS (g * sig cs num i) = S.R i (nf cs num hM hS g) := by
  rw [sig_lt cs num hi, nf_mul, Equiv.apply_symm_apply]

theorem nf_sig {s : Nat} (hs : s < S.n) : nf cs num hM hS (sig cs num s) = Function.update (fun _ => 0) s 1 := by
  have e : S.toG (sig cs num) (Function.update (fun _ => 0) s 1) = sig cs num s := by
    rw [Sys.toG, pref_update hS (sig cs num) (t := s + 1) (fun _ _ => rfl) (by omega) hs hs, pref_low (sig cs num) fun _ _ => rfl, mul_one]
  have hv : S.Valid (Function.update (fun _ => 0) s 1) := by
    constructor
    · intro i hi
      have := (hS.good i hi).two_le
      by_cases h : i = s
      · subst h; rw [Function.update_self]; omega
      · rw [Function.update_of_ne h]; omega
    · intro i hi
      rw [Function.update_of_ne (by omega)]
  rw [← e, nf_toG cs num hM hS hv]

/-- left multiplication by `s` does not affect the pieces below those that do not commute with it -/
theorem left_low {s t : Nat} (hs : s < S.n) (hts : t ≤ s) (hcomm : ∀ i < t, S.cox i s = 2) {y : Nat → Nat} (hy : S.Valid y)
    (h0 : ∀ i < t, y i = 0) : ∀ i < t, nf cs num hM hS (sig cs num s * S.toG (sig cs num) y) i = 0 := by
  induction hm : S.len y using Nat.strong_induction_on generalizing y with
  | _ m ih =>
    by_cases hne : ∃ i, y i ≠ 0
    · obtain ⟨g, hg, h1, h2⟩ := hS.last_letter hy hne
      have hv := hS.R_valid hg hy
      have h3 := ih _ (by omega) hv (fun i hi => h1 i (h0 i hi)) rfl
      have e1 : S.toG (sig cs num) y = S.toG (sig cs num) (S.R g y) * sig cs num g := by
        rw [(sig_rel cs num hM).toG_R hS hg hy, mul_assoc, sig_sq cs num hM hg, mul_one]
      rw [e1, ← mul_assoc, nf_mul_sig cs num hM hS _ hg]
      rcases hS.R_low hg (nf_valid cs num hM hS (sig cs num s * S.toG (sig cs num) (S.R g y))) h3 with h | ⟨h, h4, h5, h6⟩
      · exact h
      · exfalso
        have e2 := congrArg (S.toG (sig cs num)) h6
        have e3 : S.toG (sig cs num) (Function.update (nf cs num hM hS (sig cs num s * S.toG (sig cs num) (S.R g y))) h 1) =
            sig cs num h * (sig cs num s * S.toG (sig cs num) (S.R g y)) := by
          have := pref_update hS (sig cs num) h3 h4 h5 h5
          rw [← Sys.toG, ← Sys.toG, toG_nf] at this
          exact this
        rw [(sig_rel cs num hM).toG_R hS hg (nf_valid cs num hM hS _), toG_nf, e3, ← mul_assoc, sig_comm cs num hM h5 hs (hcomm h h4), mul_assoc, mul_assoc, mul_left_cancel_iff, ← e1] at e2
        have hlow : ∀ i < t, S.R g y i = 0 := fun i hi => h1 i (h0 i hi)
        rw [Sys.toG, Sys.toG, ← pref_update hS (sig cs num) hlow h4 h5 h5] at e2
        have hv2 : S.Valid (Function.update (S.R g y) h 1) := by
          constructor
          · intro i hi
            have := (hS.good i hi).two_le
            by_cases hh : i = h
            · subst hh; rw [Function.update_self]; omega
            · rw [Function.update_of_ne hh]; exact hv.1 i hi
          · intro i hi
            rw [Function.update_of_ne (by omega)]
            exact hv.2 i hi
        have := congrFun (toG_injective cs num hM hS hy hv2 e2) h
        rw [h0 h h4, Function.update_self] at this
        omega
    · push Not at hne
      have : y = fun _ => 0 := funext hne
      subst this
      intro i hi
      rw [Sys.toG_zero, mul_one, nf_sig cs num hM hS hs, Function.update_of_ne (by omega)]

omit hM in
theorem mid_valid {t s : Nat} {w : Nat → Nat} (hw : S.Valid w) : S.Valid (Sys.mid t s w) := by
  constructor
  · intro i hi
    have := (hS.good i hi).two_le
    unfold Sys.mid
    split
    · exact hw.1 i hi
    · omega
  · intro i hi
    unfold Sys.mid
    rw [hw.2 i hi]
    simp

omit hM hS in
theorem splice_valid {t s : Nat} {v w : Nat → Nat} (hv : S.Valid v) (hw : S.Valid w) : S.Valid (Sys.splice t s v w) := by
  constructor
  · intro i hi
    unfold Sys.splice
    split
    · exact hv.1 i hi
    · exact hw.1 i hi
  · intro i hi
    unfold Sys.splice
    rw [hw.2 i hi, hv.2 i hi]
    simp

omit hM hS in
theorem pref_split (σ : Nat → G) {t s : Nat} (v w : Nat → Nat) {k : Nat} (htk : t ≤ k) (hk : k ≤ s + 1) :
    S.pref σ k (Sys.splice t s v w) = S.pref σ t w * S.pref σ k (Sys.mid t s v) := by
  induction k with
  | zero =>
    rw [show t = 0 by omega]
    simp [Sys.pref]
  | succ k ih =>
    by_cases h : t = k + 1
    · subst h
      rw [pref_low σ (t := k + 1) (w := Sys.mid (k + 1) s v) fun i hi => by unfold Sys.mid; rw [if_neg (by omega)], mul_one]
      exact Sys.pref_congr σ fun j hj => by unfold Sys.splice; rw [if_neg (by omega)]
    · rw [Sys.pref, Sys.pref, ih (by omega) (by omega), mul_assoc, Sys.splice, Sys.mid, if_pos (by omega), if_pos (by omega)]

omit hM hS in
theorem preLen_split {t s : Nat} (v w : Nat → Nat) (h0 : ∀ i, i < S.n → (S.T i).len 0 = 0) {k : Nat} (htk : t ≤ k) (hk : k ≤ s + 1) (hkn : k ≤ S.n) :
    S.preLen k (Sys.splice t s v w) = S.preLen t w + S.preLen k (Sys.mid t s v) := by
  induction k with
  | zero =>
    rw [show t = 0 by omega]
    simp [Sys.preLen]
  | succ k ih =>
    by_cases h : t = k + 1
    · have hz : ∀ j ≤ k + 1, S.preLen j (Sys.mid t s v) = 0 := by
        intro j
        induction j with
        | zero => intro _; rfl
        | succ j ihj =>
          intro hj
          rw [Sys.preLen, ihj (by omega), Sys.mid, if_neg (by omega), h0 j (by omega)]
      rw [hz _ (Nat.le_refl _), h]
      exact Sys.preLen_congr fun j hj => by unfold Sys.splice; rw [if_neg (by omega)]
    · rw [Sys.preLen, Sys.preLen, ih (by omega) (by omega) (by omega), Nat.add_assoc, Sys.splice, Sys.mid, if_pos (by omega), if_pos (by omega)]

omit hM hS in
theorem splice_self (t s : Nat) (w : Nat → Nat) : Sys.splice t s w w = w := by
  funext i
  simp [Sys.splice]

theorem pref_comm {s t : Nat} (hs : s < S.n) (hts : t ≤ s) (hcomm : ∀ i < t, S.cox i s = 2) {w : Nat → Nat} (hw : S.Valid w) :
    S.pref (sig cs num) t w * sig cs num s = sig cs num s * S.pref (sig cs num) t w := by
  induction t with
  | zero => simp [Sys.pref]
  | succ t ih =>
    have ih := ih (by omega) fun i hi => hcomm i (by omega)
    have h1 := hS.off_le t (by omega)
    have hl := pword_lt (hS.good t (by omega)) (hw.1 t (by omega))
    have key : ∀ l : List Nat, (∀ g ∈ l, g < t - S.off t + 1) →
        wprod (fun g => sig cs num (S.off t + g)) l * sig cs num s = sig cs num s * wprod (fun g => sig cs num (S.off t + g)) l := by
      intro l
      induction l with
      | nil => intro _; simp [wprod_nil]
      | cons a l ihl =>
        intro hl
        have := hl a List.mem_cons_self
        rw [wprod_cons, mul_assoc, ihl fun g hg => hl g (List.mem_cons_of_mem _ hg), ← mul_assoc,
          sig_comm cs num hM (by omega) hs (hcomm _ (by omega)), mul_assoc]
    rw [Sys.pref, mul_assoc, Sys.piece, key _ hl, ← mul_assoc, ih, mul_assoc]

/-- the sequence for `s w`: only the pieces from `t` to `s` change, and they can be computed separately -/
theorem left_mult {s t : Nat} (hs : s < S.n) (hts : t ≤ s) (hcomm : ∀ i < t, S.cox i s = 2) {w : Nat → Nat} (hw : S.Valid w) :
    let sw := S.run (S.word (Sys.mid t s w)) (Function.update (fun _ => 0) s 1)
    S.Valid sw ∧ S.toG (sig cs num) (Sys.splice t s sw w) = sig cs num s * S.toG (sig cs num) w ∧
      (S.len (Sys.splice t s sw w) : Int) - S.len w = S.len sw - (S.word (Sys.mid t s w)).length := by
  intro sw
  have hmv : S.Valid (Sys.mid t s w) := mid_valid hS hw
  have hpl := hS.preWord_lt (Nat.le_refl _) hmv
  have e1 : sw = nf cs num hM hS (sig cs num s * S.toG (sig cs num) (Sys.mid t s w)) := by
    rw [← Sys.wprod_word, Sys.word, nf_mul_word cs num hM hS _ hpl, nf_sig cs num hM hS hs]
    rfl
  have hv : S.Valid sw := by rw [e1]; exact nf_valid cs num hM hS _
  have hlow : ∀ i < t, sw i = 0 := by
    rw [e1]
    exact left_low cs num hM hS hs hts hcomm hmv fun i hi => by unfold Sys.mid; rw [if_neg (by omega)]
  have hle : ∀ k ≤ S.n, ∀ g ∈ S.preWord k (Sys.mid t s w), g ≤ s := by
    intro k
    induction k with
    | zero => intro _ g hg; simp [Sys.preWord] at hg
    | succ k ih =>
      intro hk g hg
      rw [Sys.preWord, List.mem_append] at hg
      rcases hg with hg | hg
      · exact ih (by omega) g hg
      · obtain ⟨a, ha, rfl⟩ := List.mem_map.1 hg
        have h1 := hS.off_le k (by omega)
        have := pword_lt (hS.good k (by omega)) (hmv.1 k (by omega)) a ha
        by_cases hks : k ≤ s
        · omega
        · rw [Sys.mid, if_neg (by omega), pword_zero] at ha
          simp at ha
  have habove : ∀ i, s < i → sw i = 0 :=
    hS.run_above hs (hle S.n (Nat.le_refl _)) fun i hi => by rw [Function.update_of_ne (by omega)]
  have hmid : Sys.mid t s sw = sw := by
    funext i
    unfold Sys.mid
    split
    · rfl
    · by_cases h : i < t
      · exact (hlow i h).symm
      · exact (habove i (by omega)).symm
  have hext : ∀ (y : Nat → Nat), (∀ i, s < i → y i = 0) → ∀ d, s + 1 + d ≤ S.n →
      S.pref (sig cs num) (s + 1 + d) y = S.pref (sig cs num) (s + 1) y ∧ S.preLen (s + 1 + d) y = S.preLen (s + 1) y := by
    intro y hy d
    induction d with
    | zero => intro _; exact ⟨rfl, rfl⟩
    | succ d ih =>
      intro hd
      rw [← Nat.add_assoc, Sys.pref, Sys.preLen, hy (s + 1 + d) (by omega), piece_zero, mul_one, (hS.good _ (by omega)).len0]
      exact ih (by omega)
  have hn : s + 1 + (S.n - (s + 1)) = S.n := by omega
  have ext1 := hext sw habove (S.n - (s + 1)) (by omega)
  have ext2 := hext (Sys.mid t s w) (fun i hi => by unfold Sys.mid; rw [if_neg (by omega)]) (S.n - (s + 1)) (by omega)
  rw [hn] at ext1 ext2
  have e2 : S.toG (sig cs num) sw = sig cs num s * S.toG (sig cs num) (Sys.mid t s w) := by rw [e1, toG_nf]
  refine ⟨hv, ?_, ?_⟩
  · have key : ∀ d, s + 1 + d ≤ S.n → S.pref (sig cs num) (s + 1 + d) (Sys.splice t s sw w) = sig cs num s * S.pref (sig cs num) (s + 1 + d) w := by
      intro d
      induction d with
      | zero =>
        intro _
        have h2 := pref_split (S := S) (sig cs num) (t := t) (s := s) w w (k := s + 1) (by omega) (by omega)
        rw [splice_self] at h2
        rw [Nat.add_zero, pref_split (sig cs num) sw w (by omega) (by omega), hmid, h2, ← ext1.1, ← Sys.toG, e2, ← mul_assoc,
          pref_comm cs num hM hS hs hts hcomm hw, mul_assoc, ← ext2.1, Sys.toG]
      | succ d ih =>
        intro hd
        rw [← Nat.add_assoc, Sys.pref, Sys.pref, ih (by omega), mul_assoc]
        congr 3
        unfold Sys.splice
        rw [if_neg (by omega)]
    have := key (S.n - (s + 1)) (by omega)
    rwa [hn] at this
  · have h0 : ∀ i, i < S.n → (S.T i).len 0 = 0 := fun i hi => (hS.good i hi).len0
    have key : ∀ d, s + 1 + d ≤ S.n → S.preLen (s + 1 + d) (Sys.splice t s sw w) + S.preLen (s + 1) (Sys.mid t s w) =
        S.preLen (s + 1 + d) w + S.preLen (s + 1) sw := by
      intro d
      induction d with
      | zero =>
        intro _
        have h2 := preLen_split (S := S) (t := t) (s := s) w w h0 (k := s + 1) (by omega) (by omega) (by omega)
        rw [splice_self] at h2
        rw [Nat.add_zero, preLen_split sw w h0 (by omega) (by omega) (by omega), hmid, h2]
        omega
      | succ d ih =>
        intro hd
        have := ih (by omega)
        rw [← Nat.add_assoc, Sys.preLen, Sys.preLen.eq_2 S w (s + 1 + d)]
        have e : Sys.splice t s sw w (s + 1 + d) = w (s + 1 + d) := by unfold Sys.splice; rw [if_neg (by omega)]
        rw [e]
        omega
    have := key (S.n - (s + 1)) (by omega)
    rw [hn] at this
    rw [Sys.word, hS.preWord_length (Nat.le_refl _) hmv, ext2.2, Sys.len, Sys.len, Sys.len, ext1.2]
    omega

end

/-! ### the functions of the model -/

section
variable {W : WG} {S : Sys} {num : Fin S.n ≃ Fin S.n} (hW : WGood W S num)
include hW

/-- letters of several pieces -/
def Sys.flat (S : Sys) (w : Nat → Nat) (is : List Nat) : List Nat := is.flatMap fun i => S.letters i (w i)

theorem flat_lt {w : Nat → Nat} (hw : S.Valid w) {is : List Nat} (his : ∀ i ∈ is, i < S.n) : ∀ g ∈ S.flat w is, g < S.n := by
  intro g hg
  obtain ⟨i, hi, hg⟩ := List.mem_flatMap.1 hg
  have := letters_lt hW (his i hi) (hw.1 i (his i hi)) g hg
  have := his i hi
  omega

theorem leftLoop_ok (nd : Bool) {w : Nat → Nat} (hw : S.Valid w) {is : List Nat} (his : ∀ i ∈ is, i < S.n) {sw : Nat → Nat} (hsw : S.Valid sw)
    (l : Int) : W.leftLoop nd (toL w) is (toL sw) l =
      .ok (toL (S.run (S.flat w is) sw), l + S.len (S.run (S.flat w is) sw) - S.len sw - (S.flat w is).length) := by
  induction is generalizing sw l with
  | nil =>
    rw [WG.leftLoop]
    simp [Sys.flat, Sys.run]
  | cons i is ih =>
    have hi := his i List.mem_cons_self
    have hx := hw.1 i hi
    have hl : ∀ g ∈ S.letters i (w i), g < S.n := fun g hg => by have := letters_lt hW hi hx g hg; omega
    rw [WG.leftLoop, multByPiece_ok hW nd hi hsw hw, Res.ok_bind]
    simp only
    rw [ih (fun i hi => his i (List.mem_cons_of_mem _ hi)) (hW.ok.run_valid hl hsw)]
    have e : S.flat w (i :: is) = S.letters i (w i) ++ S.flat w is := rfl
    have e2 : (S.letters i (w i)).length = (S.T i).len (w i) := by rw [Sys.letters, List.length_map, pword_length (hW.ok.good i hi) hx]
    rw [e, Sys.run_append, List.length_append, e2]
    congr 2
    omega

omit hW in
theorem flat_interval {t s : Nat} (w : Nat → Nat) : S.flat w (WG.interval t s) = S.preWord (s + 1) (Sys.mid t s w) := by
  have key : ∀ k ≤ s + 1, S.flat w ((List.range k).drop t) = S.preWord k (Sys.mid t s w) := by
    intro k
    induction k with
    | zero => intro _; simp [Sys.flat, Sys.preWord]
    | succ k ih =>
      intro hk
      rw [Sys.preWord, ← ih (by omega)]
      by_cases h : t ≤ k
      · rw [List.range_succ, List.drop_append_of_le_length (by simpa using h), Sys.flat, List.flatMap_append, Sys.mid, if_pos (by omega)]
        simp [Sys.flat, Sys.letters]
      · rw [List.drop_of_length_le (by simp; omega), List.drop_of_length_le (by simp; omega), Sys.mid, if_neg (by omega), pword_zero]
        simp
  exact key (s + 1) (Nat.le_refl _)

omit hW in
theorem word_mid {t s : Nat} (hs : s < S.n) (w : Nat → Nat) : S.word (Sys.mid t s w) = S.preWord (s + 1) (Sys.mid t s w) := by
  have key : ∀ d, s + 1 + d ≤ S.n → S.preWord (s + 1 + d) (Sys.mid t s w) = S.preWord (s + 1) (Sys.mid t s w) := by
    intro d
    induction d with
    | zero => intro _; rfl
    | succ d ih =>
      intro hd
      rw [← Nat.add_assoc, Sys.preWord, ih (by omega), Sys.mid, if_neg (by omega), pword_zero]
      simp
  have := key (S.n - (s + 1)) (by omega)
  rwa [show s + 1 + (S.n - (s + 1)) = S.n by omega] at this

omit hW in
theorem mem_interval {t s i : Nat} (h : i ∈ WG.interval t s) : t ≤ i ∧ i ≤ s := by
  rw [WG.interval, List.mem_iff_getElem] at h
  obtain ⟨k, hk, rfl⟩ := h
  simp at hk ⊢
  omega

omit hW in
theorem interval_succ {t s : Nat} (h : t ≤ s + 1) : WG.interval t (s + 1) = WG.interval t s ++ [s + 1] := by
  rw [WG.interval, List.range_succ, List.drop_append_of_le_length (by simpa using h)]
  rfl

omit hW in
theorem copyLoop_ok {is : List Nat} (his : ∀ i ∈ is, i < rankMax) (sw w : Nat → Nat) :
    WG.copyLoop (toL sw) is (toL w) = .ok (toL fun i => if i ∈ is then sw i else w i) := by
  induction is generalizing w with
  | nil => simp [WG.copyLoop]
  | cons i is ih =>
    have hi := his i List.mem_cons_self
    rw [WG.copyLoop, get_toL sw hi, Res.ok_bind, put_toL w hi, Res.ok_bind, ih fun i hi => his i (List.mem_cons_of_mem _ hi)]
    congr 2
    funext j
    by_cases h1 : j ∈ is
    · simp [h1]
    · by_cases h2 : j = i
      · subst h2; simp [h1]
      · simp [h1, h2]

omit hW in
theorem interval_mem {t s i : Nat} : i ∈ WG.interval t s ↔ t ≤ i ∧ i ≤ s := by
  refine ⟨mem_interval, fun ⟨h1, h2⟩ => ?_⟩
  rw [WG.interval, List.mem_iff_getElem]
  exact ⟨i - t, by simp; omega, by simp; omega⟩

theorem innerGen_ok {s : Nat} (hs : s < S.n) : WG.innerGen s = .ok (toL (Function.update (fun _ => 0) s 1)) := by
  have := hW.n_le
  rw [WG.innerGen, toL_zero, put_toL _ (by omega)]

theorem gen_valid {s : Nat} (hs : s < S.n) : S.Valid (Function.update (fun _ => 0) s 1) := by
  constructor
  · intro i hi
    have := (hW.ok.good i hi).two_le
    by_cases h : i = s
    · subst h; rw [Function.update_self]; omega
    · rw [Function.update_of_ne h]; omega
  · intro i hi
    rw [Function.update_of_ne (by omega)]

variable {Mx : CoxeterMatrix (Fin S.n)} {G : Type} [Group G] (cs : CoxeterSystem Mx G) (hM : ∀ s t : Fin S.n, S.cox (num s) (num t) = Mx s t)
include cs hM

theorem len_gen {s : Nat} (hs : s < S.n) : S.len (Function.update (fun _ => 0) s 1) = 1 := by
  rw [← length_toG cs num hM hW.ok (gen_valid hW hs), ← nf_sig cs num hM hW.ok hs, toG_nf, sig_lt cs num hs, cs.length_simple]

theorem innerLeftMult_ok (nd : Bool) {s : Nat} (hs : s < S.n) {w : Nat → Nat} (hw : S.Valid w) :
    ∃ w', W.innerLeftMult nd (toL w) s = .ok (toL w', (S.len w' : Int) - S.len w) ∧ S.Valid w' ∧
      S.toG (sig cs num) w' = sig cs num s * S.toG (sig cs num) w := by
  obtain ⟨t, h1, -, h3, h4⟩ := hW.star s hs
  have hn := hW.n_le
  obtain ⟨h5, h6, h7⟩ := left_mult cs num hM hW.ok hs h3 h4 hw
  rw [word_mid hs, ← flat_interval] at h5 h6 h7
  refine ⟨_, ?_, splice_valid h5 hw, h6⟩
  rw [WG.innerLeftMult, innerGen_ok hW hs, Res.ok_bind, get_of_some h1, Res.ok_bind,
    leftLoop_ok hW nd hw (fun i hi => by have := mem_interval hi; omega) (gen_valid hW hs), Res.ok_bind]
  simp only
  rw [copyLoop_ok (fun i hi => by have := mem_interval hi; omega), Res.ok_bind, Res.pure_eq, h7, len_gen hW cs hM hs]
  congr 3
  · funext i
    unfold Sys.splice
    simp only [interval_mem]
  · omega

theorem leftMultiplyGen_ok (nd : Bool) (s : Fin S.n) {w : Nat → Nat} (hw : S.Valid w) :
    ∃ w', W.leftMultiplyGen nd (toL w) s = .ok (toL w', (S.len w' : Int) - S.len w) ∧ S.Valid w' ∧
      S.toG (sig cs num) w' = cs.simple s * S.toG (sig cs num) w := by
  obtain ⟨w', h1, h2, h3⟩ := innerLeftMult_ok hW cs hM nd (num s).2 hw
  exact ⟨w', by rw [WG.leftMultiplyGen, get_of_some (hW.din s), Res.ok_bind, h1], h2, by rw [h3, sig_num]⟩

omit cs hM in
theorem descentAll_ok (nd : Bool) {i : Nat} (hi : i < S.n) {l : List Nat} (hl : ∀ s ∈ l, s < S.size i) {w : Nat → Nat} (hw : S.Valid w) :
    W.descentAll nd (S.top i) l (toL w) = .ok (if S.len (S.run (l.map (S.off i + ·)) w) = S.len w + l.length then
      some (toL (S.run (l.map (S.off i + ·)) w)) else none) := by
  have hS := hW.ok
  induction l generalizing w with
  | nil =>
    rw [WG.descentAll]
    simp [Sys.run]
  | cons s l ih =>
    have hs := hl s List.mem_cons_self
    have h1 := hS.off_le i hi
    have h2 := hS.le_top i hi
    have h3 := hS.top_lt i hi
    have hs' := hs
    unfold Sys.size at hs'
    obtain ⟨hlen, hsgn⟩ := hS.len_R (s := S.off i + s) (by omega) hw
    have hl' : ∀ s ∈ l, s < S.size i := fun s hs => hl s (List.mem_cons_of_mem _ hs)
    have hll : ∀ g ∈ l.map (S.off i + ·), g < S.n := by
      intro g hg
      obtain ⟨a, ha, rfl⟩ := List.mem_map.1 hg
      have := hl' a ha
      unfold Sys.size at this
      omega
    have hv := hS.R_valid (s := S.off i + s) (by omega) hw
    have hle := hS.len_run_le hll hv
    rw [List.length_map] at hle
    have e : S.run (List.map (S.off i + ·) (s :: l)) w = S.run (List.map (S.off i + ·) l) (S.R (S.off i + s) w) := rfl
    rw [WG.descentAll, transduce_R hW nd hi hs hw, Res.ok_bind, e]
    simp only [List.length_cons]
    by_cases hd : S.sgn (S.off i + s) w < 0
    · rw [if_pos hd, if_neg (by omega)]
      rfl
    · rw [if_neg hd, ih hl' hv]
      congr 1
      by_cases hc : S.len (S.run (List.map (S.off i + ·) l) (S.R (S.off i + s) w)) = S.len (S.R (S.off i + s) w) + l.length
      · rw [if_pos hc, if_pos (by omega)]
      · rw [if_neg hc, if_neg (by omega)]

omit cs hM in
theorem descentLoop_ok (nd : Bool) {s : Nat} (hs : s < S.n) {w : Nat → Nat} (hw : S.Valid w) {is : List Nat}
    (his : ∀ i ∈ is, S.off s ≤ i ∧ i ≤ s) {sw : Nat → Nat} (hsw : S.Valid sw) :
    W.descentLoop nd (S.top s) (toL w) is (toL sw) =
      .ok (decide (S.len (S.run (S.flat w is) sw) ≠ S.len sw + (S.flat w is).length)) := by
  have hS := hW.ok
  have hn := hW.n_le
  induction is generalizing sw with
  | nil =>
    rw [WG.descentLoop]
    simp [Sys.flat, Sys.run]
  | cons i is ih =>
    have hi := his i List.mem_cons_self
    have hts := hS.le_top s hs
    have hx := hw.1 i (by omega)
    have hg := hS.good i (by omega)
    have h1 := hS.off_le i (by omega)
    have h2 := hS.le_top i (by omega)
    have etop : S.top i = S.top s := (hS.same s hs i (by omega) (by omega)).2
    have hl : ∀ g ∈ S.letters i (w i), g < S.n := fun g hg => by have := letters_lt hW (by omega) hx g hg; omega
    have hv := hS.run_valid hl hsw
    have his' : ∀ i ∈ is, S.off s ≤ i ∧ i ≤ s := fun i hi => his i (List.mem_cons_of_mem _ hi)
    have hle := hS.len_run_le hl hsw
    have hle2 := hS.len_run_le (flat_lt hW hw fun i hi => by have := his' i hi; omega) hv
    have e : S.flat w (i :: is) = S.letters i (w i) ++ S.flat w is := rfl
    have elen : (pword (S.T i) (w i)).length = (S.letters i (w i)).length := by rw [Sys.letters, List.length_map]
    rw [WG.descentLoop, get_toL w (by omega), Res.ok_bind, get_of_some (hW.tr i (by omega)), Res.ok_bind, letters_ok hg nd hx, Res.ok_bind,
      ← etop, descentAll_ok hW nd (i := i) (by omega) _ hsw, Res.ok_bind, elen, ← Sys.letters, e, Sys.run_append, List.length_append]
    · by_cases hc : S.len (S.run (S.letters i (w i)) sw) = S.len sw + (S.letters i (w i)).length
      · rw [if_pos hc, etop]
        simp only
        rw [ih his' hv]
        congr 1
        rw [decide_eq_decide]
        omega
      · rw [if_neg hc]
        simp only [Res.pure_eq]
        congr 1
        symm
        rw [decide_eq_true_eq]
        omega
    · intro a ha
      have := pword_lt hg hx a ha
      unfold Sys.size
      omega

theorem hasDescent_ok (nd : Bool) (s : Fin S.n) {w : Nat → Nat} (hw : S.Valid w) :
    W.hasDescent nd s (toL w) =
      .ok (decide (cs.length (cs.simple s * S.toG (sig cs num) w) < cs.length (S.toG (sig cs num) w))) := by
  have hs := (num s).2
  obtain ⟨t, h1, h2, h3, h4⟩ := hW.star (num s) hs
  have hn := hW.n_le
  obtain ⟨h5, h6, h7⟩ := left_mult cs num hM hW.ok hs h3 h4 hw
  rw [word_mid hs, ← flat_interval] at h5 h6 h7
  rw [WG.hasDescent, get_of_some (hW.din s), Res.ok_bind, innerGen_ok hW hs, Res.ok_bind, get_of_some (hW.upper _ hs), Res.ok_bind,
    get_of_some h1, Res.ok_bind, descentLoop_ok hW nd hs hw (fun i hi => by have := mem_interval hi; omega) (gen_valid hW hs),
    len_gen hW cs hM hs]
  congr 1
  rw [decide_eq_decide, ← sig_num cs num s, ← h6, length_toG cs num hM hW.ok hw, length_toG cs num hM hW.ok (splice_valid h5 hw)]
  have h8 := cs.length_simple_mul (S.toG (sig cs num) w) s
  rw [← sig_num cs num s, ← h6, length_toG cs num hM hW.ok hw, length_toG cs num hM hW.ok (splice_valid h5 hw)] at h8
  omega

end

end Verif.Weyl
