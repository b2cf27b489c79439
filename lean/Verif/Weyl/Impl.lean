import Verif.Weyl.Left
import Verif.Weyl.Construct
import Verif.Weyl.Iface
import Verif.Coxeter.Exchange
/-
The functions of `WeylGroup` in terms of the Coxeter group.
-/
namespace Verif.Weyl
open Verif

section
variable {W : WG} {S : Sys} {num : Fin S.n ≃ Fin S.n} (hW : WGood W S num) {Mx : CoxeterMatrix (Fin S.n)} {G : Type} [Group G]
  (cs : CoxeterSystem Mx G) (hM : ∀ s t : Fin S.n, S.cox (num s) (num t) = Mx s t)
include hW cs hM

/-- the representation of an element -/
noncomputable def rep (g : G) : List Nat := toL (nf cs num hM hW.ok g)

theorem rep_inj : Function.Injective (rep hW cs hM) := by
  intro g h e
  have e2 := congrArg fn e
  unfold rep at e2
  rw [fn_toL (hW.valid_zero (nf_valid cs num hM hW.ok g)), fn_toL (hW.valid_zero (nf_valid cs num hM hW.ok h))] at e2
  rw [← toG_nf cs num hM hW.ok g, e2, toG_nf]

theorem rep_bytes (g : G) : (rep hW cs hM g).length = 32 ∧ ∀ x ∈ rep hW cs hM g, x < 256 := by
  refine ⟨toL_length _, fun x hx => ?_⟩
  obtain ⟨i, -, rfl⟩ := List.mem_map.1 hx
  have hv := nf_valid cs num hM hW.ok g
  by_cases hi : i < S.n
  · have := hv.1 i hi
    have := (hW.ok.good i hi).small
    omega
  · rw [hv.2 i (by omega)]
    omega

theorem rep_one : rep hW cs hM 1 = WG.one := by rw [rep, nf_one, toL_zero]

theorem rep_of {w : Nat → Nat} (hw : S.Valid w) : toL w = rep hW cs hM (S.toG (sig cs num) w) := by rw [rep, nf_toG cs num hM hW.ok hw]

theorem length_nf (g : G) : S.len (nf cs num hM hW.ok g) = cs.length g := by
  rw [← length_toG cs num hM hW.ok (nf_valid cs num hM hW.ok g), toG_nf]

theorem toG_nf' (g : G) : S.toG (sig cs num) (nf cs num hM hW.ok g) = g := toG_nf cs num hM hW.ok g

omit hW hM in
theorem wordProd_sig (l : List (Fin S.n)) : cs.wordProd l = wprod (sig cs num) (l.map fun s => (num s : Nat)) := by
  rw [wprod, List.map_map, CoxeterSystem.wordProd]
  congr 2
  funext s
  exact (sig_num cs num s).symm

omit hW cs hM in
theorem num_lt (l : List (Fin S.n)) : ∀ i ∈ l.map fun s => (num s : Nat), i < S.n := by
  intro i hi
  obtain ⟨s, -, rfl⟩ := List.mem_map.1 hi
  exact (num s).2

theorem rep_generator (s : Fin S.n) : W.generator s = .ok (rep hW cs hM (cs.simple s)) := by
  rw [WG.generator, get_of_some (hW.din s), Res.ok_bind, innerGen_ok hW (num s).2, rep, ← sig_num cs num s, nf_sig cs num hM hW.ok (num s).2]

theorem rep_mult (nd : Bool) (g h : G) : W.mult nd (rep hW cs hM g) (rep hW cs hM h) = .ok (rep hW cs hM (g * h)) := by
  have hv := nf_valid cs num hM hW.ok h
  have hl : ∀ j ∈ S.word (nf cs num hM hW.ok h), j < S.n := hW.ok.preWord_lt (Nat.le_refl _) hv
  rw [rep, rep, rep, mult_ok hW nd (nf_valid cs num hM hW.ok g) hv, ← nf_mul_word cs num hM hW.ok g hl, S.wprod_word, toG_nf' hW cs hM]

theorem rep_multGen (nd : Bool) (g : G) (s : Fin S.n) :
    W.multGen nd (rep hW cs hM g) s = .ok (rep hW cs hM (g * cs.simple s), (cs.length (g * cs.simple s) : Int) - cs.length g) := by
  rw [rep, multGen_ok hW nd s (nf_valid cs num hM hW.ok g), rep, nf_mul, ← length_nf hW cs hM, ← length_nf hW cs hM, nf_mul,
    (hW.ok.len_R (num s).2 (nf_valid cs num hM hW.ok g)).1, add_sub_cancel_left]

theorem rep_multWord (nd : Bool) (g : G) (l : List (Fin S.n)) :
    W.multWord nd (rep hW cs hM g) (l.map Fin.val) = .ok (rep hW cs hM (g * cs.wordProd l)) := by
  rw [rep, multWord_ok hW nd l (nf_valid cs num hM hW.ok g), rep, wordProd_sig cs (num := num), nf_mul_word cs num hM hW.ok g (num_lt l)]

theorem rep_leftMultiplyGen (nd : Bool) (g : G) (s : Fin S.n) :
    W.leftMultiplyGen nd (rep hW cs hM g) s = .ok (rep hW cs hM (cs.simple s * g), (cs.length (cs.simple s * g) : Int) - cs.length g) := by
  obtain ⟨w, h1, h2, h3⟩ := leftMultiplyGen_ok hW cs hM nd s (nf_valid cs num hM hW.ok g)
  rw [toG_nf' hW cs hM] at h3
  rw [rep, h1, rep_of hW cs hM h2, h3, ← length_toG cs num hM hW.ok h2, h3, length_nf hW cs hM]

theorem rep_leftMultiplyWord (nd : Bool) (g : G) (l : List (Fin S.n)) :
    W.leftMultiplyWord nd (rep hW cs hM g) (l.map Fin.val) = .ok (rep hW cs hM (cs.wordProd l * g)) := by
  have key : ∀ (l : List (Fin S.n)) (g : G),
      W.leftMultiplyRev nd (rep hW cs hM g) (l.map Fin.val) = .ok (rep hW cs hM (cs.wordProd l.reverse * g)) := by
    intro l
    induction l with
    | nil => intro g; simp [WG.leftMultiplyRev]
    | cons s l ih =>
      intro g
      rw [List.map_cons, WG.leftMultiplyRev, rep_leftMultiplyGen, Res.ok_bind]
      simp only
      rw [ih, List.reverse_cons, cs.wordProd_append, cs.wordProd_singleton, mul_assoc]
  rw [WG.leftMultiplyWord, ← List.map_reverse, key, List.reverse_reverse]

theorem rep_inverse (nd : Bool) (g : G) : W.inverse nd (rep hW cs hM g) = .ok (rep hW cs hM g⁻¹) := by
  have hv := nf_valid cs num hM hW.ok g
  have hl : ∀ j ∈ S.word (nf cs num hM hW.ok g), j < S.n := hW.ok.preWord_lt (Nat.le_refl _) hv
  rw [rep, inverse_ok hW nd hv, rep]
  have h1 := nf_mul_word cs num hM hW.ok 1 (l := (S.word (nf cs num hM hW.ok g)).reverse) (fun i hi => hl i (List.mem_reverse.1 hi))
  rw [one_mul, nf_one] at h1
  rw [← h1]
  congr 3
  have h2 : ∀ l : List Nat, (∀ i ∈ l, i < S.n) → wprod (sig cs num) l.reverse = (wprod (sig cs num) l)⁻¹ := by
    intro l
    induction l with
    | nil => intro _; simp [wprod]
    | cons i l ih =>
      intro hl
      rw [List.reverse_cons, wprod_append, wprod_single, wprod_cons, mul_inv_rev, ih fun j hj => hl j (List.mem_cons_of_mem _ hj),
        inv_eq_of_mul_eq_one_left (sig_sq cs num hM (hl i List.mem_cons_self))]
  rw [h2 _ hl, S.wprod_word, toG_nf' hW cs hM]

theorem rep_length (g : G) : W.length (rep hW cs hM g) = .ok (cs.length g) := by
  rw [rep, length_ok hW (nf_valid cs num hM hW.ok g), length_nf hW cs hM]

theorem rep_conjugate (nd : Bool) (g : G) (s : Fin S.n) :
    W.conjugate nd (rep hW cs hM g) s = .ok (rep hW cs hM (cs.simple s * g * cs.simple s)) := by
  rw [WG.conjugate, rep_leftMultiplyGen, Res.ok_bind]
  simp only
  rw [rep_multGen, Res.ok_bind]
  rfl

theorem rep_hasDescent (nd : Bool) (g : G) (s : Fin S.n) :
    W.hasDescent nd s (rep hW cs hM g) = .ok (decide (cs.length (cs.simple s * g) < cs.length g)) := by
  rw [rep, hasDescent_ok hW cs hM nd s (nf_valid cs num hM hW.ok g)]
  congr 1
  rw [decide_eq_decide, toG_nf' hW cs hM]

theorem rep_lengthChangeLeft (nd : Bool) (g : G) (s : Fin S.n) :
    W.lengthChangeLeft nd s (rep hW cs hM g) = .ok ((cs.length (cs.simple s * g) : Int) - cs.length g) := by
  rw [WG.lengthChangeLeft, rep_hasDescent, Res.ok_bind]
  have := cs.length_simple_mul g s
  by_cases h : cs.length (cs.simple s * g) < cs.length g
  · rw [decide_eq_true h, if_pos rfl, Res.pure_eq]
    congr 1
    omega
  · rw [decide_eq_false h, if_neg (by simp), Res.pure_eq]
    congr 1
    omega

theorem rep_word (nd : Bool) (g : G) :
    ∃ l : List (Fin S.n), W.word nd (rep hW cs hM g) = .ok (l.map Fin.val) ∧ cs.wordProd l = g ∧ l.length = cs.length g ∧
      l.map (fun s => (num s : Nat)) = S.word (nf cs num hM hW.ok g) := by
  have hv := nf_valid cs num hM hW.ok g
  have hl : ∀ j ∈ S.word (nf cs num hM hW.ok g), j < S.n := hW.ok.preWord_lt (Nat.le_refl _) hv
  obtain ⟨l, h1, h2, h3⟩ := wprod_eq_wordProd cs num hl
  refine ⟨l, ?_, ?_, ?_, h2⟩
  · rw [rep, word_ok hW nd hv, ← h2, List.map_map]
    congr 1
    apply List.map_congr_left
    intro s _
    show ext num (num s) = s
    rw [ext, dif_pos (num s).2]
    simp
  · rw [h3, S.wprod_word]
    exact toG_nf' hW cs hM g
  · rw [h1, Sys.word, hW.ok.preWord_length (Nat.le_refl _) hv]
    exact length_nf hW cs hM g

end

section
variable {M : Nat → Nat → Nat} {r : Nat} {T : Transducer} (hg : T.Good M r)
include hg

/-- the word of a state other than the first begins with the last generator -/
theorem pword_head {x : Nat} (hx : x < T.n) (h0 : 0 < x) : ∃ l, pword T x = r :: l := by
  induction x using Nat.strongRecOn with
  | _ x ih =>
    obtain ⟨h1, h2⟩ := hg.right_le x hx h0
    rw [pword_pos hg hx h0]
    by_cases hc : T.ent x (T.right x) = 0
    · have h3 := (hg.inv x hx _ h1 (by omega)).2
      rw [hc] at h3
      have hr : T.right x = r := by
        by_contra hne
        rw [hg.row0 _ (by omega)] at h3
        omega
      exact ⟨[], by rw [hc, pword_zero, hr]; rfl⟩
    · obtain ⟨l, hl⟩ := ih _ h2 (by omega) (by omega)
      exact ⟨l ++ [T.right x], by rw [hl]; rfl⟩

end

section
variable {W : WG} {S : Sys} {num : Fin S.n ≃ Fin S.n} (hW : WGood W S num) {Mx : CoxeterMatrix (Fin S.n)} {G : Type} [Group G]
  (cs : CoxeterSystem Mx G) (hM : ∀ s t : Fin S.n, S.cox (num s) (num t) = Mx s t)
include hW

theorem leftDescentLoop_ok {w : Nat → Nat} : ∀ m j, j + m = S.n → (∀ i < j, w i = 0) →
    (W.leftDescentLoop (toL w) ((List.range S.n).drop j) = .ok undef ∧ ∀ i < S.n, w i = 0) ∨
    ∃ i, i < S.n ∧ W.leftDescentLoop (toL w) ((List.range S.n).drop j) = .ok (ext num i) ∧ w i ≠ 0 ∧ ∀ k < i, w k = 0 := by
  have hn := hW.n_le
  intro m
  induction m with
  | zero =>
    intro j hj h0
    refine .inl ⟨?_, fun i hi => h0 i (by omega)⟩
    rw [List.drop_of_length_le (by simp; omega)]
    rfl
  | succ m ih =>
    intro j hj h0
    rw [List.drop_eq_getElem_cons (by simp; omega), List.getElem_range, WG.leftDescentLoop, get_toL w (by omega), Res.ok_bind]
    by_cases hc : w j > 0
    · rw [if_pos hc, dout_ok hW (by omega)]
      exact .inr ⟨j, by omega, rfl, by omega, h0⟩
    · rw [if_neg hc]
      refine ih (j + 1) (by omega) fun i hi => ?_
      by_cases hij : i = j
      · subst hij; omega
      · exact h0 i (by omega)

theorem rep_leftDescent_one : W.leftDescent (rep hW cs hM 1) = .ok undef := by
  rw [rep, nf_one, WG.leftDescent, hW.rank]
  rcases leftDescentLoop_ok hW (w := fun _ => 0) S.n 0 (by omega) (by omega) with h | ⟨i, -, -, h, -⟩
  · exact h.1
  · exact absurd rfl h

theorem preWord_head {w : Nat → Nat} (hw : S.Valid w) {i : Nat} (hi : i < S.n) (h1 : w i ≠ 0) (h2 : ∀ k < i, w k = 0) :
    ∃ l, S.word w = i :: l := by
  have h0 : ∀ k ≤ i, S.preWord k w = [] := by
    intro k hk
    induction k with
    | zero => rfl
    | succ k ih => rw [Sys.preWord, ih (by omega), h2 k (by omega), pword_zero]; rfl
  have key : ∀ m, i + 1 + m ≤ S.n → ∃ l, S.preWord (i + 1 + m) w = i :: l := by
    intro m
    induction m with
    | zero =>
      intro _
      obtain ⟨l, hl⟩ := pword_head (hW.ok.good i hi) (hw.1 i hi) (by omega)
      refine ⟨l.map (S.off i + ·), ?_⟩
      have := hW.ok.off_le i hi
      rw [Nat.add_zero, Sys.preWord, h0 i (Nat.le_refl _), hl, List.map_cons, show S.off i + (i - S.off i) = i by omega]
      rfl
    | succ m ih =>
      intro hm
      obtain ⟨l, hl⟩ := ih (by omega)
      exact ⟨_, by rw [← Nat.add_assoc, Sys.preWord, hl]; rfl⟩
  obtain ⟨l, hl⟩ := key (S.n - (i + 1)) (by omega)
  rw [show i + 1 + (S.n - (i + 1)) = S.n by omega] at hl
  exact ⟨l, hl⟩

theorem rep_leftDescent (g : G) (hg : g ≠ 1) :
    ∃ s : Fin S.n, W.leftDescent (rep hW cs hM g) = .ok s.1 ∧ cs.length (cs.simple s * g) < cs.length g := by
  have hv := nf_valid cs num hM hW.ok g
  rw [rep, WG.leftDescent, hW.rank]
  rcases leftDescentLoop_ok hW (w := nf cs num hM hW.ok g) S.n 0 (by omega) (by omega) with h | ⟨i, hi, h1, h2, h3⟩
  · exfalso
    apply hg
    rw [← toG_nf' hW cs hM g]
    have : nf cs num hM hW.ok g = fun _ => 0 := by
      funext i
      by_cases hi : i < S.n
      · exact h.2 i hi
      · exact hv.2 i (by omega)
    rw [this, Sys.toG_zero]
  · obtain ⟨l, h4, h5, h6, h7⟩ := rep_word hW cs hM true g
    obtain ⟨l', h8⟩ := preWord_head hW hv hi h2 h3
    rw [h8] at h7
    cases l with
    | nil => simp at h7
    | cons s l =>
      rw [List.map_cons, List.cons.injEq] at h7
      refine ⟨s, ?_, ?_⟩
      · rw [List.drop_zero] at h1
        rw [h1, ← h7.1, ext, dif_pos (num s).2]
        simp
      · rw [← h6, ← h5, cs.wordProd_cons, ← mul_assoc, cs.simple_mul_simple_self, one_mul, List.length_cons]
        have := cs.length_wordProd_le l
        omega

/-! ### the longest element -/

theorem longestLoop_ok (w : Nat → Nat) : ∀ m j, j + m = S.n →
    W.longestLoop ((List.range S.n).drop j) (toL w) = .ok (toL fun i => if j ≤ i ∧ i < S.n then (S.T i).n - 1 else w i) := by
  have hn := hW.n_le
  intro m
  induction m generalizing w with
  | zero =>
    intro j hj
    rw [List.drop_of_length_le (by simp; omega), WG.longestLoop]
    congr 2
    funext i
    rw [if_neg (by omega)]
  | succ m ih =>
    intro j hj
    rw [List.drop_eq_getElem_cons (by simp; omega), List.getElem_range, WG.longestLoop, get_of_some (hW.tr j (by omega)), Res.ok_bind,
      put_toL w (by omega), Res.ok_bind, ih _ (j + 1) (by omega)]
    congr 2
    funext i
    by_cases hij : i = j
    · subst hij
      rw [if_neg (by omega), if_pos (by omega), Function.update_self]
    · rw [Function.update_of_ne hij]
      by_cases hc : j ≤ i ∧ i < S.n
      · rw [if_pos hc, if_pos (by omega)]
      · rw [if_neg hc, if_neg (by omega)]

/-- all pieces maximal -/
def Sys.top0 (S : Sys) : Nat → Nat := fun i => if i < S.n then (S.T i).n - 1 else 0

theorem top0_valid : S.Valid S.top0 := by
  refine ⟨fun i hi => ?_, fun i hi => ?_⟩
  · have := (hW.ok.good i hi).two_le
    rw [Sys.top0, if_pos hi]
    omega
  · rw [Sys.top0, if_neg (by omega)]

theorem preLen_le_top {w : Nat → Nat} (hw : S.Valid w) : ∀ k ≤ S.n, S.preLen k w ≤ S.preLen k S.top0 := by
  intro k hk
  induction k with
  | zero => exact Nat.le_refl _
  | succ k ih =>
    rw [Sys.preLen, Sys.preLen]
    have hg := hW.ok.good k (by omega)
    have h2 := hg.two_le
    have h3 := hw.1 k (by omega)
    have := len_le hg (x := w k) (y := S.top0 k) (by rw [Sys.top0, if_pos (by omega)]; omega) (by rw [Sys.top0, if_pos (by omega)]; omega)
    have := ih (by omega)
    omega

/-- the longest element -/
noncomputable def Sys.w0 (S : Sys) {Mx : CoxeterMatrix (Fin S.n)} {G : Type} [Group G] (cs : CoxeterSystem Mx G) (num : Fin S.n ≃ Fin S.n) : G :=
  S.toG (sig cs num) S.top0

include hM in
theorem w0_max (g : G) : cs.length g ≤ cs.length (S.w0 cs num) := by
  rw [Sys.w0, length_toG cs num hM hW.ok (top0_valid hW), ← length_nf hW cs hM]
  exact preLen_le_top hW (nf_valid cs num hM hW.ok g) S.n (Nat.le_refl _)

theorem rep_longest : W.longest = .ok (rep hW cs hM (S.w0 cs num)) := by
  rw [WG.longest, hW.rank, toL_zero]
  have := longestLoop_ok hW (fun _ => 0) S.n 0 (by omega)
  rw [List.drop_zero] at this
  rw [this, Sys.w0, ← rep_of hW cs hM (top0_valid hW)]
  congr 2
  funext i
  rw [Sys.top0]
  by_cases hi : i < S.n
  · rw [if_pos ⟨Nat.zero_le _, hi⟩, if_pos hi]
  · rw [if_neg (by omega), if_neg hi]

theorem maxLengthLoop_ok : ∀ m j, j + m = S.n → W.maxLengthLoop ((List.range S.n).drop j) (S.preLen j S.top0) = .ok (S.len S.top0) := by
  intro m
  induction m with
  | zero =>
    intro j hj
    rw [List.drop_of_length_le (by simp; omega), WG.maxLengthLoop, show j = S.n by omega]
    rfl
  | succ m ih =>
    intro j hj
    have h2 := (hW.ok.good j (by omega)).two_le
    have ht : S.top0 j = (S.T j).n - 1 := by rw [Sys.top0, if_pos (by omega)]
    have h3 : (S.T j).n - 1 < (S.T j).n := by omega
    rw [List.drop_eq_getElem_cons (by simp; omega), List.getElem_range, WG.maxLengthLoop, get_of_some (hW.tr j (by omega)), Res.ok_bind,
      Transducer.getLen, if_pos h3, Res.ok_bind, ← ih (j + 1) (by omega), Sys.preLen, ht]

include hM in
theorem rep_maxLength : W.maxLength = .ok (cs.length (S.w0 cs num)) := by
  rw [WG.maxLength, hW.rank, Sys.w0, length_toG cs num hM hW.ok (top0_valid hW)]
  exact maxLengthLoop_ok hW S.n 0 (by omega)

include hM in
theorem w0_unique {g : G} (hg : g ≠ S.w0 cs num) : cs.length g < cs.length (S.w0 cs num) := by
  have h1 := w0_max hW cs hM g
  by_contra hc
  exact hg (Coxeter.longest_unique cs (w0_max hW cs hM) (by omega))

theorem dualLoop_ok (nd : Bool) (t : Fin S.n) : ∀ m j, j + m = S.n → j ≤ t →
    (∀ i : Fin S.n, i.1 < j → cs.simple i ≠ cs.simple t) →
    ∃ u : Fin S.n, W.dualLoop nd (rep hW cs hM (cs.simple t)) ((List.range S.n).drop j) = .ok u.1 ∧ cs.simple u = cs.simple t := by
  intro m
  induction m with
  | zero =>
    intro j hj hjt
    have := t.2
    omega
  | succ m ih =>
    intro j hj hjt hne
    have hjn : j < S.n := by omega
    have hgen : W.generator j = .ok (rep hW cs hM (cs.simple ⟨j, hjn⟩)) := rep_generator hW cs hM ⟨j, hjn⟩
    rw [List.drop_eq_getElem_cons (by simp; omega), List.getElem_range, WG.dualLoop, hgen, Res.ok_bind]
    by_cases hc : cs.simple t = cs.simple ⟨j, hjn⟩
    · rw [if_pos (by rw [hc])]
      exact ⟨⟨j, hjn⟩, rfl, hc.symm⟩
    · rw [if_neg fun h => hc (rep_inj hW cs hM h)]
      have hjt' : j ≠ t := fun e => hc (by congr 1; exact Fin.ext e.symm)
      refine ih (j + 1) (by omega) (by omega) fun i hi => ?_
      by_cases hij : i.1 = j
      · have : i = ⟨j, hjn⟩ := Fin.ext hij
        rw [this]
        exact Ne.symm hc
      · exact hne i (by omega)

include hM in
theorem rep_chevalleyDual (nd : Bool) (s : Fin S.n) :
    ∃ t : Fin S.n, W.chevalleyDual nd s = .ok t.1 ∧ cs.simple t = S.w0 cs num * cs.simple s * (S.w0 cs num)⁻¹ := by
  obtain ⟨t, ht⟩ := Coxeter.conj_longest_simple cs (w0_max hW cs hM) s
  obtain ⟨u, h1, h2⟩ := dualLoop_ok hW cs hM nd t S.n 0 (by omega) (Nat.zero_le _) (by omega)
  refine ⟨u, ?_, by rw [h2, ← ht, Coxeter.longest_inv cs (w0_max hW cs hM)]⟩
  rw [WG.chevalleyDual, rep_longest hW cs hM, Res.ok_bind, rep_multGen, Res.ok_bind]
  simp only
  rw [rep_mult, Res.ok_bind, hW.rank, ht]
  exact h1

include hM in
theorem rep_chevalleyTwist (nd : Bool) :
    ∃ l, W.chevalleyTwist nd = .ok l ∧ l.length = 32 ∧ (∀ s, S.n ≤ s → s < 32 → l[s]? = some undef) ∧
      ∀ s : Fin S.n, ∃ t : Fin S.n, l[s.1]? = some t.1 ∧ cs.simple t = S.w0 cs num * cs.simple s * (S.w0 cs num)⁻¹ := by
  have key : ∀ m j, j + m = S.n → ∀ r : List Nat, r.length = 32 → (∀ s, S.n ≤ s → s < 32 → r[s]? = some undef) →
      (∀ s : Fin S.n, s.1 < j → ∃ t : Fin S.n, r[s.1]? = some t.1 ∧ cs.simple t = S.w0 cs num * cs.simple s * (S.w0 cs num)⁻¹) →
      ∃ l, W.twistLoop nd ((List.range S.n).drop j) r = .ok l ∧ l.length = 32 ∧ (∀ s, S.n ≤ s → s < 32 → l[s]? = some undef) ∧
      ∀ s : Fin S.n, ∃ t : Fin S.n, l[s.1]? = some t.1 ∧ cs.simple t = S.w0 cs num * cs.simple s * (S.w0 cs num)⁻¹ := by
    intro m
    induction m with
    | zero =>
      intro j hj r h1 h2 h3
      refine ⟨r, ?_, h1, h2, fun s => h3 s (by have := s.2; omega)⟩
      rw [List.drop_of_length_le (by simp; omega), WG.twistLoop]
    | succ m ih =>
      intro j hj r h1 h2 h3
      have hjn : j < S.n := by omega
      have hn : S.n ≤ 32 := hW.n_le
      obtain ⟨t, e1, e2⟩ := rep_chevalleyDual hW cs hM nd ⟨j, hjn⟩
      rw [List.drop_eq_getElem_cons (by simp; omega), List.getElem_range, WG.twistLoop]
      simp only at e1
      rw [e1, Res.ok_bind, Vec.put_ok (by omega) _, Res.ok_bind]
      refine ih (j + 1) (by omega) _ (by rw [List.length_set, h1]) (fun s hs1 hs2 => ?_) (fun s hs => ?_)
      · rw [List.getElem?_set_ne (by omega)]
        exact h2 s hs1 hs2
      · by_cases hsj : s.1 = j
        · have : s = ⟨j, hjn⟩ := Fin.ext hsj
          subst this
          exact ⟨t, by rw [List.getElem?_set_self (by omega)], e2⟩
        · rw [List.getElem?_set_ne (by omega)]
          exact h3 s (by omega)
  rw [WG.chevalleyTwist, hW.rank]
  have hn : S.n ≤ 32 := hW.n_le
  exact key S.n 0 (by omega) _ (by simp [rankMax]) (fun s hs1 hs2 => List.getElem?_replicate_of_lt hs2) (by omega)

end

end Verif.Weyl
