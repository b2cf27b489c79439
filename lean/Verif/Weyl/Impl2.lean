import Verif.Weyl.Impl
/-
Commutation, translation by diagram maps, and actions.
-/
namespace Verif.Weyl
open Verif

section
variable {W : WG} {S : Sys} {num : Fin S.n ≃ Fin S.n} (hW : WGood W S num) {Mx : CoxeterMatrix (Fin S.n)} {G : Type} [Group G]
  (cs : CoxeterSystem Mx G) (hM : ∀ s t : Fin S.n, S.cox (num s) (num t) = Mx s t)
include hW cs hM

theorem cox_of_comm {i j : Nat} (hi : i < j) (hj : j < S.n) (h : sig cs num i * sig cs num j = sig cs num j * sig cs num i) : S.cox j i = 2 := by
  have hS := hW.ok
  have hin : i < S.n := by omega
  by_contra hc
  have ho : S.off j = S.off i := by
    by_contra hne
    rw [Sys.cox, if_neg (by omega), if_neg hne] at hc
    exact hc rfl
  have h1 := hS.off_le i hin
  have h2 := hS.le_top j hj
  have hg := hS.good j hj
  have h3 : S.cox j i = S.M (S.off j) (j - S.off j) (i - S.off j) := by rw [Sys.cox, if_neg (by omega), if_pos ho]
  have h4 := hW.two_le j hj i hin (by omega)
  rw [h3] at hc h4
  have h5 := (not_congr (ent_one hg (a := i - S.off j) (by omega) h4)).2 hc
  push Not at h5
  have hn := hg.two_le
  have hne := (hg.inv 1 (by omega) (i - S.off j) (by omega) h5).1
  have hsz : S.size i = S.size j := ((hS.eq_comp hin hj ho.symm).2)
  have e1 : nf cs num hM hS (sig cs num j * sig cs num i) j = (S.T j).ent 1 (i - S.off j) := by
    rw [nf_mul_sig cs num hM hS _ hin, nf_sig cs num hM hS hj, Sys.R, hsz, ← ho,
      tact_zero (hS.comp_good hj) (r := j - S.off j + 1) (by unfold Sys.size; omega) (Nat.le_refl _) (by omega), tact,
      show S.off j + (j - S.off j) = j by omega, Function.update_self, if_pos h5, Function.update_self]
    intro k hk _
    rw [Function.update_of_ne (by omega)]
  have e2 : nf cs num hM hS (sig cs num i * sig cs num j) j = 1 := by
    rw [nf_mul_sig cs num hM hS _ hj, nf_sig cs num hM hS hin, Sys.R,
      tact_zero (hS.comp_good hj) (r := j - S.off j + 1) (by unfold Sys.size; omega) (Nat.le_refl _) (by omega), tact,
      show S.off j + (j - S.off j) = j by omega, Function.update_of_ne (by omega), hg.row0r, if_pos (by omega), Function.update_self]
    intro k hk _
    rw [Function.update_of_ne (by omega)]
  rw [h, e1] at e2
  exact hne e2

theorem rep_commutes (nd : Bool) (s t : Fin S.n) :
    ∃ b, W.commutes nd s t = .ok b ∧ (b = true ↔ cs.simple s * cs.simple t = cs.simple t * cs.simple s) := by
  by_cases hst : s = t
  · subst hst
    exact ⟨true, by rw [WG.commutes, if_pos rfl]; rfl, by simp⟩
  · refine ⟨decide (S.cox (num s) (num t) = 2), ?_, ?_⟩
    · rw [WG.commutes, if_neg fun e => hst (Fin.ext e), get_of_some (hW.din s), Res.ok_bind, get_of_some (hW.din t), Res.ok_bind]
      exact innerCommutes_ok hW.ok hW.two_le hW.tr hW.upper nd (num s).2 (num t).2 fun e => hst (num.injective (Fin.ext e))
    · rw [decide_eq_true_iff, ← sig_num cs num s, ← sig_num cs num t]
      refine ⟨fun h => sig_comm cs num hM (num s).2 (num t).2 h, fun h => ?_⟩
      have hne : (num s : Nat) ≠ num t := fun e => hst (num.injective (Fin.ext e))
      have hsym : S.cox (num s) (num t) = S.cox (num t) (num s) := by rw [hM, hM, Mx.symmetric]
      rcases Nat.lt_or_gt_of_ne hne with hlt | hlt
      · rw [hsym]
        exact cox_of_comm hW cs hM hlt (num t).2 h
      · exact cox_of_comm hW cs hM hlt (num s).2 h.symm

end

/-! ### translation -/

section
variable {W : WG} {S : Sys} {num : Fin S.n ≃ Fin S.n} (hW : WGood W S num) {Mx : CoxeterMatrix (Fin S.n)} {G : Type} [Group G]
  (cs : CoxeterSystem Mx G) (hM : ∀ s t : Fin S.n, S.cox (num s) (num t) = Mx s t)
include hW

/-- a map of generators in internal numbering -/
def tr (num : Fin S.n ≃ Fin S.n) (f : Fin S.n → Fin S.n) (i : Nat) : Nat := if h : i < S.n then (num (f (num.symm ⟨i, h⟩)) : Nat) else 0

omit hW in
theorem tr_lt (f : Fin S.n → Fin S.n) {i : Nat} (hi : i < S.n) : tr num f i < S.n := by
  rw [tr, dif_pos hi]
  exact Fin.is_lt _

theorem innerF_ok {f : Fin S.n → Fin S.n} {l : List Nat} (hl : ∀ s : Fin S.n, l[s.1]? = some (f s).1) :
    ∃ v, W.innerF l = .ok v ∧ ∀ i < S.n, v[i]? = some (tr num f i) := by
  have key : ∀ m j, j + m = S.n → ∀ v : List Nat, v.length = rankMax → (∀ i < j, v[i]? = some (tr num f i)) →
      ∃ v', W.innerLoop l ((List.range S.n).drop j) v = .ok v' ∧ ∀ i < S.n, v'[i]? = some (tr num f i) := by
    intro m
    induction m with
    | zero =>
      intro j hj v _ hv
      rw [List.drop_of_length_le (by simp; omega)]
      exact ⟨v, rfl, fun i hi => hv i (by omega)⟩
    | succ m ih =>
      intro j hj v hlen hv
      have h4 := hW.n_le
      obtain ⟨v', h1, h2, h3, h5⟩ := put_some (v := v) (i := j) (by omega) (tr num f j)
      obtain ⟨v'', h6, h7⟩ := ih (j + 1) (by omega) v' (by omega) (by
        intro i hi
        by_cases hij : i = j
        · rw [hij, h3]
        · rw [h5 i hij, hv i (by omega)])
      refine ⟨v'', ?_, h7⟩
      have hjn : j < S.n := by omega
      rw [List.drop_eq_getElem_cons (by simp; omega), WG.innerLoop, List.getElem_range, get_of_some (hW.dout ⟨j, hjn⟩), Res.ok_bind,
        get_of_some (hl _), Res.ok_bind, get_of_some (hW.din _), Res.ok_bind]
      have e : tr num f j = (num (f (num.symm ⟨j, hjn⟩)) : Nat) := dif_pos hjn
      rw [← e, h1, Res.ok_bind, h6]
  rw [WG.innerF, hW.rank]
  exact key S.n 0 (by omega) _ (by simp) fun i hi => by omega

theorem translateAll_ok (nd : Bool) {f : Fin S.n → Fin S.n} {v : List Nat} (hv : ∀ i < S.n, v[i]? = some (tr num f i)) {o : Nat} {l : List Nat}
    (hl : ∀ s ∈ l, o + s < S.n) {w : Nat → Nat} (hw : S.Valid w) :
    W.translateAll nd v o l (toL w) = .ok (toL (S.run (l.map fun s => tr num f (o + s)) w)) := by
  induction l generalizing w with
  | nil => rfl
  | cons s l ih =>
    have hs := hl s List.mem_cons_self
    have ht := tr_lt (num := num) f hs
    rw [WG.translateAll, Nat.add_comm s, get_of_some (hv _ hs), Res.ok_bind, innerMult_ok hW nd ht hw, Res.ok_bind]
    exact ih (fun s hs => hl s (List.mem_cons_of_mem _ hs)) (hW.ok.R_valid ht hw)

theorem translateLoop_ok (nd : Bool) {f : Fin S.n → Fin S.n} {v : List Nat} (hv : ∀ i < S.n, v[i]? = some (tr num f i)) {w : Nat → Nat}
    (hw : S.Valid w) {u : Nat → Nat} (hu : S.Valid u) : ∀ m j, j + m = S.n →
    W.translateLoop nd v (toL w) ((List.range S.n).drop j) (toL (S.run ((S.preWord j w).map (tr num f)) u)) =
      .ok (toL (S.run ((S.word w).map (tr num f)) u)) := by
  have hS := hW.ok
  intro m
  induction m with
  | zero =>
    intro j hj
    rw [List.drop_of_length_le (by simp; omega), Sys.word, show j = S.n by omega]
    rfl
  | succ m ih =>
    intro j hj
    have h4 := hW.n_le
    have hjn : j < S.n := by omega
    have hx := hw.1 j hjn
    have hg := hS.good j hjn
    have h1 := hS.off_le j hjn
    have hvr : S.Valid (S.run ((S.preWord j w).map (tr num f)) u) := by
      apply hS.run_valid _ hu
      intro i hi
      obtain ⟨a, ha, rfl⟩ := List.mem_map.1 hi
      exact tr_lt f (hS.preWord_lt (by omega) hw a ha)
    rw [List.drop_eq_getElem_cons (by simp; omega), WG.translateLoop, List.getElem_range, get_toL w (by omega), Res.ok_bind,
      get_of_some (hW.tr j hjn), Res.ok_bind, letters_ok hg nd hx, Res.ok_bind,
      translateAll_ok hW nd hv (fun s hs => by have := pword_lt hg hx s hs; show S.off j + s < S.n; omega) hvr, Res.ok_bind]
    have := ih (j + 1) (by omega)
    rw [Sys.preWord, List.map_append, Sys.run_append, List.map_map] at this
    exact this

theorem reverseLoop_ok (nd : Bool) {f : Fin S.n → Fin S.n} {v : List Nat} (hv : ∀ i < S.n, v[i]? = some (tr num f i)) {w : Nat → Nat}
    (hw : S.Valid w) {k : Nat} (hk : k ≤ S.n) {u : Nat → Nat} (hu : S.Valid u) :
    W.reverseLoop nd v (toL w) (List.range k).reverse (toL u) = .ok (toL (S.run ((S.preWord k w).reverse.map (tr num f)) u)) := by
  have hS := hW.ok
  induction k generalizing u with
  | zero => rfl
  | succ k ih =>
    have hx := hw.1 k (by omega)
    have hg := hS.good k (by omega)
    have h4 := hW.n_le
    have h1 := hS.off_le k (by omega)
    have hsmall := hg.small
    rw [List.range_succ, List.reverse_append, List.reverse_cons, List.reverse_nil, List.nil_append, List.cons_append, List.nil_append,
      WG.reverseLoop, get_toL w (by omega), Res.ok_bind, get_of_some (hW.tr k (by omega)), Res.ok_bind,
      unwind_ok hg nd _ hx (by omega)]
    have := foldRev_ok (f := fun x s => do pure (← W.innerMult nd x (← Vec.get v (s + S.off k))).1)
      (g := fun x s => S.R (tr num f (S.off k + s)) x)
      (φ := toL) (P := S.Valid) (l := (pword (S.T k) (w k)).reverse) (fun b s hs hb => by
        have hlt := pword_lt hg hx s (List.mem_reverse.1 hs)
        have ht := tr_lt (num := num) f (i := S.off k + s) (by omega)
        rw [Nat.add_comm s, get_of_some (hv _ (by omega)), Res.ok_bind, innerMult_ok hW nd ht hb]
        exact ⟨rfl, hS.R_valid ht hb⟩) hu
    rw [this.1, Res.ok_bind, ih (by omega) this.2, Sys.preWord, List.reverse_append, List.map_append, Sys.run_append, ← List.map_reverse,
      List.map_map]
    congr 3
    rw [Sys.run, List.foldl_map]
    rfl

include cs hM

omit hW in
theorem wprod_reverse {l : List Nat} (hl : ∀ i ∈ l, i < S.n) : wprod (sig cs num) l.reverse = (wprod (sig cs num) l)⁻¹ := by
  induction l with
  | nil => simp [wprod]
  | cons i l ih =>
    rw [List.reverse_cons, wprod_append, wprod_single, wprod_cons, mul_inv_rev, ih fun j hj => hl j (List.mem_cons_of_mem _ hj),
      inv_eq_of_mul_eq_one_left (sig_sq cs num hM (hl i List.mem_cons_self))]

omit hW hM in
theorem wprod_tr {f : Fin S.n → Fin S.n} {θ : G →* G} (hθ : ∀ s, θ (cs.simple s) = cs.simple (f s)) {l : List Nat} (hl : ∀ i ∈ l, i < S.n) :
    wprod (sig cs num) (l.map (tr num f)) = θ (wprod (sig cs num) l) := by
  induction l with
  | nil => simp [wprod]
  | cons i l ih =>
    have hi := hl i List.mem_cons_self
    rw [List.map_cons, wprod_cons, wprod_cons, map_mul, ih fun j hj => hl j (List.mem_cons_of_mem _ hj), sig_lt cs num hi, hθ]
    congr 1
    rw [tr, dif_pos hi, sig_num]

theorem rep_translation (nd : Bool) (f : Fin S.n → Fin S.n) (θ : G →* G) (hθ : ∀ s, θ (cs.simple s) = cs.simple (f s)) (l : List Nat)
    (hl : ∀ s : Fin S.n, l[s.1]? = some (f s).1) (g : G) : W.translation nd (rep hW cs hM g) l = .ok (rep hW cs hM (θ g)) ∧
      W.reverseTranslation nd (rep hW cs hM g) l = .ok (rep hW cs hM (θ g⁻¹)) := by
  obtain ⟨v, h1, h2⟩ := innerF_ok hW hl
  have hv := nf_valid cs num hM hW.ok g
  have hlt : ∀ j ∈ S.word (nf cs num hM hW.ok g), j < S.n := hW.ok.preWord_lt (Nat.le_refl _) hv
  have hlt' : ∀ j ∈ (S.word (nf cs num hM hW.ok g)).reverse, j < S.n := fun j hj => hlt j (List.mem_reverse.1 hj)
  have hm : ∀ m : List Nat, (∀ i ∈ m, i < S.n) → ∀ i ∈ m.map (tr num f), i < S.n := by
    intro m hm i hi
    obtain ⟨a, ha, rfl⟩ := List.mem_map.1 hi
    exact tr_lt f (hm a ha)
  have hrun : ∀ m : List Nat, (∀ i ∈ m, i < S.n) →
      S.run (m.map (tr num f)) (fun _ => 0) = nf cs num hM hW.ok (θ (wprod (sig cs num) m)) := by
    intro m hm'
    have := nf_mul_word cs num hM hW.ok 1 (hm m hm')
    rw [one_mul, nf_one] at this
    rw [← this, wprod_tr cs hθ hm']
  constructor
  · rw [WG.translation, h1, Res.ok_bind, hW.rank, toL_zero]
    have := translateLoop_ok hW nd h2 hv hW.ok.zero_valid S.n 0 (by omega)
    rw [show S.run ((S.preWord 0 (nf cs num hM hW.ok g)).map (tr num f)) (fun _ => 0) = fun _ => 0 from rfl, List.drop_zero] at this
    rw [rep, rep, this, hrun _ hlt, S.wprod_word, toG_nf' hW cs hM]
  · rw [WG.reverseTranslation, h1, Res.ok_bind, hW.rank, toL_zero, rep, rep, reverseLoop_ok hW nd h2 hv (Nat.le_refl _) hW.ok.zero_valid]
    have := hrun _ hlt'
    rw [wprod_reverse cs hM hlt, S.wprod_word, toG_nf' hW cs hM] at this
    rw [← this]
    rfl

/-! ### actions -/

theorem rep_act (nd : Bool) {α : Type} [MulAction G α] {f : Nat → α → Res α} (hf : ∀ (s : Fin S.n) a, f s a = .ok (cs.simple s • a)) (g : G)
    (a : α) : W.act nd f (rep hW cs hM g) a = .ok (g • a) := by
  have hS := hW.ok
  have hw := nf_valid cs num hM hW.ok g
  have h4 := hW.n_le
  have hstep : ∀ i < S.n, ∀ a : α, (do f (← Vec.get W.dout i) a) = .ok (sig cs num i • a) := by
    intro i hi a
    rw [get_of_some (hW.dout ⟨i, hi⟩), Res.ok_bind, hf, sig_lt cs num hi]
  have key : ∀ k ≤ S.n, ∀ a : α, W.actLoop nd f (rep hW cs hM g) (List.range k).reverse a =
      .ok (wprod (sig cs num) (S.preWord k (nf cs num hM hW.ok g)) • a) := by
    intro k
    induction k with
    | zero => intro _ a; simp [WG.actLoop, Sys.preWord, wprod]
    | succ k ih =>
      intro hk a
      have hx := hw.1 k (by omega)
      have hg := hS.good k (by omega)
      have h1 := hS.off_le k (by omega)
      have hsmall := hg.small
      have hfold : ∀ (l : List Nat), (∀ s ∈ l, S.off k + s < S.n) → ∀ a : α,
          foldRev (fun a s => do f (← Vec.get W.dout (s + S.off k)) a) l a = .ok (wprod (sig cs num) (l.reverse.map (S.off k + ·)) • a) := by
        intro l
        induction l with
        | nil => intro _ a; simp [foldRev, wprod]
        | cons s l ihl =>
          intro hl a
          rw [foldRev, Nat.add_comm s, hstep _ (hl s List.mem_cons_self), Res.ok_bind, ihl fun s hs => hl s (List.mem_cons_of_mem _ hs),
            List.reverse_cons, List.map_append, wprod_append, List.map_singleton, wprod_single, mul_smul]
      rw [List.range_succ, List.reverse_append, List.reverse_cons, List.reverse_nil, List.nil_append, List.cons_append, List.nil_append,
        WG.actLoop, rep, get_toL _ (by omega), Res.ok_bind, get_of_some (hW.tr k (by omega)), Res.ok_bind, unwind_ok hg nd _ hx (by omega),
        hfold _ (fun s hs => by have := pword_lt hg hx s (List.mem_reverse.1 hs); omega), Res.ok_bind, List.reverse_reverse]
      have := ih (by omega) (wprod (sig cs num) ((pword (S.T k) (nf cs num hM hW.ok g k)).map (S.off k + ·)) • a)
      rw [rep] at this
      rw [this, Sys.preWord, wprod_append, mul_smul]
  rw [WG.act, hW.rank, key _ (Nat.le_refl _)]
  have : wprod (sig cs num) (S.preWord S.n (nf cs num hM hW.ok g)) = g := by
    rw [Sys.wprod_preWord]
    exact toG_nf' hW cs hM g
  rw [this]

theorem rep_coAct (nd : Bool) {α : Type} [MulAction G α] {f : Nat → α → Res α} (hf : ∀ (s : Fin S.n) a, f s a = .ok (cs.simple s • a)) (g : G)
    (a : α) : W.coAct nd f (rep hW cs hM g) a = .ok (g⁻¹ • a) := by
  have hS := hW.ok
  have hw := nf_valid cs num hM hW.ok g
  have h4 := hW.n_le
  have hstep : ∀ i < S.n, ∀ a : α, (do f (← Vec.get W.dout i) a) = .ok (sig cs num i • a) := by
    intro i hi a
    rw [get_of_some (hW.dout ⟨i, hi⟩), Res.ok_bind, hf, sig_lt cs num hi]
  have hall : ∀ (o : Nat) (l : List Nat), (∀ s ∈ l, o + s < S.n) → ∀ a : α,
      W.coActAll f o l a = .ok (wprod (sig cs num) ((l.map (o + ·)).reverse) • a) := by
    intro o l
    induction l with
    | nil => intro _ a; simp [WG.coActAll, wprod]
    | cons s l ih =>
      intro hl a
      have e := hstep _ (hl s List.mem_cons_self) a
      have e2 : W.coActAll f o (s :: l) a = ((do f (← Vec.get W.dout (o + s)) a : Res α) >>= fun a => W.coActAll f o l a) := by
        rw [WG.coActAll, Nat.add_comm s]
        cases Vec.get W.dout (o + s) <;> rfl
      rw [e2, e, Res.ok_bind, ih fun s hs => hl s (List.mem_cons_of_mem _ hs), List.map_cons, List.reverse_cons, wprod_append, wprod_single, mul_smul]
  have key : ∀ m j, j + m = S.n → W.coActLoop nd f (rep hW cs hM g) ((List.range S.n).drop j)
      (wprod (sig cs num) (S.preWord j (nf cs num hM hW.ok g)).reverse • a) =
      .ok (wprod (sig cs num) (S.word (nf cs num hM hW.ok g)).reverse • a) := by
    intro m
    induction m with
    | zero =>
      intro j hj
      rw [List.drop_of_length_le (by simp; omega), Sys.word, show j = S.n by omega]
      rfl
    | succ m ih =>
      intro j hj
      have hjn : j < S.n := by omega
      have hx := hw.1 j hjn
      have hg := hS.good j hjn
      have h1 := hS.off_le j hjn
      have := ih (j + 1) (by omega)
      rw [Sys.preWord, List.reverse_append, wprod_append, mul_smul] at this
      rw [List.drop_eq_getElem_cons (by simp; omega), WG.coActLoop, List.getElem_range, rep, get_toL _ (by omega), Res.ok_bind,
        get_of_some (hW.tr j hjn), Res.ok_bind, letters_ok hg nd hx, Res.ok_bind,
        hall _ _ (fun s hs => by have := pword_lt hg hx s hs; show S.off j + s < S.n; omega), Res.ok_bind]
      exact this
  have := key S.n 0 (by omega)
  rw [show S.preWord 0 (nf cs num hM hW.ok g) = [] from rfl, List.reverse_nil, wprod_nil, one_smul, List.drop_zero] at this
  rw [WG.coAct, hW.rank, this]
  have : wprod (sig cs num) (S.word (nf cs num hM hW.ok g)).reverse = g⁻¹ := by
    have hlt : ∀ j ∈ S.word (nf cs num hM hW.ok g), j < S.n := hW.ok.preWord_lt (Nat.le_refl _) hw
    rw [wprod_reverse cs hM hlt, S.wprod_word, toG_nf' hW cs hM]
  rw [this]

end

end Verif.Weyl
