import Verif.Datum.Acc2
/-
Making weights and coweights dominant: the loops.
-/
namespace Verif.Datum
open Verif Verif.Mat Verif.Root Verif.Coxeter CoxeterSystem
open scoped Matrix

section
variable {r : Nat} {ι : Type}

theorem coact_eq {ro co : ι → Fin r → ℤ} (w : List ι) : ∀ v, coact ro co v w = act co ro w.reverse v := by
  induction w with
  | nil => intro v; rfl
  | cons s w ih => intro v; rw [coact, ih, List.reverse_cons, act_append]; rfl

variable {P : Finset ℕ} {g : ι → ℕ} {ro co : ℕ → Fin r → ℤ}

theorem Sys.isFactor (h : Sys P g ro co) {v v' : Fin r → ℤ} {w : List ι} (h1 : ∀ i, 0 ≤ v' ⬝ᵥ co (g i)) (h2 : actS g ro co w v' = v) (h3 : w.length = negs P co v) :
    IsFactor (fun i => ro (g i)) (fun i => co (g i)) v w v' where
  dominant := h1
  factor := h2
  unique := fun w' hw' => by
    rw [← h2, ← act_append] at hw' ⊢
    exact h.dom_unique h1 hw'
  shortest := fun w' hw' => by
    have := h.negs_word w' v
    rw [h.negs_eq_zero.2 hw'] at this
    omega

theorem IsFactor.cofactor {ro co : ι → Fin r → ℤ} {v v' : Fin r → ℤ} {w : List ι} (h : IsFactor co ro v w.reverse v') : IsCofactor ro co v w v' where
  dominant := h.dominant
  factor := by rw [coact_eq]; exact h.factor
  unique := fun w' hw' => by rw [coact_eq] at hw' ⊢; exact h.unique _ hw'
  shortest := fun w' hw' => by
    rw [coact_eq] at hw'
    have := h.shortest _ hw'
    simpa using this

end

theorem findNeg_ok {r : Nat} (nd : Bool) (v : Fin r → ℤ) : ∀ (m k : Nat) (c : Fin m → Fin r → ℤ),
    (RD.findNeg nd (List.ofFn v) (List.ofFn fun i => List.ofFn (c i)) k = .ok none ∧ ∀ i, 0 ≤ v ⬝ᵥ c i) ∨
    ∃ i : Fin m, RD.findNeg nd (List.ofFn v) (List.ofFn fun i => List.ofFn (c i)) k = .ok (some (k + i)) ∧ v ⬝ᵥ c i < 0 := by
  intro m
  induction m with
  | zero => intro k c; exact Or.inl ⟨by simp [RD.findNeg], fun i => i.elim0⟩
  | succ m ih =>
    intro k c
    rw [List.ofFn_succ]
    by_cases h : v ⬝ᵥ c 0 < 0
    · exact Or.inr ⟨0, by rw [RD.findNeg, C45_dot, Res.ok_bind, if_pos h]; rfl, h⟩
    · have e : RD.findNeg nd (List.ofFn v) (List.ofFn (c 0) :: List.ofFn fun i : Fin m => List.ofFn (c i.succ)) k =
          RD.findNeg nd (List.ofFn v) (List.ofFn fun i : Fin m => List.ofFn (c i.succ)) (k + 1) := by
        rw [RD.findNeg, C45_dot, Res.ok_bind, if_neg h]
      rw [e]
      rcases ih (k + 1) (fun i => c i.succ) with ⟨h1, h2⟩ | ⟨i, h1, h2⟩
      · refine Or.inl ⟨h1, fun i => ?_⟩
        refine Fin.cases ?_ (fun j => h2 j) i
        omega
      · refine Or.inr ⟨i.succ, ?_, h2⟩
        rw [h1]; congr 2; simp; omega

variable {n r : Nat} {α αv : Fin n → Fin r → ℤ} {nd pc : Bool} {comps : List Weyl.Comp} {N : Nat} {R R' : Nat → Fin n → ℤ} {rd : RD}

section
variable (H : Holds nd α αv comps pc N R R' rd) {m : Nat} {G : Fin m → ℕ} {P : Finset ℕ} {g : Fin m → ℕ} {ro co : ℕ → Fin r → ℤ}
  (hP : Sys P g ro co) (hG : ∀ i, G i < 2 * N) (hro : ∀ i, ro (g i) = lin α (R (G i))) (hco : ∀ i, co (g i) = lin αv (R' (G i)))
include H hP hG hro hco

theorem factorLoop_ok : ∀ (f : Nat) (v : Fin r → ℤ) (w0 : List Nat), negs P co v < f →
    ∃ (w : List (Fin m)) (v' : Fin r → ℤ), rd.factorLoop nd (List.ofFn G) (List.ofFn fun i => List.ofFn (lin αv (R' (G i)))) f (List.ofFn v) w0 =
      .ok (w0 ++ w.map Fin.val, List.ofFn v') ∧ (∀ i, 0 ≤ v' ⬝ᵥ co (g i)) ∧ actS g ro co w v' = v ∧
      w.length = negs P co v := by
  intro f
  induction f with
  | zero => intro v w0 h; omega
  | succ f ih =>
    intro v w0 h
    rcases findNeg_ok nd v m 0 (fun i => lin αv (R' (G i))) with ⟨h1, h2⟩ | ⟨i, h1, h2⟩
    · simp only [← hco] at h2
      refine ⟨[], v, by rw [RD.factorLoop, h1]; simp, h2, rfl, ?_⟩
      rw [hP.negs_eq_zero.2 h2]; rfl
    · rw [← hco] at h2
      have hd := hP.negs_down (i := i) (v := v) h2
      obtain ⟨w, v', e1, e2, e3, e4⟩ := ih (refl (ro (g i)) (co (g i)) v) (w0 ++ [i.1]) (by omega)
      refine ⟨i :: w, v', ?_, e2, ?_, by simp only [List.length_cons]; omega⟩
      · rw [RD.factorLoop, h1, Res.ok_bind]
        simp only [Nat.zero_add]
        rw [get_ofFn H, Res.ok_bind, reflect_ok H _ _ (hG i), Res.ok_bind, add_zero, ← hro, ← hco]
        refine Eq.trans e1 ?_
        rw [List.map_cons, List.append_assoc]
        rfl
      · simp only [act] at e3 ⊢
        rw [e3, refl_refl]
        exact hP.two _ (hP.mem i)

theorem cofactorLoop_ok : ∀ (f : Nat) (v : Fin r → ℤ) (w0 : List Nat), negs P ro v < f →
    ∃ (w : List (Fin m)) (v' : Fin r → ℤ), rd.cofactorLoop nd (List.ofFn G) (List.ofFn fun i => List.ofFn (lin α (R (G i)))) f (List.ofFn v) w0 =
      .ok (w.map Fin.val ++ w0, List.ofFn v') ∧ (∀ i, 0 ≤ v' ⬝ᵥ ro (g i)) ∧ actS g co ro w.reverse v' = v ∧
      w.length = negs P ro v := by
  intro f
  induction f with
  | zero => intro v w0 h; omega
  | succ f ih =>
    intro v w0 h
    rcases findNeg_ok nd v m 0 (fun i => lin α (R (G i))) with ⟨h1, h2⟩ | ⟨i, h1, h2⟩
    · simp only [← hro] at h2
      refine ⟨[], v, by rw [RD.cofactorLoop, h1]; simp, h2, rfl, ?_⟩
      rw [hP.swap.negs_eq_zero.2 h2]; rfl
    · rw [← hro] at h2
      have hd := hP.swap.negs_down (i := i) (v := v) h2
      obtain ⟨w, v', e1, e2, e3, e4⟩ := ih (refl (co (g i)) (ro (g i)) v) (i.1 :: w0) (by omega)
      refine ⟨w ++ [i], v', ?_, e2, ?_, by rw [List.length_append, e4]; simp only [List.length_cons, List.length_nil]; omega⟩
      · rw [RD.cofactorLoop, h1, Res.ok_bind]
        simp only [Nat.zero_add]
        rw [get_ofFn H, Res.ok_bind, coreflect_ok H _ _ (hG i), Res.ok_bind, add_zero, ← hro, ← hco]
        rw [List.map_append, List.append_assoc]
        exact e1
      · rw [List.reverse_append, act_append, e3]
        simp only [List.reverse_cons, List.reverse_nil, List.nil_append, act]
        rw [refl_refl]
        exact hP.swap.two _ (hP.mem i)

end

/-- the vectors `a i`, `c i` are the simple ones of a system with at most `N` positive roots -/
def HasSys {ι : Type} (a c : ι → Fin r → ℤ) (N : ℕ) : Prop :=
  ∃ (P : Finset ℕ) (g : ι → ℕ) (ro co : ℕ → Fin r → ℤ), Sys P g ro co ∧ (∀ i, ro (g i) = a i) ∧ (∀ i, co (g i) = c i) ∧ P.card ≤ N

theorem ofFn_list {m : Nat} (f : Fin m → List Int) : List.ofFn f = vk m fun i => if h : i < m then f ⟨i, h⟩ else [] := by
  rw [vk_ofFn]; congr 1; funext i; simp

theorem ofFn_nat {m : Nat} (f : Fin m → Nat) : List.ofFn f = vk m fun i => if h : i < m then f ⟨i, h⟩ else 0 := by
  rw [vk_ofFn]; congr 1; funext i; simp

theorem negs_le_card {r : Nat} (P : Finset ℕ) (co : ℕ → Fin r → ℤ) (v : Fin r → ℤ) : negs P co v ≤ P.card := Finset.card_filter_le _ _

section
variable (H : Holds nd α αv comps pc N R R' rd)
include H

open Classical in
omit H in
theorem sub_card {S : Nat → Prop} : ((Finset.range (2 * N)).filter fun k => N ≤ k ∧ S k).card ≤ N := by
  have h1 : ((Finset.range (2 * N)).filter fun k => N ≤ k ∧ S k) ⊆ (Finset.range N).map (addLeftEmbedding N) := by
    intro k hk
    simp only [Finset.mem_filter, Finset.mem_range] at hk
    simp only [Finset.mem_map, Finset.mem_range, addLeftEmbedding_apply]
    exact ⟨k - N, by omega, by omega⟩
  have := Finset.card_le_card h1
  rwa [Finset.card_map, Finset.card_range] at this

open Classical in
theorem list_sys {S : Nat → Prop} (hS : Spec.Subsystem (cart α αv) N R R' S) {G : List Nat} (hG : ∀ a, a ∈ G ↔ Spec.IsSimpleIn N R S a) :
    HasSys (fun i : Fin G.length => lin α (R G[i])) (fun i : Fin G.length => lin αv (R' G[i])) N := by
  have := H.sys.cartan.finite
  refine ⟨(Finset.range (2 * N)).filter fun k => N ≤ k ∧ S k, fun i : Fin G.length => G[i], fun k => lin α (R k), fun k => lin αv (R' k),
    sub_sys (Weyl.coxMatrix (cart α αv)).toCoxeterSystem H.sys.cartan.isCartan H.sys.numbering hS (fun a => ?_), fun i => rfl, fun i => rfl, sub_card⟩
  rw [← hG, List.mem_iff_get]
  rfl

/-- the roots for a list of roots whose pairings are a Cartan matrix are roots -/
theorem list_root {m : Nat} {G : Fin m → Nat} (hG : ∀ i, G i < 2 * N) {x y : Fin m → ℤ} (h : Spec.IsRoot (cart (fun i => lin α (R (G i))) (fun i => lin αv (R' (G i)))) x y) :
    ∃ k < 2 * N, lin (fun i => lin α (R (G i))) x = lin α (R k) ∧ lin (fun i => lin αv (R' (G i))) y = lin αv (R' k) := by
  induction h with
  | simple s => exact ⟨G s, hG s, by rw [lin_unit], by rw [lin_unit]⟩
  | reflect s h ih =>
    obtain ⟨k, hk, e1, e2⟩ := ih
    rename_i x y
    obtain ⟨l, hl, -, h1, h2⟩ := H.sys.answers.reflected (G s) (hG s) k hk
    refine ⟨l, hl, ?_, ?_⟩
    · have h3 := lin_refl (α := fun i => lin α (R (G i))) (αv := fun i => lin αv (R' (G i))) x (Spec.unit s) (Spec.unit s)
      rw [lin_unit, lin_unit, e1] at h3
      rw [show R l = R k - form (cart α αv) (R k) (R' (G s)) • R (G s) from funext h1, lin_refl]
      exact h3
    · have h3 := lin_corefl (α := fun i => lin α (R (G i))) (αv := fun i => lin αv (R' (G i))) (Spec.unit s) (Spec.unit s) y
      rw [lin_unit, lin_unit, e2] at h3
      rw [show R' l = R' k - form (cart α αv) (R (G s)) (R' k) • R' (G s) from funext h2, lin_corefl]
      exact h3

theorem cartan_sys {m : Nat} {G : Fin m → Nat} (hG : ∀ i, G i < 2 * N) {comps' : List Weyl.Comp}
    (hC : Spec.Cartan (cart (fun i => lin α (R (G i))) (fun i => lin αv (R' (G i)))) comps') :
    HasSys (fun i => lin α (R (G i))) (fun i => lin αv (R' (G i))) N := by
  obtain ⟨rd', N', Q, Q', -, H'⟩ := make_ok false false hC
  refine ⟨_, _, _, _, full_sys H'.sys, fun i => (simple_lin H'.sys i).1, fun i => (simple_lin H'.sys i).2, ?_⟩
  rw [Finset.card_map, Finset.card_range]
  have hk : ∀ k : Fin (2 * N'), ∃ l : Fin (2 * N), lin (fun i => lin α (R (G i))) (Q k) = lin α (R l) := fun k => by
    obtain ⟨l, hl, e, -⟩ := list_root H hG (H'.sys.numbering.root k k.2)
    exact ⟨⟨l, hl⟩, e⟩
  choose f hf using hk
  have := Fintype.card_le_of_injective f fun k l e => Fin.ext (all_inj H'.sys k.2 l.2 (Or.inl (by rw [hf, hf, e])))
  rw [Fintype.card_fin, Fintype.card_fin] at this
  omega

section
variable {G : List Nat} (hg : ∀ i : Fin G.length, G[i] < 2 * N)
  (hS : HasSys (fun i : Fin G.length => lin α (R G[i])) (fun i : Fin G.length => lin αv (R' G[i])) N)
include hg hS

theorem factorDominantG_ok (v : Fin r → ℤ) : ∃ (w : List (Fin G.length)) (v' : Fin r → ℤ), rd.factorDominantG nd G (List.ofFn v) = .ok (w.map Fin.val, List.ofFn v') ∧
    IsFactor (fun i : Fin G.length => lin α (R G[i])) (fun i : Fin G.length => lin αv (R' G[i])) v w v' := by
  obtain ⟨P, g, ro, co, hsys, hro, hco, hP⟩ := hS
  obtain ⟨w, v', h1, h2, h3, h4⟩ := factorLoop_ok H hsys hg hro hco (rd.rs.numPos + 1) v [] (by
    have h1 := negs_le_card P co v
    rw [H.sys.answers.numPos]; omega)
  refine ⟨w, v', ?_, ?_⟩
  · have e : List.ofFn (fun i : Fin G.length => G[i]) = G := List.ofFn_getElem
    have htab : tab G.length (fun i => do rd.coroot nd (← Vec.get G i)) = .ok (List.ofFn fun i : Fin G.length => List.ofFn (lin αv (R' G[i]))) := by
      rw [ofFn_list (fun i : Fin G.length => List.ofFn (lin αv (R' G[i])))]
      refine tab_ok _ fun i hi => ?_
      rw [dif_pos hi, Vec.get_ok hi, Res.ok_bind]
      exact coroot_ok H (hg ⟨i, hi⟩)
    rw [e] at h1
    rw [RD.factorDominantG, htab, Res.ok_bind, h1, List.nil_append]
  · have := hsys.isFactor h2 h3 h4
    rwa [funext hro, funext hco] at this

theorem factorCodominantG_ok (v : Fin r → ℤ) : ∃ (w : List (Fin G.length)) (v' : Fin r → ℤ), rd.factorCodominantG nd G (List.ofFn v) = .ok (w.map Fin.val, List.ofFn v') ∧
    IsCofactor (fun i : Fin G.length => lin α (R G[i])) (fun i : Fin G.length => lin αv (R' G[i])) v w v' := by
  obtain ⟨P, g, ro, co, hsys, hro, hco, hP⟩ := hS
  obtain ⟨w, v', h1, h2, h3, h4⟩ := cofactorLoop_ok H hsys hg hro hco (rd.rs.numPos + 1) v [] (by
    have h1 := negs_le_card P ro v
    rw [H.sys.answers.numPos]; omega)
  refine ⟨w, v', ?_, ?_⟩
  · have e : List.ofFn (fun i : Fin G.length => G[i]) = G := List.ofFn_getElem
    have htab : tab G.length (fun i => do rd.root nd (← Vec.get G i)) = .ok (List.ofFn fun i : Fin G.length => List.ofFn (lin α (R G[i]))) := by
      rw [ofFn_list (fun i : Fin G.length => List.ofFn (lin α (R G[i])))]
      refine tab_ok _ fun i hi => ?_
      rw [dif_pos hi, Vec.get_ok hi, Res.ok_bind]
      exact root_ok H (hg ⟨i, hi⟩)
    rw [e] at h1
    rw [RD.factorCodominantG, htab, Res.ok_bind, h1, List.append_nil]
  · have := IsFactor.cofactor (hsys.swap.isFactor h2 h3 (by rw [List.length_reverse]; exact h4))
    rwa [funext hro, funext hco] at this

end

theorem simple_funs : (fun i : Fin n => lin α (R (N + i.1))) = α ∧ (fun i : Fin n => lin αv (R' (N + i.1))) = αv :=
  ⟨funext fun i => (simple_lin H.sys i).1, funext fun i => (simple_lin H.sys i).2⟩

theorem tabs_ok : tab rd.ssRank (fun i => rd.rs.simpleNbr nd i) = .ok (List.ofFn fun i : Fin n => N + i.1) ∧
    tab rd.ssRank (fun i => rd.simpleCoroot nd i) = .ok (List.ofFn fun i : Fin n => List.ofFn (lin αv (R' (N + i.1)))) ∧
    tab rd.ssRank (fun i => rd.simpleRoot nd i) = .ok (List.ofFn fun i : Fin n => List.ofFn (lin α (R (N + i.1)))) := by
  rw [show rd.ssRank = n from H.sys.answers.rank]
  refine ⟨?_, ?_, ?_⟩
  · rw [ofFn_nat fun i : Fin n => N + i.1]
    exact tab_ok _ fun i hi => by rw [dif_pos hi]; exact H.sys.answers.simpleNbr ⟨i, hi⟩
  · rw [ofFn_list fun i : Fin n => List.ofFn (lin αv (R' (N + i.1)))]
    exact tab_ok _ fun i hi => by rw [dif_pos hi, (simple_lin H.sys ⟨i, hi⟩).2]; exact simpleCoroot_ok H ⟨i, hi⟩
  · rw [ofFn_list fun i : Fin n => List.ofFn (lin α (R (N + i.1)))]
    exact tab_ok _ fun i hi => by rw [dif_pos hi, (simple_lin H.sys ⟨i, hi⟩).1]; exact simpleRoot_ok H ⟨i, hi⟩

theorem factorDominant_ok (v : Fin r → ℤ) : ∃ (w : List (Fin n)) (v' : Fin r → ℤ), rd.factorDominant nd (List.ofFn v) = .ok (w.map Fin.val, List.ofFn v') ∧
    IsFactor α αv v w v' := by
  have hsys := full_sys H.sys
  obtain ⟨w, v', h1, h2, h3, h4⟩ := factorLoop_ok H hsys (simple_lt H) (fun _ => rfl) (fun _ => rfl) (rd.rs.numPos + 1) v [] (by
    have h1 := negs_le_card ((Finset.range N).map (addLeftEmbedding N)) (fun k => lin αv (R' k)) v
    rw [Finset.card_map, Finset.card_range] at h1
    rw [H.sys.answers.numPos]; omega)
  refine ⟨w, v', ?_, ?_⟩
  · rw [RD.factorDominant, (tabs_ok H).1, Res.ok_bind, (tabs_ok H).2.1, Res.ok_bind, h1, List.nil_append]
  · have := hsys.isFactor h2 h3 h4
    rwa [(simple_funs H).1, (simple_funs H).2] at this

theorem factorCodominant_ok (v : Fin r → ℤ) : ∃ (w : List (Fin n)) (v' : Fin r → ℤ), rd.factorCodominant nd (List.ofFn v) = .ok (w.map Fin.val, List.ofFn v') ∧
    IsCofactor α αv v w v' := by
  have hsys := full_sys H.sys
  obtain ⟨w, v', h1, h2, h3, h4⟩ := cofactorLoop_ok H hsys (simple_lt H) (fun _ => rfl) (fun _ => rfl) (rd.rs.numPos + 1) v [] (by
    have h1 := negs_le_card ((Finset.range N).map (addLeftEmbedding N)) (fun k => lin α (R k)) v
    rw [Finset.card_map, Finset.card_range] at h1
    rw [H.sys.answers.numPos]; omega)
  refine ⟨w, v', ?_, ?_⟩
  · rw [RD.factorCodominant, (tabs_ok H).1, Res.ok_bind, (tabs_ok H).2.2, Res.ok_bind, h1, List.append_nil]
  · have := IsFactor.cofactor (hsys.swap.isFactor h2 h3 (by rw [List.length_reverse]; exact h4))
    rwa [(simple_funs H).1, (simple_funs H).2] at this

theorem two_simple (i : Fin n) : α i ⬝ᵥ αv i = 2 := by
  have := (full_sys H.sys).two (N + i.1) ((full_sys H.sys).mem i)
  rwa [(simple_lin H.sys i).1, (simple_lin H.sys i).2] at this

/-- a word that sends the image of `2ρ` by a word to a dominant weight is inverse to that word -/
theorem inverse_of_rho {w u : List (Fin n)} (hw : ∀ i, 0 ≤ act α αv w (act α αv u (∑ k ∈ Finset.range N, lin α (R (N + k)))) ⬝ᵥ αv i) (v : Fin r → ℤ) :
    act α αv w (act α αv u v) = v := by
  have hsys := full_sys H.sys
  have h1 := hsys.dom_regular (v := ∑ k ∈ Finset.range N, lin α (R (N + k))) (fun i => by
    have := (rho_two H.sys i).1
    rw [(simple_lin H.sys i).2, this]; norm_num) (w := w ++ u) (fun i => by
      rw [(simple_funs H).1, (simple_funs H).2, act_append]
      have := hw i
      rwa [← (simple_lin H.sys i).2] at this) v
  rwa [(simple_funs H).1, (simple_funs H).2, act_append] at h1

theorem wordOfInverse_ok {q : Matrix (Fin r) (Fin r) ℤ} {u : List (Fin n)} (hq : ∀ v, q *ᵥ v = act α αv u v) :
    ∃ w : List (Fin n), rd.wordOfInverse nd (enc q) = .ok (w.map Fin.val) ∧ (∀ v, act α αv w (q *ᵥ v) = v) ∧
      ∀ w', (∀ v, act α αv w' (q *ᵥ v) = v) → w.length ≤ w'.length := by
  obtain ⟨w, v', h1, h2⟩ := factorDominant_ok H (q *ᵥ ∑ k ∈ Finset.range N, lin α (R (N + k)))
  have h3 : act α αv w.reverse (q *ᵥ ∑ k ∈ Finset.range N, lin α (R (N + k))) = v' := by
    rw [← h2.factor, act_reverse (two_simple H)]
  refine ⟨w.reverse, ?_, fun v => ?_, fun w' hw' => ?_⟩
  · rw [RD.wordOfInverse, H.twoRho, C45_apply, Res.ok_bind, RD.toDominant, h1, Res.ok_bind, List.map_reverse]
  · rw [hq]
    refine inverse_of_rho H (fun i => ?_) v
    rw [← hq, h3]
    exact h2.dominant i
  · rw [List.length_reverse]
    refine h2.shortest w' fun i => ?_
    rw [hw', (rho_two H.sys i).1]; norm_num

/-- reflections are given by words -/
theorem refl_word {x y : Fin n → ℤ} (h : Spec.IsRoot (cart α αv) x y) : ∃ u : List (Fin n), ∀ v, act α αv u v = refl (lin α x) (lin αv y) v := by
  induction h with
  | simple s => exact ⟨[s], fun v => by rw [lin_unit, lin_unit]; rfl⟩
  | reflect s h ih =>
    obtain ⟨u, hu⟩ := ih
    refine ⟨[s] ++ u ++ [s], fun v => ?_⟩
    rw [act_append, act_append, hu]
    rename_i x y
    have e1 : lin α (fun i => x i - Spec.pair (cart α αv) x (Spec.unit s) * Spec.unit s i) = refl (α s) (αv s) (lin α x) := by
      have := lin_refl (α := α) (αv := αv) x (Spec.unit s) (Spec.unit s)
      rw [lin_unit, lin_unit] at this
      exact this
    have e2 : lin αv (fun i => y i - Spec.pair (cart α αv) (Spec.unit s) y * Spec.unit s i) = refl (αv s) (α s) (lin αv y) := by
      have := lin_corefl (α := α) (αv := αv) (Spec.unit s) (Spec.unit s) y
      rw [lin_unit, lin_unit] at this
      exact this
    rw [e1, e2]
    have := refl_conj (a := α s) (c := αv s) (b := lin α x) (d := lin αv y) (two_simple H s) v
    show refl (α s) (αv s) (refl (lin α x) (lin αv y) (refl (α s) (αv s) v)) = _
    rw [← this, refl_refl (two_simple H s)]

theorem reflectionWord_ok {k : Nat} (hk : k < 2 * N) :
    ∃ w : List (Fin n), rd.reflectionWord nd k = .ok (w.map Fin.val) ∧ (∀ v, act α αv w v = refl (lin α (R k)) (lin αv (R' k)) v) ∧
      ∀ w', (∀ v, act α αv w' v = refl (lin α (R k)) (lin αv (R' k)) v) → w.length ≤ w'.length := by
  obtain ⟨u, hu⟩ := refl_word H (H.sys.numbering.root k hk)
  have htwo : lin α (R k) ⬝ᵥ lin αv (R' k) = 2 := by
    have := H.sys.cartan.finite
    obtain ⟨t, ht⟩ := H.sys.numbering.isRoot (Weyl.coxMatrix (cart α αv)).toCoxeterSystem H.sys.cartan.isCartan hk
    rw [pair_lin, ht.form_self]
  set rho := ∑ k ∈ Finset.range N, lin α (R (N + k)) with hrho
  obtain ⟨w, v', h1, h2⟩ := factorDominant_ok H (act α αv u rho)
  have h3 : act α αv w.reverse (act α αv u rho) = v' := by rw [← h2.factor, act_reverse (two_simple H)]
  have h4 : ∀ v, act α αv w.reverse (act α αv u v) = v := inverse_of_rho H (fun i => by rw [← hrho, h3]; exact h2.dominant i)
  refine ⟨w.reverse, ?_, fun v => ?_, fun w' hw' => ?_⟩
  · rw [RD.reflectionWord, H.twoRho, reflect_ok H _ _ hk, Res.ok_bind, add_zero, RD.toDominant]
    rw [hu] at h1
    rw [show (∑ k ∈ Finset.range N, lin α (R (N + k))) - ((∑ k ∈ Finset.range N, lin α (R (N + k))) ⬝ᵥ lin αv (R' k)) • lin α (R k) = refl (lin α (R k)) (lin αv (R' k)) rho from rfl]
    rw [h1, Res.ok_bind, List.map_reverse]
  · have := h4 (refl (lin α (R k)) (lin αv (R' k)) v)
    rwa [hu, refl_refl htwo] at this
  · rw [List.length_reverse]
    refine h2.shortest w' fun i => ?_
    rw [hw', hu, refl_refl htwo, (rho_two H.sys i).1]; norm_num

end

end Verif.Datum
