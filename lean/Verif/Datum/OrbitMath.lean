import Verif.Datum.Dom
import Mathlib.LinearAlgebra.Matrix.Nondegenerate
import Mathlib.LinearAlgebra.Matrix.ToLinearEquiv
/-
Simple roots are independent, subsets of the simple roots, and orbits (mathematics for C71).
-/
namespace Verif.Datum
open scoped Matrix

set_option linter.unusedSectionVars false

variable {r : Nat} {ι : Type} {P : Finset ℕ} {g : ι → ℕ} {ro co : ℕ → Fin r → ℤ}

theorem sum_pair (h : Sys P g ro co) (l : List ι) : (l.map fun i => ro (g i)).sum ⬝ᵥ (∑ b ∈ P, co b) = 2 * l.length := by
  induction l with
  | nil => simp
  | cons i l ih =>
    have := h.swap.rho i
    rw [List.map_cons, List.sum_cons, add_dotProduct, ih, dotProduct_comm, this]; push_cast [List.length_cons]; ring

theorem Sys.height (h : Sys P g ro co) {b : ℕ} (hb : b ∈ P) : 2 ≤ ro b ⬝ᵥ (∑ b ∈ P, co b) := by
  obtain ⟨l, hl⟩ := (h.pos b hb).1
  have h1 := sum_pair h l
  rw [← hl] at h1
  cases l with
  | nil =>
    have := h.two b hb
    rw [hl] at this; simp at this
  | cons i l => rw [h1]; push_cast [List.length_cons]; omega

theorem Sys.offdiag (h : Sys P g ro co) {i j : ι} (hij : g j ≠ g i) : ro (g j) ⬝ᵥ co (g i) ≤ 0 := by
  obtain ⟨c, hc, -, h1, -⟩ := h.perm i (g j) (h.mem j) hij
  have h2 := h.height hc
  have h3 := h.swap.rho i
  have h4 := h.swap.rho j
  rw [dotProduct_comm] at h3 h4
  rw [h1, refl_dot, h3, h4] at h2
  omega

/-- an invariant form -/
def invForm (P : Finset ℕ) (co : ℕ → Fin r → ℤ) (v w : Fin r → ℤ) : ℤ := ∑ b ∈ P, (v ⬝ᵥ co b) * (w ⬝ᵥ co b)

theorem Sys.inv (h : Sys P g ro co) (i : ι) (v w : Fin r → ℤ) :
    invForm P co (refl (ro (g i)) (co (g i)) v) (refl (ro (g i)) (co (g i)) w) = invForm P co v w := by
  obtain ⟨f, hf⟩ := h.invol i
  have hval : ∀ (u : Fin r → ℤ), ∀ b ∈ P, b ≠ g i → u ⬝ᵥ co (f b) = refl (ro (g i)) (co (g i)) u ⬝ᵥ co b := by
    intro u b hb hne
    rw [(hf b hb hne).2.2.2.1, dotProduct_comm, refl_dot, refl_dot, dotProduct_comm (co b) u, dotProduct_comm (co b), dotProduct_comm _ u]
    ring
  unfold invForm
  rw [← Finset.insert_erase (h.mem i), Finset.sum_insert (by simp), Finset.sum_insert (by simp), h.refl_self, h.refl_self]
  congr 1
  · ring
  · refine Finset.sum_nbij' f f ?_ ?_ ?_ ?_ ?_
    all_goals
      intro b hb
      rw [Finset.mem_erase] at hb
    · exact Finset.mem_erase.2 ⟨(hf b hb.2 hb.1).2.1, (hf b hb.2 hb.1).1⟩
    · exact Finset.mem_erase.2 ⟨(hf b hb.2 hb.1).2.1, (hf b hb.2 hb.1).1⟩
    · exact (hf b hb.2 hb.1).2.2.2.2
    · exact (hf b hb.2 hb.1).2.2.2.2
    · rw [hval _ b hb.2 hb.1, hval _ b hb.2 hb.1]

theorem invForm_sub (a b c : Fin r → ℤ) : invForm P co a (b - c) = invForm P co a b - invForm P co a c := by
  unfold invForm; rw [← Finset.sum_sub_distrib]; refine Finset.sum_congr rfl fun b _ => ?_; rw [sub_dotProduct]; ring

theorem invForm_smul (m : ℤ) (a b : Fin r → ℤ) : invForm P co a (m • b) = m * invForm P co a b := by
  unfold invForm; rw [Finset.mul_sum]; refine Finset.sum_congr rfl fun b _ => ?_; rw [smul_dotProduct, smul_eq_mul]; ring

theorem invForm_comm (a b : Fin r → ℤ) : invForm P co a b = invForm P co b a := by
  unfold invForm; exact Finset.sum_congr rfl fun _ _ => mul_comm _ _

theorem invForm_sum {κ : Type} (s : Finset κ) (x : κ → ℤ) (f : κ → Fin r → ℤ) (a : Fin r → ℤ) :
    invForm P co a (∑ i ∈ s, x i • f i) = ∑ i ∈ s, x i * invForm P co a (f i) := by
  classical
  induction s using Finset.induction_on with
  | empty => simp [invForm]
  | insert i s hi ih =>
    rw [Finset.sum_insert hi, Finset.sum_insert hi, ← ih, ← invForm_smul]
    unfold invForm; rw [← Finset.sum_add_distrib]
    refine Finset.sum_congr rfl fun b _ => ?_
    rw [add_dotProduct]; ring

theorem Sys.inv_simple (h : Sys P g ro co) (i : ι) (w : Fin r → ℤ) : 2 * invForm P co (ro (g i)) w = (w ⬝ᵥ co (g i)) * invForm P co (ro (g i)) (ro (g i)) := by
  have h1 := h.inv i (ro (g i)) w
  have h2 : refl (ro (g i)) (co (g i)) (ro (g i)) = (-1 : ℤ) • ro (g i) := by
    rw [refl, h.two _ (h.mem i)]; funext k; simp; ring
  rw [h2, invForm_comm, invForm_smul, invForm_comm, refl, invForm_sub, invForm_smul] at h1
  linarith

theorem Sys.inv_pos (h : Sys P g ro co) (i : ι) : 0 < invForm P co (ro (g i)) (ro (g i)) := by
  have h1 : (ro (g i) ⬝ᵥ co (g i)) * (ro (g i) ⬝ᵥ co (g i)) ≤ invForm P co (ro (g i)) (ro (g i)) :=
    Finset.single_le_sum (f := fun b => (ro (g i) ⬝ᵥ co b) * (ro (g i) ⬝ᵥ co b)) (fun b _ => mul_self_nonneg _) (h.mem i)
  rw [h.two _ (h.mem i)] at h1
  omega

/-- simple roots are independent, even modulo the weights orthogonal to the simple coroots -/
theorem Sys.nondeg [Fintype ι] (h : Sys P g ro co) (hg : Function.Injective g) (x : ι → ℤ) (hx : ∀ j, (∑ i, x i • ro (g i)) ⬝ᵥ co (g j) = 0) : x = 0 := by
  -- positive and negative parts
  have key : ∀ p q : ι → ℤ, (∀ i, 0 ≤ p i) → (∀ i, 0 ≤ q i) → (∀ i, p i * q i = 0) → (∀ j, (∑ i, (p i - q i) • ro (g i)) ⬝ᵥ co (g j) = 0) → p = 0 := by
    intro p q hp hq hpq hz
    set vp := ∑ i, p i • ro (g i) with hvp
    set vq := ∑ i, q i • ro (g i) with hvq
    have e : ∑ i, (p i - q i) • ro (g i) = vp - vq := by
      rw [hvp, hvq, ← Finset.sum_sub_distrib]
      exact Finset.sum_congr rfl fun i _ => sub_smul _ _ _
    rw [e] at hz
    have h0 : ∀ i, invForm P co (ro (g i)) (vp - vq) = 0 := fun i => by
      have := h.inv_simple i (vp - vq)
      rw [hz, zero_mul] at this
      omega
    have h1 : invForm P co vp (vp - vq) = 0 := by
      rw [invForm_comm, hvp, invForm_sum]
      refine Finset.sum_eq_zero fun i _ => ?_
      rw [invForm_comm, h0, mul_zero]
    have h2 : invForm P co vp vq ≤ 0 := by
      rw [hvq, invForm_sum]
      refine Finset.sum_nonpos fun j _ => ?_
      rw [invForm_comm, hvp, invForm_sum, Finset.mul_sum]
      refine Finset.sum_nonpos fun i _ => ?_
      by_cases hij : i = j
      · subst hij
        have := hpq i
        rw [← mul_assoc, mul_comm (q i), this, zero_mul]
      · have h3 := h.inv_simple j (ro (g i))
        have h4 := h.offdiag (i := j) (j := i) fun e => hij (hg e)
        have h5 := h.inv_pos j
        have h6 : invForm P co (ro (g j)) (ro (g i)) ≤ 0 := by nlinarith
        exact mul_nonpos_of_nonneg_of_nonpos (hq j) (mul_nonpos_of_nonneg_of_nonpos (hp i) h6)
    rw [invForm_sub] at h1
    have h3 : invForm P co vp vp = 0 := le_antisymm (by omega) (Finset.sum_nonneg fun b _ => mul_self_nonneg _)
    have h4 : ∀ b ∈ P, vp ⬝ᵥ co b = 0 := fun b hb => by
      have := (Finset.sum_eq_zero_iff_of_nonneg (s := P) (f := fun b => (vp ⬝ᵥ co b) * (vp ⬝ᵥ co b)) fun b _ => mul_self_nonneg _).1 h3 b hb
      exact mul_self_eq_zero.1 this
    have h5 : ∑ i, p i * 2 = 0 := by
      have h6 : vp ⬝ᵥ (∑ b ∈ P, co b) = 0 := by rw [dotProduct_sum]; exact Finset.sum_eq_zero h4
      rw [hvp, sum_dotProduct] at h6
      rw [← h6]
      refine Finset.sum_congr rfl fun i _ => ?_
      rw [smul_dotProduct, smul_eq_mul, dotProduct_comm, h.swap.rho i]
    funext i
    have h6 := (Finset.sum_eq_zero_iff_of_nonneg (s := Finset.univ) (f := fun i => p i * 2) fun i _ => by have := hp i; omega).1 h5 i (Finset.mem_univ _)
    simp only [Pi.zero_apply]; omega
  have hsub : ∀ i, x i = max (x i) 0 - max (-x i) 0 := fun i => by omega
  have hmul : ∀ i, max (x i) 0 * max (-x i) 0 = 0 := fun i => by
    rcases le_total (x i) 0 with h | h
    · rw [max_eq_right h, zero_mul]
    · rw [max_eq_right (a := -x i) (by omega), mul_zero]
  have h1 := key (fun i => max (x i) 0) (fun i => max (-x i) 0) (fun i => by simp) (fun i => by simp) hmul fun j => by
    simp only [← hsub]; exact hx j
  have h2 := key (fun i => max (-x i) 0) (fun i => max (x i) 0) (fun i => by simp) (fun i => by simp) (fun i => by rw [mul_comm]; exact hmul i) fun j => by
    have e : ∀ i, max (-x i) 0 - max (x i) 0 = -x i := fun i => by omega
    simp only [e, neg_smul, Finset.sum_neg_distrib, neg_dotProduct, hx j, neg_zero]
  funext i
  have h3 := congrFun h1 i
  have h4 := congrFun h2 i
  simp only [Pi.zero_apply] at h3 h4 ⊢
  omega

theorem Sys.indep [Fintype ι] (h : Sys P g ro co) (hg : Function.Injective g) (x : ι → ℤ) (hx : ∑ i, x i • ro (g i) = 0) : x = 0 :=
  h.nondeg hg x fun j => by rw [hx, zero_dotProduct]

/-- there are vectors that vanish on all simple coroots but one -/
theorem Sys.fundamental [Fintype ι] [DecidableEq ι] (h : Sys P g ro co) (hg : Function.Injective g) (i : ι) :
    ∃ e : Fin r → ℤ, (∀ j, j ≠ i → e ⬝ᵥ co (g j) = 0) ∧ e ⬝ᵥ co (g i) ≠ 0 := by
  let C : Matrix ι ι ℤ := Matrix.of fun i j => ro (g i) ⬝ᵥ co (g j)
  have hdet : C.det ≠ 0 := by
    intro hd
    obtain ⟨x, hx, hx'⟩ := Matrix.exists_vecMul_eq_zero_iff.2 hd
    refine hx (h.nondeg hg x fun j => ?_)
    have := congrFun hx' j
    rw [sum_dotProduct]
    simp only [Matrix.vecMul, dotProduct, Pi.zero_apply] at this
    rw [← this]
    refine Finset.sum_congr rfl fun i _ => ?_
    rw [smul_dotProduct]; rfl
  have hm : ∀ j, (∑ k, C.adjugate i k • ro (g k)) ⬝ᵥ co (g j) = (C.adjugate * C) i j := fun j => by
    rw [sum_dotProduct, Matrix.mul_apply]
    exact Finset.sum_congr rfl fun k _ => by rw [smul_dotProduct]; rfl
  refine ⟨∑ k, C.adjugate i k • ro (g k), fun j hj => ?_, ?_⟩
  · rw [hm, Matrix.adjugate_mul, Matrix.smul_apply, Matrix.one_apply_ne hj.symm, smul_zero]
  · rw [hm, Matrix.adjugate_mul, Matrix.smul_apply, Matrix.one_apply_eq, smul_eq_mul, mul_one]; exact hdet

theorem list_sum_count [Fintype ι] [DecidableEq ι] (f : ι → Fin r → ℤ) (l : List ι) : (l.map f).sum = ∑ i, (l.count i : ℤ) • f i := by
  induction l with
  | nil => simp
  | cons s l ih =>
    rw [List.map_cons, List.sum_cons, ih]
    have : ∀ i, ((s :: l).count i : ℤ) • f i = (if i = s then f i else 0) + (l.count i : ℤ) • f i := fun i => by
      rw [List.count_cons]
      by_cases h : i = s
      · subst h; simp [add_smul, add_comm]
      · have : (s == i) = false := by simpa using Ne.symm h
        simp [h, this]
    rw [Finset.sum_congr rfl fun i _ => this i, Finset.sum_add_distrib, Finset.sum_ite_eq']
    simp

theorem lift_list {J : ι → Prop} : ∀ {l : List ι}, (∀ i ∈ l, J i) → ∃ l' : List {i // J i}, l'.map Subtype.val = l
  | [], _ => ⟨[], rfl⟩
  | i :: l, h => by
    obtain ⟨l', h1⟩ := lift_list fun j hj => h j (List.mem_cons_of_mem _ hj)
    exact ⟨⟨i, h i (by simp)⟩ :: l', by simp [h1]⟩

theorem sub_letters [Fintype ι] (h : Sys P g ro co) (hg : Function.Injective g) {J : ι → Prop} {i : ι} (hi : J i) {l l2 : List ι} {m : ℤ} (hl : ∀ k ∈ l, J k)
    (e : (l2.map fun i => ro (g i)).sum = (l.map fun i => ro (g i)).sum - m • ro (g i)) : ∀ k ∈ l2, J k := by
  classical
  intro k hk
  by_contra hJ
  have h1 := h.indep hg (fun j => (l2.count j : ℤ) - (l.count j : ℤ) + if j = i then m else 0) (by
    have : ∀ j, ((l2.count j : ℤ) - (l.count j : ℤ) + if j = i then m else 0) • ro (g j) =
        (l2.count j : ℤ) • ro (g j) - (l.count j : ℤ) • ro (g j) + if j = i then m • ro (g j) else 0 := fun j => by
      rw [add_smul, sub_smul]; split <;> simp
    rw [Finset.sum_congr rfl fun j _ => this j, Finset.sum_add_distrib, Finset.sum_sub_distrib, Finset.sum_ite_eq', if_pos (Finset.mem_univ _), ← list_sum_count,
      ← list_sum_count, e]
    abel)
  have h2 := congrFun h1 k
  have hki : k ≠ i := fun e => hJ (e ▸ hi)
  have h3 : l.count k = 0 := List.count_eq_zero.2 fun hh => hJ (hl k hh)
  simp only [if_neg hki, h3, Pi.zero_apply] at h2
  have h4 : 0 < l2.count k := List.count_pos_iff.2 hk
  omega

/-- the system of a subset of the simple roots -/
theorem Sys.sub [Fintype ι] (h : Sys P g ro co) (hg : Function.Injective g) (J : ι → Prop) : ∃ P' ⊆ P, Sys P' (fun i : {i // J i} => g i) ro co := by
  classical
  have e : ∀ (f : ℕ → Fin r → ℤ) (l : List {i // J i}), (l.map fun i : {i // J i} => f (g i)).sum = ((l.map Subtype.val).map fun i => f (g i)).sum := fun f l => by
    rw [List.map_map]; rfl
  refine ⟨P.filter fun b => (∃ l : List {i // J i}, ro b = (l.map fun i : {i // J i} => ro (g i)).sum) ∧ ∃ l : List {i // J i}, co b = (l.map fun i : {i // J i} => co (g i)).sum,
    Finset.filter_subset _ _, fun i => ?_, fun b hb => h.two b (Finset.mem_of_mem_filter b hb), fun i b hb hne => ?_,
    fun b hb c hc => h.inj b (Finset.mem_of_mem_filter b hb) c (Finset.mem_of_mem_filter c hc), fun b hb => (Finset.mem_filter.1 hb).2⟩
  · exact Finset.mem_filter.2 ⟨h.mem i, ⟨[i], by simp⟩, [i], by simp⟩
  · obtain ⟨hb, ⟨l1, h1⟩, l2, h2⟩ := Finset.mem_filter.1 hb
    obtain ⟨c, hc, hne', h3, h4⟩ := h.perm i b hb hne
    refine ⟨c, Finset.mem_filter.2 ⟨hc, ?_, ?_⟩, hne', h3, h4⟩
    · obtain ⟨l, hl⟩ := (h.pos c hc).1
      obtain ⟨l', rfl⟩ := lift_list (sub_letters h hg (J := J) i.2 (l := l1.map Subtype.val) (l2 := l) (m := ro b ⬝ᵥ co (g i))
        (fun k hk => by obtain ⟨x, -, rfl⟩ := List.mem_map.1 hk; exact x.2) (by rw [← e, ← h1, ← hl, h3, refl]))
      exact ⟨l', by rw [hl, e]⟩
    · obtain ⟨l, hl⟩ := (h.pos c hc).2
      obtain ⟨l', rfl⟩ := lift_list (sub_letters h.swap hg (J := J) i.2 (l := l2.map Subtype.val) (l2 := l) (m := co b ⬝ᵥ ro (g i))
        (fun k hk => by obtain ⟨x, -, rfl⟩ := List.mem_map.1 hk; exact x.2) (by rw [← e, ← h2, ← hl, h4, refl]))
      exact ⟨l', by rw [hl, e]⟩

/-! ### words in a subset, and cosets -/

theorem act_val {J : ι → Prop} {a c : ι → Fin r → ℤ} (w : List {i // J i}) (v : Fin r → ℤ) :
    act (fun i : {i // J i} => a i) (fun i : {i // J i} => c i) w v = act a c (w.map Subtype.val) v := by
  induction w with
  | nil => rfl
  | cons s w ih => simp only [act, ih, List.map_cons]

abbrev Letters (J : ι → Prop) (w : List ι) : Prop := ∀ i ∈ w, J i

variable {a c : ι → Fin r → ℤ}

/-- `a` and `c` are the simple roots and coroots of a system -/
structure Gen (a c : ι → Fin r → ℤ) (P : Finset ℕ) (g : ι → ℕ) (ro co : ℕ → Fin r → ℤ) : Prop where
  sys : Sys P g ro co
  inj : Function.Injective g
  ro : ∀ i, ro (g i) = a i
  co : ∀ i, co (g i) = c i

variable [Fintype ι]

theorem Gen.two (h : Gen a c P g ro co) (i : ι) : a i ⬝ᵥ c i = 2 := by
  have := h.sys.two _ (h.sys.mem i)
  rwa [h.ro, h.co] at this

theorem Gen.swap (h : Gen a c P g ro co) : Gen c a P g co ro := ⟨h.sys.swap, h.inj, h.co, h.ro⟩

theorem Gen.sub (h : Gen a c P g ro co) (J : ι → Prop) : ∃ P' ⊆ P, Gen (fun i : {i // J i} => a i) (fun i : {i // J i} => c i) P' (fun i : {i // J i} => g i) ro co := by
  obtain ⟨P', h1, h2⟩ := h.sys.sub h.inj J
  exact ⟨P', h1, h2, fun i j e => Subtype.ext (h.inj e), fun i => h.ro i, fun i => h.co i⟩

/-- a word between dominant weights acts like a word of reflections that fix the weight, for a subset of the generators -/
theorem Gen.word (h : Gen a c P g ro co) {J : ι → Prop} {v : Fin r → ℤ} (hv : ∀ i, J i → 0 ≤ v ⬝ᵥ c i) {w : List ι} (hw : Letters J w)
    (hd : ∀ i, J i → 0 ≤ act a c w v ⬝ᵥ c i) : ∃ w', (∀ x, act a c w' x = act a c w x) ∧ ∀ i ∈ w', J i ∧ v ⬝ᵥ c i = 0 := by
  classical
  obtain ⟨P', -, h'⟩ := h.sub J
  obtain ⟨u, rfl⟩ := lift_list hw
  have e1 := funext h'.ro
  have e2 := funext h'.co
  obtain ⟨w', h1, h2⟩ := h'.sys.dom_word (v := v) (fun i => by rw [h'.co]; exact hv i i.2) _ u le_rfl (fun i => by
    rw [e1, e2, h'.co, act_val]; exact hd i i.2)
  rw [e1, e2] at h1
  refine ⟨w'.map Subtype.val, fun x => ?_, fun i hi => ?_⟩
  · have := h1 x
    rwa [act_val, act_val] at this
  · obtain ⟨j, hj, rfl⟩ := List.mem_map.1 hi
    have := h2 j hj
    rw [h'.co] at this
    exact ⟨j.2, this⟩

/-- representatives of the cosets for `J` and a further generator, by the orbit of a vector `e` fixed by `J` -/
structure Reps (a c : ι → Fin r → ℤ) (J' : ι → Prop) (e : Fin r → ℤ) (ws : List (List ι)) : Prop where
  letters : ∀ w ∈ ws, Letters J' w
  nodup : (ws.map fun w => act a c w e).Nodup
  all : ∀ w, Letters J' w → ∃ w' ∈ ws, act a c w' e = act a c w e

/-- `us` is the orbit of `v` for `J`, without repetition -/
structure IsOrbit (a c : ι → Fin r → ℤ) (J : ι → Prop) (v : Fin r → ℤ) (us : List (Fin r → ℤ)) : Prop where
  nodup : us.Nodup
  mem : ∀ u, u ∈ us ↔ ∃ w, Letters J w ∧ u = act a c w v

theorem Letters.reverse {J : ι → Prop} {w : List ι} (h : Letters J w) : Letters J w.reverse := fun i hi => h i (List.mem_reverse.1 hi)

theorem Letters.append {J : ι → Prop} {w u : List ι} (h : Letters J w) (h' : Letters J u) : Letters J (w ++ u) := fun i hi =>
  (List.mem_append.1 hi).elim (h i) (h' i)

theorem act_inj (h2 : ∀ i, a i ⬝ᵥ c i = 2) {w : List ι} {x y : Fin r → ℤ} (e : act a c w x = act a c w y) : x = y := by
  rw [← act_reverse h2 w x, e, act_reverse h2]

theorem Gen.extend (h : Gen a c P g ro co) {J J' : ι → Prop} (hJ : ∀ i, J i → J' i) {e v : Fin r → ℤ} {ws : List (List ι)} (hws : Reps a c J' e ws)
    (he : ∀ i, J i → e ⬝ᵥ c i = 0) (he' : ∀ i, J' i → ¬ J i → 0 < e ⬝ᵥ c i) (hv : ∀ i, J' i → 0 ≤ v ⬝ᵥ c i) (hv' : ∀ i, J' i → v ⬝ᵥ c i = 0 → J i)
    {us : List (Fin r → ℤ)} (hus : IsOrbit a c J v us) : IsOrbit a c J' v (us.flatMap fun u => ws.map fun w => act a c w u) := by
  classical
  have h2 := h.two
  have hed : ∀ i, J' i → 0 ≤ e ⬝ᵥ c i := fun i hi => by
    by_cases hh : J i
    · rw [he i hh]
    · exact (he' i hi hh).le
  -- the coset is determined by the image
  have key : ∀ k ∈ ws, ∀ l ∈ ws, ∀ u ∈ us, ∀ u' ∈ us, act a c k u = act a c l u' → act a c k e = act a c l e := by
    intro k hk l hl u hu u' hu' ekl
    obtain ⟨p, hp, rfl⟩ := (hus.mem u).1 hu
    obtain ⟨q, hq, rfl⟩ := (hus.mem u').1 hu'
    have h3 : act a c (q.reverse ++ (l.reverse ++ (k ++ p))) v = v := by
      rw [act_append, act_append, act_append, ekl, act_reverse h2, act_reverse h2]
    have hL : Letters J' (q.reverse ++ (l.reverse ++ (k ++ p))) :=
      Letters.append (Letters.reverse fun i hi => hJ i (hq i hi)) (Letters.append (hws.letters l hl).reverse (Letters.append (hws.letters k hk) fun i hi => hJ i (hp i hi)))
    obtain ⟨w', h4, h5⟩ := h.word hv hL (by rw [h3]; exact hv)
    have h6 : act a c (q.reverse ++ (l.reverse ++ (k ++ p))) e = e := by
      rw [← h4]; exact act_fix fun i hi => he i (hv' i (h5 i hi).1 (h5 i hi).2)
    rw [act_append, act_append, act_append, act_fix (w := p) fun i hi => he i (hp i hi)] at h6
    have h7 : act a c q.reverse (act a c l.reverse (act a c k e)) = act a c q.reverse e := by
      rw [h6, act_fix fun i hi => he i (hq i (List.mem_reverse.1 hi))]
    have h8 := act_inj h2 h7
    have h9 : act a c l.reverse (act a c k e) = act a c l.reverse (act a c l e) := by rw [h8, act_reverse h2]
    exact act_inj h2 h9
  constructor
  · rw [List.nodup_flatMap]
    constructor
    · intro u hu
      rw [List.nodup_map_iff_inj_on (List.Nodup.of_map _ hws.nodup)]
      intro k hk l hl ekl
      exact List.inj_on_of_nodup_map hws.nodup hk hl (key k hk l hl u hu u hu ekl)
    · refine hus.nodup.imp_of_mem fun {u u'} hu hu' hne => ?_
      intro x hx hx'
      obtain ⟨k, hk, rfl⟩ := List.mem_map.1 hx
      obtain ⟨l, hl, e2⟩ := List.mem_map.1 hx'
      have h3 := List.inj_on_of_nodup_map hws.nodup hk hl (key k hk l hl u hu u' hu' e2.symm)
      subst h3
      exact hne (act_inj h2 e2.symm)
  · intro u
    rw [List.mem_flatMap]
    constructor
    · rintro ⟨o, ho, hu⟩
      obtain ⟨k, hk, rfl⟩ := List.mem_map.1 hu
      obtain ⟨p, hp, rfl⟩ := (hus.mem o).1 ho
      exact ⟨k ++ p, Letters.append (hws.letters k hk) fun i hi => hJ i (hp i hi), by rw [act_append]⟩
    · rintro ⟨w, hw, rfl⟩
      obtain ⟨k, hk, e1⟩ := hws.all w hw
      have h3 : act a c (k.reverse ++ w) e = e := by rw [act_append, ← e1, act_reverse h2]
      obtain ⟨w', h4, h5⟩ := h.word hed (Letters.append (hws.letters k hk).reverse hw) (by rw [h3]; exact hed)
      have h6 : Letters J w' := fun i hi => by
        by_contra hh
        have := he' i (h5 i hi).1 hh
        have := (h5 i hi).2
        omega
      refine ⟨act a c w' v, (hus.mem _).2 ⟨w', h6, rfl⟩, List.mem_map.2 ⟨k, hk, ?_⟩⟩
      rw [h4, act_append]
      have := act_reverse h2 k.reverse (act a c w v)
      rwa [List.reverse_reverse] at this

end Verif.Datum
