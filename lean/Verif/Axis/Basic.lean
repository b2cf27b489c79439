import Verif.Axis.Spec
import Mathlib.Data.List.Basic
import Mathlib.Tactic.Ring
/-
Substitution, weights, and resolved substitutions.
-/
namespace Verif.Axis
open Verif

theorem Ty.ind {P : Ty → Prop} (undet : P .undet) (prim : ∀ n, P (.prim n)) (var : ∀ n, P (.var n)) (func : ∀ a r, P a → P r → P (.func a r)) (row : ∀ c, P c → P (.row c))
    (tuple : ∀ l, (∀ t ∈ l, P t) → P (.tuple l)) (union : ∀ l, (∀ t ∈ l, P t) → P (.union l)) (t : Ty) : P t :=
  Ty.rec (motive_1 := P) (motive_2 := fun l => ∀ t ∈ l, P t) undet prim var func row tuple union (by simp) (fun a l ha hl t ht => by
    rcases List.mem_cons.1 ht with rfl | ht
    · exact ha
    · exact hl t ht) t

theorem substL_eq (θ : Nat → Ty) (l : List Ty) : substL θ l = l.map (subst θ) := by
  induction l with
  | nil => rfl
  | cons t l ih => rw [substL, ih, List.map_cons]

theorem mem_varsL {v : Nat} {l : List Ty} : v ∈ varsL l ↔ ∃ t ∈ l, v ∈ vars t := by
  induction l with
  | nil => simp [varsL]
  | cons t l ih => simp [varsL, ih]

theorem fullL_iff {l : List Ty} : FullL l ↔ ∀ t ∈ l, Full t := by
  induction l with
  | nil => simp [FullL]
  | cons t l ih => simp [FullL, ih]

theorem subst_congr {θ η : Nat → Ty} (t : Ty) : (∀ v ∈ vars t, θ v = η v) → subst θ t = subst η t := by
  induction t using Ty.ind with
  | undet => intro _; rfl
  | prim n => intro _; rfl
  | var n => intro h; exact h n (by simp [vars])
  | func a r ha hr =>
    intro h
    rw [subst, subst, ha fun v hv => h v (by simp [vars, hv]), hr fun v hv => h v (by simp [vars, hv])]
  | row c hc => intro h; rw [subst, subst, hc fun v hv => h v (by simpa [vars] using hv)]
  | tuple l hl =>
    intro h
    rw [subst, subst, substL_eq, substL_eq]
    congr 1
    exact List.map_congr_left fun t ht => hl t ht fun v hv => h v (by rw [vars, mem_varsL]; exact ⟨t, ht, hv⟩)
  | union l hl =>
    intro h
    rw [subst, subst, substL_eq, substL_eq]
    congr 1
    exact List.map_congr_left fun t ht => hl t ht fun v hv => h v (by rw [vars, mem_varsL]; exact ⟨t, ht, hv⟩)

theorem subst_subst (θ σ : Nat → Ty) (t : Ty) : subst θ (subst σ t) = subst (fun v => subst θ (σ v)) t := by
  induction t using Ty.ind with
  | undet => rfl
  | prim n => rfl
  | var n => rfl
  | func a r ha hr => simp only [subst, ha, hr]
  | row c hc => simp only [subst, hc]
  | tuple l hl =>
    simp only [subst, substL_eq, List.map_map]
    congr 1
    exact List.map_congr_left fun t ht => hl t ht
  | union l hl =>
    simp only [subst, substL_eq, List.map_map]
    congr 1
    exact List.map_congr_left fun t ht => hl t ht

theorem mem_vars_subst {θ : Nat → Ty} {v : Nat} (t : Ty) : v ∈ vars (subst θ t) ↔ ∃ u ∈ vars t, v ∈ vars (θ u) := by
  induction t using Ty.ind with
  | undet => simp [subst, vars]
  | prim n => simp [subst, vars]
  | var n => simp [subst, vars]
  | func a r ha hr => simp only [subst, vars, List.mem_append, ha, hr]; grind
  | row c hc => simp only [subst, vars, hc]
  | tuple l hl =>
    simp only [subst, vars, mem_varsL, substL_eq, List.mem_map]
    constructor
    · rintro ⟨_, ⟨t, ht, rfl⟩, hv⟩
      obtain ⟨u, h1, h2⟩ := (hl t ht).1 hv
      exact ⟨u, ⟨t, ht, h1⟩, h2⟩
    · rintro ⟨u, ⟨t, ht, h1⟩, h2⟩
      exact ⟨_, ⟨t, ht, rfl⟩, (hl t ht).2 ⟨u, h1, h2⟩⟩
  | union l hl =>
    simp only [subst, vars, mem_varsL, substL_eq, List.mem_map]
    constructor
    · rintro ⟨_, ⟨t, ht, rfl⟩, hv⟩
      obtain ⟨u, h1, h2⟩ := (hl t ht).1 hv
      exact ⟨u, ⟨t, ht, h1⟩, h2⟩
    · rintro ⟨u, ⟨t, ht, h1⟩, h2⟩
      exact ⟨_, ⟨t, ht, rfl⟩, (hl t ht).2 ⟨u, h1, h2⟩⟩

mutual
/-- weight of a type, for given weights of variables -/
def wt (w : Nat → Nat) : Ty → Nat
  | .undet => 1
  | .prim _ => 1
  | .var n => w n
  | .func a r => 1 + (wt w a + wt w r)
  | .row c => 1 + wt w c
  | .tuple l => 1 + wtL w l
  | .union l => 1 + wtL w l
def wtL (w : Nat → Nat) : List Ty → Nat
  | [] => 0
  | t :: l => wt w t + wtL w l
end

theorem wt_le_wtL (w : Nat → Nat) {t : Ty} {l : List Ty} (h : t ∈ l) : wt w t ≤ wtL w l := by
  induction l with
  | nil => cases h
  | cons a l ih =>
    rw [wtL]
    rcases List.mem_cons.1 h with rfl | h
    · omega
    · have := ih h; omega

theorem wt_congr {w w' : Nat → Nat} (t : Ty) : (∀ v ∈ vars t, w v = w' v) → wt w t = wt w' t := by
  have hL : ∀ l : List Ty, (∀ t ∈ l, (∀ v ∈ vars t, w v = w' v) → wt w t = wt w' t) → (∀ v ∈ varsL l, w v = w' v) → wtL w l = wtL w' l := by
    intro l
    induction l with
    | nil => intros; rfl
    | cons a l ih =>
      intro h1 h2
      rw [wtL, wtL, h1 a (by simp) fun v hv => h2 v (by simp [varsL, hv]), ih (fun t ht => h1 t (by simp [ht])) fun v hv => h2 v (by simp [varsL, hv])]
  induction t using Ty.ind with
  | undet => intro _; rfl
  | prim n => intro _; rfl
  | var n => intro h; exact h n (by simp [vars])
  | func a r ha hr =>
    intro h
    rw [wt, wt, ha fun v hv => h v (by simp [vars, hv]), hr fun v hv => h v (by simp [vars, hv])]
  | row c hc => intro h; rw [wt, wt, hc fun v hv => h v (by simpa [vars] using hv)]
  | tuple l hl => intro h; rw [wt, wt, hL l hl h]
  | union l hl => intro h; rw [wt, wt, hL l hl h]

theorem wt_pos {w : Nat → Nat} (hw : ∀ i, 0 < w i) (t : Ty) : 0 < wt w t := by
  cases t <;> simp only [wt] <;> first | omega | exact hw _

/-- number of nodes -/
def sz (t : Ty) : Nat := wt (fun _ => 1) t

theorem sz_pos (t : Ty) : 0 < sz t := wt_pos (fun _ => Nat.one_pos) t

/-- the type put in place of a variable is a part -/
theorem sz_subst {θ : Nat → Ty} {v : Nat} (t : Ty) : v ∈ vars t → sz (θ v) ≤ sz (subst θ t) := by
  have hL : ∀ l : List Ty, (∀ t ∈ l, v ∈ vars t → sz (θ v) ≤ sz (subst θ t)) → v ∈ varsL l → sz (θ v) ≤ wtL (fun _ => 1) (substL θ l) := fun l hl hv => by
    obtain ⟨t, ht, hv⟩ := mem_varsL.1 hv
    refine (hl t ht hv).trans (wt_le_wtL _ ?_)
    rw [substL_eq]; exact List.mem_map_of_mem ht
  induction t using Ty.ind with
  | undet => simp [vars]
  | prim n => simp [vars]
  | var n => intro h; simp only [vars, List.mem_singleton] at h; rw [h, subst]
  | func a r ha hr =>
    intro h
    simp only [vars, List.mem_append] at h
    rw [subst]
    rcases h with h | h
    · have := ha h; unfold sz at this ⊢; rw [wt]; omega
    · have := hr h; unfold sz at this ⊢; rw [wt]; omega
  | row c hc => intro h; have := hc h; rw [subst]; unfold sz at this ⊢; rw [wt]; omega
  | tuple l hl => intro h; have := hL l hl h; rw [subst]; unfold sz at this ⊢; rw [wt]; omega
  | union l hl => intro h; have := hL l hl h; rw [subst]; unfold sz at this ⊢; rw [wt]; omega

/-- the size is larger unless the type is the variable -/
theorem sz_subst_lt {θ : Nat → Ty} {v : Nat} {t : Ty} (hv : v ∈ vars t) (hn : t.isVar = false) : sz (θ v) < sz (subst θ t) := by
  cases t with
  | undet => simp [vars] at hv
  | prim n => simp [vars] at hv
  | var n => cases hn
  | func a r =>
    simp only [vars, List.mem_append] at hv
    rcases hv with h | h
    · have := sz_subst (θ := θ) a h; rw [subst]; unfold sz at this ⊢; rw [wt]; omega
    · have := sz_subst (θ := θ) r h; rw [subst]; unfold sz at this ⊢; rw [wt]; omega
  | row c => have := sz_subst (θ := θ) c hv; rw [subst]; unfold sz at this ⊢; rw [wt]; omega
  | tuple l =>
    obtain ⟨t, ht, hv⟩ := mem_varsL.1 hv
    have h1 := sz_subst (θ := θ) t hv
    have h2 := wt_le_wtL (fun _ => 1) (t := subst θ t) (l := substL θ l) (by rw [substL_eq]; exact List.mem_map_of_mem ht)
    rw [subst]; unfold sz at h1 ⊢; rw [wt]; omega
  | union l =>
    obtain ⟨t, ht, hv⟩ := mem_varsL.1 hv
    have h1 := sz_subst (θ := θ) t hv
    have h2 := wt_le_wtL (fun _ => 1) (t := subst θ t) (l := substL θ l) (by rw [substL_eq]; exact List.mem_map_of_mem ht)
    rw [subst]; unfold sz at h1 ⊢; rw [wt]; omega

/-! ### assignments -/

/-- the type assigned to a variable -/
def TA.look (E : TA) (i : Nat) : Option Ty := if i < E.threshold then none else (E.equiv[i - E.threshold]?).join

theorem look_iff {E : TA} {i : Nat} {p : Ty} : E.look i = some p ↔ E.Assigned i p := by
  unfold TA.look TA.Assigned
  by_cases h : i < E.threshold
  · rw [if_pos h]; simp; omega
  · rw [if_neg h]
    cases e : E.equiv[i - E.threshold]? with
    | none => simp
    | some x => simp; omega

theorem uses_iff {E : TA} {i j : Nat} : E.Uses j i ↔ ∃ p, E.look i = some p ∧ j ∈ vars p := by
  simp only [TA.Uses, look_iff]

theorem equivalent_ok (nd : Bool) {E : TA} {i : Nat} (h : i < E.threshold + E.size) : E.equivalent nd i = .ok (E.look i) := by
  unfold TA.equivalent TA.look
  by_cases hi : i < E.threshold
  · rw [if_pos hi, if_pos hi]
  · have hl : i - E.threshold < E.equiv.length := by unfold TA.size at h; omega
    rw [if_neg hi, if_neg hi, Res.assertIn_bind nd (by simpa using h), Vec.get_ok hl, List.getElem?_eq_getElem hl]
    rfl

theorem look_lt {E : TA} {i : Nat} {p : Ty} (h : E.look i = some p) : E.threshold ≤ i ∧ i < E.threshold + E.size := by
  obtain ⟨h1, h2⟩ := look_iff.1 h
  have := (List.getElem?_eq_some_iff.1 h2).1
  unfold TA.size
  omega

/-- functions defined by recursion along references -/
theorem exists_fix {E : TA} (hE : WellFounded E.Uses) {X : Type} [Inhabited X] (step : Nat → (Nat → X) → X)
    (hs : ∀ i f g, (∀ j, E.Uses j i → f j = g j) → step i f = step i g) : ∃ f : Nat → X, ∀ i, f i = step i f := by
  classical
  refine ⟨hE.fix fun i rec => step i fun j => if h : E.Uses j i then rec j h else default, fun i => ?_⟩
  rw [WellFounded.fix_eq]
  exact hs i _ _ fun j hj => by rw [dif_pos hj]

/-- weights of variables -/
def IsWt (E : TA) (w : Nat → Nat) : Prop := (∀ i, 0 < w i) ∧ ∀ i p, E.look i = some p → w i = 1 + wt w p

/-- following all references -/
def IsRes (E : TA) (σ : Nat → Ty) : Prop := ∀ i, σ i = match E.look i with | some p => subst σ p | none => .var i

theorem exists_wt {E : TA} (hE : WellFounded E.Uses) : ∃ w, IsWt E w := by
  obtain ⟨w, hw⟩ := exists_fix hE (X := Nat) (fun i f => match E.look i with | some p => 1 + wt f p | none => 1) fun i f g h => by
    cases e : E.look i with
    | none => rfl
    | some p => simp only []; rw [wt_congr p fun v hv => h v (uses_iff.2 ⟨p, e, hv⟩)]
  refine ⟨w, fun i => ?_, fun i p e => ?_⟩
  · rw [hw]; cases E.look i <;> simp only [] <;> omega
  · rw [hw, e]

theorem exists_res {E : TA} (hE : WellFounded E.Uses) : ∃ σ, IsRes E σ := by
  have : Inhabited Ty := ⟨.undet⟩
  refine exists_fix hE (X := Ty) (fun i f => match E.look i with | some p => subst f p | none => .var i) fun i f g h => ?_
  cases e : E.look i with
  | none => rfl
  | some p => exact subst_congr p fun v hv => h v (uses_iff.2 ⟨p, e, hv⟩)

theorem IsRes.some {E : TA} {σ : Nat → Ty} (h : IsRes E σ) {i : Nat} {p : Ty} (e : E.look i = some p) : σ i = subst σ p := by rw [h, e]
theorem IsRes.none {E : TA} {σ : Nat → Ty} (h : IsRes E σ) {i : Nat} (e : E.look i = none) : σ i = .var i := by rw [h, e]

theorem IsRes.solves {E : TA} {σ : Nat → Ty} (h : IsRes E σ) : Solves E σ :=
  ⟨fun i hi => h.none (by rw [TA.look, if_pos hi]), fun _ _ e => h.some (look_iff.2 e)⟩

/-- each solution is an instance of the resolved substitution -/
theorem solves_res {E : TA} (hE : WellFounded E.Uses) {σ θ : Nat → Ty} (h : IsRes E σ) (hθ : Solves E θ) (t : Ty) : subst θ (subst σ t) = subst θ t := by
  rw [subst_subst]
  refine subst_congr t fun v hv => ?_
  clear hv
  induction v using hE.induction with
  | _ v ih =>
    cases e : E.look v with
    | none => rw [h.none e, subst]
    | some p =>
      rw [h.some e, subst_subst, hθ.2 v p (look_iff.1 e)]
      exact subst_congr p fun u hu => ih u (uses_iff.2 ⟨p, e, hu⟩)

end Verif.Axis
