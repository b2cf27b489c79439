import Verif.KGB.Gen
import Verif.F2.Lemmas
/-
Lemmas on the generation of the set `K\G/B`.
-/
namespace Verif.KGB
open Verif Verif.F2 Verif.Weyl Verif.Tits Verif.Coxeter CoxeterSystem Verif.BitSet
set_option linter.unusedSectionVars false

/-! ### tables given by functions -/

/-- table of values -/
def grid {α : Type} (n m : Nat) (C : Nat → Nat → α) : List (List α) := (List.range n).map fun s => (List.range m).map (C s)

theorem get_range {α : Type} {m : Nat} (F : Nat → α) {x : Nat} (h : x < m) : Vec.get ((List.range m).map F) x = .ok (F x) := by
  rw [Vec.get_ok (by simpa using h)]; simp

theorem put_range {α : Type} {m : Nat} (F : Nat → α) {x : Nat} (h : x < m) (v : α) :
    Vec.put ((List.range m).map F) x v = .ok ((List.range m).map (Function.update F x v)) := by
  rw [Vec.put_ok (by simpa using h)]
  congr 1
  apply List.ext_getElem (by simp)
  intro i h1 h2
  rw [List.getElem_set]
  by_cases e : x = i
  · subst e; simp
  · rw [if_neg e]; simp [Function.update_of_ne (Ne.symm e)]

theorem get_grid {α : Type} {n m : Nat} (C : Nat → Nat → α) {s : Nat} (hs : s < n) : Vec.get (grid n m C) s = .ok ((List.range m).map (C s)) :=
  get_range _ hs

theorem setFields_grid {n m : Nat} (C : Nat → Nat → Fields) {s x : Nat} (hs : s < n) (hx : x < m) (f : Fields → Fields) :
    setFields (grid n m C) s x f = .ok (grid n m (Function.update C s (Function.update (C s) x (f (C s x))))) := by
  unfold setFields
  rw [get_grid C hs, Res.ok_bind, get_range _ hx, Res.ok_bind, put_range _ hx, Res.ok_bind, grid, put_range _ hs]
  congr 1
  unfold grid
  apply List.map_congr_left
  intro i _
  by_cases e : i = s
  · subst e; simp
  · rw [Function.update_of_ne e, Function.update_of_ne e]

theorem get_map_ok {α β : Type} {l : List α} {F : α → β} {x : Nat} {a : α} (h : l[x]? = some a) : Vec.get (l.map F) x = .ok (F a) := by
  rw [Vec.get, List.getElem?_map, h]; rfl

theorem get_some {α : Type} {l : List α} {x : Nat} {a : α} (h : l[x]? = some a) : Vec.get l x = .ok a := by
  rw [Vec.get, h]

variable {n r : Nat} {Mx : CoxeterMatrix (Fin n)} {G : Type} [Group G]
variable {cs : CoxeterSystem Mx G} {α αv : Fin n → Fin r → Int} {ρ : G →* Module.End ℤ (Fin r → Int)} {δ : Matrix (Fin r) (Fin r) Int} {f : Fin n → Fin n}
variable {𝒯 : Type} [Group 𝒯] {ι : (Fin r → ZMod 2) → 𝒯} {σ : Fin n → 𝒯} {π : 𝒯 →* G} {g : Fin n → Bool} {τ : 𝒯 →* 𝒯} {ψ : 𝒯 → TE}
variable {nd : Bool} {c : TC} {φ : G → List Nat} {it : ITab} {θ : G →* G} {seeds : List 𝒯} {nf : 𝒯 → 𝒯} {N : Nat} {e0 : Nat → 𝒯}

variable (n ψ) in
/-- state with given elements, links and informations -/
def stOf (es : List 𝒯) (C : Nat → Nat → Fields) (I : Nat → Info) : St := ⟨es.map ψ, grid n es.length C, (List.range es.length).map I⟩

/-- nothing is known of elements that do not exist -/
def Out (es : List 𝒯) (C : Nat → Nat → Fields) (I : Nat → Info) : Prop := ∀ y, es.length ≤ y → (∀ s, C s y = {}) ∧ I y = {}

theorem addElement_ok (es : List 𝒯) (a : 𝒯) (C : Nat → Nat → Fields) (I : Nat → Info) (h : Out es C I) :
    addElement ⟨(es ++ [a]).map ψ, grid n es.length C, (List.range es.length).map I⟩ = stOf n ψ (es ++ [a]) C I := by
  unfold addElement stOf grid
  simp only [St.mk.injEq, true_and, List.length_append, List.length_singleton, List.range_succ, List.map_append, List.map_map, List.map_cons, List.map_nil]
  refine ⟨?_, by rw [(h _ le_rfl).2]⟩
  apply List.map_congr_left
  intro s _
  rw [(h _ le_rfl).1 s]; rfl

theorem enter_ok (hψ : Function.Injective ψ) {size : Nat} (es : List 𝒯) (d : 𝒯) (C : Nat → Nat → Fields) (I : Nat → Info) (h : Out es C I)
    (hd : d ∉ es → es.length < size) : ∃ es' child, enter size (stOf n ψ es C I) (ψ d) = .ok (child, stOf n ψ es' C I) ∧ es'[child]? = some d ∧
      es <+: es' ∧ (es' = es ∧ d ∈ es ∨ es' = es ++ [d] ∧ d ∉ es) := by
  by_cases hm : d ∈ es
  · have h1 : (es.map ψ).idxOf (ψ d) < (es.map ψ).length := List.idxOf_lt_length_iff.2 (List.mem_map_of_mem hm)
    refine ⟨es, (es.map ψ).idxOf (ψ d), ?_, ?_, List.prefix_rfl, .inl ⟨rfl, hm⟩⟩
    · have h1' : (es.map ψ).idxOf (ψ d) < es.length := by simpa using h1
      simp [enter, stOf, h1', ne_of_lt h1']
    · have h2 := List.getElem_idxOf h1
      rw [List.getElem_map] at h2
      rw [List.getElem?_eq_getElem (by simpa using h1)]
      exact congrArg some (hψ h2)
  · have h0 : ψ d ∉ es.map ψ := by
      rw [List.mem_map]
      rintro ⟨b, hb, e⟩
      exact hm (hψ e ▸ hb)
    have h1 : (es.map ψ).idxOf (ψ d) = es.length := by rw [List.idxOf_of_notMem h0, List.length_map]
    have hlt := hd hm
    refine ⟨es ++ [d], es.length, ?_, by simp, List.prefix_append _ _, .inr ⟨rfl, hm⟩⟩
    unfold enter
    simp only [stOf, h1, List.length_map, List.length_range, lt_self_iff_false, false_or, if_pos hlt, if_false, if_true]
    have := addElement_ok (n := n) (ψ := ψ) es d C I h
    simp only [stOf] at this
    rw [← this]
    simp

/-! ### the invariant -/

theorem prefix_get {α : Type} {l l' : List α} (h : l <+: l') {x : Nat} {a : α} (e : l[x]? = some a) : l'[x]? = some a := by
  obtain ⟨t, rfl⟩ := h
  rw [List.getElem?_append_left (List.getElem?_eq_some_iff.1 e).1]; exact e

variable (cs α αv ρ δ f ι σ π g τ ψ nd c φ it seeds nf N e0 θ) in
/-- the situation -/
structure Env : Prop where
  ctx : Ctx cs α αv ρ δ f ι σ π g τ ψ nd c φ
  hit : IsInvTable cs θ φ δ ρ it
  valid : ∀ a ∈ seeds, a * τ a = 1
  cov : ∀ a, Reach cs f α δ g ρ ι σ π τ seeds a → φ (π a) ∈ it.pool
  nf : ∀ a, φ (π a) ∈ it.pool → it.reduce nd (ψ a) = .ok (ψ (nf a)) ∧ Eqv ρ δ ι π a (nf a) ∧
    ∀ b, φ (π b) ∈ it.pool → (Eqv ρ δ ι π a b ↔ nf a = nf b)
  sys : IsSystem (Reach cs f α δ g ρ ι σ π τ seeds) (Eqv ρ δ ι π) N e0
  small : N < 2 ^ 32

open Classical in
variable (cs f α g ι σ π) in
/-- value of the status -/
noncomputable def sv (s : Fin n) (a : 𝒯) : Nat :=
  if cs.simple s * π a ≠ π a * cs.simple (f s) then cplx else if cs.length (cs.simple s * π a) < cs.length (π a) then realSt
  else if Noncompact cs f α g ι σ π s a then imNcpt else imCpt

open Classical in
variable (cs f α g ι σ π) in
/-- information on an element, for the first `t` roots -/
def InfoOK (t : Nat) (I : Info) (b : 𝒯) : Prop :=
  StRep I.status (fun j => if h : j < n then if j < t then sv cs α f ι σ π g ⟨j, h⟩ b else 0 else 0) ∧
  ∀ j : Fin n, I.desc.testBit j = decide (j.1 < t ∧ cs.length (cs.simple j * π b) < cs.length (π b))

variable (cs f α g ι σ π τ nf) in
/-- links of an element -/
def FieldOK (es : List 𝒯) (s : Fin n) (b : 𝒯) (F : Fields) : Prop :=
  es[F.cross]? = some (nf (σ s * b * (τ (σ s))⁻¹)) ∧ (Noncompact cs f α g ι σ π s b → es[F.cayley]? = some (nf (σ s * b))) ∧
  (¬ Noncompact cs f α g ι σ π s b → F.cayley = undefKGB) ∧ F.inv1 = undefKGB ∧ F.inv2 = undefKGB

variable (cs f α δ g ρ ι σ π τ seeds nf) in
/-- the elements are reduced and distinct -/
def EsOK (es : List 𝒯) : Prop := es.Nodup ∧ ∀ b ∈ es, Reach cs f α δ g ρ ι σ π τ seeds b ∧ nf b = b

section
variable (V : Env cs α αv ρ δ f ι σ π g τ ψ nd c φ it θ seeds nf N e0)
include V

local notation "E" => Eqv ρ δ ι π
local notation "R" => Reach cs f α δ g ρ ι σ π τ seeds
local notation "NC" => Noncompact cs f α g ι σ π
local notation "OK" => EsOK cs α ρ δ f ι σ π g τ seeds nf

theorem Env.E_nf {a : 𝒯} (ha : R a) : E a (nf a) := (V.nf a (V.cov a ha)).2.1
theorem Env.red {a : 𝒯} (ha : R a) : it.reduce nd (ψ a) = .ok (ψ (nf a)) := (V.nf a (V.cov a ha)).1
theorem Env.R_nf {a : 𝒯} (ha : R a) : R (nf a) := ha.eqv (V.E_nf ha)
theorem Env.nf_iff {a b : 𝒯} (ha : R a) (hb : R b) : E a b ↔ nf a = nf b := (V.nf a (V.cov a ha)).2.2 b (V.cov b hb)
theorem Env.nf_nf {a : 𝒯} (ha : R a) : nf (nf a) = nf a := ((V.nf_iff ha (V.R_nf ha)).1 (V.E_nf ha)).symm
theorem Env.pi_nf {a : 𝒯} (ha : R a) : π (nf a) = π a := (V.E_nf ha).pi V.ctx.hT

theorem Env.length_le {es : List 𝒯} (h : OK es) : es.length ≤ N := by
  have hx : ∀ a, ∃ x, R a → x < N ∧ E a (e0 x) := by
    intro a
    by_cases ha : R a
    · obtain ⟨x, h1, -⟩ := V.sys.2 a ha; exact ⟨x, fun _ => h1⟩
    · exact ⟨0, fun c => absurd c ha⟩
  choose ix hix using hx
  have h1 : (es.map ix).Nodup := by
    apply h.1.map_on
    intro a ha b hb e
    have ha' := hix a (h.2 a ha).1
    have hb' := hix b (h.2 b hb).1
    have := V.ctx.hL.trans _ _ _ ha'.2 (V.ctx.hL.symm _ _ (e ▸ hb'.2))
    rw [V.nf_iff (h.2 a ha).1 (h.2 b hb).1, (h.2 a ha).2, (h.2 b hb).2] at this
    exact this
  have h2 : (es.map ix) ⊆ List.range N := by
    intro x hx
    obtain ⟨a, ha, rfl⟩ := List.mem_map.1 hx
    exact List.mem_range.2 (hix a (h.2 a ha).1).1
  have := (List.subperm_of_subset h1 h2).length_le
  simpa using this

theorem Env.le_length {es : List 𝒯} (h : ∀ a, R a → nf a ∈ es) : N ≤ es.length := by
  classical
  have h1 : ((List.range N).map fun x => nf (e0 x)).Nodup := by
    apply List.nodup_range.map_on
    intro x hx y hy e
    rw [List.mem_range] at hx hy
    rw [← V.nf_iff (V.sys.1 x hx) (V.sys.1 y hy)] at e
    obtain ⟨z, -, hz⟩ := V.sys.2 _ (V.sys.1 x hx)
    rw [hz x hx (V.ctx.hL.refl _), hz y hy e]
  have h2 : ((List.range N).map fun x => nf (e0 x)) ⊆ es := by
    intro d hd
    obtain ⟨x, hx, rfl⟩ := List.mem_map.1 hd
    exact h _ (V.sys.1 x (List.mem_range.1 hx))
  have := (List.subperm_of_subset h1 h2).length_le
  simpa using this

/-- an element is entered -/
theorem Env.enter {es : List 𝒯} {C : Nat → Nat → Fields} {I : Nat → Info} (h : OK es) (ho : Out es C I) {a : 𝒯} (ha : R a) :
    ∃ es' child, enter N (stOf n ψ es C I) (ψ (nf a)) = .ok (child, stOf n ψ es' C I) ∧ es'[child]? = some (nf a) ∧ es <+: es' ∧ OK es' ∧ Out es' C I := by
  have h2 : nf a ∉ es → OK (es ++ [nf a]) := by
    intro hm
    refine ⟨?_, ?_⟩
    · rw [List.nodup_append]
      exact ⟨h.1, by simp, fun x hx y hy e => hm (by rw [List.mem_singleton] at hy; rw [← hy, ← e]; exact hx)⟩
    · intro b hb
      rcases List.mem_append.1 hb with hb | hb
      · exact h.2 b hb
      · rw [List.mem_singleton] at hb
        subst hb
        exact ⟨V.R_nf ha, V.nf_nf ha⟩
  obtain ⟨es', child, k1, k2, k3, k4⟩ := enter_ok (n := n) V.ctx.hI.injective (size := N) es (nf a) C I ho (fun hm => by
    have := V.length_le (h2 hm)
    simpa using this)
  refine ⟨es', child, k1, k2, k3, ?_, fun y hy => ho y (le_trans k3.length_le hy)⟩
  rcases k4 with ⟨rfl, -⟩ | ⟨rfl, hm⟩
  · exact h
  · exact h2 hm

theorem infoOK_set {s : Fin n} {I : Info} {b : 𝒯} (h : InfoOK cs α f ι σ π g s I b) {v : Nat} {d : Bool} (hv : v = sv cs α f ι σ π g s b)
    (hd : d = true ↔ cs.length (cs.simple s * π b) < cs.length (π b)) :
    InfoOK cs α f ι σ π g (s.1 + 1) ⟨statusSet I.status s v, putBit I.desc s d⟩ b := by
  have hs := V.ctx.rank
  have hv4 : v < 4 := by
    rw [hv]; unfold sv cplx imCpt realSt imNcpt
    split_ifs <;> omega
  refine ⟨?_, fun j => ?_⟩
  · have := statusSet_rep h.1 (j := s.1) (v := v) (by omega) hv4 (by rw [dif_pos s.2, if_neg (lt_irrefl _)])
    refine cast (congrArg (StRep _) ?_) this
    funext j
    by_cases e : j = s.1
    · subst e
      rw [Function.update_self, dif_pos s.2, if_pos (Nat.lt_succ_self _), hv]
    · rw [Function.update_of_ne e]
      by_cases hj : j < n
      · rw [dif_pos hj, dif_pos hj]
        by_cases c1 : j < s.1
        · rw [if_pos c1, if_pos (by omega)]
        · rw [if_neg c1, if_neg (by omega)]
      · rw [dif_neg hj, dif_neg hj]
  · rw [testBit_putBit]
    by_cases e : j.1 = s.1
    · obtain rfl := Fin.ext e
      rw [if_pos rfl]
      cases d
      · symm
        rw [decide_eq_false_iff_not]
        rintro ⟨-, c⟩; have := hd.2 c; cases this
      · symm
        rw [decide_eq_true_eq]
        exact ⟨Nat.lt_succ_self _, hd.1 rfl⟩
    · rw [if_neg e, h.2 j]
      congr 1
      apply propext
      constructor
      · rintro ⟨h1, h2⟩; exact ⟨by omega, h2⟩
      · rintro ⟨h1, h2⟩; exact ⟨by omega, h2⟩

/-- body of the inner loop -/
theorem stepGen_ok {es : List 𝒯} {C : Nat → Nat → Fields} {I : Nat → Info} {x : Nat} {b : 𝒯} {s : Fin n} (h : OK es) (ho : Out es C I) (hb : es[x]? = some b)
    (hC : C s x = {}) (hI : InfoOK cs α f ι σ π g s (I x) b) :
    ∃ es' C' I', stepGen nd c it N x (stOf n ψ es C I) s = .ok (stOf n ψ es' C' I') ∧ es <+: es' ∧ OK es' ∧ Out es' C' I' ∧
      (∀ s' y, (s' ≠ s.1 ∨ y ≠ x) → C' s' y = C s' y) ∧ (∀ y, y ≠ x → I' y = I y) ∧ FieldOK cs α f ι σ π g τ nf es' s b (C' s x) ∧
      InfoOK cs α f ι σ π g (s.1 + 1) (I' x) b := by
  have hs := V.ctx.rank
  have hs32 : s.1 < 32 := by omega
  have hbm : b ∈ es := List.mem_of_getElem? hb
  have hR := (h.2 b hbm).1
  have hRc : R (σ s * b * (τ (σ s))⁻¹) := hR.cross s
  have hx : x < es.length := (List.getElem?_eq_some_iff.1 hb).1
  obtain ⟨b1, k1, k2⟩ := V.ctx.hC.cross b s (V.ctx.valid V.valid hR)
  have hR1 : R b1 := hRc.eqv k2
  have k3 := V.red hR1
  rw [← (V.nf_iff hRc hR1).1 k2] at k3
  have hpi : π (nf (σ s * b * (τ (σ s))⁻¹)) = cs.simple s * π b * cs.simple (f s) := by rw [V.pi_nf hRc, V.ctx.pi_cross]
  obtain ⟨es1, child, j1, j2, j3, j4, j5⟩ := V.enter h ho hRc
  have hx1 : x < es1.length := lt_of_lt_of_le hx j3.length_le
  have hget : Vec.get (stOf n ψ es C I).pool x = .ok (ψ b) := get_map_ok hb
  have hmy : Vec.get ((List.range es1.length).map I) x = .ok (I x) := get_range _ hx1
  have hw : (ψ (nf (σ s * b * (τ (σ s))⁻¹))).w = (ψ b).w ↔ cs.simple s * π b = π b * cs.simple (f s) := by
    rw [V.ctx.hI.weyl, V.ctx.hI.weyl, V.ctx.hW.injective.eq_iff, hpi]
    constructor
    · intro e
      calc _ = (cs.simple s * π b * cs.simple (f s)) * cs.simple (f s) := by rw [mul_assoc, cs.simple_mul_simple_self, mul_one]
        _ = _ := by rw [e]
    · intro e
      rw [e, mul_assoc, cs.simple_mul_simple_self, mul_one]
  have hne : cs.length (cs.simple s * π b) ≠ cs.length (π b) := cs.length_simple_mul_ne _ _
  set C1 := Function.update C s.1 (Function.update (C s.1) x { C s.1 x with cross := child }) with hC1
  have hC1x : C1 s.1 x = ⟨child, undefKGB, undefKGB, undefKGB⟩ := by rw [hC1, Function.update_self, Function.update_self, hC]
  have hC1o : ∀ s' y, (s' ≠ s.1 ∨ y ≠ x) → C1 s' y = C s' y := by
    intro s' y hy
    by_cases e : s' = s.1
    · subst e
      rw [hC1, Function.update_self, Function.update_of_ne (by rcases hy with hy | hy; exact absurd rfl hy; exact hy)]
    · rw [hC1, Function.update_of_ne e]
  have hset : setFields (grid n es1.length C) s.1 x (fun f => { f with cross := child }) = .ok (grid n es1.length C1) := setFields_grid C s.2 hx1 _
  have hdata : (stOf n ψ es1 C I).data = grid n es1.length C := rfl
  have hinfo : (stOf n ψ es1 C I).info = (List.range es1.length).map I := rfl
  have hout1 : ∀ v, Out es1 C1 (Function.update I x v) := by
    intro v y hy
    have : y ≠ x := by omega
    refine ⟨fun s' => by rw [hC1o s' y (.inr this)]; exact (j5 y hy).1 s', by rw [Function.update_of_ne this]; exact (j5 y hy).2⟩
  by_cases hcx : cs.simple s * π b = π b * cs.simple (f s)
  · have hlc : (if (ψ (nf (σ s * b * (τ (σ s))⁻¹))).w = (ψ b).w then pure 0 else c.T.tw.W.lengthChangeLeft nd s (ψ b).w : Res Int) = .ok 0 := by
      rw [if_pos (hw.2 hcx)]; rfl
    obtain ⟨q, q1, q2⟩ := V.ctx.hW.hasDescent (π b) s
    rw [← V.ctx.hI.weyl] at q1
    by_cases hds : cs.length (cs.simple s * π b) < cs.length (π b)
    · -- real
      have hnn : ¬ NC s b := fun c => absurd c.1.2 (by omega)
      have hch : child = x := by
        have e1 : nf (σ s * b * (τ (σ s))⁻¹) = b := by
          rw [← (V.nf_iff hR hRc).1 (V.ctx.real_cross ⟨hcx, hds⟩), (h.2 b hbm).2]
        rw [e1] at j2
        have e2 := prefix_get j3 hb
        obtain ⟨p1, p2⟩ := List.getElem?_eq_some_iff.1 j2
        obtain ⟨p3, p4⟩ := List.getElem?_eq_some_iff.1 e2
        exact (j4.1.getElem_inj_iff).1 (p2.trans p4.symm)
      refine ⟨es1, C1, Function.update I x ⟨statusSet (I x).status s realSt, putBit (I x).desc s true⟩, ?_, j3, j4, hout1 _, hC1o,
        fun y hy => Function.update_of_ne hy _ _, ?_, ?_⟩
      · unfold stepGen
        rw [hget, Res.ok_bind, k1, Res.ok_bind, k3, Res.ok_bind, hlc, Res.ok_bind, j1, Res.ok_bind]
        simp only [hdata]
        rw [hset, Res.ok_bind]
        simp only [hinfo]
        rw [hmy, Res.ok_bind, if_neg (by simp), q1, Res.ok_bind, if_pos (q2.2 hds), Res.assertIn_bind nd (decide_eq_true hch),
          bsSet_ok (show s.1 < dim from hs32), Res.ok_bind, put_range _ hx1, Res.ok_bind]
        rfl
      · rw [hC1x]
        exact ⟨j2, fun c => absurd c hnn, fun _ => rfl, rfl, rfl⟩
      · rw [Function.update_self]
        refine infoOK_set V hI ?_ (by simpa using hds)
        unfold sv
        rw [if_neg (by simpa using hcx), if_pos hds]
    · have him : Imaginary cs f s (π b) := ⟨hcx, by omega⟩
      obtain ⟨gr, g1, g2⟩ := V.ctx.grading s b
      have g2 := g2 him
      have hsv : sv cs α f ι σ π g s b = if gr then imNcpt else imCpt := by
        unfold sv
        rw [if_neg (by simpa using hcx), if_neg hds]
        cases gr
        · rw [if_neg (fun c => by have := g2.2 c; cases this)]; rfl
        · rw [if_pos (g2.1 rfl)]; rfl
      have hI1 : InfoOK cs α f ι σ π g (s.1 + 1) ⟨statusSetImaginary (I x).status s gr, putBit (I x).desc s false⟩ b := by
        exact infoOK_set V hI hsv.symm (by simpa using hds)
      have hst : statusGet (statusSetImaginary (I x).status s gr) s = .ok (if gr then imNcpt else imCpt) := by
        rw [statusGet_rep hI1.1 hs32, dif_pos s.2, if_pos (Nat.lt_succ_self _)]
        exact congrArg Res.ok hsv
      have hq : ¬ q = true := fun c => hds (q2.1 c)
      set I1 := Function.update I x ⟨statusSetImaginary (I x).status s gr, putBit (I x).desc s false⟩ with hI1d
      cases gr with
      | false =>
        have hnn : ¬ NC s b := fun c => by have := g2.2 c; cases this
        refine ⟨es1, C1, I1, ?_, j3, j4, hout1 _, hC1o, fun y hy => Function.update_of_ne hy _ _, ?_, ?_⟩
        · unfold stepGen
          rw [hget, Res.ok_bind, k1, Res.ok_bind, k3, Res.ok_bind, hlc, Res.ok_bind, j1, Res.ok_bind]
          simp only [hdata]
          rw [hset, Res.ok_bind]
          simp only [hinfo]
          rw [hmy, Res.ok_bind, if_neg (by simp), q1, Res.ok_bind, if_neg hq, g1, Res.ok_bind, bsSet_ok (show s.1 < dim from hs32), Res.ok_bind]
          rw [put_range _ hx1, Res.ok_bind, hst, Res.ok_bind, if_neg (by decide)]
          rfl
        · rw [hC1x]
          exact ⟨j2, fun c => absurd c hnn, fun _ => rfl, rfl, rfl⟩
        · rw [hI1d, Function.update_self]
          exact hI1
      | true =>
        have hn : NC s b := g2.1 rfl
        have hRy : R (σ s * b) := hR.cayley s hn
        obtain ⟨es2, child2, i1, i2, i3, i4, i5⟩ := V.enter j4 (hout1 _) hRy
        have hx2 : x < es2.length := lt_of_lt_of_le hx1 i3.length_le
        have hlen : cs.length (π b) < cs.length (π (σ s * b)) := by rw [map_mul, V.ctx.hT.proj_sigma]; exact him.2
        set C2 := Function.update C1 s.1 (Function.update (C1 s.1) x { C1 s.1 x with cayley := child2 }) with hC2
        have hC2x : C2 s.1 x = ⟨child, child2, undefKGB, undefKGB⟩ := by rw [hC2, Function.update_self, Function.update_self, hC1x]
        have hC2o : ∀ s' y, (s' ≠ s.1 ∨ y ≠ x) → C2 s' y = C1 s' y := by
          intro s' y hy
          by_cases e : s' = s.1
          · subst e
            rw [hC2, Function.update_self, Function.update_of_ne (by rcases hy with hy | hy; exact absurd rfl hy; exact hy)]
          · rw [hC2, Function.update_of_ne e]
        have hset2 : setFields (grid n es2.length C1) s.1 x (fun f => { f with cayley := child2 }) = .ok (grid n es2.length C2) := setFields_grid C1 s.2 hx2 _
        refine ⟨es2, C2, I1, ?_, j3.trans i3, i4, ?_, fun s' y hy => (hC2o s' y hy).trans (hC1o s' y hy), fun y hy => Function.update_of_ne hy _ _, ?_, ?_⟩
        · have hassert : (if nd then pure true else do pure (decide ((← c.T.length (ψ b)) < (← c.T.length (ψ (σ s * b))))) : Res Bool) = .ok true := by
            by_cases hnd : nd = true
            · rw [if_pos hnd]; rfl
            · rw [if_neg hnd, V.ctx.hI.length, Res.ok_bind, V.ctx.hI.length, Res.ok_bind, decide_eq_true hlen]; rfl
          have hst1 : ({ pool := (stOf n ψ es1 C I).pool, data := grid n es1.length C1, info := (List.range es1.length).map I1 } : St) = stOf n ψ es1 C1 I1 := rfl
          unfold stepGen
          rw [hget, Res.ok_bind, k1, Res.ok_bind, k3, Res.ok_bind, hlc, Res.ok_bind, j1, Res.ok_bind]
          simp only [hdata]
          rw [hset, Res.ok_bind]
          simp only [hinfo]
          rw [hmy, Res.ok_bind, if_neg (by simp), q1, Res.ok_bind, if_neg hq, g1, Res.ok_bind, bsSet_ok (show s.1 < dim from hs32), Res.ok_bind]
          rw [put_range _ hx1, Res.ok_bind, hst, Res.ok_bind, if_pos rfl, V.ctx.hC.cayley, Res.ok_bind, hassert, Res.ok_bind, Res.assertIn_bind nd rfl,
            V.red hRy, Res.ok_bind]
          rw [← hI1d, hst1, i1, Res.ok_bind]
          show (do let d ← setFields (grid n es2.length C1) s.1 x _; _) = _
          rw [hset2, Res.ok_bind]
          rfl
        · intro y hy
          have : y ≠ x := by omega
          exact ⟨fun s' => by rw [hC2o s' y (.inr this)]; exact (i5 y hy).1 s', (i5 y hy).2⟩
        · rw [hC2x]
          exact ⟨prefix_get i3 j2, fun _ => i2, fun c => absurd hn c, rfl, rfl⟩
        · rw [hI1d, Function.update_self]
          exact hI1
  · have hnn : ¬ NC s b := fun c => hcx c.1.1
    have hlc : (if (ψ (nf (σ s * b * (τ (σ s))⁻¹))).w = (ψ b).w then pure 0 else c.T.tw.W.lengthChangeLeft nd s (ψ b).w : Res Int) =
        .ok ((cs.length (cs.simple s * π b) : Int) - cs.length (π b)) := by
      rw [if_neg (fun e => hcx (hw.1 e)), V.ctx.hI.weyl, V.ctx.hW.lengthChangeLeft]
    refine ⟨es1, C1, Function.update I x ⟨statusSet (I x).status s cplx, putBit (I x).desc s
      (decide ((cs.length (cs.simple s * π b) : Int) - cs.length (π b) < 0))⟩, ?_, j3, j4, hout1 _, hC1o, fun y hy => Function.update_of_ne hy _ _, ?_, ?_⟩
    · unfold stepGen
      rw [hget, Res.ok_bind, k1, Res.ok_bind, k3, Res.ok_bind, hlc, Res.ok_bind, j1, Res.ok_bind]
      simp only [hdata]
      rw [hset, Res.ok_bind]
      simp only [hinfo]
      rw [hmy, Res.ok_bind, if_pos (by omega), bsSet_ok (show s.1 < dim from hs32), Res.ok_bind, put_range _ hx1, Res.ok_bind]
      rfl
    · rw [hC1x]
      exact ⟨j2, fun c => absurd c hnn, fun _ => rfl, rfl, rfl⟩
    · rw [Function.update_self]
      refine infoOK_set V hI ?_ (by rw [decide_eq_true_eq]; omega)
      unfold sv
      rw [if_pos hcx]

end

end Verif.KGB
