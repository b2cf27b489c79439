import Verif.Datum.OrbitGen
import Verif.Datum.Props
import Verif.Weyl.Props
/-
Property C71: orbits of weights and coweights under the Weyl group, and under the group generated by the reflections in a list of roots.
-/
namespace Verif.Datum
open Verif Verif.Mat Verif.Root Verif.Coxeter
open scoped Matrix
set_option linter.unusedSectionVars false

theorem choose_words {X U A : Type} {F : A → X} {f : A → U} {Q : A → Prop} {l : List X} {us : List U} (h : List.Forall₂ (fun x u => ∃ w, x = F w ∧ f w = u ∧ Q w) l us) :
    ∃ ws : List A, l = ws.map F ∧ ws.map f = us ∧ ∀ w ∈ ws, Q w := by
  induction h with
  | nil => exact ⟨[], rfl, rfl, fun w hw => by simp at hw⟩
  | cons hx _ ih =>
    obtain ⟨w, rfl, rfl, hq⟩ := hx
    obtain ⟨ws, h1, h2, h3⟩ := ih
    refine ⟨w :: ws, by rw [h1]; rfl, by rw [← h2]; rfl, fun w' hw' => ?_⟩
    rcases List.mem_cons.1 hw' with rfl | hw'
    · exact hq
    · exact h3 _ hw'

theorem coact_append {r : Nat} {ι : Type} {ro co : ι → Fin r → ℤ} (u : List ι) : ∀ (v : Fin r → ℤ) (w : List ι), coact ro co v (u ++ w) = coact ro co (coact ro co v u) w := by
  induction u with
  | nil => intro v w; rfl
  | cons s u ih => intro v w; rw [List.cons_append, coact, ih]; rfl

/-- the orbit does not depend on the element chosen in it -/
theorem IsOrbit.move {r : Nat} {ι : Type} {a c : ι → Fin r → ℤ} (h2 : ∀ i, a i ⬝ᵥ c i = 2) [Fintype ι] {v v' : Fin r → ℤ} {us : List (Fin r → ℤ)} (h : IsOrbit a c (fun _ => True) v' us)
    {w0 : List ι} (hw : act a c w0 v = v') : us.Nodup ∧ ∀ u, u ∈ us ↔ ∃ w, u = act a c w v := by
  refine ⟨h.nodup, fun u => (h.mem u).trans ⟨?_, ?_⟩⟩
  · rintro ⟨w, -, rfl⟩
    exact ⟨w ++ w0, by rw [act_append, hw]⟩
  · rintro ⟨w, rfl⟩
    exact ⟨w ++ w0.reverse, fun _ _ => trivial, by rw [act_append, ← hw, act_reverse h2]⟩

theorem coexists {r : Nat} {ι : Type} {a c : ι → Fin r → ℤ} {v u : Fin r → ℤ} : (∃ w, u = act c a w v) ↔ ∃ w, u = coact a c v w :=
  ⟨fun ⟨w, h⟩ => ⟨w.reverse, by rw [coact_eq, List.reverse_reverse, h]⟩, fun ⟨w, h⟩ => ⟨w.reverse, by rw [h, coact_eq]⟩⟩

section
variable {n r : Nat} {α αv : Fin n → Fin r → ℤ} {nd pc : Bool} {comps : List Weyl.Comp} {N : Nat} {R R' : Nat → Fin n → ℤ} {rd : RD}

theorem range_map (n : Nat) : List.range n = (List.finRange n).map Fin.val := by simp

theorem vec_list {l : List (List Int)} {us : List (Fin r → ℤ)} (h : List.Forall₂ (fun x u => x = List.ofFn u) l us) : l = us.map List.ofFn := by
  induction h with
  | nil => rfl
  | cons hx _ ih => rw [hx, ih]; rfl

/-- **C71**: `Weyl_orbit` of a weight lists its orbit, without repetition. -/
theorem C71_orbit (hs : System nd α αv comps pc rd N R R') (v : Fin r → ℤ) :
    ∃ us : List (Fin r → ℤ), rd.weylOrbit nd false (List.ofFn v) = .ok (us.map List.ofFn) ∧ us.Nodup ∧ ∀ u, u ∈ us ↔ ∃ w, u = act α αv w v := by
  have H := hs.holds
  obtain ⟨w0, h1, h2⟩ := (C70_dominance hs).makeDominant v
  obtain ⟨st, l, us, h3, h4, h5, h6⟩ := orbit_ok nd (simple_acc H).1 (simple_gen H) (basic_ok H).1 (op := (Access.simple nd false rd).reflect) (Rel := fun x u => x = List.ofFn u)
    (fun i x u hx => ⟨_, by rw [hx]; exact (simple_acc H).1.reflect i u, rfl⟩) h2 (List.nodup_finRange n) List.mem_finRange rfl id (fun _ _ => Iff.rfl)
  refine ⟨us, ?_, h6.move (two_simple H) rfl⟩
  rw [RD.weylOrbit, if_neg (by simp), h1, Res.ok_bind]
  simp only []
  rw [show rd.ssRank = n from H.sys.answers.rank, range_map, h3, Res.ok_bind, ← vec_list h5]
  exact h4

/-- **C71**: `Weyl_orbit` of a coweight. -/
theorem C71_coorbit (hs : System nd α αv comps pc rd N R R') (v : Fin r → ℤ) :
    ∃ us : List (Fin r → ℤ), rd.weylOrbit nd true (List.ofFn v) = .ok (us.map List.ofFn) ∧ us.Nodup ∧ ∀ u, u ∈ us ↔ ∃ w, u = coact α αv v w := by
  have H := hs.holds
  obtain ⟨w0, h1, h2⟩ := (C70_dominance hs).makeCodominant v
  obtain ⟨st, l, us, h3, h4, h5, h6⟩ := orbit_ok nd (simple_acc H).2 (simple_gen H).swap (basic_ok H).2 (op := (Access.simple nd true rd).reflect) (Rel := fun x u => x = List.ofFn u)
    (fun i x u hx => ⟨_, by rw [hx]; exact (simple_acc H).2.reflect i u, rfl⟩) h2 (List.nodup_finRange n) List.mem_finRange rfl id (fun _ _ => Iff.rfl)
  have h7 := h6.move (fun i => by rw [dotProduct_comm]; exact two_simple H i) (v := v) (w0 := w0.reverse) (by rw [coact_eq])
  refine ⟨us, ?_, h7.1, fun u => (h7.2 u).trans coexists⟩
  rw [RD.weylOrbit, if_pos rfl, h1, Res.ok_bind]
  simp only []
  rw [show rd.ssRank = n from H.sys.answers.rank, range_map, h3, Res.ok_bind, ← vec_list h5]
  exact h4

/-! ### elements of the Weyl group -/

variable {Γ : Type} [Group Γ] {cs : CoxeterSystem (Weyl.coxMatrix (cart α αv)) Γ} {W : Weyl.WG} {φ : Γ → List Nat}

/-- **C71**: `Weyl_orbit_Welts` of a weight lists elements of the Weyl group that send it to the elements of its orbit, each once. -/
theorem C71_elements (hs : System nd α αv comps pc rd N R R') (hW : Weyl.Implements nd cs W φ) (v : Fin r → ℤ) :
    ∃ ws : List (List (Fin n)), rd.weylOrbitW nd false W (List.ofFn v) = .ok (ws.map fun w => φ (cs.wordProd w)) ∧
      (ws.map fun w => act α αv w v).Nodup ∧ ∀ u, ∃ w ∈ ws, act α αv w v = act α αv u v := by
  have H := hs.holds
  obtain ⟨w0, v', h1, h2⟩ := (C70_dominance hs).factorDominant v
  have hv' : act α αv w0.reverse v = v' := by rw [← h2.factor, act_reverse (two_simple H)]
  obtain ⟨st, l, us, h3, h4, h5, h6⟩ := orbit_ok nd (simple_acc H).1 (simple_gen H) (basic_ok H).1 (op := RD.prodGen nd false W)
    (Rel := fun x u => ∃ w, x = φ (cs.wordProd w) ∧ act α αv w v = u ∧ True) (fun i x u hx => by
      obtain ⟨w, rfl, rfl, -⟩ := hx
      refine ⟨φ (cs.wordProd (i :: w)), ?_, i :: w, rfl, rfl, trivial⟩
      rw [RD.prodGen, if_neg (by simp), hW.leftMultiplyGen, Res.ok_bind, CoxeterSystem.wordProd_cons]) h2.dominant (List.nodup_finRange n) List.mem_finRange
    (x := φ (cs.wordProd w0.reverse)) ⟨w0.reverse, rfl, hv', trivial⟩ id (fun _ _ => Iff.rfl)
  obtain ⟨ws, rfl, rfl, -⟩ := choose_words h5
  have h7 := h6.move (two_simple H) hv'
  refine ⟨ws, ?_, h7.1, fun u => List.mem_map.1 ((h7.2 _).2 ⟨u, rfl⟩)⟩
  rw [RD.weylOrbitW, if_neg (by simp), h1, Res.ok_bind]
  simp only []
  rw [show rd.ssRank = n from H.sys.answers.rank, range_map, h3, Res.ok_bind, ← List.map_reverse, hW.element, Res.ok_bind]
  exact h4

/-- **C71**: `Weyl_orbit_Welts` of a coweight. -/
theorem C71_coelements (hs : System nd α αv comps pc rd N R R') (hW : Weyl.Implements nd cs W φ) (v : Fin r → ℤ) :
    ∃ ws : List (List (Fin n)), rd.weylOrbitW nd true W (List.ofFn v) = .ok (ws.map fun w => φ (cs.wordProd w)) ∧
      (ws.map fun w => coact α αv v w).Nodup ∧ ∀ u, ∃ w ∈ ws, coact α αv v w = coact α αv v u := by
  have H := hs.holds
  have htwo : ∀ i, αv i ⬝ᵥ α i = 2 := fun i => by rw [dotProduct_comm]; exact two_simple H i
  obtain ⟨w0, v', h1, h2⟩ := (C70_dominance hs).factorCodominant v
  have hv' : coact α αv v w0.reverse = v' := by
    rw [← h2.factor, coact_eq, coact_eq, List.reverse_reverse]
    have := act_reverse htwo w0.reverse v'
    rwa [List.reverse_reverse] at this
  obtain ⟨st, l, us, h3, h4, h5, h6⟩ := orbit_ok nd (simple_acc H).2 (simple_gen H).swap (basic_ok H).2 (op := RD.prodGen nd true W)
    (Rel := fun x u => ∃ w, x = φ (cs.wordProd w) ∧ coact α αv v w = u ∧ True) (fun i x u hx => by
      obtain ⟨w, rfl, rfl, -⟩ := hx
      refine ⟨φ (cs.wordProd (w ++ [i])), ?_, w ++ [i], rfl, by rw [coact_append]; rfl, trivial⟩
      rw [RD.prodGen, if_pos rfl, hW.multGen, Res.ok_bind, CoxeterSystem.wordProd_append, CoxeterSystem.wordProd_singleton]) h2.dominant (List.nodup_finRange n) List.mem_finRange
    (x := φ (cs.wordProd w0.reverse)) ⟨w0.reverse, rfl, hv', trivial⟩ id (fun _ _ => Iff.rfl)
  obtain ⟨ws, rfl, rfl, -⟩ := choose_words h5
  have h7 := h6.move htwo (v := v) (w0 := w0) (by rw [← hv', coact_eq, List.reverse_reverse])
  refine ⟨ws, ?_, h7.1, fun u => List.mem_map.1 ((h7.2 _).2 (coexists.2 ⟨u, rfl⟩))⟩
  rw [RD.weylOrbitW, if_pos rfl, h1, Res.ok_bind]
  simp only []
  rw [show rd.ssRank = n from H.sys.answers.rank, range_map, h3, Res.ok_bind, ← List.map_reverse, hW.element, Res.ok_bind]
  exact h4

/-! ### the group generated by the reflections in a list of roots -/

section
variable {G : List Nat}

/-- simple roots and coroots given by the list -/
abbrev roG (α : Fin n → Fin r → ℤ) (R : Nat → Fin n → ℤ) (G : List Nat) : Fin G.length → Fin r → ℤ := fun i => lin α (R G[i])

theorem gen_of_cartan (H : Holds nd α αv comps pc N R R' rd) (hg : ∀ i : Fin G.length, G[i] < 2 * N) {comps' : List Weyl.Comp}
    (hC : Spec.Cartan (fun i j : Fin G.length => roG α R G i ⬝ᵥ roG αv R' G j) comps') :
    (∃ P g ro co, Gen (roG α R G) (roG αv R' G) P g ro co ∧ P.card ≤ N) ∧ Function.Injective (fun i : Fin G.length => G[i]) := by
  have hinj : ∀ i j : Fin G.length, roG α R G i = roG α R G j → i = j := fun i j e => by
    by_contra hne
    have h1 := hC.nonpos i j hne
    have h2 := hC.diag j
    simp only [e] at h1
    omega
  obtain ⟨P, g, ro, co, h1, h2, h3, h4⟩ := cartan_sys H hg hC
  refine ⟨⟨P, g, ro, co, ⟨h1, fun i j e => hinj i j ?_, h2, h3⟩, h4⟩, fun i j e => hinj i j ?_⟩
  · have := h2 i
    rw [e, h2 j] at this
    exact this.symm
  · show lin α (R G[i]) = lin α (R G[j])
    have e' : G[i] = G[j] := e
    rw [e']

theorem map_get (G : List Nat) : G = (List.finRange G.length).map fun i : Fin G.length => G[i] := by
  rw [← List.ofFn_eq_map]; exact List.ofFn_getElem.symm

/-- the orbit for the list, of a vector that is dominant for it -/
theorem orbitG (hs : System nd α αv comps pc rd N R R') (hr : r < 2 ^ 64) (hg : ∀ i : Fin G.length, G[i] < 2 * N) {comps' : List Weyl.Comp}
    (hC : Spec.Cartan (fun i j : Fin G.length => roG α R G i ⬝ᵥ roG αv R' G j) comps') {X : Type} {op : Nat → X → Res X} {Rel : X → (Fin r → ℤ) → Prop}
    (hop : ∀ (i : Fin G.length) x u, Rel x u → ∃ y, op G[i] x = .ok y ∧ Rel y (refl (roG α R G i) (roG αv R' G i) u)) {v : Fin r → ℤ} (hv : ∀ i, 0 ≤ v ⬝ᵥ roG αv R' G i)
    {x : X} (hx : Rel x v) : ∃ st l us, splitGens nd (Access.all nd false rd) (List.ofFn v) G = .ok st ∧ orbitLoop (basicOrbitG nd false rd) op st.2 (sortAsc st.1) [x] = .ok l ∧
      List.Forall₂ Rel l us ∧ IsOrbit (roG α R G) (roG αv R' G) (fun _ => True) v us := by
  have H := hs.holds
  obtain ⟨⟨P, g, ro, co, h1, h2⟩, h3⟩ := gen_of_cartan H hg hC
  have h4 := orbit_ok nd (all_acc H hg).1 h1 (basicG_ok nd false H.rank hr (all_acc H hg).1 h1 h3 (by rw [H.sys.answers.numPos]; exact h2)) hop hv (List.nodup_finRange _) List.mem_finRange hx
    sortAsc (fun _ _ => mem_sortAsc)
  rw [← map_get] at h4
  exact h4

theorem coorbitG (hs : System nd α αv comps pc rd N R R') (hr : r < 2 ^ 64) (hg : ∀ i : Fin G.length, G[i] < 2 * N) {comps' : List Weyl.Comp}
    (hC : Spec.Cartan (fun i j : Fin G.length => roG α R G i ⬝ᵥ roG αv R' G j) comps') {X : Type} {op : Nat → X → Res X} {Rel : X → (Fin r → ℤ) → Prop}
    (hop : ∀ (i : Fin G.length) x u, Rel x u → ∃ y, op G[i] x = .ok y ∧ Rel y (refl (roG αv R' G i) (roG α R G i) u)) {v : Fin r → ℤ} (hv : ∀ i, 0 ≤ v ⬝ᵥ roG α R G i)
    {x : X} (hx : Rel x v) : ∃ st l us, splitGens nd (Access.all nd true rd) (List.ofFn v) G = .ok st ∧ orbitLoop (basicOrbitG nd true rd) op st.2 (sortAsc st.1) [x] = .ok l ∧
      List.Forall₂ Rel l us ∧ IsOrbit (roG αv R' G) (roG α R G) (fun _ => True) v us := by
  have H := hs.holds
  obtain ⟨⟨P, g, ro, co, h1, h2⟩, h3⟩ := gen_of_cartan H hg hC
  have h4 := orbit_ok nd (all_acc H hg).2 h1.swap (basicG_ok nd true H.rank hr (all_acc H hg).2 h1.swap h3 (by rw [H.sys.answers.numPos]; exact h2)) hop hv (List.nodup_finRange _) List.mem_finRange hx
    sortAsc (fun _ _ => mem_sortAsc)
  rw [← map_get] at h4
  exact h4

theorem two_G (hC : Spec.Cartan (fun i j : Fin G.length => roG α R G i ⬝ᵥ roG αv R' G j) comps) (i : Fin G.length) : roG α R G i ⬝ᵥ roG αv R' G i = 2 := hC.diag i

/-- **C71**: `Weyl_orbit` for a list of roots whose pairings are a Cartan matrix of finite type lists the orbit of a weight for the group generated by the
reflections in these roots.  Partial: this is only so for weights that are dominant, for the whole Weyl group and for that subgroup; see below. -/
theorem C71_orbitG_partial (hs : System nd α αv comps pc rd N R R') (hr : r < 2 ^ 64) (hg : ∀ i : Fin G.length, G[i] < 2 * N) {comps' : List Weyl.Comp}
    (hC : Spec.Cartan (fun i j : Fin G.length => roG α R G i ⬝ᵥ roG αv R' G j) comps') {v : Fin r → ℤ} (hv : ∀ s, 0 ≤ v ⬝ᵥ αv s) (hv' : ∀ i, 0 ≤ v ⬝ᵥ roG αv R' G i) :
    ∃ us : List (Fin r → ℤ), rd.weylOrbitG nd false G (List.ofFn v) = .ok (us.map List.ofFn) ∧ us.Nodup ∧ ∀ u, u ∈ us ↔ ∃ w, u = act (roG α R G) (roG αv R' G) w v := by
  have H := hs.holds
  obtain ⟨w0, v0, h1, h2⟩ := (C70_dominance hs).factorDominant v
  have hv0 : v0 = v := (h2.unique [] hv).symm
  subst hv0
  obtain ⟨st, l, us, h3, h4, h5, h6⟩ := orbitG hs hr hg hC (op := (Access.all nd false rd).reflect) (Rel := fun x u => x = List.ofFn u)
    (fun i x u hx => ⟨_, by rw [hx]; exact (all_acc H hg).1.reflect i u, rfl⟩) hv' rfl
  refine ⟨us, ?_, h6.move (two_G hC) (w0 := []) rfl⟩
  rw [RD.weylOrbitG, if_neg (by simp), RD.makeDominantG, h1, Res.ok_bind, Res.ok_bind]
  simp only []
  rw [h3, Res.ok_bind, ← vec_list h5]
  exact h4

/-- **C71**: `Weyl_orbit` for a list of roots and a coweight.  Partial in the same way. -/
theorem C71_coorbitG_partial (hs : System nd α αv comps pc rd N R R') (hr : r < 2 ^ 64) (hg : ∀ i : Fin G.length, G[i] < 2 * N) {comps' : List Weyl.Comp}
    (hC : Spec.Cartan (fun i j : Fin G.length => roG α R G i ⬝ᵥ roG αv R' G j) comps') {v : Fin r → ℤ} (hv : ∀ s, 0 ≤ v ⬝ᵥ α s) (hv' : ∀ i, 0 ≤ v ⬝ᵥ roG α R G i) :
    ∃ us : List (Fin r → ℤ), rd.weylOrbitG nd true G (List.ofFn v) = .ok (us.map List.ofFn) ∧ us.Nodup ∧ ∀ u, u ∈ us ↔ ∃ w, u = coact (roG α R G) (roG αv R' G) v w := by
  have H := hs.holds
  obtain ⟨w0, v0, h1, h2⟩ := (C70_dominance hs).factorCodominant v
  have hv0 : v0 = v := (h2.unique [] hv).symm
  subst hv0
  obtain ⟨st, l, us, h3, h4, h5, h6⟩ := coorbitG hs hr hg hC (op := (Access.all nd true rd).reflect) (Rel := fun x u => x = List.ofFn u)
    (fun i x u hx => ⟨_, by rw [hx]; exact (all_acc H hg).2.reflect i u, rfl⟩) hv' rfl
  have h7 := h6.move (fun i => by rw [dotProduct_comm]; exact two_G hC i) (v := v0) (w0 := []) rfl
  refine ⟨us, ?_, h7.1, fun u => (h7.2 u).trans coexists⟩
  rw [RD.weylOrbitG, if_pos rfl, RD.makeCodominantG, h1, Res.ok_bind, Res.ok_bind]
  simp only []
  rw [h3, Res.ok_bind, ← vec_list h5]
  exact h4

theorem moverG_ok (hs : System nd α αv comps pc rd N R R') (hg : ∀ i : Fin G.length, G[i] < 2 * N) (hW : Weyl.Implements nd cs W φ) :
    ∀ (p : List (Fin G.length)) (w : List (Fin n)), ∃ w' : List (Fin n), RD.moverG nd W rd G (p.map Fin.val) (φ (cs.wordProd w)) = .ok (φ (cs.wordProd w')) ∧
      ∀ x, act α αv w' x = act (roG α R G) (roG αv R' G) p.reverse (act α αv w x) := by
  intro p
  induction p with
  | nil => intro w; exact ⟨w, rfl, fun x => rfl⟩
  | cons i p ih =>
    intro w
    obtain ⟨ww, h1, h2, -⟩ := C70_reflectionWord hs (hg i)
    obtain ⟨w', h3, h4⟩ := ih (ww ++ w)
    refine ⟨w', ?_, fun x => ?_⟩
    · have hget : Vec.get G i.1 = .ok G[i] := Vec.get_ok i.2
      rw [List.map_cons, RD.moverG, hget, Res.ok_bind, h1, Res.ok_bind, hW.leftMultiplyWord, Res.ok_bind, ← CoxeterSystem.wordProd_append]
      exact h3
    · rw [h4, act_append, h2, List.reverse_cons, act_append]
      rfl

/-- words that act in the same way on weights do so on coweights -/
theorem coact_of_act {ι κ : Type} {a c : ι → Fin r → ℤ} {a' c' : κ → Fin r → ℤ} {w : List ι} {p : List κ} (h : ∀ x, act a c w x = act a' c' p x) (y : Fin r → ℤ) :
    coact a c y w = coact a' c' y p := by
  funext i
  have := coact_dot (ro := a) (co := c) w y (Pi.single i 1)
  rw [h, ← coact_dot, dotProduct_single_one, dotProduct_single_one] at this
  exact this

/-- **C71**: `Weyl_orbit_Welts` for a list of roots lists elements of the group generated by the reflections in these roots that send the weight to the elements of
its orbit, each once. -/
theorem C71_elementsG (hs : System nd α αv comps pc rd N R R') (hr : r < 2 ^ 64) (hg : ∀ i : Fin G.length, G[i] < 2 * N) {comps' : List Weyl.Comp}
    (hC : Spec.Cartan (fun i j : Fin G.length => roG α R G i ⬝ᵥ roG αv R' G j) comps') (hW : Weyl.Implements nd cs W φ) (v : Fin r → ℤ) :
    ∃ ws : List (List (Fin n)), rd.weylOrbitWG nd false W G (List.ofFn v) = .ok (ws.map fun w => φ (cs.wordProd w)) ∧
      (∀ w ∈ ws, ∃ p, ∀ x, act α αv w x = act (roG α R G) (roG αv R' G) p x) ∧ (ws.map fun w => act α αv w v).Nodup ∧
      ∀ p, ∃ w ∈ ws, act α αv w v = act (roG α R G) (roG αv R' G) p v := by
  have H := hs.holds
  obtain ⟨p0, v', h1, h2⟩ := (C70_dominanceG_partial hs hg hC).factorDominant v
  have hv' : act (roG α R G) (roG αv R' G) p0.reverse v = v' := by rw [← h2.factor]; exact act_reverse (two_G hC) _ _
  obtain ⟨w0, h8, h9⟩ := moverG_ok hs hg hW p0 []
  obtain ⟨st, l, us, h3, h4, h5, h6⟩ := orbitG hs hr hg hC (op := RD.prodRefl nd false W rd)
    (Rel := fun x u => ∃ w, x = φ (cs.wordProd w) ∧ act α αv w v = u ∧ ∃ p, ∀ x, act α αv w x = act (roG α R G) (roG αv R' G) p x) (fun i x u hx => by
      obtain ⟨w, rfl, rfl, p, hp⟩ := hx
      obtain ⟨ww, k1, k2, -⟩ := C70_reflectionWord hs (hg i)
      refine ⟨φ (cs.wordProd (ww ++ w)), ?_, ww ++ w, rfl, by rw [act_append, k2], i :: p, fun x => by rw [act_append, k2, hp]; rfl⟩
      rw [RD.prodRefl, k1, Res.ok_bind, if_neg (by simp), hW.leftMultiplyWord, CoxeterSystem.wordProd_append]) h2.dominant
    (x := φ (cs.wordProd w0)) ⟨w0, rfl, by rw [h9]; exact hv', p0.reverse, h9⟩
  obtain ⟨ws, rfl, rfl, h10⟩ := choose_words h5
  have h7 := h6.move (two_G hC) hv'
  refine ⟨ws, ?_, h10, h7.1, fun p => List.mem_map.1 ((h7.2 _).2 ⟨p, rfl⟩)⟩
  rw [RD.weylOrbitWG, if_neg (by simp), h1, Res.ok_bind]
  simp only []
  rw [← hW.one, ← cs.wordProd_nil, h8, Res.ok_bind, h3, Res.ok_bind]
  exact h4

/-- **C71**: `Weyl_orbit_Welts` for a list of roots and a coweight. -/
theorem C71_coelementsG (hs : System nd α αv comps pc rd N R R') (hr : r < 2 ^ 64) (hg : ∀ i : Fin G.length, G[i] < 2 * N) {comps' : List Weyl.Comp}
    (hC : Spec.Cartan (fun i j : Fin G.length => roG α R G i ⬝ᵥ roG αv R' G j) comps') (hW : Weyl.Implements nd cs W φ) (v : Fin r → ℤ) :
    ∃ ws : List (List (Fin n)), rd.weylOrbitWG nd true W G (List.ofFn v) = .ok (ws.map fun w => φ (cs.wordProd w)) ∧
      (∀ w ∈ ws, ∃ p, ∀ x, act α αv w x = act (roG α R G) (roG αv R' G) p x) ∧ (ws.map fun w => coact α αv v w).Nodup ∧
      ∀ p, ∃ w ∈ ws, coact α αv v w = coact (roG α R G) (roG αv R' G) v p := by
  have H := hs.holds
  have htwo : ∀ i, roG αv R' G i ⬝ᵥ roG α R G i = 2 := fun i => by rw [dotProduct_comm]; exact two_G hC i
  obtain ⟨p0, v', h1, h2⟩ := (C70_dominanceG_partial hs hg hC).factorCodominant v
  have hv' : act (roG αv R' G) (roG α R G) p0 v = v' := by
    rw [← h2.factor, coact_eq]
    have := act_reverse htwo p0.reverse v'
    rwa [List.reverse_reverse] at this
  obtain ⟨w0, h8, h9⟩ := moverG_ok hs hg hW p0 []
  obtain ⟨st, l, us, h3, h4, h5, h6⟩ := coorbitG hs hr hg hC (op := RD.prodRefl nd true W rd)
    (Rel := fun x u => ∃ w, x = φ (cs.wordProd w) ∧ coact α αv v w = u ∧ ∃ p, ∀ x, act α αv w x = act (roG α R G) (roG αv R' G) p x) (fun i x u hx => by
      obtain ⟨w, rfl, rfl, p, hp⟩ := hx
      obtain ⟨ww, k1, k2, -⟩ := C70_reflectionWord hs (hg i)
      refine ⟨φ (cs.wordProd (w ++ ww)), ?_, w ++ ww, rfl, ?_, p ++ [i], fun x => by rw [act_append, act_append, k2, hp]; rfl⟩
      · rw [RD.prodRefl, k1, Res.ok_bind, if_pos rfl, hW.multWord, CoxeterSystem.wordProd_append]
      · rw [coact_append, coact_of_act (w := ww) (p := [i]) (a' := roG α R G) (c' := roG αv R' G) k2]; rfl) h2.dominant
    (x := φ (cs.wordProd w0)) ⟨w0, rfl, by rw [coact_of_act (p := p0.reverse) h9, coact_eq, List.reverse_reverse]; exact hv', p0.reverse, h9⟩
  obtain ⟨ws, rfl, rfl, h10⟩ := choose_words h5
  have h7 := h6.move htwo hv'
  refine ⟨ws, ?_, h10, h7.1, fun p => List.mem_map.1 ((h7.2 _).2 (coexists.2 ⟨p, rfl⟩))⟩
  rw [RD.weylOrbitWG, if_pos rfl, h1, Res.ok_bind]
  simp only []
  rw [← hW.one, ← cs.wordProd_nil, h8, Res.ok_bind, h3, Res.ok_bind]
  exact h4

end

end

/-! ### examples -/

theorem cartan_one {n r : Nat} {α αv : Fin n → Fin r → ℤ} {nd pc : Bool} {comps : List Weyl.Comp} {N : Nat} {R R' : Nat → Fin n → ℤ} {rd : RD}
    (hs : System nd α αv comps pc rd N R R') (s : Fin n) : Spec.Cartan (fun i j : Fin [N + s.1].length => roG α R [N + s.1] i ⬝ᵥ roG αv R' [N + s.1] j) [⟨.A, 0, [0]⟩] := by
  have e : (fun i j : Fin [N + s.1].length => roG α R [N + s.1] i ⬝ᵥ roG αv R' [N + s.1] j) = fun _ _ => 2 := by
    funext i j
    have hi : i = ⟨0, by simp⟩ := Fin.ext (Nat.lt_one_iff.1 i.2)
    have hj : j = ⟨0, by simp⟩ := Fin.ext (Nat.lt_one_iff.1 j.2)
    subst hi hj
    show lin α (R (N + s.1)) ⬝ᵥ lin αv (R' (N + s.1)) = 2
    rw [(hs.base.numbering.simple.2 s).1, (hs.base.numbering.simple.2 s).2, lin_unit, lin_unit]
    exact two_simple hs.holds s
  rw [e]
  show Spec.Cartan (fun _ _ : Fin 1 => (2 : ℤ)) _
  exact { dynkin := Weyl.dynkin_of_test (by simp [Weyl.Ty.RankOK, Weyl.Comp.rank]) (by decide), diag := by decide, nonpos := by decide, zero := by decide }

/-- the hypotheses are met, with a weight that is not fixed by the Weyl group -/
example : ∃ rd N R R', ∃ (W : Weyl.WG) (φ : (Weyl.coxMatrix (cart exA exAv)).Group → List Nat) (v : Fin 6 → ℤ), System false exA exAv Weyl.exComps true rd N R R' ∧
    Weyl.Implements false (Weyl.coxMatrix (cart exA exAv)).toCoxeterSystem W φ ∧ (∀ i : Fin [N + (1 : Fin 5).1].length, [N + (1 : Fin 5).1][i] < 2 * N) ∧
    Spec.Cartan (fun i j : Fin [N + (1 : Fin 5).1].length => roG exA R [N + (1 : Fin 5).1] i ⬝ᵥ roG exAv R' [N + (1 : Fin 5).1] j) [⟨.A, 0, [0]⟩] ∧
    (∀ s, 0 < v ⬝ᵥ exAv s) ∧ ∀ i, 0 < v ⬝ᵥ roG exAv R' [N + (1 : Fin 5).1] i := by
  obtain ⟨rd, N, R, R', hs⟩ := exSystem
  obtain ⟨W, φ, -, hW⟩ := Weyl.C40_weylGroup false hs.cartan.dynkin (Weyl.coxMatrix (cart exA exAv)).toCoxeterSystem
  have hlt := simple_lt hs.holds (1 : Fin 5)
  have hv : ∀ s, 0 < (fun i : Fin 6 => if i.1 < 5 then (1 : ℤ) else 0) ⬝ᵥ exAv s := by decide
  refine ⟨rd, N, R, R', W, φ, fun i => if i.1 < 5 then 1 else 0, hs, hW, fun i => ?_, cartan_one hs 1, hv, fun i => ?_⟩
  all_goals
    have hi : i = ⟨0, by simp⟩ := Fin.ext (Nat.lt_one_iff.1 i.2)
    subst hi
  · exact hlt
  · show 0 < _ ⬝ᵥ lin exAv (R' (N + (1 : Fin 5).1))
    rw [(hs.base.numbering.simple.2 1).2, lin_unit]
    exact hv 1

/-- **C71** (negation): `Weyl_orbit` for a list of roots does not always list the orbit of the weight. -/
theorem C71_orbitG_false : ¬ ∀ {n r : Nat} {α αv : Fin n → Fin r → ℤ} {nd pc : Bool} {comps : List Weyl.Comp} {rd : RD} {N : Nat} {R R' : Nat → Fin n → ℤ},
    System nd α αv comps pc rd N R R' → r < 2 ^ 64 → ∀ {G : List Nat}, (∀ i : Fin G.length, G[i] < 2 * N) → ∀ {comps' : List Weyl.Comp},
    Spec.Cartan (fun i j : Fin G.length => roG α R G i ⬝ᵥ roG αv R' G j) comps' → ∀ v : Fin r → ℤ,
    ∃ us : List (Fin r → ℤ), rd.weylOrbitG nd false G (List.ofFn v) = .ok (us.map List.ofFn) ∧ ∀ u, u ∈ us ↔ ∃ w, u = act (roG α R G) (roG αv R' G) w v := by
  intro h
  obtain ⟨rd, hm⟩ := C69_make false false exA2Cartan
  obtain ⟨N, R, R', hs⟩ := C69_exists exA2Cartan (.make hm)
  have hlt := simple_lt hs.holds (1 : Fin 2)
  have hg : ∀ i : Fin [N + (1 : Fin 2).1].length, [N + (1 : Fin 2).1][i] < 2 * N := fun i => by
    have hi : i = ⟨0, by simp⟩ := Fin.ext (Nat.lt_one_iff.1 i.2)
    subst hi
    exact hlt
  have hr : (2 : Nat) < 2 ^ 64 := by norm_num
  obtain ⟨us, h1, h2⟩ := h hs hr hg (cartan_one hs 1) ![-1, 0]
  obtain ⟨w0, v', h3, h4⟩ := (C70_dominance hs).factorDominant ![-1, 0]
  obtain ⟨w1, v'', h5, h6⟩ := (C70_dominance hs).factorDominant v'
  have e : v'' = v' := (h6.unique [] h4.dominant).symm
  subst e
  obtain ⟨us', h7, -, h8⟩ := C71_orbitG_partial hs hr hg (cartan_one hs 1) h4.dominant (fun i => by
    have hi : i = ⟨0, by simp⟩ := Fin.ext (Nat.lt_one_iff.1 i.2)
    subst hi
    show 0 ≤ v'' ⬝ᵥ lin exA2v (R' (N + (1 : Fin 2).1))
    rw [(hs.base.numbering.simple.2 1).2, lin_unit]
    exact h4.dominant 1)
  have e2 : rd.weylOrbitG false false [N + (1 : Fin 2).1] (List.ofFn ![-1, 0]) = rd.weylOrbitG false false [N + (1 : Fin 2).1] (List.ofFn v'') := by
    rw [RD.weylOrbitG, RD.weylOrbitG, if_neg (by simp), if_neg (by simp), RD.makeDominantG, RD.makeDominantG, h3, h5]
    rfl
  rw [e2, h7] at h1
  have e3 : us' = us := List.map_injective_iff.2 List.ofFn_injective (Res.ok.inj h1)
  subst e3
  obtain ⟨w, hw⟩ := (h2 v'').1 ((h8 v'').2 ⟨[], rfl⟩)
  have hfix : act (roG exA2 R [N + (1 : Fin 2).1]) (roG exA2v R' [N + (1 : Fin 2).1]) w ![-1, 0] = ![-1, 0] := act_fix fun i _ => by
    have hi : i = ⟨0, by simp⟩ := Fin.ext (Nat.lt_one_iff.1 i.2)
    subst hi
    show ![-1, 0] ⬝ᵥ lin exA2v (R' (N + (1 : Fin 2).1)) = 0
    rw [(hs.base.numbering.simple.2 1).2, lin_unit]
    decide
  rw [hfix] at hw
  have := h4.dominant 0
  rw [hw] at this
  exact absurd this (by decide)

end Verif.Datum
