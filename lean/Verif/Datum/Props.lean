import Verif.Datum.DomCode
/-
Properties C69 and C70: root data, and making weights dominant.
-/
namespace Verif.Datum
open Verif Verif.Mat Verif.Root Verif.Coxeter
open scoped Matrix
set_option linter.unusedSectionVars false

section
variable {n r : Nat} {α αv : Fin n → Fin r → ℤ} {nd pc : Bool} {comps : List Weyl.Comp} {N : Nat} {R R' : Nat → Fin n → ℤ} {rd rd' : RD}

theorem holds_congr {N1 : Nat} {R1 R1' : Nat → Fin n → ℤ} (H : Holds nd α αv comps pc N R R' rd) (hs : Spec.System nd (cart α αv) comps pc rd.rs N1 R1 R1') :
    Holds nd α αv comps pc N1 R1 R1' rd := by
  have hN : N1 = N := by rw [← hs.answers.numPos, H.sys.answers.numPos]
  subst hN
  have hR : ∀ k < 2 * N1, R k = R1 k := fun k hk => by
    have h1 := hs.answers.rootExpr k hk
    rw [H.sys.answers.rootExpr k hk] at h1
    exact List.ofFn_injective (Res.ok.inj h1)
  have hR' : ∀ k < 2 * N1, R' k = R1' k := fun k hk => by
    have h1 := hs.answers.corootExpr k hk
    rw [H.sys.answers.corootExpr k hk] at h1
    exact List.ofFn_injective (Res.ok.inj h1)
  refine ⟨hs, H.rank, ?_, ?_, H.inv, H.radical, H.coradical, ?_, ?_, H.isAdjoint, H.isSimplyConnected⟩
  · rw [H.roots]; exact vk_congr fun k hk => by rw [hR k hk]
  · rw [H.coroots]; exact vk_congr fun k hk => by rw [hR' k hk]
  · rw [H.twoRho]
    congr 1
    refine Finset.sum_congr rfl fun k hk => ?_
    have := Finset.mem_range.1 hk
    rw [hR _ (by omega)]
  · rw [H.dualTwoRho]
    congr 1
    refine Finset.sum_congr rfl fun k hk => ?_
    have := Finset.mem_range.1 hk
    rw [hR' _ (by omega)]

theorem System.holds (hs : System nd α αv comps pc rd N R R') : Holds nd α αv comps pc N R R' rd := by
  obtain ⟨_, _, _, H⟩ := built_ok hs.cartan hs.built
  exact holds_congr H hs.base

/-- **C69**: the constructor succeeds for all lists of simple roots and coroots whose pairings are a Cartan matrix. -/
theorem C69_make (nd pc : Bool) (hC : Spec.Cartan (cart α αv) comps) : ∃ rd, RD.make nd ⟨enc (colMat α), enc (colMat αv), pc⟩ = .ok rd := by
  obtain ⟨rd, _, _, _, h, -⟩ := make_ok nd pc hC
  exact ⟨rd, h⟩

/-- **C69**: every object obtained from the constructors has a numbering of roots and coroots. -/
theorem C69_exists (hC : Spec.Cartan (cart α αv) comps) (hB : Built nd α αv pc rd) : ∃ N R R', System nd α αv comps pc rd N R R' := by
  obtain ⟨N, R, R', H⟩ := built_ok hC hB
  exact ⟨N, R, R', hC, hB, H.sys⟩

/-- **C69**: all accessors and actions give what they should. -/
theorem C69_datum (hs : System nd α αv comps pc rd N R R') : IsDatum nd α αv N R R' rd := hs.holds.isDatum

/-- **C69**: the dual exists and exchanges roots and coroots, with the same numbers. -/
theorem C69_dual (hC : Spec.Cartan (cart α αv) comps) (hB : Built nd α αv pc rd) :
    ∃ rd' N R R', RD.dual nd rd = .ok rd' ∧ System nd α αv comps pc rd N R R' ∧ System nd αv α comps (!pc) rd' N R' R := by
  obtain ⟨N, R, R', H⟩ := built_ok hC hB
  obtain ⟨rd', h1, N1, R1, R1', h2, h3⟩ := dual_ok H
  exact ⟨rd', N1, R1', R1, h1, ⟨hC, hB, h2⟩, h3.sys.cartan, .dual hB h1, h3.sys⟩

/-- **C70**: dominant weights and coweights for the whole Weyl group. -/
theorem C70_dominance (hs : System nd α αv comps pc rd N R R') : Dominance nd α αv rd := by
  have H := hs.holds
  refine ⟨factorDominant_ok H, factorCodominant_ok H, fun v => ?_, fun v => ?_, fun v => ?_, fun v => ?_, fun q u hq => wordOfInverse_ok H hq⟩
  · obtain ⟨w, v', h1, h2⟩ := factorDominant_ok H v
    have h3 : act α αv w.reverse v = v' := by rw [← h2.factor, act_reverse (two_simple H)]
    refine ⟨w.reverse, by rw [RD.toDominant, h1, Res.ok_bind, List.map_reverse], fun s => by rw [h3]; exact h2.dominant s, fun w' hw' => ?_⟩
    rw [List.length_reverse]
    exact h2.shortest w' hw'
  · obtain ⟨w, v', h1, h2⟩ := factorCodominant_ok H v
    have h3 : coact α αv v w.reverse = v' := by
      rw [← h2.factor, coact_eq, coact_eq, List.reverse_reverse]
      have := act_reverse (ro := αv) (co := α) (fun i => by rw [dotProduct_comm]; exact two_simple H i) w.reverse v'
      rwa [List.reverse_reverse] at this
    refine ⟨w.reverse, by rw [RD.toCodominant, h1, Res.ok_bind, List.map_reverse], fun s => by rw [h3]; exact h2.dominant s, fun w' hw' => ?_⟩
    rw [List.length_reverse]
    exact h2.shortest w' hw'
  · obtain ⟨w, v', h1, h2⟩ := factorDominant_ok H v
    have h3 : act α αv w.reverse v = v' := by rw [← h2.factor, act_reverse (two_simple H)]
    exact ⟨w.reverse, by rw [RD.makeDominant, h1, Res.ok_bind, h3], fun s => by rw [h3]; exact h2.dominant s⟩
  · obtain ⟨w, v', h1, h2⟩ := factorCodominant_ok H v
    have h3 : coact α αv v w.reverse = v' := by
      rw [← h2.factor, coact_eq, coact_eq, List.reverse_reverse]
      have := act_reverse (ro := αv) (co := α) (fun i => by rw [dotProduct_comm]; exact two_simple H i) w.reverse v'
      rwa [List.reverse_reverse] at this
    exact ⟨w.reverse, by rw [RD.makeCodominant, h1, Res.ok_bind, h3], fun s => by rw [h3]; exact h2.dominant s⟩

/-- **C70**: the word for a reflection is a shortest word that acts like it. -/
theorem C70_reflectionWord (hs : System nd α αv comps pc rd N R R') {k : Nat} (hk : k < 2 * N) :
    ∃ w : List (Fin n), rd.reflectionWord nd k = .ok (w.map Fin.val) ∧ (∀ v, act α αv w v = refl (lin α (R k)) (lin αv (R' k)) v) ∧
      ∀ w', (∀ v, act α αv w' v = refl (lin α (R k)) (lin αv (R' k)) v) → w.length ≤ w'.length := reflectionWord_ok hs.holds hk

theorem dominanceG (hs : System nd α αv comps pc rd N R R') {G : List Nat} (hg : ∀ i : Fin G.length, G[i] < 2 * N)
    (hS : HasSys (fun i : Fin G.length => lin α (R G[i])) (fun i : Fin G.length => lin αv (R' G[i])) N) : DominanceG nd α αv R R' G rd := by
  have H := hs.holds
  have h2g : ∀ i : Fin G.length, lin α (R G[i]) ⬝ᵥ lin αv (R' G[i]) = 2 := fun i => by
    obtain ⟨P, g, ro, co, hsys, hro, hco, -⟩ := hS
    have := hsys.two _ (hsys.mem i)
    rwa [hro, hco] at this
  refine ⟨factorDominantG_ok H hg hS, factorCodominantG_ok H hg hS, fun v => ?_, fun v => ?_⟩
  · obtain ⟨w, v', h1, h2⟩ := factorDominantG_ok H hg hS v
    have h3 : act (fun i : Fin G.length => lin α (R G[i])) (fun i : Fin G.length => lin αv (R' G[i])) w.reverse v = v' := by rw [← h2.factor, act_reverse h2g]
    refine ⟨w.reverse, by rw [RD.toDominantG, h1, Res.ok_bind, List.map_reverse], fun s => by rw [h3]; exact h2.dominant s, fun w' hw' => ?_⟩
    rw [List.length_reverse]
    exact h2.shortest w' hw'
  · obtain ⟨w, v', h1, h2⟩ := factorCodominantG_ok H hg hS v
    have h3 : coact (fun i : Fin G.length => lin α (R G[i])) (fun i : Fin G.length => lin αv (R' G[i])) v w.reverse = v' := by
      rw [← h2.factor, coact_eq, coact_eq, List.reverse_reverse]
      have := act_reverse (ro := fun i : Fin G.length => lin αv (R' G[i])) (co := fun i : Fin G.length => lin α (R G[i])) (fun i => by rw [dotProduct_comm]; exact h2g i) w.reverse v'
      rwa [List.reverse_reverse] at this
    refine ⟨w.reverse, by rw [RD.toCodominantG, h1, Res.ok_bind, List.map_reverse], fun s => by rw [h3]; exact h2.dominant s, fun w' hw' => ?_⟩
    rw [List.length_reverse]
    exact h2.shortest w' hw'

/-- **C70**: the same for the Weyl group generated by the reflections in a list of roots, positive or not, whose pairings are a Cartan matrix of
finite type.  Partial: the functions `make_dominant` and `make_codominant` with a list do not have the property, see below. -/
theorem C70_dominanceG_partial (hs : System nd α αv comps pc rd N R R') {G : List Nat} (hg : ∀ i : Fin G.length, G[i] < 2 * N) {comps' : List Weyl.Comp}
    (hC : Spec.Cartan (fun i j : Fin G.length => lin α (R G[i]) ⬝ᵥ lin αv (R' G[j])) comps') : DominanceG nd α αv R R' G rd :=
  dominanceG hs hg (cartan_sys hs.holds hg hC)

/-- **C70**: the same for the Weyl group of a subsystem, given by the list of its simple roots in any order.  Partial for the same reason. -/
theorem C70_dominanceSub_partial (hs : System nd α αv comps pc rd N R R') {S : Nat → Prop} (hS : Spec.Subsystem (cart α αv) N R R' S) {G : List Nat}
    (hG : ∀ a, a ∈ G ↔ Spec.IsSimpleIn N R S a) : DominanceG nd α αv R R' G rd :=
  dominanceG hs (fun _ => hS.lt _ ((hG _).1 (List.getElem_mem _)).1) (list_sys hs.holds hS hG)

theorem sub_simple (hs : System nd α αv comps pc rd N R R') (i : Fin n) : Spec.Subsystem (cart α αv) N R R' (fun k => k = N + i.1 ∨ k = N - 1 - i.1) ∧
    ∀ a, a ∈ [N + i.1] ↔ Spec.IsSimpleIn N R (fun k => k = N + i.1 ∨ k = N - 1 - i.1) a := by
  have hn := hs.base.numbering
  have hle := hn.simple.1
  have hi := i.2
  have e : 2 * N - 1 - (N + i.1) = N - 1 - i.1 := by omega
  have h1 := (hn.simple.2 i).1
  have h1' := (hn.simple.2 i).2
  have h2 := hn.neg (N + i.1) (by omega)
  rw [e, h1, h1'] at h2
  have h3 : R (N - 1 - i.1) = fun j => -Spec.unit i j := funext h2.1
  have h3' : R' (N - 1 - i.1) = fun j => -Spec.unit i j := funext h2.2
  have h4 : Spec.pair (cart α αv) (Spec.unit i) (Spec.unit i) = 2 := by
    have := pair_lin (α := α) (αv := αv) (Spec.unit i) (Spec.unit i)
    rw [lin_unit, lin_unit] at this
    exact this.symm.trans (two_simple hs.holds i)
  have h5 : ∀ x y, Spec.pair (cart α αv) (fun j => -x j) y = -Spec.pair (cart α αv) x y := fun x y => form_neg_left (C := cart α αv) x y
  have h6 : ∀ x y, Spec.pair (cart α αv) x (fun j => -y j) = -Spec.pair (cart α αv) x y := fun x y => form_neg_right (C := cart α αv) x y
  refine ⟨⟨fun a ha => by omega, fun a b ha hb => ?_⟩, fun a => ⟨fun ha => ?_, fun ha => ?_⟩⟩
  · rcases ha with rfl | rfl <;> rcases hb with rfl | rfl
    · exact ⟨_, .inr rfl, fun j => by rw [h1, h1', h3, h4]; ring⟩
    · exact ⟨_, .inl rfl, fun j => by rw [h1, h1', h3, h5, h4]; ring⟩
    · exact ⟨_, .inr rfl, fun j => by rw [h1, h3, h3', h6, h4]; ring⟩
    · exact ⟨_, .inl rfl, fun j => by rw [h1, h3, h3', h5, h6, h4]; ring⟩
  · rw [List.mem_singleton] at ha
    subst ha
    refine ⟨.inl rfl, by omega, ?_⟩
    rintro ⟨b, c, hb, hb', hc, hc', h⟩
    have eb : b = N + i.1 := by omega
    have ec : c = N + i.1 := by omega
    have := h i
    rw [eb, ec, h1, Spec.unit, if_pos rfl] at this
    omega
  · rw [List.mem_singleton]
    have := ha.1
    have := ha.2.1
    omega

end

/-! ### examples -/

/-- a root datum of rank 6 and type B3+G2 -/
def exA : Fin 5 → Fin 6 → ℤ := fun s t => if h : t.1 < 5 then Weyl.exC s ⟨t, h⟩ else s
def exAv : Fin 5 → Fin 6 → ℤ := fun s t => if t.1 = s.1 then 1 else 0

theorem exCart : cart exA exAv = Weyl.exC := by decide

/-- the hypotheses of C69 and C70 are met, also for the dual -/
theorem exSystem : ∃ rd N R R', System false exA exAv Weyl.exComps true rd N R R' := by
  have hC : Spec.Cartan (cart exA exAv) Weyl.exComps := exCart ▸ exCartan
  obtain ⟨rd, h⟩ := C69_make false true hC
  obtain ⟨N, R, R', hs⟩ := C69_exists hC (.make h)
  exact ⟨rd, N, R, R', hs⟩

example : ∃ rd N R R' S, ∃ G : List Nat, System false exA exAv Weyl.exComps true rd N R R' ∧ Spec.Subsystem (cart exA exAv) N R R' S ∧ G ≠ [] ∧ ∀ a, a ∈ G ↔ Spec.IsSimpleIn N R S a := by
  obtain ⟨rd, N, R, R', hs⟩ := exSystem
  exact ⟨rd, N, R, R', _, _, hs, (sub_simple hs 1).1, by simp, (sub_simple hs 1).2⟩

/-- a list of roots that are not positive -/
example : ∃ rd N R R', System false exA exAv Weyl.exComps true rd N R R' ∧ ∃ G : List Nat, G.length = 5 ∧ (∀ i : Fin G.length, G[i] < 2 * N) ∧
    Spec.Cartan (fun i j : Fin G.length => lin exA (R G[i]) ⬝ᵥ lin exAv (R' G[j])) Weyl.exComps := by
  obtain ⟨rd, N, R, R', hs⟩ := exSystem
  have hn := hs.base.numbering
  have hle := hn.simple.1
  have e : ∀ i : Fin 5, [N - 1 - 0, N - 1 - 1, N - 1 - 2, N - 1 - 3, N - 1 - 4][i] = N - 1 - i.1 := fun i => by fin_cases i <;> rfl
  have h1 : ∀ i : Fin 5, lin exA (R (N - 1 - i.1)) = - exA i ∧ lin exAv (R' (N - 1 - i.1)) = - exAv i := fun i => by
    have h2 := hn.minus (k := N + i.1) (by omega)
    rw [show 2 * N - 1 - (N + i.1) = N - 1 - i.1 by omega] at h2
    rw [h2.1, h2.2, lin_neg, lin_neg, (hn.simple.2 i).1, (hn.simple.2 i).2, lin_unit, lin_unit]
    exact ⟨rfl, rfl⟩
  refine ⟨rd, N, R, R', hs, [N - 1 - 0, N - 1 - 1, N - 1 - 2, N - 1 - 3, N - 1 - 4], rfl, fun i => ?_, ?_⟩
  · have := e i
    have h3 : N - 1 - i.1 < 2 * N := by omega
    exact this ▸ h3
  · have h2 : (fun i j : Fin 5 => lin exA (R [N - 1 - 0, N - 1 - 1, N - 1 - 2, N - 1 - 3, N - 1 - 4][i]) ⬝ᵥ lin exAv (R' [N - 1 - 0, N - 1 - 1, N - 1 - 2, N - 1 - 3, N - 1 - 4][j])) = cart exA exAv := by
      funext i j
      rw [e, e, (h1 i).1, (h1 j).2, neg_dotProduct, dotProduct_neg, neg_neg]
    show Spec.Cartan (fun i j : Fin 5 => lin exA (R [N - 1 - 0, N - 1 - 1, N - 1 - 2, N - 1 - 3, N - 1 - 4][i]) ⬝ᵥ lin exAv (R' [N - 1 - 0, N - 1 - 1, N - 1 - 2, N - 1 - 3, N - 1 - 4][j])) Weyl.exComps
    rw [h2]
    exact hs.cartan

/-- the matrices of words meet the hypothesis on `wordOfInverse`, and reflections the one on `rootPermutation` -/
example : ∃ (rd : RD) (q : Matrix (Fin 6) (Fin 6) ℤ), Built false exA exAv true rd ∧ rd.actionMatrix false [0, 3] = .ok (enc q) ∧ ∀ v, q *ᵥ v = act exA exAv [0, 3] v := by
  obtain ⟨rd, N, R, R', hs⟩ := exSystem
  obtain ⟨q, h1, h2⟩ := (C69_datum hs).actionMatrix [0, 3]
  exact ⟨rd, q, hs.built, h1, h2⟩

example : ∃ rd N R R', ∃ q : Matrix (Fin 6) (Fin 6) ℤ, System false exA exAv Weyl.exComps true rd N R R' ∧ (∀ k < 2 * N, ∃ m < 2 * N, q *ᵥ lin exA (R k) = lin exA (R m)) ∧
    ∀ k < 2 * N, ∀ l < 2 * N, q *ᵥ lin exA (R k) = q *ᵥ lin exA (R l) → k = l := by
  obtain ⟨rd, N, R, R', hs⟩ := exSystem
  refine ⟨rd, N, R, R', -1, hs, fun k hk => ⟨2 * N - 1 - k, by omega, ?_⟩, fun k hk l hl e => ?_⟩
  · rw [Matrix.neg_mulVec, Matrix.one_mulVec, ← lin_neg]
    congr 1
    exact (funext (hs.base.numbering.neg k hk).1).symm
  · rw [Matrix.neg_mulVec, Matrix.one_mulVec, Matrix.neg_mulVec, Matrix.one_mulVec] at e
    exact (C69_datum hs).inj k hk l hl (.inl (neg_injective e))

/-! ### `make_dominant` for a list of generators -/

/-- the simply connected root datum of type A2 -/
def exA2 : Fin 2 → Fin 2 → ℤ := fun s t => if t = s then 2 else -1
def exA2v : Fin 2 → Fin 2 → ℤ := fun s t => if t = s then 1 else 0

theorem exA2Cartan : Spec.Cartan (cart exA2 exA2v) [⟨.A, 0, [0, 1]⟩] where
  dynkin := Weyl.dynkin_of_test (by simp [Weyl.Ty.RankOK, Weyl.Comp.rank]) (by decide)
  diag := by decide
  nonpos := by decide
  zero := by decide

/-- **C70** (negation): `make_dominant` called with a list of generators can leave the orbit for the group that they generate. -/
theorem C70_makeDominantG_false : ¬ ∀ {n r : Nat} {α αv : Fin n → Fin r → ℤ} {nd pc : Bool} {comps : List Weyl.Comp} {rd : RD} {N : Nat} {R R' : Nat → Fin n → ℤ},
    System nd α αv comps pc rd N R R' → ∀ {S : Nat → Prop}, Spec.Subsystem (cart α αv) N R R' S → ∀ {G : List Nat}, (∀ a, a ∈ G ↔ Spec.IsSimpleIn N R S a) →
    ∀ v : Fin r → ℤ, ∃ w : List (Fin G.length), rd.makeDominantG nd G (List.ofFn v) =
      .ok (List.ofFn (act (fun i : Fin G.length => lin α (R G[i])) (fun i : Fin G.length => lin αv (R' G[i])) w v)) := by
  intro h
  obtain ⟨rd, hm⟩ := C69_make false false exA2Cartan
  obtain ⟨N, R, R', hs⟩ := C69_exists exA2Cartan (.make hm)
  obtain ⟨w, hw⟩ := h hs (sub_simple hs 1).1 (sub_simple hs 1).2 ![-1, 0]
  obtain ⟨w', h1, h2⟩ := (C70_dominance hs).makeDominant ![-1, 0]
  rw [show rd.makeDominantG false [N + (1 : Fin 2).1] (List.ofFn ![-1, 0]) = rd.makeDominant false (List.ofFn ![-1, 0]) from rfl, h1] at hw
  have e := List.ofFn_injective (Res.ok.inj hw)
  rw [e] at h2
  have hfix : ∀ w : List (Fin [N + (1 : Fin 2).1].length), act (fun i => lin exA2 (R [N + (1 : Fin 2).1][i])) (fun i => lin exA2v (R' [N + (1 : Fin 2).1][i])) w ![-1, 0] = ![-1, 0] := by
    intro w
    induction w with
    | nil => rfl
    | cons s w ih =>
      rw [act, ih]
      have : s = ⟨0, by simp⟩ := Fin.ext (Nat.lt_one_iff.1 s.2)
      subst this
      show refl (lin exA2 (R (N + (1 : Fin 2).1))) (lin exA2v (R' (N + (1 : Fin 2).1))) ![-1, 0] = _
      rw [(hs.base.numbering.simple.2 1).1, (hs.base.numbering.simple.2 1).2, lin_unit, lin_unit]
      decide
  have h3 := h2 0
  rw [hfix] at h3
  exact absurd h3 (by decide)

/-- **C70** (negation), for coweights -/
theorem C70_makeCodominantG_false : ¬ ∀ {n r : Nat} {α αv : Fin n → Fin r → ℤ} {nd pc : Bool} {comps : List Weyl.Comp} {rd : RD} {N : Nat} {R R' : Nat → Fin n → ℤ},
    System nd α αv comps pc rd N R R' → ∀ {S : Nat → Prop}, Spec.Subsystem (cart α αv) N R R' S → ∀ {G : List Nat}, (∀ a, a ∈ G ↔ Spec.IsSimpleIn N R S a) →
    ∀ v : Fin r → ℤ, ∃ w : List (Fin G.length), rd.makeCodominantG nd G (List.ofFn v) =
      .ok (List.ofFn (coact (fun i : Fin G.length => lin α (R G[i])) (fun i : Fin G.length => lin αv (R' G[i])) v w)) := by
  intro h
  obtain ⟨rd, N, R, R', hm, -, hs⟩ := C69_dual exA2Cartan (.make (C69_make false false exA2Cartan).choose_spec)
  obtain ⟨w, hw⟩ := h hs (sub_simple hs 1).1 (sub_simple hs 1).2 ![-1, 0]
  obtain ⟨w', h1, h2⟩ := (C70_dominance hs).makeCodominant ![-1, 0]
  rw [show rd.makeCodominantG false [N + (1 : Fin 2).1] (List.ofFn ![-1, 0]) = rd.makeCodominant false (List.ofFn ![-1, 0]) from rfl, h1] at hw
  have e := List.ofFn_injective (Res.ok.inj hw)
  rw [e] at h2
  have hfix : ∀ w : List (Fin [N + (1 : Fin 2).1].length), coact (fun i => lin exA2v (R' [N + (1 : Fin 2).1][i])) (fun i => lin exA2 (R [N + (1 : Fin 2).1][i])) ![-1, 0] w = ![-1, 0] := by
    intro w
    induction w with
    | nil => rfl
    | cons s w ih =>
      have : s = ⟨0, by simp⟩ := Fin.ext (Nat.lt_one_iff.1 s.2)
      subst this
      rw [coact]
      refine Eq.trans (congrArg (fun x => coact _ _ x w) ?_) ih
      show refl (lin exA2 (R (N + (1 : Fin 2).1))) (lin exA2v (R' (N + (1 : Fin 2).1))) ![-1, 0] = _
      rw [(hs.base.numbering.simple.2 1).1, (hs.base.numbering.simple.2 1).2, lin_unit, lin_unit]
      decide
  have h3 := h2 0
  rw [hfix] at h3
  exact absurd h3 (by decide)

end Verif.Datum
