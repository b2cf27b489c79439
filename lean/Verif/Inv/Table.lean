import Verif.Inv.Cross2
/-
The table of involutions: `add_involution`, `add_cross` and the generation of a class.
-/
namespace Verif.Inv
open Verif Verif.Root Verif.Mat Verif.Datum Verif.Weyl Verif.Coxeter CoxeterSystem
open scoped Matrix

variable {n r : Nat} {Mx : CoxeterMatrix (Fin n)} {G : Type} [Group G]
variable {nd : Bool} {cs : CoxeterSystem Mx G} {α αv : Fin n → Fin r → ℤ} {comps : List Comp} {pc : Bool} {rd : RD} {N : Nat} {R R' : Nat → Fin n → ℤ}
  {T : TWG} {φ : G → List Nat} {f : Fin n → Fin n} {θ : G →* G} {δ : Matrix (Fin r) (Fin r) ℤ} {A : G →* Matrix (Fin r) (Fin r) ℤ}

/-- twisted conjugation by a simple reflection -/
abbrev sc (cs : CoxeterSystem Mx G) (θ : G →* G) (s : Fin n) (w : G) : G := cs.simple s * w * θ (cs.simple s)

/-- the table `t` describes the twisted involutions `ws` -/
structure Good (cs : CoxeterSystem Mx G) (α αv : Fin n → Fin r → ℤ) (rd : RD) (N : Nat) (R : Nat → Fin n → ℤ) (T : TWG) (φ : G → List Nat) (θ : G →* G)
    (δ : Matrix (Fin r) (Fin r) ℤ) (A : G →* Matrix (Fin r) (Fin r) ℤ) (ws : List G) (t : Tab) : Prop where
  rd_eq : t.rd = rd
  delta : t.delta = enc δ
  tw : t.tw = T
  refl : IsRefl α αv t.refl
  pool : t.pool = ws.map φ
  nodup : ws.Nodup
  isTI : ∀ w ∈ ws, IsTI θ w
  len : t.recs.length = ws.length
  recs : ∀ (i : Nat) w X, ws[i]? = some w → t.recs[i]? = some X → IsRec cs θ α N R (invMat A δ w) w X

theorem idxOf_get {l : List (List Nat)} (h : l.Nodup) {i : Nat} {x : List Nat} (hx : l[i]? = some x) : l.idxOf x = i := by
  obtain ⟨hi, e⟩ := List.getElem?_eq_some_iff.1 hx
  rw [← e]
  exact h.idxOf_getElem i hi

variable (H : Input nd cs α αv comps pc rd N R R' T φ f θ δ A)
include H

theorem Input.ws_small {ws : List G} (h1 : ws.Nodup) (h2 : ∀ w ∈ ws, IsTI θ w) : ws.length ≤ Nat.card {w // IsTI θ w} := by
  have := H.finite
  have := Fintype.ofFinite {w // IsTI θ w}
  rw [Nat.card_eq_fintype_card]
  have e : (ws.attach.map fun x => (⟨x.1, h2 x.1 x.2⟩ : {w // IsTI θ w})).Nodup := by
    refine (List.nodup_attach.2 h1).map fun x y h => ?_
    exact Subtype.ext (congrArg (fun z : {w // IsTI θ w} => z.1) h)
  have := e.length_le_card
  simpa using this

variable {ws : List G} {t : Tab}

section
variable (g : Good cs α αv rd N R T φ θ δ A ws t)
include g

theorem Input.pool_nodup : t.pool.Nodup := by
  rw [g.pool]; exact g.nodup.map H.weyl.injective

theorem Input.idx_mem {i : Nat} {w : G} (hi : ws[i]? = some w) : t.pool.idxOf (φ w) = i ∧ i < t.pool.length := by
  have h2 : t.pool[i]? = some (φ w) := by rw [g.pool, List.getElem?_map, hi]; rfl
  exact ⟨idxOf_get (H.pool_nodup g) h2, (List.getElem?_eq_some_iff.1 h2).1⟩

theorem Input.idx_new {w : G} (hw : w ∉ ws) : ¬ t.pool.idxOf (φ w) < t.pool.length := by
  rw [List.idxOf_lt_length_iff, g.pool, List.mem_map]
  rintro ⟨x, hx, e⟩
  exact hw (H.weyl.injective e ▸ hx)

theorem Input.pool_length : t.pool.length = ws.length := by rw [g.pool, List.length_map]

theorem Input.size_eq : t.size = ws.length := H.pool_length g

theorem Input.size_lt : ws.length < 2 ^ 32 - 1 := lt_of_le_of_lt (H.ws_small g.nodup g.isTI) H.small

theorem Input.nr_mem {i : Nat} {w : G} (hi : ws[i]? = some w) : t.nr (φ w) = i := by
  obtain ⟨h1, h2⟩ := H.idx_mem g hi
  rw [Tab.nr, h1, if_pos h2]

theorem Input.nr_new {w : G} (hw : w ∉ ws) : t.nr (φ w) = KGB.undefKGB := by
  rw [Tab.nr, if_neg (H.idx_new g hw)]

theorem Input.matchTw_mem {i : Nat} {w : G} (hi : ws[i]? = some w) : t.matchTw (φ w) = (t, i) := by
  obtain ⟨h1, h2⟩ := H.idx_mem g hi
  rw [Tab.matchTw, h1, if_pos h2]

theorem Input.matchTw_new {w : G} (hw : w ∉ ws) : t.matchTw (φ w) = ({ t with pool := t.pool ++ [φ w] }, ws.length) := by
  rw [Tab.matchTw, if_neg (H.idx_new g hw), H.pool_length g]

theorem Input.good_append {w : G} (hw : w ∉ ws) (hti : IsTI θ w) {X : Rec} (hX : IsRec cs θ α N R (invMat A δ w) w X) :
    Good cs α αv rd N R T φ θ δ A (ws ++ [w]) { t with pool := t.pool ++ [φ w], recs := t.recs ++ [X] } where
  rd_eq := g.rd_eq
  delta := g.delta
  tw := g.tw
  refl := g.refl
  pool := by simp [g.pool]
  nodup := by
    rw [List.nodup_append]
    exact ⟨g.nodup, by simp, fun x hx y hy e => hw (by rw [← List.mem_singleton.1 hy, ← e]; exact hx)⟩
  isTI := fun x hx => by
    rcases List.mem_append.1 hx with hx | hx
    · exact g.isTI x hx
    · rw [List.mem_singleton.1 hx]; exact hti
  len := by simp [g.len]
  recs := fun i x Y h1 h2 => by
    have hl := g.len
    by_cases hi : i < ws.length
    · rw [List.getElem?_append_left hi] at h1
      have h2 : (t.recs ++ [X])[i]? = some Y := h2
      rw [List.getElem?_append_left (by omega)] at h2
      exact g.recs i x Y h1 h2
    · have h2 : (t.recs ++ [X])[i]? = some Y := h2
      rw [List.getElem?_append_right (by omega)] at h1 h2
      have hi' : i - ws.length = 0 := by
        by_contra hne
        rw [List.getElem?_eq_none (by simp; omega)] at h1
        cases h1
      rw [hi'] at h1
      rw [hl, hi'] at h2
      cases h1
      cases h2
      exact hX

theorem Input.addInvolution {fuel : Nat} {w : G} (hw : IsTI θ w) (hf : cs.length w < fuel) (hn : w ∉ ws) :
    ∃ t', t.addInvolution nd fuel (φ w) = .ok (t', ws.length) ∧ Good cs α αv rd N R T φ θ δ A (ws ++ [w]) t' := by
  obtain ⟨X, h1, h2⟩ := H.freshRec (t := { t with pool := t.pool ++ [φ w] }) g.rd_eq g.delta g.tw hw hf
  refine ⟨_, ?_, H.good_append g hn hw h2⟩
  unfold Tab.addInvolution
  rw [H.matchTw_new g hn]
  simp only []
  rw [if_neg (by rw [g.len]; omega), h1, Res.ok_bind]
  rw [Res.assertIn_bind nd (by simp [g.len, H.pool_length g])]

theorem Input.addInvolution_mem {fuel i : Nat} {w : G} (hi : ws[i]? = some w) : t.addInvolution nd fuel (φ w) = .ok (t, i) := by
  unfold Tab.addInvolution
  rw [H.matchTw_mem g hi]
  simp only []
  rw [if_pos (by rw [g.len]; exact (List.getElem?_eq_some_iff.1 hi).1)]

theorem Input.involution {i : Nat} {w : G} (hi : ws[i]? = some w) : t.involution nd i = .ok (φ w) := by
  have hl := (List.getElem?_eq_some_iff.1 hi).1
  unfold Tab.involution
  rw [Res.assertIn_bind nd (by simpa [H.size_eq g] using hl)]
  exact Perm.Vec.get_of (by rw [g.pool, List.getElem?_map, hi]; rfl)

theorem Input.addCross {i : Nat} {w : G} (hi : ws[i]? = some w) (s : Fin n) :
    ∃ t' k ws', t.addCross nd s i = .ok (t', k) ∧ Good cs α αv rd N R T φ θ δ A ws' t' ∧ ws'[k]? = some (sc cs θ s w) ∧
      (sc cs θ s w ∈ ws ∧ ws' = ws ∧ t' = t ∨ sc cs θ s w ∉ ws ∧ ws' = ws ++ [sc cs θ s w]) := by
  unfold Tab.addCross
  rw [H.involution g hi, Res.ok_bind, g.tw, H.twisted.conjGen, Res.ok_bind]
  simp only []
  by_cases hm : sc cs θ s w ∈ ws
  · obtain ⟨k, hk⟩ := List.mem_iff_getElem?.1 hm
    refine ⟨t, k, ws, ?_, g, hk, .inl ⟨hm, rfl, rfl⟩⟩
    rw [H.matchTw_mem g hk]
    simp only []
    rw [if_pos (by rw [g.len]; exact (List.getElem?_eq_some_iff.1 hk).1)]
  · have hw : w ∈ ws := List.mem_of_getElem? hi
    have hti := g.isTI w hw
    obtain ⟨X, hX⟩ : ∃ X, t.recs[i]? = some X := ⟨_, List.getElem?_eq_getElem (by rw [g.len]; exact (List.getElem?_eq_some_iff.1 hi).1)⟩
    obtain ⟨Y, y1, y2⟩ := H.crossRec (t := { t with pool := t.pool ++ [φ (sc cs θ s w)] }) g.rd_eq g.refl hti (s := s) (fun e => hm (by rw [sc, e]; exact hw)) (g.recs i w X hi hX)
    refine ⟨_, ws.length, _, ?_, H.good_append g hm (IsTI.conjSimple H.twist hti s) y2, by simp, .inr ⟨hm, rfl⟩⟩
    rw [H.matchTw_new g hm]
    simp only []
    rw [if_neg (by rw [g.len]; omega), Perm.Vec.get_of hX, Res.ok_bind, y1, Res.ok_bind]
    rw [Res.assertIn_bind nd (by simp [g.len, H.pool_length g])]

end

theorem Input.crossLoop {i : Nat} {w : G} : ∀ (d k : Nat), k + d = n → ∀ (ws : List G) (t : Tab), Good cs α αv rd N R T φ θ δ A ws t → ws[i]? = some w →
    ∃ t' ext, t.crossLoop nd i (List.range' k d) = .ok t' ∧ Good cs α αv rd N R T φ θ δ A (ws ++ ext) t' ∧ (∀ x ∈ ext, ∃ s, x = sc cs θ s w) ∧
      ∀ s : Fin n, k ≤ s.1 → sc cs θ s w ∈ ws ++ ext := by
  intro d
  induction d with
  | zero =>
    intro k hk ws t g _
    exact ⟨t, [], rfl, by simpa using g, by simp, fun s hs => absurd s.2 (by omega)⟩
  | succ d ih =>
    intro k hk ws t g hi
    obtain ⟨t1, j, ws1, a1, a2, a3, a4⟩ := H.addCross g hi ⟨k, by omega⟩
    obtain ⟨e1, he1, hx1⟩ : ∃ e1, ws1 = ws ++ e1 ∧ ∀ x ∈ e1, x = sc cs θ ⟨k, by omega⟩ w := by
      rcases a4 with ⟨_, e, _⟩ | ⟨_, e⟩
      · exact ⟨[], by simpa using e, by simp⟩
      · exact ⟨_, e, fun x hx => List.mem_singleton.1 hx⟩
    subst he1
    have hi1 : (ws ++ e1)[i]? = some w := by
      rw [List.getElem?_append_left (List.getElem?_eq_some_iff.1 hi).1]; exact hi
    obtain ⟨t2, e2, b1, b2, b3, b4⟩ := ih (k + 1) (by omega) _ _ a2 hi1
    refine ⟨t2, e1 ++ e2, ?_, by rw [← List.append_assoc]; exact b2, fun x hx => ?_, fun s hs => ?_⟩
    · rw [List.range'_succ, Tab.crossLoop]
      rw [show t.addCross nd k i = .ok (t1, j) from a1, Res.ok_bind]
      exact b1
    · rcases List.mem_append.1 hx with hx | hx
      · exact ⟨_, hx1 x hx⟩
      · exact b3 x hx
    · rw [← List.append_assoc]
      by_cases e : s.1 = k
      · have : s = ⟨k, by omega⟩ := Fin.ext e
        rw [this]
        exact List.mem_append_left _ (List.mem_of_getElem? a3)
      · exact b4 s (by omega)

omit H in
theorem inClass_sc (ht : IsTwist cs f θ) {c w : G} (h : InClass θ c w) (s : Fin n) : InClass θ c (sc cs θ s w) := by
  obtain ⟨g, rfl⟩ := h
  refine ⟨cs.simple s * g, ?_⟩
  have e : (θ (cs.simple s))⁻¹ = θ (cs.simple s) := by rw [← map_inv, cs.inv_simple]
  rw [map_mul, mul_inv_rev, e]
  simp only [sc, mul_assoc]

omit H in
theorem inClass_refl (c : G) : InClass θ c c := ⟨1, by simp⟩

omit H in
theorem inClass_trans {a b c : G} (h : InClass θ a b) (h' : InClass θ b c) : InClass θ a c := by
  obtain ⟨g, rfl⟩ := h
  obtain ⟨k, rfl⟩ := h'
  exact ⟨k * g, by simp [mul_assoc]⟩

omit H in
theorem inClass_symm {a b : G} (h : InClass θ a b) : InClass θ b a := by
  obtain ⟨g, rfl⟩ := h
  exact ⟨g⁻¹, by simp [mul_assoc]⟩

omit H in
/-- a set closed under twisted conjugation by simple reflections is closed under all twisted conjugations -/
theorem closed_class {D : G → Prop} (hD : ∀ x, D x → ∀ s, D (sc cs θ s x)) {c x : G} (hc : D c) (hx : InClass θ c x) : D x := by
  obtain ⟨h, rfl⟩ := hx
  obtain ⟨l, -, rfl⟩ := cs.exists_isReduced h
  induction l with
  | nil => simpa using hc
  | cons s l ih =>
    have e : (θ (cs.simple s))⁻¹ = θ (cs.simple s) := by rw [← map_inv, cs.inv_simple]
    have := hD _ ih s
    rw [cs.wordProd_cons, map_mul, mul_inv_rev, e]
    simpa only [sc, mul_assoc] using this

theorem Input.orbitLoop {c : G} {base : List G} : ∀ (k i : Nat) (cur : List G) (t : Tab), Good cs α αv rd N R T φ θ δ A (base ++ cur) t →
    base.length ≤ i → i ≤ base.length + cur.length → Nat.card {w // IsTI θ w} < k + i →
    (∀ x ∈ cur, InClass θ c x) → (∀ j w, cur[j]? = some w → base.length + j < i → ∀ s, sc cs θ s w ∈ base ++ cur) →
    ∃ t' ext, t.orbitLoop nd k i = .ok t' ∧ Good cs α αv rd N R T φ θ δ A (base ++ (cur ++ ext)) t' ∧ (∀ x ∈ cur ++ ext, InClass θ c x) ∧
      ∀ w ∈ cur ++ ext, ∀ s, sc cs θ s w ∈ base ++ (cur ++ ext) := by
  intro k
  induction k with
  | zero =>
    intro i cur t g h1 h2 h3
    have := H.ws_small g.nodup g.isTI
    rw [List.length_append] at this
    omega
  | succ k ih =>
    intro i cur t g h1 h2 h3 h4 h5
    unfold Tab.orbitLoop
    by_cases hi : i < t.size
    · rw [if_pos hi]
      rw [H.size_eq g] at hi
      have hw := List.getElem?_eq_getElem hi
      obtain ⟨t1, e1, a1, a2, a3, a4⟩ := H.crossLoop n 0 (by omega) _ _ g hw
      have hrank : t.tw.W.rank = n := by rw [g.tw, H.weyl.rank_eq]
      rw [hrank, List.range_eq_range', a1, Res.ok_bind]
      rw [List.append_assoc] at a2
      have hcur : (base ++ cur)[i] ∈ cur := by
        rw [List.getElem_append_right h1]
        exact List.getElem_mem _
      obtain ⟨t2, e2, b1, b2, b3, b4⟩ := ih (i + 1) (cur ++ e1) t1 a2 (by omega) (by rw [List.length_append] at hi ⊢; omega) (by omega)
        (fun x hx => by
          rcases List.mem_append.1 hx with hx | hx
          · exact h4 x hx
          · obtain ⟨s, rfl⟩ := a3 x hx
            exact inClass_sc H.twist (h4 _ hcur) s)
        (fun j w hj hl s => by
          rw [← List.append_assoc]
          rw [List.length_append] at hi
          rw [List.getElem?_append_left (by omega)] at hj
          by_cases hj' : base.length + j = i
          · have : w = (base ++ cur)[i] := by
              have e : (base ++ cur)[i]? = some w := by
                rw [List.getElem?_append_right h1, ← hj', Nat.add_sub_cancel_left]; exact hj
              rw [hw] at e
              exact (Option.some.inj e).symm
            rw [this]
            exact a4 s (Nat.zero_le _)
          · exact List.mem_append_left _ (h5 j w hj (by omega) s))
      exact ⟨t2, e1 ++ e2, b1, by simpa only [List.append_assoc] using b2, by simpa only [List.append_assoc] using b3, by simpa only [List.append_assoc] using b4⟩
    · rw [if_neg hi]
      rw [H.size_eq g, List.length_append] at hi
      refine ⟨t, [], rfl, by simpa using g, by simpa using h4, fun w hw s => ?_⟩
      rw [List.append_nil] at hw ⊢
      obtain ⟨j, hj⟩ := List.mem_iff_getElem?.1 hw
      exact h5 j w hj (by have := (List.getElem?_eq_some_iff.1 hj).1; omega) s

/-- the construction of the orbit of `c` adds exactly the class of `c` to the table -/
theorem Input.orbitMake {fuel cn : Nat} {c : G} {base : List G} {t : Tab} (g : Good cs α αv rd N R T φ θ δ A base t) (hc : IsTI θ c)
    (hf : ∀ w, cs.length w < fuel) (hf2 : Nat.card {w // IsTI θ w} < fuel) (hcl : ∀ w ∈ base, ∀ s, sc cs θ s w ∈ base) (hn : c ∉ base) :
    ∃ t' cur, Orbit.make nd fuel t cn (φ c) (Nat.card {w // InClass θ c w}) = .ok (⟨cn, base.length, Nat.card {w // InClass θ c w}⟩, t') ∧
      Good cs α αv rd N R T φ θ δ A (base ++ cur) t' ∧ (∀ x, x ∈ cur ↔ InClass θ c x) ∧ cur.length = Nat.card {w // InClass θ c w} := by
  obtain ⟨t1, a1, a2⟩ := H.addInvolution g hc (hf c) hn
  obtain ⟨t2, ext, b1, b2, b3, b4⟩ := H.orbitLoop (c := c) fuel base.length [c] t1 a2 le_rfl (by omega) (by omega)
    (fun x hx => by rw [List.mem_singleton.1 hx]; exact inClass_refl c) (fun j w _ h => absurd h (by omega))
  set cur := [c] ++ ext with hcur
  have hmem : ∀ x, x ∈ cur ↔ InClass θ c x := fun x => by
    refine ⟨b3 x, fun hx => ?_⟩
    refine closed_class (cs := cs) (θ := θ) (D := fun x => x ∈ cur) (fun y hy s => ?_) (by simp [hcur]) hx
    rcases List.mem_append.1 (b4 y hy s) with h | h
    · exact absurd (closed_class (cs := cs) (θ := θ) (D := fun x => x ∈ base) hcl h (inClass_symm (inClass_sc H.twist (b3 y hy) s))) hn
    · exact h
  have hlen : cur.length = Nat.card {w // InClass θ c w} := by
    have hnd : cur.Nodup := (List.nodup_append.1 b2.nodup).2.1
    classical
    rw [← List.toFinset_card_of_nodup hnd]
    rw [← Nat.card_eq_finsetCard]
    exact Nat.card_congr (Equiv.subtypeEquivRight fun x => by rw [List.mem_toFinset]; exact hmem x)
  refine ⟨t2, cur, ?_, b2, hmem, hlen⟩
  unfold Orbit.make
  have hsz := H.size_lt b2
  rw [List.length_append] at hsz
  have hun : t.unseen (φ c) = true := by rw [Tab.unseen, H.nr_new g hn]; simp
  simp only []
  rw [Res.assertIn_bind nd hun, a1, Res.ok_bind]
  simp only []
  rw [b1, Res.ok_bind, Res.assertIn_bind nd (by
    rw [H.size_eq b2, Orbit.stop, H.size_eq g, ← hlen, List.length_append, Nat.mod_eq_of_lt (by show base.length + cur.length < _; omega)]
    simp), H.size_eq g]

/-- the empty table -/
theorem Input.tabMake : ∃ t, Tab.make nd rd (enc δ) T = .ok t ∧ Good cs α αv rd N R T φ θ δ A [] t := by
  obtain ⟨l, h1, h2⟩ := H.reflLoop 0 n (by omega) [] rfl (fun k hk => absurd hk (by simp))
  refine ⟨⟨rd, enc δ, T, [], [], l⟩, ?_, ⟨rfl, rfl, rfl, h2, rfl, by simp, by simp, rfl, by simp⟩⟩
  unfold Tab.make
  rw [H.weyl.rank_eq, List.range_eq_range', h1, Res.ok_bind]

end Verif.Inv
