import Verif.Dynkin.Classify

/-! The whole constructor. -/

namespace Verif.Dynkin

open Verif.Weyl (Ty Comp)

variable {n : ℕ} {c : ℕ → ℕ → Int} {d : Diagram} {S : List ℕ}

/-- a component of rank 1 -/
theorem classify_one (nd : Bool) {i : ℕ} (hP : Piece n c d [i]) :
    Outcome c [i] (classifyComp nd c d [i]) := by
  left
  refine ⟨.A, [i], rfl, Nat.le_refl 1, List.Perm.refl _, ?_⟩
  intro a b s t ha hb
  match a, b, ha, hb with
  | 0, 0, ha, hb =>
    simp at ha hb
    subst ha hb
    rw [hP.self (by simp)]; rfl
  | _ + 1, _, ha, _ => simp at ha
  | 0, _ + 1, _, hb => simp at hb

theorem fits_two {ty : Ty} {i j : ℕ} (hr : ty.RankOK 2) {x y : ℕ} (hp : [x, y].Perm [i, j])
    (h1 : c x x = 2) (h2 : c y y = 2) (h3 : c x y = cartan ty 2 0 1) (h4 : c y x = cartan ty 2 1 0) :
    Fits c [i, j] ty [x, y] := by
  refine ⟨hr, hp, ?_⟩
  intro a b s t ha hb
  have key : ∀ {a s : ℕ}, [x, y][a]? = some s → (a = 0 ∧ s = x) ∨ (a = 1 ∧ s = y) := by
    intro a s h
    match a, h with
    | 0, h => simp at h; exact Or.inl ⟨rfl, h.symm⟩
    | 1, h => simp at h; exact Or.inr ⟨rfl, h.symm⟩
    | a + 2, h => simp at h
  rcases key ha with ⟨rfl, rfl⟩ | ⟨rfl, rfl⟩ <;> rcases key hb with ⟨rfl, rfl⟩ | ⟨rfl, rfl⟩
  · rw [cartan_self]; exact h1
  · exact h3
  · exact h4
  · rw [cartan_self]; exact h2

/-- a component of rank 2 -/
theorem classify_two (nd : Bool) {i j : ℕ} (hP : Piece n c d [i, j]) :
    Outcome c [i, j] (classifyComp nd c d [i, j]) := by
  have hne : i ≠ j := by have := hP.nodup; simpa using this
  have hij : AdjN n c i j := by
    by_contra h
    have := hP.conn i (by simp) (fun x => x = i) rfl (by
      intro y hy hyi z hz hyz
      subst hyi
      simp at hz
      rcases hz with e | e
      · exact e
      · subst e; exact absurd hyz h) j (by simp)
    exact hne this.symm
  have hji := hP.sym _ _ hij
  have c1 := hP.good.pre i hij.1 j hij.2.1
  have c2 := hP.good.pre j hij.2.1 i hij.1
  unfold Cond at c1 c2
  rw [if_neg hne] at c1
  rw [if_neg (Ne.symm hne)] at c2
  have n1 := hij.2.2.2
  have n2 := hji.2.2.2
  have sii := hP.self (x := i) (by simp)
  have sjj := hP.self (x := j) (by simp)
  have hval : classifyComp nd c d [i, j] =
      if c i j * c j i = 1 then .ok (.A, [i, j])
      else if c i j * c j i = 2 then .ok (if c i j = -1 then .C else .B, [i, j])
      else if c i j * c j i = 3 then .ok (.G, if c i j = -1 then [i, j] else [j, i])
      else .throw := rfl
  rw [hval]
  have k1 : c i j = -1 ∨ c i j = -2 ∨ c i j = -3 := by omega
  have k2 : c j i = -1 ∨ c j i = -2 ∨ c j i = -3 := by omega
  have hno : ∀ m : Int, c i j * c j i = m → m ≠ 1 → m ≠ 2 → m ≠ 3 →
      ∀ ty pos, ¬ Fits c [i, j] ty pos := by
    intro m hm m1 m2 m3 ty pos hF
    have hl := hF.perm.length_eq
    match pos, hl with
    | [x, y], _ =>
      have e1 := hF.entry 0 1 x y rfl rfl
      have e2 := hF.entry 1 0 y x rfl rfl
      have hr := hF.rank
      have hxy : c x y * c y x = m := by
        have hx : x = i ∨ x = j := by simpa using hF.perm.mem_iff.1 (show x ∈ [x, y] by simp)
        have hy : y = i ∨ y = j := by simpa using hF.perm.mem_iff.1 (show y ∈ [x, y] by simp)
        have hn : x ≠ y := by
          have := hF.perm.nodup_iff.2 hP.nodup; simpa using this
        rcases hx with rfl | rfl <;> rcases hy with rfl | rfl
        · exact absurd rfl hn
        · exact hm
        · rw [Int.mul_comm]; exact hm
        · exact absurd rfl hn
      rw [e1, e2] at hxy
      cases ty <;> simp [Weyl.Ty.RankOK] at hr <;> revert hxy <;>
        simp [cartan, Weyl.bond, Weyl.bondLt] <;> omega
  rcases k1 with k1 | k1 | k1 <;> rcases k2 with k2 | k2 | k2
  · left
    refine ⟨.A, [i, j], by rw [k1, k2]; rfl, fits_two (by simp [Weyl.Ty.RankOK]) (List.Perm.refl _) sii sjj ?_ ?_⟩
    · rw [k1]; rfl
    · rw [k2]; rfl
  · left
    refine ⟨.C, [i, j], by rw [k1, k2]; rfl, fits_two (by simp [Weyl.Ty.RankOK]) (List.Perm.refl _) sii sjj ?_ ?_⟩
    · rw [k1]; rfl
    · rw [k2]; rfl
  · left
    refine ⟨.G, [i, j], by rw [k1, k2]; rfl, fits_two (by rfl) (List.Perm.refl _) sii sjj ?_ ?_⟩
    · rw [k1]; rfl
    · rw [k2]; rfl
  · left
    refine ⟨.B, [i, j], by rw [k1, k2]; rfl, fits_two (by simp [Weyl.Ty.RankOK]) (List.Perm.refl _) sii sjj ?_ ?_⟩
    · rw [k1]; rfl
    · rw [k2]; rfl
  · right
    exact ⟨by rw [k1, k2]; rfl, hno 4 (by rw [k1, k2]; rfl) (by decide) (by decide) (by decide)⟩
  · right
    exact ⟨by rw [k1, k2]; rfl, hno 6 (by rw [k1, k2]; rfl) (by decide) (by decide) (by decide)⟩
  · left
    refine ⟨.G, [j, i], by rw [k1, k2]; rfl, fits_two (by rfl) (List.Perm.swap _ _ _) sjj sii ?_ ?_⟩
    · rw [k2]; rfl
    · rw [k1]; rfl
  · right
    exact ⟨by rw [k1, k2]; rfl, hno 6 (by rw [k1, k2]; rfl) (by decide) (by decide) (by decide)⟩
  · right
    exact ⟨by rw [k1, k2]; rfl, hno 9 (by rw [k1, k2]; rfl) (by decide) (by decide) (by decide)⟩

theorem classify_spec (nd : Bool) (hP : Piece n c d S) : Outcome c S (classifyComp nd c d S) := by
  match S, hP with
  | [], hP => exact absurd rfl hP.ne
  | [i], hP => exact classify_one nd hP
  | [i, j], hP => exact classify_two nd hP
  | i :: j :: k :: l, hP => exact classify_big nd hP (by simp)

/-- the components found fit the sets of nodes, in order -/
def AllFit (c : ℕ → ℕ → Int) : List (List ℕ) → List Comp → ℕ → Prop
  | [], [], _ => True
  | s :: l, C :: r, o => C.offset = o ∧ Fits c s C.ty C.position ∧ AllFit c l r (o + s.length)
  | _, _, _ => False

theorem classifyAll_spec (nd : Bool) : ∀ (l : List (List ℕ)) (o : ℕ), (∀ s ∈ l, Piece n c d s) →
    (∃ r, classifyAll nd c d l o = .ok r ∧ AllFit c l r o) ∨
    (classifyAll nd c d l o = .throw ∧ ∃ s ∈ l, ∀ ty pos, ¬ Fits c s ty pos) := by
  intro l
  induction l with
  | nil => intro o _; exact Or.inl ⟨[], rfl, trivial⟩
  | cons s l ih =>
    intro o h
    rw [classifyAll]
    rcases classify_spec nd (h s (by simp)) with ⟨ty, pos, h1, h2⟩ | ⟨h1, h2⟩
    · rw [h1, Res.ok_bind]
      dsimp only
      rcases ih (o + s.length) (fun t ht => h t (by simp [ht])) with ⟨r, k1, k2⟩ | ⟨k1, t, ht, k2⟩
      · rw [k1]; exact Or.inl ⟨_, rfl, rfl, h2, k2⟩
      · rw [k1]; exact Or.inr ⟨rfl, t, by simp [ht], k2⟩
    · rw [h1]; exact Or.inr ⟨rfl, s, by simp, h2⟩

theorem IsComps.piece {l : List (List ℕ)} (hG : Good n c d) (h : IsComps (AdjN n c) n l) :
    ∀ s ∈ l, Piece n c d s := by
  intro s hs
  have sym : ∀ a b, AdjN n c a b → AdjN n c b a := fun _ _ => AdjN.symm hG.pre
  refine ⟨hG, h.nodup s hs, h.nonempty s hs, fun x hx => (h.cover x).2 ⟨s, hs, hx⟩, ?_, h.conn s hs⟩
  intro x hx y hxy
  obtain ⟨t, ht, hy⟩ := (h.cover y).1 hxy.2.1
  by_cases e : s = t
  · subst e; exact hy
  · have : Std.Symm (Apart (AdjN n c)) := ⟨fun a b => Apart.symm sym⟩
    exact absurd hxy ((h.apart.forall hs ht e).2 x hx y hy)

theorem AllFit.len : ∀ {l : List (List ℕ)} {r : List Comp} {o : ℕ}, AllFit c l r o →
    l.length = r.length := by
  intro l
  induction l with
  | nil => intro r o h; cases r with
    | nil => rfl
    | cons a r => exact h.elim
  | cons s l ih => intro r o h; cases r with
    | nil => exact h.elim
    | cons a r => simp [ih h.2.2]

theorem AllFit.get : ∀ {l : List (List ℕ)} {r : List Comp} {o : ℕ}, AllFit c l r o →
    ∀ (k : ℕ) (s : List ℕ) (C : Comp), l[k]? = some s → r[k]? = some C →
      Fits c s C.ty C.position ∧ C.offset = o + ((r.take k).map Comp.rank).sum := by
  intro l
  induction l with
  | nil => intro r o _ k s C h; simp at h
  | cons s l ih =>
    intro r o h k t C hk hC
    cases r with
    | nil => exact h.elim
    | cons a r =>
      obtain ⟨h1, h2, h3⟩ := h
      cases k with
      | zero =>
        simp at hk hC; subst hk hC
        exact ⟨h2, by simpa using h1⟩
      | succ k =>
        simp at hk hC
        obtain ⟨a1, a2⟩ := ih h3 k t C hk hC
        refine ⟨a1, ?_⟩
        rw [a2]
        simp [Comp.rank, h2.perm.length_eq]; omega

theorem AllFit.perm : ∀ {l : List (List ℕ)} {r : List Comp} {o : ℕ}, AllFit c l r o →
    (r.flatMap Comp.position).Perm l.flatten := by
  intro l
  induction l with
  | nil => intro r o h; cases r with
    | nil => exact List.Perm.refl _
    | cons a r => exact h.elim
  | cons s l ih => intro r o h; cases r with
    | nil => exact h.elim
    | cons a r =>
      rw [List.flatMap_cons, List.flatten_cons]
      exact h.2.1.perm.append (ih h.2.2)

theorem IsComps.flatten {adj : ℕ → ℕ → Prop} {l : List (List ℕ)} (h : IsComps adj n l) :
    l.flatten.Perm (List.range n) := by
  refine (List.perm_ext_iff_of_nodup ?_ List.nodup_range).2 ?_
  · rw [List.nodup_flatten]
    exact ⟨h.nodup, h.apart.imp fun h => h.1⟩
  · intro x
    rw [List.mem_range, h.cover, List.mem_flatten]

theorem AllFit.isCartan {l : List (List ℕ)} {r : List Comp} (hG : Good n c d)
    (h : IsComps (AdjN n c) n l) (hF : AllFit c l r 0) : IsCartan n c r := by
  have sym : ∀ a b, AdjN n c a b → AdjN n c b a := fun _ _ => AdjN.symm hG.pre
  have key : ∀ C ∈ r, ∃ (k : ℕ) (s : List ℕ), l[k]? = some s ∧ r[k]? = some C ∧ Fits c s C.ty C.position := by
    intro C hC
    obtain ⟨k, hk⟩ := List.mem_iff_getElem?.1 hC
    have hlt : k < r.length := by
      by_contra h
      rw [List.getElem?_eq_none (by omega)] at hk; cases hk
    have hl : l[k]? = some (l[k]'(by rw [hF.len]; exact hlt)) := List.getElem?_eq_getElem _
    exact ⟨k, _, hl, hk, (hF.get k _ C hl hk).1⟩
  refine ⟨?_, ?_, hF.perm.trans h.flatten, ?_, ?_⟩
  · intro C hC
    obtain ⟨k, s, _, _, hf⟩ := key C hC
    rw [Comp.rank, hf.perm.length_eq]; exact hf.rank
  · intro k hk
    have hl : l[k]? = some (l[k]'(by rw [hF.len]; exact hk)) := List.getElem?_eq_getElem _
    have := (hF.get k _ r[k] hl (List.getElem?_eq_getElem _)).2
    rw [this, Nat.zero_add]
  · intro C hC i j s t hi hj
    obtain ⟨k, S, _, _, hf⟩ := key C hC
    rw [Comp.rank, hf.perm.length_eq]
    exact hf.entry i j s t hi hj
  · intro C hC C' hC' hne s hs t ht
    obtain ⟨k, S, hk, hk', hf⟩ := key C hC
    obtain ⟨k2, S', hk2, hk2', hf'⟩ := key C' hC'
    have hkk : k ≠ k2 := by
      intro e; subst e
      exact hne (Option.some.inj (hk'.symm.trans hk2'))
    have hs' := hf.perm.mem_iff.1 hs
    have ht' := hf'.perm.mem_iff.1 ht
    have hS := List.mem_of_getElem? hk
    have hS' := List.mem_of_getElem? hk2
    have hap : Apart (AdjN n c) S S' := by
      have hl : k < l.length := by
        by_contra h; rw [List.getElem?_eq_none (by omega)] at hk; cases hk
      have hl2 : k2 < l.length := by
        by_contra h; rw [List.getElem?_eq_none (by omega)] at hk2; cases hk2
      rw [List.getElem?_eq_getElem hl] at hk
      rw [List.getElem?_eq_getElem hl2] at hk2
      have e1 := Option.some.inj hk
      have e2 := Option.some.inj hk2
      rcases Nat.lt_or_gt_of_ne hkk with hlt | hlt
      · rw [← e1, ← e2]; exact List.pairwise_iff_getElem.1 h.apart k k2 hl hl2 hlt
      · rw [← e1, ← e2]
        exact Apart.symm sym (List.pairwise_iff_getElem.1 h.apart k2 k hl2 hl hlt)
    have hsn := (h.cover s).2 ⟨S, hS, hs'⟩
    have htn := (h.cover t).2 ⟨S', hS', ht'⟩
    by_contra h0
    refine hap.2 s hs' t ht' ⟨hsn, htn, ?_, h0⟩
    intro e; subst e
    exact hap.1 s hs' ht'

theorem nb_symm {ty : Ty} {n i j : Nat} (h : Nb ty n i j) : Nb ty n j i := by
  cases ty <;> simp only [Nb] at h ⊢ <;> omega

/-- the standard diagrams are connected -/
theorem std_conn {ty : Ty} {m : ℕ} (hr : ty.RankOK m) {T : ℕ → Prop}
    (hT : ∀ i j, i < m → j < m → Nb ty m i j → T i → T j) {i j : ℕ} (hi : i < m) (hj : j < m)
    (h : T i) : T j := by
  have hiff : ∀ i j, i < m → j < m → Nb ty m i j → (T i ↔ T j) := fun i j hi hj hn =>
    ⟨hT i j hi hj hn, hT j i hj hi (nb_symm hn)⟩
  have key : ∀ i, i < m → (T i ↔ T 0) := by
    by_cases hE : ty = .E
    · subst hE
      obtain ⟨h6, h8⟩ := hr
      have h20 : T 2 ↔ T 0 := hiff 2 0 (by omega) (by omega) (by rw [nb_E]; omega)
      have hge : ∀ i, i + 2 < m → (T (i + 2) ↔ T 0) := by
        intro i
        induction i with
        | zero => intro _; exact h20
        | succ i ih =>
          intro hi
          rw [← ih (by omega)]
          exact hiff _ _ (by omega) (by omega) (by rw [nb_E]; omega)
      intro i hi
      match i with
      | 0 => exact Iff.rfl
      | 1 =>
        rw [← hge 1 (by omega)]
        exact hiff 1 3 (by omega) (by omega) (by rw [nb_E]; omega)
      | i + 2 => exact hge i hi
    · intro i
      induction i using Nat.strong_induction_on with
      | _ i ih =>
        intro hi
        by_cases h0 : i = 0
        · subst h0; exact Iff.rfl
        · have hpar : ∃ k, k < i ∧ Nb ty m i k := by
            cases ty <;> simp only [Weyl.Ty.RankOK] at hr
            · exact ⟨i - 1, by omega, by simp only [Nb]; omega⟩
            · exact ⟨i - 1, by omega, by simp only [Nb]; omega⟩
            · exact ⟨i - 1, by omega, by simp only [Nb]; omega⟩
            · by_cases hl : i + 1 = m
              · exact ⟨i - 2, by omega, by rw [nb_D]; omega⟩
              · exact ⟨i - 1, by omega, by rw [nb_D]; omega⟩
            · exact absurd rfl hE
            · exact ⟨i - 1, by omega, by simp only [Nb]; omega⟩
            · exact ⟨i - 1, by omega, by simp only [Nb]; omega⟩
          obtain ⟨k, hk, hn⟩ := hpar
          rw [← ih k hk (by omega)]
          exact hiff i k hi (by omega) hn
  rw [key j hj, ← key i hi]; exact h

theorem flatMap_disjoint {comps : List Comp} (hn : (comps.flatMap Comp.position).Nodup) {a b : Comp}
    (ha : a ∈ comps) (hb : b ∈ comps) {x : ℕ} (hx : x ∈ a.position) (hy : x ∈ b.position) : a = b := by
  by_contra hne
  rw [List.nodup_flatMap] at hn
  have : Std.Symm (Function.onFun List.Disjoint Comp.position) := ⟨fun a b h => List.Disjoint.symm h⟩
  exact hn.2.forall ha hb hne hx hy

theorem IsCartan.locate {comps : List Comp} (h : IsCartan n c comps) {x : ℕ} (hx : x < n) :
    ∃ C ∈ comps, ∃ i, i < C.rank ∧ C.position[i]? = some x := by
  have := h.perm.mem_iff.2 (List.mem_range.2 hx)
  rw [List.mem_flatMap] at this
  obtain ⟨C, hC, hxC⟩ := this
  obtain ⟨i, hi⟩ := List.mem_iff_getElem?.1 hxC
  refine ⟨C, hC, i, ?_, hi⟩
  by_contra hlt
  rw [List.getElem?_eq_none (by rw [Comp.rank] at hlt; omega)] at hi; cases hi

theorem IsCartan.pre {comps : List Comp} (h : IsCartan n c comps) : Pre n c := by
  have hn : (comps.flatMap Comp.position).Nodup := h.perm.nodup_iff.2 List.nodup_range
  intro x hx y hy
  obtain ⟨C, hC, i, hi, ei⟩ := h.locate hx
  obtain ⟨D, hD, j, hj, ej⟩ := h.locate hy
  unfold Cond
  by_cases e : C = D
  · subst e
    have e1 := h.inside C hC i j x y ei ej
    have e2 := h.inside C hC j i y x ej ei
    by_cases exy : x = y
    · rw [if_pos exy]
      subst exy
      have : i = j := (List.getElem?_inj hi ((List.nodup_flatMap.1 hn).1 C hC)).1 (ei.trans ej.symm)
      subst this
      rw [e1, cartan_self]
    · rw [if_neg exy]
      have hij : i ≠ j := fun e => exy (by subst e; exact Option.some.inj (ei.symm.trans ej))
      have hr := h.ranks C hC
      have b1 : cartan C.ty C.rank i j ≤ 0 ∧ -3 ≤ cartan C.ty C.rank i j := by
        unfold cartan
        rw [if_neg hij]
        cases C.ty <;> dsimp only <;> split_ifs <;> omega
      refine ⟨by omega, by omega, ?_⟩
      rw [e1, e2]
      intro h0
      exact ((cartan_ne hr hj hi).2 (nb_symm ((cartan_ne hr hi hj).1 ⟨hij, h0⟩))).2
  · have hne : x ≠ y := by
      intro exy
      subst exy
      exact e (flatMap_disjoint hn hC hD (List.mem_of_getElem? ei) (List.mem_of_getElem? ej))
    rw [if_neg hne]
    have := h.across C hC D hD e x (List.mem_of_getElem? ei) y (List.mem_of_getElem? ej)
    refine ⟨by omega, by omega, fun h0 => absurd this h0⟩

/-- each component of the diagram of a Cartan matrix fits a simple type -/
theorem IsCartan.fits {comps : List Comp} (h : IsCartan n c comps) (hP : Piece n c d S) :
    ∃ ty pos, Fits c S ty pos := by
  have hn : (comps.flatMap Comp.position).Nodup := h.perm.nodup_iff.2 List.nodup_range
  obtain ⟨x, hx⟩ := List.exists_mem_of_ne_nil _ hP.ne
  obtain ⟨C, hC, i, hi, ei⟩ := h.locate (hP.lt x hx)
  have hCn := (List.nodup_flatMap.1 hn).1 C hC
  have hr := h.ranks C hC
  have hsub : ∀ y ∈ S, y ∈ C.position := by
    apply hP.conn x hx (fun y => y ∈ C.position) (List.mem_of_getElem? ei)
    intro y _ hyC z hz hyz
    obtain ⟨D, hD, j, hj, ej⟩ := h.locate (hP.lt z hz)
    by_cases e : C = D
    · subst e; exact List.mem_of_getElem? ej
    · exact absurd (h.across C hC D hD e y hyC z (List.mem_of_getElem? ej)) hyz.2.2.2
  have hlt : ∀ y ∈ C.position, y < n := fun y hy =>
    List.mem_range.1 (h.perm.mem_iff.1 (List.mem_flatMap.2 ⟨C, hC, hy⟩))
  have hsup : ∀ y ∈ C.position, y ∈ S := by
    intro y hy
    obtain ⟨j, hj⟩ := List.mem_iff_getElem?.1 hy
    have hjl : j < C.rank := by
      by_contra hh
      rw [List.getElem?_eq_none (by rw [Comp.rank] at hh; omega)] at hj; cases hj
    have := std_conn hr (T := fun k => ∀ z, C.position[k]? = some z → z ∈ S) (by
      intro a b ha hb hab hT z hz
      have ea : C.position[a]? = some (C.position[a]'ha) := List.getElem?_eq_getElem _
      have hS := hT _ ea
      refine hP.closed _ hS z ?_
      obtain ⟨hne, h0⟩ := (cartan_ne hr ha hb).2 hab
      rw [← h.inside C hC a b _ z ea hz] at h0
      refine ⟨hP.lt _ hS, hlt z (List.mem_of_getElem? hz), ?_, h0⟩
      intro e
      rw [e] at ea
      exact hne ((List.getElem?_inj ha hCn).1 (ea.trans hz.symm))) hi hjl (by
        intro z hz
        rw [← Option.some.inj (ei.symm.trans hz)]; exact hx)
    exact this y hj
  have hp : C.position.Perm S :=
    (List.perm_ext_iff_of_nodup hCn hP.nodup).2 fun y => ⟨hsup y, hsub y⟩
  refine ⟨C.ty, C.position, ?_, hp, ?_⟩
  · rw [← hp.length_eq]; exact hr
  · intro a b s t ha hb
    rw [← hp.length_eq]; exact h.inside C hC a b s t ha hb

/-- the constructor recognises exactly the Cartan matrices -/
theorem diagram_spec (nd : Bool) {n : ℕ} (hn : n ≤ 32) (c : ℕ → ℕ → Int) :
    (∃ d comps, diagram nd ⟨n, n, c⟩ = .ok (d, comps) ∧ Good n c d ∧ IsCartan n c comps) ∨
    (diagram nd ⟨n, n, c⟩ = .throw ∧ ¬ Finite n c) := by
  unfold diagram
  dsimp only
  rw [if_neg (by simp)]
  by_cases hp : Pre n c
  · obtain ⟨d, h1, hG⟩ := scan_ok hp
    rw [h1, Res.ok_bind, if_neg (by omega)]
    obtain ⟨l, h2, hl⟩ := components_ok (adj := AdjN n c) nd d (fun _ _ => AdjN.symm hp) (fun a => AdjN.irr a)
      hG.mem_nbrs hn
    rw [h2, Res.ok_bind]
    rcases classifyAll_spec nd l 0 (hl.piece hG) with ⟨r, h3, h4⟩ | ⟨h3, s, hs, h4⟩
    · rw [h3]
      exact Or.inl ⟨d, r, rfl, hG, h4.isCartan hG hl⟩
    · rw [h3]
      refine Or.inr ⟨rfl, ?_⟩
      rintro ⟨comps, h⟩
      obtain ⟨ty, pos, hF⟩ := h.fits (hl.piece hG s hs)
      exact h4 ty pos hF
  · rw [scan_throw hp]
    exact Or.inr ⟨rfl, fun ⟨comps, h⟩ => hp h.pre⟩

end Verif.Dynkin
