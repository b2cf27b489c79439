import Verif.Root.Gen
import Mathlib.Data.List.FinRange
/-
The generation of the positive roots (rootdata.cpp L142-220) produces all positive roots, level by level (continued).
-/
namespace Verif.Root
open Verif.Coxeter CoxeterSystem

theorem lessLoop_append : ∀ (p : BV) {a b : Int} (x y : BV), a < b → lessLoop (p ++ a :: x) (p ++ b :: y) = true
  | [], a, b, x, y, h => by
    rw [List.nil_append, List.nil_append, lessLoop, if_pos (by omega), decide_eq_true_iff]
    omega
  | c :: p, a, b, x, y, h => by
    rw [List.cons_append, List.cons_append, lessLoop, if_neg (by omega)]
    exact lessLoop_append p x y h

theorem less_asymm {v w : BV} (h1 : less v w = true) (h2 : less w v = true) : False := by
  have := less_trans h1 h2
  rw [less_irrefl] at this
  cases this

theorem rev_split {l : BV} {i : Nat} (hi : i < l.length) : l.reverse = (l.drop (i + 1)).reverse ++ l[i] :: (l.take i).reverse := by
  conv_lhs => rw [← List.take_append_drop i l, List.drop_eq_getElem_cons hi]
  simp

theorem less_of {rk : Nat} {v w : Fin rk → ℤ} (i : Fin rk) (hi : v i < w i) (hk : ∀ k, i < k → v k = w k) : less (enc v) (enc w) = true := by
  rw [less, rev_split (l := enc v) (i := i) (by rw [enc_length]; exact i.2), rev_split (l := enc w) (i := i) (by rw [enc_length]; exact i.2)]
  have : (enc v).drop (i + 1) = (enc w).drop (i + 1) := by
    apply List.ext_getElem
    · simp
    · intro m h1 h2
      simp only [List.getElem_drop, List.getElem_ofFn]
      exact hk _ (by rw [Fin.lt_def]; simp only; omega)
  rw [this]
  exact lessLoop_append _ _ _ (by simpa using hi)

section
variable {rk : Nat} {M : CoxeterMatrix (Fin rk)} {W : Type} [Group W] {cs : CoxeterSystem M W} {C : Fin rk → Fin rk → ℤ} {h : IsCartan C M}

/-- bounds on the positive roots that the constructor relies on -/
structure Bounds (cs : CoxeterSystem M W) (h : IsCartan C M) : Prop where
  rank : rk ≤ 32
  level : ∀ v, PosRoot cs h v → lev v ≤ 4 * rk - 2
  count : ∀ L : List (Fin rk → ℤ), L.Nodup → (∀ v ∈ L, PosRoot cs h v) → L.length < undef

theorem genInner_ok (nd : Bool) (hrk : rk ≤ 32) {l : Nat} {R : List (Fin rk → ℤ)} {α : Fin rk → ℤ} (H : NewRoot cs h l R α) :
    ∀ (d k : Nat), k + d = rk → ∀ {g : Gen}, IInv cs h l R α k g →
      ∃ g', genInner nd (encM fun j i => C i j) l R.length (enc α) (List.range' k d) g = .ok g' ∧ IInv cs h l R α rk g'
  | 0, k, hk, g, hg => ⟨g, rfl, by
    obtain rfl : k = rk := hk
    exact hg⟩
  | d + 1, k, hk, g, hg => by
    obtain ⟨g1, h1, h2⟩ := genStep_ok nd hrk H (by omega) hg
    obtain ⟨g2, h3, h4⟩ := genInner_ok nd hrk H d (k + 1) (by omega) h2
    refine ⟨g2, ?_, h4⟩
    rw [List.range'_succ, genInner, h1, Res.ok_bind, h3]

theorem getElem_append_cases {R : List (Fin rk → ℤ)} {α : Fin rk → ℤ} {P : Nat → (Fin rk → ℤ) → Prop} (h1 : ∀ j (hj : j < R.length), P j R[j])
    (h2 : P R.length α) : ∀ j (hj : j < (R ++ [α]).length), P j (R ++ [α])[j] := by
  intro j hj
  rw [List.getElem_append]
  by_cases hjR : j < R.length
  · rw [dif_pos hjR]; exact h1 j hjR
  · rw [dif_neg hjR]
    have : j = R.length := by simp at hj; omega
    subst this
    simpa using h2

/-- the roots of one level -/
theorem genLevel_ok (nd : Bool) (hb : Bounds cs h) {l : Nat} (hl : 1 ≤ l) : ∀ (A R : List (Fin rk → ℤ)) {g : Gen},
    (∀ v ∈ A, PosRoot cs h v ∧ lev v = l) → (R ++ A).Pairwise before →
    (l = 1 → ∀ j (hj : j < (R ++ A).length) (i : Fin rk), (R ++ A)[j] = root i → j = i.1) → GInv cs h l R g →
    ∃ g', genLevel nd rk (encM fun j i => C i j) l (A.map enc) g = .ok g' ∧ GInv cs h l (R ++ A) g'
  | [], R, g, _, _, _, hg => ⟨g, rfl, by rw [List.append_nil]; exact hg⟩
  | α :: A, R, g, hA, ho, hs, hg => by
    have hα := hA α (by simp)
    have hoR : R.Pairwise before := (List.pairwise_append.mp ho).1
    have hbef : ∀ v ∈ R, before v α := fun v hv => (List.pairwise_append.mp ho).2.2 v hv α (by simp)
    have hnew : α ∉ R := fun hm => before_ne (hbef α hm) rfl
    have H : NewRoot cs h l R α := ⟨hl, hα.1, hα.2, hnew, hg.pos, hoR, hg.lev_le, hg.complete,
      fun e i he => hs e R.length (by simp) i (by simp [he]), hb.level, hb.count R (order_nodup hoR) hg.pos⟩
    obtain ⟨fd, hd1, hd2⟩ := hg.desc
    obtain ⟨fa, ha1, ha2⟩ := hg.asc
    obtain ⟨fl, hl1, hl2⟩ := hg.link
    have hlen : g.roots.length = R.length := by rw [hg.roots, List.length_map]
    have hI : IInv cs h l R α 0 { g with roots := g.roots ++ [enc α], desc := g.desc ++ [List.replicate 32 false], asc := g.asc ++ [List.replicate 32 false], link := g.link ++ [List.replicate rk undef] } := by
      refine ⟨?_, ⟨_, by rw [hd1, tab_append], ?_, ?_⟩, ⟨_, by rw [ha1, tab_append], ?_, ?_⟩, ⟨_, by rw [hl1, tab_append], ?_, ?_⟩, hg.first, hg.levels.1, ?_⟩
      · rw [hg.roots, List.map_append]; rfl
      · intro j hj k
        rw [if_neg (by omega)]
        exact hd2 j hj k
      · intro m
        simp
      · intro j hj k
        rw [if_neg (by omega)]
        exact ha2 j hj k
      · intro m
        simp
      · intro j hj i
        rw [if_neg (by omega), if_neg (by omega)]
        exact hl2 j hj i
      · intro i
        rw [if_pos rfl, if_neg (by omega)]
      · intro m h1 h2
        obtain ⟨s, h3, h4, h5⟩ := hg.levels.2 m h1 h2
        refine ⟨s, h3, h4, fun x => ?_⟩
        rw [h5]
        simp [Cand]
    obtain ⟨g1, h1, h2⟩ := genInner_ok nd hb.rank H rk 0 (by omega) hI
    have hG : GInv cs h l (R ++ [α]) g1 := by
      obtain ⟨fd, hd1, hd2, hd3⟩ := h2.desc
      obtain ⟨fa, ha1, ha2, ha3⟩ := h2.asc
      obtain ⟨fl, hl1, hl2, hl3⟩ := h2.link
      have hlen' : (R ++ [α]).length = R.length + 1 := by simp
      refine ⟨?_, ?_, ?_, ?_, h2.roots, ⟨fd, by rw [hd1, hlen'], ?_⟩, ⟨fa, by rw [ha1, hlen'], ?_⟩, ⟨fl, by rw [hl1, hlen'], ?_⟩, ⟨h2.first.1, ?_⟩, h2.levels.1, ?_⟩
      · intro v hv
        rcases List.mem_append.mp hv with hv | hv
        · exact hg.pos v hv
        · rw [List.mem_singleton.mp hv]; exact hα.1
      · rw [List.pairwise_append]
        refine ⟨hoR, by simp, fun v hv w hw => ?_⟩
        rw [List.mem_singleton.mp hw]
        exact hbef v hv
      · intro v hv
        rcases List.mem_append.mp hv with hv | hv
        · exact hg.lev_le v hv
        · rw [List.mem_singleton.mp hv, hα.2]
      · intro v hv hlv
        exact List.mem_append_left _ (hg.complete v hv hlv)
      · refine getElem_append_cases (P := fun j v => ∀ k, fd j k = true ↔ ∃ hk : k < rk, 0 < pairing C ⟨k, hk⟩ v) hd2 fun k => ?_
        rw [hd3]
        exact ⟨fun hx => hx.2, fun hx => ⟨hx.1, hx⟩⟩
      · refine getElem_append_cases (P := fun j v => ∀ k, fa j k = true ↔ ∃ hk : k < rk, pairing C ⟨k, hk⟩ v < 0) ha2 fun k => ?_
        rw [ha3]
        exact ⟨fun hx => hx.2, fun hx => ⟨hx.1, hx⟩⟩
      · refine getElem_append_cases (P := fun j v => ∀ i : Fin rk, fl j i = linkVal C (R ++ [α]) v i) ?_ fun i => ?_
        · intro j hj i
          rw [hl2 j hj i, if_pos i.2]
        · rw [hl3 i, if_pos i.2]
      · intro k h3 h4
        obtain ⟨f, h5, h6, h7⟩ := h2.first.2 k h3 h4
        refine ⟨f, h5, by rw [hlen']; omega, getElem_append_cases (P := fun j v => j < f ↔ lev v < k) h7 ?_⟩
        rw [hα.2]
        constructor <;> intro h8 <;> omega
      · intro m h3 h4
        obtain ⟨s, h5, h6, h7⟩ := h2.levels.2 m h3 h4
        refine ⟨s, h5, h6, fun x => ?_⟩
        rw [h7]
        unfold Cand
        refine or_congr_left ⟨?_, ?_⟩
        · rintro ⟨δ, i, h8, h9⟩
          refine ⟨δ, i, ?_, h9⟩
          rcases h8 with h8 | ⟨h8, -⟩
          · exact List.mem_append_left _ h8
          · rw [h8]; simp
        · rintro ⟨δ, i, h8, h9⟩
          refine ⟨δ, i, ?_, h9⟩
          rcases List.mem_append.mp h8 with h8 | h8
          · exact .inl h8
          · exact .inr ⟨List.mem_singleton.mp h8, i.2⟩
    have e : R ++ α :: A = (R ++ [α]) ++ A := by simp
    have key := genLevel_ok nd hb hl A (R ++ [α]) (g := g1) (fun v hv => hA v (by simp [hv])) (by rw [← e]; exact ho)
      (by intro e1 j hj i he; simp only [← e] at he; exact hs e1 j (by rw [e]; exact hj) i he) hG
    obtain ⟨g', h3, h4⟩ := key
    refine ⟨g', ?_, by rw [e]; exact h4⟩
    rw [List.map_cons, genLevel]
    have hll : g.link.length = g.roots.length := by rw [hl1, tab_length, hlen]
    rw [Res.assertIn_bind nd (decide_eq_true hll)]
    rw [hlen, List.range_eq_range']
    refine (congrArg (fun x => x >>= fun g => genLevel nd rk (encM fun j i => C i j) l (A.map enc) g) h1).trans ?_
    rw [Res.ok_bind, h3]

/-- a sorted list of vectors is determined by its elements -/
theorem set_unique {l1 l2 : List BV} (h1 : l1.Pairwise (fun v w => less v w = true)) (h2 : l2.Pairwise (fun v w => less v w = true))
    (he : ∀ x, x ∈ l1 ↔ x ∈ l2) : l1 = l2 := by
  have nd : ∀ {l : List BV}, l.Pairwise (fun v w => less v w = true) → l.Nodup := fun hl => hl.imp fun {a b} hab => by
    rintro rfl
    rw [less_irrefl] at hab
    cases hab
  refine List.Perm.eq_of_pairwise (le := fun v w => less v w = true) (fun a b _ _ h3 h4 => (less_asymm h3 h4).elim) h1 h2 ?_
  exact (List.perm_ext_iff_of_nodup (nd h1) (nd h2)).mpr he

theorem less_root {i j : Fin rk} (hij : i < j) : less (enc (root i : Fin rk → ℤ)) (enc (root j)) = true := by
  refine less_of j ?_ fun k hk => ?_
  · rw [root_apply, root_apply, if_pos rfl, if_neg (by rintro rfl; exact lt_irrefl _ hij)]
    omega
  · rw [root_apply, root_apply, if_neg (by rintro rfl; exact lt_asymm hij hk), if_neg (by rintro rfl; exact lt_irrefl _ hk)]

/-- the state between two levels -/
structure EInv (cs : CoxeterSystem M W) (h : IsCartan C M) (l : Nat) (R : List (Fin rk → ℤ)) (g : Gen) : Prop where
  inv : GInv cs h l R g
  all : ∀ v, PosRoot cs h v → lev v ≤ l → v ∈ R

theorem genLoop_ok [Finite W] (nd : Bool) (hb : Bounds cs h) : ∀ (k l : Nat) (R : List (Fin rk → ℤ)) {g : Gen}, EInv cs h l R g → 4 * rk ≤ l + k → l + 1 < 4 * rk →
    ∃ g' R' l', genLoop nd rk (encM fun j i => C i j) k (l + 1) g = .ok g' ∧ GInv cs h l' R' g' ∧ ∀ v, PosRoot cs h v → v ∈ R'
  | 0, l, R, g, hg, h1, h2 => by omega
  | k + 1, l, R, g, hg, h1, h2 => by
    obtain ⟨s, hs1, hs2, hs3⟩ := hg.inv.levels.2 (l + 1) (by omega) h2
    -- the set at this level
    have hmem : ∀ x, x ∈ s ↔ ∃ v, x = enc v ∧ PosRoot cs h v ∧ lev v = (l + 1 : ℕ) := by
      intro x
      rw [hs3]
      constructor
      · rintro (⟨δ, i, h3, h4, h5, h6⟩ | ⟨h3, i, h4⟩)
        · refine ⟨_, h5, (hg.inv.pos δ h3).refl ?_, h6⟩
          rintro rfl
          rw [pairing_root, h.diag] at h4
          omega
        · exact ⟨_, h4, posRoot_simple i, by rw [lev_root, h3]; rfl⟩
      · rintro ⟨v, h3, h4, h5⟩
        by_cases hl : l + 1 = 1
        · right
          obtain ⟨i, hi⟩ := eq_root_of_lev h4.2 (by rw [h5, hl]; rfl)
          exact ⟨hl, i, by rw [h3, hi]⟩
        · left
          obtain ⟨⟨β', t, hr⟩, hp⟩ := h4
          obtain ⟨i, hi⟩ := hr.exists_descent hp
          have hne : v ≠ root i := by rintro rfl; rw [lev_root] at h5; omega
          have h6 : PosRoot cs h (srefl C i v) := PosRoot.refl ⟨⟨β', t, hr⟩, hp⟩ hne
          refine ⟨srefl C i v, i, hg.all _ h6 ?_, ?_, ?_, ?_⟩
          · rw [lev_srefl, h5]; push_cast; omega
          · rw [pairing_srefl h]; omega
          · rw [srefl_srefl h, h3]
          · rw [srefl_srefl h, h5]
    have hgl : Vec.get g.levels (l + 1) = .ok s := by rw [Vec.get, hs1]
    by_cases hse : s = []
    · refine ⟨g, R, l, ?_, hg.inv, fun v hv => ?_⟩
      · rw [genLoop, hgl, Res.ok_bind, if_pos hse]
      · by_contra hc
        have hlv : (l : ℤ) + 1 ≤ lev v := by
          by_contra hcc
          exact hc (hg.all v hv (by omega))
        obtain ⟨γ, h3, h4⟩ := hv.at_level (l := (l : ℤ) + 1) (by omega) hlv
        have : enc γ ∈ s := (hmem _).mpr ⟨γ, rfl, h3, by rw [h4]; push_cast; rfl⟩
        rw [hse] at this
        cases this
    · obtain ⟨A, hA⟩ : ∃ A : List (Fin rk → ℤ), s = A.map enc := by
        have key : ∀ t : List BV, (∀ x ∈ t, ∃ v : Fin rk → ℤ, x = enc v) → ∃ A : List (Fin rk → ℤ), t = A.map enc := by
          intro t
          induction t with
          | nil => intro _; exact ⟨[], rfl⟩
          | cons x t ih =>
            intro ht
            obtain ⟨v, hv⟩ := ht x (by simp)
            obtain ⟨A, hA⟩ := ih fun y hy => ht y (by simp [hy])
            exact ⟨v :: A, by rw [hv, hA]; rfl⟩
        exact key s fun x hx => by obtain ⟨v, hv, -⟩ := (hmem x).mp hx; exact ⟨v, hv⟩
      have hAm : ∀ v, v ∈ A ↔ PosRoot cs h v ∧ lev v = (l + 1 : ℕ) := by
        intro v
        constructor
        · intro hv
          obtain ⟨w, h3, h4⟩ := (hmem (enc v)).mp (by rw [hA]; exact List.mem_map_of_mem hv)
          rw [enc_inj.mp h3]
          exact h4
        · intro hv
          have := (hmem (enc v)).mpr ⟨v, rfl, hv⟩
          rw [hA, List.mem_map] at this
          obtain ⟨w, h3, h4⟩ := this
          rw [← enc_inj.mp h4]
          exact h3
      have hAs : A.Pairwise fun v w => less (enc v) (enc w) = true := by
        have := hs2.sorted
        rw [hA, List.pairwise_map] at this
        exact this
      have hlt : ∀ v ∈ R, lev v < (l + 1 : ℕ) := fun v hv => by have := hg.inv.lev_le v hv; push_cast; omega
      have hord : (R ++ A).Pairwise before := by
        rw [List.pairwise_append]
        refine ⟨hg.inv.order, ?_, fun v hv w hw => .inl ?_⟩
        · refine List.Pairwise.imp_of_mem (fun hv hw hvw => ?_) hAs
          exact .inr ⟨((hAm _).mp hv).2.trans ((hAm _).mp hw).2.symm, hvw⟩
        · rw [((hAm w).mp hw).2]; exact hlt v hv
      have hG : GInv cs h (l + 1) R { g with first := g.first ++ [g.roots.length] } := by
        have hi := hg.inv
        refine ⟨hi.pos, hi.order, fun v hv => le_of_lt (hlt v hv), fun v hv hl => hg.all v hv (by push_cast at hl; omega), hi.roots, hi.desc, hi.asc, hi.link, ⟨?_, ?_⟩,
          hi.levels.1, fun k h3 h4 => hi.levels.2 k (by omega) h4⟩
        · rw [List.length_append, hi.first.1]; rfl
        · intro k h3 h4
          by_cases hk : k ≤ l
          · obtain ⟨f, h5, h6⟩ := hi.first.2 k h3 hk
            refine ⟨f, ?_, h6⟩
            rw [List.getElem?_append_left (by rw [hi.first.1]; omega), h5]
          · have hk' : k = l + 1 := by omega
            subst hk'
            refine ⟨R.length, ?_, le_refl _, fun j hj => ?_⟩
            · rw [List.getElem?_append_right (by rw [hi.first.1]), hi.first.1, hi.roots]
              simp
            · exact ⟨fun _ => hlt _ (List.getElem_mem hj), fun _ => hj⟩
      have key := genLevel_ok nd hb (l := l + 1) (by omega) A R (fun v hv => (hAm v).mp hv) hord ?_ hG
      · obtain ⟨g1, h3, h4⟩ := key
        have hl4 : l + 2 < 4 * rk := by
          obtain ⟨x, hx⟩ := List.exists_mem_of_ne_nil s hse
          obtain ⟨v, -, hv, hlv⟩ := (hmem x).mp hx
          have := hb.level v hv
          rw [hlv] at this
          push_cast at this
          omega
        have hE : EInv cs h (l + 1) (R ++ A) { g1 with levels := g1.levels.set (l + 1) [] } := by
          refine ⟨⟨h4.pos, h4.order, h4.lev_le, h4.complete, h4.roots, h4.desc, h4.asc, h4.link, h4.first, ?_, ?_⟩, ?_⟩
          · rw [List.length_set]; exact h4.levels.1
          · intro m h5 h6
            obtain ⟨s', h7, h8⟩ := h4.levels.2 m h5 h6
            refine ⟨s', ?_, h8⟩
            simp only []
            rw [List.getElem?_set_ne (by omega), h7]
          · intro v hv hlv
            by_cases hlv' : lev v = (l + 1 : ℕ)
            · exact List.mem_append_right _ ((hAm v).mpr ⟨hv, hlv'⟩)
            · exact List.mem_append_left _ (hg.all v hv (by push_cast at *; omega))
        have key := genLoop_ok nd hb k (l + 1) (R ++ A) hE (by omega) (by omega)
        obtain ⟨g', R', l', h5, h6, h7⟩ := key
        refine ⟨g', R', l', ?_, h6, h7⟩
        have hbind : genLoop nd rk (encM fun j i => C i j) (k + 1) (l + 1) g = (do
            let g ← genLevel nd rk (encM fun j i => C i j) (l + 1) s { g with first := g.first ++ [g.roots.length] }
            genLoop nd rk (encM fun j i => C i j) k (l + 1 + 1) { g with levels := ← Vec.put g.levels (l + 1) [] }) := by
          rw [genLoop, hgl, Res.ok_bind, if_neg hse]
        rw [hbind, hA, h3, Res.ok_bind, Vec.put_ok (by rw [h4.levels.1]; omega), Res.ok_bind, h5]
      · -- simple roots come in order
        intro hl1 j hj i he
        have hl0 : l = 0 := by omega
        subst hl0
        have hR : R = [] := by
          rw [List.eq_nil_iff_forall_not_mem]
          intro v hv
          have h3 := hg.inv.lev_le v hv
          have h4 := (hg.inv.pos v hv).lev_pos
          push_cast at h3
          omega
        subst hR
        have hAe : A.map enc = (List.finRange rk).map fun i => enc (root i) := by
          apply set_unique
          · rw [List.pairwise_map]; exact hAs
          · rw [List.pairwise_map]
            exact (List.pairwise_lt_finRange rk).imp fun hab => less_root hab
          · intro x
            rw [← hA, hmem]
            constructor
            · rintro ⟨v, h3, h4, h5⟩
              obtain ⟨i, hi⟩ := eq_root_of_lev h4.2 (by rw [h5]; rfl)
              exact List.mem_map.mpr ⟨i, List.mem_finRange i, by rw [h3, hi]⟩
            · intro hx
              obtain ⟨i, -, hi⟩ := List.mem_map.mp hx
              exact ⟨root i, hi.symm, posRoot_simple i, by rw [lev_root]; rfl⟩
        have hAr : A = (List.finRange rk).map root := by
          have : ((List.finRange rk).map fun i : Fin rk => enc (root i : Fin rk → ℤ)) = ((List.finRange rk).map root).map enc := by
            rw [List.map_map]; rfl
          rw [this] at hAe
          exact List.map_injective_iff.mpr (fun v w e => enc_inj.mp e) hAe
        subst hAr
        simp only [List.nil_append, List.getElem_map, List.getElem_finRange] at he
        have := congrFun he i
        rw [root_apply, root_apply, if_pos rfl] at this
        by_contra hne
        rw [if_neg (by intro e; exact hne (by rw [e]; rfl))] at this
        omega

theorem initLoop_ok : ∀ (d k : Nat), k + d = rk → ∀ {lv : List (List BV)}, lv.length = 4 * rk → (∀ m, 1 < m → m < 4 * rk → lv[m]? = some []) →
    (∃ s, lv[1]? = some s ∧ IsSet rk s ∧ ∀ x, x ∈ s ↔ ∃ i : Fin rk, i.1 < k ∧ x = enc (root i : Fin rk → ℤ)) →
    ∃ lv', initLoop rk (List.range' k d) lv = .ok lv' ∧ lv'.length = 4 * rk ∧ (∀ m, 1 < m → m < 4 * rk → lv'[m]? = some []) ∧
      ∃ s, lv'[1]? = some s ∧ IsSet rk s ∧ ∀ x, x ∈ s ↔ ∃ i : Fin rk, x = enc (root i : Fin rk → ℤ)
  | 0, k, hk, lv, h1, h2, ⟨s, h3, h4, h5⟩ => by
    refine ⟨lv, rfl, h1, h2, s, h3, h4, fun x => ?_⟩
    rw [h5]
    exact ⟨fun ⟨i, _, e⟩ => ⟨i, e⟩, fun ⟨i, e⟩ => ⟨i, by have := i.2; omega, e⟩⟩
  | d + 1, k, hk, lv, h1, h2, ⟨s, h3, h4, h5⟩ => by
    have hkr : k < rk := by omega
    have hu : unitVec rk k = enc (root (⟨k, hkr⟩ : Fin rk)) := unitVec_eq ⟨k, hkr⟩
    have key := initLoop_ok d (k + 1) (by omega) (lv := lv.set 1 (insert (unitVec rk k) s)) (by rw [List.length_set, h1]) ?_ ?_
    · obtain ⟨lv', h6⟩ := key
      refine ⟨lv', ?_, h6.2⟩
      rw [List.range'_succ, initLoop, show Vec.get lv 1 = .ok s by rw [Vec.get, h3], Res.ok_bind, Vec.put_ok (by omega), Res.ok_bind]
      exact h6.1
    · intro m h6 h7
      rw [List.getElem?_set_ne (by omega), h2 m h6 h7]
    · refine ⟨insert (unitVec rk k) s, ?_, insert_set (by rw [hu, enc_length]) h4, fun x => ?_⟩
      · rw [List.getElem?_set_self (by omega)]
      · rw [mem_insert (by rw [hu, enc_length]) h4, h5, hu]
        constructor
        · rintro (e | ⟨i, hi, e⟩)
          · exact ⟨_, by simp, e⟩
          · exact ⟨i, by omega, e⟩
        · rintro ⟨i, hi, e⟩
          by_cases hik : i.1 = k
          · left
            rw [e]
            congr 2
            ext
            exact hik
          · exact .inr ⟨i, by omega, e⟩

/-- The generation phase finds all positive roots. -/
theorem generate_ok [Finite W] (nd : Bool) (h0 : 0 < rk) (hb : Bounds cs h) :
    ∃ g R l, generate nd rk (encM fun j i => C i j) = .ok g ∧ GInv cs h l R g ∧ ∀ v, PosRoot cs h v → v ∈ R := by
  have key := initLoop_ok (rk := rk) rk 0 (by omega) (lv := List.replicate (4 * rk) []) (by simp) ?_ ?_
  · obtain ⟨lv, h1, h2, h3, s, h4, h5, h6⟩ := key
    have hE : EInv cs h 0 [] ⟨[], [], [], [], [0], lv⟩ := by
      refine ⟨⟨by simp, by simp, by simp, ?_, rfl, ⟨fun _ _ => false, rfl, by simp⟩, ⟨fun _ _ => false, rfl, by simp⟩, ⟨fun _ _ => 0, rfl, by simp⟩, ⟨rfl, ?_⟩, h2, ?_⟩, ?_⟩
      · intro v hv hl
        have := hv.lev_pos
        push_cast at hl
        omega
      · intro k h7 h8; omega
      · intro k h7 h8
        by_cases hk : k = 1
        · subst hk
          refine ⟨s, h4, h5, fun x => ?_⟩
          rw [h6]
          simp [Cand]
        · refine ⟨[], h3 k (by omega) h8, isSet_nil rk, fun x => ?_⟩
          simp [Cand, hk]
      · intro v hv hl
        have := hv.lev_pos
        push_cast at hl
        omega
    obtain ⟨g', R', l', h7, h8, h9⟩ := genLoop_ok nd hb (4 * rk + 1) 0 [] hE (by omega) (by omega)
    refine ⟨g', R', l', ?_, h8, h9⟩
    rw [generate, List.range_eq_range', h1, Res.ok_bind]
    exact h7
  · intro m h1 h2
    rw [List.getElem?_replicate_of_lt h2]
  · exact ⟨[], by rw [List.getElem?_replicate_of_lt (by omega)], isSet_nil rk, by simp⟩

end

end Verif.Root
